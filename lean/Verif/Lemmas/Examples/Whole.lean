import Verif.Props.Optimizer
import Verif.Lemmas.Back.Total
import Verif.Lemmas.Back.LlvmReady
/-!
What constant folding and dead code elimination leave can be written.
-/
namespace Koopa
open Spec ConstFold

/-- Elements of aggregates are constants of the function, and no instruction mentions a global constant. -/
structure ConstFold.Whole (p : Program) (f : Func) : Prop where
  elems : ∀ v t m es, p.view.l f v = some (t, m, .aggregate es) → ∀ e ∈ es, ∃ t' m' k, p.view.l f e = some (t', m', k) ∧ k.isConst = true
  globals : ∀ v t m k, p.view.l f v = some (t, m, k) → ∀ o ∈ operands k, ∀ t' m' k', p.view.g o = some (t', m', k') → k'.isConst = false

theorem sayable_global {p : Program} {fd : FData} {v : Value} {x : VData} (h : Sayable p fd v) (hg : isGlobal v = true) (hx : p.values.get? v = some x) :
    x.kind.isConst = false := by
  obtain ⟨ps, hps⟩ := h true
  unfold BackLlvm.value at hps
  rw [if_pos hg, hx] at hps
  cases hk : x.kind.isConst with
  | false => rfl
  | true =>
    simp only [namePiece, hk, if_true] at hps
    cases hps

theorem Accepted.whole {w : World} {input : Str} {p : Program} (h : Accepted w input p) (f : Func) : Whole p f := by
  obtain ⟨gs, hg, -⟩ := C47_program_is_text h
  obtain ⟨vars, fns, A⟩ := h.fromText hg
  obtain ⟨ts, -, hgp⟩ := hg
  have hgood := GProg.good hgp
  have helems : ∀ v x, LocalVal p f v x → x.kind.isConst = true → ∀ e ∈ operands x.kind, ∃ y, LocalVal p f e y ∧ y.kind.isConst = true := by
    rintro v x hx hk e he
    obtain ⟨fd, hf, hx'⟩ := hx
    obtain ⟨h1, _, _, _, _, _, _, _, _, hgv, hF⟩ := A.usedGood (A.usedLocal ⟨fd, hf, hx'⟩) f fd rfl hf
    rcases h1 with ⟨x', i, hx2, hk'⟩ | ⟨b, is, hm, hu'⟩ | ⟨a, t, hc⟩
    · cases localVal_unique ⟨fd, hf, hx'⟩ hx2
      rcases hk' with h | h <;> rw [h] at hk <;> cases hk
    · obtain ⟨x', nm, st, hx2, hs⟩ := FunIs_listed hF hm hu'
      cases localVal_unique ⟨fd, hf, hx'⟩ hx2
      rw [listedKind_const (stmt_kind hs)] at hk; cases hk
    · obtain ⟨t', k, ⟨x', hx2, _, rfl⟩, -, -, -, h5⟩ := const_cases hc
      cases localVal_unique ⟨fd, hf, hx'⟩ hx2
      obtain ⟨a, t, hc⟩ := h5 e he
      obtain ⟨t', k, ⟨y, hy, _, rfl⟩, hk2, -⟩ := const_cases hc
      exact ⟨y, hy, hk2⟩
  refine ⟨?_, ?_⟩
  · intro v t m es hv e he
    obtain ⟨x, hx, ex⟩ := view_l_iff.1 hv
    have hk : x.kind = .aggregate es := congrArg (·.2.2) ex
    obtain ⟨y, hy, hyk⟩ := helems v x hx (by rw [hk]; rfl) e (by rw [hk]; exact he)
    exact ⟨_, _, _, view_l_iff.2 ⟨y, hy, rfl⟩, hyk⟩
  · intro v t m k hv o ho t' m' k' hgo
    obtain ⟨x, ⟨fd, hf, hx⟩, ex⟩ := view_l_iff.1 hv
    have hk : x.kind = k := congrArg (·.2.2) ex
    obtain ⟨z, hz, ez⟩ := view_g_iff.1 hgo
    have hzk : z.kind = k' := congrArg (·.2.2) ez
    rw [← hk] at ho
    rw [← hzk]
    rcases A.localCases hf hx with ⟨i, hi | hi⟩ | ⟨b, is, hb, hvi⟩ | hc
    · rw [hi] at ho; cases ho
    · rw [hi] at ho; cases ho
    · obtain ⟨d, hd, -, hs⟩ := A.listed_inst hgood hf hb hvi
      rw [hx] at hd; cases hd
      exact sayable_global (hs o ho) (A.isGlobal hz) hz
    · obtain ⟨y, hy, -⟩ := helems v x ⟨fd, hf, hx⟩ hc o ho
      have := A.isLocal hy
      rw [A.isGlobal hz] at this; cases this

theorem ConstFold.kindOf_const (ans : Option I32) : (ConstFold.kindOf ans).isConst = true ∧ operands (ConstFold.kindOf ans) = [] ∧ ∀ es, ConstFold.kindOf ans ≠ .aggregate es := by
  cases ans with
  | none => exact ⟨rfl, rfl, fun es h => by simp only [ConstFold.kindOf] at h; cases h⟩
  | some n => exact ⟨rfl, rfl, fun es h => by simp only [ConstFold.kindOf] at h; cases h⟩

theorem ConstFold.Light.whole {p p' : Program} (h : Light p p') {f : Func} (hW : Whole p f) : Whole p' f := by
  refine ⟨?_, ?_⟩
  · intro v t m es hv e he
    rcases h.l f v with e1 | ⟨t', n, op, a, c, ans, -, e1, -⟩
    · obtain ⟨t', m', k, h1, h2⟩ := hW.elems v t m es (by rw [← e1]; exact hv) e he
      rcases h.l f e with e2 | ⟨_, _, _, _, _, ans, -, e2, -⟩
      · exact ⟨t', m', k, by rw [e2]; exact h1, h2⟩
      · exact ⟨_, _, _, e2, (kindOf_const ans).1⟩
    · rw [hv] at e1
      exact absurd (congrArg (·.2.2) (Option.some.inj e1)).symm ((kindOf_const ans).2.2 es)
  · intro v t m k hv o ho t' m' k' hgo
    rw [h.rest.1] at hgo
    rcases h.l f v with e1 | ⟨_, n, op, a, c, ans, -, e1, -⟩
    · exact hW.globals v t m k (by rw [← e1]; exact hv) o ho t' m' k' hgo
    · rw [hv] at e1
      have : k = ConstFold.kindOf ans := congrArg (·.2.2) (Option.some.inj e1)
      rw [this, (kindOf_const ans).2.1] at ho
      cases ho

theorem ConstFold.Mid.whole {p q : Program} {f : Func} {fd : FData} {E : List (BB × Nat × VData)} (hi : CInv p) (hF : Foldable p f)
    (hf : p.funcs.get? f = some fd) (hS : Sound p f fd E) (hM : Mid p q f E) {g : Func} (hW : Whole p g) : Whole q g := by
  have hG : q.view.g = p.view.g := by rw [hM.rest]
  by_cases e : g = f
  · subst e
    refine ⟨?_, ?_⟩
    · intro v t m es hv e he
      obtain ⟨w, hw⟩ := hM.kindsKept hf hS hv
      obtain ⟨t', m', k, h1, h2⟩ := hW.elems w t m es hw e he
      obtain ⟨n', k', h3, h4⟩ := hM.typesKept hi hF hf hS h1
      refine ⟨t', n', k', h3, ?_⟩
      rcases h4 with ⟨-, rfl⟩ | ⟨h4, -⟩
      · exact h2
      · exact h4
    · intro v t m k hv o ho t' m' k' hgo
      obtain ⟨w, hw⟩ := hM.kindsKept hf hS hv
      rw [hG] at hgo
      exact hW.globals w t m k hw o ho t' m' k' hgo
  · have hl : ∀ v, q.view.l g v = p.view.l g v := fun v => hM.otherL g v e
    refine ⟨?_, ?_⟩
    · intro v t m es hv e he
      rw [hl] at hv
      obtain ⟨t', m', k, h1, h2⟩ := hW.elems v t m es hv e he
      exact ⟨t', m', k, by rw [hl]; exact h1, h2⟩
    · intro v t m k hv o ho t' m' k' hgo
      rw [hl] at hv
      rw [hG] at hgo
      exact hW.globals v t m k hv o ho t' m' k' hgo

theorem ConstFold.FoldPasses_whole {w : World} {input : Str} {p p' : Program} {chk : Bool} (ha : Accepted w input p) (h : FoldPasses chk p p') :
    (∀ g, Whole p' g) ∧ p'.view.head = p.view.head ∧ p'.view.g = p.view.g ∧ p'.view.insts = p.view.insts ∧ p'.view.fns = p.view.fns := by
  induction h with
  | refl => exact ⟨ha.whole, rfl, rfl, rfl, rfl⟩
  | @step _ p2 f _ _ _ _ _ h0 hb hus h ih =>
    obtain ⟨h1, h2, h3, -, -⟩ := FoldPasses_spec ha h0
    obtain ⟨i1, i2, i3, i4, i5⟩ := ih
    unfold runOn at h
    split at h
    · cases h
    · rename_i p1 hp1
      obtain ⟨k1, -, -, k4⟩ := foldLoop_spec h1 (h2 _) hp1
      have hF := k4.foldable (h3 f)
      obtain ⟨fd, E, hf, hS, hM, -, -⟩ := evalBbParams_mid k1 hF (hb p1) hus h
      refine ⟨fun g => hM.whole k1 hF hf hS (k4.whole (i1 g)), ?_, ?_, ?_, ?_⟩
      · rw [hM.rest]; exact k4.head.trans i2
      · rw [hM.rest]; exact k4.rest.1.trans i3
      · rw [hM.rest]; exact k4.rest.2.1.trans i4
      · rw [hM.rest]; exact k4.rest.2.2.trans i5

/-- What looks alike is as constant. -/
theorem constant_alike {get get' : Value → Option VData} (h : ∀ v x, get v = some x → ∃ x', get' v = some x' ∧ x'.kind = x.kind) {v : Value}
    (hc : Constant get v) : Constant get' v := by
  induction hc with
  | int h1 h2 => obtain ⟨x', h3, h4⟩ := h _ _ h1; exact .int h3 (by rw [h4]; exact h2)
  | undef h1 h2 => obtain ⟨x', h3, h4⟩ := h _ _ h1; exact .undef h3 (by rw [h4]; exact h2)
  | zero h1 h2 => obtain ⟨x', h3, h4⟩ := h _ _ h1; exact .zero h3 (by rw [h4]; exact h2)
  | agg h1 h2 _ ih => obtain ⟨x', h3, h4⟩ := h _ _ h1; exact .agg h3 (by rw [h4]; exact h2) ih

theorem CInv.isLocal {p : Program} (hi : CInv p) {f : Func} {v : Value} {x : VData} (h : LocalVal p f v x) : isGlobal v = false := by
  obtain ⟨fd, h1, h2⟩ := h
  exact ConstFold.CInv.local_not_global hi h1 (by rw [h2]; rfl)

theorem CInv.isGlobal {p : Program} (hi : CInv p) {v : Value} {x : VData} (h : GlobalVal p v x) : Koopa.isGlobal v = true := by
  have h1 := hi.inv.gRange v x h
  have h2 := hi.max
  unfold Koopa.isGlobal
  simp only [Bool.and_eq_true, decide_eq_true_eq]
  omega

theorem ConstFold.Whole.constant {p : Program} {f : Func} (hi : CInv p) (hW : Whole p f) {get : Value → Option VData}
    (hget : ∀ v x, LocalVal p f v x → x.kind.isConst = true → ∃ x', get v = some x' ∧ x'.kind = x.kind) :
    ∀ (n : Nat) (v : Value) (x : VData), sizeOf x.ty ≤ n → LocalVal p f v x → x.kind.isConst = true → Constant get v
  | n, v, x, hn, hx, hk => by
    obtain ⟨x', h1, h2⟩ := hget v x hx hk
    have hT := hi.wellTyped.locals f v x hx
    cases hkk : x.kind <;> rw [hkk] at hk <;> try (cases hk; done)
    case integer => exact .int h1 (by rw [h2, hkk])
    case zeroInit => exact .zero h1 (by rw [h2, hkk])
    case undef => exact .undef h1 (by rw [h2, hkk])
    case aggregate es =>
      refine .agg h1 (by rw [h2, hkk]) (fun e he => ?_)
      obtain ⟨t', m', k, h3, h4⟩ := hW.elems v x.ty x.name es (by rw [← hkk]; exact view_l_iff.2 ⟨x, hx, rfl⟩) e he
      obtain ⟨y, hy, ey⟩ := view_l_iff.1 h3
      have hyk : y.kind = k := congrArg (·.2.2) ey
      rw [hkk] at hT
      generalize hty : x.ty = T at hT
      cases hT with
      | @aggregate _ t _ _ hes =>
        obtain ⟨z, hz | hz, rfl⟩ := hes e he
        · have := hi.isLocal hy
          rw [hi.isGlobal hz] at this; cases this
        · cases localVal_unique hy hz
          have hsz : sizeOf x.ty = sizeOf (Ty.array y.ty es.length) := by rw [hty]
          simp only [Ty.array.sizeOf_spec] at hsz
          match n, hn with
          | 0, hn => omega
          | n + 1, hn => exact constant hi hW hget n e y (by omega) hy (by rw [hyk]; exact h4)

end Koopa
