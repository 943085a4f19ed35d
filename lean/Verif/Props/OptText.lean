import Verif.Lemmas.Examples.Whole
import Verif.Props.RoundTrip
/-!
C65: writing what the example optimizer leaves.
-/
namespace Koopa
open Spec ConstFold

/-- Function `f` of `p'` is what remains of function `f` of `p`. -/
structure Opt.Remains (p p' : Program) (f : Func) : Prop where
  fn : ∃ fd fd', p.funcs.get? f = some fd ∧ p'.funcs.get? f = some fd' ∧ fd'.ty = fd.ty ∧ fd'.params = fd.params ∧
    ∀ b is', (b, is') ∈ fd'.layout.bbs → ∃ is, (b, is) ∈ fd.layout.bbs ∧ ∀ v ∈ is', v ∈ is ∧ ∃ x', LocalVal p' f v x'
  kept : ∀ v x', LocalVal p' f v x' → ∃ x, LocalVal p f v x ∧ x'.ty = x.ty ∧ Trimmed x.kind x'.kind
  stays : ∀ v x, LocalVal p f v x → computes x.kind = false → (∀ i, x.kind ≠ .blockArgRef i) → ∃ x', LocalVal p' f v x'
  closed : ∀ u o, LocalUse p' f u o → (∃ x, LocalVal p' f o x) ∨ ∃ x, GlobalVal p' o x
  blocks : ∀ b x, Block p f b x → ∃ x', Block p' f b x' ∧ ∀ v ∈ x'.params, v ∈ x.params ∧ ∃ y, LocalVal p' f v y

theorem Opt.Remains.refl {p : Program} (hi : CInv p) {f : Func} {fd : FData} (hf : p.funcs.get? f = some fd) (hF : Foldable p f) : Remains p p f := by
  refine ⟨⟨fd, fd, hf, hf, rfl, rfl, fun b is hb => ⟨is, hb, fun v hv => ⟨hv, ?_⟩⟩⟩, fun v x hx => ⟨x, hx, rfl, .same _⟩, fun v x hx _ _ => ⟨x, hx⟩,
    fun u o h => (hi.inv.closedL f u o h).symm, fun b x hb => ⟨x, hb, fun v hv => ⟨hv, ?_⟩⟩⟩
  · have h1 := ((hi.lays f fd.layout (by show (p.funcs.get? f).map _ = _; rw [hf]; rfl)).2 b is hb).2 v hv
    obtain ⟨s, hs⟩ := Option.isSome_iff_exists.1 h1
    obtain ⟨x, hx, -⟩ := view_l_iff.1 hs
    exact ⟨x, hx⟩
  · obtain ⟨t, m, i, e⟩ := hF.params b x.name x.params (view_b_iff.2 ⟨x, hb, rfl, rfl⟩) v hv
    obtain ⟨y, hy, -⟩ := view_l_iff.1 e
    exact ⟨y, hy⟩

theorem Spec.Cleaned.remains {p p' : Program} {f : Func} (hi : CInv p) (hF : Foldable p f) (hO : OnlyInsts p f) (hg : p'.view.g = p.view.g)
    (h : Cleaned p p' f) : Opt.Remains p p' f := by
  obtain ⟨fd, fd', keep, h1, h2, h3, -, h5, h6, h7⟩ := h.layout
  refine ⟨⟨fd, fd', h1, h2, h3, h5, ?_⟩, ?_, ?_, h.closed, ?_⟩
  · intro b is' hb
    rw [h6] at hb
    obtain ⟨⟨b0, is⟩, hm, e⟩ := List.mem_map.1 hb
    simp only [Prod.mk.injEq] at e
    obtain ⟨rfl, rfl⟩ := e
    refine ⟨is, hm, fun v hv => ?_⟩
    obtain ⟨hv1, hv2⟩ := List.mem_filter.1 hv
    refine ⟨hv1, ?_⟩
    obtain ⟨t, m, k, e, hk⟩ := hO fd.layout b0 is v (by show (p.funcs.get? f).map _ = _; rw [h1]; rfl) hm hv1
    obtain ⟨x, hx, ex⟩ := view_l_iff.1 e
    have hkx : x.kind = k := congrArg (·.2.2) ex
    apply Classical.byContradiction
    intro hno
    rcases h.removed v x hx (fun x' hx' => hno ⟨x', hx'⟩) with ⟨-, h8⟩ | ⟨i, h8⟩
    · exact h8 ((h7 b0 is v hm hv1).1 hv2)
    · rw [← hkx, h8] at hk; cases hk
  · intro v x' hx'
    obtain ⟨x, hx, e1, -, e2⟩ := h.kept v x' hx'
    exact ⟨x, hx, e1, e2⟩
  · intro v x hx hc hb
    apply Classical.byContradiction
    intro hno
    rcases h.removed v x hx (fun x' hx' => hno ⟨x', hx'⟩) with ⟨h8, -⟩ | ⟨i, h8⟩
    · rw [hc] at h8; cases h8
    · exact hb i h8
  · intro b x hb
    obtain ⟨x', hx', -, hs, -⟩ := h.blocks b x hb
    refine ⟨x', hx', fun v hv => ⟨hs.subset hv, ?_⟩⟩
    obtain ⟨u, hu⟩ := h.used b x' hx' v hv
    rcases h.closed u v hu with h8 | ⟨z, hz⟩
    · exact h8
    · exfalso
      obtain ⟨t, m, i, e⟩ := hF.params b x.name x.params (view_b_iff.2 ⟨x, hb, rfl, rfl⟩) v (hs.subset hv)
      obtain ⟨y, hy, -⟩ := view_l_iff.1 e
      have h9 : p.view.g v = some z.shape := by rw [← hg]; exact view_g_iff.2 ⟨z, hz, rfl⟩
      obtain ⟨z', hz', -⟩ := view_g_iff.1 h9
      have := hi.isLocal hy
      rw [hi.isGlobal hz'] at this; cases this

theorem Spec.Trimmed.targets {a b : VKind} (h : Trimmed a b) : Spec.targets b = Spec.targets a := by cases h <;> rfl
theorem Spec.Trimmed.inst {a b : VKind} (h : Trimmed a b) : b.isLocalInst = a.isLocalInst := by cases h <;> rfl
theorem Spec.Trimmed.const {a b : VKind} (h : Trimmed a b) (hb : b.isConst = true ∨ a.isConst = true) : b = a := by
  cases h with
  | same => rfl
  | branch => rcases hb with h | h <;> cases h
  | jump => rcases hb with h | h <;> cases h

/-- What remains of a program can be written. -/
theorem Opt.remains_present {p p' : Program} (hi : CInv p) (hF : ∀ g, Foldable p g) (hO : ∀ g, OnlyInsts p g) (hP : ∀ g, ParamsProper p g) (hW : ∀ g, Whole p g)
    (hty : ∀ f fd, p.funcs.get? f = some fd → ∃ ts r, fd.ty = .func ts r)
    (hgl : ∀ v ∈ p.instLayout, ∃ x i, p.values.get? v = some x ∧ x.kind = .globalAlloc i ∧ Constant p.values.get? i)
    (hR : ∀ f fd, p.funcs.get? f = some fd → Remains p p' f) (hg : p'.view.g = p.view.g) (hin : p'.view.insts = p.view.insts)
    (hfn : p'.view.fns = p.view.fns) : AllPresent p' := by
  have hG : ∀ v x, p.values.get? v = some x → ∃ x', p'.values.get? v = some x' ∧ x'.kind = x.kind := by
    intro v x hx
    have h1 : p'.view.g v = some x.shape := by rw [hg]; exact view_g_iff.2 ⟨x, hx, rfl⟩
    obtain ⟨x', hx', e⟩ := view_g_iff.1 h1
    exact ⟨x', hx', congrArg (·.2.2) e⟩
  have hG' : ∀ v x', p'.values.get? v = some x' → ∃ x, p.values.get? v = some x ∧ x'.kind = x.kind := by
    intro v x hx
    have h1 : p.view.g v = some x.shape := by rw [← hg]; exact view_g_iff.2 ⟨x, hx, rfl⟩
    obtain ⟨x', hx', e⟩ := view_g_iff.1 h1
    exact ⟨x', hx', (congrArg (·.2.2) e).symm⟩
  refine ⟨?_, ?_⟩
  · intro v hv
    rw [show p'.instLayout = p.instLayout from hin] at hv
    obtain ⟨x, i, h1, h2, h3⟩ := hgl v hv
    obtain ⟨x', h4, h5⟩ := hG v x h1
    exact ⟨x', i, h4, by rw [h5, h2], constant_alike hG h3⟩
  · intro f hf
    rw [show p'.funcLayout = p.funcLayout from hfn] at hf
    obtain ⟨fd0, hf0⟩ := ((C42_program_layouts (hi.reach.mono (fun _ _ _ => trivial))).1 f).1 hf
    have hRf := hR f fd0 hf0
    obtain ⟨fd, fd', h1, h2, h3, h4, h5⟩ := hRf.fn
    refine ⟨fd', h2, ?_⟩
    have hnc : ∀ {x : VData}, x.kind.isConst = true → computes x.kind = false ∧ ∀ i, x.kind ≠ .blockArgRef i := by
      intro x hx
      cases hk : x.kind <;> rw [hk] at hx <;> first | (cases hx; done) | exact ⟨rfl, fun i h => by cases h⟩
    have hconst : ∀ v x, LocalVal p f v x → x.kind.isConst = true → Constant fd'.dfg.values.get? v := by
      intro v x hx hk
      refine (hW f).constant hi (get := fd'.dfg.values.get?) ?_ (sizeOf x.ty) v x (Nat.le_refl _) hx hk
      intro v x hx hk
      obtain ⟨x', hx'⟩ := hRf.stays v x hx (hnc hk).1 (hnc hk).2
      obtain ⟨y, hy, -, ht⟩ := hRf.kept v x' hx'
      cases localVal_unique hx hy
      exact ⟨x', local_get h2 hx', ht.const (.inr hk)⟩
    have hparam : ∀ v x, LocalVal p f v x → IsParam x.kind → (∃ x', LocalVal p' f v x') → ParamPresent fd' v := by
      rintro v x hx hk ⟨x', hx'⟩
      obtain ⟨y, hy, -, ht⟩ := hRf.kept v x' hx'
      cases localVal_unique hx hy
      refine ⟨x', local_get h2 hx', ?_⟩
      cases hc : x'.kind.isConst with
      | false => rfl
      | true =>
        rw [ht.const (.inl hc)] at hc
        rcases hk with ⟨i, hk⟩ | ⟨i, hk⟩ <;> rw [hk] at hc <;> cases hc
    refine ⟨?_, ?_, ?_⟩
    · rw [h3]; exact hty f fd h1
    · intro v hv
      rw [h4] at hv
      have hhead : p.view.head f = some (fd.ty, fd.name, fd.params) := by show (p.funcs.get? f).map _ = _; rw [h1]; rfl
      obtain ⟨t, m, k, e, hk⟩ := (hF f).args _ _ _ hhead v hv
      obtain ⟨x, hx, ex⟩ := view_l_iff.1 e
      have hxk : x.kind = k := congrArg (·.2.2) ex
      have hp : IsParam x.kind := (hP f).1 _ _ _ hhead v hv x.shape (view_l_iff.2 ⟨x, hx, rfl⟩)
      refine hparam v x hx hp (hRf.stays v x hx ?_ (by rw [hxk]; exact hk))
      rcases hp with ⟨i, hp⟩ | ⟨i, hp⟩ <;> rw [hp] <;> rfl
    · intro b is' hb
      obtain ⟨is, hm, hvs⟩ := h5 b is' hb
      have hlay : p.view.lay f = some fd.layout := by show (p.funcs.get? f).map _ = _; rw [h1]; rfl
      have hblk : ∀ {b x}, Block p f b x → ∃ x', fd'.dfg.bbs.get? b = some x' ∧ ∀ v ∈ x'.params, ParamPresent fd' v := by
        intro b x hb
        obtain ⟨x', ⟨fd2, e1, e2⟩, hps⟩ := hRf.blocks b x hb
        rw [h2] at e1; cases e1
        refine ⟨x', e2, fun v hv => ?_⟩
        obtain ⟨hv1, hv2⟩ := hps v hv
        obtain ⟨t, m, i, e⟩ := (hF f).params b x.name x.params (view_b_iff.2 ⟨x, hb, rfl, rfl⟩) v hv1
        obtain ⟨y, hy, ey⟩ := view_l_iff.1 e
        exact hparam v y hy (.inr ⟨i, congrArg (·.2.2) ey⟩) hv2
      obtain ⟨s, hs⟩ := Option.isSome_iff_exists.1 ((hi.lays f _ hlay).2 b is hm).1
      obtain ⟨x, hx, -⟩ := view_b_iff.1 (show p.view.b f b = some (s.1, s.2) from hs)
      obtain ⟨x', e1, e2⟩ := hblk hx
      refine ⟨x', e1, e2, fun v hv => ?_⟩
      obtain ⟨hv1, y', hy'⟩ := hvs v hv
      obtain ⟨y, hy, hyt, htr⟩ := hRf.kept v y' hy'
      obtain ⟨t, m, k, e, hk⟩ := hO f fd.layout b is v hlay hm hv1
      rw [view_l_iff.2 ⟨y, hy, rfl⟩] at e
      have hyk : y.kind = k := congrArg (·.2.2) (Option.some.inj e)
      have hT := hi.wellTyped.locals f v y hy
      refine ⟨y', local_get h2 hy', by rw [htr.inst, hyk]; exact hk, ?_, ?_, ?_, ?_⟩
      · intro ha
        have : y.kind = .alloc := by
          rw [ha] at htr
          generalize y.kind = K at htr
          cases htr; rfl
        rw [this] at hT
        rw [hyt]
        generalize y.ty = T at hT
        cases hT
        exact ⟨_, rfl⟩
      · intro o ho
        rcases hRf.closed v o ⟨y', hy', ho⟩ with ⟨z', hz'⟩ | ⟨z', hz'⟩
        · obtain ⟨z, hz, -, hzt⟩ := hRf.kept o z' hz'
          refine .inr ⟨hi.isLocal hz, z', local_get h2 hz', fun hc => ?_⟩
          rw [hzt.const (.inl hc)] at hc
          exact hconst o z hz hc
        · obtain ⟨z, hz, hzk⟩ := hG' o z' hz'
          refine .inl ⟨hi.isGlobal hz, z', hz', ?_⟩
          rw [hzk]
          exact (hW f).globals v y.ty y.name y.kind (view_l_iff.2 ⟨y, hy, rfl⟩) o (htr.operands o ho) z.ty z.name z.kind (view_g_iff.2 ⟨z, hz, rfl⟩)
      · intro c hc
        rw [htr.targets] at hc
        obtain ⟨x, hx⟩ : ∃ x, Block p f c x := by
          revert hc hT
          generalize y.kind = K
          generalize y.ty = T
          intro hT hc
          cases hT with
          | branch _ h1 h2 =>
            simp only [targets, List.mem_cons, List.not_mem_nil, or_false] at hc
            rcases hc with rfl | rfl
            · obtain ⟨x, hx, -⟩ := h1; exact ⟨x, hx⟩
            · obtain ⟨x, hx, -⟩ := h2; exact ⟨x, hx⟩
          | jump h1 =>
            simp only [targets, List.mem_cons, List.not_mem_nil, or_false] at hc
            subst hc
            obtain ⟨x, hx, -⟩ := h1; exact ⟨x, hx⟩
          | _ => cases hc
        obtain ⟨x', e1, -⟩ := hblk hx
        exact ⟨x', e1⟩
      · intro g args hc
        have : y.kind = .call g args := by
          rw [hc] at htr
          generalize y.kind = K at htr
          cases htr; rfl
        rw [this] at hT
        generalize y.ty = T at hT
        cases hT with
        | call h _ =>
          obtain ⟨gd, hgd, -⟩ := h
          obtain ⟨_, gd', -, e, -⟩ := (hR g gd hgd).fn
          exact ⟨gd', e⟩

theorem Accepted.tops {w : World} {input : Str} {p : Program} (h : Accepted w input p) :
    (∀ f fd, p.funcs.get? f = some fd → ∃ ts r, fd.ty = .func ts r) ∧
    ∀ v ∈ p.instLayout, ∃ x i, p.values.get? v = some x ∧ x.kind = .globalAlloc i ∧ Constant p.values.get? i := by
  obtain ⟨gs, hg, -⟩ := C47_program_is_text h
  obtain ⟨vars, fns, A⟩ := h.fromText hg
  refine ⟨fun f fd hf => ?_, fun v hv => ?_⟩
  · obtain ⟨ts, r, h1, -⟩ := A.funcTy hf
    exact ⟨ts, r, h1⟩
  · rw [show p.instLayout = vars.map (·.2) from A.insts] at hv
    obtain ⟨⟨n, u'⟩, hm', rfl⟩ := List.mem_map.1 hv
    obtain ⟨_, _, _, x, i, y, t, hx, _, hk, hy, hxy, ht, hc⟩ := A.items.global hm'
    exact ⟨x, i, hx, hk, const_constant (fun v t k h => by
      obtain ⟨z, h1, -, h2⟩ := h
      exact ⟨z, h1, h2⟩) hc⟩

/-- Every part of a program from text is there. -/
theorem Accepted.present {w : World} {input : Str} {p : Program} (h : Accepted w input p) : AllPresent p := by
  obtain ⟨gs, hg, -⟩ := C47_program_is_text h
  have hi := (h.items hg).1.cinv
  exact Opt.remains_present hi h.foldable h.onlyInsts h.paramsProper h.whole h.tops.1 h.tops.2
    (fun f fd hf => .refl hi hf (h.foldable f)) rfl rfl rfl

/-- C65: every accepted program is written without a panic, whatever its array lengths and names, and by whatever fresh or used generator. -/
theorem C65_accepted_written {w : World} {input : Str} {p : Program} {m : NM} (h : Accepted w input p) (hm : m.pre = .default) (hs : m.inFunc = false) :
    ∃ s m', koopaGenerate m p = some (s, m') := h.present.written hm hs

/-- C65: what the optimizer makes of an accepted program is written without a panic. -/
theorem C65_optimized_written {w : World} {input : Str} {p p' : Program} {chk : Bool} {o : Opt.Orders} {n : Nat} {m : NM} (ha : Accepted w input p)
    (ho : OptOrders o) (h : Opt.optimize chk o n p = some p') (hm : m.pre = .default) (hs : m.inFunc = false) :
    ∃ s m', koopaGenerate m p' = some (s, m') := by
  unfold Opt.optimize at h
  split at h
  · cases h
  · rename_i p1 h1
    obtain ⟨⟨st, p2⟩, h2, rfl⟩ := Option.map_eq_some_iff.1 h
    have hp := Opt.foldAll_passes ho .refl h1
    obtain ⟨k1, k2, k3, k4, -⟩ := ConstFold.FoldPasses_spec ha hp
    obtain ⟨i1, i2, i3, i4, i5⟩ := ConstFold.FoldPasses_whole ha hp
    obtain ⟨e1, -, e3, e4, e5, -⟩ := Dce.eliminates_spec (Opt.dceAll_eliminates ho h2) (ho.once p1) (ConstFold.CInv.dinv k1)
      (fun g => ConstFold.sane_of k1 (k3 g) (k4 g)) (fun _ _ hu => by cases hu) rfl (fun _ _ _ hu => by cases hu)
    refine AllPresent.written (Opt.remains_present k1 k3 k4 k2 i1 ?_ ?_ ?_ e5 e3 e4) hm hs
    · intro f fd hf
      have h3 := congrFun i2 f
      simp only [Program.view, hf, Option.map_some] at h3
      obtain ⟨fd0, h4, h5⟩ := Option.map_eq_some_iff.1 h3.symm
      simp only [Prod.mk.injEq] at h5
      rw [← h5.1]
      exact ha.tops.1 f fd0 h4
    · have hG : ∀ v x, p.values.get? v = some x → ∃ x', p1.values.get? v = some x' ∧ x'.kind = x.kind := by
        intro v x hx
        have h1 : p1.view.g v = some x.shape := by rw [i3]; exact view_g_iff.2 ⟨x, hx, rfl⟩
        obtain ⟨x', hx', e⟩ := view_g_iff.1 h1
        exact ⟨x', hx', congrArg (·.2.2) e⟩
      intro v hv
      rw [show p1.instLayout = p.instLayout from i4] at hv
      obtain ⟨x, i, h1, h2, h3⟩ := ha.tops.2 v hv
      obtain ⟨x', h4, h5⟩ := hG v x h1
      exact ⟨x', i, h4, by rw [h5, h2], constant_alike hG h3⟩
    · intro f fd hf
      exact (e1 f ((ho.funcs p1 f).2 ⟨fd, hf⟩)).remains k1 (k3 f) (k4 f) e5

/-- The text of what the optimizer makes can be read back. -/
def Spec.OptimizedTextsAccepted : Prop :=
  ∀ w input p p' chk o n s m, Accepted w input p → OptOrders o → Opt.optimize chk o n p = some p' → koopaGenerate NM.new p' = some (s, m) →
    ∃ w' q, Accepted w' s q

/-- The optimizer passes an undefined address on to `load`. -/
def undefText : Str := "fun @main(): i32 {%e: jump %u(undef) %u(%a: *i32): %v = load %a ret %v}".toList

/-- C65 fails for reading back: every edge passes `undef` for the pointer `%a`, so the pass puts `undef` in the place of `%a`; then `load undef` is
printed, which the parser rejects: `load` takes a symbol (const_fold.rs, parser.rs). -/
theorem C65_violated : ¬ OptimizedTextsAccepted := by
  intro hall
  obtain ⟨p, h, hq⟩ := acceptsWith_iff (input := undefText)
    (q := fun p => printsUnreadable p == false && (match Opt.optimize true plainOrders 20 p with | some p' => printsUnreadable p' | none => false)) (by decide +kernel)
  rw [Bool.and_eq_true] at hq
  obtain ⟨-, hu⟩ := hq
  split at hu
  · rename_i p' hp'
    unfold printsUnreadable at hu
    split at hu
    · rename_i s m hg
      obtain ⟨w', q, h'⟩ := hall _ _ _ _ _ _ _ _ _ h plainOrders_ok hp' hg
      obtain ⟨gs, hr, -⟩ := C47_program_is_text h'
      exact unreadable_iff hu gs hr
    · cases hu
  · cases hu

/-- The optimizer's result is written, and not as the program before it. -/
def writesOther (p : Program) : Bool :=
  match Opt.optimize true plainOrders 20 p with
  | some p' => match koopaGenerate NM.new p, koopaGenerate NM.new p' with
    | some (s, _), some (s', _) => decide (s'.length < s.length)
    | _, _ => false
  | none => false

/-- The hypotheses are met, and the optimizer makes the text shorter. -/
example : ∃ p p', Accepted someWorld optText p ∧ OptOrders plainOrders ∧ Opt.optimize true plainOrders 20 p = some p' ∧ NM.new.pre = .default ∧
    NM.new.inFunc = false ∧ writesOther p = true := by
  obtain ⟨p, h, hq⟩ := acceptsWith_iff (input := optText) (q := writesOther) (by decide +kernel)
  have hq' := hq
  unfold writesOther at hq'
  split at hq'
  · rename_i p' hp'
    exact ⟨p, p', h, plainOrders_ok, hp', rfl, rfl, hq⟩
  · cases hq'

end Koopa
