import Verif.Lemmas.Examples.ParamFold
import Verif.Props.ConstFold
import Verif.Lemmas.Front.Convert
import Verif.Props.Dce
/-!
C38: folding block parameters.
-/
namespace Koopa
open Spec Interp ConstFold

/-- No parameter is replaced twice. -/
theorem evalBbs_nodup {c : Ctx} {n : Nat} {fd : FData} {bs : List BB} {us : List Value → List Value} {l : List (BB × List (Nat × VData))} (hb : bs.Nodup)
    (hl : evalBbs c n fd us bs = some l) : ((flat l).map (fun e => (e.1, e.2.1))).Nodup := by
  obtain ⟨h1, h2⟩ := evalBbs_spec hl
  have hlb : (l.map (·.1)).Nodup := h2.nodup hb
  have hev : ∀ b ev, (b, ev) ∈ l → (ev.map (·.1)).Nodup := by
    intro b ev hm
    obtain ⟨-, x, hx, hev⟩ := h1 b ev hm
    exact (evalParams_spec hev).2.nodup List.nodup_range
  clear h1 h2 hl
  show ((flat l).map (fun e => (e.1, e.2.1))).Nodup
  induction l with
  | nil => exact .nil
  | cons q l ih =>
    obtain ⟨b, ev⟩ := q
    have : flat ((b, ev) :: l) = ev.map (fun e => (b, e.1, e.2)) ++ flat l := rfl
    rw [this, List.map_append, List.nodup_append]
    simp only [List.map_cons, List.nodup_cons] at hlb
    refine ⟨?_, ih hlb.2 (fun b ev hm => hev b ev (by simp [hm])), ?_⟩
    · rw [List.map_map]
      have := hev b ev (by simp)
      have e : ((fun e : BB × Nat × VData => (e.1, e.2.1)) ∘ fun e : Nat × VData => (b, e.1, e.2)) = (fun i => (b, i)) ∘ (·.1) := rfl
      rw [e, ← List.map_map]
      exact this.map _ (fun i j hij e => hij (by simpa using e))
    · rintro ⟨c, i⟩ hm ⟨c', i'⟩ hm' e
      simp only [List.map_map, List.mem_map, Function.comp, Prod.mk.injEq] at hm hm' e
      obtain ⟨e0, he0, rfl, rfl⟩ := hm
      obtain ⟨⟨c2, i2, d2⟩, hm2, rfl, rfl⟩ := hm'
      obtain ⟨ev2, hm3, _⟩ := mem_flat.1 hm2
      obtain ⟨rfl, _⟩ := e
      exact hlb.1 (List.mem_map.2 ⟨_, hm3, rfl⟩)

theorem ConstFold.evalBbParams_mid {p p' : Program} {f : Func} {n : Nat} {bs : List BB} {us : List Value → List Value} (hi : CInv p) (hF : Foldable p f) (hb : bs.Nodup) (hus : ∀ l v, v ∈ us l ↔ v ∈ l)
    (h : evalBbParams f n bs us p = some p') : ∃ fd E, p.funcs.get? f = some fd ∧ Sound p f fd E ∧ Mid p p' f E ∧
      Reach (fun p op => op.Ok p ∧ op.NoRemoveFunc) p' ∧ p'.ids.nextGlobal = p.ids.nextGlobal := by
  unfold evalBbParams at h
  split at h
  · cases h
  · rename_i fd hf
    split at h
    · cases h
    · rename_i l hl
      have hs := evalBbs_sound hi hf hus hl
      rw [replaceBbs_flat] at h
      refine ⟨fd, flat l, hf, hs, ?_, replaceFlat_reach hi.reach h⟩
      have h0 : Mid p p f [] := ⟨rfl, fun _ _ _ => rfl, fun _ _ _ => rfl, Nat.le_refl _,
        fun b n ps hb => ⟨ps, hb, rfl, fun i x hx => .inl ⟨fun _ h => (by cases h), hx⟩⟩, fun _ _ _ => rfl, fun _ h => h, fun v s hlt h => absurd (hi.lRange h).2 (by omega),
        fun b b' n n' ps ps' i j y hb hb' hx hy hlt => by
          obtain ⟨_, _, _, e⟩ := hF.params b n ps hb y (List.mem_of_getElem? hx)
          exact absurd (hi.lRange e).2 (by omega)⟩
      refine replaceFlat_mid hi hF h0 ?_ hs.live h
      exact evalBbs_nodup hb hl

/-- C38: a value that is not as it was before is a block parameter; it now is a constant, and every transfer of control
to the block, from a live instruction, passes a constant that is like it: of the same type and kind, with
structurally equal elements. -/
theorem C38_only_if_all_edges {p p' : Program} {f : Func} {fd : FData} {n : Nat} {bs : List BB} {us : List Value → List Value} {v : Value} {x x' : VData} (hi : CInv p)
    (hF : Foldable p f) (hb : bs.Nodup) (hus : ∀ l v, v ∈ us l ↔ v ∈ l) (h : evalBbParams f n bs us p = some p') (hf : p.funcs.get? f = some fd) (hx : LocalVal p f v x)
    (hx' : LocalVal p' f v x') (hne : (x'.ty, x'.name, x'.kind) ≠ (x.ty, x.name, x.kind)) :
    x'.kind.isConst = true ∧ x'.ty = x.ty ∧ ∃ (b : BB) (B : BData) (i : Nat), Block p f b B ∧ B.params[i]? = some v ∧
      ∀ u y as, LocalVal p f u y → (b, as) ∈ transfers y.kind →
        ∃ a z, as[i]? = some a ∧ LocalVal p f a z ∧ z.kind.isConst = true ∧ Alike (p.ctx fd) z x' := by
  obtain ⟨fd', E, hf', hS, hM, -⟩ := evalBbParams_mid hi hF hb hus h
  rw [hf] at hf'; cases hf'
  have hv : p.view.l f v = some x.shape := view_l_iff.2 ⟨x, hx, rfl⟩
  have hv' : p'.view.l f v = some x'.shape := view_l_iff.2 ⟨x', hx', rfl⟩
  have hr := hi.lRange hv
  by_cases hk : ∃ b nm ps i dc, (b, i, dc) ∈ E ∧ p.view.b f b = some (nm, ps) ∧ ps[i]? = some v
  · obtain ⟨b, nm, ps, i, dc, hE, hb, hx0⟩ := hk
    obtain ⟨ps', hb', hlen, hps⟩ := hM.blocks b nm ps hb
    rcases hps i v hx0 with ⟨e1, _⟩ | ⟨dc', z, e1, e2, e3, e4, e5, e6⟩
    · exact absurd hE (e1 dc)
    · rw [hv'] at e6
      have hsh : x'.ty = dc'.ty ∧ x'.name = dc'.name ∧ x'.kind = dc'.kind := by
        unfold VData.shape at e6
        simpa using e6
      obtain ⟨u0, du0, as0, a0, da0, k1, k2, k3, k4, k5, k6⟩ := hS.from_ b i dc' e1
      have k6' : dc'.ty = da0.ty ∧ dc'.name = da0.name ∧ dc'.kind = da0.kind := by
        unfold VData.shape at k6
        simpa using k6
      obtain ⟨B, hB, rfl, rfl⟩ := view_b_iff.1 hb
      refine ⟨by rw [hsh.2.2, k6'.2.2]; exact k5, ?_, b, B, i, hB, hx0, ?_⟩
      · obtain ⟨fd2, hf2, hsim⟩ := funcSim_params hi hF hf hS hM ⟨p, fun _ => none, 0, 0, true⟩ ⟨p, fun _ => none, 0, 0, true⟩ rfl
        obtain ⟨fd3, hf3, hx3⟩ := hx
        rw [hf] at hf3; cases hf3
        obtain ⟨d', hd', ht⟩ := hsim.types v x (.inl (by rw [hv]; rfl)) hx3
        obtain ⟨fd4, hf4, hx4⟩ := hx'
        rw [hf2] at hf4; cases hf4
        rw [hd'] at hx4; cases hx4
        exact ht
      · intro u y as hu he
        obtain ⟨fd3, hf3, hu3⟩ := hu
        rw [hf] at hf3; cases hf3
        obtain ⟨a, z, g1, g2, g3, g4⟩ := hS.passed b i dc' e1 u y as hu3 he
        exact ⟨a, z, g1, ⟨fd, hf, g2⟩, g3, g4.trans (.refl hsh.1.symm hsh.2.2.symm)⟩
  · exfalso
    have h1 := hM.same v hr.2 (fun b nm ps i dc hE hb hx => hk ⟨b, nm, ps, i, dc, hE, hb, hx⟩)
    rw [hv, hv'] at h1
    exact hne (by simpa [VData.shape] using h1)

/-- C38, runs: folding the block parameters of a function does not change what the program does. -/
theorem C38_params_preserve {p p' : Program} {f : Func} {n : Nat} {bs : List BB} {us : List Value → List Value} {chk : Bool} (hi : CInv p) (hF : Foldable p f) (hb : bs.Nodup) (hus : ∀ l v, v ∈ us l ↔ v ∈ l)
    (h : evalBbParams f n bs us p = some p') : SameRuns p p' chk := by
  obtain ⟨fd, E, hf, hS, hM, -⟩ := evalBbParams_mid hi hF hb hus h
  have hhead : p'.view.head = p.view.head := by rw [hM.rest]
  intro σ lib depth ptrSize fuel ord w
  have hs := interpret_sim (lib := lib) (chk := chk) (depth := depth) (ptrSize := ptrSize) (fuel := fuel) (ord := ord) (p := p) (p' := p') (w := w)
    (D := NoAlloc) (strict := True) (congrArg View.insts hM.rest) (fun v => by
      have : shapeOf (p'.values.get? v) = shapeOf (p.values.get? v) := congrFun (congrArg View.g hM.rest) v
      unfold shapeOf at this
      cases e1 : p'.values.get? v <;> cases e2 : p.values.get? v <;> rw [e1, e2] at this <;> simp_all) (fun g => by
      have := congrFun hhead g
      simp only [Program.view] at this
      cases e1 : p'.funcs.get? g <;> cases e2 : p.funcs.get? g <;> rw [e1, e2] at this <;> simp_all) (fun vars g fg hg => by
      by_cases hgf : g = f
      · subst hgf
        rw [hf] at hg; cases hg
        obtain ⟨fd', h1, h2⟩ := funcSim_params hi hF hf hS hM ⟨p, vars, depth, ptrSize, chk⟩ ⟨p', vars, depth, ptrSize, chk⟩ rfl
        exact ⟨fd', h1, _, h2⟩
      · have hh := congrFun hhead g
        simp only [Program.view, hg] at hh
        cases hg' : p'.funcs.get? g with
        | none => rw [hg'] at hh; cases hh
        | some fg' =>
          rw [hg'] at hh
          simp only [Option.map_some, Option.some.injEq, Prod.mk.injEq] at hh
          have hla : fg'.layout = fg.layout := by
            have := congrFun (congrArg View.lay hM.rest) g
            simp only [Program.view, hg', hg, Option.map_some, Option.some.injEq] at this
            exact this
          refine ⟨fg', rfl, Interp.All, funcSim_folded (fs := []) rfl hh.1 hh.2.1 hh.2.2 ?_ (fun v _ => ?_) (fun v hv => by cases hv) (fun b => ?_)
            (fun _ _ h => by cases h) (fun _ _ _ _ _ _ _ _ _ _ _ _ _ h => by cases h) (fun v hv => CInv.local_not_global hi hg hv)⟩
          · rw [hla]
            refine Eq.symm (Eq.trans (List.map_congr_left (g := id) (fun q hq => ?_)) (List.map_id _))
            simp only [List.not_mem_nil, not_false_eq_true, decide_true, List.filter_eq_self.2 (fun _ _ => rfl), id]
          · rw [← view_l_self hg', ← view_l_self hg, hM.otherL g v hgf]
          · rw [← view_b_self hg', ← view_b_self hg, hM.otherB g b hgf])
  unfold Preserved at hs
  refine ⟨fun r e => ?_, fun x e => ?_, fun e => ?_⟩ <;> rw [e] at hs
  · obtain ⟨a, h1, h2⟩ := hs
    rw [h1, h2]
  · exact hs trivial
  · exact hs

/-- Every listed value is an instruction. -/
def ConstFold.OnlyInsts (p : Program) (f : Func) : Prop :=
  ∀ l b is v, p.view.lay f = some l → (b, is) ∈ l.bbs → v ∈ is → ∃ t m k, p.view.l f v = some (t, m, k) ∧ k.isLocalInst = true

theorem Accepted.onlyInsts {w : World} {input : Str} {p : Program} (h : Accepted w input p) (f : Func) : OnlyInsts p f :=
  fun l b is v hl hb hv => (h.sane f).listed l b v hl ⟨is, hb, hv⟩

theorem ConstFold.Light.onlyInsts {p p' : Program} (h : Light p p') {f : Func} (hO : OnlyInsts p f) : OnlyInsts p' f := by
  intro l b is v hl hb hv
  obtain ⟨l0, h1, h2⟩ := h.lay f l hl
  obtain ⟨is0, h3, h4⟩ := h2 b is hb
  obtain ⟨t, m, k, e, hk⟩ := hO l0 b is0 v h1 h3 (h4 v hv)
  rcases h.l f v with e1 | ⟨_, _, _, _, _, _, -, -, e1⟩
  · exact ⟨t, m, k, by rw [e1]; exact e, hk⟩
  · exact absurd hv (e1 l b is hl hb)

theorem ConstFold.Mid.onlyInsts {p q : Program} {f : Func} {fd : FData} {E : List (BB × Nat × VData)} (hi : CInv p) (hF : Foldable p f)
    (hf : p.funcs.get? f = some fd) (hS : Sound p f fd E) (hM : Mid p q f E) {g : Func} (hG : Foldable p g) (hO : OnlyInsts p g) : OnlyInsts q g := by
  intro l b is v hl hb hv
  have hL : q.view.lay = p.view.lay := by rw [hM.rest]
  rw [hL] at hl
  obtain ⟨t, m, k, e, hk⟩ := hO l b is v hl hb hv
  by_cases h : g = f
  · subst h
    obtain ⟨n', k', e1, e2⟩ := hM.typesKept hi hF hf hS e
    rcases e2 with ⟨rfl, rfl⟩ | ⟨-, i, rfl⟩
    · exact ⟨_, _, _, e1, hk⟩
    · exact absurd e (hG.listed l b is v t m i hl hb hv)
  · exact ⟨t, m, k, by rw [hM.otherL g v h]; exact e, hk⟩

/-- In a program from text the parameters of blocks can be folded. -/
theorem Accepted.foldable {w : World} {input : Str} {p : Program} (h : Accepted w input p) (f : Func) : Foldable p f := by
  obtain ⟨gs, hg, -⟩ := C47_program_is_text h
  obtain ⟨vars, fns, A⟩ := h.fromText hg
  have hparam : ∀ b n ps, p.view.b f b = some (n, ps) → ∀ i x, ps[i]? = some x → ∃ t m, p.view.l f x = some (t, m, .blockArgRef i) := by
    intro b n ps hb i x hx
    obtain ⟨y, hy, -, rfl⟩ := view_b_iff.1 hb
    obtain ⟨fd, hf, hy'⟩ := hy
    obtain ⟨z, hz, hp⟩ := A.blockData hf (A.blockListed hf ⟨fd, hf, hy'⟩)
    rw [hy'] at hz; cases hz
    obtain ⟨d, hd, hk⟩ := hp i x hx
    exact ⟨d.ty, d.name, by rw [← hk]; exact view_l_iff.2 ⟨d, hd, rfl⟩⟩
  refine ⟨?_, ?_, ?_, ?_, ?_, ?_⟩
  · intro b n ps hb x hx
    obtain ⟨i, hi⟩ := List.getElem?_of_mem hx
    obtain ⟨t, m, e⟩ := hparam b n ps hb i x hi
    exact ⟨t, m, i, e⟩
  · intro b n ps hb i j x hx hy
    obtain ⟨t, m, e⟩ := hparam b n ps hb i x hx
    obtain ⟨t', m', e'⟩ := hparam b n ps hb j x hy
    rw [e] at e'
    simp only [Option.some.injEq, Prod.mk.injEq, VKind.blockArgRef.injEq] at e'
    exact e'.2.2
  · exact fun b b' n n' ps ps' x h1 h2 h3 h4 => A.tidy.once f b b' n n' ps ps' x h1 h2 h3 h4
  · intro l b is v t m i hl hb hv e
    obtain ⟨fd, hf, rfl⟩ := Option.map_eq_some_iff.1 (show (p.funcs.get? f).map (·.layout) = some l from hl)
    obtain ⟨y, hy, ey⟩ := view_l_iff.1 e
    rcases A.fun hf with ⟨_, _, _, hd⟩ | ⟨_, _, _, _, _, _, _, _, _, hF⟩
    · rw [hd.noBlocks.1] at hb; cases hb
    · obtain ⟨x, nm, st, hx, hs⟩ := FunIs_listed hF hb hv
      cases localVal_unique hx hy
      rw [show y.kind = .blockArgRef i from congrArg (·.2.2) ey] at hs
      generalize y.ty = T at hs
      cases hs with
      | «def» h _ => cases h
      | call h => cases h
  · intro t n ps hh v hv
    obtain ⟨fd, hf, ee⟩ := Option.map_eq_some_iff.1 (show (p.funcs.get? f).map _ = some (t, n, ps) from hh)
    simp only [Prod.mk.injEq] at ee
    obtain ⟨ts, r, _, _, _, _, hp⟩ := A.funcTy hf
    rw [← ee.2.2] at hv
    obtain ⟨j, hj⟩ := List.getElem?_of_mem hv
    obtain ⟨x, hx, hk, -⟩ := hp j v hj
    exact ⟨x.ty, x.name, x.kind, view_l_iff.2 ⟨x, hx, rfl⟩, fun i e => by rw [hk] at e; cases e⟩
  · intro v t m es hv e he
    obtain ⟨x, hx, ex⟩ := view_l_iff.1 hv
    have hk : x.kind = .aggregate es := congrArg (·.2.2) ex
    obtain ⟨fd, hf, hx'⟩ := hx
    obtain ⟨h1, _, _, _, _, _, _, _, _, hgv, hF⟩ := A.usedGood (A.usedLocal ⟨fd, hf, hx'⟩) f fd rfl hf
    rcases h1 with ⟨x', i, hx2, hk'⟩ | ⟨b, is, hm, hu'⟩ | ⟨a, t, hc⟩
    · cases localVal_unique ⟨fd, hf, hx'⟩ hx2
      rw [hk] at hk'; rcases hk' with h | h <;> cases h
    · obtain ⟨x', nm, st, hx2, hs⟩ := FunIs_listed hF hm hu'
      cases localVal_unique ⟨fd, hf, hx'⟩ hx2
      exact ((StmtIs_opnd hs).2 es hk).elim
    · obtain ⟨t', k, ⟨x', hx2, _, rfl⟩, -, -, -, h5⟩ := const_cases hc
      cases localVal_unique ⟨fd, hf, hx'⟩ hx2
      rw [hk] at h5
      obtain ⟨a, t, hc⟩ := h5 e he
      obtain ⟨t', k, ⟨y, hy, _⟩, -⟩ := const_cases hc
      rw [view_l_iff.2 ⟨y, hy, rfl⟩]; rfl

theorem ConstFold.Light.foldable {p p' : Program} (h : Light p p') {f : Func} (hF : Foldable p f) : Foldable p' f := by
  have hconst : ∀ ans : Option I32, (∀ i, kindOf ans ≠ .blockArgRef i) ∧ ∀ es, kindOf ans ≠ .aggregate es := by
    intro ans; cases ans <;> simp [kindOf]
  have harg : ∀ v t m i, p.view.l f v = some (t, m, .blockArgRef i) → p'.view.l f v = some (t, m, .blockArgRef i) := by
    intro v t m i e
    rcases h.l f v with e1 | ⟨t', n, op, a, c, ans, e1, -⟩
    · rw [e1]; exact e
    · rw [e] at e1; cases e1
  have hback : ∀ v t m i, p'.view.l f v = some (t, m, .blockArgRef i) → p.view.l f v = some (t, m, .blockArgRef i) := by
    intro v t m i e
    rcases h.l f v with e1 | ⟨t', n, op, a, c, ans, -, e1, -⟩
    · rw [← e1]; exact e
    · rw [e] at e1
      simp only [Option.some.injEq, Prod.mk.injEq] at e1
      exact absurd e1.2.2.symm ((hconst ans).1 i)
  refine ⟨?_, ?_, ?_, ?_, ?_, ?_⟩
  · rw [h.b]
    intro b n ps hb x hx
    obtain ⟨t, m, i, e⟩ := hF.params b n ps hb x hx
    exact ⟨t, m, i, harg x t m i e⟩
  · rw [h.b]; exact hF.once
  · rw [h.b]; exact hF.apart
  · intro l b is v t m i hl hb hv e
    obtain ⟨l0, h1, h2⟩ := h.lay f l hl
    obtain ⟨is0, h3, h4⟩ := h2 b is hb
    exact hF.listed l0 b is0 v t m i h1 h3 (h4 v hv) (hback v t m i e)
  · rw [h.head]
    intro t n ps hh v hv
    obtain ⟨t', m, k, e, hk⟩ := hF.args t n ps hh v hv
    rcases h.l f v with e1 | ⟨t0, n0, op, a, c, ans, -, e1, -⟩
    · exact ⟨t', m, k, by rw [e1]; exact e, hk⟩
    · exact ⟨_, _, _, e1, (hconst ans).1⟩
  · intro v t m es hv e he
    have hv0 : p.view.l f v = some (t, m, .aggregate es) := by
      rcases h.l f v with e1 | ⟨t', n, op, a, c, ans, -, e1, -⟩
      · rw [← e1]; exact hv
      · rw [hv] at e1
        simp only [Option.some.injEq, Prod.mk.injEq] at e1
        exact absurd e1.2.2.symm ((hconst ans).2 es)
    have := hF.elems v t m es hv0 e he
    rcases h.l f e with e1 | ⟨t', n, op, a, c, ans, -, e1, -⟩
    · rw [e1]; exact this
    · rw [e1]; rfl

/-- The pass on several functions, one after the other; on each it may go through values, blocks and users in another order. -/
inductive Spec.FoldPasses (chk : Bool) : Program → Program → Prop where
  | refl {p : Program} : FoldPasses chk p p
  | step {p p' p'' : Program} {f : Func} {ord : Order} {rounds n : Nat} {bord : Program → List BB} {us : List Value → List Value} :
    FoldPasses chk p p' → (∀ q, (bord q).Nodup) → (∀ l v, v ∈ us l ↔ v ∈ l) → runOn chk f ord rounds n bord us p' = some p'' → FoldPasses chk p p''

theorem ConstFold.FoldPasses_spec {w : World} {input : Str} {p p' : Program} {chk : Bool} (ha : Accepted w input p) (h : FoldPasses chk p p') :
    CInv p' ∧ (∀ g, ParamsProper p' g) ∧ (∀ g, Foldable p' g) ∧ (∀ g, OnlyInsts p' g) ∧ SameRuns p p' chk := by
  induction h with
  | refl =>
    obtain ⟨gs, hg, -⟩ := C47_program_is_text ha
    exact ⟨(ha.items hg).1.cinv, ha.paramsProper, ha.foldable, ha.onlyInsts, .refl⟩
  | @step _ p2 f _ _ _ _ _ _ hb hus h ih =>
    obtain ⟨h1, h2, h3, h5, h4⟩ := ih
    unfold runOn at h
    split at h
    · cases h
    · rename_i p1 hp1
      obtain ⟨k1, k2, k3, k4⟩ := foldLoop_spec h1 (h2 _) hp1
      have hF := k4.foldable (h3 f)
      obtain ⟨fd, E, hf, hS, hM, hR, hN⟩ := evalBbParams_mid k1 hF (hb p1) hus h
      exact ⟨hM.cinv k1 hF hf hS hR hN, fun g => hM.proper k1 hF hf hS (k4.foldable (h3 g)) (k2 g (h2 g)),
        fun g => hM.foldable k1 hF hf hS (k4.foldable (h3 g)), fun g => hM.onlyInsts k1 hF hf hS (k4.foldable (h3 g)) (k4.onlyInsts (h5 g)),
        h4.trans (k3.trans (C38_params_preserve k1 hF (hb p1) hus h))⟩

/-- C37 and C38: the whole pass on functions of a program from text, in whatever order it goes through values, blocks and users, does not change what
the program does. -/
theorem C38_pass_accepted {w : World} {input : Str} {p p' : Program} {chk : Bool} (ha : Accepted w input p) (h : FoldPasses chk p p') :
    SameRuns p p' chk :=
  (FoldPasses_spec ha h).2.2.2.2

/-- Two edges pass the same constant for `%a`, and different ones for `%b`. -/
def paramText : Str :=
  "fun @main(): i32 {%e: %k = eq 1, 2 br %k, %s, %t %s: jump %u(6, 7) %t: jump %u(6, 8) %u(%a: i32, %b: i32): %c = mul %a, %b ret %c}".toList

/-- Folding the parameters of the first function turns exactly `n` values into integers. -/
def paramsCheck (n : Nat) (p : Program) : Bool :=
  match p.funcLayout with
  | f :: _ => match p.funcs.get? f with
    | some fd => match evalBbParams f 10 fd.dfg.bbs.keys id p with
      | some p' => match p'.funcs.get? f with
        | some fd' => decide fd.dfg.bbs.keys.Nodup && (fd.dfg.values.keys.filter (fun v =>
            match (fd.dfg.values.get? v).map (·.kind), (fd'.dfg.values.get? v).map (·.kind) with
            | some (VKind.blockArgRef _), some (VKind.integer _) => true
            | _, _ => false)).length == n
        | none => false
      | none => false
    | none => false
  | [] => false

/-- The hypotheses are met by a program from text, in which one of two parameters is folded. -/
example : ∃ p p' f bs, Accepted someWorld paramText p ∧ CInv p ∧ Foldable p f ∧ bs.Nodup ∧ evalBbParams f 10 bs id p = some p' ∧
    ∃ v x x', LocalVal p f v x ∧ LocalVal p' f v x' ∧ (x'.ty, x'.name, x'.kind) ≠ (x.ty, x.name, x.kind) := by
  obtain ⟨p, h, hq⟩ := acceptsWith_iff (input := paramText) (q := paramsCheck 1) (by decide +kernel)
  obtain ⟨gs, hg, -⟩ := C47_program_is_text h
  unfold paramsCheck at hq
  split at hq
  · rename_i f l hf
    split at hq
    · rename_i fd hfd
      split at hq
      · rename_i p' hp'
        split at hq
        · rename_i fd' hfd'
          simp only [Bool.and_eq_true, decide_eq_true_eq, beq_iff_eq] at hq
          obtain ⟨h2, h3⟩ := hq
          refine ⟨p, p', f, _, h, (h.items hg).1.cinv, h.foldable f, h2, hp', ?_⟩
          obtain ⟨v, hv⟩ := List.exists_mem_of_length_pos (by rw [h3]; exact Nat.one_pos)
          obtain ⟨-, hv⟩ := List.mem_filter.1 hv
          split at hv
          · rename_i e1 e2
            obtain ⟨x, hx, e1⟩ := Option.map_eq_some_iff.1 e1
            obtain ⟨x', hx', e2⟩ := Option.map_eq_some_iff.1 e2
            refine ⟨v, x, x', ⟨fd, hfd, hx⟩, ⟨fd', hfd', hx'⟩, ?_⟩
            rw [e1, e2]
            intro e
            cases (Prod.mk.inj (Prod.mk.inj e).2).2
          · cases hv
        · cases hq
      · cases hq
    · cases hq
  · cases hq

/-- The blocks of a function, in the order of their numbers. -/
def blockOrder (f : Func) (q : Program) : List BB :=
  let l := ((q.funcs.get? f).map (·.dfg.bbs.keys)).getD []
  if l.Nodup then l else []

/-- The first round folds the condition and `6`, known on both edges only after it, is folded as well. -/
def passText : Str :=
  "fun @main(): i32 {%e: %x = mul 2, 3 %k = eq 1, 2 br %k, %s, %t %s: jump %u(%x, 7) %t: jump %u(6, 8) %u(%a: i32, %b: i32): %c = mul %a, %b ret %c}".toList

/-- The pass ends on the first function, which has `m` instructions afterwards, and `n` of its block parameters are integers. -/
def passCheck (m n : Nat) (p : Program) : Bool :=
  match p.funcLayout with
  | f :: _ => match p.funcs.get? f, runOn true f (fun q => ((q.funcs.get? f).map (·.dfg.values.keys)).getD []) 10 10 (blockOrder f) id p with
    | some fd, some p' => match p'.funcs.get? f with
      | some fd' => (fd'.layout.bbs.flatMap (·.2)).length == m && (fd.dfg.values.keys.filter (fun v =>
            match (fd.dfg.values.get? v).map (·.kind), (fd'.dfg.values.get? v).map (·.kind) with
            | some (VKind.blockArgRef _), some (VKind.integer _) => true
            | _, _ => false)).length == n
      | none => false
    | _, _ => false
  | [] => false

/-- The hypotheses of `C38_pass_accepted` are met: two of the seven instructions disappear and one of the two parameters is folded. -/
example : ∃ p p', Accepted someWorld passText p ∧ FoldPasses true p p' ∧ passCheck 5 1 p = true := by
  obtain ⟨p, h, hq⟩ := acceptsWith_iff (input := passText) (q := passCheck 5 1) (by decide +kernel)
  have hq' := hq
  unfold passCheck at hq
  split at hq
  · rename_i f l hf
    split at hq
    · rename_i fd p' hfd hp'
      refine ⟨p, p', h, .step .refl (fun q => ?_) (fun _ _ => Iff.rfl) hp', hq'⟩
      unfold blockOrder
      dsimp only
      split
      · assumption
      · exact .nil
    · cases hq
  · cases hq

end Koopa
