import Verif.Lemmas.Examples.DceRound
/-!
C39: dead code elimination.
-/
namespace Koopa
open Spec Interp Dce

/-- The pass runs on the functions one after the other, with a state that stays in the pass; the orders of iteration are
arbitrary. -/
inductive Spec.Eliminates : List Func → St → Program → St → Program → Prop where
  | nil {st : St} {p : Program} : Eliminates [] st p st p
  | cons {f : Func} {fs : List Func} {n k : Nat} {o : Orders} {st st1 st2 : St} {p p1 p2 : Program} : o.Ok f → runOn f n o k st p = some (st1, p1) →
      Eliminates fs st1 p1 st2 p2 → Eliminates (f :: fs) st p st2 p2

/-- Function `f` of `p'` is function `f` of `p` without dead code. -/
structure Spec.Cleaned (p p' : Program) (f : Func) : Prop where
  /-- Type, name, parameters and blocks are as before. In each block the needed instructions remain, in the same order,
  and no others. -/
  layout : ∃ fd fd' keep, p.funcs.get? f = some fd ∧ p'.funcs.get? f = some fd' ∧ fd'.ty = fd.ty ∧ fd'.name = fd.name ∧ fd'.params = fd.params ∧
    fd'.layout.bbs = fd.layout.bbs.map (fun q => (q.1, q.2.filter keep)) ∧
    ∀ b is v, (b, is) ∈ fd.layout.bbs → v ∈ is → (keep v = true ↔ Needed p f v)
  /-- What remains is as before, except for arguments to blocks. -/
  kept : ∀ v x', LocalVal p' f v x' → ∃ x, LocalVal p f v x ∧ x'.ty = x.ty ∧ x'.name = x.name ∧ Trimmed x.kind x'.kind
  /-- What is removed is an unneeded instruction without effects or a block parameter. -/
  removed : ∀ v x, LocalVal p f v x → (∀ x', ¬ LocalVal p' f v x') → (computes x.kind = true ∧ ¬ Needed p f v) ∨ ∃ i, x.kind = .blockArgRef i
  /-- Nothing that is removed is mentioned. -/
  closed : ∀ u o, LocalUse p' f u o → (∃ x, LocalVal p' f o x) ∨ ∃ x, GlobalVal p' o x
  /-- Blocks lose exactly the parameters that are removed. -/
  blocks : ∀ b x, Block p f b x → ∃ x', Block p' f b x' ∧ x'.name = x.name ∧ x'.params.Sublist x.params ∧
    ∀ v ∈ x.params, v ∈ x'.params ∨ ∀ y, ¬ LocalVal p' f v y
  /-- Every block parameter that remains is mentioned. -/
  used : ∀ b x, Block p' f b x → ∀ v ∈ x.params, ∃ u, LocalUse p' f u v

/-- What is the same for a function in both programs. -/
structure Dce.AgreeOn (p q : Program) (f : Func) : Prop where
  lay : q.view.lay f = p.view.lay f
  l : q.view.l f = p.view.l f
  b : q.view.b f = p.view.b f
  head : q.view.head f = p.view.head f
  g : q.view.g = p.view.g

namespace Dce

theorem AgreeOn.symm {p q : Program} {f : Func} (h : AgreeOn p q f) : AgreeOn q p f := ⟨h.lay.symm, h.l.symm, h.b.symm, h.head.symm, h.g.symm⟩
theorem AgreeOn.trans {p q r : Program} {f : Func} (h : AgreeOn p q f) (h' : AgreeOn q r f) : AgreeOn p r f :=
  ⟨h'.lay.trans h.lay, h'.l.trans h.l, h'.b.trans h.b, h'.head.trans h.head, h'.g.trans h.g⟩
theorem AgreeOn.refl (p : Program) (f : Func) : AgreeOn p p f := ⟨rfl, rfl, rfl, rfl, rfl⟩

theorem AgreeOn.localVal {p q : Program} {f : Func} (h : AgreeOn p q f) {v : Value} {x : VData} (hx : LocalVal p f v x) :
    ∃ y, LocalVal q f v y ∧ y.ty = x.ty ∧ y.name = x.name ∧ y.kind = x.kind := by
  have h1 : q.view.l f v = some x.shape := by rw [h.l]; exact view_l_iff.2 ⟨x, hx, rfl⟩
  obtain ⟨y, hy, e⟩ := view_l_iff.1 h1
  exact ⟨y, hy, congrArg (·.1) e, congrArg (·.2.1) e, congrArg (·.2.2) e⟩

theorem AgreeOn.needed {p q : Program} {f : Func} (h : AgreeOn p q f) {v : Value} (hv : Spec.Needed p f v) : Spec.Needed q f v := by
  induction hv with
  | effect hx hc =>
    obtain ⟨y, hy, -, -, e⟩ := h.localVal hx
    exact .effect hy (by rw [e]; exact hc)
  | operand _ hu hx hl ih =>
    obtain ⟨z, hz, ho⟩ := hu
    obtain ⟨y, hy, -, -, e⟩ := h.localVal hx
    obtain ⟨z', hz', -, -, e'⟩ := h.localVal hz
    exact .operand ih ⟨z', hz', by rw [e']; exact ho⟩ hy (by rw [e]; exact hl)

theorem AgreeOn.fn {p q : Program} {f : Func} (h : AgreeOn p q f) {fd : FData} (hf : p.funcs.get? f = some fd) :
    ∃ fd', q.funcs.get? f = some fd' ∧ fd'.ty = fd.ty ∧ fd'.name = fd.name ∧ fd'.params = fd.params ∧ fd'.layout = fd.layout := by
  have h1 := h.head
  have h2 := h.lay
  simp only [Program.view, hf, Option.map_some] at h1 h2
  obtain ⟨fd', h3, h4⟩ := Option.map_eq_some_iff.1 h1
  rw [h3] at h2
  simp only [Prod.mk.injEq] at h4
  exact ⟨fd', h3, h4.1, h4.2.1, h4.2.2, Option.some.inj h2⟩

theorem AgreeOn.block {p q : Program} {f : Func} (h : AgreeOn p q f) {b : BB} {x : BData} (hx : Block p f b x) :
    ∃ y, Block q f b y ∧ y.name = x.name ∧ y.params = x.params := by
  have h1 : q.view.b f b = some (x.name, x.params) := by rw [h.b]; exact view_b_iff.2 ⟨x, hx, rfl, rfl⟩
  exact view_b_iff.1 h1

theorem AgreeOn.cleaned {p p' q q' : Program} {f : Func} (h : AgreeOn p q f) (h' : AgreeOn p' q' f) (hC : Cleaned p p' f) : Cleaned q q' f := by
  refine ⟨?_, ?_, ?_, ?_, ?_, ?_⟩
  · obtain ⟨fd, fd', keep, h1, h2, h3, h4, h5, h6, h7⟩ := hC.layout
    obtain ⟨gd, k1, k2, k3, k4, k5⟩ := h.fn h1
    obtain ⟨gd', l1, l2, l3, l4, l5⟩ := h'.fn h2
    refine ⟨gd, gd', keep, k1, l1, by rw [k2, l2, h3], by rw [k3, l3, h4], by rw [k4, l4, h5], by rw [l5, k5, h6], ?_⟩
    intro b is v hb hv
    rw [k5] at hb
    exact (h7 b is v hb hv).trans ⟨h.needed, h.symm.needed⟩
  · intro v x' hx'
    obtain ⟨y', hy', e1, e2, e3⟩ := h'.symm.localVal hx'
    obtain ⟨y, hy, e4, e5, e6⟩ := hC.kept v y' hy'
    obtain ⟨x, hx, e7, e8, e9⟩ := h.localVal hy
    exact ⟨x, hx, by rw [← e1, e4, e7], by rw [← e2, e5, e8], by rw [← e3, e9]; exact e6⟩
  · intro v x hx hn
    obtain ⟨y, hy, -, -, e⟩ := h.symm.localVal hx
    rw [← e]
    refine (hC.removed v y hy (fun y' hy' => ?_)).imp (fun h1 => ⟨h1.1, fun h2 => h1.2 (h.symm.needed h2)⟩) id
    obtain ⟨z, hz, -⟩ := h'.localVal hy'
    exact hn z hz
  · rintro u o ⟨x, hx, ho⟩
    obtain ⟨y, hy, -, -, e⟩ := h'.symm.localVal hx
    rcases hC.closed u o ⟨y, hy, by rw [e]; exact ho⟩ with ⟨z, hz⟩ | ⟨z, hz⟩
    · obtain ⟨z', hz', -⟩ := h'.localVal hz
      exact .inl ⟨z', hz'⟩
    · have : q'.view.g o = some z.shape := by rw [h'.g]; exact view_g_iff.2 ⟨z, hz, rfl⟩
      obtain ⟨z', hz', -⟩ := view_g_iff.1 this
      exact .inr ⟨z', hz'⟩
  · intro b x hx
    obtain ⟨y, hy, e1, e2⟩ := h.symm.block hx
    obtain ⟨y', hy', e3, e4, e5⟩ := hC.blocks b y hy
    obtain ⟨x', hx', e6, e7⟩ := h'.block hy'
    refine ⟨x', hx', by rw [e6, e3, e1], by rw [e7, ← e2]; exact e4, fun v hv => ?_⟩
    rw [e7]
    refine (e5 v (by rw [e2]; exact hv)).imp id (fun h1 z hz => ?_)
    obtain ⟨z', hz', -⟩ := h'.symm.localVal hz
    exact h1 z' hz'
  · intro b x hx v hv
    obtain ⟨y, hy, -, e⟩ := h'.symm.block hx
    obtain ⟨u, z, hz, ho⟩ := hC.used b y hy v (by rw [e]; exact hv)
    obtain ⟨z', hz', -, -, e'⟩ := h'.localVal hz
    exact ⟨u, z', hz', by rw [e']; exact ho⟩

theorem Round.cleaned {f : Func} {live live' : List Value} {p p' : Program} (h : Round f live live' p p')
    (hn : ∀ v ∈ live, ∀ x, ¬ LocalVal p f v x) (hS : Sane p f)
    (hu : ∀ b x, Block p' f b x → ∀ v ∈ x.params, ∃ u, LocalUse p' f u v) : Cleaned p p' f := by
  have hiff : ∀ v x, LocalVal p f v x → (v ∈ live' ↔ Spec.Needed p f v) := fun v x hx =>
    ⟨fun hv => (h.only v hv).elim (fun hl => absurd hx (hn v hl x)) id, h.needed v⟩
  refine ⟨?_, ?_, ?_, ?_, ?_, hu⟩
  · obtain ⟨l, l', h1, h2, h3⟩ := h.lay
    obtain ⟨fd, hf, rfl⟩ := Option.map_eq_some_iff.1 (show (p.funcs.get? f).map (·.layout) = some l from h1)
    obtain ⟨fd', hf', rfl⟩ := Option.map_eq_some_iff.1 (show (p'.funcs.get? f).map (·.layout) = some l' from h2)
    have h4 := congrFun h.rest.1 f
    simp only [Program.view, hf, hf', Option.map_some, Option.some.injEq, Prod.mk.injEq] at h4
    refine ⟨fd, fd', _, hf, hf', h4.1, h4.2.1, h4.2.2, h3, ?_⟩
    intro b is v hb hv
    obtain ⟨t, n, k, h5, -⟩ := hS.listed _ b v h1 ⟨is, hb, hv⟩
    obtain ⟨x, hx, -⟩ := view_l_iff.1 h5
    rw [decide_eq_true_iff]
    exact hiff v x hx
  · intro v x' hx'
    obtain ⟨k0, h1, h2⟩ := h.vals v x'.ty x'.name x'.kind (view_l_iff.2 ⟨x', hx', rfl⟩)
    obtain ⟨x, hx, e⟩ := view_l_iff.1 h1
    exact ⟨x, hx, (congrArg (·.1) e).symm, (congrArg (·.2.1) e).symm, by rw [show x.kind = k0 from congrArg (·.2.2) e]; exact h2⟩
  · intro v x hx hno
    have h1 : p'.view.l f v = none := by
      cases e : p'.view.l f v with
      | none => rfl
      | some s =>
        obtain ⟨y, hy, -⟩ := view_l_iff.1 e
        exact absurd hy (hno y)
    exact (h.gone v x.ty x.name x.kind (view_l_iff.2 ⟨x, hx, rfl⟩) h1).imp (fun h2 => ⟨h2.1, fun h3 => h2.2 (h.needed v h3)⟩) id
  · intro u o ho
    exact (h.inv.inv.closedL f u o ho).symm
  · intro b x hx
    obtain ⟨ps', h1, h2, h3⟩ := h.blocks b x.name x.params (view_b_iff.2 ⟨x, hx, rfl, rfl⟩)
    obtain ⟨x', hx', e1, e2⟩ := view_b_iff.1 h1
    refine ⟨x', hx', e1, by rw [e2]; exact h2, fun v hv => ?_⟩
    rw [e2]
    refine (h3 v hv).imp id (fun h4 y hy => ?_)
    rw [view_l_iff.2 ⟨y, hy, rfl⟩] at h4
    cases h4

theorem Round.agree {f : Func} {live live' : List Value} {p p' : Program} (h : Round f live live' p p') {g : Func} (e : g ≠ f) : AgreeOn p p' g :=
  ⟨(h.others g e).1, (h.others g e).2.1, (h.others g e).2.2, by rw [h.rest.1], h.rest.2.1⟩

theorem eliminates_spec {fs : List Func} {st st' : St} {p p' : Program} (h : Eliminates fs st p st' p') (hfs : fs.Nodup) (hi : DInv p)
    (hS : ∀ g, Sane p g) (hT : ∀ g, Stable p g st.liveset) (hw : st.worklist = []) (hn : ∀ f ∈ fs, ∀ v ∈ st.liveset, ∀ x, ¬ LocalVal p f v x) :
    (∀ f ∈ fs, Cleaned p p' f) ∧ (∀ f, f ∉ fs → AgreeOn p p' f) ∧ p'.view.insts = p.view.insts ∧ p'.view.fns = p.view.fns ∧
      p'.view.g = p.view.g ∧ ∀ chk, SameResults p p' chk := by
  induction h with
  | nil => exact ⟨(fun _ h => by cases h), (fun f _ => .refl _ f), rfl, rfl, rfl, fun _ => .refl⟩
  | @cons f fs n k o st st1 st2 p p1 p2 ho h1 _ ih =>
    rw [List.nodup_cons] at hfs
    obtain ⟨R, w1, u1⟩ := runOn_spec hi hS hT hw ho h1
    have hn1 : ∀ g ∈ fs, ∀ v ∈ st1.liveset, ∀ x, ¬ LocalVal p1 g v x := by
      intro g hg v hv x hx
      have hne : g ≠ f := fun e => hfs.1 (e ▸ hg)
      obtain ⟨y, hy, -⟩ := (R.agree hne).symm.localVal hx
      rcases R.only v hv with h2 | h2
      · exact hn g (by simp [hg]) v h2 y hy
      · obtain ⟨z, hz⟩ := needed_live h2
        exact hne (hi.inv.lDisj g f v y z hy hz)
    obtain ⟨a, b, c, d, d', e⟩ := ih hfs.2 R.inv R.sane R.stable w1 hn1
    refine ⟨?_, ?_, c.trans R.rest.2.2.1, d.trans R.rest.2.2.2, d'.trans R.rest.2.1, fun chk => (R.same chk).trans (e chk)⟩
    · intro g hg
      rcases List.mem_cons.1 hg with rfl | hg
      · exact (AgreeOn.refl p g).cleaned (b g hfs.1) (R.cleaned (hn g (by simp)) (hS g) u1)
      · exact (R.agree (fun e => hfs.1 (e ▸ hg))).symm.cleaned (.refl _ g) (a g hg)
    · intro g hg
      simp only [List.mem_cons, not_or] at hg
      exact (R.agree hg.1).trans (b g hg.2)

end Dce

/-- Programs from text have what dead code elimination relies on. -/
theorem Accepted.sane {w : World} {input : Str} {p : Program} (h : Accepted w input p) (f : Func) : Sane p f := by
  have hwf := C43_accepted_well_formed h
  obtain ⟨gs, hg, -⟩ := C47_program_is_text h
  obtain ⟨hi, vars, fns, hI, -, hfns⟩ := h.items hg
  have harms : ∀ v t m c b b' ts fs, p.view.l f v = some (t, m, .branch c b b' ts fs) → b = b' → ts = [] ∧ fs = [] := by
    intro v t m c b b' ts fs hv
    obtain ⟨x, hx, e⟩ := view_l_iff.1 hv
    have := hwf.typed.locals f v x hx
    rw [show x.kind = .branch c b b' ts fs from congrArg (·.2.2) e] at this
    generalize x.ty = T at this
    cases this with
    | branch _ _ _ _ _ h => exact h
  have hlu : ∀ v x y, LocalVal p f v x → LocalVal p f v y → x = y := by
    rintro v x y ⟨fd, h1, h2⟩ ⟨fd', h3, h4⟩
    rw [h1] at h3; cases h3; rw [h2] at h4; cases h4; rfl
  cases hf : p.funcs.get? f with
  | none =>
    refine ⟨fun b n ps hb => ?_, fun l b v hl => ?_, harms⟩
    · simp [Program.view, hf, bshapeOf] at hb
    · simp [Program.view, hf] at hl
  | some fd =>
    have hh : p.view.head f = some (fd.ty, fd.name, fd.params) := by simp [Program.view, hf]
    have hlay : p.view.lay f = some fd.layout := by simp [Program.view, hf]
    have h1 : f ∈ p.view.fns := by rw [hi.fns, hh]; rfl
    rw [hfns] at h1
    obtain ⟨⟨n, f'⟩, hm, rfl⟩ := List.mem_map.1 h1
    obtain ⟨fd', hf', h2⟩ := hI.func hm
    rw [hf] at hf'; cases hf'
    rcases h2 with ⟨a, b, c, d⟩ | ⟨params, ret, bbs, order, r, gv, gf, hdef, hF⟩
    · refine ⟨fun b n ps hb => ?_, fun l b v hl hv => ?_, harms⟩
      · obtain ⟨x, hx, -⟩ := view_b_iff.1 hb
        exact absurd hx (d.noBlocks.2 b x)
      · rw [hlay] at hl; cases hl
        obtain ⟨is, hb, -⟩ := hv
        rw [d.noBlocks.1] at hb; cases hb
    · refine ⟨fun b n ps hb v hv t m k hk => ?_, fun l b v hl hv => ?_, harms⟩
      · obtain ⟨x, hx, -, rfl⟩ := view_b_iff.1 hb
        obtain ⟨⟨b', is⟩, hm, rfl⟩ := List.mem_map.1 (hF.noOthers b x hx)
        obtain ⟨blk, hblk, ⟨y, hy, -, hP⟩, -⟩ := hF.blocks.memL _ hm
        have : y = x := by
          obtain ⟨_, e1, e2⟩ := hx
          obtain ⟨_, e3, e4⟩ := hy
          rw [e1] at e3; cases e3
          rw [e2] at e4; cases e4; rfl
        subst this
        obtain ⟨i, hi⟩ := List.getElem?_of_mem hv
        obtain ⟨q, hq⟩ : ∃ q, blk.params[i]? = some q := ⟨_, List.getElem?_eq_getElem (by
          rw [← hP.1]; exact (List.getElem?_eq_some_iff.1 hi).1)⟩
        obtain ⟨z, hz, -, -, hk'⟩ := hP.2 i q v hq hi
        obtain ⟨z', hz', e⟩ := view_l_iff.1 hk
        rw [hlu v z' z hz' hz] at e
        exact ⟨i, by rw [← show z.kind = k from congrArg (·.2.2) e]; exact hk'⟩
      · rw [hlay] at hl; cases hl
        obtain ⟨is, hb, hv⟩ := hv
        obtain ⟨blk, hblk, -, hS⟩ := hF.blocks.memL _ hb
        obtain ⟨st, hst, y, hy, -, hI'⟩ := hS.memL _ hv
        refine ⟨y.ty, y.name, y.kind, view_l_iff.2 ⟨y, hy, rfl⟩, ?_⟩
        generalize y.kind = K at hI'
        generalize y.ty = T at hI'
        cases hI' with
        | «def» h _ => cases h <;> rfl
        | call h => cases h; rfl
        | _ => rfl

theorem dce_accepted {w : World} {input : Str} {p p' : Program} {fs : List Func} {st : St} (ha : Accepted w input p) (hfs : fs.Nodup)
    (h : Eliminates fs .new p st p') : (∀ f ∈ fs, Cleaned p p' f) ∧ (∀ f, f ∉ fs → AgreeOn p p' f) ∧ p'.view.insts = p.view.insts ∧
      p'.view.fns = p.view.fns ∧ p'.view.g = p.view.g ∧ ∀ chk, SameResults p p' chk := by
  obtain ⟨gs, hg, -⟩ := C47_program_is_text ha
  exact eliminates_spec h hfs (ha.items hg).1.dinv ha.sane (fun _ _ hu => by cases hu) rfl (fun _ _ _ hu => by cases hu)

/-- C39: in every function on which the pass runs, exactly the instructions remain that have effects or that such an
instruction needs, in the same order; what is removed is mentioned nowhere; block parameters that are left are used. -/
theorem C39_exact {w : World} {input : Str} {p p' : Program} {fs : List Func} {st : St} (ha : Accepted w input p) (hfs : fs.Nodup)
    (h : Eliminates fs .new p st p') : ∀ f ∈ fs, Cleaned p p' f :=
  (dce_accepted ha hfs h).1

/-- C39, other functions and the global variables are as before. -/
theorem C39_rest {w : World} {input : Str} {p p' : Program} {fs : List Func} {st : St} (ha : Accepted w input p) (hfs : fs.Nodup)
    (h : Eliminates fs .new p st p') : p'.instLayout = p.instLayout ∧ p'.funcLayout = p.funcLayout ∧
      (∀ v x, GlobalVal p v x → ∃ x', GlobalVal p' v x' ∧ x'.ty = x.ty ∧ x'.name = x.name ∧ x'.kind = x.kind) ∧
      ∀ f, f ∉ fs → ∀ fd, p.funcs.get? f = some fd → ∃ fd', p'.funcs.get? f = some fd' ∧ fd'.ty = fd.ty ∧ fd'.name = fd.name ∧
        fd'.params = fd.params ∧ fd'.layout = fd.layout ∧
        ∀ v, (fd'.dfg.values.get? v).map (fun x => (x.ty, x.name, x.kind)) = (fd.dfg.values.get? v).map (fun x => (x.ty, x.name, x.kind)) := by
  obtain ⟨-, h1, h2, h3, h4, -⟩ := dce_accepted ha hfs h
  refine ⟨h2, h3, fun v x hx => ?_, fun f hf fd hfd => ?_⟩
  · have : p'.view.g v = some x.shape := by rw [h4]; exact view_g_iff.2 ⟨x, hx, rfl⟩
    obtain ⟨y, hy, e⟩ := view_g_iff.1 this
    exact ⟨y, hy, congrArg (·.1) e, congrArg (·.2.1) e, congrArg (·.2.2) e⟩
  · obtain ⟨fd', e1, e2, e3, e4, e5⟩ := (h1 f hf).fn hfd
    refine ⟨fd', e1, e2, e3, e4, e5, fun v => ?_⟩
    have := congrFun (h1 f hf).l v
    rw [view_l_self e1, view_l_self hfd] at this
    exact this

/-- C39, runs: a program that ends with a result, or that does not end, still does so. -/
theorem C39_preserves {w : World} {input : Str} {p p' : Program} {fs : List Func} {st : St} (ha : Accepted w input p) (hfs : fs.Nodup)
    (h : Eliminates fs .new p st p') (chk : Bool) : SameResults p p' chk :=
  (dce_accepted ha hfs h).2.2.2.2.2 chk

/-- Values and blocks in the order in which the model keeps them. -/
def keyOrders (f : Func) : Orders where
  values p := match p.funcs.get? f with | some fd => fd.dfg.values.keys | none => []
  bbs p := match p.funcs.get? f with | some fd => once fd.dfg.bbs.keys | none => []
  set _ l := once l
  map _ m := m

theorem keyOrders_ok (f : Func) : (keyOrders f).Ok f := by
  refine ⟨?_, ?_, fun p => ?_, ⟨fun _ _ _ => mem_once, fun _ _ => once_nodup, fun _ _ => .refl _⟩⟩
  · rintro p v x ⟨fd, hf, hx⟩
    simp only [keyOrders, hf]
    exact Map.mem_keys.2 (by rw [hx]; rfl)
  · rintro p b x ⟨fd, hf, hx⟩
    simp only [keyOrders, hf]
    exact mem_once.2 (Map.mem_keys.2 (by rw [hx]; rfl))
  · simp only [keyOrders]
    split
    · exact once_nodup
    · exact .nil

/-- `%z` is dead; `%y` is not used, so that `%d` is needed only for an argument that disappears. -/
def deadText : Str :=
  "fun @main(): i32 {%e: %a = mul 6, 7 %d = sub %a, 2 %z = add %d, 1 jump %t(%a, %d) %t(%x: i32, %y: i32): %c = add %x, 1 ret %c}".toList

/-- The run on the first function ends; before it `n` instructions are listed, after it `m`, and `k` of them compute
a value that no value of the function mentions. -/
def elimCheck (n m k : Nat) (p : Program) : Bool :=
  match p.funcLayout with
  | f :: _ => match runOn f 100 (keyOrders f) 10 .new p with
    | some (_, p') => match p.funcs.get? f, p'.funcs.get? f with
      | some fd, some fd' => (fd.layout.bbs.flatMap (·.2)).length == n && (fd'.layout.bbs.flatMap (·.2)).length == m &&
          ((fd'.layout.bbs.flatMap (·.2)).filter (fun v => match fd'.dfg.values.get? v with
            | some x => computes x.kind && fd'.dfg.values.keys.all (fun u => match fd'.dfg.values.get? u with
              | some y => decide (v ∉ operands y.kind)
              | none => true)
            | none => false)).length == k
      | _, _ => false
    | none => false
  | [] => false

theorem elimCheck_iff {n m k : Nat} {p : Program} (h : elimCheck n m k p = true) : ∃ f st p' fd fd', Eliminates [f] .new p st p' ∧
    p.funcs.get? f = some fd ∧ p'.funcs.get? f = some fd' ∧ (fd.layout.bbs.flatMap (·.2)).length = n ∧ (fd'.layout.bbs.flatMap (·.2)).length = m ∧
    (0 < k → ∃ b is v x, (b, is) ∈ fd'.layout.bbs ∧ v ∈ is ∧ LocalVal p' f v x ∧ computes x.kind = true ∧ ∀ u, ¬ LocalUse p' f u v) := by
  unfold elimCheck at h
  split at h
  · rename_i f l hf
    split at h
    · rename_i st p' hp'
      split at h
      · rename_i fd fd' h1 h2
        simp only [Bool.and_eq_true, beq_iff_eq] at h
        refine ⟨f, st, p', fd, fd', .cons (keyOrders_ok f) hp' .nil, h1, h2, h.1.1, h.1.2, fun hk => ?_⟩
        obtain ⟨v, hv⟩ := List.exists_mem_of_length_pos (by rw [h.2]; exact hk)
        obtain ⟨hv, hc⟩ := List.mem_filter.1 hv
        obtain ⟨⟨b, is⟩, hb, hv⟩ := List.mem_flatMap.1 hv
        split at hc
        · rename_i x hx
          simp only [Bool.and_eq_true, List.all_eq_true] at hc
          refine ⟨b, is, v, x, hb, hv, ⟨fd', h2, hx⟩, hc.1, ?_⟩
          rintro u ⟨y, ⟨fd2, e1, e2⟩, ho⟩
          rw [h2] at e1; cases e1
          have := hc.2 u (Map.mem_keys.2 (by rw [e2]; rfl))
          rw [e2] at this
          simp [ho] at this
        · cases hc
      · cases h
    · cases h
  · cases h

/-- The hypotheses are met by a program from text, in which one of six instructions is removed. -/
example : ∃ p p' f st, Accepted someWorld deadText p ∧ [f].Nodup ∧ Eliminates [f] .new p st p' ∧ ∃ fd fd', p.funcs.get? f = some fd ∧
    p'.funcs.get? f = some fd' ∧ (fd.layout.bbs.flatMap (·.2)).length = 6 ∧ (fd'.layout.bbs.flatMap (·.2)).length = 5 := by
  obtain ⟨p, h, hq⟩ := acceptsWith_iff (input := deadText) (q := elimCheck 6 5 1) (by decide +kernel)
  obtain ⟨f, st, p', fd, fd', h1, h2, h3, h4, h5, -⟩ := elimCheck_iff hq
  exact ⟨p, p', f, st, h, by simp, h1, fd, fd', h2, h3, h4, h5⟩

/-- C39 does not hold in full: there is a program from text in which, after the run, an instruction is left that only
computes a value and that nothing mentions. It was needed for an argument, the argument went together with an unused
parameter, and the next round starts with the live instructions of the one before. -/
theorem C39_leftover : ∃ p p' f st fd' b is v x, Accepted someWorld deadText p ∧ Eliminates [f] .new p st p' ∧
    p'.funcs.get? f = some fd' ∧ (b, is) ∈ fd'.layout.bbs ∧ v ∈ is ∧ LocalVal p' f v x ∧ computes x.kind = true ∧ ∀ u, ¬ LocalUse p' f u v := by
  obtain ⟨p, h, hq⟩ := acceptsWith_iff (input := deadText) (q := elimCheck 6 5 1) (by decide +kernel)
  obtain ⟨f, st, p', fd, fd', h1, h2, h3, h4, h5, h6⟩ := elimCheck_iff hq
  obtain ⟨b, is, v, x, h7⟩ := h6 Nat.one_pos
  exact ⟨p, p', f, st, fd', b, is, v, x, h, h1, h3, h7⟩

namespace Dce

/-- All operands of `v` are live or local values. -/
def Seen (fd : FData) (live : List Value) (v : Value) : Prop :=
  ∀ d, fd.dfg.values.get? v = some d → ∀ o ∈ operands d.kind, o ∈ live ∨ (fd.dfg.values.get? o).isSome

theorem Seen.mono {fd : FData} {a b : List Value} {v : Value} (h : Seen fd a v) (hs : ∀ x ∈ a, x ∈ b) : Seen fd b v :=
  fun d hd o ho => (h d hd o ho).imp (hs o) id

theorem visit_seen {fd : FData} : ∀ {vs : List Value} {st st' : St}, (∀ v ∈ st.liveset, (fd.dfg.values.get? v).isSome) → visit fd vs st = some st' →
    (∀ v ∈ vs, v ∈ st'.liveset ∨ (fd.dfg.values.get? v).isSome) ∧ (∀ v ∈ st.liveset, v ∈ st'.liveset) ∧
    (∀ v ∈ st'.liveset, (fd.dfg.values.get? v).isSome) ∧ ∀ v ∈ st'.liveset, v ∈ st.liveset ∧ (v ∈ st.worklist → v ∈ st'.worklist) ∨ v ∈ st'.worklist
  | [], st, st', hl, h => by
    cases h
    exact ⟨by simp, fun _ h => h, hl, fun v hv => .inl ⟨hv, id⟩⟩
  | u :: us, st, st', hl, h => by
    unfold visit at h
    split at h
    · rename_i hu
      obtain ⟨h1, h2, h3, h4⟩ := visit_seen hl h
      refine ⟨fun v hv => ?_, h2, h3, h4⟩
      rcases List.mem_cons.1 hv with rfl | hv
      · exact .inl (h2 v hu)
      · exact h1 v hv
    · split at h
      · cases h
      · rename_i d hd
        obtain ⟨h1, h2, h3, h4⟩ := visit_seen (by
          split
          · intro v hv
            simp only [St.add, List.mem_cons] at hv
            rcases hv with rfl | hv
            · rw [hd]; rfl
            · exact hl v hv
          · exact hl) h
        have hsub : ∀ v ∈ st.liveset, v ∈ (if d.kind.isLocalInst then st.add u else st).liveset := by
          intro v hv
          split
          · simp [St.add, hv]
          · exact hv
        refine ⟨fun v hv => ?_, fun v hv => h2 v (hsub v hv), h3, fun v hv => ?_⟩
        · rcases List.mem_cons.1 hv with rfl | hv
          · exact .inr (by rw [hd]; rfl)
          · exact h1 v hv
        · rcases h4 v hv with ⟨h5, h6⟩ | h5
          · split at h5
            · rename_i hk
              rw [if_pos hk] at h6
              simp only [St.add, List.mem_cons] at h5 h6
              rcases h5 with rfl | h5
              · exact .inr (h6 (.inl rfl))
              · exact .inl ⟨h5, fun h => h6 (.inr h)⟩
            · rename_i hk
              rw [if_neg hk] at h6
              exact .inl ⟨h5, h6⟩
          · exact .inr h5

theorem markLoop_seen {fd : FData} : ∀ {n : Nat} {st st' : St}, (∀ v ∈ st.liveset, (fd.dfg.values.get? v).isSome) →
    (∀ v ∈ st.liveset, v ∈ st.worklist ∨ Seen fd st.liveset v) → markLoop fd n st = some st' →
    (∀ v ∈ st.liveset, v ∈ st'.liveset) ∧ (∀ v ∈ st'.liveset, (fd.dfg.values.get? v).isSome) ∧ ∀ v ∈ st'.liveset, Seen fd st'.liveset v
  | 0, _, _, _, _, h => by cases h
  | n + 1, st, st', hl, hs, h => by
    unfold markLoop at h
    split at h
    · rename_i hw
      cases h
      exact ⟨fun _ h => h, hl, fun v hv => (hs v hv).elim (fun h => by rw [hw] at h; cases h) id⟩
    · rename_i v wl hw
      split at h
      · cases h
      · rename_i d hd
        split at h
        · cases h
        · rename_i st1 h1
          obtain ⟨k1, k2, k3, k4⟩ := visit_seen (st := { worklist := wl, liveset := st.liveset }) hl h1
          have hsee : Seen fd st1.liveset v := by
            intro d' hd' o ho
            rw [hd] at hd'; cases hd'
            exact k1 o (by rw [valueUses_eq]; exact ho)
          obtain ⟨g1, g2, g3⟩ := markLoop_seen k3 (fun u hu => by
            rcases k4 u hu with ⟨k5, k6⟩ | k5
            · by_cases e : u = v
              · subst e; exact .inr hsee
              · rcases hs u k5 with k7 | k7
                · rw [hw] at k7
                  rcases List.mem_cons.1 k7 with k7 | k7
                  · exact absurd k7 e
                  · exact .inl (k6 k7)
                · exact .inr (k7.mono k2)
            · exact .inl k5) h
          exact ⟨fun u hu => g1 u (k2 u hu), g2, g3⟩

theorem seed_seen {fd : FData} : ∀ {vs : List Value} {st : St}, (∀ v ∈ st.liveset, v ∈ st.worklist ∧ (fd.dfg.values.get? v).isSome) →
    (∀ v ∈ st.liveset, v ∈ (seed fd vs st).liveset) ∧
    (∀ v ∈ (seed fd vs st).liveset, v ∈ (seed fd vs st).worklist ∧ (fd.dfg.values.get? v).isSome) ∧
    ∀ v ∈ vs, ∀ d, fd.dfg.values.get? v = some d → isCritical d.kind = true → v ∈ (seed fd vs st).liveset
  | [], st, hl => ⟨fun _ h => h, hl, by simp⟩
  | v :: vs, st, hl => by
    unfold seed
    split
    · rename_i d hd
      obtain ⟨h1, h2, h3⟩ := seed_seen (vs := vs) (st := if isCritical d.kind then st.add v else st) (by
        split
        · intro u hu
          simp only [St.add, List.mem_cons] at hu ⊢
          rcases hu with rfl | hu
          · exact ⟨.inl rfl, by rw [hd]; rfl⟩
          · exact ⟨.inr (hl u hu).1, (hl u hu).2⟩
        · exact hl)
      refine ⟨fun u hu => h1 u ?_, h2, fun u hu e he hc => ?_⟩
      · split
        · simp [St.add, hu]
        · exact hu
      · rcases List.mem_cons.1 hu with rfl | hu
        · rw [hd] at he; cases he
          exact h1 u (by rw [if_pos hc]; simp [St.add])
        · exact h3 u hu e he hc
    · rename_i hd
      obtain ⟨h1, h2, h3⟩ := seed_seen (vs := vs) hl
      refine ⟨h1, h2, fun u hu e he hc => ?_⟩
      rcases List.mem_cons.1 hu with rfl | hu
      · rw [hd] at he; cases he
      · exact h3 u hu e he hc

end Dce

/-- The pass panics on every function in which an instruction with an effect mentions a global variable. -/
theorem C39_global_panics {p : Program} {f : Func} {u v : Value} {x : VData} {o : Orders} {n k : Nat} (ho : o.Ok f) (hu : LocalVal p f u x)
    (he : effectful x.kind = true) (hm : v ∈ operands x.kind) (hv : ∀ y, ¬ LocalVal p f v y) : runOn f n o k .new p = none := by
  cases k with
  | zero => rfl
  | succ k =>
    unfold runOn round
    obtain ⟨fd, hf, hx⟩ := hu
    simp only [hf]
    have : mark fd n (o.values p) .new = none := by
      cases hc : mark fd n (o.values p) .new with
      | none => rfl
      | some st =>
        exfalso
        obtain ⟨h1, h2, h3⟩ := seed_seen (fd := fd) (vs := o.values p) (st := .new) (fun v hv => by cases hv)
        obtain ⟨g1, g2, g3⟩ := markLoop_seen (fun v hv => (h2 v hv).2) (fun v hv => .inl (h2 v hv).1) hc
        have hin := g1 u (h3 u (ho.values p u x ⟨fd, hf, hx⟩) x hx (by rw [isCritical_eq]; exact he))
        have hal : (fd.dfg.values.get? v).isSome := (g3 u hin x hx v hm).elim (g2 v) id
        obtain ⟨d, hd⟩ := Option.isSome_iff_exists.1 hal
        exact hv d ⟨fd, hf, hd⟩
    rw [this]

/-- A function that stores to a global variable. -/
def globalText : Str := "global @g = alloc i32, 0 fun @main() {%e: store 1, @g\n ret\n}".toList

/-- The first function has an instruction with an effect that mentions something that is no local value. -/
def mentionsGlobal (p : Program) : Bool :=
  match p.funcLayout with
  | f :: _ => match p.funcs.get? f with
    | some fd => fd.dfg.values.keys.any (fun u => match fd.dfg.values.get? u with
      | some x => effectful x.kind && (operands x.kind).any (fun v => (fd.dfg.values.get? v).isNone)
      | none => false)
    | none => false
  | [] => false

/-- The hypotheses of `C39_global_panics` are met by a program from text. -/
example : ∃ p f u v x, Accepted someWorld globalText p ∧ (keyOrders f).Ok f ∧ LocalVal p f u x ∧ effectful x.kind = true ∧ v ∈ operands x.kind ∧
    ∀ y, ¬ LocalVal p f v y := by
  obtain ⟨p, h, hq⟩ := acceptsWith_iff (input := globalText) (q := mentionsGlobal) (by decide +kernel)
  unfold mentionsGlobal at hq
  split at hq
  · rename_i f l hf
    split at hq
    · rename_i fd hfd
      obtain ⟨u, -, hu⟩ := List.any_eq_true.1 hq
      split at hu
      · rename_i x hx
        simp only [Bool.and_eq_true] at hu
        obtain ⟨v, hv, hn⟩ := List.any_eq_true.1 hu.2
        refine ⟨p, f, u, v, x, h, keyOrders_ok f, ⟨fd, hfd, hx⟩, hu.1, hv, ?_⟩
        rintro y ⟨fd', e1, e2⟩
        rw [hfd] at e1; cases e1
        rw [e2] at hn; cases hn
      · cases hu
    · cases hq
  · cases hq

end Koopa
