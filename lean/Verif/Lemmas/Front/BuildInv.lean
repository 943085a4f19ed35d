import Verif.Lemmas.View
import Verif.Model.Front.Builder
import Verif.Lemmas.TypingStep
import Verif.Props.LayoutParent
import Verif.Props.Edits
import Verif.Props.Typing
import Verif.Lemmas.NameForm
/-!
The invariant of programs built by the front end, and how the operations it uses preserve it.
-/
namespace Koopa
open Spec

/-- The conditions of the theorems about histories, all at once. -/
def FrontOk (p : Program) (op : Op) : Prop := op.Ok p ∧ op.TyOk p ∧ op.NoRemoveFunc ∧ op.BlockOk p ∧
  NamesGiven True op

/-- A program as the front end builds it. -/
structure FInv (p : Program) : Prop where
  reach : Reach FrontOk p
  max : p.ids.nextGlobal ≤ localStart
  lays : ∀ g l, p.view.lay g = some l → LInv l ∧ ∀ b is, (b, is) ∈ l.bbs →
    (p.view.b g b).isSome ∧ ∀ v ∈ is, (p.view.l g v).isSome

theorem GlobalInst.notRaw_named {i : GlobalInst} (h : i.notRaw) : NamesGiven True (.newGlobal i) := by
  cases i with
  | val i => cases i <;> first | exact h.elim | trivial
  | globalAlloc => trivial

theorem LocalInst.notRaw_named {f : Func} {i : LocalInst} (h : i.notRaw) :
    NamesGiven True (.newLocal f i) := by
  cases i with
  | val i => cases i <;> first | exact h.elim | trivial
  | _ => trivial

theorem LocalInst.notRaw_named' {f : Func} {v : Value} {i : LocalInst} (h : i.notRaw) :
    NamesGiven True (.replaceLocal f v i) := by
  cases i with
  | val i => cases i <;> first | exact h.elim | trivial
  | _ => trivial

theorem FInv.nameForm {p : Program} (h : FInv p) : NameForm True p := by
  have hr := h.reach
  generalize p = q at hr
  induction hr with
  | init ids => exact NameForm.new ids
  | step _ ho hs ih => exact ih.step ho.2.2.2.2 hs

theorem FInv.inv {p : Program} (h : FInv p) : Inv (fun _ _ => False) p :=
  (h.reach.mono (fun _ _ ho => ⟨ho.1, ho.2.2.1⟩)).invExact h.max

theorem FInv.wellTyped {p : Program} (h : FInv p) : WellTyped p :=
  C08_well_typed (h.reach.mono (fun _ _ ho => ⟨ho.1, ho.2.1⟩)) h.max

theorem view_l_iff {p : Program} {f : Func} {v : Value} {s : Sig} :
    p.view.l f v = some s ↔ ∃ x, LocalVal p f v x ∧ x.shape = s := by
  unfold Program.view LocalVal VData.shape
  simp only [shapeOf, Option.map_eq_some_iff, Option.bind_eq_some_iff]

theorem view_g_iff {p : Program} {v : Value} {s : Sig} :
    p.view.g v = some s ↔ ∃ x, GlobalVal p v x ∧ x.shape = s := by
  unfold Program.view GlobalVal VData.shape
  simp only [shapeOf, Option.map_eq_some_iff]

theorem view_b_iff {p : Program} {f : Func} {b : BB} {n : Option Str} {ps : List Value} :
    p.view.b f b = some (n, ps) ↔ ∃ x, Block p f b x ∧ x.name = n ∧ x.params = ps := by
  unfold Program.view Block
  simp only [bshapeOf, Option.map_eq_some_iff, Option.bind_eq_some_iff, Prod.mk.injEq]

theorem FInv.lRange {p : Program} (h : FInv p) {f : Func} {v : Value} {s : Sig}
    (hv : p.view.l f v = some s) : localStart ≤ v ∧ v < p.ids.nextLocal := by
  obtain ⟨x, hx, -⟩ := view_l_iff.1 hv
  exact h.inv.lRange f v x hx

theorem FInv.gRange {p : Program} (h : FInv p) {v : Value} {s : Sig}
    (hv : p.view.g v = some s) : globalStart ≤ v ∧ v < p.ids.nextGlobal := by
  obtain ⟨x, hx, -⟩ := view_g_iff.1 hv
  exact h.inv.gRange v x hx

theorem FInv.bRange {p : Program} (h : FInv p) {f : Func} {b : BB} {s : Option Str × List Value}
    (hv : p.view.b f b = some s) : b < p.ids.nextBb := by
  obtain ⟨x, hx, -⟩ := view_b_iff.1 hv
  exact h.inv.bRange f b x hx

theorem FInv.fRange {p : Program} (h : FInv p) {f : Func} {s : Ty × Str × List Value}
    (hv : p.view.head f = some s) : f < p.ids.nextFunc := by
  unfold Program.view at hv
  simp only [Option.map_eq_some_iff] at hv
  obtain ⟨fd, hf, -⟩ := hv
  exact h.inv.fRange f fd hf

theorem FInv.ft {p : Program} (h : FInv p) (f : Func) : p.view.ft f = (p.view.head f).map (·.1) := by
  have := (C42_program_layouts (h.reach.mono (fun _ _ _ => trivial))).2.2.1 f
  show p.funcTys.get? f = ((p.funcs.get? f).map _).map _
  rw [this]
  cases p.funcs.get? f <;> rfl

theorem FInv.fns {p : Program} (h : FInv p) (f : Func) : f ∈ p.view.fns ↔ (p.view.head f).isSome := by
  have := (C42_program_layouts (h.reach.mono (fun _ _ _ => trivial))).1 f
  unfold Program.view
  simp only [this, Option.isSome_map, Option.isSome_iff_exists]

/-- A value seen from function `f`. -/
def View.val (V : View) (f : Func) (v : Value) : Option Sig := (V.g v).or (V.l f v)

theorem ctx_data_view {p : Program} {f : Func} {fd : FData} (hf : p.funcs.get? f = some fd) (v : Value) :
    shapeOf ((p.ctx fd).data v) = p.view.val f v := by
  unfold View.val Ctx.data
  rw [view_l_self hf]
  show _ = (shapeOf (p.values.get? v)).or _
  have e : (p.ctx fd).g.get? v = p.values.get? v := rfl
  rw [e]
  cases hv : p.values.get? v with
  | none => simp [shapeOf, Program.ctx]
  | some x => simp [shapeOf]

/-- The information the builders ask for is a matter of the view. -/
theorem querier_view {p : Program} {f : Func} {fd : FData} (hf : p.funcs.get? f = some fd) :
    (p.ctx fd).querier p.funcTys =
      { valueType := fun v => (p.view.val f v).map (·.1)
        isConst := fun v => (p.view.val f v).map (·.2.2.isConst)
        bbParams := fun b => (p.view.b f b).map (·.2)
        funcType := fun g => p.view.ft g } := by
  unfold Ctx.querier
  congr 1
  · funext v; rw [← ctx_data_view hf]; simp only [shapeOf, Option.map_map]; rfl
  · funext v; rw [← ctx_data_view hf]; simp only [shapeOf, Option.map_map]; rfl
  · funext b
    rw [view_b_self hf]; simp only [bshapeOf, Option.map_map]; rfl

theorem globalQuerier_view (p : Program) :
    globalQuerier p.values =
      { valueType := fun v => (p.view.g v).map (·.1)
        isConst := fun v => (p.view.g v).map (·.2.2.isConst)
        bbParams := fun _ => none
        funcType := fun _ => none } := by
  unfold globalQuerier
  congr 1
  · funext v; unfold Program.view; simp only [shapeOf, Option.map_map]; rfl
  · funext v; unfold Program.view; simp only [shapeOf, Option.map_map]; rfl

/-! ### Growth -/

/-- Nothing is lost or changed. -/
structure Ext (p p' : Program) : Prop where
  g : ∀ v x, p.view.g v = some x → p'.view.g v = some x
  l : ∀ f v x, p.view.l f v = some x → p'.view.l f v = some x
  b : ∀ f b x, p.view.b f b = some x → p'.view.b f b = some x
  head : ∀ f x, p.view.head f = some x → p'.view.head f = some x
  nextGlobal : p.ids.nextGlobal ≤ p'.ids.nextGlobal
  nextLocal : p.ids.nextLocal ≤ p'.ids.nextLocal
  nextBb : p.ids.nextBb ≤ p'.ids.nextBb
  nextFunc : p.ids.nextFunc ≤ p'.ids.nextFunc

theorem Ext.refl (p : Program) : Ext p p :=
  ⟨fun _ _ h => h, fun _ _ _ h => h, fun _ _ _ h => h, fun _ _ h => h, Nat.le_refl _, Nat.le_refl _,
    Nat.le_refl _, Nat.le_refl _⟩

theorem Ext.trans {a b c : Program} (h : Ext a b) (h' : Ext b c) : Ext a c :=
  ⟨fun _ _ x => h'.g _ _ (h.g _ _ x), fun _ _ _ x => h'.l _ _ _ (h.l _ _ _ x),
    fun _ _ _ x => h'.b _ _ _ (h.b _ _ _ x), fun _ _ x => h'.head _ _ (h.head _ _ x),
    Nat.le_trans h.nextGlobal h'.nextGlobal, Nat.le_trans h.nextLocal h'.nextLocal,
    Nat.le_trans h.nextBb h'.nextBb, Nat.le_trans h.nextFunc h'.nextFunc⟩

theorem Ext.val {p p' : Program} (h : Ext p p') {f : Func} {v : Value} {x : Sig}
    (hi' : FInv p') (hv : p.view.val f v = some x) : p'.view.val f v = some x := by
  unfold View.val at hv ⊢
  cases hg : p.view.g v with
  | some y => rw [hg] at hv; rw [h.g v y hg]; exact hv
  | none =>
    rw [hg] at hv
    have hl : p.view.l f v = some x := by simpa using hv
    have hl' := h.l f v x hl
    cases hg' : p'.view.g v with
    | none => simpa using hl'
    | some y =>
      have h1 := hi'.gRange hg'
      have h2 := hi'.lRange hl'
      have := hi'.max
      omega

/-- Only local values are added. -/
structure GenExt (p p' : Program) : Prop where
  view : p'.view = { p.view with
    l := p'.view.l, ids := { p.ids with nextLocal := p'.ids.nextLocal } }
  l : ∀ f v x, p.view.l f v = some x → p'.view.l f v = some x
  fresh : ∀ f v x, p'.view.l f v = some x → p.view.l f v = some x ∨ p.ids.nextLocal ≤ v
  nextLocal : p.ids.nextLocal ≤ p'.ids.nextLocal

theorem GenExt.refl (p : Program) : GenExt p p :=
  ⟨rfl, fun _ _ _ h => h, fun _ _ _ h => .inl h, Nat.le_refl _⟩

theorem GenExt.ids {p p' : Program} (h : GenExt p p') :
    p'.ids = { p.ids with nextLocal := p'.ids.nextLocal } := by
  have := congrArg View.ids h.view
  exact this

theorem GenExt.g {p p' : Program} (h : GenExt p p') : p'.view.g = p.view.g := by rw [h.view]
theorem GenExt.b {p p' : Program} (h : GenExt p p') : p'.view.b = p.view.b := by rw [h.view]
theorem GenExt.head {p p' : Program} (h : GenExt p p') : p'.view.head = p.view.head := by rw [h.view]
theorem GenExt.lay {p p' : Program} (h : GenExt p p') : p'.view.lay = p.view.lay := by rw [h.view]
theorem GenExt.ft {p p' : Program} (h : GenExt p p') : p'.view.ft = p.view.ft := by rw [h.view]

theorem GenExt.trans {a b c : Program} (h : GenExt a b) (h' : GenExt b c) : GenExt a c := by
  refine ⟨?_, fun _ _ _ x => h'.l _ _ _ (h.l _ _ _ x), fun f v x hx => ?_, Nat.le_trans h.nextLocal h'.nextLocal⟩
  · rw [h'.view, h.view, h'.ids, h.ids]
  · rcases h'.fresh f v x hx with h1 | h1
    · exact h.fresh f v x h1
    · exact .inr (Nat.le_trans h.nextLocal h1)

theorem GenExt.ext {p p' : Program} (h : GenExt p p') : Ext p p' := by
  refine ⟨?_, h.l, ?_, ?_, ?_, h.nextLocal, ?_, ?_⟩
  · intro v x hv; rw [h.g]; exact hv
  · intro f b x hb; rw [h.b]; exact hb
  · intro f x hb; rw [h.head]; exact hb
  all_goals rw [h.ids]; exact Nat.le_refl _

/-! ### The operations -/

theorem FInv.same_lays {p p' : Program} (h : FInv p) (hr : Reach FrontOk p')
    (hm : p'.ids.nextGlobal ≤ localStart)
    (hl : ∀ g l, p'.view.lay g = some l → p.view.lay g = some l ∨ l = Layout.new)
    (hb : ∀ g b, (p.view.b g b).isSome → (p.view.lay g).isSome → (p'.view.b g b).isSome)
    (hv : ∀ g v, (p.view.l g v).isSome → (p.view.lay g).isSome → (p'.view.l g v).isSome) : FInv p' := by
  refine ⟨hr, hm, fun g l hg => ?_⟩
  rcases hl g l hg with h1 | rfl
  · obtain ⟨a, b⟩ := h.lays g l h1
    refine ⟨a, fun bb is hm => ?_⟩
    obtain ⟨c, d⟩ := b bb is hm
    have : (p.view.lay g).isSome := by rw [h1]; rfl
    exact ⟨hb g bb c this, fun v hvm => hv g v (d v hvm) this⟩
  · refine ⟨⟨by simp [Layout.new], by simp [Layout.new], ?_⟩, by simp [Layout.new]⟩
    intro i b; simp [Layout.new, Listed]

theorem FInv.newLocal {p p' : Program} {f : Func} {i : LocalInst} {v : Value} (hi : FInv p)
    (hr : i.notRaw) (h : p.newLocal f i = some (p', v)) : FInv p' ∧ GenExt p p' := by
  obtain ⟨fd, data, hf, hb, rfl, hv⟩ := newLocal_view h
  have hids : p'.ids = { p.ids with nextLocal := p.ids.nextLocal + 1 } := congrArg View.ids hv
  have hl : ∀ g w, p'.view.l g w = if g = f ∧ w = p.ids.nextLocal then some data.shape else p.view.l g w := by
    intro g w; rw [hv]
  have hkeep : ∀ g w x, p.view.l g w = some x → p'.view.l g w = some x := by
    intro g w x hx
    rw [hl, if_neg]
    · exact hx
    · rintro ⟨rfl, rfl⟩
      have := (hi.lRange hx).2; omega
  refine ⟨?_, ?_⟩
  · refine hi.same_lays (.step hi.reach (op := .newLocal f i) ⟨LocalInst.notRaw_rawOk hr, hr, trivial, trivial, LocalInst.notRaw_named hr⟩ ?_) ?_ ?_ ?_ ?_
    · show (p.newLocal f i).map (·.1) = some p'; rw [h]; rfl
    · rw [hids]; exact hi.max
    · intro g l hg; rw [hv] at hg; exact .inl hg
    · intro g b hb _; rw [hv]; exact hb
    · intro g w hw _
      obtain ⟨x, hx⟩ := Option.isSome_iff_exists.1 hw
      rw [hkeep g w x hx]; rfl
  · refine ⟨?_, hkeep, ?_, ?_⟩
    · rw [hids]
      conv => lhs; rw [hv]
      conv => rhs; rw [hv]
    · intro g w x hx
      rw [hl] at hx
      split at hx
      · rename_i hc; exact .inr (by omega)
      · exact .inl hx
    · rw [hids]; exact Nat.le_succ _

theorem FInv.setLocalName {p p' : Program} {f : Func} {v : Value} {n : Option Str} (hi : FInv p)
    (h : p.setLocalName f v n = some p') : FInv p' := by
  obtain ⟨t, n0, k, h1, hv⟩ := setLocalName_view h
  have hids : p'.ids = p.ids := congrArg View.ids hv
  refine hi.same_lays (.step hi.reach (op := .setLocalName f v n) ⟨trivial, trivial, trivial, trivial, trivial⟩ h) ?_ ?_ ?_ ?_
  · rw [hids]; exact hi.max
  · intro g l hg; rw [hv] at hg; exact .inl hg
  · intro g b hb _; rw [hv]; exact hb
  · intro g w hw _
    rw [hv]
    simp only
    split
    · rfl
    · exact hw

theorem FInv.newBb {p p' : Program} {f : Func} {n : Option Str} {ps : List (Option Str × Ty)} {b : BB}
    (hi : FInv p) (h : p.newBbWithParamNames f n ps = some (p', b)) : FInv p' ∧ Ext p p' := by
  obtain ⟨-, rfl, -, -, hv⟩ := newBbParams_view h
  have hids : p'.ids = { p.ids with nextLocal := p.ids.nextLocal + ps.length, nextBb := p.ids.nextBb + 1 } :=
    congrArg View.ids hv
  have hl : ∀ g w x, p.view.l g w = some x → p'.view.l g w = some x := by
    intro g w x hx
    rw [hv]
    simp only
    split
    · rename_i hg; subst hg
      have : paramSig VKind.blockArgRef p.ids.nextLocal 0 ps w = none := by
        simp [paramSig, (hi.lRange hx).2]
      rw [this]; simpa using hx
    · exact hx
  have hb : ∀ g w x, p.view.b g w = some x → p'.view.b g w = some x := by
    intro g w x hx
    rw [hv]
    simp only
    rw [if_neg]
    · exact hx
    · rintro ⟨rfl, rfl⟩
      have := hi.bRange hx; omega
  refine ⟨?_, ?_⟩
  · refine hi.same_lays (.step hi.reach (op := .newBbParams f n ps) ⟨trivial, trivial, trivial, trivial, trivial⟩ ?_) ?_ ?_ ?_ ?_
    · show (p.newBbWithParamNames f n ps).map (·.1) = some p'; rw [h]; rfl
    · rw [hids]; exact hi.max
    · intro g l hg; rw [hv] at hg; exact .inl hg
    · intro g b hb' _
      obtain ⟨x, hx⟩ := Option.isSome_iff_exists.1 hb'
      rw [hb g b x hx]; rfl
    · intro g w hw _
      obtain ⟨x, hx⟩ := Option.isSome_iff_exists.1 hw
      rw [hl g w x hx]; rfl
  · refine ⟨?_, hl, hb, ?_, ?_, ?_, ?_, ?_⟩
    · intro v x hx; rw [hv]; exact hx
    · intro v x hx; rw [hv]; exact hx
    all_goals rw [hids]; first | exact Nat.le_refl _ | exact Nat.le_add_right _ _

theorem FInv.noLocals {p : Program} (hi : FInv p) (v : Value) : p.view.l p.ids.nextFunc v = none ∧
    p.view.b p.ids.nextFunc v = none ∧ p.view.head p.ids.nextFunc = none ∧
    p.view.lay p.ids.nextFunc = none := by
  have : p.funcs.get? p.ids.nextFunc = none := by
    cases h : p.funcs.get? p.ids.nextFunc with
    | none => rfl
    | some fd => have := hi.inv.fRange _ _ h; omega
  unfold Program.view
  simp only [this]
  exact ⟨rfl, rfl, rfl, rfl⟩

theorem FInv.newFunc_core {p p' : Program} (hi : FInv p) (hr : Reach FrontOk p')
    (hg : p'.view.g = p.view.g) {f : Func} (hf : f = p.ids.nextFunc)
    (hl : ∀ f' w, f' ≠ f → p'.view.l f' w = p.view.l f' w)
    (hb : ∀ f' w, f' ≠ f → p'.view.b f' w = p.view.b f' w)
    (hh : ∀ f', f' ≠ f → p'.view.head f' = p.view.head f')
    (hlay : ∀ f', p'.view.lay f' = if f' = f then some Layout.new else p.view.lay f')
    (hids1 : p'.ids.nextGlobal = p.ids.nextGlobal) (hids2 : p.ids.nextLocal ≤ p'.ids.nextLocal)
    (hids3 : p'.ids.nextBb = p.ids.nextBb) (hids4 : p.ids.nextFunc ≤ p'.ids.nextFunc) :
    FInv p' ∧ Ext p p' := by
  subst hf
  have hne : ∀ f', (p.view.lay f').isSome → f' ≠ p.ids.nextFunc := by
    rintro f' h rfl
    rw [(hi.noLocals 0).2.2.2] at h; cases h
  refine ⟨?_, ?_⟩
  · refine hi.same_lays hr (by rw [hids1]; exact hi.max) ?_ ?_ ?_
    · intro g l hgl
      rw [hlay] at hgl
      split at hgl
      · cases hgl; exact .inr rfl
      · exact .inl hgl
    · intro g b h1 h2; rw [hb g b (hne g h2)]; exact h1
    · intro g b h1 h2; rw [hl g b (hne g h2)]; exact h1
  · refine ⟨?_, ?_, ?_, ?_, by omega, hids2, by omega, hids4⟩
    · intro v x hx; rw [hg]; exact hx
    · intro f v x hx
      rw [hl]; exact hx
      rintro rfl; rw [(hi.noLocals v).1] at hx; cases hx
    · intro f v x hx
      rw [hb]; exact hx
      rintro rfl; rw [(hi.noLocals v).2.1] at hx; cases hx
    · intro f x hx
      rw [hh]; exact hx
      rintro rfl; rw [(hi.noLocals 0).2.2.1] at hx; cases hx

theorem FInv.newFuncDef {p p' : Program} {n : Str} {ps : List (Option Str × Ty)} {r : Ty} {f : Func}
    (hi : FInv p) (h : p.newFuncDefWithParamNames n ps r = some (p', f)) : FInv p' ∧ Ext p p' := by
  obtain ⟨hf, -, -, hv⟩ := newFuncDef_view h
  have hids := congrArg View.ids hv
  have hids : p'.ids = { p.ids with nextLocal := p.ids.nextLocal + ps.length, nextFunc := f + 1 } := hids
  refine hi.newFunc_core (.step hi.reach (op := .newFuncDef n ps r) ⟨trivial, trivial, trivial, trivial, trivial⟩ ?_)
    (by rw [hv]) hf ?_ ?_ ?_ ?_ ?_ ?_ ?_ ?_
  · show (p.newFuncDefWithParamNames n ps r).map (·.1) = some p'; rw [h]; rfl
  · intro f' w hne; rw [hv]; simp [hne]
  · intro f' w hne; rw [hv]; simp [hne]
  · intro f' hne; rw [hv]; simp [hne]
  · intro f'; rw [hv]
  all_goals rw [hids]
  · exact Nat.le_add_right _ _
  · subst hf; exact Nat.le_succ _

theorem FInv.newFuncDecl {p p' : Program} {n : Str} {ps : List Ty} {r : Ty} {f : Func}
    (hi : FInv p) (h : p.newFuncDecl n ps r = some (p', f)) : FInv p' ∧ Ext p p' := by
  obtain ⟨hf, -, -, hv⟩ := newFuncDecl_view h
  have hids : p'.ids = { p.ids with nextFunc := f + 1 } := congrArg View.ids hv
  refine hi.newFunc_core (.step hi.reach (op := .newFuncDecl n ps r) ⟨trivial, trivial, trivial, trivial, trivial⟩ ?_)
    (by rw [hv]) hf ?_ ?_ ?_ ?_ ?_ ?_ ?_ ?_
  · show (p.newFuncDecl n ps r).map (·.1) = some p'; rw [h]; rfl
  · intro f' w hne; rw [hv]; simp [hne]
  · intro f' w hne; rw [hv]; simp [hne]
  · intro f' hne; rw [hv]; simp [hne]
  · intro f'; rw [hv]
  all_goals rw [hids]
  · exact Nat.le_refl _
  · subst hf; exact Nat.le_succ _

theorem FInv.newGlobal {p p' : Program} {i : GlobalInst} {v : Value} (hi : FInv p) (hr : i.notRaw)
    (h : p.newGlobal i = some (p', v)) (hm : p'.ids.nextGlobal ≤ localStart) : FInv p' ∧ Ext p p' := by
  obtain ⟨data, hb, rfl, hv⟩ := newGlobal_view h
  have hids : p'.ids = { p.ids with nextGlobal := p.ids.nextGlobal + 1 } := congrArg View.ids hv
  refine ⟨?_, ?_⟩
  · refine hi.same_lays (.step hi.reach (op := .newGlobal i) ⟨GlobalInst.notRaw_rawOk hr, hr, trivial, trivial, GlobalInst.notRaw_named hr⟩ ?_) hm ?_ ?_ ?_
    · show (p.newGlobal i).map (·.1) = some p'; rw [h]; rfl
    · intro g l hg; rw [hv] at hg; exact .inl hg
    · intro g b hb _; rw [hv]; exact hb
    · intro g b hb _; rw [hv]; exact hb
  · refine ⟨?_, ?_, ?_, ?_, ?_, ?_, ?_, ?_⟩
    · intro w x hx
      rw [hv]; simp only
      rw [if_neg]; exact hx
      rintro rfl; have := (hi.gRange hx).2; omega
    · intro f v x hx; rw [hv]; exact hx
    · intro f v x hx; rw [hv]; exact hx
    · intro f x hx; rw [hv]; exact hx
    all_goals rw [hids]; first | exact Nat.le_refl _ | exact Nat.le_succ _

theorem FInv.setGlobalName {p p' : Program} {v : Value} {n : Option Str} (hi : FInv p)
    (h : p.setGlobalName v n = some p') : FInv p' := by
  obtain ⟨t, n0, k, h1, hv⟩ := setGlobalName_view h
  have hids : p'.ids = p.ids := congrArg View.ids hv
  refine hi.same_lays (.step hi.reach (op := .setGlobalName v n) ⟨trivial, trivial, trivial, trivial, trivial⟩ h) ?_ ?_ ?_ ?_
  · rw [hids]; exact hi.max
  · intro g l hg; rw [hv] at hg; exact .inl hg
  · intro g b hb _; rw [hv]; exact hb
  · intro g b hb _; rw [hv]; exact hb

/-! ### Layout -/

theorem LInv.insts?_iff {l : Layout} (h : LInv l) {b : BB} {is : List Value} :
    l.insts? b = some is ↔ (b, is) ∈ l.bbs := lookup_eq_some_iff h.keys

theorem insertAt_length {α : Type} (x : α) (l : List α) : insertAt l.length x l = l ++ [x] := by
  simp [insertAt]

/-- Appending a block to the layout. -/
theorem pushBb_view {p p' : Program} {f : Func} {b : BB} (h : p.pushBb f b = some p') :
    ∃ l, p.view.lay f = some l ∧ b ∉ l.bbs.map (·.1) ∧
      p'.view = { p.view with
        lay := fun f' => if f' = f then some { l with bbs := l.bbs ++ [(b, [])] } else p.view.lay f' } := by
  unfold Program.pushBb at h
  obtain ⟨l, l', h1, h2, h3⟩ := onLayout_view h
  refine ⟨l, h1, ?_⟩
  unfold Layout.insertBb Layout.insts? at h2
  cases hl : Map.lookup l.bbs b with
  | some is => simp [hl] at h2
  | none =>
    simp only [hl, Option.some.injEq] at h2
    subst h2
    refine ⟨lookup_eq_none_iff.1 hl, ?_⟩
    rw [h3, insertAt_length]

theorem pushBb_step {p p' : Program} {f : Func} {b : BB} (h : p.pushBb f b = some p') :
    ∃ pos, p.step (.layout f (.insertBb pos b)) = some p' := by
  unfold Program.pushBb Program.onLayout at h
  simp only [Option.bind_eq_bind, Option.bind_eq_some_iff, Option.some.injEq] at h
  obtain ⟨fd, hf, l, h2, rfl⟩ := h
  refine ⟨fd.layout.bbs.length, ?_⟩
  unfold Program.step Program.onLayout
  simp only [hf, Layout.step, Option.bind_eq_bind, Option.bind_some]
  split at h2
  · rename_i l1 he; cases h2; rw [he]
  · cases h2

theorem FInv.pushBb {p p' : Program} {f : Func} {b : BB} (hi : FInv p)
    (hb : (p.view.b f b).isSome) (h : p.pushBb f b = some p') : FInv p' ∧ Ext p p' := by
  obtain ⟨l, hl, hn, hv⟩ := pushBb_view h
  obtain ⟨pos, hs⟩ := pushBb_step h
  have hids : p'.ids = p.ids := congrArg View.ids hv
  have e1 : p'.view.l = p.view.l := by rw [hv]
  have e2 : p'.view.b = p.view.b := by rw [hv]
  refine ⟨⟨.step hi.reach (op := .layout f (.insertBb pos b)) ⟨trivial, trivial, trivial, trivial, trivial⟩ hs,
    by rw [hids]; exact hi.max, ?_⟩, ?_⟩
  · intro g l' hg
    rw [e1, e2]
    rw [hv] at hg
    simp only at hg
    split at hg
    · rename_i he; subst he; cases hg
      obtain ⟨a, c⟩ := hi.lays g l hl
      have hstep : l.step (.insertBb l.bbs.length b) = some { l with bbs := l.bbs ++ [(b, [])] } := by
        show some (l.insertBb _ b).1 = _
        unfold Layout.insertBb Layout.insts?
        rw [lookup_eq_none_iff.2 hn, insertAt_length]
      refine ⟨a.step (op := .insertBb _ b) trivial hstep, ?_⟩
      intro b' is hm
      rcases List.mem_append.1 hm with h1 | h1
      · exact c b' is h1
      · rw [List.mem_singleton] at h1; cases h1
        exact ⟨hb, by simp⟩
    · exact hi.lays g l' hg
  · refine ⟨?_, ?_, ?_, ?_, ?_, ?_, ?_, ?_⟩
    · intro v x hx; rw [hv]; exact hx
    · intro f v x hx; rw [e1]; exact hx
    · intro f v x hx; rw [e2]; exact hx
    · intro f x hx; rw [hv]; exact hx
    all_goals rw [hids]; exact Nat.le_refl _

/-- Appending an instruction to a block. -/
theorem pushInst_view {p p' : Program} {f : Func} {b : BB} {v : Value} (h : p.pushInst f b v = some p') :
    ∃ l is, p.view.lay f = some l ∧ l.insts? b = some is ∧ v ∉ is ∧
      p'.view = { p.view with
        lay := fun f' => if f' = f then
          some { bbs := setInsts b (is ++ [v]) l.bbs, instBb := l.instBb.insert v b }
          else p.view.lay f' } := by
  unfold Program.pushInst at h
  obtain ⟨l, l', h1, h2, h3⟩ := onLayout_view h
  cases hl : l.insts? b with
  | none => simp [hl] at h2
  | some is =>
    refine ⟨l, is, h1, hl, ?_⟩
    simp only [hl, Layout.insertInst] at h2
    by_cases hv : v ∈ is
    · simp [hv] at h2
    · simp only [hv, if_false, Option.some.injEq] at h2
      subst h2
      exact ⟨hv, by rw [h3, insertAt_length]⟩

theorem pushInst_step {p p' : Program} {f : Func} {b : BB} {v : Value} (h : p.pushInst f b v = some p') :
    ∃ pos, p.step (.layout f (.insertInst b pos v)) = some p' := by
  unfold Program.pushInst Program.onLayout at h
  simp only [Option.bind_eq_bind, Option.bind_eq_some_iff, Option.some.injEq] at h
  obtain ⟨fd, hf, l, h2, rfl⟩ := h
  split at h2
  · cases h2
  · rename_i is his
    refine ⟨is.length, ?_⟩
    unfold Program.step Program.onLayout
    simp only [hf, Layout.step, Option.bind_eq_bind, Option.bind_some]
    split at h2
    · rename_i l1 he; cases h2; rw [he]; rfl
    · cases h2

theorem FInv.pushInst {p p' : Program} {f : Func} {b : BB} {v : Value} (hi : FInv p)
    (hv : (p.view.l f v).isSome)
    (hnew : ∀ l b' is, p.view.lay f = some l → (b', is) ∈ l.bbs → v ∉ is)
    (h : p.pushInst f b v = some p') : FInv p' ∧ Ext p p' := by
  obtain ⟨l, is, hl, his, hn, hvw⟩ := pushInst_view h
  obtain ⟨pos, hs⟩ := pushInst_step h
  have hids : p'.ids = p.ids := congrArg View.ids hvw
  have e1 : p'.view.l = p.view.l := by rw [hvw]
  have e2 : p'.view.b = p.view.b := by rw [hvw]
  refine ⟨⟨.step hi.reach (op := .layout f (.insertInst b pos v)) ⟨trivial, trivial, trivial, trivial, trivial⟩ hs,
    by rw [hids]; exact hi.max, ?_⟩, ?_⟩
  · intro g l' hg
    rw [e1, e2]
    rw [hvw] at hg
    simp only at hg
    split at hg
    · rename_i he; subst he; cases hg
      obtain ⟨a, c⟩ := hi.lays g l hl
      have hstep : l.step (.insertInst b is.length v) =
          some { bbs := setInsts b (is ++ [v]) l.bbs, instBb := l.instBb.insert v b } := by
        show (l.insertInst b _ v).map (·.1) = _
        unfold Layout.insertInst
        simp only [his, hn, if_false, insertAt_length]
        rfl
      refine ⟨a.step (op := .insertInst b _ v) ?_ hstep, ?_⟩
      · rintro b' ⟨js, hj, hvj⟩
        exact absurd hvj (hnew l b' js hl hj)
      · intro b' js hm
        have hm : (b', js) ∈ setInsts b (is ++ [v]) l.bbs := hm
        rw [mem_setInsts a.keys] at hm
        rcases hm with ⟨_, h1⟩ | ⟨rfl, rfl, _⟩
        · exact c b' js h1
        · obtain ⟨c1, c2⟩ := c b' is (a.insts?_iff.1 his)
          refine ⟨c1, fun w hw => ?_⟩
          rcases List.mem_append.1 hw with h1 | h1
          · exact c2 w h1
          · rw [List.mem_singleton] at h1; subst h1; exact hv
    · exact hi.lays g l' hg
  · refine ⟨?_, ?_, ?_, ?_, ?_, ?_, ?_, ?_⟩
    · intro v x hx; rw [hvw]; exact hx
    · intro f v x hx; rw [e1]; exact hx
    · intro f v x hx; rw [e2]; exact hx
    · intro f x hx; rw [hvw]; exact hx
    all_goals rw [hids]; exact Nat.le_refl _

end Koopa
