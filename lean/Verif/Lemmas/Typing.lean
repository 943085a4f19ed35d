import Verif.Spec.Typing
import Verif.Lemmas.Total
import Verif.Lemmas.Blocks
/-! Preservation of typing by the operations of the API. -/
namespace Koopa
open Spec

theorem Spec.All2.imp {α β : Type} {R R' : α → β → Prop} {as : List α} {bs : List β}
    (h : All2 R as bs) (hi : ∀ a ∈ as, ∀ b, R a b → R' a b) : All2 R' as bs := by
  induction h with
  | nil => exact .nil
  | cons h _ ih =>
    exact .cons (hi _ (by simp) _ h) (ih (fun a ha b hb => hi a (by simp [ha]) b hb))

/-- The function called by an instruction. -/
def callee : VKind → Option Func
  | .call g _ => some g
  | _ => none

/-- Typing depends only on the types of the operands, targets and callees. -/
theorem Spec.InstTy.mono {H H' : Value → Ty → Prop} {P P' : BB → List Ty → Prop}
    {F F' : Func → Ty → Prop} {k : VKind} {t : Ty} (h : InstTy H P F k t)
    (hH : ∀ v ∈ operands k, ∀ t, H v t → H' v t) (hP : ∀ b ∈ targets k, ∀ ts, P b ts → P' b ts)
    (hF : ∀ g, callee k = some g → ∀ t, F g t → F' g t) : InstTy H' P' F' k t := by
  cases h with
  | integer => exact .integer _
  | zeroInit h => exact .zeroInit h
  | undef h => exact .undef h
  | aggregate h1 h2 h3 => exact .aggregate h1 h2 (fun e he => hH e he _ (h3 e he))
  | funcArgRef h => exact .funcArgRef h
  | blockArgRef h => exact .blockArgRef h
  | alloc h => exact .alloc h
  | globalAlloc h1 h2 => exact .globalAlloc h1 (hH _ (by simp [operands]) _ h2)
  | load h => exact .load (hH _ (by simp [operands]) _ h)
  | store h1 h2 => exact .store (hH _ (by simp [operands]) _ h1) (hH _ (by simp [operands]) _ h2)
  | getPtr h1 h2 => exact .getPtr (hH _ (by simp [operands]) _ h1) (hH _ (by simp [operands]) _ h2)
  | getElemPtr h1 h2 =>
    exact .getElemPtr (hH _ (by simp [operands]) _ h1) (hH _ (by simp [operands]) _ h2)
  | binary h1 h2 => exact .binary (hH _ (by simp [operands]) _ h1) (hH _ (by simp [operands]) _ h2)
  | branch h1 h2 h3 h4 h5 h6 =>
    exact .branch (hH _ (by simp [operands]) _ h1) (hP _ (by simp [targets]) _ h2)
      (hP _ (by simp [targets]) _ h3) (h4.imp (fun a ha => hH a (by simp [operands, ha])))
      (h5.imp (fun a ha => hH a (by simp [operands, ha]))) h6
  | jump h1 h2 =>
    exact .jump (hP _ (by simp [targets]) _ h1) (h2.imp (fun a ha => hH a (by simp [operands, ha])))
  | call h1 h2 => exact .call (hF _ rfl _ h1) (h2.imp (fun a ha => hH a (by simp [operands, ha])))
  | retNone => exact .retNone
  | ret h1 h2 => exact .ret h1 (hH _ (by simp [operands]) _ h2)

/-! ### The builders -/

section
variable {q : Querier} {H : Value → Ty → Prop} {P : BB → List Ty → Prop} {F : Func → Ty → Prop}

theorem windowsSameType_spec (hH : ∀ v t, q.valueType v = some t → H v t) :
    ∀ (a : Value) (es : List Value) (t : Ty), q.valueType a = some t →
      windowsSameType q (a :: es) = some true → ∀ e ∈ a :: es, H e t
  | a, [], t, ha, _ => by
    intro e he; simp at he; subst he; exact hH _ _ ha
  | a, b :: es, t, ha, h => by
    simp only [windowsSameType, Option.bind_eq_bind, Option.bind_eq_some_iff, ha, Option.some.injEq] at h
    obtain ⟨_, rfl, tb, hb, h⟩ := h
    split at h
    · rename_i he
      subst he
      intro e hm
      rcases List.mem_cons.1 hm with rfl | hm
      · exact hH _ _ ha
      · exact windowsSameType_spec hH b es _ hb h e hm
    · cases h

/-- No data is inserted as it is. -/
def ValInst.notRaw : ValInst → Prop
  | .raw _ => False
  | _ => True
def LocalInst.notRaw : LocalInst → Prop
  | .val i => i.notRaw
  | _ => True
def GlobalInst.notRaw : GlobalInst → Prop
  | .val i => i.notRaw
  | _ => True

theorem isUnit_false {t : Ty} (h : (!t.isUnit) = true) : t ≠ .unit := by
  rintro rfl; cases h

theorem ValInst.build_ty (hH : ∀ v t, q.valueType v = some t → H v t) {i : ValInst}
    (hr : i.notRaw) {d : VData} (h : i.build q = some d) : InstTy H P F d.kind d.ty := by
  cases i with
  | raw => exact hr.elim
  | integer n => cases h; exact .integer n
  | zeroInit ty =>
    simp only [ValInst.build, Option.bind_eq_bind, Option.bind_eq_some_iff, assert_eq_some, Option.some.injEq] at h
    obtain ⟨_, h, rfl⟩ := h; exact .zeroInit (isUnit_false h)
  | undef ty =>
    simp only [ValInst.build, Option.bind_eq_bind, Option.bind_eq_some_iff, assert_eq_some, Option.some.injEq] at h
    obtain ⟨_, h, rfl⟩ := h; exact .undef (isUnit_false h)
  | aggregate es =>
    simp only [ValInst.build, Option.bind_eq_bind, Option.bind_eq_some_iff, assert_eq_some, Option.some.injEq] at h
    obtain ⟨_, h0, b1, _, _, _, b2, h2, _, h2', base, hb, _, hu, ty, ht, rfl⟩ := h
    subst h2'
    cases es with
    | nil => cases h0
    | cons e es =>
      unfold Ty.getArray at ht
      split at ht
      · cases ht
        exact .aggregate (by simp) (isUnit_false hu) (windowsSameType_spec hH e es base hb h2)
      · cases ht

theorem checkArgTypes_spec (hH : ∀ v t, q.valueType v = some t → H v t) :
    ∀ (ps as : List Value), ps.length = as.length → checkArgTypes q ps as = some () →
      ∃ ts, All2 (fun v t => q.valueType v = some t) ps ts ∧ All2 H as ts
  | [], [], _, _ => ⟨[], .nil, .nil⟩
  | p :: ps, a :: as, hl, h => by
    simp only [checkArgTypes, Option.bind_eq_bind, Option.bind_eq_some_iff, assert_eq_some,
      decide_eq_true_eq] at h
    obtain ⟨t, hp, t', ha, _, rfl, h⟩ := h
    obtain ⟨ts, h1, h2⟩ := checkArgTypes_spec hH ps as (by simpa using hl) h
    exact ⟨t :: ts, .cons hp h1, .cons (hH _ _ ha) h2⟩
  | [], _ :: _, hl, _ => by cases hl
  | _ :: _, [], hl, _ => by cases hl

theorem checkCallArgs_spec (hH : ∀ v t, q.valueType v = some t → H v t) :
    ∀ (ts : List Ty) (as : List Value), ts.length = as.length → checkCallArgs q ts as = some () →
      All2 H as ts
  | [], [], _, _ => .nil
  | t :: ts, a :: as, hl, h => by
    simp only [checkCallArgs, Option.bind_eq_bind, Option.bind_eq_some_iff, assert_eq_some,
      decide_eq_true_eq] at h
    obtain ⟨t', ha, _, rfl, h⟩ := h
    exact .cons (hH _ _ ha) (checkCallArgs_spec hH ts as (by simpa using hl) h)
  | [], _ :: _, hl, _ => by cases hl
  | _ :: _, [], hl, _ => by cases hl

theorem checkBbArgTypes_spec (hH : ∀ v t, q.valueType v = some t → H v t) {ps as : List Value}
    (h : checkBbArgTypes q ps as = some ()) :
    ∃ ts, All2 (fun v t => q.valueType v = some t) ps ts ∧ All2 H as ts := by
  simp only [checkBbArgTypes, Option.bind_eq_bind, Option.bind_eq_some_iff, assert_eq_some,
    decide_eq_true_eq] at h
  obtain ⟨_, hl, h⟩ := h
  exact checkArgTypes_spec hH ps as hl h

theorem LocalInst.build_ty (hH : ∀ v t, q.valueType v = some t → H v t)
    (hP : ∀ b ps ts, q.bbParams b = some ps → All2 (fun v t => q.valueType v = some t) ps ts → P b ts)
    (hF : ∀ g t, q.funcType g = some t → F g t) {i : LocalInst}
    (hr : i.notRaw) {d : VData} (h : i.build q = some d) : InstTy H P F d.kind d.ty := by
  have hnil : ∀ {b ps}, q.bbParams b = some ps → ps.isEmpty = true → P b [] := by
    intro b ps h he
    cases ps with
    | nil => exact hP _ _ _ h .nil
    | cons => cases he
  cases i <;> simp only [LocalInst.build, Option.bind_eq_bind, Option.bind_eq_some_iff, assert_eq_some,
    Option.some.injEq, Ty.isI32_iff, Bool.and_eq_true, decide_eq_true_eq] at h
  case val i => exact ValInst.build_ty hH hr h
  case alloc => obtain ⟨_, h, rfl⟩ := h; exact .alloc (isUnit_false h)
  case load =>
    obtain ⟨t, ht, h⟩ := h
    cases t <;> simp only [Option.some.injEq, reduceCtorEq] at h
    subst h; exact .load (hH _ _ ht)
  case store =>
    obtain ⟨t, ht, t', ht', _, rfl, rfl⟩ := h
    exact .store (hH _ _ ht) (hH _ _ ht')
  case getPtr =>
    obtain ⟨t, ht, h⟩ := h
    cases t <;> simp only [Option.bind_eq_some_iff, assert_eq_some,
      Option.some.injEq, Ty.isI32_iff, reduceCtorEq] at h
    obtain ⟨_, hi, _, rfl, rfl⟩ := h
    exact .getPtr (hH _ _ ht) (hH _ _ hi)
  case getElemPtr =>
    obtain ⟨it, hi, _, rfl, t, ht, h⟩ := h
    split at h
    · cases h; exact .getElemPtr (hH _ _ ht) (hH _ _ hi)
    · cases h
  case binary =>
    obtain ⟨t, ht, t', ht', _, ⟨rfl, rfl⟩, rfl⟩ := h
    exact .binary (hH _ _ ht) (hH _ _ ht')
  case branch =>
    obtain ⟨t, ht, _, rfl, tp, htp, _, h1, fp, hfp, _, h2, rfl⟩ := h
    exact .branch (hH _ _ ht) (hnil htp h1) (hnil hfp h2) .nil .nil (fun _ => ⟨rfl, rfl⟩)
  case branchWithArgs =>
    obtain ⟨t, ht, _, rfl, _, he, tp, htp, _, h1, fp, hfp, _, h2, rfl⟩ := h
    obtain ⟨ts, a1, a2⟩ := checkBbArgTypes_spec hH h1
    obtain ⟨fs, b1, b2⟩ := checkBbArgTypes_spec hH h2
    exact .branch (hH _ _ ht) (hP _ _ _ htp a1) (hP _ _ _ hfp b1) a2 b2 (fun e => by simpa [e] using he)
  case jump =>
    obtain ⟨tp, htp, _, h1, rfl⟩ := h
    exact .jump (hnil htp h1) .nil
  case jumpWithArgs =>
    obtain ⟨tp, htp, _, h1, rfl⟩ := h
    obtain ⟨ts, a1, a2⟩ := checkBbArgTypes_spec hH h1
    exact .jump (hP _ _ _ htp a1) a2
  case call =>
    obtain ⟨t, ht, h⟩ := h
    cases t <;> simp only [Option.bind_eq_some_iff, assert_eq_some, decide_eq_true_eq,
      Option.some.injEq, reduceCtorEq] at h
    obtain ⟨_, hl, _, h1, rfl⟩ := h
    exact .call (hF _ _ ht) (checkCallArgs_spec hH _ _ hl h1)
  case ret v =>
    cases v with
    | none => cases h; exact .retNone
    | some v =>
      simp only [Option.bind_eq_some_iff, assert_eq_some, Option.some.injEq] at h
      obtain ⟨t, ht, _, h1, rfl⟩ := h
      exact .ret (isUnit_false h1) (hH _ _ ht)

end

end Koopa
