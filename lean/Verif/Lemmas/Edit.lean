import Verif.Lemmas.Uses
/-! What the four ways to change a value do to the maps: one common description. -/
namespace Koopa
open Spec

/-- Effect on the data of value `v` when `u` stops using `old` and starts using `new`. -/
def VData.touch (u : Value) (old new : List Value) (v : Value) (x : VData) : VData :=
  let x := if v ∈ old then x.delUser u else x
  if v ∈ new then x.addUser u else x

def BData.touch (u : Value) (old new : List BB) (b : BB) (x : BData) : BData :=
  let x := if b ∈ old then x.delUser u else x
  if b ∈ new then x.addUser u else x

@[simp] theorem VData.touch_ty (u old new v) (x : VData) : (x.touch u old new v).ty = x.ty := by
  unfold VData.touch; repeat' split
  all_goals rfl
@[simp] theorem VData.touch_name (u old new v) (x : VData) : (x.touch u old new v).name = x.name := by
  unfold VData.touch; repeat' split
  all_goals rfl
@[simp] theorem VData.touch_kind (u old new v) (x : VData) : (x.touch u old new v).kind = x.kind := by
  unfold VData.touch; repeat' split
  all_goals rfl
@[simp] theorem BData.touch_name (u old new v) (x : BData) : (x.touch u old new v).name = x.name := by
  unfold BData.touch; repeat' split
  all_goals rfl
@[simp] theorem BData.touch_params (u old new v) (x : BData) : (x.touch u old new v).params = x.params := by
  unfold BData.touch; repeat' split
  all_goals rfl

theorem VData.mem_touch (u old new v) (x : VData) (w : Value) :
    w ∈ (x.touch u old new v).usedBy ↔
      (w = u ∧ v ∈ new) ∨ (w ∈ x.usedBy ∧ (w ≠ u ∨ v ∉ old)) := by
  unfold VData.touch VData.delUser VData.addUser
  by_cases h1 : v ∈ old <;> by_cases h2 : v ∈ new <;> simp [h1, h2] <;> grind

theorem BData.mem_touch (u old new v) (x : BData) (w : Value) :
    w ∈ (x.touch u old new v).usedBy ↔
      (w = u ∧ v ∈ new) ∨ (w ∈ x.usedBy ∧ (w ≠ u ∨ v ∉ old)) := by
  unfold BData.touch BData.delUser BData.addUser
  by_cases h1 : v ∈ old <;> by_cases h2 : v ∈ new <;> simp [h1, h2] <;> grind

theorem BData.nodup_touch (u old new v) (x : BData) (h : x.usedBy.Nodup) : (x.touch u old new v).usedBy.Nodup := by
  have hs : ∀ l : List Value, l.Nodup → (setInsert u l).Nodup := by
    intro l hl
    unfold setInsert
    split
    · exact hl
    · rename_i h2; exact List.nodup_cons.2 ⟨h2, hl⟩
  unfold BData.touch
  by_cases h1 : v ∈ old <;> by_cases h2 : v ∈ new <;> simp only [h1, h2, if_true, if_false]
  · exact hs _ (h.filter _)
  · exact h.filter _
  · exact hs _ h
  · exact h

/-- Handles are never both global and local. -/
def Ctx.Disj (c : Ctx) : Prop := ∀ v, c.g.get? v ≠ none → c.d.values.get? v = none

theorem modData_eq {c c' : Ctx} {v : Value} {f : VData → VData} (hd : c.Disj)
    (h : c.modData v f = some c') :
    (∀ w, c'.g.get? w = (c.g.get? w).map (fun x => if w = v then f x else x)) ∧
    (∀ w, c'.d.values.get? w = (c.d.values.get? w).map (fun x => if w = v then f x else x)) ∧
    c'.d.bbs = c.d.bbs ∧ (c.data v).isSome ∧ c'.Disj := by
  unfold Ctx.modData at h
  have key : (∀ w, c'.g.get? w = (c.g.get? w).map (fun x => if w = v then f x else x)) ∧
    (∀ w, c'.d.values.get? w = (c.d.values.get? w).map (fun x => if w = v then f x else x)) ∧
    c'.d.bbs = c.d.bbs ∧ (c.data v).isSome := by
    split at h
    · rename_i x hx
      have := hd v (by simp [hx])
      cases h
      refine ⟨fun w => ?_, fun w => ?_, rfl, by simp [Ctx.data, hx]⟩
      · simp only [Map.get?_insert]
        by_cases hw : w = v
        · subst hw; simp [hx]
        · simp [hw]
      · by_cases hw : w = v
        · subst hw; simp [this]
        · simp [hw]
    · rename_i hg
      split at h
      · rename_i x hx
        cases h
        refine ⟨fun w => ?_, fun w => ?_, rfl, by simp [Ctx.data, hg, hx]⟩
        · by_cases hw : w = v
          · subst hw; simp [hg]
          · simp [hw]
        · simp only [Map.get?_insert]
          by_cases hw : w = v
          · subst hw; simp [hx]
          · simp [hw]
      · simp at h
  obtain ⟨h1, h2, h3, h4⟩ := key
  refine ⟨h1, h2, h3, h4, ?_⟩
  intro w hw
  rw [h1] at hw; rw [h2]
  have := hd w (by intro e; simp [e] at hw)
  simp [this]

theorem data_isSome_iff {c : Ctx} {v : Value} :
    (c.data v).isSome ↔ (c.g.get? v).isSome ∨ (c.d.values.get? v).isSome := by
  unfold Ctx.data; cases c.g.get? v <;> simp

theorem addUses_eq {vs : List Value} {c c' : Ctx} {u : Value} (hd : c.Disj)
    (h : c.addUses u vs = some c') :
    (∀ w, c'.g.get? w = (c.g.get? w).map (fun x => if w ∈ vs then x.addUser u else x)) ∧
    (∀ w, c'.d.values.get? w = (c.d.values.get? w).map (fun x => if w ∈ vs then x.addUser u else x)) ∧
    c'.d.bbs = c.d.bbs ∧ (∀ v ∈ vs, (c.data v).isSome) ∧ c'.Disj := by
  induction vs generalizing c with
  | nil => simp only [Ctx.addUses, Option.some.injEq] at h; subst h; simp [hd]
  | cons v vs ih =>
    simp only [Ctx.addUses] at h
    split at h
    · rename_i c1 h1
      obtain ⟨a1, a2, a3, a4, a5⟩ := modData_eq hd h1
      obtain ⟨b1, b2, b3, b4, b5⟩ := ih a5 h
      refine ⟨fun w => ?_, fun w => ?_, by rw [b3, a3], ?_, b5⟩
      · rw [b1, a1, Option.map_map]; congr 1; funext x
        by_cases hw : w = v <;> by_cases hw2 : w ∈ vs <;>
          simp_all [VData.addUser, setInsert_idem]
      · rw [b2, a2, Option.map_map]; congr 1; funext x
        by_cases hw : w = v <;> by_cases hw2 : w ∈ vs <;>
          simp_all [VData.addUser, setInsert_idem]
      · intro w hw
        rcases List.mem_cons.1 hw with rfl | hw
        · exact a4
        · have := b4 w hw
          rw [data_isSome_iff] at this ⊢
          rw [a1, a2] at this; simpa using this
    · simp at h

theorem delUses_eq {vs : List Value} {c c' : Ctx} {u : Value} (hd : c.Disj)
    (h : c.delUses u vs = some c') :
    (∀ w, c'.g.get? w = (c.g.get? w).map (fun x => if w ∈ vs then x.delUser u else x)) ∧
    (∀ w, c'.d.values.get? w = (c.d.values.get? w).map (fun x => if w ∈ vs then x.delUser u else x)) ∧
    c'.d.bbs = c.d.bbs ∧ (∀ v ∈ vs, (c.data v).isSome) ∧ c'.Disj := by
  induction vs generalizing c with
  | nil => simp only [Ctx.delUses, Option.some.injEq] at h; subst h; simp [hd]
  | cons v vs ih =>
    simp only [Ctx.delUses] at h
    split at h
    · rename_i c1 h1
      obtain ⟨a1, a2, a3, a4, a5⟩ := modData_eq hd h1
      obtain ⟨b1, b2, b3, b4, b5⟩ := ih a5 h
      refine ⟨fun w => ?_, fun w => ?_, by rw [b3, a3], ?_, b5⟩
      · rw [b1, a1, Option.map_map]; congr 1; funext x
        by_cases hw : w = v <;> by_cases hw2 : w ∈ vs <;>
          simp_all [VData.delUser, setErase_idem]
      · rw [b2, a2, Option.map_map]; congr 1; funext x
        by_cases hw : w = v <;> by_cases hw2 : w ∈ vs <;>
          simp_all [VData.delUser, setErase_idem]
      · intro w hw
        rcases List.mem_cons.1 hw with rfl | hw
        · exact a4
        · have := b4 w hw
          rw [data_isSome_iff] at this ⊢
          rw [a1, a2] at this; simpa using this
    · simp at h

theorem modBb_eq {c c' : Ctx} {b : BB} {f : BData → BData} (h : c.modBb b f = some c') :
    c'.g = c.g ∧ c'.d.values = c.d.values ∧
    (∀ w, c'.d.bbs.get? w = (c.d.bbs.get? w).map (fun x => if w = b then f x else x)) ∧
    (c.d.bbs.get? b).isSome := by
  unfold Ctx.modBb at h
  split at h
  · rename_i x hx
    cases h
    refine ⟨rfl, rfl, fun w => ?_, by simp [hx]⟩
    simp only [Map.get?_insert]
    by_cases hw : w = b
    · subst hw; simp [hx]
    · simp [hw]
  · simp at h

theorem addBbUses_eq {bs : List BB} {c c' : Ctx} {u : Value} (h : c.addBbUses u bs = some c') :
    c'.g = c.g ∧ c'.d.values = c.d.values ∧
    (∀ w, c'.d.bbs.get? w = (c.d.bbs.get? w).map (fun x => if w ∈ bs then x.addUser u else x)) ∧
    (∀ b ∈ bs, (c.d.bbs.get? b).isSome) := by
  induction bs generalizing c with
  | nil => simp only [Ctx.addBbUses, Option.some.injEq] at h; subst h; simp
  | cons v vs ih =>
    simp only [Ctx.addBbUses] at h
    split at h
    · rename_i c1 h1
      obtain ⟨a1, a2, a3, a4⟩ := modBb_eq h1
      obtain ⟨b1, b2, b3, b4⟩ := ih h
      refine ⟨by rw [b1, a1], by rw [b2, a2], fun w => ?_, ?_⟩
      · rw [b3, a3, Option.map_map]; congr 1; funext x
        by_cases hw : w = v <;> by_cases hw2 : w ∈ vs <;>
          simp_all [BData.addUser, setInsert_idem]
      · intro w hw
        rcases List.mem_cons.1 hw with rfl | hw
        · exact a4
        · have := b4 w hw
          rw [a3] at this; simpa using this
    · simp at h

theorem delBbUses_eq {bs : List BB} {c c' : Ctx} {u : Value} (h : c.delBbUses u bs = some c') :
    c'.g = c.g ∧ c'.d.values = c.d.values ∧
    (∀ w, c'.d.bbs.get? w = (c.d.bbs.get? w).map (fun x => if w ∈ bs then x.delUser u else x)) ∧
    (∀ b ∈ bs, (c.d.bbs.get? b).isSome) := by
  induction bs generalizing c with
  | nil => simp only [Ctx.delBbUses, Option.some.injEq] at h; subst h; simp
  | cons v vs ih =>
    simp only [Ctx.delBbUses] at h
    split at h
    · rename_i c1 h1
      obtain ⟨a1, a2, a3, a4⟩ := modBb_eq h1
      obtain ⟨b1, b2, b3, b4⟩ := ih h
      refine ⟨by rw [b1, a1], by rw [b2, a2], fun w => ?_, ?_⟩
      · rw [b3, a3, Option.map_map]; congr 1; funext x
        by_cases hw : w = v <;> by_cases hw2 : w ∈ vs <;>
          simp_all [BData.delUser, setErase_idem]
      · intro w hw
        rcases List.mem_cons.1 hw with rfl | hw
        · exact a4
        · have := b4 w hw
          rw [a3] at this; simpa using this
    · simp at h

/-- Operands of an optional kind. -/
def opsOf (k : Option VKind) : List Value := (k.map operands).getD []
/-- Targets of an optional kind. -/
def tgtsOf (k : Option VKind) : List BB := (k.map targets).getD []

/-- `c'` results from `c` by changing local value `u` from kind `old` to data `data`
(`none`: absent). -/
structure Ctx.Edit (c c' : Ctx) (u : Value) (old : Option VKind) (data : Option VData) : Prop where
  disj : c'.Disj
  self : c'.d.values.get? u = data
  locals : ∀ w, w ≠ u → c'.d.values.get? w =
    (c.d.values.get? w).map (VData.touch u (opsOf old) (opsOf (data.map (·.kind))) w)
  globals : ∀ w, c'.g.get? w =
    (c.g.get? w).map (VData.touch u (opsOf old) (opsOf (data.map (·.kind))) w)
  bbs : ∀ b, c'.d.bbs.get? b =
    (c.d.bbs.get? b).map (BData.touch u (tgtsOf old) (tgtsOf (data.map (·.kind))) b)
  live : ∀ v ∈ opsOf (data.map (·.kind)),
    (c.g.get? v).isSome ∨ (v ≠ u ∧ (c.d.values.get? v).isSome)
  liveBb : ∀ b ∈ tgtsOf (data.map (·.kind)), (c.d.bbs.get? b).isSome

theorem insertLocal_disj {c : Ctx} {u : Value} {x : VData} (hd : c.Disj) (hg : c.g.get? u = none) :
    (c.insertLocal u x).Disj := by
  intro v hv
  show (c.d.values.insert u x).get? v = none
  rw [Map.get?_insert]
  have hne : v ≠ u := by rintro rfl; exact hv hg
  rw [if_neg hne]; exact hd v hv

theorem eraseLocal_disj {c : Ctx} {u : Value} (hd : c.Disj) : (c.eraseLocal u).Disj := by
  intro v hv
  show (c.d.values.erase u).get? v = none
  rw [Map.get?_erase]; split
  · rfl
  · exact hd v hv

theorem newValueData_edit {c c' : Ctx} {u : Value} {data : VData} (hd : c.Disj)
    (hg : c.g.get? u = none) (hl : c.d.values.get? u = none)
    (h : c.newValueData u data = some c') : c.Edit c' u none (some data) := by
  unfold Ctx.newValueData at h
  simp only [Option.bind_eq_bind, Option.bind_eq_some_iff, Option.some.injEq] at h
  obtain ⟨c1, h1, c2, h2, rfl⟩ := h
  rw [valueUses_eq] at h1; rw [bbUses_eq] at h2
  obtain ⟨a1, a2, a3, a4, a5⟩ := addUses_eq hd h1
  obtain ⟨b1, b2, b3, b4⟩ := addBbUses_eq h2
  have d2 : c2.Disj := by intro v hv; rw [b1] at hv; rw [b2]; exact a5 v hv
  refine ⟨insertLocal_disj d2 (by rw [b1, a1, hg]; rfl), Map.get?_insert_self .., ?_, ?_, ?_, ?_, ?_⟩
  · intro w hw
    show (c2.d.values.insert u data).get? w = _
    rw [Map.get?_insert_ne _ _ hw, b2, a2]
    rfl
  · intro w
    show c2.g.get? w = _
    rw [b1, a1]; rfl
  · intro b
    show c2.d.bbs.get? b = _
    rw [b3, a3]; rfl
  · intro v hv
    have := a4 v hv
    rw [data_isSome_iff] at this
    rcases this with h | h
    · exact .inl h
    · refine .inr ⟨?_, h⟩
      rintro rfl; simp [hl] at h
  · intro b hb
    have := b4 b hb
    rwa [a3] at this

theorem replace_edit_core {c c1 c2 c3 c4 : Ctx} {u : Value} {old data : VData} (hd : c.Disj)
    (ho : c.d.values.get? u = some old)
    (h1 : (c.eraseLocal u).delUses u (operands old.kind) = some c1)
    (h2 : c1.delBbUses u (targets old.kind) = some c2)
    (h3 : c2.addUses u (operands data.kind) = some c3)
    (h4 : c3.addBbUses u (targets data.kind) = some c4) :
    c.Edit (c4.insertLocal u data) u (some old.kind) (some data) := by
  have hg : c.g.get? u = none := by
    cases hgu : c.g.get? u with
    | none => rfl
    | some x => have := hd u (by simp [hgu]); simp [this] at ho
  obtain ⟨a1, a2, a3, a4, a5⟩ := delUses_eq (eraseLocal_disj hd) h1
  obtain ⟨b1, b2, b3, b4⟩ := delBbUses_eq h2
  have d2 : c2.Disj := by intro v hv; rw [b1] at hv; rw [b2]; exact a5 v hv
  obtain ⟨e1, e2, e3, e4, e5⟩ := addUses_eq d2 h3
  obtain ⟨f1, f2, f3, f4⟩ := addBbUses_eq h4
  have d4 : c4.Disj := by intro v hv; rw [f1] at hv; rw [f2]; exact e5 v hv
  have hgE : (c.eraseLocal u).g = c.g := rfl
  have hbE : (c.eraseLocal u).d.bbs = c.d.bbs := rfl
  have hvE : ∀ w, (c.eraseLocal u).d.values.get? w = if w = u then none else c.d.values.get? w :=
    fun w => Map.get?_erase ..
  refine ⟨insertLocal_disj d4 ?_, Map.get?_insert_self .., ?_, ?_, ?_, ?_, ?_⟩
  · rw [f1, e1, b1, a1, hgE, hg]; rfl
  · intro w hw
    show (c4.d.values.insert u data).get? w = _
    rw [Map.get?_insert_ne _ _ hw, f2, e2, b2, a2, hvE, if_neg hw, Option.map_map]
    rfl
  · intro w
    show c4.g.get? w = _
    rw [f1, e1, b1, a1, hgE, Option.map_map]; rfl
  · intro b
    show c4.d.bbs.get? b = _
    rw [f3, e3, b3, a3, hbE, Option.map_map]; rfl
  · intro v hv
    have := e4 v hv
    rw [data_isSome_iff, b1, b2, a1, a2, hgE, hvE] at this
    rcases this with h | h
    · exact .inl (by simpa using h)
    · by_cases hvu : v = u
      · simp [hvu] at h
      · exact .inr ⟨hvu, by simpa [hvu] using h⟩
  · intro b hb
    have := f4 b hb
    rw [e3, b3, a3, hbE] at this; simpa using this

theorem replaceValueWithData_edit {c c' : Ctx} {u : Value} {data : VData} (hd : c.Disj)
    (h : c.replaceValueWithData u data = some c') :
    ∃ old, c.d.values.get? u = some old ∧
      c.Edit c' u (some old.kind) (some { data with usedBy := old.usedBy }) := by
  unfold Ctx.replaceValueWithData at h
  simp only [Option.bind_eq_bind, Option.bind_eq_some_iff, Option.some.injEq] at h
  obtain ⟨old, ho, c1, h1, c2, h2, c3, h3, c4, h4, rfl⟩ := h
  rw [valueUses_eq] at h1 h3; rw [bbUses_eq] at h2 h4
  exact ⟨old, ho, replace_edit_core (data := { data with usedBy := old.usedBy }) hd ho h1 h2 h3 h4⟩

theorem updateValue_edit {c c' : Ctx} {u : Value} {f : VData → VData} (hd : c.Disj)
    (h : c.updateValue u f = some c') :
    ∃ old, c.d.values.get? u = some old ∧ c.Edit c' u (some old.kind) (some (f old)) := by
  unfold Ctx.updateValue at h
  simp only [Option.bind_eq_bind, Option.bind_eq_some_iff, Option.some.injEq] at h
  obtain ⟨old, ho, c1, h1, c2, h2, c3, h3, c4, h4, rfl⟩ := h
  rw [valueUses_eq] at h1 h3; rw [bbUses_eq] at h2 h4
  exact ⟨old, ho, replace_edit_core hd ho h1 h2 h3 h4⟩

theorem removeValue_edit {c c' : Ctx} {u : Value} {data : VData} (hd : c.Disj)
    (h : c.removeValue u = some (c', data)) :
    c.d.values.get? u = some data ∧ data.usedBy = [] ∧ c.Edit c' u (some data.kind) none := by
  unfold Ctx.removeValue at h
  simp only [Option.bind_eq_bind, Option.bind_eq_some_iff, Option.some.injEq, guard,
    Prod.mk.injEq] at h
  obtain ⟨old, ho, _, hu, c1, h1, c2, h2, rfl, rfl⟩ := h
  have hu' : old.usedBy = [] := by
    by_cases hq : old.usedBy = []
    · exact hq
    · rw [if_neg hq] at hu; cases hu
  rw [valueUses_eq] at h1; rw [bbUses_eq] at h2
  obtain ⟨a1, a2, a3, a4, a5⟩ := delUses_eq (eraseLocal_disj hd) h1
  obtain ⟨b1, b2, b3, b4⟩ := delBbUses_eq h2
  have d2 : c2.Disj := by intro v hv; rw [b1] at hv; rw [b2]; exact a5 v hv
  have hgE : (c.eraseLocal u).g = c.g := rfl
  have hbE : (c.eraseLocal u).d.bbs = c.d.bbs := rfl
  have hvE : ∀ w, (c.eraseLocal u).d.values.get? w = if w = u then none else c.d.values.get? w :=
    fun w => Map.get?_erase ..
  refine ⟨ho, hu', d2, ?_, ?_, ?_, ?_, ?_, ?_⟩
  · rw [b2, a2, hvE]; simp
  · intro w hw
    rw [b2, a2, hvE, if_neg hw]; rfl
  · intro w
    rw [b1, a1, hgE]; rfl
  · intro b
    rw [b3, a3, hbE]; rfl
  · simp [opsOf]
  · simp [tgtsOf]

end Koopa
