/-!
Finite maps as association lists and finite sets as lists, used to model
`std::collections::HashMap` and `HashSet`. Only lookup, insertion and removal are
provided; nothing here depends on the order of entries.
-/
namespace Koopa

/-- Association list standing for a `HashMap`. -/
structure Map (κ ν : Type) where
  entries : List (κ × ν)
deriving Repr

namespace Map
variable {κ ν : Type} [DecidableEq κ]

def empty : Map κ ν := ⟨[]⟩

/-- `HashMap::get` on the entry list. -/
def lookup : List (κ × ν) → κ → Option ν
  | [], _ => none
  | (k', v) :: m, k => if k' = k then some v else lookup m k

/-- `HashMap::get`. -/
def get? (m : Map κ ν) (k : κ) : Option ν := lookup m.entries k

/-- `HashMap::remove` (the map afterwards). -/
def erase (m : Map κ ν) (k : κ) : Map κ ν := ⟨m.entries.filter (fun p => decide (p.1 ≠ k))⟩

/-- `HashMap::insert` (the map afterwards). -/
def insert (m : Map κ ν) (k : κ) (v : ν) : Map κ ν := ⟨(k, v) :: (m.erase k).entries⟩

/-- `HashMap::contains_key`. -/
def contains (m : Map κ ν) (k : κ) : Bool := (m.get? k).isSome

/-- `HashMap::is_empty`. -/
def isEmpty (m : Map κ ν) : Bool := m.entries.isEmpty

/-- Keys in entry order. -/
def keys (m : Map κ ν) : List κ := m.entries.map (·.1)

@[simp] theorem get?_empty (k : κ) : (empty : Map κ ν).get? k = none := rfl

theorem lookup_filter_ne (l : List (κ × ν)) (k k' : κ) :
    lookup (l.filter (fun p => decide (p.1 ≠ k))) k' = if k' = k then none else lookup l k' := by
  induction l with
  | nil => simp [lookup]
  | cons p l ih =>
    obtain ⟨a, b⟩ := p
    by_cases h : a = k
    · subst h
      simp only [ne_eq, not_true_eq_false, decide_false, Bool.false_eq_true, not_false_eq_true,
        List.filter_cons_of_neg, ih, lookup]
      by_cases h' : k' = a
      · simp [h']
      · simp [h', Ne.symm h']
    · simp only [ne_eq, h, not_false_eq_true, decide_true, List.filter_cons_of_pos, lookup, ih]
      by_cases h' : a = k'
      · subst h'; simp [h]
      · simp [h']

theorem get?_erase (m : Map κ ν) (k k' : κ) :
    (m.erase k).get? k' = if k' = k then none else m.get? k' :=
  lookup_filter_ne m.entries k k'

theorem get?_insert (m : Map κ ν) (k k' : κ) (v : ν) :
    (m.insert k v).get? k' = if k' = k then some v else m.get? k' := by
  show lookup ((k, v) :: (m.erase k).entries) k' = _
  have h := get?_erase m k k'
  simp only [get?] at h ⊢
  simp only [lookup, h]
  by_cases h' : k' = k
  · simp [h']
  · simp [h', Ne.symm h']

@[simp] theorem get?_insert_self (m : Map κ ν) (k : κ) (v : ν) : (m.insert k v).get? k = some v := by
  simp [get?_insert]

theorem get?_insert_ne (m : Map κ ν) {k k' : κ} (v : ν) (h : k' ≠ k) :
    (m.insert k v).get? k' = m.get? k' := by
  simp [get?_insert, h]

@[simp] theorem get?_erase_self (m : Map κ ν) (k : κ) : (m.erase k).get? k = none := by
  simp [get?_erase]

theorem get?_erase_ne (m : Map κ ν) {k k' : κ} (h : k' ≠ k) :
    (m.erase k).get? k' = m.get? k' := by
  simp [get?_erase, h]

theorem mem_keys_iff (m : Map κ ν) (k : κ) : k ∈ m.keys ↔ (m.get? k).isSome := by
  obtain ⟨l⟩ := m
  simp only [keys, get?]
  induction l with
  | nil => simp [lookup]
  | cons p l ih =>
    obtain ⟨a, b⟩ := p
    simp only [List.map_cons, List.mem_cons, ih, lookup]
    by_cases h : a = k
    · simp [h]
    · simp [h, Ne.symm h]

theorem mem_of_lookup {l : List (κ × ν)} {k : κ} {v : ν} (h : lookup l k = some v) : (k, v) ∈ l := by
  induction l with
  | nil => simp [lookup] at h
  | cons p l ih =>
    obtain ⟨a, b⟩ := p
    simp only [lookup] at h
    split at h
    · simp_all
    · exact List.mem_cons_of_mem _ (ih h)

theorem isEmpty_eq_false_of_get? {m : Map κ ν} {k : κ} {v : ν} (h : m.get? k = some v) :
    m.isEmpty = false := by
  have := mem_of_lookup h
  cases hm : m.entries with
  | nil => simp [hm] at this
  | cons p l => simp [isEmpty, hm]

end Map

/-! ### Sets -/

/-- `HashSet::insert`. -/
def setInsert {α : Type} [DecidableEq α] (x : α) (s : List α) : List α := if x ∈ s then s else x :: s

/-- `HashSet::remove`. -/
def setErase {α : Type} [DecidableEq α] (x : α) (s : List α) : List α := s.filter (fun y => decide (y ≠ x))

@[simp] theorem mem_setInsert {α : Type} [DecidableEq α] {x y : α} {s : List α} :
    y ∈ setInsert x s ↔ y = x ∨ y ∈ s := by
  unfold setInsert; split <;> simp_all

@[simp] theorem mem_setErase {α : Type} [DecidableEq α] {x y : α} {s : List α} :
    y ∈ setErase x s ↔ y ≠ x ∧ y ∈ s := by
  simp [setErase, and_comm]

theorem setInsert_idem {α : Type} [DecidableEq α] (x : α) (s : List α) :
    setInsert x (setInsert x s) = setInsert x s := by
  have : x ∈ setInsert x s := by simp
  rw [setInsert, if_pos this]

theorem setErase_idem {α : Type} [DecidableEq α] (x : α) (s : List α) :
    setErase x (setErase x s) = setErase x s := by
  simp [setErase]

theorem nodup_setInsert {α : Type} [DecidableEq α] {x : α} {s : List α} (h : s.Nodup) :
    (setInsert x s).Nodup := by
  unfold setInsert; split <;> simp_all

theorem nodup_setErase {α : Type} [DecidableEq α] {x : α} {s : List α} (h : s.Nodup) :
    (setErase x s).Nodup := h.filter _

end Koopa
