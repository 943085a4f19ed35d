import Verif.Model.TypeSize
import Verif.Spec.TypeSize
/-!
C56: the size of a type is the number of bytes its scalars fill. The computation overflows for types
of 2^64 bytes and more.
-/
namespace Koopa
open Spec

theorem Ty.byArrays {M : Ty → Prop} (i32 : M .i32) (unit : M .unit) (ptr : ∀ t, M (.ptr t))
    (func : ∀ ps r, M (.func ps r)) (array : ∀ t n, M t → M (.array t n)) : ∀ t, M t
  | .i32 => i32
  | .unit => unit
  | .ptr t => ptr t
  | .func ps r => func ps r
  | .array t n => array t n (Ty.byArrays i32 unit ptr func array t)

theorem fillsAll_of {ps : Nat} {t : Ty} {s : Nat} (h : ∀ a b, Fills ps t a b ↔ b = a + s) :
    ∀ n a b, FillsAll ps t n a b ↔ b = a + s * n := by
  intro n
  induction n with
  | zero =>
    intro a b
    constructor
    · intro h1; cases h1; simp
    · intro h1; simp only [Nat.mul_zero, Nat.add_zero] at h1; subst h1; exact .nil ..
  | succ n ih =>
    intro a b
    rw [Nat.mul_succ]
    constructor
    · intro h1
      cases h1 with
      | cons h1 h2 =>
        have e1 := (h _ _).1 h1
        have e2 := (ih _ _).1 h2
        omega
    · intro h1
      exact .cons ((h a (a + s)).2 rfl) ((ih (a + s) b).2 (by omega))

/-- C56 on natural numbers: a value of the type that starts at byte `a` ends before byte `b` exactly if
`b` is `a` and the size. -/
theorem C56_size_is_bytes (ps : Nat) (t : Ty) : ∀ a b, Fills ps t a b ↔ b = a + t.size ps := by
  induction t using Ty.byArrays with
  | i32 => exact fun a b => ⟨fun h => by cases h; rfl, fun h => by subst h; exact .i32 _⟩
  | unit => exact fun a b => ⟨fun h => by cases h; rfl, fun h => by subst h; exact .unit _⟩
  | array t n ih =>
    intro a b
    rw [Ty.size, ← fillsAll_of ih]
    exact ⟨fun h => by cases h; assumption, .array⟩
  | ptr t => exact fun a b => ⟨fun h => by cases h; rfl, fun h => by subst h; exact .ptr ..⟩
  | func ps' r => exact fun a b => ⟨fun h => by cases h; rfl, fun h => by subst h; exact .func ..⟩

/-- Element `i` of an array starts at `i` times the size of the elements, and lies within the array. -/
theorem C56_element_offsets (ps : Nat) (t : Ty) (n i a b : Nat) (hi : i < n) (h : Fills ps (.array t n) a b) :
    FillsAll ps t i a (a + t.size ps * i) ∧ Fills ps t (a + t.size ps * i) (a + t.size ps * (i + 1)) ∧
    a + t.size ps * (i + 1) ≤ b := by
  refine ⟨(fillsAll_of (C56_size_is_bytes ps t) ..).2 rfl, (C56_size_is_bytes ..).2 (by rw [Nat.mul_succ]; omega), ?_⟩
  have := (C56_size_is_bytes ..).1 h
  rw [Ty.size] at this
  have := Nat.mul_le_mul_left (t.size ps) (show i + 1 ≤ n from hi)
  omega

theorem size_le_array {ps : Nat} {t : Ty} {n : Nat} (hn : 0 < n) : t.size ps ≤ (Ty.array t n).size ps := by
  rw [Ty.size]
  exact Nat.le_mul_of_pos_right _ hn

/-- C56 on the machine: as long as the bytes can be counted in a `usize`, the size is their number,
with or without overflow checks. -/
theorem C56_size_if_it_fits_partial (chk : Bool) (ps : Nat) (t : Ty) (ht : PosLens t) (b : Nat) (h : Fills ps t 0 b) (hb : b < usizeMax) :
    t.sizeUsize chk ps = some b := by
  rw [C56_size_is_bytes, Nat.zero_add] at h
  subst h
  induction t using Ty.byArrays with
  | array t n ih =>
    have h1 := ih ht.2 (Nat.lt_of_le_of_lt (size_le_array ht.1) hb)
    rw [Ty.size] at hb
    simp only [Ty.sizeUsize, h1, mulUsize, if_pos hb]
    rfl
  | _ => rfl

/-- With overflow checks the size is computed only if it is right: otherwise there is a panic. -/
theorem C56_checked_panics (ps : Nat) (t : Ty) (ht : PosLens t) (hp : ps < usizeMax) :
    t.sizeUsize true ps = if t.size ps < usizeMax then some (t.size ps) else none := by
  induction t using Ty.byArrays with
  | array t n ih =>
    simp only [Ty.sizeUsize, ih ht.2]
    by_cases h : t.size ps < usizeMax
    · have e : (Ty.array t n).size ps = t.size ps * n := rfl
      rw [e, if_pos h]
      by_cases h' : t.size ps * n < usizeMax
      · rw [if_pos h']; exact if_pos h'
      · rw [if_neg h']; exact if_neg h'
    · have := size_le_array (ps := ps) (t := t) ht.1
      simp only [if_neg h]
      rw [if_neg (by omega)]
  | i32 => rfl
  | unit => rfl
  | ptr t => exact (if_pos hp).symm
  | func a r => exact (if_pos hp).symm

/-- The claim for all types is false: without overflow checks a type of 2^66 bytes has size 0. -/
theorem C56_violated : ∃ t, PosLens t ∧ (∃ b, Fills 8 t 0 b ∧ 0 < b) ∧ t.sizeUsize false 8 = some 0 ∧ t.sizeUsize true 8 = none := by
  refine ⟨.array (.array .i32 (2 ^ 32)) (2 ^ 32), by simp [PosLens], ⟨_, (C56_size_is_bytes ..).2 rfl, ?_⟩, ?_, ?_⟩
  · simp [Ty.size]
  · simp [Ty.sizeUsize, mulUsize, usizeMax]
  · simp [Ty.sizeUsize, mulUsize, usizeMax]

/-- A case: five arrays of six pointers take 240 bytes, and so does an array of functions. -/
example : PosLens (.array (.array (.ptr .i32) 6) 5) ∧ Fills 8 (.array (.array (.ptr .i32) 6) 5) 0 240 ∧ 240 < usizeMax ∧
    Fills 4 (.array (.func [] .unit) 60) 0 240 :=
  ⟨by simp [PosLens], (C56_size_is_bytes ..).2 rfl, by simp [usizeMax], (C56_size_is_bytes ..).2 rfl⟩

end Koopa
