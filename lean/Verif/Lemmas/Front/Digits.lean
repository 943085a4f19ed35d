import Verif.Util.Show
import Verif.Model.Front.Token
/-!
Reading back decimal numbers.
-/
namespace Koopa

theorem parseDigits_append {a : Nat} {s t : Str} :
    parseDigits a (s ++ t) = (parseDigits a s).bind (fun n => parseDigits n t) := by
  induction s generalizing a with
  | nil => rfl
  | cons c s ih =>
    simp only [List.cons_append, parseDigits]
    cases digitVal c with
    | none => rfl
    | some d => exact ih

theorem digitVal_digitChar {d : Nat} (h : d < 10) : digitVal (Nat.digitChar d) = some d := by
  simp only [digitVal, isDigit, digitChar_toNat h]
  have : (decide (48 ≤ 48 + d) && decide (48 + d ≤ 57)) = true := by
    simp only [Bool.and_eq_true, decide_eq_true_eq]; omega
  rw [if_pos this]
  congr 1; omega

theorem parseDigits_showNat (n : Nat) : parseDigits 0 (showNat n) = some n := by
  induction n using Nat.strongRecOn with
  | ind n ih =>
    unfold showNat
    rw [Nat.toDigits_eq_if (by decide)]
    split
    · rename_i h
      simp [parseDigits, digitVal_digitChar h]
    · rename_i h
      have h1 := ih (n / 10) (by omega)
      unfold showNat at h1
      rw [parseDigits_append, h1]
      simp only [Option.bind_some, parseDigits, digitVal_digitChar (Nat.mod_lt n (by decide : 0 < 10))]
      congr 1; omega

theorem showNat_cons (n : Nat) : ∃ c t, showNat n = c :: t ∧ isDigit c = true ∧
    ∀ x ∈ t, isDigit x = true := by
  cases h : showNat n with
  | nil => exact absurd h (showNat_ne_nil n)
  | cons c t =>
    refine ⟨c, t, rfl, ?_, ?_⟩
    · have := showNat_digit (n := n) (c := c) (by rw [h]; simp)
      simpa [isDigit] using this
    · intro x hx
      have := showNat_digit (n := n) (c := x) (by rw [h]; simp [hx])
      simpa [isDigit] using this

/-- Digits are not signs. -/
theorem parseI64_digits {c : Char} {t : Str} (hc : isDigit c = true) :
    parseI64 (c :: t) = match parseDigits 0 (c :: t) with
      | some n => if n < 2 ^ 63 then some (n : Int) else none
      | none => none := by
  have h1 : c ≠ '-' := by rintro rfl; revert hc; decide
  have h2 : c ≠ '+' := by rintro rfl; revert hc; decide
  unfold parseI64
  split
  · rename_i h; simp at h
  · rename_i h; simp only [List.cons.injEq] at h; exact absurd h.1 h1
  · rename_i h; simp only [List.cons.injEq] at h; exact absurd h.1 h2
  · rfl

theorem parseI64_showInt (i : Int) :
    parseI64 (showInt i) = if -2 ^ 63 ≤ i ∧ i < 2 ^ 63 then some i else none := by
  unfold showInt
  split
  · rename_i h
    unfold parseI64
    have hne : (showNat i.natAbs).isEmpty = false := by
      cases h' : showNat i.natAbs with
      | nil => exact absurd h' (showNat_ne_nil _)
      | cons => rfl
    simp only [hne, Bool.false_eq_true, if_false, parseDigits_showNat]
    by_cases hr : i.natAbs ≤ 2 ^ 63
    · have : -2 ^ 63 ≤ i ∧ i < 2 ^ 63 := by omega
      rw [if_pos hr, if_pos this]
      congr 1; omega
    · have : ¬ (-2 ^ 63 ≤ i ∧ i < 2 ^ 63) := by omega
      rw [if_neg hr, if_neg this]
  · rename_i h
    obtain ⟨c, t, e, hc, -⟩ := showNat_cons i.natAbs
    have := parseDigits_showNat i.natAbs
    rw [e] at this ⊢
    rw [parseI64_digits hc, this]
    simp only
    by_cases hr : i.natAbs < 2 ^ 63
    · have : -2 ^ 63 ≤ i ∧ i < 2 ^ 63 := by omega
      rw [if_pos hr, if_pos this]
      congr 1; omega
    · have : ¬ (-2 ^ 63 ≤ i ∧ i < 2 ^ 63) := by omega
      rw [if_neg hr, if_neg this]

end Koopa
