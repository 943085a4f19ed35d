import Verif.Model.Dfg
import Verif.Spec.Uses
/-! The use iterators enumerate exactly the operands. -/
namespace Koopa
open Spec

theorem collectFrom_eq {α : Type} (next : Nat → Option α) (l : List α)
    (h : ∀ i, next i = l[i]?) (fuel cur : Nat) (hf : l.length < fuel + cur) :
    collectFrom next fuel cur = l.drop cur := by
  induction fuel generalizing cur with
  | zero => simp [collectFrom]; omega
  | succ n ih =>
    simp only [collectFrom, h]
    by_cases hc : cur < l.length
    · rw [List.getElem?_eq_getElem hc]
      simp only
      rw [ih (cur + 1) (by omega)]
      exact (List.drop_eq_getElem_cons hc).symm
    · rw [List.getElem?_eq_none (by omega)]
      simp; omega

theorem vecUse_eq (l : List Value) (i : Nat) : vecUse l i = l[i]? := by
  unfold vecUse; split
  · rfl
  · rw [List.getElem?_eq_none (by omega)]

theorem fieldUse1_eq (a : Value) (i : Nat) : fieldUse1 a i = [a][i]? := by
  unfold fieldUse1; cases i <;> simp

theorem fieldUse2_eq (a b : Value) (i : Nat) : fieldUse2 a b i = [a, b][i]? := by
  unfold fieldUse2; rcases i with _ | _ | i <;> simp

theorem valueUseAt_eq (k : VKind) (i : Nat) : k.valueUseAt i = (operands k)[i]? := by
  cases k <;> simp only [VKind.valueUseAt, operands, vecUse_eq, fieldUse1_eq, fieldUse2_eq,
    List.getElem?_nil]
  case branch c t f ta fa =>
    rcases i with _ | i
    · simp
    · simp only [Nat.add_eq_zero_iff, Nat.succ_ne_self, and_false, if_false,
        List.getElem?_cons_succ, Nat.add_sub_cancel]
      by_cases h : i + 1 ≤ ta.length
      · rw [if_pos ⟨by omega, h⟩, List.getElem?_append_left (by omega)]
      · rw [if_neg (by omega), List.getElem?_append_right (by omega)]
        by_cases h2 : i + 1 ≤ ta.length + fa.length
        · rw [if_pos ⟨by omega, h2⟩]; congr 1; omega
        · rw [if_neg (by omega), List.getElem?_eq_none (by omega)]
  case ret v =>
    cases v <;> rcases i with _ | i <;> simp

theorem bbUseAt_eq (k : VKind) (i : Nat) : k.bbUseAt i = (targets k)[i]? := by
  cases k <;> simp only [VKind.bbUseAt, targets, List.getElem?_nil]
  all_goals rcases i with _ | _ | i <;> simp

theorem valueUses_eq (k : VKind) : k.valueUses = operands k := by
  unfold VKind.valueUses
  rw [collectFrom_eq _ _ (valueUseAt_eq k)]
  · simp
  · cases k <;> simp [operands, VKind.collectFuel]
    case ret v => cases v <;> simp

theorem bbUses_eq (k : VKind) : k.bbUses = targets k := by
  unfold VKind.bbUses
  rw [collectFrom_eq _ _ (bbUseAt_eq k)]
  · simp
  · cases k <;> simp [targets, VKind.collectFuel]

end Koopa
