import Verif.Lemmas.Front.Digits
import Verif.Props.Parser
/-!
Tools to show that a given text consists of given tokens.
-/
namespace Koopa
open Spec

/-- A word, number or symbol before this text ends there. -/
def Clean (b : Str) : Prop := ∀ c, b.head? = some c → isAlnum c = false ∧ c ≠ '_'

theorem Clean.nil : Clean [] := by intro c h; simp at h

theorem Clean.cons {c : Char} {b : Str} (h : isAlnum c = false ∧ c ≠ '_') : Clean (c :: b) := by
  intro d hd
  simp only [List.head?_cons, Option.some.injEq] at hd
  subst hd; exact h

theorem Clean.append {a b : Str} (ha : Clean a) (hb : Clean b) : Clean (a ++ b) := by
  cases a with
  | nil => exact hb
  | cons c a => exact .cons (ha c rfl)

theorem Stop_of_clean {s b : Str} (h : Clean b) : Stop s b := by
  intro c hc
  obtain ⟨h1, h2⟩ := h c hc
  have hn : isNum c = false := by
    unfold isAlnum at h1; simp at h1; exact h1.2
  split
  · exact ⟨h1, h2⟩
  · split
    · exact .inr hn
    · exact ⟨h1, h2⟩
  · exact ⟨fun _ => h1, fun _ => hn⟩
  · trivial

theorem breaks_append (a b : Str) : breaks (a ++ b) = breaks a + breaks b := by
  unfold breaks; rw [List.count_append]

/-- Blank text before tokens. -/
theorem Toks.blank {w b : Str} {m : Nat} {ts : List Token} (hw : Blank w) (h : Toks b (m + breaks w) ts) : Toks (w ++ b) m ts := by
  generalize e : m + breaks w = m' at h
  cases h with
  | eof h => exact .eof (BlankEof_append hw h)
  | @tok w' s b _ t ts hw' ht hs hl h =>
    rw [← List.append_assoc]
    refine .tok (Blank_append hw hw') ht hs ?_ h
    rw [hl, breaks_append]; omega

theorem Toks.sp {b : Str} {m : Nat} {ts : List Token} (h : Toks b m ts) : Toks (' ' :: b) m ts := Toks_space.2 h

theorem Toks.nl {b : Str} {m : Nat} {ts : List Token} (h : Toks b (m + 1) ts) : Toks ('\n' :: b) m ts :=
  Toks.blank (w := ['\n']) (.ws (by decide) .nil) h

/-- A word, number or symbol. -/
theorem Toks.word {s b : Str} {m : Nat} {ts : List Token} {k : TokKind} (hk : TokText k s) (hb : Clean b) (h : Toks b m ts) :
    Toks (s ++ b) m (⟨m, k⟩ :: ts) :=
  .tok (t := ⟨m, k⟩) (w := []) .nil hk (Stop_of_clean hb) rfl h

/-- Characters that are tokens. -/
def isPunct (c : Char) : Bool := c ∈ ['[', ']', '(', ')', '{', '}', ',', ':', '*', '=']

theorem Toks.punct {c : Char} {b : Str} {m : Nat} {ts : List Token} (hc : isPunct c = true) (h : Toks b m ts) :
    Toks (c :: b) m (⟨m, .other c⟩ :: ts) := by
  have hm : c ∈ ['[', ']', '(', ')', '{', '}', ',', ':', '*', '='] := by simpa [isPunct] using hc
  have ht : TokText (.other c) [c] := by
    clear h
    simp only [List.mem_cons, List.not_mem_nil, or_false] at hm
    rcases hm with rfl | rfl | rfl | rfl | rfl | rfl | rfl | rfl | rfl | rfl <;> constructor <;> decide
  have hs : Stop [c] b := by
    clear h ht
    intro d _
    simp only [List.mem_cons, List.not_mem_nil, or_false] at hm
    rcases hm with rfl | rfl | rfl | rfl | rfl | rfl | rfl | rfl | rfl | rfl <;>
      exact ⟨fun h => absurd h (by decide), fun h => absurd h (by decide)⟩
  exact .tok (t := ⟨m, .other c⟩) (w := []) .nil ht hs rfl h

theorem isNum_of_isDigit {c : Char} (h : isDigit c = true) : isNum c = true := by unfold isNum; simp [h]

theorem tokText_showInt {i : Int} (h : -2 ^ 63 ≤ i ∧ i < 2 ^ 63) : TokText (.int i) (showInt i) := by
  have hp : parseI64 (showInt i) = some i := by rw [parseI64_showInt, if_pos h]
  unfold showInt at hp ⊢
  obtain ⟨c, t, e, hc, ht⟩ := showNat_cons i.natAbs
  split at hp
  · rename_i hn
    rw [if_pos hn]
    refine .int (.inr rfl) (fun x hx => ?_) hp
    rw [e] at hx
    rcases List.mem_cons.1 hx with rfl | hx
    · exact isNum_of_isDigit hc
    · exact isNum_of_isDigit (ht x hx)
  · rename_i hn
    rw [if_neg hn]
    rw [e] at hp ⊢
    exact .int (.inl (isNum_of_isDigit hc)) (fun x hx => isNum_of_isDigit (ht x hx)) hp

theorem tokText_showNat {n : Nat} (h : n < 2 ^ 63) : TokText (.int n) (showNat n) := by
  have := tokText_showInt (i := (n : Int)) (by omega)
  unfold showInt at this
  rw [if_neg (by omega)] at this
  exact this

end Koopa
