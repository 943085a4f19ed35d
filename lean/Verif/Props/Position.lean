import Verif.Lemmas.Front.Here
/-!
C62: the spans of tokens and of lexical errors mark exactly the characters they are about.
-/
namespace Koopa
open Spec

/-- C62: whatever the text is and however often `next_token` is called, the spans of the tokens start at the first and stop at the last character of the
token's text, those of errors at the first and last character of what is wrong, and the end of the file is marked by the last position of the text. -/
theorem C62_spans (fail : Bool) (text : Str) (n : Nat) : Finds fail text 0 ((PLex.new text fail).calls n) :=
  calls_finds n _ [] text rfl (pnew_out text fail)

/-- C62: where reading does not fail, all calls return. -/
theorem C62_returns (text : Str) (n : Nat) : ((PLex.new text false).calls n).length = n :=
  calls_length n _ text Pos.new (pnew_out text false)

/-- C62: of two positions in a text, the one of the earlier character is the lower one; so a position belongs to one character. -/
theorem C62_order (text : Str) (n m : Nat) (p q : Pos) (hp : Here text n p) (hq : Here text m q) :
    n < m ↔ p.line < q.line ∨ (p.line = q.line ∧ p.col < q.col) := by
  constructor
  · exact here_before hp hq
  · intro h
    rcases Nat.lt_trichotomy n m with h1 | rfl | h1
    · exact h1
    · rw [here_iff] at hp hq
      rw [hp.2, hq.2] at h
      omega
    · have h2 := here_before hq hp h1
      unfold Pos.before at h2
      omega

/-- C62: every character has a position. -/
theorem C62_located (text : Str) (n : Nat) (h : n ≤ text.length) : ∃ p, Here text n p := ⟨_, here_iff.2 ⟨h, rfl⟩⟩

/-- C62: apart from the columns, the lexer is the one of the other theorems: it returns the same tokens, errors and lines. -/
theorem C62_same_lexer (l : PLex) : l.erase.nextToken = l.nextToken.map eraseRes := nextToken_erase l

/-- A token after a comment over two lines, a bad number, the end. -/
example : (PLex.new "/* a\n */ @x\n\t99999999999999999999 ".toList).calls 3 =
    [.ok ⟨⟨⟨2, 5⟩, ⟨2, 6⟩⟩, .sym "@x".toList⟩, .error (.normal ⟨⟨3, 2⟩, ⟨3, 21⟩⟩), .ok ⟨⟨⟨3, 22⟩, ⟨3, 22⟩⟩, .eof⟩] := by
  decide +kernel

/-- A comment that is not closed: the span ends with the text. -/
example : (PLex.new "ret /* a\nb".toList).calls 2 = [.ok ⟨⟨⟨1, 1⟩, ⟨1, 3⟩⟩, .kw .ret⟩, .error (.normal ⟨⟨1, 5⟩, ⟨2, 1⟩⟩)] := by
  decide +kernel

/-- The last character of a text with two lines. -/
example : Here "ab\nc".toList 4 ⟨2, 1⟩ := ⟨by decide, "ab\n".toList, "c".toList, by decide, .inr ⟨"ab".toList, rfl⟩, by decide, by decide⟩

/-- The fatal error of a reader that fails. -/
example : (PLex.new "ret".toList true).calls 1 = [.error .fatal] := by decide +kernel

end Koopa
