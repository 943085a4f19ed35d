import Verif.Spec.Lexical
import Verif.Model.Front.LexPos
/-!
Where things are in a text, written without the lexer.
-/
namespace Koopa.Spec

/-- `p` is the position after `n` characters of the text: it counts the lines from 1, and the columns from 1 with 0 before the first character of a line. So
it is the position of the character number `n`, counted from 1. -/
def Here (text : Str) (n : Nat) (p : Pos) : Prop :=
  n ≤ text.length ∧ ∃ lines cur, text.take n = lines ++ cur ∧ (lines = [] ∨ ∃ l, lines = l ++ ['\n']) ∧ '\n' ∉ cur ∧
    p = ⟨1 + lines.count '\n', cur.length⟩

/-- `BadText s r`: what an error of the lexer marks, where `r` follows. -/
inductive BadText : Str → Str → Prop
  /-- A number that is out of range, or a lone minus. -/
  | int {c : Char} {s r : Str} (hc : isNum c = true ∨ c = '-') (hs : ∀ x ∈ s, isNum x = true) (hr : ∀ x, r.head? = some x → isNum x = false)
      (h : parseI64 (c :: s) = none) : BadText (c :: s) r
  /-- A word that is no keyword. -/
  | word {c : Char} {s r : Str} (hc : isAlpha c = true) (hs : ∀ x ∈ s, isAlnum x = true) (hr : ∀ x, r.head? = some x → isAlnum x = false)
      (h : ∀ k, ¬ TokText k (c :: s)) : BadText (c :: s) r
  /-- A tag without a name. -/
  | tag {c : Char} {r : Str} (hc : c = '@' ∨ c = '%') (hr : ∀ x, r.head? = some x → (isAlnum x = false ∧ x ≠ '_') ∨ (c = '@' ∧ isNum x = true)) :
      BadText [c] r
  /-- A slash at the end of the text. -/
  | slash : BadText ['/'] []
  /-- A slash and another character that starts no comment with it. -/
  | comment {d : Char} {r : Str} (h1 : d ≠ '/') (h2 : d ≠ '*') : BadText ['/', d] r
  /-- A block comment that is not closed. -/
  | block {s : Str} (h : ¬ ['*', '/'] <:+: s) : BadText ('/' :: '*' :: s) []

/-- `Finds fail text i rs`: the calls that follow when `i` characters are consumed may return `rs`. -/
inductive Finds (fail : Bool) (text : Str) : Nat → List (Except PErr PToken) → Prop
  | nil {i : Nat} : Finds fail text i []
  | tok {i : Nat} {w s r : Str} {k : TokKind} {a b : Pos} {rs : List (Except PErr PToken)} (h : text.drop i = w ++ (s ++ r)) (hw : Blank w) (hk : TokText k s)
      (hs : Stop s r) (ha : Here text (i + w.length + 1) a) (hb : Here text (i + w.length + s.length) b)
      (hr : Finds fail text (i + w.length + s.length) rs) : Finds fail text i (.ok ⟨⟨a, b⟩, k⟩ :: rs)
  | eof {i : Nat} {a : Pos} {rs : List (Except PErr PToken)} (h : BlankEof (text.drop i)) (ha : Here text text.length a)
      (hr : Finds fail text text.length rs) : Finds fail text i (.ok ⟨⟨a, a⟩, .eof⟩ :: rs)
  | bad {i j : Nat} {w s r : Str} {a b : Pos} {rs : List (Except PErr PToken)} (h : text.drop i = w ++ (s ++ r)) (hw : Blank w) (hs : BadText s r)
      (ha : Here text (i + w.length + 1) a) (hb : Here text (i + w.length + s.length) b) (hj : i < j) (hn : j ≤ text.length)
      (hr : Finds fail text j rs) : Finds fail text i (.error (.normal ⟨a, b⟩) :: rs)
  | fatal {i : Nat} {rs : List (Except PErr PToken)} (h : fail = true) : Finds fail text i (.error .fatal :: rs)

end Koopa.Spec
