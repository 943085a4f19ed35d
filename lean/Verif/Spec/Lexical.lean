import Verif.Model.Front.Token
/-!
Lexical grammar of the text form, written without the lexer: which texts are blank, which texts are
tokens, and what may follow a token. Only the character classes are shared with the model.
-/
namespace Koopa.Spec

/-- Blank text: white space, line comments up to a line break, closed block comments. -/
inductive Blank : Str → Prop where
  | nil : Blank []
  | ws {c : Char} {w : Str} (hc : isWs c = true) (h : Blank w) : Blank (c :: w)
  | line {s w : Str} {c : Char} (hs : ∀ x ∈ s, x ≠ '\r' ∧ x ≠ '\n') (hc : c = '\r' ∨ c = '\n')
      (h : Blank w) : Blank ('/' :: '/' :: (s ++ c :: w))
  | block {s w : Str} (hs : ¬ ['*', '/'] <:+: s ++ ['*']) (h : Blank w) :
      Blank ('/' :: '*' :: (s ++ '*' :: '/' :: w))

/-- Blank text up to the end of the file, where a line comment needs no line break. -/
inductive BlankEof : Str → Prop where
  | blank {w : Str} (h : Blank w) : BlankEof w
  | line {s w : Str} (h : Blank w) (hs : ∀ x ∈ s, x ≠ '\r' ∧ x ≠ '\n') :
      BlankEof (w ++ '/' :: '/' :: s)

/-- The names of symbols, without the tag. -/
def Ident (s : Str) : Prop :=
  (∃ c t, s = c :: t ∧ isNum c = false) ∧ ∀ x ∈ s, isAlnum x = true ∨ x = '_'

/-- Numbers of temporary symbols: `0`, or a number without leading zero. -/
def TempNum (s : Str) : Prop :=
  s = ['0'] ∨ ∃ c t, s = c :: t ∧ c ≠ '0' ∧ ∀ x ∈ s, isNum x = true

/-- `TokText k s`: the text `s` is a token of kind `k`. -/
inductive TokText : TokKind → Str → Prop where
  | sym {tag : Char} {s : Str} (ht : tag = '@' ∨ tag = '%') (hs : Ident s) :
      TokText (.sym (tag :: s)) (tag :: s)
  | temp {s : Str} (hs : TempNum s) : TokText (.sym ('%' :: s)) ('%' :: s)
  | kw {s : Str} {k : Kw} (h : (s, k) ∈ keywords) : TokText (.kw k) s
  | op {s : Str} {b : BinOp} (h : (s, b) ∈ binaryOps) : TokText (.op b) s
  | int {c : Char} {s : Str} {i : Int} (hc : isNum c = true ∨ c = '-')
      (hs : ∀ x ∈ s, isNum x = true) (h : parseI64 (c :: s) = some i) : TokText (.int i) (c :: s)
  | other {c : Char} (h : isWs c = false) (h1 : c ≠ '/') (h2 : c ≠ '@') (h3 : c ≠ '%')
      (h4 : isAlpha c = false) (h5 : isNum c = false) (h6 : c ≠ '-') : TokText (.other c) [c]

/-- `Stop s b`: the token text `s` is not continued by the text `b` that follows it. -/
def Stop (s b : Str) : Prop :=
  ∀ c, b.head? = some c →
    match s with
    | '@' :: _ => isAlnum c = false ∧ c ≠ '_'
    | '%' :: d :: _ => if isNum d then (d = '0' ∨ isNum c = false) else isAlnum c = false ∧ c ≠ '_'
    | d :: _ => (isAlpha d = true → isAlnum c = false) ∧ (isNum d = true ∨ d = '-' → isNum c = false)
    | [] => True

/-- Number of line breaks. -/
def breaks (s : Str) : Nat := s.count '\n'

/-- `Toks b m ts`: the text `b`, starting in line `m`, consists of the tokens `ts`. -/
inductive Toks : Str → Nat → List Token → Prop where
  | eof {b : Str} {m : Nat} (h : BlankEof b) : Toks b m []
  | tok {w s b : Str} {m : Nat} {t : Token} {ts : List Token} (hw : Blank w) (ht : TokText t.kind s)
      (hs : Stop s b) (hl : t.line = m + breaks w) (h : Toks b t.line ts) :
      Toks (w ++ (s ++ b)) m (t :: ts)

end Koopa.Spec
