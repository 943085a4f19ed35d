import Verif.Model.Ir
/-!
Model of koopa/src/front/token.rs, of the error type of span.rs and of the character classes of
`char` that the lexer uses.

Spans: only the line number of a token is kept. Columns and end positions are used for diagnostics
only; the one decision taken on spans is `Span::is_in_same_line_as` (span.rs:307-309), and every
token lies in one line, because no token contains a line break.
-/
namespace Koopa

/-- span.rs:23-30 `Error`, without the message. -/
inductive FErr where
  | normal
  | fatal
deriving DecidableEq, Repr

/-- token.rs:67-98 `Keyword`. -/
inductive Kw where
  | i32 | undef | zeroInit | global | alloc | load | store | getPtr | getElemPtr | br | jump | call
  | ret | fun | decl
deriving DecidableEq, Repr

/-- token.rs:37-50 `TokenKind`; `Int` carries an `i64`, here an integer. -/
inductive TokKind where
  | int (v : Int)
  | sym (s : Str)
  | kw (k : Kw)
  | op (b : BinOp)
  | other (c : Char)
  | eof
deriving DecidableEq, Repr

/-- token.rs:13-16 `Token`. -/
structure Token where
  line : Nat
  kind : TokKind
deriving DecidableEq, Repr

/-- token.rs:25-33 `Token::default` (span.rs:415-417: positions start in line 1). -/
def Token.default : Token := { line := 1, kind := .eof }

/-- `char::is_whitespace` on the characters below 256 (the only ones the lexer can see). -/
def isWs (c : Char) : Bool :=
  (decide (9 ≤ c.toNat) && decide (c.toNat ≤ 13)) || decide (c.toNat = 32) || decide (c.toNat = 133)
    || decide (c.toNat = 160)

/-- `char::is_alphabetic` on the characters below 256. -/
def isAlpha (c : Char) : Bool :=
  (decide (65 ≤ c.toNat) && decide (c.toNat ≤ 90)) || (decide (97 ≤ c.toNat) && decide (c.toNat ≤ 122))
    || decide (c.toNat = 170) || decide (c.toNat = 181) || decide (c.toNat = 186)
    || (decide (192 ≤ c.toNat) && decide (c.toNat ≤ 255) && decide (c.toNat ≠ 215)
        && decide (c.toNat ≠ 247))

/-- The digits `0` to `9`. -/
def isDigit (c : Char) : Bool := decide (48 ≤ c.toNat) && decide (c.toNat ≤ 57)

/-- `char::is_numeric` on the characters below 256: digits, superscripts and fractions. -/
def isNum (c : Char) : Bool :=
  isDigit c || decide (c.toNat = 178) || decide (c.toNat = 179) || decide (c.toNat = 185)
    || (decide (188 ≤ c.toNat) && decide (c.toNat ≤ 190))

/-- `char::is_alphanumeric`. -/
def isAlnum (c : Char) : Bool := isAlpha c || isNum c

/-- lexer.rs:221-237 `KEYWORDS`. -/
def keywords : List (Str × Kw) :=
  [("i32".toList, .i32), ("undef".toList, .undef), ("zeroinit".toList, .zeroInit),
   ("global".toList, .global), ("alloc".toList, .alloc), ("load".toList, .load),
   ("store".toList, .store), ("getptr".toList, .getPtr), ("getelemptr".toList, .getElemPtr),
   ("br".toList, .br), ("jump".toList, .jump), ("call".toList, .call), ("ret".toList, .ret),
   ("fun".toList, .fun), ("decl".toList, .decl)]

/-- lexer.rs:240-258 `BINARY_OPS`. -/
def binaryOps : List (Str × BinOp) :=
  [("ne".toList, .notEq), ("eq".toList, .eq), ("gt".toList, .gt), ("lt".toList, .lt),
   ("ge".toList, .ge), ("le".toList, .le), ("add".toList, .add), ("sub".toList, .sub),
   ("mul".toList, .mul), ("div".toList, .div), ("mod".toList, .mod), ("and".toList, .and),
   ("or".toList, .or), ("xor".toList, .xor), ("shl".toList, .shl), ("shr".toList, .shr),
   ("sar".toList, .sar)]

/-- Value of a decimal digit. -/
def digitVal (c : Char) : Option Nat := if isDigit c then some (c.toNat - 48) else none

/-- The accumulation loop of `i64::from_str`, without the overflow check. -/
def parseDigits : (acc : Nat) → Str → Option Nat
  | acc, [] => some acc
  | acc, c :: s => match digitVal c with
    | some d => parseDigits (acc * 10 + d) s
    | none => none

/-- `<i64 as FromStr>::from_str` of the standard library: an optional sign, at least one digit,
only decimal digits, and the value must fit. Simplification: the range is checked at the end
instead of at every digit, with the same outcome. -/
def parseI64 (s : Str) : Option Int :=
  match s with
  | [] => none
  | '-' :: ds => if ds.isEmpty then none else
    match parseDigits 0 ds with
    | some n => if n ≤ 2 ^ 63 then some (-(n : Int)) else none
    | none => none
  | '+' :: ds => if ds.isEmpty then none else
    match parseDigits 0 ds with
    | some n => if n < 2 ^ 63 then some (n : Int) else none
    | none => none
  | ds => match parseDigits 0 ds with
    | some n => if n < 2 ^ 63 then some (n : Int) else none
    | none => none

end Koopa
