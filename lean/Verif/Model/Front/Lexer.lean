import Verif.Model.Front.Token
/-!
Model of koopa/src/front/lexer.rs.

The reader is the list of characters still to be read (one per byte) and a flag telling whether
reading past them reports an I/O error instead of the end of the file. Simplification: an I/O error
is permanent. A failing call returns the error together with the lexer state, as the code does
through `&mut self`.
-/
namespace Koopa

/-- lexer.rs:13-18 `Lexer`; of `pos` only the line. -/
structure Lex where
  last : Option Char
  rest : List Char
  fail : Bool
  line : Nat
deriving DecidableEq, Repr

/-- lexer.rs:25-31 `Lexer::new`. -/
def Lex.new (input : List Char) (fail : Bool := false) : Lex :=
  { last := some ' ', rest := input, fail, line := 1 }

/-- span.rs:420-428 `Pos::update`, line part. -/
def bumpLine (line : Nat) (c : Char) : Nat := if c = '\n' then line + 1 else line

/-- lexer.rs:68-83 `next_char`; `false` is the fatal error, which leaves the state as it was. -/
def Lex.nextChar (l : Lex) : Bool × Lex :=
  match l.rest with
  | c :: rest => (true, { l with last := some c, rest, line := bumpLine l.line c })
  | [] => if l.fail then (false, l) else (true, { l with last := none })

/-- The loops `while self.last_char.is_some_and(p) { s.push(last_char); self.next_char()?; }`
(lexer.rs:36-38, 91-95, 124-128, 132-139, 154-158, 179-181, 213-215), for `last_char = Some(c)`:
the characters consumed, or `none` for a fatal error, and the state afterwards. -/
def eatLoop (p : Char → Bool) (fail : Bool) : (rest : List Char) → (c : Char) → (line : Nat) →
    Option Str × Lex
  | [], c, line =>
    if p c then
      if fail then (none, ⟨some c, [], fail, line⟩) else (some [c], ⟨none, [], fail, line⟩)
    else (some [], ⟨some c, [], fail, line⟩)
  | d :: rest, c, line =>
    if p c then
      match eatLoop p fail rest d (bumpLine line d) with
      | (some s, l) => (some (c :: s), l)
      | (none, l) => (none, l)
    else (some [], ⟨some c, d :: rest, fail, line⟩)

/-- `eatLoop` from any state. -/
def Lex.eatWhile (p : Char → Bool) (l : Lex) : Option Str × Lex :=
  match l.last with
  | none => (some [], l)
  | some c => eatLoop p l.fail l.rest c l.line

/-- lexer.rs:212-217 `log_err_and_skip`. -/
def Lex.errAndSkip (l : Lex) : Except FErr Token × Lex :=
  match l.eatWhile (fun c => !isWs c) with
  | (some _, l) => (.error .normal, l)
  | (none, l) => (.error .fatal, l)

/-- lexer.rs:86-102 `handle_integer`, called with `last_char = Some(c)`. -/
def Lex.handleInteger (l : Lex) (c : Char) : Except FErr Token × Lex :=
  let line := l.line
  match l.nextChar with
  | (false, l) => (.error .fatal, l)
  | (true, l) => match l.eatWhile isNum with
    | (none, l) => (.error .fatal, l)
    | (some s, l) => match parseI64 (c :: s) with
      | some i => (.ok ⟨line, .int i⟩, l)
      | none => l.errAndSkip

/-- lexer.rs:141-146: end of `handle_symbol`. -/
def Lex.finishSymbol (line : Nat) (symbol : Str) (l : Lex) : Except FErr Token × Lex :=
  if symbol.length = 1 then l.errAndSkip else (.ok ⟨line, .sym symbol⟩, l)

/-- lexer.rs:105-147 `handle_symbol`, called with `last_char = Some(tag)`. -/
def Lex.handleSymbol (l : Lex) (tag : Char) : Except FErr Token × Lex :=
  let line := l.line
  match l.nextChar with
  | (false, l) => (.error .fatal, l)
  | (true, l) => match l.last with
    | none => l.finishSymbol line [tag]
    | some digit =>
      if isNum digit then
        if tag = '@' then l.errAndSkip
        else match l.nextChar with
          | (false, l) => (.error .fatal, l)
          | (true, l) =>
            if digit ≠ '0' then match l.eatWhile isNum with
              | (none, l) => (.error .fatal, l)
              | (some s, l) => l.finishSymbol line (tag :: digit :: s)
            else l.finishSymbol line [tag, digit]
      else match l.eatWhile (fun c => isAlnum c || decide (c = '_')) with
        | (none, l) => (.error .fatal, l)
        | (some s, l) => l.finishSymbol line (tag :: s)

/-- lexer.rs:160-166: the token of a keyword or operator. -/
def keywordKind (s : Str) : Option TokKind :=
  match Map.lookup keywords s with
  | some k => some (.kw k)
  | none => match Map.lookup binaryOps s with
    | some b => some (.op b)
    | none => none

/-- lexer.rs:150-167 `handle_keyword`. -/
def Lex.handleKeyword (l : Lex) : Except FErr Token × Lex :=
  let line := l.line
  match l.eatWhile isAlnum with
  | (none, l) => (.error .fatal, l)
  | (some s, l) => match keywordKind s with
    | some k => (.ok ⟨line, k⟩, l)
    | none => l.errAndSkip

/-- lexer.rs:195-198: the loop of `handle_block_comment`, for `last_char = Some(c)`. -/
def blockLoop (fail : Bool) : (rest : List Char) → (c : Char) → (line : Nat) → (star : Bool) →
    Bool × Lex
  | [], c, line, star =>
    if star && decide (c = '/') then (true, ⟨some c, [], fail, line⟩)
    else if fail then (false, ⟨some c, [], fail, line⟩) else (true, ⟨none, [], fail, line⟩)
  | d :: rest, c, line, star =>
    if star && decide (c = '/') then (true, ⟨some c, d :: rest, fail, line⟩)
    else blockLoop fail rest d (bumpLine line d) (decide (c = '*'))

/-- `blockLoop` from any state, with `star = false`. -/
def Lex.skipBlock (l : Lex) : Bool × Lex :=
  match l.last with
  | none => (true, l)
  | some c => blockLoop l.fail l.rest c l.line false

/-- lexer.rs:190-207 `handle_block_comment`; `k` is the recursive call of `next_token`. -/
def Lex.handleBlockComment (k : Lex → Option (Except FErr Token × Lex)) (l : Lex) :
    Option (Except FErr Token × Lex) :=
  match l.nextChar with
  | (false, l) => some (.error .fatal, l)
  | (true, l) => match l.skipBlock with
    | (false, l) => some (.error .fatal, l)
    | (true, l) => match l.last with
      | none => some l.errAndSkip
      | some _ => match l.nextChar with
        | (false, l) => some (.error .fatal, l)
        | (true, l) => k l

/-- lexer.rs:170-187 `handle_comment`. -/
def Lex.handleComment (k : Lex → Option (Except FErr Token × Lex)) (l : Lex) :
    Option (Except FErr Token × Lex) :=
  match l.nextChar with
  | (false, l) => some (.error .fatal, l)
  | (true, l) =>
    if l.last = some '*' then l.handleBlockComment k
    else if l.last = some '/' then
      match l.eatWhile (fun c => decide (c ≠ '\r') && decide (c ≠ '\n')) with
      | (none, l) => some (.error .fatal, l)
      | (some _, l) => k l
    else some l.errAndSkip

/-- lexer.rs:40-62: the part of `next_token` after skipping spaces. -/
def Lex.tokenAt (k : Lex → Option (Except FErr Token × Lex)) (l : Lex) :
    Option (Except FErr Token × Lex) :=
  match l.last with
  | none => some (.ok ⟨l.line, .eof⟩, l)
  | some c =>
    if c = '/' then l.handleComment k
    else if c = '@' || c = '%' then some (l.handleSymbol c)
    else if isAlpha c then some l.handleKeyword
    else if isNum c || c = '-' then some (l.handleInteger c)
    else
      let line := l.line
      match l.nextChar with
      | (false, l) => some (.error .fatal, l)
      | (true, l) => some (.ok ⟨line, .other c⟩, l)

/-- lexer.rs:34-63 `next_token`. The recursion through comments is bounded by fuel; `none` means
that the fuel ran out, which never happens for `Lex.fuel` (C12). -/
def Lex.nextTokenF : (fuel : Nat) → Lex → Option (Except FErr Token × Lex)
  | 0, _ => none
  | n + 1, l =>
    match l.eatWhile isWs with
    | (none, l) => some (.error .fatal, l)
    | (some _, l) => l.tokenAt (Lex.nextTokenF n)

/-- Number of characters not yet consumed. -/
def Lex.size (l : Lex) : Nat := match l.last with
  | none => 0
  | some _ => l.rest.length + 1

/-- Fuel that suffices for one call of `next_token`. -/
def Lex.fuel (l : Lex) : Nat := l.size + 1

/-- lexer.rs:34-63 `next_token`. -/
def Lex.nextToken (l : Lex) : Option (Except FErr Token × Lex) := l.nextTokenF l.fuel

end Koopa
