import Verif.Model.Front.Lexer
import Verif.Model.Front.Span
/-!
Model of koopa/src/front/lexer.rs with positions: as `Verif.Model.Front.Lexer`, function by function, but with the whole position, with the spans of tokens
and of errors.
-/
namespace Koopa

/-- lexer.rs:13-18 `Lexer`. -/
structure PLex where
  last : Option Char
  rest : List Char
  fail : Bool
  pos : Pos
deriving DecidableEq, Repr

/-- token.rs:13-16 `Token`. -/
structure PToken where
  span : Span
  kind : TokKind
deriving DecidableEq, Repr

/-- An error with the span that is logged with it; fatal errors have none (lexer.rs:74). -/
inductive PErr where
  | normal (span : Span)
  | fatal
deriving DecidableEq, Repr

abbrev PRes := Except PErr PToken × PLex

/-- lexer.rs:25-31 `Lexer::new`. -/
def PLex.new (input : List Char) (fail : Bool := false) : PLex :=
  { last := some ' ', rest := input, fail, pos := Pos.new }

/-- lexer.rs:68-83 `next_char`. -/
def PLex.nextChar (l : PLex) : Bool × PLex :=
  match l.rest with
  | c :: rest => (true, { l with last := some c, rest, pos := l.pos.update c })
  | [] => if l.fail then (false, l) else (true, { l with last := none })

/-- The loops of `eatLoop`, which also update the end `e` of a span (lexer.rs:93, 126, 137, 156). -/
def peatLoop (p : Char → Bool) (fail : Bool) : (rest : List Char) → (c : Char) → (pos e : Pos) → Option Str × Pos × PLex
  | [], c, pos, e =>
    if p c then
      if fail then (none, pos, ⟨some c, [], fail, pos⟩) else (some [c], pos, ⟨none, [], fail, pos⟩)
    else (some [], e, ⟨some c, [], fail, pos⟩)
  | d :: rest, c, pos, e =>
    if p c then
      match peatLoop p fail rest d (pos.update d) pos with
      | (some s, e, l) => (some (c :: s), e, l)
      | (none, e, l) => (none, e, l)
    else (some [], e, ⟨some c, d :: rest, fail, pos⟩)

/-- `peatLoop` from any state. -/
def PLex.eatWhile (p : Char → Bool) (l : PLex) (e : Pos) : Option Str × Pos × PLex :=
  match l.last with
  | none => (some [], e, l)
  | some c => peatLoop p l.fail l.rest c l.pos e

/-- lexer.rs:212-217 `log_err_and_skip`. -/
def PLex.errAndSkip (l : PLex) (span : Span) : PRes :=
  match l.eatWhile (fun c => !isWs c) l.pos with
  | (some _, _, l) => (.error (.normal span), l)
  | (none, _, l) => (.error .fatal, l)

/-- lexer.rs:86-102 `handle_integer`. -/
def PLex.handleInteger (l : PLex) (c : Char) : PRes :=
  let pos := l.pos
  match l.nextChar with
  | (false, l) => (.error .fatal, l)
  | (true, l) => match l.eatWhile isNum pos with
    | (none, _, l) => (.error .fatal, l)
    | (some s, e, l) => match parseI64 (c :: s) with
      | some i => (.ok ⟨⟨pos, e⟩, .int i⟩, l)
      | none => l.errAndSkip ⟨pos, e⟩

/-- lexer.rs:141-146: end of `handle_symbol`. -/
def PLex.finishSymbol (span : Span) (symbol : Str) (l : PLex) : PRes :=
  if symbol.length = 1 then l.errAndSkip span else (.ok ⟨span, .sym symbol⟩, l)

/-- lexer.rs:105-147 `handle_symbol`. -/
def PLex.handleSymbol (l : PLex) (tag : Char) : PRes :=
  let pos := l.pos
  match l.nextChar with
  | (false, l) => (.error .fatal, l)
  | (true, l) => match l.last with
    | none => l.finishSymbol ⟨pos, pos⟩ [tag]
    | some digit =>
      if isNum digit then
        if tag = '@' then l.errAndSkip ⟨pos, pos⟩
        else
          let e := l.pos
          match l.nextChar with
          | (false, l) => (.error .fatal, l)
          | (true, l) =>
            if digit ≠ '0' then match l.eatWhile isNum e with
              | (none, _, l) => (.error .fatal, l)
              | (some s, e, l) => l.finishSymbol ⟨pos, e⟩ (tag :: digit :: s)
            else l.finishSymbol ⟨pos, e⟩ [tag, digit]
      else match l.eatWhile (fun c => isAlnum c || decide (c = '_')) pos with
        | (none, _, l) => (.error .fatal, l)
        | (some s, e, l) => l.finishSymbol ⟨pos, e⟩ (tag :: s)

/-- lexer.rs:150-167 `handle_keyword`. -/
def PLex.handleKeyword (l : PLex) : PRes :=
  let pos := l.pos
  match l.eatWhile isAlnum pos with
  | (none, _, l) => (.error .fatal, l)
  | (some s, e, l) => match keywordKind s with
    | some k => (.ok ⟨⟨pos, e⟩, k⟩, l)
    | none => l.errAndSkip ⟨pos, e⟩

/-- lexer.rs:195-198: the loop of `handle_block_comment`. -/
def pblockLoop (fail : Bool) : (rest : List Char) → (c : Char) → (pos : Pos) → (star : Bool) → Bool × PLex
  | [], c, pos, star =>
    if star && decide (c = '/') then (true, ⟨some c, [], fail, pos⟩)
    else if fail then (false, ⟨some c, [], fail, pos⟩) else (true, ⟨none, [], fail, pos⟩)
  | d :: rest, c, pos, star =>
    if star && decide (c = '/') then (true, ⟨some c, d :: rest, fail, pos⟩)
    else pblockLoop fail rest d (pos.update d) (decide (c = '*'))

/-- `pblockLoop` from any state, with `star = false`. -/
def PLex.skipBlock (l : PLex) : Bool × PLex :=
  match l.last with
  | none => (true, l)
  | some c => pblockLoop l.fail l.rest c l.pos false

/-- lexer.rs:190-207 `handle_block_comment`; `pos` is the start of the comment. -/
def PLex.handleBlockComment (k : PLex → Option PRes) (l : PLex) (pos : Pos) : Option PRes :=
  match l.nextChar with
  | (false, l) => some (.error .fatal, l)
  | (true, l) => match l.skipBlock with
    | (false, l) => some (.error .fatal, l)
    | (true, l) => match l.last with
      | none => some (l.errAndSkip ⟨pos, l.pos⟩)
      | some _ => match l.nextChar with
        | (false, l) => some (.error .fatal, l)
        | (true, l) => k l

/-- lexer.rs:170-187 `handle_comment`. -/
def PLex.handleComment (k : PLex → Option PRes) (l : PLex) : Option PRes :=
  let pos := l.pos
  match l.nextChar with
  | (false, l) => some (.error .fatal, l)
  | (true, l) =>
    if l.last = some '*' then l.handleBlockComment k pos
    else if l.last = some '/' then
      match l.eatWhile (fun c => decide (c ≠ '\r') && decide (c ≠ '\n')) pos with
      | (none, _, l) => some (.error .fatal, l)
      | (some _, _, l) => k l
    else some (l.errAndSkip ⟨pos, l.pos⟩)

/-- lexer.rs:40-62: the part of `next_token` after skipping spaces. -/
def PLex.tokenAt (k : PLex → Option PRes) (l : PLex) : Option PRes :=
  match l.last with
  | none => some (.ok ⟨⟨l.pos, l.pos⟩, .eof⟩, l)
  | some c =>
    if c = '/' then l.handleComment k
    else if c = '@' || c = '%' then some (l.handleSymbol c)
    else if isAlpha c then some l.handleKeyword
    else if isNum c || c = '-' then some (l.handleInteger c)
    else
      let pos := l.pos
      match l.nextChar with
      | (false, l) => some (.error .fatal, l)
      | (true, l) => some (.ok ⟨⟨pos, pos⟩, .other c⟩, l)

/-- lexer.rs:34-63 `next_token`, with fuel as in `Lex.nextTokenF`. -/
def PLex.nextTokenF : (fuel : Nat) → PLex → Option PRes
  | 0, _ => none
  | n + 1, l =>
    match l.eatWhile isWs l.pos with
    | (none, _, l) => some (.error .fatal, l)
    | (some _, _, l) => l.tokenAt (PLex.nextTokenF n)

/-- Number of characters not yet consumed. -/
def PLex.size (l : PLex) : Nat := match l.last with
  | none => 0
  | some _ => l.rest.length + 1

/-- lexer.rs:34-63 `next_token`. -/
def PLex.nextToken (l : PLex) : Option PRes := l.nextTokenF (l.size + 1)

end Koopa
