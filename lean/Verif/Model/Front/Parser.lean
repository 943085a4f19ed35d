import Verif.Model.Front.Ast
import Verif.Model.Front.Lexer
/-!
Model of koopa/src/front/parser.rs.

A parser is a function from the parser state to a result and a new state. `Except.error` is the
`Err` of the code; `none` means that the fuel given to a recursion or loop ran out. C15 proves that
it never does for the fuel used by `Parser.parseNext`. The error counter of span.rs:113-121 is part
of the state: every error created by the code increments it by one.

Simplification: the stack is unbounded (the code recurses on nested types and aggregates).
-/
namespace Koopa

/-- parser.rs:14-17 `Parser`, and the error counter of span.rs:465. -/
structure PS where
  lex : Lex
  cur : Token
  errs : Nat
deriving DecidableEq, Repr

/-- `&mut self -> Result<α, Error>`. -/
def P (α : Type) : Type := PS → Option (Except FErr α × PS)

namespace P

/-- `Ok(a)`. -/
def pure {α : Type} (a : α) : P α := fun s => some (.ok a, s)

/-- The `?` operator. -/
def bind {α β : Type} (p : P α) (k : α → P β) : P β := fun s =>
  match p s with
  | none => none
  | some (.ok a, s) => k a s
  | some (.error e, s) => some (.error e, s)

instance : Monad P where
  pure := P.pure
  bind := P.bind

/-- `return_error!` (span.rs, macros): logs a normal error and returns it. -/
def fail {α : Type} : P α := fun s => some (.error .normal, { s with errs := s.errs + 1 })

/-- The fuel of the model ran out. -/
def outOfFuel {α : Type} : P α := fun _ => none

/-- `self.cur_token`. -/
def cur : P Token := fun s => some (.ok s.cur, s)

/-- parser.rs:94-97 `next_token`; an error of the lexer was logged by the lexer. -/
def next : P Unit := fun s =>
  match s.lex.nextToken with
  | none => none
  | some (.ok t, l) => some (.ok (), { s with lex := l, cur := t })
  | some (.error e, l) => some (.error e, { s with lex := l, errs := s.errs + 1 })

/-- parser.rs:595-604 `expect`. -/
def expect (k : TokKind) : P Unit := do
  let t ← cur
  if t.kind = k then next else fail

/-- parser.rs:23-34 `read!` of a symbol. -/
def readSym : P Str := do
  let t ← cur
  match t.kind with
  | .sym v => do next; return v
  | _ => fail

/-- parser.rs:23-34 `read!` of an integer. -/
def readInt : P Int := do
  let t ← cur
  match t.kind with
  | .int v => do next; return v
  | _ => fail

/-- parser.rs:23-34 `read!` of an operator. -/
def readOp : P BinOp := do
  let t ← cur
  match t.kind with
  | .op v => do next; return v
  | _ => fail

/-- parser.rs:562-570: the loop of `parse_list`; parser.rs:540-544: the loop of `parse_aggregate`. -/
def listLoop {α : Type} (item : P α) : (fuel : Nat) → P (List α)
  | 0 => outOfFuel
  | n + 1 => do
    let a ← item
    let t ← cur
    if t.kind = .other ',' then do
      next
      let as ← listLoop item n
      return a :: as
    else return [a]

/-- parser.rs:553-574 `parse_list`. -/
def list {α : Type} (item : P α) (fuel : Nat) : P (List α) := do
  expect (.other '(')
  let t ← cur
  if t.kind = .other ')' then do
    expect (.other ')')
    return []
  else do
    let as ← listLoop item fuel
    expect (.other ')')
    return as

/-- parser.rs:577-587 `parse_opt_list`. -/
def optList {α : Type} (item : P α) (fuel : Nat) : P (List α) := do
  let t ← cur
  if t.kind = .other '(' then list item fuel else return []

/-- `as usize` of an `i64`. -/
def asUsize (i : Int) : Nat := (i % 2 ^ 64).toNat

/-- parser.rs:145-149, 182-188, 246-252: the optional return type, given the parser of types. -/
def retType (ty : P TyAst) : P (Option TyAst) := do
  let t ← cur
  if t.kind = .other ':' then do
    next
    let t ← ty
    return some t
  else return none

/-- parser.rs:194-255 `parse_type`, `parse_int_type`, `parse_array_type`, `parse_pointer_type`,
`parse_fun_type`. -/
def type : (fuel : Nat) → P TyAst
  | 0 => outOfFuel
  | n + 1 => do
    let t ← cur
    match t.kind with
    | .kw .i32 => do next; return .int
    | .other '[' => do
      next
      let base ← type n
      expect (.other ',')
      let len ← readInt
      expect (.other ']')
      return .array base (asUsize len)
    | .other '*' => do
      next
      let base ← type n
      return .pointer base
    | .other '(' => do
      let params ← list (type n) n
      let ret ← retType (type n)
      return .func params ret
    | _ => fail

/-- parser.rs:489-503 `parse_value`. -/
def value : P ValAst := do
  let t ← cur
  match t.kind with
  | .sym s => do next; return .sym s
  | .int i => do next; return .int (BitVec.ofInt 32 i)
  | .kw .undef => do next; return .undef
  | _ => fail

/-- parser.rs:506-550 `parse_init`, `parse_aggregate`. -/
def init : (fuel : Nat) → P ValAst
  | 0 => outOfFuel
  | n + 1 => do
    let t ← cur
    match t.kind with
    | .int i => do next; return .int (BitVec.ofInt 32 i)
    | .kw .undef => do next; return .undef
    | .kw .zeroInit => do next; return .zero
    | .other '{' => do
      expect (.other '{')
      let elems ← listLoop (init n) n
      expect (.other '}')
      return .agg elems
    | _ => fail

/-- parser.rs:320-328 `parse_mem_decl`. -/
def memDecl (fuel : Nat) : P ExprAst := do
  next
  let ty ← type fuel
  return .alloc ty

/-- parser.rs:331-338 `parse_load`. -/
def load : P ExprAst := do
  next
  let sym ← readSym
  return .load sym

/-- parser.rs:366-379 `parse_get_pointer`. -/
def getPtr : P ExprAst := do
  next
  let sym ← readSym
  expect (.other ',')
  let v ← value
  return .getPtr sym v

/-- parser.rs:382-395 `parse_get_element_pointer`. -/
def getElemPtr : P ExprAst := do
  next
  let sym ← readSym
  expect (.other ',')
  let v ← value
  return .getElemPtr sym v

/-- parser.rs:398-408 `parse_binary_expr`. -/
def binary : P ExprAst := do
  let op ← readOp
  let lhs ← value
  expect (.other ',')
  let rhs ← value
  return .binary op lhs rhs

/-- parser.rs:456-470 `parse_fun_call`. -/
def funCall (fuel : Nat) : P (Str × List ValAst) := do
  next
  let f ← readSym
  let args ← list value fuel
  return (f, args)

/-- parser.rs:306-315: the right-hand side of a symbol definition. -/
def expr (fuel : Nat) : P ExprAst := do
  let t ← cur
  match t.kind with
  | .kw .alloc => memDecl fuel
  | .kw .load => load
  | .kw .getPtr => getPtr
  | .kw .getElemPtr => getElemPtr
  | .op _ => binary
  | .kw .call => do
    let (f, args) ← funCall fuel
    return .call f args
  | _ => fail

/-- parser.rs:299-317 `parse_symbol_def`. -/
def symbolDef (fuel : Nat) : P StmtAst := do
  let name ← readSym
  expect (.other '=')
  let v ← expr fuel
  return .def name v

/-- parser.rs:346-356: the value of a store. -/
def storeValue (fuel : Nat) : P ValAst := do
  let t ← cur
  match t.kind with
  | .sym s => do next; return .sym s
  | _ => init fuel

/-- parser.rs:341-363 `parse_store`. -/
def store (fuel : Nat) : P StmtAst := do
  next
  let v ← storeValue fuel
  expect (.other ',')
  let sym ← readSym
  return .store v sym

/-- parser.rs:411-437 `parse_branch`. -/
def branch (fuel : Nat) : P StmtAst := do
  next
  let cond ← value
  expect (.other ',')
  let tbb ← readSym
  let targs ← optList value fuel
  expect (.other ',')
  let fbb ← readSym
  let fargs ← optList value fuel
  return .branch cond tbb targs fbb fargs

/-- parser.rs:440-453 `parse_jump`. -/
def jump (fuel : Nat) : P StmtAst := do
  next
  let target ← readSym
  let args ← optList value fuel
  return .jump target args

/-- parser.rs:473-486 `parse_return`: a value is expected if the next token starts in the line of
`ret`. -/
def ret : P StmtAst := do
  let t ← cur
  next
  let t' ← cur
  if t.line = t'.line then do
    let v ← value
    return .ret (some v)
  else return .ret none

/-- parser.rs:279-284: the parser of a statement starting with a token, and whether the block ends
after it; `none` for the default case. -/
def stmtAt (fuel : Nat) : TokKind → Option (Bool × P StmtAst)
  | .sym _ => some (false, symbolDef fuel)
  | .kw .store => some (false, store fuel)
  | .kw .call => some (false, do
    let (f, args) ← funCall fuel
    return .call f args)
  | .kw .br => some (true, branch fuel)
  | .kw .jump => some (true, jump fuel)
  | .kw .ret => some (true, ret)
  | _ => none

/-- parser.rs:279-284: the patterns of `match_token!` in `parse_block`. -/
def stmtStart : TokKind → Bool
  | .sym _ | .kw .store | .kw .call | .kw .br | .kw .jump | .kw .ret => true
  | _ => false

/-- parser.rs:286: the break pattern of `match_token!` in `parse_block`. -/
def stmtBreak : TokKind → Bool
  | .other '}' | .eof => true
  | _ => false

/-- parser.rs:53-63: the loop that skips tokens after an error, up to a token that `stop` accepts.
Errors of the lexer that are not fatal are ignored. -/
def skipTo (stop : TokKind → Bool) : (fuel : Nat) → P Unit
  | 0 => outOfFuel
  | n + 1 => fun s =>
    if stop s.cur.kind then some (.ok (), s)
    else match next s with
      | none => none
      | some (.error .fatal, s) => some (.error .fatal, s)
      | some (_, s) => skipTo stop n s

/-- parser.rs:50-67: recovery of `match_token!`. -/
def recover {α : Type} (p : P α) (recovery : P α) : P α := fun s =>
  match p s with
  | some (.error .normal, s) => recovery s
  | r => r

/-- parser.rs:277-287: one statement, and the new value of `exit_flag`. -/
def stmt (fuel : Nat) : P (StmtAst × Bool) := do
  let t ← cur
  match stmtAt fuel t.kind with
  | none => fail
  | some (exit, p) =>
    recover (do let st ← p; return (st, exit)) (do
      skipTo (fun k => stmtStart k || stmtBreak k) fuel
      let t ← cur
      return (.error, exit || (!stmtStart t.kind && stmtBreak t.kind)))

/-- parser.rs:274-288: the statements of a block. -/
def stmtLoop : (fuel : Nat) → P (List StmtAst)
  | 0 => outOfFuel
  | n + 1 => do
    let (st, exit) ← stmt n
    if exit then return [st]
    else do
      let sts ← stmtLoop n
      return st :: sts

/-- parser.rs:136-143, 263-270: a parameter with its type. -/
def param (fuel : Nat) : P (Str × TyAst) := do
  let name ← readSym
  expect (.other ':')
  let ty ← type fuel
  return (name, ty)

/-- parser.rs:258-296 `parse_block`. -/
def block (fuel : Nat) : P BlockAst := do
  let name ← readSym
  let params ← optList (param fuel) fuel
  expect (.other ':')
  let stmts ← stmtLoop fuel
  return { name, params, stmts }

/-- parser.rs:153-156: the blocks of a function. -/
def blockLoop : (fuel : Nat) → P (List BlockAst)
  | 0 => outOfFuel
  | n + 1 => do
    let t ← cur
    if t.kind = .other '}' then return []
    else do
      let b ← block n
      let bs ← blockLoop n
      return b :: bs

/-- parser.rs:105-126 `parse_global_def`. -/
def globalDef (fuel : Nat) : P GlobalAst := do
  next
  let name ← readSym
  expect (.other '=')
  expect (.kw .alloc)
  let ty ← type fuel
  expect (.other ',')
  let i ← init fuel
  return .globalDef name ty i

/-- parser.rs:129-169 `parse_fun_def`. -/
def funDef (fuel : Nat) : P GlobalAst := do
  next
  let name ← readSym
  let params ← list (param fuel) fuel
  let ret ← retType (type fuel)
  expect (.other '{')
  let bbs ← blockLoop fuel
  next
  if bbs.isEmpty then fail else return .funDef name params ret bbs

/-- parser.rs:172-191 `parse_fun_decl`. -/
def funDecl (fuel : Nat) : P GlobalAst := do
  next
  let name ← readSym
  let params ← list (type fuel) fuel
  let ret ← retType (type fuel)
  return .funDecl name params ret

/-- parser.rs:85-88: the patterns of `match_token!` in `parse_next`. -/
def globalStart : TokKind → Bool
  | .eof | .kw .global | .kw .fun | .kw .decl => true
  | _ => false

/-- parser.rs:82-91 `parse_next`, with given fuel for its loops and recursions. -/
def nextAst (fuel : Nat) : P GlobalAst := do
  let t ← cur
  let recovery : P GlobalAst := do
    skipTo globalStart fuel
    return .error
  match t.kind with
  | .eof => recover (return .eof) recovery
  | .kw .global => recover (globalDef fuel) recovery
  | .kw .fun => recover (funDef fuel) recovery
  | .kw .decl => recover (funDecl fuel) recovery
  | _ => fail

end P

/-- Number of tokens and characters that the parser may still consume. -/
def PS.size (s : PS) : Nat := s.lex.size + (if s.cur.kind = .eof then 0 else 1)

/-- Fuel that suffices for one call of `parse_next` (C15). -/
def PS.fuel (s : PS) : Nat := s.size + 2

/-- parser.rs:82-91 `parse_next`. -/
def PS.parseNext (s : PS) : Option (Except FErr GlobalAst × PS) := P.nextAst s.fuel s

/-- parser.rs:72-79 `Parser::new`; the counter of errors was reset by driver.rs:28. -/
def PS.new (l : Lex) (errs : Nat) : Option (Except FErr Unit × PS) :=
  P.next { lex := l, cur := Token.default, errs }

end Koopa
