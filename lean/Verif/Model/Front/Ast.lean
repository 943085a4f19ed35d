import Verif.Model.Front.Token
/-!
Model of koopa/src/front/ast.rs.

The code has one type `Ast` with a kind for every construct. Here each syntactic category the
parser distinguishes has its own type, so that children which the parser can never produce (and for
which the builder has `unreachable!()`) need no cases. Spans are dropped: the builder uses them for
messages only.
-/
namespace Koopa

/-- Types: ast.rs:95-144 `IntType`, `ArrayType`, `PointerType`, `FunType`. -/
inductive TyAst where
  | int
  | array (base : TyAst) (len : Nat)
  | pointer (base : TyAst)
  | func (params : List TyAst) (ret : Option TyAst)
deriving Repr

/-- Values and initializers: ast.rs:147-206 `SymbolRef`, `IntVal`, `UndefVal`, `Aggregate`,
`ZeroInit`. -/
inductive ValAst where
  | sym (s : Str)
  | int (v : I32)
  | undef
  | zero
  | agg (elems : List ValAst)
deriving Repr

/-- Right-hand sides of symbol definitions: ast.rs:236-247, 263-331, 380-392 `MemDecl`, `Load`,
`GetPointer`, `GetElementPointer`, `BinaryExpr`, `FunCall`. -/
inductive ExprAst where
  | alloc (ty : TyAst)
  | load (sym : Str)
  | getPtr (sym : Str) (v : ValAst)
  | getElemPtr (sym : Str) (v : ValAst)
  | binary (op : BinOp) (lhs rhs : ValAst)
  | call (f : Str) (args : List ValAst)
deriving Repr

/-- Statements: ast.rs:208-220, 276-288, 333-405, 490-498 `SymbolDef`, `Store`, `Branch`, `Jump`,
`FunCall`, `Return`, `Error`. -/
inductive StmtAst where
  | def (name : Str) (value : ExprAst)
  | store (value : ValAst) (sym : Str)
  | call (f : Str) (args : List ValAst)
  | branch (cond : ValAst) (tbb : Str) (targs : List ValAst) (fbb : Str) (fargs : List ValAst)
  | jump (target : Str) (args : List ValAst)
  | ret (value : Option ValAst)
  | error
deriving Repr

/-- ast.rs:437-443 `Block`. -/
structure BlockAst where
  name : Str
  params : List (Str × TyAst)
  stmts : List StmtAst
deriving Repr

/-- What `parse_next` returns: ast.rs:222-261, 407-498 `GlobalDef` (with its `GlobalDecl`), `FunDef`,
`FunDecl`, `End`, `Error`. -/
inductive GlobalAst where
  | globalDef (name : Str) (ty : TyAst) (init : ValAst)
  | funDef (name : Str) (params : List (Str × TyAst)) (ret : Option TyAst) (bbs : List BlockAst)
  | funDecl (name : Str) (params : List TyAst) (ret : Option TyAst)
  | eof
  | error
deriving Repr

end Koopa
