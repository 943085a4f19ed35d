import Verif.Spec.Elab
/-!
The type system of the text form: when a syntax tree is well typed. It speaks about names and types
only, not about programs or handles.
-/
namespace Koopa.Spec

/-- `a` is a constant of type `t`. -/
inductive ConstOk : ValAst → Ty → Prop where
  | int {n : I32} : ConstOk (.int n) .i32
  | undef {t : Ty} : t ≠ .unit → ConstOk .undef t
  | zero {t : Ty} : t ≠ .unit → ConstOk .zero t
  | agg {es : List ValAst} {t : Ty} : es ≠ [] → (∀ e ∈ es, ConstOk e t) → ConstOk (.agg es) (.array t es.length)

/-- What the names in a statement stand for. -/
structure TyEnv where
  /-- The symbol has this type. -/
  sym : Str → Ty → Prop
  /-- The label is that of a block with parameters of these types. -/
  bb : Str → List Ty → Prop
  /-- The name is that of a function with these parameter types and this return type. -/
  fn : Str → List Ty → Ty → Prop
  /-- The return type of the enclosing function. -/
  ret : Ty

/-- `a` is an operand of type `t`. -/
inductive OperandOk (E : TyEnv) : ValAst → Ty → Prop where
  | sym {s : Str} {t : Ty} : E.sym s t → OperandOk E (.sym s) t
  | const {a : ValAst} {t : Ty} : ConstOk a t → OperandOk E a t

/-- The right-hand side has type `t`. -/
inductive ExprOk (E : TyEnv) : ExprAst → Ty → Prop where
  | alloc {a : TyAst} {t : Ty} : TyIs a t → ExprOk E (.alloc a) (.ptr t)
  | load {s : Str} {t : Ty} : E.sym s (.ptr t) → ExprOk E (.load s) t
  | getPtr {s : Str} {a : ValAst} {t : Ty} : E.sym s (.ptr t) → OperandOk E a .i32 → ExprOk E (.getPtr s a) (.ptr t)
  | getElemPtr {s : Str} {a : ValAst} {t : Ty} {n : Nat} : E.sym s (.ptr (.array t n)) → OperandOk E a .i32 →
      ExprOk E (.getElemPtr s a) (.ptr t)
  | binary {op : BinOp} {a b : ValAst} : OperandOk E a .i32 → OperandOk E b .i32 → ExprOk E (.binary op a b) .i32
  | call {n : Str} {as : List ValAst} {ts : List Ty} {r : Ty} : E.fn n ts r → All2 (OperandOk E) as ts →
      ExprOk E (.call n as) r

/-- The statement is well typed. `T`: the types of the symbols defined in the function. -/
inductive StmtOk (E : TyEnv) (T : Str → Ty) : StmtAst → Prop where
  | def {n : Str} {e : ExprAst} : ExprOk E e (T n) → T n ≠ .unit → StmtOk E T (.def n e)
  | store {a : ValAst} {s : Str} {t : Ty} : OperandOk E a t → E.sym s (.ptr t) → StmtOk E T (.store a s)
  | call {n : Str} {as : List ValAst} {r : Ty} : ExprOk E (.call n as) r → StmtOk E T (.call n as)
  | branch {c : ValAst} {tn fn : Str} {ta fa : List ValAst} {ts fs : List Ty} : OperandOk E c .i32 → E.bb tn ts →
      All2 (OperandOk E) ta ts → E.bb fn fs → All2 (OperandOk E) fa fs → (tn = fn → ta = [] ∧ fa = []) →
      StmtOk E T (.branch c tn ta fn fa)
  | jump {n : Str} {as : List ValAst} {ts : List Ty} : E.bb n ts → All2 (OperandOk E) as ts → StmtOk E T (.jump n as)
  | retNone : E.ret = .unit → StmtOk E T (.ret none)
  | ret {a : ValAst} : E.ret ≠ .unit → OperandOk E a E.ret → StmtOk E T (.ret (some a))

/-- Symbol `s` is known in statement `i` of block `j` of a function with parameters `params` and
blocks `order`: it is a function parameter, the parameter of another than the first block from which
block `j` can be reached, or defined earlier in a block from which block `j` can be reached. -/
inductive InScope (params : List (Str × TyAst)) (order : List BlockAst) (j i : Nat) (s : Str) : Prop where
  | arg {a : TyAst} : (s, a) ∈ params → InScope params order j i s
  | param {j' : Nat} {b b' : BlockAst} {a : TyAst} : order[j]? = some b → order[j' + 1]? = some b' →
      (s, a) ∈ b'.params → Flows order b'.name b.name → InScope params order j i s
  | inst {j' i' : Nat} {b b' : BlockAst} {e : ExprAst} : order[j]? = some b → order[j']? = some b' →
      b'.stmts[i']? = some (.def s e) → Flows order b'.name b.name → (j' < j ∨ j' = j ∧ i' < i) →
      InScope params order j i s

/-- What statement `i` of block `j` may refer to. `gv` and `gf` are the global variables and functions
with their types, `T` gives the types of the symbols defined in the function. -/
def tyEnv (gv : List (Str × Ty)) (gf : List (Str × List Ty × Ty)) (params : List (Str × TyAst)) (order : List BlockAst)
    (T : Str → Ty) (r : Ty) (j i : Nat) : TyEnv where
  sym s t := (s, t) ∈ gv ∨ InScope params order j i s ∧ T s = t
  bb l ts := ∃ b ∈ order, b.name = l ∧ All2 TyIs (b.params.map (·.2)) ts
  fn n ts t := (n, ts, t) ∈ gf
  ret := r

/-- A name is `@` or `%` followed by at least one character. -/
def nameOk : Str → Prop
  | c :: _ :: _ => c = '@' ∨ c = '%'
  | _ => False

/-- Statements that end a block. -/
def endStmt : StmtAst → Bool
  | .branch _ _ _ _ _ => true
  | .jump _ _ => true
  | .ret _ => true
  | _ => false

/-- The function is well typed: its blocks can be ordered, its names differ from each other and from
the global variables, and there are types for its symbols such that every statement of a reachable
block is well typed. `ts` and `r` are its parameter types and its return type. -/
structure FunOk (gv : List (Str × Ty)) (gf : List (Str × List Ty × Ty)) (params : List (Str × TyAst))
    (ret : Option TyAst) (bbs order : List BlockAst) (ts : List Ty) (r : Ty) : Prop where
  isOrder : ∃ e, BreadthFirst bbs order e
  paramTys : All2 TyIs (params.map (·.2)) ts
  retTy : RetIs TyIs ret r
  names : (params.map (·.1) ++ order.flatMap paramNames ++ order.flatMap defNames).Nodup
  global : ∀ n ∈ params.map (·.1) ++ order.flatMap paramNames ++ order.flatMap defNames, n ∉ gv.map (·.1)
  namesOk : ∀ n ∈ params.map (·.1) ++ order.flatMap paramNames ++ order.flatMap defNames ++ order.map (·.name), nameOk n
  ends : ∀ b ∈ order, ∃ st, b.stmts.getLast? = some st ∧ endStmt st = true
  body : ∃ T : Str → Ty, (∀ q ∈ params, TyIs q.2 (T q.1)) ∧ (∀ b ∈ order, ∀ q ∈ b.params, TyIs q.2 (T q.1)) ∧
    ∀ (j i : Nat) b st, order[j]? = some b → b.stmts[i]? = some st → StmtOk (tyEnv gv gf params order T r j i) T st

/-- The items are well typed; `gv` and `gf` are the global variables and functions they define. Names
are new, and an item refers to the items before it and a function to itself. -/
inductive ItemsOk : List GlobalAst → List (Str × Ty) → List (Str × List Ty × Ty) → Prop where
  | nil : ItemsOk [] [] []
  | globalDef {gs : List GlobalAst} {gv : List (Str × Ty)} {gf : List (Str × List Ty × Ty)} {name : Str} {ty : TyAst}
      {init : ValAst} {t : Ty} : ItemsOk gs gv gf → nameOk name → name ∉ gv.map (·.1) → name ∉ gf.map (·.1) → TyIs ty t →
      ConstOk init t → ItemsOk (gs ++ [.globalDef name ty init]) (gv ++ [(name, .ptr t)]) gf
  | funDecl {gs : List GlobalAst} {gv : List (Str × Ty)} {gf : List (Str × List Ty × Ty)} {name : Str}
      {params : List TyAst} {ret : Option TyAst} {ts : List Ty} {r : Ty} : ItemsOk gs gv gf → nameOk name →
      name ∉ gv.map (·.1) → name ∉ gf.map (·.1) → All2 TyIs params ts → RetIs TyIs ret r →
      ItemsOk (gs ++ [.funDecl name params ret]) gv (gf ++ [(name, ts, r)])
  | funDef {gs : List GlobalAst} {gv : List (Str × Ty)} {gf : List (Str × List Ty × Ty)} {name : Str}
      {params : List (Str × TyAst)} {ret : Option TyAst} {bbs order : List BlockAst} {ts : List Ty} {r : Ty} :
      ItemsOk gs gv gf → nameOk name → name ∉ gv.map (·.1) → name ∉ gf.map (·.1) →
      FunOk gv (gf ++ [(name, ts, r)]) params ret bbs order ts r →
      ItemsOk (gs ++ [.funDef name params ret bbs]) gv (gf ++ [(name, ts, r)])

mutual
/-- The number of values a constant consists of. -/
def constSize : ValAst → Nat
  | .agg es => constSizes es + 1
  | _ => 1
def constSizes : List ValAst → Nat
  | [] => 0
  | e :: es => constSize e + constSizes es
end

/-- The number of global values an item makes. -/
def globalSize : GlobalAst → Nat
  | .globalDef _ _ init => constSize init + 1
  | _ => 0

end Koopa.Spec
