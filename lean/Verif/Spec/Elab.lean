import Verif.Model.Front.Ast
import Verif.Spec.Typing
import Verif.Spec.Grammar
import Verif.Spec.Lexical
/-!
What a syntax tree means: which IR program a text stands for. Written without the generator of the
front end; handles are arbitrary.
-/
namespace Koopa.Spec

/-- A name that consists of `%` and numeric characters is temporary and not kept. -/
def temporary (n : Str) : Bool := n.all (fun c => c == '%' || isNum c)

/-- The name an entity gets. -/
def keptName (n : Str) : Option Str := if temporary n then none else some n

/-- An absent return type is unit. -/
inductive RetIs (T : TyAst → Ty → Prop) : Option TyAst → Ty → Prop where
  | none : RetIs T none .unit
  | some {a : TyAst} {t : Ty} : T a t → RetIs T (some a) t

/-- Types. Arrays are not empty. -/
inductive TyIs : TyAst → Ty → Prop where
  | int : TyIs .int .i32
  | array {a : TyAst} {t : Ty} {n : Nat} : TyIs a t → n ≠ 0 → TyIs (.array a n) (.array t n)
  | pointer {a : TyAst} {t : Ty} : TyIs a t → TyIs (.pointer a) (.ptr t)
  | func {ps : List TyAst} {ts : List Ty} {r : Option TyAst} {t : Ty} : All2 TyIs ps ts → RetIs TyIs r t →
      TyIs (.func ps r) (.func ts t)

/-- `ConstIs den a t v`: value `v` is the constant `a`, read at type `t`. `den v t k`: value `v` has
type `t` and kind `k`. An aggregate is also read at a pointer type, where it stands for an array of
pointees (builder.rs:72-86). -/
inductive ConstIs (den : Value → Ty → VKind → Prop) : ValAst → Ty → Value → Prop where
  | int {n : I32} {v : Value} : den v .i32 (.integer n) → ConstIs den (.int n) .i32 v
  | undef {t : Ty} {v : Value} : den v t .undef → ConstIs den .undef t v
  | zero {t : Ty} {v : Value} : den v t .zeroInit → ConstIs den .zero t v
  | agg {es : List ValAst} {t t' : Ty} {v : Value} {vs : List Value} : den v t' (.aggregate vs) →
      vs.length = es.length →
      (∀ (i : Nat) (e : ValAst) (w : Value), es[i]? = some e → vs[i]? = some w → ConstIs den e t w) →
      ConstIs den (.agg es) (.array t es.length) v
  | aggPtr {es : List ValAst} {t t' : Ty} {v : Value} {vs : List Value} : den v t' (.aggregate vs) →
      vs.length = es.length →
      (∀ (i : Nat) (e : ValAst) (w : Value), es[i]? = some e → vs[i]? = some w → ConstIs den e t w) →
      ConstIs den (.agg es) (.ptr t) v

/-- What a statement refers to. -/
structure Env where
  /-- Value `v` has type `t` and kind `k`. -/
  den : Value → Ty → VKind → Prop
  /-- Value `v` belongs to the function and has type `t` and kind `k`. -/
  lit : Value → Ty → VKind → Prop
  /-- The symbol refers to the value. -/
  sym : Str → Value → Prop
  /-- The label refers to the block. -/
  bb : Str → BB → Prop
  /-- The parameters of the block have these types. -/
  bbTys : BB → List Ty → Prop
  /-- The name refers to the function. -/
  fn : Str → Func → Prop
  /-- The function has this type. -/
  fnTy : Func → Ty → Prop
  /-- The return type of the enclosing function. -/
  ret : Ty

/-- `v` is the operand `a`, used at type `t`. -/
inductive OperandIs (E : Env) : ValAst → Ty → Value → Prop where
  | sym {s : Str} {t : Ty} {k : VKind} {v : Value} : E.sym s v → E.den v t k → OperandIs E (.sym s) t v
  | const {a : ValAst} {t : Ty} {v : Value} : ConstIs E.lit a t v → OperandIs E a t v

/-- Arguments for parameters of given types. Further arguments are ignored (builder.rs:497-522). -/
inductive ArgsAre (E : Env) : List ValAst → List Ty → List Value → Prop where
  | nil {as : List ValAst} : ArgsAre E as [] []
  | cons {a : ValAst} {as : List ValAst} {t : Ty} {ts : List Ty} {v : Value} {vs : List Value} :
      OperandIs E a t v → ArgsAre E as ts vs → ArgsAre E (a :: as) (t :: ts) (v :: vs)

/-- The instruction a right-hand side stands for. -/
inductive ExprIs (E : Env) : ExprAst → Ty → VKind → Prop where
  | alloc {a : TyAst} {t : Ty} : TyIs a t → ExprIs E (.alloc a) (.ptr t) .alloc
  | load {s : Str} {v : Value} {t : Ty} : E.sym s v → ExprIs E (.load s) t (.load v)
  | getPtr {s : Str} {a : ValAst} {v i : Value} {t : Ty} : E.sym s v → OperandIs E a .i32 i →
      ExprIs E (.getPtr s a) t (.getPtr v i)
  | getElemPtr {s : Str} {a : ValAst} {v i : Value} {t : Ty} : E.sym s v → OperandIs E a .i32 i →
      ExprIs E (.getElemPtr s a) t (.getElemPtr v i)
  | binary {op : BinOp} {a b : ValAst} {v w : Value} {t : Ty} : OperandIs E a .i32 v →
      OperandIs E b .i32 w → ExprIs E (.binary op a b) t (.binary op v w)
  | call {n : Str} {as : List ValAst} {g : Func} {ts : List Ty} {r t : Ty} {vs : List Value} :
      E.fn n g → E.fnTy g (.func ts r) → ArgsAre E as ts vs → ExprIs E (.call n as) t (.call g vs)

/-- The instruction a statement stands for. -/
inductive StmtIs (E : Env) : StmtAst → Ty → VKind → Prop where
  | def {n : Str} {e : ExprAst} {t : Ty} {k : VKind} : ExprIs E e t k → t ≠ .unit →
      StmtIs E (.def n e) t k
  | store {a : ValAst} {s : Str} {d v : Value} {t t' : Ty} {k : VKind} : E.sym s d →
      E.den d (.ptr t) k → OperandIs E a t v → StmtIs E (.store a s) t' (.store v d)
  | call {n : Str} {as : List ValAst} {t : Ty} {k : VKind} : ExprIs E (.call n as) t k →
      StmtIs E (.call n as) t k
  | branch {c : ValAst} {tn fn : Str} {ta fa : List ValAst} {v : Value} {tb fb : BB} {ts fs : List Ty}
      {tv fv : List Value} {t' : Ty} : OperandIs E c .i32 v → E.bb tn tb → E.bbTys tb ts →
      ArgsAre E ta ts tv → E.bb fn fb → E.bbTys fb fs → ArgsAre E fa fs fv →
      StmtIs E (.branch c tn ta fn fa) t' (.branch v tb fb tv fv)
  | jump {n : Str} {as : List ValAst} {b : BB} {ts : List Ty} {vs : List Value} {t' : Ty} :
      E.bb n b → E.bbTys b ts → ArgsAre E as ts vs → StmtIs E (.jump n as) t' (.jump b vs)
  | retNone {t' : Ty} : E.ret = .unit → StmtIs E (.ret none) t' (.ret none)
  | ret {a : ValAst} {v : Value} {t' : Ty} : E.ret ≠ .unit → OperandIs E a E.ret v →
      StmtIs E (.ret (some a)) t' (.ret (some v))

/-- The name of the value a statement makes. -/
def stmtName : StmtAst → Option Str
  | .def n _ => keptName n
  | _ => none

/-- The labels a block may continue at. -/
def successors (b : BlockAst) : List Str :=
  match b.stmts.getLast? with
  | some (.branch _ t _ f _) => [t, f]
  | some (.jump t _) => [t]
  | _ => []

/-- The elements of a list that are not in `seen`, each where it occurs first. -/
def firsts (seen : List Str) : List Str → List Str
  | [] => []
  | a :: as => if a ∈ seen then firsts seen as else a :: firsts (a :: seen) as

/-- Control can pass from the block named `a` to the block named `b` in any number of steps. -/
inductive Flows (order : List BlockAst) : Str → Str → Prop where
  | refl {a : Str} : Flows order a a
  | step {a c : Str} {b : BlockAst} : Flows order a b.name → b ∈ order → c ∈ successors b →
      Flows order a c

/-- `order` are the blocks of `bbs` that can be reached from the first block, in breadth-first order:
the first block, then the successors of the blocks in order, each where it is met first. Names are
unique, every successor is the name of a block, and the first block is no successor. -/
structure BreadthFirst (bbs order : List BlockAst) (e : BlockAst) : Prop where
  first : bbs.head? = some e
  names : (bbs.map (·.name)).Nodup
  exact : ∀ b, b ∈ order ↔ b ∈ bbs ∧ Flows bbs e.name b.name
  breadth : order.map (·.name) = firsts [] (e.name :: order.flatMap successors)
  targets : ∀ b ∈ order, ∀ t ∈ successors b, t ≠ e.name ∧ ∃ b' ∈ order, b'.name = t

/-- `v` is the `i`-th parameter, with the written name and type. -/
def ParamFrom (p : Program) (f : Func) (k : Nat → VKind) (i : Nat) (q : Str × TyAst) (v : Value) : Prop :=
  ∃ x, LocalVal p f v x ∧ x.name = keptName q.1 ∧ TyIs q.2 x.ty ∧ x.kind = k i

/-- Parameters in order. -/
def ParamsFrom (p : Program) (f : Func) (k : Nat → VKind) (ps : List (Str × TyAst)) (vs : List Value) : Prop :=
  vs.length = ps.length ∧ ∀ i q v, ps[i]? = some q → vs[i]? = some v → ParamFrom p f k i q v

/-- In the function with parameters `params` whose blocks `lay` stand for `order`, the block named
`n` defines symbol `s` as `v`: as a function parameter (first block), as a parameter of another
block, or by a statement. -/
inductive Defines (p : Program) (f : Func) (params : List (Str × TyAst)) (args : List Value)
    (lay : List (BB × List Value)) (order : List BlockAst) : (n s : Str) → Value → Prop where
  | arg {b : BlockAst} {i : Nat} {s : Str} {a : TyAst} {v : Value} : order[0]? = some b →
      params[i]? = some (s, a) → args[i]? = some v → Defines p f params args lay order b.name s v
  | param {b : BlockAst} {j i : Nat} {h : BB} {is : List Value} {x : BData} {s : Str} {a : TyAst} {v : Value} :
      order[j + 1]? = some b → lay[j + 1]? = some (h, is) → Block p f h x →
      b.params[i]? = some (s, a) → x.params[i]? = some v → Defines p f params args lay order b.name s v
  | inst {b : BlockAst} {j i : Nat} {h : BB} {is : List Value} {s : Str} {e : ExprAst} {v : Value} :
      order[j]? = some b → lay[j]? = some (h, is) → b.stmts[i]? = some (.def s e) → is[i]? = some v →
      Defines p f params args lay order b.name s v

/-- `v` denotes a live value of the function or a global. -/
def Denotes (p : Program) (f : Func) (v : Value) (t : Ty) (k : VKind) : Prop :=
  ∃ x, (GlobalVal p v x ∨ LocalVal p f v x) ∧ x.ty = t ∧ x.kind = k

/-- `v` denotes a live value of the function. -/
def LDenotes (p : Program) (f : Func) (v : Value) (t : Ty) (k : VKind) : Prop :=
  ∃ x, LocalVal p f v x ∧ x.ty = t ∧ x.kind = k

/-- The names that the statements of a block define. -/
def defNames (b : BlockAst) : List Str :=
  b.stmts.filterMap (fun st => match st with | .def n _ => some n | _ => none)

/-- The names of the parameters of a block. -/
def paramNames (b : BlockAst) : List Str := b.params.map (·.1)

/-- The predecessors of the block named `n`, in the order of the text: once for each time that `n` is
a target. -/
def predsOf (order : List BlockAst) (n : Str) : List Str :=
  order.flatMap (fun b => ((successors b).filter (· = n)).map (fun _ => b.name))

/-- The block named `n` takes the parameter `s`. The first block takes the parameters of the function. -/
inductive TakesParam (params : List (Str × TyAst)) (order : List BlockAst) (s : Str) : Str → Prop where
  | arg {b : BlockAst} : order[0]? = some b → s ∈ params.map (·.1) → TakesParam params order s b.name
  | param {j : Nat} {b : BlockAst} : order[j + 1]? = some b → s ∈ paramNames b → TakesParam params order s b.name

/-- Walking depth first through `preds`, never twice through a name, the first name with `has` is the
last argument. The other two are the names visited before and the names waiting. -/
inductive Meets (has : Str → Prop) (preds : Str → List Str) : List Str → List Str → Str → Prop where
  | seen {vis wait : List Str} {n r : Str} : n ∈ vis → Meets has preds vis wait r → Meets has preds vis (n :: wait) r
  | here {vis wait : List Str} {n : Str} : n ∉ vis → has n → Meets has preds vis (n :: wait) n
  | next {vis wait : List Str} {n r : Str} : n ∉ vis → ¬ has n → Meets has preds (n :: vis) (preds n ++ wait) r →
      Meets has preds vis (n :: wait) r

/-- What the statement with handle `w` of the block named `n` refers to. A symbol is a global or is
defined earlier in a block from which this block can be reached. If it is not defined by a statement,
then it is a parameter, and which one is found by a walk from `n` through the predecessors. -/
def envOf (p : Program) (gv : Str → Value → Prop) (gf : Str → Func → Prop) (f : Func)
    (params : List (Str × TyAst)) (args : List Value) (lay : List (BB × List Value))
    (order : List BlockAst) (r : Ty) (n : Str) (w : Value) : Env where
  den := Denotes p f
  lit := LDenotes p f
  sym s v := gv s v ∨ (∀ v', ¬ gv s v') ∧ ∃ n', Defines p f params args lay order n' s v ∧ v < w ∧ Flows order n' n ∧
    (s ∉ order.flatMap defNames → Meets (TakesParam params order s) (predsOf order) [] [n] n')
  bb l b := ∃ (j : Nat) (blk : BlockAst) (is : List Value), order[j]? = some blk ∧ blk.name = l ∧ lay[j]? = some (b, is)
  bbTys := ParamTys p f
  fn := gf
  fnTy := FuncTy p
  ret := r

/-- Which names differ in an accepted function: function parameters from each other; parameters and
definitions of blocks from each other and from the global variables; definitions also from the
function parameters. -/
structure UniqueNames (gv : Str → Value → Prop) (params : List (Str × TyAst)) (order : List BlockAst) : Prop where
  distinct : (params.map (·.1)).Nodup
  locals : (order.flatMap paramNames ++ order.flatMap defNames).Nodup
  apart : ∀ n ∈ order.flatMap defNames, n ∉ params.map (·.1)
  global : ∀ n ∈ order.flatMap paramNames ++ order.flatMap defNames, ∀ v, ¬ gv n v

/-- Function `f` of the program is the function written in the text; `order` are the blocks that can
be reached, `gv` and `gf` the names defined before. Handles of instructions grow along the layout, so
`v < w` in `envOf` means that `v` is a parameter or an instruction before `w`. -/
structure FunIs (p : Program) (gv : Str → Value → Prop) (gf : Str → Func → Prop) (f : Func) (fd : FData)
    (name : Str) (params : List (Str × TyAst)) (ret : Option TyAst) (bbs order : List BlockAst) (r : Ty) :
    Prop where
  hasName : fd.name = name
  hasTy : ∃ ts, fd.ty = .func ts r ∧ All2 TyIs (params.map (·.2)) ts
  hasRet : RetIs TyIs ret r
  hasParams : ParamsFrom p f VKind.funcArgRef params fd.params
  isOrder : ∃ e, BreadthFirst bbs order e
  unique : UniqueNames gv params order
  ascending : (fd.layout.bbs.flatMap (·.2)).Pairwise (· < ·)
  blocks : All2 (fun (hi : BB × List Value) (b : BlockAst) =>
      (∃ x, Block p f hi.1 x ∧ x.name = keptName b.name ∧ ParamsFrom p f VKind.blockArgRef b.params x.params) ∧
      All2 (fun (w : Value) (st : StmtAst) => ∃ x, LocalVal p f w x ∧ x.name = stmtName st ∧
        StmtIs (envOf p gv gf f params fd.params fd.layout.bbs order r b.name w) st x.ty x.kind) hi.2 b.stmts)
    fd.layout.bbs order
  noOthers : ∀ b x, Block p f b x → b ∈ fd.layout.bbs.map (·.1)

/-- Function `f` is the declaration in the text. -/
structure DeclIs (p : Program) (f : Func) (fd : FData) (name : Str) (params : List TyAst) (ret : Option TyAst) :
    Prop where
  hasName : fd.name = name
  hasTy : ∃ ts r, fd.ty = .func ts r ∧ All2 TyIs params ts ∧ RetIs TyIs ret r
  hasParams : fd.params = []
  noBlocks : fd.layout.bbs = [] ∧ ∀ b x, ¬ Block p f b x

/-- Global value `v` has type `t` and kind `k`. -/
def GDenotes (p : Program) (v : Value) (t : Ty) (k : VKind) : Prop :=
  ∃ x, GlobalVal p v x ∧ x.ty = t ∧ x.kind = k

/-- Global `v` is the definition in the text. -/
def GlobalIs (p : Program) (v : Value) (name : Str) (ty : TyAst) (init : ValAst) : Prop :=
  ∃ x i y t, GlobalVal p v x ∧ x.name = keptName name ∧ x.kind = .globalAlloc i ∧ GlobalVal p i y ∧ x.ty = .ptr y.ty ∧
    TyIs ty t ∧ ConstIs (GDenotes p) init t i

/-- The items of a text, with the global variables and functions they introduce. Each name is new, and
a function sees the names before it and its own. -/
inductive Items (p : Program) : List GlobalAst → List (Str × Value) → List (Str × Func) → Prop where
  | nil : Items p [] [] []
  | globalDef {gs : List GlobalAst} {vars : List (Str × Value)} {fns : List (Str × Func)} {name : Str} {ty : TyAst}
      {init : ValAst} {v : Value} : Items p gs vars fns → name ∉ vars.map (·.1) → name ∉ fns.map (·.1) →
      GlobalIs p v name ty init → Items p (gs ++ [.globalDef name ty init]) (vars ++ [(name, v)]) fns
  | funDecl {gs : List GlobalAst} {vars : List (Str × Value)} {fns : List (Str × Func)} {name : Str}
      {params : List TyAst} {ret : Option TyAst} {f : Func} {fd : FData} : Items p gs vars fns →
      name ∉ vars.map (·.1) → name ∉ fns.map (·.1) → p.funcs.get? f = some fd → DeclIs p f fd name params ret →
      Items p (gs ++ [.funDecl name params ret]) vars (fns ++ [(name, f)])
  | funDef {gs : List GlobalAst} {vars : List (Str × Value)} {fns : List (Str × Func)} {name : Str}
      {params : List (Str × TyAst)} {ret : Option TyAst} {bbs order : List BlockAst} {r : Ty} {f : Func} {fd : FData} :
      Items p gs vars fns → name ∉ vars.map (·.1) → name ∉ fns.map (·.1) → p.funcs.get? f = some fd →
      FunIs p (fun n v => (n, v) ∈ vars) (fun n g => (n, g) ∈ fns ++ [(name, f)]) f fd name params ret bbs order r →
      Items p (gs ++ [.funDef name params ret bbs]) vars (fns ++ [(name, f)])

/-- The program is the one written in the text: its global variables and functions, in order, are the
items. -/
def ProgIs (p : Program) (gs : List GlobalAst) : Prop :=
  ∃ vars fns, Items p gs vars fns ∧ p.instLayout = vars.map (·.2) ∧ p.funcLayout = fns.map (·.2) ∧
    ∀ f, (p.funcs.get? f).isSome ↔ f ∈ p.funcLayout

/-- The text is a sequence of items. -/
def Reads (input : Str) (gs : List GlobalAst) : Prop := ∃ ts, Toks input 1 ts ∧ GProg gs ts

/-- The name an item defines. -/
def itemName : GlobalAst → Str
  | .globalDef n _ _ => n
  | .funDef n _ _ _ => n
  | .funDecl n _ _ => n
  | .eof => []
  | .error => []

/-- Instructions that end a block. -/
def terminator : VKind → Bool
  | .branch _ _ _ _ _ => true
  | .jump _ _ => true
  | .ret _ => true
  | _ => false

/-- What symbol `s` may mean in statement `i` of block `j` of a function with parameters `params` whose
blocks `lay` stand for `order`: a global variable; the function parameter of that name; the parameter of a
block from which block `j` can be reached; or a definition in such a block that stands earlier in the
layout. A parameter is the first that is met on a walk from block `j` through the predecessors. -/
inductive Resolves (p : Program) (gv : Str → Value → Prop) (f : Func) (params : List (Str × TyAst)) (args : List Value)
    (lay : List (BB × List Value)) (order : List BlockAst) (j i : Nat) (s : Str) (v : Value) : Prop where
  | global : gv s v → Resolves p gv f params args lay order j i s v
  | arg {k : Nat} {a : TyAst} {b b' : BlockAst} : params[k]? = some (s, a) → args[k]? = some v → order[j]? = some b →
      order[0]? = some b' → Meets (TakesParam params order s) (predsOf order) [] [b.name] b'.name →
      Resolves p gv f params args lay order j i s v
  | param {j' k : Nat} {b b' : BlockAst} {h : BB} {is : List Value} {x : BData} {a : TyAst} :
      order[j]? = some b → order[j']? = some b' → lay[j']? = some (h, is) → Block p f h x →
      b'.params[k]? = some (s, a) → x.params[k]? = some v → Flows order b'.name b.name →
      Meets (TakesParam params order s) (predsOf order) [] [b.name] b'.name →
      Resolves p gv f params args lay order j i s v
  | inst {j' i' : Nat} {b b' : BlockAst} {h : BB} {is : List Value} {e : ExprAst} :
      order[j]? = some b → order[j']? = some b' → lay[j']? = some (h, is) → b'.stmts[i']? = some (.def s e) →
      is[i']? = some v → Flows order b'.name b.name → (j' < j ∨ j' = j ∧ i' < i) →
      Resolves p gv f params args lay order j i s v

end Koopa.Spec
