import Verif.Spec.Raw
import Verif.Spec.Elab
import Verif.Spec.Lexical
/-!
Which programs the text form can express, and when two programs are the same up to handles and names. Written without
the generator and the front end.
-/
namespace Koopa.Spec

/-- The types that have a text form that can be read: `unit` only as a return type, lengths of arrays within the range of
literals. -/
inductive Expressible : Ty → Prop where
  | i32 : Expressible .i32
  | array {t : Ty} {n : Nat} : Expressible t → 0 < n → n < 2 ^ 63 → Expressible (.array t n)
  | ptr {t : Ty} : Expressible t → Expressible (.ptr t)
  | proc {ps : List Ty} : (∀ t ∈ ps, Expressible t) → Expressible (.func ps .unit)
  | func {ps : List Ty} {r : Ty} : (∀ t ∈ ps, Expressible t) → Expressible r → Expressible (.func ps r)

/-- A name that is a symbol and no temporary one. -/
def PlainName (n : Str) : Prop := ∃ tag s, n = tag :: s ∧ (tag = '@' ∨ tag = '%') ∧ Ident s

/-- All chosen names are such. -/
structure PlainNames (p : Program) : Prop where
  funcs : ∀ f fd, p.funcs.get? f = some fd → PlainName fd.name
  globals : ∀ v x n, GlobalVal p v x → x.name = some n → PlainName n
  locals : ∀ f v x n, LocalVal p f v x → x.name = some n → PlainName n
  blocks : ∀ f b x n, Block p f b x → x.name = some n → PlainName n

/-- The value is a constant built from constants. `get`: the data of a value. -/
inductive Constant (get : Value → Option VData) : Value → Prop where
  | int {v : Value} {x : VData} {n : I32} : get v = some x → x.kind = .integer n → Constant get v
  | undef {v : Value} {x : VData} : get v = some x → x.kind = .undef → Constant get v
  | zero {v : Value} {x : VData} : get v = some x → x.kind = .zeroInit → Constant get v
  | agg {v : Value} {x : VData} {es : List Value} : get v = some x → x.kind = .aggregate es → (∀ e ∈ es, Constant get e) →
      Constant get v

/-- The number of values the constant consists of, a value counted each time it occurs. -/
inductive Nodes (get : Value → Option VData) : Value → Nat → Prop where
  | leaf {v : Value} {x : VData} : get v = some x → operands x.kind = [] → Nodes get v 1
  | agg {v : Value} {x : VData} {es : List Value} {ns : List Nat} : get v = some x → x.kind = .aggregate es →
      ns.length = es.length → (∀ (i : Nat) e n, es[i]? = some e → ns[i]? = some n → Nodes get e n) → Nodes get v (ns.sum + 1)

/-- The number of global values that the global variables of a program consist of. -/
def GlobalNodes (p : Program) (n : Nat) : Prop :=
  ∃ ns : List Nat, All2 (fun v k => ∃ x i, GlobalVal p v x ∧ x.kind = .globalAlloc i ∧ Nodes p.values.get? i k) p.instLayout ns ∧
    n = (ns.map (· + 1)).sum

/-- Control leads from block `a` to block `b` in any number of steps. -/
inductive Leads (p : Program) (f : Func) (a : BB) : BB → Prop where
  | refl : Leads p f a a
  | step {b c : BB} : Leads p f a b → Edge p f b c → Leads p f a c

/-- Where control may pass from a block with these instructions. -/
def exits (fd : FData) (is : List Value) : List BB :=
  match is.getLast? with
  | none => []
  | some v => match fd.dfg.values.get? v with
    | none => []
    | some x => targets x.kind

/-- The elements of a list that are not in `seen`, each where it occurs first. -/
def firstOnes (seen : List BB) : List BB → List BB
  | [] => []
  | a :: as => if a ∈ seen then firstOnes seen as else a :: firstOnes (a :: seen) as

/-- Instruction `i` of block `j` of the function may use the value by its name: it is a listed global variable, a parameter
of the function, a parameter of another than the first block that leads to block `j`, or an earlier instruction in a
block that leads to block `j`. -/
inductive Visible (p : Program) (f : Func) (fd : FData) (j i : Nat) (v : Value) : Prop where
  | global : v ∈ p.instLayout → Visible p f fd j i v
  | arg : v ∈ fd.params → Visible p f fd j i v
  | param {j' : Nat} {b b' : BB} {is is' : List Value} {x : BData} : fd.layout.bbs[j]? = some (b, is) →
      fd.layout.bbs[j' + 1]? = some (b', is') → fd.dfg.bbs.get? b' = some x → v ∈ x.params → Leads p f b' b →
      Visible p f fd j i v
  | inst {j' i' : Nat} {b b' : BB} {is is' : List Value} {x : VData} : fd.layout.bbs[j]? = some (b, is) →
      fd.layout.bbs[j']? = some (b', is') → is'[i']? = some v → fd.dfg.values.get? v = some x → x.ty ≠ .unit →
      Leads p f b' b → (j' < j ∨ j' = j ∧ i' < i) → Visible p f fd j i v

/-- A value that may be an operand: visible, or an integer or `undef`. -/
def Usable (p : Program) (f : Func) (fd : FData) (j i : Nat) (v : Value) : Prop :=
  Visible p f fd j i v ∨ ∃ x, fd.dfg.values.get? v = some x ∧ ((∃ n, x.kind = .integer n) ∨ x.kind = .undef)

/-- The instructions that can be written. `V`: visible values, `O`: operands, `I`: initializers, `F`: functions that can be
called, `H`: types of values, `r`: the return type of the function. -/
inductive Writable (V O I : Value → Prop) (F : Func → Prop) (H : Value → Ty → Prop) (r : Ty) : VKind → Ty → Prop where
  | alloc {t : Ty} : Expressible t → Writable V O I F H r .alloc (.ptr t)
  | load {s : Value} {t : Ty} : V s → t ≠ .unit → Writable V O I F H r (.load s) t
  | store {v d : Value} {t : Ty} : V v ∨ I v → V d → Writable V O I F H r (.store v d) t
  | getPtr {s i : Value} {t : Ty} : V s → O i → Writable V O I F H r (.getPtr s i) t
  | getElemPtr {s i : Value} {t : Ty} : V s → O i → Writable V O I F H r (.getElemPtr s i) t
  | binary {op : BinOp} {a b : Value} {t : Ty} : O a → O b → Writable V O I F H r (.binary op a b) t
  | branch {c : Value} {x y : BB} {xs ys : List Value} {t : Ty} : O c → (∀ v ∈ xs, O v) → (∀ v ∈ ys, O v) →
      Writable V O I F H r (.branch c x y xs ys) t
  | jump {x : BB} {xs : List Value} {t : Ty} : (∀ v ∈ xs, O v) → Writable V O I F H r (.jump x xs) t
  | call {g : Func} {as : List Value} {t : Ty} : F g → (∀ v ∈ as, O v) → Writable V O I F H r (.call g as) t
  | retNone {t : Ty} : r = .unit → Writable V O I F H r (.ret none) t
  | ret {v : Value} {t : Ty} : r ≠ .unit → O v → H v r → Writable V O I F H r (.ret (some v)) t

/-- The body of function `f` can be written; `before` are the functions listed before it. -/
structure PrintableBody (p : Program) (before : List Func) (f : Func) (fd : FData) (ts : List Ty) (r : Ty) : Prop where
  hasBlocks : fd.dfg.bbs.isEmpty = false
  params : fd.params.length = ts.length ∧
    ∀ i v, fd.params[i]? = some v → ∃ x, fd.dfg.values.get? v = some x ∧ x.kind = .funcArgRef i ∧ ts[i]? = some x.ty
  blocksOnce : (fd.layout.bbs.map (·.1)).Nodup
  instsOnce : (fd.layout.bbs.flatMap (·.2)).Nodup
  blocks : ∀ b is, (b, is) ∈ fd.layout.bbs → ∃ x, fd.dfg.bbs.get? b = some x ∧
    ∀ i v, x.params[i]? = some v → ∃ y, fd.dfg.values.get? v = some y ∧ y.kind = .blockArgRef i ∧ Expressible y.ty
  paramsOnce : ∀ b b' x x' v, b ∈ fd.layout.bbs.map (·.1) → b' ∈ fd.layout.bbs.map (·.1) → fd.dfg.bbs.get? b = some x →
    fd.dfg.bbs.get? b' = some x' → v ∈ x.params → v ∈ x'.params → b = b'
  insts : ∀ (j i : Nat) b is v, fd.layout.bbs[j]? = some (b, is) → is[i]? = some v → ∃ x, fd.dfg.values.get? v = some x ∧
    Writable (Visible p f fd j i) (Usable p f fd j i) (Constant fd.dfg.values.get?) (· ∈ before ++ [f]) (HasTy p f) r x.kind x.ty
  ends : ∀ b is, (b, is) ∈ fd.layout.bbs → ∃ init t, is = init ++ [t] ∧
    (∃ x, fd.dfg.values.get? t = some x ∧ terminator x.kind = true) ∧
    ∀ v ∈ init, ∃ x, fd.dfg.values.get? v = some x ∧ terminator x.kind = false
  order : ∃ e, (fd.layout.bbs.map (·.1)).head? = some e ∧
    fd.layout.bbs.map (·.1) = firstOnes [] (e :: fd.layout.bbs.flatMap (fun q => exits fd q.2)) ∧
    ∀ b is, (b, is) ∈ fd.layout.bbs → Leads p f e b ∧ ∀ c ∈ exits fd is, c ≠ e ∧ c ∈ fd.layout.bbs.map (·.1)

/-- Function `f` can be written. -/
structure PrintableFun (p : Program) (before : List Func) (f : Func) (fd : FData) (ts : List Ty) (r : Ty) : Prop where
  ty : fd.ty = .func ts r
  tys : ∀ t ∈ ts, Expressible t
  ret : r = .unit ∨ Expressible r
  body : (fd.dfg.bbs.isEmpty = true ∧ fd.layout.bbs = [] ∧ fd.params = []) ∨ PrintableBody p before f fd ts r

/-- The program can be written in the text form so that it can be read again. -/
structure Printable (p : Program) : Prop where
  typed : WellTyped p
  globalId : ∀ v x, GlobalVal p v x → isGlobal v = true
  localId : ∀ f v x, LocalVal p f v x → isGlobal v = false
  instsOnce : p.instLayout.Nodup
  insts : ∀ v ∈ p.instLayout, ∃ x i y, GlobalVal p v x ∧ x.kind = .globalAlloc i ∧ Constant p.values.get? i ∧ GlobalVal p i y ∧
    Expressible y.ty
  funcsOnce : p.funcLayout.Nodup
  funcs : ∀ i f, p.funcLayout[i]? = some f → ∃ fd ts r, p.funcs.get? f = some fd ∧ PrintableFun p (p.funcLayout.take i) f fd ts r

/-- The lengths of arrays in the type are within the range of literals. -/
inductive ShortTy : Ty → Prop where
  | i32 : ShortTy .i32
  | unit : ShortTy .unit
  | array {t : Ty} {n : Nat} : ShortTy t → n < 2 ^ 63 → ShortTy (.array t n)
  | ptr {t : Ty} : ShortTy t → ShortTy (.ptr t)
  | func {ps : List Ty} {r : Ty} : (∀ t ∈ ps, ShortTy t) → ShortTy r → ShortTy (.func ps r)

/-! ### The same program -/

/-- Where a value stands: as global variable, parameter of the function, parameter of a block, or instruction. -/
inductive Place where
  | global (i : Nat)
  | arg (i : Nat)
  | param (j i : Nat)
  | inst (j i : Nat)
deriving DecidableEq, Repr

/-- The value that stands at a place, seen from a function. -/
def valueAt (p : Program) (fd : FData) : Place → Option Value
  | .global i => p.instLayout[i]?
  | .arg i => fd.params[i]?
  | .param j i => match fd.layout.bbs[j]? with
    | none => none
    | some (b, _) => match fd.dfg.bbs.get? b with
      | none => none
      | some x => x.params[i]?
  | .inst j i => match fd.layout.bbs[j]? with
    | none => none
    | some (_, is) => is[i]?

/-- The types of the global variables, of the functions, and of their parameters, block parameters and instructions are
such. -/
structure ShortArrays (p : Program) : Prop where
  globals : ∀ v ∈ p.instLayout, ∀ x, GlobalVal p v x → ShortTy x.ty
  funcs : ∀ f ∈ p.funcLayout, ∀ fd, p.funcs.get? f = some fd → ShortTy fd.ty
  locals : ∀ f ∈ p.funcLayout, ∀ fd, p.funcs.get? f = some fd → ∀ a v x, valueAt p fd a = some v →
    fd.dfg.values.get? v = some x → ShortTy x.ty

/-- Both constants are the same. -/
inductive SameConst (get get' : Value → Option VData) : Value → Value → Prop where
  | leaf {v v' : Value} {x x' : VData} : get v = some x → get' v' = some x' → x.ty = x'.ty → x.kind = x'.kind → x.kind.isConst = true →
      operands x.kind = [] → SameConst get get' v v'
  | agg {v v' : Value} {x x' : VData} {es es' : List Value} : get v = some x → get' v' = some x' → x.ty = x'.ty →
      x.kind = .aggregate es → x'.kind = .aggregate es' → es.length = es'.length →
      (∀ (i : Nat) e e', es[i]? = some e → es'[i]? = some e' → SameConst get get' e e') → SameConst get get' v v'

/-- Both are the same instruction, `V` relating operands, `B` blocks and `F` functions. -/
inductive SameKind (V : Value → Value → Prop) (B : BB → BB → Prop) (F : Func → Func → Prop) : VKind → VKind → Prop where
  | alloc : SameKind V B F .alloc .alloc
  | load {s s' : Value} : V s s' → SameKind V B F (.load s) (.load s')
  | store {v v' d d' : Value} : V v v' → V d d' → SameKind V B F (.store v d) (.store v' d')
  | getPtr {s s' i i' : Value} : V s s' → V i i' → SameKind V B F (.getPtr s i) (.getPtr s' i')
  | getElemPtr {s s' i i' : Value} : V s s' → V i i' → SameKind V B F (.getElemPtr s i) (.getElemPtr s' i')
  | binary {op : BinOp} {a a' b b' : Value} : V a a' → V b b' → SameKind V B F (.binary op a b) (.binary op a' b')
  | branch {c c' : Value} {x x' y y' : BB} {xs xs' ys ys' : List Value} : V c c' → B x x' → B y y' → All2 V xs xs' → All2 V ys ys' →
      SameKind V B F (.branch c x y xs ys) (.branch c' x' y' xs' ys')
  | jump {x x' : BB} {xs xs' : List Value} : B x x' → All2 V xs xs' → SameKind V B F (.jump x xs) (.jump x' xs')
  | call {g g' : Func} {as as' : List Value} : F g g' → All2 V as as' → SameKind V B F (.call g as) (.call g' as')
  | retNone : SameKind V B F (.ret none) (.ret none)
  | ret {v v' : Value} : V v v' → SameKind V B F (.ret (some v)) (.ret (some v'))

/-- `v` and `v'` are the same operand: they stand at the same place, or are the same constant. -/
def SameOperand (p p' : Program) (fd fd' : FData) (v v' : Value) : Prop :=
  (∃ a, valueAt p fd a = some v ∧ valueAt p' fd' a = some v') ∨ SameConst fd.dfg.values.get? fd'.dfg.values.get? v v'

/-- The blocks stand at the same place. -/
def SameBlock (fd fd' : FData) (b b' : BB) : Prop :=
  ∃ j : Nat, (fd.layout.bbs.map (·.1))[j]? = some b ∧ (fd'.layout.bbs.map (·.1))[j]? = some b'

/-- The functions stand at the same place. -/
def SamePlace (p p' : Program) (f f' : Func) : Prop := ∃ i : Nat, p.funcLayout[i]? = some f ∧ p'.funcLayout[i]? = some f'

/-- The values have the same type. -/
def SameTy (fd fd' : FData) (v v' : Value) : Prop :=
  ∃ x x', fd.dfg.values.get? v = some x ∧ fd'.dfg.values.get? v' = some x' ∧ x.ty = x'.ty

/-- The functions have the same type and the same parameters, blocks and instructions, in the same order. -/
structure SameFun (p p' : Program) (fd fd' : FData) : Prop where
  ty : fd.ty = fd'.ty
  isDecl : fd.dfg.bbs.isEmpty = fd'.dfg.bbs.isEmpty
  params : All2 (SameTy fd fd') fd.params fd'.params
  blocks : All2 (fun (q q' : BB × List Value) =>
      (∃ x x', fd.dfg.bbs.get? q.1 = some x ∧ fd'.dfg.bbs.get? q'.1 = some x' ∧ All2 (SameTy fd fd') x.params x'.params) ∧
      All2 (fun v v' => ∃ x x', fd.dfg.values.get? v = some x ∧ fd'.dfg.values.get? v' = some x' ∧ x.ty = x'.ty ∧
        SameKind (SameOperand p p' fd fd') (SameBlock fd fd') (SamePlace p p') x.kind x'.kind) q.2 q'.2)
    fd.layout.bbs fd'.layout.bbs

/-- The programs have the same global variables and the same functions, in the same order. -/
structure SameText (p p' : Program) : Prop where
  globals : All2 (fun v v' => ∃ x x' i i', GlobalVal p v x ∧ GlobalVal p' v' x' ∧ x.ty = x'.ty ∧ x.kind = .globalAlloc i ∧
    x'.kind = .globalAlloc i' ∧ SameConst p.values.get? p'.values.get? i i') p.instLayout p'.instLayout
  funcs : All2 (fun f f' => ∃ fd fd', p.funcs.get? f = some fd ∧ p'.funcs.get? f' = some fd' ∧ SameFun p p' fd fd')
    p.funcLayout p'.funcLayout

/-- Global variables, functions, blocks and values at the same places have the same names, or both have none. -/
structure SameNames (p p' : Program) : Prop where
  globals : All2 (fun v v' => ∃ x x', GlobalVal p v x ∧ GlobalVal p' v' x' ∧ x.name = x'.name) p.instLayout p'.instLayout
  funcs : ∀ f f' fd fd', SamePlace p p' f f' → p.funcs.get? f = some fd → p'.funcs.get? f' = some fd' → fd.name = fd'.name
  blocks : ∀ f f' fd fd' b b' x x', SamePlace p p' f f' → p.funcs.get? f = some fd → p'.funcs.get? f' = some fd' → SameBlock fd fd' b b' →
    fd.dfg.bbs.get? b = some x → fd'.dfg.bbs.get? b' = some x' → x.name = x'.name
  values : ∀ f f' fd fd' a v v' x x', SamePlace p p' f f' → p.funcs.get? f = some fd → p'.funcs.get? f' = some fd' →
    valueAt p fd a = some v → valueAt p' fd' a = some v' → LocalVal p f v x → LocalVal p' f' v' x' → x.name = x'.name

end Koopa.Spec
