import Verif.Spec.Uses
import Verif.Model.Examples.Interp
/-!
What a Koopa program means: a machine with a stack of activations that runs one instruction at a time.

Only the representation of values and objects and the outside world (`Val`, `Obj`, `Lib`) are shared with the
model of the interpreter.
-/
namespace Koopa.Spec
open Koopa Koopa.Interp

/-- The value of a zero initialiser. -/
inductive Zeroed : Ty → Val → Prop
  | i32 : Zeroed .i32 (.int 0)
  | ptr (t : Ty) : Zeroed (.ptr t) (.ptr none 0 0)
  | array {t : Ty} {x : Val} (n : Nat) : Zeroed t x → Zeroed (.array t n) (.array (List.replicate n x))

/-- The value of a constant; `look` finds the elements of aggregates. -/
inductive ConstVal (look : Value → Option VData) : VData → Val → Prop
  | integer {d : VData} {i : I32} : d.kind = .integer i → ConstVal look d (.int i)
  | zeroInit {d : VData} {x : Val} : d.kind = .zeroInit → Zeroed d.ty x → ConstVal look d x
  | undef {d : VData} : d.kind = .undef → ConstVal look d .undef
  | aggregate {d : VData} {es : List Value} {ds : List VData} {xs : List Val} : d.kind = .aggregate es →
      es.map look = ds.map some → ds.length = xs.length →
      (∀ (i : Nat) e x, ds[i]? = some e → xs[i]? = some x → ConstVal look e x) → ConstVal look d (.array xs)

/-- The value at a path inside a value. -/
inductive Elem : Val → List Nat → Val → Prop
  | here (x : Val) : Elem x [] x
  | inside {l : List Val} {i : Nat} {is : List Nat} {x y : Val} : l[i]? = some x → Elem x is y → Elem (.array l) (i :: is) y

/-- A value with the value at a path replaced by `y`. -/
inductive Replaced (y : Val) : Val → List Nat → Val → Prop
  | here (x : Val) : Replaced y x [] y
  | inside {l : List Val} {i : Nat} {is : List Nat} {x x' : Val} : l[i]? = some x → Replaced y x is x' →
      Replaced y (.array l) (i :: is) (.array (l.set i x'))

/-- Memory: what is stored in the objects that are alive. -/
abbrev Mem := Obj → Option Val

/-- `x` is stored at an address. -/
def Stored (m : Mem) (a : Obj × List Nat) (x : Val) : Prop := ∃ y, m a.1 = some y ∧ Elem y a.2 x

/-- Storing `x` at an address. -/
def Storing (m : Mem) (a : Obj × List Nat) (x : Val) (m' : Mem) : Prop :=
  ∃ y y', m a.1 = some y ∧ Replaced x y a.2 y' ∧ m' a.1 = some y' ∧ ∀ o, o ≠ a.1 → m' o = m o

/-- `n` represents the integer `x`; without overflow checks modulo 2^32. -/
def InRange (chk : Bool) (x : Int) (n : I32) : Prop := n.toInt = x.bmod (2 ^ 32) ∧ (chk = true → n.toInt = x)

/-- `k` is the number of bits to shift by. -/
def Shift (chk : Bool) (r : I32) (k : Nat) : Prop := k = r.toNat % 32 ∧ (chk = true → r.toNat < 32)

/-- 1 for a true statement, 0 for a false one. -/
def OneIf (q : Prop) (n : I32) : Prop := (q → n = 1) ∧ (¬ q → n = 0)

/-- The results of the binary operations. -/
def Arith (chk : Bool) (op : BinOp) (l r n : I32) : Prop :=
  match op with
  | .notEq => OneIf (l.toInt ≠ r.toInt) n
  | .eq => OneIf (l.toInt = r.toInt) n
  | .gt => OneIf (l.toInt > r.toInt) n
  | .lt => OneIf (l.toInt < r.toInt) n
  | .ge => OneIf (l.toInt ≥ r.toInt) n
  | .le => OneIf (l.toInt ≤ r.toInt) n
  | .add => InRange chk (l.toInt + r.toInt) n
  | .sub => InRange chk (l.toInt - r.toInt) n
  | .mul => InRange chk (l.toInt * r.toInt) n
  | .div => r.toInt ≠ 0 ∧ n.toInt = l.toInt.tdiv r.toInt
  | .mod => r.toInt ≠ 0 ∧ ¬ (l.toInt = -2 ^ 31 ∧ r.toInt = -1) ∧ n.toInt = l.toInt.tmod r.toInt
  | .and => ∀ i, i < 32 → n.getLsbD i = (l.getLsbD i && r.getLsbD i)
  | .or => ∀ i, i < 32 → n.getLsbD i = (l.getLsbD i || r.getLsbD i)
  | .xor => ∀ i, i < 32 → n.getLsbD i = (l.getLsbD i != r.getLsbD i)
  | .shl => ∃ k, Shift chk r k ∧ n.toNat = l.toNat * 2 ^ k % 2 ^ 32
  | .shr => ∃ k, Shift chk r k ∧ n.toNat = l.toNat / 2 ^ k
  | .sar => ∃ k, Shift chk r k ∧ n.toInt = l.toInt / 2 ^ k

/-- One activation of a function: the instructions of the current block that are still to be run, the values
computed so far, a name for the activation, and the allocations it has run. -/
structure Act where
  fn : Func
  rest : List Value
  regs : Value → Option Val
  id : Nat
  made : List Value

/-- The machine. The first activation of the stack is running, the others wait for the result of a call, their first
instruction. `born` counts the activations so far. -/
structure MState (σ : Type) where
  acts : List Act
  mem : Mem
  born : Nat
  world : σ

/-- The activation after an instruction `v` with the result `x`. -/
def Act.gets (a : Act) (v : Value) (x : Val) : Act :=
  { a with rest := a.rest.tail, regs := fun u => if u = v then some x else a.regs u }

section
variable {σ : Type} (p : Program) (lib : Lib σ) (chk : Bool) (ptrSize : Nat)

/-- The value of an operand. -/
inductive Operand (f : Func) (regs : Value → Option Val) (v : Value) : Val → Prop
  | global {d : VData} : isGlobal v = true → GlobalVal p v d → d.kind.isConst = false → v ∈ p.instLayout →
      Operand f regs v (.ptr (some (.glob v, [])) 0 0)
  | const {fd : FData} {d : VData} {x : Val} : isGlobal v = false → p.funcs.get? f = some fd → fd.dfg.values.get? v = some d →
      d.kind.isConst = true → ConstVal fd.dfg.values.get? d x → Operand f regs v x
  | reg {d : VData} {x : Val} : isGlobal v = false → LocalVal p f v d → d.kind.isConst = false → regs v = some x → Operand f regs v x

/-- The values of several operands. -/
def Operands (f : Func) (regs : Value → Option Val) (vs : List Value) (xs : List Val) : Prop :=
  vs.length = xs.length ∧ ∀ (i : Nat) v x, vs[i]? = some v → xs[i]? = some x → Operand p f regs v x

/-- Moving a pointer by `i` elements of `size` bytes. -/
inductive Moved (size : Nat) (i : Int) : Val → Val → Prop
  | ptr {q : Option (Obj × List Nat)} {index len new : Nat} : (new : Int) = index + i → new < len →
      Moved size i (.ptr q index len) (.ptr (q.map (fun a => (a.1, a.2.dropLast ++ [new]))) new len)
  | ext (q : Option Nat) : Moved size i (.unsafePtr q) (.unsafePtr (q.map (fun a => ((a : Int) + size * i).toNat)))

/-- A pointer that cannot be moved by `i` elements. -/
inductive Outside (i : Int) : Val → Prop
  | ptr {q : Option (Obj × List Nat)} {index len : Nat} : ¬ (0 ≤ index + i ∧ index + i < len) → Outside i (.ptr q index len)

/-- An instruction that does not transfer control: `a` runs the instruction `v` with the data `d` and becomes `a'`. -/
inductive Does (a : Act) (v : Value) (d : VData) (m : Mem) (w : σ) : Act → Mem → σ → Prop
  | alloc {t : Ty} {x : Val} {m' : Mem} : d.kind = .alloc → d.ty = .ptr t → Zeroed t x →
      m' (.loc a.id v (a.made.count v)) = some x → (∀ o, o ≠ .loc a.id v (a.made.count v) → m' o = m o) →
      Does a v d m w { a.gets v (.ptr (some (.loc a.id v (a.made.count v), [])) 0 0) with made := v :: a.made } m' w
  | load {src : Value} {q : Obj × List Nat} {i n : Nat} {x : Val} : d.kind = .load src →
      Operand p a.fn a.regs src (.ptr (some q) i n) → Stored m q x → Does a v d m w (a.gets v x) m w
  | loadExt {src : Value} {q : Nat} : d.kind = .load src → Operand p a.fn a.regs src (.unsafePtr (some q)) →
      Does a v d m w (a.gets v (lib.load q d.ty w)) m w
  | store {val dest : Value} {x : Val} {q : Obj × List Nat} {i n : Nat} {m' : Mem} : d.kind = .store val dest →
      Operand p a.fn a.regs val x → Operand p a.fn a.regs dest (.ptr (some q) i n) → Storing m q x m' →
      Does a v d m w { a with rest := a.rest.tail } m' w
  | storeExt {val dest : Value} {x : Val} {q : Nat} {e : VData} {w' : σ} : d.kind = .store val dest →
      Operand p a.fn a.regs val x → Operand p a.fn a.regs dest (.unsafePtr (some q)) → LocalVal p a.fn val e →
      lib.store q e.ty x w = some w' → Does a v d m w { a with rest := a.rest.tail } m w'
  | getPtr {src index : Value} {t : Ty} {x y : Val} {i : I32} : d.kind = .getPtr src index → d.ty = .ptr t →
      Operand p a.fn a.regs src x → Operand p a.fn a.regs index (.int i) → Moved (t.size ptrSize) i.toInt x y →
      Does a v d m w (a.gets v y) m w
  | getElemPtr {src index : Value} {t : Ty} {q : Obj × List Nat} {k n : Nat} {l : List Val} {y : Val} {i : I32} :
      d.kind = .getElemPtr src index → d.ty = .ptr t →
      Operand p a.fn a.regs src (.ptr (some q) k n) → Operand p a.fn a.regs index (.int i) → Stored m q (.array l) →
      Moved (t.size ptrSize) i.toInt (.ptr (some (q.1, q.2 ++ [0])) 0 l.length) y → Does a v d m w (a.gets v y) m w
  | getElemPtrExt {src index : Value} {t : Ty} {q : Option Nat} {y : Val} {i : I32} :
      d.kind = .getElemPtr src index → d.ty = .ptr t →
      Operand p a.fn a.regs src (.unsafePtr q) → Operand p a.fn a.regs index (.int i) →
      Moved (t.size ptrSize) i.toInt (.unsafePtr q) y → Does a v d m w (a.gets v y) m w
  | binary {op : BinOp} {lhs rhs : Value} {l r n : I32} : d.kind = .binary op lhs rhs →
      Operand p a.fn a.regs lhs (.int l) → Operand p a.fn a.regs rhs (.int r) → Arith chk op l r n →
      Does a v d m w (a.gets v (.int n)) m w

/-- An instruction that fails: a null pointer, a pointer out of bounds, or the outside world refuses. -/
inductive Fails (a : Act) (d : VData) (m : Mem) (w : σ) : Prop
  | load {src : Value} {i n : Nat} : d.kind = .load src → Operand p a.fn a.regs src (.ptr none i n) → Fails a d m w
  | loadExt {src : Value} : d.kind = .load src → Operand p a.fn a.regs src (.unsafePtr none) → Fails a d m w
  | store {val dest : Value} {x : Val} {i n : Nat} : d.kind = .store val dest → Operand p a.fn a.regs val x →
      Operand p a.fn a.regs dest (.ptr none i n) → Fails a d m w
  | storeExt {val dest : Value} {x : Val} {e : VData} {q : Option Nat} : d.kind = .store val dest → Operand p a.fn a.regs val x →
      Operand p a.fn a.regs dest (.unsafePtr q) → LocalVal p a.fn val e → (∀ k, q = some k → lib.store k e.ty x w = none) → Fails a d m w
  | getPtr {src index : Value} {t : Ty} {x : Val} {i : I32} : d.kind = .getPtr src index → d.ty = .ptr t →
      Operand p a.fn a.regs src x → Operand p a.fn a.regs index (.int i) → Outside i.toInt x → Fails a d m w
  | getElemPtr {src index : Value} {t : Ty} {q : Obj × List Nat} {k n : Nat} {l : List Val} {i : I32} :
      d.kind = .getElemPtr src index → d.ty = .ptr t →
      Operand p a.fn a.regs src (.ptr (some q) k n) → Operand p a.fn a.regs index (.int i) → Stored m q (.array l) →
      Outside i.toInt (.ptr (some (q.1, q.2 ++ [0])) 0 l.length) → Fails a d m w
  | getElemPtrNull {src index : Value} {t : Ty} {k n : Nat} {i : I32} : d.kind = .getElemPtr src index → d.ty = .ptr t →
      Operand p a.fn a.regs src (.ptr none k n) → Operand p a.fn a.regs index (.int i) → Fails a d m w

/-- Entering a block: all its parameters get the values of the arguments at once. -/
def Enters (f : Func) (regs : Value → Option Val) (b : BB) (args : List Value) (is : List Value) (regs' : Value → Option Val) : Prop :=
  ∃ fd bd, p.funcs.get? f = some fd ∧ fd.dfg.bbs.get? b = some bd ∧ fd.layout.insts? b = some is ∧
    (∀ q a, (q, a) ∈ bd.params.zip args → (∃ d, fd.dfg.values.get? q = some d) ∧ ∃ x, Operand p f regs a x ∧ regs' q = some x) ∧
    ∀ v, (∀ a, (v, a) ∉ bd.params.zip args) → regs' v = regs v

/-- Where an instruction transfers control to, with which arguments. -/
inductive Goes (f : Func) (regs : Value → Option Val) (d : VData) : BB → List Value → Prop
  | jump {b : BB} {args : List Value} : d.kind = .jump b args → Goes f regs d b args
  | branchTrue {c : Value} {b e : BB} {bs es : List Value} {i : I32} : d.kind = .branch c b e bs es →
      Operand p f regs c (.int i) → i.toInt ≠ 0 → Goes f regs d b bs
  | branchFalse {c : Value} {b e : BB} {bs es : List Value} {x : Val} : d.kind = .branch c b e bs es →
      Operand p f regs c x → (∀ i, x = .int i → i.toInt = 0) → Goes f regs d e es

/-- The value an instruction returns. -/
inductive Returns (f : Func) (regs : Value → Option Val) (d : VData) : Val → Prop
  | unit : d.kind = .ret none → Returns f regs d .undef
  | value {v : Value} {x : Val} : d.kind = .ret (some v) → Operand p f regs v x → Returns f regs d x

/-- A call of the function with the data `gd`. -/
def Calls (f : Func) (regs : Value → Option Val) (d : VData) (g : Func) (gd : FData) (xs : List Val) : Prop :=
  ∃ args ps t, d.kind = .call g args ∧ Operands p f regs args xs ∧ p.funcs.get? g = some gd ∧ gd.ty = .func ps t ∧ ps.length = xs.length

/-- The parameters of a function that is entered. -/
def Bound (params : List Value) (xs : List Val) (regs : Value → Option Val) : Prop :=
  (∀ (i : Nat) q, params[i]? = some q → regs q = xs[i]?) ∧ ∀ q, q ∉ params → regs q = none

/-- Memory after an activation has ended: its objects are gone. -/
def Ended (id : Nat) (m m' : Mem) : Prop := ∀ o, m' o = match o with
  | .loc i _ _ => if i = id then none else m o
  | .glob _ => m o

/-- The next instruction of the running activation. -/
def AtInst (s : MState σ) (a : Act) (stack : List Act) (v : Value) (d : VData) : Prop :=
  s.acts = a :: stack ∧ a.rest.head? = some v ∧ LocalVal p a.fn v d

/-- One instruction. -/
inductive MNext (s : MState σ) : MState σ → Prop
  | does {a a' : Act} {stack : List Act} {v : Value} {d : VData} {m : Mem} {w : σ} : AtInst p s a stack v d →
      Does p lib chk ptrSize a v d s.mem s.world a' m w → MNext s { s with acts := a' :: stack, mem := m, world := w }
  | goes {a : Act} {stack : List Act} {v : Value} {d : VData} {b : BB} {args is : List Value} {regs : Value → Option Val} :
      AtInst p s a stack v d → Goes p a.fn a.regs d b args → Enters p a.fn a.regs b args is regs →
      MNext s { s with acts := { a with rest := is, regs } :: stack }
  | callExt {a : Act} {stack : List Act} {v : Value} {d : VData} {g : Func} {gd : FData} {xs : List Val} {x : Val} {w : σ} :
      AtInst p s a stack v d → Calls p a.fn a.regs d g gd xs → gd.layout.bbs = [] → lib.call gd.name gd.ty xs s.world = some (x, w) →
      MNext s { s with acts := a.gets v x :: stack, world := w }
  | call {a : Act} {stack : List Act} {v : Value} {d : VData} {g : Func} {gd : FData} {xs : List Val} {b : BB} {is : List Value}
      {bs : List (BB × List Value)} {regs : Value → Option Val} :
      AtInst p s a stack v d → Calls p a.fn a.regs d g gd xs → gd.layout.bbs = (b, is) :: bs → Bound gd.params xs regs →
      MNext s { s with acts := ⟨g, is, regs, s.born, []⟩ :: a :: stack, born := s.born + 1 }
  | ret {a c : Act} {stack : List Act} {v u : Value} {d : VData} {x : Val} {m : Mem} : AtInst p s a (c :: stack) v d →
      Returns p a.fn a.regs d x → c.rest.head? = some u → Ended a.id s.mem m →
      MNext s { s with acts := c.gets u x :: stack, mem := m }

/-- How a run ends: the main function returns an integer, or an instruction fails or the main function returns no integer. -/
inductive MResult (σ : Type) where
  | exit (n : I32) (w : σ)
  | failed (w : σ)

/-- The machine stops. -/
inductive MStop (s : MState σ) : MResult σ → Prop
  | exit {a : Act} {v : Value} {d : VData} {n : I32} : AtInst p s a [] v d → Returns p a.fn a.regs d (.int n) → MStop s (.exit n s.world)
  | noInt {a : Act} {v : Value} {d : VData} {x : Val} : AtInst p s a [] v d → Returns p a.fn a.regs d x → (∀ n, x ≠ .int n) → MStop s (.failed s.world)
  | fails {a : Act} {stack : List Act} {v : Value} {d : VData} : AtInst p s a stack v d → Fails p lib a d s.mem s.world → MStop s (.failed s.world)
  | refused {a : Act} {stack : List Act} {v : Value} {d : VData} {g : Func} {gd : FData} {xs : List Val} :
      AtInst p s a stack v d → Calls p a.fn a.regs d g gd xs → gd.layout.bbs = [] → lib.call gd.name gd.ty xs s.world = none →
      MStop s (.failed s.world)

/-- The machine can neither go on nor stop: undefined behaviour, or a program that is not well formed. -/
def MStuck (s : MState σ) : Prop := (∀ s', ¬ MNext p lib chk ptrSize s s') ∧ ∀ r, ¬ MStop p lib s r

/-- Some number of instructions. -/
inductive MSteps : Nat → MState σ → MState σ → Prop
  | refl (s) : MSteps 0 s s
  | step {n s t u} : MNext p lib chk ptrSize s t → MSteps n t u → MSteps (n + 1) s u

/-- The machine at the beginning: the global variables hold their initial values and the main function `f`, which has no
parameters, is entered. -/
def MStart (f : Func) (w : σ) (s : MState σ) : Prop :=
  (∀ v, v ∈ p.instLayout → ∃ d init e x, GlobalVal p v d ∧ d.kind = .globalAlloc init ∧ GlobalVal p init e ∧
    ConstVal p.values.get? e x ∧ s.mem (.glob v) = some x) ∧
  (∀ o, (∀ v, v ∈ p.instLayout → o ≠ .glob v) → s.mem o = none) ∧
  (∃ fd t b is bs regs, p.funcs.get? f = some fd ∧ fd.ty = .func [] t ∧ fd.layout.bbs = (b, is) :: bs ∧ Bound fd.params [] regs ∧
    s.acts = [⟨f, is, regs, 0, []⟩]) ∧ s.born = 1 ∧ s.world = w

/-- The program ends with a result. -/
def MRuns (f : Func) (w : σ) (r : MResult σ) : Prop :=
  ∃ s n t, MStart p f w s ∧ MSteps p lib chk ptrSize n s t ∧ MStop p lib t r

/-- The program gets stuck. -/
def MStucks (f : Func) (w : σ) : Prop :=
  (∀ s, ¬ MStart p f w s) ∨ ∃ s n t, MStart p f w s ∧ MSteps p lib chk ptrSize n s t ∧ MStuck p lib chk ptrSize t

/-- The program runs for ever. -/
def MForever (f : Func) (w : σ) : Prop := ∃ s, MStart p f w s ∧ ∀ n, ∃ t, MSteps p lib chk ptrSize n s t

end

/-- `f` is the first function called `@main`, and it has a body. -/
def FirstMain (p : Program) (ord : List Func) (f : Func) : Prop :=
  ∃ a b fd, ord = a ++ f :: b ∧ p.funcs.get? f = some fd ∧ fd.name = "@main".toList ∧ fd.layout.bbs ≠ [] ∧
    ∀ g gd, g ∈ a → p.funcs.get? g = some gd → gd.name ≠ "@main".toList

/-- The arguments an instruction passes to a block. -/
inductive Passes : VKind → BB → List Value → Prop
  | jump (b : BB) (args : List Value) : Passes (.jump b args) b args
  | branchTrue (c : Value) (b e : BB) (bs es : List Value) : Passes (.branch c b e bs es) b bs
  | branchFalse (c : Value) (b e : BB) (bs es : List Value) : Passes (.branch c b e bs es) e es

/-- The parameters of every function and of every listed block are distinct. -/
def DistinctParams (p : Program) : Prop :=
  ∀ f fd, p.funcs.get? f = some fd → fd.params.Nodup ∧ ∀ b bd, b ∈ fd.layout.bbs.map (·.1) → fd.dfg.bbs.get? b = some bd → bd.params.Nodup

/-- No transfer of control passes an argument that is a parameter of the same block at an earlier position. -/
def NoLateArgs (p : Program) : Prop :=
  ∀ f fd b bd v d args, p.funcs.get? f = some fd → b ∈ fd.layout.bbs.map (·.1) → fd.dfg.bbs.get? b = some bd → fd.dfg.values.get? v = some d →
    Passes d.kind b args → ∀ (i j : Nat) q, i < j → bd.params[i]? = some q → args[j]? ≠ some q

end Koopa.Spec
