import Verif.Spec.LlvmText
import Verif.Spec.Machine
/-!
What an LLVM module means: a machine that runs one instruction at a time, written from the language reference.

Values, memory and the outside world are those of the machine for Koopa IR. The values of type `i1` are 0 and 1.
A run that LLVM leaves undefined has no next step. What memory fresh from `alloca` holds is up to `fill`. Labels are
looked up apart from the other local names.
-/
namespace Koopa.Spec.Ll
open Koopa Koopa.Interp

/-- The value of a constant of type `t`. -/
inductive CstVal : Ty → Cst → Val → Prop
  | int (t : Ty) (n : I32) : CstVal t (.int n) (.int n)
  | zero {t : Ty} {x : Val} : Zeroed t x → CstVal t .zero x
  | undef (t : Ty) : CstVal t .undef .undef
  | array {t : Ty} {es : List (Ty × Cst)} {xs : List Val} : es.length = xs.length →
      (∀ (i : Nat) e x, es[i]? = some e → xs[i]? = some x → CstVal e.1 e.2 x) → CstVal t (.array es) (.array xs)

/-- The value of an operand of type `t`. `addr`: where the global variables are. -/
inductive OpdVal (addr : Str → Option Obj) (regs : Str → Option Val) (t : Ty) : Opd → Val → Prop
  | cst {c : Cst} {x : Val} : CstVal t c x → OpdVal addr regs t (.cst c) x
  | loc {n : Str} {x : Val} : regs n = some x → OpdVal addr regs t (.loc n) x
  | glob {n : Str} {o : Obj} : addr n = some o → OpdVal addr regs t (.glob n) (.ptr (some (o, [])) 0 0)

/-- Arithmetic: addition, subtraction and multiplication are modulo 2^32; division by zero, a quotient out of range and
shifting by 32 or more are undefined. -/
def Arith.Val (op : Arith) (l r n : I32) : Prop :=
  match op with
  | .add => n.toInt = (l.toInt + r.toInt).bmod (2 ^ 32)
  | .sub => n.toInt = (l.toInt - r.toInt).bmod (2 ^ 32)
  | .mul => n.toInt = (l.toInt * r.toInt).bmod (2 ^ 32)
  | .sdiv => r.toInt ≠ 0 ∧ ¬ (l.toInt = -2 ^ 31 ∧ r.toInt = -1) ∧ n.toInt = l.toInt.tdiv r.toInt
  | .srem => r.toInt ≠ 0 ∧ ¬ (l.toInt = -2 ^ 31 ∧ r.toInt = -1) ∧ n.toInt = l.toInt.tmod r.toInt
  | .and => ∀ i, i < 32 → n.getLsbD i = (l.getLsbD i && r.getLsbD i)
  | .or => ∀ i, i < 32 → n.getLsbD i = (l.getLsbD i || r.getLsbD i)
  | .xor => ∀ i, i < 32 → n.getLsbD i = (l.getLsbD i != r.getLsbD i)
  | .shl => r.toNat < 32 ∧ n.toNat = l.toNat * 2 ^ r.toNat % 2 ^ 32
  | .lshr => r.toNat < 32 ∧ n.toNat = l.toNat / 2 ^ r.toNat
  | .ashr => r.toNat < 32 ∧ n.toInt = l.toInt / 2 ^ r.toNat

/-- The condition holds. -/
def Cond.Holds (c : Cond) (l r : I32) : Prop :=
  match c with
  | .ne => l.toInt ≠ r.toInt
  | .eq => l.toInt = r.toInt
  | .sgt => r.toInt < l.toInt
  | .slt => l.toInt < r.toInt
  | .sge => r.toInt ≤ l.toInt
  | .sle => l.toInt ≤ r.toInt

/-- An activation of a function: the label of the current block, the instructions that are still to be run, the local
values, and the objects it has allocated. -/
structure LAct where
  fn : Fn
  cur : Str
  rest : List Inst
  regs : Str → Option Val
  objs : List Obj

/-- The machine. The first activation is running, the others wait for the result of the call that is their first
instruction. `addr`: where the global variables are; `dead`: the objects of the activations that have ended. -/
structure LState (σ : Type) where
  acts : List LAct
  mem : Mem
  dead : List Obj
  addr : Str → Option Obj
  world : σ

/-- The activation after an instruction that makes `x` the value of `n`. -/
def LAct.gets (a : LAct) (n : Str) (x : Val) : LAct :=
  { a with rest := a.rest.tail, regs := fun u => if u = n then some x else a.regs u }

/-- The activation after a call with the result `x`. -/
def LAct.back (a : LAct) (n : Option Str) (x : Val) : LAct :=
  match n with
  | some n => a.gets n x
  | none => { a with rest := a.rest.tail }

section
variable {σ : Type} (M : Mod) (lib : Lib σ) (ptrSize : Nat) (fill : Ty → Val → Prop)

/-- An instruction that does not transfer control: `a` becomes `a'`. An object made by `alloca` is one that there was not before. -/
inductive LDoes (addr : Str → Option Obj) (dead : List Obj) (a : LAct) (m : Mem) (w : σ) : Inst → LAct → Mem → σ → Prop
  | alloca {x : Str} {t : Ty} {o : Obj} {y : Val} {m' : Mem} : m o = none → o ∉ dead → fill t y → m' o = some y → (∀ o', o' ≠ o → m' o' = m o') →
      LDoes addr dead a m w (.alloca x t) { a.gets x (.ptr (some (o, [])) 0 0) with objs := o :: a.objs } m' w
  | load {x : Str} {t : Ty} {src : Ty × Opd} {q : Obj × List Nat} {i n : Nat} {y : Val} :
      OpdVal addr a.regs src.1 src.2 (.ptr (some q) i n) → Stored m q y → LDoes addr dead a m w (.load x t src) (a.gets x y) m w
  | loadExt {x : Str} {t : Ty} {src : Ty × Opd} {q : Nat} : OpdVal addr a.regs src.1 src.2 (.unsafePtr (some q)) →
      LDoes addr dead a m w (.load x t src) (a.gets x (lib.load q t w)) m w
  | store {val dest : Ty × Opd} {y : Val} {q : Obj × List Nat} {i n : Nat} {m' : Mem} : OpdVal addr a.regs val.1 val.2 y →
      OpdVal addr a.regs dest.1 dest.2 (.ptr (some q) i n) → Storing m q y m' →
      LDoes addr dead a m w (.store val dest) { a with rest := a.rest.tail } m' w
  | storeExt {val dest : Ty × Opd} {y : Val} {q : Nat} {w' : σ} : OpdVal addr a.regs val.1 val.2 y →
      OpdVal addr a.regs dest.1 dest.2 (.unsafePtr (some q)) → lib.store q val.1 y w = some w' →
      LDoes addr dead a m w (.store val dest) { a with rest := a.rest.tail } m w'
  | gep {x : Str} {t : Ty} {src i : Ty × Opd} {y z : Val} {k : I32} : OpdVal addr a.regs src.1 src.2 y →
      OpdVal addr a.regs i.1 i.2 (.int k) → Moved (t.size ptrSize) k.toInt y z →
      LDoes addr dead a m w (.gep x t src [i]) (a.gets x z) m w
  | gepElem {x : Str} {t : Ty} {len : Nat} {src j i : Ty × Opd} {q : Obj × List Nat} {u n : Nat} {l : List Val} {z : Val} {k : I32} :
      OpdVal addr a.regs src.1 src.2 (.ptr (some q) u n) → OpdVal addr a.regs j.1 j.2 (.int 0) →
      OpdVal addr a.regs i.1 i.2 (.int k) → Stored m q (.array l) →
      Moved (t.size ptrSize) k.toInt (.ptr (some (q.1, q.2 ++ [0])) 0 l.length) z →
      LDoes addr dead a m w (.gep x (.array t len) src [j, i]) (a.gets x z) m w
  | gepElemExt {x : Str} {t : Ty} {len : Nat} {src j i : Ty × Opd} {q : Option Nat} {z : Val} {k : I32} :
      OpdVal addr a.regs src.1 src.2 (.unsafePtr q) → OpdVal addr a.regs j.1 j.2 (.int 0) →
      OpdVal addr a.regs i.1 i.2 (.int k) → Moved (t.size ptrSize) k.toInt (.unsafePtr q) z →
      LDoes addr dead a m w (.gep x (.array t len) src [j, i]) (a.gets x z) m w
  | arith {x : Str} {op : Arith} {c d : Opd} {l r n : I32} : OpdVal addr a.regs .i32 c (.int l) → OpdVal addr a.regs .i32 d (.int r) →
      op.Val l r n → LDoes addr dead a m w (.arith x op c d) (a.gets x (.int n)) m w
  | icmp {x : Str} {op : Cond} {c d : Opd} {l r n : I32} : OpdVal addr a.regs .i32 c (.int l) → OpdVal addr a.regs .i32 d (.int r) →
      OneIf (op.Holds l r) n → LDoes addr dead a m w (.icmp x op c d) (a.gets x (.int n)) m w
  | zext {x : Str} {c : Opd} {n : I32} : OpdVal addr a.regs .i32 c (.int n) → LDoes addr dead a m w (.zext x c) (a.gets x (.int n)) m w

/-- Entering the block with label `l` from the block with label `cur`: all phi nodes get their values at once, and the values
given for this predecessor agree. -/
def LEnters (addr : Str → Option Obj) (fn : Fn) (cur : Str) (regs : Str → Option Val) (l : Str) (is : List Inst) (regs' : Str → Option Val) : Prop :=
  ∃ b, b ∈ fn.blks ∧ b.label = l ∧ b.insts = is ∧
    (∀ φ, φ ∈ b.phis → ∃ x, regs' φ.name = some x ∧ (∃ o, (o, cur) ∈ φ.inc) ∧ ∀ o, (o, cur) ∈ φ.inc → OpdVal addr regs φ.ty o x) ∧
    ∀ n, (∀ φ, φ ∈ b.phis → n ≠ φ.name) → regs' n = regs n

/-- Where an instruction transfers control to. -/
inductive LGoes (addr : Str → Option Obj) (regs : Str → Option Val) : Inst → Str → Prop
  | jump (l : Str) : LGoes addr regs (.jump l) l
  | brTrue {c : Opd} {l l' : Str} : OpdVal addr regs .i32 c (.int 1) → LGoes addr regs (.br c l l') l
  | brFalse {c : Opd} {l l' : Str} : OpdVal addr regs .i32 c (.int 0) → LGoes addr regs (.br c l l') l'

/-- The value an instruction returns. -/
inductive LReturns (addr : Str → Option Obj) (regs : Str → Option Val) : Inst → Val → Prop
  | void : LReturns addr regs (.ret none) .undef
  | value {v : Ty × Opd} {x : Val} : OpdVal addr regs v.1 v.2 x → LReturns addr regs (.ret (some v)) x

/-- The values of arguments. -/
def OpdVals (addr : Str → Option Obj) (regs : Str → Option Val) (as : List (Ty × Opd)) (xs : List Val) : Prop :=
  as.length = xs.length ∧ ∀ (i : Nat) a x, as[i]? = some a → xs[i]? = some x → OpdVal addr regs a.1 a.2 x

/-- The parameters of a function that is called. -/
def LBound (params : List (Ty × Str)) (xs : List Val) (regs : Str → Option Val) : Prop :=
  params.length = xs.length ∧ (∀ (i : Nat) q, params[i]? = some q → regs q.2 = xs[i]?) ∧ ∀ n, n ∉ params.map (·.2) → regs n = none

/-- Memory without some objects. -/
def Freed (os : List Obj) (m m' : Mem) : Prop := (∀ o, o ∈ os → m' o = none) ∧ ∀ o, o ∉ os → m' o = m o

/-- The activation that runs a function from its first block. -/
def LEntry (fn : Fn) (xs : List Val) (a : LAct) : Prop :=
  ∃ b bs, fn.blks = b :: bs ∧ b.phis = [] ∧ LBound fn.params xs a.regs ∧ a.fn = fn ∧ a.cur = b.label ∧ a.rest = b.insts ∧ a.objs = []

/-- One instruction. -/
inductive LNext (s : LState σ) : LState σ → Prop
  | does {a a' : LAct} {stack : List LAct} {i : Inst} {m : Mem} {w : σ} : s.acts = a :: stack → a.rest.head? = some i →
      LDoes lib ptrSize fill s.addr s.dead a s.mem s.world i a' m w → LNext s { s with acts := a' :: stack, mem := m, world := w }
  | goes {a : LAct} {stack : List LAct} {i : Inst} {l : Str} {is : List Inst} {regs : Str → Option Val} : s.acts = a :: stack →
      a.rest.head? = some i → LGoes s.addr a.regs i l → LEnters s.addr a.fn a.cur a.regs l is regs →
      LNext s { s with acts := { a with cur := l, rest := is, regs } :: stack }
  | callExt {a : LAct} {stack : List LAct} {n : Option Str} {t r : Ty} {f : Str} {as : List (Ty × Opd)} {ps : List Ty} {xs : List Val} {x : Val} {w : σ} :
      s.acts = a :: stack → a.rest.head? = some (.call n t f as) → OpdVals s.addr a.regs as xs → .declare f r ps ∈ M →
      lib.call f (.func ps r) xs s.world = some (x, w) → LNext s { s with acts := a.back n x :: stack, world := w }
  | call {a a' : LAct} {stack : List LAct} {n : Option Str} {t : Ty} {fn : Fn} {as : List (Ty × Opd)} {xs : List Val} :
      s.acts = a :: stack → a.rest.head? = some (.call n t fn.name as) → OpdVals s.addr a.regs as xs → .define fn ∈ M →
      LEntry fn xs a' → LNext s { s with acts := a' :: a :: stack }
  | ret {a c : LAct} {stack : List LAct} {i : Inst} {x : Val} {n : Option Str} {t : Ty} {f : Str} {as : List (Ty × Opd)} {m : Mem} :
      s.acts = a :: c :: stack → a.rest.head? = some i → LReturns s.addr a.regs i x → c.rest.head? = some (.call n t f as) →
      Freed a.objs s.mem m → LNext s { s with acts := c.back n x :: stack, mem := m, dead := a.objs ++ s.dead }

/-- Some number of instructions. -/
inductive LSteps : Nat → LState σ → LState σ → Prop
  | refl (s) : LSteps 0 s s
  | step {n s t u} : LNext M lib ptrSize fill s t → LSteps n t u → LSteps (n + 1) s u

/-- The machine at the beginning: every global variable is an object of its own that holds its initial value, there are no other
objects and no other names of objects, and the function called `@main`, which has no parameters, is entered. -/
def LStart (w : σ) (s : LState σ) : Prop :=
  (∀ n t c, .global n t c ∈ M → ∃ o x, s.addr n = some o ∧ CstVal t c x ∧ s.mem o = some x) ∧
  (∀ n o, s.addr n = some o → ∃ t c, .global n t c ∈ M) ∧
  (∀ n n' o, s.addr n = some o → s.addr n' = some o → n = n') ∧
  (∀ o x, s.mem o = some x → ∃ n t c, .global n t c ∈ M ∧ s.addr n = some o) ∧
  (∃ fn a, .define fn ∈ M ∧ fn.name = "@main".toList ∧ LEntry fn [] a ∧ s.acts = [a]) ∧ s.dead = [] ∧ s.world = w

/-- The main function returns an integer. -/
def LStop (s : LState σ) (n : I32) (w : σ) : Prop :=
  ∃ a i, s.acts = [a] ∧ a.rest.head? = some i ∧ LReturns s.addr a.regs i (.int n) ∧ s.world = w

/-- The module can run and end with exit code `n`. -/
def LRuns (w : σ) (n : I32) (w' : σ) : Prop :=
  ∃ s k t, LStart M w s ∧ LSteps M lib ptrSize fill k s t ∧ LStop t n w'

/-- The module can run for ever. -/
def LForever (w : σ) : Prop := ∃ s, LStart M w s ∧ ∀ k, ∃ t, LSteps M lib ptrSize fill k s t

/-- However the module runs, it ends with exit code `n`: no run has more than `k` steps, and every run goes on until this end. -/
def LOnlyExits (w : σ) (n : I32) (w' : σ) : Prop :=
  ∃ k, ∀ s j t, LStart M w s → LSteps M lib ptrSize fill j s t → j ≤ k ∧ ∃ i u, LSteps M lib ptrSize fill i t u ∧ LStop u n w'

/-- However the module runs, it always goes on. -/
def LOnlyForever (w : σ) : Prop := ∀ s j t, LStart M w s → LSteps M lib ptrSize fill j s t → ∃ u, LNext M lib ptrSize fill t u

end

end Koopa.Spec.Ll
