import Verif.Spec.LlvmText
import Verif.Lemmas.Back.Pieces
/-!
The LLVM module that a program is translated to, for given names.
-/
namespace Koopa
open Spec Spec.Ll

/-- The names have the form of LLVM names. -/
structure NShape (N : Names) : Prop where
  func : ∀ f n, N.ent (.func f) = some n → GlobName n
  global : ∀ v n, N.ent (.global v) = some n → GlobName n
  value : ∀ v n, N.ent (.value v) = some n → LocName n
  temp : ∀ v n, N.ent (.temp v) = some n → LocName n
  bb : ∀ b n, N.bb b = some n → LocName n

/-- Constants. -/
inductive CstOf (get : Value → Option VData) : VKind → Cst → Prop
  | int (n : I32) : CstOf get (.integer n) (.int n)
  | zero : CstOf get .zeroInit .zero
  | undef : CstOf get .undef .undef
  | agg {es : List Value} {ds : List VData} {cs : List (Ty × Cst)} : es.map get = ds.map some → cs.map (·.1) = ds.map (·.ty) →
      (∀ (i : Nat) d c, ds[i]? = some d → cs[i]? = some c → CstOf get d.kind c.2) → CstOf get (.aggregate es) (.array cs)

/-- The arithmetic instruction for an operator. -/
def arithOp : BinOp → Option Ll.Arith
  | .add => some .add
  | .sub => some .sub
  | .mul => some .mul
  | .div => some .sdiv
  | .mod => some .srem
  | .and => some .and
  | .or => some .or
  | .xor => some .xor
  | .shl => some .shl
  | .shr => some .lshr
  | .sar => some .ashr
  | _ => none

/-- The condition for an operator. -/
def condOp : BinOp → Option Ll.Cond
  | .notEq => some .ne
  | .eq => some .eq
  | .gt => some .sgt
  | .lt => some .slt
  | .ge => some .sge
  | .le => some .sle
  | _ => none

section
variable (p : Program) (fd : FData) (N : Names)

/-- Operands. -/
inductive OpdOf (v : Value) : Opd → Prop
  | glob {n : Str} : isGlobal v = true → N.ent (.global v) = some n → OpdOf v (.glob n)
  | cst {d : VData} {c : Cst} : isGlobal v = false → fd.dfg.values.get? v = some d → d.kind.isConst = true →
      CstOf fd.dfg.values.get? d.kind c → OpdOf v (.cst c)
  | loc {d : VData} {n : Str} : isGlobal v = false → fd.dfg.values.get? v = some d → d.kind.isConst = false →
      N.ent (.value v) = some n → OpdOf v (.loc n)

/-- Operands with types. -/
def TOpdOf (v : Value) (a : Ty × Opd) : Prop := BackLlvm.valueTy p fd v = some a.1 ∧ OpdOf fd N v a.2

/-- Instructions. -/
inductive InstOf (v : Value) (d : VData) : List Inst → Prop
  | alloc {t : Ty} {n : Str} : d.kind = .alloc → d.ty = .ptr t → N.ent (.value v) = some n → InstOf v d [.alloca n t]
  | load {s : Value} {n : Str} {a : Ty × Opd} : d.kind = .load s → N.ent (.value v) = some n → TOpdOf p fd N s a →
      InstOf v d [.load n d.ty a]
  | store {x y : Value} {a b : Ty × Opd} : d.kind = .store x y → TOpdOf p fd N x a → TOpdOf p fd N y b → InstOf v d [.store a b]
  | getPtr {s i : Value} {n : Str} {t : Ty} {a b : Ty × Opd} : d.kind = .getPtr s i → N.ent (.value v) = some n →
      BackLlvm.valueTy p fd s = some (.ptr t) → TOpdOf p fd N s a → TOpdOf p fd N i b → InstOf v d [.gep n t a [b]]
  | getElemPtr {s i : Value} {n : Str} {t : Ty} {a b : Ty × Opd} : d.kind = .getElemPtr s i → N.ent (.value v) = some n →
      BackLlvm.valueTy p fd s = some (.ptr t) → TOpdOf p fd N s a → TOpdOf p fd N i b →
      InstOf v d [.gep n t a [(.i32, .cst (.int 0)), b]]
  | arith {op : BinOp} {l r : Value} {o : Ll.Arith} {a b : Opd} {n : Str} : d.kind = .binary op l r → arithOp op = some o →
      N.ent (.value v) = some n → OpdOf fd N l a → OpdOf fd N r b → InstOf v d [.arith n o a b]
  | compare {op : BinOp} {l r : Value} {c : Ll.Cond} {a b : Opd} {n m : Str} : d.kind = .binary op l r → condOp op = some c →
      N.ent (.value v) = some n → N.ent (.temp v) = some m → OpdOf fd N l a → OpdOf fd N r b →
      InstOf v d [.icmp m c a b, .zext n (.loc m)]
  | branch {c : Value} {t f : BB} {ta fa : List Value} {a : Opd} {m l l' : Str} : d.kind = .branch c t f ta fa →
      N.ent (.temp v) = some m → OpdOf fd N c a → N.bb t = some ('%' :: l) → N.bb f = some ('%' :: l') →
      InstOf v d [.icmp m .ne a (.cst (.int 0)), .br (.loc m) l l']
  | jump {b : BB} {as : List Value} {l : Str} : d.kind = .jump b as → N.bb b = some ('%' :: l) → InstOf v d [.jump l]
  | call {g : Func} {args : List Value} {n f : Str} {as : List (Ty × Opd)} : d.kind = .call g args → d.ty ≠ .unit →
      N.ent (.value v) = some n → N.ent (.func g) = some f → All2 (TOpdOf p fd N) args as → InstOf v d [.call (some n) d.ty f as]
  | callVoid {g : Func} {args : List Value} {f : Str} {as : List (Ty × Opd)} : d.kind = .call g args → d.ty = .unit →
      N.ent (.func g) = some f → All2 (TOpdOf p fd N) args as → InstOf v d [.call none .unit f as]
  | retVoid : d.kind = .ret none → InstOf v d [.ret none]
  | ret {x : Value} {a : Ty × Opd} : d.kind = .ret (some x) → TOpdOf p fd N x a → InstOf v d [.ret (some a)]

/-- Lists of instructions. -/
inductive InstsOf : List Value → List Inst → Prop
  | nil : InstsOf [] []
  | cons {v : Value} {d : VData} {vs : List Value} {xs ys : List Inst} : fd.dfg.values.get? v = some d → InstOf p fd N v d xs →
      InstsOf vs ys → InstsOf (v :: vs) (xs ++ ys)

/-- Incoming values of phi nodes. -/
def IncOf (b : BB) (i : Nat) (u : Value) (q : Opd × Str) : Prop :=
  ∃ d a c, fd.dfg.values.get? u = some d ∧ BackLlvm.phiArg b i d.kind = some a ∧ OpdOf fd N a q.1 ∧
    fd.layout.parentBb u = some c ∧ N.bb c = some ('%' :: q.2)

/-- Phi nodes. -/
def PhiOf (b : BB) (users : List Value) (i : Nat) (v : Value) (φ : Phi) : Prop :=
  ∃ d, fd.dfg.values.get? v = some d ∧ N.ent (.value v) = some φ.name ∧ φ.ty = d.ty ∧ All2 (IncOf fd N b i) users φ.inc

/-- The phi nodes of a block. -/
inductive PhisOf (b : BB) (users : List Value) : Nat → List Value → List Phi → Prop
  | nil (i : Nat) : PhisOf b users i [] []
  | cons {i : Nat} {v : Value} {vs : List Value} {φ : Phi} {φs : List Phi} : PhiOf fd N b users i v φ → PhisOf b users (i + 1) vs φs →
      PhisOf b users i (v :: vs) (φ :: φs)

/-- Blocks. -/
def BlkOf (q : BB × List Value) (B : Blk) : Prop :=
  N.bb q.1 = some ('%' :: B.label) ∧ (∃ bd us, fd.dfg.bbs.get? q.1 = some bd ∧ us.Perm bd.usedBy ∧
    PhisOf fd N q.1 us 0 bd.params B.phis) ∧ InstsOf p fd N q.2 B.insts

/-- Parameters. -/
def ParamOf (v : Value) (q : Ty × Str) : Prop :=
  ∃ d, fd.dfg.values.get? v = some d ∧ q.1 = d.ty ∧ N.ent (.value v) = some q.2

/-- Function definitions. -/
structure FnOf (f : Func) (F : Fn) : Prop where
  name : N.ent (.func f) = some F.name
  ty : ∃ ts, fd.ty = .func ts F.ret
  params : All2 (ParamOf fd N) fd.params F.params
  blks : All2 (BlkOf p fd N) fd.layout.bbs F.blks

end

/-- Functions. -/
inductive FuncItem (p : Program) (N : Names) (f : Func) : Item → Prop
  | declare {fd : FData} {ts : List Ty} {r : Ty} {n : Str} : p.funcs.get? f = some fd → fd.dfg.bbs.isEmpty = true →
      fd.ty = .func ts r → N.ent (.func f) = some n → FuncItem p N f (.declare n r ts)
  | define {fd : FData} {F : Fn} : p.funcs.get? f = some fd → fd.dfg.bbs.isEmpty = false → FnOf p fd N f F →
      FuncItem p N f (.define F)

/-- Global variables. -/
inductive GlobalItem (p : Program) (N : Names) (v : Value) : Item → Prop
  | mk {d x : VData} {i : Value} {n : Str} {c : Cst} : p.values.get? v = some d → d.kind = .globalAlloc i → p.values.get? i = some x →
      N.ent (.global v) = some n → CstOf p.values.get? x.kind c → GlobalItem p N v (.global n x.ty c)

end Koopa
