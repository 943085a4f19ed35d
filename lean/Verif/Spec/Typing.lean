import Verif.Spec.Uses
/-!
Specification of well-typed instructions: the typing rules of the IR, one rule per instruction.
-/
namespace Koopa.Spec

/-- `R` relates two lists element by element. -/
inductive All2 {α β : Type} (R : α → β → Prop) : List α → List β → Prop where
  | nil : All2 R [] []
  | cons {a b as bs} : R a b → All2 R as bs → All2 R (a :: as) (b :: bs)

/-- The typing rules. `H v t`: operand `v` has type `t`; `P b ts`: the parameters of block `b` have
types `ts`; `F g t`: function `g` has type `t`. -/
inductive InstTy (H : Value → Ty → Prop) (P : BB → List Ty → Prop) (F : Func → Ty → Prop) :
    VKind → Ty → Prop where
  | integer (n : I32) : InstTy H P F (.integer n) .i32
  | zeroInit {t : Ty} : t ≠ .unit → InstTy H P F .zeroInit t
  | undef {t : Ty} : t ≠ .unit → InstTy H P F .undef t
  | aggregate {es : List Value} {t : Ty} : es ≠ [] → t ≠ .unit → (∀ e ∈ es, H e t) →
      InstTy H P F (.aggregate es) (.array t es.length)
  | funcArgRef {i : Nat} {t : Ty} : t ≠ .unit → InstTy H P F (.funcArgRef i) t
  | blockArgRef {i : Nat} {t : Ty} : t ≠ .unit → InstTy H P F (.blockArgRef i) t
  | alloc {t : Ty} : t ≠ .unit → InstTy H P F .alloc (.ptr t)
  | globalAlloc {v : Value} {t : Ty} : t ≠ .unit → H v t → InstTy H P F (.globalAlloc v) (.ptr t)
  | load {v : Value} {t : Ty} : H v (.ptr t) → InstTy H P F (.load v) t
  | store {v d : Value} {t : Ty} : H v t → H d (.ptr t) → InstTy H P F (.store v d) .unit
  | getPtr {v i : Value} {t : Ty} : H v (.ptr t) → H i .i32 → InstTy H P F (.getPtr v i) (.ptr t)
  | getElemPtr {v i : Value} {t : Ty} {n : Nat} : H v (.ptr (.array t n)) → H i .i32 →
      InstTy H P F (.getElemPtr v i) (.ptr t)
  | binary {op : BinOp} {l r : Value} : H l .i32 → H r .i32 → InstTy H P F (.binary op l r) .i32
  | branch {c : Value} {t f : BB} {ta fa : List Value} {ts fs : List Ty} : H c .i32 → P t ts →
      P f fs → All2 H ta ts → All2 H fa fs → (t = f → ta = [] ∧ fa = []) →
      InstTy H P F (.branch c t f ta fa) .unit
  | jump {b : BB} {as : List Value} {ts : List Ty} : P b ts → All2 H as ts →
      InstTy H P F (.jump b as) .unit
  | call {g : Func} {as : List Value} {ts : List Ty} {r : Ty} : F g (.func ts r) → All2 H as ts →
      InstTy H P F (.call g as) r
  | retNone : InstTy H P F (.ret none) .unit
  | ret {v : Value} {t : Ty} : t ≠ .unit → H v t → InstTy H P F (.ret (some v)) .unit

/-- Inside function `f`, the handle `v` denotes a live value of type `t`. -/
def HasTy (p : Program) (f : Func) (v : Value) (t : Ty) : Prop :=
  ∃ x, (GlobalVal p v x ∨ LocalVal p f v x) ∧ x.ty = t

/-- Among the globals, the handle `v` denotes a live value of type `t`. -/
def GlobalHasTy (p : Program) (v : Value) (t : Ty) : Prop := ∃ x, GlobalVal p v x ∧ x.ty = t

/-- Live block `b` of function `f` has parameters of types `ts`. -/
def ParamTys (p : Program) (f : Func) (b : BB) (ts : List Ty) : Prop :=
  ∃ x, Block p f b x ∧ All2 (HasTy p f) x.params ts

/-- Function `g` is part of the program and has type `t`. -/
def FuncTy (p : Program) (g : Func) (t : Ty) : Prop := ∃ fd, p.funcs.get? g = some fd ∧ fd.ty = t

/-- Every live value obeys the typing rule of its instruction. -/
structure WellTyped (p : Program) : Prop where
  locals : ∀ f v x, LocalVal p f v x →
    InstTy (HasTy p f) (ParamTys p f) (FuncTy p) x.kind x.ty
  globals : ∀ v x, GlobalVal p v x →
    InstTy (GlobalHasTy p) (fun _ _ => False) (fun _ _ => False) x.kind x.ty

end Koopa.Spec
