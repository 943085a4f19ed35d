/-!
Model of koopa/src/ir/types.rs: the structure of types.
The pool that interns types is modelled in `Verif/Model/TypePool.lean`.
-/
namespace Koopa

/-- Strings are lists of characters. -/
abbrev Str := List Char

/-- types.rs:13-26 `TypeKind` with the interned `Type` handles replaced by the structure they
stand for (justified by C07). `usize` lengths are natural numbers. -/
inductive Ty where
  | i32
  | unit
  | array (base : Ty) (len : Nat)
  | ptr (base : Ty)
  | func (params : List Ty) (ret : Ty)
deriving Repr, Inhabited

mutual
/-- Boolean structural equality (helper for `DecidableEq`, no counterpart in the code). -/
def Ty.beq : Ty → Ty → Bool
  | .i32, .i32 => true
  | .unit, .unit => true
  | .array a n, .array b m => Ty.beq a b && decide (n = m)
  | .ptr a, .ptr b => Ty.beq a b
  | .func ps r, .func qs s => Ty.beqs ps qs && Ty.beq r s
  | _, _ => false
def Ty.beqs : List Ty → List Ty → Bool
  | [], [] => true
  | a :: as, b :: bs => Ty.beq a b && Ty.beqs as bs
  | _, _ => false
end

mutual
theorem Ty.beq_iff : ∀ a b : Ty, Ty.beq a b = true ↔ a = b
  | .i32, b => by cases b <;> simp [Ty.beq]
  | .unit, b => by cases b <;> simp [Ty.beq]
  | .array a n, b => by cases b <;> simp [Ty.beq, Ty.beq_iff a]
  | .ptr a, b => by cases b <;> simp [Ty.beq, Ty.beq_iff a]
  | .func ps r, b => by cases b <;> simp [Ty.beq, Ty.beqs_iff ps, Ty.beq_iff r]
theorem Ty.beqs_iff : ∀ a b : List Ty, Ty.beqs a b = true ↔ a = b
  | [], b => by cases b <;> simp [Ty.beqs]
  | a :: as, b => by cases b <;> simp [Ty.beqs, Ty.beq_iff a, Ty.beqs_iff as]
end

instance : DecidableEq Ty := fun a b =>
  if h : Ty.beq a b = true then .isTrue ((Ty.beq_iff a b).1 h)
  else .isFalse (fun e => h ((Ty.beq_iff a b).2 e))

/-- types.rs:117-119 `Type::is_i32`. -/
def Ty.isI32 : Ty → Bool
  | .i32 => true
  | _ => false

/-- types.rs:122-124 `Type::is_unit`. -/
def Ty.isUnit : Ty → Bool
  | .unit => true
  | _ => false

/-- types.rs:91-94 `Type::get_array`; `none` is the panic on length zero. -/
def Ty.getArray (base : Ty) (len : Nat) : Option Ty :=
  if len ≠ 0 then some (.array base len) else none

/-- types.rs:127-134 `Type::size`, for a given value of the global pointer size.
Simplification: natural numbers, so the `usize` overflow of the product is not modelled. -/
def Ty.size (ptrSize : Nat) : Ty → Nat
  | .i32 => 4
  | .unit => 0
  | .array t len => t.size ptrSize * len
  | .ptr _ => ptrSize
  | .func _ _ => ptrSize

@[simp] theorem Ty.isUnit_iff {t : Ty} : t.isUnit = true ↔ t = .unit := by cases t <;> simp [Ty.isUnit]
@[simp] theorem Ty.isI32_iff {t : Ty} : t.isI32 = true ↔ t = .i32 := by cases t <;> simp [Ty.isI32]

end Koopa
