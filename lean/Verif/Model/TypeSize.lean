import Verif.Model.Types
/-!
Model of `Type::size` (koopa/src/ir/types.rs:126-134) with machine arithmetic on `usize` of 64 bits.
`Ty.size` is the same function on natural numbers.
-/
namespace Koopa

/-- The values of `usize`. -/
def usizeMax : Nat := 2 ^ 64

/-- The product of two `usize`: with overflow checks (`chk`, debug builds) it panics, otherwise it
wraps. -/
def mulUsize (chk : Bool) (a b : Nat) : Option Nat :=
  if a * b < usizeMax then some (a * b)
  else if chk then none
  else some (a * b % usizeMax)

/-- types.rs:127-134 `Type::size`; `ptrSize` is the value of the global `PTR_SIZE` (types.rs:60,
107-109). `none` is a panic. -/
def Ty.sizeUsize (chk : Bool) (ptrSize : Nat) : Ty → Option Nat
  | .i32 => some 4
  | .unit => some 0
  | .array t len => match t.sizeUsize chk ptrSize with
    | some s => mulUsize chk s len
    | none => none
  | .ptr _ => some ptrSize
  | .func _ _ => some ptrSize

end Koopa
