import Verif.Model.Types
/-!
What the size of a type is: the number of bytes that its scalars take if they are put one after the
other. Stated by adding up, without the multiplication of the code.
-/
namespace Koopa
namespace Spec

mutual
/-- The scalars of a value of the type fill the bytes from the first number up to the second. -/
inductive Fills (ptrSize : Nat) : Ty → Nat → Nat → Prop where
  | i32 (a) : Fills ptrSize .i32 a (a + 4)
  | unit (a) : Fills ptrSize .unit a a
  | ptr (t a) : Fills ptrSize (.ptr t) a (a + ptrSize)
  | func (ps r a) : Fills ptrSize (.func ps r) a (a + ptrSize)
  | array {t n a b} : FillsAll ptrSize t n a b → Fills ptrSize (.array t n) a b
/-- So many values of the type, one after the other. -/
inductive FillsAll (ptrSize : Nat) : Ty → Nat → Nat → Nat → Prop where
  | nil (t a) : FillsAll ptrSize t 0 a a
  | cons {t n a b c} : Fills ptrSize t a b → FillsAll ptrSize t n b c → FillsAll ptrSize t (n + 1) a c
end

/-- No array in the type has length zero, which is what `Type::get_array` asks for. -/
def PosLens : Ty → Prop
  | .array t n => 0 < n ∧ PosLens t
  | _ => True

end Spec
end Koopa
