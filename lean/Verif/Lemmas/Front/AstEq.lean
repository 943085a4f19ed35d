import Verif.Model.Front.Ast
/-!
Decidable equality of syntax trees, for concrete cases.
-/
namespace Koopa

mutual
def TyAst.eqb : TyAst → TyAst → Bool
  | .int, .int => true
  | .array a n, .array b m => TyAst.eqb a b && n == m
  | .pointer a, .pointer b => TyAst.eqb a b
  | .func ps r, .func qs s => TyAst.eqbs ps qs && TyAst.eqbo r s
  | _, _ => false
def TyAst.eqbs : List TyAst → List TyAst → Bool
  | [], [] => true
  | a :: as, b :: bs => TyAst.eqb a b && TyAst.eqbs as bs
  | _, _ => false
def TyAst.eqbo : Option TyAst → Option TyAst → Bool
  | none, none => true
  | some a, some b => TyAst.eqb a b
  | _, _ => false
end

mutual
theorem TyAst.eqb_iff : ∀ a b, TyAst.eqb a b = true ↔ a = b
  | .int, b => by cases b <;> simp [TyAst.eqb]
  | .array a n, b => by cases b <;> simp [TyAst.eqb, TyAst.eqb_iff a]
  | .pointer a, b => by cases b <;> simp [TyAst.eqb, TyAst.eqb_iff a]
  | .func ps r, b => by cases b <;> simp [TyAst.eqb, TyAst.eqbs_iff ps, TyAst.eqbo_iff r]
theorem TyAst.eqbs_iff : ∀ a b, TyAst.eqbs a b = true ↔ a = b
  | [], b => by cases b <;> simp [TyAst.eqbs]
  | a :: as, b => by cases b <;> simp [TyAst.eqbs, TyAst.eqb_iff a, TyAst.eqbs_iff as]
theorem TyAst.eqbo_iff : ∀ a b, TyAst.eqbo a b = true ↔ a = b
  | none, b => by cases b <;> simp [TyAst.eqbo]
  | some a, b => by cases b <;> simp [TyAst.eqbo, TyAst.eqb_iff a]
end

instance : DecidableEq TyAst := fun a b => decidable_of_iff _ (TyAst.eqb_iff a b)

mutual
def ValAst.eqb : ValAst → ValAst → Bool
  | .sym a, .sym b => a == b
  | .int a, .int b => a == b
  | .undef, .undef => true
  | .zero, .zero => true
  | .agg a, .agg b => ValAst.eqbs a b
  | _, _ => false
def ValAst.eqbs : List ValAst → List ValAst → Bool
  | [], [] => true
  | a :: as, b :: bs => ValAst.eqb a b && ValAst.eqbs as bs
  | _, _ => false
end

mutual
theorem ValAst.eqb_iff : ∀ a b, ValAst.eqb a b = true ↔ a = b
  | .sym a, b => by cases b <;> simp [ValAst.eqb]
  | .int a, b => by cases b <;> simp [ValAst.eqb]
  | .undef, b => by cases b <;> simp [ValAst.eqb]
  | .zero, b => by cases b <;> simp [ValAst.eqb]
  | .agg a, b => by cases b <;> simp [ValAst.eqb, ValAst.eqbs_iff a]
theorem ValAst.eqbs_iff : ∀ a b, ValAst.eqbs a b = true ↔ a = b
  | [], b => by cases b <;> simp [ValAst.eqbs]
  | a :: as, b => by cases b <;> simp [ValAst.eqbs, ValAst.eqb_iff a, ValAst.eqbs_iff as]
end

instance : DecidableEq ValAst := fun a b => decidable_of_iff _ (ValAst.eqb_iff a b)

deriving instance DecidableEq for ExprAst
deriving instance DecidableEq for StmtAst
deriving instance DecidableEq for BlockAst
deriving instance DecidableEq for GlobalAst

end Koopa
