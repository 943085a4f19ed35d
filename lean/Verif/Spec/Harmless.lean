import Verif.Spec.Elab
/-!
Texts that do not make the front end panic, whether they are correct or not: sizes and labels are in
order, but names may be unknown or defined twice, and types may be wrong.
-/
namespace Koopa.Spec

/-- The type that elements of an aggregate are meant to have. -/
def elemTy : Ty → Option Ty
  | .array t _ => some t
  | .ptr t => some t
  | _ => none

mutual
/-- `InitMay t a (some u)`: at type `t`, the initialiser `a` is a value of type `u`, which differs from `t` if
an array has a wrong number of elements (an error that is reported). `InitMay t a none`: it is rejected.
Nothing is said about an aggregate that is empty or has elements of different types. -/
inductive InitMay : Ty → ValAst → Option Ty → Prop where
  | int {n : I32} : InitMay .i32 (.int n) (some .i32)
  | badInt {t : Ty} {n : I32} : t ≠ .i32 → InitMay t (.int n) none
  | undef {t : Ty} : InitMay t .undef (some t)
  | zero {t : Ty} : InitMay t .zero (some t)
  | agg {t b u : Ty} {es : List ValAst} : elemTy t = some b → es ≠ [] → ElemsMay b es (some u) →
      InitMay t (.agg es) (some (.array u es.length))
  | badElem {t b : Ty} {es : List ValAst} : elemTy t = some b → ElemsMay b es none → InitMay t (.agg es) none
  | noAgg {t : Ty} {es : List ValAst} : elemTy t = none → InitMay t (.agg es) none
/-- The elements have the same type, or one is rejected and those before it are not. -/
inductive ElemsMay : Ty → List ValAst → Option Ty → Prop where
  | nil {t u : Ty} : ElemsMay t [] (some u)
  | cons {t u : Ty} {e : ValAst} {es : List ValAst} : InitMay t e (some u) → ElemsMay t es (some u) → ElemsMay t (e :: es) (some u)
  | bad {t : Ty} {e : ValAst} {es : List ValAst} : InitMay t e none → ElemsMay t (e :: es) none
  | later {t u : Ty} {e : ValAst} {es : List ValAst} : InitMay t e (some u) → ElemsMay t es none → ElemsMay t (e :: es) none
end

/-- An operand that is no aggregate. -/
def PlainVal : ValAst → Prop
  | .agg _ => False
  | _ => True

/-- The number of parameters of a function. -/
def arity : GlobalAst → Option (Str × Nat)
  | .funDef n ps _ _ => some (n, ps.length)
  | .funDecl n ps _ => some (n, ps.length)
  | _ => none

/-- A call gives at least as many arguments as any function of that name has parameters. -/
def CallFits (gs : List GlobalAst) (n : Str) (as : List ValAst) : Prop :=
  (∀ a ∈ as, PlainVal a) ∧ ∀ g ∈ gs, ∀ k, arity g = some (n, k) → k ≤ as.length

/-- A jump gives at least as many arguments as any block of that name has parameters. -/
def GotoFits (bbs : List BlockAst) (n : Str) (as : List ValAst) : Prop :=
  (∀ a ∈ as, PlainVal a) ∧ ∀ b ∈ bbs, b.name = n → b.params.length ≤ as.length

def ExprHarmless (gs : List GlobalAst) : ExprAst → Prop
  | .alloc a => ∃ t, TyIs a t
  | .load _ => True
  | .getPtr _ v => PlainVal v
  | .getElemPtr _ v => PlainVal v
  | .binary _ l r => PlainVal l ∧ PlainVal r
  | .call n as => CallFits gs n as

def StmtHarmless (gs : List GlobalAst) (bbs : List BlockAst) : StmtAst → Prop
  | .def _ e => ExprHarmless gs e
  | .store v _ => PlainVal v
  | .branch c t ta e ea => PlainVal c ∧ GotoFits bbs t ta ∧ GotoFits bbs e ea
  | .jump t as => GotoFits bbs t as
  | .call n as => CallFits gs n as
  | .ret v => ∀ a, v = some a → PlainVal a
  | .error => True

/-- Types of parameters have no empty arrays, and control passes to blocks that exist. -/
structure BlockHarmless (gs : List GlobalAst) (bbs : List BlockAst) (b : BlockAst) : Prop where
  params : ∀ q ∈ b.params, ∃ t, TyIs q.2 t
  stmts : ∀ st ∈ b.stmts, StmtHarmless gs bbs st
  targets : ∀ t ∈ successors b, ∃ b' ∈ bbs, b'.name = t

def ItemHarmless (gs : List GlobalAst) : GlobalAst → Prop
  | .globalDef _ ty init => ∃ t r, TyIs ty t ∧ InitMay t init r
  | .funDecl _ ps r => (∀ a ∈ ps, ∃ t, TyIs a t) ∧ ∀ a, r = some a → ∃ t, TyIs a t
  | .funDef _ ps r bbs => (∀ q ∈ ps, ∃ t, TyIs q.2 t) ∧ (∀ a, r = some a → ∃ t, TyIs a t) ∧
      ∀ b ∈ bbs, BlockHarmless gs bbs b
  | _ => True

/-- No item makes the front end panic. -/
def Harmless (gs : List GlobalAst) : Prop := ∀ g ∈ gs, ItemHarmless gs g

end Koopa.Spec
