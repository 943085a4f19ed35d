import Verif.Model.Back.Names
/-!
What it means that names were chosen well: a fixed assignment of names to entities, rendered into the
text.
-/
namespace Koopa.Spec

/-- Things that are named besides blocks. `temp v` is the auxiliary value of instruction `v`. -/
inductive Ent where
  | func (f : Func)
  | global (v : Value)
  | value (v : Value)
  | temp (v : Value)
deriving DecidableEq, Repr

/-- An assignment of names. -/
structure Names where
  ent : Ent → Option Str
  bb : BB → Option Str

/-- The text of a piece under an assignment of names. -/
def Names.text (N : Names) : Piece → Option Str
  | .lit s => some s
  | .func f _ => N.ent (.func f)
  | .bb b _ => N.bb b
  | .label b _ => match N.bb b with
    | some (_ :: s) => some s
    | _ => none
  | .global v _ => N.ent (.global v)
  | .value v _ => N.ent (.value v)
  | .temp v => N.ent (.temp v)
  | _ => some []

/-- `s` is the text of the pieces under an assignment of names. -/
inductive Renders (N : Names) : List Piece → Str → Prop where
  | nil : Renders N [] []
  | cons {x : Piece} {xs : List Piece} {s s' : Str} : N.text x = some s → Renders N xs s' → Renders N (x :: xs) (s ++ s')

/-- Different entities have different names, and different blocks do. -/
structure Names.Distinct (N : Names) : Prop where
  ents : ∀ e e' s, N.ent e = some s → N.ent e' = some s → e = e'
  bbs : ∀ b b' s, N.bb b = some s → N.bb b' = some s → b = b'

/-- The functions and globals have the same names under both assignments. -/
def Names.Agree (N N' : Names) : Prop :=
  (∀ f, N.ent (.func f) = N'.ent (.func f)) ∧ ∀ v, N.ent (.global v) = N'.ent (.global v)

/-- Texts of temporary names: the tag of a generator and a number. -/
def TempText (s : Str) : Prop :=
  ∃ k, s = '%' :: showNat k ∨ s = '@' :: '$' :: showNat k ∨ s = '%' :: '$' :: showNat k

end Koopa.Spec
