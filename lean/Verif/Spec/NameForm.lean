import Verif.Model.History
/-!
What names in a program look like: `@` or `%` and at least one more character. Stated without
the check of the code (`validName`).
-/
namespace Koopa
namespace Spec

/-- A name: a sigil followed by something. -/
def SigilName (n : Str) : Prop := ∃ c r, n = c :: r ∧ (c = '%' ∨ c = '@') ∧ r ≠ []

/-- An optional name is absent or a name. -/
def SigilOptName (n : Option Str) : Prop := ∀ s, n = some s → SigilName s

/-- The names in a program are names: those of values, and, if `P`, those of functions and blocks. -/
structure NameForm (P : Prop) (p : Program) : Prop where
  funcs : P → ∀ f fd, p.funcs.get? f = some fd → SigilName fd.name
  blocks : P → ∀ f fd b x, p.funcs.get? f = some fd → fd.dfg.bbs.get? b = some x → SigilOptName x.name
  globals : ∀ v x, p.values.get? v = some x → SigilOptName x.name
  locals : ∀ f fd v x, p.funcs.get? f = some fd → fd.dfg.values.get? v = some x → SigilOptName x.name

/-- Data that the caller hands over as a whole has a name. Outside of the crate such data is only
had as a copy of the data of an existing value. -/
def RawNamed : ValInst → Prop
  | .raw data => SigilOptName data.name
  | _ => True

/-- What the caller has to see to: data given as a whole and closures on data give names (a closure
cannot reach the name, `set_name` is visible in the crate only, but it can put other data in place),
and, if `P`, so do the two setters that do not check. -/
def NamesGiven (P : Prop) : Op → Prop
  | .newGlobal (.val i) => RawNamed i
  | .newLocal _ (.val i) => RawNamed i
  | .replaceLocal _ _ (.val i) => RawNamed i
  | .updateLocal _ _ fn => ∀ x, SigilOptName x.name → SigilOptName (fn x).name
  | .setFuncName _ n => P → SigilName n
  | .setBbName _ _ n => P → SigilOptName n
  | _ => True

/-- A call that is given a name, other than through the two setters of functions and blocks. -/
inductive GivesName : Op → Str → Prop where
  | global (v n) : GivesName (.setGlobalName v (some n)) n
  | local (f v n) : GivesName (.setLocalName f v (some n)) n
  | funcDef (n ps r) : GivesName (.newFuncDef n ps r) n
  | funcParam (n ps r m t) : (some m, t) ∈ ps → GivesName (.newFuncDef n ps r) m
  | funcDecl (n ps r) : GivesName (.newFuncDecl n ps r) n
  | bb (f n) : GivesName (.newBb f (some n)) n
  | bbParams (f n ps) : GivesName (.newBbParams f (some n) ps) n
  | bbParam (f n ps m t) : (some m, t) ∈ ps → GivesName (.newBbParams f n ps) m

end Spec
end Koopa
