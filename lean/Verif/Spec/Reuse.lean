import Verif.Model.Back.Names
import Verif.Spec.Uses
/-!
When a name manager that has been used can be used for another program.
-/
namespace Koopa.Spec

/-- The name manager is between two programs. -/
structure Idle (m : NM) : Prop where
  global : m.inFunc = false
  plain : m.pre = .default
  noLabels : m.bbNames = []
  noBlocks : m.bbs = .empty

/-- A name of a function or a value of the program. -/
inductive NameIn (p : Program) : Str → Prop where
  | func {f fd} : p.funcs.get? f = some fd → NameIn p fd.name
  | global {v x n} : GlobalVal p v x → x.name = some n → NameIn p n
  | local {f v x n} : LocalVal p f v x → x.name = some n → NameIn p n

/-- The manager has given no name to anything in the program. -/
structure Unknown (m : NM) (p : Program) : Prop where
  funcs : ∀ f fd, p.funcs.get? f = some fd → m.funcs.get? f = none
  globals : ∀ v x, GlobalVal p v x → m.globalVars.get? v = none
  locals : ∀ f v x, LocalVal p f v x → m.globalVars.get? v = none

/-- No name given so far is one of the program, or one of the program with `_` and a number. -/
def NoClash (m : NM) (p : Program) : Prop := ∀ c, NameIn p c → c ∉ m.globalNames ∧ ∀ i, c ++ '_' :: showNat i ∉ m.globalNames

/-- A new manager that counts temporary names from `i`. -/
def freshFrom (i : Nat) : NM := { NM.new with nextId := i }

end Koopa.Spec
