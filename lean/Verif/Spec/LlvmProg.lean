import Verif.Spec.Machine
import Verif.Util.Show
/-!
Which programs are translated to LLVM as they mean.
-/
namespace Koopa.Spec
open Koopa Koopa.Interp

/-- ASCII letters, digits and underscores, not beginning with a digit. -/
def AsciiIdent (s : Str) : Prop := (∃ c t, s = c :: t ∧ c.isDigit = false) ∧ ∀ c ∈ s, c.isAlphanum = true ∨ c = '_'

/-- `@` or `%` and an identifier of ASCII characters. -/
def AsciiName (n : Str) : Prop := ∃ c s, n = c :: s ∧ (c = '@' ∨ c = '%') ∧ AsciiIdent s

/-- The names chosen in the program can be written in LLVM: the names of functions begin with `@`, all consist of ASCII characters,
and those of functions and globals are not longer than what the generator keeps. -/
structure LlvmNamed (p : Program) : Prop where
  funcs : ∀ f fd, p.funcs.get? f = some fd → ∃ s, fd.name = '@' :: s ∧ AsciiIdent s ∧ s.length ≤ 512
  globals : ∀ v d n, GlobalVal p v d → d.name = some n → AsciiName n ∧ n.length ≤ 513
  locals : ∀ f v d n, LocalVal p f v d → d.name = some n → AsciiName n
  bbs : ∀ f b d n, Block p f b d → d.name = some n → AsciiName n

/-- A value and a block of one function never have the same name, nor does one have the name of the other with `_` and a number; the names are not
longer than what the generator keeps. -/
structure LabelsApart (p : Program) : Prop where
  apart : ∀ f v d b e n l, LocalVal p f v d → Block p f b e → d.name = some n → e.name = some l →
    n ≠ l ∧ ∀ i, n ≠ l ++ '_' :: showNat i ∧ l ≠ n ++ '_' :: showNat i
  values : ∀ f v d n, LocalVal p f v d → d.name = some n → n.length ≤ 512
  bbs : ∀ f b d n, Block p f b d → d.name = some n → n.length ≤ 512

/-- The first blocks of functions have no parameters. -/
def PlainEntries (p : Program) : Prop :=
  ∀ f fd b is bs bd, p.funcs.get? f = some fd → fd.layout.bbs = (b, is) :: bs → fd.dfg.bbs.get? b = some bd → bd.params = []

/-- The next instruction is not one that LLVM leaves undefined although the program goes on: a branch on a value that is no
integer, or a shift by 32 or more. -/
structure LlvmDefined {σ : Type} (p : Program) (s : MState σ) : Prop where
  branch : ∀ a st v d c t f ta fa x, AtInst p s a st v d → d.kind = .branch c t f ta fa → Operand p a.fn a.regs c x → ∃ n, x = .int n
  shift : ∀ a st v d op l r n, AtInst p s a st v d → d.kind = .binary op l r → op = .shl ∨ op = .shr ∨ op = .sar →
    Operand p a.fn a.regs r (.int n) → n.toNat < 32

/-- No run comes to such an instruction. -/
def DefinedRun {σ : Type} (p : Program) (lib : Lib σ) (chk : Bool) (ptrSize : Nat) (f : Func) (w : σ) : Prop :=
  ∀ s n t, MStart p f w s → MSteps p lib chk ptrSize n s t → LlvmDefined p t

/-- Branches are on integers and results of arithmetic, and shifts by constants below 32. -/
structure PlainBranches (p : Program) : Prop where
  branch : ∀ f v d c t e ta ea, LocalVal p f v d → d.kind = .branch c t e ta ea →
    ∃ x, LocalVal p f c x ∧ ((∃ n, x.kind = .integer n) ∨ ∃ op l r, x.kind = .binary op l r)
  shift : ∀ f v d op l r, LocalVal p f v d → d.kind = .binary op l r → op = .shl ∨ op = .shr ∨ op = .sar →
    ∃ x n, LocalVal p f r x ∧ x.kind = .integer n ∧ n.toNat < 32

end Koopa.Spec
