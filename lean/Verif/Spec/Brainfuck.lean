import Verif.Spec.Uses
/-!
What a Brainfuck compiler should guarantee: which texts are programs, and what the compiled
functions look like.
-/
namespace Koopa.Spec

/-- No `]` without an open `[`: no prefix closes more loops than it opens. -/
def NoStrayClose (w : List Char) : Prop := ∀ n, (w.take n).count ']' ≤ (w.take n).count '['

/-- Every loop that is opened is closed, and the other way round. -/
def BracketsBalanced (w : List Char) : Prop := NoStrayClose w ∧ w.count '[' = w.count ']'

/-- Every block that a listed instruction goes to is listed in the same function. -/
def TargetsListed (p : Program) : Prop :=
  ∀ f fd, p.funcs.get? f = some fd → ∀ b is, (b, is) ∈ fd.layout.bbs → ∀ v ∈ is, ∀ x, LocalVal p f v x →
    ∀ t ∈ targets x.kind, t ∈ fd.layout.bbs.map (·.1)

/-- An instruction that ends a block. -/
inductive Ends : VKind → Prop
  | branch (c t f ts fs) : Ends (.branch c t f ts fs)
  | jump (t as) : Ends (.jump t as)
  | ret (v) : Ends (.ret v)

/-- In every listed block, the last instruction and no other ends the block. -/
def BlocksEnd (p : Program) : Prop :=
  ∀ f fd, p.funcs.get? f = some fd → ∀ b is, (b, is) ∈ fd.layout.bbs → ∃ js v, is = js ++ [v] ∧
    (∃ x, LocalVal p f v x ∧ Ends x.kind) ∧ ∀ u ∈ js, ∃ x, LocalVal p f u x ∧ ¬ Ends x.kind

end Koopa.Spec
