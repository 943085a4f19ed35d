import Verif.Spec.Raw
/-!
Definitions before uses in programs.
-/
namespace Koopa.Spec
open Koopa

/-- What an instruction mentions is defined on every way to it: an instruction stands before it in its block or in another block that
every way passes, a parameter belongs to a block that every way passes. -/
structure UsesDominated (p : Program) : Prop where
  insts : ∀ f fd b pre u post x v c is, p.funcs.get? f = some fd → (b, pre ++ u :: post) ∈ fd.layout.bbs → fd.dfg.values.get? u = some x →
    v ∈ operands x.kind → (c, is) ∈ fd.layout.bbs → v ∈ is → v ∈ pre ∨ c ≠ b ∧ Dominates p f c b
  params : ∀ f fd b is u x v c bd, p.funcs.get? f = some fd → (b, is) ∈ fd.layout.bbs → u ∈ is → fd.dfg.values.get? u = some x →
    v ∈ operands x.kind → c ∈ fd.layout.bbs.map (·.1) → fd.dfg.bbs.get? c = some bd → v ∈ bd.params → Dominates p f c b

end Koopa.Spec
