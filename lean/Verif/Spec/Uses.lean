import Verif.Model.Ir
/-!
Specification of uses: which values and blocks an instruction mentions, written down kind by kind,
and what it means for the recorded users to be right.
-/
namespace Koopa.Spec

/-- The operands of an instruction, in textual order. -/
def operands : VKind → List Value
  | .integer _ => []
  | .zeroInit => []
  | .undef => []
  | .aggregate elems => elems
  | .funcArgRef _ => []
  | .blockArgRef _ => []
  | .alloc => []
  | .globalAlloc init => [init]
  | .load src => [src]
  | .store value dest => [value, dest]
  | .getPtr src index => [src, index]
  | .getElemPtr src index => [src, index]
  | .binary _ lhs rhs => [lhs, rhs]
  | .branch cond _ _ trueArgs falseArgs => cond :: (trueArgs ++ falseArgs)
  | .jump _ args => args
  | .call _ args => args
  | .ret none => []
  | .ret (some v) => [v]

/-- The blocks an instruction transfers control to. -/
def targets : VKind → List BB
  | .branch _ t f _ _ => [t, f]
  | .jump t _ => [t]
  | _ => []

/-- `v` is a live local value of function `f` with data `x`. -/
def LocalVal (p : Program) (f : Func) (v : Value) (x : VData) : Prop :=
  ∃ fd, p.funcs.get? f = some fd ∧ fd.dfg.values.get? v = some x

/-- `v` is a live global value with data `x`. -/
def GlobalVal (p : Program) (v : Value) (x : VData) : Prop := p.values.get? v = some x

/-- `b` is a live block of function `f` with data `x`. -/
def Block (p : Program) (f : Func) (b : BB) (x : BData) : Prop :=
  ∃ fd, p.funcs.get? f = some fd ∧ fd.dfg.bbs.get? b = some x

/-- Live value `u` of function `f` mentions `v`. -/
def LocalUse (p : Program) (f : Func) (u v : Value) : Prop :=
  ∃ y, LocalVal p f u y ∧ v ∈ operands y.kind

/-- Live global `u` mentions `v`. -/
def GlobalUse (p : Program) (u v : Value) : Prop := ∃ y, GlobalVal p u y ∧ v ∈ operands y.kind

/-- Live value `u` of function `f` transfers control to `b`. -/
def Targets (p : Program) (f : Func) (u : Value) (b : BB) : Prop :=
  ∃ y, LocalVal p f u y ∧ b ∈ targets y.kind

/-- The recorded users of every value are exactly the live values mentioning it. -/
structure ValueUsesExact (p : Program) : Prop where
  locals : ∀ f v x, LocalVal p f v x → ∀ u, u ∈ x.usedBy ↔ LocalUse p f u v
  globals : ∀ v x, GlobalVal p v x → ∀ u, u ∈ x.usedBy ↔ (GlobalUse p u v ∨ ∃ f, LocalUse p f u v)

/-- The recorded users of every block are exactly the live values transferring control to it. -/
def BlockUsesExact (p : Program) : Prop :=
  ∀ f b x, Block p f b x → ∀ u, u ∈ x.usedBy ↔ Targets p f u b

/-- Every operand and every target of a live value is live. -/
structure Closed (p : Program) : Prop where
  locals : ∀ f u v, LocalUse p f u v → (∃ x, GlobalVal p v x) ∨ ∃ x, LocalVal p f v x
  globals : ∀ u v, GlobalUse p u v → ∃ x, GlobalVal p v x
  blocks : ∀ f u b, Targets p f u b → ∃ x, Block p f b x

end Koopa.Spec
