import Verif.Spec.Uses
/-!
Specification of dead code: which instructions have effects, which values they need, and how the rest of a
program may differ after dead code is gone.
-/
namespace Koopa.Spec

/-- Instructions with effects: stores, calls, transfers of control. -/
def effectful : VKind → Bool
  | .store _ _ | .call _ _ | .branch _ _ _ _ _ | .jump _ _ | .ret _ => true
  | _ => false

/-- Instructions that only compute a value. -/
def computes : VKind → Bool
  | .alloc | .load _ | .getPtr _ _ | .getElemPtr _ _ | .binary _ _ _ => true
  | _ => false

/-- Value `v` of function `f` is an instruction with an effect, or an instruction that a needed one mentions. -/
inductive Needed (p : Program) (f : Func) : Value → Prop where
  | effect {v : Value} {x : VData} : LocalVal p f v x → effectful x.kind = true → Needed p f v
  | operand {u v : Value} {x : VData} : Needed p f u → LocalUse p f u v → LocalVal p f v x →
      (effectful x.kind || computes x.kind) = true → Needed p f v

/-- The same instruction, possibly with fewer arguments for block parameters. -/
inductive Trimmed : VKind → VKind → Prop where
  | same (k : VKind) : Trimmed k k
  | branch {c : Value} {t f : BB} {ts fs ts' fs' : List Value} : ts'.Sublist ts → fs'.Sublist fs →
      Trimmed (.branch c t f ts fs) (.branch c t f ts' fs')
  | jump {t : BB} {as as' : List Value} : as'.Sublist as → Trimmed (.jump t as) (.jump t as')

theorem Trimmed.trans {a b c : VKind} (h : Trimmed a b) (h' : Trimmed b c) : Trimmed a c := by
  cases h with
  | same => exact h'
  | branch h1 h2 =>
    cases h' with
    | same => exact .branch h1 h2
    | branch h3 h4 => exact .branch (h3.trans h1) (h4.trans h2)
  | jump h1 =>
    cases h' with
    | same => exact .jump h1
    | jump h3 => exact .jump (h3.trans h1)

theorem Trimmed.operands {a b : VKind} (h : Trimmed a b) : ∀ o ∈ operands b, o ∈ Spec.operands a := by
  cases h with
  | same => exact fun _ h => h
  | branch h1 h2 =>
    intro o ho
    simp only [Spec.operands, List.mem_cons, List.mem_append] at ho ⊢
    rcases ho with ho | ho | ho
    · exact .inl ho
    · exact .inr (.inl (h1.subset ho))
    · exact .inr (.inr (h2.subset ho))
  | jump h1 => exact fun o ho => h1.subset ho

theorem Trimmed.effectful {a b : VKind} (h : Trimmed a b) : effectful b = effectful a := by cases h <;> rfl

theorem Trimmed.computes {a b : VKind} (h : Trimmed a b) : computes b = computes a := by cases h <;> rfl

end Koopa.Spec
