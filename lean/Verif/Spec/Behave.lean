import Verif.Spec.Machine
import Verif.Spec.Print
/-!
When two programs behave in the same way.
-/
namespace Koopa.Spec
open Koopa Koopa.Interp

/-- A relation that relates each thing to at most one other, in both directions. -/
def OneToOne {α β : Type} (R : α → β → Prop) : Prop :=
  (∀ a b c, R a b → R a c → b = c) ∧ ∀ a b c, R a c → R b c → a = b

/-- The values are the same, except that their pointers point to related objects. -/
inductive SameShape (R : Obj → Obj → Prop) : Val → Val → Prop
  | undef : SameShape R .undef .undef
  | int (n : I32) : SameShape R (.int n) (.int n)
  | array {l l' : List Val} : l.length = l'.length →
      (∀ (i : Nat) x x', l[i]? = some x → l'[i]? = some x' → SameShape R x x') → SameShape R (.array l) (.array l')
  | null (i n : Nat) : SameShape R (.ptr none i n) (.ptr none i n)
  | ptr {o o' : Obj} (path : List Nat) (i n : Nat) : R o o' → SameShape R (.ptr (some (o, path)) i n) (.ptr (some (o', path)) i n)
  | unsafePtr (q : Option Nat) : SameShape R (.unsafePtr q) (.unsafePtr q)

/-- The outside world takes pointers to objects of the program only as names: if all objects got other names, it would do the same. -/
structure Blind {σ : Type} (lib : Lib σ) : Prop where
  call : ∀ R, OneToOne R → ∀ n t xs ys w, All2 (SameShape R) xs ys → lib.call n t xs w = lib.call n t ys w
  store : ∀ R, OneToOne R → ∀ q t x y w, SameShape R x y → lib.store q t x w = lib.store q t y w

/-- Started with the functions `f` and `f'`, the programs do the same: end with the same results in the same worlds, run for
ever, or get stuck. -/
def BehaveSame (p p' : Program) (f f' : Func) : Prop :=
  ∀ {σ : Type} (lib : Lib σ), Blind lib → ∀ (chk : Bool) (ptrSize : Nat) (w : σ),
    (∀ r, MRuns p lib chk ptrSize f w r ↔ MRuns p' lib chk ptrSize f' w r) ∧
    (MForever p lib chk ptrSize f w ↔ MForever p' lib chk ptrSize f' w) ∧
    (MStucks p lib chk ptrSize f w ↔ MStucks p' lib chk ptrSize f' w)

end Koopa.Spec
