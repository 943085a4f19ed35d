import Verif.Model.Examples.ConstFold
import Verif.Model.Examples.Dce
/-!
Model of koopa/examples/opt/main.rs: the passes of the example optimizer. `none` stands for a panic, or for a bound on a recursion.

The loop of `PassManager` (passman.rs:27-39) over the functions is written out for the two passes. Reading the arguments and the files is not modelled.
-/
namespace Koopa.Opt

/-- The iteration orders: of the map of functions, and for each function those of the two passes. -/
structure Orders where
  funcs : Program → List Func
  values : Func → ConstFold.Order
  bbs : Func → Program → List BB
  users : Func → List Value → List Value
  dce : Func → Dce.Orders

/-- main.rs:50, passman.rs:31-35: constant folding on the functions `fs`; `n` bounds the rounds and the nesting of constants. -/
def foldAll (chk : Bool) (o : Orders) (n : Nat) : List Func → Program → Option Program
  | [], p => some p
  | f :: fs, p => match ConstFold.runOn chk f (o.values f) n n (o.bbs f) (o.users f) p with
    | none => none
    | some p => foldAll chk o n fs p

/-- main.rs:51, passman.rs:31-35: dead code elimination on the functions `fs`; `n` bounds the rounds and the marking. -/
def dceAll (o : Orders) (n : Nat) : List Func → Dce.St → Program → Option (Dce.St × Program)
  | [], st, p => some (st, p)
  | f :: fs, st, p => match Dce.runOn f n (o.dce f) n st p with
    | none => none
    | some (st, p) => dceAll o n fs st p

/-- main.rs:49-52: the two passes. -/
def optimize (chk : Bool) (o : Orders) (n : Nat) (p : Program) : Option Program :=
  match foldAll chk o n (o.funcs p) p with
  | none => none
  | some p => (dceAll o n (o.funcs p) .new p).map (·.2)

end Koopa.Opt
