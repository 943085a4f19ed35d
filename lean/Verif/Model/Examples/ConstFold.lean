import Verif.Model.Program
import Verif.Model.Examples.Interp
/-!
Model of koopa/examples/opt/const_fold.rs. `none` stands for a panic, or for a bound on a recursion.

The iteration orders of the maps of values and of blocks and of the sets of users are parameters. A loop over a map while the program
is not changed becomes a list of what it collects.
-/
namespace Koopa.ConstFold
open Interp (checked shiftBy ofBool)

/-- const_fold.rs:30-48: the operation on two constants; the inner `none` is a division by zero. -/
def foldOp (chk : Bool) (op : BinOp) (l r : I32) : Option (Option I32) :=
  match op with
  | .notEq => some (some (ofBool (l != r)))
  | .eq => some (some (ofBool (l == r)))
  | .gt => some (some (ofBool (decide (l.toInt > r.toInt))))
  | .lt => some (some (ofBool (decide (l.toInt < r.toInt))))
  | .ge => some (some (ofBool (decide (l.toInt ≥ r.toInt))))
  | .le => some (some (ofBool (decide (l.toInt ≤ r.toInt))))
  | .add => (checked chk (l.toInt + r.toInt)).map some
  | .sub => (checked chk (l.toInt - r.toInt)).map some
  | .mul => (checked chk (l.toInt * r.toInt)).map some
  | .div => if r ≠ 0 then (checked true (l.toInt.tdiv r.toInt)).map some else some none
  | .mod =>
    if r ≠ 0 then
      (if l = BitVec.intMin 32 ∧ r = -1 then none else some (some (BitVec.ofInt 32 (l.toInt.tmod r.toInt))))
    else some none
  | .and => some (some (l &&& r))
  | .or => some (some (l ||| r))
  | .xor => some (some (l ^^^ r))
  | .shl => (shiftBy chk r).map (fun n => some (l <<< n))
  | .shr => (shiftBy chk r).map (fun n => some (l >>> n))
  | .sar => (shiftBy chk r).map (fun n => some (l.sshiftRight n))

/-- const_fold.rs:25-56: one value; the inner `none` is `continue`. -/
def foldValue (chk : Bool) (fd : FData) (v : Value) : Option (Option (Value × Option I32 × BB)) :=
  match fd.dfg.values.get? v with
  | none => some none
  | some d => match d.kind with
    | .binary op lhs rhs => match fd.dfg.values.get? lhs, fd.dfg.values.get? rhs with
      | some l, some r => match l.kind, r.kind with
        | .integer i, .integer j => match foldOp chk op i j, fd.layout.parentBb v with
          | some ans, some bb => some (some (v, ans, bb))
          | _, _ => none
        | .undef, _ => none
        | _, .undef => none
        | _, _ => some none
      | _, _ => none
    | _ => some none

/-- const_fold.rs:24-57: the loop over the values `vs`. -/
def evaluated (chk : Bool) (fd : FData) : List Value → Option (List (Value × Option I32 × BB))
  | [] => some []
  | v :: vs => match foldValue chk fd v with
    | none => none
    | some none => evaluated chk fd vs
    | some (some x) => (evaluated chk fd vs).map (x :: ·)

/-- const_fold.rs:63-67: the constant. -/
def constOf : Option I32 → ValInst
  | some n => .integer n
  | none => .undef .i32

/-- const_fold.rs:61-68. -/
def replaceAll (f : Func) : List (Value × Option I32 × BB) → Program → Option Program
  | [], p => some p
  | (v, ans, _) :: l, p => match p.replaceLocal f v (.val (constOf ans)) with
    | none => none
    | some p => replaceAll f l p

/-- const_fold.rs:70-72. -/
def unlistAll (f : Func) : List (Value × Option I32 × BB) → Program → Option Program
  | [], p => some p
  | (v, _, bb) :: l, p => match p.onLayout f (fun l => (l.removeInst bb v).map (·.1)) with
    | none => none
    | some p => unlistAll f l p

/-- const_fold.rs:21-74 `eval_const`; `vs` are the values in iteration order. -/
def evalConst (chk : Bool) (f : Func) (vs : List Value) (p : Program) : Option (Program × Bool) :=
  match p.funcs.get? f with
  | none => none
  | some fd => match evaluated chk fd vs with
    | none => none
    | some ev => match replaceAll f ev p with
      | none => none
      | some p => (unlistAll f ev p).map (·, !ev.isEmpty)

/-- The iteration order of a map of values. -/
abbrev Order := Program → List Value

/-- const_fold.rs:10: the loop, with a bound on the number of rounds. -/
def foldLoop (chk : Bool) (f : Func) (ord : Order) : Nat → Program → Option Program
  | 0, _ => none
  | n + 1, p => match evalConst chk f (ord p) p with
    | none => none
    | some (p, changed) => if changed then foldLoop chk f ord n p else some p

/-- const_fold.rs:86-96: the argument of `user` for parameter `i` of block `b`. -/
def argAt (fd : FData) (b : BB) (i : Nat) (user : Value) : Option Value :=
  match fd.dfg.values.get? user with
  | none => none
  | some d => match d.kind with
    | .branch _ t _ ts fs => if t = b then ts[i]? else fs[i]?
    | .jump _ args => args[i]?
    | _ => none

/-- const_fold.rs:84-104: the loop over the users of block `b`. The inner `none` is `continue 'outer`; at the end
`ans` is unwrapped. `n` bounds the nesting of compared constants. -/
def constArg (c : Ctx) (n : Nat) (fd : FData) (b : BB) (i : Nat) : List Value → Option VData → Option (Option VData)
  | [], ans => ans.map some
  | u :: us, ans => match argAt fd b i u with
    | none => none
    | some a => match fd.dfg.values.get? a with
      | none => none
      | some d =>
        if d.kind.isConst then
          match ans with
          | none => constArg c n fd b i us (some d.clone)
          | some v => match dataEqWith (c.valueEq n) v d with
            | none => none
            | some true => constArg c n fd b i us (some d.clone)
            | some false => some none
        else some none

/-- const_fold.rs:81-105: the parameters `is` of block `b`. -/
def evalParams (c : Ctx) (n : Nat) (fd : FData) (b : BB) (users : List Value) : List Nat → Option (List (Nat × VData))
  | [] => some []
  | i :: is => match constArg c n fd b i users none with
    | none => none
    | some none => evalParams c n fd b users is
    | some (some d) => (evalParams c n fd b users is).map ((i, d) :: ·)

/-- const_fold.rs:78-109: the loop over the blocks `bs`; `us` is the iteration order of sets of users. -/
def evalBbs (c : Ctx) (n : Nat) (fd : FData) (us : List Value → List Value) : List BB → Option (List (BB × List (Nat × VData)))
  | [] => some []
  | b :: bs => match fd.dfg.bbs.get? b with
    | none => evalBbs c n fd us bs
    | some x => match evalParams c n fd b (us x.usedBy) (List.range x.params.length) with
      | none => none
      | some [] => evalBbs c n fd us bs
      | some ev => (evalBbs c n fd us bs).map ((b, ev) :: ·)

/-- const_fold.rs:114-118: one parameter. -/
def replaceParam (f : Func) (b : BB) (i : Nat) (data : VData) (p : Program) : Option Program := do
  let fd ← p.funcs.get? f
  let x ← fd.dfg.bbs.get? b
  let v ← x.params[i]?
  let param ← fd.dfg.values.get? v
  let p ← p.replaceLocal f v (.val (.raw data))
  let (p, w) ← p.newLocal f (.val (.raw param.clone))
  let fd ← p.funcs.get? f
  let x ← fd.dfg.bbs.get? b
  p.setBbParams f b (x.params.set i w)

/-- const_fold.rs:113-119. -/
def replaceParams (f : Func) (b : BB) : List (Nat × VData) → Program → Option Program
  | [], p => some p
  | (i, d) :: l, p => match replaceParam f b i d p with
    | none => none
    | some p => replaceParams f b l p

/-- const_fold.rs:111-120. -/
def replaceBbs (f : Func) : List (BB × List (Nat × VData)) → Program → Option Program
  | [], p => some p
  | (b, ev) :: l, p => match replaceParams f b ev p with
    | none => none
    | some p => replaceBbs f l p

/-- const_fold.rs:76-121 `eval_bb_params`; `bs` are the blocks in iteration order. -/
def evalBbParams (f : Func) (n : Nat) (bs : List BB) (us : List Value → List Value) (p : Program) : Option Program :=
  match p.funcs.get? f with
  | none => none
  | some fd => match evalBbs (p.ctx fd) n fd us bs with
    | none => none
    | some l => replaceBbs f l p

/-- const_fold.rs:8-13 `run_on`. -/
def runOn (chk : Bool) (f : Func) (ord : Order) (rounds n : Nat) (bord : Program → List BB) (us : List Value → List Value) (p : Program) : Option Program :=
  match foldLoop chk f ord rounds p with
  | none => none
  | some p => evalBbParams f n (bord p) us p

end Koopa.ConstFold
