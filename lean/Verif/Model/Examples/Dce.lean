import Verif.Model.Program
/-!
Model of koopa/examples/opt/dce.rs. `none` stands for a panic, or for a bound on a recursion.

The iteration orders of maps and sets are parameters. A loop over a map or a layout that only collects becomes a list of what it collects.
-/
namespace Koopa.Dce

/-- dce.rs:6-9. The last element of the work list comes first; the live set is a list. -/
structure St where
  worklist : List Value
  liveset : List Value

/-- Each element of a set once. -/
def once : List Value → List Value
  | [] => []
  | v :: vs => v :: (once vs).filter (fun w => decide (w ≠ v))

/-- The iteration orders: of the maps of values and of blocks of a program, of a set of values, given by a list of them, and of a map from positions to
parameters. They may be different ones in each state of the program. -/
structure Orders where
  values : Program → List Value
  bbs : Program → List BB
  set : Program → List Value → List Value
  map : Program → List (Nat × Value) → List (Nat × Value)

/-- dce.rs:23-28 `new`. -/
def St.new : St := ⟨[], []⟩

/-- dce.rs:156-165 `is_critical_inst`. -/
def isCritical : VKind → Bool
  | .store _ _ | .call _ _ | .branch _ _ _ _ _ | .jump _ _ | .ret _ => true
  | _ => false

/-- dce.rs:34-35, 43-44. -/
def St.add (st : St) (v : Value) : St := ⟨v :: st.worklist, v :: st.liveset⟩

/-- dce.rs:32-37: the loop over the values `vs`. -/
def seed (fd : FData) : List Value → St → St
  | [], st => st
  | v :: vs, st => match fd.dfg.values.get? v with
    | some d => seed fd vs (if isCritical d.kind then st.add v else st)
    | none => seed fd vs st

/-- dce.rs:41-46: the loop over the operands of an instruction. `value` panics if the operand is not a local value. -/
def visit (fd : FData) : List Value → St → Option St
  | [], st => some st
  | u :: us, st =>
    if u ∈ st.liveset then visit fd us st
    else match fd.dfg.values.get? u with
      | none => none
      | some d => visit fd us (if d.kind.isLocalInst then st.add u else st)

/-- dce.rs:39-47: the loop, with a bound on the number of rounds. -/
def markLoop (fd : FData) : Nat → St → Option St
  | 0, _ => none
  | n + 1, st => match st.worklist with
    | [] => some st
    | v :: wl => match fd.dfg.values.get? v with
      | none => none
      | some d => match visit fd d.kind.valueUses { st with worklist := wl } with
        | none => none
        | some st => markLoop fd n st

/-- dce.rs:30-48 `mark`. -/
def mark (fd : FData) (n : Nat) (vs : List Value) (st : St) : Option St := markLoop fd n (seed fd vs st)

/-- dce.rs:53-65: the instructions that are taken out, with their blocks. -/
def deadInsts (live : List Value) (l : Layout) : List (BB × Value) :=
  l.bbs.flatMap (fun q => (q.2.filter (fun v => decide (v ∉ live))).map (fun v => (q.1, v)))

/-- dce.rs:59: `remove_current` for each of them. -/
def unlist (f : Func) : List (BB × Value) → Program → Option Program
  | [], p => some p
  | (b, v) :: l, p => match p.onLayout f (fun l => (l.removeInst b v).map (·.1)) with
    | none => none
    | some p => unlist f l p

/-- dce.rs:72-75. -/
def undefAll (f : Func) : List Value → Program → Option Program
  | [], p => some p
  | v :: vs, p => match (p.funcs.get? f).bind (·.dfg.values.get? v) with
    | none => none
    | some d => match p.replaceLocal f v (.val (.undef d.ty)) with
      | none => none
      | some p => undefAll f vs p

/-- dce.rs:77-79. -/
def removeAll (f : Func) : List Value → Program → Option Program
  | [], p => some p
  | v :: vs, p => match p.removeLocal f v with
    | none => none
    | some p => removeAll f vs p

/-- dce.rs:50-82 `sweep`. -/
def sweep (f : Func) (st : St) (p : Program) : Option (Program × Bool) :=
  match p.funcs.get? f with
  | none => none
  | some fd =>
    let removed := deadInsts st.liveset fd.layout
    match unlist f removed p with
    | none => none
    | some p => match undefAll f (removed.map (·.2)) p with
      | none => none
      | some p => (removeAll f (removed.map (·.2)) p).map (·, !removed.isEmpty)

/-- dce.rs:104-108, 133-142: `retain` with a test of the index: the elements at the positions in `is` go. `n` is the position of the first. -/
def dropAt {α : Type} (is : List Nat) : Nat → List α → List α
  | _, [] => []
  | n, x :: xs => if n ∈ is then dropAt is (n + 1) xs else x :: dropAt is (n + 1) xs

/-- dce.rs:92-97: the unused ones among the parameters `ps`, with their positions; `n` is the position of the first. -/
def unusedParams (fd : FData) : Nat → List Value → Option (List (Nat × Value))
  | _, [] => some []
  | n, x :: xs => match fd.dfg.values.get? x with
    | none => none
    | some d => (unusedParams fd (n + 1) xs).map (fun l => if d.usedBy.isEmpty then (n, x) :: l else l)

/-- dce.rs:87-100: the blocks among `bs` with unused parameters. -/
def unusedBbs (fd : FData) : List BB → Option (List (BB × List (Nat × Value)))
  | [] => some []
  | b :: bs => match fd.dfg.bbs.get? b with
    | none => unusedBbs fd bs
    | some x => match unusedParams fd 0 x.params with
      | none => none
      | some m => (unusedBbs fd bs).map (fun l => if m.isEmpty then l else (b, m) :: l)

/-- dce.rs:104-111: the parameters of one block. -/
def dropParams (f : Func) (o : Orders) (b : BB) (m : List (Nat × Value)) (p : Program) : Option Program := do
  let fd ← p.funcs.get? f
  let x ← fd.dfg.bbs.get? b
  let p ← p.setBbParams f b (dropAt (m.map (·.1)) 0 x.params)
  removeAll f ((o.map p m).map (·.2)) p

/-- dce.rs:103-112. -/
def dropAllParams (f : Func) (o : Orders) : List (BB × List (Nat × Value)) → Program → Option Program
  | [], p => some p
  | (b, m) :: l, p => match dropParams f o b m p with
    | none => none
    | some p => dropAllParams f o l p

/-- dce.rs:120-142: the instruction without the arguments for the parameters of `b` at the positions `is`, and the
arguments that stay (the variable `removed_args`). -/
def dropArgs (b : BB) (is : List Nat) : VKind → Option (VKind × List Value)
  | .branch c t f ts fs =>
    if t = b then some (.branch c t f (dropAt is 0 ts) fs, dropAt is 0 ts)
    else some (.branch c t f ts (dropAt is 0 fs), dropAt is 0 fs)
  | .jump t as => some (.jump t (dropAt is 0 as), dropAt is 0 as)
  | _ => none

/-- dce.rs:146-150. `value` panics if the argument is not a local value. -/
def cleanArgs (f : Func) : List Value → Program → Option Program
  | [], p => some p
  | v :: vs, p => match (p.funcs.get? f).bind (·.dfg.values.get? v) with
    | none => none
    | some d =>
      if d.usedBy.isEmpty then match p.removeLocal f v with
        | none => none
        | some p => cleanArgs f vs p
      else cleanArgs f vs p

/-- dce.rs:118-150: one user. -/
def updateUser (f : Func) (o : Orders) (b : BB) (is : List Nat) (user : Value) (p : Program) : Option Program := do
  let fd ← p.funcs.get? f
  let d ← fd.dfg.values.get? user
  let (k, kept) ← dropArgs b is d.kind
  let p ← p.replaceLocal f user (.val (.raw { d.clone with kind := k }))
  cleanArgs f (o.set p kept) p

/-- dce.rs:115-151: the users of one block. -/
def updateUsers (f : Func) (o : Orders) (b : BB) (is : List Nat) : List Value → Program → Option Program
  | [], p => some p
  | u :: us, p => match updateUser f o b is u p with
    | none => none
    | some p => updateUsers f o b is us p

/-- dce.rs:114-152. -/
def updateAll (f : Func) (o : Orders) : List (BB × List (Nat × Value)) → Program → Option Program
  | [], p => some p
  | (b, m) :: l, p => match (p.funcs.get? f).bind (·.dfg.bbs.get? b) with
    | none => none
    | some x => match updateUsers f o b (m.map (·.1)) (o.set p x.usedBy) p with
      | none => none
      | some p => updateAll f o l p

/-- dce.rs:84-154 `opt_bb_params`; `bs` are the blocks in iteration order. -/
def optBbParams (f : Func) (o : Orders) (bs : List BB) (p : Program) : Option (Program × Bool) :=
  match p.funcs.get? f with
  | none => none
  | some fd => match unusedBbs fd bs with
    | none => none
    | some l => match dropAllParams f o l p with
      | none => none
      | some p => (updateAll f o l p).map (·, !l.isEmpty)

/-- dce.rs:14-18: one round; `n` bounds the marking. -/
def round (f : Func) (n : Nat) (o : Orders) (st : St) (p : Program) : Option (St × Program × Bool) :=
  match p.funcs.get? f with
  | none => none
  | some fd => match mark fd n (o.values p) st with
    | none => none
    | some st => match sweep f st p with
      | none => none
      | some (p, c) => (optBbParams f o (o.bbs p) p).map (fun (p, c') => (st, p, c || c'))

/-- dce.rs:12-19 `run_on`, with a bound on the number of rounds. The state stays in the pass. -/
def runOn (f : Func) (n : Nat) (o : Orders) : Nat → St → Program → Option (St × Program)
  | 0, _, _ => none
  | k + 1, st, p => match round f n o st p with
    | none => none
    | some (st, p, changed) => if changed then runOn f n o k st p else some (st, p)

end Koopa.Dce
