import Verif.Model.Ir
/-!
Model of koopa/src/ir/dfg.rs: operations on the data flow graph of one function.
`none` stands for a panic.
-/
namespace Koopa

/-- A data flow graph together with the program's global value map, which it reaches through a
weak reference (dfg.rs:15). Simplification: the reference is always alive. -/
structure Ctx where
  g : Map Value VData
  d : Dfg
deriving Repr

/-- dfg.rs:22-33 macro `data!`: globals first, then locals. -/
def Ctx.data (c : Ctx) (v : Value) : Option VData :=
  match c.g.get? v with
  | some x => some x
  | none => c.d.values.get? v

/-- dfg.rs:36-47 macro `data_mut!` followed by an update `f` of the data. -/
def Ctx.modData (c : Ctx) (v : Value) (f : VData → VData) : Option Ctx :=
  match c.g.get? v with
  | some x => some { c with g := c.g.insert v (f x) }
  | none =>
    match c.d.values.get? v with
    | some x => some { c with d := { c.d with values := c.d.values.insert v (f x) } }
    | none => none

/-- dfg.rs:298-300 `bb_mut` followed by an update `f` of the data. -/
def Ctx.modBb (c : Ctx) (b : BB) (f : BData → BData) : Option Ctx :=
  match c.d.bbs.get? b with
  | some x => some { c with d := { c.d with bbs := c.d.bbs.insert b (f x) } }
  | none => none

/-- `used_by.insert(user)` on a value. -/
def VData.addUser (user : Value) (x : VData) : VData := { x with usedBy := setInsert user x.usedBy }
/-- `used_by.remove(user)` on a value. -/
def VData.delUser (user : Value) (x : VData) : VData := { x with usedBy := setErase user x.usedBy }
/-- `used_by.insert(user)` on a block. -/
def BData.addUser (user : Value) (x : BData) : BData := { x with usedBy := setInsert user x.usedBy }
/-- `used_by.remove(user)` on a block. -/
def BData.delUser (user : Value) (x : BData) : BData := { x with usedBy := setErase user x.usedBy }

/-- The loop `for v in vs { data_mut!(self, v).used_by.insert(user) }` (dfg.rs:74-76, 108-110, 135-137). -/
def Ctx.addUses (c : Ctx) (user : Value) : List Value → Option Ctx
  | [] => some c
  | v :: vs => match c.modData v (VData.addUser user) with
    | some c' => c'.addUses user vs
    | none => none

/-- The loop `for v in vs { data_mut!(self, v).used_by.remove(user) }` (dfg.rs:102-104, 128-130, 153-155). -/
def Ctx.delUses (c : Ctx) (user : Value) : List Value → Option Ctx
  | [] => some c
  | v :: vs => match c.modData v (VData.delUser user) with
    | some c' => c'.delUses user vs
    | none => none

/-- The loop `for bb in bbs { self.bb_mut(bb).used_by.insert(user) }` (dfg.rs:77-79, 111-113, 138-140). -/
def Ctx.addBbUses (c : Ctx) (user : Value) : List BB → Option Ctx
  | [] => some c
  | b :: bs => match c.modBb b (BData.addUser user) with
    | some c' => c'.addBbUses user bs
    | none => none

/-- The loop `for bb in bbs { self.bb_mut(bb).used_by.remove(user) }` (dfg.rs:105-107, 131-133, 156-158). -/
def Ctx.delBbUses (c : Ctx) (user : Value) : List BB → Option Ctx
  | [] => some c
  | b :: bs => match c.modBb b (BData.delUser user) with
    | some c' => c'.delBbUses user bs
    | none => none

/-- `self.values.insert(value, data)`. -/
def Ctx.insertLocal (c : Ctx) (v : Value) (data : VData) : Ctx :=
  { c with d := { c.d with values := c.d.values.insert v data } }

/-- `self.values.remove(&value)`. -/
def Ctx.eraseLocal (c : Ctx) (v : Value) : Ctx :=
  { c with d := { c.d with values := c.d.values.erase v } }

/-- dfg.rs:72-82 `new_value_data`, with the fresh id `value` given. -/
def Ctx.newValueData (c : Ctx) (value : Value) (data : VData) : Option Ctx := do
  let c ← c.addUses value data.kind.valueUses
  let c ← c.addBbUses value data.kind.bbUses
  some (c.insertLocal value data)

/-- dfg.rs:100-116 `replace_value_with_data`. -/
def Ctx.replaceValueWithData (c : Ctx) (value : Value) (data : VData) : Option Ctx := do
  let old ← c.d.values.get? value
  let c := c.eraseLocal value
  let c ← c.delUses value old.kind.valueUses
  let c ← c.delBbUses value old.kind.bbUses
  let c ← c.addUses value data.kind.valueUses
  let c ← c.addBbUses value data.kind.bbUses
  some (c.insertLocal value { data with usedBy := old.usedBy })

/-- dfg.rs:123-142 `update_value`; the closure is a function on the data. -/
def Ctx.updateValue (c : Ctx) (value : Value) (f : VData → VData) : Option Ctx := do
  let data ← c.d.values.get? value
  let c := c.eraseLocal value
  let c ← c.delUses value data.kind.valueUses
  let c ← c.delBbUses value data.kind.bbUses
  let data := f data
  let c ← c.addUses value data.kind.valueUses
  let c ← c.addBbUses value data.kind.bbUses
  some (c.insertLocal value data)

/-- dfg.rs:150-160 `remove_value`: the graph afterwards and the removed data. -/
def Ctx.removeValue (c : Ctx) (value : Value) : Option (Ctx × VData) := do
  let data ← c.d.values.get? value
  let c := c.eraseLocal value
  guard (data.usedBy = [])
  let c ← c.delUses value data.kind.valueUses
  let c ← c.delBbUses value data.kind.bbUses
  some (c, data)

/-- entities.rs:523-528, builder.rs:443-451, entities.rs:355-358: the name check.
Simplification: `n.len()` is the byte length; as the first character is one byte, `n.len() > 1`
holds exactly if there is a second character. -/
def validName (n : Str) : Bool :=
  match n with
  | c :: _ :: _ => c == '%' || c == '@'
  | _ => false

/-- The check applied to an optional name. -/
def validOptName : Option Str → Bool
  | none => true
  | some n => validName n

/-- entities.rs:522-530 `ValueData::set_name`. -/
def VData.setName (d : VData) (name : Option Str) : Option VData :=
  if validOptName name then some { d with name } else none

/-- dfg.rs:168-174 `set_value_name`. -/
def Ctx.setValueName (c : Ctx) (value : Value) (name : Option Str) : Option Ctx := do
  let data ← c.d.values.get? value
  let data ← data.setName name
  some (c.insertLocal value data)

/-- dfg.rs:251-255 `new_bb_data`, with the fresh id given. -/
def Ctx.newBbData (c : Ctx) (bb : BB) (data : BData) : Ctx :=
  { c with d := { c.d with bbs := c.d.bbs.insert bb data } }

/-- The loop of dfg.rs:271-280: removes each parameter and asserts that it is unused. -/
def Ctx.removeParams (c : Ctx) : List Value → Option Ctx
  | [] => some c
  | p :: ps => match c.d.values.get? p with
    | some param => if param.usedBy = [] then (c.eraseLocal p).removeParams ps else none
    | none => none

/-- dfg.rs:268-282 `remove_bb`. -/
def Ctx.removeBb (c : Ctx) (bb : BB) : Option (Ctx × BData) := do
  let data ← c.d.bbs.get? bb
  let c := { c with d := { c.d with bbs := c.d.bbs.erase bb } }
  guard (data.usedBy = [])
  let c ← c.removeParams data.params
  some (c, data)

/-- entities.rs:449-451 `BasicBlockData::set_name` through dfg.rs:298 `bb_mut`. -/
def Ctx.setBbName (c : Ctx) (bb : BB) (name : Option Str) : Option Ctx :=
  c.modBb bb (fun x => { x with name })

/-- entities.rs:459-461 `BasicBlockData::params_mut` through dfg.rs:298 `bb_mut`: the caller may
leave any list behind. -/
def Ctx.setBbParams (c : Ctx) (bb : BB) (params : List Value) : Option Ctx :=
  c.modBb bb (fun x => { x with params })

/-! ### Structural comparison -/

/-- The loop dfg.rs:237-239 over the zipped operands; `rec` is the comparison of two values. -/
def usesEq (rec : Value → Value → Option Bool) : List Value → List Value → Option Bool
  | lu :: lus, ru :: rus =>
    match rec lu ru with
    | some true => usesEq rec lus rus
    | some false => some false
    | none => none
  | _, _ => some true

/-- dfg.rs:196-241 `data_eq`; `rec` is the recursive comparison `value_eq`. -/
def dataEqWith (rec : Value → Value → Option Bool) (lhs rhs : VData) : Option Bool :=
  if lhs.ty ≠ rhs.ty then some false
  else
    match lhs.kind, rhs.kind with
    | .integer l, .integer r =>
      if l ≠ r then some false else usesEq rec lhs.kind.valueUses rhs.kind.valueUses
    | .zeroInit, .zeroInit => some true
    | .undef, .undef => some true
    | .aggregate l, .aggregate r =>
      if l.length ≠ r.length then some false
      else usesEq rec lhs.kind.valueUses rhs.kind.valueUses
    | .funcArgRef l, .funcArgRef r =>
      if l ≠ r then some false else usesEq rec lhs.kind.valueUses rhs.kind.valueUses
    | .blockArgRef l, .blockArgRef r =>
      if l ≠ r then some false else usesEq rec lhs.kind.valueUses rhs.kind.valueUses
    | .alloc, .alloc => some true
    | .globalAlloc _, .globalAlloc _ => usesEq rec lhs.kind.valueUses rhs.kind.valueUses
    | .load _, .load _ => usesEq rec lhs.kind.valueUses rhs.kind.valueUses
    | .store _ _, .store _ _ => usesEq rec lhs.kind.valueUses rhs.kind.valueUses
    | .getPtr _ _, .getPtr _ _ => usesEq rec lhs.kind.valueUses rhs.kind.valueUses
    | .getElemPtr _ _, .getElemPtr _ _ => usesEq rec lhs.kind.valueUses rhs.kind.valueUses
    | .binary lo _ _, .binary ro _ _ =>
      if lo ≠ ro then some false else usesEq rec lhs.kind.valueUses rhs.kind.valueUses
    | .branch _ lt lf lta lfa, .branch _ rt rf rta rfa =>
      if lt ≠ rt ∨ lf ≠ rf ∨ lta.length ≠ rta.length ∨ lfa.length ≠ rfa.length then some false
      else usesEq rec lhs.kind.valueUses rhs.kind.valueUses
    | .jump lt la, .jump rt ra =>
      if lt ≠ rt ∨ la.length ≠ ra.length then some false
      else usesEq rec lhs.kind.valueUses rhs.kind.valueUses
    | .call lc la, .call rc ra =>
      if lc ≠ rc ∨ la.length ≠ ra.length then some false
      else usesEq rec lhs.kind.valueUses rhs.kind.valueUses
    | .ret l, .ret r =>
      -- `l.value().xor(r.value()).is_some()`
      if (l.isSome && !r.isSome) || (!l.isSome && r.isSome) then some false
      else usesEq rec lhs.kind.valueUses rhs.kind.valueUses
    | _, _ => some false

/-- dfg.rs:191-193 `value_eq` with a recursion bound (`none`: panic or bound exceeded). -/
def Ctx.valueEq (c : Ctx) : (fuel : Nat) → Value → Value → Option Bool
  | 0, _, _ => none
  | fuel + 1, lhs, rhs =>
    match c.data lhs, c.data rhs with
    | some l, some r => dataEqWith (c.valueEq fuel) l r
    | _, _ => none

end Koopa
