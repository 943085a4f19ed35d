import Verif.Util.Map
import Verif.Model.Types
/-!
Model of the IR data structures: koopa/src/ir/{values,entities}.rs (data) and the iterators over
uses. The operations are in `Verif/Model/Dfg.lean` and `Verif/Model/Program.lean`.
-/
namespace Koopa

/-- entities.rs:475 `Value`: a handle, here its numeric id. -/
notation "Value" => Nat
/-- entities.rs:411 `BasicBlock`. -/
notation "BB" => Nat
/-- entities.rs:240 `Function`. -/
notation "Func" => Nat
/-- Rust `i32`. -/
abbrev I32 := BitVec 32

/-- idman.rs:21 `LOCAL_VALUE_ID_STARTS_FROM`. -/
def localStart : Nat := 0x40000000

/-- idman.rs:16 `GLOBAL_VALUE_ID_STARTS_FROM`. -/
def globalStart : Nat := 1

/-- idman.rs:58-60 `is_global_id` / entities.rs:479 `Value::is_global`. -/
def isGlobal (v : Value) : Bool := decide (v ≥ globalStart) && decide (v < localStart)

/-- values.rs:314-350 `BinaryOp`, same order. -/
inductive BinOp where
  | notEq | eq | gt | lt | ge | le | add | sub | mul | div | mod | and | or | xor | shl | shr | sar
deriving DecidableEq, Repr, Inhabited

/-- entities.rs:562-597 `ValueKind` with the payload structs of values.rs. -/
inductive VKind where
  | integer (value : I32)
  | zeroInit
  | undef
  | aggregate (elems : List Value)
  | funcArgRef (index : Nat)
  | blockArgRef (index : Nat)
  | alloc
  | globalAlloc (init : Value)
  | load (src : Value)
  | store (value dest : Value)
  | getPtr (src index : Value)
  | getElemPtr (src index : Value)
  | binary (op : BinOp) (lhs rhs : Value)
  | branch (cond : Value) (trueBb falseBb : BB) (trueArgs falseArgs : List Value)
  | jump (target : BB) (args : List Value)
  | call (callee : Func) (args : List Value)
  | ret (value : Option Value)
deriving DecidableEq, Repr, Inhabited

/-- entities.rs:617-625 `ValueKind::is_const`. -/
def VKind.isConst : VKind → Bool
  | .integer _ | .zeroInit | .undef | .aggregate _ => true
  | _ => false

/-- entities.rs:628-630 `ValueKind::is_global_alloc`. -/
def VKind.isGlobalAlloc : VKind → Bool
  | .globalAlloc _ => true
  | _ => false

/-- entities.rs:633-647 `ValueKind::is_local_inst`. -/
def VKind.isLocalInst : VKind → Bool
  | .alloc | .load _ | .store _ _ | .getPtr _ _ | .getElemPtr _ _ | .binary _ _ _
  | .branch _ _ _ _ _ | .jump _ _ | .call _ _ | .ret _ => true
  | _ => false

/-- entities.rs:662-670, macro `vec_use!`. -/
def vecUse (vec : List Value) (cur : Nat) : Option Value :=
  if cur < vec.length then vec[cur]? else none

/-- entities.rs:671-685, macro `field_use!`, for one and two fields. -/
def fieldUse1 (a : Value) (cur : Nat) : Option Value := if cur = 0 then some a else none
/-- entities.rs:671-685, macro `field_use!`. -/
def fieldUse2 (a b : Value) (cur : Nat) : Option Value :=
  if cur = 0 then some a else if cur = 0 + 1 then some b else none

/-- entities.rs:659-714 `ValueUses::next` at index `cur` (the body of `next` is a function of the
kind and the index; the index is then incremented). -/
def VKind.valueUseAt (k : VKind) (cur : Nat) : Option Value :=
  match k with
  | .aggregate elems => vecUse elems cur
  | .globalAlloc init => fieldUse1 init cur
  | .load src => fieldUse1 src cur
  | .store value dest => fieldUse2 value dest cur
  | .getPtr src index => fieldUse2 src index cur
  | .getElemPtr src index => fieldUse2 src index cur
  | .binary _ lhs rhs => fieldUse2 lhs rhs cur
  | .branch cond _ _ trueArgs falseArgs =>
    let tlen := trueArgs.length
    if cur = 0 then some cond
    else if cur ≥ 1 ∧ cur ≤ tlen then trueArgs[cur - 1]?
    else if cur > tlen ∧ cur ≤ tlen + falseArgs.length then falseArgs[cur - tlen - 1]?
    else none
  | .jump _ args => vecUse args cur
  | .call _ args => vecUse args cur
  | .ret value => match cur with
    | 0 => value
    | _ => none
  | _ => none

/-- entities.rs:726-741 `BasicBlockUses::next` at index `cur`. -/
def VKind.bbUseAt (k : VKind) (cur : Nat) : Option BB :=
  match k with
  | .branch _ trueBb falseBb _ _ => match cur with
    | 0 => some trueBb
    | 1 => some falseBb
    | _ => none
  | .jump target _ => match cur with
    | 0 => some target
    | _ => none
  | _ => none

/-- A `for` loop over an index-driven iterator: all items until the first `None`. The fuel only
makes the loop total; `collectFuel` always suffices (C11). -/
def collectFrom {α : Type} (next : Nat → Option α) : (fuel cur : Nat) → List α
  | 0, _ => []
  | fuel + 1, cur => match next cur with
    | some x => x :: collectFrom next fuel (cur + 1)
    | none => []

/-- Upper bound for the number of items (no counterpart in the code). -/
def VKind.collectFuel : VKind → Nat
  | .aggregate elems => elems.length + 1
  | .branch _ _ _ t f => t.length + f.length + 3
  | .jump _ args => args.length + 2
  | .call _ args => args.length + 1
  | _ => 3

/-- entities.rs:601-606 `ValueKind::value_uses`, collected. -/
def VKind.valueUses (k : VKind) : List Value := collectFrom k.valueUseAt k.collectFuel 0

/-- entities.rs:609-614 `ValueKind::bb_uses`, collected. -/
def VKind.bbUses (k : VKind) : List BB := collectFrom k.bbUseAt k.collectFuel 0

/-- entities.rs:489-494 `ValueData`. -/
structure VData where
  ty : Ty
  name : Option Str
  kind : VKind
  usedBy : List Value
deriving DecidableEq, Repr, Inhabited

/-- entities.rs:498-505 `ValueData::new`. -/
def VData.new (ty : Ty) (kind : VKind) : VData := { ty, name := none, kind, usedBy := [] }

/-- entities.rs:548-558 `Clone for ValueData`: everything but the use list. -/
def VData.clone (d : VData) : VData := { d with usedBy := [] }

/-- entities.rs:420-424 `BasicBlockData`. -/
structure BData where
  name : Option Str
  params : List Value
  usedBy : List Value
deriving DecidableEq, Repr, Inhabited

/-- dfg.rs:14-19 `DataFlowGraph` without the weak references to the program maps. -/
structure Dfg where
  values : Map Value VData
  bbs : Map BB BData
deriving Repr

/-- dfg.rs:51-58 `DataFlowGraph::new`. -/
def Dfg.new : Dfg := { values := .empty, bbs := .empty }

/-- layout.rs:16-19 `Layout`. The block list is a key-node-list: an ordered list of distinct
blocks, each with its own ordered list of distinct instructions (external crate, see DESIGN). -/
structure Layout where
  bbs : List (BB × List Value)
  instBb : Map Value BB
deriving Repr

/-- layout.rs:23-25 `Layout::new`. -/
def Layout.new : Layout := { bbs := [], instBb := .empty }

/-- entities.rs:245-251 `FunctionData`. -/
structure FData where
  ty : Ty
  name : Str
  params : List Value
  dfg : Dfg
  layout : Layout
deriving Repr

/-- idman.rs: the four counters. Simplification: unbounded naturals (wrapping is treated in
`Verif/Model/Idman.lean`); they are process-wide in the code and part of the state here. -/
structure Ids where
  nextGlobal : Nat
  nextLocal : Nat
  nextBb : Nat
  nextFunc : Nat
deriving DecidableEq, Repr

/-- idman.rs:45,52,64,72: initial counter values. -/
def Ids.init : Ids := { nextGlobal := globalStart, nextLocal := localStart, nextBb := 1, nextFunc := 1 }

/-- entities.rs:20-26 `Program`, plus the id counters. -/
structure Program where
  values : Map Value VData
  instLayout : List Value
  funcs : Map Func FData
  funcTys : Map Func Ty
  funcLayout : List Func
  ids : Ids
deriving Repr

/-- entities.rs:42-44 `Program::new`, with counters starting at `ids`. -/
def Program.new (ids : Ids) : Program :=
  { values := .empty, instLayout := [], funcs := .empty, funcTys := .empty, funcLayout := [], ids }

end Koopa
