import Verif.Model.Ir
/-!
Model of koopa/src/ir/layout.rs. A `KeyNodeList` is an ordered list of distinct keys; every way to
insert a key (push_key_front/back, cursor insert_key_before/after) is `insertAt` for some position,
and fails without effect if the key is already in this list.
-/
namespace Koopa

/-- Insertion at a position (key-node-list, external): position `0` is the front, any position at
or beyond the end is the back. -/
def insertAt {α : Type} (i : Nat) (x : α) (l : List α) : List α := l.take i ++ x :: l.drop i

/-- `KeyNodeList::node` on the block list. -/
def Layout.insts? (l : Layout) (b : BB) : Option (List Value) := Map.lookup l.bbs b

/-- Replaces the instruction list of block `b` (access through `node_mut`). -/
def setInsts (b : BB) (is : List Value) : List (BB × List Value) → List (BB × List Value)
  | [] => []
  | (b', is') :: l => if b' = b then (b', is) :: l else (b', is') :: setInsts b is l

/-- layout.rs:49-51 `entry_bb`. -/
def Layout.entryBb (l : Layout) : Option BB := l.bbs.head?.map (·.1)

/-- layout.rs:55-57 `parent_bb`. -/
def Layout.parentBb (l : Layout) (inst : Value) : Option BB := l.instBb.get? inst

/-- Insertion of a block into the block list, layout.rs:125-136 `BasicBlockMap::insert`: a key that
is present is refused, otherwise the block starts with an empty instruction list. The flag tells
whether the insertion happened. -/
def Layout.insertBb (l : Layout) (i : Nat) (b : BB) : Layout × Bool :=
  match l.insts? b with
  | none => ({ l with bbs := insertAt i (b, []) l.bbs }, true)
  | some _ => (l, false)

/-- Removal of a block from the block list, layout.rs:138-144 `BasicBlockMap::remove_entry`.
`inst_bb` is not touched. -/
def Layout.removeBb (l : Layout) (b : BB) : Layout × Bool :=
  match l.insts? b with
  | some _ => ({ l with bbs := l.bbs.filter (fun p => decide (p.1 ≠ b)) }, true)
  | none => (l, false)

/-- `clear` of the block list, layout.rs:105-107. `inst_bb` is not touched. -/
def Layout.clearBbs (l : Layout) : Layout := { l with bbs := [] }

/-- Insertion of an instruction into block `b`: layout.rs:43-45 `bb_mut` (panics if the block is
absent), then layout.rs:244-261 `InstMap::insert`. -/
def Layout.insertInst (l : Layout) (b : BB) (i : Nat) (v : Value) : Option (Layout × Bool) :=
  match l.insts? b with
  | none => none
  | some is =>
    if v ∈ is then some (l, false)
    else some ({ bbs := setInsts b (insertAt i v is) l.bbs, instBb := l.instBb.insert v b }, true)

/-- Removal of an instruction from block `b`: `bb_mut`, then layout.rs:263-279
`InstMap::remove_entry`, which also erases the `inst_bb` entry. -/
def Layout.removeInst (l : Layout) (b : BB) (v : Value) : Option (Layout × Bool) :=
  match l.insts? b with
  | none => none
  | some is =>
    if v ∈ is then
      some ({ bbs := setInsts b (is.filter (fun x => decide (x ≠ v))) l.bbs,
              instBb := l.instBb.erase v }, true)
    else some (l, false)

/-- `clear` of the instruction list of block `b`, layout.rs:224-226. `inst_bb` is not touched. -/
def Layout.clearInsts (l : Layout) (b : BB) : Option Layout :=
  match l.insts? b with
  | none => none
  | some _ => some { l with bbs := setInsts b [] l.bbs }

end Koopa
