import Verif.Model.Ir
/-!
Model of koopa/src/ir/idman.rs with 32-bit counters. Each `fetch_add` is one atomic step on its own
counter, so an execution of any number of threads is a list of requests in some order; the relaxed
memory order allows nothing more for the results of `fetch_add` on a single counter.
-/
namespace Koopa

/-- The four allocation functions of idman.rs. -/
inductive IdKind where
  | globalValue | localValue | bb | func
deriving DecidableEq, Repr

/-- idman.rs:45, 52, 64, 72: the four `AtomicU32` counters. -/
structure Counters where
  globalValue : BitVec 32
  localValue : BitVec 32
  bb : BitVec 32
  func : BitVec 32
deriving DecidableEq, Repr

/-- idman.rs:16, 21, 31, 41: initial values. -/
def Counters.init : Counters :=
  { globalValue := 1#32, localValue := 0x40000000#32, bb := 1#32, func := 1#32 }

/-- idman.rs:44-48, 51-55, 63-67, 70-74: `fetch_add(1)` returns the old value and wraps around. -/
def Counters.next (c : Counters) : IdKind → BitVec 32 × Counters
  | .globalValue => (c.globalValue, { c with globalValue := c.globalValue + 1#32 })
  | .localValue => (c.localValue, { c with localValue := c.localValue + 1#32 })
  | .bb => (c.bb, { c with bb := c.bb + 1#32 })
  | .func => (c.func, { c with func := c.func + 1#32 })

/-- idman.rs:58-60 `is_global_id` (unsigned comparison). -/
def isGlobalId (v : BitVec 32) : Bool := decide (v ≥ 1#32) && decide (v < 0x40000000#32)

/-- One handle given out: to which thread, by which function, and its id. -/
structure Grant where
  thread : Nat
  kind : IdKind
  id : BitVec 32
deriving DecidableEq, Repr

/-- An execution: threads call allocation functions in the order of the list. -/
def Counters.run (c : Counters) : List (Nat × IdKind) → List Grant
  | [] => []
  | (t, k) :: rs => ⟨t, k, (c.next k).1⟩ :: (c.next k).2.run rs

end Koopa
