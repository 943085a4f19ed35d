import Verif.Util.Map
import Verif.Model.Types
/-!
Model of the type pool, koopa/src/ir/types.rs:56-104 and 137-141. A `Type` is a shared pointer to a
`TypeKind`; here an address into a growing heap. The pool keeps every type alive, so addresses are
never reused.
-/
namespace Koopa

/-- types.rs:57 `Type`: the address of an `Rc<TypeKind>`; equality is `Rc::ptr_eq` (137-141). -/
notation "TAddr" => Nat

/-- types.rs:14-26 `TypeKind`, with handles for the nested types. -/
inductive PKind where
  | int32
  | unit
  | array (base : TAddr) (len : Nat)
  | pointer (base : TAddr)
  | function (params : List TAddr) (ret : TAddr)
deriving DecidableEq, Repr

/-- The heap of `TypeKind`s by address (in allocation order) and types.rs:65 `POOL`. The derived
`Hash` agrees with the derived `Eq`, so the hash map is a map keyed by `PKind` equality. -/
structure TPool where
  heap : List PKind
  pool : Map PKind TAddr

/-- types.rs:65: initially empty. -/
def TPool.init : TPool := { heap := [], pool := .empty }

/-- types.rs:69-78 `Type::get`. -/
def TPool.get (s : TPool) (k : PKind) : TPool × TAddr :=
  match s.pool.get? k with
  | some a => (s, a)
  | none => ({ heap := s.heap ++ [k], pool := s.pool.insert k s.heap.length }, s.heap.length)

/-- types.rs:91-94 `get_array`; `none` is the panic. -/
def TPool.getArray (s : TPool) (base : TAddr) (len : Nat) : Option (TPool × TAddr) :=
  if len ≠ 0 then some (s.get (.array base len)) else none

/-- Handles inside a kind. -/
def PKind.args : PKind → List TAddr
  | .int32 => []
  | .unit => []
  | .array b _ => [b]
  | .pointer b => [b]
  | .function ps r => ps ++ [r]

/-- One construction: any kind whose nested handles were obtained before (all addresses below
`heap.length` have been returned). Covers `get`, `get_i32`, `get_unit`, `get_array`, `get_pointer`,
`get_function`. -/
inductive TReach : TPool → Prop where
  | init : TReach .init
  | get {s : TPool} (k : PKind) : TReach s → (∀ a ∈ k.args, a < s.heap.length) → TReach (s.get k).1

end Koopa
