import Verif.Spec.Typing
/-!
The control flow edges of a function.
-/
namespace Koopa.Spec

/-- The argument lists an instruction passes to block `b`, one for each edge. -/
def passes (b : BB) : VKind → List (List Value)
  | .jump t as => if t = b then [as] else []
  | .branch _ t f ta fa => (if t = b then [ta] else []) ++ (if f = b then [fa] else [])
  | _ => []

/-- The instructions in the blocks of the function, each with its block. -/
def sites (l : Layout) : List (BB × Value) := l.bbs.flatMap (fun x => x.2.map (fun u => (x.1, u)))

/-- The edges into block `b`: the block an edge comes from and the arguments passed along it. -/
def edges (fd : FData) (b : BB) : List (BB × List Value) :=
  (sites fd.layout).flatMap (fun s => match fd.dfg.values.get? s.2 with
    | none => []
    | some x => (passes b x.kind).map (fun as => (s.1, as)))

end Koopa.Spec
