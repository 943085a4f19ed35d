import Verif.Model.Back.Names
/-!
Model of koopa/src/back/koopa.rs: the text form generator, and of `Display` for types and operators.

A visitor method is represented by the pieces it writes; `none` is a panic. The writer does not fail.
Simplification: the recursion through aggregates has a fuel (the number of values), which suffices
unless an aggregate contains itself, when the code does not return.
-/
namespace Koopa

mutual
/-- types.rs:28-53 `Display for TypeKind`. -/
def Ty.show : Ty → Str
  | .i32 => "i32".toList
  | .unit => "unit".toList
  | .array t n => '[' :: (t.show ++ ", ".toList ++ showNat n ++ "]".toList)
  | .ptr t => '*' :: t.show
  | .func ps r => '(' :: (Ty.shows ps ++ (if r.isUnit then ")".toList else "): ".toList ++ r.show))
/-- types.rs:37-44: the parameters, separated by commas. -/
def Ty.shows : List Ty → Str
  | [] => []
  | [t] => t.show
  | t :: ts => t.show ++ ", ".toList ++ Ty.shows ts
end

/-- values.rs:352-374 `Display for BinaryOp`. -/
def BinOp.show : BinOp → Str
  | .notEq => "ne".toList
  | .eq => "eq".toList
  | .gt => "gt".toList
  | .lt => "lt".toList
  | .ge => "ge".toList
  | .le => "le".toList
  | .add => "add".toList
  | .sub => "sub".toList
  | .mul => "mul".toList
  | .div => "div".toList
  | .mod => "mod".toList
  | .and => "and".toList
  | .or => "or".toList
  | .xor => "xor".toList
  | .shl => "shl".toList
  | .shr => "shr".toList
  | .sar => "sar".toList

/-- A text as a piece. -/
def txt (s : String) : Piece := .lit s.toList

/-- The loops `for (i, x) in xs.iter().enumerate() { if i != 0 { write!(", ") }; … }`. -/
def sepPieces : List (List Piece) → List Piece
  | [] => []
  | [x] => x
  | x :: xs => x ++ txt ", " :: sepPieces xs

/-- All or nothing. -/
def allSome {α β : Type} (f : α → Option β) : List α → Option (List β)
  | [] => some []
  | a :: as => match f a with
    | none => none
    | some b => (allSome f as).map (b :: ·)

/-- generator.rs:106-113 `value_name`, as a piece; `none` is the panic for constants. -/
def namePiece (v : Value) (d : VData) : Option Piece :=
  if d.kind.isConst then none
  else if d.kind.isGlobalAlloc then some (.global v d.name)
  else some (.value v d.name)

/-- koopa.rs:298-335: the constants without elements. -/
def constLit : VKind → Option (List Piece)
  | .integer n => some [.lit (showInt n.toInt)]
  | .zeroInit => some [txt "zeroinit"]
  | .undef => some [txt "undef"]
  | _ => none

/-- koopa.rs:298-335 `visit_global_const` and `visit_local_const`; `get` looks up values. -/
def constPieces (get : Value → Option VData) : (fuel : Nat) → VKind → Option (List Piece)
  | 0, k => constLit k
  | n + 1, k => match k with
    | .aggregate es =>
      match allSome (fun e => match get e with
        | none => none
        | some d => constPieces get n d.kind) es with
      | none => none
      | some ps => some (txt "{" :: (sepPieces ps ++ [txt "}"]))
    | k => constLit k

namespace BackKoopa

/-- koopa.rs:282-295 `visit_value`. -/
def value (p : Program) (fd : FData) (v : Value) : Option (List Piece) :=
  if isGlobal v then
    match p.values.get? v with
    | none => none
    | some d => (namePiece v d).map ([·])
  else
    match fd.dfg.values.get? v with
    | none => none
    | some d =>
      if d.kind.isConst then constPieces fd.dfg.values.get? (fd.dfg.values.entries.length + 1) d.kind
      else (namePiece v d).map ([·])

/-- koopa.rs:338-351 `visit_bb_target`. -/
def target (p : Program) (fd : FData) (b : BB) (args : List Value) : Option (List Piece) :=
  match fd.dfg.bbs.get? b with
  | none => none
  | some d => match allSome (value p fd) args with
    | none => none
    | some as => some (.bb b d.name :: (if args.isEmpty then [] else txt "(" :: (sepPieces as ++ [txt ")"])))

/-- koopa.rs:176-188, 193-279: the part of `visit_local_inst` after the definition. -/
def content (p : Program) (fd : FData) (ty : Ty) : VKind → Option (List Piece)
  | .alloc => match ty with
    | .ptr base => some [txt "alloc ", .lit base.show]
    | _ => none
  | .load src => (value p fd src).map (txt "load " :: ·)
  | .store v d => match value p fd v, value p fd d with
    | some v, some d => some (txt "store " :: (v ++ txt ", " :: d))
    | _, _ => none
  | .getPtr s i => match value p fd s, value p fd i with
    | some s, some i => some (txt "getptr " :: (s ++ txt ", " :: i))
    | _, _ => none
  | .getElemPtr s i => match value p fd s, value p fd i with
    | some s, some i => some (txt "getelemptr " :: (s ++ txt ", " :: i))
    | _, _ => none
  | .binary op l r => match value p fd l, value p fd r with
    | some l, some r => some (.lit (op.show ++ [' ']) :: (l ++ txt ", " :: r))
    | _, _ => none
  | .branch c t f ta fa => match value p fd c, target p fd t ta, target p fd f fa with
    | some c, some t, some f => some (txt "br " :: (c ++ txt ", " :: (t ++ txt ", " :: f)))
    | _, _, _ => none
  | .jump b args => (target p fd b args).map (txt "jump " :: ·)
  | .call g args => match p.funcs.get? g with
    | none => none
    | some gd => (allSome (value p fd) args).map
        (fun as => txt "call " :: .func g gd.name :: txt "(" :: (sepPieces as ++ [txt ")"]))
  | .ret none => some [txt "ret"]
  | .ret (some v) => (value p fd v).map (fun v => txt "ret" :: txt " " :: v)
  | _ => none

/-- koopa.rs:170-190 `visit_local_inst`. -/
def inst (p : Program) (fd : FData) (v : Value) : Option (List Piece) :=
  match fd.dfg.values.get? v with
  | none => none
  | some d => match (if d.ty.isUnit then some [] else (namePiece v d).map (fun n => [n, txt " = "])),
      content p fd d.ty d.kind with
    | some a, some b => some (a ++ (b ++ [txt "\n"]))
    | _, _ => none

/-- koopa.rs:102-103, 138-139: a parameter with its type. -/
def param (fd : FData) (v : Value) : Option (List Piece) :=
  match fd.dfg.values.get? v with
  | none => none
  | some d => (namePiece v d).map (fun n => [n, txt ": ", .lit d.ty.show])

/-- koopa.rs:127-150 `visit_bb`. -/
def bb (p : Program) (fd : FData) (b : BB) (is : List Value) : Option (List Piece) :=
  match fd.dfg.bbs.get? b with
  | none => none
  | some d => match allSome (param fd) d.params, allSome (inst p fd) is with
    | some ps, some is => some (.bb b d.name ::
        ((if d.params.isEmpty then [] else txt "(" :: (sepPieces ps ++ [txt ")"])) ++
          txt ":\n" :: (is.map (fun i => txt "  " :: i)).flatten))
    | _, _ => none

/-- koopa.rs:114-119: the blocks, separated by empty lines. -/
def blocks (p : Program) (fd : FData) : List (BB × List Value) → Option (List Piece)
  | [] => some []
  | [(b, is)] => bb p fd b is
  | (b, is) :: rest => match bb p fd b is, blocks p fd rest with
    | some x, some y => some (x ++ txt "\n" :: y)
    | _, _ => none

/-- koopa.rs:108-110: the return type. -/
def ret (r : Ty) : List Piece := if r.isUnit then [] else [txt ": ", .lit r.show]

/-- koopa.rs:74-124 `visit_func`. -/
def func (p : Program) (f : Func) : Option (List Piece) :=
  match p.funcs.get? f with
  | none => none
  | some fd => match fd.ty with
    | .func ts r =>
      if fd.dfg.bbs.isEmpty then
        some (txt "decl" :: txt " " :: .func f fd.name :: txt "(" :: (sepPieces (ts.map (fun t => [.lit t.show])) ++
          txt ")" :: (ret r ++ [txt "\n"])))
      else match allSome (param fd) fd.params, blocks p fd fd.layout.bbs with
        | some ps, some bs => some (txt "fun" :: txt " " :: .func f fd.name :: txt "(" :: (sepPieces ps ++
            txt ")" :: (ret r ++ txt " {\n" :: (bs ++ [txt "}\n"]))))
        | _, _ => none
    | _ => none

/-- koopa.rs:153-167 `visit_global_inst`. -/
def globalInst (p : Program) (v : Value) : Option (List Piece) :=
  match p.values.get? v with
  | none => none
  | some d => match d.kind with
    | .globalAlloc i => match p.values.get? i with
      | none => none
      | some x => match constPieces p.values.get? (p.values.entries.length + 1) x.kind with
        | none => none
        | some c => some (txt "global " :: .global v d.name :: txt " = alloc " :: .lit x.ty.show :: txt ", " :: (c ++ [txt "\n"]))
    | _ => none

/-- koopa.rs:60-69: the functions, separated by empty lines. -/
def funcs (p : Program) : List Func → Option (List Piece)
  | [] => some []
  | [f] => (func p f).map (fun x => .enter :: (x ++ [.exit]))
  | f :: rest => match func p f, funcs p rest with
    | some x, some y => some (.enter :: (x ++ .exit :: txt "\n" :: y))
    | _, _ => none

/-- koopa.rs:53-71 `visit`. -/
def visit (p : Program) : Option (List Piece) :=
  match allSome (globalInst p) p.instLayout, funcs p p.funcLayout with
  | some gs, some fs => some (gs.flatten ++ ((if p.instLayout.isEmpty then [] else [txt "\n"]) ++ fs))
  | _, _ => none

end BackKoopa

/-- generator.rs:314-318 `generate_on` of a `KoopaGenerator`: the text written and the name manager
afterwards. -/
def koopaGenerate (m : NM) (p : Program) : Option (Str × NM) :=
  match BackKoopa.visit p with
  | none => none
  | some ps => runPieces m ps

end Koopa
