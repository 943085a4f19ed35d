import Verif.Model.Back.Koopa
import Verif.Model.Layout
/-!
Model of koopa/src/back/llvm.rs: the LLVM IR generator, in the same way as the text form generator.

The users of a block are a hash set, which is iterated in an order that depends on the hashes; the order is a parameter of the model.
-/
namespace Koopa

/-- The order in which the hash sets of the users of blocks are iterated (llvm.rs:172): some arrangement of the members, for each
block. It does not change while the program is not changed. -/
structure UserOrder where
  iter : BB → List Value → List Value
  perm : ∀ b us, (iter b us).Perm us

/-- The order in which the users were added. -/
def UserOrder.added : UserOrder := ⟨fun _ us => us, fun _ us => List.Perm.refl us⟩

/-- The opposite order. -/
def UserOrder.backwards : UserOrder := ⟨fun _ us => us.reverse, fun _ us => List.reverse_perm us⟩

namespace BackLlvm

/-- llvm.rs:65-74, 153-157: the prefix for globals. -/
def globalPrefix : Prefix := .custom "@".toList "@$".toList (some 513)

/-- llvm.rs:115-119: the prefix for locals. -/
def localPrefix : Prefix := .custom "%".toList "%$".toList (some 513)

mutual
/-- llvm.rs:459-485 `visit_type`. -/
def ty : Ty → Str
  | .i32 => "i32".toList
  | .unit => "void".toList
  | .array t n => '[' :: (showNat n ++ " x ".toList ++ ty t ++ "]".toList)
  | .ptr t => ty t ++ ['*']
  | .func ps r => ty r ++ " (".toList ++ tys ps ++ ")*".toList
/-- llvm.rs:476-481: the parameters. -/
def tys : List Ty → Str
  | [] => []
  | [t] => ty t
  | t :: ts => ty t ++ ", ".toList ++ tys ts
end

/-- `if with_ty { visit_type(ty); write!(" ") }`. -/
def tyPieces (withTy : Bool) (t : Ty) : List Piece := if withTy then [.lit (ty t), txt " "] else []

/-- llvm.rs:408-451: the constants without elements. -/
def constLit (withTy : Bool) (t : Ty) : VKind → Option (List Piece)
  | .integer n => some (tyPieces withTy t ++ [.lit (showInt n.toInt)])
  | .zeroInit => some (tyPieces withTy t ++ [txt "zeroinitializer"])
  | .undef => some (tyPieces withTy t ++ [txt "undef"])
  | _ => none

/-- llvm.rs:408-451 `visit_global_const` (with `withTy = true`) and `visit_local_const`. -/
def constant (get : Value → Option VData) (withTy : Bool) : (fuel : Nat) → Ty → VKind → Option (List Piece)
  | 0, t, k => constLit withTy t k
  | n + 1, t, k => match k with
    | .aggregate es =>
      match allSome (fun e => match get e with
        | none => none
        | some x => constant get withTy n x.ty x.kind) es with
      | none => none
      | some ps => some (tyPieces withTy t ++ txt "[" :: (sepPieces ps ++ [txt "]"]))
    | k => constLit withTy t k

/-- llvm.rs:384-405 `visit_value`. -/
def value (p : Program) (fd : FData) (withTy : Bool) (v : Value) : Option (List Piece) :=
  if isGlobal v then
    match p.values.get? v with
    | none => none
    | some d => (namePiece v d).map (fun n => tyPieces withTy d.ty ++ [n])
  else
    match fd.dfg.values.get? v with
    | none => none
    | some d =>
      if d.kind.isConst then constant fd.dfg.values.get? withTy (fd.dfg.values.entries.length + 1) d.ty d.kind
      else (namePiece v d).map (fun n => tyPieces withTy d.ty ++ [n])

/-- llvm.rs:53-61, macro `value_ty!`. -/
def valueTy (p : Program) (fd : FData) (v : Value) : Option Ty :=
  if isGlobal v then (p.values.get? v).map (·.ty) else (fd.dfg.values.get? v).map (·.ty)

/-- llvm.rs:454-456 `visit_bb_ref`. -/
def bbRef (fd : FData) (b : BB) : Option Piece := (fd.dfg.bbs.get? b).map (fun d => .bb b d.name)

/-- llvm.rs:292-295: the operators that yield a truth value. -/
def isCompare : BinOp → Bool
  | .notEq | .eq | .gt | .lt | .ge | .le => true
  | _ => false

/-- llvm.rs:304-314: the operators. -/
def opName : BinOp → Str
  | .notEq => "icmp ne".toList
  | .eq => "icmp eq".toList
  | .gt => "icmp sgt".toList
  | .lt => "icmp slt".toList
  | .ge => "icmp sge".toList
  | .le => "icmp sle".toList
  | .div => "sdiv".toList
  | .mod => "srem".toList
  | .shr => "lshr".toList
  | .sar => "ashr".toList
  | op => op.show

/-- llvm.rs:221-233, 238-381: the part of `visit_local_inst` after the definition. -/
def content (p : Program) (fd : FData) (v : Value) (d : VData) : Option (List Piece) :=
  match d.kind with
  | .alloc => match d.ty with
    | .ptr base => some [txt "alloca ", .lit (ty base)]
    | _ => none
  | .load src => (value p fd true src).map (fun s => txt "load " :: .lit (ty d.ty) :: txt ", " :: s)
  | .store x y => match value p fd true x, value p fd true y with
    | some x, some y => some (txt "store " :: (x ++ txt ", " :: y))
    | _, _ => none
  | .getPtr s i => match valueTy p fd s, value p fd true s, value p fd true i with
    | some (.ptr base), some s, some i =>
      some (txt "getelementptr inbounds " :: .lit (ty base) :: txt ", " :: (s ++ txt ", " :: i))
    | _, _, _ => none
  | .getElemPtr s i => match valueTy p fd s, value p fd true s, value p fd true i with
    | some (.ptr base), some s, some i =>
      some (txt "getelementptr inbounds " :: .lit (ty base) :: txt ", " :: (s ++ txt ", i32 0, " :: i))
    | _, _, _ => none
  | .binary op l r => match namePiece v d, value p fd false l, value p fd false r with
    | some n, some l, some r =>
      let x := if isCompare op then .temp v else n
      some (x :: txt " = " :: .lit (opName op) :: txt " i32 " :: (l ++ txt ", " :: (r ++
        (if isCompare op then [txt "\n  ", n, txt " = zext i1 ", .temp v, txt " to i32"] else []))))
    | _, _, _ => none
  | .branch c t f _ _ => match value p fd false c, bbRef fd t, bbRef fd f with
    | some c, some t, some f => some (.temp v :: txt " = icmp ne i32 " :: (c ++
        [txt ", 0\n  br i1 ", .temp v, txt ", label ", t, txt ", label ", f]))
    | _, _, _ => none
  | .jump b _ => (bbRef fd b).map (fun b => [txt "br label ", b])
  | .call g args => match p.funcs.get? g with
    | none => none
    | some gd => (allSome (value p fd true) args).map (fun as =>
        txt "call " :: .lit (ty d.ty) :: txt " " :: .func g gd.name :: txt "(" :: (sepPieces as ++ [txt ")"]))
  | .ret none => some [txt "ret ", txt "void"]
  | .ret (some x) => (value p fd true x).map (txt "ret " :: ·)
  | _ => none

/-- llvm.rs:217: binary operations write the definition themselves. -/
def isBinary : VKind → Bool
  | .binary _ _ _ => true
  | _ => false

/-- llvm.rs:215-235 `visit_local_inst`. -/
def inst (p : Program) (fd : FData) (v : Value) : Option (List Piece) :=
  match fd.dfg.values.get? v with
  | none => none
  | some d => match (if !isBinary d.kind && !d.ty.isUnit then (namePiece v d).map (fun n => [n, txt " = "]) else some []),
      content p fd v d with
    | some a, some b => some (a ++ (b ++ [txt "\n"]))
    | _, _ => none

/-- llvm.rs:177-187: the argument that user `k` passes for parameter `i` of block `b`. -/
def phiArg (b : BB) (i : Nat) : VKind → Option Value
  | .branch _ t _ ta fa => if t = b then ta[i]? else fa[i]?
  | .jump _ as => as[i]?
  | _ => none

/-- llvm.rs:176-190: one incoming pair of a phi node. -/
def incoming (p : Program) (fd : FData) (b : BB) (i : Nat) (u : Value) : Option (List Piece) :=
  match fd.dfg.values.get? u with
  | none => none
  | some d => match phiArg b i d.kind with
    | none => none
    | some a => match value p fd false a, fd.layout.parentBb u with
      | some x, some c => (bbRef fd c).map (fun c => txt "[" :: (x ++ [txt ", ", c, txt "]"]))
      | _, _ => none

/-- llvm.rs:167-193: the phi node of parameter `v` with index `i`. -/
def phi (p : Program) (fd : FData) (b : BB) (users : List Value) (i : Nat) (v : Value) : Option (List Piece) :=
  match fd.dfg.values.get? v with
  | none => none
  | some d => match namePiece v d, allSome (incoming p fd b i) users with
    | some n, some us => some (txt "  " :: n :: txt " = phi " :: .lit (ty d.ty) :: txt " " :: (sepPieces us ++ [txt "\n"]))
    | _, _ => none

/-- llvm.rs:167: the loop over the parameters. -/
def phis (p : Program) (fd : FData) (b : BB) (users : List Value) : (i : Nat) → List Value → Option (List Piece)
  | _, [] => some []
  | i, v :: vs => match phi p fd b users i v, phis p fd b users (i + 1) vs with
    | some x, some y => some (x ++ y)
    | _, _ => none

/-- llvm.rs:162-200 `visit_bb`. -/
def bb (o : UserOrder) (p : Program) (fd : FData) (b : BB) (is : List Value) : Option (List Piece) :=
  match fd.dfg.bbs.get? b with
  | none => none
  | some d => match phis p fd b (o.iter b d.usedBy) 0 d.params, allSome (inst p fd) is with
    | some ps, some is => some (.label b d.name :: txt ":\n" :: (ps ++ (is.map (fun i => txt "  " :: i)).flatten))
    | _, _ => none

/-- llvm.rs:142-147: the blocks, separated by empty lines. -/
def blocks (o : UserOrder) (p : Program) (fd : FData) : List (BB × List Value) → Option (List Piece)
  | [] => some []
  | [(b, is)] => bb o p fd b is
  | (b, is) :: rest => match bb o p fd b is, blocks o p fd rest with
    | some x, some y => some (x ++ txt "\n" :: y)
    | _, _ => none

/-- llvm.rs:133-135: a parameter with its type. -/
def param (fd : FData) (v : Value) : Option (List Piece) :=
  match fd.dfg.values.get? v with
  | none => none
  | some d => (namePiece v d).map (fun n => [.lit (ty d.ty), txt " ", n])

/-- llvm.rs:96-159 `visit_func`. -/
def func (o : UserOrder) (p : Program) (f : Func) : Option (List Piece) :=
  match p.funcs.get? f with
  | none => none
  | some fd => match fd.ty with
    | .func ts r =>
      if fd.dfg.bbs.isEmpty then
        some (txt "declare" :: txt " " :: .lit (ty r) :: txt " " :: .func f fd.name :: txt "(" :: .setPrefix localPrefix ::
          (sepPieces (ts.map (fun t => [.lit (ty t)])) ++ [txt ")", txt "\n", .setPrefix globalPrefix]))
      else match allSome (param fd) fd.params, blocks o p fd fd.layout.bbs with
        | some ps, some bs => some (txt "define" :: txt " " :: .lit (ty r) :: txt " " :: .func f fd.name :: txt "(" ::
            .setPrefix localPrefix :: (sepPieces ps ++ txt ")" :: txt " {\n" :: (bs ++ [txt "}\n", .setPrefix globalPrefix])))
        | _, _ => none
    | _ => none

/-- llvm.rs:203-212 `visit_global_inst`. -/
def globalInst (p : Program) (v : Value) : Option (List Piece) :=
  match p.values.get? v with
  | none => none
  | some d => match d.kind with
    | .globalAlloc i => match p.values.get? i with
      | none => none
      | some x => match constant p.values.get? true (p.values.entries.length + 1) x.ty x.kind with
        | none => none
        | some c => some (.global v d.name :: txt " = global " :: (c ++ [txt "\n"]))
    | _ => none

/-- llvm.rs:82-91: the functions, separated by empty lines. -/
def funcs (o : UserOrder) (p : Program) : List Func → Option (List Piece)
  | [] => some []
  | [f] => (func o p f).map (fun x => .enter :: (x ++ [.exit]))
  | f :: rest => match func o p f, funcs o p rest with
    | some x, some y => some (.enter :: (x ++ .exit :: txt "\n" :: y))
    | _, _ => none

/-- llvm.rs:68-93 `visit`. -/
def visit (o : UserOrder) (p : Program) : Option (List Piece) :=
  match allSome (globalInst p) p.instLayout, funcs o p p.funcLayout with
  | some gs, some fs => some (.setPrefix globalPrefix :: (gs.flatten ++ ((if p.instLayout.isEmpty then [] else [txt "\n"]) ++ fs)))
  | _, _ => none

end BackLlvm

/-- generator.rs:314-318 `generate_on` of an `LlvmGenerator`. -/
def llvmGenerate (o : UserOrder) (m : NM) (p : Program) : Option (Str × NM) :=
  match BackLlvm.visit o p with
  | none => none
  | some ps => runPieces m ps

end Koopa
