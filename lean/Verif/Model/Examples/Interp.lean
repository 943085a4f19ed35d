import Verif.Model.Layout
import Verif.Model.Dfg
/-!
Model of koopa/examples/interpreter/interpreter.rs.

Simplifications. Memory: an address is the name of an object (a global, or the `n`-th execution of an
`alloc` in one activation of a function) and a path of array indices; the numeric address is not
modelled. Overwriting an array keeps pointers to its elements valid, while in the code they dangle.
External functions (ext_funcs.rs) and memory behind pointers that they return are a parameter `Lib`; they do
not reach the objects of the interpreter. Stack overflow is not modelled.
The maps of values (`vars`, `vals`) are keyed by the address of the value data in the code, which
identifies the function and the handle.
-/
namespace Koopa.Interp

/-- The name of an object in memory. -/
inductive Obj where
  | glob (v : Value)
  | loc (act : Nat) (inst : Value) (n : Nat)
deriving DecidableEq, Repr

/-- interpreter.rs:413-426 `Val`. The pointer of a `Pointer` is an object and a path into it. -/
inductive Val where
  | undef
  | int (n : I32)
  | array (l : List Val)
  | ptr (p : Option (Obj × List Nat)) (index len : Nat)
  | unsafePtr (p : Option Nat)
deriving Repr

/-- The outcome of a run: a value, `Err` (with the state of the external world), a panic or undefined
behaviour, or the recursion bound was reached. -/
inductive Out (σ α : Type) where
  | done (a : α)
  | err (w : σ)
  | bad
  | fuel
deriving Repr

def Out.bind {σ α β : Type} : Out σ α → (α → Out σ β) → Out σ β
  | .done a, k => k a
  | .err w, _ => .err w
  | .bad, _ => .bad
  | .fuel, _ => .fuel

/-- `unwrap` and the like: a panic if there is no value. -/
def Out.unwrap {σ α : Type} : Option α → Out σ α
  | some a => .done a
  | none => .bad

/-- Values that mention no object of the interpreter. Whatever comes from outside is such a value:
ext_funcs.rs:120-127 `usize_to_val` and interpreter.rs:446-468 `load_from_unsafe_ptr` build integers, external pointers and
arrays of them. -/
inductive External : Val → Prop where
  | undef : External .undef
  | int (n : I32) : External (.int n)
  | array {l : List Val} : (∀ x ∈ l, External x) → External (.array l)
  | unsafePtr (q : Option Nat) : External (.unsafePtr q)

/-- The external world (ext_funcs.rs): calls by name, type and arguments, and the memory behind external
pointers. `none` is `Err`. -/
structure Lib (σ : Type) where
  call : Str → Ty → List Val → σ → Option (Val × σ)
  load : Nat → Ty → σ → Val
  store : Nat → Ty → Val → σ → Option σ
  callExt : ∀ n t xs w x w', call n t xs w = some (x, w') → External x
  loadExt : ∀ a t w, External (load a t w)

/-- What outlives a function: memory, the number of activations so far, the world. -/
structure St (σ : Type) where
  mem : Obj → Option Val
  acts : Nat
  world : σ

/-- interpreter.rs:397-401 `Environment`; `act` names the activation, `allocs` lists the executed allocations. -/
structure Frame where
  func : FData
  act : Nat
  vals : Value → Option Val
  allocs : List Value

/-- interpreter.rs:385-387 `insert_val`. -/
def Frame.set (fr : Frame) (v : Value) (x : Val) : Frame :=
  { fr with vals := fun w => if w = v then some x else fr.vals w }

/-- interpreter.rs:137-146 `new_zeroinit`; `none` is the panic. -/
def zeroInit : Ty → Option Val
  | .i32 => some (.int 0)
  | .array base len => (zeroInit base).bind (fun x => some (.array (List.replicate len x)))
  | .ptr _ => some (.ptr none 0 0)
  | _ => none

/-- `collect` of the elements of an aggregate. -/
def collect {α β : Type} (f : α → Option β) : List α → Option (List β)
  | [] => some []
  | a :: as => match f a with
    | none => none
    | some b => (collect f as).map (b :: ·)

/-- interpreter.rs:107-120 `eval_global_const` and 122-135 `eval_local_const`: `look` finds the data of a
handle. `none` is a panic, or the recursion bound. -/
def evalConst (look : Value → Option VData) : Nat → VData → Option Val
  | 0, _ => none
  | n + 1, d => match d.kind with
    | .integer i => some (.int i)
    | .zeroInit => zeroInit d.ty
    | .undef => some .undef
    | .aggregate es => (collect (fun e => (look e).bind (evalConst look n)) es).map .array
    | _ => none

/-- What is fixed during a run: the program, the pointers to the global variables (`vars`), a bound on
the nesting of constants, the size of a pointer (types.rs:60) and whether overflow checks are compiled
in (the default of debug builds). -/
structure Rt where
  prog : Program
  vars : Value → Option Val
  depth : Nat
  ptrSize : Nat
  chk : Bool

/-- interpreter.rs:363-383 `eval_value`. -/
def evalValue (rt : Rt) (fr : Frame) (v : Value) : Option Val :=
  if isGlobal v then
    match rt.prog.values.get? v with
    | none => none
    | some d => if d.kind.isConst then none else rt.vars v
  else
    match fr.func.dfg.values.get? v with
    | none => none
    | some d =>
      if d.kind.isConst then evalConst fr.func.dfg.values.get? rt.depth d else fr.vals v

/-- The element of a value that a path leads to. -/
def Val.at : Val → List Nat → Option Val
  | x, [] => some x
  | .array l, i :: is => match l[i]? with
    | none => none
    | some x => x.at is
  | _, _ :: _ => none

/-- Replaces the element of a value that a path leads to. -/
def Val.put (y : Val) : Val → List Nat → Option Val
  | _, [] => some y
  | .array l, i :: is => match l[i]? with
    | none => none
    | some x => (Val.put y x is).map (fun x' => .array (l.set i x'))
  | _, _ :: _ => none

/-- Reading an address; `none` is undefined behaviour. -/
def readMem (m : Obj → Option Val) (a : Obj × List Nat) : Option Val := (m a.1).bind (·.at a.2)

/-- Writing to an address; `none` is undefined behaviour. -/
def writeMem (m : Obj → Option Val) (a : Obj × List Nat) (y : Val) : Option (Obj → Option Val) :=
  match m a.1 with
  | none => none
  | some x => (Val.put y x a.2).map (fun x' o => if o = a.1 then some x' else m o)

/-- interpreter.rs:148-170 `get_pointer`; the inner `none` is `Err`. `size` is only used for
external pointers. -/
def getPointer (src : Val) (offset : Int) (size : Nat) : Option (Option Val) :=
  match src with
  | .ptr p index len =>
    let new := (index : Int) + offset
    if 0 ≤ new ∧ new < len then
      some (some (.ptr (p.map (fun a => (a.1, a.2.dropLast ++ [new.toNat]))) new.toNat len))
    else some none
  | .unsafePtr q => some (some (.unsafePtr (q.map (fun a => ((a : Int) + size * offset).toNat))))
  | _ => none

/-- The result of an `i32` operation whose mathematical value is `x`: with overflow checks a value out of range
panics, without them it wraps around. -/
def checked (chk : Bool) (x : Int) : Option I32 :=
  if chk ∧ (BitVec.ofInt 32 x).toInt ≠ x then none else some (BitVec.ofInt 32 x)

/-- The shift amount: with overflow checks it has to be in range, without them it is taken modulo 32. -/
def shiftBy (chk : Bool) (r : I32) : Option Nat :=
  if chk ∧ ¬ r.toNat < 32 then none else some (r.toNat % 32)

def ofBool (b : Bool) : I32 := if b then 1 else 0

/-- interpreter.rs:309-328 `eval_binary`: the operation on two integers. `none` is a panic. -/
def evalOp (chk : Bool) (op : BinOp) (l r : I32) : Option I32 :=
  match op with
  | .notEq => some (ofBool (l != r))
  | .eq => some (ofBool (l == r))
  | .gt => some (ofBool (decide (r.toInt < l.toInt)))
  | .lt => some (ofBool (decide (l.toInt < r.toInt)))
  | .ge => some (ofBool (decide (r.toInt ≤ l.toInt)))
  | .le => some (ofBool (decide (l.toInt ≤ r.toInt)))
  | .add => checked chk (l.toInt + r.toInt)
  | .sub => checked chk (l.toInt - r.toInt)
  | .mul => checked chk (l.toInt * r.toInt)
  | .div => if r = 0 then none else checked true (l.toInt.tdiv r.toInt)
  | .mod => if r = 0 ∨ (l = BitVec.intMin 32 ∧ r = -1) then none else some (BitVec.ofInt 32 (l.toInt.tmod r.toInt))
  | .and => some (l &&& r)
  | .or => some (l ||| r)
  | .xor => some (l ^^^ r)
  | .shl => (shiftBy chk r).map (fun n => l <<< n)
  | .shr => (shiftBy chk r).map (fun n => l >>> n)
  | .sar => (shiftBy chk r).map (fun n => l.sshiftRight n)

/-- interpreter.rs:470-472 `as_bool`. -/
def Val.asBool : Val → Bool
  | .int n => n != 0
  | _ => false

/-- interpreter.rs:389-394 `update_bb_params`: one parameter after the other. -/
def updateParams (rt : Rt) : Frame → List (Value × Value) → Option Frame
  | fr, [] => some fr
  | fr, (param, arg) :: rest =>
    match fr.func.dfg.values.get? param with
    | none => none
    | some _ => match evalValue rt fr arg with
      | none => none
      | some x => updateParams rt (fr.set param x) rest

/-- interpreter.rs:389-390: the parameters of the block. -/
def passArgs (rt : Rt) (fr : Frame) (bb : BB) (args : List Value) : Option Frame :=
  match fr.func.dfg.bbs.get? bb with
  | none => none
  | some b => updateParams rt fr (b.params.zip args)

/-- The size of what a pointer points to, types.rs:127-134. -/
def pointeeSize (ptrSize : Nat) : Ty → Option Nat
  | .ptr base => some (base.size ptrSize)
  | _ => none

section
variable {σ : Type} (lib : Lib σ) (rt : Rt)

/-- interpreter.rs:222-234 `eval_alloc`. -/
def evalAlloc (fr : Frame) (st : St σ) (v : Value) (d : VData) : Out σ (Frame × St σ) :=
  match d.ty with
  | .ptr base => match zeroInit base with
    | none => .bad
    | some x =>
      let o := Obj.loc fr.act v (fr.allocs.count v)
      .done ({ fr with allocs := v :: fr.allocs }.set v (.ptr (some (o, [])) 0 0),
        { st with mem := fun o' => if o' = o then some x else st.mem o' })
  | _ => .bad

/-- interpreter.rs:236-245 `eval_load`. -/
def evalLoad (fr : Frame) (st : St σ) (v : Value) (d : VData) (src : Value) : Out σ (Frame × St σ) :=
  match evalValue rt fr src with
  | some (.ptr (some a) _ _) => match readMem st.mem a with
    | some x => .done (fr.set v x, st)
    | none => .bad
  | some (.unsafePtr (some a)) => .done (fr.set v (lib.load a d.ty st.world), st)
  | some (.ptr none _ _) | some (.unsafePtr none) => .err st.world
  | _ => .bad

/-- interpreter.rs:247-256 `eval_store`. -/
def evalStore (fr : Frame) (st : St σ) (value dest : Value) : Out σ (Frame × St σ) :=
  match evalValue rt fr value with
  | none => .bad
  | some x => match evalValue rt fr dest with
    | some (.ptr (some a) _ _) => match writeMem st.mem a x with
      | some m => .done (fr, { st with mem := m })
      | none => .bad
    | some (.ptr none _ _) => .err st.world
    | some (.unsafePtr q) => match fr.func.dfg.values.get? value with
      | none => .bad
      | some d => match q with
        | none => .err st.world
        | some a => match lib.store a d.ty x st.world with
          | none => .err st.world
          | some w => .done (fr, { st with world := w })
    | _ => .bad

/-- interpreter.rs:258-272 `eval_getptr`. -/
def evalGetPtr (fr : Frame) (st : St σ) (v : Value) (d : VData) (src index : Value) : Out σ (Frame × St σ) :=
  match evalValue rt fr index with
  | some (.int i) => match pointeeSize rt.ptrSize d.ty with
    | none => .bad
    | some size => match evalValue rt fr src with
      | none => .bad
      | some x => match getPointer x i.toInt size with
        | none => .bad
        | some none => .err st.world
        | some (some y) => .done (fr.set v y, st)
  | _ => .bad

/-- interpreter.rs:274-299 `eval_getelemptr`. -/
def evalGetElemPtr (fr : Frame) (st : St σ) (v : Value) (d : VData) (src index : Value) :
    Out σ (Frame × St σ) :=
  match evalValue rt fr index with
  | some (.int i) => match pointeeSize rt.ptrSize d.ty with
    | none => .bad
    | some size => match evalValue rt fr src with
      | some (.ptr (some a) _ _) => match readMem st.mem a with
        | some (.array l) => match getPointer (.ptr (some (a.1, a.2 ++ [0])) 0 l.length) i.toInt size with
          | none => .bad
          | some none => .err st.world
          | some (some y) => .done (fr.set v y, st)
        | _ => .bad
      | some (.ptr none _ _) => .err st.world
      | some (.unsafePtr q) => match getPointer (.unsafePtr q) i.toInt size with
        | some (some y) => .done (fr.set v y, st)
        | _ => .bad
      | _ => .bad
  | _ => .bad

/-- interpreter.rs:301-330 `eval_binary`. -/
def evalBinary (fr : Frame) (st : St σ) (v : Value) (op : BinOp) (lhs rhs : Value) : Out σ (Frame × St σ) :=
  match evalValue rt fr lhs, evalValue rt fr rhs with
  | some (.int l), some (.int r) => match evalOp rt.chk op l r with
    | none => .bad
    | some n => .done (fr.set v (.int n), st)
  | _, _ => .bad

/-- interpreter.rs:201-220 `eval_bb`: the loop over the instructions, with 332-361. `call` runs a function, `go` a block. -/
def evalInsts (call : Func → List Val → St σ → Out σ (Val × St σ))
    (go : BB → Frame → St σ → Out σ (Val × St σ)) : List Value → Frame → St σ → Out σ (Val × St σ)
  | [], _, _ => .bad
  | v :: vs, fr, st =>
    match fr.func.dfg.values.get? v with
    | none => .bad
    | some d => match d.kind with
      | .alloc => (evalAlloc fr st v d).bind (fun (fr, st) => evalInsts call go vs fr st)
      | .load src => (evalLoad lib rt fr st v d src).bind (fun (fr, st) => evalInsts call go vs fr st)
      | .store value dest => (evalStore lib rt fr st value dest).bind (fun (fr, st) => evalInsts call go vs fr st)
      | .getPtr src index => (evalGetPtr rt fr st v d src index).bind (fun (fr, st) =>
          evalInsts call go vs fr st)
      | .getElemPtr src index => (evalGetElemPtr rt fr st v d src index).bind (fun (fr, st) =>
          evalInsts call go vs fr st)
      | .binary op lhs rhs => (evalBinary rt fr st v op lhs rhs).bind (fun (fr, st) =>
          evalInsts call go vs fr st)
      | .call callee args => match collect (evalValue rt fr) args with
        | none => .bad
        | some xs => (call callee xs st).bind (fun (x, st) => evalInsts call go vs (fr.set v x) st)
      | .branch cond t f ts fs => match evalValue rt fr cond with
        | none => .bad
        | some c =>
          if c.asBool then (Out.unwrap (passArgs rt fr t ts)).bind (fun fr => go t fr st)
          else (Out.unwrap (passArgs rt fr f fs)).bind (fun fr => go f fr st)
      | .jump t args => (Out.unwrap (passArgs rt fr t args)).bind (fun fr => go t fr st)
      | .ret none => .done (.undef, st)
      | .ret (some r) => (Out.unwrap (evalValue rt fr r)).bind (fun x => .done (x, st))
      | _ => .bad

/-- interpreter.rs:182-190: the parameters and their values. -/
def bindParams : List (Value × Val) → Value → Option Val
  | [], _ => none
  | (v, x) :: l, w => if w = v then some x else bindParams l w

/-- interpreter.rs:172-199 `eval_func`; `go` runs a block. The objects of the activation are gone
afterwards. -/
def evalFunc (p : Program) (go : BB → Frame → St σ → Out σ (Val × St σ)) (f : Func) (args : List Val) (st : St σ) :
    Out σ (Val × St σ) :=
  match p.funcs.get? f with
  | none => .bad
  | some fd => match fd.ty with
    | .func params _ =>
      if params.length ≠ args.length then .bad
      else match fd.layout.bbs with
        | [] => match lib.call fd.name fd.ty args st.world with
          | none => .err st.world
          | some (x, w) => .done (x, { st with world := w })
        | (entry, _) :: _ =>
          (go entry { func := fd, act := st.acts, vals := bindParams (fd.params.zip args), allocs := [] }
            { st with acts := st.acts + 1 }).bind (fun (x, st') =>
              .done (x, { st' with mem := fun o => match o with
                | .loc a _ _ => if a = st.acts then none else st'.mem o
                | _ => st'.mem o }))
    | _ => .bad

/-- interpreter.rs:201-220 `eval_bb` with a bound on the depth of the recursion. -/
def evalBb : Nat → BB → Frame → St σ → Out σ (Val × St σ)
  | 0, _, _, _ => .fuel
  | n + 1, bb, fr, st => match fr.func.layout.insts? bb with
    | none => .bad
    | some is => evalInsts lib rt (evalFunc lib rt.prog (evalBb n)) (evalBb n) is fr st

end

/-- interpreter.rs:75-89: the global variables. -/
def initGlobals (p : Program) (depth : Nat) : List Value → (Obj → Option Val) → (Value → Option Val) →
    Option ((Obj → Option Val) × (Value → Option Val))
  | [], m, vars => some (m, vars)
  | v :: vs, m, vars => match p.values.get? v with
    | none => none
    | some d => match d.kind with
      | .globalAlloc init => match p.values.get? init with
        | none => none
        | some i => match evalConst p.values.get? depth i with
          | none => none
          | some x => initGlobals p depth vs (fun o => if o = .glob v then some x else m o)
              (fun w => if w = v then some (.ptr (some (.glob v, [])) 0 0) else vars w)
      | _ => none

/-- interpreter.rs:90-97: the first function called `@main` in the iteration order `ord` of the map of functions. -/
def findMain (p : Program) (ord : List Func) : Option Func :=
  ord.find? (fun f => match p.funcs.get? f with
    | none => false
    | some fd => fd.name == "@main".toList)

/-- interpreter.rs:74-105 `interpret`, with a bound on the recursion. `ord` is the iteration order of the map
of functions. -/
def interpret {σ : Type} (lib : Lib σ) (chk : Bool) (depth ptrSize fuel : Nat) (ord : List Func) (p : Program)
    (w : σ) : Out σ (I32 × σ) :=
  match initGlobals p depth p.instLayout (fun _ => none) (fun _ => none) with
  | none => .bad
  | some (m, vars) => match findMain p ord with
    | none => .err w
    | some f => (evalFunc lib p (evalBb lib { prog := p, vars, depth, ptrSize, chk } fuel) f [] { mem := m, acts := 0, world := w }).bind
        (fun (x, st) => match x with
          | .int n => .done (n, st.world)
          | _ => .err st.world)

end Koopa.Interp
