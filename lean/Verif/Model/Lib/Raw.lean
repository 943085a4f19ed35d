import Verif.Model.Lib.Ffi
/-!
Model of the raw representation for C: libkoopa/src/raw/entities.rs, builder.rs and generator.rs.

A raw pointer to the data of a value, block or function is written as the handle the data was made for: the
builder keeps one box per handle (builder.rs:20-22), and boxes do not move. The memory behind the pointers is
the state of the builder. `none` is a panic or, in the recursive functions, the bound on the recursion depth;
reading through a pointer to nothing, undefined in the code, is `none` as well.

Simplifications: raw types are the types themselves and raw strings the strings themselves, so that the tables
of types and strings (builder.rs:18-19) disappear; a string with a NUL character still panics. `used_by` sets
are listed in the order of the model.
-/
namespace Koopa.Raw
open Lib (Code)

/-- entities.rs:17-28 `RawSliceItemKind`. -/
inductive ItemKind where
  | unknown
  | type
  | function
  | basicBlock
  | value
deriving DecidableEq, Repr

/-- entities.rs:6-13 `RawSlice`: what the buffer holds, the length and the kind. -/
structure Slice where
  buffer : List Nat
  len : Nat
  kind : ItemKind
deriving DecidableEq, Repr

/-- builder.rs:104-109: the length is converted to `u32`. -/
def Slice.of (kind : ItemKind) (l : List Nat) : Slice := { buffer := l, len := l.length % 2 ^ 32, kind }

/-- builder.rs:83-91 `RawSlice::default`. -/
def Slice.default : Slice := { buffer := [], len := 0, kind := .unknown }

/-- entities.rs:109-144 `RawValueKind` with 146-303. -/
inductive Kind where
  | integer (value : I32)
  | zeroInit
  | undef
  | aggregate (elems : Slice)
  | funcArgRef (index : Nat)
  | blockArgRef (index : Nat)
  | alloc
  | globalAlloc (init : Value)
  | load (src : Value)
  | store (value dest : Value)
  | getPtr (src index : Value)
  | getElemPtr (src index : Value)
  | binary (op : BinOp) (lhs rhs : Value)
  | branch (cond : Value) (trueBb falseBb : BB) (trueArgs falseArgs : Slice)
  | jump (target : BB) (args : Slice)
  | call (callee : Func) (args : Slice)
  | ret (value : Option Value)
deriving DecidableEq, Repr

/-- entities.rs:96-105 `RawValueData`. -/
structure RVal where
  ty : Ty
  name : Option Str
  usedBy : Slice
  kind : Kind
deriving Repr

/-- entities.rs:80-89 `RawBasicBlockData`. -/
structure RBlock where
  name : Option Str
  params : Slice
  usedBy : Slice
  insts : Slice
deriving Repr

/-- entities.rs:64-73 `RawFunctionData`. -/
structure RFunc where
  ty : Ty
  name : Option Str
  params : Slice
  bbs : Slice
deriving Repr

/-- builder.rs:16-23 `RawProgramBuilder`. A box without contents is one that is not initialised yet. -/
structure Builder where
  funcs : Map Func (Option RFunc)
  bbs : Map BB (Option RBlock)
  vals : Map Value (Option RVal)

/-- builder.rs:27-29 `RawProgramBuilder::new`. -/
def Builder.new : Builder := { funcs := .empty, bbs := .empty, vals := .empty }

/-- entities.rs:50-57 `RawProgram`. -/
structure RawProgram where
  values : Slice
  funcs : Slice
deriving Repr

/-! ### From programs to raw programs -/

/-- What is built: a value, a block or a function. -/
inductive Item where
  | val (v : Value)
  | bb (b : BB)
  | func (f : Func)
deriving DecidableEq, Repr

/-- The builder together with `value_used_by` of builder.rs:69. -/
structure BSt where
  b : Builder
  used : Map Value (List Value)

/-- builder.rs:126-158: strings; `CString::new` refuses a NUL character. -/
def cstr : Option Str → Option (Option Str)
  | none => some none
  | some n => if '\x00' ∈ n then none else some (some n)

/-- builder.rs:312-505: the raw form of a kind. -/
def Kind.of : VKind → Kind
  | .integer v => .integer v
  | .zeroInit => .zeroInit
  | .undef => .undef
  | .aggregate es => .aggregate (.of .value es)
  | .funcArgRef i => .funcArgRef i
  | .blockArgRef i => .blockArgRef i
  | .alloc => .alloc
  | .globalAlloc i => .globalAlloc i
  | .load s => .load s
  | .store v d => .store v d
  | .getPtr s i => .getPtr s i
  | .getElemPtr s i => .getElemPtr s i
  | .binary op l r => .binary op l r
  | .branch c t f ta fa => .branch c t f (.of .value ta) (.of .value fa)
  | .jump t as => .jump t (.of .value as)
  | .call g as => .call g (.of .value as)
  | .ret v => .ret v

/-- builder.rs:312-505: what the kind refers to, in the order in which it is built. -/
def kindItems : VKind → List Item
  | .aggregate es => es.map .val
  | .globalAlloc i => [.val i]
  | .load s => [.val s]
  | .store v d => [.val v, .val d]
  | .getPtr s i => [.val s, .val i]
  | .getElemPtr s i => [.val s, .val i]
  | .binary _ l r => [.val l, .val r]
  | .branch c t f ta fa => [.val c, .bb t, .bb f] ++ ta.map .val ++ fa.map .val
  | .jump t as => .bb t :: as.map .val
  | .call g as => .func g :: as.map .val
  | .ret (some v) => [.val v]
  | _ => []

/-- builder.rs:94-112: builds the items one after the other. -/
def buildAll (one : Item → BSt → Option BSt) : List Item → BSt → Option BSt
  | [], s => some s
  | i :: is, s => match one i s with
    | none => none
    | some s => buildAll one is s

/-- The data that `Value::build` works on, builder.rs:273-283. -/
def valueData (p : Program) (cur : Option FData) (v : Value) : Option VData :=
  if isGlobal v then p.values.get? v else cur.bind (·.dfg.values.get? v)

/-- builder.rs:193-310 `build` of functions, blocks and values; `cur` is `cur_func` of builder.rs:67. The
field `cur_bb` always is the block that is being built. -/
def build (p : Program) : Nat → Option FData → Item → BSt → Option BSt
  | 0, _, _, _ => none
  | n + 1, cur, .val v, s =>
    if s.b.vals.contains v then some s
    else
      let s := { s with b := { s.b with vals := s.b.vals.insert v none } }
      match valueData p cur v with
      | none => none
      | some x => match cstr x.name with
        | none => none
        | some name => match buildAll (build p n cur) (kindItems x.kind) s with
          | none => none
          | some s => some {
              b := { s.b with vals := s.b.vals.insert v (some { ty := x.ty, name, usedBy := .default, kind := .of x.kind }) }
              used := s.used.insert v x.usedBy }
  | n + 1, cur, .bb b, s =>
    if s.b.bbs.contains b then some s
    else
      let s := { s with b := { s.b with bbs := s.b.bbs.insert b none } }
      match cur with
      | none => none
      | some fd => match fd.dfg.bbs.get? b with
        | none => none
        | some x => match cstr x.name with
          | none => none
          | some name => match buildAll (build p n cur) (x.params.map .val ++ x.usedBy.map .val) s with
            | none => none
            | some s => match fd.layout.insts? b with
              | none => none
              | some is => match buildAll (build p n cur) (is.map .val) s with
                | none => none
                | some s => some { s with b := { s.b with bbs := s.b.bbs.insert b (some
                    { name, params := .of .value x.params, usedBy := .of .value x.usedBy, insts := .of .value is }) } }
  | n + 1, _, .func f, s =>
    if s.b.funcs.contains f then some s
    else
      let s := { s with b := { s.b with funcs := s.b.funcs.insert f none } }
      match p.funcs.get? f with
      | none => none
      | some fd => match cstr (some fd.name) with
        | none => none
        | some name =>
          match buildAll (build p n (some fd)) (fd.params.map .val ++ fd.layout.bbs.map (fun q => .bb q.1)) s with
          | none => none
          | some s => some { s with b := { s.b with funcs := s.b.funcs.insert f (some
              { ty := fd.ty, name, params := .of .value fd.params, bbs := .of .basicBlock (fd.layout.bbs.map (·.1)) }) } }

/-- builder.rs:39-59: fills in the users. Every value of the builder must have been built by this call, and so
must its users. -/
def fillUsers (used : Map Value (List Value)) : List Value → Builder → Option Builder
  | [], b => some b
  | v :: vs, b => match used.get? v with
    | none => none
    | some us =>
      if us.all (fun u => b.vals.contains u) then
        match b.vals.get? v with
        | some (some r) => fillUsers used vs { b with vals := b.vals.insert v (some { r with usedBy := .of .value us }) }
        | _ => none
      else none

/-- builder.rs:32-61 `build_on`; `n` bounds the depth of the recursion. -/
def buildRaw (n : Nat) (b : Builder) (p : Program) : Option (Builder × RawProgram) :=
  match buildAll (build p n none) (p.instLayout.map .val ++ p.funcLayout.map .func) { b, used := .empty } with
  | none => none
  | some s => match fillUsers s.used s.b.vals.keys s.b with
    | none => none
    | some b => some (b, { values := .of .value p.instLayout, funcs := .of .function p.funcLayout })

/-! ### From raw programs to programs -/

/-- generator.rs:52-56 `FunctionInfo`. -/
structure FuncInfo where
  func : Func
  bbs : Map BB BB
  values : Map Value Value

/-- generator.rs:24-28 `ProgramInfo` with the program under construction. -/
structure GSt where
  prog : Program
  values : Map Value Value
  funcs : Map Func FuncInfo
  cur : Option Func

/-- Computations of the generator: a panic, an error code, or a result. -/
def Gen (α : Type) := GSt → Option (Except Code (α × GSt))

namespace Gen

def bind {α β : Type} (m : Gen α) (k : α → Gen β) : Gen β := fun s => match m s with
  | none => none
  | some (.error e) => some (.error e)
  | some (.ok (a, s)) => k a s

instance : Monad Gen where
  pure a := fun s => some (.ok (a, s))
  bind := bind

/-- A panic. -/
def panic {α : Type} : Gen α := fun _ => none

/-- `Err(c)`. -/
def fail {α : Type} (c : Code) : Gen α := fun _ => some (.error c)

/-- The state. -/
def get : Gen GSt := fun s => some (.ok (s, s))

/-- A change of the state. -/
def modify (f : GSt → GSt) : Gen Unit := fun s => some (.ok ((), f s))

/-- A value that has to be there. -/
def need {α : Type} : Option α → Gen α
  | some a => pure a
  | none => panic

/-- A call of an API method that returns a handle. -/
def api {α : Type} (op : Program → Option (Program × α)) : Gen α := fun s => match op s.prog with
  | none => none
  | some (p, a) => some (.ok (a, { s with prog := p }))

/-- A call of an API method. -/
def api' (op : Program → Option Program) : Gen Unit := fun s => match op s.prog with
  | none => none
  | some p => some (.ok ((), { s with prog := p }))

/-- A loop that collects results, generator.rs:104-109. -/
def each {α β : Type} (f : α → Gen β) : List α → Gen (List β)
  | [] => pure []
  | a :: as => do
    let b ← f a
    let bs ← each f as
    pure (b :: bs)

end Gen

/-- generator.rs:125-173: the items of a slice, which must be of the expected kind. -/
def Slice.read (s : Slice) (kind : ItemKind) : Gen (List Nat) :=
  if s.kind = kind then pure (s.buffer.take s.len) else Gen.fail .rawSliceItemKindMismatch

/-- Reading through a raw pointer. -/
def deref {α : Type} (m : Map Nat (Option α)) (a : Nat) : Gen α := Gen.need ((m.get? a).bind id)

/-- generator.rs:41-43 `cur_func_info`. -/
def curInfo : Gen (Func × FuncInfo) := do
  let s ← Gen.get
  match s.cur with
  | none => Gen.panic
  | some f => do
    let i ← Gen.need (s.funcs.get? f)
    pure (f, i)

/-- generator.rs:70-77 macro `builder!`. -/
def newLocal (i : LocalInst) : Gen Value := do
  let (_, info) ← curInfo
  Gen.api (·.newLocal info.func i)

/-- generator.rs:80-90 macro `build_value!`. -/
def newValue (i : ValInst) : Gen Value := do
  let s ← Gen.get
  match s.cur with
  | none => Gen.api (·.newGlobal (.val i))
  | some _ => newLocal (.val i)

/-- generator.rs:329-335: a value that was generated before. -/
def findVal (v : Value) : Gen (Option Value) := do
  let s ← Gen.get
  match s.values.get? v with
  | some w => pure (some w)
  | none => match s.cur with
    | none => pure none
    | some _ => do
      let (_, info) ← curInfo
      pure (info.values.get? v)

/-- generator.rs:369-379: names the value and remembers it. -/
def keepVal (v : Value) (name : Option Str) (w : Value) : Gen Unit := do
  let s ← Gen.get
  match s.cur with
  | none => do
    Gen.api' (·.setGlobalName w name)
    Gen.modify (fun s => { s with values := s.values.insert v w })
  | some _ => do
    let (f, info) ← curInfo
    Gen.api' (·.setLocalName info.func w name)
    Gen.modify (fun s => { s with funcs := s.funcs.insert f { info with values := info.values.insert v w } })

/-- generator.rs:341-368 and 385-521: makes the value; `one` generates what it refers to. -/
def genKind (one : Item → Gen Nat) (r : RVal) : Gen Value :=
  match r.kind with
  | .integer n => newValue (.integer n)
  | .zeroInit => newValue (.zeroInit r.ty)
  | .undef => newValue (.undef r.ty)
  | .aggregate es => do
    let es ← es.read .value
    let es ← Gen.each (fun v => one (.val v)) es
    newValue (.aggregate es)
  | .funcArgRef _ => Gen.panic
  | .blockArgRef _ => Gen.panic
  | .alloc => match r.ty with
    | .ptr base => newLocal (.alloc base)
    | _ => Gen.panic
  | .globalAlloc i => do
    let i ← one (.val i)
    Gen.api (·.newGlobal (.globalAlloc i))
  | .load s => do
    let s ← one (.val s)
    newLocal (.load s)
  | .store v d => do
    let v ← one (.val v)
    let d ← one (.val d)
    newLocal (.store v d)
  | .getPtr s i => do
    let s ← one (.val s)
    let i ← one (.val i)
    newLocal (.getPtr s i)
  | .getElemPtr s i => do
    let s ← one (.val s)
    let i ← one (.val i)
    newLocal (.getElemPtr s i)
  | .binary op l r => do
    let l ← one (.val l)
    let r ← one (.val r)
    newLocal (.binary op l r)
  | .branch c t f ta fa => do
    let c ← one (.val c)
    let t ← one (.bb t)
    let f ← one (.bb f)
    let ta ← ta.read .value
    let ta ← Gen.each (fun v => one (.val v)) ta
    let fa ← fa.read .value
    let fa ← Gen.each (fun v => one (.val v)) fa
    newLocal (.branchWithArgs c t f ta fa)
  | .jump t as => do
    let t ← one (.bb t)
    let as ← as.read .value
    let as ← Gen.each (fun v => one (.val v)) as
    newLocal (.jumpWithArgs t as)
  | .call g as => do
    let g ← one (.func g)
    let as ← as.read .value
    let as ← Gen.each (fun v => one (.val v)) as
    newLocal (.call g as)
  | .ret none => newLocal (.ret none)
  | .ret (some v) => do
    let v ← one (.val v)
    newLocal (.ret (some v))

/-- Inserts pairs into a map, generator.rs:259-263 and 309-311. -/
def insertAll (m : Map Nat Nat) : List (Nat × Nat) → Map Nat Nat
  | [] => m
  | (a, b) :: l => insertAll (m.insert a b) l

/-- generator.rs:313-318: the instructions of a block. -/
def genInsts (one : Item → Gen Nat) (b : BB) : List Value → Gen Unit
  | [] => pure ()
  | v :: vs => do
    let w ← one (.val v)
    let (_, info) ← curInfo
    Gen.api' (·.pushInst info.func b w)
    genInsts one b vs

/-- generator.rs:286-319: makes a block. -/
def genBlock (m : Builder) (one : Item → Gen Nat) (b : BB) : Gen BB := do
  let r ← deref m.bbs b
  let ps ← r.params.read .value
  let params ← Gen.each (fun v => do
    let x ← deref m.vals v
    pure (x.name, x.ty)) ps
  let (f, info) ← curInfo
  let w ← Gen.api (·.newBbWithParamNames info.func r.name params)
  Gen.api' (·.pushBb info.func w)
  let s ← Gen.get
  let hs ← Gen.need (s.prog.bbParams info.func w)
  let info := { info with bbs := info.bbs.insert b w, values := insertAll info.values (ps.zip hs) }
  Gen.modify (fun s => { s with funcs := s.funcs.insert f info })
  let is ← r.insts.read .value
  genInsts one w is
  pure w

/-- generator.rs:237-274: makes a function. The names of the parameters are read before the types are paired up,
which makes no difference because the numbers agree. -/
def genFunc (m : Builder) (one : Item → Gen Nat) (f : Func) : Gen Func := do
  let r ← deref m.funcs f
  match r.name with
  | none => Gen.fail .nullPointerError
  | some name => match r.ty with
    | .func tys ret => do
      let g ← (if r.bbs.len = 0 then Gen.api (·.newFuncDecl name tys ret)
        else if r.params.len ≠ tys.length then Gen.fail .funcParamNumMismatch
        else do
          let ps ← r.params.read .value
          let names ← Gen.each (fun v => do
            let x ← deref m.vals v
            pure x.name) ps
          Gen.api (·.newFuncDefWithParamNames name (names.zip tys) ret))
      let ps ← r.params.read .value
      let s ← Gen.get
      let fd ← Gen.need (s.prog.funcs.get? g)
      let info : FuncInfo := { func := g, bbs := .empty, values := insertAll .empty (ps.zip fd.params) }
      Gen.modify (fun s => { s with funcs := s.funcs.insert f info })
      if r.bbs.len = 0 then pure g
      else do
        let last ← Gen.get
        Gen.modify (fun s => { s with cur := some f })
        let bs ← r.bbs.read .basicBlock
        let _ ← Gen.each (fun b => one (.bb b)) bs
        Gen.modify (fun s => { s with cur := last.cur })
        pure g
    | _ => Gen.fail .typeMismatch

/-- generator.rs:230-383 `generate` of functions, blocks and values; the number bounds the depth of the
recursion. -/
def gen (m : Builder) : Nat → Item → Gen Nat
  | 0, _ => Gen.panic
  | n + 1, .val v => do
    match ← findVal v with
    | some w => pure w
    | none => do
      let r ← deref m.vals v
      let w ← genKind (gen m n) r
      keepVal v r.name w
      pure w
  | n + 1, .bb b => do
    let (_, info) ← curInfo
    match info.bbs.get? b with
    | some w => pure w
    | none => genBlock m (gen m n) b
  | n + 1, .func f => do
    let s ← Gen.get
    match s.funcs.get? f with
    | some info => pure info.func
    | none => genFunc m (gen m n) f

/-- generator.rs:199-211. -/
def genProgram (m : Builder) (n : Nat) (r : RawProgram) : Gen Unit := do
  let vs ← r.values.read .value
  let _ ← Gen.each (fun v => gen m n (.val v)) vs
  let fs ← r.funcs.read .function
  let _ ← Gen.each (fun f => gen m n (.func f)) fs
  pure ()

/-- generator.rs:17-21 `generate_program`; `ids` are the counters of the process. -/
def generateProgram (ids : Ids) (m : Builder) (n : Nat) (r : RawProgram) : Option (Except Code Program) :=
  match genProgram m n r { prog := .new ids, values := .empty, funcs := .empty, cur := none } with
  | none => none
  | some (.error e) => some (.error e)
  | some (.ok (_, s)) => some (.ok s.prog)

end Koopa.Raw
