import Verif.Model.IrBuilder
import Verif.Model.Layout
/-!
Model of `Program` and `FunctionData` in koopa/src/ir/entities.rs and of the builders that insert
into them (builder.rs:513-629). `none` stands for a panic.

Not modelled: the deprecated `Program::new_func` applied to function data taken out of a program,
and direct access to the maps through `funcs_mut` and `DataFlowGraph::bbs_mut`.
-/
namespace Koopa

/-- The data flow graph of function data `fd` seen together with the globals. -/
def Program.ctx (p : Program) (fd : FData) : Ctx := { g := p.values, d := fd.dfg }

/-- Writes back a modified data flow graph (and globals). -/
def Program.putCtx (p : Program) (f : Func) (fd : FData) (c : Ctx) : Program :=
  { p with values := c.g, funcs := p.funcs.insert f { fd with dfg := c.d } }

/-! ### Globals -/

/-- The loop entities.rs:60-62. -/
def addGlobalUses (user : Value) : Map Value VData → List Value → Option (Map Value VData)
  | g, [] => some g
  | g, v :: vs => match g.get? v with
    | some x => addGlobalUses user (g.insert v (x.addUser user)) vs
    | none => none

/-- The loop entities.rs:86-88. -/
def delGlobalUses (user : Value) : Map Value VData → List Value → Option (Map Value VData)
  | g, [] => some g
  | g, v :: vs => match g.get? v with
    | some x => delGlobalUses user (g.insert v (x.delUser user)) vs
    | none => none

/-- entities.rs:58-65 `Program::new_value_data` with builder.rs:618-625
`GlobalBuilder::insert_value`. -/
def Program.newGlobalData (p : Program) (data : VData) : Option (Program × Value) := do
  let value := p.ids.nextGlobal
  let g ← addGlobalUses value p.values data.kind.valueUses
  let g := g.insert value data
  let lay := if data.kind.isGlobalAlloc then p.instLayout ++ [value] else p.instLayout
  some ({ p with values := g, instLayout := lay, ids := { p.ids with nextGlobal := value + 1 } }, value)

/-- `Program::new_value()` followed by a builder method. -/
def Program.newGlobal (p : Program) (i : GlobalInst) : Option (Program × Value) := do
  let data ← i.build (globalQuerier p.values)
  p.newGlobalData data

/-- entities.rs:77-84: a global allocation is taken out of the instruction layout. -/
def Program.dropInst (p : Program) (value : Value) (kind : VKind) : Option (List Value) :=
  if kind.isGlobalAlloc then
    (if value ∈ p.instLayout then some (p.instLayout.erase value) else none)
  else some p.instLayout

/-- entities.rs:74-90 `Program::remove_value`. -/
def Program.removeGlobal (p : Program) (value : Value) : Option (Program × VData) := do
  let data ← p.values.get? value
  let g := p.values.erase value
  let lay ← p.dropInst value data.kind
  guard (data.usedBy = [])
  let g ← delGlobalUses value g data.kind.valueUses
  some ({ p with values := g, instLayout := lay }, data)

/-- entities.rs:98-105 `Program::set_value_name`. -/
def Program.setGlobalName (p : Program) (value : Value) (name : Option Str) : Option Program := do
  let data ← p.values.get? value
  let data ← data.setName name
  some { p with values := p.values.insert value data }

/-! ### Functions -/

/-- entities.rs:351-363 `check_sanity`. -/
def checkSanity (name : Str) (params : List Ty) : Option Unit := do
  assert (validName name)
  assert (params.all (fun t => !t.isUnit))

/-- entities.rs:271-275, 305-313: creates the argument references `i, i+1, ...` with ids
`next, next+1, ...`; returns the new value map and the handles. A name that is present must be
valid (`set_value_name`). -/
def funcParams : Map Value VData → (next i : Nat) → List (Option Str × Ty) →
    Option (Map Value VData × List Value)
  | vs, _, _, [] => some (vs, [])
  | vs, next, i, (n, ty) :: ps => do
    let data ← (VData.new ty (.funcArgRef i)).setName n
    let (vs', hs) ← funcParams (vs.insert next data) (next + 1) (i + 1) ps
    some (vs', next :: hs)

/-- entities.rs:130-138 `Program::new_func` (insertion into the maps and the layout). -/
def Program.insertFunc (p : Program) (data : FData) : Program × Func :=
  let func := p.ids.nextFunc
  ({ p with
      funcTys := p.funcTys.insert func data.ty
      funcs := p.funcs.insert func data
      funcLayout := p.funcLayout ++ [func]
      ids := { p.ids with nextFunc := func + 1 } }, func)

/-- entities.rs:158-166 `new_func_def_with_param_names` with entities.rs:300-321
`FunctionData::with_param_names`. -/
def Program.newFuncDefWithParamNames (p : Program) (name : Str) (params : List (Option Str × Ty))
    (ret : Ty) : Option (Program × Func) := do
  checkSanity name (params.map (·.2))
  let (vs, hs) ← funcParams .empty p.ids.nextLocal 0 params
  let p := { p with ids := { p.ids with nextLocal := p.ids.nextLocal + params.length } }
  some (p.insertFunc
    { ty := .func (params.map (·.2)) ret, name, params := hs,
      dfg := { values := vs, bbs := .empty }, layout := Layout.new })

/-- entities.rs:146-149 `new_func_def` with entities.rs:266-283 `FunctionData::new`: the same
without parameter names. -/
def Program.newFuncDef (p : Program) (name : Str) (params : List Ty) (ret : Ty) :
    Option (Program × Func) :=
  p.newFuncDefWithParamNames name (params.map (fun t => (none, t))) ret

/-- entities.rs:174-177 `new_func_decl` with entities.rs:335-344 `FunctionData::new_decl`. -/
def Program.newFuncDecl (p : Program) (name : Str) (params : List Ty) (ret : Ty) :
    Option (Program × Func) := do
  checkSanity name params
  some (p.insertFunc
    { ty := .func params ret, name, params := [], dfg := Dfg.new, layout := Layout.new })

/-- entities.rs:182-188 `remove_func`. `position(..).unwrap()` panics if the function is absent. -/
def Program.removeFunc (p : Program) (func : Func) : Option (Program × Option FData) :=
  if func ∈ p.funcLayout then
    some ({ p with
      funcTys := p.funcTys.erase func
      funcLayout := p.funcLayout.erase func
      funcs := p.funcs.erase func }, p.funcs.get? func)
  else none

/-- entities.rs:376-378 `FunctionData::set_name` through `func_mut`. -/
def Program.setFuncName (p : Program) (func : Func) (name : Str) : Option Program := do
  let fd ← p.funcs.get? func
  some { p with funcs := p.funcs.insert func { fd with name } }

/-! ### Values and blocks of a function -/

/-- `func_mut(f).dfg_mut()` followed by an operation on the data flow graph. -/
def Program.onDfg (p : Program) (f : Func) (op : Ctx → Option Ctx) : Option Program := do
  let fd ← p.funcs.get? f
  let c ← op (p.ctx fd)
  some (p.putCtx f fd c)

/-- builder.rs:523-527: `LocalBuilder::insert_value` with a fresh id. -/
def Program.newLocalData (p : Program) (f : Func) (data : VData) : Option (Program × Value) := do
  let value := p.ids.nextLocal
  let p := { p with ids := { p.ids with nextLocal := value + 1 } }
  let p ← p.onDfg f (fun c => c.newValueData value data)
  some (p, value)

/-- `dfg_mut().new_value()` followed by a builder method. -/
def Program.newLocal (p : Program) (f : Func) (i : LocalInst) : Option (Program × Value) := do
  let fd ← p.funcs.get? f
  let data ← i.build ((p.ctx fd).querier p.funcTys)
  p.newLocalData f data

/-- `dfg_mut().replace_value_with(v)` followed by a builder method (builder.rs:567-572). -/
def Program.replaceLocal (p : Program) (f : Func) (v : Value) (i : LocalInst) : Option Program := do
  let fd ← p.funcs.get? f
  let data ← i.build ((p.ctx fd).querier p.funcTys)
  p.onDfg f (fun c => c.replaceValueWithData v data)

/-- `dfg_mut().update_value(v, f)`. -/
def Program.updateLocal (p : Program) (f : Func) (v : Value) (fn : VData → VData) : Option Program :=
  p.onDfg f (fun c => c.updateValue v fn)

/-- `dfg_mut().remove_value(v)`. -/
def Program.removeLocal (p : Program) (f : Func) (v : Value) : Option Program :=
  p.onDfg f (fun c => (c.removeValue v).map (·.1))

/-- `dfg_mut().set_value_name(v, name)`. -/
def Program.setLocalName (p : Program) (f : Func) (v : Value) (name : Option Str) : Option Program :=
  p.onDfg f (fun c => c.setValueName v name)

/-- builder.rs:398-406 (and 374-378): inserts the parameter references of a block. `Ctx` version
with explicit fresh ids; no uses are registered because the kind has none, but the code goes
through `new_value_data`. -/
def Ctx.blockParams : Ctx → (next i : Nat) → List (Option Str × Ty) → Option (Ctx × List Value)
  | c, _, _, [] => some (c, [])
  | c, next, i, (n, ty) :: ps => do
    let data ← (VData.new ty (.blockArgRef i)).setName n
    let c ← c.newValueData next data
    let (c, hs) ← c.blockParams (next + 1) (i + 1) ps
    some (c, next :: hs)

/-- builder.rs:388-408 `basic_block_with_param_names`. -/
def Program.newBbWithParamNames (p : Program) (f : Func) (name : Option Str)
    (params : List (Option Str × Ty)) : Option (Program × BB) := do
  assert (validOptName name)
  assert (params.all (fun q => !q.2.isUnit))
  let fd ← p.funcs.get? f
  let (c, hs) ← (p.ctx fd).blockParams p.ids.nextLocal 0 params
  let bb := p.ids.nextBb
  let c := c.newBbData bb { name, params := hs, usedBy := [] }
  let p := p.putCtx f fd c
  some ({ p with ids := { p.ids with nextLocal := p.ids.nextLocal + params.length, nextBb := bb + 1 } }, bb)

/-- builder.rs:368-380 `basic_block_with_params`: the same without parameter names. -/
def Program.newBbWithParams (p : Program) (f : Func) (name : Option Str) (params : List Ty) :
    Option (Program × BB) :=
  p.newBbWithParamNames f name (params.map (fun t => (none, t)))

/-- builder.rs:358-361 `basic_block`. -/
def Program.newBb (p : Program) (f : Func) (name : Option Str) : Option (Program × BB) := do
  assert (validOptName name)
  let bb := p.ids.nextBb
  let p ← p.onDfg f (fun c => some (c.newBbData bb { name, params := [], usedBy := [] }))
  some ({ p with ids := { p.ids with nextBb := bb + 1 } }, bb)

/-- `dfg_mut().remove_bb(bb)`. -/
def Program.removeBb (p : Program) (f : Func) (bb : BB) : Option Program :=
  p.onDfg f (fun c => (c.removeBb bb).map (·.1))

/-- `dfg_mut().bb_mut(bb).set_name(name)`. -/
def Program.setBbName (p : Program) (f : Func) (bb : BB) (name : Option Str) : Option Program :=
  p.onDfg f (fun c => c.setBbName bb name)

/-- `*dfg_mut().bb_mut(bb).params_mut() = params`. -/
def Program.setBbParams (p : Program) (f : Func) (bb : BB) (params : List Value) : Option Program :=
  p.onDfg f (fun c => c.setBbParams bb params)

/-! ### Layout -/

/-- `func_mut(f).layout_mut()` followed by an operation. -/
def Program.onLayout (p : Program) (f : Func) (op : Layout → Option Layout) : Option Program := do
  let fd ← p.funcs.get? f
  let l ← op fd.layout
  some { p with funcs := p.funcs.insert f { fd with layout := l } }

end Koopa
