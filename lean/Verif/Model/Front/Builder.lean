import Verif.Model.Front.Ast
import Verif.Model.Program
/-!
Model of koopa/src/front/builder.rs: building IR from syntax trees.

A method is a function from the builder state to a result and a new state. The outer `none` is a
panic (or exhausted fuel in `bfs` and `findLocal`; `Verif/Lemmas/Front` proves that their fuel
suffices). `Except.error` is an `Err` of the code. The counters of logged errors and warnings
(span.rs:113-121) are part of the state; messages and spans are dropped. Trees that the parser
cannot produce in a position (for instance a symbol inside an aggregate) panic as in the code.

A `HashMap` is an association list, a `HashSet` a list; the only iteration over a hash map in the
code (builder.rs:291-295) logs one warning per entry, so its order does not matter.
-/
namespace Koopa

/-- builder.rs:12-16 `BasicBlockInfo`. -/
structure BbInfo where
  bb : BB
  preds : List Str
  localDefs : Map Str Value
deriving Repr

/-- builder.rs:33-39 `Builder`, with the counters of span.rs:113-121. -/
structure BS where
  prog : Program
  globalVars : Map Str Value
  globalFuncs : Map Str Func
  localBbs : Map Str BbInfo
  localSyms : List Str
  errs : Nat
  warns : Nat
deriving Repr

/-- builder.rs:97-99 `Builder::new`. -/
def BS.new (ids : Ids) : BS :=
  { prog := Program.new ids, globalVars := .empty, globalFuncs := .empty, localBbs := .empty,
    localSyms := [], errs := 0, warns := 0 }

/-- `&mut self -> Result<α, Error>`. -/
def B (α : Type) : Type := BS → Option (Except Unit α × BS)

namespace B

/-- `Ok(a)`. -/
def pure {α : Type} (a : α) : B α := fun s => some (.ok a, s)

/-- The `?` operator. -/
def bind {α β : Type} (m : B α) (k : α → B β) : B β := fun s =>
  match m s with
  | none => none
  | some (.ok a, s) => k a s
  | some (.error e, s) => some (.error e, s)

instance : Monad B where
  pure := B.pure
  bind := B.bind

/-- `log_error!` (span.rs:243-254). -/
def logError : B Unit := fun s => some (.ok (), { s with errs := s.errs + 1 })

/-- `log_warning!`, `n` times. -/
def logWarnings (n : Nat) : B Unit := fun s => some (.ok (), { s with warns := s.warns + n })

/-- An `Err` that was already logged. -/
def throw {α : Type} : B α := fun s => some (.error (), s)

/-- `return_error!`: logs an error and returns it. -/
def fail {α : Type} : B α := fun s => some (.error (), { s with errs := s.errs + 1 })

/-- `panic!`. -/
def panic {α : Type} : B α := fun _ => none

/-- A computation without effect that may panic. -/
def lift {α : Type} (o : Option α) : B α := fun s =>
  match o with
  | none => none
  | some a => some (.ok a, s)

/-- Reads the state. -/
def get : B BS := fun s => some (.ok s, s)

/-- Changes the fields of the builder other than the program. -/
def modify (f : BS → BS) : B Unit := fun s => some (.ok (), f s)

/-- A call of the IR API that returns a handle. -/
def api {α : Type} (op : Program → Option (Program × α)) : B α := fun s =>
  match op s.prog with
  | none => none
  | some (p, a) => some (.ok a, { s with prog := p })

/-- A call of the IR API without result. -/
def api' (op : Program → Option Program) : B Unit := fun s =>
  match op s.prog with
  | none => none
  | some p => some (.ok (), { s with prog := p })

/-- `if let Ok(a) = m`: the error, if any, is dropped. -/
def attempt {α : Type} (m : B α) : B (Option α) := fun s =>
  match m s with
  | none => none
  | some (.ok a, s) => some (.ok (some a), s)
  | some (.error _, s) => some (.ok none, s)

/-- A loop over a list, building a list (`map(..).collect()` or a `for` loop). -/
def each {α β : Type} (m : α → B β) : List α → B (List β)
  | [] => return []
  | a :: as => do
    let b ← m a
    let bs ← each m as
    return b :: bs

end B

open B

/-- builder.rs:796-800 `is_temp`. -/
def isTemp (name : Str) : Bool := name.all (fun c => decide (c = '%') || isNum c)

/-- `(!n.is_temp()).then(|| n.clone())`. -/
def tempName (n : Str) : Option Str := if isTemp n then none else some n

mutual
/-- builder.rs:386-400 `generate_type`; `none` is the panic of `Type::get_array`. -/
def genType : TyAst → Option Ty
  | .int => some .i32
  | .array base len => match genType base with
    | none => none
    | some t => Ty.getArray t len
  | .pointer base => match genType base with
    | none => none
    | some t => some (.ptr t)
  | .func params ret => match genTypes params with
    | none => none
    | some ps => match genRetType ret with
      | none => none
      | some r => some (.func ps r)
/-- builder.rs:392: `params.iter().map(Self::generate_type).collect()`. -/
def genTypes : List TyAst → Option (List Ty)
  | [] => some []
  | t :: ts => match genType t with
    | none => none
    | some t => match genTypes ts with
      | none => none
      | some ts => some (t :: ts)
/-- builder.rs:173-176, 222-225, 393-396: an absent return type is unit. -/
def genRetType : Option TyAst → Option Ty
  | none => some .unit
  | some t => genType t
end

/-- builder.rs:180-184, 305-309: names and types of parameters. -/
def genParams : List (Str × TyAst) → Option (List (Option Str × Ty))
  | [] => some []
  | (n, a) :: ps => match genType a with
    | none => none
    | some t => match genParams ps with
      | none => none
      | some ps => some ((tempName n, t) :: ps)

/-! ### Values -/

/-- The builder used by `generate_init!`: of the program (`none`) or of a function. -/
def newVal (scope : Option Func) (i : ValInst) : B Value :=
  match scope with
  | none => api (·.newGlobal (.val i))
  | some f => api (·.newLocal f (.val i))

/-- builder.rs:72-86: the element type of an aggregate with `n` elements. A wrong length is logged
but does not stop the generation. -/
def aggElemTy (ty : Ty) (n : Nat) : B Ty :=
  match ty with
  | .array base len => if len ≠ n then (do logError; return base) else return base
  | .ptr base => return base
  | _ => fail

mutual
/-- builder.rs:56-93 `generate_init!`, as used by builder.rs:403-422 `generate_global_init` and
`generate_local_init`. -/
def genInit (scope : Option Func) (ty : Ty) : ValAst → B Value
  | .undef => newVal scope (.undef ty)
  | .zero => newVal scope (.zeroInit ty)
  | .int v => if ty.isI32 then newVal scope (.integer v) else fail
  | .agg es => do
    let elemTy ← aggElemTy ty es.length
    let elems ← genInits scope elemTy es
    newVal scope (.aggregate elems)
  | .sym _ => panic
/-- builder.rs:87: the elements of an aggregate. -/
def genInits (scope : Option Func) (ty : Ty) : List ValAst → B (List Value)
  | [] => return []
  | e :: es => do
    let v ← genInit scope ty e
    let vs ← genInits scope ty es
    return v :: vs
end

/-- builder.rs:126-132 `value_ty`. -/
def Program.valueTy (p : Program) (f : Func) (v : Value) : Option Ty :=
  if isGlobal v then (p.values.get? v).map (·.ty)
  else match p.funcs.get? f with
    | none => none
    | some fd => (fd.dfg.values.get? v).map (·.ty)

/-- The loop of builder.rs:142-144. -/
def Program.valueTys (p : Program) (f : Func) : List Value → Option (List Ty)
  | [] => some []
  | v :: vs => match p.funcs.get? f with
    | none => none
    | some fd => match fd.dfg.values.get? v with
      | none => none
      | some x => match p.valueTys f vs with
        | none => none
        | some ts => some (x.ty :: ts)

/-- `program.func(f).dfg().bb(b).params()`. -/
def Program.bbParams (p : Program) (f : Func) (b : BB) : Option (List Value) :=
  match p.funcs.get? f with
  | none => none
  | some fd => (fd.dfg.bbs.get? b).map (·.params)

/-- builder.rs:135-145 `bb_params_ty`. -/
def Program.bbParamsTy (p : Program) (f : Func) (b : BB) : Option (List Ty) :=
  match p.bbParams f b with
  | none => none
  | some ps => p.valueTys f ps

/-- `value_ty` as a method. -/
def valueTy (f : Func) (v : Value) : B Ty := do
  let s ← get
  lift (s.prog.valueTy f v)

/-- `bb_params_ty` as a method. -/
def bbParamsTy (f : Func) (b : BB) : B (List Ty) := do
  let s ← get
  lift (s.prog.bbParamsTy f b)

/-- builder.rs:477-480: `preds.iter().find_map(..)`, given the recursive call. The state of the
loop is the set of visited blocks. -/
def findPreds (rec : List Str → Str → Option (Option Value × List Str)) :
    List Str → List Str → Option (Option Value × List Str)
  | vis, [] => some (none, vis)
  | vis, p :: ps => match rec vis p with
    | none => none
    | some (some v, vis) => some (some v, vis)
    | some (none, vis) => findPreds rec vis ps

/-- builder.rs:466-485 `generate_local_symbol`. -/
def findLocal (m : Map Str BbInfo) (sym : Str) :
    (fuel : Nat) → List Str → Str → Option (Option Value × List Str)
  | 0, _, _ => none
  | n + 1, vis, bb =>
    if bb ∈ vis then some (none, vis)
    else match m.get? bb with
      | none => none
      | some info => match info.localDefs.get? sym with
        | some v => some (some v, bb :: vis)
        | none => findPreds (findLocal m sym n) (bb :: vis) info.preds

/-- Fuel that suffices for `findLocal`: every level of the recursion visits another block. -/
def findFuel (m : Map Str BbInfo) : Nat := m.entries.length + 1

/-- builder.rs:453-463 `generate_symbol`. -/
def genSymbol (bb sym : Str) : B Value := do
  let s ← get
  match s.globalVars.get? sym with
  | some v => return v
  | none => do
    let (r, _) ← lift (findLocal s.localBbs sym (findFuel s.localBbs) [] bb)
    match r with
    | some v => return v
    | none => fail

/-- builder.rs:425-450 `generate_value`. -/
def genValue (f : Func) (bb : Str) (ty : Ty) (a : ValAst) : B Value :=
  match a with
  | .sym sym => do
    let v ← genSymbol bb sym
    let t ← valueTy f v
    if t = ty then return v else fail
  | a => genInit (some f) ty a

/-- builder.rs:488-494 `generate_bb`. -/
def genBb (name : Str) : B BB := do
  let s ← get
  match s.localBbs.get? name with
  | some info => return info.bb
  | none => fail

/-- builder.rs:497-522 `generate_args`. The length check of the code compares `args.len()` with
itself, so it never fails; the loop stops at the end of the shorter list. -/
def genArgs (f : Func) (bb : Str) : List ValAst → List Ty → B (List Value)
  | a :: as, t :: ts => do
    let v ← genValue f bb t a
    let vs ← genArgs f bb as ts
    return v :: vs
  | _, _ => return []

/-! ### Instructions -/

/-- builder.rs:590-593 `generate_mem_decl`. -/
def genAlloc (f : Func) (ty : TyAst) : B Value := do
  let t ← lift (genType ty)
  api (·.newLocal f (.alloc t))

/-- builder.rs:596-611 `generate_load`. -/
def genLoad (f : Func) (bb sym : Str) : B Value := do
  let src ← genSymbol bb sym
  match ← valueTy f src with
  | .ptr _ => api (·.newLocal f (.load src))
  | _ => fail

/-- builder.rs:614-632 `generate_store`. -/
def genStore (f : Func) (bb : Str) (value : ValAst) (sym : Str) : B Value := do
  let dest ← genSymbol bb sym
  match ← valueTy f dest with
  | .ptr srcTy => do
    let v ← genValue f bb srcTy value
    api (·.newLocal f (.store v dest))
  | _ => fail

/-- builder.rs:635-651 `generate_get_pointer`. -/
def genGetPtr (f : Func) (bb sym : Str) (value : ValAst) : B Value := do
  let src ← genSymbol bb sym
  match ← valueTy f src with
  | .ptr _ => do
    let index ← genValue f bb .i32 value
    api (·.newLocal f (.getPtr src index))
  | _ => fail

/-- builder.rs:654-670 `generate_get_element_pointer`. -/
def genGetElemPtr (f : Func) (bb sym : Str) (value : ValAst) : B Value := do
  let src ← genSymbol bb sym
  match ← valueTy f src with
  | .ptr (.array _ _) => do
    let index ← genValue f bb .i32 value
    api (·.newLocal f (.getElemPtr src index))
  | _ => fail

/-- builder.rs:673-684 `generate_binary_expr`. -/
def genBinary (f : Func) (bb : Str) (op : BinOp) (lhs rhs : ValAst) : B Value := do
  let l ← genValue f bb .i32 lhs
  let r ← genValue f bb .i32 rhs
  api (·.newLocal f (.binary op l r))

/-- builder.rs:737-756 `generate_fun_call`. -/
def genCall (f : Func) (bb fn : Str) (args : List ValAst) : B Value := do
  let s ← get
  match s.globalFuncs.get? fn with
  | none => fail
  | some callee => do
    let fd ← lift (s.prog.funcs.get? callee)
    match fd.ty with
    | .func tys _ => do
      let vs ← genArgs f bb args tys
      api (·.newLocal f (.call callee vs))
    | _ => panic

/-- builder.rs:687-718 `generate_branch`. -/
def genBranch (f : Func) (bb : Str) (cond : ValAst) (tname : Str) (targs : List ValAst)
    (fname : Str) (fargs : List ValAst) : B Value := do
  let c ← genValue f bb .i32 cond
  let tbb ← genBb tname
  let ttys ← bbParamsTy f tbb
  let tas ← genArgs f bb targs ttys
  let fbb ← genBb fname
  let ftys ← bbParamsTy f fbb
  let fas ← genArgs f bb fargs ftys
  if tbb = fbb ∧ (tas ≠ [] ∨ fas ≠ []) then fail
  else api (·.newLocal f (.branchWithArgs c tbb fbb tas fas))

/-- builder.rs:721-734 `generate_jump`. -/
def genJump (f : Func) (bb target : Str) (args : List ValAst) : B Value := do
  let tbb ← genBb target
  let tys ← bbParamsTy f tbb
  let vs ← genArgs f bb args tys
  api (·.newLocal f (.jumpWithArgs tbb vs))

/-- builder.rs:759-788 `generate_return`. -/
def genReturn (f : Func) (bb : Str) (retTy : Ty) (value : Option ValAst) : B Value :=
  if !retTy.isUnit && value.isNone then fail
  else if retTy.isUnit && value.isSome then fail
  else match value with
    | none => api (·.newLocal f (.ret none))
    | some a => do
      let v ← genValue f bb retTy a
      api (·.newLocal f (.ret (some v)))

/-- builder.rs:575-587 `generate_inst`. -/
def genInst (f : Func) (bb : Str) : ExprAst → B Value
  | .alloc ty => genAlloc f ty
  | .load sym => genLoad f bb sym
  | .getPtr sym v => genGetPtr f bb sym v
  | .getElemPtr sym v => genGetElemPtr f bb sym v
  | .binary op l r => genBinary f bb op l r
  | .call fn args => genCall f bb fn args

/-- builder.rs:541-544 (and 329-331): a local symbol must be new; otherwise an error is logged.
If the symbol is a global variable, the set of local symbols is left alone. -/
def defineSym (name : Str) : B Unit := do
  let s ← get
  if s.globalVars.contains name then logError
  else if name ∈ s.localSyms then logError
  else modify (fun s => { s with localSyms := name :: s.localSyms })

/-- builder.rs:562-567: records the definition in the current block. -/
def recordDef (bb name : Str) (v : Value) : B Unit := do
  let s ← get
  match s.localBbs.get? bb with
  | none => panic
  | some info =>
    modify (fun s => { s with
      localBbs := s.localBbs.insert bb { info with localDefs := info.localDefs.insert name v } })

/-- builder.rs:556-560: names the value unless the name is temporary. -/
def nameLocal (f : Func) (v : Value) (name : Str) : B Unit :=
  if isTemp name then return () else api' (·.setLocalName f v (some name))

/-- builder.rs:539-569: a symbol definition. -/
def genDef (f : Func) (bb name : Str) (e : ExprAst) : B Value := do
  defineSym name
  let inst ← genInst f bb e
  let t ← valueTy f inst
  if t.isUnit then fail
  else do
    nameLocal f inst name
    recordDef bb name inst
    return inst

/-- builder.rs:525-572 `generate_stmt`. -/
def genStmt (f : Func) (bb : Str) (retTy : Ty) : StmtAst → B Value
  | .store v sym => genStore f bb v sym
  | .branch c t ta e ea => genBranch f bb c t ta e ea
  | .jump t as => genJump f bb t as
  | .call fn args => genCall f bb fn args
  | .ret v => genReturn f bb retTy v
  | .error => throw
  | .def name e => genDef f bb name e

/-! ### Blocks -/

/-- `layout_mut().bb_mut(b).insts_mut().push_key_back(v).unwrap()`. -/
def Program.pushInst (p : Program) (f : Func) (b : BB) (v : Value) : Option Program :=
  p.onLayout f (fun l => match l.insts? b with
    | none => none
    | some is => match l.insertInst b is.length v with
      | some (l, true) => some l
      | _ => none)

/-- `layout_mut().bbs_mut().push_key_back(b).unwrap()`. -/
def Program.pushBb (p : Program) (f : Func) (b : BB) : Option Program :=
  p.onLayout f (fun l => match l.insertBb l.bbs.length b with
    | (l, true) => some l
    | _ => none)

/-- builder.rs:369-382: one statement of a block. -/
def buildStmt (f : Func) (retTy : Ty) (bb : Str) (st : StmtAst) : B Unit := do
  match ← attempt (genStmt f bb retTy st) with
  | none => return ()
  | some v => do
    let s ← get
    match s.localBbs.get? bb with
    | none => panic
    | some info => api' (·.pushInst f info.bb v)

/-- builder.rs:367-383 `build_on_block`. -/
def buildBlock (f : Func) (retTy : Ty) (b : BlockAst) : B Unit := do
  let _ ← each (buildStmt f retTy b.name) b.stmts
  return ()

/-- builder.rs:279-287, 355-362: the targets of the last statement of a block; `none` is the panic
"invalid end statement". -/
def targetsOf : StmtAst → Option (List Str)
  | .branch _ t _ e _ => some [t, e]
  | .jump t _ => some [t]
  | .ret _ => some []
  | .error => some []
  | _ => none

/-- builder.rs:247-257: the map from names to blocks, and the number of duplicate names. A later
block replaces an earlier one. -/
def blockMap : Map Str BlockAst → List BlockAst → Map Str BlockAst × Nat
  | m, [] => (m, 0)
  | m, b :: bs =>
    let (m', n) := blockMap (m.insert b.name b) bs
    (m', if m.contains b.name then n + 1 else n)

/-- builder.rs:267-278 `add_target`, for a list of targets: the names to enqueue and the number of
errors. -/
def addTargets (entry : Str) (m : Map Str BlockAst) : List Str → List Str × Nat
  | [] => ([], 0)
  | t :: ts =>
    let (q, n) := addTargets entry m ts
    if t = entry then (q, n + 1)
    else if m.contains t then (t :: q, n)
    else (q, n + 1)

/-- What the loop of builder.rs:260-289 yields: blocks in order, visited names, errors. -/
structure BfsOut where
  blocks : List BlockAst
  visited : List Str
  errs : Nat
deriving Repr

/-- builder.rs:260-289: the breadth-first loop. -/
def bfs (entry : Str) (m : Map Str BlockAst) : (fuel : Nat) → (queue visited : List Str) →
    Option BfsOut
  | _, [], vis => some ⟨[], vis, 0⟩
  | 0, _ :: _, _ => none
  | n + 1, name :: queue, vis =>
    if name ∈ vis then bfs entry m n queue vis
    else match m.get? name with
      | none => none
      | some block => match block.stmts.getLast? with
        | none => none
        | some last => match targetsOf last with
          | none => none
          | some ts =>
            let (q, e) := addTargets entry m ts
            match bfs entry m n (queue ++ q) (name :: vis) with
            | none => none
            | some o => some { o with blocks := block :: o.blocks, errs := o.errs + e }

/-- Fuel that suffices for `bfs`: every block is visited once and enqueues at most two names. -/
def bfsFuel (m : Map Str BlockAst) : Nat := 3 * m.entries.length + 1

/-- builder.rs:240-297 `get_block_list`. -/
def blockList (bbs : List BlockAst) : B (List BlockAst) := fun s =>
  match bbs with
  | [] => none
  | entry :: _ =>
    let (m, dups) := blockMap .empty bbs
    match bfs entry.name m (bfsFuel m) [entry.name] [] with
    | none => none
    | some o =>
      let unvisited := (m.keys.filter (fun k => !decide (k ∈ o.visited))).length
      some (.ok o.blocks, { s with errs := s.errs + dups + o.errs, warns := s.warns + unvisited })

/-- builder.rs:327-334: the local definitions made by block parameters. -/
def defineParams : List (Str × TyAst) → List Value → Map Str Value → B (Map Str Value)
  | (n, _) :: ps, v :: vs, m => do
    defineSym n
    defineParams ps vs (m.insert n v)
  | _, _, m => return m

/-- builder.rs:303-337: creates one basic block. -/
def initBb (f : Func) (b : BlockAst) : B Unit := do
  let params ← lift (genParams b.params)
  let bb ← api (·.newBbWithParamNames f (tempName b.name) params)
  api' (·.pushBb f bb)
  let s ← get
  let vs ← lift (s.prog.bbParams f bb)
  let defs ← defineParams b.params vs .empty
  modify (fun s => { s with localBbs := s.localBbs.insert b.name ⟨bb, [], defs⟩ })

/-- builder.rs:347-354 `add_pred`. -/
def addPred (name target : Str) : B Unit := do
  let s ← get
  match s.localBbs.get? target with
  | none => panic
  | some info =>
    modify (fun s => { s with
      localBbs := s.localBbs.insert target { info with preds := info.preds ++ [name] } })

/-- builder.rs:355-362: the targets whose predecessors are recorded (nothing happens for other
statements). -/
def predTargets : StmtAst → List Str
  | .branch _ t _ e _ => [t, e]
  | .jump t _ => [t]
  | _ => []

/-- builder.rs:345-363: records the predecessors a block contributes. -/
def addPreds (b : BlockAst) : B Unit :=
  match b.stmts.getLast? with
  | none => panic
  | some last => do
    let _ ← each (addPred b.name) (predTargets last)
    return ()

/-- builder.rs:339-343: function arguments become the local definitions of the entry block. -/
def enterArgs (args : Map Str Value) (entry : BlockAst) : B Unit := do
  modify (fun s => { s with localSyms := args.keys ++ s.localSyms })
  let s ← get
  match s.localBbs.get? entry.name with
  | none => panic
  | some info =>
    modify (fun s => { s with
      localBbs := s.localBbs.insert entry.name { info with localDefs := args } })

/-- builder.rs:300-364 `init_local_bbs`. -/
def initBbs (f : Func) (args : Map Str Value) (bbs : List BlockAst) : B Unit := do
  modify (fun s => { s with localBbs := .empty })
  let _ ← each (initBb f) bbs
  match bbs with
  | [] => panic
  | entry :: _ => enterArgs args entry
  let _ ← each addPreds bbs
  return ()

/-! ### Global definitions -/

/-- builder.rs:188-193: the argument map, and the number of duplicate names. -/
def argMap : List (Str × TyAst) → List Value → Map Str Value → Map Str Value × Nat
  | (n, _) :: ps, v :: vs, m =>
    let (m', k) := argMap ps vs (m.insert n v)
    (m', if m.contains n then k + 1 else k)
  | _, _, m => (m, 0)

/-- builder.rs:195-203, 228-236: a new function name. If the name is a global variable, the map of
functions is left alone. -/
def defineFunc (name : Str) (f : Func) : B Unit := do
  let s ← get
  if s.globalVars.contains name then logError
  else do
    modify (fun s => { s with globalFuncs := s.globalFuncs.insert name f })
    if s.globalFuncs.contains name then logError else return ()

/-- builder.rs:158-166: a new global variable. -/
def defineGlobal (name : Str) (v : Value) : B Unit := do
  let s ← get
  if s.globalFuncs.contains name then logError
  else do
    modify (fun s => { s with globalVars := s.globalVars.insert name v })
    if s.globalVars.contains name then logError else return ()

/-- builder.rs:154-156: names the global unless the name is temporary. -/
def nameGlobal (v : Value) (name : Str) : B Unit :=
  if isTemp name then return () else api' (·.setGlobalName v (some name))

/-- builder.rs:148-168 `build_on_global_def`. -/
def buildGlobalDef (name : Str) (ty : TyAst) (init : ValAst) : B Unit := do
  let t ← lift (genType ty)
  match ← attempt (genInit none t init) with
  | none => return ()
  | some i => do
    let alloc ← api (·.newGlobal (.globalAlloc i))
    nameGlobal alloc name
    defineGlobal name alloc

/-- `log_error!`, `n` times. -/
def logErrors : Nat → B Unit
  | 0 => return ()
  | n + 1 => do logError; logErrors n

/-- builder.rs:171-214 `build_on_fun_def`. -/
def buildFunDef (name : Str) (params : List (Str × TyAst)) (ret : Option TyAst)
    (bbs : List BlockAst) : B Unit := do
  let retTy ← lift (genRetType ret)
  let ps ← lift (genParams params)
  let f ← api (·.newFuncDefWithParamNames name ps retTy)
  let s ← get
  let fd ← lift (s.prog.funcs.get? f)
  let (args, dups) := argMap params fd.params .empty
  logErrors dups
  defineFunc name f
  modify (fun s => { s with localSyms := [] })
  let blocks ← blockList bbs
  initBbs f args blocks
  let _ ← each (buildBlock f retTy) blocks
  return ()

/-- builder.rs:217-237 `build_on_fun_decl`. -/
def buildFunDecl (name : Str) (params : List TyAst) (ret : Option TyAst) : B Unit := do
  let ps ← lift (genTypes params)
  let r ← lift (genRetType ret)
  let f ← api (·.newFuncDecl name ps r)
  defineFunc name f

/-- builder.rs:102-110 `build_on`. -/
def buildOn : GlobalAst → B Unit
  | .globalDef name ty init => buildGlobalDef name ty init
  | .funDef name params ret bbs => buildFunDef name params ret bbs
  | .funDecl name params ret => buildFunDecl name params ret
  | .eof => return ()
  | .error => return ()

end Koopa
