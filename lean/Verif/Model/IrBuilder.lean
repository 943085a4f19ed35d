import Verif.Model.Dfg
/-!
Model of koopa/src/ir/builder.rs: the builder methods with their assertions.
`none` stands for a panic. A builder method is described by a constructor of `ValInst`,
`GlobalInst` or `LocalInst`; `build` yields the `ValueData` that the method passes to
`insert_value`.
-/
namespace Koopa

/-- builder.rs:14-42 trait `EntityInfoQuerier`. -/
structure Querier where
  valueType : Value → Option Ty
  isConst : Value → Option Bool
  bbParams : BB → Option (List Value)
  funcType : Func → Option Ty

/-- builder.rs:458-507 `DfgBasedInfoQuerier`. -/
def Ctx.querier (c : Ctx) (funcTys : Map Func Ty) : Querier where
  valueType v := (c.data v).map (·.ty)
  isConst v := (c.data v).map (·.kind.isConst)
  bbParams b := (c.d.bbs.get? b).map (·.params)
  funcType f := funcTys.get? f

/-- builder.rs:585-615 `EntityInfoQuerier for GlobalBuilder`. -/
def globalQuerier (g : Map Value VData) : Querier where
  valueType v := (g.get? v).map (·.ty)
  isConst v := (g.get? v).map (·.kind.isConst)
  bbParams _ := none
  funcType _ := none

/-- builder.rs:53-119 trait `ValueBuilder`. -/
inductive ValInst where
  | raw (data : VData)
  | integer (value : I32)
  | zeroInit (ty : Ty)
  | undef (ty : Ty)
  | aggregate (elems : List Value)
deriving Repr

/-- builder.rs:122-134 trait `GlobalInstBuilder`. -/
inductive GlobalInst where
  | val (i : ValInst)
  | globalAlloc (init : Value)
deriving Repr

/-- builder.rs:137-344 trait `LocalInstBuilder`. -/
inductive LocalInst where
  | val (i : ValInst)
  | alloc (ty : Ty)
  | load (src : Value)
  | store (value dest : Value)
  | getPtr (src index : Value)
  | getElemPtr (src index : Value)
  | binary (op : BinOp) (lhs rhs : Value)
  | branch (cond : Value) (trueBb falseBb : BB)
  | branchWithArgs (cond : Value) (trueBb falseBb : BB) (trueArgs falseArgs : List Value)
  | jump (target : BB)
  | jumpWithArgs (target : BB) (args : List Value)
  | call (callee : Func) (args : List Value)
  | ret (value : Option Value)
deriving Repr

/-- `assert!`. -/
def assert (b : Bool) : Option Unit := if b then some () else none

/-- builder.rs:102 `elems.iter().all(|e| self.is_const(*e))`; a missing value panics. -/
def allConst (q : Querier) : List Value → Option Bool
  | [] => some true
  | e :: es => do
    let b ← q.isConst e
    if b then allConst q es else some false

/-- builder.rs:107-109 `elems.windows(2).all(|e| value_type(e[0]) == value_type(e[1]))`. -/
def windowsSameType (q : Querier) : List Value → Option Bool
  | a :: b :: es => do
    let ta ← q.valueType a
    let tb ← q.valueType b
    if ta = tb then windowsSameType q (b :: es) else some false
  | _ => some true

/-- builder.rs:59-118. -/
def ValInst.build (q : Querier) : ValInst → Option VData
  | .raw data => some data
  | .integer value => some (VData.new .i32 (.integer value))
  | .zeroInit ty => do
    assert (!ty.isUnit)
    some (VData.new ty .zeroInit)
  | .undef ty => do
    assert (!ty.isUnit)
    some (VData.new ty .undef)
  | .aggregate elems => do
    assert (!elems.isEmpty)
    assert (← allConst q elems)
    assert (← windowsSameType q elems)
    let base ← q.valueType (elems.headD 0)
    assert (!base.isUnit)
    let ty ← Ty.getArray base elems.length
    some (VData.new ty (.aggregate elems))

/-- builder.rs:128-133 `global_alloc`. -/
def GlobalInst.build (q : Querier) : GlobalInst → Option VData
  | .val i => i.build q
  | .globalAlloc init => do
    let initTy ← q.valueType init
    assert (!initTy.isUnit)
    some (VData.new (.ptr initTy) (.globalAlloc init))

/-- The loop of builder.rs:425-435: compares parameter and argument types pairwise. -/
def checkArgTypes (q : Querier) : List Value → List Value → Option Unit
  | p :: ps, a :: as => do
    let expected ← q.valueType p
    let actual ← q.valueType a
    assert (decide (expected = actual))
    checkArgTypes q ps as
  | _, _ => some ()

/-- builder.rs:418-436 `check_bb_arg_types`. -/
def checkBbArgTypes (q : Querier) (params args : List Value) : Option Unit := do
  assert (decide (params.length = args.length))
  checkArgTypes q params args

/-- The loop of builder.rs:315-324. -/
def checkCallArgs (q : Querier) : List Ty → List Value → Option Unit
  | e :: es, a :: as => do
    let actual ← q.valueType a
    assert (decide (e = actual))
    checkCallArgs q es as
  | _, _ => some ()

/-- builder.rs:143-343. -/
def LocalInst.build (q : Querier) : LocalInst → Option VData
  | .val i => i.build q
  | .alloc ty => do
    assert (!ty.isUnit)
    some (VData.new (.ptr ty) .alloc)
  | .load src => do
    let srcTy ← q.valueType src
    match srcTy with
    | .ptr ty => some (VData.new ty (.load src))
    | _ => none
  | .store value dest => do
    let vt ← q.valueType value
    let dt ← q.valueType dest
    assert (decide (Ty.ptr vt = dt))
    some (VData.new .unit (.store value dest))
  | .getPtr src index => do
    let srcTy ← q.valueType src
    match srcTy with
    | .ptr _ => do
      let it ← q.valueType index
      assert it.isI32
      some (VData.new srcTy (.getPtr src index))
    | _ => none
  | .getElemPtr src index => do
    let it ← q.valueType index
    assert it.isI32
    let st ← q.valueType src
    match st with
    | .ptr (.array base _) => some (VData.new (.ptr base) (.getElemPtr src index))
    | _ => none
  | .binary op lhs rhs => do
    let lt ← q.valueType lhs
    let rt ← q.valueType rhs
    assert (lt.isI32 && decide (lt = rt))
    some (VData.new lt (.binary op lhs rhs))
  | .branch cond trueBb falseBb => do
    let ct ← q.valueType cond
    assert ct.isI32
    let tp ← q.bbParams trueBb
    assert tp.isEmpty
    let fp ← q.bbParams falseBb
    assert fp.isEmpty
    some (VData.new .unit (.branch cond trueBb falseBb [] []))
  | .branchWithArgs cond trueBb falseBb trueArgs falseArgs => do
    let ct ← q.valueType cond
    assert ct.isI32
    assert (decide (trueBb ≠ falseBb) || (trueArgs.isEmpty && falseArgs.isEmpty))
    let tp ← q.bbParams trueBb
    checkBbArgTypes q tp trueArgs
    let fp ← q.bbParams falseBb
    checkBbArgTypes q fp falseArgs
    some (VData.new .unit (.branch cond trueBb falseBb trueArgs falseArgs))
  | .jump target => do
    let tp ← q.bbParams target
    assert tp.isEmpty
    some (VData.new .unit (.jump target []))
  | .jumpWithArgs target args => do
    let tp ← q.bbParams target
    checkBbArgTypes q tp args
    some (VData.new .unit (.jump target args))
  | .call callee args => do
    let ft ← q.funcType callee
    match ft with
    | .func params rty => do
      assert (decide (params.length = args.length))
      checkCallArgs q params args
      some (VData.new rty (.call callee args))
    | _ => none
  | .ret value => do
    match value with
    | none => some (VData.new .unit (.ret none))
    | some v => do
      let vt ← q.valueType v
      assert (!vt.isUnit)
      some (VData.new .unit (.ret (some v)))

end Koopa
