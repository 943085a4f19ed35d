import Verif.Model.Front.Builder
/-!
Model of koopa/examples/brainfuck/main.rs: the compiler from Brainfuck to Koopa IR.

The outer `none` is a panic, `Except.error` is `Error::Parse`. The input is the list of bytes that
the reader yields, a byte being the character with that code; read errors are not modelled. The
command line and the emission of text (`emit_ir`, modelled with the printers) are left out.
-/
namespace Koopa.Bf
open Koopa

/-- main.rs:127-132 `Environment`, without the function data: they are reached through the program. -/
structure Env where
  ptr : Value
  putchar : Func
  getchar : Func
  main : Func
deriving Repr

/-- What the loop of main.rs:200-213 carries along: the program, the current block, the stack of
open loops (condition block, end block), innermost first. -/
structure St where
  prog : Program
  bb : BB
  loops : List (BB × BB)
deriving Repr

/-- main.rs:140-144, 152-161: `new_value!(main).<builder>` followed by `add_inst!`. -/
def addNew (main : Func) (p : Program) (bb : BB) (i : LocalInst) : Option (Program × Value) := do
  let (p, v) ← p.newLocal main i
  let p ← p.pushInst main bb v
  some (p, v)

/-- main.rs:134-138, 146-150: `new_bb!(main).basic_block(name)` followed by `add_bb!`. -/
def addBb (main : Func) (p : Program) (name : Option Str) : Option (Program × BB) := do
  let (p, b) ← p.newBb main name
  let p ← p.pushBb main b
  some (p, b)

/-- main.rs:217-227 `generate_ptr_op`. -/
def ptrOp (env : Env) (st : St) (i : I32) : Option St := do
  let (p, load) ← addNew env.main st.prog st.bb (.load env.ptr)
  let (p, index) ← p.newLocal env.main (.val (.integer i))
  let (p, gp) ← addNew env.main p st.bb (.getPtr load index)
  let (p, _) ← addNew env.main p st.bb (.store gp env.ptr)
  some { st with prog := p }

/-- main.rs:229-241 `generate_data_op`. -/
def dataOp (env : Env) (st : St) (i : I32) : Option St := do
  let (p, load) ← addNew env.main st.prog st.bb (.load env.ptr)
  let (p, data) ← addNew env.main p st.bb (.load load)
  let (p, rhs) ← p.newLocal env.main (.val (.integer i))
  let (p, add) ← addNew env.main p st.bb (.binary .add data rhs)
  let (p, _) ← addNew env.main p st.bb (.store add load)
  some { st with prog := p }

/-- main.rs:243-271 `generate_start`. -/
def start (env : Env) (st : St) : Option St := do
  let (p, condBb) ← addBb env.main st.prog (some "%while_cond".toList)
  let (p, _) ← addNew env.main p st.bb (.jump condBb)
  let (p, load) ← addNew env.main p condBb (.load env.ptr)
  let (p, data) ← addNew env.main p condBb (.load load)
  let (p, zero) ← p.newLocal env.main (.val (.integer 0))
  let (p, cmp) ← addNew env.main p condBb (.binary .notEq data zero)
  let (p, bodyBb) ← p.newBb env.main (some "%while_body".toList)
  let (p, endBb) ← p.newBb env.main (some "%while_end".toList)
  let (p, _) ← addNew env.main p condBb (.branch cmp bodyBb endBb)
  let p ← p.pushBb env.main bodyBb
  some { prog := p, bb := bodyBb, loops := (condBb, endBb) :: st.loops }

/-- main.rs:273-283 `generate_end`; the inner `none` is `Err(Error::Parse)`. -/
def finish (env : Env) (st : St) : Option (Option St) :=
  match st.loops with
  | [] => some none
  | (condBb, endBb) :: loops => do
    let (p, _) ← addNew env.main st.prog st.bb (.jump condBb)
    let p ← p.pushBb env.main endBb
    some (some { prog := p, bb := endBb, loops })

/-- main.rs:285-294 `generate_put`. -/
def put (env : Env) (st : St) : Option St := do
  let (p, load) ← addNew env.main st.prog st.bb (.load env.ptr)
  let (p, data) ← addNew env.main p st.bb (.load load)
  let (p, _) ← addNew env.main p st.bb (.call env.putchar [data])
  some { st with prog := p }

/-- main.rs:296-305 `generate_get`. -/
def get (env : Env) (st : St) : Option St := do
  let (p, call) ← addNew env.main st.prog st.bb (.call env.getchar [])
  let (p, load) ← addNew env.main p st.bb (.load env.ptr)
  let (p, _) ← addNew env.main p st.bb (.store call load)
  some { st with prog := p }

/-- main.rs:201-212: one byte of the input; the inner `none` is `Err(Error::Parse)`. -/
def step (env : Env) (st : St) (c : Char) : Option (Option St) :=
  if c = '>' then (ptrOp env st 1).map some
  else if c = '<' then (ptrOp env st (-1)).map some
  else if c = '+' then (dataOp env st 1).map some
  else if c = '-' then (dataOp env st (-1)).map some
  else if c = '[' then (start env st).map some
  else if c = ']' then finish env st
  else if c = '.' then (put env st).map some
  else if c = ',' then (get env st).map some
  else some (some st)

/-- main.rs:200-214: the loop over the input. -/
def loop (env : Env) : St → List Char → Option (Option St)
  | st, [] => some (some st)
  | st, c :: cs => match step env st c with
    | none => none
    | some none => some none
    | some (some st) => loop env st cs

/-- main.rs:163-176, 190-199: the entry block, up to the loop over the input. `env.ptr` becomes the
local variable that holds the data pointer. -/
def enter (env : Env) (p : Program) : Option (Env × Value × St) := do
  let (p, entry) ← addBb env.main p (some "%entry".toList)
  let (p, ptr) ← p.newLocal env.main (.alloc (.ptr .i32))
  let p ← p.setLocalName env.main ptr (some "%ptr".toList)
  let p ← p.pushInst env.main entry ptr
  let (p, zero) ← p.newLocal env.main (.val (.integer 0))
  let (p, dataPtr) ← addNew env.main p entry (.getElemPtr env.ptr zero)
  let (p, _) ← addNew env.main p entry (.store dataPtr ptr)
  let (p, bb) ← addBb env.main p none
  let (p, _) ← addNew env.main p entry (.jump bb)
  some ({ env with ptr }, zero, { prog := p, bb, loops := [] })

/-- main.rs:178-187: the end block. -/
def leave (env : Env) (zero : Value) (st : St) : Option Program := do
  let (p, endBb) ← addBb env.main st.prog (some "%end".toList)
  let (p, _) ← addNew env.main p st.bb (.jump endBb)
  let (p, _) ← addNew env.main p endBb (.ret (some zero))
  some p

/-- main.rs:89-101: the data array, the declarations and the (empty) main function. -/
def prelude (ids : Ids) : Option (Env × Program) := do
  let p := Program.new ids
  let arr ← Ty.getArray .i32 65536
  let (p, zero) ← p.newGlobal (.val (.zeroInit arr))
  let (p, ptr) ← p.newGlobal (.globalAlloc zero)
  let p ← p.setGlobalName ptr (some "@data_arr".toList)
  let (p, putchar) ← p.newFuncDecl "@putchar".toList [.i32] .i32
  let (p, getchar) ← p.newFuncDecl "@getchar".toList [] .i32
  let (p, main) ← p.newFuncDef "@main".toList [] .i32
  some ({ ptr, putchar, getchar, main }, p)

/-- main.rs:89-112 `build_program`, with the id counters starting at `ids`: a panic (`none`),
`Err(Error::Parse)` (`some none`) or the program. -/
def build (ids : Ids) (input : List Char) : Option (Option Program) := do
  let (env, p) ← prelude ids
  let (env, zero, st) ← enter env p
  match ← loop env st input with
  | none => some none
  | some st => (leave env zero st).map some

end Koopa.Bf
