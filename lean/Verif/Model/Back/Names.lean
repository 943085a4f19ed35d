import Verif.Util.Show
import Verif.Util.Map
/-!
Model of koopa/src/back/generator.rs: the name manager.

Entities are identified by their handles; the code uses the addresses of their data, which are in
one-to-one correspondence with the handles while the program is not changed. The requests a visitor
makes are represented by `Piece`s: texts and names in the order in which they are written.
-/
namespace Koopa

/-- generator.rs:196-216 `Prefix`. -/
inductive Prefix where
  | default
  | custom (named temp : Str) (maxLen : Option Nat)
deriving DecidableEq, Repr

/-- `String::truncate`, in bytes; `none` is the panic if the new length lies within a character. -/
def truncate : Nat → Str → Option Str
  | _, [] => some []
  | 0, _ :: _ => some []
  | n + 1, c :: s => if c.utf8Size ≤ n + 1 then (truncate (n + 1 - c.utf8Size) s).map (c :: ·) else none

/-- generator.rs:220-239 `Prefix::name`; `none` is the panic of `&name[1..]` or of `truncate`. -/
def Prefix.name (p : Prefix) (name : Str) : Option Str :=
  match p with
  | .default => some name
  | .custom named temp maxLen =>
    match (match name with
      | '@' :: name => some (named ++ name)
      | [] => none
      | c :: name => if c.utf8Size = 1 then some (temp ++ name) else none) with
    | none => none
    | some name => match maxLen with
      | none => some name
      | some n => truncate n name

/-- generator.rs:242-247 `Prefix::temp_name`. -/
def Prefix.tempName (p : Prefix) (id : Nat) : Str :=
  match p with
  | .default => '%' :: showNat id
  | .custom _ temp _ => temp ++ showNat id

/-- generator.rs:20-30 `NameManager`. `temps` holds the local variables `temp_name` and `temp` of
`visit_binary` and `visit_branch` (llvm.rs:292, 335), by instruction. -/
structure NM where
  nextId : Nat
  inFunc : Bool
  pre : Prefix
  globalNames : List Str
  bbNames : List Str
  globalVars : Map Value Str
  funcs : Map Func Str
  bbs : Map BB Str
  values : Map Value Str
  temps : Map Value Str

/-- generator.rs:34-36 `NameManager::new`. -/
def NM.new : NM := ⟨0, false, .default, [], [], .empty, .empty, .empty, .empty, .empty⟩

/-- generator.rs:44-51 `enter_func_scope`. -/
def NM.enter (m : NM) : Option NM :=
  if m.inFunc then none else some { m with inFunc := true, values := .empty, temps := .empty }

/-- generator.rs:59-70 `exit_func_scope`. -/
def NM.exit (m : NM) : Option NM :=
  if m.inFunc then
    some { m with inFunc := false, bbNames := [], bbs := .empty,
                  globalNames := (m.values.entries.map (·.2)).foldl (fun s n => setErase n s) m.globalNames }
  else none

/-- generator.rs:175: the name with a number. -/
def suffixed (name : Str) (id : Nat) : Str := name ++ '_' :: showNat id

/-- generator.rs:174-180: the loop over `id`. The fuel makes it total; one more than the number of
names suffices, as the candidates differ. -/
def pickSuffix (names : List Str) (name : Str) : (fuel id : Nat) → Option Str
  | 0, _ => none
  | n + 1, id => if suffixed name id ∈ names then pickSuffix names name n (id + 1) else some (suffixed name id)

/-- generator.rs:168-181: the name that `next_name_str` chooses, given the names in use. -/
def pickName (names : List Str) (name : Str) : Option Str :=
  if name ∈ names then pickSuffix names name (names.length + 1) 0 else some name

/-- generator.rs:141-183 `next_name` and `next_name_str`: the name and the names then in use. -/
def NM.nextName (m : NM) (names : List Str) (name : Option Str) : Option (Str × List Str × NM) :=
  match name with
  | none =>
    let n := m.pre.tempName m.nextId
    some (n, setInsert n names, { m with nextId := m.nextId + 1 })
  | some name => match m.pre.name name with
    | none => none
    | some name => match pickName names name with
      | none => none
      | some n => some (n, setInsert n names, m)

/-- generator.rs:78-87 `func_name`. -/
def NM.funcName (m : NM) (f : Func) (name : Str) : Option (Str × NM) :=
  match m.funcs.get? f with
  | some n => some (n, m)
  | none => match m.nextName m.globalNames (some name) with
    | none => none
    | some (n, ns, m) => some (n, { m with globalNames := ns, funcs := m.funcs.insert f n })

/-- generator.rs:90-99 `bb_name`. -/
def NM.bbName (m : NM) (b : BB) (name : Option Str) : Option (Str × NM) :=
  match m.bbs.get? b with
  | some n => some (n, m)
  | none => match m.nextName m.bbNames name with
    | none => none
    | some (n, ns, m) => some (n, { m with bbNames := ns, bbs := m.bbs.insert b n })

/-- generator.rs:106-128 `value_name` for a global allocation. -/
def NM.globalName (m : NM) (v : Value) (name : Option Str) : Option (Str × NM) :=
  match m.globalVars.get? v with
  | some n => some (n, m)
  | none => match m.nextName m.globalNames name with
    | none => none
    | some (n, ns, m) => some (n, { m with globalNames := ns, globalVars := m.globalVars.insert v n })

/-- generator.rs:106-128 `value_name` for any other value that is no constant. -/
def NM.valueName (m : NM) (v : Value) (name : Option Str) : Option (Str × NM) :=
  match m.values.get? v with
  | some n => some (n, m)
  | none => match m.nextName m.globalNames name with
    | none => none
    | some (n, ns, m) => some (n, { m with globalNames := ns, values := m.values.insert v n })

/-- generator.rs:131-133 `temp_value_name`, remembered for the instruction. -/
def NM.tempOf (m : NM) (v : Value) : Option (Str × NM) :=
  match m.temps.get? v with
  | some n => some (n, m)
  | none => match m.nextName m.globalNames none with
    | none => none
    | some (n, ns, m) => some (n, { m with globalNames := ns, temps := m.temps.insert v n })

/-- What a visitor writes: a text, the name of an entity (with the name chosen for it), the name of a
block without its first character; and the calls that set the prefix or change the scope. -/
inductive Piece where
  | lit (s : Str)
  | func (f : Func) (name : Str)
  | bb (b : BB) (name : Option Str)
  | label (b : BB) (name : Option Str)
  | global (v : Value) (name : Option Str)
  | value (v : Value) (name : Option Str)
  | temp (inst : Value)
  | setPrefix (p : Prefix)
  | enter
  | exit
deriving DecidableEq, Repr

/-- generator.rs:73-75 `set_prefix`, and the methods above. -/
def Piece.run (m : NM) : Piece → Option (Str × NM)
  | .lit s => some (s, m)
  | .func f name => m.funcName f name
  | .bb b name => m.bbName b name
  | .label b name => match m.bbName b name with
    | none => none
    | some ([], _) => none
    | some (_ :: s, m) => some (s, m)
  | .global v name => m.globalName v name
  | .value v name => m.valueName v name
  | .temp v => m.tempOf v
  | .setPrefix p => some ([], { m with pre := p })
  | .enter => m.enter.map (fun m => ([], m))
  | .exit => m.exit.map (fun m => ([], m))

/-- The text written for a sequence of pieces, and the name manager afterwards. -/
def runPieces (m : NM) : List Piece → Option (Str × NM)
  | [] => some ([], m)
  | x :: xs => match x.run m with
    | none => none
    | some (s, m) => match runPieces m xs with
      | none => none
      | some (s', m) => some (s ++ s', m)

end Koopa
