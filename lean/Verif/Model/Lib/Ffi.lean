import Verif.Model.Front.Driver
import Verif.Model.Back.Koopa
import Verif.Model.Back.Llvm
/-!
Model of the C interface: libkoopa/src/driver.rs and libkoopa/src/back.rs. `none` is a panic.

C strings are given by their bytes up to the terminating NUL, memory is a function from addresses to
bytes, and `Box::into_raw` returns an address that was not used before. Undefined behaviour because of
invalid pointers is not modelled; nor is failure of writing to files.
-/
namespace Koopa.Lib

/-- errors.rs:3-27 `ErrorCode`. -/
inductive Code where
  | success
  | invalidUtf8String
  | invalidFile
  | invalidKoopaProgram
  | ioError
  | nullByteError
  | insufficientBufferLength
  | rawSliceItemKindMismatch
  | nullPointerError
  | typeMismatch
  | funcParamNumMismatch
deriving DecidableEq, Repr

/-- The programs that were handed out, by address, and the next address. -/
structure Heap where
  next : Nat
  progs : Map Nat Program

/-- utils.rs:4-6 `new_pointer`. -/
def Heap.newPointer (h : Heap) (p : Program) : Heap × Nat :=
  ({ next := h.next + 1, progs := h.progs.insert h.next p }, h.next)

/-- utils.rs:13-15 `drop_pointer`, driver.rs:78-80 `koopa_delete_program`. -/
def Heap.deleteProgram (h : Heap) (a : Nat) : Heap := { h with progs := h.progs.erase a }

/-- What the parse functions read and write: thread-local state and counters, the heap, and the handle
variable of the caller. -/
structure St where
  world : World
  heap : Heap
  slot : Nat

/-- What a reader delivers: bytes, and whether it then fails. -/
structure Input where
  bytes : List UInt8
  fail : Bool

/-- lexer.rs:77: the lexer takes every byte for a character. -/
def latin1 (bs : List UInt8) : Str := bs.map (fun b => Char.ofNat b.toNat)

/-- `CStr::to_str`. -/
def toStr (bs : List UInt8) : Option String := String.fromUTF8? ⟨bs.toArray⟩

/-- driver.rs:22-24, 41-43, 53-55, 66-68: the common end of the parse functions. -/
def finish (s : St) (i : Input) : Option (Code × St) :=
  match generate s.world (latin1 i.bytes) i.fail with
  | none => none
  | some (none, w) => some (.invalidKoopaProgram, { s with world := w })
  | some (some p, w) =>
    let (h, a) := s.heap.newPointer p
    some (.success, { world := w, heap := h, slot := a })

/-- driver.rs:19-25 `koopa_parse_from_file`; `fs` opens files. -/
def parseFromFile (fs : String → Option Input) (path : List UInt8) (s : St) : Option (Code × St) :=
  match toStr path with
  | none => some (.invalidUtf8String, s)
  | some path => match fs path with
    | none => some (.invalidFile, s)
    | some i => finish s i

/-- driver.rs:37-44 `koopa_parse_from_string`. The driver reads the bytes of the string. -/
def parseFromString (text : List UInt8) (s : St) : Option (Code × St) :=
  match toStr text with
  | none => some (.invalidUtf8String, s)
  | some _ => finish s ⟨text, false⟩

/-- driver.rs:50-56 `koopa_parse_from_stdin`. -/
def parseFromStdin (stdin : Input) (s : St) : Option (Code × St) := finish s stdin

/-- driver.rs:63-69 `koopa_parse_from_raw`. -/
def parseFromRaw (file : Input) (s : St) : Option (Code × St) := finish s file

/-- Memory of the process. -/
abbrev Mem := Nat → UInt8

/-- The bytes of a generated text: the writers encode in UTF-8. -/
def utf8 (s : Str) : List UInt8 := s.flatMap String.utf8EncodeChar

/-- `copy_from_slice` to the memory at `a`. -/
def Mem.write (m : Mem) (a : Nat) (bs : List UInt8) : Mem := fun x =>
  if a ≤ x then match bs[x - a]? with
    | some b => b
    | none => m x
  else m x

/-- back.rs:31-49 `dump_to_string`. `gen` is the generator, `buffer = 0` the null pointer. -/
def dumpToString (gen : NM → Program → Option (Str × NM)) (p : Program) (buffer len : Nat) (m : Mem) : Option (Code × Nat × Mem) :=
  match gen NM.new p with
  | none => none
  | some (s, _) =>
    let bs := utf8 s
    if 0 ∈ bs then some (.nullByteError, len, m)
    else
      let bytes := bs ++ [0]
      if buffer = 0 then some (.success, bytes.length - 1, m)
      else if len < bytes.length then some (.insufficientBufferLength, len, m)
      else some (.success, len, m.write buffer bytes)

/-- back.rs:90-92 `koopa_dump_to_string`. -/
def koopaDumpToString := dumpToString koopaGenerate

/-- back.rs:119-121 `koopa_dump_llvm_to_string`. -/
def koopaDumpLlvmToString (o : UserOrder) := dumpToString (llvmGenerate o)

end Koopa.Lib
