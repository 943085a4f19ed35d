import Verif.Model.Back.Llvm
import Verif.Model.Lib.Ffi
/-!
Generators whose writer may fail (`std::io::Write`), and the dump functions of the C interface on files.

A writer is given by the number of bytes it takes before it fails, or `none` if it never fails. This covers every
writer: a visitor returns at the first error, so that nothing is written after it. A failing `write_all` may have written
some of its bytes, here as many as the writer takes. A visitor asks for all names in one `write!` before it
writes, here for one name after the other: the names known to the name manager after a failure may differ, the scope does not. The parts of the visitor
that panic are taken to panic before anything is written.
-/
namespace Koopa

/-- Whether a writer that takes `room` more bytes takes `n`. -/
def takesBytes (room : Option Nat) (n : Nat) : Bool :=
  match room with
  | none => true
  | some r => decide (n ≤ r)

/-- koopa.rs, llvm.rs: the writes of a visitor, with `?` behind each. Whether all succeeded, the bytes written, the name
manager afterwards; `none` is a panic. -/
def writePieces (room : Option Nat) (m : NM) : List Piece → Option (Bool × List UInt8 × NM)
  | [] => some (true, [], m)
  | x :: xs => match x.run m with
    | none => none
    | some (s, m) =>
      let bs := Lib.utf8 s
      if takesBytes room bs.length then match writePieces (room.map (· - bs.length)) m xs with
        | none => none
        | some (ok, cs, m) => some (ok, bs ++ cs, m)
      else some (false, bs.take (room.getD 0), m)

/-- What a visitor is here: the pieces it writes for a program. -/
abbrev VisitorOf := Program → Option (List Piece)

/-- generator.rs:314-318 `generate_on`, with a writer that takes `room` bytes. -/
def generateOn (V : VisitorOf) (room : Option Nat) (m : NM) (p : Program) : Option (Bool × List UInt8 × NM) :=
  match V p with
  | none => none
  | some ps => writePieces room m ps

namespace Lib

/-- back.rs:16-24 `dump_to_file`. `create` tells for every path if the file can be created and how many bytes it takes. The code and the bytes written. -/
def dumpFile (V : VisitorOf) (create : String → Option (Option Nat)) (p : Program) (path : List UInt8) : Option (Code × List UInt8) :=
  match toStr path with
  | none => some (.invalidUtf8String, [])
  | some path => match create path with
    | none => some (.invalidFile, [])
    | some room => match generateOn V room NM.new p with
      | none => none
      | some (ok, bs, _) => some (if ok then .success else .ioError, bs)

/-- back.rs:53-60, 66-73 `dump_to_stdout` and `dump_to_raw`. The buffer of the standard output is taken for part of the writer: what it
takes counts as written. -/
def dumpRaw (V : VisitorOf) (room : Option Nat) (p : Program) : Option (Code × List UInt8) :=
  match generateOn V room NM.new p with
  | none => none
  | some (ok, bs, _) => some (if ok then .success else .ioError, bs)

end Lib
end Koopa
