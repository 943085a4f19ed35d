import Verif.Model.Front.Builder
import Verif.Model.Front.Parser
/-!
Model of koopa/src/front/driver.rs and of the thread-local state of span.rs it uses.
`none` is a panic.
-/
namespace Koopa

/-- span.rs:113-121 `STATE` of the thread (without the file), and the process-wide id counters. -/
structure World where
  errs : Nat
  warns : Nat
  ids : Ids
deriving Repr

/-- driver.rs:17-20 `Driver`. -/
structure Driver where
  parser : Except FErr PS
  builder : BS

/-- driver.rs:24 `MAX_ERR_NUM`. -/
def maxErrNum : Nat := 20

/-- driver.rs:27-33 `Driver::new` with span.rs:129-137 `Span::reset`. The parser reads the first
token. `input` are the characters the reader delivers, `fail` tells whether it then fails. -/
def Driver.new (w : World) (input : Str) (fail : Bool) : Option (Driver × World) :=
  match PS.new (Lex.new input fail) 0 with
  | none => none
  | some (.ok (), s) => some (⟨.ok s, BS.new w.ids⟩, { w with errs := s.errs, warns := 0 })
  | some (.error e, s) => some (⟨.error e, BS.new w.ids⟩, { w with errs := s.errs, warns := 0 })

/-- driver.rs:39-53: the loop of `generate_program`. Parser and builder share the error counter.
The result is `true` if the loop was left at the end of the input. -/
def driverLoop : (fuel : Nat) → PS → BS → Option (Bool × BS)
  | 0, _, _ => none
  | n + 1, s, b => match s.parseNext with
    | none => none
    | some (.error _, s) => some (false, { b with errs := s.errs })
    | some (.ok .eof, s) => some (true, { b with errs := s.errs })
    | some (.ok ast, s) => match buildOn ast { b with errs := s.errs } with
      | none => none
      | some (_, b) =>
        if b.errs > maxErrNum then some (false, { b with errs := b.errs + 1 })
        else driverLoop n { s with errs := b.errs } b

/-- Fuel that suffices for `driverLoop`: every tree consumes a token. -/
def PS.loopFuel (s : PS) : Nat := s.size + 1

/-- The builder when `generate_program` is called, with the shared counters. Its program has no
entities yet, so the id counters are those of the world. -/
def Driver.start (d : Driver) (w : World) : BS :=
  { d.builder with prog := { d.builder.prog with ids := w.ids }, errs := w.errs, warns := w.warns }

/-- driver.rs:37-63 `generate_program`. The program or `none` for `Err`, and the world afterwards. -/
def Driver.generate (d : Driver) (w : World) : Option (Option Program × World) :=
  match d.parser with
  | .error _ => some (none, w)
  | .ok s =>
    match driverLoop s.loopFuel { s with errs := w.errs } (d.start w) with
    | none => none
    | some (ended, b) =>
      let w' : World := { errs := b.errs, warns := b.warns, ids := b.prog.ids }
      if ended && b.errs = 0 then some (some b.prog, w') else some (none, w')

/-- `Driver::from(text).generate_program()`. -/
def generate (w : World) (input : Str) (fail : Bool) : Option (Option Program × World) :=
  match Driver.new w input fail with
  | none => none
  | some (d, w) => d.generate w

end Koopa
