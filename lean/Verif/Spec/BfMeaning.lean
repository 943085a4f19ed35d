import Verif.Spec.Brainfuck
/-!
What a Brainfuck text means: a machine with a tape of 65536 integers, a position in the text and a data pointer.
-/
namespace Koopa.Spec

/-- Writing and reading one character; `none` if the outside world refuses. -/
structure BfIo (σ : Type) where
  put : I32 → σ → Option (I32 × σ)
  get : σ → Option (I32 × σ)

/-- The machine: position in the text, position on the tape, the tape, the outside world. -/
structure BfState (σ : Type) where
  pos : Nat
  ptr : Nat
  tape : Nat → I32
  world : σ

/-- The number of cells. -/
def bfCells : Nat := 65536

/-- The `]` at `j` closes the `[` at `i`. -/
def BfMatch (w : List Char) (i j : Nat) : Prop :=
  i < j ∧ w[i]? = some '[' ∧ w[j]? = some ']' ∧ BracketsBalanced ((w.drop (i + 1)).take (j - i - 1))

/-- `n` is the sum of `a` and `d`: the exact sum if overflow is checked, the sum modulo 2^32 otherwise. -/
def BfSum (chk : Bool) (a : I32) (d : Int) (n : I32) : Prop :=
  n.toInt = (a.toInt + d).bmod (2 ^ 32) ∧ (chk = true → n.toInt = a.toInt + d)

/-- The cell at the data pointer. -/
def BfState.cell {σ : Type} (s : BfState σ) : I32 := s.tape s.ptr

/-- The machine after one command that writes the cell. -/
def BfState.write {σ : Type} (s : BfState σ) (n : I32) : BfState σ :=
  { s with pos := s.pos + 1, tape := fun i => if i = s.ptr then n else s.tape i }

/-- One command. -/
inductive BfNext {σ : Type} (io : BfIo σ) (chk : Bool) (w : List Char) (s : BfState σ) : BfState σ → Prop
  | right : w[s.pos]? = some '>' → s.ptr + 1 < bfCells → BfNext io chk w s { s with pos := s.pos + 1, ptr := s.ptr + 1 }
  | left : w[s.pos]? = some '<' → 0 < s.ptr → BfNext io chk w s { s with pos := s.pos + 1, ptr := s.ptr - 1 }
  | inc {n} : w[s.pos]? = some '+' → BfSum chk s.cell 1 n → BfNext io chk w s (s.write n)
  | dec {n} : w[s.pos]? = some '-' → BfSum chk s.cell (-1) n → BfNext io chk w s (s.write n)
  | put {n v} : w[s.pos]? = some '.' → io.put s.cell s.world = some (n, v) →
      BfNext io chk w s { s with pos := s.pos + 1, world := v }
  | get {n v} : w[s.pos]? = some ',' → io.get s.world = some (n, v) → BfNext io chk w s { s.write n with world := v }
  | enter : w[s.pos]? = some '[' → s.cell.toInt ≠ 0 → BfNext io chk w s { s with pos := s.pos + 1 }
  | skip {j} : s.cell.toInt = 0 → BfMatch w s.pos j → BfNext io chk w s { s with pos := j + 1 }
  | again {i} : s.cell.toInt ≠ 0 → BfMatch w i s.pos → BfNext io chk w s { s with pos := i + 1 }
  | leave : w[s.pos]? = some ']' → s.cell.toInt = 0 → BfNext io chk w s { s with pos := s.pos + 1 }
  | comment {c} : w[s.pos]? = some c → c ∉ ['>', '<', '+', '-', '.', ',', '[', ']'] → BfNext io chk w s { s with pos := s.pos + 1 }

/-- How a run ends: it reaches the end of the text, it fails (leaving the tape or refused by the outside world), or it
crashes (an overflow, if these are checked). -/
inductive BfResult (σ : Type) where
  | halted (v : σ)
  | failed (v : σ)
  | crashed

/-- The machine stops. -/
inductive BfStop {σ : Type} (io : BfIo σ) (chk : Bool) (w : List Char) (s : BfState σ) : BfResult σ → Prop
  | halted : s.pos = w.length → BfStop io chk w s (.halted s.world)
  | right : w[s.pos]? = some '>' → s.ptr + 1 = bfCells → BfStop io chk w s (.failed s.world)
  | left : w[s.pos]? = some '<' → s.ptr = 0 → BfStop io chk w s (.failed s.world)
  | put : w[s.pos]? = some '.' → io.put s.cell s.world = none → BfStop io chk w s (.failed s.world)
  | get : w[s.pos]? = some ',' → io.get s.world = none → BfStop io chk w s (.failed s.world)
  | inc : w[s.pos]? = some '+' → (∀ n, ¬ BfSum chk s.cell 1 n) → BfStop io chk w s .crashed
  | dec : w[s.pos]? = some '-' → (∀ n, ¬ BfSum chk s.cell (-1) n) → BfStop io chk w s .crashed

/-- Some number of commands. -/
inductive BfSteps {σ : Type} (io : BfIo σ) (chk : Bool) (w : List Char) : Nat → BfState σ → BfState σ → Prop
  | refl (s) : BfSteps io chk w 0 s s
  | step {n s t u} : BfNext io chk w s t → BfSteps io chk w n t u → BfSteps io chk w (n + 1) s u

/-- The machine at the beginning: an empty tape. -/
def bfStart {σ : Type} (v : σ) : BfState σ := { pos := 0, ptr := 0, tape := fun _ => 0, world := v }

/-- The text, run in the outside world `v`, ends with the result `r`. -/
def BfRuns {σ : Type} (io : BfIo σ) (chk : Bool) (w : List Char) (v : σ) (r : BfResult σ) : Prop :=
  ∃ n s, BfSteps io chk w n (bfStart v) s ∧ BfStop io chk w s r

/-- The text, run in the outside world `v`, runs for ever. -/
def BfForever {σ : Type} (io : BfIo σ) (chk : Bool) (w : List Char) (v : σ) : Prop :=
  ∀ n, ∃ s, BfSteps io chk w n (bfStart v) s

end Koopa.Spec
