import Verif.Spec.Position
/-!
What a message shows of the file, written without the functions that print it: rows of text with a gutter for the line numbers.
-/
namespace Koopa.Spec

/-- A line as it is shown: tabs are two columns wide. -/
def shown : Str → Str
  | [] => []
  | c :: s => if c = '\t' then ' ' :: ' ' :: shown s else c :: shown s

/-- A number at the right of `w` columns. -/
def numAt (w n : Nat) : Str :=
  let d := Nat.toDigits 10 n
  List.replicate (w - d.length) ' ' ++ d

/-- Rows of text. -/
def rows (rs : List Str) : Str := rs.flatMap (· ++ ['\n'])

/-- The part `s` of line `k`, which is `a ++ s ++ z`: the line, and carets below exactly the columns of `s`. -/
def onePicture (w k : Nat) (a s z : Str) : Str := rows
  [List.replicate w ' ' ++ " |".toList,
   numAt w k ++ " | ".toList ++ (shown a ++ shown s ++ shown z),
   List.replicate w ' ' ++ " | ".toList ++ ((shown a).map (fun _ => ' ') ++ (shown s).map (fun _ => '^'))]

/-- The rows of whole lines from number `k` on. -/
def wholeRows (w : Nat) : Nat → List Str → List Str
  | _, [] => []
  | k, l :: ls => (numAt w k ++ " | | ".toList ++ shown l) :: wholeRows w (k + 1) ls

/-- The rows between the first and the last line: at most four lines, or the first two, dots and the last. -/
def middleRows (w k : Nat) (ms : List Str) : List Str :=
  if ms.length ≤ 4 then wholeRows w k ms
  else wholeRows w k (ms.take 2) ++ [List.replicate w '.' ++ " | |".toList] ++ wholeRows w (k + ms.length - 1) (ms.drop (ms.length - 1))

/-- From the character `c` of line `k`, which is `a ++ c :: z`, over the lines `ms` to the character `d` of a line `a' ++ d :: z'`: the carets are below
`c` and `d`. -/
def manyPicture (w k : Nat) (a : Str) (c : Char) (z : Str) (ms : List Str) (a' : Str) (d : Char) (z' : Str) : Str := rows
  ([List.replicate w ' ' ++ " |".toList,
    numAt w k ++ " |   ".toList ++ shown (a ++ c :: z),
    List.replicate w ' ' ++ " |  _".toList ++ (shown a).map (fun _ => '_') ++ "^".toList] ++
   middleRows w (k + 1) ms ++
   [numAt w (k + ms.length + 1) ++ " | | ".toList ++ shown (a' ++ d :: z'),
    List.replicate w ' ' ++ " | |_".toList ++ (shown a').map (fun _ => '_') ++ "^".toList])

/-- The line above the picture. -/
def headline (path : Str) (p : Pos) : Str :=
  "  at ".toList ++ path ++ ":".toList ++ Nat.toDigits 10 p.line ++ ":".toList ++ Nat.toDigits 10 p.col ++ "\n".toList

/-- The end of a line: a line break, with a carriage return before it or not. -/
def brk (cr : Bool) : Str := if cr then ['\r', '\n'] else ['\n']

/-- The content of a line: no line break, and no carriage return at its end. -/
def OneLine (l : Str) : Prop := '\n' ∉ l ∧ l.getLast? ≠ some '\r'

/-- Lines with their ends. -/
def joined (ls : List (Str × Bool)) : Str := ls.flatMap (fun l => l.1 ++ brk l.2)

/-- The character number `n`, counted from 1, is a carriage return before a line break. -/
def AtCr (text : Str) (n : Nat) : Prop := ∃ r, text.drop (n - 1) = '\r' :: '\n' :: r

/-- Only ASCII characters, and no line longer than 32767 characters. -/
structure Plain (text : Str) : Prop where
  ascii : ∀ c ∈ text, c.toNat < 128
  short : ∀ l, l <:+: text → '\n' ∉ l → l.length < 32768

end Koopa.Spec
