import Verif.Model.Front.Token
/-!
Model of the positions of koopa/src/front/span.rs and of the messages printed for them (feature `no-front-logger` off).

Simplifications: `u32` is `Nat`; colours are off, as when the error output is not a terminal; the widths of line numbers, which the code computes with
`f32` logarithms (span.rs:358, 377), are a parameter; the characters of a text are its bytes. A file is its content at the time of the message, `none` if
it cannot be opened. Panics are `none`.
-/
namespace Koopa

/-- span.rs:427-430 `Pos`. -/
structure Pos where
  line : Nat
  col : Nat
deriving DecidableEq, Repr

/-- span.rs:433-436 `Pos::new`. -/
def Pos.new : Pos := ⟨1, 0⟩

/-- span.rs:438-447 `Pos::update`. -/
def Pos.update (p : Pos) (c : Char) : Pos := if c = '\n' then ⟨p.line + 1, 0⟩ else ⟨p.line, p.col + 1⟩

/-- span.rs:72-75 `Span`; span.rs:125-127 `Span::new` gives `⟨pos, pos⟩`. -/
structure Span where
  start : Pos
  stop : Pos
deriving DecidableEq, Repr

/-- span.rs:294-299 `into_updated_span` (and 302-304 `update_span`). -/
def Span.upTo (s t : Span) : Span := ⟨s.start, t.stop⟩

/-- Continuation bytes of UTF-8. -/
def isCont (c : Char) : Bool := decide (128 ≤ c.toNat) && decide (c.toNat < 192)

/-- Whether bytes are UTF-8 (`String::from_utf8` of the standard library). -/
def utf8Ok : Str → Bool
  | [] => true
  | a :: r =>
    if a.toNat < 128 then utf8Ok r
    else if a.toNat < 194 then false
    else if a.toNat < 224 then match r with
      | b :: r => isCont b && utf8Ok r
      | _ => false
    else if a.toNat < 240 then match r with
      | b :: c :: r => isCont b && isCont c && (a.toNat != 224 || decide (160 ≤ b.toNat)) && (a.toNat != 237 || decide (b.toNat < 160)) && utf8Ok r
      | _ => false
    else if a.toNat < 245 then match r with
      | b :: c :: d :: r => isCont b && isCont c && isCont d && (a.toNat != 240 || decide (144 ≤ b.toNat)) &&
          (a.toNat != 244 || decide (b.toNat < 144)) && utf8Ok r
      | _ => false
    else false

/-- `BufRead::lines` of the standard library: the pieces that end with a line break, without it and without a `\r` before it, and a last piece that is not
empty and has no line break. `acc` is the current line backwards. -/
def bufLines : (acc : Str) → Str → List Str
  | [], [] => []
  | acc, [] => [acc.reverse]
  | acc, c :: s =>
    if c = '\n' then
      (match acc with
        | '\r' :: acc => acc.reverse
        | acc => acc.reverse) :: bufLines [] s
    else bufLines (c :: acc) s

/-- `r.unwrap()` on an item of `BufRead::lines`, and `map_or("".into(), ..)` (span.rs:81-104): a panic if the line is not UTF-8. -/
def lineStr : Option Str → Option Str
  | none => some []
  | some l => if utf8Ok l then some l else none

/-- `&line[..n]` of a string: a panic if `n` is beyond the end or inside a character. -/
def cutAt (l : Str) (n : Nat) : Option Str :=
  if l.length < n then none
  else if (l.drop n).head?.any isCont then none
  else some (l.take n)

/-- `line.replace('\t', "  ")` with `TAB_WIDTH` = 2 (span.rs:83, 91, 101, 109-110). -/
def expandTabs (l : Str) : Str := l.flatMap (fun c => if c = '\t' then [' ', ' '] else [c])

/-- `.matches('\t').count()`. -/
def tabs (l : Str) : Nat := l.count '\t'

/-- A padded empty string, as `{:w$}`, `{:^>w$}`, `{:_>w$}` and `{:.>w$}` of `""`: the standard library panics for widths that do not fit in 16 bits. -/
def pad (c : Char) (w : Nat) : Option Str := if w < 65536 then some (List.replicate w c) else none

/-- `{:w$}` of a number, for the width of the line numbers. -/
def padNum (w n : Nat) : Str := List.replicate (w - (Nat.toDigits 10 n).length) ' ' ++ Nat.toDigits 10 n

/-- span.rs:85-92 `get_line_str!` with one column. -/
def lineCol (l : Option Str) (col : Nat) : Option (Str × Nat) :=
  match lineStr l with
  | none => none
  | some l => (cutAt l col).map (fun x => (expandTabs l, col + tabs x))

/-- span.rs:93-104 `get_line_str!` with two columns. -/
def lineCols (l : Option Str) (col1 col2 : Nat) : Option (Str × Nat × Nat) :=
  match lineStr l with
  | none => none
  | some l => match cutAt l col1, cutAt l col2 with
    | some x, some y =>
      if col2 < col1 then none
      else some (expandTabs l, col1 + tabs x, col2 + (tabs x + tabs (y.drop col1)))
    | _, _ => none

/-- span.rs:349-368 `print_single_line_info`; `w` is the width of the line number. -/
def Span.single (w : Nat) (s : Span) (lines : List Str) : Option Str :=
  if s.start.line = 0 then none
  else match lineCols lines[s.start.line - 1]? s.start.col s.stop.col with
    | none => none
    | some (line, c1, c2) =>
      if c1 = 0 then none
      else match pad ' ' (c1 - 1), pad '^' (c2 - c1 + 1) with
        | some leading, some marks => some
          (List.replicate w ' ' ++ " |\n".toList ++ (padNum w s.start.line ++ " | ".toList ++ (line ++ "\n".toList)) ++
            (List.replicate w ' ' ++ " | ".toList ++ (leading ++ (marks ++ "\n".toList))))
        | _, _ => none

/-- span.rs:387-391, 394-398: `n` whole lines, the first of which is number `k` and the next in the list. -/
def wholeLines (w : Nat) : (n k : Nat) → List Str → Option Str
  | 0, _, _ => some []
  | n + 1, k, lines => match lineStr lines.head?, wholeLines w n (k + 1) lines.tail with
    | some l, some r => some (padNum w k ++ " | | ".toList ++ (expandTabs l ++ "\n".toList) ++ r)
    | _, _ => none

/-- span.rs:385-404: the `mid` lines between the first, which is the head of `lines`, and the last. The line of dots does not end (399: `eprint!`). -/
def Span.middle (w : Nat) (s : Span) (mid : Nat) (lines : List Str) : Option Str :=
  if mid ≤ 4 then wholeLines w mid (s.start.line + 1) lines.tail
  else match wholeLines w 2 (s.start.line + 1) lines.tail, wholeLines w 1 (s.stop.line - 1) (lines.drop mid) with
    | some a, some b => some (a ++ (List.replicate w '.' ++ " | |".toList) ++ b)
    | _, _ => none

/-- span.rs:374-413 `print_multi_line_info`. -/
def Span.multi (w : Nat) (s : Span) (lines : List Str) : Option Str :=
  if s.start.line = 0 ∨ s.stop.line ≤ s.start.line then none
  else
    let lines := lines.drop (s.start.line - 1)
    match lineCol lines.head? s.start.col with
    | none => none
    | some (first, start) =>
      let mid := s.stop.line - s.start.line - 1
      match s.middle w mid lines, lineCol (lines.drop (mid + 1)).head? s.stop.col with
      | some middle, some (last, stop) => match pad '_' start, pad '_' stop with
        | some a, some b => some
          (List.replicate w ' ' ++ " |\n".toList ++ (padNum w s.start.line ++ " |   ".toList ++ (first ++ "\n".toList)) ++
            (List.replicate w ' ' ++ " |  ".toList ++ (a ++ "^\n".toList)) ++ middle ++
            (padNum w s.stop.line ++ " | | ".toList ++ (last ++ "\n".toList)) ++ (List.replicate w ' ' ++ " | |".toList ++ (b ++ "^\n".toList)))
        | _, _ => none
      | _, _ => none

/-- span.rs:475-490: `FileType`, with the content of a file. -/
inductive Source where
  | file (path : Str) (content : Option Str)
  | stdin
  | buffer

def Source.name : Source → Str
  | .file path _ => path
  | .stdin => "<stdin>".toList
  | .buffer => "<buffer>".toList

/-- span.rs:325-344 `print_file_info`: what is written after the message (span.rs:253-258, 268-273, 282-285). -/
def Span.info (w : Nat) (s : Span) (src : Source) : Option Str :=
  let head := "  at ".toList ++ src.name ++ ":".toList ++ Nat.toDigits 10 s.start.line ++ ":".toList ++ Nat.toDigits 10 s.start.col ++ "\n".toList
  match src with
  | .file _ content =>
    if 0 < s.start.col ∧ 0 < s.stop.col then match content with
      | none => none
      | some text => (if s.start.line = s.stop.line then s.single w (bufLines [] text) else s.multi w (bufLines [] text)).map
          (fun x => head ++ x ++ "\n".toList)
    else some (head ++ "\n".toList)
  | _ => some (head ++ "\n".toList)

end Koopa
