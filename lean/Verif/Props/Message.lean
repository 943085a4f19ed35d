import Verif.Lemmas.Front.Message
/-!
C63: a message about a place in a file shows the line and marks exactly the characters it is about.

The full statement, "for every file and every two characters of it, the message is printed and its marks are below the characters", does not hold: the
columns count bytes of lines with their line ends, but are used on lines without them and as places between characters (`C63_violated`), and the row of
dots of a long part does not end (`C63_violated_dots`). The theorems with `_partial` are about files in `Plain`: ASCII characters and no very long lines.
-/
namespace Koopa
open Spec

theorem BadText_head {s r : Str} (h : BadText s r) : ∃ c t, s = c :: t ∧ isWs c = false := by
  cases h with
  | int hc =>
    refine ⟨_, _, rfl, ?_⟩
    rcases hc with hc | rfl
    · simp only [isNum, isDigit, Bool.or_eq_true, Bool.and_eq_true, decide_eq_true_eq] at hc
      simp only [isWs, Bool.or_eq_false_iff, Bool.and_eq_false_iff, decide_eq_false_iff_not]
      omega
    · decide
  | word hc =>
    refine ⟨_, _, rfl, ?_⟩
    simp only [isAlpha, Bool.or_eq_true, Bool.and_eq_true, decide_eq_true_eq] at hc
    simp only [isWs, Bool.or_eq_false_iff, Bool.and_eq_false_iff, decide_eq_false_iff_not]
    omega
  | tag hc => exact ⟨_, _, rfl, by rcases hc with rfl | rfl <;> decide⟩
  | slash => exact ⟨_, _, rfl, by decide⟩
  | comment => exact ⟨_, _, rfl, by decide⟩
  | block => exact ⟨_, _, rfl, by decide⟩

/-- What is wrong ends before a line end only if it is a slash and the carriage return. -/
theorem BadText_cr {v t : Str} (h : BadText (v ++ ['\r']) ('\n' :: t)) : v = ['/'] := by
  generalize hs : v ++ ['\r'] = s at h
  generalize hr : '\n' :: t = r at h
  have hm : '\r' ∈ s := by rw [← hs]; simp
  cases h with
  | int hc hs' =>
    exfalso
    rcases List.mem_cons.1 hm with h | h
    · rw [← h] at hc; exact absurd hc (by decide)
    · exact absurd (hs' _ h) (by decide)
  | word hc hs' =>
    exfalso
    rcases List.mem_cons.1 hm with h | h
    · rw [← h] at hc; exact absurd hc (by decide)
    · exact absurd (hs' _ h) (by decide)
  | tag hc =>
    simp only [List.mem_singleton] at hm
    rw [← hm] at hc; exact absurd hc (by decide)
  | slash => simp at hr
  | comment =>
    cases v with
    | nil => simp at hs
    | cons x v =>
      cases v with
      | nil => simp at hs; simp [hs]
      | cons y v =>
        have := congrArg List.length hs
        simp at this
  | block => simp at hr

theorem BadText_pos {s r : Str} (h : BadText s r) : 1 ≤ s.length := by
  cases h <;> simp

/-- C63: a message about characters of one line, for files of ASCII characters without very long lines. -/
theorem C63_one_line_partial (w : Nat) (path text pre a t z e : Str) (c : Char) (p q : Pos) (hx : Plain text)
    (ht : text = pre ++ (a ++ (c :: t) ++ z) ++ e) (hpre : pre = [] ∨ ∃ l, pre = l ++ ['\n']) (hl : OneLine (a ++ (c :: t) ++ z))
    (he : e = [] ∨ ∃ cr r, e = brk cr ++ r) (hc : c ≠ '\t') (hp : Here text (pre.length + a.length + 1) p)
    (hq : Here text (pre.length + a.length + (c :: t).length) q) :
    Span.info w ⟨p, q⟩ (.file path (some text)) = some (headline path p ++ onePicture w p.line a (c :: t) z ++ "\n".toList) := by
  have hnl := hl.1
  have hna : '\n' ∉ a ++ [c] := by intro h; apply hnl; simp only [List.mem_append, List.mem_singleton, List.mem_cons] at h ⊢; exact .inl (h.imp id (Or.imp id (by simp)))
  have hnt : '\n' ∉ a ++ c :: t := by intro h; apply hnl; simp only [List.mem_append] at h ⊢; exact .inl h
  have hp' : p = ⟨1 + pre.count '\n', a.length + 1⟩ := by
    rw [here_iff] at hp
    rw [hp.2, show text.take (pre.length + a.length + 1) = pre ++ (a ++ [c]) from ?_, after_parts hpre hna]
    · simp
    · rw [ht, show pre ++ (a ++ (c :: t) ++ z) ++ e = (pre ++ (a ++ [c])) ++ (t ++ z ++ e) by simp, List.take_left' (by simp [Nat.add_assoc])]
  have hq' : q = ⟨1 + pre.count '\n', a.length + (t.length + 1)⟩ := by
    rw [here_iff] at hq
    rw [hq.2, show text.take (pre.length + a.length + (c :: t).length) = pre ++ (a ++ c :: t) from ?_, after_parts hpre hnt]
    · simp
    · rw [ht, show pre ++ (a ++ (c :: t) ++ z) ++ e = (pre ++ (a ++ c :: t)) ++ (z ++ e) by simp, List.take_left' (by simp [Nat.add_assoc])]
  have hinf : (a ++ (c :: t) ++ z) <:+: text := ⟨pre, e, ht.symm⟩
  obtain ⟨ls, h1⟩ := bufLines_head (l := a ++ (c :: t) ++ z) (by simp) hl he
  obtain ⟨ls', h2, h3⟩ := bufLines_pre (t := a ++ (c :: t) ++ z ++ e) hpre
  have hshort := hx.short _ hinf hnl
  have hlt : (a ++ c :: t).length ≤ (a ++ (c :: t) ++ z).length := by simp
  have h4 := single_out (w := w) (sp := ⟨p, q⟩) (lines := bufLines [] text) (a := a) (t := t) (z := z) (c := c) (by rw [hp']; simp)
    (by rw [ht, List.append_assoc, h2, h1, hp']; simp [h3]) (by rw [hp']) (by rw [hq']) hc (fun x hm => hx.ascii x (hinf.subset hm))
    (by rw [shown_length]; have := tabs_le (a ++ c :: t); omega)
  unfold Span.info
  simp only
  rw [if_pos (show 0 < p.col ∧ 0 < q.col by rw [hp', hq']; simp; omega), if_pos (show p.line = q.line by rw [hp', hq']), h4]
  rfl

/-- C63: a message about characters of several lines: the first and the last character are marked, and the lines are shown in between, the first two and the
last if there are more than four (then the row of dots has no end, as in `C63_violated_dots`). -/
theorem C63_many_lines_partial (w : Nat) (path text pre a z a' z' e : Str) (c d : Char) (cr : Bool) (ms : List (Str × Bool)) (p q : Pos) (hx : Plain text)
    (ht : text = pre ++ (a ++ c :: z) ++ brk cr ++ joined ms ++ (a' ++ d :: z') ++ e) (hpre : pre = [] ∨ ∃ l, pre = l ++ ['\n'])
    (hnl : ∀ l ∈ (a ++ c :: z) :: (a' ++ d :: z') :: ms.map (·.1), OneLine l) (he : e = [] ∨ ∃ cr r, e = brk cr ++ r) (hc : c ≠ '\t') (hd : d ≠ '\t')
    (hp : Here text (pre.length + a.length + 1) p)
    (hq : Here text (pre.length + (a ++ c :: z).length + (brk cr).length + (joined ms).length + a'.length + 1) q) :
    (ms.length ≤ 4 → Span.info w ⟨p, q⟩ (.file path (some text)) = some (headline path p ++ manyPicture w p.line a c z (ms.map (·.1)) a' d z' ++ "\n".toList)) ∧
    (4 < ms.length → Span.info w ⟨p, q⟩ (.file path (some text)) = some (headline path p ++
      (rows [List.replicate w ' ' ++ " |".toList, numAt w p.line ++ " |   ".toList ++ shown (a ++ c :: z),
          List.replicate w ' ' ++ " |  _".toList ++ (shown a).map (fun _ => '_') ++ "^".toList] ++
        rows (wholeRows w (p.line + 1) ((ms.map (·.1)).take 2)) ++ (List.replicate w '.' ++ " | |".toList) ++
        rows (wholeRows w (p.line + ms.length) ((ms.map (·.1)).drop (ms.length - 1))) ++
        rows [numAt w (p.line + ms.length + 1) ++ " | | ".toList ++ shown (a' ++ d :: z'),
          List.replicate w ' ' ++ " | |_".toList ++ (shown a').map (fun _ => '_') ++ "^".toList]) ++ "\n".toList)) := by
  have hol1 := hnl _ (.head _)
  have hol2 := hnl _ (.tail _ (.head _))
  have hnl1 := hol1.1
  have hnl2 := hol2.1
  have hom : ∀ m ∈ ms, OneLine m.1 := fun m h => hnl m.1 (by simp only [List.mem_cons, List.mem_map]; exact .inr (.inr ⟨m, h, rfl⟩))
  have hna : '\n' ∉ a ++ [c] := by intro h; apply hnl1; simp only [List.mem_append, List.mem_singleton, List.mem_cons] at h ⊢; exact h.imp id (Or.imp id (by simp))
  have hna' : '\n' ∉ a' ++ [d] := by intro h; apply hnl2; simp only [List.mem_append, List.mem_singleton, List.mem_cons] at h ⊢; exact h.imp id (Or.imp id (by simp))
  have hbrk : ∀ b, (brk b).count '\n' = 1 := by intro b; cases b <;> rfl
  have hend : ∀ b, ∃ l, brk b = l ++ ['\n'] := by
    intro b
    cases b
    · exact ⟨[], rfl⟩
    · exact ⟨['\r'], rfl⟩
  have hcount : (joined ms).count '\n' = ms.length := by
    clear ht hq hnl
    induction ms with
    | nil => rfl
    | cons m ms ih =>
      have h0 := List.count_eq_zero.2 (hom m (by simp)).1
      have := ih (fun m h => hom m (by simp [h]))
      simp only [joined, List.flatMap_cons, List.count_append, h0, hbrk] at this ⊢
      rw [this]; simp; omega
  have hbr : (pre ++ (a ++ c :: z) ++ brk cr ++ joined ms) = [] ∨ ∃ l, (pre ++ (a ++ c :: z) ++ brk cr ++ joined ms) = l ++ ['\n'] := by
    rcases List.eq_nil_or_concat ms with rfl | ⟨ms', m, rfl⟩
    · obtain ⟨l, hl⟩ := hend cr
      exact .inr ⟨pre ++ (a ++ c :: z) ++ l, by simp [joined, hl]⟩
    · obtain ⟨l, hl⟩ := hend m.2
      exact .inr ⟨pre ++ (a ++ c :: z) ++ brk cr ++ joined ms' ++ m.1 ++ l, by simp [joined, hl]⟩
  have hp' : p = ⟨1 + pre.count '\n', a.length + 1⟩ := by
    rw [here_iff] at hp
    rw [hp.2, show text.take (pre.length + a.length + 1) = pre ++ (a ++ [c]) from ?_, after_parts hpre hna]
    · simp
    · rw [ht, show pre ++ (a ++ c :: z) ++ brk cr ++ joined ms ++ (a' ++ d :: z') ++ e =
        (pre ++ (a ++ [c])) ++ (z ++ brk cr ++ joined ms ++ (a' ++ d :: z') ++ e) by simp, List.take_left' (by simp [Nat.add_assoc])]
  have hq' : q = ⟨1 + pre.count '\n' + ms.length + 1, a'.length + 1⟩ := by
    rw [here_iff] at hq
    rw [hq.2, show text.take (pre.length + (a ++ c :: z).length + (brk cr).length + (joined ms).length + a'.length + 1) =
      (pre ++ (a ++ c :: z) ++ brk cr ++ joined ms) ++ (a' ++ [d]) from ?_, after_parts hbr hna']
    · have h0 := List.count_eq_zero.2 hnl1
      simp only [List.count_append, h0, hcount, hbrk]
      simp; omega
    · rw [ht, show pre ++ (a ++ c :: z) ++ brk cr ++ joined ms ++ (a' ++ d :: z') ++ e =
        ((pre ++ (a ++ c :: z) ++ brk cr ++ joined ms) ++ (a' ++ [d])) ++ (z' ++ e) by simp, List.take_left' (by simp; omega)]
  have hinf1 : (a ++ c :: z) <:+: text := ⟨pre, brk cr ++ joined ms ++ (a' ++ d :: z') ++ e, by rw [ht]; simp⟩
  have hinf2 : (a' ++ d :: z') <:+: text := ⟨pre ++ (a ++ c :: z) ++ brk cr ++ joined ms, e, by rw [ht]⟩
  have hsub : ∀ m ∈ ms.map (·.1), ∀ x ∈ m, x ∈ text := by
    intro m hm x hxm
    obtain ⟨m, hm', rfl⟩ := List.mem_map.1 hm
    have : x ∈ joined ms := by
      simp only [joined, List.mem_flatMap]
      exact ⟨m, hm', by simp [hxm]⟩
    rw [ht]
    simp only [List.mem_append]
    exact .inl (.inl (.inr this))
  obtain ⟨rest, h1⟩ := bufLines_head (l := a' ++ d :: z') (by simp) hol2 he
  have h2 := bufLines_many (ms := ms) (t := a' ++ d :: z' ++ e) hom
  have h3 := bufLines_brk cr (joined ms ++ (a' ++ d :: z' ++ e)) hol1
  obtain ⟨ls, h4, h5⟩ := bufLines_pre (t := (a ++ c :: z) ++ (brk cr ++ (joined ms ++ (a' ++ d :: z' ++ e)))) hpre
  have hlines : bufLines [] text = ls ++ (a ++ c :: z) :: (ms.map (·.1) ++ (a' ++ d :: z') :: rest) := by
    rw [ht, show pre ++ (a ++ c :: z) ++ brk cr ++ joined ms ++ (a' ++ d :: z') ++ e =
      pre ++ ((a ++ c :: z) ++ (brk cr ++ (joined ms ++ (a' ++ d :: z' ++ e)))) by simp, h4, h3, h2, h1]
  have hs1 := hx.short _ hinf1 hnl1
  have hs2 := hx.short _ hinf2 hnl2
  have hl1 : a.length < (a ++ c :: z).length := by simp
  have hl2 : a'.length < (a' ++ d :: z').length := by simp
  have h6 := multi_out (w := w) (sp := ⟨p, q⟩) (ls := ls) (rest := rest) (ms := ms.map (·.1)) (by rw [hp', h5]; simp; omega) (by rw [hp', hq']; simp) hlines
    (by rw [hp']) (by rw [hq']) hc hd (fun x hm => hx.ascii x (hinf1.subset hm)) (fun m hm x hxm => hx.ascii x (hsub m hm x hxm))
    (fun x hm => hx.ascii x (hinf2.subset hm)) (by rw [shown_length]; have := tabs_le a; omega) (by rw [shown_length]; have := tabs_le a'; omega)
  have hline : q.line = p.line + ms.length + 1 := by rw [hp', hq']
  have hinfo : Span.info w ⟨p, q⟩ (.file path (some text)) = (Span.multi w ⟨p, q⟩ (bufLines [] text)).map (fun x => headline path p ++ x ++ "\n".toList) := by
    unfold Span.info
    simp only
    rw [if_pos (show 0 < p.col ∧ 0 < q.col by rw [hp', hq']; simp), if_neg (by omega)]
    rfl
  rw [hinfo, h6, Option.map_some]
  simp only [hline]
  constructor
  · intro h7
    rw [middleText, if_pos (by simpa using h7), manyPicture]
    simp [rows]
  · intro h7
    rw [middleText, if_neg (by simp; omega), List.length_map, show p.line + 1 + ms.length - 1 = p.line + ms.length by omega]
    simp

/-- C63: for such files, a message about a first and a not earlier last character panics exactly if one of them is a carriage return before a line break (and
none is a line break: then no lines are shown). -/
theorem C63_panics_iff_partial (w : Nat) (path text : Str) (n m : Nat) (p q : Pos) (hx : Plain text) (hp : Here text n p) (hq : Here text m q)
    (h : n ≤ m) : Span.info w ⟨p, q⟩ (.file path (some text)) = none ↔ 0 < p.col ∧ 0 < q.col ∧ (AtCr text n ∨ AtCr text m) := info_iff hx hp hq h

theorem drop_at {text u v : Str} {i n : Nat} (h : text.drop i = u ++ v) (hn : n = i + u.length) : text.drop n = v := by
  rw [hn, ← List.drop_drop, h, List.drop_left]

/-- C63: so every lexical error of such a file is reported, but for a slash before a carriage return and a line break: this panics. -/
theorem C63_lexical_errors_partial (w : Nat) (path text : Str) (n : Nat) (sp : Span) (hx : Plain text)
    (h : .error (.normal sp) ∈ (PLex.new text false).calls n) :
    sp.info w (.file path (some text)) = none ↔ ∃ i r, text.drop i = '/' :: '\r' :: '\n' :: r ∧ Here text (i + 1) sp.start := by
  have hf : Finds false text 0 _ := calls_finds (f := false) n _ [] text rfl (pnew_out text false)
  generalize (PLex.new text false).calls n = rs at h hf
  generalize 0 = i at hf
  induction hf with
  | nil => simp at h
  | tok _ _ _ _ _ _ _ ih => simp at h; exact ih h
  | eof _ _ _ ih => simp at h; exact ih h
  | @bad i j u s r a b rs h1 hw hs ha hb hj hn hr ih =>
    rcases List.mem_cons.1 h with h | h
    rotate_left
    · exact ih h
    simp only [Except.error.injEq, PErr.normal.injEq] at h
    subst h
    have hpos := BadText_pos hs
    rw [info_iff hx ha hb (Nat.add_le_add_left hpos _)]
    have hstart : text.drop (i + u.length) = s ++ r := drop_at h1 rfl
    have hnw := BadText_head hs
    constructor
    · rintro ⟨-, -, ⟨t, ht⟩ | ⟨t, ht⟩⟩
      · rw [Nat.add_sub_cancel, hstart] at ht
        exfalso
        obtain ⟨c, s', rfl, hc⟩ := hnw
        simp only [List.cons_append, List.cons.injEq] at ht
        rw [ht.1] at hc
        exact absurd hc (by decide)
      · refine ⟨i + u.length, t, ?_, ha⟩
        obtain ⟨v, x, rfl⟩ : ∃ v x, s = v ++ [x] := by
          rcases List.eq_nil_or_concat s with h | ⟨v, x, h⟩
          · subst h; simp at hpos
          · exact ⟨v, x, by simpa using h⟩
        have hv : text.drop (i + u.length + (v ++ [x]).length - 1) = x :: r := drop_at (u := u ++ v) (by rw [h1]; simp) (by simp; omega)
        rw [hv] at ht
        simp only [List.cons.injEq] at ht
        obtain ⟨rfl, rfl⟩ := ht
        rw [hstart]
        have := BadText_cr hs
        rw [this]; rfl
    · rintro ⟨k, t, hk, hka⟩
      have hk' : k = i + u.length := by
        have h2 := fun n m p q hp hq => (here_before (text := text) (n := n) (m := m) (p := p) (q := q) hp hq)
        rcases Nat.lt_trichotomy (k + 1) (i + u.length + 1) with h3 | h3 | h3
        · have := h2 _ _ _ _ hka ha h3
          simp only [Pos.before] at this; omega
        · omega
        · have := h2 _ _ _ _ ha hka h3
          simp only [Pos.before] at this; omega
      subst hk'
      rw [hstart] at hk
      have hs2 : s = ['/', '\r'] ∧ r = '\n' :: t := by
        cases hs with
        | int hc hs hr h =>
          simp only [List.cons_append, List.cons.injEq] at hk
          rw [hk.1] at hc; exact absurd hc (by decide)
        | word hc =>
          simp only [List.cons_append, List.cons.injEq] at hk
          rw [hk.1] at hc; exact absurd hc (by decide)
        | tag hc =>
          simp only [List.cons_append, List.cons.injEq] at hk
          rw [hk.1] at hc; exact absurd hc (by decide)
        | slash => simp at hk
        | comment => simp at hk; simp [hk]
        | block => simp at hk
      obtain ⟨rfl, rfl⟩ := hs2
      refine ⟨?_, ?_, .inr ⟨t, ?_⟩⟩
      · rw [here_iff] at ha
        rw [ha.2, show text.take (i + u.length + 1) = text.take (i + u.length) ++ ['/'] by rw [List.take_add, hstart]; rfl, after_append, after_cons, after_nil,
          Pos.update, if_neg (by decide)]
        simp
      · rw [here_iff] at hb
        rw [hb.2, show text.take (i + u.length + ['/', '\r'].length) = text.take (i + u.length) ++ ['/', '\r'] by rw [List.take_add, hstart]; rfl, after_append,
          after_cons, after_cons, after_nil, Pos.update, if_neg (by decide)]
        simp
      · exact drop_at (u := u ++ ['/']) (by rw [h1]; simp) (by simp; omega)
  | fatal hf => cases hf

/-- Files in `Plain`, with a bound on the whole text. -/
theorem Plain_of {text : Str} (h1 : ∀ c ∈ text, c.toNat < 128) (h3 : text.length < 32768) : Plain text :=
  ⟨h1, fun _ h _ => Nat.lt_of_le_of_lt h.length_le h3⟩

/-- A number with a tab before it, in the second line. -/
example : Span.info 1 ⟨⟨2, 2⟩, ⟨2, 3⟩⟩ (.file "f".toList (some "ret\n\t99 ;".toList)) =
    some (("  at f:2:2\n  |\n2 |   99 ;\n  |   ^^\n\n").toList) ∧ Plain "ret\n\t99 ;".toList ∧
    Here "ret\n\t99 ;".toList 6 ⟨2, 2⟩ ∧ Here "ret\n\t99 ;".toList 7 ⟨2, 3⟩ := by
  refine ⟨by decide +kernel, Plain_of (by decide) (by decide), ⟨by decide, "ret\n".toList, "\t9".toList, ?_⟩,
    ⟨by decide, "ret\n".toList, "\t99".toList, ?_⟩⟩
  · exact ⟨by decide, .inr ⟨"ret".toList, rfl⟩, by decide, by decide⟩
  · exact ⟨by decide, .inr ⟨"ret".toList, rfl⟩, by decide, by decide⟩

/-- From the second character of the first line to the first of the third. -/
example : Span.info 1 ⟨⟨1, 2⟩, ⟨3, 1⟩⟩ (.file "f".toList (some "abc\nde\nfg\n".toList)) =
    some ("  at f:1:2\n  |\n1 |   abc\n  |  __^\n2 | | de\n3 | | fg\n  | |_^\n\n").toList ∧
    onePicture 1 7 "a\t".toList "b".toList "c".toList = "  |\n7 | a  bc\n  |    ^\n".toList ∧
    manyPicture 1 1 "a".toList 'b' "c".toList ["de".toList] [] 'f' "g".toList = "  |\n1 |   abc\n  |  __^\n2 | | de\n3 | | fg\n  | |_^\n".toList := by
  decide +kernel

/-- The same with carriage returns; at a carriage return it panics. -/
example : Span.info 1 ⟨⟨1, 2⟩, ⟨3, 1⟩⟩ (.file "f".toList (some "abc\r\nde\r\nfg\n".toList)) =
    some ("  at f:1:2\n  |\n1 |   abc\n  |  __^\n2 | | de\n3 | | fg\n  | |_^\n\n").toList ∧
    "abc\r\nde\r\nfg\n".toList = "abc".toList ++ brk true ++ joined [("de".toList, true)] ++ "fg".toList ++ brk false ∧
    Span.info 1 ⟨⟨1, 2⟩, ⟨1, 4⟩⟩ (.file "f".toList (some "abc\r\nde\r\nfg\n".toList)) = none ∧ AtCr "abc\r\nde\r\nfg\n".toList 4 ∧
    Plain "abc\r\nde\r\nfg\n".toList :=
  ⟨by decide +kernel, by decide +kernel, by decide +kernel, ⟨_, rfl⟩, Plain_of (by decide) (by decide)⟩

/-- An error of such a file. -/
example : .error (.normal ⟨⟨1, 5⟩, ⟨1, 7⟩⟩) ∈ (PLex.new "ret foo\n".toList false).calls 2 ∧ Plain "ret foo\n".toList :=
  ⟨by decide +kernel, Plain_of (by decide) (by decide)⟩

/-- C63: the message of an invalid comment `/` at the end of a line with a carriage return panics: the error marks the carriage return, and the line is
cut off before it. So does that of a letter that is not ASCII: it is two bytes, of which the first is marked. -/
theorem C63_violated : ∃ text1 text2 : Str,
    (∀ c ∈ text1, c.toNat < 128) ∧ text1.length < 100 ∧ text2.length < 100 ∧
    (∃ sp, .error (.normal sp) ∈ (PLex.new text1 false).calls 1 ∧ ∀ w path, Span.info w sp (.file path (some text1)) = none) ∧
    utf8Ok text2 = true ∧ '\r' ∉ text2 ∧
    (∃ sp, .error (.normal sp) ∈ (PLex.new text2 false).calls 1 ∧ ∀ w path, Span.info w sp (.file path (some text2)) = none) := by
  refine ⟨"/\r\n".toList, [Char.ofNat 195, Char.ofNat 169], by decide, by decide, by decide, ⟨⟨⟨1, 1⟩, ⟨1, 2⟩⟩, by decide +kernel, ?_⟩, by decide +kernel, by decide,
    ⟨⟨⟨1, 1⟩, ⟨1, 1⟩⟩, by decide +kernel, ?_⟩⟩
  · intro w path; rfl
  · intro w path; rfl

/-- C63: the row of dots does not end: the last of the lines in between is on the same row. -/
theorem C63_violated_dots : ∃ (text a z a' z' : Str) (c d : Char) (ms : List Str), Plain text ∧ text = a ++ c :: z ++ ['\n'] ++ rows ms ++ (a' ++ d :: z') ∧
    Span.info 1 ⟨⟨1, a.length + 1⟩, ⟨ms.length + 2, a'.length + 1⟩⟩ (.file "f".toList (some text)) ≠
      some (headline "f".toList ⟨1, a.length + 1⟩ ++ manyPicture 1 1 a c z ms a' d z' ++ "\n".toList) := by
  refine ⟨"a\nb\nc\nd\ne\nf\ng".toList, [], [], [], [], 'a', 'g', ["b".toList, "c".toList, "d".toList, "e".toList, "f".toList],
    Plain_of (by decide) (by decide), by decide, ?_⟩
  decide +kernel

end Koopa
