import Verif.Spec.Message
import Verif.Lemmas.Front.Here
/-!
What is printed for a span.
-/
namespace Koopa
open Spec

theorem expandTabs_shown (l : Str) : expandTabs l = shown l := by
  induction l with
  | nil => rfl
  | cons c l ih =>
    unfold expandTabs at ih ⊢
    rw [List.flatMap_cons, ih, shown]
    split <;> rfl

theorem shown_append (a b : Str) : shown (a ++ b) = shown a ++ shown b := by
  simp only [← expandTabs_shown, expandTabs, List.flatMap_append]

theorem shown_length (l : Str) : (shown l).length = l.length + tabs l := by
  induction l with
  | nil => rfl
  | cons c l ih =>
    rw [shown, tabs, List.count_cons]
    unfold tabs at ih
    by_cases hc : c = '\t'
    · simp [hc, ih]; omega
    · simp [hc, ih]; omega

theorem tabs_le (l : Str) : tabs l ≤ l.length := List.count_le_length

theorem tabs_append (a b : Str) : tabs (a ++ b) = tabs a + tabs b := List.count_append

theorem utf8Ok_ascii : ∀ {l : Str}, (∀ c ∈ l, c.toNat < 128) → utf8Ok l = true
  | [], _ => by rw [utf8Ok]
  | c :: l, h => by
    rw [utf8Ok.eq_def]
    simp only [if_pos (h c (by simp))]
    exact utf8Ok_ascii (fun x hx => h x (by simp [hx]))

theorem lineStr_ascii {l : Str} (h : ∀ c ∈ l, c.toNat < 128) : lineStr (some l) = some l := by
  rw [lineStr, utf8Ok_ascii h, if_pos rfl]

theorem cutAt_ascii {l : Str} (h : ∀ c ∈ l, c.toNat < 128) {n : Nat} (hn : n ≤ l.length) : cutAt l n = some (l.take n) := by
  unfold cutAt
  rw [if_neg (by omega), if_neg]
  cases hd : (l.drop n).head? with
  | none => simp
  | some c =>
    have hc : c ∈ l := List.mem_of_mem_drop (List.mem_of_mem_head? hd)
    have := h c hc
    simp only [Option.any_some, isCont, Bool.and_eq_true, decide_eq_true_eq]
    omega

/-- A line without its carriage return. -/
def chop (u : Str) : Str := match u.reverse with
  | '\r' :: r => r.reverse
  | _ => u

theorem chop_snoc (u : Str) : chop (u ++ ['\r']) = u := by
  simp [chop]

theorem chop_else {u : Str} (h : u.getLast? ≠ some '\r') : chop u = u := by
  unfold chop
  split
  · rename_i r he
    exfalso
    apply h
    have : u = (r.reverse) ++ ['\r'] := by rw [← List.reverse_reverse u, he]; simp
    rw [this]; simp
  · rfl

theorem chop_cases (u : Str) : chop u = u ∧ u.getLast? ≠ some '\r' ∨ u = chop u ++ ['\r'] := by
  by_cases h : u.getLast? = some '\r'
  · right
    obtain ⟨v, rfl⟩ := List.getLast?_eq_some_iff.1 h
    rw [chop_snoc]
  · exact .inl ⟨chop_else h, h⟩

theorem bufLines_chop : ∀ (l acc t : Str), '\n' ∉ l → bufLines acc (l ++ '\n' :: t) = chop (acc.reverse ++ l) :: bufLines [] t
  | [], acc, t, _ => by
    rw [List.nil_append, List.append_nil, chop, List.reverse_reverse]
    cases acc with
    | nil => rw [bufLines, if_pos rfl]; simp
    | cons d acc =>
      simp only [bufLines, if_true, List.cons.injEq, and_true]
      by_cases hd : d = '\r'
      · subst hd; rfl
      · split
        · rename_i he; simp only [List.cons.injEq] at he; exact absurd he.1 hd
        · split
          · rename_i he; simp only [List.cons.injEq] at he; exact absurd he.1 hd
          · rfl
  | c :: l, acc, t, hn => by
    simp only [List.mem_cons, not_or] at hn
    have hc : c ≠ '\n' := fun e => hn.1 e.symm
    have e : bufLines acc (c :: (l ++ '\n' :: t)) = bufLines (c :: acc) (l ++ '\n' :: t) := by
      cases acc <;> simp [bufLines, hc]
    rw [List.cons_append, e, bufLines_chop l (c :: acc) t hn.2]
    simp

theorem bufLines_brk {l : Str} (cr : Bool) (t : Str) (h : OneLine l) : bufLines [] (l ++ (brk cr ++ t)) = l :: bufLines [] t := by
  cases cr with
  | false =>
    have := bufLines_chop l [] t h.1
    simp only [List.reverse_nil, List.nil_append] at this
    rw [chop_else h.2] at this
    exact this
  | true =>
    have := bufLines_chop (l ++ ['\r']) [] t (by simp [h.1])
    simp only [List.reverse_nil, List.nil_append] at this
    rw [chop_snoc] at this
    simpa [brk] using this

theorem bufLines_last : ∀ (l acc : Str), '\n' ∉ l → acc.reverse ++ l ≠ [] → bufLines acc l = [acc.reverse ++ l]
  | [], acc, _, h => by
    cases acc with
    | nil => simp at h
    | cons d acc => simp [bufLines]
  | c :: l, acc, hn, h => by
    simp only [List.mem_cons, not_or] at hn
    have hc : c ≠ '\n' := fun e => hn.1 e.symm
    have e : bufLines acc (c :: l) = bufLines (c :: acc) l := by
      cases acc <;> simp [bufLines, hc]
    rw [e, bufLines_last l (c :: acc) hn.2 (by simp)]
    simp

theorem bufLines_skip : ∀ (u acc t : Str), ∃ ls, bufLines acc (u ++ '\n' :: t) = ls ++ bufLines [] t ∧ ls.length = u.count '\n' + 1
  | [], acc, t => by
    cases acc with
    | nil => exact ⟨[[]], by simp [bufLines], rfl⟩
    | cons d acc =>
      simp only [List.nil_append, bufLines, if_true]
      exact ⟨[_], rfl, rfl⟩
  | c :: u, acc, t => by
    by_cases hc : c = '\n'
    · subst hc
      obtain ⟨ls, h1, h2⟩ := bufLines_skip u [] t
      obtain ⟨ls', h3, h4⟩ := bufLines_skip [] acc (u ++ '\n' :: t)
      refine ⟨ls' ++ ls, ?_, ?_⟩
      · rw [List.nil_append] at h3
        rw [List.cons_append, h3, h1, List.append_assoc]
      · simp only [List.count_nil] at h4
        simp [h2, h4]; omega
    · have e : bufLines acc (c :: (u ++ '\n' :: t)) = bufLines (c :: acc) (u ++ '\n' :: t) := by
        cases acc <;> simp [bufLines, hc]
      obtain ⟨ls, h1, h2⟩ := bufLines_skip u (c :: acc) t
      exact ⟨ls, by rw [List.cons_append, e, h1], by rw [h2, List.count_cons_of_ne (by simpa using hc)]⟩

theorem bufLines_pre {pre t : Str} (h : pre = [] ∨ ∃ l, pre = l ++ ['\n']) :
    ∃ ls, bufLines [] (pre ++ t) = ls ++ bufLines [] t ∧ ls.length = pre.count '\n' := by
  rcases h with rfl | ⟨l, rfl⟩
  · exact ⟨[], rfl, rfl⟩
  · obtain ⟨ls, h1, h2⟩ := bufLines_skip l [] t
    exact ⟨ls, by simpa using h1, by simp [h2]⟩

/-- The first line of a text that does not start with its end. -/
theorem bufLines_head {l e : Str} (hl : l ≠ []) (h : OneLine l) (he : e = [] ∨ ∃ cr t, e = brk cr ++ t) : ∃ ls, bufLines [] (l ++ e) = l :: ls := by
  rcases he with rfl | ⟨cr, t, rfl⟩
  · exact ⟨[], by rw [List.append_nil, bufLines_last l [] h.1 (by simpa using hl)]; rfl⟩
  · exact ⟨_, bufLines_brk cr t h⟩

theorem bufLines_many {ms : List (Str × Bool)} {t : Str} (h : ∀ m ∈ ms, OneLine m.1) :
    bufLines [] (joined ms ++ t) = ms.map (·.1) ++ bufLines [] t := by
  induction ms with
  | nil => rfl
  | cons m ms ih =>
    have := ih (fun x hx => h x (by simp [hx]))
    unfold joined at this ⊢
    rw [List.flatMap_cons, List.append_assoc, List.append_assoc, bufLines_brk m.2 _ (h m (by simp)), this]
    rfl

theorem map_const_replicate {α β : Type} (b : β) (l : List α) : l.map (fun _ => b) = List.replicate l.length b := by
  induction l with
  | nil => rfl
  | cons a l ih => simp [ih, List.replicate_succ]

theorem single_out {w : Nat} {sp : Span} {lines : List Str} {a t z : Str} {c : Char} (h1 : sp.start.line ≠ 0)
    (hl : lines[sp.start.line - 1]? = some (a ++ (c :: t) ++ z)) (hs : sp.start.col = a.length + 1) (he : sp.stop.col = a.length + (t.length + 1))
    (hc : c ≠ '\t') (ha : ∀ x ∈ a ++ (c :: t) ++ z, x.toNat < 128) (hb : (shown (a ++ c :: t)).length < 65536) :
    sp.single w lines = some (onePicture w sp.start.line a (c :: t) z) := by
  have hcut1 : cutAt (a ++ (c :: t) ++ z) sp.start.col = some (a ++ [c]) := by
    rw [cutAt_ascii ha (by simp [hs]), hs]
    congr 1
    rw [show a ++ (c :: t) ++ z = (a ++ [c]) ++ (t ++ z) by simp, List.take_left' (by simp)]
  have hcut2 : cutAt (a ++ (c :: t) ++ z) sp.stop.col = some (a ++ c :: t) := by
    rw [cutAt_ascii ha (by simp [he]), he]
    congr 1
    rw [List.take_left' (by simp)]
  have hdrop : (a ++ c :: t).drop sp.start.col = t := by
    rw [hs, show a ++ c :: t = (a ++ [c]) ++ t by simp, List.drop_left' (by simp)]
  have htc : tabs (a ++ [c]) = tabs a := by
    rw [tabs_append]; simp [tabs, hc]
  have hlen := shown_length (a ++ c :: t)
  have hct : shown (c :: t) = c :: shown t := by rw [shown, if_neg hc]
  have hac : tabs (a ++ c :: t) = tabs a + tabs t := by
    rw [tabs_append]; simp [tabs, hc]
  have hla := shown_length a
  have hlt := shown_length t
  unfold Span.single lineCols
  rw [if_neg h1, hl, lineStr_ascii ha]
  simp only [hcut1, hcut2, hdrop, htc]
  rw [if_neg (by omega)]
  simp only
  rw [if_neg (by omega)]
  rw [hac] at hlen
  simp only [List.length_append, List.length_cons] at hlen
  have e1 : sp.start.col + tabs a - 1 = (shown a).length := by omega
  have e2 : sp.stop.col + (tabs a + tabs t) - (sp.start.col + tabs a) + 1 = (shown (c :: t)).length := by
    rw [hct, List.length_cons]; omega
  have hlb : (shown (c :: t)).length ≤ (shown (a ++ c :: t)).length := by rw [shown_append]; simp
  have hla' : (shown a).length ≤ (shown (a ++ c :: t)).length := by rw [shown_append]; simp
  rw [e1, e2]
  simp only [pad, if_pos (show (shown a).length < 65536 by omega), if_pos (show (shown (c :: t)).length < 65536 by omega)]
  simp only [onePicture, rows, numAt, padNum, expandTabs_shown, map_const_replicate, shown_append]
  simp

theorem wholeLines_rows {w : Nat} : ∀ (ms : List Str) (k : Nat) (ls : List Str), (∀ m ∈ ms, ∀ x ∈ m, x.toNat < 128) →
    wholeLines w ms.length k (ms ++ ls) = some (rows (wholeRows w k ms))
  | [], _, _, _ => rfl
  | m :: ms, k, ls, h => by
    rw [List.length_cons, wholeLines, List.cons_append, List.head?_cons, lineStr_ascii (h m (by simp)), List.tail_cons,
      wholeLines_rows ms (k + 1) ls (fun x hx => h x (by simp [hx]))]
    simp [wholeRows, rows, padNum, numAt, expandTabs_shown]

/-- What is printed between the first and the last line: as `middleRows`, but without the line break after the dots. -/
def middleText (w k : Nat) (ms : List Str) : Str :=
  if ms.length ≤ 4 then rows (middleRows w k ms)
  else rows (wholeRows w k (ms.take 2)) ++ (List.replicate w '.' ++ " | |".toList) ++ rows (wholeRows w (k + ms.length - 1) (ms.drop (ms.length - 1)))

theorem lineCol_out {l a z : Str} {c : Char} {n : Nat} (hl : l = a ++ c :: z) (hn : n = a.length + 1) (hc : c ≠ '\t') (ha : ∀ x ∈ l, x.toNat < 128) :
    lineCol (some l) n = some (shown l, (shown a).length + 1) := by
  unfold lineCol
  rw [lineStr_ascii ha]
  simp only
  rw [cutAt_ascii ha (by rw [hl, hn]; simp), Option.map_some, expandTabs_shown, shown_length a]
  have : l.take n = a ++ [c] := by
    rw [hl, hn, show a ++ c :: z = (a ++ [c]) ++ z by simp, List.take_left' (by simp)]
  rw [this, tabs_append]
  simp [tabs, hc, hn]; omega

theorem multi_out {w : Nat} {sp : Span} {lines ls rest : List Str} {a z a' z' : Str} {c d : Char} {ms : List Str} (h1 : sp.start.line = ls.length + 1)
    (h2 : sp.stop.line = sp.start.line + ms.length + 1) (hl : lines = ls ++ (a ++ c :: z) :: (ms ++ (a' ++ d :: z') :: rest))
    (hs : sp.start.col = a.length + 1) (he : sp.stop.col = a'.length + 1) (hc : c ≠ '\t') (hd : d ≠ '\t')
    (ha : ∀ x ∈ a ++ c :: z, x.toNat < 128) (hm : ∀ m ∈ ms, ∀ x ∈ m, x.toNat < 128) (ha' : ∀ x ∈ a' ++ d :: z', x.toNat < 128)
    (hb : (shown a).length < 65535) (hb' : (shown a').length < 65535) :
    sp.multi w lines = some (rows
      [List.replicate w ' ' ++ " |".toList, numAt w sp.start.line ++ " |   ".toList ++ shown (a ++ c :: z),
        List.replicate w ' ' ++ " |  _".toList ++ (shown a).map (fun _ => '_') ++ "^".toList] ++ middleText w (sp.start.line + 1) ms ++
      rows [numAt w sp.stop.line ++ " | | ".toList ++ shown (a' ++ d :: z'),
        List.replicate w ' ' ++ " | |_".toList ++ (shown a').map (fun _ => '_') ++ "^".toList]) := by
  have hdrop : lines.drop (sp.start.line - 1) = (a ++ c :: z) :: (ms ++ (a' ++ d :: z') :: rest) := by
    rw [hl, List.drop_left' (by omega)]
  have hmid : sp.stop.line - sp.start.line - 1 = ms.length := by omega
  unfold Span.multi
  rw [if_neg (by omega)]
  simp only [hdrop, List.head?_cons, List.tail_cons, hmid, lineCol_out rfl hs hc ha]
  have hlast : (((a ++ c :: z) :: (ms ++ (a' ++ d :: z') :: rest)).drop (ms.length + 1)).head? = some (a' ++ d :: z') := by
    rw [List.drop_succ_cons, List.drop_left]; rfl
  rw [hlast, lineCol_out rfl he hd ha']
  have hmiddle : sp.middle w ms.length ((a ++ c :: z) :: (ms ++ (a' ++ d :: z') :: rest)) = some (middleText w (sp.start.line + 1) ms) := by
    unfold Span.middle
    rw [List.tail_cons]
    unfold middleText
    by_cases h4 : ms.length ≤ 4
    · rw [if_pos h4, if_pos h4, wholeLines_rows ms _ _ hm, middleRows, if_pos h4]
    · rw [if_neg h4, if_neg h4]
      have e1 := wholeLines_rows (w := w) (ms.take 2) (sp.start.line + 1) (ms.drop 2 ++ (a' ++ d :: z') :: rest)
        (fun m h => hm m (List.mem_of_mem_take h))
      rw [← List.append_assoc, List.take_append_drop, List.length_take, Nat.min_eq_left (by omega)] at e1
      have e2 := wholeLines_rows (w := w) (ms.drop (ms.length - 1)) (sp.stop.line - 1) ((a' ++ d :: z') :: rest)
        (fun m h => hm m (List.mem_of_mem_drop h))
      have e3 : ((a ++ c :: z) :: (ms ++ (a' ++ d :: z') :: rest)).drop ms.length = ms.drop (ms.length - 1) ++ (a' ++ d :: z') :: rest := by
        rw [show ms.length = (ms.length - 1) + 1 by omega, List.drop_succ_cons, List.drop_append_of_le_length (by omega)]
        simp
      rw [List.length_drop, show ms.length - (ms.length - 1) = 1 by omega] at e2
      rw [e1, e3, e2]
      simp only [Option.some.injEq]
      rw [show sp.start.line + 1 + ms.length - 1 = sp.stop.line - 1 by omega]
  rw [hmiddle]
  simp only [pad, if_pos (show (shown a).length + 1 < 65536 by omega), if_pos (show (shown a').length + 1 < 65536 by omega)]
  simp [rows, numAt, padNum, map_const_replicate, List.replicate_succ, expandTabs_shown]

theorem bufLines_infix : ∀ (t acc u : Str) {l : Str}, u = acc.reverse ++ t → l ∈ bufLines acc t → l <:+: u
  | [], [], _, _, _, h => by simp [bufLines] at h
  | [], d :: acc, u, l, hu, h => by
    simp only [bufLines, List.mem_singleton] at h
    rw [hu, h]; simp
  | c :: t, acc, u, l, hu, h => by
    by_cases hc : c = '\n'
    · have e : ∃ x, bufLines acc (c :: t) = x :: bufLines [] t ∧ x <:+: acc.reverse := by
        cases acc with
        | nil => exact ⟨[], by simp [bufLines, hc], by simp⟩
        | cons d acc =>
          simp only [bufLines, if_pos hc]
          refine ⟨_, rfl, ?_⟩
          split
          · rename_i he
            simp only [List.cons.injEq] at he
            rw [he.2, List.reverse_cons]
            exact ⟨[], [d], by simp⟩
          · simp
      obtain ⟨x, h1, h2⟩ := e
      rw [h1] at h
      rcases List.mem_cons.1 h with rfl | h
      · exact h2.trans ⟨[], c :: t, by rw [hu]; simp⟩
      · exact (bufLines_infix t [] t rfl h).trans ⟨acc.reverse ++ [c], [], by rw [hu]; simp⟩
    · have e : bufLines acc (c :: t) = bufLines (c :: acc) t := by
        cases acc <;> simp [bufLines, hc]
      rw [e] at h
      exact bufLines_infix t (c :: acc) u (by rw [hu]; simp) h

/-- A text is a line and, after a line break, the rest. -/
theorem cut_first : ∀ (u : Str), ∃ z e, u = z ++ e ∧ '\n' ∉ z ∧ (e = [] ∨ ∃ t, e = '\n' :: t)
  | [] => ⟨[], [], rfl, by simp, .inl rfl⟩
  | c :: u => by
    by_cases hc : c = '\n'
    · exact ⟨[], c :: u, rfl, by simp, .inr ⟨u, by rw [hc]⟩⟩
    · obtain ⟨z, e, h1, h2, h3⟩ := cut_first u
      refine ⟨c :: z, e, by rw [h1]; rfl, ?_, h3⟩
      simp only [List.mem_cons, not_or]
      exact ⟨fun e => hc e.symm, h2⟩

/-- The line of a position. -/
theorem here_line {text : Str} {n : Nat} {p : Pos} (ht : Plain text) (h : Here text n p) (hc : 0 < p.col) :
    ∃ l, (bufLines [] text)[p.line - 1]? = some l ∧ (∀ x ∈ l, x.toNat < 128) ∧ l.length < 32768 ∧ p.line ≠ 0 ∧ (p.col ≤ l.length ↔ ¬ AtCr text n) := by
  obtain ⟨hn, pre, cur, h1, h2, h3, rfl⟩ := h
  obtain ⟨z, e, h4, h5, h6⟩ := cut_first (text.drop n)
  have ht' : text = pre ++ ((cur ++ z) ++ e) := by
    rw [← List.take_append_drop n text, h1, h4]; simp
  have hnl : '\n' ∉ cur ++ z := by simp [h3, h5]
  have hcur : cur ≠ [] := by
    intro he
    rw [he] at hc
    simp at hc
  have hlen : n = (pre ++ cur).length := by rw [← h1, List.length_take]; omega
  obtain ⟨u, x, rfl⟩ : ∃ u x, cur = u ++ [x] := by
    rcases List.eq_nil_or_concat cur with h | ⟨u, x, h⟩
    · exact absurd h hcur
    · exact ⟨u, x, by simpa using h⟩
  have hdrop : text.drop (n - 1) = x :: (z ++ e) := by
    rw [hlen, ht', show pre ++ ((u ++ [x] ++ z) ++ e) = (pre ++ u) ++ (x :: (z ++ e)) by simp, List.drop_left' (by simp)]
  obtain ⟨ls', h8, h9⟩ := bufLines_pre (t := (u ++ [x] ++ z) ++ e) h2
  have hinf : (u ++ [x] ++ z) <:+: text := ⟨pre, e, by rw [ht']; simp⟩
  have hidx : ∀ l ls, bufLines [] (u ++ [x] ++ z ++ e) = l :: ls → (bufLines [] text)[1 + pre.count '\n' - 1]? = some l := by
    intro l ls h
    rw [ht', h8, h]
    simp [h9]
  have hasc : ∀ y ∈ u ++ [x] ++ z, y.toNat < 128 := fun y hy => ht.ascii y (hinf.subset hy)
  have hsh := ht.short _ hinf hnl
  rcases h6 with rfl | ⟨t, rfl⟩
  · refine ⟨u ++ [x] ++ z, hidx _ [] ?_, hasc, hsh, by simp, ?_⟩
    · rw [List.append_nil, bufLines_last _ [] hnl (by simp)]; rfl
    · constructor
      · rintro - ⟨r, hr⟩
        rw [hdrop] at hr
        simp only [List.append_nil, List.cons.injEq] at hr
        rw [hr.2] at h5
        simp at h5
      · intro _; simp
  · have hb := bufLines_chop (u ++ [x] ++ z) [] t hnl
    simp only [List.reverse_nil, List.nil_append] at hb
    have hcs := chop_cases (u ++ [x] ++ z)
    have hle : (chop (u ++ [x] ++ z)) <:+: (u ++ [x] ++ z) := by
      rcases hcs with ⟨h, -⟩ | h
      · rw [h]; exact List.infix_refl _
      · exact ⟨[], ['\r'], by rw [List.nil_append]; exact h.symm⟩
    refine ⟨chop (u ++ [x] ++ z), hidx _ _ hb, fun y hy => hasc y (hle.subset hy), Nat.lt_of_le_of_lt hle.length_le hsh, by simp, ?_⟩
    constructor
    · rintro hl ⟨r, hr⟩
      rw [hdrop] at hr
      simp only [List.cons.injEq] at hr
      have hz : z = [] := by
        cases z with
        | nil => rfl
        | cons y z =>
          simp only [List.cons_append, List.cons.injEq] at hr
          rw [hr.2.1] at h5; simp at h5
      rw [hz, hr.1, List.append_nil, chop_snoc] at hl
      simp at hl
      omega
    · intro hno
      rcases hcs with ⟨h, -⟩ | h
      · rw [h]; simp
      · have hlen := congrArg List.length h
        rcases List.eq_nil_or_concat z with hz | ⟨z', y, hz⟩
        · subst hz
          rw [List.append_nil] at h hlen
          exfalso
          apply hno
          have hx : x = '\r' := by
            have := congrArg List.getLast? h
            simpa using this
          exact ⟨t, by rw [hdrop, hx]; rfl⟩
        · subst hz
          simp only [List.concat_eq_append, List.length_append, List.length_singleton] at hlen ⊢
          omega

theorem lineCol_some {l : Str} {n : Nat} (ha : ∀ x ∈ l, x.toNat < 128) (hn : n ≤ l.length) (hl : l.length < 32768) :
    ∃ s k, lineCol (some l) n = some (s, k) ∧ k < 65536 := by
  unfold lineCol
  rw [lineStr_ascii ha]
  simp only
  rw [cutAt_ascii ha hn, Option.map_some]
  refine ⟨_, _, rfl, ?_⟩
  have := tabs_le (l.take n)
  rw [List.length_take] at this
  omega

theorem wholeLines_some {w : Nat} : ∀ (n k : Nat) (ls : List Str), (∀ l ∈ ls, ∀ x ∈ l, x.toNat < 128) → ∃ s, wholeLines w n k ls = some s
  | 0, _, _, _ => ⟨_, rfl⟩
  | n + 1, k, ls, h => by
    obtain ⟨s, hs⟩ := wholeLines_some (w := w) n (k + 1) ls.tail (fun l hl => h l (List.mem_of_mem_tail hl))
    rw [wholeLines, hs]
    cases ls with
    | nil => exact ⟨_, rfl⟩
    | cons l ls =>
      rw [List.head?_cons, lineStr_ascii (h l (by simp))]
      exact ⟨_, rfl⟩

theorem lineCol_none {l : Str} {n : Nat} (ha : ∀ x ∈ l, x.toNat < 128) (hn : ¬ n ≤ l.length) : lineCol (some l) n = none := by
  unfold lineCol
  rw [lineStr_ascii ha]
  simp only
  rw [cutAt, if_pos (by omega)]
  rfl

theorem here_le {text : Str} {n m : Nat} {p q : Pos} (hp : Here text n p) (hq : Here text m q) (hnm : n ≤ m) :
    p.line < q.line ∨ (p.line = q.line ∧ p.col ≤ q.col) := by
  rcases Nat.lt_or_ge n m with h | h
  · have := here_before hp hq h
    unfold Pos.before at this
    omega
  · have : n = m := by omega
    subst this
    rw [here_iff] at hp hq
    rw [hp.2, hq.2]; exact .inr ⟨rfl, Nat.le_refl _⟩

theorem single_iff {w : Nat} {text : Str} {n m : Nat} {p q : Pos} (ht : Plain text) (hp : Here text n p) (hq : Here text m q) (hnm : n ≤ m)
    (h1 : 0 < p.col) (h2 : 0 < q.col) (he : p.line = q.line) :
    Span.single w ⟨p, q⟩ (bufLines [] text) = none ↔ AtCr text n ∨ AtCr text m := by
  obtain ⟨l, h3, h5, h6, h7, h4⟩ := here_line ht hp h1
  obtain ⟨l', h3', -, -, -, h4'⟩ := here_line ht hq h2
  rw [← he, h3, Option.some.injEq] at h3'
  subst h3'
  have hle : p.col ≤ q.col := by
    have := here_le hp hq hnm
    omega
  unfold Span.single lineCols
  simp only
  rw [if_neg h7, h3, lineStr_ascii h5]
  simp only
  by_cases c1 : p.col ≤ l.length
  · by_cases c2 : q.col ≤ l.length
    · simp only [cutAt_ascii h5 c1, cutAt_ascii h5 c2]
      rw [if_neg (by omega)]
      simp only
      rw [if_neg (by omega)]
      have t1 := tabs_le (l.take p.col)
      have t2 := tabs_le ((l.take q.col).drop p.col)
      simp only [List.length_take, List.length_drop] at t1 t2
      simp only [pad]
      rw [if_pos (by omega), if_pos (by omega)]
      simp [h4.1 c1, h4'.1 c2]
    · have : cutAt l q.col = none := by rw [cutAt, if_pos (by omega)]
      simp only [cutAt_ascii h5 c1, this, true_iff]
      exact .inr (Classical.not_not.1 (fun h => c2 (h4'.2 h)))
  · have : cutAt l p.col = none := by rw [cutAt, if_pos (by omega)]
    simp only [this, true_iff]
    exact .inl (Classical.not_not.1 (fun h => c1 (h4.2 h)))

theorem multi_iff {w : Nat} {text : Str} {n m : Nat} {p q : Pos} (ht : Plain text) (hp : Here text n p) (hq : Here text m q)
    (h1 : 0 < p.col) (h2 : 0 < q.col) (he : p.line < q.line) :
    Span.multi w ⟨p, q⟩ (bufLines [] text) = none ↔ AtCr text n ∨ AtCr text m := by
  obtain ⟨l, h3, h5, h6, h7, h4⟩ := here_line ht hp h1
  obtain ⟨l', h3', h5', h6', h7', h4'⟩ := here_line ht hq h2
  have hall : ∀ l ∈ bufLines [] text, ∀ x ∈ l, x.toNat < 128 := fun l hl x hx => ht.ascii x ((bufLines_infix text [] text rfl hl).subset hx)
  generalize bufLines [] text = ls at *
  unfold Span.multi
  simp only
  rw [if_neg (by omega)]
  have e1 : (ls.drop (p.line - 1)).head? = some l := by rw [List.head?_drop, h3]
  have e2 : ((ls.drop (p.line - 1)).drop (q.line - p.line - 1 + 1)).head? = some l' := by
    rw [List.drop_drop, List.head?_drop, ← h3']
    congr 1; omega
  rw [e1, e2]
  have hsub : ∀ i, ∀ l ∈ (ls.drop (p.line - 1)).drop i, ∀ x ∈ l, x.toNat < 128 :=
    fun i l hl => hall l (List.mem_of_mem_drop (List.mem_of_mem_drop hl))
  obtain ⟨s3, h12⟩ : ∃ s, Span.middle w ⟨p, q⟩ (q.line - p.line - 1) (ls.drop (p.line - 1)) = some s := by
    unfold Span.middle
    simp only
    have ht : ∀ l ∈ (ls.drop (p.line - 1)).tail, ∀ x ∈ l, x.toNat < 128 := fun l hl => hall l (List.mem_of_mem_drop (List.mem_of_mem_tail hl))
    split
    · exact wholeLines_some _ _ _ ht
    · obtain ⟨x, hx⟩ := wholeLines_some (w := w) 2 (p.line + 1) _ ht
      obtain ⟨y, hy⟩ := wholeLines_some (w := w) 1 (q.line - 1) _ (hsub (q.line - p.line - 1))
      rw [hx, hy]
      exact ⟨_, rfl⟩
  by_cases c1 : p.col ≤ l.length
  · obtain ⟨s1, k1, h8, h9⟩ := lineCol_some h5 c1 h6
    by_cases c2 : q.col ≤ l'.length
    · obtain ⟨s2, k2, h10, h11⟩ := lineCol_some h5' c2 h6'
      rw [h8, h10, h12]
      simp only [pad, if_pos h9, if_pos h11]
      simp [h4.1 c1, h4'.1 c2]
    · rw [h8, lineCol_none h5' c2, h12]
      simp only [true_iff]
      exact .inr (Classical.not_not.1 (fun h => c2 (h4'.2 h)))
  · rw [lineCol_none h5 c1]
    simp only [true_iff]
    exact .inl (Classical.not_not.1 (fun h => c1 (h4.2 h)))

theorem info_iff {w : Nat} {text path : Str} {n m : Nat} {p q : Pos} (ht : Plain text) (hp : Here text n p) (hq : Here text m q) (hnm : n ≤ m) :
    Span.info w ⟨p, q⟩ (.file path (some text)) = none ↔ 0 < p.col ∧ 0 < q.col ∧ (AtCr text n ∨ AtCr text m) := by
  unfold Span.info
  simp only
  by_cases h : 0 < p.col ∧ 0 < q.col
  · rw [if_pos h]
    have hle := here_le hp hq hnm
    by_cases he : p.line = q.line
    · rw [if_pos he, Option.map_eq_none_iff, single_iff ht hp hq hnm h.1 h.2 he]
      simp [h]
    · rw [if_neg he, Option.map_eq_none_iff, multi_iff ht hp hq h.1 h.2 (by omega)]
      simp [h]
  · rw [if_neg h]
    constructor
    · intro h'; cases h'
    · rintro ⟨h1, h2, -⟩
      exact absurd ⟨h1, h2⟩ h

end Koopa
