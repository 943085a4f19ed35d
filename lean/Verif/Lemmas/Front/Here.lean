import Verif.Lemmas.Front.LexPos
import Verif.Lemmas.Front.LexErase
/-!
Positions count lines and columns.
-/
namespace Koopa
open Spec

theorem after_flat {s : Str} (h : '\n' ∉ s) : ∀ q : Pos, q.after s = ⟨q.line, q.col + s.length⟩ := by
  induction s with
  | nil => intro q; rfl
  | cons c s ih =>
    intro q
    simp only [List.mem_cons, not_or] at h
    rw [after_cons, ih h.2]
    have hc : c ≠ '\n' := fun e => h.1 e.symm
    simp only [Pos.update, if_neg hc, List.length_cons, Pos.mk.injEq, true_and]
    omega

theorem after_line : ∀ (s : Str) (q : Pos), (q.after s).line = q.line + s.count '\n'
  | [], q => rfl
  | c :: s, q => by
    rw [after_cons, after_line s, List.count_cons]
    by_cases hc : c = '\n'
    · simp [Pos.update, hc]; omega
    · simp [Pos.update, hc]

theorem after_break (s : Str) (q : Pos) : q.after (s ++ ['\n']) = ⟨q.line + s.count '\n' + 1, 0⟩ := by
  rw [after_append, after_cons, after_nil, Pos.update, if_pos rfl, after_line]

theorem after_parts {lines cur : Str} (h1 : lines = [] ∨ ∃ l, lines = l ++ ['\n']) (h2 : '\n' ∉ cur) :
    Pos.new.after (lines ++ cur) = ⟨1 + lines.count '\n', cur.length⟩ := by
  rw [after_append, after_flat h2]
  rcases h1 with rfl | ⟨l, rfl⟩
  · simp [Pos.new]
  · rw [after_break]
    simp [Pos.new, List.count_append]; omega

/-- Every text is some lines and the start of a line. -/
theorem cut_last : ∀ (u : Str), ∃ lines cur, u = lines ++ cur ∧ (lines = [] ∨ ∃ l, lines = l ++ ['\n']) ∧ '\n' ∉ cur
  | [] => ⟨[], [], rfl, .inl rfl, by simp⟩
  | c :: u => by
    obtain ⟨lines, cur, h1, h2, h3⟩ := cut_last u
    rcases h2 with rfl | ⟨l, rfl⟩
    · by_cases hc : c = '\n'
      · exact ⟨['\n'], cur, by rw [h1, hc]; rfl, .inr ⟨[], rfl⟩, h3⟩
      · refine ⟨[], c :: cur, by rw [h1]; rfl, .inl rfl, ?_⟩
        simp only [List.mem_cons, not_or]
        exact ⟨fun e => hc e.symm, h3⟩
    · exact ⟨c :: (l ++ ['\n']), cur, by rw [h1]; rfl, .inr ⟨c :: l, rfl⟩, h3⟩

theorem here_iff {text : Str} {n : Nat} {p : Pos} : Here text n p ↔ n ≤ text.length ∧ p = Pos.new.after (text.take n) := by
  constructor
  · rintro ⟨h, lines, cur, h1, h2, h3, h4⟩
    exact ⟨h, by rw [h1, after_parts h2 h3, h4]⟩
  · rintro ⟨h, h1⟩
    obtain ⟨lines, cur, h2, h3, h4⟩ := cut_last (text.take n)
    exact ⟨h, lines, cur, h2, h3, h4, by rw [h1, h2, after_parts h3 h4]⟩

theorem here_after {text u r : Str} (h : text = u ++ r) : Here text u.length (Pos.new.after u) := by
  rw [here_iff]
  subst h
  simp

/-- The order of reading. -/
def Pos.before (p q : Pos) : Prop := p.line < q.line ∨ (p.line = q.line ∧ p.col < q.col)

theorem before_trans {p q r : Pos} (h : p.before q) (h' : q.before r) : p.before r := by
  unfold Pos.before at *
  omega

theorem before_update (q : Pos) (c : Char) : q.before (q.update c) := by
  unfold Pos.before Pos.update
  split <;> simp

theorem before_after : ∀ (s : Str) (q : Pos), s ≠ [] → q.before (q.after s)
  | [], _, h => absurd rfl h
  | [c], q, _ => before_update q c
  | c :: d :: s, q, _ => before_trans (before_update q c) (before_after (d :: s) _ (by simp))

theorem here_before {text : Str} {n m : Nat} {p q : Pos} (hp : Here text n p) (hq : Here text m q) (h : n < m) : p.before q := by
  rw [here_iff] at hp hq
  have e : text.take m = text.take n ++ (text.drop n).take (m - n) := by
    rw [← List.take_add]; congr 1; omega
  rw [hp.2, hq.2, e, after_append]
  apply before_after
  intro he
  have := congrArg List.length he
  simp at this
  omega

deriving instance DecidableEq for Except

/-- The results of `n` calls of `next_token`. -/
def PLex.calls : Nat → PLex → List (Except PErr PToken)
  | 0, _ => []
  | n + 1, l => match l.nextToken with
    | none => []
    | some (r, l) => r :: PLex.calls n l

theorem calls_finds {f : Bool} {text : Str} : ∀ (n : Nat) (l : PLex) (d b : Str), text = d ++ b →
    (∃ r, l.nextToken = some r ∧ POut b f (Pos.new.after d) r) → Finds f text d.length (l.calls n)
  | 0, _, _, _, _, _ => .nil
  | n + 1, l, d, b, ht, h => by
    obtain ⟨⟨r, l'⟩, h1, h2⟩ := h
    rw [PLex.calls, h1]
    simp only
    have hdrop : text.drop d.length = b := by rw [ht]; simp
    have first : ∀ {w s x : Str} {sp : Span}, b = w ++ (s ++ x) → Marks ((Pos.new.after d).after w) s sp →
        Here text (d.length + w.length + 1) sp.start ∧ Here text (d.length + w.length + s.length) sp.stop := by
      rintro w s x sp hb ⟨c, t, rfl, rfl⟩
      have e1 := here_after (text := text) (u := d ++ w ++ [c]) (r := t ++ x) (by rw [ht, hb]; simp)
      have e2 := here_after (text := text) (u := d ++ w ++ (c :: t)) (r := x) (by rw [ht, hb]; simp)
      refine ⟨?_, ?_⟩
      · rw [after_append, after_append] at e1
        simpa [after_cons, Nat.add_assoc] using e1
      · rw [after_append, after_append] at e2
        simpa [Nat.add_assoc] using e2
    cases r with
    | ok t =>
      rcases h2 with ⟨w, s, b', hb, hw, hk, hs, hm, hl⟩ | ⟨rfl, hb, hl⟩
      · obtain ⟨ha, hb2⟩ := first hb hm
        have ih := calls_finds (f := f) (text := text) n l' (d ++ w ++ s) b' (by rw [ht, hb]; simp) (by
          have := pnextToken_out b' f (Pos.new.after (d ++ w ++ s))
          rw [hl]
          rw [show (Pos.new.after d).after (w ++ s) = Pos.new.after (d ++ w ++ s) by rw [List.append_assoc, after_append Pos.new]]
          exact this)
        obtain ⟨sp, k⟩ := t
        have e : (d ++ w ++ s).length = d.length + w.length + s.length := by simp [Nat.add_assoc]
        rw [e] at ih
        exact .tok (by rw [hdrop, hb]) hw hk hs ha hb2 ih
      · have e : (Pos.new.after d).after b = Pos.new.after text := by rw [ht, after_append]
        rw [e] at hl
        have ih := calls_finds (f := f) (text := text) n l' text [] (by simp) (by rw [hl]; exact pnextToken_out [] f (Pos.new.after text))
        rw [e]
        exact .eof (by rw [hdrop]; exact hb) (here_after (r := []) (by simp)) ih
    | error e =>
      cases e with
      | normal sp =>
        obtain ⟨⟨w, c, s, b', hb, hw, -, hx, hm⟩, u, b2, hu, hb2, hl⟩ := h2
        obtain ⟨ha, hb'⟩ := first hb hm
        have ih := calls_finds (f := f) (text := text) n l' (d ++ u) b2 (by rw [ht, hb2]; simp) (by
          rw [hl, after_append]
          exact pnextToken_out b2 f _)
        have : 0 < u.length := by
          cases u with
          | nil => exact absurd rfl hu
          | cons => simp
        obtain ⟨a, z⟩ := sp
        exact .bad (by rw [hdrop, hb]) hw hx ha hb' (by simp; omega) (by rw [ht, hb2]; simp) ih
      | fatal => exact .fatal h2

theorem calls_length : ∀ (n : Nat) (l : PLex) (b : Str) (q : Pos), (∃ r, l.nextToken = some r ∧ POut b false q r) → (l.calls n).length = n
  | 0, _, _, _, _ => rfl
  | n + 1, l, b, q, h => by
    obtain ⟨⟨r, l'⟩, h1, h2⟩ := h
    rw [PLex.calls, h1]
    simp only [List.length_cons, Nat.add_right_cancel_iff]
    cases r with
    | ok t =>
      rcases h2 with ⟨w, s, b', -, -, -, -, -, hl⟩ | ⟨-, -, hl⟩
      · rw [hl]; exact calls_length n _ _ _ (pnextToken_out b' false _)
      · rw [hl]; exact calls_length n _ _ _ (pnextToken_out [] false _)
    | error e =>
      cases e with
      | normal sp =>
        obtain ⟨-, u, b2, -, -, hl⟩ := h2
        rw [hl]; exact calls_length n _ _ _ (pnextToken_out b2 false _)
      | fatal => cases h2

end Koopa
