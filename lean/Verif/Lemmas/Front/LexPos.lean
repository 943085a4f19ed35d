import Verif.Spec.Position
import Verif.Lemmas.Front.LexRun
/-!
Where the lexer is, and the spans of what it returns.
-/
namespace Koopa
open Spec

/-- The position after the characters `s`. -/
def Pos.after (q : Pos) (s : Str) : Pos := s.foldl Pos.update q

@[simp] theorem after_nil (q : Pos) : q.after [] = q := rfl
theorem after_cons (q : Pos) (c : Char) (s : Str) : q.after (c :: s) = (q.update c).after s := rfl
theorem after_append (q : Pos) (s t : Str) : q.after (s ++ t) = (q.after s).after t := List.foldl_append

/-- The state in which the text `b` is still to be consumed and `q` is the position before it. -/
def PLex.at (b : Str) (f : Bool) (q : Pos) : PLex :=
  { last := b.head?, rest := b.tail, fail := f, pos := match b with
    | [] => q
    | c :: _ => q.update c }

theorem pat_cons_pos (c : Char) (b : Str) (f : Bool) (q : Pos) : (PLex.at (c :: b) f q).pos = q.update c := rfl

theorem PLex.nextChar_at (c : Char) (b : Str) (f : Bool) (q : Pos) (h : f = true → b ≠ []) :
    (PLex.at (c :: b) f q).nextChar = (true, PLex.at b f (q.update c)) := by
  cases b with
  | nil =>
    cases f
    · rfl
    · simp at h
  | cons d b => rfl

theorem PLex.nextChar_inv {c : Char} {b : Str} {f : Bool} {q : Pos} {r : Bool} {l : PLex}
    (h : (PLex.at (c :: b) f q).nextChar = (r, l)) : (r = true ∧ l = PLex.at b f (q.update c)) ∨ (r = false ∧ f = true) := by
  by_cases hf : f = true ∧ b = []
  · obtain ⟨rfl, rfl⟩ := hf
    cases h
    exact .inr ⟨rfl, rfl⟩
  · rw [PLex.nextChar_at _ _ _ _ (fun h1 h2 => hf ⟨h1, h2⟩)] at h
    cases h
    exact .inl ⟨rfl, rfl⟩

theorem peatLoop_at (p : Char → Bool) (f : Bool) : ∀ (b : Str) (c : Char) (q e : Pos) {r : Option Str} {e' : Pos} {l : PLex},
    peatLoop p f b c (q.update c) e = (r, e', l) →
    (∃ s b', r = some s ∧ c :: b = s ++ b' ∧ l = PLex.at b' f (q.after s) ∧ (∀ x ∈ s, p x = true) ∧ (∀ x, b'.head? = some x → p x = false) ∧
      e' = (if s = [] then e else q.after s)) ∨ (r = none ∧ f = true)
  | [], c, q, e, r, e', l, h => by
    unfold peatLoop at h
    by_cases hp : p c
    · rw [if_pos hp] at h
      cases f
      · cases h
        exact .inl ⟨[c], [], rfl, rfl, rfl, by simpa using hp, by simp, rfl⟩
      · cases h; exact .inr ⟨rfl, rfl⟩
    · rw [if_neg hp] at h
      cases h
      exact .inl ⟨[], [c], rfl, rfl, rfl, by simp, by simpa using hp, rfl⟩
  | d :: b, c, q, e, r, e', l, h => by
    unfold peatLoop at h
    by_cases hp : p c
    · rw [if_pos hp] at h
      rcases h1 : peatLoop p f b d ((q.update c).update d) (q.update c) with ⟨_ | s, e1, l1⟩
      · rw [h1] at h
        cases h
        rcases peatLoop_at p f b d (q.update c) (q.update c) h1 with ⟨s, b', h2, -⟩ | ⟨-, h2⟩
        · cases h2
        · exact .inr ⟨rfl, h2⟩
      · rw [h1] at h
        cases h
        rcases peatLoop_at p f b d (q.update c) (q.update c) h1 with ⟨s', b', h2, h3, h4, h5, h6, h7⟩ | ⟨h2, -⟩
        · cases h2
          refine .inl ⟨c :: s, b', rfl, by rw [h3]; rfl, h4, ?_, h6, ?_⟩
          · intro x hx
            rcases List.mem_cons.1 hx with rfl | hx
            · exact hp
            · exact h5 x hx
          · rw [h7, after_cons]
            by_cases hs : s = []
            · subst hs; rfl
            · rw [if_neg hs, if_neg (List.cons_ne_nil _ _)]
        · cases h2
    · rw [if_neg hp] at h
      cases h
      exact .inl ⟨[], c :: d :: b, rfl, rfl, rfl, by simp, by simpa using hp, rfl⟩

theorem PLex.eatWhile_inv {p : Char → Bool} {b : Str} {f : Bool} {q e : Pos} {r : Option Str} {e' : Pos} {l : PLex}
    (h : (PLex.at b f q).eatWhile p e = (r, e', l)) :
    (∃ s b', r = some s ∧ b = s ++ b' ∧ l = PLex.at b' f (q.after s) ∧ (∀ x ∈ s, p x = true) ∧ (∀ x, b'.head? = some x → p x = false) ∧
      e' = (if s = [] then e else q.after s)) ∨ (r = none ∧ f = true) := by
  cases b with
  | nil =>
    cases h
    exact .inl ⟨[], [], rfl, rfl, rfl, by simp, by simp, rfl⟩
  | cons c b => exact peatLoop_at p f b c q e h

theorem pat_last {b : Str} {f : Bool} {q : Pos} {c : Char} (h : (PLex.at b f q).last = some c) : ∃ b', b = c :: b' := by
  cases b with
  | nil => simp [PLex.at] at h
  | cons d b => simp [PLex.at] at h; exact ⟨b, by rw [h]⟩

theorem pat_last_none {b : Str} {f : Bool} {q : Pos} (h : (PLex.at b f q).last = none) : b = [] := by
  cases b with
  | nil => rfl
  | cons d b => simp [PLex.at] at h

theorem splitClose_open : ∀ (b : Str) (star : Bool), splitClose star b = none → ¬ ['*', '/'] <:+: (if star then ['*'] else []) ++ b
  | [], star, _ => by
    intro hi
    have := hi.length_le
    cases star <;> simp at this
  | c :: b, star, h => by
    rw [splitClose] at h
    by_cases hs : (star && decide (c = '/')) = true
    · rw [if_pos hs] at h; cases h
    · rw [if_neg hs] at h
      have ih := splitClose_open b (decide (c = '*')) (by simpa using h)
      have h1 : ¬ ['*', '/'] <:+: c :: b := by
        by_cases hc : c = '*'
        · subst hc; simpa using ih
        · simp only [hc, decide_false, Bool.false_eq_true, if_false, List.nil_append] at ih
          rw [List.infix_cons_iff]
          rintro (⟨t, ht⟩ | h)
          · simp only [List.cons_append, List.cons.injEq] at ht
            exact hc ht.1.symm
          · exact ih h
      cases star with
      | false => simpa using h1
      | true =>
        simp only [if_true, List.singleton_append]
        rw [List.infix_cons_iff]
        rintro (⟨t, ht⟩ | h)
        · simp only [List.cons_append, List.cons.injEq, true_and] at ht
          simp [← ht.1] at hs
        · exact h1 h

/-- The span starts at the first character of `s` and stops at the last; `q` is the position before. -/
def Marks (q : Pos) (s : Str) (sp : Span) : Prop := ∃ c t, s = c :: t ∧ sp = ⟨q.update c, q.after s⟩

/-- What may be returned where `b` is left and `q` is the position before it. -/
def POut (b : Str) (f : Bool) (q : Pos) : PRes → Prop
  | (.ok t, l) =>
    (∃ w s b', b = w ++ (s ++ b') ∧ Blank w ∧ TokText t.kind s ∧ Stop s b' ∧ Marks (q.after w) s t.span ∧ l = PLex.at b' f (q.after (w ++ s))) ∨
    (t = ⟨⟨q.after b, q.after b⟩, .eof⟩ ∧ BlankEof b ∧ l = PLex.at [] f (q.after b))
  | (.error (.normal sp), l) => (∃ w c s b', b = w ++ (c :: s ++ b') ∧ Blank w ∧ isWs c = false ∧ BadText (c :: s) b' ∧ Marks (q.after w) (c :: s) sp) ∧
      ∃ u b', u ≠ [] ∧ b = u ++ b' ∧ l = PLex.at b' f (q.after u)
  | (.error .fatal, _) => f = true

theorem perr_out {b b' u s x : Str} {c : Char} {f : Bool} {q : Pos} {sp : Span} (hb : b = u ++ b') (hu : u ≠ []) (hc : isWs c = false)
    (hs : b = c :: s ++ x) (hx : BadText (c :: s) x) (hm : Marks q (c :: s) sp) : POut b f q ((PLex.at b' f (q.after u)).errAndSkip sp) := by
  unfold PLex.errAndSkip
  split
  all_goals rename_i l h
  · rcases PLex.eatWhile_inv h with ⟨t, b2, ht, rfl, rfl, -⟩ | ⟨h, -⟩
    · refine ⟨⟨[], c, s, x, hs, .nil, hc, hx, hm⟩, u ++ t, b2, by simp [hu], by simp [hb], by rw [after_append]⟩
    · cases h
  · rcases PLex.eatWhile_inv h with ⟨t, b2, ht, -⟩ | ⟨-, hf⟩
    · cases ht
    · exact hf

theorem ptok_out {b b' s : Str} {f : Bool} {q : Pos} {k : TokKind} {sp : Span} (hb : b = s ++ b') (hk : TokText k s) (hs : Stop s b') (hm : Marks q s sp) :
    POut b f q (.ok ⟨sp, k⟩, PLex.at b' f (q.after s)) := .inl ⟨[], s, b', hb, .nil, hk, hs, hm, rfl⟩

theorem pinteger_out {c : Char} {b : Str} {f : Bool} {q : Pos}
    (hc : isNum c = true ∨ c = '-') (hw : isWs c = false) (htag : c ≠ '@' ∧ c ≠ '%') (ha : isAlpha c = false) :
    POut (c :: b) f q ((PLex.at (c :: b) f q).handleInteger c) := by
  unfold PLex.handleInteger
  simp only [pat_cons_pos]
  split
  all_goals rename_i l h
  · rcases PLex.nextChar_inv h with ⟨h, -⟩ | ⟨-, hf⟩
    · cases h
    · exact hf
  rcases PLex.nextChar_inv h with ⟨-, rfl⟩ | ⟨h, -⟩
  rotate_left
  · cases h
  split
  all_goals rename_i h
  · rcases PLex.eatWhile_inv h with ⟨t, b2, ht, -⟩ | ⟨-, hf⟩
    · cases ht
    · exact hf
  · rename_i s e l
    rcases PLex.eatWhile_inv h with ⟨t, b2, ht, rfl, rfl, h1, h2, he⟩ | ⟨h, -⟩
    rotate_left
    · cases h
    cases ht
    have hm : Marks q (c :: s) ⟨q.update c, e⟩ := ⟨c, s, rfl, by rw [he, after_cons]; split <;> simp [*]⟩
    rw [← after_cons]
    split
    · rename_i i hi
      refine ptok_out (by simp) (.int hc h1 hi) ?_ hm
      intro x hx
      have := h2 x hx
      split
      · rename_i he; simp only [List.cons.injEq] at he; exact absurd he.1 htag.1
      · rename_i he; simp only [List.cons.injEq] at he; exact absurd he.1 htag.2
      · rename_i he; simp only [List.cons.injEq] at he
        obtain ⟨rfl, -⟩ := he
        exact ⟨fun h => by simp [ha] at h, fun _ => this⟩
      · trivial
    · rename_i hi
      exact perr_out (u := c :: s) (x := b2) (by simp) (by simp) hw (by simp) (.int hc h1 h2 hi) hm

theorem keywordKind_of_text {k : TokKind} {c : Char} {s : Str} (h : TokText k (c :: s)) (ha : isAlpha c = true) : keywordKind (c :: s) = some k := by
  generalize hu : c :: s = u at h
  cases h with
  | sym ht =>
    simp only [List.cons.injEq] at hu
    rcases ht with rfl | rfl <;> (rw [hu.1] at ha; exact absurd ha (by decide))
  | temp =>
    simp only [List.cons.injEq] at hu
    rw [hu.1] at ha; exact absurd ha (by decide)
  | kw h => exact (keyword_run h).1
  | op h => exact (op_run h).1
  | int hc =>
    simp only [List.cons.injEq] at hu
    rw [hu.1] at ha
    exfalso
    rcases hc with hc | rfl
    · simp only [isNum, isDigit, isAlpha, Bool.or_eq_true, Bool.and_eq_true, decide_eq_true_eq] at hc ha
      omega
    · revert ha; decide
  | other h h1 h2 h3 h4 =>
    simp only [List.cons.injEq] at hu
    rw [hu.1, h4] at ha; cases ha

theorem pkeyword_out {c : Char} {b : Str} {f : Bool} {q : Pos} (ha : isAlpha c = true) (hw : isWs c = false) :
    POut (c :: b) f q (PLex.at (c :: b) f q).handleKeyword := by
  have hat : c ≠ '@' := by rintro rfl; revert ha; decide
  have hpc : c ≠ '%' := by rintro rfl; revert ha; decide
  unfold PLex.handleKeyword
  simp only [pat_cons_pos]
  split
  all_goals rename_i h
  · rcases PLex.eatWhile_inv h with ⟨t, b2, ht, -⟩ | ⟨-, hf⟩
    · cases ht
    · exact hf
  · rename_i s e l
    rcases PLex.eatWhile_inv h with ⟨t, b2, ht, hb, rfl, h1, h2, he⟩ | ⟨h, -⟩
    rotate_left
    · cases h
    cases ht
    have hs : ∃ t, s = c :: t := by
      cases s with
      | nil =>
        simp only [List.nil_append] at hb
        have := h2 c (by simp [← hb])
        simp [isAlnum, ha] at this
      | cons d t =>
        simp only [List.cons_append, List.cons.injEq] at hb
        exact ⟨t, by rw [hb.1]⟩
    obtain ⟨t, rfl⟩ := hs
    have hm : Marks q (c :: t) ⟨q.update c, e⟩ := ⟨c, t, rfl, by rw [he, if_neg (by simp)]⟩
    split
    · rename_i k hk
      refine ptok_out hb (keywordKind_text hk) ?_ hm
      intro x hx
      have := h2 x hx
      split
      · rename_i he; simp only [List.cons.injEq] at he; exact absurd he.1 hat
      · rename_i he; simp only [List.cons.injEq] at he; exact absurd he.1 hpc
      · rename_i he; simp only [List.cons.injEq] at he
        obtain ⟨rfl, -⟩ := he
        simp only [isAlnum, Bool.or_eq_false_iff] at this
        exact ⟨fun h => by simp [isAlnum, this], fun _ => this.2⟩
      · trivial
    · rename_i hk
      refine perr_out hb (by simp) hw hb (.word ha (fun x hx => h1 x (by simp [hx])) h2 ?_) hm
      intro k ht
      rw [keywordKind_of_text ht ha] at hk
      cases hk

theorem pfinish_out {tag : Char} {s b b' : Str} {f : Bool} {q : Pos} {sp : Span} (hw : isWs tag = false) (hb : b = (tag :: s) ++ b')
    (hm : Marks q (tag :: s) sp) (hbad : s = [] → BadText [tag] b') (hok : s ≠ [] → TokText (.sym (tag :: s)) (tag :: s) ∧ Stop (tag :: s) b') :
    POut b f q ((PLex.at b' f (q.after (tag :: s))).finishSymbol sp (tag :: s)) := by
  unfold PLex.finishSymbol
  split
  · rename_i hs
    have hs : s = [] := by cases s <;> simp_all
    subst hs
    exact perr_out hb (by simp) hw hb (hbad rfl) hm
  · rename_i hs
    have hs : s ≠ [] := by rintro rfl; simp at hs
    exact ptok_out hb (hok hs).1 (hok hs).2 hm

theorem psymbol_out {tag : Char} {b : Str} {f : Bool} {q : Pos} (htag : tag = '@' ∨ tag = '%') :
    POut (tag :: b) f q ((PLex.at (tag :: b) f q).handleSymbol tag) := by
  have hw : isWs tag = false := by rcases htag with rfl | rfl <;> decide
  unfold PLex.handleSymbol
  simp only [pat_cons_pos]
  split
  all_goals rename_i l h
  · rcases PLex.nextChar_inv h with ⟨h, -⟩ | ⟨-, hf⟩
    · cases h
    · exact hf
  rcases PLex.nextChar_inv h with ⟨-, rfl⟩ | ⟨h, -⟩
  rotate_left
  · cases h
  split
  · rename_i hl
    have hb := pat_last_none hl
    subst hb
    exact pfinish_out (s := []) hw (by simp) ⟨tag, [], rfl, rfl⟩ (fun _ => .tag htag (by simp)) (by simp)
  · rename_i digit hl
    have hb : ∃ b1, b = digit :: b1 := by
      cases b with
      | nil => simp [PLex.at] at hl
      | cons d b => simp [PLex.at] at hl; exact ⟨b, by rw [hl]⟩
    obtain ⟨b1, rfl⟩ := hb
    simp only [pat_cons_pos]
    split
    · rename_i hnum
      split
      · rename_i hat
        exact perr_out (u := [tag]) (s := []) (x := digit :: b1) (by simp) (by simp) hw (by simp)
          (.tag htag (fun x hx => by simp at hx; subst hx; exact .inr ⟨hat, hnum⟩)) ⟨tag, [], rfl, rfl⟩
      · rename_i hne
        have htag' : tag = '%' := by rcases htag with h | h; exact absurd h hne; exact h
        split
        all_goals rename_i l h
        · rcases PLex.nextChar_inv h with ⟨h, -⟩ | ⟨-, hf⟩
          · cases h
          · exact hf
        rcases PLex.nextChar_inv h with ⟨-, rfl⟩ | ⟨h, -⟩
        rotate_left
        · cases h
        split
        · rename_i hz
          split
          all_goals rename_i h
          · rcases PLex.eatWhile_inv h with ⟨t, b2, ht, -⟩ | ⟨-, hf⟩
            · cases ht
            · exact hf
          · rename_i s e l
            rcases PLex.eatWhile_inv h with ⟨t, b2, ht, rfl, rfl, h1, h2, he⟩ | ⟨h, -⟩
            rotate_left
            · cases h
            cases ht
            refine pfinish_out (s := digit :: s) hw (by simp) ⟨tag, _, rfl, ?_⟩ (by simp) ?_
            · rw [he, after_cons, after_cons]; split <;> simp [*]
            intro _
            subst htag'
            refine ⟨.temp (.inr ⟨digit, s, rfl, hz, ?_⟩), ?_⟩
            · intro x hx
              rcases List.mem_cons.1 hx with rfl | hx
              · exact hnum
              · exact h1 x hx
            · intro x hx
              simp only [hnum, if_true]
              exact .inr (h2 x hx)
        · rename_i hz
          have hz : digit = '0' := by simpa using hz
          refine pfinish_out (s := [digit]) hw (by simp) ⟨tag, _, rfl, rfl⟩ (by simp) ?_
          intro _
          subst htag' hz
          exact ⟨.temp (.inl rfl), fun x hx => by simp [isNum, isDigit]⟩
    · rename_i hnum
      split
      all_goals rename_i h
      · rcases PLex.eatWhile_inv h with ⟨t, b2, ht, -⟩ | ⟨-, hf⟩
        · cases ht
        · exact hf
      · rename_i s e l
        rcases PLex.eatWhile_inv h with ⟨t, b2, ht, hb, rfl, h1, h2, he⟩ | ⟨h, -⟩
        rotate_left
        · cases h
        cases ht
        refine pfinish_out (s := s) hw (by simp [hb]) ⟨tag, _, rfl, ?_⟩ ?_ ?_
        · rw [he, after_cons]; split <;> simp [*]
        · rintro rfl
          refine .tag htag (fun x hx => .inl ?_)
          simpa using h2 x hx
        intro hs
        obtain ⟨d, t, rfl⟩ : ∃ d t, s = d :: t := by
          cases s with
          | nil => exact absurd rfl hs
          | cons d t => exact ⟨d, t, rfl⟩
        simp only [List.cons_append, List.cons.injEq] at hb
        obtain ⟨rfl, -⟩ := hb
        refine ⟨.sym htag ⟨⟨digit, t, rfl, by simpa using hnum⟩, ?_⟩, ?_⟩
        · intro x hx
          simpa using h1 x hx
        · intro x hx
          have := h2 x hx
          simp only [Bool.or_eq_false_iff, decide_eq_false_iff_not] at this
          rcases htag with rfl | rfl
          · exact this
          · simpa [hnum] using this

theorem pblockLoop_at (f : Bool) : ∀ (b : Str) (c : Char) (star : Bool) (q : Pos) {r : Bool} {l : PLex}, pblockLoop f b c (q.update c) star = (r, l) →
    (r = true ∧ match splitClose star (c :: b) with
      | some (s, x) => l = PLex.at x f (q.after s)
      | none => l = PLex.at [] f (q.after (c :: b))) ∨ (r = false ∧ f = true)
  | [], c, star, q, r, l, h => by
    unfold pblockLoop at h
    by_cases hs : (star && decide (c = '/')) = true
    · rw [if_pos hs] at h
      cases h
      refine .inl ⟨rfl, ?_⟩
      rw [splitClose, if_pos hs]; rfl
    · rw [if_neg hs] at h
      cases f
      · cases h
        refine .inl ⟨rfl, ?_⟩
        rw [splitClose, if_neg hs]; rfl
      · cases h; exact .inr ⟨rfl, rfl⟩
  | d :: b, c, star, q, r, l, h => by
    unfold pblockLoop at h
    by_cases hs : (star && decide (c = '/')) = true
    · rw [if_pos hs] at h
      cases h
      refine .inl ⟨rfl, ?_⟩
      rw [splitClose, if_pos hs]; rfl
    · rw [if_neg hs] at h
      rcases pblockLoop_at f b d (decide (c = '*')) (q.update c) h with ⟨h1, h2⟩ | h2
      · refine .inl ⟨h1, ?_⟩
        rw [splitClose, if_neg hs]
        cases hx : splitClose (decide (c = '*')) (d :: b) with
        | none => rw [hx] at h2; exact h2
        | some y => rw [hx] at h2; exact h2
      · exact .inr h2

theorem PLex.skipBlock_inv {b : Str} {f : Bool} {q : Pos} {r : Bool} {l : PLex} (h : (PLex.at b f q).skipBlock = (r, l)) :
    (r = true ∧ match splitClose false b with
      | some (s, x) => l = PLex.at x f (q.after s)
      | none => l = PLex.at [] f (q.after b)) ∨ (r = false ∧ f = true) := by
  cases b with
  | nil => cases h; exact .inl ⟨rfl, rfl⟩
  | cons c b => exact pblockLoop_at f b c false q h

theorem POut.blank {w b : Str} {f : Bool} {q : Pos} {r : PRes} (hw : Blank w) (h : POut b f (q.after w) r) : POut (w ++ b) f q r := by
  obtain ⟨r, l⟩ := r
  cases r with
  | ok t =>
    rcases h with ⟨v, s, b', rfl, hv, h2, h3, h4, h5⟩ | ⟨h1, h2, h3⟩
    · refine .inl ⟨w ++ v, s, b', by simp, Blank_append hw hv, h2, h3, ?_, ?_⟩
      · rw [after_append]; exact h4
      · rw [h5, List.append_assoc, after_append q]
    · exact .inr ⟨by rw [h1, after_append], BlankEof_append hw h2, by rw [h3, after_append]⟩
  | error e =>
    cases e with
    | normal sp =>
      obtain ⟨⟨v, c, s, b', h1, hv, hc, hx, h2⟩, u, b2, hu, h3, h4⟩ := h
      refine ⟨⟨w ++ v, c, s, b', by simp [h1], Blank_append hw hv, hc, hx, by rw [after_append]; exact h2⟩, w ++ u, b2, by simp [hu], by simp [h3], ?_⟩
      rw [h4, after_append]
    | fatal => exact h

theorem POut.line {s b : Str} {c : Char} {f : Bool} {q : Pos} {r : PRes} (hs : ∀ x ∈ s, x ≠ '\r' ∧ x ≠ '\n') (hc : c = '\r' ∨ c = '\n')
    (h : POut (c :: b) f (q.after ('/' :: '/' :: s)) r) : POut ('/' :: '/' :: (s ++ c :: b)) f q r := by
  have hws : isWs c = true := by rcases hc with rfl | rfl <;> decide
  have e : '/' :: '/' :: (s ++ c :: b) = ('/' :: '/' :: s) ++ (c :: b) := by simp
  obtain ⟨r, l⟩ := r
  cases r with
  | ok t =>
    rcases h with ⟨v, u, b', hb, hv, h2, h3, h4, h5⟩ | ⟨h1, h2, h3⟩
    · cases v with
      | nil =>
        obtain ⟨d, u', rfl, hd, -⟩ := TokText_head h2
        simp only [List.nil_append, List.cons_append, List.cons.injEq] at hb
        rw [hb.1] at hws; rw [hd] at hws; simp at hws
      | cons d v =>
        simp only [List.cons_append, List.cons.injEq] at hb
        obtain ⟨rfl, rfl⟩ := hb
        have hv' := Blank_tail hv hws
        refine .inl ⟨('/' :: '/' :: s) ++ c :: v, u, b', by simp, ?_, h2, h3, ?_, ?_⟩
        · simp only [List.cons_append]; exact .line hs hc hv'
        · rw [after_append]; exact h4
        · rw [h5, List.append_assoc, after_append q]
    · refine .inr ⟨?_, ?_, ?_⟩
      · rw [h1, e, after_append]
      · generalize hcb : c :: b = cb at h2
        cases h2 with
        | blank h => subst hcb; exact .blank (.line hs hc (Blank_tail h hws))
        | @line s' w h hs' =>
          have hw := hcb
          cases w with
          | nil =>
            simp only [List.nil_append, List.cons.injEq] at hw
            rcases hc with rfl | rfl <;> simp at hw
          | cons d w =>
            simp only [List.cons_append, List.cons.injEq] at hw
            obtain ⟨rfl, rfl⟩ := hw
            have := BlankEof.line (.line hs hc (Blank_tail h hws)) hs'
            simpa using this
      · rw [h3, e, after_append]
  | error e' =>
    cases e' with
    | normal sp =>
      obtain ⟨⟨v, d, s', b', h1, hv, hd, hx, h2⟩, u, b2, hu, h3, h4⟩ := h
      cases v with
      | nil =>
        simp only [List.nil_append, List.cons_append, List.cons.injEq] at h1
        rw [h1.1, hd] at hws; cases hws
      | cons d' v =>
        simp only [List.cons_append, List.cons.injEq] at h1
        obtain ⟨rfl, rfl⟩ := h1
        refine ⟨⟨('/' :: '/' :: s) ++ c :: v, d, s', b', by simp, ?_, hd, hx, by rw [after_append]; exact h2⟩, ('/' :: '/' :: s) ++ u, b2, by simp, ?_, ?_⟩
        · simp only [List.cons_append]; exact .line hs hc (Blank_tail hv hws)
        · rw [e, h3]; simp
        · rw [h4, after_append]
    | fatal => exact h

theorem pcomment_out {k : PLex → Option PRes} {b : Str} {f : Bool} {q : Pos}
    (ih : ∀ b' q', b'.length ≤ b.length → ∃ r, k (PLex.at b' f q') = some r ∧ POut b' f q' r) :
    ∃ r, (PLex.at ('/' :: b) f q).handleComment k = some r ∧ POut ('/' :: b) f q r := by
  unfold PLex.handleComment
  simp only [pat_cons_pos]
  split
  all_goals rename_i l h
  · rcases PLex.nextChar_inv h with ⟨h, -⟩ | ⟨-, hf⟩
    · cases h
    · exact ⟨_, rfl, hf⟩
  rcases PLex.nextChar_inv h with ⟨-, rfl⟩ | ⟨h, -⟩
  rotate_left
  · cases h
  split
  · -- block comment
    rename_i hl
    obtain ⟨b1, rfl⟩ := pat_last hl
    unfold PLex.handleBlockComment
    split
    all_goals rename_i l h
    · rcases PLex.nextChar_inv h with ⟨h, -⟩ | ⟨-, hf⟩
      · cases h
      · exact ⟨_, rfl, hf⟩
    rcases PLex.nextChar_inv h with ⟨-, rfl⟩ | ⟨h, -⟩
    rotate_left
    · cases h
    split
    all_goals rename_i l h
    · rcases PLex.skipBlock_inv h with ⟨h, -⟩ | ⟨-, hf⟩
      · cases h
      · exact ⟨_, rfl, hf⟩
    rcases PLex.skipBlock_inv h with ⟨-, h1⟩ | ⟨h, -⟩
    rotate_left
    · cases h
    cases hsc : splitClose false b1 with
    | none =>
      rw [hsc] at h1
      simp only at h1
      subst h1
      split
      · refine ⟨_, rfl, ?_⟩
        exact perr_out (u := '/' :: '*' :: b1) (s := '*' :: b1) (x := []) (by simp) (by simp) (by decide) (by simp) (.block (by simpa using splitClose_open _ _ hsc)) ⟨'/', _, rfl, rfl⟩
      · rename_i hl; simp [PLex.at] at hl
    | some y =>
      obtain ⟨s, r⟩ := y
      rw [hsc] at h1
      simp only at h1
      subst h1
      obtain ⟨hb1, hr⟩ := splitClose_eq _ _ _ _ hsc
      obtain ⟨⟨s0, hs0⟩, hno⟩ := splitClose_text _ _ _ _ hsc
      simp only [Bool.false_eq_true, if_false, List.nil_append] at hs0 hno
      obtain ⟨r', rfl⟩ : ∃ r', r = '/' :: r' := by
        cases r with
        | nil => simp at hr
        | cons d r => simp at hr; exact ⟨r, by rw [hr]⟩
      subst hs0
      subst hb1
      split
      · rename_i hl; simp [PLex.at] at hl
      · split
        all_goals rename_i l h
        · rcases PLex.nextChar_inv h with ⟨h, -⟩ | ⟨-, hf⟩
          · cases h
          · exact ⟨_, rfl, hf⟩
        rcases PLex.nextChar_inv h with ⟨-, rfl⟩ | ⟨h, -⟩
        rotate_left
        · cases h
        have e : '/' :: '*' :: (s0 ++ ['*'] ++ '/' :: r') = ('/' :: '*' :: (s0 ++ '*' :: '/' :: [])) ++ r' := by simp
        obtain ⟨r, h1, h2⟩ := ih r' (q.after ('/' :: '*' :: (s0 ++ '*' :: '/' :: []))) (by simp; omega)
        refine ⟨r, ?_, ?_⟩
        · rw [← h1]
          congr 2
          simp [after_append, after_cons]
        · rw [e]
          exact POut.blank (.block hno .nil) h2
  split
  · -- line comment
    rename_i hl
    obtain ⟨b1, rfl⟩ := pat_last hl
    split
    all_goals rename_i h
    · rcases PLex.eatWhile_inv h with ⟨t, b2, ht, -⟩ | ⟨-, hf⟩
      · cases ht
      · exact ⟨_, rfl, hf⟩
    rcases PLex.eatWhile_inv h with ⟨t, b2, ht, hb, rfl, h1, h2, -⟩ | ⟨h, -⟩
    rotate_left
    · cases h
    obtain ⟨s, rfl⟩ : ∃ s, t = '/' :: s := by
      cases t with
      | nil =>
        simp only [List.nil_append] at hb
        have := h2 '/' (by simp [← hb])
        exact absurd this (by decide)
      | cons d t =>
        simp only [List.cons_append, List.cons.injEq] at hb
        exact ⟨t, by rw [hb.1]⟩
    simp only [List.cons_append, List.cons.injEq, true_and] at hb
    subst hb
    have hs : ∀ x ∈ s, x ≠ '\r' ∧ x ≠ '\n' := by
      intro x hx
      simpa using h1 x (by simp [hx])
    obtain ⟨r, h3, h4⟩ := ih b2 (q.after ('/' :: '/' :: s)) (by simp; omega)
    refine ⟨r, h3, ?_⟩
    cases b2 with
    | nil =>
      obtain ⟨r, l⟩ := r
      have e : '/' :: '/' :: (s ++ []) = '/' :: '/' :: s := by simp
      cases r with
      | ok t =>
        rcases h4 with ⟨w, u, b', hb, -, hu, -⟩ | ⟨h5, -, h7⟩
        · obtain ⟨c, t', rfl, -⟩ := TokText_head hu
          simp at hb
        · refine .inr ⟨?_, ?_, ?_⟩
          · rw [h5, e]; rfl
          · rw [e]; exact BlankEof.line (w := []) .nil hs
          · rw [h7, e]; rfl
      | error e' =>
        cases e' with
        | normal sp =>
          obtain ⟨-, u, b', h5, h6, -⟩ := h4
          simp only [List.nil_eq, List.append_eq_nil_iff] at h6
          exact absurd h6.1 h5
        | fatal => exact h4
    | cons c b2 =>
      refine POut.line hs ?_ h4
      have := h2 c (by simp)
      simp only [Bool.and_eq_false_iff, decide_eq_false_iff_not, Decidable.not_not] at this
      exact this
  · rename_i hd1 hd2
    refine ⟨_, rfl, ?_⟩
    cases b with
    | nil => exact perr_out (u := ['/']) (s := []) (x := []) (by simp) (by simp) (by decide) (by simp) .slash ⟨'/', _, rfl, rfl⟩
    | cons d b =>
      exact perr_out (u := ['/']) (s := [d]) (x := b) (by simp) (by simp) (by decide) (by simp)
        (.comment (by simpa [PLex.at] using hd2) (by simpa [PLex.at] using hd1)) ⟨'/', _, rfl, rfl⟩

theorem pnextTokenF_out : ∀ (n : Nat) (b : Str) (f : Bool) (q : Pos), b.length < n →
    ∃ r, PLex.nextTokenF n (PLex.at b f q) = some r ∧ POut b f q r
  | 0, b, f, q, h => by omega
  | n + 1, b, f, q, hn => by
    rw [PLex.nextTokenF]
    split
    all_goals rename_i h
    · rcases PLex.eatWhile_inv h with ⟨t, b2, ht, -⟩ | ⟨-, hf⟩
      · cases ht
      · exact ⟨_, rfl, hf⟩
    rcases PLex.eatWhile_inv h with ⟨w, b1, ht, rfl, rfl, h1, h2, -⟩ | ⟨h, -⟩
    rotate_left
    · cases h
    suffices hsuff : ∃ r, (PLex.at b1 f (q.after w)).tokenAt (PLex.nextTokenF n) = some r ∧ POut b1 f (q.after w) r by
      obtain ⟨r, h3, h4⟩ := hsuff
      exact ⟨r, h3, POut.blank (Blank_of_ws h1) h4⟩
    clear h
    generalize q.after w = q
    unfold PLex.tokenAt
    split
    · rename_i hl
      have := pat_last_none hl
      subst this
      exact ⟨_, rfl, .inr ⟨rfl, .blank .nil, rfl⟩⟩
    · rename_i c hl
      obtain ⟨b, rfl⟩ := pat_last hl
      have hws := h2 c rfl
      split
      · rename_i hc
        subst hc
        refine pcomment_out ?_
        intro b' q' hb'
        exact pnextTokenF_out n b' f q' (by simp at hn; omega)
      · rename_i hsl
        split
        · rename_i hc
          have hc : c = '@' ∨ c = '%' := by simpa using hc
          exact ⟨_, rfl, psymbol_out hc⟩
        · rename_i htag
          have htag : c ≠ '@' ∧ c ≠ '%' := by simpa using htag
          split
          · rename_i ha
            exact ⟨_, rfl, pkeyword_out ha hws⟩
          · rename_i ha
            have ha : isAlpha c = false := by simpa using ha
            split
            · rename_i hc
              have hc : isNum c = true ∨ c = '-' := by simpa using hc
              exact ⟨_, rfl, pinteger_out hc hws htag ha⟩
            · rename_i hc
              have hc : isNum c = false ∧ c ≠ '-' := by simpa using hc
              simp only
              split
              all_goals rename_i l h
              · rcases PLex.nextChar_inv h with ⟨h, -⟩ | ⟨-, hf⟩
                · cases h
                · exact ⟨_, rfl, hf⟩
              rcases PLex.nextChar_inv h with ⟨-, rfl⟩ | ⟨h, -⟩
              rotate_left
              · cases h
              refine ⟨_, rfl, ptok_out (s := [c]) rfl (.other hws hsl htag.1 htag.2 ha hc.1 hc.2) ?_ ⟨c, [], rfl, rfl⟩⟩
              intro x hx
              split
              · rename_i he; simp only [List.cons.injEq] at he; exact absurd he.1 htag.1
              · rename_i he; simp at he
              · rename_i he; simp only [List.cons.injEq] at he
                obtain ⟨rfl, -⟩ := he
                simp [ha, hc]
              · trivial

theorem psize_at (b : Str) (f : Bool) (q : Pos) : (PLex.at b f q).size = b.length := by
  cases b <;> simp [PLex.at, PLex.size]

theorem pnextToken_out (b : Str) (f : Bool) (q : Pos) : ∃ r, (PLex.at b f q).nextToken = some r ∧ POut b f q r := by
  unfold PLex.nextToken
  rw [psize_at]
  exact pnextTokenF_out _ b f q (by omega)

/-- The first call begins with a blank that is not in the text. -/
theorem pnew_out (input : Str) (f : Bool) : ∃ r, (PLex.new input f).nextToken = some r ∧ POut input f Pos.new r := by
  by_cases hf : f = true ∧ input = []
  · obtain ⟨rfl, rfl⟩ := hf
    exact ⟨_, rfl, rfl⟩
  · obtain ⟨r, h1, h2⟩ := pnextTokenF_out (input.length + 2) input f Pos.new (by omega)
    refine ⟨r, ?_, h2⟩
    rw [← h1]
    unfold PLex.nextToken
    show PLex.nextTokenF (input.length + 1 + 1) _ = _
    rw [PLex.nextTokenF, PLex.nextTokenF]
    have e : (PLex.new input f).eatWhile isWs Pos.new = (((PLex.at input f Pos.new).eatWhile isWs (PLex.at input f Pos.new).pos).1.map (' ' :: ·),
        ((PLex.new input f).eatWhile isWs Pos.new).2.1, ((PLex.at input f Pos.new).eatWhile isWs (PLex.at input f Pos.new).pos).2.2) := by
      cases input with
      | nil =>
        cases f
        · rfl
        · exact absurd ⟨rfl, rfl⟩ hf
      | cons c b =>
        unfold PLex.new PLex.eatWhile PLex.at
        simp only [List.head?_cons, List.tail_cons]
        rw [peatLoop, if_pos (by decide)]
        have : ∀ e e' : Pos, (peatLoop isWs f b c (Pos.new.update c) e).1 = (peatLoop isWs f b c (Pos.new.update c) e').1 ∧
            (peatLoop isWs f b c (Pos.new.update c) e).2.2 = (peatLoop isWs f b c (Pos.new.update c) e').2.2 := by
          intro e e'
          cases b with
          | nil => unfold peatLoop; split <;> (try split) <;> exact ⟨rfl, rfl⟩
          | cons d b => unfold peatLoop; split <;> (try split) <;> exact ⟨rfl, rfl⟩
        obtain ⟨h3, h4⟩ := this Pos.new (Pos.new.update c)
        rw [← h3, ← h4]
        rcases peatLoop isWs f b c (Pos.new.update c) Pos.new with ⟨_ | s, e', l⟩ <;> rfl
    rw [show (PLex.new input f).pos = Pos.new from rfl, e]
    rcases (PLex.at input f Pos.new).eatWhile isWs (PLex.at input f Pos.new).pos with ⟨_ | s, e', l⟩
    · rfl
    · rfl

end Koopa
