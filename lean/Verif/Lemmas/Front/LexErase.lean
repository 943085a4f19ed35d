import Verif.Model.Front.LexPos
/-!
The lexer with positions does what the lexer of the other theorems does.
-/
namespace Koopa

/-- The state without columns. -/
def PLex.erase (l : PLex) : Lex := ⟨l.last, l.rest, l.fail, l.pos.line⟩

/-- The error without its span. -/
def PErr.erase : PErr → FErr
  | .normal _ => .normal
  | .fatal => .fatal

/-- The token with the line of its start only. -/
def PToken.erase (t : PToken) : Token := ⟨t.span.start.line, t.kind⟩

def eraseRes : PRes → Except FErr Token × Lex
  | (.ok t, l) => (.ok t.erase, l.erase)
  | (.error e, l) => (.error e.erase, l.erase)

theorem update_line (q : Pos) (c : Char) : (q.update c).line = bumpLine q.line c := by
  unfold Pos.update bumpLine
  split <;> rfl

theorem nextChar_erase (l : PLex) : l.erase.nextChar = (l.nextChar.1, l.nextChar.2.erase) := by
  unfold Lex.nextChar PLex.nextChar
  cases hr : l.rest with
  | nil => cases hf : l.fail <;> simp [PLex.erase, hr, hf]
  | cons c r => simp [PLex.erase, hr, update_line]

theorem peatLoop_erase (p : Char → Bool) (f : Bool) : ∀ (rest : List Char) (c : Char) (q e : Pos),
    eatLoop p f rest c q.line = ((peatLoop p f rest c q e).1, (peatLoop p f rest c q e).2.2.erase)
  | [], c, q, e => by
    unfold eatLoop peatLoop
    by_cases h : p c <;> cases f <;> simp [h, PLex.erase]
  | d :: rest, c, q, e => by
    have ih := peatLoop_erase p f rest d (q.update d) q
    unfold eatLoop peatLoop
    by_cases h : p c
    · rw [update_line] at ih
      simp only [h, if_true, ih]
      rcases peatLoop p f rest d (q.update d) q with ⟨_ | s, e', l⟩ <;> rfl
    · simp [h, PLex.erase]

theorem eatWhile_erase (p : Char → Bool) (l : PLex) (e : Pos) :
    l.erase.eatWhile p = ((l.eatWhile p e).1, (l.eatWhile p e).2.2.erase) := by
  unfold Lex.eatWhile PLex.eatWhile
  cases hl : l.last with
  | none => simp [PLex.erase, hl]
  | some c => simp only [PLex.erase, hl]; exact peatLoop_erase p l.fail l.rest c l.pos e

theorem pblockLoop_erase (f : Bool) : ∀ (rest : List Char) (c : Char) (q : Pos) (star : Bool),
    blockLoop f rest c q.line star = ((pblockLoop f rest c q star).1, (pblockLoop f rest c q star).2.erase)
  | [], c, q, star => by
    unfold blockLoop pblockLoop
    split
    · rfl
    · split <;> rfl
  | d :: rest, c, q, star => by
    have ih := pblockLoop_erase f rest d (q.update d) (decide (c = '*'))
    unfold blockLoop pblockLoop
    split
    · rfl
    · rw [update_line] at ih; exact ih

theorem skipBlock_erase (l : PLex) : l.erase.skipBlock = (l.skipBlock.1, l.skipBlock.2.erase) := by
  unfold Lex.skipBlock PLex.skipBlock
  cases hl : l.last with
  | none => simp [PLex.erase, hl]
  | some c => simp only [PLex.erase, hl]; exact pblockLoop_erase l.fail l.rest c l.pos false

theorem errAndSkip_erase (l : PLex) (sp : Span) : l.erase.errAndSkip = eraseRes (l.errAndSkip sp) := by
  unfold Lex.errAndSkip PLex.errAndSkip
  rw [eatWhile_erase _ l l.pos]
  rcases l.eatWhile (fun c => !isWs c) l.pos with ⟨_ | s, e', l'⟩ <;> rfl

theorem handleInteger_erase (l : PLex) (c : Char) : l.erase.handleInteger c = eraseRes (l.handleInteger c) := by
  unfold Lex.handleInteger PLex.handleInteger
  simp only [nextChar_erase]
  rcases l.nextChar with ⟨_ | _, l1⟩
  · rfl
  simp only [eatWhile_erase _ l1 l.pos]
  rcases l1.eatWhile isNum l.pos with ⟨_ | s, e', l2⟩
  · rfl
  cases hp : parseI64 (c :: s) with
  | some i => simp only [hp]; rfl
  | none => simp only [hp]; exact errAndSkip_erase _ _

theorem finishSymbol_erase (l : PLex) (sp : Span) (s : Str) : l.erase.finishSymbol sp.start.line s = eraseRes (l.finishSymbol sp s) := by
  unfold Lex.finishSymbol PLex.finishSymbol
  split
  · exact errAndSkip_erase _ _
  · rfl

theorem handleSymbol_erase (l : PLex) (c : Char) : l.erase.handleSymbol c = eraseRes (l.handleSymbol c) := by
  unfold Lex.handleSymbol PLex.handleSymbol
  simp only [nextChar_erase]
  rcases l.nextChar with ⟨_ | _, l1⟩
  · rfl
  simp only [show l1.erase.last = l1.last from rfl]
  cases l1.last with
  | none => simp only; exact finishSymbol_erase l1 ⟨l.pos, l.pos⟩ _
  | some d =>
    simp only
    by_cases h1 : isNum d = true
    · simp only [h1, if_true]
      by_cases h2 : c = '@'
      · simp only [h2, if_true]; exact errAndSkip_erase _ _
      · simp only [h2, if_false]
        simp only [nextChar_erase]
        rcases l1.nextChar with ⟨_ | _, l2⟩
        · rfl
        simp only
        by_cases h3 : d ≠ '0'
        · rw [if_pos h3, if_pos h3, eatWhile_erase _ l2 l1.pos]
          rcases l2.eatWhile isNum l1.pos with ⟨_ | s, e', l3⟩
          · rfl
          · exact finishSymbol_erase l3 ⟨l.pos, e'⟩ _
        · rw [if_neg h3, if_neg h3]; exact finishSymbol_erase l2 ⟨l.pos, l1.pos⟩ _
    · simp only [h1, Bool.false_eq_true, if_false]
      rw [eatWhile_erase _ l1 l.pos]
      rcases l1.eatWhile (fun c => isAlnum c || decide (c = '_')) l.pos with ⟨_ | s, e', l3⟩
      · rfl
      · exact finishSymbol_erase l3 ⟨l.pos, e'⟩ _

theorem handleKeyword_erase (l : PLex) : l.erase.handleKeyword = eraseRes l.handleKeyword := by
  unfold Lex.handleKeyword PLex.handleKeyword
  simp only [eatWhile_erase _ l l.pos]
  rcases l.eatWhile isAlnum l.pos with ⟨_ | s, e', l1⟩
  · rfl
  cases hp : keywordKind s with
  | some i => simp only [hp]; rfl
  | none => simp only [hp]; exact errAndSkip_erase _ _

theorem handleComment_erase {k : PLex → Option PRes} {k' : Lex → Option (Except FErr Token × Lex)}
    (hk : ∀ l, k' l.erase = (k l).map eraseRes) (l : PLex) : l.erase.handleComment k' = (l.handleComment k).map eraseRes := by
  unfold Lex.handleComment PLex.handleComment
  simp only [nextChar_erase]
  rcases l.nextChar with ⟨_ | _, l1⟩
  · rfl
  simp only [show l1.erase.last = l1.last from rfl]
  split
  · unfold Lex.handleBlockComment PLex.handleBlockComment
    simp only [nextChar_erase]
    rcases l1.nextChar with ⟨_ | _, l2⟩
    · rfl
    simp only [skipBlock_erase]
    rcases l2.skipBlock with ⟨_ | _, l3⟩
    · rfl
    simp only [show l3.erase.last = l3.last from rfl]
    cases l3.last with
    | none => simp only; rw [Option.map_some, errAndSkip_erase]
    | some x =>
      simp only [nextChar_erase]
      rcases l3.nextChar with ⟨_ | _, l4⟩
      · rfl
      · exact hk l4
  · split
    · rw [eatWhile_erase _ l1 l.pos]
      rcases l1.eatWhile (fun c => decide (c ≠ '\r') && decide (c ≠ '\n')) l.pos with ⟨_ | s, e', l2⟩
      · rfl
      · exact hk l2
    · rw [Option.map_some, errAndSkip_erase]

theorem nextTokenF_erase : ∀ (n : Nat) (l : PLex), l.erase.nextTokenF n = (l.nextTokenF n).map eraseRes
  | 0, _ => rfl
  | n + 1, l => by
    rw [Lex.nextTokenF, PLex.nextTokenF, eatWhile_erase _ l l.pos]
    rcases l.eatWhile isWs l.pos with ⟨_ | s, e', l1⟩
    · rfl
    simp only
    unfold Lex.tokenAt PLex.tokenAt
    simp only [show l1.erase.last = l1.last from rfl]
    cases l1.last with
    | none => rfl
    | some c =>
      simp only
      split
      · exact handleComment_erase (nextTokenF_erase n) l1
      · split
        · rw [Option.map_some, handleSymbol_erase]
        · split
          · rw [Option.map_some, handleKeyword_erase]
          · split
            · rw [Option.map_some, handleInteger_erase]
            · simp only [nextChar_erase]
              rcases l1.nextChar with ⟨_ | _, l2⟩ <;> rfl

theorem nextToken_erase (l : PLex) : l.erase.nextToken = l.nextToken.map eraseRes := nextTokenF_erase _ l

end Koopa
