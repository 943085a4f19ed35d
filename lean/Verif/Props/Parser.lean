import Verif.Lemmas.Front.ParseComplete
import Verif.Lemmas.Front.ParseFuel
import Verif.Props.Lexer
/-!
Properties of the parser: C15 (termination), C16 (blocks end with their only terminator) and C45 (the
parser accepts exactly the grammar).
-/
namespace Koopa
open Spec

/-! ### C15 -/

/-- The states of a parser created on `input` and used by any number of calls of `parse_next`. The
counter of errors may start anywhere and change between calls, because it is shared with the
generator and with all parsers of the thread. -/
inductive ParseReach (input : Str) (fail : Bool) : PS → Prop where
  | new {n : Nat} {s : PS} (h : PS.new (Lex.new input fail) n = some (.ok (), s)) :
      ParseReach input fail s
  | step {s s' : PS} {r : Except FErr GlobalAst} (h : ParseReach input fail s)
      (hs : s.parseNext = some (r, s')) : ParseReach input fail s'
  | count {s : PS} {n : Nat} (h : ParseReach input fail s) : ParseReach input fail { s with errs := n }

/-- The first call of `next_token` does not depend on the token that is replaced. -/
theorem PS.new_other {l : Lex} {n : Nat} {s : PS} :
    PS.new l n = some (.ok (), s) ↔
      P.next { lex := l, cur := ⟨0, .other ' '⟩, errs := n } = some (.ok (), s) := by
  unfold PS.new P.next
  rcases l.nextToken with _ | ⟨r, l'⟩
  · simp
  · cases r <;> simp

theorem PInv_init (input : Str) (fail : Bool) (n : Nat) :
    PInv fail { lex := Lex.new input fail, cur := ⟨0, .other ' '⟩, errs := n } :=
  ⟨⟨_, _, Lex.new_eq ..⟩, by simp⟩

theorem PS.new_ok {input : Str} {fail : Bool} {n : Nat} {s : PS}
    (h : PS.new (Lex.new input fail) n = some (.ok (), s)) :
    PInv fail s ∧ s.size < input.length + 2 ∧ s.errs = n := by
  obtain ⟨h1, -, h2, h3⟩ := next_ok (PInv_init input fail n) (PS.new_other.1 h)
  refine ⟨h1, ?_, h3⟩
  have : PS.size { lex := Lex.new input fail, cur := ⟨0, .other ' '⟩, errs := n } = input.length + 2 := by
    simp [PS.size, Lex.new_eq, Lex.size_at]
  have h4 := h2 (by simp)
  omega

theorem PS.new_returns (input : Str) (fail : Bool) (n : Nat) :
    ∃ r s, PS.new (Lex.new input fail) n = some (r, s) := by
  obtain ⟨r, h1, -⟩ := nextToken_out (' ' :: input) fail 1
  unfold PS.new P.next
  rw [Lex.new_eq, h1]
  obtain ⟨r, l⟩ := r
  cases r <;> exact ⟨_, _, rfl⟩

theorem ParseReach.inv {input : Str} {fail : Bool} {s : PS} (h : ParseReach input fail s) :
    PInv fail s := by
  induction h with
  | new h => exact (PS.new_ok h).1
  | count _ ih => exact ih
  | @step s s' r _ hs ih =>
    obtain ⟨r1, s1, h1, h2, -⟩ := nextAst_r (n := s.fuel) ih (by unfold PS.fuel; omega)
    unfold PS.parseNext at hs
    rw [hs, Option.some.injEq, Prod.mk.injEq] at h1
    obtain ⟨-, rfl⟩ := h1
    exact h2

/-- C15: whatever the text is and whatever was parsed before, `parse_next` returns, including all
recovery paths: its loops and recursions need no more steps than there is text left. Everything but
the end of the file consumes text; the end is reported exactly at the end; errors are fatal only if
the reader fails, and an error was reported whenever an error is returned. -/
theorem C15_parseNext_returns (input : Str) (fail : Bool) (s : PS) (h : ParseReach input fail s) :
    ∃ r s', s.parseNext = some (r, s') ∧
      (∀ fuel, s.size ≤ fuel → P.nextAst fuel s = some (r, s')) ∧
      s'.size ≤ s.size ∧ s.errs ≤ s'.errs ∧
      (∀ g, r = .ok g → g ≠ .eof → s'.size < s.size) ∧
      (r = .ok .eof → s' = s ∧ s.size = 0) ∧
      (∀ e, r = .error e → s.errs < s'.errs ∧ (e = .fatal → fail = true)) := by
  have hi := h.inv
  obtain ⟨r, s', h1, h2, h3, h4, h5⟩ := nextAst_r (n := s.size) hi (Nat.le_refl _)
  refine ⟨r, s', (PLe.nextAst (by unfold PS.fuel; omega)).run _ _ h1,
    fun fuel hf => (PLe.nextAst hf).run _ _ h1, h3, h4, ?_, ?_, ?_⟩
  · rintro g rfl hg
    rcases h5 with ⟨rfl, -⟩ | ⟨-, h5⟩
    · exact absurd rfl hg
    · exact h5.1
  · rintro rfl
    rcases h5 with ⟨-, rfl, h6⟩ | ⟨-, h5⟩
    · refine ⟨rfl, ?_⟩
      have := hi.2 h6
      simp [PS.size, h6, this]
    · exact absurd rfl h5.2.2.1
  · rintro e rfl
    exact h5

/-- The calls of `parse_next` that driver.rs:39-52 makes: up to the end of the file or an error. -/
def parseCalls : Nat → PS → Option (Except FErr (List GlobalAst) × PS)
  | 0, _ => none
  | n + 1, s => match s.parseNext with
    | none => none
    | some (.error e, s) => some (.error e, s)
    | some (.ok .eof, s) => some (.ok [], s)
    | some (.ok g, s) => match parseCalls n s with
      | none => none
      | some (.error e, s) => some (.error e, s)
      | some (.ok gs, s) => some (.ok (g :: gs), s)

theorem parseCalls_eof {n : Nat} {s s' : PS} (h : s.parseNext = some (.ok .eof, s')) :
    parseCalls (n + 1) s = some (.ok [], s') := by
  rw [parseCalls, h]

theorem parseCalls_err {n : Nat} {s s' : PS} {e : FErr} (h : s.parseNext = some (.error e, s')) :
    parseCalls (n + 1) s = some (.error e, s') := by
  rw [parseCalls, h]

theorem parseCalls_ok {n : Nat} {s s' : PS} {g : GlobalAst} (h : s.parseNext = some (.ok g, s'))
    (hg : g ≠ .eof) :
    parseCalls (n + 1) s = match parseCalls n s' with
      | none => none
      | some (.error e, s) => some (.error e, s)
      | some (.ok gs, s) => some (.ok (g :: gs), s) := by
  rw [parseCalls, h]
  cases g <;> first | rfl | exact absurd rfl hg

/-- C15: the whole text is parsed by at most as many calls of `parse_next` as it has characters, plus
two. -/
theorem C15_parsing_ends (input : Str) (fail : Bool) (n : Nat) :
    ∃ r s, PS.new (Lex.new input fail) n = some (r, s) ∧
      ∀ _ : r = .ok (), ∃ r' s', parseCalls (input.length + 2) s = some (r', s') := by
  obtain ⟨r, s, h1⟩ := PS.new_returns input fail n
  refine ⟨r, s, h1, ?_⟩
  rintro rfl
  have key : ∀ k s, ParseReach input fail s → s.size < k → ∃ r' s', parseCalls k s = some (r', s') := by
    intro k
    induction k with
    | zero => intro s _ h; omega
    | succ k ih =>
      intro s hs hk
      obtain ⟨r, s1, h1, -, -, -, h2, -⟩ := C15_parseNext_returns input fail s hs
      cases r with
      | error e => exact ⟨_, _, parseCalls_err h1⟩
      | ok g =>
        by_cases hg : g = .eof
        · subst hg; exact ⟨_, _, parseCalls_eof h1⟩
        · obtain ⟨r', s', h3⟩ := ih s1 (.step hs h1) (by have := h2 g rfl hg; omega)
          rw [parseCalls_ok h1 hg, h3]
          cases r' <;> exact ⟨_, _, rfl⟩
  have hlt := (PS.new_ok h1).2.1
  exact key _ s (.new h1) hlt

/-- The state after creation and the result of the first call, for concrete cases. -/
def firstItem (input : Str) : Option (PS × GlobalAst × PS) :=
  match PS.new (Lex.new input false) 0 with
  | some (.ok (), s) => match s.parseNext with
    | some (.ok g, s') => some (s, g, s')
    | _ => none
  | _ => none

theorem firstItem_reach {input : Str} {s s' : PS} {g : GlobalAst}
    (h : firstItem input = some (s, g, s')) :
    ParseReach input false s ∧ s.parseNext = some (.ok g, s') := by
  unfold firstItem at h
  split at h
  · rename_i s0 h0
    split at h
    · rename_i g0 s1 h1
      simp only [Option.some.injEq, Prod.mk.injEq] at h
      obtain ⟨rfl, rfl, rfl⟩ := h
      exact ⟨.new h0, h1⟩
    · simp at h
  · simp at h

/-- A malformed text with several recovery points. -/
example : ∃ s s' bs, ParseReach "fun @f() { %e: jump 1 %g: ret } } decl fun".toList false s ∧
    s.parseNext = some (.ok (.funDef "@f".toList [] none bs), s') ∧ s'.errs = s.errs + 2 := by
  have h : (match firstItem "fun @f() { %e: jump 1 %g: ret } } decl fun".toList with
    | some (s, .funDef n [] none _, s') => decide (n = "@f".toList ∧ s'.errs = s.errs + 2)
    | _ => false) = true := by decide +kernel
  split at h
  · rename_i s n b1 s' e
    simp only [decide_eq_true_eq] at h
    obtain ⟨rfl, h⟩ := h
    exact ⟨s, s', _, (firstItem_reach e).1, (firstItem_reach e).2, h⟩
  · simp at h

/-! ### C16 -/

theorem GBody_closed {sts : List StmtAst} {ts : List Token} {a : Token} (h : GBody sts ts a) :
    ∃ init last, sts = init ++ [last] ∧ isTerm last = true ∧
      ∀ st ∈ init, isTerm st = false ∧ isErr st = false := by
  induction h with
  | last h => exact ⟨[], _, rfl, (GTerm_shape h).2, by simp⟩
  | cons h _ ih =>
    obtain ⟨init, last, rfl, h1, h2⟩ := ih
    refine ⟨_ :: init, last, rfl, h1, ?_⟩
    intro st hst
    rcases List.mem_cons.1 hst with rfl | hst
    · exact ⟨(GStmt_shape h).2, (GStmt_shape h).1⟩
    · exact h2 st hst

theorem GBlocks_closed {bs : List BlockAst} {ts : List Token} {a : Token} (h : GBlocks bs ts a) :
    ∀ b ∈ bs, ∃ init last, b.stmts = init ++ [last] ∧ isTerm last = true ∧
      ∀ st ∈ init, isTerm st = false ∧ isErr st = false := by
  induction h with
  | nil => simp
  | cons _ h _ ih =>
    intro b hb
    rcases List.mem_cons.1 hb with rfl | hb
    · cases h with
      | mk _ _ _ h => exact GBody_closed h
    · exact ih b hb

/-- C16: a function returned by a call of `parse_next` that reported no error has blocks, and every
block is a sequence of other statements followed by one branch, jump or return. -/
theorem C16_blocks_closed (input : Str) (fail : Bool) (s s' : PS) (name : Str)
    (ps : List (Str × TyAst)) (r : Option TyAst) (bs : List BlockAst)
    (h : ParseReach input fail s) (hs : s.parseNext = some (.ok (.funDef name ps r bs), s'))
    (he : s'.errs = s.errs) :
    bs ≠ [] ∧ ∀ b ∈ bs, ∃ init last, b.stmts = init ++ [last] ∧ isTerm last = true ∧
      ∀ st ∈ init, isTerm st = false ∧ isErr st = false := by
  obtain ⟨r1, s1, h1, -, -, -, h2⟩ := nextAst_r (n := s.fuel) h.inv (by unfold PS.fuel; omega)
  unfold PS.parseNext at hs
  rw [hs, Option.some.injEq, Prod.mk.injEq] at h1
  obtain ⟨rfl, rfl⟩ := h1
  rcases h2 with ⟨h2, -⟩ | ⟨-, -, -, -, h2⟩
  · exact absurd h2 (by simp)
  · obtain ⟨-, ts, -, hG⟩ := h2 he
    cases hG with
    | funDef _ _ _ _ _ hb hne _ => exact ⟨hne, GBlocks_closed hb⟩

/-- C16: even if errors were reported, no branch, jump or return occurs before the end of a block, and
a block that does not end with one ends with a rejected statement. -/
theorem C16_recovered_blocks (input : Str) (fail : Bool) (s s' : PS) (name : Str)
    (ps : List (Str × TyAst)) (r : Option TyAst) (bs : List BlockAst)
    (h : ParseReach input fail s) (hs : s.parseNext = some (.ok (.funDef name ps r bs), s')) :
    bs ≠ [] ∧ ∀ b ∈ bs, ∃ init last, b.stmts = init ++ [last] ∧
      (isTerm last = true ∨ isErr last = true) ∧ ∀ st ∈ init, isTerm st = false := by
  obtain ⟨r1, s1, h1, -, -, -, h2⟩ := nextAst_r (n := s.fuel) h.inv (by unfold PS.fuel; omega)
  unfold PS.parseNext at hs
  rw [hs, Option.some.injEq, Prod.mk.injEq] at h1
  obtain ⟨rfl, rfl⟩ := h1
  rcases h2 with ⟨h2, -⟩ | ⟨-, -, ⟨h2, h3⟩, -⟩
  · exact absurd h2 (by simp)
  · refine ⟨h2, fun b hb => ?_⟩
    have key : ∀ sts, BodyShape sts → ∃ init last, sts = init ++ [last] ∧
        (isTerm last = true ∨ isErr last = true) ∧ ∀ st ∈ init, isTerm st = false := by
      intro sts
      induction sts with
      | nil => intro h; exact absurd h id
      | cons st sts ih =>
        intro h
        cases sts with
        | nil => exact ⟨[], st, rfl, Or.symm h, by simp⟩
        | cons st' sts =>
          obtain ⟨init, last, e, h4, h5⟩ := ih h.2
          refine ⟨st :: init, last, by simp [e], h4, ?_⟩
          intro x hx
          rcases List.mem_cons.1 hx with rfl | hx
          · exact h.1
          · exact h5 x hx
    exact key _ (h3 b hb)

/-- A function with two blocks is parsed without error. -/
example : ∃ s s' bs, ParseReach "fun @f() {%e: %0 = add 1, 2 jump %b %b: ret\n }".toList false s ∧
    s.parseNext = some (.ok (.funDef "@f".toList [] none bs), s') ∧ s'.errs = s.errs := by
  have h : (match firstItem "fun @f() {%e: %0 = add 1, 2 jump %b %b: ret\n }".toList with
    | some (s, .funDef n [] none [_, _], s') => decide (n = "@f".toList ∧ s'.errs = s.errs)
    | _ => false) = true := by decide +kernel
  split at h
  · rename_i s n b1 b2 s' e
    simp only [decide_eq_true_eq] at h
    obtain ⟨rfl, h⟩ := h
    exact ⟨s, s', _, (firstItem_reach e).1, (firstItem_reach e).2, h⟩
  · simp at h

/-! ### C45 -/

theorem Toks_space {b : Str} {m : Nat} {ts : List Token} : Toks (' ' :: b) m ts ↔ Toks b m ts := by
  constructor
  · intro h
    generalize e : ' ' :: b = b0 at h
    cases h with
    | eof h =>
      subst e
      refine .eof ?_
      generalize e : ' ' :: b = b0 at h
      cases h with
      | blank h => subst e; exact .blank (Blank_tail h (by decide))
      | @line s w h hs =>
        cases w with
        | nil => simp at e
        | cons c w =>
          simp only [List.cons_append, List.cons.injEq] at e
          obtain ⟨rfl, rfl⟩ := e
          exact .line (Blank_tail h (by decide)) hs
    | @tok w s b' _ t ts hw ht hs hl h =>
      cases w with
      | nil =>
        obtain ⟨c, u, rfl, hc, -⟩ := TokText_head ht
        simp only [List.nil_append, List.cons_append, List.cons.injEq] at e
        rw [← e.1] at hc
        exact absurd hc (by decide)
      | cons c w =>
        simp only [List.cons_append, List.cons.injEq] at e
        obtain ⟨rfl, rfl⟩ := e
        exact .tok (Blank_tail hw (by decide)) ht hs (by simpa [breaks] using hl) h
  · intro h
    cases h with
    | eof h =>
      refine .eof ?_
      cases h with
      | blank h => exact .blank (.ws (by decide) h)
      | @line s w h hs => exact .line (w := ' ' :: w) (.ws (by decide) h) hs
    | @tok w s b' _ t ts hw ht hs hl h =>
      exact .tok (w := ' ' :: w) (.ws (by decide) hw) ht hs (by simpa [breaks] using hl) h

/-- Reading all tokens of a text. -/
theorem eats_of_toks {b : Str} {m : Nat} {ts : List Token} (h : Toks b m ts) (c : Token) (n : Nat) :
    ∃ s1 s2, P.next { lex := Lex.at b false m, cur := c, errs := n } = some (.ok (), s1) ∧
      Eats s1 ts s2 ∧ s2.cur.kind = .eof := by
  induction h generalizing c with
  | @eof b m h =>
    refine ⟨⟨Lex.at [] false (m + nl b), ⟨m + nl b, .eof⟩, n⟩, _, ?_, .nil, rfl⟩
    unfold P.next
    rw [nextToken_eof h]
  | @tok w s b m t ts hw ht hs hl h ih =>
    obtain ⟨s1, s2, h1, h2, h3⟩ := ih t
    refine ⟨⟨Lex.at b false t.line, t, n⟩, s2, ?_, .cons h1 ?_ h2, h3⟩
    · unfold P.next
      have := (C44_lexer_exact (w ++ (s ++ b)) m t (Lex.at b false t.line)).2
        (.inl ⟨w, s, b, rfl, hw, ht, hs, hl, by rw [hl]; rfl⟩)
      simp only [this]
    · intro he
      simp only at he
      rw [he] at ht
      cases ht

theorem toks_of_eats {s1 s2 : PS} {ts : List Token} (h : Eats s1 ts s2) (he : s2.cur.kind = .eof)
    {b : Str} {m : Nat} {c : Token} {n : Nat}
    (h1 : P.next { lex := Lex.at b false m, cur := c, errs := n } = some (.ok (), s1)) :
    Toks b m ts := by
  have step : ∀ {s : PS}, P.next { lex := Lex.at b false m, cur := c, errs := n } = some (.ok (), s) →
      (Lex.at b false m).nextToken = some (.ok s.cur, s.lex) ∧ s = ⟨s.lex, s.cur, n⟩ := by
    intro s hs
    unfold P.next at hs
    rcases e : (Lex.at b false m).nextToken with _ | ⟨r, l⟩
    · rw [e] at hs; simp at hs
    · rw [e] at hs
      cases r with
      | ok t =>
        simp only [Option.some.injEq, Prod.mk.injEq, true_and] at hs
        subst hs
        exact ⟨rfl, rfl⟩
      | error e => simp at hs
  induction h generalizing b m c with
  | nil =>
    obtain ⟨h2, -⟩ := step h1
    rcases (C44_lexer_exact ..).1 h2 with ⟨w, s, b', -, -, h3, -⟩ | ⟨h3, -⟩
    · rw [he] at h3; cases h3
    · exact .eof h3
  | @cons s s' s2 ts h hne hs ih =>
    obtain ⟨h2, h5⟩ := step h1
    rcases (C44_lexer_exact ..).1 h2 with ⟨w, t, b', rfl, h3, h4, h6, h7, h8⟩ | ⟨-, h3, -⟩
    · have h9 : Toks b' (m + nl w) ts := by
        rw [h8] at h5
        rw [h5] at h
        refine ih he h ?_
        intro s hs
        unfold P.next at hs
        rcases e : (Lex.at b' false (m + nl w)).nextToken with _ | ⟨r, l⟩
        · rw [e] at hs; simp at hs
        · rw [e] at hs
          cases r with
          | ok t =>
            simp only [Option.some.injEq, Prod.mk.injEq, true_and] at hs
            subst hs
            exact ⟨rfl, rfl⟩
          | error e => simp at hs
      exact .tok h3 h4 h6 h7 (by rw [h7]; exact h9)
    · rw [h3] at hne; exact absurd rfl hne

theorem GGlobal_first {g : GlobalAst} {ts : List Token} (h : GGlobal g ts) :
    ∃ t ts', ts = t :: ts' ∧ t.kind ≠ .other ':' ∧ g ≠ .eof := by
  cases h with
  | globalDef h => exact ⟨_, _, rfl, by simp [h], by simp⟩
  | funDef h => exact ⟨_, _, rfl, by simp [h], by simp⟩
  | funDecl h => exact ⟨_, _, rfl, by simp [h], by simp⟩

/-- Tokens of a program are parsed as this program. -/
theorem parseCalls_complete {gs : List GlobalAst} {ts : List Token} (h : GProg gs ts) :
    ∀ {k : Nat} {s s' : PS}, PInv false s → Eats s ts s' → s'.cur.kind = .eof → s.size < k →
      parseCalls k s = some (.ok gs, s') := by
  induction h with
  | nil =>
    intro k s s' hi he hk hs
    have := he.nil_inv
    subst this
    obtain ⟨k, rfl⟩ : ∃ j, k = j + 1 := ⟨k - 1, by omega⟩
    refine parseCalls_eof ?_
    unfold PS.parseNext P.nextAst
    rw [P.bind_cur, hk]
    rfl
  | @cons g gs ts ts' hG hP ih =>
    intro k s s' hi he hk hs
    obtain ⟨k, rfl⟩ : ∃ j, k = j + 1 := ⟨k - 1, by omega⟩
    obtain ⟨s1, e1, e2, i1, hsz⟩ := eatApp hi he
    obtain ⟨t, us, rfl, -, hg⟩ := GGlobal_first hG
    have hne : s1.cur.kind ≠ .other ':' := by
      cases hP with
      | nil => rw [← e2.nil_inv, hk]; simp
      | cons hG' _ =>
        obtain ⟨t', us', rfl, hc, -⟩ := GGlobal_first hG'
        rw [(Eats.cons_inv e2).1]; exact hc
    have h1 : s.parseNext = some (.ok g, s1) :=
      nextAst_c hi (by unfold PS.fuel; omega) e1 hG hne
    have hlt : s1.size < s.size := by
      obtain ⟨-, hne, -⟩ := Eats.cons_inv e1
      obtain ⟨-, -, s3, -, h4, h5, h6⟩ := eat1 hi e1 rfl (by rw [← (Eats.cons_inv e1).1]; exact hne)
      have := (h4.facts h5).2.1
      omega
    rw [parseCalls_ok h1 hg, ih i1 e2 hk (by omega)]

/-- What is parsed without error is a program. -/
theorem parseCalls_sound : ∀ {k : Nat} {s s' : PS} {gs : List GlobalAst}, PInv false s →
    parseCalls k s = some (.ok gs, s') → s.errs ≤ s'.errs ∧
      (s'.errs = s.errs → ∃ ts, Eats s ts s' ∧ GProg gs ts ∧ s'.cur.kind = .eof) := by
  intro k
  induction k with
  | zero => intro s s' gs _ h; simp [parseCalls] at h
  | succ k ih =>
    intro s s' gs hi h
    obtain ⟨r, s1, h1, h2, h3, h4, h5⟩ := nextAst_r (n := s.fuel) hi (by unfold PS.fuel; omega)
    change s.parseNext = some (r, s1) at h1
    cases r with
    | error e => rw [parseCalls_err h1] at h; simp at h
    | ok g =>
      rcases h5 with ⟨rfl, rfl, h5⟩ | ⟨-, -, -, hg, h5⟩
      · rw [parseCalls_eof h1] at h
        simp only [Option.some.injEq, Prod.mk.injEq, Except.ok.injEq] at h
        obtain ⟨rfl, rfl⟩ := h
        exact ⟨Nat.le_refl _, fun _ => ⟨[], .nil, .nil, h5⟩⟩
      · rw [parseCalls_ok h1 hg] at h
        rcases e : parseCalls k s1 with _ | ⟨r, s2⟩
        · rw [e] at h; simp at h
        · rw [e] at h
          cases r with
          | error e => simp at h
          | ok gs' =>
            simp only [Option.some.injEq, Prod.mk.injEq, Except.ok.injEq] at h
            obtain ⟨rfl, rfl⟩ := h
            obtain ⟨h6, h7⟩ := ih h2 e
            refine ⟨by omega, fun he => ?_⟩
            obtain ⟨-, ts, h8, h9⟩ := h5 (by omega)
            obtain ⟨ts', k1, k2, k3⟩ := h7 (by omega)
            exact ⟨ts ++ ts', h8.append k1, .cons h9 k2, k3⟩

/-- C45: creating a parser on a text and calling `parse_next` up to the end of the file yields the
items `gs` without reporting an error if and only if the text consists of tokens that form `gs`
according to the grammar. -/
theorem C45_parser_exact (input : Str) (n : Nat) (gs : List GlobalAst) :
    (∃ s s', PS.new (Lex.new input false) n = some (.ok (), s) ∧
      parseCalls (input.length + 2) s = some (.ok gs, s') ∧ s'.errs = n) ↔
    ∃ ts, Toks input 1 ts ∧ GProg gs ts := by
  constructor
  · rintro ⟨s, s', h1, h2, h3⟩
    obtain ⟨hi, -, he⟩ := PS.new_ok h1
    obtain ⟨-, h4⟩ := parseCalls_sound hi h2
    obtain ⟨ts, h5, h6, h7⟩ := h4 (by omega)
    refine ⟨ts, Toks_space.1 (toks_of_eats h5 h7 (c := Token.default) (n := n) ?_), h6⟩
    rw [← Lex.new_eq]
    exact h1
  · rintro ⟨ts, h1, h2⟩
    obtain ⟨s, s', h3, h4, h5⟩ := eats_of_toks (Toks_space.2 h1) Token.default n
    rw [← Lex.new_eq] at h3
    obtain ⟨hi, hs, he⟩ := PS.new_ok h3
    exact ⟨s, s', h3, parseCalls_complete h2 hi h4 h5 hs, by rw [(h4.facts hi).2.2, he]⟩

/-- C45: a text has at most one list of tokens and its tokens form at most one program. -/
theorem C45_grammar_unambiguous (input : Str) (ts ts' : List Token) (gs gs' : List GlobalAst)
    (h : Toks input 1 ts) (h' : Toks input 1 ts') (hg : GProg gs ts) (hg' : GProg gs' ts') :
    gs = gs' := by
  obtain ⟨s, s1, h1, h2, -⟩ := (C45_parser_exact input 0 gs).2 ⟨ts, h, hg⟩
  obtain ⟨s', s1', h1', h2', -⟩ := (C45_parser_exact input 0 gs').2 ⟨ts', h', hg'⟩
  rw [h1] at h1'
  simp only [Option.some.injEq, Prod.mk.injEq, true_and] at h1'
  subst h1'
  rw [h2] at h2'
  simp only [Option.some.injEq, Prod.mk.injEq, Except.ok.injEq] at h2'
  exact h2'.1

/-- A program of two items. -/
def sampleText : Str := "decl @f(*i32): i32 // comment\nglobal @x = alloc [i32, 2], {1, -2}".toList

example : ∃ ts, Toks sampleText 1 ts ∧
    GProg [.funDecl "@f".toList [.pointer .int] (some .int),
      .globalDef "@x".toList (.array .int 2) (.agg [.int 1, .int (-2)])] ts := by
  refine (C45_parser_exact _ 0 _).1 ?_
  have h : (match PS.new (Lex.new sampleText false) 0 with
    | some (.ok (), s) => match parseCalls (sampleText.length + 2) s with
      | some (.ok [.funDecl f [.pointer .int] (some .int),
          .globalDef x (.array .int 2) (.agg [.int a, .int b])], s') =>
        decide (f = "@f".toList ∧ x = "@x".toList ∧ a = 1 ∧ b = -2 ∧ s'.errs = 0)
      | _ => false
    | _ => false) = true := by decide +kernel
  split at h
  · rename_i s e
    split at h
    · rename_i f x a b s' e'
      simp only [decide_eq_true_eq] at h
      obtain ⟨rfl, rfl, rfl, rfl, h⟩ := h
      exact ⟨s, s', e, e', h⟩
    · simp at h
  · simp at h

end Koopa
