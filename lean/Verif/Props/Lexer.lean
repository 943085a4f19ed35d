import Verif.Lemmas.Front.LexRun
import Verif.Lemmas.Front.Digits
/-!
Properties of the lexer: C12 (termination and progress), C13 (integer literals), C14 (blanks between
tokens) and C44 (the lexer accepts exactly the lexical grammar).
-/
namespace Koopa
open Spec

/-! ### C12 -/

/-- The states of a lexer created on `input` and used by any number of calls of `next_token`. -/
inductive LexReach (input : Str) (fail : Bool) : Lex → Prop where
  | new : LexReach input fail (Lex.new input fail)
  | step {l l' : Lex} {r : Except FErr Token} (h : LexReach input fail l)
      (hs : l.nextToken = some (r, l')) : LexReach input fail l'

theorem LexOut.rest {b : Str} {f : Bool} {m : Nat} {r : Except FErr Token} {l : Lex}
    (h : LexOut b f m (r, l)) : ∃ s b', b = s ++ b' ∧ l = Lex.at b' f (m + nl s) := by
  cases r with
  | ok t =>
    rcases h with ⟨w, s, b', rfl, -, -, -, -, rfl⟩ | ⟨-, -, rfl⟩
    · exact ⟨w ++ s, b', by simp, by rw [nl_append, ← Nat.add_assoc]⟩
    · exact ⟨b, [], by simp, rfl⟩
  | error e => cases e with
    | normal => obtain ⟨s, b', -, h⟩ := h; exact ⟨s, b', h⟩
    | fatal => obtain ⟨-, s, b', h⟩ := h; exact ⟨s, b', h⟩

theorem LexReach.at {input : Str} {f : Bool} {l : Lex} (h : LexReach input f l) :
    ∃ s b, ' ' :: input = s ++ b ∧ l = Lex.at b f (1 + nl s) := by
  induction h with
  | new => exact ⟨[], ' ' :: input, rfl, Lex.new_eq ..⟩
  | step _ hs ih =>
    obtain ⟨s, b, e, rfl⟩ := ih
    obtain ⟨⟨r', l'⟩, h1, h2⟩ := nextToken_out b f (1 + nl s)
    rw [hs, Option.some.injEq, Prod.mk.injEq] at h1
    obtain ⟨rfl, rfl⟩ := h1
    obtain ⟨s', b', rfl, rfl⟩ := h2.rest
    exact ⟨s ++ s', b', by simp [e], by rw [nl_append, Nat.add_assoc]⟩

theorem line_mono {s b : Str} {f : Bool} {m : Nat} :
    (Lex.at (s ++ b) f m).line ≤ (Lex.at b f (m + nl s)).line := by
  cases s with
  | nil => simp
  | cons c s =>
    cases b with
    | nil =>
      simp only [Lex.at, List.append_nil, nl_cons]
      by_cases h : c = '\n' <;> simp [h] <;> omega
    | cons d b =>
      simp only [Lex.at, List.cons_append, nl_cons]
      by_cases h : c = '\n' <;> by_cases h' : d = '\n' <;> simp [h, h'] <;> omega

/-- C12: whatever the text is and however many calls were made before, one more call of `next_token`
returns within a number of recursive calls bounded by the text that is left. Positions never go
back; every token and every recoverable error consumes at least one character; end of file is
reported exactly with nothing left; a fatal error occurs only if the reader fails. -/
theorem C12_nextToken_progress (input : Str) (fail : Bool) (l : Lex) (h : LexReach input fail l) :
    ∃ r l', l.nextToken = some (r, l') ∧
      (∀ fuel, l.size < fuel → l.nextTokenF fuel = some (r, l')) ∧
      l.line ≤ l'.line ∧ l'.size ≤ l.size ∧
      (∀ t, r = .ok t → t.kind ≠ .eof → l'.size < l.size) ∧
      (r = .error .normal → l'.size < l.size) ∧
      (∀ t, r = .ok t → t.kind = .eof → l'.size = 0 ∧ t.line = l'.line) ∧
      (∀ t, r = .ok t → t.line ≤ l'.line) ∧
      (r = .error .fatal → fail = true) := by
  obtain ⟨s0, b, -, rfl⟩ := h.at
  obtain ⟨⟨r, l'⟩, h1, h2⟩ := nextToken_out b fail (1 + nl s0)
  refine ⟨r, l', h1, ?_, ?_, ?_, ?_, ?_, ?_, ?_, ?_⟩
  · intro n hn
    rw [Lex.size_at] at hn
    rw [nextTokenF_eq hn, h1]
  · obtain ⟨s, b', rfl, rfl⟩ := h2.rest
    exact line_mono
  · obtain ⟨s, b', rfl, rfl⟩ := h2.rest
    simp [Lex.size_at]
  · rintro t rfl ht
    rcases h2 with ⟨w, s, b', rfl, -, h3, -, -, rfl⟩ | ⟨h3, -⟩
    · obtain ⟨c, t', rfl, -⟩ := TokText_head h3
      simp [Lex.size_at]; omega
    · rw [h3] at ht; exact absurd rfl ht
  · rintro rfl
    obtain ⟨s, b', hs, rfl, rfl⟩ := h2
    cases s with
    | nil => exact absurd rfl hs
    | cons => simp [Lex.size_at]; omega
  · rintro t rfl ht
    rcases h2 with ⟨w, s, b', rfl, -, h3, -⟩ | ⟨h3, -, rfl⟩
    · rw [ht] at h3; cases h3
    · rw [Lex.size_at, h3]; simp [Lex.at]
  · rintro t rfl
    rcases h2 with ⟨w, s, b', rfl, -, h3, -, h4, rfl⟩ | ⟨h3, -, rfl⟩
    · rw [h4]; cases b' <;> simp [Lex.at] <;> omega
    · rw [h3]; simp [Lex.at]
  · rintro rfl; exact h2.1

/-- C12: once the end of the file was reported, it is reported again and nothing changes. -/
theorem C12_eof_stable (input : Str) (fail : Bool) (l l' : Lex) (t : Token)
    (h : LexReach input fail l) (hs : l.nextToken = some (.ok t, l')) (ht : t.kind = .eof) :
    l'.nextToken = some (.ok t, l') := by
  obtain ⟨s0, b, -, rfl⟩ := h.at
  obtain ⟨r, h1, h2⟩ := nextToken_out b fail (1 + nl s0)
  rw [hs, Option.some.injEq] at h1; subst h1
  rcases h2 with ⟨w, s, b', rfl, -, h3, -⟩ | ⟨h3, -, rfl⟩
  · rw [ht] at h3; cases h3
  · rw [h3]; rfl

/-- Results of the first `n` calls. -/
def lexCalls : Nat → Lex → List (Except FErr Token)
  | 0, _ => []
  | n + 1, l => match l.nextToken with
    | some (r, l') => r :: lexCalls n l'
    | none => []

/-- C12: a text of `n` characters is exhausted by at most `n + 2` calls: one of them reports the end
of the file or a fatal error. -/
theorem C12_input_ends (input : Str) (fail : Bool) :
    ∃ r ∈ lexCalls (input.length + 2) (Lex.new input fail),
      r = .error .fatal ∨ ∃ t, r = .ok t ∧ t.kind = .eof := by
  have key : ∀ n l, LexReach input fail l → l.size < n →
      ∃ r ∈ lexCalls n l, r = .error .fatal ∨ ∃ t, r = .ok t ∧ t.kind = .eof := by
    intro n
    induction n with
    | zero => intro l _ h; omega
    | succ n ih =>
      intro l hl hn
      obtain ⟨r, l', h1, -, -, -, h2, h3, -, -, -⟩ := C12_nextToken_progress input fail l hl
      rw [lexCalls, h1]
      by_cases hr : r = .error .fatal ∨ ∃ t, r = .ok t ∧ t.kind = .eof
      · exact ⟨r, by simp, hr⟩
      · have hlt : l'.size < l.size := by
          cases r with
          | ok t => exact h2 t rfl (fun h => hr (.inr ⟨t, rfl, h⟩))
          | error e => cases e with
            | normal => exact h3 rfl
            | fatal => exact absurd (.inl rfl) hr
        obtain ⟨r', h4, h5⟩ := ih l' (.step hl h1) (by omega)
        exact ⟨r', by simp [h4], h5⟩
  refine key _ _ .new ?_
  rw [Lex.new_eq, Lex.size_at]; simp

/-- A case with comments, an error and several lines. -/
example : LexReach "fun // x\n@f(12, $#1) %007".toList false (Lex.new "fun // x\n@f(12, $#1) %007".toList) :=
  .new

example : lexCalls 5 (Lex.new "fun // x\n@f(-12".toList) =
    [.ok ⟨1, .kw .fun⟩, .ok ⟨2, .sym "@f".toList⟩, .ok ⟨2, .other '('⟩, .ok ⟨2, .int (-12)⟩,
      .ok ⟨2, .eof⟩] := by rfl

/-! ### C44 -/

/-- C44: a token is returned exactly if the text starts with blank text, a token text of that kind
and something that does not continue it; or if only blank text is left, for the end of the file. -/
theorem C44_lexer_exact (b : Str) (m : Nat) (t : Token) (l : Lex) :
    (Lex.at b false m).nextToken = some (.ok t, l) ↔
      (∃ w s b', b = w ++ (s ++ b') ∧ Blank w ∧ TokText t.kind s ∧ Stop s b' ∧ t.line = m + nl w ∧
        l = Lex.at b' false (m + nl w)) ∨
      (BlankEof b ∧ t = ⟨m + nl b, .eof⟩ ∧ l = Lex.at [] false (m + nl b)) := by
  constructor
  · intro h
    obtain ⟨r, h1, h2⟩ := nextToken_out b false m
    rw [h, Option.some.injEq] at h1; subst h1
    rcases h2 with ⟨w, s, b', h1, h2, h3, h4, h5, h6⟩ | ⟨h1, h2, h3⟩
    · exact .inl ⟨w, s, b', h1, h2, h3, h4, h5, by rw [h6, TokText_nl h3]; rfl⟩
    · exact .inr ⟨h2, h1, h3⟩
  · rintro (⟨w, s, b', rfl, h2, h3, h4, h5, rfl⟩ | ⟨h1, rfl, rfl⟩)
    · rw [nextToken_blank h2 (by simp), nextToken_tok h3 h4 (by simp)]
      obtain ⟨line, kind⟩ := t
      simp only at h5 ⊢
      rw [h5]
    · exact nextToken_eof h1

/-- C44: and it reports an error exactly if the text has no such beginning. -/
theorem C44_error_exact (b : Str) (m : Nat) :
    (∃ l, (Lex.at b false m).nextToken = some (.error .normal, l)) ↔
      ¬ BlankEof b ∧ ∀ w s b' k, b = w ++ (s ++ b') → Blank w → TokText k s → ¬ Stop s b' := by
  obtain ⟨⟨r, l⟩, h1, h2⟩ := nextToken_out b false m
  constructor
  · rintro ⟨l', h⟩
    constructor
    · intro hb
      rw [nextToken_eof hb] at h; simp at h
    · rintro w s b' k rfl hw hk hs
      rw [nextToken_blank hw (by simp), nextToken_tok hk hs (by simp)] at h; simp at h
  · rintro ⟨h3, h4⟩
    cases r with
    | ok t =>
      rcases h2 with ⟨w, s, b', h5, h6, h7, h8, -⟩ | ⟨-, h5, -⟩
      · exact absurd h8 (h4 w s b' _ h5 h6 h7)
      · exact absurd h5 h3
    | error e => cases e with
      | normal => exact ⟨l, h1⟩
      | fatal => exact absurd h2.1 (by simp)

/-- A blank, a token and what follows. -/
example : ∃ w s b', "/* c */ @x = 1".toList = w ++ (s ++ b') ∧ Blank w ∧
    TokText (.sym "@x".toList) s ∧ Stop s b' := by
  refine ⟨"/* c */ ".toList, "@x".toList, " = 1".toList, by decide, ?_, ?_, ?_⟩
  · have h : Blank ('/' :: '*' :: (" c ".toList ++ '*' :: '/' :: [' '])) :=
      .block (by decide) (.ws (by decide) .nil)
    exact h
  · exact .sym (.inl rfl) ⟨⟨'x', [], rfl, by decide⟩, by decide⟩
  · intro c hc
    simp at hc; subst hc
    show isAlnum ' ' = false ∧ ' ' ≠ '_'
    decide

/-! ### C13 -/

/-- Positional value of a digit string. -/
def Spec.decVal : Str → Nat
  | [] => 0
  | c :: s => (c.toNat - '0'.toNat) * 10 ^ s.length + decVal s

theorem parseDigits_decVal {s : Str} : ∀ (a : Nat), (∀ c ∈ s, isDigit c = true) →
    parseDigits a s = some (a * 10 ^ s.length + decVal s) := by
  induction s with
  | nil => intro a _; simp [parseDigits, decVal]
  | cons c s ih =>
    intro a h
    have hc := h c (by simp)
    simp only [parseDigits, digitVal, hc, if_true, List.length_cons, decVal]
    rw [ih _ (fun x hx => h x (by simp [hx]))]
    congr 1
    have : c.toNat - '0'.toNat = c.toNat - 48 := rfl
    rw [this, Nat.add_mul, Nat.pow_succ, Nat.mul_assoc a 10, Nat.mul_comm 10]
    omega

/-- Reading an integer text at the beginning of the text. -/
theorem nextToken_integer {c : Char} {s b : Str} {m : Nat} (hc : isNum c = true ∨ c = '-')
    (hs : ∀ x ∈ s, isNum x = true) (hb : ∀ x, b.head? = some x → isNum x = false) :
    (∀ i, parseI64 (c :: s) = some i →
      (Lex.at (c :: s ++ b) false m).nextToken = some (.ok ⟨m, .int i⟩, Lex.at b false m)) ∧
    (parseI64 (c :: s) = none →
      ∃ l, (Lex.at (c :: s ++ b) false m).nextToken = some (.error .normal, l)) := by
  have hcc : c ≠ '\n' ∧ c ≠ '/' ∧ c ≠ '@' ∧ c ≠ '%' ∧ isAlpha c = false ∧ isWs c = false := by
    rcases hc with hc | rfl
    · have := num_cases hc
      exact ⟨this.1, this.2.1, this.2.2.1, this.2.2.2.1, this.2.2.2.2.1, this.2.2.2.2.2.1⟩
    · decide
  constructor
  · intro i hi
    refine nextToken_tok (.int hc hs hi) ?_ (by simp)
    intro x hx
    have := hb x hx
    split
    · rename_i h; simp only [List.cons.injEq] at h; exact absurd h.1 hcc.2.2.1
    · rename_i h; simp only [List.cons.injEq] at h; exact absurd h.1 hcc.2.2.2.1
    · rename_i h1 h2 h3
      simp only [List.cons.injEq] at h3
      rw [← h3.1]
      exact ⟨fun h => by rw [hcc.2.2.2.2.1] at h; simp at h, fun _ => this⟩
    · trivial
  · intro hn
    rw [List.cons_append, nextToken_at_token hcc.2.2.2.2.2 hcc.2.1]
    have h1 : (decide (c = '@') || decide (c = '%')) = false := by simp [hcc]
    have h2 : (isNum c || decide (c = '-')) = true := by
      rcases hc with hc | rfl
      · simp [hc]
      · decide
    rw [h1, hcc.2.2.2.2.1, h2]
    simp only [Bool.false_eq_true, if_false, if_true]
    unfold Lex.handleInteger
    rw [Lex.nextChar_at _ _ _ _ (by simp)]
    simp only
    rw [eatWhile_stop (f := false) hs hb (by simp)]
    simp only [hn]
    unfold Lex.errAndSkip
    rw [Lex.eatWhile_at, if_neg (by simp)]
    exact ⟨_, rfl⟩

/-- C13: a digit string with an optional minus sign is read as exactly the number it denotes if that
fits in 64 bits, and rejected otherwise. It may have leading zeros. -/
theorem C13_literal_value (neg : Bool) (s b : Str) (m : Nat) (hs : s ≠ [])
    (hd : ∀ c ∈ s, '0' ≤ c ∧ c ≤ '9') (hb : ∀ x, b.head? = some x → isNum x = false) :
    let text := (if neg then ['-'] else []) ++ s
    let value : Int := if neg then -(decVal s : Int) else decVal s
    (-2 ^ 63 ≤ value ∧ value < 2 ^ 63 →
      (Lex.at (text ++ b) false m).nextToken = some (.ok ⟨m, .int value⟩, Lex.at b false m)) ∧
    (¬ (-2 ^ 63 ≤ value ∧ value < 2 ^ 63) →
      ∃ l, (Lex.at (text ++ b) false m).nextToken = some (.error .normal, l)) := by
  have hdig : ∀ c ∈ s, isDigit c = true := by
    intro c hc
    obtain ⟨h1, h2⟩ := hd c hc
    simp only [Char.le_def, UInt32.le_iff_toNat_le] at h1 h2
    simp only [isDigit, Bool.and_eq_true, decide_eq_true_eq]
    exact ⟨h1, h2⟩
  have hnum : ∀ c ∈ s, isNum c = true := fun c hc => by simp [isNum, hdig c hc]
  have hp := parseDigits_decVal 0 hdig
  rw [Nat.zero_mul, Nat.zero_add] at hp
  cases neg with
  | true =>
    simp only [if_true, List.cons_append, List.nil_append]
    have hne : s.isEmpty = false := by cases s <;> simp_all
    have hpi : parseI64 ('-' :: s) = if decVal s ≤ 2 ^ 63 then some (-(decVal s : Int)) else none := by
      unfold parseI64
      simp only [hne, Bool.false_eq_true, if_false, hp]
    have := nextToken_integer (b := b) (m := m) (.inr rfl : isNum '-' = true ∨ '-' = '-') hnum hb
    rw [hpi] at this
    constructor
    · intro hr
      rw [if_pos (by omega)] at this
      exact this.1 _ rfl
    · intro hr
      rw [if_neg (by omega)] at this
      exact this.2 rfl
  | false =>
    simp only [Bool.false_eq_true, if_false, List.nil_append]
    cases s with
    | nil => exact absurd rfl hs
    | cons c t =>
      have hpi := parseI64_digits (t := t) (hdig c (by simp))
      rw [hp] at hpi
      simp only at hpi
      have := nextToken_integer (s := t) (b := b) (m := m) (.inl (hnum c (by simp)))
        (fun x hx => hnum x (by simp [hx])) hb
      rw [hpi] at this
      constructor
      · intro hr
        rw [if_pos (by omega)] at this
        exact this.1 _ rfl
      · intro hr
        rw [if_neg (by omega)] at this
        exact this.2 rfl

/-- C13: every integer printed in decimal is read back if it fits in 64 bits, and rejected
otherwise. -/
theorem C13_printed_integer (i : Int) (b : Str) (m : Nat) (hb : ∀ x, b.head? = some x → isNum x = false) :
    (-2 ^ 63 ≤ i ∧ i < 2 ^ 63 →
      (Lex.at (showInt i ++ b) false m).nextToken = some (.ok ⟨m, .int i⟩, Lex.at b false m)) ∧
    (¬ (-2 ^ 63 ≤ i ∧ i < 2 ^ 63) →
      ∃ l, (Lex.at (showInt i ++ b) false m).nextToken = some (.error .normal, l)) := by
  obtain ⟨c, t, e, hc, ht⟩ : ∃ c t, showInt i = c :: t ∧ (isNum c = true ∨ c = '-') ∧
      ∀ x ∈ t, isNum x = true := by
    obtain ⟨c, t, e, hc, ht⟩ := showNat_cons i.natAbs
    unfold showInt
    split
    · refine ⟨'-', _, rfl, .inr rfl, fun x hx => ?_⟩
      rw [e] at hx
      rcases List.mem_cons.1 hx with rfl | hx
      · simp [isNum, hc]
      · simp [isNum, ht x hx]
    · exact ⟨c, t, e, .inl (by simp [isNum, hc]), fun x hx => by simp [isNum, ht x hx]⟩
  have := nextToken_integer (b := b) (m := m) hc ht hb
  rw [← e, parseI64_showInt] at this
  constructor
  · intro hr; rw [if_pos hr] at this; exact this.1 _ rfl
  · intro hr; rw [if_neg hr] at this; exact this.2 rfl

/-- C13: an `i32` constant printed in decimal is read back as the same constant (parser.rs:495 casts
the literal with `as i32`). -/
theorem C13_i32_constant (v : I32) (b : Str) (m : Nat) (hb : ∀ x, b.head? = some x → isNum x = false) :
    ∃ i, (Lex.at (showInt v.toInt ++ b) false m).nextToken = some (.ok ⟨m, .int i⟩, Lex.at b false m) ∧
      BitVec.ofInt 32 i = v := by
  have h1 := BitVec.le_toInt v
  have h2 := BitVec.toInt_lt (x := v)
  refine ⟨v.toInt, (C13_printed_integer v.toInt b m hb).1 (by omega), BitVec.ofInt_toInt⟩

/-- The hypothesis on what follows is met by every separator. -/
example : ∃ l, (Lex.at ("-007".toList ++ ",".toList) false 1).nextToken = some (.ok ⟨1, .int (-7)⟩, l) :=
  ⟨_, (C13_literal_value true "007".toList ",".toList 1 (by decide) (by decide)
    (by intro x hx; simp at hx; subst hx; decide)).1 (by decide)⟩

example : ∃ l, (Lex.at ("9223372036854775808".toList ++ [' ']) false 1).nextToken =
    some (.error .normal, l) :=
  (C13_literal_value false "9223372036854775808".toList [' '] 1 (by decide) (by decide)
    (by intro x hx; simp at hx; subst hx; decide)).2 (by decide)

/-! ### C14 -/

/-- `Lexes l ks l'`: calls of `next_token` from `l` return tokens of the kinds `ks` and lead to
`l'`. -/
inductive Lexes : Lex → List TokKind → Lex → Prop where
  | nil {l : Lex} : Lexes l [] l
  | cons {l l1 l2 : Lex} {t : Token} {ks : List TokKind} (h : l.nextToken = some (.ok t, l1))
      (hs : Lexes l1 ks l2) : Lexes l (t.kind :: ks) l2

theorem Lexes.append {l l1 l2 : Lex} {ks ks' : List TokKind} (h : Lexes l ks l1)
    (h' : Lexes l1 ks' l2) : Lexes l (ks ++ ks') l2 := by
  induction h with
  | nil => exact h'
  | cons h _ ih => exact .cons h (ih h')

theorem at_inj {b b' : Str} {m m' : Nat} (h : Lex.at b false m = Lex.at b' false m') : b = b' := by
  cases b <;> cases b' <;> simp_all [Lex.at]

theorem Lexes.suffix {b : Str} {m : Nat} {ks : List TokKind} {l : Lex}
    (h : Lexes (Lex.at b false m) ks l) : ∃ s b' m', b = s ++ b' ∧ l = Lex.at b' false m' := by
  generalize e : Lex.at b false m = l0 at h
  induction h generalizing b m with
  | nil => exact ⟨[], b, m, rfl, e.symm⟩
  | cons h _ ih =>
    subst e
    obtain ⟨r, h1, h2⟩ := nextToken_out b false m
    rw [h, Option.some.injEq] at h1; subst h1
    obtain ⟨s, b', rfl, rfl⟩ := h2.rest
    obtain ⟨s', b'', m', rfl, rfl⟩ := ih rfl
    exact ⟨s ++ s', b'', m', by simp, rfl⟩

/-- Line numbers have no influence on the kinds of tokens. -/
theorem Lexes.shift {b : Str} {m : Nat} {ks : List TokKind} {b' : Str} {m' : Nat} (n : Nat)
    (h : Lexes (Lex.at b false m) ks (Lex.at b' false m')) :
    ∃ n', Lexes (Lex.at b false n) ks (Lex.at b' false n') := by
  generalize e : Lex.at b false m = l0 at h
  generalize e' : Lex.at b' false m' = l1 at h
  induction h generalizing b m n with
  | nil => subst e; rw [at_inj e']; exact ⟨n, .nil⟩
  | @cons _ _ _ t _ h hs ih =>
    subst e e'
    rcases (C44_lexer_exact ..).1 h with ⟨w, s, c, h1, h2, h3, h4, h5, rfl⟩ | ⟨h1, rfl, rfl⟩
    · obtain ⟨n', h'⟩ := ih (n + nl w) rfl rfl
      exact ⟨n', .cons (t := ⟨n + nl w, t.kind⟩)
        ((C44_lexer_exact ..).2 (.inl ⟨w, s, c, h1, h2, h3, h4, rfl, rfl⟩)) h'⟩
    · obtain ⟨n', h'⟩ := ih (n + nl b) rfl rfl
      exact ⟨n', .cons (t := ⟨n + nl b, .eof⟩)
        ((C44_lexer_exact ..).2 (.inr ⟨h1, rfl, rfl⟩)) h'⟩

theorem Blank_head {w : Str} {c : Char} (hw : Blank w) (h : w.head? = some c) :
    isAlnum c = false ∧ c ≠ '_' ∧ isNum c = false := by
  have key : isWs c = true ∨ c = '/' := by
    cases hw with
    | nil => simp at h
    | ws hc _ => simp at h; exact .inl (h ▸ hc)
    | line => simp at h; exact .inr h.symm
    | block => simp at h; exact .inr h.symm
  rcases key with key | rfl
  · have h1 : isNum c = false := by
      cases h1 : isNum c with
      | false => rfl
      | true => rw [(num_cases h1).2.2.2.2.2.1] at key; simp at key
    have h2 : isAlpha c = false := by
      cases h2 : isAlpha c with
      | false => rfl
      | true => rw [(alpha_cases h2).2.2.2.2.2.1] at key; simp at key
    refine ⟨by simp [isAlnum, h1, h2], ?_, h1⟩
    rintro rfl; revert key; decide
  · decide

/-- A token may be followed by any blank text. -/
theorem Stop_blank {s w : Str} (hw : Blank w) (hne : w ≠ []) (b : Str) : Stop s (w ++ b) := by
  intro c hc
  cases w with
  | nil => exact absurd rfl hne
  | cons d w =>
    have := Blank_head hw (c := c) (by simpa using hc)
    split
    · exact ⟨this.1, this.2.1⟩
    · split
      · exact .inr this.2.2
      · exact ⟨this.1, this.2.1⟩
    · exact ⟨fun _ => this.1, fun _ => this.2.2⟩
    · trivial

theorem Lexes.insert {ks : List TokKind} {s1 s2 w : Str} {m m' : Nat} (hw : Blank w)
    (hne : .eof ∉ ks) (h : Lexes (Lex.at (s1 ++ s2) false m) ks (Lex.at s2 false m')) :
    ∃ n, Lexes (Lex.at (s1 ++ (w ++ s2)) false m) ks (Lex.at (w ++ s2) false n) := by
  generalize e : Lex.at (s1 ++ s2) false m = l0 at h
  generalize e' : Lex.at s2 false m' = l1 at h
  induction h generalizing s1 m with
  | nil =>
    subst e
    have := at_inj e'
    have : s1 = [] := by simpa using this
    subst this
    exact ⟨m, .nil⟩
  | @cons _ _ _ t ks h hs ih =>
    subst e e'
    simp only [List.mem_cons, not_or] at hne
    rcases (C44_lexer_exact ..).1 h with ⟨v, s, c, h1, h2, h3, h4, h5, rfl⟩ | ⟨h1, rfl, rfl⟩
    · obtain ⟨s1', c', m1, rfl, h6⟩ := hs.suffix
      have h7 := at_inj h6
      subst h7
      have h8 : s1 = v ++ (s ++ s1') := by
        have : s1 ++ s2 = (v ++ (s ++ s1')) ++ s2 := by simp [h1]
        exact List.append_cancel_right this
      subst h8
      obtain ⟨n, h9⟩ := ih hne.2 rfl rfl
      refine ⟨n, .cons (l1 := Lex.at (s1' ++ (w ++ s2)) false (m + nl v)) ?_ h9⟩
      refine (C44_lexer_exact ..).2 (.inl ⟨v, s, s1' ++ (w ++ s2), by simp, h2, h3, ?_, h5, rfl⟩)
      cases s1' with
      | nil =>
        by_cases hwn : w = []
        · subst hwn; exact h4
        · exact Stop_blank hw hwn s2
      | cons x s1' => intro c hc; exact h4 c (by simpa using hc)
    · exact absurd rfl hne.1

/-- C14: inserting any blank text between two tokens changes no token: the kinds read before and
after the insertion are the same, and the reading ends at the same place. -/
theorem C14_blank_insertion (s1 s2 s3 w : Str) (ks1 ks2 : List TokKind) (m m1 m2 : Nat)
    (hw : Blank w) (h1 : Lexes (Lex.at (s1 ++ s2) false m) ks1 (Lex.at s2 false m1))
    (hne : .eof ∉ ks1) (h2 : Lexes (Lex.at s2 false m1) ks2 (Lex.at s3 false m2)) (hk : ks2 ≠ []) :
    ∃ m3, Lexes (Lex.at (s1 ++ w ++ s2) false m) (ks1 ++ ks2) (Lex.at s3 false m3) := by
  obtain ⟨n, h3⟩ := h1.insert hw hne
  obtain ⟨n', h4⟩ := h2.shift (n + nl w)
  refine ⟨n', ?_⟩
  rw [List.append_assoc]
  refine h3.append ?_
  generalize e1 : Lex.at s2 false (n + nl w) = l1 at h4
  generalize Lex.at s3 false n' = l2 at h4 ⊢
  cases h4 with
  | nil => exact absurd rfl hk
  | cons h hs => exact .cons (by rw [nextToken_blank hw (by simp), e1]; exact h) hs

/-- The tokens of `@x=1` and the place between the first two of them. -/
example : ∃ m1 m2, Lexes (Lex.at ("@x".toList ++ "=1".toList) false 1) [.sym "@x".toList]
      (Lex.at "=1".toList false m1) ∧
    Lexes (Lex.at "=1".toList false m1) [.other '=', .int 1] (Lex.at [] false m2) :=
  ⟨1, 1, .cons (t := ⟨1, .sym "@x".toList⟩) (l1 := Lex.at "=1".toList false 1) (by rfl) .nil,
    .cons (t := ⟨1, .other '='⟩) (l1 := Lex.at "1".toList false 1) (by rfl)
      (.cons (t := ⟨1, .int 1⟩) (l1 := Lex.at [] false 1) (by rfl) .nil)⟩

end Koopa
