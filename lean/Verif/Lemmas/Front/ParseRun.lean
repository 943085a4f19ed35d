import Verif.Model.Front.Parser
import Verif.Spec.Grammar
import Verif.Lemmas.Front.LexRun
/-!
Running the parser: invariant of the parser state, program logic for parsers, and what every parser
without recovery returns: a syntax tree together with the consumed tokens that denote it.
-/
namespace Koopa
open Spec

/-- States the parser can be in; `f` tells whether the reader fails at its end. -/
def PInv (f : Bool) (s : PS) : Prop :=
  (∃ b m, s.lex = Lex.at b f m) ∧ (s.cur.kind = .eof → s.lex.size = 0)

/-- `Eats s ts s'`: from `s`, calls of `next_token` without error consume the tokens `ts`, none of
which is the end of the file, and lead to `s'`. -/
inductive Eats : PS → List Token → PS → Prop where
  | nil {s : PS} : Eats s [] s
  | cons {s s1 s2 : PS} {ts : List Token} (h : P.next s = some (.ok (), s1))
      (hne : s.cur.kind ≠ .eof) (hs : Eats s1 ts s2) : Eats s (s.cur :: ts) s2

theorem Eats.append {s s1 s2 : PS} {ts ts' : List Token} (h : Eats s ts s1) (h' : Eats s1 ts' s2) :
    Eats s (ts ++ ts') s2 := by
  induction h with
  | nil => exact h'
  | cons h hne _ ih => exact .cons h hne (ih h')

theorem Eats.cons_inv {s s2 : PS} {t : Token} {ts : List Token} (h : Eats s (t :: ts) s2) :
    s.cur = t ∧ s.cur.kind ≠ .eof ∧ ∃ s1, P.next s = some (.ok (), s1) ∧ Eats s1 ts s2 := by
  cases h with
  | cons h hne hs => exact ⟨rfl, hne, _, h, hs⟩

theorem Eats.append_inv {s s2 : PS} {ts ts' : List Token} (h : Eats s (ts ++ ts') s2) :
    ∃ s1, Eats s ts s1 ∧ Eats s1 ts' s2 := by
  induction ts generalizing s with
  | nil => exact ⟨s, .nil, h⟩
  | cons t ts ih =>
    obtain ⟨rfl, hne, s1, h1, h2⟩ := Eats.cons_inv h
    obtain ⟨s3, h3, h4⟩ := ih h2
    exact ⟨s3, .cons h1 hne h3, h4⟩

theorem Eats.nil_inv {s s2 : PS} (h : Eats s [] s2) : s2 = s := by cases h; rfl

/-- `next_token` in a good state. -/
theorem next_spec {f : Bool} {s : PS} (hi : PInv f s) :
    ∃ r s', P.next s = some (r, s') ∧ PInv f s' ∧ s'.size ≤ s.size ∧
      (s.cur.kind ≠ .eof → r ≠ .error .fatal → s'.size < s.size) ∧
      (∀ e, r = .error e → s'.errs = s.errs + 1 ∧ (e = .fatal → f = true)) ∧
      (r = .ok () → s'.errs = s.errs) := by
  obtain ⟨⟨b, m, hb⟩, he⟩ := hi
  obtain ⟨⟨r, l⟩, h1, h2⟩ := nextToken_out b f m
  rw [← hb] at h1
  unfold P.next
  rw [h1]
  rw [hb, Lex.size_at] at he
  have hsz : s.lex.size = b.length := by rw [hb, Lex.size_at]
  cases r with
  | ok t =>
    refine ⟨.ok (), _, rfl, ?_, ?_, ?_, by simp, fun _ => rfl⟩
    · rcases h2 with ⟨w, s', b', -, -, h3, -, -, rfl⟩ | ⟨rfl, -, rfl⟩
      · exact ⟨⟨_, _, rfl⟩, fun h => by simp only at h; rw [h] at h3; cases h3⟩
      · exact ⟨⟨_, _, rfl⟩, fun _ => Lex.size_at ..⟩
    · rcases h2 with ⟨w, s', b', rfl, -, h3, -, -, rfl⟩ | ⟨rfl, -, rfl⟩
      · obtain ⟨c, u, rfl, -⟩ := TokText_head h3
        have : t.kind ≠ .eof := by intro h; rw [h] at h3; cases h3
        simp only [PS.size, hsz, Lex.size_at, this, if_false]
        simp; omega
      · simp [PS.size, Lex.size_at]
    · intro hne _
      rcases h2 with ⟨w, s', b', rfl, -, h3, -, -, rfl⟩ | ⟨rfl, -, rfl⟩
      · obtain ⟨c, u, rfl, -⟩ := TokText_head h3
        have : t.kind ≠ .eof := by intro h; rw [h] at h3; cases h3
        simp only [PS.size, hsz, Lex.size_at, this, hne, if_false]
        simp; omega
      · simp [PS.size, Lex.size_at, hne]
  | error e =>
    have key : ∃ s' b', b = s' ++ b' ∧ l = Lex.at b' f (m + nl s') ∧
        (e = .normal → b'.length < b.length) := by
      cases e with
      | normal =>
        obtain ⟨s', b', h3, rfl, h4⟩ := h2
        refine ⟨s', b', rfl, h4, fun _ => ?_⟩
        cases s' with
        | nil => exact absurd rfl h3
        | cons => simp; omega
      | fatal => obtain ⟨-, s', b', h3, h4⟩ := h2; exact ⟨s', b', h3, h4, by simp⟩
    obtain ⟨s', b', hb', rfl, hlt⟩ := key
    have hle : b'.length ≤ b.length := by rw [hb']; simp
    refine ⟨.error e, _, rfl, ⟨⟨_, _, rfl⟩, ?_⟩, ?_, ?_, ?_, by simp⟩
    · intro h
      simp only at h
      rw [Lex.size_at]
      have := he h
      omega
    · simp only [PS.size, hsz, Lex.size_at]
      omega
    · intro hne hr
      have : e = .normal := by
        cases e with
        | normal => rfl
        | fatal => exact absurd rfl hr
      have := hlt this
      simp only [PS.size, hsz, Lex.size_at]
      omega
    · rintro e' he'
      cases he'
      refine ⟨rfl, ?_⟩
      rintro rfl; exact h2.1

theorem next_ok {f : Bool} {s s' : PS} (hi : PInv f s) (h : P.next s = some (.ok (), s')) :
    PInv f s' ∧ s'.size ≤ s.size ∧ (s.cur.kind ≠ .eof → s'.size < s.size) ∧ s'.errs = s.errs := by
  obtain ⟨r, s1, h1, h2, h3, h4, -, h6⟩ := next_spec hi
  rw [h, Option.some.injEq, Prod.mk.injEq] at h1
  obtain ⟨rfl, rfl⟩ := h1
  exact ⟨h2, h3, fun hne => h4 hne (by simp), h6 rfl⟩

theorem Eats.facts {f : Bool} {s s' : PS} {ts : List Token} (hi : PInv f s) (h : Eats s ts s') :
    PInv f s' ∧ s'.size ≤ s.size ∧ s'.errs = s.errs := by
  induction h with
  | nil => exact ⟨hi, Nat.le_refl _, rfl⟩
  | cons h _ _ ih =>
    obtain ⟨h1, h2, -, h4⟩ := next_ok hi h
    obtain ⟨h5, h6, h7⟩ := ih h1
    exact ⟨h5, by omega, by omega⟩

/-! ### Program logic -/

/-- The parser returns in a good state; sizes do not grow; errors are counted; results satisfy
`Q`. -/
def Runs (f : Bool) {α : Type} (p : P α) (s : PS) (Q : α → PS → Prop) : Prop :=
  ∃ r s', p s = some (r, s') ∧ PInv f s' ∧ s'.size ≤ s.size ∧ s.errs ≤ s'.errs ∧
    match r with
    | .ok a => Q a s'
    | .error e => s.errs < s'.errs ∧ (e = .fatal → f = true)

theorem P.bind_eq {α β : Type} (p : P α) (k : α → P β) (s : PS) :
    (p >>= k) s = match p s with
      | none => none
      | some (.ok a, s) => k a s
      | some (.error e, s) => some (.error e, s) := rfl

theorem P.bind_ok {α β : Type} {p : P α} {k : α → P β} {s s' : PS} {a : α}
    (h : p s = some (.ok a, s')) : (p >>= k) s = k a s' := by rw [P.bind_eq, h]

theorem P.bind_cur {β : Type} {k : Token → P β} {s : PS} : (P.cur >>= k) s = k s.cur s := rfl

theorem P.pure_eq {α : Type} (a : α) (s : PS) : (Pure.pure a : P α) s = some (.ok a, s) := rfl

theorem Runs.bind {f : Bool} {α β : Type} {p : P α} {k : α → P β} {s : PS} {Q : α → PS → Prop}
    {R : β → PS → Prop} (hp : Runs f p s Q)
    (hk : ∀ a s', PInv f s' → s'.size ≤ s.size → s.errs ≤ s'.errs → Q a s' → Runs f (k a) s' R) :
    Runs f (p >>= k) s R := by
  obtain ⟨r, s', h1, h2, h3, h4, h5⟩ := hp
  unfold Runs
  rw [P.bind_eq, h1]
  cases r with
  | ok a =>
    obtain ⟨r', s'', k1, k2, k3, k4, k5⟩ := hk a s' h2 h3 h4 h5
    refine ⟨r', s'', k1, k2, by omega, by omega, ?_⟩
    cases r' with
    | ok b => exact k5
    | error e => exact ⟨by have := k5.1; omega, k5.2⟩
  | error e => exact ⟨.error e, s', rfl, h2, h3, h4, h5⟩

theorem Runs.pure {f : Bool} {α : Type} {a : α} {s : PS} {Q : α → PS → Prop} (hi : PInv f s)
    (h : Q a s) : Runs f (Pure.pure a) s Q :=
  ⟨.ok a, s, rfl, hi, Nat.le_refl _, Nat.le_refl _, h⟩

theorem Runs.fail {f : Bool} {α : Type} {s : PS} {Q : α → PS → Prop} (hi : PInv f s) :
    Runs f (P.fail : P α) s Q :=
  ⟨.error .normal, _, rfl, hi, Nat.le_refl _, by simp, by simp, by simp⟩

theorem Runs.cur {f : Bool} {s : PS} (hi : PInv f s) :
    Runs f P.cur s (fun t s' => t = s.cur ∧ s' = s) :=
  ⟨.ok s.cur, s, rfl, hi, Nat.le_refl _, Nat.le_refl _, rfl, rfl⟩

theorem Runs.bindCur {f : Bool} {β : Type} {k : Token → P β} {s : PS} {R : β → PS → Prop}
    (h : Runs f (k s.cur) s R) : Runs f (P.cur >>= k) s R := h

theorem Runs.mono {f : Bool} {α : Type} {p : P α} {s : PS} {Q R : α → PS → Prop}
    (h : Runs f p s Q) (hqr : ∀ a s', PInv f s' → s'.size ≤ s.size → Q a s' → R a s') :
    Runs f p s R := by
  obtain ⟨r, s', h1, h2, h3, h4, h5⟩ := h
  refine ⟨r, s', h1, h2, h3, h4, ?_⟩
  cases r with
  | ok a => exact hqr a s' h2 h3 h5
  | error e => exact h5

/-- `Runs`, where the result is related to the tokens consumed. -/
def Parses (f : Bool) {α : Type} (p : P α) (s : PS) (D : α → List Token → PS → Prop) : Prop :=
  Runs f p s (fun a s' => ∃ ts, Eats s ts s' ∧ D a ts s')

theorem Parses.bind {f : Bool} {α β : Type} {p : P α} {k : α → P β} {s : PS}
    {D : α → List Token → PS → Prop} {E : β → List Token → PS → Prop} (hp : Parses f p s D)
    (hk : ∀ a ts s', PInv f s' → s'.size ≤ s.size → D a ts s' →
      Parses f (k a) s' (fun b ts' s'' => E b (ts ++ ts') s'')) :
    Parses f (p >>= k) s E := by
  refine Runs.bind hp ?_
  rintro a s' hi hsz - ⟨ts, h1, h2⟩
  refine Runs.mono (hk a ts s' hi hsz h2) ?_
  rintro b s'' - - ⟨ts', h3, h4⟩
  exact ⟨ts ++ ts', h1.append h3, h4⟩

theorem Parses.bindCur {f : Bool} {β : Type} {k : Token → P β} {s : PS}
    {E : β → List Token → PS → Prop} (h : Parses f (k s.cur) s E) : Parses f (P.cur >>= k) s E := h

theorem Parses.pure {f : Bool} {α : Type} {a : α} {s : PS} {D : α → List Token → PS → Prop}
    (hi : PInv f s) (h : D a [] s) : Parses f (Pure.pure a) s D :=
  Runs.pure hi ⟨[], .nil, h⟩

theorem Parses.fail {f : Bool} {α : Type} {s : PS} {D : α → List Token → PS → Prop} (hi : PInv f s) :
    Parses f (P.fail : P α) s D := Runs.fail hi

theorem Parses.mono {f : Bool} {α : Type} {p : P α} {s : PS} {D E : α → List Token → PS → Prop}
    (h : Parses f p s D) (hde : ∀ a ts s', PInv f s' → s'.size ≤ s.size → D a ts s' → E a ts s') :
    Parses f p s E :=
  Runs.mono h fun a s' hi hsz ⟨ts, h1, h2⟩ => ⟨ts, h1, hde a ts s' hi hsz h2⟩

theorem next_p {f : Bool} {s : PS} (hi : PInv f s) (hne : s.cur.kind ≠ .eof) :
    Parses f P.next s (fun _ ts s' => ts = [s.cur] ∧ s'.size < s.size) := by
  obtain ⟨r, s', h1, h2, h3, h4, h5, h6⟩ := next_spec hi
  refine ⟨r, s', h1, h2, h3, ?_, ?_⟩
  · cases r with
    | ok a => rw [h6 rfl]; exact Nat.le_refl _
    | error e => have := (h5 e rfl).1; omega
  · cases r with
    | ok a => exact ⟨[s.cur], .cons h1 hne .nil, rfl, h4 hne (by simp)⟩
    | error e => have := h5 e rfl; exact ⟨by omega, this.2⟩

theorem expect_p {f : Bool} {s : PS} {k : TokKind} (hi : PInv f s) (hk : k ≠ .eof) :
    Parses f (P.expect k) s (fun _ ts s' => ∃ t, ts = [t] ∧ t.kind = k ∧ s'.size < s.size) := by
  unfold P.expect
  refine Parses.bindCur ?_
  by_cases h : s.cur.kind = k
  · rw [if_pos h]
    refine (next_p hi (by rw [h]; exact hk)).mono ?_
    rintro _ _ s' - - ⟨rfl, hlt⟩
    exact ⟨_, rfl, h, hlt⟩
  · rw [if_neg h]; exact Parses.fail hi

theorem readSym_p {f : Bool} {s : PS} (hi : PInv f s) :
    Parses f P.readSym s (fun v ts s' => ∃ t, ts = [t] ∧ t.kind = .sym v ∧ s'.size < s.size) := by
  unfold P.readSym
  refine Parses.bindCur ?_
  cases h : s.cur.kind with
  | sym v =>
    refine (next_p hi (by simp [h])).bind ?_
    rintro _ _ s' hi' - ⟨rfl, hlt⟩
    exact Parses.pure hi' ⟨_, rfl, h, hlt⟩
  | _ => exact Parses.fail hi

theorem readInt_p {f : Bool} {s : PS} (hi : PInv f s) :
    Parses f P.readInt s (fun v ts s' => ∃ t, ts = [t] ∧ t.kind = .int v ∧ s'.size < s.size) := by
  unfold P.readInt
  refine Parses.bindCur ?_
  cases h : s.cur.kind with
  | int v =>
    refine (next_p hi (by simp [h])).bind ?_
    rintro _ _ s' hi' - ⟨rfl, hlt⟩
    exact Parses.pure hi' ⟨_, rfl, h, hlt⟩
  | _ => exact Parses.fail hi

theorem readOp_p {f : Bool} {s : PS} (hi : PInv f s) :
    Parses f P.readOp s (fun v ts s' => ∃ t, ts = [t] ∧ t.kind = .op v ∧ s'.size < s.size) := by
  unfold P.readOp
  refine Parses.bindCur ?_
  cases h : s.cur.kind with
  | op v =>
    refine (next_p hi (by simp [h])).bind ?_
    rintro _ _ s' hi' - ⟨rfl, hlt⟩
    exact Parses.pure hi' ⟨_, rfl, h, hlt⟩
  | _ => exact Parses.fail hi

/-- An item parser that works below size `n`. -/
def ItemP (f : Bool) {α : Type} (p : P α) (G : α → List Token → Prop) (n : Nat) : Prop :=
  ∀ s, PInv f s → s.size < n → Parses f p s (fun a ts s' => G a ts ∧ s'.size < s.size)

theorem listLoop_p {f : Bool} {α : Type} {p : P α} {G : α → List Token → Prop} {N : Nat}
    (hp : ItemP f p G N) : ∀ n, n ≤ N → ItemP f (P.listLoop p n) (Sep G) n := by
  intro n
  induction n with
  | zero => intro _ s _ h; omega
  | succ n ih =>
    intro hN s hi hs
    unfold P.listLoop
    refine (hp s hi (by omega)).bind ?_
    rintro a ts s1 i1 - ⟨hG, hlt⟩
    refine Parses.bindCur ?_
    split
    · rename_i hc
      refine (next_p i1 (by rw [hc]; simp)).bind ?_
      rintro _ _ s2 i2 - ⟨rfl, hlt2⟩
      refine (ih (by omega) s2 i2 (by omega)).bind ?_
      rintro as ts' s3 i3 - ⟨hS, hlt3⟩
      refine Parses.pure i3 ⟨?_, by omega⟩
      simpa using Sep.cons hG hc hS
    · exact Parses.pure i1 ⟨by simpa using Sep.one hG, hlt⟩

theorem list_p {f : Bool} {α : Type} {p : P α} {G : α → List Token → Prop} {n : Nat}
    (hp : ItemP f p G n) {s : PS} (hi : PInv f s) (hs : s.size ≤ n) :
    Parses f (P.list p n) s (fun a ts s' => Paren G a ts ∧ s'.size < s.size) := by
  unfold P.list
  refine (expect_p hi (by simp)).bind ?_
  rintro _ _ s1 i1 - ⟨t, rfl, ht, hlt⟩
  refine Parses.bindCur ?_
  split
  · refine (expect_p i1 (by simp)).bind ?_
    rintro _ _ s2 i2 - ⟨t', rfl, ht', hlt'⟩
    exact Parses.pure i2 ⟨.empty ht ht', by omega⟩
  · refine (listLoop_p hp n (Nat.le_refl _) s1 i1 (by omega)).bind ?_
    rintro as ts s2 i2 - ⟨hS, hlt2⟩
    refine (expect_p i2 (by simp)).bind ?_
    rintro _ _ s3 i3 - ⟨t', rfl, ht', hlt'⟩
    refine Parses.pure i3 ⟨?_, by omega⟩
    simpa using Paren.items ht hS ht'

theorem optList_p {f : Bool} {α : Type} {p : P α} {G : α → List Token → Prop} {n : Nat}
    (hp : ItemP f p G n) {s : PS} (hi : PInv f s) (hs : s.size ≤ n) :
    Parses f (P.optList p n) s (fun a ts _ => Opt G a ts) := by
  unfold P.optList
  refine Parses.bindCur ?_
  split
  · exact (list_p hp hi hs).mono fun a ts s' _ _ h => .list h.1
  · exact Parses.pure hi .none

theorem retType_p {f : Bool} {p : P TyAst} {n : Nat} (hp : ItemP f p GTy n) {s : PS}
    (hi : PInv f s) (hs : s.size ≤ n) :
    Parses f (P.retType p) s (fun a ts _ => GRet a ts) := by
  unfold P.retType
  refine Parses.bindCur ?_
  split
  · rename_i hc
    refine (next_p hi (by rw [hc]; simp)).bind ?_
    rintro _ _ s1 i1 - ⟨rfl, hlt⟩
    refine (hp s1 i1 (by omega)).bind ?_
    rintro ty ts s2 i2 - ⟨hG, -⟩
    exact Parses.pure i2 (by simpa using GRet.some hc hG)
  · exact Parses.pure hi .none

theorem asUsize_len (i : Int) : Len i (P.asUsize i) := by
  unfold P.asUsize Len
  refine ⟨by omega, -(i / 2 ^ 64), by omega⟩

theorem Len_unique {i : Int} {n : Nat} (h : Len i n) : n = P.asUsize i := by
  obtain ⟨h1, k, h2⟩ := h
  unfold P.asUsize
  omega

end Koopa
