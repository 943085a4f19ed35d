import Verif.Lemmas.Front.ParseRecover
/-!
Completeness of the parser: tokens that denote a syntax tree are parsed as this tree.
-/
namespace Koopa
open Spec

theorem eat1 {f : Bool} {s s' : PS} {t : Token} {ts : List Token} {k : TokKind} (hi : PInv f s)
    (h : Eats s (t :: ts) s') (hk : t.kind = k) (hne : k ≠ .eof) :
    s.cur.kind = k ∧ s.cur = t ∧ ∃ s1, P.next s = some (.ok (), s1) ∧ Eats s1 ts s' ∧ PInv f s1 ∧
      s1.size < s.size := by
  obtain ⟨rfl, -, s1, h1, h2⟩ := Eats.cons_inv h
  obtain ⟨h3, -, h5, -⟩ := next_ok hi h1
  exact ⟨hk, rfl, s1, h1, h2, h3, h5 (by rw [hk]; exact hne)⟩

theorem eatApp {f : Bool} {s s' : PS} {ts ts' : List Token} (hi : PInv f s)
    (h : Eats s (ts ++ ts') s') :
    ∃ s1, Eats s ts s1 ∧ Eats s1 ts' s' ∧ PInv f s1 ∧ s1.size ≤ s.size := by
  obtain ⟨s1, h1, h2⟩ := Eats.append_inv h
  have := h1.facts hi
  exact ⟨s1, h1, h2, this.1, this.2.1⟩

theorem expect_c {s s1 : PS} {k : TokKind} (hk : s.cur.kind = k) (h : P.next s = some (.ok (), s1)) :
    P.expect k s = some (.ok (), s1) := by
  unfold P.expect
  rw [P.bind_cur, if_pos hk, h]

theorem readSym_c {s s1 : PS} {v : Str} (hk : s.cur.kind = .sym v) (h : P.next s = some (.ok (), s1)) :
    P.readSym s = some (.ok v, s1) := by
  unfold P.readSym
  rw [P.bind_cur, hk]
  simp only
  rw [P.bind_ok h, P.pure_eq]

theorem readInt_c {s s1 : PS} {v : Int} (hk : s.cur.kind = .int v) (h : P.next s = some (.ok (), s1)) :
    P.readInt s = some (.ok v, s1) := by
  unfold P.readInt
  rw [P.bind_cur, hk]
  simp only
  rw [P.bind_ok h, P.pure_eq]

theorem readOp_c {s s1 : PS} {v : BinOp} (hk : s.cur.kind = .op v) (h : P.next s = some (.ok (), s1)) :
    P.readOp s = some (.ok v, s1) := by
  unfold P.readOp
  rw [P.bind_cur, hk]
  simp only
  rw [P.bind_ok h, P.pure_eq]

/-- An item parser that accepts everything the grammar allows, unless the next token is `bad`. -/
def ItemC (f : Bool) {α : Type} (p : P α) (G : α → List Token → Prop) (bad : TokKind → Prop)
    (n : Nat) : Prop :=
  ∀ s ts s' a, PInv f s → s.size < n → Eats s ts s' → G a ts → ¬ bad s'.cur.kind →
    p s = some (.ok a, s')

/-- Items are not empty and do not start with a closing parenthesis. -/
def First {α : Type} (G : α → List Token → Prop) : Prop :=
  ∀ a ts, G a ts → ∃ t ts', ts = t :: ts' ∧ t.kind ≠ .other ')' ∧ t.kind ≠ .eof

theorem eatFirst {f : Bool} {α : Type} {G : α → List Token → Prop} {s s' : PS} {ts : List Token}
    {a : α} (hF : First G) (hi : PInv f s) (hG : G a ts) (h : Eats s ts s') :
    s.cur.kind ≠ .other ')' ∧ s'.size < s.size := by
  obtain ⟨t, ts', rfl, h1, h2⟩ := hF a ts hG
  obtain ⟨-, rfl, s1, -, h4, h5, h6⟩ := eat1 hi h rfl h2
  exact ⟨h1, by have := (h4.facts h5).2.1; omega⟩

theorem listLoop_c {f : Bool} {α : Type} {p : P α} {G : α → List Token → Prop}
    {bad : TokKind → Prop} {N : Nat} (hp : ItemC f p G bad N)
    (hb : ¬ bad (.other ',')) :
    ∀ n, n ≤ N → ∀ s ts s' as, PInv f s → s.size < n → Eats s ts s' → Sep G as ts →
      ¬ bad s'.cur.kind → s'.cur.kind ≠ .other ',' → P.listLoop p n s = some (.ok as, s') := by
  intro n
  induction n with
  | zero => intro _ s _ _ _ _ h; omega
  | succ n ih =>
    intro hN s ts s' as hi hs he hS hbad hcomma
    unfold P.listLoop
    cases hS with
    | one h =>
      rw [P.bind_ok (hp s _ s' _ hi (by omega) he h hbad), P.bind_cur, if_neg hcomma, P.pure_eq]
    | cons h ht hs' =>
      obtain ⟨s1, e1, e2, i1, hsz1⟩ := eatApp hi he
      obtain ⟨hk, -, s2, hn, e3, i2, hlt⟩ := eat1 i1 e2 ht (by simp)
      rw [P.bind_ok (hp s _ s1 _ hi (by omega) e1 h (by rw [hk]; exact hb)), P.bind_cur, if_pos hk,
        P.bind_ok hn, P.bind_ok (ih (by omega) s2 _ s' _ i2 (by omega) e3 hs' hbad hcomma), P.pure_eq]

theorem Sep_first {α : Type} {G : α → List Token → Prop} (hF : First G) : First (Sep G) := by
  intro as ts h
  cases h with
  | one h => exact hF _ _ h
  | cons h _ _ =>
    obtain ⟨t, ts', rfl, h1, h2⟩ := hF _ _ h
    exact ⟨t, _, rfl, h1, h2⟩

theorem list_c {f : Bool} {α : Type} {p : P α} {G : α → List Token → Prop}
    {bad : TokKind → Prop} {n : Nat} (hp : ItemC f p G bad n) (hF : First G)
    (hb : ¬ bad (.other ',')) (hb' : ¬ bad (.other ')')) {s s' : PS} {ts : List Token} {as : List α}
    (hi : PInv f s) (hs : s.size ≤ n) (he : Eats s ts s') (hP : Paren G as ts) :
    P.list p n s = some (.ok as, s') := by
  unfold P.list
  cases hP with
  | empty h h' =>
    obtain ⟨hk, -, s1, hn, e1, i1, hlt⟩ := eat1 hi he h (by simp)
    obtain ⟨hk', -, s2, hn', e2, i2, hlt'⟩ := eat1 i1 e1 h' (by simp)
    rw [P.bind_ok (expect_c hk hn), P.bind_cur, if_pos hk', P.bind_ok (expect_c hk' hn'), P.pure_eq,
      e2.nil_inv]
  | items h hS h' =>
    obtain ⟨hk, -, s1, hn, e1, i1, hlt⟩ := eat1 hi he h (by simp)
    obtain ⟨s2, e2, e3, i2, hsz⟩ := eatApp i1 e1
    obtain ⟨hk', -, s3, hn', e4, i3, hlt'⟩ := eat1 i2 e3 h' (by simp)
    have hne := (eatFirst (Sep_first hF) i1 hS e2).1
    rw [P.bind_ok (expect_c hk hn), P.bind_cur, if_neg hne,
      P.bind_ok (listLoop_c hp hb n (Nat.le_refl _) s1 _ s2 _ i1 (by omega) e2 hS
        (by rw [hk']; exact hb') (by rw [hk']; simp)),
      P.bind_ok (expect_c hk' hn'), P.pure_eq, e4.nil_inv]

theorem Paren_first {α : Type} {G : α → List Token → Prop} {as : List α} {ts : List Token}
    (h : Paren G as ts) : ∃ t ts', ts = t :: ts' ∧ t.kind = .other '(' := by
  cases h with
  | empty h _ => exact ⟨_, _, rfl, h⟩
  | items h _ _ => exact ⟨_, _, rfl, h⟩

theorem optList_c {f : Bool} {α : Type} {p : P α} {G : α → List Token → Prop}
    {bad : TokKind → Prop} {n : Nat} (hp : ItemC f p G bad n) (hF : First G)
    (hb : ¬ bad (.other ',')) (hb' : ¬ bad (.other ')')) {s s' : PS} {ts : List Token} {as : List α}
    (hi : PInv f s) (hs : s.size ≤ n) (he : Eats s ts s') (hP : Opt G as ts)
    (hnext : s'.cur.kind ≠ .other '(') :
    P.optList p n s = some (.ok as, s') := by
  unfold P.optList
  rw [P.bind_cur]
  cases hP with
  | none =>
    rw [← he.nil_inv, if_neg hnext, P.pure_eq]
  | list h =>
    obtain ⟨t, ts', rfl, ht⟩ := Paren_first h
    obtain ⟨hk, -⟩ := eat1 hi he ht (by simp)
    rw [if_pos hk, list_c hp hF hb hb' hi hs he h]

theorem retType_c {f : Bool} {p : P TyAst} {n : Nat}
    (hp : ItemC f p GTy (fun k => k = .other ':') n) {s s' : PS} {ts : List Token}
    {r : Option TyAst} (hi : PInv f s) (hs : s.size ≤ n) (he : Eats s ts s') (hR : GRet r ts)
    (hnext : s'.cur.kind ≠ .other ':') : P.retType p s = some (.ok r, s') := by
  unfold P.retType
  rw [P.bind_cur]
  cases hR with
  | none => rw [← he.nil_inv, if_neg hnext, P.pure_eq]
  | some ht hr =>
    obtain ⟨hk, -, s1, hn, e1, i1, hlt⟩ := eat1 hi he ht (by simp)
    rw [if_pos hk, P.bind_ok hn, P.bind_ok (hp s1 _ s' _ i1 (by omega) e1 hr hnext), P.pure_eq]

theorem GTy_first : First GTy := by
  intro a ts h
  cases h with
  | int h => exact ⟨_, _, rfl, by simp [h], by simp [h]⟩
  | array h => exact ⟨_, _, rfl, by simp [h], by simp [h]⟩
  | pointer h => exact ⟨_, _, rfl, by simp [h], by simp [h]⟩
  | func h =>
    obtain ⟨t, ts', rfl, ht⟩ := Paren_first h
    exact ⟨_, _, rfl, by simp [ht], by simp [ht]⟩
  | funcRet h =>
    obtain ⟨t, ts', rfl, ht⟩ := Paren_first h
    exact ⟨_, _, rfl, by simp [ht], by simp [ht]⟩

theorem GVal_first : First GVal := by
  intro a ts h
  cases h <;> rename_i h <;> exact ⟨_, _, rfl, by simp [h], by simp [h]⟩

theorem GInit_first : First GInit := by
  intro a ts h
  cases h with
  | int h => exact ⟨_, _, rfl, by simp [h], by simp [h]⟩
  | undef h => exact ⟨_, _, rfl, by simp [h], by simp [h]⟩
  | zero h => exact ⟨_, _, rfl, by simp [h], by simp [h]⟩
  | agg h => exact ⟨_, _, rfl, by simp [h], by simp [h]⟩

theorem GParam_first : First GParam := by
  intro a ts h
  cases h with
  | mk h => exact ⟨_, _, rfl, by simp [h], by simp [h]⟩

theorem type_c {f : Bool} : ∀ n, ItemC f (P.type n) GTy (fun k => k = .other ':') n := by
  intro n
  induction n with
  | zero => intro s _ _ _ _ h; omega
  | succ n ih =>
    intro s ts s' a hi hs he hG hbad
    unfold P.type
    rw [P.bind_cur]
    cases hG with
    | int h =>
      obtain ⟨hk, -, s1, hn, e1, i1, hlt⟩ := eat1 hi he h (by simp)
      rw [hk]
      simp only
      rw [P.bind_ok hn, P.pure_eq, e1.nil_inv]
    | array h hb h1 h2 hl h3 =>
      obtain ⟨hk, -, s1, hn, e1, i1, hlt⟩ := eat1 hi he h (by simp)
      obtain ⟨s2, e2, e3, i2, hsz2⟩ := eatApp i1 e1
      obtain ⟨hk1, -, s3, hn3, e4, i3, -⟩ := eat1 i2 e3 h1 (by simp)
      obtain ⟨hk2, -, s4, hn4, e5, i4, -⟩ := eat1 i3 e4 h2 (by simp)
      obtain ⟨hk3, -, s5, hn5, e6, i5, -⟩ := eat1 i4 e5 h3 (by simp)
      rw [hk]
      simp only
      rw [P.bind_ok hn, P.bind_ok (ih s1 _ s2 _ i1 (by omega) e2 hb (by simp [hk1])),
        P.bind_ok (expect_c hk1 hn3), P.bind_ok (readInt_c hk2 hn4), P.bind_ok (expect_c hk3 hn5),
        P.pure_eq, e6.nil_inv, Len_unique hl]
    | pointer h hb =>
      obtain ⟨hk, -, s1, hn, e1, i1, hlt⟩ := eat1 hi he h (by simp)
      rw [hk]
      simp only
      rw [P.bind_ok hn, P.bind_ok (ih s1 _ s' _ i1 (by omega) e1 hb hbad), P.pure_eq]
    | func h =>
      obtain ⟨t, ts', rfl, ht⟩ := Paren_first h
      obtain ⟨hk, -⟩ := eat1 hi he ht (by simp)
      rw [hk]
      simp only
      have := (he.facts hi)
      rw [P.bind_ok (list_c ih GTy_first (by simp) (by simp) hi (by omega) he h),
        P.bind_ok (retType_c ih this.1 (by omega) .nil .none hbad), P.pure_eq]
    | funcRet h ht hr =>
      obtain ⟨t, ts', rfl, ht'⟩ := Paren_first h
      obtain ⟨hk, -⟩ := eat1 hi he ht' (by simp)
      rw [hk]
      simp only
      obtain ⟨s1, e1, e2, i1, hsz1⟩ := eatApp hi he
      rw [P.bind_ok (list_c ih GTy_first (by simp) (by simp) hi (by omega) e1 h),
        P.bind_ok (retType_c ih i1 (by omega) e2 (.some ht hr) hbad), P.pure_eq]

theorem value_c {f : Bool} {s s' : PS} {ts : List Token} {a : ValAst} (hi : PInv f s)
    (he : Eats s ts s') (hG : GVal a ts) : P.value s = some (.ok a, s') := by
  unfold P.value
  rw [P.bind_cur]
  cases hG with
  | sym h =>
    obtain ⟨hk, -, s1, hn, e1, i1, hlt⟩ := eat1 hi he h (by simp)
    rw [hk]; simp only
    rw [P.bind_ok hn, P.pure_eq, e1.nil_inv]
  | int h =>
    obtain ⟨hk, -, s1, hn, e1, i1, hlt⟩ := eat1 hi he h (by simp)
    rw [hk]; simp only
    rw [P.bind_ok hn, P.pure_eq, e1.nil_inv]
  | undef h =>
    obtain ⟨hk, -, s1, hn, e1, i1, hlt⟩ := eat1 hi he h (by simp)
    rw [hk]; simp only
    rw [P.bind_ok hn, P.pure_eq, e1.nil_inv]

theorem valueC {f : Bool} (n : Nat) : ItemC f P.value GVal (fun _ => False) n :=
  fun _ _ _ _ hi _ he hG _ => value_c hi he hG

theorem init_c {f : Bool} : ∀ n, ItemC f (P.init n) GInit (fun _ => False) n := by
  intro n
  induction n with
  | zero => intro s _ _ _ _ h; omega
  | succ n ih =>
    intro s ts s' a hi hs he hG hbad
    unfold P.init
    rw [P.bind_cur]
    cases hG with
    | int h =>
      obtain ⟨hk, -, s1, hn, e1, i1, hlt⟩ := eat1 hi he h (by simp)
      rw [hk]; simp only
      rw [P.bind_ok hn, P.pure_eq, e1.nil_inv]
    | undef h =>
      obtain ⟨hk, -, s1, hn, e1, i1, hlt⟩ := eat1 hi he h (by simp)
      rw [hk]; simp only
      rw [P.bind_ok hn, P.pure_eq, e1.nil_inv]
    | zero h =>
      obtain ⟨hk, -, s1, hn, e1, i1, hlt⟩ := eat1 hi he h (by simp)
      rw [hk]; simp only
      rw [P.bind_ok hn, P.pure_eq, e1.nil_inv]
    | agg h hS h' =>
      obtain ⟨hk, -, s1, hn, e1, i1, hlt⟩ := eat1 hi he h (by simp)
      obtain ⟨s2, e2, e3, i2, hsz⟩ := eatApp i1 e1
      obtain ⟨hk', -, s3, hn', e4, i3, hlt'⟩ := eat1 i2 e3 h' (by simp)
      rw [hk]; simp only
      rw [P.bind_ok (expect_c hk hn), P.bind_ok (listLoop_c ih (by simp) n (Nat.le_refl _)
        s1 _ s2 _ i1 (by omega) e2 hS (by simp) (by rw [hk']; simp)), P.bind_ok (expect_c hk' hn'),
        P.pure_eq, e4.nil_inv]

theorem funCall_c {f : Bool} {n : Nat} {s s' : PS} {ts : List Token} {a : Str × List ValAst}
    (hi : PInv f s) (hs : s.size ≤ n) (he : Eats s ts s') (hG : GCall a ts) :
    P.funCall n s = some (.ok a, s') := by
  unfold P.funCall
  cases hG with
  | mk h h1 hP =>
    obtain ⟨hk, -, s1, hn, e1, i1, hlt⟩ := eat1 hi he h (by simp)
    obtain ⟨hk1, -, s2, hn2, e2, i2, hlt2⟩ := eat1 i1 e1 h1 (by simp)
    rw [P.bind_ok hn, P.bind_ok (readSym_c hk1 hn2),
      P.bind_ok (list_c (valueC n) GVal_first (by simp) (by simp) i2 (by omega) e2 hP), P.pure_eq]

theorem GCall_first {a : Str × List ValAst} {ts : List Token} (h : GCall a ts) :
    ∃ t ts', ts = t :: ts' ∧ t.kind = .kw .call := by
  cases h with
  | mk h => exact ⟨_, _, rfl, h⟩

theorem expr_c {f : Bool} {n : Nat} {s s' : PS} {ts : List Token} {a : ExprAst}
    (hi : PInv f s) (hs : s.size ≤ n) (he : Eats s ts s') (hG : GExpr a ts)
    (hbad : s'.cur.kind ≠ .other ':') : P.expr n s = some (.ok a, s') := by
  unfold P.expr
  rw [P.bind_cur]
  cases hG with
  | alloc h hT =>
    obtain ⟨hk, -, s1, hn, e1, i1, hlt⟩ := eat1 hi he h (by simp)
    rw [hk]; simp only
    unfold P.memDecl
    rw [P.bind_ok hn, P.bind_ok (type_c n s1 _ s' _ i1 (by omega) e1 hT hbad), P.pure_eq]
  | load h h1 =>
    obtain ⟨hk, -, s1, hn, e1, i1, hlt⟩ := eat1 hi he h (by simp)
    obtain ⟨hk1, -, s2, hn2, e2, i2, hlt2⟩ := eat1 i1 e1 h1 (by simp)
    rw [hk]; simp only
    unfold P.load
    rw [P.bind_ok hn, P.bind_ok (readSym_c hk1 hn2), P.pure_eq, e2.nil_inv]
  | getPtr h h1 h2 hv =>
    obtain ⟨hk, -, s1, hn, e1, i1, hlt⟩ := eat1 hi he h (by simp)
    obtain ⟨hk1, -, s2, hn2, e2, i2, hlt2⟩ := eat1 i1 e1 h1 (by simp)
    obtain ⟨hk2, -, s3, hn3, e3, i3, hlt3⟩ := eat1 i2 e2 h2 (by simp)
    rw [hk]; simp only
    unfold P.getPtr
    rw [P.bind_ok hn, P.bind_ok (readSym_c hk1 hn2), P.bind_ok (expect_c hk2 hn3),
      P.bind_ok (value_c i3 e3 hv), P.pure_eq]
  | getElemPtr h h1 h2 hv =>
    obtain ⟨hk, -, s1, hn, e1, i1, hlt⟩ := eat1 hi he h (by simp)
    obtain ⟨hk1, -, s2, hn2, e2, i2, hlt2⟩ := eat1 i1 e1 h1 (by simp)
    obtain ⟨hk2, -, s3, hn3, e3, i3, hlt3⟩ := eat1 i2 e2 h2 (by simp)
    rw [hk]; simp only
    unfold P.getElemPtr
    rw [P.bind_ok hn, P.bind_ok (readSym_c hk1 hn2), P.bind_ok (expect_c hk2 hn3),
      P.bind_ok (value_c i3 e3 hv), P.pure_eq]
  | binary h hl h1 hr =>
    obtain ⟨hk, -, s1, hn, e1, i1, hlt⟩ := eat1 hi he h (by simp)
    obtain ⟨s2, e2, e3, i2, -⟩ := eatApp i1 e1
    obtain ⟨hk1, -, s3, hn3, e4, i3, -⟩ := eat1 i2 e3 h1 (by simp)
    rw [hk]; simp only
    unfold P.binary
    rw [P.bind_ok (readOp_c hk hn), P.bind_ok (value_c i1 e2 hl), P.bind_ok (expect_c hk1 hn3),
      P.bind_ok (value_c i3 e4 hr), P.pure_eq]
  | call h =>
    obtain ⟨t, ts', rfl, ht⟩ := GCall_first h
    obtain ⟨hk, -⟩ := eat1 hi he ht (by simp)
    rw [hk]; simp only
    rw [P.bind_ok (funCall_c hi hs he h), P.pure_eq]

theorem GInit_not_sym {v : ValAst} {t : Token} {ts : List Token} (h : GInit v (t :: ts)) (x : Str) :
    t.kind ≠ .sym x := by
  intro hx
  cases h <;> simp_all

/-- A statement at the current token. -/
theorem stmtAt_c {f : Bool} {n : Nat} {s s' : PS} {ts : List Token} {a : StmtAst} (hi : PInv f s)
    (hs : s.size ≤ n) (he : Eats s ts s') (hG : GStmt a ts) (hbad : s'.cur.kind ≠ .other ':') :
    ∃ p, P.stmtAt n s.cur.kind = some (false, p) ∧ p s = some (.ok a, s') := by
  cases hG with
  | «def» h h1 hE =>
    obtain ⟨hk, -, s1, hn, e1, i1, hlt⟩ := eat1 hi he h (by simp)
    obtain ⟨hk1, -, s2, hn2, e2, i2, hlt2⟩ := eat1 i1 e1 h1 (by simp)
    refine ⟨P.symbolDef n, by rw [hk]; rfl, ?_⟩
    unfold P.symbolDef
    rw [P.bind_ok (readSym_c hk hn), P.bind_ok (expect_c hk1 hn2),
      P.bind_ok (expr_c i2 (by omega) e2 hE hbad), P.pure_eq]
  | storeSym h h1 h2 h3 =>
    obtain ⟨hk, -, s1, hn, e1, i1, hlt⟩ := eat1 hi he h (by simp)
    obtain ⟨hk1, -, s2, hn2, e2, i2, hlt2⟩ := eat1 i1 e1 h1 (by simp)
    obtain ⟨hk2, -, s3, hn3, e3, i3, hlt3⟩ := eat1 i2 e2 h2 (by simp)
    obtain ⟨hk3, -, s4, hn4, e4, i4, hlt4⟩ := eat1 i3 e3 h3 (by simp)
    refine ⟨P.store n, by rw [hk]; rfl, ?_⟩
    have hv : ∀ x, s1.cur.kind = .sym x → P.storeValue n s1 = some (.ok (.sym x), s2) := by
      intro x hx
      unfold P.storeValue
      rw [P.bind_cur, hx]; simp only
      rw [P.bind_ok hn2, P.pure_eq]
    unfold P.store
    rw [P.bind_ok hn, P.bind_ok (hv _ hk1), P.bind_ok (expect_c hk2 hn3),
      P.bind_ok (readSym_c hk3 hn4), P.pure_eq, e4.nil_inv]
  | @storeInit _ t2 t3 v x ts h hv h2 h3 =>
    obtain ⟨hk, -, s1, hn, e1, i1, hlt⟩ := eat1 hi he h (by simp)
    obtain ⟨s2, e2, e3, i2, hsz2⟩ := eatApp i1 e1
    obtain ⟨hk2, -, s3, hn3, e4, i3, hlt3⟩ := eat1 i2 e3 h2 (by simp)
    obtain ⟨hk3, -, s4, hn4, e5, i4, hlt4⟩ := eat1 i3 e4 h3 (by simp)
    refine ⟨P.store n, by rw [hk]; rfl, ?_⟩
    have hv' : P.storeValue n s1 = some (.ok v, s2) := by
      unfold P.storeValue
      rw [P.bind_cur]
      obtain ⟨t, ts', rfl, -⟩ := GInit_first _ _ hv
      have hc := (Eats.cons_inv e2).1
      have hns := GInit_not_sym hv
      rw [← hc] at hns
      have hI := init_c n s1 _ s2 _ i1 (by omega) e2 hv (by simp)
      cases hkk : s1.cur.kind <;> first
        | exact absurd hkk (hns _)
        | exact hI
    unfold P.store
    rw [P.bind_ok hn, P.bind_ok hv', P.bind_ok (expect_c hk2 hn3), P.bind_ok (readSym_c hk3 hn4),
      P.pure_eq, e5.nil_inv]
  | call h =>
    obtain ⟨t, ts', rfl, ht⟩ := GCall_first h
    obtain ⟨hk, -⟩ := eat1 hi he ht (by simp)
    refine ⟨_, by rw [hk]; rfl, ?_⟩
    rw [P.bind_ok (funCall_c hi hs he h)]
    rfl

theorem GVal_single {v : ValAst} {ts : List Token} (h : GVal v ts) : ∃ t, ts = [t] := by
  cases h <;> exact ⟨_, rfl⟩

/-- A last statement at the current token. -/
theorem termAt_c {f : Bool} {n : Nat} {s s' : PS} {ts : List Token} {a : StmtAst} (hi : PInv f s)
    (hs : s.size ≤ n) (he : Eats s ts s') (hG : GTerm a ts s'.cur)
    (hbad : s'.cur.kind ≠ .other '(') :
    ∃ p, P.stmtAt n s.cur.kind = some (true, p) ∧ p s = some (.ok a, s') := by
  cases hG with
  | branch h hc h1 h2 ho h3 h4 ho' =>
    obtain ⟨hk, -, s1, hn, e1, i1, hlt⟩ := eat1 hi he h (by simp)
    obtain ⟨s2, e2, e3, i2, hsz2⟩ := eatApp i1 e1
    obtain ⟨hk1, -, s3, hn3, e4, i3, hlt3⟩ := eat1 i2 e3 h1 (by simp)
    obtain ⟨hk2, -, s4, hn4, e5, i4, hlt4⟩ := eat1 i3 e4 h2 (by simp)
    obtain ⟨s5, e6, e7, i5, hsz5⟩ := eatApp i4 e5
    obtain ⟨hk3, -, s6, hn6, e8, i6, hlt6⟩ := eat1 i5 e7 h3 (by simp)
    obtain ⟨hk4, -, s7, hn7, e9, i7, hlt7⟩ := eat1 i6 e8 h4 (by simp)
    refine ⟨P.branch n, by rw [hk]; rfl, ?_⟩
    unfold P.branch
    rw [P.bind_ok hn, P.bind_ok (value_c i1 e2 hc), P.bind_ok (expect_c hk1 hn3),
      P.bind_ok (readSym_c hk2 hn4),
      P.bind_ok (optList_c (valueC n) GVal_first (by simp) (by simp) i4 (by omega) e6 ho
        (by rw [hk3]; simp)),
      P.bind_ok (expect_c hk3 hn6), P.bind_ok (readSym_c hk4 hn7),
      P.bind_ok (optList_c (valueC n) GVal_first (by simp) (by simp) i7 (by omega) e9 ho' hbad),
      P.pure_eq]
  | jump h h1 ho =>
    obtain ⟨hk, -, s1, hn, e1, i1, hlt⟩ := eat1 hi he h (by simp)
    obtain ⟨hk1, -, s2, hn2, e2, i2, hlt2⟩ := eat1 i1 e1 h1 (by simp)
    refine ⟨P.jump n, by rw [hk]; rfl, ?_⟩
    unfold P.jump
    rw [P.bind_ok hn, P.bind_ok (readSym_c hk1 hn2),
      P.bind_ok (optList_c (valueC n) GVal_first (by simp) (by simp) i2 (by omega) e2 ho hbad),
      P.pure_eq]
  | ret h hl =>
    obtain ⟨hk, hc, s1, hn, e1, i1, hlt⟩ := eat1 hi he h (by simp)
    refine ⟨P.ret, by rw [hk]; rfl, ?_⟩
    unfold P.ret
    have := e1.nil_inv
    subst this
    rw [P.bind_cur, P.bind_ok hn, P.bind_cur, if_neg (by rw [hc]; exact fun h => hl h.symm), P.pure_eq]
  | retVal h hl hv =>
    obtain ⟨hk, hc, s1, hn, e1, i1, hlt⟩ := eat1 hi he h (by simp)
    have hc1 := (Eats.cons_inv e1).1
    refine ⟨P.ret, by rw [hk]; rfl, ?_⟩
    unfold P.ret
    rw [P.bind_cur, P.bind_ok hn, P.bind_cur, if_pos (by rw [hc, hc1]; exact hl.symm),
      P.bind_ok (value_c i1 e1 hv), P.pure_eq]

theorem stmt_c {n : Nat} {s s' : PS} {a : StmtAst} {exit : Bool}
    (h : ∃ p, P.stmtAt n s.cur.kind = some (exit, p) ∧ p s = some (.ok a, s')) :
    P.stmt n s = some (.ok (a, exit), s') := by
  obtain ⟨p, h1, h2⟩ := h
  unfold P.stmt
  rw [P.bind_cur, h1]
  simp only [P.recover]
  rw [P.bind_ok h2, P.pure_eq]

theorem GStmt_first {st : StmtAst} {ts : List Token} (h : GStmt st ts) :
    ∃ t ts', ts = t :: ts' ∧ P.stmtStart t.kind = true := by
  cases h with
  | «def» h => exact ⟨_, _, rfl, by rw [h]; rfl⟩
  | storeSym h => exact ⟨_, _, rfl, by rw [h]; rfl⟩
  | storeInit h => exact ⟨_, _, rfl, by rw [h]; rfl⟩
  | call h =>
    obtain ⟨t, ts', rfl, ht⟩ := GCall_first h
    exact ⟨_, _, rfl, by rw [ht]; rfl⟩

/-- Statements start with tokens that end no type and no argument list. -/
theorem GBody_first {sts : List StmtAst} {ts : List Token} {a : Token} (h : GBody sts ts a) :
    ∃ t ts', ts = t :: ts' ∧ P.stmtStart t.kind = true := by
  cases h with
  | last h =>
    cases h with
    | branch h => exact ⟨_, _, rfl, by rw [h]; rfl⟩
    | jump h => exact ⟨_, _, rfl, by rw [h]; rfl⟩
    | ret h => exact ⟨_, _, rfl, by rw [h]; rfl⟩
    | retVal h => exact ⟨_, _, rfl, by rw [h]; rfl⟩
  | cons h _ =>
    obtain ⟨t, ts', rfl, ht⟩ := GStmt_first h
    exact ⟨_, _, rfl, ht⟩

theorem stmtLoop_c {f : Bool} : ∀ n s ts s' sts, PInv f s → s.size < n → Eats s ts s' →
    GBody sts ts s'.cur → s'.cur.kind ≠ .other '(' → P.stmtLoop n s = some (.ok sts, s') := by
  intro n
  induction n with
  | zero => intro s _ _ _ _ h; omega
  | succ n ih =>
    intro s ts s' sts hi hs he hG hbad
    unfold P.stmtLoop
    cases hG with
    | last h =>
      rw [P.bind_ok (stmt_c (termAt_c hi (by omega) he h hbad))]
      rfl
    | cons h hB =>
      obtain ⟨s1, e1, e2, i1, hsz⟩ := eatApp hi he
      obtain ⟨t, ts', rfl, ht⟩ := GBody_first hB
      have hc := (Eats.cons_inv e2).1
      have hst := stmtAt_c (n := n) hi (by omega) e1 h
        (by intro h'; rw [← hc, h'] at ht; simp [P.stmtStart] at ht)
      have hlt : s1.size < s.size := by
        obtain ⟨u, us, rfl, hu'⟩ := GStmt_first h
        have hu : u.kind ≠ .eof := by intro h'; rw [h'] at hu'; simp [P.stmtStart] at hu'
        obtain ⟨-, -, s2, -, h4, h5, h6⟩ := eat1 hi e1 rfl hu
        have := (h4.facts h5).2.1
        omega
      rw [P.bind_ok (stmt_c hst)]
      simp only [Bool.false_eq_true, if_false]
      rw [P.bind_ok (ih s1 _ s' _ i1 (by omega) e2 hB hbad), P.pure_eq]

theorem paramC {f : Bool} (n : Nat) : ItemC f (P.param n) GParam (fun k => k = .other ':') n := by
  intro s ts s' a hi hs he hG hbad
  unfold P.param
  cases hG with
  | mk h h1 hT =>
    obtain ⟨hk, -, s1, hn, e1, i1, hlt⟩ := eat1 hi he h (by simp)
    obtain ⟨hk1, -, s2, hn2, e2, i2, hlt2⟩ := eat1 i1 e1 h1 (by simp)
    rw [P.bind_ok (readSym_c hk hn), P.bind_ok (expect_c hk1 hn2),
      P.bind_ok (type_c n s2 _ s' _ i2 (by omega) e2 hT hbad), P.pure_eq]

theorem block_c {f : Bool} {n : Nat} {s s' : PS} {ts : List Token} {b : BlockAst} (hi : PInv f s)
    (hs : s.size ≤ n) (he : Eats s ts s') (hG : GBlock b ts s'.cur)
    (hbad : s'.cur.kind ≠ .other '(') : P.block n s = some (.ok b, s') := by
  unfold P.block
  cases hG with
  | mk h hp h1 hB =>
    obtain ⟨hk, -, s1, hn, e1, i1, hlt⟩ := eat1 hi he h (by simp)
    obtain ⟨s2, e2, e3, i2, hsz2⟩ := eatApp i1 e1
    obtain ⟨hk1, -, s3, hn3, e4, i3, hlt3⟩ := eat1 i2 e3 h1 (by simp)
    rw [P.bind_ok (readSym_c hk hn),
      P.bind_ok (optList_c (paramC n) GParam_first (by simp) (by simp) i1 (by omega) e2 hp
        (by rw [hk1]; simp)),
      P.bind_ok (expect_c hk1 hn3), P.bind_ok (stmtLoop_c n s3 _ s' _ i3 (by omega) e4 hB hbad),
      P.pure_eq]

theorem GBlock_first {b : BlockAst} {ts : List Token} {a : Token} (h : GBlock b ts a) :
    ∃ t ts' v, ts = t :: ts' ∧ t.kind = .sym v := by
  cases h with
  | mk h => exact ⟨_, _, _, rfl, h⟩

theorem blockLoop_c {f : Bool} : ∀ n s ts s' bs, PInv f s → s.size < n → Eats s ts s' →
    GBlocks bs ts s'.cur → s'.cur.kind = .other '}' → P.blockLoop n s = some (.ok bs, s') := by
  intro n
  induction n with
  | zero => intro s _ _ _ _ h; omega
  | succ n ih =>
    intro s ts s' bs hi hs he hG hend
    unfold P.blockLoop
    rw [P.bind_cur]
    cases hG with
    | nil => rw [← he.nil_inv, if_pos hend, P.pure_eq]
    | @cons b bs ts1 ts2 _ t ht h hB =>
      obtain ⟨s1, e1, e2, i1, hsz⟩ := eatApp hi he
      obtain ⟨u, us, v, rfl, hu⟩ := GBlock_first h
      have hne : s.cur.kind ≠ .other '}' := by
        rw [(Eats.cons_inv e1).1, hu]; simp
      have hc : t = s1.cur := by
        have := e2.head
        rw [ht] at this
        simpa using this
      subst hc
      have hbad : s1.cur.kind ≠ .other '(' := by
        cases hB with
        | nil => rw [← e2.nil_inv, hend]; simp
        | cons _ h _ =>
          obtain ⟨u, us, v, rfl, hu⟩ := GBlock_first h
          rw [(Eats.cons_inv e2).1, hu]; simp
      obtain ⟨-, -, s2, -, h4, h5, h6⟩ := eat1 hi e1 hu (by simp)
      have := (h4.facts h5).2.1
      rw [if_neg hne, P.bind_ok (block_c hi (by omega) e1 h hbad),
        P.bind_ok (ih s1 _ s' _ i1 (by omega) e2 hB hend), P.pure_eq]

/-- A top-level item at the current token. -/
theorem nextAst_c {f : Bool} {n : Nat} {s s' : PS} {ts : List Token} {g : GlobalAst} (hi : PInv f s)
    (hs : s.size ≤ n) (he : Eats s ts s') (hG : GGlobal g ts)
    (hbad : s'.cur.kind ≠ .other ':') : P.nextAst n s = some (.ok g, s') := by
  unfold P.nextAst
  rw [P.bind_cur]
  cases hG with
  | globalDef h h1 h2 h3 hT h4 hI =>
    obtain ⟨hk, -, s1, hn, e1, i1, hlt⟩ := eat1 hi he h (by simp)
    obtain ⟨hk1, -, s2, hn2, e2, i2, hlt2⟩ := eat1 i1 e1 h1 (by simp)
    obtain ⟨hk2, -, s3, hn3, e3, i3, hlt3⟩ := eat1 i2 e2 h2 (by simp)
    obtain ⟨hk3, -, s4, hn4, e4, i4, hlt4⟩ := eat1 i3 e3 h3 (by simp)
    obtain ⟨s5, e5, e6, i5, hsz5⟩ := eatApp i4 e4
    obtain ⟨hk4, -, s6, hn6, e7, i6, hlt6⟩ := eat1 i5 e6 h4 (by simp)
    rw [hk]
    simp only [P.recover]
    unfold P.globalDef
    rw [P.bind_ok hn, P.bind_ok (readSym_c hk1 hn2), P.bind_ok (expect_c hk2 hn3),
      P.bind_ok (expect_c hk3 hn4), P.bind_ok (type_c n s4 _ s5 _ i4 (by omega) e5 hT (by simp [hk4])),
      P.bind_ok (expect_c hk4 hn6), P.bind_ok (init_c n s6 _ s' _ i6 (by omega) e7 hI (by simp)),
      P.pure_eq]
  | @funDef _ _ _ _ _ _ _ bs _ _ _ h h1 hp hr h2 hb hne h3 =>
    obtain ⟨hk, -, s1, hn, e1, i1, hlt⟩ := eat1 hi he h (by simp)
    obtain ⟨hk1, -, s2, hn2, e2, i2, hlt2⟩ := eat1 i1 e1 h1 (by simp)
    obtain ⟨s3, e3, e4, i3, hsz3⟩ := eatApp i2 e2
    obtain ⟨s4, e5, e6, i4, hsz4⟩ := eatApp i3 e4
    obtain ⟨hk2, -, s5, hn5, e7, i5, hlt5⟩ := eat1 i4 e6 h2 (by simp)
    obtain ⟨s6, e8, e9, i6, hsz6⟩ := eatApp i5 e7
    obtain ⟨hk3, hc3, s7, hn7, e10, i7, hlt7⟩ := eat1 i6 e9 h3 (by simp)
    rw [← hc3] at hb
    have hemp : bs.isEmpty = false := by cases bs with
      | nil => exact absurd rfl hne
      | cons => rfl
    rw [hk]
    simp only [P.recover]
    unfold P.funDef
    rw [P.bind_ok hn, P.bind_ok (readSym_c hk1 hn2),
      P.bind_ok (list_c (paramC n) GParam_first (by simp) (by simp) i2 (by omega) e3 hp),
      P.bind_ok (retType_c (type_c n) i3 (by omega) e5 hr (by simp [hk2])),
      P.bind_ok (expect_c hk2 hn5), P.bind_ok (blockLoop_c n s5 _ s6 _ i5 (by omega) e8 hb hk3),
      P.bind_ok hn7]
    simp only [hemp, Bool.false_eq_true, if_false]
    rw [P.pure_eq, e10.nil_inv]
  | funDecl h h1 hp hr =>
    obtain ⟨hk, -, s1, hn, e1, i1, hlt⟩ := eat1 hi he h (by simp)
    obtain ⟨hk1, -, s2, hn2, e2, i2, hlt2⟩ := eat1 i1 e1 h1 (by simp)
    obtain ⟨s3, e3, e4, i3, hsz3⟩ := eatApp i2 e2
    rw [hk]
    simp only [P.recover]
    unfold P.funDecl
    rw [P.bind_ok hn, P.bind_ok (readSym_c hk1 hn2),
      P.bind_ok (list_c (type_c n) GTy_first (by simp) (by simp) i2 (by omega) e3 hp),
      P.bind_ok (retType_c (type_c n) i3 (by omega) e4 hr hbad), P.pure_eq]

end Koopa
