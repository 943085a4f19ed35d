import Verif.Spec.LlvmText
import Verif.Lemmas.Back.Names
/-!
A text is that of at most one LLVM module.
-/
namespace Koopa
open Spec Spec.Ll

/-! ### Types

The grammar of types is left recursive; types are read from left to right by another relation. -/

mutual
/-- What is read from a list of words as a type, and the rest. -/
inductive ReadTy : List Tok → Ty → List Tok → Prop
  | i32 {ts r : List Tok} {t : Ty} : ReadSuf .i32 ts t r → ReadTy (kw "i32" :: ts) t r
  | void {ts r : List Tok} {t : Ty} : ReadSuf .unit ts t r → ReadTy (kw "void" :: ts) t r
  | array {n : Nat} {e t : Ty} {ts us r : List Tok} : ReadTy ts e (.sym ']' :: us) → ReadSuf (.array e n) us t r →
      ReadTy (.sym '[' :: .word (showNat n) :: kw "x" :: ts) t r
/-- The rest of a type that begins with a type. -/
inductive ReadSuf : Ty → List Tok → Ty → List Tok → Prop
  | stop {t : Ty} {r : List Tok} : r.head? ≠ some (.sym '*') → r.head? ≠ some (.sym '(') → ReadSuf t r t r
  | star {t t' : Ty} {ts r : List Tok} : ReadSuf (.ptr t) ts t' r → ReadSuf t (.sym '*' :: ts) t' r
  | func {t t' : Ty} {ps : List Ty} {ts us r : List Tok} : ReadTys ts ps (.sym ')' :: .sym '*' :: us) → ReadSuf (.func ps t) us t' r →
      ReadSuf t (.sym '(' :: ts) t' r
/-- Types separated by commas. -/
inductive ReadTys : List Tok → List Ty → List Tok → Prop
  | nil {r : List Tok} : r.head? = some (.sym ')') → ReadTys r [] r
  | one {ts r : List Tok} {t : Ty} : ReadTy ts t r → r.head? ≠ some (.sym ',') → ReadTys ts [t] r
  | cons {ts us r : List Tok} {t u : Ty} {l : List Ty} : ReadTy ts t (.sym ',' :: us) → ReadTys us (u :: l) r → ReadTys ts (t :: u :: l) r
end

theorem readTy_head {ts r : List Tok} {t : Ty} (h : ReadTy ts t r) : ts.head? ≠ some (.sym ')') := by
  cases h <;> simp [kw]

mutual
theorem ReadTy.det {ts r r' : List Tok} {t t' : Ty} : ReadTy ts t r → ReadTy ts t' r' → t = t' ∧ r = r'
  | .i32 h, h' => by
    generalize e : kw "i32" :: _ = us at h'
    cases h' with
    | i32 h' => cases e; exact h.det h'
    | void h' => simp [kw] at e
    | array _ _ => simp [kw] at e
  | .void h, h' => by
    generalize e : kw "void" :: _ = us at h'
    cases h' with
    | i32 h' => simp [kw] at e
    | void h' => cases e; exact h.det h'
    | array _ _ => simp [kw] at e
  | .array h1 h2, h' => by
    generalize e : Tok.sym '[' :: _ = us at h'
    cases h' with
    | i32 h' => simp [kw] at e
    | void h' => simp [kw] at e
    | array h3 h4 =>
      simp only [List.cons.injEq, Tok.word.injEq, true_and] at e
      obtain ⟨e1, rfl⟩ := e
      cases showNat_inj e1
      obtain ⟨rfl, e3⟩ := h1.det h3
      cases e3
      exact h2.det h4
theorem ReadSuf.det {ts r r' : List Tok} {s t t' : Ty} : ReadSuf s ts t r → ReadSuf s ts t' r' → t = t' ∧ r = r'
  | .stop h1 h2, h' => by
    cases h' with
    | stop _ _ => exact ⟨rfl, rfl⟩
    | star _ => simp at h1
    | func _ _ => simp at h2
  | .star h, h' => by
    cases h' with
    | stop h1 _ => simp at h1
    | star h' => exact h.det h'
  | .func h1 h2, h' => by
    cases h' with
    | stop _ h => simp at h
    | func h3 h4 =>
      obtain ⟨rfl, e⟩ := h1.det h3
      cases e
      exact h2.det h4
theorem ReadTys.det {ts r r' : List Tok} {l l' : List Ty} : ReadTys ts l r → ReadTys ts l' r' → l = l' ∧ r = r'
  | .nil h, h' => by
    cases h' with
    | nil _ => exact ⟨rfl, rfl⟩
    | one h1 _ => exact absurd h (readTy_head h1)
    | cons h1 _ => exact absurd h (readTy_head h1)
  | .one h1 h2, h' => by
    cases h' with
    | nil h => exact absurd h (readTy_head h1)
    | one h3 _ => obtain ⟨rfl, rfl⟩ := h1.det h3; exact ⟨rfl, rfl⟩
    | cons h3 _ => obtain ⟨rfl, rfl⟩ := h1.det h3; simp at h2
  | .cons h1 h2, h' => by
    cases h' with
    | nil h => exact absurd h (readTy_head h1)
    | one h3 h4 => obtain ⟨rfl, rfl⟩ := h1.det h3; simp at h4
    | cons h3 h4 =>
      obtain ⟨rfl, e⟩ := h1.det h3
      cases e
      obtain ⟨e1, rfl⟩ := h2.det h4
      rw [e1]; exact ⟨rfl, rfl⟩
end

mutual
theorem readTy_of {t : Ty} {ts : List Tok} : TyW t ts → ∀ {r t' r'}, ReadSuf t r t' r' → ReadTy (ts ++ r) t' r'
  | .i32, _, _, _, h => .i32 h
  | .void, _, _, _, h => .void h
  | .array h1, r, _, _, h => by
    have := readTy_of h1 (r := .sym ']' :: r) (.stop (by simp) (by simp))
    simpa using ReadTy.array this h
  | .ptr h1, r, _, _, h => by
    simpa using readTy_of h1 (.star h)
  | .func h1 h2, r, _, _, h => by
    have := readTys_of h2 (r := .sym '*' :: r)
    simpa using readTy_of h1 (.func this h)
theorem readTys_of {l : List Ty} {ts : List Tok} : TysW l ts → ∀ {r}, ReadTys (ts ++ .sym ')' :: r) l (.sym ')' :: r)
  | .nil, _ => .nil rfl
  | .one h, r => .one (readTy_of h (.stop (by simp) (by simp))) (by simp)
  | .cons h h', r => by
    have := readTys_of h' (r := r)
    rw [List.append_assoc, List.cons_append]
    exact .cons (readTy_of h (.stop (by simp) (by simp))) this
end

/-- What comes after a type does not belong to it. -/
def AfterTy (r : List Tok) : Prop := r.head? ≠ some (.sym '*') ∧ r.head? ≠ some (.sym '(')

theorem TyW_det {t t' : Ty} {ts ts' r r' : List Tok} (h : TyW t ts) (h' : TyW t' ts') (hr : AfterTy r) (hr' : AfterTy r') (e : ts ++ r = ts' ++ r') :
    t = t' ∧ r = r' := by
  have h1 := readTy_of h (.stop hr.1 hr.2)
  have h2 := readTy_of h' (.stop hr'.1 hr'.2)
  rw [e] at h1
  exact h1.det h2

theorem TysW_det {l l' : List Ty} {ts ts' r r' : List Tok} (h : TysW l ts) (h' : TysW l' ts') (e : ts ++ .sym ')' :: r = ts' ++ .sym ')' :: r') :
    l = l' ∧ r = r' := by
  have h1 := readTys_of h (r := r)
  have h2 := readTys_of h' (r := r')
  rw [e] at h1
  obtain ⟨rfl, e⟩ := h1.det h2
  cases e
  exact ⟨rfl, rfl⟩

theorem after_word {s : Str} {r : List Tok} : AfterTy (.word s :: r) := by constructor <;> simp
theorem after_sym {c : Char} {r : List Tok} (h : c ≠ '*') (h' : c ≠ '(') : AfterTy (.sym c :: r) := by constructor <;> simp [h, h']

/-! ### Constants and operands -/

theorem showInt_head (i : Int) : ∃ c t, showInt i = c :: t ∧ (c = '-' ∨ (48 ≤ c.toNat ∧ c.toNat ≤ 57)) := by
  have key : ∀ n, ∃ c t, showNat n = c :: t ∧ (c = '-' ∨ (48 ≤ c.toNat ∧ c.toNat ≤ 57)) := by
    intro n
    cases e : showNat n with
    | nil => exact absurd e (showNat_ne_nil n)
    | cons c t => exact ⟨c, t, rfl, .inr (showNat_digit (by rw [e]; exact List.mem_cons_self ..))⟩
  unfold showInt
  split
  · exact ⟨_, _, rfl, .inl rfl⟩
  · exact key _

theorem showInt_inj {i j : Int} (h : showInt i = showInt j) : i = j := by
  have key : ∀ n m, showNat n ≠ '-' :: showNat m := by
    intro n m e
    have := showNat_digit (n := n) (c := '-') (by rw [e]; exact List.mem_cons_self ..)
    have e : '-'.toNat = 45 := rfl
    omega
  unfold showInt at h
  split at h <;> split at h
  · have := showNat_inj (List.cons.inj h).2; omega
  · exact absurd h.symm (key _ _)
  · exact absurd h (key _ _)
  · have := showNat_inj h; omega


/-- Begins with a word or an opening bracket. -/
def OpensWord (ts : List Tok) : Prop := (∃ s us, ts = .word s :: us) ∨ ∃ us, ts = .sym '[' :: us

theorem OpensWord.after {ts r : List Tok} (h : OpensWord ts) : AfterTy (ts ++ r) := by
  rcases h with ⟨s, us, rfl⟩ | ⟨us, rfl⟩
  · exact after_word
  · exact after_sym (by decide) (by decide)

theorem OpensWord.no_sym {ts r us : List Tok} {c : Char} (h : OpensWord ts) (hc : c ≠ '[') : ts ++ r ≠ .sym c :: us := by
  rcases h with ⟨s, us, rfl⟩ | ⟨us, rfl⟩
  · simp
  · simp [Ne.symm hc]

theorem OpensWord.append {ts us : List Tok} (h : OpensWord ts) : OpensWord (ts ++ us) := by
  rcases h with ⟨s, us, rfl⟩ | ⟨us, rfl⟩
  · exact .inl ⟨_, _, rfl⟩
  · exact .inr ⟨_, rfl⟩

theorem TyW_opens {t : Ty} {ts : List Tok} (h : TyW t ts) : OpensWord ts := by
  match h with
  | .i32 => exact .inl ⟨_, _, rfl⟩
  | .void => exact .inl ⟨_, _, rfl⟩
  | .array _ => exact .inr ⟨_, rfl⟩
  | .ptr h => exact (TyW_opens h).append
  | .func h _ => exact (TyW_opens h).append

theorem CstW_opens {c : Cst} {ts : List Tok} (h : CstW c ts) : OpensWord ts := by
  cases h with
  | int n => exact .inl ⟨_, _, rfl⟩
  | zero => exact .inl ⟨_, _, rfl⟩
  | undef => exact .inl ⟨_, _, rfl⟩
  | array _ => exact .inr ⟨_, rfl⟩

theorem OpdW_opens {o : Opd} {ts : List Tok} (h : OpdW o ts) : OpensWord ts := by
  cases h with
  | cst h => exact CstW_opens h
  | loc _ => exact .inl ⟨_, _, rfl⟩
  | glob _ => exact .inl ⟨_, _, rfl⟩

theorem TOpdW_opens {o : Ty × Opd} {ts : List Tok} (h : TOpdW o ts) : OpensWord ts := by
  cases h with
  | mk h _ => exact (TyW_opens h).append

/-- A word that is not an integer. -/
theorem not_int {n : Int} {c : Char} {t : Str} (h : showInt n = c :: t) (hc : c = '-' ∨ (48 ≤ c.toNat ∧ c.toNat ≤ 57) → False) : False := by
  obtain ⟨d, u, e, hd⟩ := showInt_head n
  rw [h] at e
  cases e
  exact hc hd

mutual
theorem CstW_det {c c' : Cst} {ts ts' r r' : List Tok} : CstW c ts → CstW c' ts' → ts ++ r = ts' ++ r' → c = c' ∧ r = r'
  | .int n, h', e => by
    cases h' with
    | int m =>
      simp only [List.cons_append, List.nil_append, List.cons.injEq, Tok.word.injEq] at e
      rw [BitVec.eq_of_toInt_eq (showInt_inj e.1)]
      exact ⟨rfl, e.2⟩
    | zero =>
      simp only [List.cons_append, List.nil_append, List.cons.injEq, Tok.word.injEq, kw] at e
      exact (not_int e.1 (by decide)).elim
    | undef =>
      simp only [List.cons_append, List.nil_append, List.cons.injEq, Tok.word.injEq, kw] at e
      exact (not_int e.1 (by decide)).elim
    | array _ => simp at e
  | .zero, h', e => by
    cases h' with
    | int m =>
      simp only [List.cons_append, List.nil_append, List.cons.injEq, Tok.word.injEq, kw] at e
      exact (not_int e.1.symm (by decide)).elim
    | zero => exact ⟨rfl, (List.cons.inj e).2⟩
    | undef => simp [kw] at e
    | array _ => simp [kw] at e
  | .undef, h', e => by
    cases h' with
    | int m =>
      simp only [List.cons_append, List.nil_append, List.cons.injEq, Tok.word.injEq, kw] at e
      exact (not_int e.1.symm (by decide)).elim
    | zero => simp [kw] at e
    | undef => exact ⟨rfl, (List.cons.inj e).2⟩
    | array _ => simp [kw] at e
  | .array h, h', e => by
    cases h' with
    | int m => simp at e
    | zero => simp [kw] at e
    | undef => simp [kw] at e
    | array h' =>
      simp only [List.cons_append, List.append_assoc, List.nil_append, List.cons.injEq, true_and] at e
      obtain ⟨rfl, e⟩ := CstsW_det h h' e
      exact ⟨rfl, e⟩
theorem CstsW_det {l l' : List (Ty × Cst)} {ts ts' r r' : List Tok} : CstsW l ts → CstsW l' ts' → ts ++ .sym ']' :: r = ts' ++ .sym ']' :: r' →
    l = l' ∧ r = r'
  | .nil, h', e => by
    cases h' with
    | nil => exact ⟨rfl, (List.cons.inj e).2⟩
    | one h1 h2 => exact absurd e.symm (((TyW_opens h1).append).no_sym (by decide))
    | cons h1 h2 h3 => exact absurd e.symm (((TyW_opens h1).append.append).no_sym (by decide))
  | .one h1 h2, h', e => by
    cases h' with
    | nil => exact absurd e (((TyW_opens h1).append).no_sym (by decide))
    | one h3 h4 =>
      rw [List.append_assoc, List.append_assoc] at e
      obtain ⟨rfl, e⟩ := TyW_det h1 h3 (CstW_opens h2).after (CstW_opens h4).after e
      obtain ⟨rfl, e⟩ := CstW_det h2 h4 e
      exact ⟨rfl, (List.cons.inj e).2⟩
    | cons h3 h4 h5 =>
      simp only [List.append_assoc, List.cons_append] at e
      obtain ⟨rfl, e⟩ := TyW_det h1 h3 (CstW_opens h2).after (CstW_opens h4).after e
      obtain ⟨rfl, e⟩ := CstW_det h2 h4 e
      simp at e
  | .cons h1 h2 h5, h', e => by
    cases h' with
    | nil => exact absurd e (((TyW_opens h1).append.append).no_sym (by decide))
    | one h3 h4 =>
      simp only [List.append_assoc, List.cons_append] at e
      obtain ⟨rfl, e⟩ := TyW_det h1 h3 (CstW_opens h2).after (CstW_opens h4).after e
      obtain ⟨rfl, e⟩ := CstW_det h2 h4 e
      simp at e
    | cons h3 h4 h6 =>
      simp only [List.append_assoc, List.cons_append] at e
      obtain ⟨rfl, e⟩ := TyW_det h1 h3 (CstW_opens h2).after (CstW_opens h4).after e
      obtain ⟨rfl, e⟩ := CstW_det h2 h4 e
      obtain ⟨e1, e⟩ := CstsW_det h5 h6 (List.cons.inj e).2
      rw [e1]
      exact ⟨rfl, e⟩
end

theorem CstW_word {c : Cst} {ts r us : List Tok} {d : Char} {s : Str} (h : CstW c ts) (e : ts ++ r = .word (d :: s) :: us) (hd : d = '%' ∨ d = '@') : False := by
  cases h with
  | int n =>
    simp only [List.cons_append, List.nil_append, List.cons.injEq, Tok.word.injEq] at e
    refine not_int e.1 ?_
    rcases hd with rfl | rfl <;> decide
  | zero => rcases hd with rfl | rfl <;> simp [kw] at e
  | undef => rcases hd with rfl | rfl <;> simp [kw] at e
  | array _ => simp at e

theorem OpdW_det {o o' : Opd} {ts ts' r r' : List Tok} (h : OpdW o ts) (h' : OpdW o' ts') (e : ts ++ r = ts' ++ r') : o = o' ∧ r = r' := by
  cases h with
  | cst h =>
    cases h' with
    | cst h' => obtain ⟨rfl, e⟩ := CstW_det h h' e; exact ⟨rfl, e⟩
    | loc h' => obtain ⟨s, rfl, _⟩ := h'; exact (CstW_word h e (.inl rfl)).elim
    | glob h' => obtain ⟨s, rfl, _⟩ := h'; exact (CstW_word h e (.inr rfl)).elim
  | loc h =>
    obtain ⟨s, rfl, _⟩ := h
    cases h' with
    | cst h' => exact (CstW_word h' e.symm (.inl rfl)).elim
    | loc h' => cases e; exact ⟨rfl, rfl⟩
    | glob h' => obtain ⟨s, rfl, _⟩ := h'; simp at e
  | glob h =>
    obtain ⟨s, rfl, _⟩ := h
    cases h' with
    | cst h' => exact (CstW_word h' e.symm (.inr rfl)).elim
    | loc h' => obtain ⟨s, rfl, _⟩ := h'; simp at e
    | glob h' => cases e; exact ⟨rfl, rfl⟩

theorem TOpdW_det {o o' : Ty × Opd} {ts ts' r r' : List Tok} (h : TOpdW o ts) (h' : TOpdW o' ts') (e : ts ++ r = ts' ++ r') : o = o' ∧ r = r' := by
  cases h with
  | mk h1 h2 =>
    cases h' with
    | mk h3 h4 =>
      rw [List.append_assoc, List.append_assoc] at e
      obtain ⟨rfl, e⟩ := TyW_det h1 h3 (OpdW_opens h2).after (OpdW_opens h4).after e
      obtain ⟨rfl, e⟩ := OpdW_det h2 h4 e
      exact ⟨rfl, e⟩

theorem ParamW_opens {o : Ty × Str} {ts : List Tok} (h : ParamW o ts) : OpensWord ts := by
  cases h with
  | mk h _ => exact (TyW_opens h).append

theorem ParamW_det {o o' : Ty × Str} {ts ts' r r' : List Tok} (h : ParamW o ts) (h' : ParamW o' ts') (e : ts ++ r = ts' ++ r') : o = o' ∧ r = r' := by
  cases h with
  | mk h1 h2 =>
    cases h' with
    | mk h3 h4 =>
      simp only [List.append_assoc, List.cons_append, List.nil_append] at e
      obtain ⟨rfl, e⟩ := TyW_det h1 h3 after_word after_word e
      cases e
      exact ⟨rfl, rfl⟩

theorem IncW_opens {o : Opd × Str} {ts : List Tok} (h : IncW o ts) : OpensWord ts := by
  cases h with
  | mk h _ => exact .inr ⟨_, rfl⟩

theorem IncW_det {o o' : Opd × Str} {ts ts' r r' : List Tok} (h : IncW o ts) (h' : IncW o' ts') (e : ts ++ r = ts' ++ r') : o = o' ∧ r = r' := by
  cases h with
  | mk h1 h2 =>
    cases h' with
    | mk h3 h4 =>
      simp only [List.append_assoc, List.cons_append, List.nil_append, List.cons.injEq, true_and] at e
      obtain ⟨rfl, e⟩ := OpdW_det h1 h3 e
      cases e
      exact ⟨rfl, rfl⟩

/-- Lists with commas that end at the symbol `c`. -/
theorem commas_det {α : Type} {P : α → List Tok → Prop} (hd : ∀ {a a' ts ts' r r'}, P a ts → P a' ts' → ts ++ r = ts' ++ r' → a = a' ∧ r = r')
    (ho : ∀ {a ts}, P a ts → OpensWord ts) {c : Char} (hc : c ≠ ',') (hc' : c ≠ '[') {l : List α} {ts : List Tok} (h : Commas P l ts) :
    ∀ {l' ts' r r'}, Commas P l' ts' → ts ++ .sym c :: r = ts' ++ .sym c :: r' → l = l' ∧ r = r' := by
  induction h with
  | nil =>
    intro l' ts' r r' h' e
    cases h' with
    | nil => cases e; exact ⟨rfl, rfl⟩
    | one h' => exact absurd e.symm ((ho h').no_sym hc')
    | cons h' _ => exact absurd e.symm ((ho h').append.no_sym hc')
  | one h =>
    intro l' ts' r r' h' e
    cases h' with
    | nil => exact absurd e ((ho h).no_sym hc')
    | one h' => obtain ⟨rfl, e⟩ := hd h h' e; cases e; exact ⟨rfl, rfl⟩
    | cons h' _ =>
      rw [List.append_assoc] at e
      obtain ⟨rfl, e⟩ := hd h h' e
      simp [hc] at e
  | cons h h1 ih =>
    intro l' ts' r r' h' e
    cases h' with
    | nil => exact absurd e ((ho h).append.no_sym hc')
    | one h' =>
      rw [List.append_assoc] at e
      obtain ⟨rfl, e⟩ := hd h h' e
      simp [Ne.symm hc] at e
    | cons h' h2 =>
      rw [List.append_assoc, List.append_assoc] at e
      obtain ⟨rfl, e⟩ := hd h h' e
      obtain ⟨e1, e⟩ := ih h2 (List.cons.inj e).2
      rw [e1]
      exact ⟨rfl, e⟩

/-! ### Lines -/

/-- What tells phi nodes and instructions apart: whether there is a result, and the first words. -/
def opcode : List Tok → Option (Bool × Tok)
  | .word _ :: .sym '=' :: t :: _ => some (true, t)
  | t :: _ => some (false, t)
  | [] => none

/-- The same for syntax trees. -/
def opcodeOf : Phi ⊕ Inst → Bool × Tok
  | .inl _ => (true, kw "phi")
  | .inr (.alloca _ _) => (true, kw "alloca")
  | .inr (.load _ _ _) => (true, kw "load")
  | .inr (.store _ _) => (false, kw "store")
  | .inr (.gep _ _ _ _) => (true, kw "getelementptr")
  | .inr (.arith _ op _ _) => (true, op.word)
  | .inr (.icmp _ _ _ _) => (true, kw "icmp")
  | .inr (.zext _ _) => (true, kw "zext")
  | .inr (.jump _) => (false, kw "br")
  | .inr (.br _ _ _) => (false, kw "br")
  | .inr (.call (some _) _ _ _) => (true, kw "call")
  | .inr (.call none _ _ _) => (false, kw "call")
  | .inr (.ret _) => (false, kw "ret")

/-- Phi nodes and instructions. -/
def LineW : Phi ⊕ Inst → List Tok → Prop
  | .inl φ, ts => PhiW φ ts
  | .inr i, ts => InstW i ts

theorem opcode_kw {s : String} {ts : List Tok} (h : OpensWord ts) : opcode (kw s :: ts) = some (false, kw s) := by
  rcases h with ⟨s, us, rfl⟩ | ⟨us, rfl⟩ <;> rfl

theorem opcode_line {x : Phi ⊕ Inst} {ts r : List Tok} (h : LineW x ts) : opcode (ts ++ r) = some (opcodeOf x) := by
  match x with
  | .inl φ => cases h with | mk _ _ _ => rfl
  | .inr i =>
    cases h with
    | store h _ => exact opcode_kw (TOpdW_opens h).append.append
    | ret h => exact opcode_kw (TOpdW_opens h).append
    | _ => rfl


theorem arith_word_inj {a b : Arith} (h : a.word = b.word) : a = b := by
  cases a <;> cases b <;> first | rfl | (simp [Arith.word, kw] at h)

theorem cond_word_inj {a b : Cond} (h : a.word = b.word) : a = b := by
  cases a <;> cases b <;> first | rfl | (simp [Cond.word, kw] at h)

/-- No arithmetic instruction is called like another instruction. -/
theorem arith_word {a : Arith} : a.word ≠ kw "phi" ∧ a.word ≠ kw "alloca" ∧ a.word ≠ kw "load" ∧ a.word ≠ kw "getelementptr" ∧ a.word ≠ kw "icmp" ∧
    a.word ≠ kw "zext" ∧ a.word ≠ kw "call" := by
  cases a <;> decide

theorem after_nl {r : List Tok} : AfterTy (.sym '\n' :: r) := after_sym (by decide) (by decide)
theorem after_comma {r : List Tok} : AfterTy (.sym ',' :: r) := after_sym (by decide) (by decide)

theorem LineW_det {x x' : Phi ⊕ Inst} {ts ts' r r' : List Tok} (h : LineW x ts) (h' : LineW x' ts') (e : ts ++ .sym '\n' :: r = ts' ++ .sym '\n' :: r') :
    x = x' ∧ r = r' := by
  have ho : opcodeOf x = opcodeOf x' := Option.some.inj (by rw [← opcode_line h, ← opcode_line h', e])
  match x, x', h, h' with
  | .inl φ, .inl φ', h, h' =>
    obtain @⟨_, _, _, _, _, _, _, h1, h2⟩ := (h : PhiW _ _)
    obtain @⟨_, _, _, _, _, _, _, h3, h4⟩ := (h' : PhiW _ _)
    simp only [List.append_assoc, List.cons_append, List.nil_append, List.cons.injEq, true_and, Tok.word.injEq] at e
    obtain ⟨rfl, e⟩ := e
    have o : ∀ {q qs us}, Commas IncW (q :: qs) us → OpensWord us := by
      intro q qs us h
      cases h with
      | one h => exact IncW_opens h
      | cons h _ => exact (IncW_opens h).append
    obtain ⟨rfl, e⟩ := TyW_det h1 h3 (o h2).after (o h4).after e
    obtain ⟨e1, e⟩ := commas_det IncW_det IncW_opens (by decide) (by decide) h2 h4 e
    rw [e1]; exact ⟨rfl, e⟩
  | .inl φ, .inr i, _, h' =>
    cases h' with
    | arith => exact absurd (Prod.mk.inj ho).2.symm arith_word.1
    | _ => simp [opcodeOf, kw] at ho
  | .inr i, .inl φ, h, _ =>
    cases h with
    | arith => exact absurd (Prod.mk.inj ho).2 arith_word.1
    | _ => simp [opcodeOf, kw] at ho
  | .inr i, .inr i', h, h' =>
    simp only [Sum.inr.injEq]
    cases h with
    | alloca _ h1 =>
      cases h' with
      | alloca _ h2 =>
        simp only [List.append_assoc, List.cons_append, List.nil_append, List.cons.injEq, true_and, Tok.word.injEq] at e
        obtain ⟨rfl, e⟩ := e
        obtain ⟨rfl, e⟩ := TyW_det h1 h2 after_nl after_nl e
        cases e; exact ⟨rfl, rfl⟩
      | arith => exact absurd (Prod.mk.inj ho).2.symm arith_word.2.1
      | _ => simp [opcodeOf, kw] at ho
    | load _ h1 h3 =>
      cases h' with
      | load _ h2 h4 =>
        simp only [List.append_assoc, List.cons_append, List.nil_append, List.cons.injEq, true_and, Tok.word.injEq] at e
        obtain ⟨rfl, e⟩ := e
        obtain ⟨rfl, e⟩ := TyW_det h1 h2 after_comma after_comma e
        obtain ⟨rfl, e⟩ := TOpdW_det h3 h4 (List.cons.inj e).2
        cases e; exact ⟨rfl, rfl⟩
      | arith => exact absurd (Prod.mk.inj ho).2.symm arith_word.2.2.1
      | _ => simp [opcodeOf, kw] at ho
    | store h1 h3 =>
      cases h' with
      | store h2 h4 =>
        simp only [List.append_assoc, List.cons_append, List.nil_append, List.cons.injEq, true_and, Tok.word.injEq] at e
        obtain ⟨rfl, e⟩ := TOpdW_det h1 h2 e
        obtain ⟨rfl, e⟩ := TOpdW_det h3 h4 (List.cons.inj e).2
        cases e; exact ⟨rfl, rfl⟩
      | _ => simp [opcodeOf, kw] at ho
    | gep _ h1 h3 h5 =>
      cases h' with
      | gep _ h2 h4 h6 =>
        simp only [List.append_assoc, List.cons_append, List.nil_append, List.cons.injEq, true_and, Tok.word.injEq] at e
        obtain ⟨rfl, e⟩ := e
        obtain ⟨rfl, e⟩ := TyW_det h1 h2 after_comma after_comma e
        obtain ⟨rfl, e⟩ := TOpdW_det h3 h4 (List.cons.inj e).2
        obtain ⟨e1, e⟩ := commas_det TOpdW_det TOpdW_opens (by decide) (by decide) h5 h6 (List.cons.inj e).2
        rw [e1]; exact ⟨rfl, e⟩
      | arith => exact absurd (Prod.mk.inj ho).2.symm arith_word.2.2.2.1
      | _ => simp [opcodeOf, kw] at ho
    | arith _ h1 h3 =>
      cases h' with
      | arith _ h2 h4 =>
        cases arith_word_inj (Prod.mk.inj ho).2
        simp only [List.append_assoc, List.cons_append, List.nil_append, List.cons.injEq, true_and, Tok.word.injEq] at e
        obtain ⟨rfl, e⟩ := e
        obtain ⟨rfl, e⟩ := OpdW_det h1 h2 e
        obtain ⟨rfl, e⟩ := OpdW_det h3 h4 (List.cons.inj e).2
        cases e; exact ⟨rfl, rfl⟩
      | alloca => exact absurd (Prod.mk.inj ho).2 arith_word.2.1
      | load => exact absurd (Prod.mk.inj ho).2 arith_word.2.2.1
      | gep => exact absurd (Prod.mk.inj ho).2 arith_word.2.2.2.1
      | icmp => exact absurd (Prod.mk.inj ho).2 arith_word.2.2.2.2.1
      | zext => exact absurd (Prod.mk.inj ho).2 arith_word.2.2.2.2.2.1
      | call => exact absurd (Prod.mk.inj ho).2 arith_word.2.2.2.2.2.2
      | _ => simp [opcodeOf] at ho
    | icmp _ h1 h3 =>
      cases h' with
      | icmp _ h2 h4 =>
        simp only [List.append_assoc, List.cons_append, List.nil_append, List.cons.injEq, true_and, Tok.word.injEq] at e
        obtain ⟨rfl, e1, e⟩ := e
        cases cond_word_inj e1
        obtain ⟨rfl, e⟩ := OpdW_det h1 h2 e
        obtain ⟨rfl, e⟩ := OpdW_det h3 h4 (List.cons.inj e).2
        cases e; exact ⟨rfl, rfl⟩
      | arith => exact absurd (Prod.mk.inj ho).2.symm arith_word.2.2.2.2.1
      | _ => simp [opcodeOf, kw] at ho
    | zext _ h1 =>
      cases h' with
      | zext _ h2 =>
        simp only [List.append_assoc, List.cons_append, List.nil_append, List.cons.injEq, true_and, Tok.word.injEq] at e
        obtain ⟨rfl, e⟩ := e
        obtain ⟨rfl, e⟩ := OpdW_det h1 h2 e
        cases e; exact ⟨rfl, rfl⟩
      | arith => exact absurd (Prod.mk.inj ho).2.symm arith_word.2.2.2.2.2.1
      | _ => simp [opcodeOf, kw] at ho
    | jump _ =>
      cases h' with
      | jump _ => simp at e; obtain ⟨rfl, e⟩ := e; exact ⟨rfl, e⟩
      | br _ _ _ => simp [kw] at e
      | _ => simp [opcodeOf, kw] at ho
    | br h1 _ _ =>
      cases h' with
      | jump _ => simp [kw] at e
      | br h2 _ _ =>
        simp only [List.append_assoc, List.cons_append, List.nil_append, List.cons.injEq, true_and, Tok.word.injEq] at e
        obtain ⟨rfl, e1⟩ := OpdW_det h1 h2 e
        clear e
        simp at e1
        obtain ⟨rfl, rfl, e2⟩ := e1
        exact ⟨rfl, e2⟩
      | _ => simp [opcodeOf, kw] at ho
    | call _ h1 _ h3 =>
      cases h' with
      | call _ h2 _ h4 =>
        simp only [List.append_assoc, List.cons_append, List.nil_append, List.cons.injEq, true_and, Tok.word.injEq] at e
        obtain ⟨rfl, e⟩ := e
        obtain ⟨rfl, e1⟩ := TyW_det h1 h2 after_word after_word e
        clear e
        simp only [List.cons.injEq, true_and, Tok.word.injEq] at e1
        obtain ⟨rfl, e2⟩ := e1
        obtain ⟨rfl, e3⟩ := commas_det TOpdW_det TOpdW_opens (by decide) (by decide) h3 h4 e2
        cases e3; exact ⟨rfl, rfl⟩
      | arith => exact absurd (Prod.mk.inj ho).2.symm arith_word.2.2.2.2.2.2
      | _ => simp [opcodeOf, kw] at ho
    | callVoid _ h3 =>
      cases h' with
      | callVoid _ h4 =>
        simp only [List.append_assoc, List.cons_append, List.nil_append, List.cons.injEq, true_and, Tok.word.injEq] at e
        obtain ⟨rfl, e⟩ := e
        obtain ⟨rfl, e⟩ := commas_det TOpdW_det TOpdW_opens (by decide) (by decide) h3 h4 e
        cases e; exact ⟨rfl, rfl⟩
      | _ => simp [opcodeOf, kw] at ho
    | retVoid =>
      cases h' with
      | retVoid => cases e; exact ⟨rfl, rfl⟩
      | ret h =>
        cases h with
        | mk h1 h2 =>
          simp only [List.append_assoc, List.cons_append, List.nil_append, List.cons.injEq, true_and] at e
          obtain ⟨-, e⟩ := TyW_det .void h1 after_nl (OpdW_opens h2).after e
          exact absurd e.symm ((OpdW_opens h2).no_sym (by decide))
      | _ => simp [opcodeOf, kw] at ho
    | ret hh =>
      cases h' with
      | retVoid =>
        cases hh with
        | mk h1 h2 =>
          simp only [List.append_assoc, List.cons_append, List.nil_append, List.cons.injEq, true_and] at e
          obtain ⟨-, e⟩ := TyW_det h1 .void (OpdW_opens h2).after after_nl e
          exact absurd e ((OpdW_opens h2).no_sym (by decide))
      | ret hh' =>
        simp only [List.cons_append, List.cons.injEq, true_and] at e
        obtain ⟨rfl, e⟩ := TOpdW_det hh hh' e
        cases e; exact ⟨rfl, rfl⟩
      | _ => simp [opcodeOf, kw] at ho

/-- A line does not look like the beginning of a block or the end of a function. -/
theorem LineW_opens {x : Phi ⊕ Inst} {ts r : List Tok} (h : LineW x ts) : ∃ s t us, ts ++ r = .word s :: t :: us ∧ t ≠ .sym ':' := by
  have key : ∀ {s : String} {ts : List Tok}, OpensWord ts → ∃ s' t us, kw s :: ts = .word s' :: t :: us ∧ t ≠ .sym ':' := by
    rintro s ts (⟨s', us, rfl⟩ | ⟨us, rfl⟩)
    · exact ⟨_, _, _, rfl, by simp⟩
    · exact ⟨_, _, _, rfl, by simp⟩
  match x with
  | .inl φ => cases h with | mk _ _ _ => exact ⟨_, _, _, rfl, by simp⟩
  | .inr i =>
    cases h with
    | store h _ => exact key (TOpdW_opens h).append.append
    | ret h => exact key (TOpdW_opens h).append
    | jump _ => exact ⟨_, _, _, rfl, by simp [kw]⟩
    | br _ _ _ => exact ⟨_, _, _, rfl, by simp [kw]⟩
    | callVoid _ _ => exact ⟨_, _, _, rfl, by simp [kw]⟩
    | retVoid => exact ⟨_, _, _, rfl, by simp [kw]⟩
    | _ => exact ⟨_, _, _, rfl, by simp⟩

/-- Lines up to something that is not a line. -/
theorem lines_det {α : Type} {P : α → List Tok → Prop} (hd : ∀ {a a' ts ts' r r'}, P a ts → P a' ts' → ts ++ .sym '\n' :: r = ts' ++ .sym '\n' :: r' → a = a' ∧ r = r')
    (hn : ∀ {a ts r us}, P a ts → ts ++ r ≠ .sym '\n' :: us) {F : List Tok → Prop} (hF : ∀ {us}, ¬ F (.sym '\n' :: us)) (hP : ∀ {a ts r}, P a ts → ¬ F (ts ++ r))
    {l : List α} {ts : List Tok} (h : Lines P l ts) : ∀ {l' ts' r r'}, Lines P l' ts' → F r → F r' → ts ++ r = ts' ++ r' → l = l' ∧ r = r' := by
  induction h with
  | nil =>
    intro l' ts' r r' h' f f' e
    cases h' with
    | nil => exact ⟨rfl, e⟩
    | cons h1 _ =>
      rw [List.nil_append, List.append_assoc] at e
      rw [e] at f
      exact absurd f (hP h1)
    | blank _ => rw [List.nil_append] at e; rw [e] at f; exact absurd f hF
  | cons h1 _ ih =>
    intro l' ts' r r' h' f f' e
    cases h' with
    | nil =>
      rw [List.nil_append, List.append_assoc] at e
      rw [← e] at f'
      exact absurd f' (hP h1)
    | cons h2 h3 =>
      rw [List.append_assoc, List.append_assoc] at e
      obtain ⟨rfl, e⟩ := hd h1 h2 e
      obtain ⟨rfl, e⟩ := ih h3 f f' e
      exact ⟨rfl, e⟩
    | blank _ =>
      rw [List.append_assoc] at e
      exact absurd e (hn h1)
  | blank _ ih =>
    intro l' ts' r r' h' f f' e
    cases h' with
    | nil => rw [List.nil_append] at e; rw [← e] at f'; exact absurd f' hF
    | cons h2 _ =>
      rw [List.append_assoc] at e
      exact absurd e.symm (hn h2)
    | blank h2 => exact ih h2 f f' (List.cons.inj e).2

theorem lines_map {α β : Type} {P : α → List Tok → Prop} {Q : β → List Tok → Prop} (g : α → β) (hg : ∀ {a ts}, P a ts → Q (g a) ts) {l : List α} {ts : List Tok}
    (h : Lines P l ts) : Lines Q (l.map g) ts := by
  induction h with
  | nil => exact .nil
  | cons h _ ih => exact .cons (hg h) ih
  | blank _ ih => exact .blank ih

theorem lines_append {α : Type} {P : α → List Tok → Prop} {l l' : List α} {ts us : List Tok} (h : Lines P l ts) (h' : Lines P l' us) : Lines P (l ++ l') (ts ++ us) := by
  induction h with
  | nil => exact h'
  | cons h _ ih => rw [List.append_assoc]; exact .cons h ih
  | blank _ ih => exact .blank ih

theorem sum_lists {α β : Type} : ∀ {l l' : List α} {m m' : List β}, l.map (Sum.inl (β := β)) ++ m.map Sum.inr = l'.map Sum.inl ++ m'.map Sum.inr → l = l' ∧ m = m'
  | [], [], m, m', h => ⟨rfl, by simpa [List.map_inj_right (f := Sum.inr) (fun _ _ => Sum.inr.inj)] using h⟩
  | [], _ :: _, [], _, h => by simp at h
  | [], _ :: _, _ :: _, _, h => by simp at h
  | _ :: _, [], _, [], h => by simp at h
  | _ :: _, [], _, _ :: _, h => by simp at h
  | a :: l, a' :: l', m, m', h => by
    simp only [List.map_cons, List.cons_append, List.cons.injEq, Sum.inl.injEq] at h
    obtain ⟨rfl, rfl⟩ := sum_lists h.2
    rw [h.1]
    exact ⟨rfl, rfl⟩

/-- The next block or the end of a function. -/
def AfterBlk (r : List Tok) : Prop := (∃ us, r = .sym '}' :: us) ∨ ∃ s us, r = .word s :: .sym ':' :: us

theorem BlkW_det {b b' : Blk} {ts ts' r r' : List Tok} (h : BlkW b ts) (h' : BlkW b' ts') (hr : AfterBlk r) (hr' : AfterBlk r') (e : ts ++ r = ts' ++ r') :
    b = b' ∧ r = r' := by
  cases h with
  | mk _ h1 h2 =>
    cases h' with
    | mk _ h3 h4 =>
      have k1 := lines_append (lines_map (Q := LineW) Sum.inl (fun h => h) h1) (lines_map (Q := LineW) Sum.inr (fun h => h) h2)
      have k2 := lines_append (lines_map (Q := LineW) Sum.inl (fun h => h) h3) (lines_map (Q := LineW) Sum.inr (fun h => h) h4)
      simp only [List.cons_append, List.cons.injEq, true_and, Tok.word.injEq] at e
      obtain ⟨rfl, e⟩ := e
      obtain ⟨e1, e⟩ := lines_det (P := LineW) LineW_det (fun {a ts r us} h e => by
          obtain ⟨s, t, us, h1, -⟩ := LineW_opens (r := r) h
          rw [h1] at e; simp at e) (F := AfterBlk) (by rintro us (⟨_, h⟩ | ⟨_, _, h⟩) <;> simp at h) (fun {a ts r} h f => by
          obtain ⟨s, t, us, h1, h2⟩ := LineW_opens (r := r) h
          rw [h1] at f
          rcases f with ⟨_, f⟩ | ⟨_, _, f⟩
          · simp at f
          · simp only [List.cons.injEq] at f
            exact h2 f.2.1) k1 k2 hr hr' e
      obtain ⟨rfl, rfl⟩ := sum_lists e1
      exact ⟨rfl, e⟩

theorem BlksW_after {l : List Blk} {ts r : List Tok} (h : BlksW l ts) : AfterBlk (ts ++ .sym '}' :: r) := by
  cases h with
  | nil => exact .inl ⟨_, rfl⟩
  | cons h _ => cases h with | mk _ _ _ => exact .inr ⟨_, _, rfl⟩

theorem BlksW_det {l : List Blk} {ts : List Tok} (h : BlksW l ts) : ∀ {l' ts' r r'}, BlksW l' ts' → ts ++ .sym '}' :: r = ts' ++ .sym '}' :: r' → l = l' ∧ r = r' := by
  induction h with
  | nil =>
    intro l' ts' r r' h' e
    cases h' with
    | nil => cases e; exact ⟨rfl, rfl⟩
    | cons h _ => cases h with | mk _ _ _ => simp at e
  | cons h1 h2 ih =>
    intro l' ts' r r' h' e
    cases h' with
    | nil => cases h1 with | mk _ _ _ => simp at e
    | cons h3 h4 =>
      rw [List.append_assoc, List.append_assoc] at e
      obtain ⟨rfl, e⟩ := BlkW_det h1 h3 (BlksW_after h2) (BlksW_after h4) e
      obtain ⟨rfl, e⟩ := ih h4 e
      exact ⟨rfl, e⟩

theorem ItemW_det {i i' : Item} {ts ts' r r' : List Tok} (h : ItemW i ts) (h' : ItemW i' ts') (e : ts ++ .sym '\n' :: r = ts' ++ .sym '\n' :: r') :
    i = i' ∧ r = r' := by
  have no : ∀ {n : Str} {d : Char} {s : Str}, GlobName n → d ≠ '@' → n ≠ d :: s := by
    rintro n d s ⟨t, rfl, _⟩ hd h
    exact hd (List.cons.inj h).1.symm
  cases h with
  | global g h1 h3 =>
    cases h' with
    | global _ h2 h4 =>
      simp only [List.append_assoc, List.cons_append, List.nil_append, List.cons.injEq, true_and, Tok.word.injEq] at e
      obtain ⟨rfl, e⟩ := e
      obtain ⟨rfl, e⟩ := TyW_det h1 h2 (CstW_opens h3).after (CstW_opens h4).after e
      obtain ⟨rfl, e⟩ := CstW_det h3 h4 e
      cases e; exact ⟨rfl, rfl⟩
    | declare _ _ _ => exact absurd (Tok.word.inj (List.cons.inj e).1) (no g (by decide))
    | define _ _ _ _ => exact absurd (Tok.word.inj (List.cons.inj e).1) (no g (by decide))
  | declare _ h1 h3 =>
    cases h' with
    | global g _ _ => exact absurd (Tok.word.inj (List.cons.inj e).1).symm (no g (by decide))
    | declare _ h2 h4 =>
      simp only [List.append_assoc, List.cons_append, List.nil_append, List.cons.injEq, true_and] at e
      obtain ⟨rfl, e1⟩ := TyW_det h1 h2 after_word after_word e
      clear e
      simp only [List.cons.injEq, true_and, Tok.word.injEq] at e1
      obtain ⟨rfl, e2⟩ := e1
      obtain ⟨rfl, e3⟩ := TysW_det h3 h4 e2
      cases e3; exact ⟨rfl, rfl⟩
    | define _ _ _ _ => simp [kw] at e
  | define _ h1 h3 h5 =>
    cases h' with
    | global g _ _ => exact absurd (Tok.word.inj (List.cons.inj e).1).symm (no g (by decide))
    | declare _ _ _ => simp [kw] at e
    | define _ h2 h4 h6 =>
      simp only [List.append_assoc, List.cons_append, List.nil_append, List.cons.injEq, true_and] at e
      obtain ⟨rfl, e1⟩ := TyW_det h1 h2 after_word after_word e
      clear e
      simp only [List.cons.injEq, true_and, Tok.word.injEq] at e1
      obtain ⟨rfl, e2⟩ := e1
      obtain ⟨rfl, e3⟩ := commas_det ParamW_det ParamW_opens (by decide) (by decide) h3 h4 e2
      simp only [List.cons.injEq, true_and] at e3
      obtain ⟨rfl, e4⟩ := BlksW_det h5 h6 e3
      cases e4; exact ⟨rfl, rfl⟩

theorem ItemW_word {i : Item} {ts r : List Tok} (h : ItemW i ts) : ∃ s us, ts ++ r = .word s :: us := by
  cases h <;> exact ⟨_, _, rfl⟩

theorem written_unique {M M' : Mod} {s : Str} (h : Written M s) (h' : Written M' s) : M = M' := by
  have := lines_det (P := ItemW) ItemW_det (fun {a ts r us} h e => by
      obtain ⟨s, us, h1⟩ := ItemW_word (r := r) h
      rw [h1] at e; simp at e) (F := fun r => r = []) (by simp) (fun {a ts r} h f => by
      obtain ⟨s, us, h1⟩ := ItemW_word (r := r) h
      rw [h1] at f; simp at f) h h' rfl rfl rfl
  exact this.1

end Koopa
