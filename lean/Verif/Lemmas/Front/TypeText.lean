import Verif.Lemmas.Front.Text
import Verif.Lemmas.Front.ElabStmt
import Verif.Model.Back.Koopa
import Verif.Spec.Print
/-!
The printed text of a type.
-/
namespace Koopa
open Spec

/-- The text `s` is read as `a`, whatever follows. -/
def Says {α : Type} (D : α → List Token → Prop) (a : α) (s : Str) : Prop :=
  ∀ m b ts, Clean b → Toks b m ts → ∃ us, D a us ∧ Toks (s ++ b) m (us ++ ts)

theorem Spec.Expressible.not_unit {t : Ty} (h : Expressible t) : t.isUnit = false := by cases h <;> rfl

theorem says_sep {α : Type} {D : α → List Token → Prop} {τ : Type} {sh : τ → Str} : ∀ {ts : List τ} {as : List α}, as.length = ts.length → as ≠ [] →
    (∀ (i : Nat) a t, as[i]? = some a → ts[i]? = some t → Says D a (sh t)) →
    ∀ (f : List τ → Str), (∀ t, f [t] = sh t) → (∀ t t' ts, f (t :: t' :: ts) = sh t ++ ", ".toList ++ f (t' :: ts)) →
    ∀ m b us, Clean b → Toks b m us → ∃ vs, Sep D as vs ∧ Toks (f ts ++ b) m (vs ++ us)
  | [], [], _, hn, _, _, _, _, _, _, _, _, _ => absurd rfl hn
  | t :: ts, [], hl, _, _, _, _, _, _, _, _, _, _ => by simp at hl
  | [], a :: as, hl, _, _, _, _, _, _, _, _, _, _ => by simp at hl
  | [t], [a], _, _, hd, f, h1, _, m, b, us, hb, hu => by
    obtain ⟨vs, i1, i2⟩ := hd 0 a t rfl rfl m b us hb hu
    exact ⟨vs, .one i1, by rw [h1]; exact i2⟩
  | [t], a :: a' :: as, hl, _, _, _, _, _, _, _, _, _, _ => by simp at hl
  | t :: t' :: ts, [a], hl, _, _, _, _, _, _, _, _, _, _ => by simp at hl
  | t :: t' :: ts, a :: a' :: as, hl, _, hd, f, h1, h2, m, b, us, hb, hu => by
    obtain ⟨vs, i1, i2⟩ := says_sep (ts := t' :: ts) (as := a' :: as) (by simpa using hl) (by simp)
      (fun i x y hx hy => hd (i + 1) x y (by simpa using hx) (by simpa using hy)) f h1 h2 m b us hb hu
    obtain ⟨vs', j1, j2⟩ := hd 0 a t rfl rfl m (',' :: ' ' :: (f (t' :: ts) ++ b)) _ (.cons (by decide)) (Toks.punct (by decide) (Toks.sp i2))
    refine ⟨vs' ++ ⟨m, .other ','⟩ :: vs, .cons j1 rfl i1, ?_⟩
    rw [h2]
    simpa using j2

theorem says_paren {α : Type} {D : α → List Token → Prop} {τ : Type} {sh : τ → Str} {ts : List τ} {as : List α} (hl : as.length = ts.length)
    (hd : ∀ (i : Nat) a t, as[i]? = some a → ts[i]? = some t → Says D a (sh t))
    (f : List τ → Str) (h0 : f [] = []) (h1 : ∀ t, f [t] = sh t) (h2 : ∀ t t' ts, f (t :: t' :: ts) = sh t ++ ", ".toList ++ f (t' :: ts))
    (m : Nat) (b : Str) (us : List Token) (hu : Toks b m us) : ∃ vs, Paren D as vs ∧ Toks ('(' :: (f ts ++ ')' :: b)) m (vs ++ us) := by
  cases as with
  | nil =>
    obtain rfl : ts = [] := List.length_eq_zero_iff.1 hl.symm
    exact ⟨[⟨m, .other '('⟩, ⟨m, .other ')'⟩], .empty rfl rfl, by rw [h0]; exact Toks.punct (by decide) (Toks.punct (by decide) hu)⟩
  | cons a as =>
    obtain ⟨vs, i1, i2⟩ := says_sep hl (by simp) hd f h1 h2 m (')' :: b) _ (.cons (by decide)) (Toks.punct (by decide) hu)
    refine ⟨⟨m, .other '('⟩ :: (vs ++ [⟨m, .other ')'⟩]), .items rfl i1 rfl, ?_⟩
    have := Toks.punct (c := '(') (by decide) i2
    simpa using this

/-- The text of types is read as a tree that denotes them. -/
theorem says_types {ps : List Ty} (h : ∀ t ∈ ps, ∃ a, genType a = some t ∧ Says GTy a t.show) : ∃ as, genTypes as = some ps ∧
    as.length = ps.length ∧ ∀ (i : Nat) a t, as[i]? = some a → ps[i]? = some t → Says GTy a t.show := by
  induction ps with
  | nil => exact ⟨[], rfl, rfl, by simp⟩
  | cons t ps ih =>
    obtain ⟨as, h1, h2, h3⟩ := ih (fun t ht => h t (List.mem_cons_of_mem _ ht))
    obtain ⟨a, h4, h5⟩ := h t List.mem_cons_self
    refine ⟨a :: as, by simp [genTypes, h1, h4], by simp [h2], fun i x y hx hy => ?_⟩
    cases i with
    | zero => simp at hx hy; subst hx; subst hy; exact h5
    | succ i => exact h3 i x y (by simpa using hx) (by simpa using hy)

theorem shows_cons (t t' : Ty) (ts : List Ty) : Ty.shows (t :: t' :: ts) = t.show ++ ", ".toList ++ Ty.shows (t' :: ts) := by
  rw [Ty.shows]; simp

theorem says_type {t : Ty} (h : Expressible t) : ∃ a, genType a = some t ∧ Says GTy a t.show := by
  induction h with
  | i32 =>
    refine ⟨.int, rfl, fun m b ts hb hts => ⟨[⟨m, .kw .i32⟩], .int rfl, ?_⟩⟩
    exact Toks.word (.kw (by decide)) hb hts
  | @array t n _ h1 h2 ih =>
    obtain ⟨a, i1, i2⟩ := ih
    refine ⟨.array a n, by simp only [genType, i1, Ty.getArray]; rw [if_pos (by omega)], fun m b ts hb hts => ?_⟩
    obtain ⟨us, j1, j2⟩ := i2 m (',' :: ' ' :: (showNat n ++ ']' :: b)) _ (.cons (by decide))
      (Toks.punct (by decide) (Toks.sp (Toks.word (tokText_showNat h2) (.cons (by decide)) (Toks.punct (by decide) hts))))
    refine ⟨⟨m, .other '['⟩ :: (us ++ [⟨m, .other ','⟩, ⟨m, .int n⟩, ⟨m, .other ']'⟩]), .array rfl j1 rfl rfl ⟨by omega, 0, by omega⟩ rfl, ?_⟩
    have := Toks.punct (c := '[') (by decide) j2
    rw [Ty.show]
    simpa using this
  | @ptr t _ ih =>
    obtain ⟨a, i1, i2⟩ := ih
    refine ⟨.pointer a, by simp only [genType, i1], fun m b ts hb hts => ?_⟩
    obtain ⟨us, j1, j2⟩ := i2 m b ts hb hts
    exact ⟨⟨m, .other '*'⟩ :: us, .pointer rfl j1, by rw [Ty.show]; exact Toks.punct (by decide) j2⟩
  | @proc ps _ ih =>
    obtain ⟨as, i1, i2, i3⟩ := says_types ih
    refine ⟨.func as none, by simp only [genType, i1, genRetType], fun m b ts hb hts => ?_⟩
    obtain ⟨vs, j1, j2⟩ := says_paren i2 i3 Ty.shows (by rw [Ty.shows]) (fun t => by rw [Ty.shows]) shows_cons m b ts hts
    refine ⟨vs, .func j1, ?_⟩
    rw [Ty.show]
    simpa [Ty.isUnit] using j2
  | @func ps r _ hr ih ihr =>
    obtain ⟨as, i1, i2, i3⟩ := says_types ih
    obtain ⟨a, i4, i5⟩ := ihr
    refine ⟨.func as (some a), by simp only [genType, i1, genRetType, i4], fun m b ts hb hts => ?_⟩
    obtain ⟨us, j1, j2⟩ := i5 m b ts hb hts
    obtain ⟨vs, j3, j4⟩ := says_paren i2 i3 Ty.shows (by rw [Ty.shows]) (fun t => by rw [Ty.shows]) shows_cons m (':' :: ' ' :: (r.show ++ b)) _
      (Toks.punct (by decide) (Toks.sp j2))
    refine ⟨vs ++ ⟨m, .other ':'⟩ :: us, .funcRet j3 rfl j1, ?_⟩
    rw [Ty.show, hr.not_unit]
    simpa using j4

end Koopa
