import Verif.Lemmas.Back.LlvmTrans
/-!
The words of the texts that the LLVM generator writes.
-/
namespace Koopa
open Spec Spec.Ll

/-- The character separates words. -/
def sepB (c : Char) : Bool := c == ' ' || isSym c

/-- The text begins with a separator or is empty. -/
def Starts (s : Str) : Prop := ∀ c, s.head? = some c → sepB c = true

/-- The text ends with a separator or is empty. -/
def Ends (s : Str) : Prop := ∀ c, s.getLast? = some c → sepB c = true

instance (s : Str) : Decidable (Starts s) :=
  decidable_of_iff (s.head?.all sepB = true) (by unfold Starts; cases s.head? <;> simp)

instance (s : Str) : Decidable (Ends s) :=
  decidable_of_iff (s.getLast?.all sepB = true) (by unfold Ends; cases s.getLast? <;> simp)

theorem cut_sep (w : Str) {c : Char} (s : Str) (h : sepB c = true) : cut w (c :: s) = flush w ++ cut [] (c :: s) := by
  simp only [sepB, Bool.or_eq_true, beq_iff_eq] at h
  rw [cut, cut]
  by_cases h1 : c = ' '
  · simp [h1, flush]
  · simp [h1, h.resolve_left h1, flush]

theorem cut_starts (w : Str) {s : Str} (h : Starts s) : cut w s = flush w ++ cut [] s := by
  cases s with
  | nil => simp [cut, flush]
  | cons c s => exact cut_sep w s (h c rfl)

theorem cut_append_starts {s : Str} (h : Starts s) : ∀ (t w : Str), cut w (t ++ s) = cut w t ++ cut [] s
  | [], w => cut_starts w h
  | c :: t, w => by
    rw [List.cons_append, cut, cut]
    split
    · rw [cut_append_starts h t, List.append_assoc]
    · split
      · rw [cut_append_starts h t, List.append_assoc]; rfl
      · exact cut_append_starts h t _

theorem cut_append_ends (s : Str) : ∀ (t w : Str), t ≠ [] → Ends t → cut w (t ++ s) = cut w t ++ cut [] s
  | [], _, h, _ => absurd rfl h
  | [c], w, _, h => by
    have hc := h c rfl
    rw [cut_sep w [] hc, List.singleton_append, cut_sep w s hc, List.append_assoc]
    congr 1
    simp only [sepB, Bool.or_eq_true, beq_iff_eq] at hc
    rw [cut, cut]
    by_cases h1 : c = ' '
    · simp [h1, flush, cut]
    · simp [h1, hc.resolve_left h1, flush, cut]
  | c :: d :: t, w, _, h => by
    have h' : Ends (d :: t) := fun x hx => h x (by rw [List.getLast?_cons_cons]; exact hx)
    have ih := fun w => cut_append_ends s (d :: t) w (by simp) h'
    rw [List.cons_append, cut, cut]
    split
    · rw [ih, List.append_assoc]
    · split
      · rw [ih, List.append_assoc]; rfl
      · exact ih _

theorem words_append {t s : Str} (h : Ends t ∨ Starts s) : words (t ++ s) = words t ++ words s := by
  rcases h with h | h
  · cases t with
    | nil => simp [words, cut, flush]
    | cons c t => exact cut_append_ends s (c :: t) [] (by simp) h
  · exact cut_append_starts h t []

@[simp] theorem words_nil : words [] = [] := rfl

/-- A text that ends a word before another one. -/
theorem words_pre {l : Str} (h : Ends l) (r : Str) : words (l ++ r) = words l ++ words r := words_append (.inl h)

/-- A text between words. -/
theorem words_mid {l : Str} (h : Ends l) (h' : Starts l) (h0 : l ≠ []) (t r : Str) : words (t ++ (l ++ r)) = words t ++ (words l ++ words r) := by
  rw [words_append (.inr ?_), words_pre h]
  intro c hc
  cases l with
  | nil => exact absurd rfl h0
  | cons x l => exact h' c hc

/-- A text after words. -/
theorem words_post {l : Str} (h' : Starts l) (t : Str) : words (t ++ l) = words t ++ words l := words_append (.inr h')

theorem cut_word : ∀ (n w : Str), (∀ c ∈ n, sepB c = false) → cut w n = flush (w ++ n)
  | [], w, _ => by simp [cut]
  | c :: n, w, h => by
    have hc := h c List.mem_cons_self
    simp only [sepB, Bool.or_eq_false_iff, beq_eq_false_iff_ne, ne_eq] at hc
    rw [cut, if_neg hc.1, if_neg (by rw [hc.2]; decide), cut_word n _ (fun x hx => h x (List.mem_cons_of_mem _ hx))]
    simp

theorem words_word {n : Str} (h : ∀ c ∈ n, sepB c = false) (h0 : n ≠ []) : words n = [.word n] := by
  rw [words, cut_word n [] h]
  simp [flush, h0]

theorem sepB_nameChar {c : Char} (h : nameChar c = true) : sepB c = false := by
  rw [Bool.eq_false_iff]
  intro hs
  simp only [sepB, isSym, List.contains_eq_mem, List.mem_cons, List.not_mem_nil, or_false, Bool.or_eq_true, beq_iff_eq, decide_eq_true_eq] at hs
  rcases hs with rfl | rfl | rfl | rfl | rfl | rfl | rfl | rfl | rfl | rfl | rfl | rfl <;> revert h <;> decide

theorem words_loc {n : Str} (h : LocName n) : words n = [.word n] := by
  obtain ⟨s, rfl, h1, h2⟩ := h
  refine words_word (fun c hc => ?_) (by simp)
  rcases List.mem_cons.1 hc with rfl | hc
  · decide
  · exact sepB_nameChar (h2 c hc)

theorem words_label {l : Str} (h : LocName ('%' :: l)) : words l = [.word l] := by
  obtain ⟨s, he, ⟨c, t, h1, -⟩, h2⟩ := h
  cases he
  exact words_word (fun c hc => sepB_nameChar (h2 c hc)) (by rw [h1]; simp)

theorem words_glob {n : Str} (h : GlobName n) : words n = [.word n] := by
  obtain ⟨s, rfl, h1, h2⟩ := h
  refine words_word (fun c hc => ?_) (by simp)
  rcases List.mem_cons.1 hc with rfl | hc
  · decide
  · exact sepB_nameChar (h2 c hc)

theorem sepB_digit {c : Char} (h : 48 ≤ c.toNat ∧ c.toNat ≤ 57) : sepB c = false := by
  refine sepB_nameChar ?_
  have : c.isDigit = true := by
    simp only [Char.isDigit, Bool.and_eq_true, decide_eq_true_eq]
    exact ⟨h.1, h.2⟩
  simp [nameChar, Char.isAlphanum, this]

theorem words_nat (n : Nat) : words (showNat n) = [.word (showNat n)] :=
  words_word (fun _ hc => sepB_digit (showNat_digit hc)) (showNat_ne_nil n)

theorem words_int (i : Int) : words (showInt i) = [.word (showInt i)] := by
  unfold showInt
  split
  · refine words_word (fun c hc => ?_) (by simp)
    rcases List.mem_cons.1 hc with rfl | hc
    · decide
    · exact sepB_digit (showNat_digit hc)
  · exact words_nat _

/-! ### Rendering -/

theorem renders_cons {N : Names} {x : Piece} {xs : List Piece} {t : Str} (h : Renders N (x :: xs) t) :
    ∃ a b, N.text x = some a ∧ Renders N xs b ∧ t = a ++ b := by
  cases h with
  | cons h1 h2 => exact ⟨_, _, h1, h2, rfl⟩

theorem renders_lit {N : Names} {s : Str} {xs : List Piece} {t : Str} (h : Renders N (.lit s :: xs) t) : ∃ b, Renders N xs b ∧ t = s ++ b := by
  obtain ⟨a, b, h1, h2, rfl⟩ := renders_cons h
  cases h1; exact ⟨b, h2, rfl⟩

theorem renders_txt {N : Names} {s : String} {xs : List Piece} {t : Str} (h : Renders N (txt s :: xs) t) : ∃ b, Renders N xs b ∧ t = s.toList ++ b :=
  renders_lit h

theorem renders_append {N : Names} : ∀ {xs ys : List Piece} {t : Str}, Renders N (xs ++ ys) t → ∃ a b, Renders N xs a ∧ Renders N ys b ∧ t = a ++ b
  | [], ys, t, h => ⟨[], t, .nil, h, rfl⟩
  | x :: xs, ys, t, h => by
    obtain ⟨a, b, h1, h2, rfl⟩ := renders_cons h
    obtain ⟨c, d, h3, h4, rfl⟩ := renders_append h2
    exact ⟨a ++ c, d, .cons h1 h3, h4, by simp⟩

theorem renders_nil {N : Names} {t : Str} (h : Renders N [] t) : t = [] := by cases h; rfl

theorem renders_one {N : Names} {x : Piece} {t : Str} (h : Renders N [x] t) : N.text x = some t := by
  obtain ⟨a, b, h1, h2, rfl⟩ := renders_cons h
  rw [renders_nil h2, List.append_nil]; exact h1

/-- Lists separated by `, `. -/
theorem words_sep {N : Names} {α : Type} {P : α → List Tok → Prop} : ∀ {xs : List (List Piece)} {as : List α} {t : Str}, Renders N (sepPieces xs) t →
    All2 (fun x a => ∀ s, Renders N x s → P a (words s)) xs as → Commas P as (words t)
  | _, _, t, h, .nil => by rw [renders_nil h]; exact .nil
  | _, _, t, h, .cons h1 .nil => .one (h1 _ h)
  | _, _, t, h, .cons h1 (.cons h2 h3) => by
    rw [sepPieces] at h
    · obtain ⟨a, b, h4, h5, rfl⟩ := renders_append h
      obtain ⟨c, h6, rfl⟩ := renders_txt h5
      rw [words_mid (by decide) (by decide) (by decide)]
      exact .cons (h1 _ h4) (words_sep h6 (.cons h2 h3))
    · intro h; cases h

/-! ### Types -/

mutual
theorem tyW : ∀ (t : Ty), TyW t (words (BackLlvm.ty t))
  | .i32 => TyW.i32
  | .unit => TyW.void
  | .array t n => by
    have h1 : words (BackLlvm.ty (.array t n)) = .sym '[' :: .word (showNat n) :: kw "x" :: (words (BackLlvm.ty t) ++ [.sym ']']) := by
      rw [BackLlvm.ty]
      have h2 : '[' :: (showNat n ++ " x ".toList ++ BackLlvm.ty t ++ "]".toList) =
          "[".toList ++ (showNat n ++ (" x ".toList ++ (BackLlvm.ty t ++ "]".toList))) := by simp
      rw [h2, words_pre (by decide), words_mid (by decide) (by decide) (by decide), words_nat,
        words_post (by decide)]
      rfl
    rw [h1]
    exact .array (tyW t)
  | .ptr t => by
    have h1 : words (BackLlvm.ty (.ptr t)) = words (BackLlvm.ty t) ++ [.sym '*'] := by
      rw [BackLlvm.ty, words_post (by decide)]
      rfl
    rw [h1]
    exact .ptr (tyW t)
  | .func ps r => by
    have h1 : words (BackLlvm.ty (.func ps r)) = words (BackLlvm.ty r) ++ .sym '(' :: (words (BackLlvm.tys ps) ++ [.sym ')', .sym '*']) := by
      rw [BackLlvm.ty, List.append_assoc, List.append_assoc, words_mid (by decide) (by decide) (by decide), words_post (by decide)]
      rfl
    rw [h1]
    exact .func (tyW r) (tysW ps)
theorem tysW : ∀ (ts : List Ty), TysW ts (words (BackLlvm.tys ts))
  | [] => .nil
  | [t] => .one (tyW t)
  | t :: u :: ts => by
    have h1 : words (BackLlvm.tys (t :: u :: ts)) = words (BackLlvm.ty t) ++ .sym ',' :: words (BackLlvm.tys (u :: ts)) := by
      rw [BackLlvm.tys, List.append_assoc, words_mid (by decide) (by decide) (by decide)]
      · rfl
      · intro h; cases h
    rw [h1]
    exact .cons (tyW t) (tysW (u :: ts))
end

theorem renders_ty {N : Names} {t : Ty} {s : Str} (h : Renders N (BackLlvm.tyPieces true t) s) : s = BackLlvm.ty t ++ " ".toList := by
  obtain ⟨b, h1, rfl⟩ := renders_lit h
  obtain ⟨c, h2, rfl⟩ := renders_txt h1
  rw [renders_nil h2]; simp

end Koopa
