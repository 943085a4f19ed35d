import Verif.Spec.BfMeaning
import Verif.Lemmas.Examples.BfCode
/-!
Brackets in a Brainfuck text, and the determinism of its meaning.
-/
namespace Koopa.Bf
open Koopa Koopa.Spec

/-- The text from position `a` up to, not including, position `b`. -/
def slice (w : List Char) (a b : Nat) : List Char := (w.drop a).take (b - a)

theorem slice_append {w : List Char} {a b c : Nat} (h : a ≤ b) (h' : b ≤ c) : slice w a c = slice w a b ++ slice w b c := by
  unfold slice
  obtain ⟨k, rfl⟩ := Nat.exists_eq_add_of_le h
  obtain ⟨m, rfl⟩ := Nat.exists_eq_add_of_le h'
  rw [show a + k + m - a = k + m by omega, show a + k - a = k by omega, show a + k + m - (a + k) = m by omega,
    List.take_add, List.drop_drop]

theorem slice_self {w : List Char} {a : Nat} : slice w a a = [] := by simp [slice]

theorem slice_one {w : List Char} {a : Nat} {c : Char} (h : w[a]? = some c) : slice w a (a + 1) = [c] := by
  unfold slice
  obtain ⟨hl, rfl⟩ := List.getElem?_eq_some_iff.1 h
  rw [List.drop_eq_getElem_cons hl, show a + 1 - a = 1 by omega]
  rfl

theorem drop_cons_iff {w : List Char} {a : Nat} {c : Char} {t : List Char} :
    w.drop a = c :: t ↔ w[a]? = some c ∧ w.drop (a + 1) = t := by
  constructor
  · intro h
    have hl : a < w.length := by
      have := congrArg List.length h
      simp at this; omega
    rw [List.drop_eq_getElem_cons hl] at h
    cases h
    exact ⟨List.getElem?_eq_getElem hl, rfl⟩
  · rintro ⟨h, rfl⟩
    obtain ⟨hl, rfl⟩ := List.getElem?_eq_some_iff.1 h
    exact List.drop_eq_getElem_cons hl

/-! ### Brackets -/

theorem noStray_append {d e : Nat} {a b : List Char} (h : NoStrayFrom d a) (h' : NoStrayFrom e b)
    (he : e + a.count ']' = d + a.count '[') : NoStrayFrom d (a ++ b) := by
  intro n
  rw [List.take_append, List.count_append, List.count_append]
  by_cases hn : n ≤ a.length
  · have := h n
    rw [show n - a.length = 0 by omega]
    simpa using this
  · have h1 := h' (n - a.length)
    rw [List.take_of_length_le (by omega : a.length ≤ n)]
    omega

theorem balanced_iff {u : List Char} : BracketsBalanced u ↔ NoStrayFrom 0 u ∧ u.count ']' = u.count '[' := by
  unfold BracketsBalanced NoStrayClose NoStrayFrom
  constructor
  · rintro ⟨h, h'⟩
    exact ⟨fun n => by have := h n; omega, h'.symm⟩
  · rintro ⟨h, h'⟩
    exact ⟨fun n => by have := h n; omega, h'.symm⟩

theorem balanced_nil : BracketsBalanced [] := ⟨fun n => by simp, rfl⟩

theorem balanced_append {a b : List Char} (h : BracketsBalanced a) (h' : BracketsBalanced b) : BracketsBalanced (a ++ b) := by
  rw [balanced_iff] at h h' ⊢
  refine ⟨noStray_append (e := 0) h.1 h'.1 (by omega), ?_⟩
  rw [List.count_append, List.count_append]; omega

theorem balanced_one {c : Char} (h1 : c ≠ '[') (h2 : c ≠ ']') : BracketsBalanced [c] := by
  have c1 : ∀ n, ([c].take n).count ']' = 0 := fun n => by
    rw [List.count_eq_zero]
    exact fun hm => h2 (List.mem_singleton.1 (List.mem_of_mem_take hm)).symm
  exact ⟨fun n => by rw [c1]; omega, by simp [h1, h2]⟩

theorem balanced_wrap {u : List Char} (h : BracketsBalanced u) : BracketsBalanced (['['] ++ u ++ [']']) := by
  rw [balanced_iff] at h ⊢
  refine ⟨noStray_append (e := 1) (noStray_append (e := 1) ?_ ?_ (by simp)) ?_ ?_, ?_⟩
  · intro n
    cases n <;> simp
  · intro n
    have := h.1 n
    omega
  · intro n
    cases n <;> simp
  · simp [h.2]; omega
  · simp [h.2]

/-- The bracket that closes a loop is unique. -/
theorem close_unique {u u' v v' : List Char} (h : BracketsBalanced u) (h' : BracketsBalanced u') (e : u ++ ']' :: v = u' ++ ']' :: v') :
    u = u' ∧ v = v' := by
  have key : ∀ {u u' v v' : List Char}, BracketsBalanced u → BracketsBalanced u' → u ++ ']' :: v = u' ++ ']' :: v' → ¬ u.length < u'.length := by
    intro u u' v v' h h' e hl
    have h1 := h'.1 (u.length + 1)
    have h2 : u'.take (u.length + 1) = u ++ [']'] := by
      have h3 := congrArg (List.take (u.length + 1)) e
      rw [List.take_append_of_le_length (by omega : u.length + 1 ≤ u'.length)] at h3
      rw [← h3, List.take_append, List.take_of_length_le (by omega : u.length ≤ u.length + 1)]
      simp
    rw [h2, List.count_append, List.count_append, h.2] at h1
    simp at h1
    omega
  have hl : u.length = u'.length := by
    have a := key h h' e
    have b := key h' h e.symm
    omega
  obtain ⟨h1, h2⟩ := List.append_inj e hl
  cases h2
  exact ⟨h1, rfl⟩

theorem match_slice {w : List Char} {i j : Nat} :
    BfMatch w i j ↔ i < j ∧ w[i]? = some '[' ∧ w[j]? = some ']' ∧ BracketsBalanced (slice w (i + 1) j) := by
  unfold BfMatch slice
  rw [Nat.sub_add_eq]

theorem match_split {w : List Char} {i j : Nat} (h : BfMatch w i j) {u v : List Char} (hb : BracketsBalanced u)
    (hd : w.drop (i + 1) = u ++ ']' :: v) : w.drop (j + 1) = v ∧ j = i + 1 + u.length := by
  obtain ⟨h1, h2, h3, h4⟩ := match_slice.1 h
  have h5 : w.drop (i + 1) = slice w (i + 1) j ++ ']' :: w.drop (j + 1) := by
    rw [← drop_cons_iff.2 ⟨h3, rfl⟩]
    unfold slice
    obtain ⟨k, rfl⟩ := Nat.exists_eq_add_of_le (show i + 1 ≤ j from h1)
    rw [show i + 1 + k - (i + 1) = k by omega, show w.drop (i + 1 + k) = (w.drop (i + 1)).drop k by rw [List.drop_drop], List.take_append_drop]
  obtain ⟨e1, e2⟩ := close_unique h4 hb (h5.symm.trans hd)
  refine ⟨e2, ?_⟩
  have hl : j < w.length := (List.getElem?_eq_some_iff.1 h3).1
  rw [← e1]
  simp only [slice, List.length_take, List.length_drop]
  omega

theorem match_of_split {w : List Char} {i : Nat} {u v : List Char} (hi : w[i]? = some '[') (hb : BracketsBalanced u)
    (hd : w.drop (i + 1) = u ++ ']' :: v) : BfMatch w i (i + 1 + u.length) ∧ w.drop (i + 1 + u.length + 1) = v := by
  have h1 : w.drop (i + 1 + u.length) = ']' :: v := by
    rw [← List.drop_drop, hd, List.drop_left]
  obtain ⟨h2, h3⟩ := drop_cons_iff.1 h1
  refine ⟨match_slice.2 ⟨by omega, hi, h2, ?_⟩, h3⟩
  unfold slice
  rw [hd, show i + 1 + u.length - (i + 1) = u.length by omega, List.take_left]
  exact hb

theorem slice_length {w : List Char} {a b : Nat} (h : b ≤ w.length) : (slice w a b).length = b - a := by
  simp only [slice, List.length_take, List.length_drop]; omega

theorem match_drop {w : List Char} {i j : Nat} (h : BfMatch w i j) : w.drop (i + 1) = slice w (i + 1) j ++ ']' :: w.drop (j + 1) := by
  obtain ⟨h1, h2, h3, h4⟩ := match_slice.1 h
  rw [← drop_cons_iff.2 ⟨h3, rfl⟩]
  unfold slice
  obtain ⟨k, rfl⟩ := Nat.exists_eq_add_of_le (show i + 1 ≤ j from h1)
  rw [show i + 1 + k - (i + 1) = k by omega, show w.drop (i + 1 + k) = (w.drop (i + 1)).drop k by rw [List.drop_drop], List.take_append_drop]

theorem match_right_unique {w : List Char} {i j k : Nat} (h : BfMatch w i j) (h' : BfMatch w i k) : j = k := by
  have h1 := match_split h (match_slice.1 h').2.2.2 (match_drop h')
  have h2 := match_split h' (match_slice.1 h').2.2.2 (match_drop h')
  omega

theorem match_left_unique {w : List Char} {i j k : Nat} (h : BfMatch w i k) (h' : BfMatch w j k) : i = j := by
  have key : ∀ {i j}, BfMatch w i k → BfMatch w j k → ¬ i < j := by
    intro i j h h' hl
    obtain ⟨h1, h2, h3, h4⟩ := match_slice.1 h
    obtain ⟨h1', h2', h3', h4'⟩ := match_slice.1 h'
    have e : slice w (i + 1) k = slice w (i + 1) j ++ (['['] ++ slice w (j + 1) k) := by
      rw [slice_append (show i + 1 ≤ j from hl) (by omega : j ≤ k), slice_append (show j ≤ j + 1 by omega) h1', slice_one h2']
    have h5 := h4.1 (j - (i + 1))
    rw [e, List.take_append_of_le_length (by rw [slice_length (by have := (List.getElem?_eq_some_iff.1 h2').1; omega)]; omega),
      List.take_of_length_le (by rw [slice_length (by have := (List.getElem?_eq_some_iff.1 h2').1; omega)]; omega)] at h5
    have h6 := h4.2
    have h7 := h4'.2
    rw [e] at h6
    simp only [List.count_append] at h6
    simp at h6
    omega
  have a := key h h'
  have b := key h' h
  omega

/-! ### One step -/

section
variable {σ : Type} {io : BfIo σ} {chk : Bool} {w : List Char}

theorem BfSum_unique {a : I32} {d : Int} {n m : I32} (h : BfSum chk a d n) (h' : BfSum chk a d m) : n = m :=
  BitVec.eq_of_toInt_eq (h.1.trans h'.1.symm)

theorem next_unique {s t u : BfState σ} (h : BfNext io chk w s t) (h' : BfNext io chk w s u) : t = u := by
  cases h with
  | right h1 h2 => cases h' <;> simp_all [BfMatch]
  | left h1 h2 => cases h' <;> simp_all [BfMatch]
  | inc h1 h2 =>
    cases h' with
    | inc h3 h4 => rw [BfSum_unique h2 h4]
    | _ => simp_all [BfMatch]
  | dec h1 h2 =>
    cases h' with
    | dec h3 h4 => rw [BfSum_unique h2 h4]
    | _ => simp_all [BfMatch]
  | put h1 h2 => cases h' <;> simp_all [BfMatch]
  | get h1 h2 => cases h' <;> simp_all [BfMatch]
  | enter h1 h2 => cases h' <;> simp_all [BfMatch]
  | skip h1 h2 =>
    cases h' with
    | skip h3 h4 => rw [match_right_unique h2 h4]
    | _ => simp_all [BfMatch]
  | again h1 h2 =>
    cases h' with
    | again h3 h4 => rw [match_left_unique h2 h4]
    | _ => simp_all [BfMatch]
  | leave h1 h2 => cases h' <;> simp_all [BfMatch]
  | comment h1 h2 => cases h' <;> simp_all [BfMatch] <;> grind

theorem stop_next {s t : BfState σ} {r : BfResult σ} (h : BfStop io chk w s r) (h' : BfNext io chk w s t) : False := by
  cases h <;> cases h' <;> simp_all [BfMatch]

theorem stop_unique {s : BfState σ} {r q : BfResult σ} (h : BfStop io chk w s r) (h' : BfStop io chk w s q) : r = q := by
  cases h <;> cases h' <;> simp_all

end

end Koopa.Bf
