import Verif.Spec.LlvmCut
import Verif.Spec.NameForm
import Verif.Lemmas.Back.LlvmPrints
/-!
Running the name manager on what the LLVM generator writes.
-/
namespace Koopa
open Spec BackLlvm

theorem truncate_some : ∀ {s : Str} {n : Nat}, (∃ t, truncate n s = some t) ↔ byteLen s ≤ n ∨ ∃ a b, s = a ++ b ∧ byteLen a = n
  | [], n => by
    constructor
    · intro _; exact .inl (Nat.zero_le _)
    · intro _; cases n <;> exact ⟨[], rfl⟩
  | c :: s, 0 => by
    constructor
    · intro _; exact .inr ⟨[], c :: s, rfl, rfl⟩
    · intro _; exact ⟨[], rfl⟩
  | c :: s, n + 1 => by
    rw [truncate]
    have e : byteLen (c :: s) = c.utf8Size + byteLen s := by simp [byteLen]
    split
    · rename_i hc
      have ih := truncate_some (s := s) (n := n + 1 - c.utf8Size)
      constructor
      · rintro ⟨t, ht⟩
        obtain ⟨t', h1, -⟩ := Option.map_eq_some_iff.1 ht
        rcases ih.1 ⟨t', h1⟩ with h | ⟨a, b, rfl, h⟩
        · left; clear ih; omega
        · right; exact ⟨c :: a, b, rfl, by clear ih; simp only [byteLen, List.map_cons, List.sum_cons] at h ⊢; omega⟩
      · intro h
        have h' : byteLen s ≤ n + 1 - c.utf8Size ∨ ∃ a b, s = a ++ b ∧ byteLen a = n + 1 - c.utf8Size := by
          rcases h with h | ⟨a, b, h1, h2⟩
          · left; clear ih; omega
          · cases a with
            | nil => simp [byteLen] at h2
            | cons x a =>
              simp only [List.cons_append, List.cons.injEq] at h1
              obtain ⟨rfl, rfl⟩ := h1
              right
              refine ⟨a, b, rfl, ?_⟩
              clear ih
              simp only [byteLen, List.map_cons, List.sum_cons] at h2 ⊢
              omega
        obtain ⟨t, ht⟩ := ih.2 h'
        exact ⟨c :: t, by rw [ht]; rfl⟩
    · rename_i hc
      constructor
      · rintro ⟨t, ht⟩; cases ht
      · rintro (h | ⟨a, b, h1, h2⟩)
        · omega
        · cases a with
          | nil => simp [byteLen] at h2
          | cons x a =>
            simp only [List.cons_append, List.cons.injEq] at h1
            obtain ⟨rfl, rfl⟩ := h1
            simp only [byteLen, List.map_cons, List.sum_cons] at h2
            omega

/-- The prefixes of the generator. -/
def LlvmPre (q : Prefix) : Prop := q = globalPrefix ∨ q = localPrefix

/-- A name that begins with a sign and can be shortened. -/
def LlvmGiven (n : Str) : Prop := SigilName n ∧ Cuttable n

theorem cut_put {k : Nat} {s x : Str} (hk : byteLen x = k) (h : CutsAt k s) : ∃ t, truncate 513 (x ++ s) = some t := by
  have e : ∀ a b : Str, byteLen (a ++ b) = byteLen a + byteLen b := by intro a b; simp [byteLen]
  refine truncate_some.2 ?_
  rcases h with h | ⟨a, b, rfl, h⟩
  · left; rw [e]; omega
  · exact .inr ⟨x ++ a, b, by simp, by rw [e]; omega⟩

theorem truncate_ne {c : Char} (hc : c.utf8Size = 1) {s t : Str} (h : truncate 513 (c :: s) = some t) : t ≠ [] := by
  rw [truncate, if_pos (by omega)] at h
  obtain ⟨t', -, rfl⟩ := Option.map_eq_some_iff.1 h
  simp

theorem pre_name {q : Prefix} (hq : LlvmPre q) {n : Str} (hn : LlvmGiven n) : ∃ t, q.name n = some t ∧ t ≠ [] := by
  obtain ⟨⟨c, s, rfl, hc, -⟩, h1, h2⟩ := hn
  rcases hc with rfl | rfl
  · rcases hq with rfl | rfl
    · obtain ⟨t, ht⟩ := cut_put (x := "@$".toList) (k := 2) (by decide) (h2 s rfl)
      exact ⟨t, by simp only [Prefix.name, globalPrefix]; exact ht, truncate_ne (by decide) ht⟩
    · obtain ⟨t, ht⟩ := cut_put (x := "%$".toList) (k := 2) (by decide) (h2 s rfl)
      exact ⟨t, by simp only [Prefix.name, localPrefix]; exact ht, truncate_ne (by decide) ht⟩
  · rcases hq with rfl | rfl
    · obtain ⟨t, ht⟩ := cut_put (x := "@".toList) (k := 1) (by decide) (h1 s rfl)
      exact ⟨t, by simp only [Prefix.name, globalPrefix]; exact ht, truncate_ne (by decide) ht⟩
    · obtain ⟨t, ht⟩ := cut_put (x := "%".toList) (k := 1) (by decide) (h1 s rfl)
      exact ⟨t, by simp only [Prefix.name, localPrefix]; exact ht, truncate_ne (by decide) ht⟩

theorem pickSuffix_ne {ns : List Str} {c : Str} (hc : c ≠ []) : ∀ {k i : Nat} {n : Str}, pickSuffix ns c k i = some n → n ≠ []
  | 0, _, _, h => by cases h
  | k + 1, i, n, h => by
    rw [pickSuffix] at h
    split at h
    · exact pickSuffix_ne hc h
    · cases h; simp [suffixed]

theorem pickName_ne {ns : List Str} {c n : Str} (hc : c ≠ []) (h : pickName ns c = some n) : n ≠ [] := by
  unfold pickName at h
  split at h
  · exact pickSuffix_ne hc h
  · cases h; exact hc

/-- What is kept: the prefix is one of the two, and no block has the empty name. -/
def LGood (m : NM) : Prop := LlvmPre m.pre ∧ ∀ b n, m.bbs.get? b = some n → n ≠ []

theorem llvm_nextName {m : NM} (hm : LGood m) (ns : List Str) {c : Option Str} (hc : ∀ c', c = some c' → LlvmGiven c') :
    ∃ n ns' m', m.nextName ns c = some (n, ns', m') ∧ n ≠ [] ∧ m'.pre = m.pre ∧ m'.bbs = m.bbs ∧ m'.inFunc = m.inFunc := by
  unfold NM.nextName
  cases c with
  | none =>
    refine ⟨_, _, _, rfl, ?_, rfl, rfl, rfl⟩
    rcases hm.1 with h | h <;> rw [h] <;> simp [Prefix.tempName, globalPrefix, localPrefix]
  | some c =>
    obtain ⟨t, h1, h2⟩ := pre_name hm.1 (hc c rfl)
    obtain ⟨n, hn⟩ := pickName_returns ns t
    simp only [h1, hn]
    exact ⟨_, _, _, rfl, pickName_ne h2 hn, rfl, rfl, rfl⟩

/-- A piece that the generator writes inside of a scope. -/
def CutPiece : Piece → Prop
  | .lit _ => True
  | .func _ c => LlvmGiven c
  | .bb _ c => ∀ c', c = some c' → LlvmGiven c'
  | .label _ c => ∀ c', c = some c' → LlvmGiven c'
  | .global _ c => ∀ c', c = some c' → LlvmGiven c'
  | .value _ c => ∀ c', c = some c' → LlvmGiven c'
  | .temp _ => True
  | .setPrefix q => LlvmPre q
  | .enter => False
  | .exit => False

theorem llvm_bbName {m : NM} (hm : LGood m) (b : BB) {c : Option Str} (hc : ∀ c', c = some c' → LlvmGiven c') :
    ∃ n m', m.bbName b c = some (n, m') ∧ n ≠ [] ∧ LGood m' ∧ m'.inFunc = m.inFunc := by
  unfold NM.bbName
  split
  · rename_i n hn
    exact ⟨n, m, rfl, hm.2 b n hn, hm, rfl⟩
  · obtain ⟨n, ns, m', h1, h2, h3, h4, h5⟩ := llvm_nextName hm m.bbNames hc
    simp only [h1]
    refine ⟨n, _, rfl, h2, ⟨by simpa only [h3] using hm.1, fun b' n' h => ?_⟩, h5⟩
    simp only [h4, Map.get?_insert] at h
    split at h
    · cases h; exact h2
    · exact hm.2 _ _ h

theorem piece_runs {m : NM} (hm : LGood m) {x : Piece} (hx : CutPiece x) : ∃ s m', x.run m = some (s, m') ∧ LGood m' ∧ m'.inFunc = m.inFunc := by
  have keep : ∀ {m' : NM}, m'.pre = m.pre → m'.bbs = m.bbs → LGood m' := fun h1 h2 => ⟨by rw [h1]; exact hm.1, by rw [h2]; exact hm.2⟩
  cases x with
  | lit s => exact ⟨s, m, rfl, hm, rfl⟩
  | func f c =>
    simp only [Piece.run, NM.funcName]
    split
    · exact ⟨_, m, rfl, hm, rfl⟩
    · obtain ⟨n, ns, m', h1, h2, h3, h4, h5⟩ := llvm_nextName hm m.globalNames (c := some c) (fun c' h => by cases h; exact hx)
      simp only [h1]
      exact ⟨_, _, rfl, keep h3 h4, h5⟩
  | bb b c =>
    obtain ⟨n, m', h1, -, h3, h4⟩ := llvm_bbName hm b hx
    exact ⟨n, m', h1, h3, h4⟩
  | label b c =>
    obtain ⟨n, m', h1, h2, h3, h4⟩ := llvm_bbName hm b hx
    simp only [Piece.run, h1]
    cases n with
    | nil => exact absurd rfl h2
    | cons a n => exact ⟨n, m', rfl, h3, h4⟩
  | global v c =>
    simp only [Piece.run, NM.globalName]
    split
    · exact ⟨_, m, rfl, hm, rfl⟩
    · obtain ⟨n, ns, m', h1, h2, h3, h4, h5⟩ := llvm_nextName hm m.globalNames (c := c) hx
      simp only [h1]
      exact ⟨_, _, rfl, keep h3 h4, h5⟩
  | value v c =>
    simp only [Piece.run, NM.valueName]
    split
    · exact ⟨_, m, rfl, hm, rfl⟩
    · obtain ⟨n, ns, m', h1, h2, h3, h4, h5⟩ := llvm_nextName hm m.globalNames (c := c) hx
      simp only [h1]
      exact ⟨_, _, rfl, keep h3 h4, h5⟩
  | temp v =>
    simp only [Piece.run, NM.tempOf]
    split
    · exact ⟨_, m, rfl, hm, rfl⟩
    · obtain ⟨n, ns, m', h1, h2, h3, h4, h5⟩ := llvm_nextName hm m.globalNames (c := none) (fun c' h => by cases h)
      simp only [h1]
      exact ⟨_, _, rfl, keep h3 h4, h5⟩
  | setPrefix q => exact ⟨[], _, rfl, ⟨hx, hm.2⟩, rfl⟩
  | enter => cases hx
  | exit => cases hx

theorem pieces_run : ∀ {ps : List Piece} {m : NM}, LGood m → (∀ x ∈ ps, CutPiece x) → ∃ s m', runPieces m ps = some (s, m') ∧ LGood m' ∧ m'.inFunc = m.inFunc
  | [], m, hm, _ => ⟨[], m, rfl, hm, rfl⟩
  | x :: xs, m, hm, h => by
    obtain ⟨s, m1, h1, h2, h3⟩ := piece_runs hm (h x List.mem_cons_self)
    obtain ⟨t, m2, h4, h5, h6⟩ := pieces_run h2 (fun y hy => h y (List.mem_cons_of_mem _ hy))
    exact ⟨s ++ t, m2, by rw [runPieces, h1]; simp only [h4], h5, h6.trans h3⟩

/-- The functions can be written one after the other. -/
theorem all_run {g : Func → Option (List Piece)} : ∀ {fs : List Func}, (∀ f ∈ fs, ∃ ps, g f = some ps ∧ ∀ x ∈ ps, CutPiece x) → ∀ {m : NM}, LGood m → m.inFunc = false →
    ∃ ps, funcsOf g fs = some ps ∧ ∃ s m', runPieces m ps = some (s, m')
  | [], _, m, _, _ => ⟨[], rfl, [], m, rfl⟩
  | [f], h, m, hm, hf => by
    obtain ⟨ps, h1, h2⟩ := h f List.mem_cons_self
    refine ⟨_, by rw [funcsOf, h1]; rfl, ?_⟩
    have he : m.enter = some { m with inFunc := true, values := .empty, temps := .empty } := by unfold NM.enter; rw [hf]; rfl
    obtain ⟨s, m1, h3, h4, h5⟩ := pieces_run (m := { m with inFunc := true, values := .empty, temps := .empty }) hm h2
    have hx : ∃ m2, m1.exit = some m2 := by unfold NM.exit; rw [h5]; exact ⟨_, rfl⟩
    obtain ⟨m2, hx⟩ := hx
    rw [scope_run he h3 hx]
    exact ⟨_, _, rfl⟩
  | f :: f' :: fs, h, m, hm, hf => by
    obtain ⟨ps, h1, h2⟩ := h f List.mem_cons_self
    have he : m.enter = some { m with inFunc := true, values := .empty, temps := .empty } := by unfold NM.enter; rw [hf]; rfl
    obtain ⟨s, m1, h3, h4, h5⟩ := pieces_run (m := { m with inFunc := true, values := .empty, temps := .empty }) hm h2
    obtain ⟨m2, hx, hg, hi⟩ : ∃ m2, m1.exit = some m2 ∧ LGood m2 ∧ m2.inFunc = false := by
      unfold NM.exit; rw [h5]
      exact ⟨_, rfl, ⟨h4.1, fun b n hb => by cases hb⟩, rfl⟩
    obtain ⟨qs, h6, s2, m3, h7⟩ := all_run (fs := f' :: fs) (fun f hf => h f (List.mem_cons_of_mem _ hf)) hg hi
    refine ⟨_, by rw [funcsOf_cons, h1, h6], ?_⟩
    rw [scope_run he h3 hx]
    simp only [runPieces, Piece.run, txt, h7, Option.map_some]
    exact ⟨_, _, rfl⟩

end Koopa
