import Verif.Spec.Brainfuck
import Verif.Lemmas.Examples.Brainfuck
/-!
C41: the Brainfuck compiler.
-/
namespace Koopa
open Koopa.Spec Koopa.Bf

theorem ends_iff {k : VKind} : Ends k ↔ Bf.isTerm k = true := by
  constructor
  · intro h; cases h <;> rfl
  · intro h
    cases k <;> simp [Bf.isTerm] at h
    · exact .branch ..
    · exact .jump ..
    · exact .ret _

theorem kindAt_iff {p : Program} {f : Func} {v : Value} {k : VKind} :
    kindAt p.view f v = some k ↔ ∃ x, LocalVal p f v x ∧ x.kind = k := by
  unfold kindAt
  simp only [Option.map_eq_some_iff]
  constructor
  · rintro ⟨s, hs, rfl⟩
    obtain ⟨x, hx, rfl⟩ := view_l_iff.1 hs
    exact ⟨x, hx, rfl⟩
  · rintro ⟨x, hx, rfl⟩
    exact ⟨x.shape, view_l_iff.2 ⟨x, hx, rfl⟩, rfl⟩

/-- What the compiler does on every text. -/
theorem bf_build {ids : Ids} (hg : globalStart ≤ ids.nextGlobal) (hl : localStart ≤ ids.nextLocal)
    (hm : ids.nextGlobal + 2 ≤ localStart) (w : List Char) :
    (¬ NoStrayClose w ∧ build ids w = some none) ∨
    NoStrayClose w ∧ ∃ p, build ids w = some (some p) ∧ BlocksEnd p ∧ (TargetsListed p ↔ w.count '[' = w.count ']') := by
  obtain ⟨env, p0, l0, e0, i0, t0, b0, -⟩ := prelude_inv hg hl hm
  obtain ⟨ptr, zero, st, e1, hl1, a1, -⟩ := enter_at i0 t0 b0
  have hn : NoStrayClose w ↔ NoStrayFrom st.loops.length w := by
    unfold NoStrayClose NoStrayFrom; simp [hl1]
  rw [hn]
  rcases a1.loop w with ⟨h1, h2⟩ | ⟨h1, st', h2, h3, h4⟩
  · refine .inl ⟨h1, ?_⟩
    unfold Bf.build
    simp only [e0, e1, Option.bind_eq_bind, Option.bind_some, h2]
  · right
    obtain ⟨p, l, h5, h6, -⟩ := h3.leave
    refine ⟨h1, p, ?_, ?_, ?_⟩
    · unfold Bf.build
      simp only [e0, e1, Option.bind_eq_bind, Option.bind_some, h2, h5, Option.map_some]
    · intro f fd hf b is hb
      have hlf : p.view.lay f = some fd.layout := by show (p.funcs.get? f).map _ = _; rw [hf]; rfl
      by_cases e : f = env.main
      · subst e
        rw [h6.lay] at hlf; cases hlf
        obtain ⟨js, v, k, rfl, hr, hk, ht⟩ := h6.ended b is hb (fun h => h)
        obtain ⟨x, hx, rfl⟩ := kindAt_iff.1 hk
        refine ⟨js, v, rfl, ⟨x, hx, ends_iff.2 ht⟩, fun u hu => ?_⟩
        obtain ⟨k', hk', ht'⟩ := hr u hu
        obtain ⟨y, hy, rfl⟩ := kindAt_iff.1 hk'
        exact ⟨y, hy, fun h => by rw [ends_iff.1 h] at ht'; cases ht'⟩
      · rw [h6.others f _ e hlf] at hb; cases hb
    · rw [hl1] at h4
      constructor
      · intro ht
        cases hs : st'.loops with
        | nil => rw [hs] at h4; simp at h4; omega
        | cons q loops =>
          exfalso
          have hq : q.2 ∈ st'.loops.map (·.2) := by rw [hs]; simp
          obtain ⟨c, is, v, k, h7, h8, h9, h10⟩ := h6.tgt _ hq
          obtain ⟨x, hx, rfl⟩ := kindAt_iff.1 h9
          obtain ⟨fd, hf, hx'⟩ := id hx
          have hlf : p.view.lay env.main = some fd.layout := by show (p.funcs.get? _).map _ = _; rw [hf]; rfl
          rw [h6.lay] at hlf; cases hlf
          exact (h6.pend _ hq).1 (ht _ fd hf c is h7 v h8 x hx _ h10)
      · intro hcount
        have hs : st'.loops = [] := by
          cases hs : st'.loops with
          | nil => rfl
          | cons q loops => rw [hs] at h4; simp at h4; omega
        intro f fd hf b is hb v hv x hx t ht
        have hlf : p.view.lay f = some fd.layout := by show (p.funcs.get? f).map _ = _; rw [hf]; rfl
        by_cases e : f = env.main
        · subst e
          rw [h6.lay] at hlf; cases hlf
          rcases h6.tgts v _ (kindAt_iff.2 ⟨x, hx, rfl⟩) t ht with h | h
          · exact h
          · rw [hs] at h; cases h
        · rw [h6.others f _ e hlf] at hb; cases hb

/-- The Brainfuck compiler never panics, whatever the text. -/
theorem C41_total {ids : Ids} (hg : globalStart ≤ ids.nextGlobal) (hl : localStart ≤ ids.nextLocal)
    (hm : ids.nextGlobal + 2 ≤ localStart) (w : List Char) : build ids w ≠ none := by
  rcases bf_build hg hl hm w with ⟨_, h⟩ | ⟨_, p, h, _⟩ <;> rw [h] <;> exact fun e => by cases e

/-- Missing for C41: a text whose loops are not all closed is accepted, see `C41_open_loop_accepted`.
The texts that are rejected are exactly those with a `]` that closes nothing. -/
theorem C41_rejected_iff_partial {ids : Ids} (hg : globalStart ≤ ids.nextGlobal) (hl : localStart ≤ ids.nextLocal)
    (hm : ids.nextGlobal + 2 ≤ localStart) (w : List Char) : build ids w = some none ↔ ¬ NoStrayClose w := by
  rcases bf_build hg hl hm w with ⟨h1, h2⟩ | ⟨h1, p, h2, _⟩
  · exact ⟨fun _ => h1, fun _ => h2⟩
  · rw [h2]
    exact ⟨(fun e => by cases e), fun e => absurd h1 e⟩

/-- Missing for C41: a text whose loops are not all closed is accepted too.
Every balanced text is accepted; in the program every block ends with one terminator and every block that is
branched to is listed. -/
theorem C41_balanced_partial {ids : Ids} (hg : globalStart ≤ ids.nextGlobal) (hl : localStart ≤ ids.nextLocal)
    (hm : ids.nextGlobal + 2 ≤ localStart) {w : List Char} (h : BracketsBalanced w) :
    ∃ p, build ids w = some (some p) ∧ BlocksEnd p ∧ TargetsListed p := by
  rcases bf_build hg hl hm w with ⟨h1, h2⟩ | ⟨h1, p, h2, h3, h4⟩
  · exact absurd h.1 h1
  · exact ⟨p, h2, h3, h4.2 h.2⟩

/-- Every accepted text that is not balanced yields a program that branches to a block that is not listed. -/
theorem C41_unbalanced_dangling {ids : Ids} (hg : globalStart ≤ ids.nextGlobal) (hl : localStart ≤ ids.nextLocal)
    (hm : ids.nextGlobal + 2 ≤ localStart) {w : List Char} {p : Program} (h : build ids w = some (some p))
    (hb : ¬ BracketsBalanced w) : BlocksEnd p ∧ ¬ TargetsListed p := by
  rcases bf_build hg hl hm w with ⟨h1, h2⟩ | ⟨h1, q, h2, h3, h4⟩
  · rw [h2] at h; cases h
  · rw [h2] at h; cases h
    exact ⟨h3, fun h => hb ⟨h1, h4.1 h⟩⟩

/-- The ids of a fresh process. -/
def bfIds : Ids := { nextGlobal := globalStart, nextLocal := localStart, nextBb := 1, nextFunc := 1 }

/-- The text `[`: not balanced, yet accepted, and the result branches to a block that is not listed.
So C41 does not hold as stated. -/
theorem C41_open_loop_accepted : ¬ BracketsBalanced ['['] ∧ ∃ p, build bfIds ['['] = some (some p) ∧ ¬ TargetsListed p := by
  have hb : ¬ BracketsBalanced ['['] := fun h => absurd h.2 (by decide)
  refine ⟨hb, ?_⟩
  have hn : NoStrayClose ['['] := by intro n; cases n <;> simp
  rcases bf_build (ids := bfIds) (by decide) (by decide) (by decide) ['['] with ⟨h1, _⟩ | ⟨_, p, h, _⟩
  · exact absurd hn h1
  · exact ⟨p, h, (C41_unbalanced_dangling (by decide) (by decide) (by decide) h hb).2⟩

/-- The hypotheses of `C41_balanced_partial` are met by a text with a nested loop. -/
example : ∃ p, build bfIds "+[>[-].,]x".toList = some (some p) ∧ BlocksEnd p ∧ TargetsListed p := by
  refine C41_balanced_partial (by decide) (by decide) (by decide) ⟨?_, by decide⟩
  intro n
  by_cases h : n < 10
  · have : ∀ m < 10, ("+[>[-].,]x".toList.take m).count ']' ≤ ("+[>[-].,]x".toList.take m).count '[' := by decide
    exact this n h
  · rw [List.take_of_length_le (by rw [show "+[>[-].,]x".toList.length = 10 from rfl]; omega)]
    decide

/-- A stray `]` is rejected. -/
example : build bfIds "[]]".toList = some none :=
  (C41_rejected_iff_partial (by decide) (by decide) (by decide) _).2 (fun h => absurd (h 3) (by decide))

end Koopa
