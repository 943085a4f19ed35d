import Verif.Lemmas.Examples.BfLlvm
import Verif.Props.BfMeaning
import Verif.Props.Machine
/-!
C61: the LLVM text of a compiled Brainfuck text does what the text means.
-/
namespace Koopa
open Koopa.Spec Koopa.Spec.Ll Koopa.Bf Koopa.Interp

/-- Missing for C61: what the module does if the text leaves the tape (`BfResult.failed`), if the outside world fails or an addition overflows in a
checked build (`BfResult.crashed`); and, for what the module cannot do, memory from `alloca` that is not zero.
Otherwise: the generator writes the compiled program, in every order of the users of a block; the written text is that of exactly one LLVM module, and no
name is defined twice in it. If the text halts, every run of the module ends with the exit code 0 in the same world; if the text runs for ever, so does
every run of the module; and a run of the module that ends, ends as the text does, unless the text fails. -/
theorem C61_bf_llvm_partial {ids : Ids} (hg : globalStart ≤ ids.nextGlobal) (hl : localStart ≤ ids.nextLocal) (hm : ids.nextGlobal + 2 ≤ localStart)
    {w : List Char} (hb : BracketsBalanced w) {p : Program} (hp : build ids w = some (some p)) (o : UserOrder) :
    ∃ s m, llvmGenerate o NM.new p = some (s, m) ∧ ∃ M, Written M s ∧ (∀ M', Written M' s → M' = M) ∧ WellNamed M ∧
      ∀ {σ : Type} (lib : Lib σ) (io : BfIo σ), LibIo lib io → ∀ (chk : Bool) (ptrSize : Nat) (v : σ),
        (∀ fill : Ty → Val → Prop, (∀ t x, Zeroed t x → fill t x) →
          (∀ v', BfRuns io chk w v (.halted v') → LRuns M lib ptrSize fill v 0 v') ∧ (BfForever io chk w v → LForever M lib ptrSize fill v)) ∧
        (Blind lib →
          (∀ v', BfRuns io chk w v (.halted v') → LOnlyExits M lib ptrSize Zeroed v 0 v' ∧ ∀ k u, LRuns M lib ptrSize Zeroed v k u ↔ k = 0 ∧ u = v') ∧
          (BfForever io chk w v → LOnlyForever M lib ptrSize Zeroed v) ∧
          (∀ k u, LRuns M lib ptrSize Zeroed v k u → k = 0 ∧ BfRuns io chk w v (.halted u) ∨ (∃ v', BfRuns io chk w v (.failed v')) ∨ BfRuns io chk w v .crashed)) := by
  obtain ⟨m, pu, ge, arr, init, h⟩ := whole hg hl hm hb hp
  obtain ⟨s, nm, hs⟩ := h.written o
  obtain ⟨M, h1, h2, h3, h4⟩ := h.core.runs hs
  refine ⟨s, nm, hs, M, h1, h2, h3, fun {σ} lib io hio chk ptrSize v => ?_⟩
  obtain ⟨fd, hf, hne⟩ := h.main
  have hname : fd.name = "@main".toList := by
    obtain ⟨a1, a2, a3, a4⟩ := h.simple.apart
    rcases (h.fn hf).2 with ⟨e, -⟩ | ⟨e, -⟩ | ⟨-, -, e⟩
    · exact absurd e.symm a2
    · exact absurd e.symm a3
    · exact e
  have hfm : FirstMain p p.funcs.keys m := by
    obtain ⟨a, b, e, hn⟩ := List.eq_append_cons_of_mem ((lists_keys p m).2 ⟨fd, hf⟩)
    exact ⟨a, b, fd, e, hf, hname, hne, fun g gd hga hgd e' => hn (h.names.funcsApart g m gd fd hgd hf (e'.trans hname.symm) ▸ hga)⟩
  obtain ⟨d0, hd0⟩ := C50_machine_partial h.distinct h.noLate hfm
  obtain ⟨k1, -, -, k4⟩ := hd0 (max d0 1) (Nat.le_max_left _ _) lib chk ptrSize v
  have hpos : 0 < max d0 1 := Nat.lt_of_lt_of_le Nat.one_pos (Nat.le_max_right _ _)
  have halt : ∀ v', BfRuns io chk w v (.halted v') → MRuns p lib chk ptrSize m v (.exit 0 v') := by
    intro v' hr
    exact (k1 0 v').1 ((C49_meaning hio hg hl hm hb hp (lists_keys p) chk hpos ptrSize v (.halted v')).1.1 hr)
  have ever : BfForever io chk w v → MForever p lib chk ptrSize m v := by
    intro hr
    exact k4.1 ((C49_forever hio hg hl hm hb hp (lists_keys p) chk hpos ptrSize v).1 hr)
  have may : ∀ fill : Ty → Val → Prop, (∀ t x, Zeroed t x → fill t x) →
      (∀ v', BfRuns io chk w v (.halted v') → LRuns M lib ptrSize fill v 0 v') ∧ (BfForever io chk w v → LForever M lib ptrSize fill v) := by
    intro fill hfill
    obtain ⟨h5, h6⟩ := h4 lib chk ptrSize fill hfill m fd hf hname v (h.argRefs.definedRun h.plain m v)
    exact ⟨fun v' hr => h5 0 v' (halt v' hr), fun hr => h6 (ever hr)⟩
  refine ⟨may, fun hbl => ?_⟩
  obtain ⟨m1, m2⟩ := may Zeroed (fun _ _ h => h)
  refine ⟨fun v' hr => only_one h3 hbl (m1 v' hr), fun hr => only_forever h3 hbl (m2 hr), fun k u hku => ?_⟩
  rcases C49_meaning_total io hb chk v with ⟨hr, -⟩ | ⟨-, r, hr, -⟩
  · obtain ⟨s0, j, t, l1, l2, l3⟩ := hku
    obtain ⟨t', ht'⟩ := only_forever h3 hbl (m2 hr) s0 j t l1 l2
    exact absurd ht' (stop_no_next l3)
  · cases r with
    | halted v' =>
      obtain ⟨rfl, rfl⟩ := ((only_one h3 hbl (m1 v' hr)).2 k u).1 hku
      exact .inl ⟨rfl, hr⟩
    | failed v' => exact .inr (.inl ⟨v', hr⟩)
    | crashed => exact .inr (.inr hr)

theorem libOf_blind {σ : Type} (io : BfIo σ) : Blind (libOf io) := by
  refine ⟨?_, fun R _ q t x y w _ => rfl⟩
  intro R _ n t xs ys w h
  show (if n = _ then _ else _) = (if n = _ then _ else _)
  split
  · cases h with
    | nil => rfl
    | @cons x y xs ys h1 h2 =>
      cases h2 with
      | nil => cases h1 <;> rfl
      | cons h3 h4 => cases h1 <;> rfl
  · rfl

/-- The text that copies its input: its LLVM module, however it runs, copies the input and exits with 0. -/
example : ∃ p s m M, build bfIds ",[.,]".toList = some (some p) ∧ llvmGenerate UserOrder.added NM.new p = some (s, m) ∧ Written M s ∧
    LOnlyExits M (libOf listIo) 8 Zeroed ([5], []) 0 ([], [5]) := by
  have hb : BracketsBalanced ",[.,]".toList := by
    refine ⟨fun n => ?_, by decide⟩
    by_cases h : n < 5
    · have : ∀ m < 5, (",[.,]".toList.take m).count ']' ≤ (",[.,]".toList.take m).count '[' := by decide
      exact this n h
    · rw [List.take_of_length_le (by rw [show ",[.,]".toList.length = 5 from rfl]; omega)]
      decide
  obtain ⟨p, hp, -⟩ := C41_balanced_partial (ids := bfIds) (by decide) (by decide) (by decide) hb
  obtain ⟨s, m, h1, M, h2, -, -, h3⟩ := C61_bf_llvm_partial (by decide) (by decide) (by decide) hb hp UserOrder.added
  refine ⟨p, s, m, M, hp, h1, h2, ?_⟩
  exact (((h3 (libOf listIo) listIo (libOf_io listIo) true 8 ([5], [])).2 (libOf_blind _)).1 ([], [5])
    ⟨5, _, .step (.get rfl rfl) (.step (.enter rfl (by decide)) (.step (.put rfl rfl) (.step (.get rfl rfl)
      (.step (.leave rfl (by decide)) (.refl _))))), .halted rfl⟩).1

end Koopa
