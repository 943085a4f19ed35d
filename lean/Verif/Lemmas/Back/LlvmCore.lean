import Verif.Lemmas.Back.LlvmReady
import Verif.Lemmas.Back.LlvmStatic
import Verif.Lemmas.Back.LlvmGrammar
import Verif.Lemmas.Back.LlvmUnique
import Verif.Lemmas.Back.LlvmOnly
/-!
The LLVM text of a program that the generator is ready for.
-/
namespace Koopa
open Koopa.Spec Koopa.Spec.Ll Koopa.Interp

/-- What is to be known of a program. -/
structure LlvmCore (p : Program) : Prop where
  ready : LReady p
  names : LlvmNames p
  order : LlvmOrder p
  fns : ∀ f fd, p.funcs.get? f = some fd → LlvmFn p fd
  nodup : ModNodup p

theorem LlvmCore.runs {p : Program} (h : LlvmCore p) {o : UserOrder} {s : Str} {m : NM} (hg : llvmGenerate o NM.new p = some (s, m)) :
    ∃ M, Written M s ∧ (∀ M', Written M' s → M' = M) ∧ WellNamed M ∧ ∀ {σ : Type} (lib : Lib σ) (chk : Bool) (ptrSize : Nat) (fill : Ty → Val → Prop), (∀ t x, Zeroed t x → fill t x) →
      ∀ f fd, p.funcs.get? f = some fd → fd.name = "@main".toList → ∀ w, DefinedRun p lib chk ptrSize f w →
        (∀ n w', MRuns p lib chk ptrSize f w (.exit n w') → LRuns M lib ptrSize fill w n w') ∧
        (MForever p lib chk ptrSize f w → LForever M lib ptrSize fill w) := by
  have hp := h.ready
  obtain ⟨G, Gs, Fs, hG, hW, hGs, hFs⟩ := llvm_words h.names h.order h.fns hg
  have hM : InMod p (Gs ++ Fs) G := by
    intro g hg
    obtain ⟨I, i1, N, i2, -, i3⟩ := all2_mem hFs hg
    exact ⟨N, I, List.mem_append_right _ i1, i2, i3⟩
  refine ⟨Gs ++ Fs, hW, fun M' h' => written_unique h' hW, module_well_named h.nodup hG hGs hFs, fun {σ} lib chk ptrSize fill hfill f fd hf hname w hd => ⟨?_, ?_⟩⟩
  · rintro n w' ⟨s0, k, t, h1, h2, h3⟩
    obtain ⟨ls, l1, l2⟩ := sim_start hp hG hGs hFs hf hname h1
    obtain ⟨j, lt, -, j2, j3⟩ := sim_steps hp hM hfill h2 l2 (fun k u hu => hd s0 k u h1 hu)
    exact ⟨ls, j, lt, l1, j2, sim_stop hp j3 h3⟩
  · rintro ⟨s0, h1, h2⟩
    obtain ⟨ls, l1, l2⟩ := sim_start hp hG hGs hFs hf hname h1
    refine ⟨ls, l1, fun k => ?_⟩
    obtain ⟨t, ht⟩ := h2 k
    obtain ⟨j, lt, j1, j2, -⟩ := sim_steps hp hM hfill ht l2 (fun k u hu => hd s0 k u h1 hu)
    obtain ⟨i, rfl⟩ : ∃ i, j = k + i := ⟨j - k, by omega⟩
    exact lsteps_prefix j2

/-- A module whose runs can end or go on for ever only in one way. -/
theorem only_one {M : Mod} (h3 : WellNamed M) {σ : Type} {lib : Lib σ} (hl : Blind lib) {ptrSize : Nat} {w : σ} {n : I32} {w' : σ}
    (h5 : LRuns M lib ptrSize Zeroed w n w') :
    LOnlyExits M lib ptrSize Zeroed w n w' ∧ ∀ k u, LRuns M lib ptrSize Zeroed w k u ↔ k = n ∧ u = w' := by
  have ho := only_exits h3 hl h5
  refine ⟨ho, fun k u => ⟨?_, ?_⟩⟩
  · rintro ⟨s0, j, t, k1, k2, k3⟩
    obtain ⟨K, hK⟩ := ho
    obtain ⟨-, i, u', l1, l2⟩ := hK s0 j t k1 k2
    cases l1 with
    | refl => exact lstop_unique k3 l2
    | step l1 _ => exact absurd l1 (stop_no_next k3)
  · rintro ⟨rfl, rfl⟩
    exact h5

end Koopa
