import Verif.Lemmas.Back.LlvmStep
/-!
Whole runs of the translation.
-/
namespace Koopa
open Spec Spec.Ll Interp

section
variable {p : Program} {M : Mod} {G : Names} {σ : Type} {lib : Lib σ} {ptrSize : Nat} {fill : Ty → Val → Prop}

theorem lsteps_trans {m n : Nat} {s t u : LState σ} (h : LSteps M lib ptrSize fill m s t) (h' : LSteps M lib ptrSize fill n t u) :
    LSteps M lib ptrSize fill (m + n) s u := by
  induction h with
  | refl => rw [Nat.zero_add]; exact h'
  | step h1 _ ih =>
    rw [Nat.add_right_comm]
    exact .step h1 (ih h')

theorem lsteps_prefix {m k : Nat} : ∀ {s u : LState σ}, LSteps M lib ptrSize fill (m + k) s u → ∃ t, LSteps M lib ptrSize fill m s t := by
  induction m with
  | zero => intro s u _; exact ⟨s, .refl s⟩
  | succ m ih =>
    intro s u h
    rw [Nat.add_right_comm] at h
    cases h with
    | step h1 h2 =>
      obtain ⟨t, ht⟩ := ih h2
      exact ⟨t, .step h1 ht⟩

/-- Many steps. -/
theorem sim_steps (hp : LReady p) (hM : InMod p M G) (hfill : ∀ t x, Zeroed t x → fill t x) {chk : Bool} {n : Nat} {s t : MState σ}
    (hs : MSteps p lib chk ptrSize n s t) : ∀ {ls : LState σ}, SRel p M G s ls → (∀ k u, MSteps p lib chk ptrSize k s u → LlvmDefined p u) →
      ∃ k lt, n ≤ k ∧ LSteps M lib ptrSize fill k ls lt ∧ SRel p M G t lt := by
  induction hs with
  | refl s => intro ls h _; exact ⟨0, ls, Nat.le_refl _, .refl _, h⟩
  | step h1 h2 ih =>
    intro ls h hb
    obtain ⟨k, lt, k1, k2⟩ := sim_step hp hM hfill h (hb 0 _ (.refl _)) h1
    obtain ⟨j, lu, j1, j2, j3⟩ := ih k2 (fun k u hk => hb (k + 1) u (.step h1 hk))
    exact ⟨k + 1 + j, lu, by omega, lsteps_trans k1 j2, j3⟩

/-- The end. -/
theorem sim_stop (hp : LReady p) {s : MState σ} {ls : LState σ} (h : SRel p M G s ls) {n : I32} {w : σ} (hs : MStop p lib s (.exit n w)) : LStop ls n w := by
  obtain ⟨a0, st0, la, lst, hacts, hlacts, hrel, hwait⟩ := h.acts
  cases hs with
  | exit hat hr =>
    obtain ⟨e1, e2, e3⟩ := hat
    rw [hacts] at e1; cases e1
    cases hwait
    obtain ⟨fd, N, b, is, hin⟩ := hrel
    obtain ⟨i, i1, i2⟩ := returns_sim hp h.addr hin e2 e3 hr
    exact ⟨la, i, hlacts, i1, i2, h.world⟩

/-- The beginning. -/
theorem sim_start (hp : LReady p) {Gs Fs : List Item} (hG : G.Distinct) (hGs : All2 (GlobalItem p G) p.instLayout Gs)
    (hFs : All2 (fun f I => ∃ N, FNames p f G N ∧ NShape N ∧ FuncItem p N f I) p.funcLayout Fs)
    {f : Func} {fd : FData} (hf : p.funcs.get? f = some fd) (hname : fd.name = "@main".toList) {w : σ} {s : MState σ} (hs : MStart p f w s) :
    ∃ ls, LStart (Gs ++ Fs) w ls ∧ SRel p (Gs ++ Fs) G s ls := by
  classical
  obtain ⟨h1, h2, ⟨fd', t, b, is, bs, regs, m1, m2, m3, m4, m5⟩, h4, h5⟩ := hs
  rw [hf] at m1; cases m1
  have hM : InMod p (Gs ++ Fs) G := by
    intro g hg
    obtain ⟨I, i1, N, i2, -, i3⟩ := all2_mem hFs hg
    exact ⟨N, I, List.mem_append_right _ i1, i2, i3⟩
  obtain ⟨fn, la, n1, n2, n3, n4⟩ := entry_sim hp hM hf m3 m2 rfl m4 0
  let addr : Str → Option Obj := fun n => if hn : ∃ v, v ∈ p.instLayout ∧ G.ent (.global v) = some n then some (.glob hn.choose) else none
  have haddr : AddrOk p G addr := by
    intro v n hv hn
    have hex : ∃ v, v ∈ p.instLayout ∧ G.ent (.global v) = some n := ⟨v, hv, hn⟩
    simp only [addr, dif_pos hex]
    rw [Ent.global.inj (hG.ents _ _ _ hex.choose_spec.2 hn)]
  have hback : ∀ n o, addr n = some o → ∃ v, v ∈ p.instLayout ∧ o = .glob v ∧ G.ent (.global v) = some n := by
    intro n o h
    simp only [addr] at h
    split at h
    · rename_i hex
      cases h
      exact ⟨_, hex.choose_spec.1, rfl, hex.choose_spec.2⟩
    · cases h
  refine ⟨⟨[la], s.mem, [], addr, w⟩, ⟨?_, ?_, ?_, ?_, ⟨fn, la, n1, by rw [n2, hname], n3, rfl⟩, rfl, rfl⟩, ⟨_, _, _, _, m5, rfl, n4, .nil⟩, rfl, h5.symm, haddr, ?_, ?_, ?_, fun o ho => (by cases ho)⟩
  · intro n ty c hm
    rcases List.mem_append.1 hm with hm | hm
    · obtain ⟨v, hv, hI⟩ := all2_mem' hGs hm
      cases hI with
      | mk i1 i2 i3 i4 i5 =>
        obtain ⟨d, init, e, x, j1, j2, j3, j4, j5⟩ := h1 v hv
        have e1 : p.values.get? v = some d := j1
        have e2 : p.values.get? init = some e := j3
        rw [i1] at e1; cases e1
        rw [i2] at j2; cases j2
        rw [i3] at e2; cases e2
        exact ⟨.glob v, x, haddr v n hv i4, cst_val j4 i5, j5⟩
    · obtain ⟨g, hg, N, -, -, hI⟩ := all2_mem' hFs hm
      cases hI
  · intro n o ho
    obtain ⟨v, hv, -, k1⟩ := hback n o ho
    obtain ⟨I, i1, i2⟩ := all2_mem hGs hv
    cases i2 with
    | mk i3 i4 i5 i6 i7 =>
      rw [k1] at i6; cases i6
      exact ⟨_, _, List.mem_append_left _ i1⟩
  · intro n n' o ho ho'
    obtain ⟨v, -, rfl, k2⟩ := hback n o ho
    obtain ⟨v', -, k3, k4⟩ := hback n' _ ho'
    cases k3
    rw [k2] at k4
    exact Option.some.inj k4
  · intro o x hx
    by_cases ho : ∃ v, v ∈ p.instLayout ∧ o = .glob v
    · obtain ⟨v, hv, rfl⟩ := ho
      obtain ⟨I, i1, i2⟩ := all2_mem hGs hv
      cases i2 with
      | mk i3 i4 i5 i6 i7 => exact ⟨_, _, _, List.mem_append_left _ i1, haddr v _ hv i6⟩
    · simp only [] at hx
      rw [show s.mem o = none from h2 o (fun v hv he => ho ⟨v, hv, he⟩)] at hx
      cases hx
  · intro id v n hne
    exact absurd (h2 _ (fun v _ h => by cases h)) hne
  · rw [m5]; simp
  · intro a ha
    rw [m5, List.mem_singleton] at ha
    subst ha
    rw [h4]; exact Nat.zero_lt_one

end

end Koopa
