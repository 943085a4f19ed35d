import Verif.Lemmas.Front.ElabDriver
/-!
Runs of the driver on texts whose trees can be built.
-/
namespace Koopa
open Spec

/-- The trees are built one after the other, without an error. -/
inductive Builds : List GlobalAst → BS → BS → Prop where
  | nil {b : BS} : Builds [] b b
  | cons {g : GlobalAst} {gs : List GlobalAst} {b b1 b2 : BS} : Done (buildOn g) b () b1 → Builds gs b1 b2 → Builds (g :: gs) b b2

theorem Builds.errs {gs : List GlobalAst} {b b' : BS} (h : Builds gs b b') : b'.errs = b.errs := by
  induction h with
  | nil => rfl
  | cons h _ ih => rw [ih, h.errs]

theorem driverLoop_builds : ∀ {n : Nat} {s s' : PS} {gs : List GlobalAst} {b b' : BS}, PInv false s → parseCalls n s = some (.ok gs, s') →
    s.errs = 0 → s'.errs = 0 → b.errs = 0 → Builds gs b b' → driverLoop n s b = some (true, b')
  | 0, _, _, _, _, _, _, h, _, _, _, _ => by simp [parseCalls] at h
  | n + 1, s, s', gs, b, b', hi, h, hs, hs', hb, hB => by
    obtain ⟨r, s1, h1, hi1, hsz, hle, h2⟩ := nextAst_r (n := s.fuel) hi (by unfold PS.fuel; omega)
    have h1' : s.parseNext = some (r, s1) := h1
    cases r with
    | error e => rw [parseCalls_err h1'] at h; simp at h
    | ok g =>
      by_cases hg : g = .eof
      · subst hg
        rw [parseCalls_eof h1'] at h
        cases h
        cases hB
        rw [driverLoop, h1']
        simp only [hs']
        rw [show ({ b with errs := 0 } : BS) = b by cases b; simp_all]
      · rw [parseCalls_ok h1' hg] at h
        rcases e : parseCalls n s1 with _ | ⟨r2, s2⟩
        · simp [e] at h
        · rw [e] at h
          cases r2 with
          | error e => simp at h
          | ok gs' =>
            simp only [Option.some.injEq, Prod.mk.injEq, Except.ok.injEq] at h
            obtain ⟨rfl, rfl⟩ := h
            have h3 := (parseCalls_sound hi1 e).1
            have hs1 : s1.errs = 0 := by omega
            cases hB with
            | @cons _ _ _ b1 _ hd hB =>
              have hb1 : b1.errs = 0 := by rw [hd.errs, hb]
              have e0 : ({ b with errs := s1.errs } : BS) = b := by rw [hs1, ← hb]
              rw [driverLoop_round h1' hg (by rw [e0]; exact hd.run), if_neg (by rw [hb1]; decide)]
              have e1 : ({ s1 with errs := b1.errs } : PS) = s1 := by rw [hb1, ← hs1]
              rw [e1]
              exact driverLoop_builds hi1 e hs1 hs' hb1 hB

/-- A text whose trees can be built is accepted. -/
theorem generate_of_builds {w : World} {input : Str} {gs : List GlobalAst} {b : BS} (hr : Reads input gs)
    (hB : Builds gs (BS.new w.ids) b) : generate w input false = some (some b.prog, ⟨0, b.warns, b.prog.ids⟩) := by
  obtain ⟨ts, h1, h2⟩ := hr
  obtain ⟨s, s', h3, h4, h5⟩ := eats_of_toks (Toks_space.2 h1) Token.default 0
  rw [← Lex.new_eq] at h3
  have h3' : PS.new (Lex.new input false) 0 = some (.ok (), s) := h3
  obtain ⟨hi, hs, he⟩ := PS.new_ok h3'
  have he' : s'.errs = 0 := by rw [(h4.facts hi).2.2, he]
  have hp := parseCalls_complete (k := s.loopFuel) h2 hi h4 h5 (by unfold PS.loopFuel; omega)
  have hb0 : b.errs = 0 := by rw [hB.errs]; rfl
  have hd := driverLoop_builds hi hp he he' rfl hB
  unfold generate Driver.new
  rw [h3']
  simp only [Driver.generate]
  have e1 : (Driver.start ⟨.ok s, BS.new w.ids⟩ { w with errs := s.errs, warns := 0 }) = BS.new w.ids := by
    unfold Driver.start BS.new
    simp only [he]
    rfl
  rw [e1, hd]
  simp [hb0]

end Koopa
