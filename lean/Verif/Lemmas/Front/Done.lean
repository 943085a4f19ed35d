import Verif.Lemmas.Front.BuildErrs
/-!
Runs of the IR generator that return a result and log no error.
-/
namespace Koopa

/-- `m` returns `a` and logs no error. -/
structure Done {α : Type} (m : B α) (s : BS) (a : α) (s' : BS) : Prop where
  run : m s = some (.ok a, s')
  errs : s'.errs = s.errs

theorem Logs.done {α : Type} {m : B α} (hm : Logs m) {s s' : BS} {r : Except Unit α} (h : m s = some (r, s'))
    (he : s'.errs = s.errs) : ∃ a, r = .ok a ∧ Done m s a s' := by
  have h1 := hm.run s r s' h
  cases r with
  | ok a => exact ⟨a, rfl, h, he⟩
  | error x => have := h1.2 rfl; omega

theorem Done.bind {α β : Type} {m : B α} {k : α → B β} {s s' : BS} {b : β} (h : Done (m >>= k) s b s')
    (hm : Logs m) (hk : ∀ a, LogsW (k a)) : ∃ a s1, Done m s a s1 ∧ Done (k a) s1 b s' := by
  have h1 := h.run
  rw [B.bind_eq] at h1
  rcases e : m s with _ | ⟨r1, s1⟩
  · simp [e] at h1
  · rw [e] at h1
    have h2 := hm.run s r1 s1 e
    cases r1 with
    | ok a =>
      have h3 := (hk a).run s1 _ s' h1
      have h4 := h.errs
      exact ⟨a, s1, ⟨e, by omega⟩, ⟨h1, by omega⟩⟩
    | error x => simp at h1

theorem Done.pure {α : Type} {a b : α} {s s' : BS} (h : Done (Pure.pure a : B α) s b s') : b = a ∧ s' = s := by
  have h1 := h.run
  rw [B.pure_eq, Option.some.injEq, Prod.mk.injEq, Except.ok.injEq] at h1
  exact ⟨h1.1.symm, h1.2.symm⟩

theorem Done.fail {α : Type} {b : α} {s s' : BS} (h : Done (B.fail : B α) s b s') : False := by
  have h1 := h.run
  simp [B.fail] at h1

theorem Done.throw {α : Type} {b : α} {s s' : BS} (h : Done (B.throw : B α) s b s') : False := by
  have h1 := h.run
  simp [B.throw] at h1

theorem Done.panic {α : Type} {b : α} {s s' : BS} (h : Done (B.panic : B α) s b s') : False := by
  have h1 := h.run
  simp [B.panic] at h1

theorem Done.logError {u : Unit} {s s' : BS} (h : Done B.logError s u s') : False := by
  have h1 := h.run
  simp only [B.logError, Option.some.injEq, Prod.mk.injEq] at h1
  have h2 := h.errs
  rw [← h1.2] at h2
  simp only at h2
  omega

theorem Done.lift {α : Type} {o : Option α} {a : α} {s s' : BS} (h : Done (B.lift o) s a s') :
    o = some a ∧ s' = s := by
  have h1 := h.run
  unfold B.lift at h1
  split at h1
  · simp at h1
  · simp only [Option.some.injEq, Prod.mk.injEq, Except.ok.injEq] at h1
    exact ⟨by rw [h1.1], h1.2.symm⟩

theorem Done.get {a s s' : BS} (h : Done B.get s a s') : a = s ∧ s' = s := by
  have h1 := h.run
  simp only [B.get, Option.some.injEq, Prod.mk.injEq, Except.ok.injEq] at h1
  exact ⟨h1.1.symm, h1.2.symm⟩

theorem Done.bind_get {β : Type} {k : BS → B β} {s s' : BS} {b : β} (h : Done (B.get >>= k) s b s') :
    Done (k s) s b s' := ⟨h.run, h.errs⟩

theorem Done.bind_lift {α β : Type} {o : Option α} {k : α → B β} {s s' : BS} {b : β}
    (h : Done (B.lift o >>= k) s b s') : ∃ a, o = some a ∧ Done (k a) s b s' := by
  cases o with
  | none => have := h.run; simp [B.bind_eq, B.lift] at this
  | some a => exact ⟨a, rfl, h.run, h.errs⟩

theorem Done.bind_modify {β : Type} {f : BS → BS} {k : Unit → B β} {s s' : BS} {b : β}
    (h : Done (B.modify f >>= k) s b s') (hf : (f s).errs = s.errs) : Done (k ()) (f s) b s' :=
  ⟨h.run, h.errs.trans hf.symm⟩

theorem Done.modify {f : BS → BS} {u : Unit} {s s' : BS} (h : Done (B.modify f) s u s') : s' = f s := by
  have h1 := h.run
  simp only [B.modify, Option.some.injEq, Prod.mk.injEq, Except.ok.injEq] at h1
  exact h1.2.symm

theorem Done.api {α : Type} {op : Program → Option (Program × α)} {a : α} {s s' : BS}
    (h : Done (B.api op) s a s') : ∃ p, op s.prog = some (p, a) ∧ s' = { s with prog := p } := by
  have h1 := h.run
  unfold B.api at h1
  split at h1
  · simp at h1
  · rename_i p a' hp
    simp only [Option.some.injEq, Prod.mk.injEq, Except.ok.injEq] at h1
    obtain ⟨rfl, rfl⟩ := h1
    exact ⟨p, hp, rfl⟩

theorem Done.api' {op : Program → Option Program} {u : Unit} {s s' : BS}
    (h : Done (B.api' op) s u s') : ∃ p, op s.prog = some p ∧ s' = { s with prog := p } := by
  have h1 := h.run
  unfold B.api' at h1
  split at h1
  · simp at h1
  · rename_i p hp
    simp only [Option.some.injEq, Prod.mk.injEq] at h1
    exact ⟨p, hp, h1.2.symm⟩

theorem Done.attempt {α : Type} {m : B α} {o : Option α} {s s' : BS} (hm : Logs m)
    (h : Done (B.attempt m) s o s') : ∃ a, o = some a ∧ Done m s a s' := by
  have h1 := h.run
  unfold B.attempt at h1
  rcases e : m s with _ | ⟨r1, s1⟩
  · simp [e] at h1
  · rw [e] at h1
    cases r1 with
    | ok a =>
      simp only [Option.some.injEq, Prod.mk.injEq, Except.ok.injEq] at h1
      obtain ⟨rfl, rfl⟩ := h1
      exact ⟨a, rfl, e, h.errs⟩
    | error x =>
      simp only [Option.some.injEq, Prod.mk.injEq, Except.ok.injEq] at h1
      obtain ⟨rfl, rfl⟩ := h1
      have := (hm.run s _ _ e).2 rfl
      have := h.errs
      omega

end Koopa
