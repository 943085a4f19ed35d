import Verif.Lemmas.Lib.RawCheck
import Verif.Props.FrontCases
/-!
C34: to the raw form and back.
-/
namespace Koopa
open Spec Raw

/-- The program can be converted to the raw form, and reading the raw form with fresh counters `ids` gives the same
program up to handles and order. `N` is a depth of recursion from which on nothing changes. -/
def RoundTrips (ids : Ids) (p : Program) : Prop :=
  ∃ N m r p' ρ, (∀ n, N ≤ n → buildRaw n .new p = some (m, r)) ∧ (∀ n, N ≤ n → generateProgram ids m n r = some (.ok p')) ∧
    SameProgram ρ p p' ∧ WellTyped p'

/-- The counters start right and there is room for the global values of the program. -/
structure IdsRoom (ids : Ids) (p : Program) : Prop where
  globals : globalStart ≤ ids.nextGlobal
  locals : localStart ≤ ids.nextLocal
  room : ids.nextGlobal + p.values.keys.length ≤ localStart

/-- C34 for the programs that have a raw form. Not all well-formed programs do, see `C34_violated`. -/
theorem C34_round_trip_partial {ids : Ids} {p : Program} (hc : Convertible p) (hr : IdsRoom ids p) : RoundTrips ids p := by
  obtain ⟨n1, m, hb, hm⟩ := buildRaw_total hc
  obtain ⟨n2, s, hg, hi, hd⟩ := genProgram_total hc hm hr.globals hr.locals hr.room
  have h2 : generateProgram ids m n2 { values := .of .value p.instLayout, funcs := .of .function p.funcLayout } = some (.ok s.prog) := by
    unfold generateProgram; rw [hg]
  exact ⟨max n1 n2, m, _, s.prog, s.ren, fun n hn => buildRaw_more (Nat.le_trans (Nat.le_max_left _ _) hn) hb,
    fun n hn => generateProgram_more (Nat.le_trans (Nat.le_max_right _ _) hn) h2, same_program hc hi hd, hi.fin.wellTyped⟩

/-- C34 for accepted texts in which parameters of blocks are used only where the block dominates. -/
theorem C34_accepted_partial {w : World} {input : Str} {p : Program} {ids : Ids} (h : Accepted w input p) (hd : Dominated p)
    (hl : ListsFit p) (hr : IdsRoom ids p) : RoundTrips ids p := by
  obtain ⟨gs, hg, -⟩ := C47_program_is_text h
  obtain ⟨vars, fns, hA⟩ := h.fromText hg
  exact C34_round_trip_partial (hA.convertible hd h.namesFit hl) hr

/-- A case for both theorems, with a global, a declaration, a loop and a block with a parameter. -/
example : ∃ p, Accepted someWorld loopText p ∧ Dominated p ∧ ListsFit p ∧ IdsRoom someWorld.ids p ∧ Convertible p ∧
    ∃ f fd b x, p.funcs.get? f = some fd ∧ b ∈ fd.layout.bbs.map (·.1) ∧ fd.dfg.bbs.get? b = some x ∧ x.params ≠ [] := by
  obtain ⟨p, h, hq⟩ := acceptsWith_iff (input := loopText)
    (q := fun p => domCheck p && fitsCheck p && decide (someWorld.ids.nextGlobal + p.values.keys.length ≤ localStart) &&
      p.funcs.keys.any fun f => match p.funcs.get? f with
        | none => false
        | some fd => fd.layout.bbs.any fun q => match fd.dfg.bbs.get? q.1 with
          | none => false
          | some x => !x.params.isEmpty) (by decide +kernel)
  simp only [Bool.and_eq_true, decide_eq_true_eq] at hq
  obtain ⟨⟨⟨h1, h2⟩, h3⟩, h4⟩ := hq
  have hd := domCheck_sound h1
  have hl := fitsCheck_sound h2
  obtain ⟨gs, hg, -⟩ := C47_program_is_text h
  obtain ⟨vars, fns, hA⟩ := h.fromText hg
  refine ⟨p, h, hd, hl, ⟨by decide, by decide, h3⟩, hA.convertible hd h.namesFit hl, ?_⟩
  rw [List.any_eq_true] at h4
  obtain ⟨f, -, hf⟩ := h4
  split at hf
  · cases hf
  · rename_i fd hfd
    rw [List.any_eq_true] at hf
    obtain ⟨q, hq, hb⟩ := hf
    split at hb
    · cases hb
    · rename_i x hx
      refine ⟨f, fd, q.1, x, hfd, List.mem_map_of_mem hq, hx, ?_⟩
      intro e; rw [e] at hb; cases hb

/-- Block `%b` uses the parameter of `%c`, which control may not have entered. -/
def strayText : Str := "fun @f(%x: i32) {%e: br %x, %b, %c(1) %c(%p: i32): jump %b %b: %y = add %p, 1 ret\n}".toList

/-- The builder succeeds and the generator panics for every depth of recursion. -/
def readBackPanics (p : Program) : Bool :=
  match buildRaw 20 .new p with
  | none => false
  | some (m, r) => (genProgramLim m 20 r { prog := .new someWorld.ids, values := .empty, funcs := .empty, cur := none }).isNone

/-- There is an accepted text whose program is converted to the raw form, but reading that panics. -/
theorem C34_reading_panics : ∃ p, Accepted someWorld strayText p ∧ IdsRoom someWorld.ids p ∧ ListsFit p ∧
    (∃ n m r, buildRaw n .new p = some (m, r)) ∧
    ∀ n m r, buildRaw n .new p = some (m, r) → ∀ k, generateProgram someWorld.ids m k r = none := by
  obtain ⟨p, h, hq⟩ := acceptsWith_iff (input := strayText)
    (q := fun p => readBackPanics p && fitsCheck p && decide (someWorld.ids.nextGlobal + p.values.keys.length ≤ localStart))
    (by decide +kernel)
  simp only [Bool.and_eq_true, decide_eq_true_eq] at hq
  obtain ⟨⟨h1, h2⟩, h3⟩ := hq
  unfold readBackPanics at h1
  split at h1
  · cases h1
  · rename_i m r hb
    refine ⟨p, h, ⟨by decide, by decide, h3⟩, fitsCheck_sound h2, ⟨_, _, _, hb⟩, fun n m' r' hb' k => ?_⟩
    have e1 := buildRaw_more (Nat.le_max_left 20 n) hb
    rw [buildRaw_more (Nat.le_max_right 20 n) hb'] at e1
    cases e1
    exact generateProgram_panics (Option.isNone_iff_eq_none.1 h1) k

/-- C34 for all accepted texts. -/
def AcceptedRoundTrip : Prop :=
  ∀ w input p ids, Accepted w input p → ListsFit p → IdsRoom ids p → RoundTrips ids p

/-- C34 fails without `Dominated`. -/
theorem C34_violated : ¬ AcceptedRoundTrip := by
  intro hall
  obtain ⟨p, h1, h2, h3, -, h4⟩ := C34_reading_panics
  obtain ⟨N, m, r, p', ρ, h5, h6, -⟩ := hall _ _ p _ h1 h3 h2
  have := h4 N m r (h5 N (Nat.le_refl _)) N
  rw [h6 N (Nat.le_refl _)] at this
  cases this

end Koopa
