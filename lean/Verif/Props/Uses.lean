import Verif.Lemmas.Blocks
/-!
C01, C02, C03, C11: recorded users, live operands, operand enumeration.
-/
namespace Koopa
open Spec

/-! ### Sample histories -/

/-- A function `@f(@x : i32) : i32` with blocks 1 and 2(i32); block 1 adds 7 to the parameter and
jumps to block 2 with the sum, which returns its parameter. A global allocation is stored to. -/
def sampleOps : List Op :=
  [ .newGlobal (.val (.integer 5)),                                       -- global 1
    .newGlobal (.globalAlloc 1),                                          -- global 2
    .newFuncDef ['@', 'f'] [(some ['@', 'x'], .i32)] .i32,                -- function 1, value L
    .newBb 1 (some ['%', 'e']),                                           -- block 1
    .newBbParams 1 none [(none, .i32)],                                   -- block 2, value L+1
    .newLocal 1 (.val (.integer 7)),                                      -- L+2
    .newLocal 1 (.binary .add 0x40000000 0x40000002),                     -- L+3
    .newLocal 1 (.store 0x40000003 2),                                    -- L+4
    .newLocal 1 (.jumpWithArgs 2 [0x40000003]),                           -- L+5
    .newLocal 1 (.ret (some 0x40000001)),                                 -- L+6
    .layout 1 (.insertBb 0 1), .layout 1 (.insertBb 1 2),
    .layout 1 (.insertInst 1 0 0x40000003), .layout 1 (.insertInst 1 1 0x40000004),
    .layout 1 (.insertInst 1 2 0x40000005), .layout 1 (.insertInst 2 0 0x40000006),
    .replaceLocal 1 0x40000003 (.binary .mul 0x40000000 0x40000000) ]

theorem sampleOps_ok (q : Program) (op : Op) (h : op ∈ sampleOps) : op.Ok q ∧ op.NoRemoveFunc := by
  simp only [sampleOps, List.mem_cons, List.not_mem_nil, or_false] at h
  rcases h with h|h|h|h|h|h|h|h|h|h|h|h|h|h|h|h|h <;> subst h <;>
    simp [Op.Ok, Op.NoRemoveFunc, GlobalInst.rawOk, LocalInst.rawOk, ValInst.noRaw]

/-- The state after the sample history. -/
def sampleProg : Option Program := (Program.new Ids.init).run sampleOps

theorem sampleProg_isSome : sampleProg.isSome = true := by decide

/-! ### C01 -/

/-- C01 for histories that do not remove functions and satisfy `Op.Ok`. The full statement (all
histories) is false, see the three counterexamples below. -/
theorem C01_value_uses_exact_partial {p : Program}
    (r : Reach (fun p op => op.Ok p ∧ op.NoRemoveFunc) p)
    (hmax : p.ids.nextGlobal ≤ localStart) : ValueUsesExact p := by
  have hi := r.invExact hmax
  refine ⟨hi.localUses, fun v x hx u => ?_⟩
  rw [hi.globalUses v x hx]; simp

/-- C01 when functions are removed too: exact for local values; for globals every live user is
recorded, and every recorded user is a live value mentioning the global or no live value at all. -/
theorem C01_value_uses_remove_func_partial {p : Program} (r : Reach (fun p op => op.Ok p) p)
    (hmax : p.ids.nextGlobal ≤ localStart) :
    (∀ f v x, LocalVal p f v x → ∀ u, u ∈ x.usedBy ↔ LocalUse p f u v) ∧
    (∀ v x, GlobalVal p v x →
      (∀ u, (GlobalUse p u v ∨ ∃ f, LocalUse p f u v) → u ∈ x.usedBy) ∧
      ∀ u ∈ x.usedBy, (GlobalUse p u v ∨ ∃ f, LocalUse p f u v) ∨
        ((∀ y, ¬ GlobalVal p u y) ∧ ∀ f y, ¬ LocalVal p f u y)) := by
  obtain ⟨S, hi⟩ := r.inv hmax
  refine ⟨hi.localUses, fun v x hx => ⟨fun u hu => ?_, fun u hu => ?_⟩⟩
  · rw [hi.globalUses v x hx]; grind
  · rw [hi.globalUses v x hx] at hu
    rcases hu with h | h | h
    · exact .inl (.inl h)
    · exact .inl (.inr h)
    · obtain ⟨h1, _, _, h4⟩ := hi.stale u v h
      refine .inr ⟨fun y hy => ?_, h4⟩
      have := hi.gRange u y hy; have := hi.gMax; omega

/-- The sample history satisfies the hypotheses and its program has live values with users. -/
example : ∃ p, Reach (fun p op => op.Ok p ∧ op.NoRemoveFunc) p ∧ p.ids.nextGlobal ≤ localStart ∧
    (∃ x, LocalVal p 1 0x40000003 x ∧ x.usedBy = [0x40000005, 0x40000004]) ∧
    ∃ x, GlobalVal p 2 x ∧ x.usedBy = [0x40000004] := by
  obtain ⟨p, hp⟩ := Option.isSome_iff_exists.1 sampleProg_isSome
  have e1 : sampleProg.map (fun p => decide (p.ids.nextGlobal ≤ localStart)) = some true := by decide
  have e2 : (sampleProg.bind (fun p => (p.funcs.get? 1).bind
    (fun fd => (fd.dfg.values.get? 0x40000003).map (·.usedBy)))) = some [0x40000005, 0x40000004] := by decide
  have e3 : (sampleProg.bind (fun p => (p.values.get? 2).map (·.usedBy))) = some [0x40000004] := by decide
  rw [hp] at e1 e2 e3
  simp only [Option.map_some, Option.some.injEq, decide_eq_true_eq, Option.bind_some,
    Option.bind_eq_some_iff, Option.map_eq_some_iff] at e1 e2 e3
  obtain ⟨fd, h1, x, h2, h3⟩ := e2
  exact ⟨p, Reach.run _ (.init _ (Nat.le_refl _) (Nat.le_refl _)) sampleOps_ok hp, e1,
    ⟨x, ⟨fd, h1, h2⟩, h3⟩, e3⟩

/-! Counterexamples to the unrestricted C01. -/

/-- A call returning from an arbitrary history, without conditions on the calls. -/
abbrev AnyReach := Reach (fun _ _ => True)

theorem anyReach_run {p : Program} (ops : List Op) (h : (Program.new Ids.init).run ops = some p) :
    AnyReach p := Reach.run ops (.init _ (Nat.le_refl _) (Nat.le_refl _)) (fun _ _ _ => trivial) h

/-- `remove_func` leaves the removed function's instructions in the user lists of globals. -/
theorem C01_violated_by_remove_func : ∃ p, AnyReach p ∧ ¬ ValueUsesExact p := by
  let ops : List Op := [ .newGlobal (.val (.integer 5)), .newGlobal (.globalAlloc 1),
    .newFuncDef ['@', 'f'] [] .unit, .newLocal 1 (.load 2), .removeFunc 1 ]
  have h1 : (((Program.new Ids.init).run ops).bind fun p => (p.values.get? 2).map (·.usedBy)) =
    some [0x40000000] := by decide
  have h2 : ((Program.new Ids.init).run ops).map (fun p => p.funcs.entries.length) = some 0 := by decide
  have h3 : ((Program.new Ids.init).run ops).map (fun p => (p.values.get? 0x40000000).isNone) = some true := by
    decide
  obtain ⟨p, hp, hx⟩ := Option.bind_eq_some_iff.1 h1
  rw [hp] at h2 h3
  obtain ⟨x, hx, hu⟩ := Option.map_eq_some_iff.1 hx
  refine ⟨p, anyReach_run ops hp, fun he => ?_⟩
  have := (he.globals 2 x hx 0x40000000).1 (by rw [hu]; simp)
  rcases this with ⟨y, hy, _⟩ | ⟨f, y, ⟨fd, hf, _⟩, _⟩
  · simp only [Option.map_some, Option.some.injEq, Option.isNone_iff_eq_none] at h3
    rw [GlobalVal, h3] at hy; cases hy
  · simp only [Option.map_some, Option.some.injEq, List.length_eq_zero_iff] at h2
    have := Map.mem_of_lookup hf
    rw [h2] at this; cases this

/-- `update_value` with a closure that assigns a fresh `ValueData` loses the users. -/
theorem C01_violated_by_update : ∃ p, AnyReach p ∧ ¬ ValueUsesExact p := by
  let ops : List Op := [ .newFuncDef ['@', 'f'] [] .unit, .newLocal 1 (.val (.integer 1)),
    .newLocal 1 (.ret (some 0x40000000)), .updateLocal 1 0x40000000 (fun d => d.clone) ]
  have h1 : (((Program.new Ids.init).run ops).bind fun p => (p.funcs.get? 1).bind fun fd =>
    (fd.dfg.values.get? 0x40000000).map (·.usedBy)) = some [] := by decide
  have h2 : (((Program.new Ids.init).run ops).bind fun p => (p.funcs.get? 1).bind fun fd =>
    (fd.dfg.values.get? 0x40000001).map (·.kind)) = some (.ret (some 0x40000000)) := by decide
  obtain ⟨p, hp, hx⟩ := Option.bind_eq_some_iff.1 h1
  rw [hp, Option.bind_some] at h2
  obtain ⟨fd, hf, hx⟩ := Option.bind_eq_some_iff.1 hx
  obtain ⟨x, hx, hu⟩ := Option.map_eq_some_iff.1 hx
  rw [hf, Option.bind_some] at h2
  obtain ⟨y, hy, hk⟩ := Option.map_eq_some_iff.1 h2
  refine ⟨p, anyReach_run ops hp, fun he => ?_⟩
  have := (he.locals 1 0x40000000 x ⟨fd, hf, hx⟩ 0x40000001).2 ⟨y, ⟨fd, hf, hy⟩, by rw [hk]; decide⟩
  rw [hu] at this; cases this

/-- `remove_bb` does not unregister the operands of a parameter that was replaced by an
instruction. -/
theorem C01_violated_by_remove_bb : ∃ p, AnyReach p ∧ ¬ ValueUsesExact p := by
  let ops : List Op := [ .newFuncDef ['@', 'f'] [] .unit, .newLocal 1 (.val (.integer 1)),
    .newBbParams 1 none [(none, .i32)],
    .replaceLocal 1 0x40000001 (.binary .add 0x40000000 0x40000000), .removeBb 1 1 ]
  have h1 : (((Program.new Ids.init).run ops).bind fun p => (p.funcs.get? 1).bind fun fd =>
    (fd.dfg.values.get? 0x40000000).map (·.usedBy)) = some [0x40000001] := by decide
  have h2 : (((Program.new Ids.init).run ops).bind fun p => (p.funcs.get? 1).bind fun fd =>
    some (fd.dfg.values.get? 0x40000001).isNone) = some true := by decide
  obtain ⟨p, hp, hx⟩ := Option.bind_eq_some_iff.1 h1
  rw [hp, Option.bind_some] at h2
  obtain ⟨fd, hf, hx⟩ := Option.bind_eq_some_iff.1 hx
  obtain ⟨x, hx, hu⟩ := Option.map_eq_some_iff.1 hx
  rw [hf, Option.bind_some] at h2
  refine ⟨p, anyReach_run ops hp, fun he => ?_⟩
  obtain ⟨y, ⟨fd', hf', hy⟩, _⟩ := (he.locals 1 0x40000000 x ⟨fd, hf, hx⟩ 0x40000001).1 (by rw [hu]; simp)
  rw [hf] at hf'; cases hf'
  rw [hy] at h2; cases h2

/-! ### C02 -/

/-- C02 for every history in which no removed block has a parameter that was turned into a branch
or jump. -/
theorem C02_block_uses_exact_partial {p : Program} (r : Reach Op.BlockOk p) : BlockUsesExact p := by
  rintro f b x ⟨fd, hf, hb⟩ u
  rw [(r.binv.graphs trivial f fd hf).uses b x hb u]
  unfold Dfg.Targets Targets LocalVal kindOf
  constructor
  · rintro ⟨k, hk, hm⟩
    obtain ⟨y, hy, rfl⟩ := Option.map_eq_some_iff.1 hk
    exact ⟨y, ⟨fd, hf, hy⟩, hm⟩
  · rintro ⟨y, ⟨fd', hf', hy⟩, hm⟩
    rw [hf] at hf'; cases hf'
    exact ⟨y.kind, by rw [hy]; rfl, hm⟩

example : ∃ p, Reach Op.BlockOk p ∧ ∃ x, Block p 1 2 x ∧ x.usedBy = [0x40000005] := by
  obtain ⟨p, hp⟩ := Option.isSome_iff_exists.1 sampleProg_isSome
  have e2 : (sampleProg.bind (fun p => (p.funcs.get? 1).bind
    (fun fd => (fd.dfg.bbs.get? 2).map (·.usedBy)))) = some [0x40000005] := by decide
  rw [hp] at e2
  simp only [Option.bind_some, Option.bind_eq_some_iff, Option.map_eq_some_iff] at e2
  obtain ⟨fd, h1, x, h2, h3⟩ := e2
  refine ⟨p, Reach.run _ (.init _ (Nat.le_refl _) (Nat.le_refl _)) (fun q op h => ?_) hp, x, ⟨fd, h1, h2⟩, h3⟩
  simp only [sampleOps, List.mem_cons, List.not_mem_nil, or_false] at h
  rcases h with h|h|h|h|h|h|h|h|h|h|h|h|h|h|h|h|h <;> subst h <;> exact trivial

/-- Without the restriction C02 fails: a parameter replaced by a jump and removed with its block. -/
theorem C02_violated_by_remove_bb : ∃ p, AnyReach p ∧ ¬ BlockUsesExact p := by
  let ops : List Op := [ .newFuncDef ['@', 'f'] [] .unit, .newBb 1 none,
    .newBbParams 1 none [(none, .i32)], .replaceLocal 1 0x40000000 (.jump 1), .removeBb 1 2 ]
  have h1 : (((Program.new Ids.init).run ops).bind fun p => (p.funcs.get? 1).bind fun fd =>
    (fd.dfg.bbs.get? 1).map (·.usedBy)) = some [0x40000000] := by decide
  have h2 : (((Program.new Ids.init).run ops).bind fun p => (p.funcs.get? 1).bind fun fd =>
    some (fd.dfg.values.get? 0x40000000).isNone) = some true := by decide
  obtain ⟨p, hp, hx⟩ := Option.bind_eq_some_iff.1 h1
  rw [hp, Option.bind_some] at h2
  obtain ⟨fd, hf, hx⟩ := Option.bind_eq_some_iff.1 hx
  obtain ⟨x, hx, hu⟩ := Option.map_eq_some_iff.1 hx
  rw [hf, Option.bind_some] at h2
  refine ⟨p, anyReach_run ops hp, fun he => ?_⟩
  obtain ⟨y, ⟨fd', hf', hy⟩, _⟩ := (he 1 1 x ⟨fd, hf, hx⟩ 0x40000000).1 (by rw [hu]; simp)
  rw [hf] at hf'; cases hf'
  rw [hy] at h2; cases h2

/-! ### C03 -/

/-- C03 for all histories satisfying `Op.Ok`, including removal of functions: operands and targets
are live, so looking up an operand never panics. -/
theorem C03_no_dangling_operands_partial {p : Program} (r : Reach (fun p op => op.Ok p) p)
    (hmax : p.ids.nextGlobal ≤ localStart) :
    Closed p ∧
    ∀ f fd u x, p.funcs.get? f = some fd → fd.dfg.values.get? u = some x →
      (∀ v ∈ operands x.kind, ∃ y, (p.ctx fd).data v = some y) ∧
      ∀ b ∈ targets x.kind, ∃ y, fd.dfg.bbs.get? b = some y := by
  obtain ⟨S, hi⟩ := r.inv hmax
  refine ⟨⟨hi.closedL, hi.closedG, hi.closedB⟩, fun f fd u x hf hu => ⟨fun v hv => ?_, fun b hb => ?_⟩⟩
  · rw [← Option.isSome_iff_exists, data_isSome_iff]
    rcases hi.closedL f u v ⟨x, ⟨fd, hf, hu⟩, hv⟩ with ⟨y, hy⟩ | ⟨y, fd', hf', hy⟩
    · exact .inl (Option.isSome_iff_exists.2 ⟨y, hy⟩)
    · rw [hf] at hf'; cases hf'
      exact .inr (Option.isSome_iff_exists.2 ⟨y, hy⟩)
  · obtain ⟨y, fd', hf', hy⟩ := hi.closedB f u b ⟨x, ⟨fd, hf, hu⟩, hb⟩
    rw [hf] at hf'; cases hf'
    exact ⟨y, hy⟩

example : ∃ p, Reach (fun p op => op.Ok p) p ∧ p.ids.nextGlobal ≤ localStart ∧
    LocalUse p 1 0x40000004 2 ∧ Targets p 1 0x40000005 2 := by
  obtain ⟨p, hp⟩ := Option.isSome_iff_exists.1 sampleProg_isSome
  have e1 : sampleProg.map (fun p => decide (p.ids.nextGlobal ≤ localStart)) = some true := by decide
  have e2 : (sampleProg.bind (fun p => (p.funcs.get? 1).bind
    (fun fd => (fd.dfg.values.get? 0x40000004).map (·.kind)))) = some (.store 0x40000003 2) := by decide
  have e3 : (sampleProg.bind (fun p => (p.funcs.get? 1).bind
    (fun fd => (fd.dfg.values.get? 0x40000005).map (·.kind)))) = some (.jump 2 [0x40000003]) := by decide
  rw [hp] at e1 e2 e3
  simp only [Option.map_some, Option.some.injEq, decide_eq_true_eq, Option.bind_some,
    Option.bind_eq_some_iff, Option.map_eq_some_iff] at e1 e2 e3
  obtain ⟨fd, h1, x, h2, h3⟩ := e2
  obtain ⟨fd', h1', x', h2', h3'⟩ := e3
  exact ⟨p, Reach.run _ (.init _ (Nat.le_refl _) (Nat.le_refl _)) (fun q op h => (sampleOps_ok q op h).1) hp, e1,
    ⟨x, ⟨fd, h1, h2⟩, by rw [h3]; decide⟩, ⟨x', ⟨fd', h1', h2'⟩, by rw [h3']; decide⟩⟩

/-- Without `Op.Ok` a dangling operand is reachable: after `update_value` lost the users, the used
value can be removed. -/
theorem C03_violated_by_update : ∃ p, AnyReach p ∧ ¬ Closed p := by
  let ops : List Op := [ .newFuncDef ['@', 'f'] [] .unit, .newLocal 1 (.val (.integer 1)),
    .newLocal 1 (.ret (some 0x40000000)), .updateLocal 1 0x40000000 (fun d => d.clone),
    .removeLocal 1 0x40000000 ]
  have h1 : (((Program.new Ids.init).run ops).bind fun p => (p.funcs.get? 1).bind fun fd =>
    some (fd.dfg.values.get? 0x40000000).isNone) = some true := by decide
  have h2 : (((Program.new Ids.init).run ops).bind fun p => (p.funcs.get? 1).bind fun fd =>
    (fd.dfg.values.get? 0x40000001).map (·.kind)) = some (.ret (some 0x40000000)) := by decide
  have h3 : (((Program.new Ids.init).run ops).map fun p => (p.values.get? 0x40000000).isNone) = some true := by decide
  obtain ⟨p, hp, hx⟩ := Option.bind_eq_some_iff.1 h1
  rw [hp] at h2 h3
  rw [Option.bind_some] at h2
  obtain ⟨fd, hf, hx⟩ := Option.bind_eq_some_iff.1 hx
  rw [hf, Option.bind_some] at h2
  obtain ⟨y, hy, hk⟩ := Option.map_eq_some_iff.1 h2
  refine ⟨p, anyReach_run ops hp, fun he => ?_⟩
  rcases he.locals 1 0x40000001 0x40000000 ⟨y, ⟨fd, hf, hy⟩, by rw [hk]; decide⟩ with ⟨x, hg⟩ | ⟨x, fd', hf', hl⟩
  · rw [GlobalVal] at hg; rw [Option.map_some, hg] at h3; cases h3
  · rw [hf] at hf'; cases hf'
    rw [hl] at hx; cases hx

/-! ### C11 -/

/-- C11: the iterators over uses yield the operands (with multiplicity, in order) and the targets,
for every instruction, and their items are exactly the items up to the first `None`. -/
theorem C11_operand_enumeration (k : VKind) :
    k.valueUses = operands k ∧ k.bbUses = targets k ∧
    (∀ i, k.valueUseAt i = (operands k)[i]?) ∧ (∀ i, k.bbUseAt i = (targets k)[i]?) :=
  ⟨valueUses_eq k, bbUses_eq k, valueUseAt_eq k, bbUseAt_eq k⟩

example : (VKind.branch 1 2 3 [4, 5] [6, 4]).valueUses = [1, 4, 5, 6, 4] := by decide

end Koopa
