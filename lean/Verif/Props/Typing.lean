import Verif.Lemmas.TypingOps
import Verif.Props.Uses
/-!
C08: builders only create well-typed instructions.
-/
namespace Koopa
open Spec

/-- C08: after any history of calls that respect `Op.Ok` and `Op.TyOk` (replacements keep the type),
every live value obeys the typing rule of its instruction with respect to the present types of its
operands, target blocks and callees. -/
theorem C08_well_typed {p : Program} (r : Reach (fun p op => op.Ok p ∧ op.TyOk p) p)
    (hmax : p.ids.nextGlobal ≤ localStart) : WellTyped p := r.wellTyped hmax

/-- Every builder method alone, from any program state at all: what it creates is well-typed with
respect to the types its operands have at that moment. -/
theorem C08_builder_checks {p : Program} {f : Func} {i : LocalInst} {p' : Program} {v : Value}
    (hr : AnyReach p) (hi : i.notRaw) (h : p.newLocal f i = some (p', v)) :
    ∃ fd d, p.funcs.get? f = some fd ∧ i.build ((p.ctx fd).querier p.funcTys) = some d ∧
      LocalVal p' f v d ∧ InstTy (HasTy p f) (ParamTys p f) (FuncTy p) d.kind d.ty := by
  unfold Program.newLocal Program.newLocalData Program.onDfg Ctx.newValueData at h
  simp only [Option.bind_eq_bind, Option.bind_eq_some_iff, Option.some.injEq, Prod.mk.injEq] at h
  obtain ⟨fd, hf, d, hd, p1, ⟨fd', hf', c, ⟨c1, _, c2, _, rfl⟩, rfl⟩, rfl, rfl⟩ := h
  refine ⟨fd, d, hf, hd, ⟨_, Map.get?_insert_self .., Map.get?_insert_self ..⟩, ?_⟩
  exact LocalInst.build_typed hr.linv hf hi hd

theorem sampleOps_tyOk (q : Program) (op : Op) (h : op ∈ sampleOps.dropLast) : op.Ok q ∧ op.TyOk q := by
  simp only [sampleOps, List.dropLast, List.mem_cons, List.not_mem_nil, or_false] at h
  rcases h with h|h|h|h|h|h|h|h|h|h|h|h|h|h|h|h <;> subst h <;>
    simp [Op.Ok, Op.TyOk, GlobalInst.rawOk, LocalInst.rawOk, ValInst.noRaw, GlobalInst.notRaw,
      LocalInst.notRaw, ValInst.notRaw]

/-- The sample program, including its replacement, meets the hypotheses. -/
example : ∃ p, Reach (fun p op => op.Ok p ∧ op.TyOk p) p ∧ p.ids.nextGlobal ≤ localStart ∧
    (∃ x, LocalVal p 1 0x40000005 x ∧ x.kind = .jump 2 [0x40000003]) := by
  let pre := (Program.new Ids.init).run sampleOps.dropLast
  have e0 : pre.isSome = true := by decide
  obtain ⟨q, hq⟩ := Option.isSome_iff_exists.1 e0
  have rq := Reach.run _ (.init _ (Nat.le_refl _) (Nat.le_refl _)) sampleOps_tyOk hq
  have e1 : (pre.bind (fun p => p.step (.replaceLocal 1 0x40000003 (.binary .mul 0x40000000 0x40000000)))).isSome
      = true := by decide
  have e2 : (pre.bind fun p => (p.funcs.get? 1).bind fun fd => (fd.dfg.values.get? 0x40000003).map (·.ty)) =
      some .i32 := by decide
  have e3 : (pre.bind (fun p => p.step (.replaceLocal 1 0x40000003 (.binary .mul 0x40000000 0x40000000)))).map
    (fun p => decide (p.ids.nextGlobal ≤ localStart)) = some true := by decide
  have e4 : (pre.bind (fun p => p.step (.replaceLocal 1 0x40000003 (.binary .mul 0x40000000 0x40000000)))).bind
    (fun p => (p.funcs.get? 1).bind fun fd => (fd.dfg.values.get? 0x40000005).map (·.kind)) =
      some (.jump 2 [0x40000003]) := by decide
  rw [show pre = some q from hq] at e1 e2 e3 e4
  obtain ⟨p, hp⟩ := Option.isSome_iff_exists.1 e1
  rw [hp] at e3 e4
  rw [Option.bind_some] at hp
  simp only [Option.map_some, Option.some.injEq, decide_eq_true_eq, Option.bind_some,
    Option.bind_eq_some_iff, Option.map_eq_some_iff] at e2 e3 e4
  obtain ⟨fd, hf, y, hy, hyt⟩ := e2
  refine ⟨p, Reach.step (op := .replaceLocal 1 0x40000003 (.binary .mul 0x40000000 0x40000000)) rq
    ⟨trivial, trivial, ?_⟩ hp, e3, ?_⟩
  · rintro fd' d x hf' hd ⟨fd'', hf'', hx⟩
    rw [hf] at hf'; cases hf'
    rw [hf] at hf''; cases hf''
    rw [hy] at hx; cases hx
    simp only [LocalInst.build, Option.bind_eq_bind, Option.bind_eq_some_iff, assert_eq_some,
      Bool.and_eq_true, Ty.isI32_iff, decide_eq_true_eq, Option.some.injEq] at hd
    obtain ⟨_, _, _, _, _, ⟨rfl, _⟩, rfl⟩ := hd
    exact hyt.symm
  · obtain ⟨fd, h1, x, h2, h3⟩ := e4
    exact ⟨x, ⟨fd, h1, h2⟩, h3⟩

/-- Without the restriction on replacements the claim is false: replacing an allocation by an
integer leaves its load behind. -/
theorem C08_needs_type_preserving_replacement : ∃ p, AnyReach p ∧ ¬ WellTyped p := by
  let ops : List Op := [ .newFuncDef ['@', 'f'] [] .unit, .newLocal 1 (.alloc .i32),
    .newLocal 1 (.load 0x40000000), .replaceLocal 1 0x40000000 (.val (.integer 3)) ]
  have h1 : (((Program.new Ids.init).run ops).bind fun p => (p.funcs.get? 1).bind fun fd =>
    (fd.dfg.values.get? 0x40000000).map (·.ty)) = some .i32 := by decide
  have h2 : (((Program.new Ids.init).run ops).bind fun p => (p.funcs.get? 1).bind fun fd =>
    (fd.dfg.values.get? 0x40000001).map (·.kind)) = some (.load 0x40000000) := by decide
  have h3 : ((Program.new Ids.init).run ops).map (fun p => (p.values.get? 0x40000000).isNone) = some true := by
    decide
  obtain ⟨p, hp, h1⟩ := Option.bind_eq_some_iff.1 h1
  rw [hp] at h2 h3
  simp only [Option.map_some, Option.some.injEq, Option.bind_some, Option.isNone_iff_eq_none,
    Option.bind_eq_some_iff, Option.map_eq_some_iff] at h1 h2 h3
  obtain ⟨fd, hf, x, hx, hxt⟩ := h1
  obtain ⟨fd', hf', y, hy, hyk⟩ := h2
  refine ⟨p, anyReach_run ops hp, fun hw => ?_⟩
  have := hw.locals 1 0x40000001 y ⟨fd', hf', hy⟩
  rw [hyk] at this
  generalize hty : y.ty = t at this
  cases this with
  | load h =>
    obtain ⟨z, hz, hzt⟩ := h
    rcases hz with hz | ⟨fd'', hf'', hz⟩
    · have hz : p.values.get? 0x40000000 = some z := hz
      rw [h3] at hz; cases hz
    · rw [hf] at hf''; cases hf''
      rw [hx] at hz; cases hz
      rw [hxt] at hzt; cases hzt

end Koopa
