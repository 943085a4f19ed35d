import Verif.Lemmas.Total
import Verif.Props.Uses
/-!
C04 and C05: replacement keeps identity; removal is refused exactly when the value is used.
C42: the layouts of the program.
-/
namespace Koopa
open Spec

/-! ### C04 -/

/-- What replacing local `v` of `f` by instruction data `data` may change. -/
structure ReplaceFrame (p p' : Program) (f : Func) (v : Value) (data : VData) : Prop where
  /-- The handle is live with exactly the requested type, name and kind, and with the old users. -/
  self : ∃ old new, LocalVal p f v old ∧ LocalVal p' f v new ∧
    new.ty = data.ty ∧ new.name = data.name ∧ new.kind = data.kind ∧ new.usedBy = old.usedBy
  /-- Every other local keeps type, name and kind, and none appears or disappears. -/
  locals : ∀ g w, (g, w) ≠ (f, v) → ∀ ty name kind,
    (∃ y, LocalVal p' g w y ∧ y.ty = ty ∧ y.name = name ∧ y.kind = kind) ↔
    (∃ y, LocalVal p g w y ∧ y.ty = ty ∧ y.name = name ∧ y.kind = kind)
  globals : ∀ w ty name kind,
    (∃ y, GlobalVal p' w y ∧ y.ty = ty ∧ y.name = name ∧ y.kind = kind) ↔
    (∃ y, GlobalVal p w y ∧ y.ty = ty ∧ y.name = name ∧ y.kind = kind)
  blocks : ∀ g b name params,
    (∃ y, Block p' g b y ∧ y.name = name ∧ y.params = params) ↔
    (∃ y, Block p g b y ∧ y.name = name ∧ y.params = params)
  /-- Layouts, function types, parameters, names and counters are unchanged. -/
  rest : p'.instLayout = p.instLayout ∧ p'.funcLayout = p.funcLayout ∧ p'.funcTys = p.funcTys ∧
    p'.ids = p.ids ∧ ∀ g, (p'.funcs.get? g).map (fun fd => (fd.ty, fd.name, fd.params, fd.layout)) =
      (p.funcs.get? g).map (fun fd => (fd.ty, fd.name, fd.params, fd.layout))

/-- C04, for every program state whatsoever. -/
theorem C04_replace_keeps_identity {p p' : Program} {f : Func} {v : Value} {i : LocalInst}
    (h : p.replaceLocal f v i = some p') :
    ∃ fd data, p.funcs.get? f = some fd ∧ i.build ((p.ctx fd).querier p.funcTys) = some data ∧
      ReplaceFrame p p' f v data := by
  unfold Program.replaceLocal Program.onDfg at h
  simp only [Option.bind_eq_bind, Option.bind_eq_some_iff, Option.some.injEq] at h
  obtain ⟨fd, hf, data, hb, fd', hf', c, hc, rfl⟩ := h
  rw [hf] at hf'; cases hf'
  obtain ⟨⟨old, ho, hself⟩, hl, hg, hbb⟩ := replace_shape hc
  have hput := putCtx_put p f fd c
  have shape : ∀ (o : Option VData) ty name kind, (∃ y, o = some y ∧ y.ty = ty ∧ y.name = name ∧ y.kind = kind) ↔
      shapeOf o = some (ty, name, kind) := by
    intro o ty name kind; cases o <;> simp [shapeOf]
  have bshape : ∀ (o : Option BData) name params, (∃ y, o = some y ∧ y.name = name ∧ y.params = params) ↔
      o.map (fun x => (x.name, x.params)) = some (name, params) := by
    intro o name params; cases o <;> simp
  refine ⟨fd, data, hf, hb, ?_, ?_, ?_, ?_, ?_⟩
  · refine ⟨old, { data with usedBy := old.usedBy }, (localVal_self hf v old).2 ho, ?_, rfl, rfl, rfl, rfl⟩
    rw [hput.localVal, if_pos rfl]; exact hself
  · intro g w hne ty name kind
    by_cases hg : g = f
    · subst hg
      have hw : w ≠ v := by rintro rfl; exact hne rfl
      simp only [hput.localVal, if_true, localVal_self hf, shape, hl w hw]
    · simp only [hput.localVal, if_neg hg]
  · intro w ty name kind
    have hg' : shapeOf ((p.putCtx f fd c).values.get? w) = shapeOf (p.values.get? w) := hg w
    simp only [GlobalVal, shape, hg']
  · intro g b name params
    by_cases hg : g = f
    · subst hg
      simp only [hput.block, if_true, block_self hf, bshape, hbb]
    · simp only [hput.block, if_neg hg]
  · refine ⟨rfl, rfl, rfl, rfl, fun g => ?_⟩
    rw [hput.funcs]
    by_cases hg : g = f
    · subst hg; simp [hf]
    · simp [hg]

/-- C04, totality: replacing a live local succeeds as soon as the builder method accepts its
arguments, the new operands and targets are live, and the value does not become its own operand. -/
theorem C04_replace_succeeds {p : Program} {f : Func} {fd : FData} {v : Value} {i : LocalInst}
    {data : VData} (r : Reach (fun p op => op.Ok p) p) (hmax : p.ids.nextGlobal ≤ localStart)
    (hf : p.funcs.get? f = some fd) (hv : ∃ x, fd.dfg.values.get? v = some x)
    (hb : i.build ((p.ctx fd).querier p.funcTys) = some data)
    (hops : ∀ w ∈ operands data.kind, w ≠ v ∧ ((p.ctx fd).data w).isSome)
    (htgt : ∀ b ∈ targets data.kind, (fd.dfg.bbs.get? b).isSome) :
    ∃ p', p.replaceLocal f v i = some p' := by
  obtain ⟨S, hi⟩ := r.inv hmax
  obtain ⟨x, hx⟩ := hv
  obtain ⟨c, hc⟩ := hi.replace_total hf hx hops htgt
  exact ⟨p.putCtx f fd c, by
    simp only [Program.replaceLocal, Program.onDfg, hf, hb, hc, Option.bind_eq_bind, Option.bind_some]⟩

/-- The hypotheses of both C04 theorems hold for the sample program and a replacement of its sum. -/
example : ∃ p p', Reach (fun p op => op.Ok p) p ∧ p.ids.nextGlobal ≤ localStart ∧
    p.replaceLocal 1 0x40000003 (.binary .sub 0x40000000 0x40000002) = some p' := by
  obtain ⟨p, hp⟩ := Option.isSome_iff_exists.1 sampleProg_isSome
  have e1 : sampleProg.map (fun p => decide (p.ids.nextGlobal ≤ localStart)) = some true := by decide
  have e2 : (sampleProg.bind (fun p =>
    p.replaceLocal 1 0x40000003 (.binary .sub 0x40000000 0x40000002))).isSome = true := by decide
  rw [hp] at e1 e2
  simp only [Option.map_some, Option.some.injEq, decide_eq_true_eq, Option.bind_some] at e1 e2
  obtain ⟨p', hp'⟩ := Option.isSome_iff_exists.1 e2
  exact ⟨p, p', Reach.run _ (.init _ (Nat.le_refl _) (Nat.le_refl _)) (fun q op h => (sampleOps_ok q op h).1) hp,
    e1, hp'⟩

/-! ### C05 -/

/-- `v` occurs in no list of users. -/
def NotRecorded (p : Program) (v : Value) : Prop :=
  (∀ f w x, LocalVal p f w x → v ∉ x.usedBy) ∧ (∀ w x, GlobalVal p w x → v ∉ x.usedBy) ∧
  ∀ f b x, Block p f b x → v ∉ x.usedBy

/-- C05 for local values: removal succeeds exactly if no live value mentions the value, and then
the value is gone and recorded nowhere. -/
theorem C05_remove_local {p : Program} {f : Func} {v : Value} {x : VData}
    (r : Reach (fun p op => op.Ok p) p) (hmax : p.ids.nextGlobal ≤ localStart)
    (hv : LocalVal p f v x) :
    ((∃ p', p.removeLocal f v = some p') ↔ ∀ g u, ¬ LocalUse p g u v) ∧
    ∀ p', p.removeLocal f v = some p' → (∀ g y, ¬ LocalVal p' g v y) ∧ NotRecorded p' v := by
  obtain ⟨S, hi⟩ := r.inv hmax
  obtain ⟨fd, hf, hx⟩ := id hv
  have hcl : ∀ g u, LocalUse p g u v → g = f := by
    intro g u h
    rcases hi.closedL g u v h with ⟨y, hy⟩ | ⟨y, hy⟩
    · have := hi.gRange v y hy; have := hi.lRange f v x hv; have := hi.gMax; omega
    · exact hi.lDisj g f v y x hy hv
  refine ⟨⟨?_, ?_⟩, ?_⟩
  · rintro ⟨p', h⟩ g u hu
    have := hcl g u hu; subst this
    unfold Program.removeLocal Program.onDfg at h
    simp only [Option.bind_eq_bind, Option.bind_eq_some_iff, Option.some.injEq,
      Option.map_eq_some_iff] at h
    obtain ⟨fd', hf', c, ⟨⟨c', data⟩, hc, rfl⟩, rfl⟩ := h
    rw [hf] at hf'; cases hf'
    obtain ⟨ho, hn, _⟩ := removeValue_edit (hi.ctxDisj hf) hc
    have hxd : x = data := Option.some.inj (hx.symm.trans ho)
    subst hxd
    have := (hi.localUses g v x hv u).2 hu
    rw [hn] at this; cases this
  · intro hno
    have hn : x.usedBy = [] := by
      cases hu : x.usedBy with
      | nil => rfl
      | cons u us => exact absurd ((hi.localUses f v x hv u).1 (by rw [hu]; simp)) (hno f u)
    obtain ⟨c, hc⟩ := hi.remove_total hf hx hn
    exact ⟨p.putCtx f fd c, by
      simp only [Program.removeLocal, Program.onDfg, hf, hc, Option.bind_eq_bind, Option.bind_some,
        Option.map_some]⟩
  · intro p' h
    have hi' := hi.removeLocal h
    have hgone : ∀ g y, ¬ LocalVal p' g v y := by
      unfold Program.removeLocal Program.onDfg at h
      simp only [Option.bind_eq_bind, Option.bind_eq_some_iff, Option.some.injEq,
        Option.map_eq_some_iff] at h
      obtain ⟨fd', hf', c, ⟨⟨c', data⟩, hc, rfl⟩, rfl⟩ := h
      rw [hf] at hf'; cases hf'
      obtain ⟨_, _, he⟩ := removeValue_edit (hi.ctxDisj hf) hc
      intro g y hy
      rw [(putCtx_put p f fd c').localVal] at hy
      by_cases hg : g = f
      · rw [if_pos hg, he.self] at hy; cases hy
      · rw [if_neg hg] at hy; exact hg (hi.lDisj g f v y x hy hv)
    have hnoS : ∀ w, ¬ S v w := fun w hs => (hi.stale v w hs).2.2.2 f x hv
    refine ⟨hgone, fun g w y hy hu => ?_, fun w y hy hu => ?_, fun g b y hy hu => ?_⟩
    · obtain ⟨z, hz, _⟩ := (hi'.localUses g w y hy v).1 hu
      exact hgone g z hz
    · rcases (hi'.globalUses w y hy v).1 hu with ⟨z, hz, _⟩ | ⟨g, z, hz, _⟩ | hs
      · have := hi'.gRange v z hz; have := hi.lRange f v x hv; have := hi'.gMax; omega
      · exact hgone g z hz
      · exact hnoS w hs
    · obtain ⟨z, hz, _⟩ := (hi'.blockUses g b y hy v).1 hu
      exact hgone g z hz

/-- C05 for global values, for histories that remove no functions: removal succeeds exactly if no
live value mentions the global, returns its data, and then it is gone and recorded nowhere. The full
statement is false, see `C05_violated_by_remove_func`. -/
theorem C05_remove_global_partial {p : Program} {v : Value} {x : VData}
    (r : Reach (fun p op => op.Ok p ∧ op.NoRemoveFunc) p) (hmax : p.ids.nextGlobal ≤ localStart)
    (hv : GlobalVal p v x) :
    ((∃ p', p.removeGlobal v = some (p', x)) ↔ (∀ u, ¬ GlobalUse p u v) ∧ ∀ g u, ¬ LocalUse p g u v) ∧
    ∀ p' y, p.removeGlobal v = some (p', y) →
      y = x ∧ (∀ z, ¬ GlobalVal p' v z) ∧ NotRecorded p' v := by
  have hi := r.invExact hmax
  have hbi := r.linv
  refine ⟨⟨?_, ?_⟩, ?_⟩
  · rintro ⟨p', h⟩
    unfold Program.removeGlobal at h
    simp only [Option.bind_eq_bind, Option.bind_eq_some_iff, guard] at h
    obtain ⟨data, hd, _, _, _, hgd, _⟩ := h
    have hxd : x = data := Option.some.inj (hv.symm.trans hd)
    subst hxd
    have hn : x.usedBy = [] := by
      by_cases hq : x.usedBy = []
      · exact hq
      · rw [if_neg hq] at hgd; cases hgd
    have := hi.globalUses v x hv
    simp only [hn, List.not_mem_nil, false_iff, not_or, not_exists] at this
    exact ⟨fun u => (this u).1, fun g u => (this u).2.1 g⟩
  · rintro ⟨h1, h2⟩
    have hn : x.usedBy = [] := by
      cases hu : x.usedBy with
      | nil => rfl
      | cons u us =>
        rcases (hi.globalUses v x hv u).1 (by rw [hu]; simp) with h | ⟨g, h⟩ | h
        · exact absurd h (h1 u)
        · exact absurd h (h2 g u)
        · exact h.elim
    have hlay : ∃ lay, p.dropInst v x.kind = some lay := by
      unfold Program.dropInst
      by_cases hk : x.kind.isGlobalAlloc = true
      · have hm : v ∈ p.instLayout := (hbi.iLayout v).2 ⟨x.kind, by rw [show p.values.get? v = some x from hv]; rfl, hk⟩
        rw [if_pos hk, if_pos hm]; exact ⟨_, rfl⟩
      · rw [if_neg hk]; exact ⟨_, rfl⟩
    obtain ⟨lay, hlay⟩ := hlay
    have hops : ∀ w ∈ operands x.kind, ((p.values.erase v).get? w).isSome := by
      intro w hw
      have huse : GlobalUse p v w := ⟨x, hv, hw⟩
      have hne : w ≠ v := by rintro rfl; exact h1 w huse
      obtain ⟨y, hy⟩ := hi.closedG v w huse
      rw [Map.get?_erase_ne _ hne]; exact Option.isSome_iff_exists.2 ⟨y, hy⟩
    obtain ⟨g', hg'⟩ := delGlobalUses_isSome (u := v) hops
    have hv' : p.values.get? v = some x := hv
    refine ⟨{ p with values := g', instLayout := lay }, ?_⟩
    unfold Program.removeGlobal
    simp only [Option.bind_eq_bind, hv', Option.bind_some, hlay, hn, guard, if_true, valueUses_eq, hg',
      pure]
  · intro p' y h
    have hi' := hi.removeGlobal h
    unfold Program.removeGlobal at h
    simp only [Option.bind_eq_bind, Option.bind_eq_some_iff, Option.some.injEq, Prod.mk.injEq] at h
    obtain ⟨data, hd, lay, _, _, _, g, hg, rfl, rfl⟩ := h
    have hxd : x = data := Option.some.inj (hv.symm.trans hd)
    subst hxd
    have hgone : ∀ z, ¬ GlobalVal { p with values := g, instLayout := lay } v z := by
      intro z hz
      have hz : g.get? v = some z := hz
      rw [(delGlobalUses_eq hg).1 v, Map.get?_erase_self] at hz; cases hz
    have hr := hi.gRange v x hv
    have hnl : ∀ f z, ¬ LocalVal { p with values := g, instLayout := lay } f v z := by
      intro f z hz
      have := hi.lRange f v z hz; have := hi.gMax; omega
    refine ⟨rfl, hgone, fun f w z hz hu => ?_, fun w z hz hu => ?_, fun f b z hz hu => ?_⟩
    · obtain ⟨a, ha, _⟩ := (hi'.localUses f w z hz v).1 hu
      exact hnl f a ha
    · rcases (hi'.globalUses w z hz v).1 hu with ⟨a, ha, _⟩ | ⟨f, a, ha, _⟩ | hs
      · exact hgone a ha
      · exact hnl f a ha
      · exact hs.elim
    · obtain ⟨a, ha, _⟩ := (hi'.blockUses f b z hz v).1 hu
      exact hnl f a ha

/-- The sample program has a removable local (the return), a used local (the product) and a used
global. -/
example : ∃ p, Reach (fun p op => op.Ok p ∧ op.NoRemoveFunc) p ∧ p.ids.nextGlobal ≤ localStart ∧
    (p.removeLocal 1 0x40000006).isSome ∧ (p.removeLocal 1 0x40000003).isNone ∧
    (p.removeGlobal 2).isNone := by
  obtain ⟨p, hp⟩ := Option.isSome_iff_exists.1 sampleProg_isSome
  have e1 : sampleProg.map (fun p => decide (p.ids.nextGlobal ≤ localStart) &&
    (p.removeLocal 1 0x40000006).isSome && (p.removeLocal 1 0x40000003).isNone &&
    (p.removeGlobal 2).isNone) = some true := by decide
  rw [hp] at e1
  simp only [Option.map_some, Option.some.injEq, Bool.and_eq_true, decide_eq_true_eq] at e1
  exact ⟨p, Reach.run _ (.init _ (Nat.le_refl _) (Nat.le_refl _)) sampleOps_ok hp, e1.1.1.1, e1.1.1.2, e1.1.2, e1.2⟩

/-- After `remove_func` a global that nobody uses any more cannot be removed. -/
theorem C05_violated_by_remove_func : ∃ p, Reach (fun p op => op.Ok p) p ∧
    (∃ x, GlobalVal p 2 x) ∧ (∀ u, ¬ GlobalUse p u 2) ∧ (∀ g u, ¬ LocalUse p g u 2) ∧
    p.removeGlobal 2 = none := by
  let ops : List Op := [ .newGlobal (.val (.integer 5)), .newGlobal (.globalAlloc 1),
    .newFuncDef ['@', 'f'] [] .unit, .newLocal 1 (.load 2), .removeFunc 1 ]
  have h1 : ((Program.new Ids.init).run ops).map (fun p => (p.removeGlobal 2).isNone) = some true := by decide
  have h2 : ((Program.new Ids.init).run ops).map (fun p => p.funcs.entries.length) = some 0 := by decide
  have h3 : ((Program.new Ids.init).run ops).map (fun p => p.values.entries.map (fun e => (e.1, e.2.kind))) =
    some [(1, .integer 5), (2, .globalAlloc 1)] ∨
    ((Program.new Ids.init).run ops).map (fun p => p.values.entries.map (fun e => (e.1, e.2.kind))) =
    some [(2, .globalAlloc 1), (1, .integer 5)] := by decide
  have h4 : (((Program.new Ids.init).run ops).bind (fun p => p.values.get? 2)).isSome = true := by decide
  obtain ⟨p, hp, h1⟩ := Option.map_eq_some_iff.1 h1
  rw [hp] at h2 h3 h4
  simp only [Option.map_some, Option.some.injEq, List.length_eq_zero_iff, Option.bind_some] at h2 h3 h4
  refine ⟨p, Reach.run ops (.init _ (Nat.le_refl _) (Nat.le_refl _)) ?_ hp,
    Option.isSome_iff_exists.1 h4, ?_, ?_, by simpa using h1⟩
  · intro q op h
    simp only [ops, List.mem_cons, List.not_mem_nil, or_false] at h
    rcases h with h|h|h|h|h <;> subst h <;>
      simp [Op.Ok, GlobalInst.rawOk, LocalInst.rawOk, ValInst.noRaw]
  · rintro u ⟨y, hy, hm⟩
    have hmem : (u, y.kind) ∈ p.values.entries.map (fun e => (e.1, e.2.kind)) :=
      List.mem_map.2 ⟨(u, y), Map.mem_of_lookup hy, rfl⟩
    have : y.kind = .integer 5 ∨ y.kind = .globalAlloc 1 := by
      rcases h3 with h3 | h3 <;> rw [h3] at hmem <;> simp at hmem <;> grind
    rcases this with h | h <;> rw [h] at hm <;> simp [operands] at hm
  · rintro g u ⟨y, ⟨fd, hf, _⟩, _⟩
    have := Map.mem_of_lookup hf
    rw [h2] at this; cases this

/-! ### C42 -/

/-- C42: after any history of calls the function order lists exactly the live functions, without
repetition and in creation order (ids increase), and the global order exactly the live global
allocations, likewise. Function types are recorded for exactly the live functions. -/
theorem C42_program_layouts {p : Program} (r : AnyReach p) :
    (∀ f, f ∈ p.funcLayout ↔ ∃ fd, p.funcs.get? f = some fd) ∧
    p.funcLayout.Pairwise (· < ·) ∧
    (∀ f, p.funcTys.get? f = (p.funcs.get? f).map (·.ty)) ∧
    (∀ v, v ∈ p.instLayout ↔ ∃ x, GlobalVal p v x ∧ ∃ i, x.kind = .globalAlloc i) ∧
    p.instLayout.Pairwise (· < ·) := by
  have hi := Reach.linv r
  refine ⟨hi.fLayout, hi.fSorted, hi.fTys, fun v => ?_, hi.iSorted⟩
  rw [hi.iLayout]
  constructor
  · rintro ⟨k, hk, ha⟩
    obtain ⟨x, hx, rfl⟩ := Option.map_eq_some_iff.1 hk
    refine ⟨x, hx, ?_⟩
    cases hkk : x.kind <;> simp [hkk, VKind.isGlobalAlloc] at ha ⊢
  · rintro ⟨x, hx, i, hk⟩
    refine ⟨x.kind, ?_, by rw [hk]; rfl⟩
    rw [show p.values.get? v = some x from hx]; rfl

example : ∃ p, AnyReach p ∧ p.funcLayout = [1] ∧ p.instLayout = [2] := by
  obtain ⟨p, hp⟩ := Option.isSome_iff_exists.1 sampleProg_isSome
  have e1 : sampleProg.map (fun p => (p.funcLayout, p.instLayout)) = some ([1], [2]) := by decide
  rw [hp] at e1
  simp only [Option.map_some, Option.some.injEq, Prod.mk.injEq] at e1
  exact ⟨p, anyReach_run _ hp, e1.1, e1.2⟩

end Koopa
