import Verif.Lemmas.Total
/-!
What is observable of a program apart from the recorded users, and the exact effect of the
operations that create entities on it.
-/
namespace Koopa
open Spec

/-- Type, name and kind of a value. -/
abbrev Sig := Ty × Option Str × VKind

/-- A program without the recorded users. -/
structure View where
  g : Value → Option Sig
  l : Func → Value → Option Sig
  b : Func → BB → Option (Option Str × List Value)
  head : Func → Option (Ty × Str × List Value)
  lay : Func → Option Layout
  insts : List Value
  fns : List Func
  ft : Func → Option Ty
  ids : Ids

/-- Name and parameters of a block. -/
def bshapeOf (x : Option BData) : Option (Option Str × List Value) := x.map (fun x => (x.name, x.params))

def Program.view (p : Program) : View where
  g v := shapeOf (p.values.get? v)
  l f v := shapeOf ((p.funcs.get? f).bind (fun fd => fd.dfg.values.get? v))
  b f v := bshapeOf ((p.funcs.get? f).bind (fun fd => fd.dfg.bbs.get? v))
  head f := (p.funcs.get? f).map (fun fd => (fd.ty, fd.name, fd.params))
  lay f := (p.funcs.get? f).map (·.layout)
  insts := p.instLayout
  fns := p.funcLayout
  ft f := p.funcTys.get? f
  ids := p.ids

/-- Type, name and kind of data. -/
def VData.shape (x : VData) : Sig := (x.ty, x.name, x.kind)

theorem newValueData_shape {c c' : Ctx} {v : Value} {data : VData} (h : c.newValueData v data = some c') :
    (∀ w, shapeOf (c'.d.values.get? w) = if w = v then some data.shape else shapeOf (c.d.values.get? w)) ∧
    (∀ w, shapeOf (c'.g.get? w) = shapeOf (c.g.get? w)) ∧
    (∀ w, bshapeOf (c'.d.bbs.get? w) = bshapeOf (c.d.bbs.get? w)) := by
  unfold Ctx.newValueData at h
  simp only [Option.bind_eq_bind, Option.bind_eq_some_iff, Option.some.injEq] at h
  obtain ⟨c1, h1, c2, h2, rfl⟩ := h
  have hs := (addUses_shape h1).trans (addBbUses_shape h2)
  refine ⟨fun w => ?_, hs.g, hs.b⟩
  show shapeOf ((c2.d.values.insert v data).get? w) = _
  rw [Map.get?_insert]
  split
  · rfl
  · exact hs.v w

/-- Effect of writing back a graph of which the shape is known. -/
theorem view_putCtx {p p' : Program} {f : Func} {fd : FData} {c : Ctx} (hf : p.funcs.get? f = some fd)
    (hv : p'.values = c.g) (hfn : p'.funcs = p.funcs.insert f { fd with dfg := c.d })
    (h1 : p'.instLayout = p.instLayout) (h2 : p'.funcLayout = p.funcLayout) (h3 : p'.funcTys = p.funcTys) :
    p'.view = { p.view with
      g := fun v => shapeOf (c.g.get? v)
      l := fun f' v => if f' = f then shapeOf (c.d.values.get? v) else p.view.l f' v
      b := fun f' v => if f' = f then bshapeOf (c.d.bbs.get? v) else p.view.b f' v
      ids := p'.ids } := by
  unfold Program.view
  simp only [hv, hfn, h1, h2, h3, Map.get?_insert, View.mk.injEq, true_and, and_true]
  refine ⟨?_, ?_, ?_, ?_⟩
  · funext f' v; by_cases h : f' = f <;> simp [h]
  · funext f' v; by_cases h : f' = f <;> simp [h]
  · funext f'; by_cases h : f' = f <;> simp [h, hf]
  · funext f'; by_cases h : f' = f <;> simp [h, hf]

theorem view_l_self {p : Program} {f : Func} {fd : FData} (hf : p.funcs.get? f = some fd) (v : Value) :
    p.view.l f v = shapeOf (fd.dfg.values.get? v) := by simp [Program.view, hf]

theorem view_b_self {p : Program} {f : Func} {fd : FData} (hf : p.funcs.get? f = some fd) (b : BB) :
    p.view.b f b = bshapeOf (fd.dfg.bbs.get? b) := by simp [Program.view, hf]

/-- A new local value. -/
theorem newLocal_view {p p' : Program} {f : Func} {i : LocalInst} {v : Value}
    (h : p.newLocal f i = some (p', v)) :
    ∃ fd data, p.funcs.get? f = some fd ∧ i.build ((p.ctx fd).querier p.funcTys) = some data ∧
      v = p.ids.nextLocal ∧
      p'.view = { p.view with
        l := fun f' w => if f' = f ∧ w = v then some data.shape else p.view.l f' w
        ids := { p.ids with nextLocal := v + 1 } } := by
  unfold Program.newLocal Program.newLocalData Program.onDfg at h
  simp only [Option.bind_eq_bind, Option.bind_eq_some_iff, Option.some.injEq, Prod.mk.injEq] at h
  obtain ⟨fd, hf, data, hb, _, ⟨fd', hf', c, hc, rfl⟩, rfl, rfl⟩ := h
  rw [hf] at hf'; cases hf'
  refine ⟨fd, data, hf, hb, rfl, ?_⟩
  obtain ⟨h1, h2, h3⟩ := newValueData_shape hc
  refine Eq.trans (view_putCtx (p := p) hf rfl rfl rfl rfl rfl) ?_
  simp only [View.mk.injEq, true_and]
  refine ⟨?_, ?_, ?_, rfl⟩
  · funext w; exact h2 w
  · funext f' w
    by_cases hff : f' = f
    · subst hff; simp only [if_true, true_and, view_l_self hf]; rw [h1]; rfl
    · simp [hff]
  · funext f' w
    by_cases hff : f' = f
    · subst hff; simp only [if_true, view_b_self hf]; rw [h3]; rfl
    · simp [hff]

theorem setName_shape {d d' : VData} {n : Option Str} (h : d.setName n = some d') :
    d'.shape = (d.ty, n, d.kind) ∧ validOptName n = true := by
  unfold VData.setName at h
  split at h
  · cases h; exact ⟨rfl, by assumption⟩
  · cases h

/-- Naming a local value. -/
theorem setLocalName_view {p p' : Program} {f : Func} {v : Value} {n : Option Str}
    (h : p.setLocalName f v n = some p') :
    ∃ t n0 k, p.view.l f v = some (t, n0, k) ∧
      p'.view = { p.view with
        l := fun f' w => if f' = f ∧ w = v then some (t, n, k) else p.view.l f' w } := by
  unfold Program.setLocalName Program.onDfg Ctx.setValueName at h
  simp only [Option.bind_eq_bind, Option.bind_eq_some_iff, Option.some.injEq] at h
  obtain ⟨fd, hf, c, ⟨data, hd, data', hd', rfl⟩, rfl⟩ := h
  have hs := setName_shape hd'
  refine ⟨data.ty, data.name, data.kind, ?_, ?_⟩
  · rw [view_l_self hf]; show shapeOf (fd.dfg.values.get? v) = _
    rw [show fd.dfg.values.get? v = some data from hd]; rfl
  · refine Eq.trans (view_putCtx (p := p) hf rfl rfl rfl rfl rfl) ?_
    simp only [View.mk.injEq, true_and]
    refine ⟨rfl, ?_, ?_, rfl⟩
    · funext f' w
      by_cases hff : f' = f
      · subst hff
        simp only [if_true, true_and, view_l_self hf]
        show shapeOf ((fd.dfg.values.insert v data').get? w) = _
        rw [Map.get?_insert]
        split
        · show some data'.shape = _; rw [hs.1]
        · rfl
      · simp [hff]
    · funext f' w
      by_cases hff : f' = f
      · subst hff; simp only [if_true, view_b_self hf]; rfl
      · simp [hff]

/-- The values that a list of parameters creates: ids from `next` on, numbered from `i`. -/
def paramSig (k : Nat → VKind) (next i : Nat) (ps : List (Option Str × Ty)) (w : Value) : Option Sig :=
  if w < next then none else (ps[w - next]?).map (fun q => (q.2, q.1, k (i + (w - next))))

/-- Handles `next, next+1, …`. -/
def paramHandles (next n : Nat) : List Value := List.range' next n

theorem paramSig_cons (k : Nat → VKind) (next i : Nat) (n : Option Str) (t : Ty)
    (ps : List (Option Str × Ty)) (w : Value) :
    paramSig k next i ((n, t) :: ps) w =
      if w = next then some (t, n, k i) else paramSig k (next + 1) (i + 1) ps w := by
  unfold paramSig
  by_cases h : w = next
  · subst h; simp
  · by_cases h2 : w < next
    · have : w < next + 1 := by omega
      simp [h2, h, this]
    · obtain ⟨d, hd⟩ : ∃ d, w = next + 1 + d := ⟨w - (next + 1), by omega⟩
      subst hd
      have e1 : ¬ next + 1 + d < next := by omega
      have e2 : next + 1 + d - next = d + 1 := by omega
      have e3 : ¬ next + 1 + d = next := by omega
      have e4 : ¬ next + 1 + d < next + 1 := by omega
      have e5 : next + 1 + d - (next + 1) = d := by omega
      simp only [e1, e2, e3, e4, e5, if_false, List.getElem?_cons_succ]
      congr 1
      funext q
      rw [show i + (d + 1) = i + 1 + d by omega]

theorem funcParams_view : ∀ (ps : List (Option Str × Ty)) (vs : Map Value VData) (next i : Nat)
    (vs' : Map Value VData) (hs : List Value), funcParams vs next i ps = some (vs', hs) →
    hs = paramHandles next ps.length ∧ (∀ q ∈ ps, validOptName q.1 = true) ∧
    ∀ w, shapeOf (vs'.get? w) = (paramSig VKind.funcArgRef next i ps w).or (shapeOf (vs.get? w))
  | [], vs, next, i, vs', hs, h => by
    simp only [funcParams, Option.some.injEq, Prod.mk.injEq] at h
    obtain ⟨rfl, rfl⟩ := h
    refine ⟨rfl, by simp, fun w => ?_⟩
    simp [paramSig]
  | (n, t) :: ps, vs, next, i, vs', hs, h => by
    simp only [funcParams, Option.bind_eq_bind, Option.bind_eq_some_iff, Option.some.injEq,
      Prod.mk.injEq] at h
    obtain ⟨data, hd, ⟨vs1, hs1⟩, h1, rfl, rfl⟩ := h
    have hs := setName_shape hd
    obtain ⟨e1, e2, e3⟩ := funcParams_view ps _ _ _ _ _ h1
    refine ⟨by rw [e1]; rfl, ?_, fun w => ?_⟩
    · intro q hq
      rcases List.mem_cons.1 hq with rfl | hq
      · exact hs.2
      · exact e2 q hq
    · rw [e3, paramSig_cons, Map.get?_insert]
      by_cases h : w = next
      · subst h
        simp only [if_true]
        have : paramSig VKind.funcArgRef (w + 1) (i + 1) ps w = none := by simp [paramSig]
        rw [this]
        show some data.shape = _
        rw [hs.1]; rfl
      · simp only [if_neg h]

theorem blockParams_view : ∀ (ps : List (Option Str × Ty)) (c : Ctx) (next i : Nat)
    (c' : Ctx) (hs : List Value), c.blockParams next i ps = some (c', hs) →
    hs = paramHandles next ps.length ∧ (∀ q ∈ ps, validOptName q.1 = true) ∧
    (∀ w, shapeOf (c'.d.values.get? w) =
      (paramSig VKind.blockArgRef next i ps w).or (shapeOf (c.d.values.get? w))) ∧
    (∀ w, shapeOf (c'.g.get? w) = shapeOf (c.g.get? w)) ∧
    (∀ w, bshapeOf (c'.d.bbs.get? w) = bshapeOf (c.d.bbs.get? w))
  | [], c, next, i, c', hs, h => by
    simp only [Ctx.blockParams, Option.some.injEq, Prod.mk.injEq] at h
    obtain ⟨rfl, rfl⟩ := h
    refine ⟨rfl, by simp, fun w => ?_, fun _ => rfl, fun _ => rfl⟩
    simp [paramSig]
  | (n, t) :: ps, c, next, i, c', hs, h => by
    simp only [Ctx.blockParams, Option.bind_eq_bind, Option.bind_eq_some_iff, Option.some.injEq,
      Prod.mk.injEq] at h
    obtain ⟨data, hd, c1, h1, ⟨c2, hs1⟩, h2, rfl, rfl⟩ := h
    have hs := setName_shape hd
    obtain ⟨k1, k2, k3⟩ := newValueData_shape h1
    obtain ⟨e1, e2, e3, e4, e5⟩ := blockParams_view ps _ _ _ _ _ h2
    refine ⟨by rw [e1]; rfl, ?_, fun w => ?_, fun w => by rw [e4, k2], fun w => by rw [e5, k3]⟩
    · intro q hq
      rcases List.mem_cons.1 hq with rfl | hq
      · exact hs.2
      · exact e2 q hq
    · rw [e3, paramSig_cons, k1]
      by_cases h : w = next
      · subst h
        simp only [if_true]
        have : paramSig VKind.blockArgRef (w + 1) (i + 1) ps w = none := by simp [paramSig]
        rw [this, hs.1]; rfl
      · simp only [if_neg h]

/-- A new function definition. -/
theorem newFuncDef_view {p p' : Program} {n : Str} {ps : List (Option Str × Ty)} {r : Ty} {f : Func}
    (h : p.newFuncDefWithParamNames n ps r = some (p', f)) :
    f = p.ids.nextFunc ∧ validName n = true ∧ (∀ q ∈ ps, validOptName q.1 = true ∧ q.2 ≠ .unit) ∧
      p'.view = { p.view with
        l := fun f' w => if f' = f then paramSig VKind.funcArgRef p.ids.nextLocal 0 ps w else p.view.l f' w
        b := fun f' w => if f' = f then none else p.view.b f' w
        head := fun f' => if f' = f then
          some (.func (ps.map (·.2)) r, n, paramHandles p.ids.nextLocal ps.length) else p.view.head f'
        lay := fun f' => if f' = f then some Layout.new else p.view.lay f'
        fns := p.view.fns ++ [f]
        ft := fun f' => if f' = f then some (.func (ps.map (·.2)) r) else p.view.ft f'
        ids := { p.ids with nextLocal := p.ids.nextLocal + ps.length, nextFunc := f + 1 } } := by
  unfold Program.newFuncDefWithParamNames Program.insertFunc checkSanity at h
  simp only [Option.bind_eq_bind, Option.bind_eq_some_iff, Option.some.injEq, Prod.mk.injEq] at h
  obtain ⟨_, ⟨_, ha, hb⟩, ⟨vs, hs⟩, hvs, rfl, rfl⟩ := h
  obtain ⟨e1, e2, e3⟩ := funcParams_view _ _ _ _ _ _ hvs
  rw [assert_eq_some] at ha hb
  refine ⟨rfl, ha, ?_, ?_⟩
  · intro q hq
    refine ⟨e2 q hq, fun hu => ?_⟩
    have := List.all_eq_true.1 hb q.2 (List.mem_map_of_mem hq)
    rw [hu] at this; cases this
  · unfold Program.view
    simp only [Map.get?_insert, View.mk.injEq, true_and, and_true]
    refine ⟨?_, ?_, ?_, ?_⟩
    · funext f' w
      by_cases hff : f' = p.ids.nextFunc
      · simp only [hff, if_true, Option.bind_some, e3 w]
        simp [shapeOf]
      · simp [hff]
    · funext f' w
      by_cases hff : f' = p.ids.nextFunc
      · simp only [hff, if_true, Option.bind_some]; rfl
      · simp [hff]
    · funext f'
      by_cases hff : f' = p.ids.nextFunc
      · simp [hff, e1]
      · simp [hff]
    · funext f'
      by_cases hff : f' = p.ids.nextFunc
      · simp [hff]
      · simp [hff]

/-- A new function declaration. -/
theorem newFuncDecl_view {p p' : Program} {n : Str} {ps : List Ty} {r : Ty} {f : Func}
    (h : p.newFuncDecl n ps r = some (p', f)) :
    f = p.ids.nextFunc ∧ validName n = true ∧ (∀ t ∈ ps, t ≠ .unit) ∧
      p'.view = { p.view with
        l := fun f' w => if f' = f then none else p.view.l f' w
        b := fun f' w => if f' = f then none else p.view.b f' w
        head := fun f' => if f' = f then some (.func ps r, n, []) else p.view.head f'
        lay := fun f' => if f' = f then some Layout.new else p.view.lay f'
        fns := p.view.fns ++ [f]
        ft := fun f' => if f' = f then some (.func ps r) else p.view.ft f'
        ids := { p.ids with nextFunc := f + 1 } } := by
  unfold Program.newFuncDecl Program.insertFunc checkSanity at h
  simp only [Option.bind_eq_bind, Option.bind_eq_some_iff, Option.some.injEq, Prod.mk.injEq] at h
  obtain ⟨_, ⟨_, ha, hb⟩, rfl, rfl⟩ := h
  rw [assert_eq_some] at ha hb
  refine ⟨rfl, ha, ?_, ?_⟩
  · intro q hq hu
    have := List.all_eq_true.1 hb q hq
    rw [hu] at this; cases this
  · unfold Program.view
    simp only [Map.get?_insert, View.mk.injEq, true_and, and_true]
    refine ⟨?_, ?_, ?_, ?_⟩
    · funext f' w
      by_cases hff : f' = p.ids.nextFunc
      · simp only [hff, if_true, Option.bind_some]; rfl
      · simp [hff]
    · funext f' w
      by_cases hff : f' = p.ids.nextFunc
      · simp only [hff, if_true, Option.bind_some]; rfl
      · simp [hff]
    · funext f'
      by_cases hff : f' = p.ids.nextFunc
      · simp [hff]
      · simp [hff]
    · funext f'
      by_cases hff : f' = p.ids.nextFunc
      · simp [hff]
      · simp [hff]

/-- A new block. -/
theorem newBbParams_view {p p' : Program} {f : Func} {n : Option Str} {ps : List (Option Str × Ty)} {b : BB}
    (h : p.newBbWithParamNames f n ps = some (p', b)) :
    (∃ fd, p.funcs.get? f = some fd) ∧ b = p.ids.nextBb ∧ validOptName n = true ∧
      (∀ q ∈ ps, validOptName q.1 = true ∧ q.2 ≠ .unit) ∧
      p'.view = { p.view with
        l := fun f' w => if f' = f then
          (paramSig VKind.blockArgRef p.ids.nextLocal 0 ps w).or (p.view.l f w) else p.view.l f' w
        b := fun f' w => if f' = f ∧ w = b then some (n, paramHandles p.ids.nextLocal ps.length)
          else p.view.b f' w
        ids := { p.ids with nextLocal := p.ids.nextLocal + ps.length, nextBb := b + 1 } } := by
  unfold Program.newBbWithParamNames at h
  simp only [Option.bind_eq_bind, Option.bind_eq_some_iff, Option.some.injEq, Prod.mk.injEq] at h
  obtain ⟨_, ha, _, hb, fd, hf, ⟨c, hs⟩, hc, rfl, rfl⟩ := h
  obtain ⟨e1, e2, e3, e4, e5⟩ := blockParams_view _ _ _ _ _ _ hc
  rw [assert_eq_some] at ha hb
  refine ⟨⟨fd, hf⟩, rfl, ha, ?_, ?_⟩
  · intro q hq
    refine ⟨e2 q hq, fun hu => ?_⟩
    have := List.all_eq_true.1 hb q hq
    rw [hu] at this; cases this
  · refine Eq.trans (view_putCtx (p := p) hf rfl rfl rfl rfl rfl) ?_
    simp only [View.mk.injEq, true_and]
    refine ⟨?_, ?_, ?_, rfl⟩
    · funext w; exact e4 w
    · funext f' w
      by_cases hff : f' = f
      · subst hff; simp only [if_true, view_l_self hf]; exact e3 w
      · simp [hff]
    · funext f' w
      by_cases hff : f' = f
      · subst hff
        simp only [if_true, true_and, view_b_self hf]
        show bshapeOf ((c.d.bbs.insert p.ids.nextBb _).get? w) = _
        rw [Map.get?_insert]
        split
        · simp [bshapeOf, e1]
        · exact e5 w
      · simp [hff]

theorem addGlobalUses_shape {u : Value} : ∀ (vs : List Value) (g g' : Map Value VData),
    addGlobalUses u g vs = some g' → ∀ w, shapeOf (g'.get? w) = shapeOf (g.get? w)
  | [], g, g', h, w => by simp only [addGlobalUses, Option.some.injEq] at h; rw [h]
  | v :: vs, g, g', h, w => by
    simp only [addGlobalUses] at h
    split at h
    · rename_i x hx
      rw [addGlobalUses_shape vs _ _ h w, Map.get?_insert]
      split
      · rename_i hw; subst hw; simp [hx, shapeOf, VData.addUser]
      · rfl
    · cases h

/-- A new global value. -/
theorem newGlobal_view {p p' : Program} {i : GlobalInst} {v : Value}
    (h : p.newGlobal i = some (p', v)) :
    ∃ data, i.build (globalQuerier p.values) = some data ∧ v = p.ids.nextGlobal ∧
      p'.view = { p.view with
        g := fun w => if w = v then some data.shape else p.view.g w
        insts := if data.kind.isGlobalAlloc then p.view.insts ++ [v] else p.view.insts
        ids := { p.ids with nextGlobal := v + 1 } } := by
  unfold Program.newGlobal Program.newGlobalData at h
  simp only [Option.bind_eq_bind, Option.bind_eq_some_iff, Option.some.injEq, Prod.mk.injEq] at h
  obtain ⟨data, hb, g, hg, rfl, rfl⟩ := h
  refine ⟨data, hb, rfl, ?_⟩
  unfold Program.view
  simp only [View.mk.injEq, and_true]
  funext w
  rw [Map.get?_insert]
  split
  · rfl
  · exact addGlobalUses_shape _ _ _ hg w

/-- Naming a global value. -/
theorem setGlobalName_view {p p' : Program} {v : Value} {n : Option Str}
    (h : p.setGlobalName v n = some p') :
    ∃ t n0 k, p.view.g v = some (t, n0, k) ∧
      p'.view = { p.view with g := fun w => if w = v then some (t, n, k) else p.view.g w } := by
  unfold Program.setGlobalName at h
  simp only [Option.bind_eq_bind, Option.bind_eq_some_iff, Option.some.injEq] at h
  obtain ⟨data, hd, data', hd', rfl⟩ := h
  have hs := setName_shape hd'
  refine ⟨data.ty, data.name, data.kind, ?_, ?_⟩
  · show shapeOf (p.values.get? v) = _; rw [hd]; rfl
  · unfold Program.view
    simp only [View.mk.injEq, and_true]
    funext w
    rw [Map.get?_insert]
    split
    · show some data'.shape = _; rw [hs.1]
    · rfl

/-- An edit of a layout. -/
theorem onLayout_view {p p' : Program} {f : Func} {op : Layout → Option Layout}
    (h : p.onLayout f op = some p') :
    ∃ l l', p.view.lay f = some l ∧ op l = some l' ∧
      p'.view = { p.view with lay := fun f' => if f' = f then some l' else p.view.lay f' } := by
  unfold Program.onLayout at h
  simp only [Option.bind_eq_bind, Option.bind_eq_some_iff, Option.some.injEq] at h
  obtain ⟨fd, hf, l, hl, rfl⟩ := h
  refine ⟨fd.layout, l, by simp [Program.view, hf], hl, ?_⟩
  unfold Program.view
  simp only [Map.get?_insert, View.mk.injEq, true_and, and_true]
  refine ⟨?_, ?_, ?_, ?_⟩
  · funext f' w; by_cases h : f' = f <;> simp [h, hf]
  · funext f' w; by_cases h : f' = f <;> simp [h, hf]
  · funext f'; by_cases h : f' = f <;> simp [h, hf]
  · funext f'; by_cases h : f' = f <;> simp [h]

end Koopa
