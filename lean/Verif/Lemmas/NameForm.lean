import Verif.Spec.NameForm
import Verif.Lemmas.Total
/-!
The names of a program stay well formed under the operations of the API.
-/
namespace Koopa
open Spec

variable {P : Prop}

theorem validName_iff {n : Str} : validName n = true ↔ SigilName n := by
  unfold validName SigilName
  constructor
  · intro h
    split at h
    · rename_i c d r
      simp only [Bool.or_eq_true, beq_iff_eq] at h
      exact ⟨c, d :: r, rfl, h, by simp⟩
    · cases h
  · rintro ⟨c, r, rfl, h, hr⟩
    cases r with
    | nil => exact absurd rfl hr
    | cons d r => simpa using h

theorem validOptName_iff {n : Option Str} : validOptName n = true ↔ SigilOptName n := by
  unfold SigilOptName
  cases n with
  | none => simp [validOptName]
  | some n => simp [validOptName, validName_iff]

theorem setName_eq {d d' : VData} {n : Option Str} (h : d.setName n = some d') :
    SigilOptName d'.name := by
  unfold VData.setName at h
  split at h
  · rename_i hv
    cases h
    exact validOptName_iff.1 hv
  · cases h

theorem assert_eq {b : Bool} {u : Unit} (h : assert b = some u) : b = true := by
  unfold assert at h
  split at h
  · assumption
  · cases h

/-- The names in a data flow graph and the globals it sees. -/
structure Ctx.NameForm (P : Prop) (c : Ctx) : Prop where
  g : ∀ v x, c.g.get? v = some x → SigilOptName x.name
  v : ∀ v x, c.d.values.get? v = some x → SigilOptName x.name
  b : P → ∀ v x, c.d.bbs.get? v = some x → SigilOptName x.name

theorem shapeOf_some {a b : Option VData} {x : VData} (h : shapeOf a = shapeOf b) (ha : a = some x) :
    ∃ y, b = some y ∧ y.name = x.name := by
  subst ha
  cases b with
  | none => simp [shapeOf] at h
  | some y =>
    simp only [shapeOf, Option.map_some, Option.some.injEq, Prod.mk.injEq] at h
    exact ⟨y, rfl, h.2.1.symm⟩

theorem Ctx.NameForm.shape {c c' : Ctx} (hc : c.NameForm P) (h : c.SameShape c') : c'.NameForm P := by
  refine ⟨fun v x hx => ?_, fun v x hx => ?_, fun hP v x hx => ?_⟩
  · obtain ⟨y, hy, e⟩ := shapeOf_some (h.g v) hx
    rw [← e]; exact hc.g v y hy
  · obtain ⟨y, hy, e⟩ := shapeOf_some (h.v v) hx
    rw [← e]; exact hc.v v y hy
  · have hb := h.b v
    rw [hx] at hb
    cases hy : c.d.bbs.get? v with
    | none => rw [hy] at hb; cases hb
    | some y =>
      rw [hy] at hb
      simp only [Option.map_some, Option.some.injEq, Prod.mk.injEq] at hb
      rw [hb.1]; exact hc.b hP v y hy

theorem Ctx.NameForm.insertLocal {c : Ctx} (hc : c.NameForm P) {v : Value} {x : VData}
    (hx : SigilOptName x.name) : (c.insertLocal v x).NameForm P := by
  refine ⟨hc.g, fun w y hy => ?_, hc.b⟩
  simp only [Ctx.insertLocal, Map.get?_insert] at hy
  split at hy
  · cases hy; exact hx
  · exact hc.v w y hy

theorem Ctx.NameForm.eraseLocal {c : Ctx} (hc : c.NameForm P) {v : Value} : (c.eraseLocal v).NameForm P := by
  refine ⟨hc.g, fun w y hy => ?_, hc.b⟩
  simp only [Ctx.eraseLocal, Map.get?_erase] at hy
  split at hy
  · cases hy
  · exact hc.v w y hy

theorem Ctx.NameForm.newBbData {c : Ctx} (hc : c.NameForm P) {b : BB} {x : BData}
    (hx : SigilOptName x.name) : (c.newBbData b x).NameForm P := by
  refine ⟨hc.g, hc.v, fun hP w y hy => ?_⟩
  simp only [Ctx.newBbData, Map.get?_insert] at hy
  split at hy
  · cases hy; exact hx
  · exact hc.b hP w y hy

theorem Ctx.NameForm.newValueData {c c' : Ctx} (hc : c.NameForm P) {v : Value} {x : VData}
    (hx : SigilOptName x.name) (h : c.newValueData v x = some c') : c'.NameForm P := by
  unfold Ctx.newValueData at h
  simp only [Option.bind_eq_bind, Option.bind_eq_some_iff, Option.some.injEq] at h
  obtain ⟨c1, h1, c2, h2, rfl⟩ := h
  exact ((hc.shape (addUses_shape h1)).shape (addBbUses_shape h2)).insertLocal hx

theorem Ctx.NameForm.replace {c c' : Ctx} (hc : c.NameForm P) {v : Value} {x : VData}
    (hx : SigilOptName x.name) (h : c.replaceValueWithData v x = some c') : c'.NameForm P := by
  unfold Ctx.replaceValueWithData at h
  simp only [Option.bind_eq_bind, Option.bind_eq_some_iff, Option.some.injEq] at h
  obtain ⟨old, ho, c1, h1, c2, h2, c3, h3, c4, h4, rfl⟩ := h
  exact ((((hc.eraseLocal.shape (delUses_shape h1)).shape (delBbUses_shape h2)).shape
    (addUses_shape h3)).shape (addBbUses_shape h4)).insertLocal hx

theorem Ctx.NameForm.update {c c' : Ctx} (hc : c.NameForm P) {v : Value} {fn : VData → VData}
    (hx : ∀ x, SigilOptName x.name → SigilOptName (fn x).name) (h : c.updateValue v fn = some c') :
    c'.NameForm P := by
  unfold Ctx.updateValue at h
  simp only [Option.bind_eq_bind, Option.bind_eq_some_iff, Option.some.injEq] at h
  obtain ⟨old, ho, c1, h1, c2, h2, c3, h3, c4, h4, rfl⟩ := h
  exact ((((hc.eraseLocal.shape (delUses_shape h1)).shape (delBbUses_shape h2)).shape
    (addUses_shape h3)).shape (addBbUses_shape h4)).insertLocal (hx _ (hc.v _ _ ho))

theorem Ctx.NameForm.removeValue {c : Ctx} (hc : c.NameForm P) {v : Value} {r : Ctx × VData}
    (h : c.removeValue v = some r) : r.1.NameForm P := by
  unfold Ctx.removeValue at h
  simp only [Option.bind_eq_bind, Option.bind_eq_some_iff, Option.some.injEq] at h
  obtain ⟨old, ho, _, _, c1, h1, c2, h2, rfl⟩ := h
  exact (hc.eraseLocal.shape (delUses_shape h1)).shape (delBbUses_shape h2)

theorem Ctx.NameForm.setValueName {c c' : Ctx} (hc : c.NameForm P) {v : Value} {n : Option Str}
    (h : c.setValueName v n = some c') : c'.NameForm P := by
  unfold Ctx.setValueName at h
  simp only [Option.bind_eq_bind, Option.bind_eq_some_iff, Option.some.injEq] at h
  obtain ⟨old, ho, x, hx, rfl⟩ := h
  exact hc.insertLocal (setName_eq hx)

theorem Ctx.NameForm.removeParams {ps : List Value} {c c' : Ctx} (hc : c.NameForm P)
    (h : c.removeParams ps = some c') : c'.NameForm P := by
  induction ps generalizing c with
  | nil => cases h; exact hc
  | cons q ps ih =>
    simp only [Ctx.removeParams] at h
    split at h
    · split at h
      · exact ih hc.eraseLocal h
      · cases h
    · cases h

theorem Ctx.NameForm.removeBb {c : Ctx} (hc : c.NameForm P) {b : BB} {r : Ctx × BData}
    (h : c.removeBb b = some r) : r.1.NameForm P := by
  unfold Ctx.removeBb at h
  simp only [Option.bind_eq_bind, Option.bind_eq_some_iff, Option.some.injEq] at h
  obtain ⟨old, ho, _, _, c1, h1, rfl⟩ := h
  show c1.NameForm P
  refine Ctx.NameForm.removeParams
    (c := { g := c.g, d := { values := c.d.values, bbs := c.d.bbs.erase b } })
    ⟨hc.g, hc.v, fun hP w y hy => ?_⟩ h1
  simp only [Map.get?_erase] at hy
  split at hy
  · cases hy
  · exact hc.b hP w y hy

theorem Ctx.NameForm.modBb {c c' : Ctx} (hc : c.NameForm P) {b : BB} {f : BData → BData}
    (hf : P → ∀ x : BData, SigilOptName x.name → SigilOptName (f x).name) (h : c.modBb b f = some c') :
    c'.NameForm P := by
  unfold Ctx.modBb at h
  split at h
  · rename_i x hx
    cases h
    refine ⟨hc.g, hc.v, fun hP w y hy => ?_⟩
    simp only [Map.get?_insert] at hy
    split at hy
    · cases hy; exact hf hP _ (hc.b hP _ _ hx)
    · exact hc.b hP w y hy
  · cases h

theorem Ctx.NameForm.blockParams {ps : List (Option Str × Ty)} {c : Ctx} {next i : Nat}
    {r : Ctx × List Value} (hc : c.NameForm P) (h : c.blockParams next i ps = some r) : r.1.NameForm P := by
  induction ps generalizing c next i r with
  | nil => cases h; exact hc
  | cons q ps ih =>
    obtain ⟨n, ty⟩ := q
    simp only [Ctx.blockParams, Option.bind_eq_bind, Option.bind_eq_some_iff, Option.some.injEq] at h
    obtain ⟨x, hx, c1, h1, r1, h2, rfl⟩ := h
    exact (ih (hc.newValueData (setName_eq hx) h1) h2 : r1.1.NameForm P)

theorem funcParams_names {ps : List (Option Str × Ty)} {vs : Map Value VData} {next i : Nat}
    {r : Map Value VData × List Value} (hv : ∀ v x, vs.get? v = some x → SigilOptName x.name)
    (h : funcParams vs next i ps = some r) : ∀ v x, r.1.get? v = some x → SigilOptName x.name := by
  induction ps generalizing vs next i r with
  | nil => cases h; exact hv
  | cons q ps ih =>
    obtain ⟨n, ty⟩ := q
    simp only [funcParams, Option.bind_eq_bind, Option.bind_eq_some_iff, Option.some.injEq] at h
    obtain ⟨x, hx, r1, h2, rfl⟩ := h
    show ∀ v x, r1.1.get? v = some x → SigilOptName x.name
    refine ih (fun w y hy => ?_) h2
    simp only [Map.get?_insert] at hy
    split at hy
    · cases hy; exact setName_eq hx
    · exact hv w y hy

theorem addGlobalUses_names {vs : List Value} {u : Value} {g g' : Map Value VData}
    (hg : ∀ v x, g.get? v = some x → SigilOptName x.name) (h : addGlobalUses u g vs = some g') :
    ∀ v x, g'.get? v = some x → SigilOptName x.name := by
  induction vs generalizing g with
  | nil => cases h; exact hg
  | cons v vs ih =>
    simp only [addGlobalUses] at h
    split at h
    · rename_i x hx
      refine ih (fun w y hy => ?_) h
      simp only [Map.get?_insert] at hy
      split at hy
      · cases hy; exact (hg _ _ hx : SigilOptName x.name)
      · exact hg w y hy
    · cases h

theorem delGlobalUses_names {vs : List Value} {u : Value} {g g' : Map Value VData}
    (hg : ∀ v x, g.get? v = some x → SigilOptName x.name) (h : delGlobalUses u g vs = some g') :
    ∀ v x, g'.get? v = some x → SigilOptName x.name := by
  induction vs generalizing g with
  | nil => cases h; exact hg
  | cons v vs ih =>
    simp only [delGlobalUses] at h
    split at h
    · rename_i x hx
      refine ih (fun w y hy => ?_) h
      simp only [Map.get?_insert] at hy
      split at hy
      · cases hy; exact (hg _ _ hx : SigilOptName x.name)
      · exact hg w y hy
    · cases h

theorem new_sigil (t : Ty) (k : VKind) : SigilOptName (VData.new t k).name := by
  intro s h; cases h

theorem ValInst.build_sigil {q : Querier} {i : ValInst} {x : VData} (hr : RawNamed i)
    (h : i.build q = some x) : SigilOptName x.name := by
  cases i with
  | raw data => cases h; exact hr
  | integer n => cases h; exact new_sigil _ _
  | zeroInit t =>
    simp only [ValInst.build, Option.bind_eq_bind, Option.bind_eq_some_iff, Option.some.injEq] at h
    obtain ⟨_, _, rfl⟩ := h; exact new_sigil _ _
  | undef t =>
    simp only [ValInst.build, Option.bind_eq_bind, Option.bind_eq_some_iff, Option.some.injEq] at h
    obtain ⟨_, _, rfl⟩ := h; exact new_sigil _ _
  | aggregate es =>
    simp only [ValInst.build, Option.bind_eq_bind, Option.bind_eq_some_iff, Option.some.injEq] at h
    obtain ⟨_, _, _, _, _, _, _, _, _, _, _, _, _, _, _, _, rfl⟩ := h; exact new_sigil _ _

theorem GlobalInst.build_sigil {q : Querier} {i : GlobalInst} {x : VData} (hr : ∀ j, i = .val j → RawNamed j)
    (h : i.build q = some x) : SigilOptName x.name := by
  cases i with
  | val i => exact ValInst.build_sigil (hr i rfl) h
  | globalAlloc init =>
    simp only [GlobalInst.build, Option.bind_eq_bind, Option.bind_eq_some_iff, Option.some.injEq] at h
    obtain ⟨_, _, _, _, rfl⟩ := h; exact new_sigil _ _

theorem LocalInst.build_sigil {q : Querier} {i : LocalInst} {x : VData} (hr : ∀ j, i = .val j → RawNamed j)
    (h : i.build q = some x) : SigilOptName x.name := by
  cases i with
  | val i => exact ValInst.build_sigil (hr i rfl) h
  | _ =>
    simp only [LocalInst.build, Option.bind_eq_bind, Option.bind_eq_some_iff] at h
    grind [new_sigil, Option.bind_eq_some_iff]

/-! ### Programs -/

theorem Spec.NameForm.ctx {p : Program} (h : NameForm P p) {f : Func} {fd : FData}
    (hf : p.funcs.get? f = some fd) : (p.ctx fd).NameForm P :=
  ⟨h.globals, fun v x hx => h.locals f fd v x hf hx, fun hP b x hx => h.blocks hP f fd b x hf hx⟩

theorem Spec.NameForm.putCtx {p : Program} (h : NameForm P p) {f : Func} {fd : FData}
    (hf : p.funcs.get? f = some fd) {c : Ctx} (hc : c.NameForm P) : NameForm P (p.putCtx f fd c) := by
  refine ⟨fun hP f' fd' hf' => ?_, fun hP f' fd' b x hf' hx => ?_, hc.g, fun f' fd' v x hf' hx => ?_⟩
  all_goals
    simp only [Program.putCtx, Map.get?_insert] at hf'
    split at hf'
  · cases hf'; exact h.funcs hP f fd hf
  · exact h.funcs hP f' fd' hf'
  · cases hf'; exact hc.b hP b x hx
  · exact h.blocks hP f' fd' b x hf' hx
  · cases hf'; exact hc.v v x hx
  · exact h.locals f' fd' v x hf' hx

/-- Names do not depend on the id counters, layouts and type tables. -/
theorem Spec.NameForm.same {p p' : Program} (h : NameForm P p) (hv : p'.values = p.values)
    (hf : p'.funcs = p.funcs) : NameForm P p' :=
  ⟨fun hP f fd => hf ▸ h.funcs hP f fd, fun hP f fd b x => hf ▸ h.blocks hP f fd b x,
    fun v x => hv ▸ h.globals v x, fun f fd v x => hf ▸ h.locals f fd v x⟩

theorem Spec.NameForm.onDfg {p p' : Program} (h : NameForm P p) {f : Func} {op : Ctx → Option Ctx}
    (hop : ∀ c c', c.NameForm P → op c = some c' → c'.NameForm P) (hs : p.onDfg f op = some p') :
    NameForm P p' := by
  unfold Program.onDfg at hs
  simp only [Option.bind_eq_bind, Option.bind_eq_some_iff, Option.some.injEq] at hs
  obtain ⟨fd, hf, c, hc, rfl⟩ := hs
  exact h.putCtx hf (hop _ _ (h.ctx hf) hc)

theorem Spec.NameForm.putFunc {p : Program} (h : NameForm P p) {f : Func} {fd : FData}
    (hn : P → SigilName fd.name) (hb : P → ∀ b x, fd.dfg.bbs.get? b = some x → SigilOptName x.name)
    (hv : ∀ v x, fd.dfg.values.get? v = some x → SigilOptName x.name) :
    NameForm P { p with funcs := p.funcs.insert f fd } := by
  refine ⟨fun hP f' fd' hf' => ?_, fun hP f' fd' b x hf' hx => ?_, h.globals, fun f' fd' v x hf' hx => ?_⟩
  all_goals
    simp only [Map.get?_insert] at hf'
    split at hf'
  · cases hf'; exact hn hP
  · exact h.funcs hP f' fd' hf'
  · cases hf'; exact hb hP b x hx
  · exact h.blocks hP f' fd' b x hf' hx
  · cases hf'; exact hv v x hx
  · exact h.locals f' fd' v x hf' hx

theorem Spec.NameForm.putGlobals {p : Program} (h : NameForm P p) {g : Map Value VData}
    (hg : ∀ v x, g.get? v = some x → SigilOptName x.name) : NameForm P { p with values := g } :=
  ⟨h.funcs, h.blocks, hg, h.locals⟩

theorem checkSanity_name {n : Str} {ps : List Ty} {u : Unit} (h : checkSanity n ps = some u) :
    SigilName n := by
  unfold checkSanity at h
  simp only [Option.bind_eq_bind, Option.bind_eq_some_iff] at h
  obtain ⟨_, h, _⟩ := h
  exact validName_iff.1 (assert_eq h)

theorem Map.get?_empty_ne {α β : Type} [DecidableEq α] {k : α} {x : β}
    (h : (Map.empty : Map α β).get? k = some x) : False := by
  simp at h

theorem Spec.NameForm.step {p p' : Program} {op : Op} (h : NameForm P p) (ho : NamesGiven P op)
    (hs : p.step op = some p') : NameForm P p' := by
  cases op with
  | newGlobal i =>
    simp only [Program.step, Option.map_eq_some_iff] at hs
    obtain ⟨r, hs, rfl⟩ := hs
    unfold Program.newGlobal Program.newGlobalData at hs
    simp only [Option.bind_eq_bind, Option.bind_eq_some_iff, Option.some.injEq] at hs
    obtain ⟨x, hx, g, hg, rfl⟩ := hs
    refine NameForm.same (h.putGlobals (g := g.insert p.ids.nextGlobal x) (fun v y hy => ?_)) rfl rfl
    simp only [Map.get?_insert] at hy
    split at hy
    · cases hy; exact GlobalInst.build_sigil (fun j e => by subst e; exact ho) hx
    · exact addGlobalUses_names h.globals hg v y hy
  | removeGlobal v =>
    simp only [Program.step, Option.map_eq_some_iff] at hs
    obtain ⟨r, hs, rfl⟩ := hs
    unfold Program.removeGlobal at hs
    simp only [Option.bind_eq_bind, Option.bind_eq_some_iff, Option.some.injEq] at hs
    obtain ⟨x, hx, lay, _, _, _, g, hg, rfl⟩ := hs
    refine NameForm.same (h.putGlobals (g := g) (delGlobalUses_names (fun v y hy => ?_) hg)) rfl rfl
    simp only [Map.get?_erase] at hy
    split at hy
    · cases hy
    · exact h.globals _ _ hy
  | setGlobalName v n =>
    simp only [Program.step, Program.setGlobalName, Option.bind_eq_bind, Option.bind_eq_some_iff,
      Option.some.injEq] at hs
    obtain ⟨x, hx, y, hy, rfl⟩ := hs
    refine h.putGlobals (fun w z hz => ?_)
    simp only [Map.get?_insert] at hz
    split at hz
    · cases hz; exact setName_eq hy
    · exact h.globals _ _ hz
  | newFuncDef n ps r =>
    simp only [Program.step, Option.map_eq_some_iff] at hs
    obtain ⟨q, hs, rfl⟩ := hs
    unfold Program.newFuncDefWithParamNames at hs
    simp only [Option.bind_eq_bind, Option.bind_eq_some_iff, Option.some.injEq] at hs
    obtain ⟨_, hc, vs, hv, rfl⟩ := hs
    exact NameForm.same (h.putFunc (f := p.ids.nextFunc)
      (fd := { ty := .func (ps.map (·.2)) r, name := n, params := vs.2,
               dfg := { values := vs.1, bbs := .empty }, layout := Layout.new })
      (fun _ => checkSanity_name hc) (fun _ b x hx => (Map.get?_empty_ne hx).elim)
      (funcParams_names (fun v x hx => (Map.get?_empty_ne hx).elim) hv)) rfl rfl
  | newFuncDecl n ps r =>
    simp only [Program.step, Option.map_eq_some_iff] at hs
    obtain ⟨q, hs, rfl⟩ := hs
    unfold Program.newFuncDecl at hs
    simp only [Option.bind_eq_bind, Option.bind_eq_some_iff, Option.some.injEq] at hs
    obtain ⟨_, hc, rfl⟩ := hs
    exact NameForm.same (h.putFunc (f := p.ids.nextFunc)
      (fd := { ty := .func ps r, name := n, params := [], dfg := Dfg.new, layout := Layout.new })
      (fun _ => checkSanity_name hc) (fun _ b x hx => (Map.get?_empty_ne hx).elim)
      (fun b x hx => (Map.get?_empty_ne hx).elim)) rfl rfl
  | removeFunc f =>
    simp only [Program.step, Option.map_eq_some_iff] at hs
    obtain ⟨q, hs, rfl⟩ := hs
    unfold Program.removeFunc at hs
    split at hs
    · cases hs
      refine ⟨fun hP f' fd' hf' => ?_, fun hP f' fd' b x hf' hx => ?_, h.globals,
        fun f' fd' v x hf' hx => ?_⟩
      all_goals
        simp only [Map.get?_erase] at hf'
        split at hf'
      · cases hf'
      · exact h.funcs hP _ _ hf'
      · cases hf'
      · exact h.blocks hP _ _ _ _ hf' hx
      · cases hf'
      · exact h.locals _ _ _ _ hf' hx
    · cases hs
  | setFuncName f n =>
    simp only [Program.step, Program.setFuncName, Option.bind_eq_bind, Option.bind_eq_some_iff,
      Option.some.injEq] at hs
    obtain ⟨fd, hf, rfl⟩ := hs
    exact h.putFunc (fd := { fd with name := n }) ho (h.blocks · f fd · · hf) (h.locals f fd · · hf)
  | newLocal f i =>
    simp only [Program.step, Option.map_eq_some_iff] at hs
    obtain ⟨q, hs, rfl⟩ := hs
    unfold Program.newLocal Program.newLocalData at hs
    simp only [Option.bind_eq_bind, Option.bind_eq_some_iff, Option.some.injEq] at hs
    obtain ⟨fd, hf, x, hx, p1, h1, rfl⟩ := hs
    exact (NameForm.same (p' := { p with ids := { p.ids with nextLocal := p.ids.nextLocal + 1 } })
      h rfl rfl).onDfg (fun c c' hc h' => hc.newValueData (LocalInst.build_sigil (fun j e => by subst e; exact ho) hx) h') h1
  | replaceLocal f v i =>
    simp only [Program.step, Program.replaceLocal, Option.bind_eq_bind, Option.bind_eq_some_iff] at hs
    obtain ⟨fd, hf, x, hx, h1⟩ := hs
    exact h.onDfg (fun c c' hc h' => hc.replace (LocalInst.build_sigil (fun j e => by subst e; exact ho) hx) h') h1
  | updateLocal f v fn => exact h.onDfg (fun c c' hc h' => hc.update ho h') hs
  | removeLocal f v =>
    have hs : p.onDfg f (fun c => (c.removeValue v).map (·.1)) = some p' := hs
    refine h.onDfg (fun c c' hc h' => ?_) hs
    obtain ⟨r, h1, rfl⟩ := Option.map_eq_some_iff.1 h'
    exact hc.removeValue h1
  | setLocalName f v n => exact h.onDfg (fun c c' hc h' => hc.setValueName h') hs
  | newBb f n =>
    simp only [Program.step, Option.map_eq_some_iff] at hs
    obtain ⟨q, hs, rfl⟩ := hs
    unfold Program.newBb at hs
    simp only [Option.bind_eq_bind, Option.bind_eq_some_iff, Option.some.injEq] at hs
    obtain ⟨_, ha, p1, h1, rfl⟩ := hs
    refine NameForm.same (h.onDfg (fun c c' hc h' => ?_) h1) rfl rfl
    cases h'
    exact hc.newBbData (validOptName_iff.1 (assert_eq ha))
  | newBbParams f n ps =>
    simp only [Program.step, Option.map_eq_some_iff] at hs
    obtain ⟨q, hs, rfl⟩ := hs
    unfold Program.newBbWithParamNames at hs
    simp only [Option.bind_eq_bind, Option.bind_eq_some_iff, Option.some.injEq] at hs
    obtain ⟨_, ha, _, _, fd, hf, r, hr, rfl⟩ := hs
    exact NameForm.same (h.putCtx hf (((h.ctx hf).blockParams hr).newBbData (b := p.ids.nextBb)
      (x := { name := n, params := r.2, usedBy := [] }) (validOptName_iff.1 (assert_eq ha)))) rfl rfl
  | removeBb f b =>
    have hs : p.onDfg f (fun c => (c.removeBb b).map (·.1)) = some p' := hs
    refine h.onDfg (fun c c' hc h' => ?_) hs
    obtain ⟨r, h1, rfl⟩ := Option.map_eq_some_iff.1 h'
    exact hc.removeBb h1
  | setBbName f b n => 
    exact h.onDfg (op := fun c => c.setBbName b n)
      (fun c c' hc h' => hc.modBb (f := fun x => { x with name := n }) (fun hP _ _ => ho hP) h') hs
  | setBbParams f b ps => 
    exact h.onDfg (op := fun c => c.setBbParams b ps)
      (fun c c' hc h' => hc.modBb (f := fun x => { x with params := ps }) (fun _ _ hx => hx) h') hs
  | layout f o =>
    simp only [Program.step, Program.onLayout, Option.bind_eq_bind, Option.bind_eq_some_iff,
      Option.some.injEq] at hs
    obtain ⟨fd, hf, l, _, rfl⟩ := hs
    exact h.putFunc (fd := { fd with layout := l }) (h.funcs · f fd hf) (h.blocks · f fd · · hf)
      (h.locals f fd · · hf)

theorem Spec.NameForm.new (ids : Ids) : NameForm P (Program.new ids) :=
  ⟨fun _ _ _ h => (Map.get?_empty_ne h).elim, fun _ _ _ _ _ h => (Map.get?_empty_ne h).elim,
    fun _ _ h => (Map.get?_empty_ne h).elim, fun _ _ _ _ h => (Map.get?_empty_ne h).elim⟩

/-! ### Calls that are given a name check it -/

theorem setName_given {d d' : VData} {n : Option Str} (h : d.setName n = some d') :
    SigilOptName n := by
  have h1 := setName_eq h
  unfold VData.setName at h
  split at h
  · cases h; exact h1
  · cases h

theorem funcParams_given {ps : List (Option Str × Ty)} {vs : Map Value VData} {next i : Nat}
    {r : Map Value VData × List Value} (h : funcParams vs next i ps = some r) :
    ∀ q ∈ ps, SigilOptName q.1 := by
  induction ps generalizing vs next i r with
  | nil => simp
  | cons q ps ih =>
    obtain ⟨n, ty⟩ := q
    simp only [funcParams, Option.bind_eq_bind, Option.bind_eq_some_iff, Option.some.injEq] at h
    obtain ⟨x, hx, r1, h2, rfl⟩ := h
    intro q hq
    rcases List.mem_cons.1 hq with rfl | hq
    · exact setName_given hx
    · exact ih h2 q hq

theorem blockParams_given {ps : List (Option Str × Ty)} {c : Ctx} {next i : Nat}
    {r : Ctx × List Value} (h : c.blockParams next i ps = some r) : ∀ q ∈ ps, SigilOptName q.1 := by
  induction ps generalizing c next i r with
  | nil => simp
  | cons q ps ih =>
    obtain ⟨n, ty⟩ := q
    simp only [Ctx.blockParams, Option.bind_eq_bind, Option.bind_eq_some_iff, Option.some.injEq] at h
    obtain ⟨x, hx, c1, h1, r1, h2, rfl⟩ := h
    intro q hq
    rcases List.mem_cons.1 hq with rfl | hq
    · exact setName_given hx
    · exact ih h2 q hq

theorem Spec.GivesName.checked {p p' : Program} {op : Op} {n : Str} (h : GivesName op n)
    (hs : p.step op = some p') : SigilName n := by
  cases h with
  | global v n =>
    simp only [Program.step, Program.setGlobalName, Option.bind_eq_bind, Option.bind_eq_some_iff] at hs
    obtain ⟨_, _, _, hs, _⟩ := hs
    exact setName_given hs n rfl
  | «local» f v n =>
    simp only [Program.step, Program.setLocalName, Program.onDfg, Ctx.setValueName,
      Option.bind_eq_bind, Option.bind_eq_some_iff] at hs
    obtain ⟨_, _, _, ⟨_, _, _, hs, _⟩, _⟩ := hs
    exact setName_given hs n rfl
  | funcDef n ps r =>
    simp only [Program.step, Program.newFuncDefWithParamNames, Option.map_eq_some_iff,
      Option.bind_eq_bind, Option.bind_eq_some_iff] at hs
    obtain ⟨_, ⟨_, hs, _⟩, _⟩ := hs
    exact checkSanity_name hs
  | funcParam n ps r m t hm =>
    simp only [Program.step, Program.newFuncDefWithParamNames, Option.map_eq_some_iff,
      Option.bind_eq_bind, Option.bind_eq_some_iff] at hs
    obtain ⟨_, ⟨_, _, _, hs, _⟩, _⟩ := hs
    exact funcParams_given hs _ hm _ rfl
  | funcDecl n ps r =>
    simp only [Program.step, Program.newFuncDecl, Option.map_eq_some_iff,
      Option.bind_eq_bind, Option.bind_eq_some_iff] at hs
    obtain ⟨_, ⟨_, hs, _⟩, _⟩ := hs
    exact checkSanity_name hs
  | bb f n =>
    simp only [Program.step, Program.newBb, Option.map_eq_some_iff,
      Option.bind_eq_bind, Option.bind_eq_some_iff] at hs
    obtain ⟨_, ⟨_, hs, _⟩, _⟩ := hs
    exact validOptName_iff.1 (assert_eq hs) n rfl
  | bbParams f n ps =>
    simp only [Program.step, Program.newBbWithParamNames, Option.map_eq_some_iff,
      Option.bind_eq_bind, Option.bind_eq_some_iff] at hs
    obtain ⟨_, ⟨_, hs, _⟩, _⟩ := hs
    exact validOptName_iff.1 (assert_eq hs) n rfl
  | bbParam f n ps m t hm =>
    simp only [Program.step, Program.newBbWithParamNames, Option.map_eq_some_iff,
      Option.bind_eq_bind, Option.bind_eq_some_iff] at hs
    obtain ⟨_, ⟨_, _, _, _, _, _, _, hs, _⟩, _⟩ := hs
    exact blockParams_given hs _ hm _ rfl

end Koopa
