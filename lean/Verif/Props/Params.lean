import Verif.Lemmas.View
import Verif.Props.Uses
/-!
C46: parameters of new functions and blocks are numbered in order and carry the given types and
names.
-/
namespace Koopa
open Spec

/-- The handles `vs` are the parameters `ps` (name and type) of function `f`, numbered in order by
argument references of kind `k`. -/
structure ParamsAre (p : Program) (f : Func) (k : Nat → VKind) (ps : List (Option Str × Ty))
    (vs : List Value) : Prop where
  length : vs.length = ps.length
  nodup : vs.Nodup
  nth : ∀ (i : Nat) (n : Option Str) (t : Ty), ps[i]? = some (n, t) →
    ∃ v x, vs[i]? = some v ∧ LocalVal p f v x ∧ x.name = n ∧ x.ty = t ∧ x.kind = k i

theorem view_l_some {p : Program} {f : Func} {v : Value} {t : Ty} {n : Option Str} {k : VKind}
    (h : p.view.l f v = some (t, n, k)) : ∃ x, LocalVal p f v x ∧ x.name = n ∧ x.ty = t ∧ x.kind = k := by
  unfold Program.view at h
  simp only [shapeOf, Option.map_eq_some_iff, Prod.mk.injEq, Option.bind_eq_some_iff] at h
  obtain ⟨x, ⟨fd, h1, h2⟩, h3, h4, h5⟩ := h
  exact ⟨x, ⟨fd, h1, h2⟩, h4, h3, h5⟩

theorem view_b_some {p : Program} {f : Func} {b : BB} {n : Option Str} {vs : List Value}
    (h : p.view.b f b = some (n, vs)) : ∃ x, Block p f b x ∧ x.name = n ∧ x.params = vs := by
  unfold Program.view at h
  simp only [bshapeOf, Option.map_eq_some_iff, Prod.mk.injEq, Option.bind_eq_some_iff] at h
  obtain ⟨x, ⟨fd, h1, h2⟩, h3, h4⟩ := h
  exact ⟨x, ⟨fd, h1, h2⟩, h3, h4⟩

theorem paramsAre_of_view {p : Program} {f : Func} {k : Nat → VKind} {ps : List (Option Str × Ty)}
    {next : Nat} (h : ∀ w s, paramSig k next 0 ps w = some s → p.view.l f w = some s) :
    ParamsAre p f k ps (paramHandles next ps.length) := by
  refine ⟨by simp [paramHandles], List.nodup_range' .., fun i n t hi => ?_⟩
  have hlt : i < ps.length := by
    rcases Nat.lt_or_ge i ps.length with h | h
    · exact h
    · rw [List.getElem?_eq_none h] at hi; cases hi
  have hs : paramSig k next 0 ps (next + i) = some (t, n, k i) := by
    unfold paramSig
    rw [if_neg (by omega), Nat.add_sub_cancel_left, hi]
    simp
  obtain ⟨x, hx, h1, h2, h3⟩ := view_l_some (h _ _ hs)
  exact ⟨next + i, x, by simp [paramHandles, hlt], hx, h1, h2, h3⟩

/-- C46, functions: for every program state whatsoever. -/
theorem C46_function_params {p p' : Program} {n : Str} {ps : List (Option Str × Ty)} {r : Ty} {f : Func}
    (h : p.newFuncDefWithParamNames n ps r = some (p', f)) :
    ∃ fd, p'.funcs.get? f = some fd ∧ fd.name = n ∧ fd.ty = .func (ps.map (·.2)) r ∧
      ParamsAre p' f VKind.funcArgRef ps fd.params ∧ fd.layout.bbs = [] ∧
      (∀ v x, LocalVal p' f v x → v ∈ fd.params) := by
  obtain ⟨rfl, -, -, hv⟩ := newFuncDef_view h
  have hh : p'.view.head p.ids.nextFunc = some (.func (ps.map (·.2)) r, n, paramHandles p.ids.nextLocal ps.length) := by
    rw [hv]; simp
  have hlay : p'.view.lay p.ids.nextFunc = some Layout.new := by rw [hv]; simp
  have hl : ∀ w, p'.view.l p.ids.nextFunc w = paramSig VKind.funcArgRef p.ids.nextLocal 0 ps w := by
    intro w; rw [hv]; simp
  simp only [Program.view, Option.map_eq_some_iff, Prod.mk.injEq] at hh hlay
  obtain ⟨fd, hf, e1, e2, e3⟩ := hh
  obtain ⟨fd', hf', e4⟩ := hlay
  rw [hf] at hf'; cases hf'
  refine ⟨fd, hf, e2, e1, ?_, by rw [e4]; rfl, ?_⟩
  · rw [e3]; exact paramsAre_of_view (fun w s hs => by rw [hl, hs])
  · rintro v x ⟨fd', hf', hx⟩
    rw [hf] at hf'; cases hf'
    have := hl v
    rw [view_l_self hf, hx] at this
    rw [e3]
    simp only [paramSig] at this
    split at this
    · cases this
    · have h2 : (v - p.ids.nextLocal) < ps.length := by
        rcases Nat.lt_or_ge (v - p.ids.nextLocal) ps.length with h | h
        · exact h
        · rw [List.getElem?_eq_none h] at this; cases this
      simp only [paramHandles, List.mem_range'_1]
      omega

/-- C46, blocks: for every program state whatsoever. -/
theorem C46_block_params {p p' : Program} {f : Func} {n : Option Str} {ps : List (Option Str × Ty)} {b : BB}
    (h : p.newBbWithParamNames f n ps = some (p', b)) :
    ∃ x, Block p' f b x ∧ x.name = n ∧ ParamsAre p' f VKind.blockArgRef ps x.params := by
  obtain ⟨-, rfl, -, -, hv⟩ := newBbParams_view h
  have hb : p'.view.b f p.ids.nextBb = some (n, paramHandles p.ids.nextLocal ps.length) := by rw [hv]; simp
  obtain ⟨x, hx, e1, e2⟩ := view_b_some hb
  refine ⟨x, hx, e1, ?_⟩
  rw [e2]
  refine paramsAre_of_view (fun w s hs => ?_)
  rw [hv]; simp [hs]

/-- The theorems apply: a function with two parameters, one of them named, and a block in it. -/
example : ∃ p f p' b, (Program.new ⟨globalStart, localStart, 0, 0⟩).newFuncDefWithParamNames
      ['@', 'f'] [(some ['%', 'a'], .i32), (none, .ptr .i32)] .unit = some (p, f) ∧
    p.newBbWithParamNames f (some ['%', 'b']) [(none, .i32), (some ['%', 'x'], .i32)] = some (p', b) :=
  ⟨_, _, _, _, rfl, rfl⟩

end Koopa
