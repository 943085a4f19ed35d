import Verif.Lemmas.Typing
/-! Preservation of typing by the operations of the API. -/
namespace Koopa
open Spec

/-- The general form: what may happen to a well-typed program. -/
theorem Spec.WellTyped.frame {p p' : Program} (hw : WellTyped p)
    (hL : ∀ f v x', LocalVal p' f v x' →
      (∃ x, LocalVal p f v x ∧ x.kind = x'.kind ∧ x.ty = x'.ty) ∨
        InstTy (HasTy p' f) (ParamTys p' f) (FuncTy p') x'.kind x'.ty)
    (hG : ∀ v x', GlobalVal p' v x' →
      (∃ x, GlobalVal p v x ∧ x.kind = x'.kind ∧ x.ty = x'.ty) ∨
        InstTy (GlobalHasTy p') (fun _ _ => False) (fun _ _ => False) x'.kind x'.ty)
    (hH : ∀ f u v t x', LocalUse p f u v → LocalVal p' f u x' → HasTy p f v t → HasTy p' f v t)
    (hGH : ∀ u v t x', GlobalUse p u v → GlobalVal p' u x' → GlobalHasTy p v t → GlobalHasTy p' v t)
    (hP : ∀ f u b ts x', Targets p f u b → LocalVal p' f u x' → ParamTys p f b ts → ParamTys p' f b ts)
    (hF : ∀ f u g t x', LocalVal p' f u x' → callee x'.kind = some g → FuncTy p g t → FuncTy p' g t) :
    WellTyped p' := by
  refine ⟨fun f v x' h => ?_, fun v x' h => ?_⟩
  · rcases hL f v x' h with ⟨x, hx, hk, ht⟩ | h'
    · rw [← hk, ← ht]
      refine (hw.locals f v x hx).mono ?_ ?_ ?_
      · intro w hm t h1; exact hH f v w t x' ⟨x, hx, hm⟩ h h1
      · intro b hb ts h1; exact hP f v b ts x' ⟨x, hx, hb⟩ h h1
      · intro g hg t h1; exact hF f v g t x' h (hk ▸ hg) h1
    · exact h'
  · rcases hG v x' h with ⟨x, hx, hk, ht⟩ | h'
    · rw [← hk, ← ht]
      refine (hw.globals v x hx).mono ?_ ?_ ?_
      · intro w hm t h1; exact hGH v w t x' ⟨x, hx, hm⟩ h h1
      · intro b hb ts h1; exact h1.elim
      · intro g hg t h1; exact h1.elim
    · exact h'

/-- All types known in `p` are known in `p'`. -/
structure Grow (p p' : Program) : Prop where
  locals : ∀ f v x, LocalVal p f v x → ∃ x', LocalVal p' f v x' ∧ x'.ty = x.ty
  globals : ∀ v x, GlobalVal p v x → ∃ x', GlobalVal p' v x' ∧ x'.ty = x.ty
  blocks : ∀ f b x, Block p f b x → ∃ x', Block p' f b x' ∧ x'.params = x.params
  funcs : ∀ f fd, p.funcs.get? f = some fd → ∃ fd', p'.funcs.get? f = some fd' ∧ fd'.ty = fd.ty

theorem Grow.hasTy {p p'} (h : Grow p p') {f v t} (ht : HasTy p f v t) : HasTy p' f v t := by
  obtain ⟨x, hx, rfl⟩ := ht
  rcases hx with hx | hx
  · obtain ⟨x', h1, h2⟩ := h.globals _ _ hx; exact ⟨x', .inl h1, h2⟩
  · obtain ⟨x', h1, h2⟩ := h.locals _ _ _ hx; exact ⟨x', .inr h1, h2⟩

theorem Grow.globalHasTy {p p'} (h : Grow p p') {v t} (ht : GlobalHasTy p v t) : GlobalHasTy p' v t := by
  obtain ⟨x, hx, rfl⟩ := ht
  obtain ⟨x', h1, h2⟩ := h.globals _ _ hx; exact ⟨x', h1, h2⟩

theorem Grow.paramTys {p p'} (h : Grow p p') {f b ts} (ht : ParamTys p f b ts) : ParamTys p' f b ts := by
  obtain ⟨x, hx, ha⟩ := ht
  obtain ⟨x', h1, h2⟩ := h.blocks _ _ _ hx
  exact ⟨x', h1, by rw [h2]; exact ha.imp (fun a _ b hb => h.hasTy hb)⟩

theorem Grow.funcTy {p p'} (h : Grow p p') {f t} (ht : FuncTy p f t) : FuncTy p' f t := by
  obtain ⟨fd, hf, rfl⟩ := ht
  obtain ⟨fd', h1, h2⟩ := h.funcs _ _ hf
  exact ⟨fd', h1, h2⟩

theorem Grow.instTy {p p'} (h : Grow p p') {f k t}
    (hi : InstTy (HasTy p f) (ParamTys p f) (FuncTy p) k t) :
    InstTy (HasTy p' f) (ParamTys p' f) (FuncTy p') k t :=
  hi.mono (fun _ _ _ => h.hasTy) (fun _ _ _ => h.paramTys) (fun _ _ _ => h.funcTy)

theorem Grow.globalInstTy {p p'} (h : Grow p p') {k t}
    (hi : InstTy (GlobalHasTy p) (fun _ _ => False) (fun _ _ => False) k t) :
    InstTy (GlobalHasTy p') (fun _ _ => False) (fun _ _ => False) k t :=
  hi.mono (fun _ _ _ => h.globalHasTy) (fun _ _ _ h => h.elim) (fun _ _ _ h => h.elim)

theorem Spec.WellTyped.grow {p p' : Program} (hw : WellTyped p) (hg : Grow p p')
    (hL : ∀ f v x', LocalVal p' f v x' →
      (∃ x, LocalVal p f v x ∧ x.kind = x'.kind ∧ x.ty = x'.ty) ∨
        InstTy (HasTy p' f) (ParamTys p' f) (FuncTy p') x'.kind x'.ty)
    (hG : ∀ v x', GlobalVal p' v x' →
      (∃ x, GlobalVal p v x ∧ x.kind = x'.kind ∧ x.ty = x'.ty) ∨
        InstTy (GlobalHasTy p') (fun _ _ => False) (fun _ _ => False) x'.kind x'.ty) :
    WellTyped p' :=
  hw.frame hL hG (fun _ _ _ _ _ _ _ => hg.hasTy) (fun _ _ _ _ _ _ => hg.globalHasTy)
    (fun _ _ _ _ _ _ _ => hg.paramTys) (fun _ _ _ _ _ _ _ => hg.funcTy)

/-! ### Edits of one value -/

section
variable {p p' : Program} {f : Func} {fd : FData} {c : Ctx} {u : Value} {old : Option VKind}
  {data : Option VData}

theorem Ctx.Edit.localBack (he : (p.ctx fd).Edit c u old data) (hf : p.funcs.get? f = some fd)
    (hput : PutCtx p p' f fd c) {g v x'} (h : LocalVal p' g v x') :
    (∃ x, LocalVal p g v x ∧ x.kind = x'.kind ∧ x.ty = x'.ty) ∨ (g = f ∧ v = u ∧ data = some x') := by
  rw [hput.localVal] at h
  by_cases hg : g = f
  · subst hg
    rw [if_pos rfl] at h
    by_cases hv : v = u
    · subst hv; rw [he.self] at h; exact .inr ⟨rfl, rfl, h⟩
    · rw [he.locals v hv, Option.map_eq_some_iff] at h
      obtain ⟨x, hx, rfl⟩ := h
      exact .inl ⟨x, (localVal_self hf v x).2 hx, by simp, by simp⟩
  · rw [if_neg hg] at h; exact .inl ⟨x', h, rfl, rfl⟩

theorem Ctx.Edit.localFwd (he : (p.ctx fd).Edit c u old data) (hf : p.funcs.get? f = some fd)
    (hput : PutCtx p p' f fd c) {g v x} (hne : g = f → v ≠ u) (h : LocalVal p g v x) :
    ∃ x', LocalVal p' g v x' ∧ x'.ty = x.ty := by
  by_cases hg : g = f
  · subst hg
    refine ⟨x.touch u (opsOf old) (opsOf (data.map (·.kind))) v, ?_, by simp⟩
    rw [hput.localVal, if_pos rfl, he.locals v (hne rfl), (localVal_self hf v x).1 h]
    rfl
  · exact ⟨x, by rw [hput.localVal, if_neg hg]; exact h, rfl⟩

theorem Ctx.Edit.globalFwd (he : (p.ctx fd).Edit c u old data)
    (hput : PutCtx p p' f fd c) {v x} (h : GlobalVal p v x) :
    ∃ x', GlobalVal p' v x' ∧ x'.ty = x.ty := by
  refine ⟨x.touch u (opsOf old) (opsOf (data.map (·.kind))) v, ?_, by simp⟩
  rw [hput.globalVal, he.globals v]
  show Option.map _ (p.values.get? v) = _
  rw [show p.values.get? v = some x from h]; rfl

theorem Ctx.Edit.globalBack (he : (p.ctx fd).Edit c u old data)
    (hput : PutCtx p p' f fd c) {v x'} (h : GlobalVal p' v x') :
    ∃ x, GlobalVal p v x ∧ x.kind = x'.kind ∧ x.ty = x'.ty := by
  rw [hput.globalVal, he.globals v, Option.map_eq_some_iff] at h
  obtain ⟨x, hx, rfl⟩ := h
  exact ⟨x, hx, by simp, by simp⟩

theorem Ctx.Edit.blockFwd (he : (p.ctx fd).Edit c u old data) (hf : p.funcs.get? f = some fd)
    (hput : PutCtx p p' f fd c) {g b x} (h : Block p g b x) :
    ∃ x', Block p' g b x' ∧ x'.params = x.params := by
  by_cases hg : g = f
  · subst hg
    refine ⟨x.touch u (tgtsOf old) (tgtsOf (data.map (·.kind))) b, ?_, by simp⟩
    rw [hput.block, if_pos rfl, he.bbs b, (block_self hf b x).1 h]
    rfl
  · exact ⟨x, by rw [hput.block, if_neg hg]; exact h, rfl⟩

theorem PutCtx.funcFwd (hf : p.funcs.get? f = some fd) (hput : PutCtx p p' f fd c) {g fd'}
    (h : p.funcs.get? g = some fd') : ∃ fd'', p'.funcs.get? g = some fd'' ∧ fd''.ty = fd'.ty := by
  rw [hput.funcs]
  by_cases hg : g = f
  · subst hg; rw [hf] at h; cases h; exact ⟨_, if_pos rfl, rfl⟩
  · exact ⟨fd', by rw [if_neg hg]; exact h, rfl⟩

/-- Inserting or replacing a value, keeping its type. -/
theorem Spec.WellTyped.edit (hw : WellTyped p) (hf : p.funcs.get? f = some fd)
    (he : (p.ctx fd).Edit c u old data) (hput : PutCtx p p' f fd c)
    (hkeep : ∀ x, LocalVal p f u x → ∃ d, data = some d ∧ d.ty = x.ty)
    (hd : ∀ d, data = some d → InstTy (HasTy p f) (ParamTys p f) (FuncTy p) d.kind d.ty) :
    WellTyped p' := by
  have hg : Grow p p' := by
    refine ⟨fun g v x h => ?_, fun v x h => he.globalFwd hput h, fun g b x h => he.blockFwd hf hput h,
      fun g fd' h => hput.funcFwd hf h⟩
    by_cases hgu : g = f ∧ v = u
    · obtain ⟨rfl, rfl⟩ := hgu
      obtain ⟨d, h1, h2⟩ := hkeep x h
      exact ⟨d, by rw [hput.localVal, if_pos rfl, he.self]; exact h1, h2⟩
    · exact he.localFwd hf hput (fun h1 h2 => hgu ⟨h1, h2⟩) h
  refine hw.grow hg (fun g v x' h => ?_) (fun v x' h => .inl (he.globalBack hput h))
  rcases he.localBack hf hput h with h | ⟨rfl, rfl, h⟩
  · exact .inl h
  · exact .inr (hg.instTy (hd _ h))

/-- Removing a value that is neither used nor a block parameter. -/
theorem Spec.WellTyped.erase (hw : WellTyped p) (hf : p.funcs.get? f = some fd)
    (he : (p.ctx fd).Edit c u old none) (hput : PutCtx p p' f fd c)
    (hno : ∀ w, ¬ LocalUse p f w u) (hpar : ∀ b x, Block p f b x → u ∉ x.params) :
    WellTyped p' := by
  have hH : ∀ {g v t}, (g = f → v ≠ u) → HasTy p g v t → HasTy p' g v t := by
    rintro g v t hne ⟨x, hx, rfl⟩
    rcases hx with hx | hx
    · obtain ⟨x', h1, h2⟩ := he.globalFwd hput hx; exact ⟨x', .inl h1, h2⟩
    · obtain ⟨x', h1, h2⟩ := he.localFwd hf hput hne hx; exact ⟨x', .inr h1, h2⟩
  refine hw.frame (fun g v x' h => ?_) (fun v x' h => .inl (he.globalBack hput h)) ?_ ?_ ?_ ?_
  · rcases he.localBack hf hput h with h | ⟨_, _, h⟩
    · exact .inl h
    · cases h
  · intro g w v t x' hu hx' ht
    refine hH ?_ ht
    rintro rfl rfl
    exact hno w hu
  · rintro w v t x' _ _ ⟨x, hx, rfl⟩
    exact he.globalFwd hput hx
  · rintro g w b ts x' _ _ ⟨x, hx, ha⟩
    obtain ⟨y, h1, h2⟩ := he.blockFwd hf hput hx
    refine ⟨y, h1, ?_⟩
    rw [h2]
    refine ha.imp (fun a hm t ht => hH ?_ ht)
    rintro rfl rfl
    exact hpar b x hx hm
  · rintro g w k t x' _ _ ⟨fd', h, rfl⟩
    exact hput.funcFwd hf h

end

/-- Only names, layouts or users change. -/
theorem Spec.WellTyped.putFunc {p p' : Program} {f : Func} {fd fd' : FData} (hw : WellTyped p)
    (hf : p.funcs.get? f = some fd) (hv : p'.values = p.values)
    (hfs : p'.funcs = p.funcs.insert f fd') (hty : fd'.ty = fd.ty)
    (hvals : ∀ v, (fd'.dfg.values.get? v).map (fun x => (x.ty, x.kind)) =
      (fd.dfg.values.get? v).map (fun x => (x.ty, x.kind)))
    (hbbs : ∀ b, (fd'.dfg.bbs.get? b).map (·.params) = (fd.dfg.bbs.get? b).map (·.params)) :
    WellTyped p' := by
  have hget : ∀ g, p'.funcs.get? g = if g = f then some fd' else p.funcs.get? g := by
    intro g; rw [hfs, Map.get?_insert]
  have hg : Grow p p' := by
    refine ⟨?_, ?_, ?_, ?_⟩
    · rintro g v x ⟨gd, h1, h2⟩
      by_cases h : g = f
      · subst h
        rw [hf] at h1; cases h1
        have := hvals v
        rw [h2, Option.map_some, Option.map_eq_some_iff] at this
        obtain ⟨x', h3, h4⟩ := this
        exact ⟨x', ⟨fd', by rw [hget, if_pos rfl], h3⟩, congrArg Prod.fst h4⟩
      · exact ⟨x, ⟨gd, by rw [hget, if_neg h]; exact h1, h2⟩, rfl⟩
    · intro v x h; exact ⟨x, by unfold GlobalVal; rw [hv]; exact h, rfl⟩
    · rintro g b x ⟨gd, h1, h2⟩
      by_cases h : g = f
      · subst h
        rw [hf] at h1; cases h1
        have := hbbs b
        rw [h2, Option.map_some, Option.map_eq_some_iff] at this
        obtain ⟨x', h3, h4⟩ := this
        exact ⟨x', ⟨fd', by rw [hget, if_pos rfl], h3⟩, h4⟩
      · exact ⟨x, ⟨gd, by rw [hget, if_neg h]; exact h1, h2⟩, rfl⟩
    · intro g gd h1
      by_cases h : g = f
      · subst h; rw [hf] at h1; cases h1; exact ⟨fd', by rw [hget, if_pos rfl], hty⟩
      · exact ⟨gd, by rw [hget, if_neg h]; exact h1, rfl⟩
  refine hw.grow hg ?_ (fun v x' h => .inl ⟨x', by unfold GlobalVal at h; rw [hv] at h; exact h, rfl, rfl⟩)
  rintro g v x' ⟨gd, h1, h2⟩
  rw [hget] at h1
  by_cases h : g = f
  · subst h; rw [if_pos rfl] at h1; cases h1
    have := (hvals v).symm
    rw [h2, Option.map_some, Option.map_eq_some_iff] at this
    obtain ⟨x, h3, h4⟩ := this
    exact .inl ⟨x, ⟨fd, hf, h3⟩, congrArg Prod.snd h4, congrArg Prod.fst h4⟩
  · rw [if_neg h] at h1; exact .inl ⟨x', ⟨gd, h1, h2⟩, rfl, rfl⟩

end Koopa
