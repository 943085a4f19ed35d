import Verif.Lemmas.Edit
import Verif.Model.History
/-! The use-list invariant of programs and its preservation by edits of one value. -/
namespace Koopa
open Spec

/-- The invariant. `S u v` are stale records: `u` was a value of a removed function that used the
global `v`. -/
structure Inv (S : Value → Value → Prop) (p : Program) : Prop where
  gRange : ∀ v x, GlobalVal p v x → globalStart ≤ v ∧ v < p.ids.nextGlobal
  gMax : p.ids.nextGlobal ≤ localStart
  gMin : globalStart ≤ p.ids.nextGlobal
  lRange : ∀ f v x, LocalVal p f v x → localStart ≤ v ∧ v < p.ids.nextLocal
  lMin : localStart ≤ p.ids.nextLocal
  lDisj : ∀ f f' v x x', LocalVal p f v x → LocalVal p f' v x' → f = f'
  bRange : ∀ f b x, Block p f b x → b < p.ids.nextBb
  fRange : ∀ f fd, p.funcs.get? f = some fd → f < p.ids.nextFunc
  stale : ∀ u v, S u v → localStart ≤ u ∧ u < p.ids.nextLocal ∧ v < p.ids.nextGlobal ∧
    ∀ f x, ¬ LocalVal p f u x
  localUses : ∀ f v x, LocalVal p f v x → ∀ u, u ∈ x.usedBy ↔ LocalUse p f u v
  globalUses : ∀ v x, GlobalVal p v x → ∀ u,
    u ∈ x.usedBy ↔ (GlobalUse p u v ∨ (∃ f, LocalUse p f u v) ∨ S u v)
  blockUses : ∀ f b x, Block p f b x → ∀ u, u ∈ x.usedBy ↔ Targets p f u b
  closedL : ∀ f u v, LocalUse p f u v → (∃ x, GlobalVal p v x) ∨ ∃ x, LocalVal p f v x
  closedG : ∀ u v, GlobalUse p u v → ∃ x, GlobalVal p v x
  closedB : ∀ f u b, Targets p f u b → ∃ x, Block p f b x
  noSelf : ∀ f u, ¬ LocalUse p f u u

theorem Inv.ctxDisj {S} {p : Program} (h : Inv S p) {f : Func} {fd : FData}
    (hf : p.funcs.get? f = some fd) : (p.ctx fd).Disj := by
  intro v hv
  cases hl : (p.ctx fd).d.values.get? v with
  | none => rfl
  | some x =>
    exfalso
    cases hg : (p.ctx fd).g.get? v with
    | none => exact hv hg
    | some y =>
      have h1 := h.gRange v y hg
      have h2 := h.lRange f v x ⟨fd, hf, hl⟩
      have := h.gMax
      omega

/-! ### Views of `putCtx` -/

/-- A program obtained by writing back `c` for function `f` and changing the counters. -/
structure PutCtx (p p' : Program) (f : Func) (fd : FData) (c : Ctx) : Prop where
  values : p'.values = c.g
  funcs : ∀ f', p'.funcs.get? f' = if f' = f then some { fd with dfg := c.d } else p.funcs.get? f'

theorem putCtx_put (p : Program) (f : Func) (fd : FData) (c : Ctx) : PutCtx p (p.putCtx f fd c) f fd c :=
  ⟨rfl, fun _ => Map.get?_insert ..⟩

section
variable {p p' : Program} {f : Func} {fd : FData} {c : Ctx}

theorem PutCtx.localVal (h : PutCtx p p' f fd c) (f' : Func) (v : Value) (x : VData) :
    LocalVal p' f' v x ↔ if f' = f then c.d.values.get? v = some x else LocalVal p f' v x := by
  unfold LocalVal
  rw [h.funcs]
  by_cases hf : f' = f
  · simp [hf]
  · simp [hf]

theorem PutCtx.block (h : PutCtx p p' f fd c) (f' : Func) (b : BB) (x : BData) :
    Block p' f' b x ↔ if f' = f then c.d.bbs.get? b = some x else Block p f' b x := by
  unfold Block
  rw [h.funcs]
  by_cases hf : f' = f
  · simp [hf]
  · simp [hf]

theorem PutCtx.globalVal (h : PutCtx p p' f fd c) (v : Value) (x : VData) :
    GlobalVal p' v x ↔ c.g.get? v = some x := by
  unfold GlobalVal; rw [h.values]

variable {u : Value} {old : Option VKind} {data : Option VData}

theorem localVal_self (hf : p.funcs.get? f = some fd) (v : Value) (x : VData) :
    LocalVal p f v x ↔ (p.ctx fd).d.values.get? v = some x := by
  unfold LocalVal Program.ctx; simp [hf]

theorem block_self (hf : p.funcs.get? f = some fd) (v : BB) (x : BData) :
    Block p f v x ↔ (p.ctx fd).d.bbs.get? v = some x := by
  unfold Block Program.ctx; simp [hf]

theorem Ctx.Edit.localUse (he : (p.ctx fd).Edit c u old data) (hf : p.funcs.get? f = some fd)
    (h : PutCtx p p' f fd c) (f' : Func) (w v : Value) :
    LocalUse p' f' w v ↔
      if f' = f ∧ w = u then v ∈ opsOf (data.map (·.kind)) else LocalUse p f' w v := by
  unfold LocalUse
  simp only [h.localVal]
  by_cases hff : f' = f
  · subst hff
    by_cases hw : w = u
    · subst hw
      simp only [if_true, and_self, he.self]
      cases data <;> simp [opsOf]
    · simp only [if_true, hw, and_false, if_false, he.locals w hw, localVal_self hf,
        Option.map_eq_some_iff]
      constructor
      · rintro ⟨y, ⟨z, hz, rfl⟩, hv⟩; exact ⟨z, hz, by simpa using hv⟩
      · rintro ⟨z, hz, hv⟩; exact ⟨_, ⟨z, hz, rfl⟩, by simpa using hv⟩
  · simp [hff]

theorem Ctx.Edit.targets (he : (p.ctx fd).Edit c u old data) (hf : p.funcs.get? f = some fd)
    (h : PutCtx p p' f fd c) (f' : Func) (w : Value) (b : BB) :
    Targets p' f' w b ↔
      if f' = f ∧ w = u then b ∈ tgtsOf (data.map (·.kind)) else Targets p f' w b := by
  unfold Targets
  simp only [h.localVal]
  by_cases hff : f' = f
  · subst hff
    by_cases hw : w = u
    · subst hw
      simp only [if_true, and_self, he.self]
      cases data <;> simp [tgtsOf]
    · simp only [if_true, hw, and_false, if_false, he.locals w hw, localVal_self hf,
        Option.map_eq_some_iff]
      constructor
      · rintro ⟨y, ⟨z, hz, rfl⟩, hv⟩; exact ⟨z, hz, by simpa using hv⟩
      · rintro ⟨z, hz, hv⟩; exact ⟨_, ⟨z, hz, rfl⟩, by simpa using hv⟩
  · simp [hff]

theorem Ctx.Edit.globalUse (he : (p.ctx fd).Edit c u old data)
    (h : PutCtx p p' f fd c) (w v : Value) : GlobalUse p' w v ↔ GlobalUse p w v := by
  unfold GlobalUse
  simp only [h.globalVal, he.globals, Option.map_eq_some_iff]
  constructor
  · rintro ⟨y, ⟨z, hz, rfl⟩, hv⟩; exact ⟨z, hz, by simpa using hv⟩
  · rintro ⟨z, hz, hv⟩; exact ⟨_, ⟨z, hz, rfl⟩, by simpa using hv⟩

/-- Preservation under an edit of local value `u` of function `f`. -/
theorem Inv.edit {S : Value → Value → Prop} (hi : Inv S p) (hf : p.funcs.get? f = some fd)
    (he : (p.ctx fd).Edit c u old data)
    (hold : old = ((p.ctx fd).d.values.get? u).map (·.kind))
    (hput : PutCtx p p' f fd c)
    (hu : localStart ≤ u ∧ u < p'.ids.nextLocal)
    (hnext : p.ids.nextLocal ≤ p'.ids.nextLocal)
    (hg : p'.ids.nextGlobal = p.ids.nextGlobal) (hb : p.ids.nextBb ≤ p'.ids.nextBb)
    (hfn : p'.ids.nextFunc = p.ids.nextFunc)
    (hfresh : ∀ f' x, LocalVal p f' u x → f' = f)
    (hcase : (∃ x, LocalVal p f u x) ∨ p.ids.nextLocal ≤ u)
    (hused : ∀ w, w ∈ ((data.map (·.usedBy)).getD []) ↔ LocalUse p f w u)
    (hrem : data = none → ∀ w, ¬ LocalUse p f w u) :
    Inv S p' := by
  have hLU : ∀ v, LocalUse p f u v ↔ v ∈ opsOf old := by
    intro v
    subst hold
    unfold LocalUse
    simp only [localVal_self hf]
    cases (p.ctx fd).d.values.get? u <;> simp [opsOf]
  have hTG : ∀ b, Targets p f u b ↔ b ∈ tgtsOf old := by
    intro v
    subst hold
    unfold Targets
    simp only [localVal_self hf]
    cases (p.ctx fd).d.values.get? u <;> simp [tgtsOf]
  have hnotG : ∀ v, ¬ GlobalUse p u v := by
    rintro v ⟨y, hy, _⟩
    have := hi.gRange u y hy; have := hi.gMax; omega
  have hnotS : ∀ v, ¬ S u v := by
    intro v hs
    have := hi.stale u v hs
    rcases hcase with ⟨x, hx⟩ | h
    · exact this.2.2.2 f x hx
    · omega
  have hnotF : ∀ f' v, f' ≠ f → ¬ LocalUse p f' u v := by
    rintro f' v hne ⟨y, hy, _⟩
    exact hne (hfresh f' y hy)
  have hLU' := he.localUse hf hput
  have hTG' := he.targets hf hput
  have hGU' := fun w v => he.globalUse hput w v
  have hGV : ∀ v, (∃ x, GlobalVal p' v x) ↔ ∃ x, GlobalVal p v x := by
    intro v
    simp only [hput.globalVal, he.globals, Option.map_eq_some_iff]
    constructor
    · rintro ⟨_, x, hx, _⟩; exact ⟨x, hx⟩
    · rintro ⟨x, hx⟩; exact ⟨_, x, hx, rfl⟩
  have hLVne : ∀ v, v ≠ u → ∀ x', LocalVal p' f v x' →
      ∃ x, LocalVal p f v x ∧ x' = x.touch u (opsOf old) (opsOf (data.map (·.kind))) v := by
    intro v hv x' hx'
    rw [hput.localVal, if_pos rfl, he.locals v hv, Option.map_eq_some_iff] at hx'
    obtain ⟨x, hx, rfl⟩ := hx'
    exact ⟨x, (localVal_self hf v x).2 hx, rfl⟩
  have hLVex : ∀ v, v ≠ u → ((∃ x, LocalVal p' f v x) ↔ ∃ x, LocalVal p f v x) := by
    intro v hv
    constructor
    · rintro ⟨x', hx'⟩
      obtain ⟨x, hx, _⟩ := hLVne v hv x' hx'
      exact ⟨x, hx⟩
    · rintro ⟨x, hx⟩
      rw [localVal_self hf] at hx
      refine ⟨x.touch u (opsOf old) (opsOf (data.map (·.kind))) v, ?_⟩
      rw [hput.localVal, if_pos rfl, he.locals v hv, hx]; rfl
  have hBex : ∀ b, (∃ x, Block p' f b x) ↔ ∃ x, Block p f b x := by
    intro b
    simp only [hput.block, if_true, he.bbs, Option.map_eq_some_iff, block_self hf]
    constructor
    · rintro ⟨_, x, hx, _⟩; exact ⟨x, hx⟩
    · rintro ⟨x, hx⟩; exact ⟨_, x, hx, rfl⟩
  have hlive : ∀ v ∈ opsOf (data.map (·.kind)), (∃ x, GlobalVal p v x) ∨ (v ≠ u ∧ ∃ x, LocalVal p f v x) := by
    intro v hv
    rcases he.live v hv with h | ⟨h1, h2⟩
    · exact .inl (Option.isSome_iff_exists.1 h)
    · obtain ⟨x, hx⟩ := Option.isSome_iff_exists.1 h2
      exact .inr ⟨h1, x, (localVal_self hf v x).2 hx⟩
  have huNotOps : u ∉ opsOf (data.map (·.kind)) := by
    intro hu'
    rcases hlive u hu' with ⟨x, hx⟩ | ⟨h, _⟩
    · have := hi.gRange u x hx; have := hi.gMax; omega
    · exact h rfl
  have hLV_other : ∀ f', f' ≠ f → ∀ v x, LocalVal p' f' v x ↔ LocalVal p f' v x := by
    intro f' hne v x; rw [hput.localVal, if_neg hne]
  have hB_other : ∀ f', f' ≠ f → ∀ v x, Block p' f' v x ↔ Block p f' v x := by
    intro f' hne v x; rw [hput.block, if_neg hne]
  refine ⟨?_, ?_, ?_, ?_, ?_, ?_, ?_, ?_, ?_, ?_, ?_, ?_, ?_, ?_, ?_, ?_⟩
  · -- gRange
    intro v x hx
    obtain ⟨y, hy⟩ := (hGV v).1 ⟨x, hx⟩
    rw [hg]; exact hi.gRange v y hy
  · rw [hg]; exact hi.gMax
  · rw [hg]; exact hi.gMin
  · -- lRange
    intro f' v x hx
    by_cases hff : f' = f
    · subst hff
      by_cases hv : v = u
      · subst hv; exact hu
      · obtain ⟨y, hy⟩ := (hLVex v hv).1 ⟨x, hx⟩
        have := hi.lRange _ v y hy; omega
    · have := hi.lRange f' v x ((hLV_other f' hff v x).1 hx); omega
  · have := hi.lMin; omega
  · -- lDisj
    have hback : ∀ f' v x, LocalVal p' f' v x → (∃ y, LocalVal p f' v y) ∨ (f' = f ∧ v = u) := by
      intro f' v x hx
      by_cases hff : f' = f
      · subst hff
        by_cases hv : v = u
        · exact .inr ⟨rfl, hv⟩
        · exact .inl ((hLVex v hv).1 ⟨x, hx⟩)
      · exact .inl ⟨x, (hLV_other f' hff v x).1 hx⟩
    intro f1 f2 v x1 x2 h1 h2
    rcases hback f1 v x1 h1 with ⟨y1, h1⟩ | ⟨e1, ev⟩
    · rcases hback f2 v x2 h2 with ⟨y2, h2⟩ | ⟨e2, ev2⟩
      · exact hi.lDisj f1 f2 v y1 y2 h1 h2
      · subst ev2; rw [e2]; exact hfresh f1 y1 h1
    · rcases hback f2 v x2 h2 with ⟨y2, h2⟩ | ⟨e2, ev2⟩
      · subst ev; rw [e1]; exact (hfresh f2 y2 h2).symm
      · rw [e1, e2]
  · -- bRange
    intro f' b x hx
    by_cases hff : f' = f
    · subst hff
      obtain ⟨y, hy⟩ := (hBex b).1 ⟨x, hx⟩
      have := hi.bRange _ b y hy; omega
    · have := hi.bRange f' b x ((hB_other f' hff b x).1 hx); omega
  · -- fRange
    intro f' fd' hfd
    rw [hput.funcs] at hfd
    rw [hfn]
    by_cases hff : f' = f
    · subst hff; exact hi.fRange _ _ hf
    · rw [if_neg hff] at hfd; exact hi.fRange _ _ hfd
  · -- stale
    intro w v hs
    obtain ⟨h1, h2, h4, h3⟩ := hi.stale w v hs
    refine ⟨h1, by omega, by omega, fun f' x hx => ?_⟩
    by_cases hff : f' = f
    · subst hff
      by_cases hv : w = u
      · subst hv; exact hnotS v hs
      · obtain ⟨y, hy⟩ := (hLVex w hv).1 ⟨x, hx⟩
        exact h3 _ y hy
    · exact h3 _ x ((hLV_other f' hff w x).1 hx)
  · -- localUses
    intro f' v x' hx' w
    by_cases hff : f' = f
    · subst hff
      rw [hLU']
      by_cases hv : v = u
      · subst hv
        rw [hput.localVal, if_pos rfl, he.self] at hx'
        subst hx'
        have := hused w
        simp only [Option.map_some, Option.getD_some] at this
        rw [this]
        by_cases hw : w = v
        · subst hw
          simp only [and_self, if_true]
          exact iff_of_false (hi.noSelf _ _) huNotOps
        · simp [hw]
      · obtain ⟨x, hx, rfl⟩ := hLVne v hv x' hx'
        rw [VData.mem_touch, hi.localUses _ v x hx]
        by_cases hw : w = u
        · subst hw
          simp only [and_self, if_true, hLU]
          grind
        · simp [hw]
    · rw [hLU', if_neg (by simp [hff])]
      exact hi.localUses f' v x' ((hLV_other f' hff v x').1 hx') w
  · -- globalUses
    intro v x' hx' w
    rw [hput.globalVal, he.globals, Option.map_eq_some_iff] at hx'
    obtain ⟨x, hx, rfl⟩ := hx'
    rw [VData.mem_touch, hi.globalUses v x hx, hGU']
    by_cases hw : w = u
    · subst hw
      have e1 : (∃ f', LocalUse p' f' w v) ↔ v ∈ opsOf (data.map (·.kind)) := by
        constructor
        · rintro ⟨f', h⟩
          rw [hLU'] at h
          by_cases hff : f' = f
          · simpa [hff] using h
          · rw [if_neg (by simp [hff])] at h
            exact absurd h (hnotF f' v hff)
        · intro h; exact ⟨f, by rw [hLU']; simpa using h⟩
      have e2 : (∃ f', LocalUse p f' w v) ↔ v ∈ opsOf old := by
        constructor
        · rintro ⟨f', h⟩
          by_cases hff : f' = f
          · subst hff; exact (hLU v).1 h
          · exact absurd h (hnotF f' v hff)
        · intro h; exact ⟨f, (hLU v).2 h⟩
      rw [e1, e2]
      have := hnotG v; have := hnotS v
      grind
    · have e1 : (∃ f', LocalUse p' f' w v) ↔ (∃ f', LocalUse p f' w v) := by
        simp only [hLU', hw, and_false, if_false]
      rw [e1]; simp [hw]
  · -- blockUses
    intro f' b x' hx' w
    by_cases hff : f' = f
    · subst hff
      rw [hput.block, if_pos rfl, he.bbs, Option.map_eq_some_iff] at hx'
      obtain ⟨x, hx, rfl⟩ := hx'
      rw [BData.mem_touch, hi.blockUses _ b x ((block_self hf b x).2 hx), hTG']
      by_cases hw : w = u
      · subst hw
        simp only [and_self, if_true, hTG]
        grind
      · simp [hw]
    · rw [hTG', if_neg (by simp [hff])]
      exact hi.blockUses f' b x' ((hB_other f' hff b x').1 hx') w
  · -- closedL
    intro f' w v h
    rw [hLU'] at h
    rw [hGV]
    by_cases hff : f' = f
    · subst hff
      by_cases hw : w = u
      · rw [if_pos ⟨rfl, hw⟩] at h
        rcases hlive v h with h | ⟨h1, h2⟩
        · exact .inl h
        · exact .inr ((hLVex v h1).2 h2)
      · rw [if_neg (by simp [hw])] at h
        rcases hi.closedL _ w v h with h' | h'
        · exact .inl h'
        · by_cases hv : v = u
          · subst hv
            cases hdata : data with
            | none => exact absurd h (hrem hdata w)
            | some nd =>
              refine .inr ⟨nd, ?_⟩
              rw [hput.localVal, if_pos rfl, he.self, hdata]
          · exact .inr ((hLVex v hv).2 h')
    · rw [if_neg (by simp [hff])] at h
      simp only [hLV_other f' hff]
      exact hi.closedL f' w v h
  · -- closedG
    intro w v h
    rw [hGV]; exact hi.closedG w v ((hGU' w v).1 h)
  · -- closedB
    intro f' w b h
    rw [hTG'] at h
    by_cases hff : f' = f
    · subst hff
      rw [hBex]
      by_cases hw : w = u
      · rw [if_pos ⟨rfl, hw⟩] at h
        obtain ⟨x, hx⟩ := Option.isSome_iff_exists.1 (he.liveBb b h)
        exact ⟨x, (block_self hf b x).2 hx⟩
      · rw [if_neg (by simp [hw])] at h
        exact hi.closedB _ w b h
    · rw [if_neg (by simp [hff])] at h
      simp only [hB_other f' hff]
      exact hi.closedB f' w b h
  · -- noSelf
    intro f' w h
    rw [hLU'] at h
    by_cases hff : f' = f ∧ w = u
    · rw [if_pos hff, hff.2] at h; exact huNotOps h
    · rw [if_neg hff] at h; exact hi.noSelf f' w h
end

end Koopa
