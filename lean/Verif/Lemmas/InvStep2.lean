import Verif.Lemmas.InvStep
/-! Preservation of the invariant: blocks, functions, globals; the step theorem. -/
namespace Koopa
open Spec

/-! ### Blocks -/

/-- Insertion or removal of blocks no value transfers control to. -/
theorem Inv.blocks {S p p'} (hi : Inv S p) (hg : p'.values = p.values)
    (hl : ∀ f v x, LocalVal p' f v x ↔ LocalVal p f v x)
    (hfr : ∀ f fd, p'.funcs.get? f = some fd → ∃ fd', p.funcs.get? f = some fd')
    (hb : ∀ f b x, Block p' f b x →
      Block p f b x ∨ (p.ids.nextBb ≤ b ∧ b < p'.ids.nextBb ∧ x.usedBy = []))
    (hb2 : ∀ f b x, Block p f b x → (∃ x', Block p' f b x') ∨ ∀ u, ¬ Targets p f u b)
    (h1 : p'.ids.nextGlobal = p.ids.nextGlobal) (h2 : p'.ids.nextLocal = p.ids.nextLocal)
    (h3 : p.ids.nextBb ≤ p'.ids.nextBb) (h4 : p'.ids.nextFunc = p.ids.nextFunc) : Inv S p' := by
  have hGV : ∀ v x, GlobalVal p' v x ↔ GlobalVal p v x := by unfold GlobalVal; rw [hg]; simp
  have hLU : ∀ f u v, LocalUse p' f u v ↔ LocalUse p f u v := by
    intro f u v; unfold LocalUse; simp only [hl]
  have hT : ∀ f u v, Targets p' f u v ↔ Targets p f u v := by
    intro f u v; unfold Targets; simp only [hl]
  have hGU : ∀ u v, GlobalUse p' u v ↔ GlobalUse p u v := by
    intro u v; unfold GlobalUse; simp only [hGV]
  refine ⟨?_, ?_, ?_, ?_, ?_, ?_, ?_, ?_, ?_, ?_, ?_, ?_, ?_, ?_, ?_, ?_⟩
  · intro v x hx; rw [h1]; exact hi.gRange v x ((hGV v x).1 hx)
  · rw [h1]; exact hi.gMax
  · rw [h1]; exact hi.gMin
  · intro f v x hx; rw [h2]; exact hi.lRange f v x ((hl f v x).1 hx)
  · rw [h2]; exact hi.lMin
  · intro f f' v x x' a b; exact hi.lDisj f f' v x x' ((hl ..).1 a) ((hl ..).1 b)
  · intro f b x hx
    rcases hb f b x hx with h | h
    · have := hi.bRange f b x h; omega
    · exact h.2.1
  · intro f fd h
    obtain ⟨fd', h'⟩ := hfr f fd h
    rw [h4]; exact hi.fRange f fd' h'
  · intro u v hs
    obtain ⟨a, b, c, d⟩ := hi.stale u v hs
    exact ⟨a, by omega, by omega, fun f x hx => d f x ((hl ..).1 hx)⟩
  · intro f v x hx u; rw [hi.localUses f v x ((hl ..).1 hx), hLU]
  · intro v x hx u
    rw [hi.globalUses v x ((hGV ..).1 hx)]; simp only [hLU, hGU]
  · intro f b x hx u
    rw [hT]
    rcases hb f b x hx with h | ⟨h, _, he⟩
    · exact hi.blockUses f b x h u
    · rw [he]
      simp only [List.not_mem_nil, false_iff]
      intro ht
      obtain ⟨y, hy⟩ := hi.closedB f u b ht
      have := hi.bRange f b y hy; omega
  · intro f u v h
    simp only [hGV, hl]; exact hi.closedL f u v ((hLU ..).1 h)
  · intro u v h; simp only [hGV]; exact hi.closedG u v ((hGU ..).1 h)
  · intro f u b h
    rw [hT] at h
    obtain ⟨y, hy⟩ := hi.closedB f u b h
    rcases hb2 f b y hy with h' | h'
    · exact h'
    · exact absurd h (h' u)
  · intro f u h; exact hi.noSelf f u ((hLU ..).1 h)

theorem Inv.newBbData {S p f fd b data} (hi : Inv S p) (hf : p.funcs.get? f = some fd)
    (hb : p.ids.nextBb ≤ b) (hd : data.usedBy = []) :
    Inv S { p.putCtx f fd ((p.ctx fd).newBbData b data) with ids := { p.ids with nextBb := b + 1 } } := by
  have hput : PutCtx p
    { p.putCtx f fd ((p.ctx fd).newBbData b data) with ids := { p.ids with nextBb := b + 1 } } f fd
      ((p.ctx fd).newBbData b data) := ⟨rfl, fun f' => Map.get?_insert ..⟩
  have hblk : ∀ b', ((p.ctx fd).newBbData b data).d.bbs.get? b' =
      if b' = b then some data else (p.ctx fd).d.bbs.get? b' := fun b' => Map.get?_insert ..
  refine hi.blocks rfl ?_ ?_ ?_ ?_ rfl rfl (by show _ ≤ b + 1; omega) rfl
  · intro f' v x
    rw [hput.localVal]
    by_cases h : f' = f
    · subst h; rw [if_pos rfl, localVal_self hf]; rfl
    · rw [if_neg h]
  · intro f' fd' h
    rw [hput.funcs] at h
    by_cases h' : f' = f
    · subst h'; exact ⟨fd, hf⟩
    · rw [if_neg h'] at h; exact ⟨fd', h⟩
  · intro f' b' x h
    rw [hput.block] at h
    by_cases h' : f' = f
    · subst h'
      rw [if_pos rfl, hblk] at h
      by_cases hbb : b' = b
      · subst hbb; simp only [if_true, Option.some.injEq] at h; subst h
        exact .inr ⟨hb, Nat.lt_succ_self _, hd⟩
      · rw [if_neg hbb] at h; exact .inl ((block_self hf b' x).2 h)
    · rw [if_neg h'] at h; exact .inl h
  · intro f' b' x h
    left
    by_cases h' : f' = f
    · subst h'
      by_cases hbb : b' = b
      · exact ⟨data, by rw [hput.block, if_pos rfl, hblk, if_pos hbb]⟩
      · exact ⟨x, by rw [hput.block, if_pos rfl, hblk, if_neg hbb]; exact (block_self hf b' x).1 h⟩
    · exact ⟨x, by rw [hput.block, if_neg h']; exact h⟩

theorem Inv.newBb {S p f n p' b} (hi : Inv S p) (h : p.newBb f n = some (p', b)) : Inv S p' := by
  unfold Program.newBb Program.onDfg at h
  simp only [Option.bind_eq_bind, Option.bind_eq_some_iff, Option.some.injEq, Prod.mk.injEq] at h
  obtain ⟨_, _, p1, ⟨fd, hf, c, rfl, rfl⟩, rfl, _⟩ := h
  exact hi.newBbData hf (Nat.le_refl _) rfl

/-- Writes a graph back and sets the counter of local ids. -/
def Program.withCtx (p : Program) (f : Func) (fd : FData) (c : Ctx) (next : Nat) : Program :=
  { p.putCtx f fd c with ids := { p.ids with nextLocal := next } }

theorem withCtx_get (p : Program) (f : Func) (fd : FData) (c : Ctx) (next : Nat) :
    (p.withCtx f fd c next).funcs.get? f = some { fd with dfg := c.d } :=
  Map.get?_insert_self ..

theorem Inv.blockParams {S} {p : Program} {f : Func} {fd : FData} : ∀ (ps : List (Option Str × Ty)) (c : Ctx) (next i : Nat) (c' : Ctx)
    (hs : List Value), Inv S (p.withCtx f fd c next) → c.blockParams next i ps = some (c', hs) →
    Inv S (p.withCtx f fd c' (next + ps.length))
  | [], c, next, i, c', hs, hi, h => by
    simp only [Ctx.blockParams, Option.some.injEq, Prod.mk.injEq] at h
    obtain ⟨rfl, _⟩ := h; exact hi
  | (n, ty) :: ps, c, next, i, c', hs, hi, h => by
    simp only [Ctx.blockParams, Option.bind_eq_bind, Option.bind_eq_some_iff, Option.some.injEq,
      Prod.mk.injEq] at h
    obtain ⟨data, hd, c1, h1, ⟨c2, hs'⟩, h2, rfl, rfl⟩ := h
    have hdata : data.usedBy = [] := (congrArg Prod.snd (VData.setName_sig hd) : _ = ([] : List Value))
    have : Inv S (p.withCtx f fd c1 (next + 1)) := by
      refine hi.newValue (fd := { fd with dfg := c.d }) (c := c1) (withCtx_get ..) (Nat.le_refl _) ?_ rfl hdata h1
      refine ⟨rfl, fun f' => ?_⟩
      show (p.funcs.insert f _).get? f' = if f' = f then _ else (p.funcs.insert f _).get? f'
      simp only [Map.get?_insert]
      split <;> rfl
    have := Inv.blockParams ps c1 (next + 1) (i + 1) c2 hs' this h2
    simpa [Nat.add_assoc, Nat.add_comm 1] using this

theorem Program.ctx_withCtx {p : Program} {f : Func} {fd : FData} (hf : p.funcs.get? f = some fd) :
    SameUses p (p.withCtx f fd (p.ctx fd) p.ids.nextLocal) :=
  SameUses.putFunc hf (fun _ => rfl) rfl (fun _ => rfl) (fun _ => rfl)

theorem Inv.ofViews {S p p'} (hi : Inv S p) (hv : p'.values = p.values)
    (hf : ∀ f, p'.funcs.get? f = p.funcs.get? f) (hids : p'.ids = p.ids) : Inv S p' := by
  refine hi.same ⟨fun v => by rw [hv], fun f => by rw [hf], ?_, ?_⟩ hids
  · intro f fd fd' h1 h2; rw [hf, h1] at h2; cases h2; intro v; rfl
  · intro f fd fd' h1 h2; rw [hf, h1] at h2; cases h2; intro v; rfl

theorem Inv.newBbParams {S p f n ps p' b} (hi : Inv S p)
    (h : p.newBbWithParamNames f n ps = some (p', b)) : Inv S p' := by
  unfold Program.newBbWithParamNames at h
  simp only [Option.bind_eq_bind, Option.bind_eq_some_iff, Option.some.injEq, Prod.mk.injEq] at h
  obtain ⟨_, _, _, _, fd, hf, ⟨c, hs⟩, hc, rfl, _⟩ := h
  have h0 : Inv S (p.withCtx f fd (p.ctx fd) p.ids.nextLocal) := hi.same (Program.ctx_withCtx hf) rfl
  have h1 := Inv.blockParams ps _ _ _ _ _ h0 hc
  have h2 := h1.newBbData (f := f) (b := p.ids.nextBb) (data := { name := n, params := hs, usedBy := [] })
    (withCtx_get ..) (Nat.le_refl _) rfl
  refine h2.ofViews rfl (fun f' => ?_) rfl
  show (p.funcs.insert f _).get? f' = ((p.funcs.insert f _).insert f _).get? f'
  simp only [Map.get?_insert]
  split <;> rfl

theorem eraseLocal_edit {c : Ctx} {u : Value} {x : VData} (hd : c.Disj) (ho : operands x.kind = [])
    (ht : targets x.kind = []) : c.Edit (c.eraseLocal u) u (some x.kind) none := by
  refine ⟨eraseLocal_disj hd, Map.get?_erase_self .., ?_, ?_, ?_, ?_, ?_⟩
  · intro w hw
    show (c.d.values.erase u).get? w = _
    rw [Map.get?_erase_ne _ hw]
    simp only [opsOf, Option.map_some, ho, Option.getD_some, Option.map_none, Option.getD_none]
    cases c.d.values.get? w <;> simp [VData.touch]
  · intro w
    simp only [opsOf, Option.map_some, ho, Option.getD_some, Option.map_none, Option.getD_none]
    show c.g.get? w = _
    cases c.g.get? w <;> simp [VData.touch]
  · intro w
    simp only [tgtsOf, Option.map_some, ht, Option.getD_some, Option.map_none, Option.getD_none]
    show c.d.bbs.get? w = _
    cases c.d.bbs.get? w <;> simp [BData.touch]
  · simp [opsOf]
  · simp [tgtsOf]

theorem Inv.removeParams {S} {p : Program} {f : Func} {fd : FData} : ∀ (ps : List Value) (c c' : Ctx),
    Inv S (p.putCtx f fd c) →
    (∀ v ∈ ps, ∀ x, c.d.values.get? v = some x → operands x.kind = [] ∧ targets x.kind = []) →
    c.removeParams ps = some c' → Inv S (p.putCtx f fd c')
  | [], c, c', hi, _, h => by
    simp only [Ctx.removeParams, Option.some.injEq] at h; subst h; exact hi
  | v :: ps, c, c', hi, hk, h => by
    simp only [Ctx.removeParams] at h
    split at h
    · rename_i x hx
      split at h
      · rename_i hu
        have hf : (p.putCtx f fd c).funcs.get? f = some { fd with dfg := c.d } := Map.get?_insert_self ..
        obtain ⟨ho, ht⟩ := hk v (by simp) x hx
        have he := eraseLocal_edit (u := v) (hi.ctxDisj hf) ho ht
        have h1 := hi.editExisting (old := x) hf hx he (by intro nd h; cases h) (fun _ => hu)
        have h2 : Inv S (p.putCtx f fd (c.eraseLocal v)) := by
          refine h1.ofViews rfl (fun f' => ?_) rfl
          show (p.funcs.insert f _).get? f' = ((p.funcs.insert f _).insert f _).get? f'
          simp only [Map.get?_insert]
          split <;> rfl
        refine Inv.removeParams ps _ c' h2 (fun w hw y hy => ?_) h
        have : (c.d.values.erase v).get? w = some y := hy
        rw [Map.get?_erase] at this
        split at this
        · cases this
        · exact hk w (by simp [hw]) y this
      · cases h
    · cases h

/-- The parameters of block `b` still have kinds without operands, as when they were created. -/
def ParamsPlain (p : Program) (f : Func) (b : BB) : Prop :=
  ∀ x, Block p f b x → ∀ v ∈ x.params, ∀ y, LocalVal p f v y →
    operands y.kind = [] ∧ targets y.kind = []

theorem Inv.removeBb {S p f b p'} (hi : Inv S p) (hok : ParamsPlain p f b)
    (h : p.removeBb f b = some p') : Inv S p' := by
  unfold Program.removeBb Program.onDfg Ctx.removeBb at h
  simp only [Option.bind_eq_bind, Option.bind_eq_some_iff, Option.some.injEq,
    Option.map_eq_some_iff, guard] at h
  obtain ⟨fd, hf, c, ⟨⟨c', data⟩, ⟨bd, hb, _, hg, c2, hc, he⟩, rfl⟩, rfl⟩ := h
  cases he
  have hu : data.usedBy = [] := by
    by_cases hq : data.usedBy = []
    · exact hq
    · rw [if_neg hq] at hg; cases hg
  have hblock : Block p f b data := ⟨fd, hf, hb⟩
  refine Inv.removeParams data.params _ _ ?_ (fun v hv x hx => hok data hblock v hv x ⟨fd, hf, hx⟩) hc
  have hput := putCtx_put p f fd { g := (p.ctx fd).g, d := { (p.ctx fd).d with bbs := (p.ctx fd).d.bbs.erase b } }
  refine hi.blocks rfl ?_ ?_ ?_ ?_ rfl rfl (Nat.le_refl _) rfl
  · intro f' v x
    rw [hput.localVal]
    by_cases h : f' = f
    · subst h; rw [if_pos rfl, localVal_self hf]
    · rw [if_neg h]
  · intro f' fd' h
    rw [hput.funcs] at h
    by_cases h' : f' = f
    · subst h'; exact ⟨fd, hf⟩
    · rw [if_neg h'] at h; exact ⟨fd', h⟩
  · intro f' b' x h
    left
    rw [hput.block] at h
    by_cases h' : f' = f
    · subst h'
      rw [if_pos rfl, Map.get?_erase] at h
      by_cases hbb : b' = b
      · rw [if_pos hbb] at h; cases h
      · rw [if_neg hbb] at h; exact (block_self hf b' x).2 h
    · rw [if_neg h'] at h; exact h
  · intro f' b' x h
    by_cases h' : f' = f
    · subst h'
      by_cases hbb : b' = b
      · subst hbb
        right; intro u ht
        rw [← hi.blockUses _ _ data hblock, hu] at ht; cases ht
      · left
        exact ⟨x, by rw [hput.block, if_pos rfl, Map.get?_erase_ne _ hbb]; exact (block_self hf b' x).1 h⟩
    · left; exact ⟨x, by rw [hput.block, if_neg h']; exact h⟩

/-! ### Functions -/

theorem funcParams_spec : ∀ (ps : List (Option Str × Ty)) (vs : Map Value VData) (next i : Nat)
    (vs' : Map Value VData) (hs : List Value), funcParams vs next i ps = some (vs', hs) →
    ∀ v x, vs'.get? v = some x → vs.get? v = some x ∨
      (next ≤ v ∧ v < next + ps.length ∧ (∃ j, x.kind = .funcArgRef j) ∧ x.usedBy = [])
  | [], vs, next, i, vs', hs, h, v, x, hx => by
    simp only [funcParams, Option.some.injEq, Prod.mk.injEq] at h
    obtain ⟨rfl, _⟩ := h; exact .inl hx
  | (n, ty) :: ps, vs, next, i, vs', hs, h, v, x, hx => by
    simp only [funcParams, Option.bind_eq_bind, Option.bind_eq_some_iff, Option.some.injEq,
      Prod.mk.injEq] at h
    obtain ⟨data, hd, ⟨vs1, hs1⟩, h1, rfl, rfl⟩ := h
    have hsig := VData.setName_sig hd
    rcases funcParams_spec ps _ _ _ _ _ h1 v x hx with h' | ⟨h1, h2, h3, h4⟩
    · rw [Map.get?_insert] at h'
      by_cases hv : v = next
      · rw [if_pos hv] at h'; cases h'
        refine .inr ⟨by omega, by simp; omega, ⟨i, congrArg Prod.fst hsig⟩, congrArg Prod.snd hsig⟩
      · rw [if_neg hv] at h'; exact .inl h'
    · exact .inr ⟨by omega, by simp; omega, h3, h4⟩

/-- A new function whose values are argument references with fresh ids. -/
theorem Inv.newFunc {S p p' fd n} (hi : Inv S p)
    (hvals : ∀ v x, fd.dfg.values.get? v = some x → p.ids.nextLocal ≤ v ∧ v < p.ids.nextLocal + n ∧
      (∃ j, x.kind = .funcArgRef j) ∧ x.usedBy = [])
    (hbbs : fd.dfg.bbs = .empty) (hv : p'.values = p.values)
    (hf : p'.funcs = p.funcs.insert p.ids.nextFunc fd)
    (hids : p'.ids = { p.ids with nextLocal := p.ids.nextLocal + n, nextFunc := p.ids.nextFunc + 1 }) :
    Inv S p' := by
  have hget : ∀ f, p'.funcs.get? f = if f = p.ids.nextFunc then some fd else p.funcs.get? f := by
    intro f; rw [hf, Map.get?_insert]
  have hnone : ∀ fd', p.funcs.get? p.ids.nextFunc ≠ some fd' := by
    intro fd' h; have := hi.fRange _ _ h; omega
  have hLV : ∀ f v x, LocalVal p' f v x ↔
      LocalVal p f v x ∨ (f = p.ids.nextFunc ∧ fd.dfg.values.get? v = some x) := by
    intro f v x
    unfold LocalVal
    rw [hget]
    by_cases h : f = p.ids.nextFunc
    · subst h; simp [hnone]
    · simp [h]
  have hB : ∀ f v x, Block p' f v x ↔ Block p f v x := by
    intro f v x
    unfold Block
    rw [hget]
    by_cases h : f = p.ids.nextFunc
    · subst h; simp [hnone, hbbs]
    · simp [h]
  have hGV : ∀ v x, GlobalVal p' v x ↔ GlobalVal p v x := by unfold GlobalVal; rw [hv]; simp
  have hLU : ∀ f u v, LocalUse p' f u v ↔ LocalUse p f u v := by
    intro f u v
    unfold LocalUse
    simp only [hLV]
    constructor
    · rintro ⟨y, h | ⟨_, h⟩, ho⟩
      · exact ⟨y, h, ho⟩
      · obtain ⟨_, _, ⟨j, hk⟩, _⟩ := hvals u y h
        rw [hk] at ho; cases ho
    · rintro ⟨y, h, ho⟩; exact ⟨y, .inl h, ho⟩
  have hT : ∀ f u v, Targets p' f u v ↔ Targets p f u v := by
    intro f u v
    unfold Targets
    simp only [hLV]
    constructor
    · rintro ⟨y, h | ⟨_, h⟩, ho⟩
      · exact ⟨y, h, ho⟩
      · obtain ⟨_, _, ⟨j, hk⟩, _⟩ := hvals u y h
        rw [hk] at ho; cases ho
    · rintro ⟨y, h, ho⟩; exact ⟨y, .inl h, ho⟩
  have hGU : ∀ u v, GlobalUse p' u v ↔ GlobalUse p u v := by
    intro u v; unfold GlobalUse; simp only [hGV]
  have e1 : p'.ids.nextGlobal = p.ids.nextGlobal := by rw [hids]
  have e2 : p'.ids.nextLocal = p.ids.nextLocal + n := by rw [hids]
  have e3 : p'.ids.nextBb = p.ids.nextBb := by rw [hids]
  have e4 : p'.ids.nextFunc = p.ids.nextFunc + 1 := by rw [hids]
  have hmin := hi.lMin
  refine ⟨?_, ?_, ?_, ?_, ?_, ?_, ?_, ?_, ?_, ?_, ?_, ?_, ?_, ?_, ?_, ?_⟩
  · intro v x hx; rw [e1]; exact hi.gRange v x ((hGV v x).1 hx)
  · rw [e1]; exact hi.gMax
  · rw [e1]; exact hi.gMin
  · intro f v x hx
    rcases (hLV f v x).1 hx with h | ⟨_, h⟩
    · have := hi.lRange f v x h; omega
    · have := hvals v x h; omega
  · omega
  · intro f f' v x x' a b
    rcases (hLV f v x).1 a with h | ⟨hf1, h⟩ <;> rcases (hLV f' v x').1 b with h' | ⟨hf2, h'⟩
    · exact hi.lDisj f f' v x x' h h'
    · have := hi.lRange f v x h; have := hvals v x' h'; omega
    · have := hi.lRange f' v x' h'; have := hvals v x h; omega
    · rw [hf1, hf2]
  · intro f b x hx; rw [e3]; exact hi.bRange f b x ((hB ..).1 hx)
  · intro f fd' h
    rw [hget] at h
    by_cases h' : f = p.ids.nextFunc
    · omega
    · rw [if_neg h'] at h; have := hi.fRange f fd' h; omega
  · intro u v hs
    obtain ⟨a, b, c, d⟩ := hi.stale u v hs
    refine ⟨a, by omega, by omega, fun f x hx => ?_⟩
    rcases (hLV f u x).1 hx with h | ⟨_, h⟩
    · exact d f x h
    · have := hvals u x h; omega
  · intro f v x hx u
    rw [hLU]
    rcases (hLV f v x).1 hx with h | ⟨hf1, h⟩
    · exact hi.localUses f v x h u
    · obtain ⟨h1, _, _, h4⟩ := hvals v x h
      rw [h4]
      simp only [List.not_mem_nil, false_iff]
      exact hi.noLocalUse_fresh h1
  · intro v x hx u
    rw [hi.globalUses v x ((hGV ..).1 hx)]; simp only [hLU, hGU]
  · intro f b x hx u; rw [hT]; exact hi.blockUses f b x ((hB ..).1 hx) u
  · intro f u v h
    rcases hi.closedL f u v ((hLU ..).1 h) with ⟨x, hx⟩ | ⟨x, hx⟩
    · exact .inl ⟨x, (hGV ..).2 hx⟩
    · exact .inr ⟨x, (hLV ..).2 (.inl hx)⟩
  · intro u v h; simp only [hGV]; exact hi.closedG u v ((hGU ..).1 h)
  · intro f u b h; simp only [hB]; exact hi.closedB f u b ((hT ..).1 h)
  · intro f u h; exact hi.noSelf f u ((hLU ..).1 h)

theorem Inv.newFuncDef {S p n ps r p' f} (hi : Inv S p)
    (h : p.newFuncDefWithParamNames n ps r = some (p', f)) : Inv S p' := by
  unfold Program.newFuncDefWithParamNames Program.insertFunc at h
  simp only [Option.bind_eq_bind, Option.bind_eq_some_iff, Option.some.injEq, Prod.mk.injEq] at h
  obtain ⟨_, _, ⟨vs, hs⟩, hvs, rfl, _⟩ := h
  refine hi.newFunc (n := ps.length) (fun v x hx => ?_) rfl rfl rfl rfl
  rcases funcParams_spec _ _ _ _ _ _ hvs v x hx with h | h
  · cases h
  · exact h

theorem Inv.newFuncDecl {S p n ps r p' f} (hi : Inv S p)
    (h : p.newFuncDecl n ps r = some (p', f)) : Inv S p' := by
  unfold Program.newFuncDecl Program.insertFunc at h
  simp only [Option.bind_eq_bind, Option.bind_eq_some_iff, Option.some.injEq, Prod.mk.injEq] at h
  obtain ⟨_, _, rfl, _⟩ := h
  exact hi.newFunc (n := 0) (fun v x hx => by cases hx) rfl rfl rfl rfl

theorem Inv.removeFunc {S p f p' d} (hi : Inv S p) (h : p.removeFunc f = some (p', d)) :
    Inv (fun u v => S u v ∨ (LocalUse p f u v ∧ v < p.ids.nextGlobal)) p' := by
  unfold Program.removeFunc at h
  split at h
  case isFalse => cases h
  simp only [Option.some.injEq, Prod.mk.injEq] at h
  obtain ⟨rfl, _⟩ := h
  have hget : ∀ f', (p.funcs.erase f).get? f' = if f' = f then none else p.funcs.get? f' :=
    fun f' => Map.get?_erase ..
  generalize hp' : ({ p with
      funcTys := p.funcTys.erase f
      funcLayout := p.funcLayout.erase f
      funcs := p.funcs.erase f } : Program) = p'
  have hv : p'.values = p.values := by rw [← hp']
  have hget : ∀ f', p'.funcs.get? f' = if f' = f then none else p.funcs.get? f' := by
    rw [← hp']; exact hget
  have hids : p'.ids = p.ids := by rw [← hp']
  have hLV : ∀ f' v x, LocalVal p' f' v x ↔ f' ≠ f ∧ LocalVal p f' v x := by
    intro f' v x; unfold LocalVal; rw [hget]
    by_cases h : f' = f <;> simp [h]
  have hB : ∀ f' v x, Block p' f' v x ↔ f' ≠ f ∧ Block p f' v x := by
    intro f' v x; unfold Block; rw [hget]
    by_cases h : f' = f <;> simp [h]
  have hGV : ∀ v x, GlobalVal p' v x ↔ GlobalVal p v x := by unfold GlobalVal; rw [hv]; simp
  have hLU : ∀ f' u v, LocalUse p' f' u v ↔ f' ≠ f ∧ LocalUse p f' u v := by
    intro f' u v; unfold LocalUse; simp only [hLV]
    constructor
    · rintro ⟨y, ⟨a, b⟩, c⟩; exact ⟨a, y, b, c⟩
    · rintro ⟨a, y, b, c⟩; exact ⟨y, ⟨a, b⟩, c⟩
  have hT : ∀ f' u v, Targets p' f' u v ↔ f' ≠ f ∧ Targets p f' u v := by
    intro f' u v; unfold Targets; simp only [hLV]
    constructor
    · rintro ⟨y, ⟨a, b⟩, c⟩; exact ⟨a, y, b, c⟩
    · rintro ⟨a, y, b, c⟩; exact ⟨y, ⟨a, b⟩, c⟩
  have hGU : ∀ u v, GlobalUse p' u v ↔ GlobalUse p u v := by
    intro u v; unfold GlobalUse; simp only [hGV]
  clear hp'
  refine ⟨?_, ?_, ?_, ?_, ?_, ?_, ?_, ?_, ?_, ?_, ?_, ?_, ?_, ?_, ?_, ?_⟩
  · intro v x hx; rw [hids]; exact hi.gRange v x ((hGV v x).1 hx)
  · rw [hids]; exact hi.gMax
  · rw [hids]; exact hi.gMin
  · intro f' v x hx; rw [hids]; exact hi.lRange f' v x ((hLV ..).1 hx).2
  · rw [hids]; exact hi.lMin
  · intro f1 f2 v x x' a b; exact hi.lDisj f1 f2 v x x' ((hLV ..).1 a).2 ((hLV ..).1 b).2
  · intro f' b x hx; rw [hids]; exact hi.bRange f' b x ((hB ..).1 hx).2
  · intro f' fd h
    rw [hget] at h
    by_cases h' : f' = f
    · simp [h'] at h
    · rw [if_neg h'] at h; rw [hids]; exact hi.fRange f' fd h
  · intro u v hs
    rw [hids]
    rcases hs with hs | ⟨⟨y, hy, _⟩, hlt⟩
    · obtain ⟨a, b, c, d⟩ := hi.stale u v hs
      exact ⟨a, b, c, fun f' x hx => d f' x ((hLV ..).1 hx).2⟩
    · have := hi.lRange f u y hy
      refine ⟨this.1, this.2, hlt, fun f' x hx => ?_⟩
      obtain ⟨h1, h2⟩ := (hLV ..).1 hx
      exact h1 (hi.lDisj f' f u x y h2 hy)
  · intro f' v x hx u
    obtain ⟨h1, h2⟩ := (hLV ..).1 hx
    rw [hLU, hi.localUses f' v x h2]; simp [h1]
  · intro v x hx u
    have hx' := (hGV ..).1 hx
    have hr := (hi.gRange v x hx').2
    rw [hi.globalUses v x hx']; simp only [hLU, hGU]
    constructor
    · rintro (h | ⟨f', h⟩ | h)
      · exact .inl h
      · by_cases hff : f' = f
        · subst hff; exact .inr (.inr (.inr ⟨h, hr⟩))
        · exact .inr (.inl ⟨f', hff, h⟩)
      · exact .inr (.inr (.inl h))
    · rintro (h | ⟨f', _, h⟩ | h | ⟨h, _⟩)
      · exact .inl h
      · exact .inr (.inl ⟨f', h⟩)
      · exact .inr (.inr h)
      · exact .inr (.inl ⟨f, h⟩)
  · intro f' b x hx u
    obtain ⟨h1, h2⟩ := (hB ..).1 hx
    rw [hT, hi.blockUses f' b x h2]; simp [h1]
  · intro f' u v h
    obtain ⟨h1, h2⟩ := (hLU ..).1 h
    rcases hi.closedL f' u v h2 with ⟨x, hx⟩ | ⟨x, hx⟩
    · exact .inl ⟨x, (hGV ..).2 hx⟩
    · exact .inr ⟨x, (hLV ..).2 ⟨h1, hx⟩⟩
  · intro u v h; simp only [hGV]; exact hi.closedG u v ((hGU ..).1 h)
  · intro f' u b h
    obtain ⟨h1, h2⟩ := (hT ..).1 h
    obtain ⟨x, hx⟩ := hi.closedB f' u b h2
    exact ⟨x, (hB ..).2 ⟨h1, hx⟩⟩
  · intro f' u h; exact hi.noSelf f' u ((hLU ..).1 h).2

/-! ### Globals -/

theorem addGlobalUses_eq {vs : List Value} {g g' : Map Value VData} {u : Value}
    (h : addGlobalUses u g vs = some g') :
    (∀ w, g'.get? w = (g.get? w).map (fun x => if w ∈ vs then x.addUser u else x)) ∧
    (∀ v ∈ vs, (g.get? v).isSome) := by
  induction vs generalizing g with
  | nil => simp only [addGlobalUses, Option.some.injEq] at h; subst h; simp
  | cons v vs ih =>
    simp only [addGlobalUses] at h
    split at h
    · rename_i x hx
      obtain ⟨b1, b2⟩ := ih h
      refine ⟨fun w => ?_, ?_⟩
      · rw [b1, Map.get?_insert]
        by_cases hw : w = v
        · subst hw; rw [hx]
          by_cases hw2 : w ∈ vs <;> simp [hw2, VData.addUser, setInsert_idem]
        · simp [hw]
      · intro w hw
        rcases List.mem_cons.1 hw with rfl | hw
        · simp [hx]
        · have := b2 w hw
          rw [Map.get?_insert] at this
          split at this
          · rename_i e; subst e; simp [hx]
          · exact this
    · cases h

theorem delGlobalUses_eq {vs : List Value} {g g' : Map Value VData} {u : Value}
    (h : delGlobalUses u g vs = some g') :
    (∀ w, g'.get? w = (g.get? w).map (fun x => if w ∈ vs then x.delUser u else x)) ∧
    (∀ v ∈ vs, (g.get? v).isSome) := by
  induction vs generalizing g with
  | nil => simp only [delGlobalUses, Option.some.injEq] at h; subst h; simp
  | cons v vs ih =>
    simp only [delGlobalUses] at h
    split at h
    · rename_i x hx
      obtain ⟨b1, b2⟩ := ih h
      refine ⟨fun w => ?_, ?_⟩
      · rw [b1, Map.get?_insert]
        by_cases hw : w = v
        · subst hw; rw [hx]
          by_cases hw2 : w ∈ vs <;> simp [hw2, VData.delUser, setErase_idem]
        · simp [hw]
      · intro w hw
        rcases List.mem_cons.1 hw with rfl | hw
        · simp [hx]
        · have := b2 w hw
          rw [Map.get?_insert] at this
          split at this
          · rename_i e; subst e; simp [hx]
          · exact this
    · cases h

/-- Preservation under creation or removal of global `u`, which no value mentions. -/
theorem Inv.globalEdit {S p p' u old data} (hi : Inv S p)
    (hold : old = (p.values.get? u).map (·.kind))
    (hself : p'.values.get? u = data)
    (hoth : ∀ w, w ≠ u → p'.values.get? w =
      (p.values.get? w).map (VData.touch u (opsOf old) (opsOf (data.map (·.kind))) w))
    (hlive : ∀ v ∈ opsOf (data.map (·.kind)), v ≠ u ∧ (p.values.get? v).isSome)
    (hfs : p'.funcs = p.funcs)
    (hu : globalStart ≤ u ∧ u < p'.ids.nextGlobal)
    (hdata : ∀ nd, data = some nd → nd.usedBy = [])
    (hnoL : ∀ f w, ¬ LocalUse p f w u) (hnoG : ∀ w, ¬ GlobalUse p w u) (hnoS : ∀ w, ¬ S w u)
    (h1 : p.ids.nextGlobal ≤ p'.ids.nextGlobal) (hmax : p'.ids.nextGlobal ≤ localStart)
    (h2 : p'.ids.nextLocal = p.ids.nextLocal)
    (h3 : p'.ids.nextBb = p.ids.nextBb) (h4 : p'.ids.nextFunc = p.ids.nextFunc) : Inv S p' := by
  have hLV : ∀ f v x, LocalVal p' f v x ↔ LocalVal p f v x := by unfold LocalVal; rw [hfs]; simp
  have hB : ∀ f v x, Block p' f v x ↔ Block p f v x := by unfold Block; rw [hfs]; simp
  have hLU : ∀ f u v, LocalUse p' f u v ↔ LocalUse p f u v := by
    intro f u v; unfold LocalUse; simp only [hLV]
  have hT : ∀ f u v, Targets p' f u v ↔ Targets p f u v := by
    intro f u v; unfold Targets; simp only [hLV]
  have hGne : ∀ v, v ≠ u → ∀ x', GlobalVal p' v x' →
      ∃ x, GlobalVal p v x ∧ x' = x.touch u (opsOf old) (opsOf (data.map (·.kind))) v := by
    intro v hv x' hx'
    unfold GlobalVal at hx'
    rw [hoth v hv, Option.map_eq_some_iff] at hx'
    obtain ⟨x, hx, rfl⟩ := hx'
    exact ⟨x, hx, rfl⟩
  have hGfwd : ∀ v, v ≠ u → ∀ x, GlobalVal p v x → ∃ x', GlobalVal p' v x' ∧ x'.kind = x.kind := by
    intro v hv x hx
    unfold GlobalVal at hx
    refine ⟨x.touch u (opsOf old) (opsOf (data.map (·.kind))) v, ?_, by simp⟩
    unfold GlobalVal; rw [hoth v hv, hx]; rfl
  have hGU : ∀ w v, GlobalUse p' w v ↔
      if w = u then v ∈ opsOf (data.map (·.kind)) else GlobalUse p w v := by
    intro w v
    by_cases hw : w = u
    · subst hw
      unfold GlobalUse GlobalVal
      rw [hself]
      cases data <;> simp [opsOf]
    · rw [if_neg hw]
      constructor
      · rintro ⟨y, hy, ho⟩
        obtain ⟨x, hx, rfl⟩ := hGne w hw y hy
        exact ⟨x, hx, by simpa using ho⟩
      · rintro ⟨y, hy, ho⟩
        obtain ⟨x, hx, hk⟩ := hGfwd w hw y hy
        exact ⟨x, hx, by rw [hk]; exact ho⟩
  have hGUold : ∀ v, GlobalUse p u v ↔ v ∈ opsOf old := by
    intro v; subst hold; unfold GlobalUse GlobalVal
    cases p.values.get? u <;> simp [opsOf]
  have hnotL : ∀ f v, ¬ LocalUse p f u v := by
    rintro f v ⟨y, hy, _⟩
    have := hi.lRange f u y hy; omega
  have hnotS : ∀ v, ¬ S u v := by
    intro v hs; have := (hi.stale u v hs).1; omega
  refine ⟨?_, hmax, ?_, ?_, ?_, ?_, ?_, ?_, ?_, ?_, ?_, ?_, ?_, ?_, ?_, ?_⟩
  · intro v x hx
    by_cases hv : v = u
    · subst hv; exact hu
    · obtain ⟨y, hy, _⟩ := hGne v hv x hx
      have := hi.gRange v y hy; omega
  · have := hi.gMin; omega
  · intro f v x hx; rw [h2]; exact hi.lRange f v x ((hLV f v x).1 hx)
  · rw [h2]; exact hi.lMin
  · intro f f' v x x' a b; exact hi.lDisj f f' v x x' ((hLV ..).1 a) ((hLV ..).1 b)
  · intro f b x hx; rw [h3]; exact hi.bRange f b x ((hB ..).1 hx)
  · intro f fd h; rw [hfs] at h; rw [h4]; exact hi.fRange f fd h
  · intro w v hs
    obtain ⟨a, b, c, d⟩ := hi.stale w v hs
    exact ⟨a, by omega, by omega, fun f x hx => d f x ((hLV ..).1 hx)⟩
  · intro f v x hx w; rw [hi.localUses f v x ((hLV ..).1 hx), hLU]
  · intro v x' hx' w
    simp only [hLU]
    by_cases hv : v = u
    · subst hv
      unfold GlobalVal at hx'
      rw [hself] at hx'
      rw [hdata x' hx', hGU]
      simp only [List.not_mem_nil, false_iff]
      rintro (h | ⟨f, h⟩ | h)
      · by_cases hw : w = v
        · rw [if_pos hw] at h; exact (hlive v h).1 rfl
        · rw [if_neg hw] at h; exact hnoG w h
      · exact hnoL f w h
      · exact hnoS w h
    · obtain ⟨x, hx, rfl⟩ := hGne v hv x' hx'
      rw [VData.mem_touch, hi.globalUses v x hx, hGU]
      by_cases hw : w = u
      · subst hw
        have := hnotS v; have := fun f => hnotL f v
        rw [hGUold]
        simp only [if_true]
        grind
      · simp [hw]
  · intro f b x hx w; rw [hT]; exact hi.blockUses f b x ((hB ..).1 hx) w
  · intro f w v h
    have h := (hLU ..).1 h
    rcases hi.closedL f w v h with ⟨x, hx⟩ | ⟨x, hx⟩
    · have hv : v ≠ u := by rintro rfl; exact hnoL f w h
      obtain ⟨y, hy, _⟩ := hGfwd v hv x hx
      exact .inl ⟨y, hy⟩
    · exact .inr ⟨x, (hLV ..).2 hx⟩
  · intro w v h
    rw [hGU] at h
    by_cases hw : w = u
    · rw [if_pos hw] at h
      obtain ⟨hv, hs⟩ := hlive v h
      obtain ⟨x, hx⟩ := Option.isSome_iff_exists.1 hs
      obtain ⟨y, hy, _⟩ := hGfwd v hv x hx
      exact ⟨y, hy⟩
    · rw [if_neg hw] at h
      obtain ⟨x, hx⟩ := hi.closedG w v h
      have hv : v ≠ u := by rintro rfl; exact hnoG w h
      obtain ⟨y, hy, _⟩ := hGfwd v hv x hx
      exact ⟨y, hy⟩
  · intro f w b h; simp only [hB]; exact hi.closedB f w b ((hT ..).1 h)
  · intro f w h; exact hi.noSelf f w ((hLU ..).1 h)

theorem Inv.newGlobal {S p i p' v} (hi : Inv S p) (hr : i.rawOk) (hmax : p'.ids.nextGlobal ≤ localStart)
    (h : p.newGlobal i = some (p', v)) : Inv S p' := by
  unfold Program.newGlobal Program.newGlobalData at h
  simp only [Option.bind_eq_bind, Option.bind_eq_some_iff, Option.some.injEq, Prod.mk.injEq] at h
  obtain ⟨data, hb, g, hg, rfl, _⟩ := h
  have hd := GlobalInst.build_usedBy hr hb
  rw [valueUses_eq] at hg
  obtain ⟨a1, a2⟩ := addGlobalUses_eq hg
  have hnone : p.values.get? p.ids.nextGlobal = none := by
    cases h : p.values.get? p.ids.nextGlobal with
    | none => rfl
    | some x => have := hi.gRange _ x h; omega
  have hmax' : p.ids.nextGlobal + 1 ≤ localStart := hmax
  have hno : ∀ x, ¬ GlobalVal p p.ids.nextGlobal x := by
    intro x h; have := hi.gRange _ x h; omega
  refine hi.globalEdit (u := p.ids.nextGlobal) (old := none) (data := some data) (by rw [hnone]; rfl)
    (Map.get?_insert_self ..) ?_ ?_ rfl ⟨hi.gMin, by show _ < _ + 1; omega⟩ ?_ ?_ ?_ ?_
    (by show _ ≤ _ + 1; omega) hmax rfl rfl rfl
  · intro w hw
    show (g.insert _ _).get? w = _
    rw [Map.get?_insert_ne _ _ hw, a1]; rfl
  · intro w hw
    have := a2 w hw
    refine ⟨?_, this⟩
    rintro rfl; rw [hnone] at this; cases this
  · intro nd h; cases h; exact hd
  · intro f w h
    rcases hi.closedL f w _ h with ⟨x, hx⟩ | ⟨x, hx⟩
    · exact hno x hx
    · have := hi.lRange f _ x hx; omega
  · intro w h
    obtain ⟨x, hx⟩ := hi.closedG w _ h
    exact hno x hx
  · intro w h
    have := (hi.stale w _ h).2.2.1; omega

theorem Inv.removeGlobal {S p v p' d} (hi : Inv S p)
    (h : p.removeGlobal v = some (p', d)) : Inv S p' := by
  unfold Program.removeGlobal at h
  simp only [Option.bind_eq_bind, Option.bind_eq_some_iff, Option.some.injEq, Prod.mk.injEq, guard] at h
  obtain ⟨data, hv, lay, _, _, hgd, g, hg, rfl, _⟩ := h
  have hu : data.usedBy = [] := by
    by_cases hq : data.usedBy = []
    · exact hq
    · rw [if_neg hq] at hgd; cases hgd
  rw [valueUses_eq] at hg
  obtain ⟨a1, a2⟩ := delGlobalUses_eq hg
  have huse := hi.globalUses v data hv
  simp only [hu, List.not_mem_nil, false_iff, not_or, not_exists] at huse
  refine hi.globalEdit (u := v) (old := some data.kind) (data := none) (by rw [hv]; rfl)
    ?_ ?_ (by simp [opsOf]) rfl (hi.gRange v data hv) (by intro nd h; cases h)
    (fun f w => (huse w).2.1 f) (fun w => (huse w).1) (fun w => (huse w).2.2)
    (Nat.le_refl _) hi.gMax rfl rfl rfl
  · show g.get? v = none
    rw [a1]; simp
  · intro w hw
    show g.get? w = _
    rw [a1, Map.get?_erase_ne _ hw]; rfl

/-! ### All operations -/

/-- The conditions under which the bookkeeping is right:
- data inserted as it is has no recorded users (data taken from a clone or from a removed value);
- the closure given to `update_value` keeps the recorded users (they are not accessible to it, but
  assigning a whole `ValueData` replaces them);
- the parameters of a removed block have not been replaced by values with operands. -/
def Op.Ok (p : Program) : Op → Prop
  | .newGlobal i => i.rawOk
  | .newLocal _ i => i.rawOk
  | .updateLocal _ _ fn => ∀ d, (fn d).usedBy = d.usedBy
  | .removeBb f b => ParamsPlain p f b
  | _ => True

/-- The operation does not remove a function. -/
def Op.NoRemoveFunc : Op → Prop
  | .removeFunc _ => False
  | _ => True

theorem onDfg_ids {p p' : Program} {f op} (h : p.onDfg f op = some p') : p'.ids = p.ids := by
  unfold Program.onDfg at h
  simp only [Option.bind_eq_bind, Option.bind_eq_some_iff, Option.some.injEq] at h
  obtain ⟨_, _, _, _, rfl⟩ := h
  rfl

/-- The counter of global ids never decreases. -/
theorem step_nextGlobal {p p' : Program} {op : Op} (h : p.step op = some p') :
    p.ids.nextGlobal ≤ p'.ids.nextGlobal := by
  cases op <;> simp only [Program.step, Option.map_eq_some_iff] at h
  case newGlobal =>
    obtain ⟨⟨q, v⟩, h, rfl⟩ := h
    unfold Program.newGlobal Program.newGlobalData at h
    simp only [Option.bind_eq_bind, Option.bind_eq_some_iff, Option.some.injEq, Prod.mk.injEq] at h
    obtain ⟨_, _, _, _, rfl, _⟩ := h
    exact Nat.le_succ _
  case removeGlobal =>
    obtain ⟨⟨q, v⟩, h, rfl⟩ := h
    unfold Program.removeGlobal at h
    simp only [Option.bind_eq_bind, Option.bind_eq_some_iff, Option.some.injEq, Prod.mk.injEq] at h
    obtain ⟨_, _, _, _, _, _, _, _, rfl, _⟩ := h
    exact Nat.le_refl _
  case setGlobalName =>
    unfold Program.setGlobalName at h
    simp only [Option.bind_eq_bind, Option.bind_eq_some_iff, Option.some.injEq] at h
    obtain ⟨_, _, _, _, rfl⟩ := h
    exact Nat.le_refl _
  case newFuncDef =>
    obtain ⟨⟨q, v⟩, h, rfl⟩ := h
    unfold Program.newFuncDefWithParamNames Program.insertFunc at h
    simp only [Option.bind_eq_bind, Option.bind_eq_some_iff, Option.some.injEq, Prod.mk.injEq] at h
    obtain ⟨_, _, _, _, rfl, _⟩ := h
    exact Nat.le_refl _
  case newFuncDecl =>
    obtain ⟨⟨q, v⟩, h, rfl⟩ := h
    unfold Program.newFuncDecl Program.insertFunc at h
    simp only [Option.bind_eq_bind, Option.bind_eq_some_iff, Option.some.injEq, Prod.mk.injEq] at h
    obtain ⟨_, _, rfl, _⟩ := h
    exact Nat.le_refl _
  case removeFunc =>
    obtain ⟨⟨q, v⟩, h, rfl⟩ := h
    unfold Program.removeFunc at h
    split at h
    · cases h; exact Nat.le_refl _
    · cases h
  case setFuncName =>
    unfold Program.setFuncName at h
    simp only [Option.bind_eq_bind, Option.bind_eq_some_iff, Option.some.injEq] at h
    obtain ⟨_, _, rfl⟩ := h
    exact Nat.le_refl _
  case newLocal =>
    obtain ⟨⟨q, v⟩, h, rfl⟩ := h
    unfold Program.newLocal Program.newLocalData at h
    simp only [Option.bind_eq_bind, Option.bind_eq_some_iff, Option.some.injEq, Prod.mk.injEq] at h
    obtain ⟨_, _, _, _, _, h, rfl, _⟩ := h
    rw [onDfg_ids h]
    exact Nat.le_refl _
  case replaceLocal =>
    unfold Program.replaceLocal at h
    simp only [Option.bind_eq_bind, Option.bind_eq_some_iff] at h
    obtain ⟨_, _, _, _, h⟩ := h
    rw [onDfg_ids h]; exact Nat.le_refl _
  case updateLocal => rw [onDfg_ids h]; exact Nat.le_refl _
  case removeLocal => rw [onDfg_ids h]; exact Nat.le_refl _
  case setLocalName => rw [onDfg_ids h]; exact Nat.le_refl _
  case newBb =>
    obtain ⟨⟨q, v⟩, h, rfl⟩ := h
    unfold Program.newBb at h
    simp only [Option.bind_eq_bind, Option.bind_eq_some_iff, Option.some.injEq, Prod.mk.injEq] at h
    obtain ⟨_, _, _, h, rfl, _⟩ := h
    show _ ≤ Ids.nextGlobal _
    rw [onDfg_ids h]; exact Nat.le_refl _
  case newBbParams =>
    obtain ⟨⟨q, v⟩, h, rfl⟩ := h
    unfold Program.newBbWithParamNames at h
    simp only [Option.bind_eq_bind, Option.bind_eq_some_iff, Option.some.injEq, Prod.mk.injEq] at h
    obtain ⟨_, _, _, _, _, _, _, _, rfl, _⟩ := h
    exact Nat.le_refl _
  case removeBb => rw [onDfg_ids h]; exact Nat.le_refl _
  case setBbName => rw [onDfg_ids h]; exact Nat.le_refl _
  case setBbParams => rw [onDfg_ids h]; exact Nat.le_refl _
  case layout =>
    unfold Program.onLayout at h
    simp only [Option.bind_eq_bind, Option.bind_eq_some_iff, Option.some.injEq] at h
    obtain ⟨_, _, _, _, rfl⟩ := h
    exact Nat.le_refl _

theorem Inv.step {S p op p'} (hi : Inv S p) (hok : op.Ok p) (hn : op.NoRemoveFunc)
    (hmax : p'.ids.nextGlobal ≤ localStart) (h : p.step op = some p') : Inv S p' := by
  cases op <;> simp only [Program.step, Option.map_eq_some_iff] at h
  case newGlobal => obtain ⟨⟨q, v⟩, h, rfl⟩ := h; exact hi.newGlobal hok hmax h
  case removeGlobal => obtain ⟨⟨q, v⟩, h, rfl⟩ := h; exact hi.removeGlobal h
  case setGlobalName => exact hi.setGlobalName h
  case newFuncDef => obtain ⟨⟨q, v⟩, h, rfl⟩ := h; exact hi.newFuncDef h
  case newFuncDecl => obtain ⟨⟨q, v⟩, h, rfl⟩ := h; exact hi.newFuncDecl h
  case removeFunc => exact hn.elim
  case setFuncName => exact hi.setFuncName h
  case newLocal => obtain ⟨⟨q, v⟩, h, rfl⟩ := h; exact hi.newLocal hok h
  case replaceLocal => exact hi.replaceLocal h
  case updateLocal => exact hi.updateLocal hok h
  case removeLocal => exact hi.removeLocal h
  case setLocalName => exact hi.setLocalName h
  case newBb => obtain ⟨⟨q, v⟩, h, rfl⟩ := h; exact hi.newBb h
  case newBbParams => obtain ⟨⟨q, v⟩, h, rfl⟩ := h; exact hi.newBbParams h
  case removeBb => exact hi.removeBb hok h
  case setBbName f b n => exact hi.modBb (g := fun x => { x with name := n }) (fun _ => rfl) h
  case setBbParams f b ps => exact hi.modBb (g := fun x => { x with params := ps }) (fun _ => rfl) h
  case layout => exact hi.onLayout h

theorem Inv.init {ids : Ids} (hg : globalStart ≤ ids.nextGlobal) (hl : localStart ≤ ids.nextLocal)
    (hmax : ids.nextGlobal ≤ localStart) : Inv (fun _ _ => False) (Program.new ids) := by
  have hLV : ∀ f v x, ¬ LocalVal (Program.new ids) f v x := by rintro f v x ⟨fd, h, _⟩; cases h
  have hB : ∀ f v x, ¬ Block (Program.new ids) f v x := by rintro f v x ⟨fd, h, _⟩; cases h
  have hGV : ∀ v x, ¬ GlobalVal (Program.new ids) v x := by intro v x h; cases h
  exact ⟨fun v x h => absurd h (hGV v x), hmax, hg, fun f v x h => absurd h (hLV f v x), hl,
    fun f f' v x x' h => absurd h (hLV f v x), fun f v x h => absurd h (hB f v x),
    (fun f fd h => by cases h), (fun _ _ h => False.elim h),
    fun f v x h => absurd h (hLV f v x), fun v x h => absurd h (hGV v x),
    fun f v x h => absurd h (hB f v x), fun f u v ⟨y, h, _⟩ => absurd h (hLV f u y),
    fun u v ⟨y, h, _⟩ => absurd h (hGV u y), fun f u v ⟨y, h, _⟩ => absurd h (hLV f u y),
    fun f u ⟨y, h, _⟩ => absurd h (hLV f u y)⟩

/-- Histories of any length: the invariant, with stale records of removed functions. -/
theorem Reach.inv {p : Program} (r : Reach (fun p op => op.Ok p) p)
    (hmax : p.ids.nextGlobal ≤ localStart) : ∃ S, Inv S p := by
  induction r with
  | init ids hg hl => exact ⟨_, Inv.init hg hl hmax⟩
  | @step p p' op _ hok hs ih =>
    obtain ⟨S, hi⟩ := ih (Nat.le_trans (step_nextGlobal hs) hmax)
    by_cases hn : op.NoRemoveFunc
    · exact ⟨S, hi.step hok hn hmax hs⟩
    · cases op
      case removeFunc f =>
        simp only [Program.step, Option.map_eq_some_iff] at hs
        obtain ⟨⟨q, v⟩, h, rfl⟩ := hs
        exact ⟨_, hi.removeFunc h⟩
      all_goals exact absurd trivial hn

/-- Histories without removal of functions: the invariant without stale records. -/
theorem Reach.invExact {p : Program} (r : Reach (fun p op => op.Ok p ∧ op.NoRemoveFunc) p)
    (hmax : p.ids.nextGlobal ≤ localStart) : Inv (fun _ _ => False) p := by
  induction r with
  | init ids hg hl => exact Inv.init hg hl hmax
  | step _ hok hs ih =>
    exact (ih (Nat.le_trans (step_nextGlobal hs) hmax)).step hok.1 hok.2 hmax hs

end Koopa
