import Verif.Lemmas.TypingStep
/-! Typing along histories. -/
namespace Koopa
open Spec

/-- Beyond `Op.Ok`, what the caller must respect for typing:
- data is not inserted as it is, but built by the checking builder methods;
- a replacement has the type of the value it replaces;
- the closure given to `update_value` only changes the name;
- a value or block that is removed is not left behind in a block's parameter list;
- a parameter list that is overwritten keeps its types;
- a function that is removed is not called from other functions. -/
def Op.TyOk (p : Program) : Op → Prop
  | .newGlobal i => i.notRaw
  | .removeGlobal v => ∀ f b x, Block p f b x → v ∉ x.params
  | .removeFunc g => ∀ f u x, f ≠ g → LocalVal p f u x → callee x.kind ≠ some g
  | .newLocal _ i => i.notRaw
  | .replaceLocal f v i => i.notRaw ∧ ∀ fd d x, p.funcs.get? f = some fd →
      i.build ((p.ctx fd).querier p.funcTys) = some d → LocalVal p f v x → d.ty = x.ty
  | .updateLocal _ _ fn => ∀ d, (fn d).ty = d.ty ∧ (fn d).kind = d.kind
  | .removeLocal f v => ∀ b x, Block p f b x → v ∉ x.params
  | .removeBb f b => ∀ x, Block p f b x → ∀ b' y, b' ≠ b → Block p f b' y →
      ∀ v ∈ x.params, v ∉ y.params
  | .setBbParams f b ps => ∀ x ts, Block p f b x → All2 (HasTy p f) x.params ts →
      All2 (HasTy p f) ps ts
  | _ => True

theorem GlobalInst.notRaw_rawOk {i : GlobalInst} (h : i.notRaw) : i.rawOk := by
  cases i with
  | val i => cases i <;> first | exact h.elim | trivial
  | globalAlloc => trivial

theorem LocalInst.notRaw_rawOk {i : LocalInst} (h : i.notRaw) : i.rawOk := by
  cases i with
  | val i => cases i <;> first | exact h.elim | trivial
  | _ => trivial

section
variable {S : Value → Value → Prop} {p p' : Program} {f : Func}

theorem querier_hasTy {fd : FData} (hf : p.funcs.get? f = some fd) {tys : Map Func Ty} (v : Value) (t : Ty)
    (h : ((p.ctx fd).querier tys).valueType v = some t) : HasTy p f v t := by
  simp only [Ctx.querier, Option.map_eq_some_iff] at h
  obtain ⟨x, hx, rfl⟩ := h
  refine ⟨x, ?_, rfl⟩
  unfold Ctx.data at hx
  split at hx
  · rename_i y hy; cases hx; exact .inl hy
  · exact .inr ⟨fd, hf, hx⟩

theorem querier_paramTys {fd : FData} (hf : p.funcs.get? f = some fd) {tys : Map Func Ty} (b : BB)
    (ps : List Value) (ts : List Ty) (h : ((p.ctx fd).querier tys).bbParams b = some ps)
    (ha : All2 (fun v t => ((p.ctx fd).querier tys).valueType v = some t) ps ts) :
    ParamTys p f b ts := by
  simp only [Ctx.querier, Option.map_eq_some_iff] at h
  obtain ⟨x, hx, rfl⟩ := h
  exact ⟨x, ⟨fd, hf, hx⟩, ha.imp (fun v _ t ht => querier_hasTy hf v t ht)⟩

theorem LocalInst.build_typed {fd : FData} (hb : BInv False p) (hf : p.funcs.get? f = some fd)
    {i : LocalInst} (hr : i.notRaw) {d : VData}
    (h : i.build ((p.ctx fd).querier p.funcTys) = some d) :
    InstTy (HasTy p f) (ParamTys p f) (FuncTy p) d.kind d.ty := by
  refine LocalInst.build_ty (querier_hasTy hf) (querier_paramTys hf) ?_ hr h
  intro g t ht
  have h1 : p.funcTys.get? g = some t := ht
  rw [hb.fTys, Option.map_eq_some_iff] at h1
  exact h1

theorem Spec.WellTyped.newLocalData {data v} (hi : Inv S p) (hw : WellTyped p)
    (hd : InstTy (HasTy p f) (ParamTys p f) (FuncTy p) data.kind data.ty)
    (h : p.newLocalData f data = some (p', v)) : WellTyped p' := by
  unfold Program.newLocalData Program.onDfg at h
  simp only [Option.bind_eq_bind, Option.bind_eq_some_iff, Option.some.injEq, Prod.mk.injEq] at h
  obtain ⟨p1, ⟨fd, hf, c, hc, rfl⟩, rfl, _⟩ := h
  have hf' : p.funcs.get? f = some fd := hf
  have hno : ∀ x, ¬ LocalVal p f p.ids.nextLocal x := by
    intro x hx; have := hi.lRange _ _ _ hx; omega
  have he := newValueData_edit (c := p.ctx fd) (hi.ctxDisj hf') ?_ ?_ hc
  · refine hw.edit hf' he ⟨rfl, fun _ => Map.get?_insert ..⟩ (fun x hx => absurd hx (hno x)) ?_
    intro d hd'; cases hd'; exact hd
  · cases h : (p.ctx fd).g.get? p.ids.nextLocal with
    | none => rfl
    | some x =>
      have h1 := hi.gRange _ x h
      have := hi.gMax; have := hi.lMin; omega
  · cases h : (p.ctx fd).d.values.get? p.ids.nextLocal with
    | none => rfl
    | some x => exact absurd ⟨fd, hf', h⟩ (hno x)

theorem Spec.WellTyped.removeLocal {v} (hi : Inv S p) (hw : WellTyped p)
    (hok : (Op.removeLocal f v).TyOk p) (h : p.removeLocal f v = some p') : WellTyped p' := by
  unfold Program.removeLocal Program.onDfg at h
  simp only [Option.bind_eq_bind, Option.bind_eq_some_iff, Option.some.injEq,
    Option.map_eq_some_iff] at h
  obtain ⟨fd, hf, c, ⟨⟨c', d⟩, hr, rfl⟩, rfl⟩ := h
  obtain ⟨h1, h2, he⟩ := removeValue_edit (hi.ctxDisj hf) hr
  refine hw.erase hf he (putCtx_put ..) (fun w hu => ?_) hok
  rw [← hi.localUses f v d ((localVal_self hf v d).2 h1), h2] at hu
  cases hu

theorem Spec.WellTyped.blocksOnly {fd : FData} {bbs : Map BB BData} (hw : WellTyped p)
    (hf : p.funcs.get? f = some fd) (hv : p'.values = p.values)
    (hfs : ∀ g, p'.funcs.get? g = if g = f then some { fd with dfg := { fd.dfg with bbs := bbs } }
      else p.funcs.get? g)
    (hP : ∀ b x u ts, Targets p f u b → Block p f b x → All2 (HasTy p f) x.params ts →
      ∃ x', bbs.get? b = some x' ∧ All2 (HasTy p f) x'.params ts) : WellTyped p' := by
  have hL : ∀ g v x, LocalVal p' g v x ↔ LocalVal p g v x := by
    intro g v x
    unfold LocalVal
    rw [hfs]
    by_cases h : g = f
    · subst h; simp [hf]
    · simp [h]
  have hG : ∀ v x, GlobalVal p' v x ↔ GlobalVal p v x := by
    intro v x; unfold GlobalVal; rw [hv]
  have hH : ∀ g v t, HasTy p' g v t ↔ HasTy p g v t := by
    intro g v t; unfold HasTy; simp only [hL, hG]
  refine hw.frame (fun g v x' h => .inl ⟨x', (hL ..).1 h, rfl, rfl⟩)
    (fun v x' h => .inl ⟨x', (hG ..).1 h, rfl, rfl⟩) (fun g u v t x' _ _ h => (hH ..).2 h) ?_ ?_ ?_
  · rintro u v t x' _ _ ⟨x, hx, rfl⟩; exact ⟨x, (hG ..).2 hx, rfl⟩
  · rintro g u b ts x' ht hx' ⟨x, hx, ha⟩
    by_cases h : g = f
    · subst h
      obtain ⟨y, h1, h2⟩ := hP b x u ts ht hx ha
      refine ⟨y, ⟨_, by rw [hfs, if_pos rfl], h1⟩, h2.imp (fun a _ t h => (hH ..).2 h)⟩
    · obtain ⟨gd, h1, h2⟩ := hx
      exact ⟨x, ⟨gd, by rw [hfs, if_neg h]; exact h1, h2⟩, ha.imp (fun a _ t h => (hH ..).2 h)⟩
  · rintro g u k t x' _ _ ⟨gd, h1, rfl⟩
    by_cases h : k = f
    · subst h; rw [hf] at h1; cases h1
      exact ⟨{ fd with dfg := { fd.dfg with bbs := bbs } }, by rw [hfs, if_pos rfl], rfl⟩
    · exact ⟨gd, by rw [hfs, if_neg h]; exact h1, rfl⟩

theorem Spec.WellTyped.ofViews {p p' : Program} (hw : WellTyped p) (hv : p'.values = p.values)
    (hf : ∀ f, p'.funcs.get? f = p.funcs.get? f) : WellTyped p' := by
  have hL : ∀ g v x, LocalVal p' g v x ↔ LocalVal p g v x := by
    intro g v x; unfold LocalVal; rw [hf]
  have hG : ∀ v x, GlobalVal p' v x ↔ GlobalVal p v x := by
    intro v x; unfold GlobalVal; rw [hv]
  have hB : ∀ g v x, Block p' g v x ↔ Block p g v x := by
    intro g v x; unfold Block; rw [hf]
  exact hw.grow ⟨fun g v x h => ⟨x, (hL ..).2 h, rfl⟩, fun v x h => ⟨x, (hG ..).2 h, rfl⟩,
    fun g v x h => ⟨x, (hB ..).2 h, rfl⟩, fun g fd h => ⟨fd, by rw [hf]; exact h, rfl⟩⟩
    (fun g v x h => .inl ⟨x, (hL ..).1 h, rfl, rfl⟩) (fun v x h => .inl ⟨x, (hG ..).1 h, rfl, rfl⟩)

theorem Spec.WellTyped.newBlock {fd : FData} {b data} (hi : Inv S p) (hw : WellTyped p)
    (hf : p.funcs.get? f = some fd) (hb : p.ids.nextBb ≤ b) (hv : p'.values = p.values)
    (hfs : ∀ g, p'.funcs.get? g =
      if g = f then some { fd with dfg := { fd.dfg with bbs := fd.dfg.bbs.insert b data } }
      else p.funcs.get? g) : WellTyped p' := by
  refine hw.blocksOnly hf hv hfs (fun b' x u ts _ hx ha => ⟨x, ?_, ha⟩)
  have := hi.bRange _ _ _ hx
  rw [Map.get?_insert_ne _ _ (by omega)]
  obtain ⟨gd, h1, h2⟩ := hx
  rw [hf] at h1; cases h1; exact h2

theorem Spec.WellTyped.blockParams {fd : FData} : ∀ (ps : List (Option Str × Ty)) (c : Ctx)
    (next i : Nat) (c' : Ctx) (hs : List Value), Inv S (p.withCtx f fd c next) →
    WellTyped (p.withCtx f fd c next) → (∀ q ∈ ps, q.2 ≠ .unit) →
    c.blockParams next i ps = some (c', hs) → WellTyped (p.withCtx f fd c' (next + ps.length))
  | [], c, next, i, c', hs, hi, hw, _, h => by
    simp only [Ctx.blockParams, Option.some.injEq, Prod.mk.injEq] at h
    obtain ⟨rfl, _⟩ := h; exact hw
  | (n, ty) :: ps, c, next, i, c', hs, hi, hw, hne, h => by
    simp only [Ctx.blockParams, Option.bind_eq_bind, Option.bind_eq_some_iff, Option.some.injEq,
      Prod.mk.injEq] at h
    obtain ⟨data, hd, c1, h1, ⟨c2, hs'⟩, h2, rfl, rfl⟩ := h
    have hsig := VData.setName_sig hd
    have hdty : data.ty = ty := by
      unfold VData.setName at hd; split at hd <;> cases hd; rfl
    have hput : PutCtx (p.withCtx f fd c next) (p.withCtx f fd c1 (next + 1)) f
        { fd with dfg := c.d } c1 := by
      refine ⟨rfl, fun f' => ?_⟩
      show (p.funcs.insert f _).get? f' = if f' = f then _ else (p.funcs.insert f _).get? f'
      simp only [Map.get?_insert]
      split <;> rfl
    have hgetf := withCtx_get p f fd c next
    have hno : ∀ x, ¬ LocalVal (p.withCtx f fd c next) f next x := by
      intro x hx; have := hi.lRange _ _ _ hx; exact Nat.lt_irrefl _ this.2
    have hi1 : Inv S (p.withCtx f fd c1 (next + 1)) :=
      hi.newValue (fd := { fd with dfg := c.d }) (c := c1) hgetf (Nat.le_refl _) hput rfl
        (congrArg Prod.snd hsig) h1
    have hw1 : WellTyped (p.withCtx f fd c1 (next + 1)) := by
      have he := newValueData_edit (c := c) (hi.ctxDisj hgetf) ?_ ?_ h1
      · refine hw.edit hgetf he hput (fun x hx => absurd hx (hno x)) ?_
        intro d hd'; cases hd'
        have hk : data.kind = .blockArgRef i := congrArg Prod.fst hsig
        rw [hk, hdty]
        exact .blockArgRef (hne (n, ty) (by simp))
      · cases h : c.g.get? next with
        | none => rfl
        | some x =>
          have h1 := hi.gRange next x h
          have := hi.gMax; have h3 : localStart ≤ next := hi.lMin; omega
      · cases h : c.d.values.get? next with
        | none => rfl
        | some x => exact absurd ⟨_, hgetf, h⟩ (hno x)
    have := Spec.WellTyped.blockParams ps c1 (next + 1) (i + 1) c2 hs' hi1 hw1
      (fun q hq => hne q (by simp [hq])) h2
    simpa [Nat.add_assoc, Nat.add_comm 1] using this

theorem Spec.WellTyped.newBbParams {n ps b} (hi : Inv S p) (hw : WellTyped p)
    (h : p.newBbWithParamNames f n ps = some (p', b)) : WellTyped p' := by
  unfold Program.newBbWithParamNames at h
  simp only [Option.bind_eq_bind, Option.bind_eq_some_iff, Option.some.injEq, Prod.mk.injEq,
    assert_eq_some, List.all_eq_true] at h
  obtain ⟨_, _, _, hne, fd, hf, ⟨c, hs⟩, hc, rfl, _⟩ := h
  have h0 : Inv S (p.withCtx f fd (p.ctx fd) p.ids.nextLocal) := hi.same (Program.ctx_withCtx hf) rfl
  have hw0 : WellTyped (p.withCtx f fd (p.ctx fd) p.ids.nextLocal) :=
    hw.putFunc hf rfl rfl rfl (fun _ => rfl) (fun _ => rfl)
  have h1 := Inv.blockParams ps _ _ _ _ _ h0 hc
  have hw1 := Spec.WellTyped.blockParams ps _ _ _ _ _ h0 hw0 (fun q hq => isUnit_false (hne q hq)) hc
  refine hw1.newBlock (f := f) (b := p.ids.nextBb) (data := { name := n, params := hs, usedBy := [] })
    h1 (withCtx_get ..) (Nat.le_refl _) rfl ?_
  intro g
  show (p.funcs.insert f _).get? g = if g = f then _ else (p.funcs.insert f _).get? g
  simp only [Map.get?_insert]
  split <;> rfl

theorem Spec.WellTyped.removeParams {fd : FData} : ∀ (ps : List Value) (c c' : Ctx),
    Inv S (p.putCtx f fd c) → WellTyped (p.putCtx f fd c) →
    (∀ v ∈ ps, ∀ x, c.d.values.get? v = some x → operands x.kind = [] ∧ targets x.kind = []) →
    (∀ v ∈ ps, ∀ b x, c.d.bbs.get? b = some x → v ∉ x.params) →
    c.removeParams ps = some c' → WellTyped (p.putCtx f fd c')
  | [], c, c', hi, hw, _, _, h => by
    simp only [Ctx.removeParams, Option.some.injEq] at h; subst h; exact hw
  | v :: ps, c, c', hi, hw, hk, hpar, h => by
    simp only [Ctx.removeParams] at h
    split at h
    · rename_i x hx
      split at h
      · rename_i hu
        have hf : (p.putCtx f fd c).funcs.get? f = some { fd with dfg := c.d } := Map.get?_insert_self ..
        obtain ⟨ho, ht⟩ := hk v (by simp) x hx
        have he := eraseLocal_edit (u := v) (hi.ctxDisj hf) ho ht
        have h1 := hi.editExisting (old := x) hf hx he (by intro nd h; cases h) (fun _ => hu)
        have hput : PutCtx (p.putCtx f fd c) (p.putCtx f fd (c.eraseLocal v)) f { fd with dfg := c.d }
            (c.eraseLocal v) := by
          refine ⟨rfl, fun f' => ?_⟩
          show (p.funcs.insert f _).get? f' = if f' = f then _ else (p.funcs.insert f _).get? f'
          simp only [Map.get?_insert]
          split <;> rfl
        have h2 : Inv S (p.putCtx f fd (c.eraseLocal v)) := by
          refine h1.ofViews rfl (fun f' => ?_) rfl
          show (p.funcs.insert f _).get? f' = ((p.funcs.insert f _).insert f _).get? f'
          simp only [Map.get?_insert]
          split <;> rfl
        have hlv : LocalVal (p.putCtx f fd c) f v x := ⟨_, hf, hx⟩
        have hw2 : WellTyped (p.putCtx f fd (c.eraseLocal v)) := by
          refine hw.erase hf he hput (fun w hwu => ?_) (fun b y hy => ?_)
          · rw [← hi.localUses f v x hlv, hu] at hwu; cases hwu
          · obtain ⟨gd, h3, h4⟩ := hy
            rw [hf] at h3; cases h3
            exact hpar v (by simp) b y h4
        refine Spec.WellTyped.removeParams ps _ c' h2 hw2 (fun w hw y hy => ?_)
          (fun w hw b y hy => hpar w (by simp [hw]) b y hy) h
        have : (c.d.values.erase v).get? w = some y := hy
        rw [Map.get?_erase] at this
        split at this
        · cases this
        · exact hk w (by simp [hw]) y this
      · cases h
    · cases h

theorem Spec.WellTyped.removeBb {b} (hi : Inv S p) (hw : WellTyped p) (hok : ParamsPlain p f b)
    (hty : (Op.removeBb f b).TyOk p) (h : p.removeBb f b = some p') : WellTyped p' := by
  unfold Program.removeBb Program.onDfg Ctx.removeBb at h
  simp only [Option.bind_eq_bind, Option.bind_eq_some_iff, Option.some.injEq,
    Option.map_eq_some_iff, guard] at h
  obtain ⟨fd, hf, c, ⟨⟨c', data⟩, ⟨bd, hb, _, hg, c2, hc, he⟩, rfl⟩, rfl⟩ := h
  cases he
  have hu : data.usedBy = [] := by
    by_cases hq : data.usedBy = []
    · exact hq
    · rw [if_neg hq] at hg; cases hg
  have hblock : Block p f b data := ⟨fd, hf, hb⟩
  have hnoT : ∀ u, ¬ Targets p f u b := by
    intro u ht; rw [← hi.blockUses _ _ data hblock, hu] at ht; cases ht
  have hput := putCtx_put p f fd { g := (p.ctx fd).g, d := { (p.ctx fd).d with bbs := (p.ctx fd).d.bbs.erase b } }
  have hi1 : Inv S (p.putCtx f fd { g := (p.ctx fd).g, d := { (p.ctx fd).d with bbs := (p.ctx fd).d.bbs.erase b } }) := by
    refine hi.blocks rfl ?_ ?_ ?_ ?_ rfl rfl (Nat.le_refl _) rfl
    · intro f' v x
      rw [hput.localVal]
      by_cases h : f' = f
      · subst h; rw [if_pos rfl, localVal_self hf]
      · rw [if_neg h]
    · intro f' fd' h
      rw [hput.funcs] at h
      by_cases h' : f' = f
      · subst h'; exact ⟨fd, hf⟩
      · rw [if_neg h'] at h; exact ⟨fd', h⟩
    · intro f' b' x h
      left
      rw [hput.block] at h
      by_cases h' : f' = f
      · subst h'
        rw [if_pos rfl, Map.get?_erase] at h
        by_cases hbb : b' = b
        · rw [if_pos hbb] at h; cases h
        · rw [if_neg hbb] at h; exact (block_self hf b' x).2 h
      · rw [if_neg h'] at h; exact h
    · intro f' b' x h
      by_cases h' : f' = f
      · subst h'
        by_cases hbb : b' = b
        · subst hbb
          right; exact hnoT
        · left
          exact ⟨x, by rw [hput.block, if_pos rfl, Map.get?_erase_ne _ hbb]; exact (block_self hf b' x).1 h⟩
      · left; exact ⟨x, by rw [hput.block, if_neg h']; exact h⟩
  have hw1 : WellTyped (p.putCtx f fd { g := (p.ctx fd).g, d := { (p.ctx fd).d with bbs := (p.ctx fd).d.bbs.erase b } }) := by
    refine hw.blocksOnly (bbs := fd.dfg.bbs.erase b) hf rfl hput.funcs ?_
    intro b' x u ts ht hx ha
    refine ⟨x, ?_, ha⟩
    have hne : b' ≠ b := by rintro rfl; exact hnoT u ht
    rw [Map.get?_erase_ne _ hne]
    exact (block_self hf b' x).1 hx
  refine Spec.WellTyped.removeParams data.params _ _ hi1 hw1
    (fun v hv x hx => hok data hblock v hv x ⟨fd, hf, hx⟩) (fun v hv b' x hx => ?_) hc
  have hx' : ((p.ctx fd).d.bbs.erase b).get? b' = some x := hx
  rw [Map.get?_erase] at hx'
  split at hx'
  · cases hx'
  · rename_i hne
    exact hty data hblock b' x hne ((block_self hf b' x).2 hx') v hv

theorem Spec.WellTyped.removeFunc {g d} (hw : WellTyped p)
    (hty : (Op.removeFunc g).TyOk p) (h : p.removeFunc g = some (p', d)) : WellTyped p' := by
  unfold Program.removeFunc at h
  split at h
  · simp only [Option.some.injEq, Prod.mk.injEq] at h
    obtain ⟨rfl, _⟩ := h
    have hgone : (p.funcs.erase g).get? g = none := Map.get?_erase_self ..
    have hne : ∀ {f : Func}, f ≠ g → (p.funcs.erase g).get? f = p.funcs.get? f :=
      fun h => Map.get?_erase_ne _ h
    have hback : ∀ {f : Func} {fd}, (p.funcs.erase g).get? f = some fd → f ≠ g ∧ p.funcs.get? f = some fd := by
      intro f fd h
      by_cases hf : f = g
      · subst hf; rw [hgone] at h; cases h
      · exact ⟨hf, by rw [← hne hf]; exact h⟩
    have hH : ∀ {f v t}, f ≠ g → HasTy p f v t → HasTy { p with funcTys := p.funcTys.erase g, funcLayout := p.funcLayout.erase g, funcs := p.funcs.erase g } f v t := by
      rintro f v t hf ⟨x, hx, rfl⟩
      refine ⟨x, ?_, rfl⟩
      rcases hx with hx | ⟨fd, h1, h2⟩
      · exact .inl hx
      · exact .inr ⟨fd, by rw [← hne hf] at h1; exact h1, h2⟩
    refine hw.frame ?_ (fun v x' h => .inl ⟨x', h, rfl, rfl⟩) ?_ (fun u v t x' _ _ h => h) ?_ ?_
    · rintro f v x' ⟨fd, h1, h2⟩
      exact .inl ⟨x', ⟨fd, (hback h1).2, h2⟩, rfl, rfl⟩
    · rintro f u v t x' _ ⟨fd, h1, h2⟩ h
      exact hH (hback h1).1 h
    · rintro f u b ts x' _ ⟨fd, h1, h2⟩ ⟨x, ⟨gd, h3, h4⟩, ha⟩
      have hf := (hback h1).1
      exact ⟨x, ⟨gd, by rw [← hne hf] at h3; exact h3, h4⟩, ha.imp (fun _ _ _ h => hH hf h)⟩
    · rintro f u k t x' ⟨fd, h1, h2⟩ hc ⟨kd, h3, rfl⟩
      have hk : k ≠ g := by
        rintro rfl
        exact hty f u x' (hback h1).1 ⟨fd, (hback h1).2, h2⟩ hc
      exact ⟨kd, by rw [← hne hk] at h3; exact h3, rfl⟩
  · cases h

theorem Spec.WellTyped.newFunc {fd : FData} (hi : Inv S p) (hw : WellTyped p)
    (hvals : ∀ v x, fd.dfg.values.get? v = some x → (∃ j, x.kind = .funcArgRef j) ∧ x.ty ≠ .unit)
    (hv : p'.values = p.values) (hf : p'.funcs = p.funcs.insert p.ids.nextFunc fd) :
    WellTyped p' := by
  have hget : ∀ f, p'.funcs.get? f = if f = p.ids.nextFunc then some fd else p.funcs.get? f := by
    intro f; rw [hf, Map.get?_insert]
  have hold : ∀ f fd', p.funcs.get? f = some fd' → p'.funcs.get? f = some fd' := by
    intro f fd' h
    have := hi.fRange _ _ h
    rw [hget, if_neg (by omega)]; exact h
  refine hw.grow ⟨?_, ?_, ?_, fun f fd h => ⟨fd, hold _ _ h, rfl⟩⟩ ?_ ?_
  · rintro f v x ⟨fd, h1, h2⟩; exact ⟨x, ⟨fd, hold _ _ h1, h2⟩, rfl⟩
  · intro v x h; exact ⟨x, by unfold GlobalVal; rw [hv]; exact h, rfl⟩
  · rintro f v x ⟨fd, h1, h2⟩; exact ⟨x, ⟨fd, hold _ _ h1, h2⟩, rfl⟩
  · rintro f v x' ⟨gd, h1, h2⟩
    rw [hget] at h1
    by_cases h : f = p.ids.nextFunc
    · rw [if_pos h] at h1; cases h1
      obtain ⟨⟨j, h3⟩, h4⟩ := hvals v x' h2
      rw [h3]
      exact .inr (.funcArgRef h4)
    · rw [if_neg h] at h1
      exact .inl ⟨x', ⟨gd, h1, h2⟩, rfl, rfl⟩
  · intro v x' h
    exact .inl ⟨x', by unfold GlobalVal at h; rw [hv] at h; exact h, rfl, rfl⟩

theorem funcParams_ty : ∀ (ps : List (Option Str × Ty)) (vs : Map Value VData) (next i : Nat)
    (vs' : Map Value VData) (hs : List Value), (∀ q ∈ ps, q.2 ≠ .unit) →
    funcParams vs next i ps = some (vs', hs) →
    (∀ v x, vs.get? v = some x → x.ty ≠ .unit) → ∀ v x, vs'.get? v = some x → x.ty ≠ .unit
  | [], vs, next, i, vs', hs, _, h, h0 => by
    simp only [funcParams, Option.some.injEq, Prod.mk.injEq] at h
    obtain ⟨rfl, _⟩ := h; exact h0
  | (n, ty) :: ps, vs, next, i, vs', hs, hne, h, h0 => by
    simp only [funcParams, Option.bind_eq_bind, Option.bind_eq_some_iff, Option.some.injEq,
      Prod.mk.injEq] at h
    obtain ⟨data, hd, ⟨vs1, hs1⟩, h1, rfl, rfl⟩ := h
    refine funcParams_ty ps _ _ _ _ _ (fun q hq => hne q (by simp [hq])) h1 ?_
    intro v x hx
    rw [Map.get?_insert] at hx
    split at hx
    · cases hx
      have : data.ty = ty := by unfold VData.setName at hd; split at hd <;> cases hd; rfl
      rw [this]; exact hne (n, ty) (by simp)
    · exact h0 v x hx

theorem Spec.WellTyped.globalEdit {u : Value} {data : VData} (hw : WellTyped p)
    (hnone : p.values.get? u = none) (hself : p'.values.get? u = some data)
    (hothers : ∀ w, w ≠ u → (p'.values.get? w).map (fun x => (x.ty, x.kind)) =
      (p.values.get? w).map (fun x => (x.ty, x.kind)))
    (hfs : p'.funcs = p.funcs)
    (hd : InstTy (GlobalHasTy p) (fun _ _ => False) (fun _ _ => False) data.kind data.ty) :
    WellTyped p' := by
  have hg : Grow p p' := by
    refine ⟨?_, ?_, ?_, ?_⟩
    · rintro f v x ⟨fd, h1, h2⟩; exact ⟨x, ⟨fd, by rw [hfs]; exact h1, h2⟩, rfl⟩
    · intro v x h
      have hx : p.values.get? v = some x := h
      by_cases hv : v = u
      · subst hv; rw [hnone] at hx; cases hx
      · have := hothers v hv
        rw [hx, Option.map_some, Option.map_eq_some_iff] at this
        obtain ⟨x', h3, h4⟩ := this
        exact ⟨x', h3, congrArg Prod.fst h4⟩
    · rintro f v x ⟨fd, h1, h2⟩; exact ⟨x, ⟨fd, by rw [hfs]; exact h1, h2⟩, rfl⟩
    · intro f fd h; exact ⟨fd, by rw [hfs]; exact h, rfl⟩
  refine hw.grow hg ?_ ?_
  · rintro f v x' ⟨fd, h1, h2⟩; exact .inl ⟨x', ⟨fd, by rw [hfs] at h1; exact h1, h2⟩, rfl, rfl⟩
  · intro v x' h
    have hx : p'.values.get? v = some x' := h
    by_cases hv : v = u
    · subst hv; rw [hself] at hx; cases hx
      exact .inr (hg.globalInstTy hd)
    · have := (hothers v hv).symm
      rw [hx, Option.map_some, Option.map_eq_some_iff] at this
      obtain ⟨x, h3, h4⟩ := this
      exact .inl ⟨x, h3, congrArg Prod.snd h4, congrArg Prod.fst h4⟩

theorem globalQuerier_hasTy (v : Value) (t : Ty)
    (h : (globalQuerier p.values).valueType v = some t) : GlobalHasTy p v t := by
  simp only [globalQuerier, Option.map_eq_some_iff] at h
  exact h

theorem GlobalInst.build_typed {i : GlobalInst} (hr : i.notRaw) {d : VData}
    (h : i.build (globalQuerier p.values) = some d) :
    InstTy (GlobalHasTy p) (fun _ _ => False) (fun _ _ => False) d.kind d.ty := by
  cases i with
  | val i => exact ValInst.build_ty globalQuerier_hasTy hr h
  | globalAlloc v =>
    simp only [GlobalInst.build, Option.bind_eq_bind, Option.bind_eq_some_iff, assert_eq_some,
      Option.some.injEq] at h
    obtain ⟨t, ht, _, h1, rfl⟩ := h
    exact .globalAlloc (isUnit_false h1) (globalQuerier_hasTy _ _ ht)

theorem touch_proj (u : Value) (o n : List Value) (w : Value) (x : Option VData) :
    (x.map (VData.touch u o n w)).map (fun x => (x.ty, x.kind)) = x.map (fun x => (x.ty, x.kind)) := by
  cases x <;> simp

theorem Spec.WellTyped.newGlobal {i v} (hi : Inv S p) (hw : WellTyped p) (hr : i.notRaw)
    (h : p.newGlobal i = some (p', v)) : WellTyped p' := by
  unfold Program.newGlobal Program.newGlobalData at h
  simp only [Option.bind_eq_bind, Option.bind_eq_some_iff, Option.some.injEq, Prod.mk.injEq] at h
  obtain ⟨data, hb, g, hg, rfl, _⟩ := h
  rw [valueUses_eq] at hg
  obtain ⟨a1, a2⟩ := addGlobalUses_eq hg
  have hnone : p.values.get? p.ids.nextGlobal = none := by
    cases h : p.values.get? p.ids.nextGlobal with
    | none => rfl
    | some x => have := hi.gRange _ x h; omega
  refine hw.globalEdit (u := p.ids.nextGlobal) hnone (Map.get?_insert_self ..) ?_ rfl
    (GlobalInst.build_typed hr hb)
  intro w hw
  show Option.map _ ((g.insert _ _).get? w) = _
  rw [Map.get?_insert_ne _ _ hw, a1]
  cases p.values.get? w with
  | none => rfl
  | some x =>
    simp only [Option.map_some]
    split <;> rfl

theorem Spec.WellTyped.removeGlobal {v d} (hi : Inv S p) (hw : WellTyped p)
    (hty : (Op.removeGlobal v).TyOk p) (h : p.removeGlobal v = some (p', d)) : WellTyped p' := by
  unfold Program.removeGlobal at h
  simp only [Option.bind_eq_bind, Option.bind_eq_some_iff, Option.some.injEq, Prod.mk.injEq, guard] at h
  obtain ⟨data, hv, lay, _, _, hgd, g, hg, rfl, _⟩ := h
  have hu : data.usedBy = [] := by
    by_cases hq : data.usedBy = []
    · exact hq
    · rw [if_neg hq] at hgd; cases hgd
  rw [valueUses_eq] at hg
  obtain ⟨a1, a2⟩ := delGlobalUses_eq hg
  have huse := hi.globalUses v data hv
  simp only [hu, List.not_mem_nil, false_iff, not_or, not_exists] at huse
  have hfwd : ∀ w x, w ≠ v → GlobalVal p w x → ∃ x', g.get? w = some x' ∧ x'.ty = x.ty := by
    intro w x hw' hx
    rw [a1, Map.get?_erase_ne _ hw', show p.values.get? w = some x from hx]
    refine ⟨_, rfl, ?_⟩
    split <;> rfl
  refine hw.frame (fun f w x' h => .inl ⟨x', h, rfl, rfl⟩) ?_ ?_ ?_ ?_ ?_
  · intro w x' h
    have h' : g.get? w = some x' := h
    rw [a1, Map.get?_erase, Option.map_eq_some_iff] at h'
    obtain ⟨x, hx, rfl⟩ := h'
    by_cases hwv : w = v
    · rw [if_pos hwv] at hx; cases hx
    · rw [if_neg hwv] at hx
      refine .inl ⟨x, hx, ?_⟩
      split <;> exact ⟨rfl, rfl⟩
  · rintro f u w t x' hlu _ ⟨x, hx, rfl⟩
    have hne : w ≠ v := by rintro rfl; exact (huse u).2.1 f hlu
    rcases hx with hx | hx
    · obtain ⟨y, h1, h2⟩ := hfwd w x hne hx; exact ⟨y, .inl h1, h2⟩
    · exact ⟨x, .inr hx, rfl⟩
  · rintro u w t x' hgu _ ⟨x, hx, rfl⟩
    have hne : w ≠ v := by rintro rfl; exact (huse u).1 hgu
    exact hfwd w x hne hx
  · rintro f u b ts x' _ _ ⟨x, hx, ha⟩
    refine ⟨x, hx, ha.imp ?_⟩
    rintro w hm t ⟨y, hy, rfl⟩
    have hne : w ≠ v := by rintro rfl; exact hty f b x hx hm
    rcases hy with hy | hy
    · obtain ⟨z, h1, h2⟩ := hfwd w y hne hy; exact ⟨z, .inl h1, h2⟩
    · exact ⟨y, .inr hy, rfl⟩
  · intro f u g' t x' _ _ h; exact h

theorem Spec.WellTyped.step {op : Op} (hi : Inv S p) (hb : BInv False p) (hw : WellTyped p)
    (hok : op.Ok p) (hty : op.TyOk p) (h : p.step op = some p') : WellTyped p' := by
  cases op <;> simp only [Program.step, Option.map_eq_some_iff] at h
  case newGlobal => obtain ⟨⟨q, v⟩, h, rfl⟩ := h; exact hw.newGlobal hi hty h
  case removeGlobal => obtain ⟨⟨q, v⟩, h, rfl⟩ := h; exact hw.removeGlobal hi hty h
  case setGlobalName v n =>
    unfold Program.setGlobalName at h
    simp only [Option.bind_eq_bind, Option.bind_eq_some_iff, Option.some.injEq] at h
    obtain ⟨d, hd, d', hd', rfl⟩ := h
    have hk : d'.ty = d.ty ∧ d'.kind = d.kind := by
      unfold VData.setName at hd'; split at hd' <;> cases hd'; exact ⟨rfl, rfl⟩
    have hsame : ∀ w, ((p.values.insert v d').get? w).map (fun x => (x.ty, x.kind)) =
        (p.values.get? w).map (fun x => (x.ty, x.kind)) := by
      intro w
      rw [Map.get?_insert]
      split
      · rename_i hwv; subst hwv; rw [hd]; simp [hk]
      · rfl
    refine hw.grow ⟨fun f v x h => ⟨x, h, rfl⟩, ?_, fun f v x h => ⟨x, h, rfl⟩,
      fun f fd h => ⟨fd, h, rfl⟩⟩ (fun f v x h => .inl ⟨x, h, rfl, rfl⟩) ?_
    · intro w x hx
      have := hsame w
      rw [show p.values.get? w = some x from hx, Option.map_some, Option.map_eq_some_iff] at this
      obtain ⟨x', h3, h4⟩ := this
      exact ⟨x', h3, congrArg Prod.fst h4⟩
    · intro w x' hx
      have := (hsame w).symm
      rw [show (p.values.insert v d').get? w = some x' from hx, Option.map_some, Option.map_eq_some_iff] at this
      obtain ⟨x, h3, h4⟩ := this
      exact .inl ⟨x, h3, congrArg Prod.snd h4, congrArg Prod.fst h4⟩
  case newFuncDef =>
    obtain ⟨⟨q, v⟩, h, rfl⟩ := h
    unfold Program.newFuncDefWithParamNames Program.insertFunc checkSanity at h
    simp only [Option.bind_eq_bind, Option.bind_eq_some_iff, Option.some.injEq, Prod.mk.injEq,
      assert_eq_some, List.all_eq_true, List.mem_map, forall_exists_index, and_imp] at h
    obtain ⟨_, ⟨_, _, hne⟩, ⟨vs, hs⟩, h1, rfl, _⟩ := h
    refine hw.newFunc hi (fun w x hx => ⟨?_, ?_⟩) rfl rfl
    · rcases funcParams_spec _ _ _ _ _ _ h1 w x hx with h | h
      · cases h
      · exact h.2.2.1
    · refine funcParams_ty _ _ _ _ _ _ (fun q hq => isUnit_false (hne _ q hq rfl)) h1 ?_ w x hx
      intro v x h; cases h
  case newFuncDecl =>
    obtain ⟨⟨q, v⟩, h, rfl⟩ := h
    unfold Program.newFuncDecl Program.insertFunc at h
    simp only [Option.bind_eq_bind, Option.bind_eq_some_iff, Option.some.injEq, Prod.mk.injEq] at h
    obtain ⟨_, _, rfl, _⟩ := h
    exact hw.newFunc hi (fun w x hx => by cases hx) rfl rfl
  case removeFunc => obtain ⟨⟨q, v⟩, h, rfl⟩ := h; exact hw.removeFunc hty h
  case setFuncName =>
    unfold Program.setFuncName at h
    simp only [Option.bind_eq_bind, Option.bind_eq_some_iff, Option.some.injEq] at h
    obtain ⟨fd, hf, rfl⟩ := h
    exact hw.putFunc hf rfl rfl rfl (fun _ => rfl) (fun _ => rfl)
  case newLocal f i =>
    obtain ⟨⟨q, v⟩, h, rfl⟩ := h
    unfold Program.newLocal at h
    simp only [Option.bind_eq_bind, Option.bind_eq_some_iff] at h
    obtain ⟨fd, hf, d, hd, h⟩ := h
    exact hw.newLocalData hi (LocalInst.build_typed hb hf hty hd) h
  case replaceLocal f v i =>
    unfold Program.replaceLocal Program.onDfg at h
    simp only [Option.bind_eq_bind, Option.bind_eq_some_iff, Option.some.injEq] at h
    obtain ⟨fd, hf, d, hd, fd', hf', c, hc, rfl⟩ := h
    rw [hf] at hf'; cases hf'
    obtain ⟨old, ho, he⟩ := replaceValueWithData_edit (hi.ctxDisj hf) hc
    refine hw.edit hf he (putCtx_put ..) (fun x hx => ⟨_, rfl, hty.2 fd d x hf hd hx⟩) ?_
    intro d' hd'; cases hd'
    have := LocalInst.build_typed hb hf hty.1 hd
    exact this
  case updateLocal f v fn =>
    unfold Program.updateLocal Program.onDfg at h
    simp only [Option.bind_eq_bind, Option.bind_eq_some_iff, Option.some.injEq] at h
    obtain ⟨fd, hf, c, hc, rfl⟩ := h
    obtain ⟨old, ho, he⟩ := updateValue_edit (hi.ctxDisj hf) hc
    have ho' : LocalVal p f v old := (localVal_self hf v old).2 ho
    refine hw.edit hf he (putCtx_put ..) (fun x hx => ⟨_, rfl, ?_⟩) ?_
    · rw [localVal_self hf, ho] at hx; cases hx; exact (hty old).1
    · intro d' hd'; cases hd'
      rw [(hty old).1, (hty old).2]
      exact hw.locals f v old ho'
  case removeLocal => exact hw.removeLocal hi hty h
  case setLocalName f v n =>
    unfold Program.setLocalName Program.onDfg Ctx.setValueName at h
    simp only [Option.bind_eq_bind, Option.bind_eq_some_iff, Option.some.injEq] at h
    obtain ⟨fd, hf, c, ⟨d, hd, d', hd', rfl⟩, rfl⟩ := h
    refine hw.putFunc hf rfl rfl rfl (fun w => ?_) (fun _ => rfl)
    have hk : d'.ty = d.ty ∧ d'.kind = d.kind := by
      unfold VData.setName at hd'; split at hd' <;> cases hd'; exact ⟨rfl, rfl⟩
    show Option.map _ ((fd.dfg.values.insert v d').get? w) = _
    rw [Map.get?_insert]
    split
    · rename_i hwv; subst hwv
      rw [show fd.dfg.values.get? w = some d from hd]; simp [hk]
    · rfl
  case newBb f n =>
    obtain ⟨⟨q, v⟩, h, rfl⟩ := h
    unfold Program.newBb Program.onDfg at h
    simp only [Option.bind_eq_bind, Option.bind_eq_some_iff, Option.some.injEq, Prod.mk.injEq] at h
    obtain ⟨_, _, p1, ⟨fd, hf, c, rfl, rfl⟩, rfl, _⟩ := h
    exact hw.newBlock hi hf (Nat.le_refl _) rfl (fun _ => Map.get?_insert ..)
  case newBbParams => obtain ⟨⟨q, v⟩, h, rfl⟩ := h; exact hw.newBbParams hi h
  case removeBb => exact hw.removeBb hi hok hty h
  case setBbName f b n =>
    unfold Program.setBbName Program.onDfg Ctx.setBbName Ctx.modBb at h
    simp only [Option.bind_eq_bind, Option.bind_eq_some_iff, Option.some.injEq] at h
    obtain ⟨fd, hf, c, hc, rfl⟩ := h
    split at hc
    · rename_i x hx
      cases hc
      refine hw.putFunc hf rfl rfl rfl (fun _ => rfl) (fun w => ?_)
      show Option.map _ ((fd.dfg.bbs.insert b _).get? w) = _
      rw [Map.get?_insert]
      split
      · rename_i hwv; subst hwv
        rw [show fd.dfg.bbs.get? w = some x from hx]; rfl
      · rfl
    · cases hc
  case setBbParams f b ps =>
    unfold Program.setBbParams Program.onDfg Ctx.setBbParams Ctx.modBb at h
    simp only [Option.bind_eq_bind, Option.bind_eq_some_iff, Option.some.injEq] at h
    obtain ⟨fd, hf, c, hc, rfl⟩ := h
    split at hc
    · rename_i x hx
      cases hc
      refine hw.blocksOnly (bbs := fd.dfg.bbs.insert b { x with params := ps }) hf rfl
        (putCtx_put ..).funcs ?_
      intro b' y u ts _ hy ha
      by_cases hbb : b' = b
      · subst hbb
        exact ⟨_, Map.get?_insert_self .., hty y ts hy ha⟩
      · exact ⟨y, by rw [Map.get?_insert_ne _ _ hbb]; exact (block_self hf b' y).1 hy, ha⟩
    · cases hc
  case layout =>
    unfold Program.onLayout at h
    simp only [Option.bind_eq_bind, Option.bind_eq_some_iff, Option.some.injEq] at h
    obtain ⟨fd, hf, l, _, rfl⟩ := h
    exact hw.putFunc hf rfl rfl rfl (fun _ => rfl) (fun _ => rfl)

end

theorem Reach.wellTyped {p : Program} (r : Reach (fun p op => op.Ok p ∧ op.TyOk p) p)
    (hmax : p.ids.nextGlobal ≤ localStart) : WellTyped p := by
  induction r with
  | init ids hg hl =>
    refine ⟨?_, ?_⟩
    · rintro f v x ⟨fd, h, _⟩; cases h
    · intro v x h; cases h
  | @step p p' op r hok hs ih =>
    have hm := Nat.le_trans (step_nextGlobal hs) hmax
    obtain ⟨S, hi⟩ := (r.mono (fun _ _ h => h.1)).inv hm
    exact (ih hm).step hi r.linv hok.1 hok.2 hs

end Koopa
