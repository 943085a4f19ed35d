import Verif.Lemmas.Inv
/-! Preservation of the invariant by every API operation. -/
namespace Koopa
open Spec

/-! ### Changes that keep kinds and use lists -/

/-- The part of value data the invariant depends on. -/
def VData.sig (x : VData) : VKind × List Value := (x.kind, x.usedBy)

structure SameUses (p p' : Program) : Prop where
  globals : ∀ v, (p'.values.get? v).map VData.sig = (p.values.get? v).map VData.sig
  locals : ∀ f, (p'.funcs.get? f).isSome = (p.funcs.get? f).isSome
  values : ∀ f fd fd', p.funcs.get? f = some fd → p'.funcs.get? f = some fd' →
    ∀ v, (fd'.dfg.values.get? v).map VData.sig = (fd.dfg.values.get? v).map VData.sig
  blocks : ∀ f fd fd', p.funcs.get? f = some fd → p'.funcs.get? f = some fd' →
    ∀ b, (fd'.dfg.bbs.get? b).map (·.usedBy) = (fd.dfg.bbs.get? b).map (·.usedBy)

theorem SameUses.symm {p p' : Program} (h : SameUses p p') : SameUses p' p :=
  ⟨fun v => (h.globals v).symm, fun f => (h.locals f).symm,
   fun f fd fd' h1 h2 v => (h.values f fd' fd h2 h1 v).symm,
   fun f fd fd' h1 h2 v => (h.blocks f fd' fd h2 h1 v).symm⟩

theorem SameUses.localVal {p p' : Program} (h : SameUses p p') {f v x}
    (hx : LocalVal p f v x) : ∃ x', LocalVal p' f v x' ∧ x'.sig = x.sig := by
  obtain ⟨fd, hf, hv⟩ := hx
  have := h.locals f
  rw [hf] at this
  obtain ⟨fd', hf'⟩ := Option.isSome_iff_exists.1 this
  have e := h.values f fd fd' hf hf' v
  rw [hv] at e
  simp only [Option.map_some, Option.map_eq_some_iff] at e
  obtain ⟨x', hx', hs⟩ := e
  exact ⟨x', ⟨fd', hf', hx'⟩, hs⟩

theorem SameUses.block {p p' : Program} (h : SameUses p p') {f b x}
    (hx : Block p f b x) : ∃ x', Block p' f b x' ∧ x'.usedBy = x.usedBy := by
  obtain ⟨fd, hf, hv⟩ := hx
  have := h.locals f
  rw [hf] at this
  obtain ⟨fd', hf'⟩ := Option.isSome_iff_exists.1 this
  have e := h.blocks f fd fd' hf hf' b
  rw [hv] at e
  simp only [Option.map_some, Option.map_eq_some_iff] at e
  obtain ⟨x', hx', hs⟩ := e
  exact ⟨x', ⟨fd', hf', hx'⟩, hs⟩

theorem SameUses.globalVal {p p' : Program} (h : SameUses p p') {v x}
    (hx : GlobalVal p v x) : ∃ x', GlobalVal p' v x' ∧ x'.sig = x.sig := by
  have e := h.globals v
  unfold GlobalVal at hx
  rw [hx] at e
  simp only [Option.map_some, Option.map_eq_some_iff] at e
  obtain ⟨x', hx', hs⟩ := e
  exact ⟨x', hx', hs⟩

theorem SameUses.localUse' {p p' : Program} (h : SameUses p p') {f u v}
    (hx : LocalUse p f u v) : LocalUse p' f u v := by
  obtain ⟨y, hy, hv⟩ := hx
  obtain ⟨x', hx', hs⟩ := h.localVal hy
  refine ⟨x', hx', ?_⟩
  have : x'.kind = y.kind := congrArg Prod.fst hs
  rwa [this]

theorem SameUses.localUse {p p' : Program} (h : SameUses p p') {f u v} :
    LocalUse p' f u v ↔ LocalUse p f u v := ⟨h.symm.localUse', h.localUse'⟩

theorem SameUses.targets' {p p' : Program} (h : SameUses p p') {f u v}
    (hx : Targets p f u v) : Targets p' f u v := by
  obtain ⟨y, hy, hv⟩ := hx
  obtain ⟨x', hx', hs⟩ := h.localVal hy
  refine ⟨x', hx', ?_⟩
  have : x'.kind = y.kind := congrArg Prod.fst hs
  rwa [this]

theorem SameUses.targets {p p' : Program} (h : SameUses p p') {f u v} :
    Targets p' f u v ↔ Targets p f u v := ⟨h.symm.targets', h.targets'⟩

theorem SameUses.globalUse' {p p' : Program} (h : SameUses p p') {u v}
    (hx : GlobalUse p u v) : GlobalUse p' u v := by
  obtain ⟨y, hy, hv⟩ := hx
  obtain ⟨x', hx', hs⟩ := h.globalVal hy
  refine ⟨x', hx', ?_⟩
  have : x'.kind = y.kind := congrArg Prod.fst hs
  rwa [this]

theorem SameUses.globalUse {p p' : Program} (h : SameUses p p') {u v} :
    GlobalUse p' u v ↔ GlobalUse p u v := ⟨h.symm.globalUse', h.globalUse'⟩

theorem Inv.same {S p p'} (hi : Inv S p) (h : SameUses p p') (hids : p'.ids = p.ids) : Inv S p' := by
  have hs := h.symm
  refine ⟨?_, ?_, ?_, ?_, ?_, ?_, ?_, ?_, ?_, ?_, ?_, ?_, ?_, ?_, ?_, ?_⟩
  · intro v x hx
    obtain ⟨y, hy, _⟩ := hs.globalVal hx
    rw [hids]; exact hi.gRange v y hy
  · rw [hids]; exact hi.gMax
  · rw [hids]; exact hi.gMin
  · intro f v x hx
    obtain ⟨y, hy, _⟩ := hs.localVal hx
    rw [hids]; exact hi.lRange f v y hy
  · rw [hids]; exact hi.lMin
  · intro f f' v x x' h1 h2
    obtain ⟨y, hy, _⟩ := hs.localVal h1
    obtain ⟨y', hy', _⟩ := hs.localVal h2
    exact hi.lDisj f f' v y y' hy hy'
  · intro f b x hx
    obtain ⟨y, hy, _⟩ := hs.block hx
    rw [hids]; exact hi.bRange f b y hy
  · intro f fd hf
    have := h.locals f
    rw [hf] at this
    obtain ⟨fd', hf'⟩ := Option.isSome_iff_exists.1 this.symm
    rw [hids]; exact hi.fRange f fd' hf'
  · intro u v hS
    obtain ⟨h1, h2, h4, h3⟩ := hi.stale u v hS
    refine ⟨h1, by rw [hids]; exact h2, by rw [hids]; exact h4, fun f x hx => ?_⟩
    obtain ⟨y, hy, _⟩ := hs.localVal hx
    exact h3 f y hy
  · intro f v x hx u
    obtain ⟨y, hy, e⟩ := hs.localVal hx
    have : y.usedBy = x.usedBy := congrArg Prod.snd e
    rw [← this, hi.localUses f v y hy, h.localUse]
  · intro v x hx u
    obtain ⟨y, hy, e⟩ := hs.globalVal hx
    have : y.usedBy = x.usedBy := congrArg Prod.snd e
    rw [← this, hi.globalUses v y hy]
    simp only [h.localUse, h.globalUse]
  · intro f b x hx u
    obtain ⟨y, hy, e⟩ := hs.block hx
    rw [← e, hi.blockUses f b y hy, h.targets]
  · intro f u v hu
    rw [h.localUse] at hu
    rcases hi.closedL f u v hu with ⟨x, hx⟩ | ⟨x, hx⟩
    · obtain ⟨y, hy, _⟩ := h.globalVal hx; exact .inl ⟨y, hy⟩
    · obtain ⟨y, hy, _⟩ := h.localVal hx; exact .inr ⟨y, hy⟩
  · intro u v hu
    rw [h.globalUse] at hu
    obtain ⟨x, hx⟩ := hi.closedG u v hu
    obtain ⟨y, hy, _⟩ := h.globalVal hx; exact ⟨y, hy⟩
  · intro f u b hu
    rw [h.targets] at hu
    obtain ⟨x, hx⟩ := hi.closedB f u b hu
    obtain ⟨y, hy, _⟩ := h.block hx; exact ⟨y, hy⟩
  · intro f u hu
    rw [h.localUse] at hu; exact hi.noSelf f u hu

/-! ### Values of a function -/

theorem Inv.noLocalUse_fresh {S p} (hi : Inv S p) {f w v} (hv : p.ids.nextLocal ≤ v) :
    ¬ LocalUse p f w v := by
  intro h
  rcases hi.closedL f w v h with ⟨x, hx⟩ | ⟨x, hx⟩
  · have := hi.gRange v x hx; have := hi.gMax; have := hi.lMin; omega
  · have := hi.lRange f v x hx; omega

/-- Insertion of a new local value with id `v` at or above the counter. -/
theorem Inv.newValue {S p} (hi : Inv S p) {f fd c v data p'} (hf : p.funcs.get? f = some fd)
    (hv : p.ids.nextLocal ≤ v) (hput : PutCtx p p' f fd c)
    (hids : p'.ids = { p.ids with nextLocal := v + 1 })
    (hdata : data.usedBy = [])
    (h : (p.ctx fd).newValueData v data = some c) : Inv S p' := by
  have hfree : ∀ f' x, ¬ LocalVal p f' v x := fun f' x hx => by
    have := hi.lRange f' v x hx; omega
  have hl : (p.ctx fd).d.values.get? v = none := by
    cases hq : (p.ctx fd).d.values.get? v with
    | none => rfl
    | some x => exact absurd ((localVal_self hf v x).2 hq) (hfree f x)
  have hg : (p.ctx fd).g.get? v = none := by
    cases hq : (p.ctx fd).g.get? v with
    | none => rfl
    | some x => have := hi.gRange v x hq; have := hi.gMax; have := hi.lMin; omega
  have he := newValueData_edit (hi.ctxDisj hf) hg hl h
  have hmin := hi.lMin
  refine hi.edit hf he (by rw [hl]; rfl) hput ⟨by omega, by rw [hids]; show v < v + 1; omega⟩ ?_ ?_ ?_ ?_ ?_ (.inr hv) ?_ ?_
  · rw [hids]; show p.ids.nextLocal ≤ v + 1; omega
  · rw [hids]
  · rw [hids]; exact Nat.le_refl _
  · rw [hids]
  · intro f' x hx; exact absurd hx (hfree f' x)
  · intro w
    simp only [Option.map_some, Option.getD_some, hdata, List.not_mem_nil, false_iff]
    exact hi.noLocalUse_fresh hv
  · intro h; cases h

/-- Data built by a method other than `raw` has no users. -/
def ValInst.noRaw : ValInst → Prop
  | .raw data => data.usedBy = []
  | _ => True

/-- Data passed to `raw` has no users. -/
def LocalInst.rawOk : LocalInst → Prop
  | .val i => i.noRaw
  | _ => True

def GlobalInst.rawOk : GlobalInst → Prop
  | .val i => i.noRaw
  | _ => True

theorem assert_eq_some {b : Bool} {u : Unit} : assert b = some u ↔ b = true := by
  unfold assert; cases b <;> simp

theorem ValInst.build_usedBy {q : Querier} {i : ValInst} (hr : i.noRaw) {data : VData}
    (h : i.build q = some data) : data.usedBy = [] := by
  cases i <;> simp only [ValInst.build, Option.bind_eq_bind, Option.bind_eq_some_iff,
    Option.some.injEq] at h
  case raw d => subst h; exact hr
  case integer => subst h; rfl
  case zeroInit => obtain ⟨_, _, rfl⟩ := h; rfl
  case undef => obtain ⟨_, _, rfl⟩ := h; rfl
  case aggregate => obtain ⟨_, _, _, _, _, _, _, _, _, _, _, _, _, _, _, _, rfl⟩ := h; rfl

theorem LocalInst.build_usedBy {q : Querier} {i : LocalInst} (hr : i.rawOk) {data : VData}
    (h : i.build q = some data) : data.usedBy = [] := by
  cases i with
  | val i => exact ValInst.build_usedBy hr h
  | _ =>
    simp only [LocalInst.build, Option.bind_eq_bind, Option.bind_eq_some_iff] at h
    first
      | grind [VData.new]
      | (obtain ⟨_, _, h⟩ := h
         split at h
         · simp only [Option.bind_eq_some_iff, Option.some.injEq] at h; grind [VData.new]
         · cases h)
      | (split at h
         · cases h; rfl
         · simp only [Option.bind_eq_some_iff, Option.some.injEq] at h; grind [VData.new])

theorem GlobalInst.build_usedBy {q : Querier} {i : GlobalInst} (hr : i.rawOk) {data : VData}
    (h : i.build q = some data) : data.usedBy = [] := by
  cases i with
  | val i => exact ValInst.build_usedBy hr h
  | globalAlloc init =>
    simp only [GlobalInst.build, Option.bind_eq_bind, Option.bind_eq_some_iff, Option.some.injEq] at h
    obtain ⟨_, _, _, _, rfl⟩ := h; rfl

theorem Inv.newLocalData {S p f data p' v} (hi : Inv S p) (hd : data.usedBy = [])
    (h : p.newLocalData f data = some (p', v)) : Inv S p' := by
  unfold Program.newLocalData Program.onDfg at h
  simp only [Option.bind_eq_bind, Option.bind_eq_some_iff, Option.some.injEq, Prod.mk.injEq] at h
  obtain ⟨p1, ⟨fd, hf, c, hc, rfl⟩, rfl, _⟩ := h
  exact hi.newValue (fd := fd) hf (Nat.le_refl _)
    ⟨rfl, fun f' => Map.get?_insert ..⟩ rfl hd hc

theorem Inv.newLocal {S p f i p' v} (hi : Inv S p) (hr : i.rawOk)
    (h : p.newLocal f i = some (p', v)) : Inv S p' := by
  unfold Program.newLocal at h
  simp only [Option.bind_eq_bind, Option.bind_eq_some_iff] at h
  obtain ⟨fd, hf, data, hb, h⟩ := h
  exact hi.newLocalData (LocalInst.build_usedBy hr hb) h

theorem Inv.editExisting {S p f fd c u old data} (hi : Inv S p) (hf : p.funcs.get? f = some fd)
    (ho : (p.ctx fd).d.values.get? u = some old)
    (he : (p.ctx fd).Edit c u (some old.kind) data)
    (hu : ∀ nd, data = some nd → nd.usedBy = old.usedBy)
    (hn : data = none → old.usedBy = []) : Inv S (p.putCtx f fd c) := by
  have hlv : LocalVal p f u old := (localVal_self hf u old).2 ho
  have hr := hi.lRange f u old hlv
  refine hi.edit hf he (by rw [ho]; rfl) (putCtx_put ..) hr (Nat.le_refl _) rfl (Nat.le_refl _) rfl
    (fun f' x hx => hi.lDisj f' f u x old hx hlv) (.inl ⟨old, hlv⟩) ?_ ?_
  · intro w
    rw [← hi.localUses f u old hlv]
    cases data with
    | none => simp [hn rfl]
    | some nd => simp [hu nd rfl]
  · intro hd w
    rw [← hi.localUses f u old hlv, hn hd]; simp

theorem Inv.replaceLocal {S p f v i p'} (hi : Inv S p)
    (h : p.replaceLocal f v i = some p') : Inv S p' := by
  unfold Program.replaceLocal Program.onDfg at h
  simp only [Option.bind_eq_bind, Option.bind_eq_some_iff, Option.some.injEq] at h
  obtain ⟨fd, hf, data, _, fd', hf', c, hc, rfl⟩ := h
  rw [hf] at hf'; cases hf'
  obtain ⟨old, ho, he⟩ := replaceValueWithData_edit (hi.ctxDisj hf) hc
  exact hi.editExisting hf ho he (by intro nd h; cases h; rfl) (by intro h; cases h)

theorem Inv.updateLocal {S p f v fn p'} (hi : Inv S p) (hfn : ∀ d, (fn d).usedBy = d.usedBy)
    (h : p.updateLocal f v fn = some p') : Inv S p' := by
  unfold Program.updateLocal Program.onDfg at h
  simp only [Option.bind_eq_bind, Option.bind_eq_some_iff, Option.some.injEq] at h
  obtain ⟨fd, hf, c, hc, rfl⟩ := h
  obtain ⟨old, ho, he⟩ := updateValue_edit (hi.ctxDisj hf) hc
  exact hi.editExisting hf ho he (by intro nd h; cases h; exact hfn old) (by intro h; cases h)

theorem Inv.removeLocal {S p f v p'} (hi : Inv S p)
    (h : p.removeLocal f v = some p') : Inv S p' := by
  unfold Program.removeLocal Program.onDfg at h
  simp only [Option.bind_eq_bind, Option.bind_eq_some_iff, Option.some.injEq,
    Option.map_eq_some_iff] at h
  obtain ⟨fd, hf, c, ⟨⟨c', data⟩, hc, rfl⟩, rfl⟩ := h
  obtain ⟨ho, hu, he⟩ := removeValue_edit (hi.ctxDisj hf) hc
  exact hi.editExisting hf ho he (by intro nd h; cases h) (fun _ => hu)

/-! ### Names, parameters, layout: nothing the invariant depends on -/

theorem SameUses.putFunc {p p' : Program} {f : Func} {fd fd' : FData}
    (hf : p.funcs.get? f = some fd)
    (hg : ∀ v, (p'.values.get? v).map VData.sig = (p.values.get? v).map VData.sig)
    (hfs : p'.funcs = p.funcs.insert f fd')
    (hv : ∀ v, (fd'.dfg.values.get? v).map VData.sig = (fd.dfg.values.get? v).map VData.sig)
    (hb : ∀ b, (fd'.dfg.bbs.get? b).map (·.usedBy) = (fd.dfg.bbs.get? b).map (·.usedBy)) :
    SameUses p p' := by
  refine ⟨hg, ?_, ?_, ?_⟩
  · intro f'
    rw [hfs, Map.get?_insert]
    by_cases h : f' = f
    · subst h; simp [hf]
    · simp [h]
  · intro f' fd1 fd2 h1 h2
    rw [hfs, Map.get?_insert] at h2
    by_cases h : f' = f
    · subst h; rw [hf] at h1; cases h1; simp at h2; subst h2; exact hv
    · rw [if_neg h, h1] at h2; cases h2; intro v; rfl
  · intro f' fd1 fd2 h1 h2
    rw [hfs, Map.get?_insert] at h2
    by_cases h : f' = f
    · subst h; rw [hf] at h1; cases h1; simp at h2; subst h2; exact hb
    · rw [if_neg h, h1] at h2; cases h2; intro v; rfl

theorem VData.setName_sig {d d' : VData} {n} (h : d.setName n = some d') : d'.sig = d.sig := by
  unfold VData.setName at h
  split at h
  · cases h; rfl
  · cases h

theorem Inv.setLocalName {S p f v n p'} (hi : Inv S p)
    (h : p.setLocalName f v n = some p') : Inv S p' := by
  unfold Program.setLocalName Program.onDfg Ctx.setValueName at h
  simp only [Option.bind_eq_bind, Option.bind_eq_some_iff, Option.some.injEq] at h
  obtain ⟨fd, hf, c, ⟨d, hd, d', hd', rfl⟩, rfl⟩ := h
  refine hi.same (SameUses.putFunc hf (fun _ => rfl) rfl (fun w => ?_) (fun _ => rfl)) rfl
  show ((fd.dfg.values.insert v d').get? w).map _ = _
  rw [Map.get?_insert]
  by_cases hw : w = v
  · subst hw
    have hd : fd.dfg.values.get? w = some d := hd
    simp [hd, VData.setName_sig hd']
  · simp [hw]

theorem Inv.setGlobalName {S p v n p'} (hi : Inv S p)
    (h : p.setGlobalName v n = some p') : Inv S p' := by
  unfold Program.setGlobalName at h
  simp only [Option.bind_eq_bind, Option.bind_eq_some_iff, Option.some.injEq] at h
  obtain ⟨d, hd, d', hd', rfl⟩ := h
  refine hi.same ⟨fun w => ?_, fun _ => rfl, ?_, ?_⟩ rfl
  · show ((p.values.insert v d').get? w).map _ = _
    rw [Map.get?_insert]
    by_cases hw : w = v
    · subst hw; simp [hd, VData.setName_sig hd']
    · simp [hw]
  · intro f fd fd' h1 h2; rw [h1] at h2; cases h2; intro v; rfl
  · intro f fd fd' h1 h2; rw [h1] at h2; cases h2; intro v; rfl

theorem Inv.setFuncName {S p f n p'} (hi : Inv S p)
    (h : p.setFuncName f n = some p') : Inv S p' := by
  unfold Program.setFuncName at h
  simp only [Option.bind_eq_bind, Option.bind_eq_some_iff, Option.some.injEq] at h
  obtain ⟨fd, hf, rfl⟩ := h
  exact hi.same (SameUses.putFunc hf (fun _ => rfl) rfl (fun _ => rfl) (fun _ => rfl)) rfl

theorem Inv.onLayout {S p f op p'} (hi : Inv S p)
    (h : p.onLayout f op = some p') : Inv S p' := by
  unfold Program.onLayout at h
  simp only [Option.bind_eq_bind, Option.bind_eq_some_iff, Option.some.injEq] at h
  obtain ⟨fd, hf, l, _, rfl⟩ := h
  exact hi.same (SameUses.putFunc hf (fun _ => rfl) rfl (fun _ => rfl) (fun _ => rfl)) rfl

theorem Inv.modBb {S p f b g p'} (hi : Inv S p) (hg : ∀ x, (g x).usedBy = x.usedBy)
    (h : p.onDfg f (fun c => c.modBb b g) = some p') : Inv S p' := by
  unfold Program.onDfg at h
  simp only [Option.bind_eq_bind, Option.bind_eq_some_iff, Option.some.injEq] at h
  obtain ⟨fd, hf, c, hc, rfl⟩ := h
  obtain ⟨h1, h2, h3, _⟩ := modBb_eq hc
  refine hi.same (SameUses.putFunc hf (fun v => ?_) rfl (fun v => ?_) (fun b' => ?_)) rfl
  · show (c.g.get? v).map _ = _; rw [h1]; rfl
  · show (c.d.values.get? v).map _ = _; rw [h2]; rfl
  · show (c.d.bbs.get? b').map _ = _
    rw [h3, Option.map_map]
    show _ = (fd.dfg.bbs.get? b').map _
    show ((fd.dfg.bbs.get? b').map _) = _
    congr 1
    funext x
    show (if b' = b then g x else x).usedBy = x.usedBy
    split
    · exact hg x
    · rfl

end Koopa
