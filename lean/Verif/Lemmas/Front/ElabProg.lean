import Verif.Lemmas.Front.BuildRel
import Verif.Lemmas.Front.ElabFun
import Verif.Props.Driver
/-!
Programs: what the generator makes of a list of items is the program that is written.
-/
namespace Koopa
open Spec

/-! ### Globals -/

/-- A step that creates global values only. -/
structure GlobTo (s s' : BS) : Prop where
  ext : Ext s.prog s'.prog
  insts : s'.prog.view.insts = s.prog.view.insts
  lay : s'.prog.view.lay = s.prog.view.lay
  fns : s'.prog.view.fns = s.prog.view.fns
  head : s'.prog.view.head = s.prog.view.head
  b : s'.prog.view.b = s.prog.view.b

theorem GlobTo.trans {a b c : BS} (h : GlobTo a b) (h' : GlobTo b c) : GlobTo a c :=
  ⟨h.ext.trans h'.ext, h'.insts.trans h.insts, h'.lay.trans h.lay, h'.fns.trans h.fns, h'.head.trans h.head,
    h'.b.trans h.b⟩

/-- The tables are left alone. -/
structure Tables (s s' : BS) : Prop where
  vars : s'.globalVars = s.globalVars
  funcs : s'.globalFuncs = s.globalFuncs

/-- The handles of globals are not used up. -/
def Room (s : BS) : Prop := s.prog.ids.nextGlobal ≤ localStart

theorem GlobalInst.toVal {q : Querier} {i : ValInst} {d : VData} (h : (GlobalInst.val i).build q = some d) : i.build q = some d := h

theorem globalInitCtx : InitCtx none (fun s => Room s → FInv s.prog)
    (fun s s' => s.prog.ids.nextGlobal ≤ s'.prog.ids.nextGlobal ∧ Tables s s' ∧ (Room s' → GlobTo s s'))
    (fun s v t k => Room s → GDenotes s.prog v t k) where
  refl s h := ⟨Nat.le_refl _, ⟨rfl, rfl⟩, fun _ => ⟨.refl _, rfl, rfl, rfl, rfl, rfl⟩⟩
  trans a b c h h' := ⟨Nat.le_trans h.1 h'.1, ⟨h'.2.1.1.trans h.2.1.1, h'.2.1.2.trans h.2.1.2⟩, fun hr =>
    (h.2.2 (Nat.le_trans h'.1 hr)).trans (h'.2.2 hr)⟩
  mono s s' v t k h hd hr := by
    obtain ⟨x, hx, h1, h2⟩ := hd (Nat.le_trans h.1 hr)
    obtain ⟨x', hx', hs⟩ := (h.2.2 hr).ext.globalVal hx
    exact ⟨x', hx', (shape_ty hs).trans h1, (shape_kind hs).trans h2⟩
  new i s v s' hr hi h := by
    unfold newVal at h
    obtain ⟨p, hp, rfl⟩ := Done.api h
    obtain ⟨data, hb, hv, hvw⟩ := newGlobal_view hp
    have hids : p.ids = { s.prog.ids with nextGlobal := v + 1 } := congrArg View.ids hvw
    have hle : s.prog.ids.nextGlobal ≤ p.ids.nextGlobal := by rw [hids, hv]; exact Nat.le_succ _
    obtain ⟨k1, k2, k3⟩ := ValInst.build_kind hr (GlobalInst.toVal hb)
    have hk : data.kind.isGlobalAlloc = false := by
      rw [k1]; cases i <;> first | rfl | exact hr.elim
    have hfi : ∀ hroom : p.ids.nextGlobal ≤ localStart, FInv p ∧ Ext s.prog p := fun hroom =>
      (hi (Nat.le_trans hle hroom)).newGlobal (i := .val i) hr hp hroom
    refine ⟨fun hroom => (hfi hroom).1, ⟨hle, ⟨rfl, rfl⟩, fun hroom => ⟨(hfi hroom).2, ?_, ?_, ?_, ?_, ?_⟩⟩, data.ty, ?_, k3⟩
    · show p.view.insts = _; rw [hvw, hk]; rfl
    · show p.view.lay = _; rw [hvw]
    · show p.view.fns = _; rw [hvw]
    · show p.view.head = _; rw [hvw]
    · show p.view.b = _; rw [hvw]
    · intro _
      have : p.view.g v = some data.shape := by rw [hvw]; simp
      obtain ⟨x, hx, hs⟩ := view_g_iff.1 this
      exact ⟨x, hx, congrArg (·.1) hs, (congrArg (·.2.2) hs).trans k1⟩

/-- A global definition that is accepted. -/
structure GlobalDone (name : Str) (ty : TyAst) (init : ValAst) (s s' : BS) (v : Value) : Prop where
  inv : FInv s'.prog
  ext : Ext s.prog s'.prog
  insts : s'.prog.view.insts = s.prog.view.insts ++ [v]
  lay : s'.prog.view.lay = s.prog.view.lay
  fns : s'.prog.view.fns = s.prog.view.fns
  b : s'.prog.view.b = s.prog.view.b
  gv : s'.globalVars = s.globalVars.insert name v
  gf : s'.globalFuncs = s.globalFuncs
  newVar : s.globalVars.get? name = none
  newFun : s.globalFuncs.get? name = none
  glob : GlobalIs s'.prog v name ty init

theorem Done.defineGlobal {n : Str} {v : Value} {s s' : BS} {u : Unit} (h : Done (Koopa.defineGlobal n v) s u s') :
    s.globalVars.get? n = none ∧ s.globalFuncs.get? n = none ∧
    s' = { s with globalVars := s.globalVars.insert n v } := by
  unfold Koopa.defineGlobal at h
  replace h := h.bind_get
  split at h
  · exact h.logError.elim
  · rename_i hc
    replace h := h.bind_modify rfl
    split at h
    · exact h.logError.elim
    · rename_i hd
      exact ⟨by simpa [Map.contains] using hd, by simpa [Map.contains] using hc, h.pure.2⟩

theorem gDenotes_ext {p p' : Program} (h : Ext p p') {v : Value} {t : Ty} {k : VKind} (hd : GDenotes p v t k) :
    GDenotes p' v t k := by
  obtain ⟨x, hx, h1, h2⟩ := hd
  obtain ⟨x', hx', hs⟩ := h.globalVal hx
  exact ⟨x', hx', (shape_ty hs).trans h1, (shape_kind hs).trans h2⟩

theorem Done.buildGlobalDef {name : Str} {ty : TyAst} {init : ValAst} {s s' : BS} {u : Unit}
    (hi : Room s → FInv s.prog) (h : Done (Koopa.buildGlobalDef name ty init) s u s') :
    s.prog.ids.nextGlobal ≤ s'.prog.ids.nextGlobal ∧ (Room s' → ∃ v, GlobalDone name ty init s s' v) := by
  unfold Koopa.buildGlobalDef at h
  obtain ⟨t, ht, h1⟩ := h.bind_lift
  obtain ⟨o, s1, h2, h3⟩ := h1.bind (Calm.attempt (logs_genInit _ _).weak).logs (fun _ => (Calm.logs (by calm)).weak)
  obtain ⟨i, rfl, h4⟩ := h2.attempt (logs_genInit _ _)
  obtain ⟨hi1, ⟨hle1, htab, hto⟩, hconst⟩ := genInit_sound globalInitCtx t init s s1 i hi h4
  simp only at h3
  obtain ⟨v, s2, h5, h6⟩ := h3.bind Calm.api.logs (fun _ => (Calm.logs (by calm)).weak)
  obtain ⟨p2, hp2, rfl⟩ := h5.api
  obtain ⟨_, s3, h7, h8⟩ := h6.bind logs_nameGlobal.logs (fun _ => logs_defineGlobal.logs.weak)
  obtain ⟨hn1, hn2, rfl⟩ := h8.defineGlobal
  obtain ⟨data, hb, hv, hvw⟩ := newGlobal_view hp2
  have hids2 : p2.ids = { s1.prog.ids with nextGlobal := v + 1 } := congrArg View.ids hvw
  -- the data of the allocation
  obtain ⟨y, hy, hsh⟩ : ∃ y, GlobalVal s1.prog i y ∧ data.shape = (.ptr y.ty, none, .globalAlloc i) := by
    unfold GlobalInst.build at hb
    simp only [Option.bind_eq_bind, Option.bind_eq_some_iff, Option.some.injEq] at hb
    obtain ⟨t', h1, _, _, rfl⟩ := hb
    obtain ⟨y, hy, rfl⟩ := Option.map_eq_some_iff.1 h1
    exact ⟨y, hy, rfl⟩
  have hga : data.kind.isGlobalAlloc = true := by
    rw [show data.kind = .globalAlloc i from congrArg (·.2.2) hsh]; rfl
  have hgv : p2.view.g v = some (.ptr y.ty, none, .globalAlloc i) := by rw [hvw]; simp [hsh]
  -- naming
  have hname : ∃ p3, s3 = { s1 with prog := p3 } ∧ p3.view = { p2.view with
      g := fun w => if w = v then some (.ptr y.ty, keptName name, .globalAlloc i) else p2.view.g w } ∧ (FInv p2 → FInv p3) := by
    unfold nameGlobal at h7
    split at h7
    · rename_i ht
      rw [h7.pure.2]
      refine ⟨p2, rfl, ?_, fun h => h⟩
      have hk : keptName name = none := by unfold keptName; rw [← isTemp_eq, if_pos ht]
      rw [hk]
      have : (fun w => if w = v then some (Ty.ptr y.ty, none, VKind.globalAlloc i) else p2.view.g w) = p2.view.g := by
        funext w; split
        · rename_i he; rw [he, hgv]
        · rfl
      rw [this]
    · rename_i ht
      obtain ⟨p3, hp3, rfl⟩ := h7.api'
      refine ⟨p3, rfl, ?_, fun h => h.setGlobalName hp3⟩
      obtain ⟨t, n0, k, h9, h10⟩ := setGlobalName_view hp3
      have hk : keptName name = some name := by unfold keptName; rw [← isTemp_eq, if_neg ht]
      have h9 : p2.view.g v = some (t, n0, k) := h9
      rw [hgv] at h9
      cases h9
      rw [h10, hk]
  obtain ⟨p3, rfl, hv3, hf3⟩ := hname
  have hids3 : p3.ids = p2.ids := congrArg View.ids hv3
  have hle2 : s1.prog.ids.nextGlobal ≤ p3.ids.nextGlobal := by rw [hids3, hids2, hv]; exact Nat.le_succ _
  refine ⟨Nat.le_trans hle1 hle2, ?_⟩
  intro hroom
  have hroom3 : p3.ids.nextGlobal ≤ localStart := hroom
  have hroom1 : Room s1 := Nat.le_trans hle2 hroom3
  have hfi1 := hi1 hroom1
  obtain ⟨hfi2, he2⟩ := hfi1.newGlobal (i := .globalAlloc i) trivial hp2 (by rw [← hids3]; exact hroom3)
  have hfi3 := hf3 hfi2
  have hG := hto hroom1
  have he3 : Ext s1.prog p3 := by
    refine ⟨?_, ?_, ?_, ?_, ?_, ?_, ?_, ?_⟩
    · intro w x hx
      have hne : w ≠ v := by
        have := (hfi1.gRange hx).2
        omega
      rw [hv3]; simp only [if_neg hne]
      exact he2.g w x hx
    · intro f w x hx; rw [hv3]; exact he2.l f w x hx
    · intro f w x hx; rw [hv3]; exact he2.b f w x hx
    · intro f x hx; rw [hv3]; exact he2.head f x hx
    · exact hle2
    · rw [hids3]; exact he2.nextLocal
    · rw [hids3]; exact he2.nextBb
    · rw [hids3]; exact he2.nextFunc
  have hgv3 : p3.view.g v = some (.ptr y.ty, keptName name, .globalAlloc i) := by rw [hv3]; simp
  obtain ⟨x, hx, hxs⟩ := view_g_iff.1 hgv3
  obtain ⟨y', hy', hys⟩ := he3.globalVal hy
  refine ⟨v, hfi3, hG.ext.trans he3, ?_, ?_, ?_, ?_, by rw [← htab.1], htab.2, by rw [← htab.1]; exact hn1,
    by rw [← htab.2]; exact hn2, ?_⟩
  · show p3.view.insts = _; rw [hv3, hvw, hga]; simp only [if_true]; rw [hG.insts]
  · show p3.view.lay = _; rw [hv3, hvw]; exact hG.lay
  · show p3.view.fns = _; rw [hv3, hvw]; exact hG.fns
  · show p3.view.b = _; rw [hv3, hvw]; exact hG.b
  · refine ⟨x, i, y', t, hx, congrArg (·.2.1) hxs, congrArg (·.2.2) hxs, hy', ?_, genType_sound ht, ?_⟩
    · rw [shape_ty hys]; exact congrArg (·.1) hxs
    · exact hconst.mono fun w t k hd => gDenotes_ext he3 (hd hroom1)

/-! ### Declarations -/

/-- A declaration that is accepted. -/
structure DeclDone (name : Str) (params : List TyAst) (ret : Option TyAst) (s s' : BS) : Prop where
  inv : FInv s'.prog
  ext : Ext s.prog s'.prog
  insts : s'.prog.view.insts = s.prog.view.insts
  lay : ∀ g, g ≠ s.prog.ids.nextFunc → s'.prog.view.lay g = s.prog.view.lay g
  b : ∀ g, g ≠ s.prog.ids.nextFunc → s'.prog.view.b g = s.prog.view.b g
  fns : s'.prog.view.fns = s.prog.view.fns ++ [s.prog.ids.nextFunc]
  gv : s'.globalVars = s.globalVars
  gf : s'.globalFuncs = s.globalFuncs.insert name s.prog.ids.nextFunc
  newVar : s.globalVars.get? name = none
  newFun : s.globalFuncs.get? name = none
  fn : ∃ fd, s'.prog.funcs.get? s.prog.ids.nextFunc = some fd ∧ DeclIs s'.prog s.prog.ids.nextFunc fd name params ret

theorem Done.buildFunDecl {name : Str} {params : List TyAst} {ret : Option TyAst} {s s' : BS} {u : Unit}
    (hi : FInv s.prog) (h : Done (Koopa.buildFunDecl name params ret) s u s') : DeclDone name params ret s s' := by
  unfold Koopa.buildFunDecl at h
  obtain ⟨ts, hts, h1⟩ := h.bind_lift
  obtain ⟨r, hr, h2⟩ := h1.bind_lift
  obtain ⟨f, s1, h3, h4⟩ := h2.bind Calm.api.logs (fun _ => (Calm.logs (by calm)).weak)
  obtain ⟨p1, hp1, rfl⟩ := h3.api
  obtain ⟨hnv, hnf, rfl⟩ := h4.defineFunc
  obtain ⟨hpi, hpe⟩ := hi.newFuncDecl hp1
  obtain ⟨rfl, -, -, hv⟩ := newFuncDecl_view hp1
  have hhd : p1.view.head s.prog.ids.nextFunc = some (.func ts r, name, []) := by rw [hv]; simp
  have hly : p1.view.lay s.prog.ids.nextFunc = some Layout.new := by rw [hv]; simp
  obtain ⟨fd, hfd, hfh⟩ := Option.map_eq_some_iff.1 hhd
  obtain ⟨fd', hfd', hfl⟩ := Option.map_eq_some_iff.1 hly
  rw [hfd] at hfd'; cases hfd'
  simp only [Prod.mk.injEq] at hfh
  refine ⟨hpi, hpe, ?_, ?_, ?_, ?_, rfl, rfl, hnv, hnf, fd, hfd, ⟨hfh.2.1, ⟨ts, r, hfh.1, genTypes_sound hts, genRetType_sound hr⟩,
    hfh.2.2, by rw [hfl]; rfl, ?_⟩⟩
  · show p1.view.insts = _; rw [hv]
  · intro g hg; show p1.view.lay g = _; rw [hv]; simp [hg]
  · intro g hg; show p1.view.b g = _; rw [hv]; simp [hg]
  · show p1.view.fns = _; rw [hv]
  · intro b x hx
    have : p1.view.b s.prog.ids.nextFunc b = some (x.name, x.params) := view_b_iff.2 ⟨x, hx, rfl, rfl⟩
    rw [hv] at this
    simp at this

/-! ### Items -/

theorem globalIs_ext {p p' : Program} (h : Ext p p') {v : Value} {name : Str} {ty : TyAst} {init : ValAst}
    (hg : GlobalIs p v name ty init) : GlobalIs p' v name ty init := by
  obtain ⟨x, i, y, t, hx, h1, h2, hy, h3, h4, h5⟩ := hg
  obtain ⟨x', hx', hs⟩ := h.globalVal hx
  obtain ⟨y', hy', hys⟩ := h.globalVal hy
  exact ⟨x', i, y', t, hx', (shape_name hs).trans h1, (shape_kind hs).trans h2, hy',
    by rw [shape_ty hs, shape_ty hys]; exact h3, h4, h5.mono fun _ _ _ => gDenotes_ext h⟩

/-- What later items leave alone. -/
structure Later (p p' : Program) : Prop where
  ext : Ext p p'
  lay : ∀ f l, p.view.lay f = some l → p'.view.lay f = some l
  b : ∀ f, (p.view.head f).isSome → p'.view.b f = p.view.b f

theorem Later.fn {p p' : Program} (h : Later p p') {f : Func} {fd : FData} (hf : p.funcs.get? f = some fd) :
    ∃ fd', p'.funcs.get? f = some fd' ∧ fd'.name = fd.name ∧ fd'.ty = fd.ty ∧ fd'.params = fd.params ∧
      fd'.layout = fd.layout := by
  have h1 : p.view.head f = some (fd.ty, fd.name, fd.params) := by
    show (p.funcs.get? f).map _ = _; rw [hf]; rfl
  have h2 : p.view.lay f = some fd.layout := by
    show (p.funcs.get? f).map _ = _; rw [hf]; rfl
  obtain ⟨fd', hf', he⟩ := Option.map_eq_some_iff.1 (h.ext.head _ _ h1)
  obtain ⟨fd2, hf2, he2⟩ := Option.map_eq_some_iff.1 (h.lay _ _ h2)
  rw [hf'] at hf2; cases hf2
  simp only [Prod.mk.injEq] at he
  exact ⟨fd', hf', he.2.1, he.1, he.2.2, he2⟩

theorem funIs_later {p p' : Program} (h : Later p p') {gv : Str → Value → Prop} {gf : Str → Func → Prop} {f : Func}
    {fd fd' : FData} {name : Str} {params : List (Str × TyAst)} {ret : Option TyAst} {bbs order : List BlockAst} {r : Ty}
    (h0 : p.funcs.get? f = some fd)
    (hn : fd'.name = fd.name) (ht : fd'.ty = fd.ty) (hp : fd'.params = fd.params) (hl : fd'.layout = fd.layout)
    (hF : FunIs p gv gf f fd name params ret bbs order r) : FunIs p' gv gf f fd' name params ret bbs order r := by
  refine ⟨hn.trans hF.hasName, by rw [ht]; exact hF.hasTy, hF.hasRet, by rw [hp]; exact h.ext.paramsFrom hF.hasParams,
    hF.isOrder, hF.unique, by rw [hl]; exact hF.ascending, ?_, ?_⟩
  case refine_2 =>
    intro b x hx
    rw [hl]
    have h5 : p'.view.b f b = some (x.name, x.params) := view_b_iff.2 ⟨x, hx, rfl, rfl⟩
    have h6 : (p.view.head f).isSome := by show ((p.funcs.get? f).map _).isSome; rw [h0]; rfl
    rw [h.b f h6] at h5
    obtain ⟨x', hx', -⟩ := view_b_iff.1 h5
    exact hF.noOthers b x' hx'
  rw [hl, hp]
  refine hF.blocks.mono ?_
  rintro ⟨hd, is⟩ b ⟨⟨x, hx, h1, h2⟩, h3⟩
  obtain ⟨x', hx', e1, e2⟩ := h.ext.block hx
  refine ⟨⟨x', hx', e1.trans h1, by rw [e2]; exact h.ext.paramsFrom h2⟩, h3.mono ?_⟩
  rintro w st ⟨y, hy, h4, h5⟩
  obtain ⟨y', hy', hs⟩ := h.ext.localVal hy
  refine ⟨y', hy', (shape_name hs).trans h4, ?_⟩
  rw [shape_ty hs, shape_kind hs]
  exact h5.mono (envOf_le h.ext (.refl _))

theorem items_later {p p' : Program} (h : Later p p') {gs : List GlobalAst} {vars : List (Str × Value)}
    {fns : List (Str × Func)} (hI : Items p gs vars fns) : Items p' gs vars fns := by
  induction hI with
  | nil => exact .nil
  | globalDef _ h1 h2 h3 ih => exact .globalDef ih h1 h2 (globalIs_ext h.ext h3)
  | @funDecl gs vars fns name params ret f fd _ h1 h2 h3 h4 ih =>
    obtain ⟨fd', hf', e1, e2, e3, e4⟩ := h.fn h3
    refine .funDecl ih h1 h2 hf' ⟨e1.trans h4.hasName, by rw [e2]; exact h4.hasTy, e3.trans h4.hasParams, by rw [e4]; exact h4.noBlocks.1, ?_⟩
    intro b x hx
    have h5 : p'.view.b f b = some (x.name, x.params) := view_b_iff.2 ⟨x, hx, rfl, rfl⟩
    have h6 : (p.view.head f).isSome := by show ((p.funcs.get? f).map _).isSome; rw [h3]; rfl
    rw [h.b f h6] at h5
    obtain ⟨x', hx', -⟩ := view_b_iff.1 h5
    exact h4.noBlocks.2 b x' hx'
  | funDef _ h1 h2 h3 h4 ih =>
    obtain ⟨fd', hf', e1, e2, e3, e4⟩ := h.fn h3
    exact .funDef ih h1 h2 hf' (funIs_later h h3 e1 e2 e3 e4 h4)

/-- The invariant between items. -/
structure ItemsInv (gs : List GlobalAst) (vars : List (Str × Value)) (fns : List (Str × Func)) (s : BS) : Prop where
  inv : FInv s.prog
  items : Items s.prog gs vars fns
  insts : s.prog.view.insts = vars.map (·.2)
  funcs : s.prog.view.fns = fns.map (·.2)
  gv : ∀ n v, s.globalVars.get? n = some v ↔ (n, v) ∈ vars
  gf : ∀ n f, s.globalFuncs.get? n = some f ↔ (n, f) ∈ fns

theorem insert_table {m : Map Str Nat} {l : List (Str × Nat)} (h : ∀ n v, m.get? n = some v ↔ (n, v) ∈ l) {k : Str}
    {w : Nat} (hk : m.get? k = none) : ∀ n v, (m.insert k w).get? n = some v ↔ (n, v) ∈ l ++ [(k, w)] := by
  intro n v
  rw [Map.get?_insert, List.mem_append, List.mem_singleton, Prod.mk.injEq]
  split
  · rename_i he; subst he
    constructor
    · intro h1; cases h1; exact .inr ⟨rfl, rfl⟩
    · rintro (h1 | ⟨-, rfl⟩)
      · rw [← h, hk] at h1; cases h1
      · rfl
  · rename_i he
    rw [h]
    constructor
    · exact .inl
    · rintro (h1 | ⟨h2, -⟩)
      · exact h1
      · exact absurd h2 he

theorem not_in_table {m : Map Str Nat} {l : List (Str × Nat)} (h : ∀ n v, m.get? n = some v ↔ (n, v) ∈ l) {k : Str}
    (hk : m.get? k = none) : k ∉ l.map (·.1) := by
  intro hm
  obtain ⟨⟨k', v⟩, h1, rfl⟩ := List.mem_map.1 hm
  rw [← h, hk] at h1; cases h1

theorem later_of {s s' : BS} (hi : FInv s.prog) (he : Ext s.prog s'.prog)
    (hl : ∀ g, g ≠ s.prog.ids.nextFunc → s'.prog.view.lay g = s.prog.view.lay g)
    (hb : ∀ g, g ≠ s.prog.ids.nextFunc → s'.prog.view.b g = s.prog.view.b g) : Later s.prog s'.prog := by
  have hn := hi.noLocals 0
  refine ⟨he, ?_, ?_⟩
  · intro f l h
    rw [hl f]; exact h
    rintro rfl; rw [hn.2.2.2] at h; cases h
  · intro f h
    refine hb f ?_
    rintro rfl; rw [hn.2.2.1] at h; cases h

/-- The items a text may have. -/
def GlobalAst.clean : GlobalAst → Prop
  | .funDef _ _ _ bbs => ∀ b ∈ bbs, .error ∉ b.stmts
  | .eof => False
  | .error => False
  | _ => True

theorem Done.buildOn {g : GlobalAst} {gs : List GlobalAst} {s s' : BS} {u : Unit} (hc : g.clean)
    (hI : Room s → ∃ vars fns, ItemsInv gs vars fns s) (h : Done (Koopa.buildOn g) s u s') :
    s.prog.ids.nextGlobal ≤ s'.prog.ids.nextGlobal ∧ (Room s' → ∃ vars fns, ItemsInv (gs ++ [g]) vars fns s') := by
  cases g with
  | globalDef name ty init =>
    obtain ⟨h1, h2⟩ := Done.buildGlobalDef (fun hr => (hI hr).choose_spec.choose_spec.inv) h
    refine ⟨h1, fun hr => ?_⟩
    obtain ⟨vars, fns, hII⟩ := hI (Nat.le_trans h1 hr)
    obtain ⟨v, hG⟩ := h2 hr
    refine ⟨vars ++ [(name, v)], fns, hG.inv, .globalDef (items_later ?_ hII.items) (not_in_table hII.gv hG.newVar)
      (not_in_table hII.gf hG.newFun) hG.glob, ?_, ?_, ?_, ?_⟩
    · exact later_of hII.inv hG.ext (fun _ _ => by rw [hG.lay]) (fun _ _ => by rw [hG.b])
    · rw [hG.insts, hII.insts]; simp
    · rw [hG.fns, hII.funcs]
    · rw [hG.gv]; exact insert_table hII.gv hG.newVar
    · rw [hG.gf]; exact hII.gf
  | funDecl name params ret =>
    have hnG : s.prog.ids.nextGlobal ≤ s'.prog.ids.nextGlobal := ((steps_buildOn idsLe_front (.funDecl name params ret) trivial).run _ _ _ h.1).1
    refine ⟨hnG, fun hr => ?_⟩
    obtain ⟨vars, fns, hII⟩ := hI (Nat.le_trans hnG hr)
    have hG := Done.buildFunDecl hII.inv h
    obtain ⟨fd, hfd, hD⟩ := hG.fn
    refine ⟨vars, fns ++ [(name, _)], hG.inv, .funDecl (items_later ?_ hII.items) (not_in_table hII.gv hG.newVar)
      (not_in_table hII.gf hG.newFun) hfd hD, ?_, ?_, ?_, ?_⟩
    · exact later_of hII.inv hG.ext hG.lay hG.b
    · rw [hG.insts, hII.insts]
    · rw [hG.fns, hII.funcs]; simp
    · rw [hG.gv]; exact hII.gv
    · rw [hG.gf]; exact insert_table hII.gf hG.newFun
  | funDef name params ret bbs =>
    have hnG : s.prog.ids.nextGlobal ≤ s'.prog.ids.nextGlobal := ((steps_buildOn idsLe_front (.funDef name params ret bbs) ⟨trivial, fun _ _ => trivial, fun _ _ => ⟨trivial, fun _ _ => trivial, fun _ _ _ => trivial⟩⟩).run _ _ _ h.1).1
    refine ⟨hnG, fun hr => ?_⟩
    obtain ⟨vars, fns, hII⟩ := hI (Nat.le_trans hnG hr)
    have hG := Done.buildFunDef hII.inv hc h
    obtain ⟨fd, r, order, hfd, hD⟩ := hG.fn
    have e1 : (fun n v => s.globalVars.get? n = some v) = (fun n v => (n, v) ∈ vars) := by
      funext n v; exact propext (hII.gv n v)
    have e2 : (fun n g => (s.globalFuncs.insert name s.prog.ids.nextFunc).get? n = some g) =
        (fun n g => (n, g) ∈ fns ++ [(name, s.prog.ids.nextFunc)]) := by
      funext n v; exact propext (insert_table hII.gf hG.newFun n v)
    rw [e1, e2] at hD
    refine ⟨vars, fns ++ [(name, _)], hG.inv, .funDef (items_later ?_ hII.items) (not_in_table hII.gv hG.newVar)
      (not_in_table hII.gf hG.newFun) hfd hD, ?_, ?_, ?_, ?_⟩
    · exact later_of hII.inv hG.ext hG.lay hG.b
    · rw [hG.insts, hII.insts]
    · rw [hG.fns, hII.funcs]; simp
    · rw [hG.gv]; exact hII.gv
    · rw [hG.gf]; exact insert_table hII.gf hG.newFun
  | eof => exact hc.elim
  | error => exact hc.elim

end Koopa
