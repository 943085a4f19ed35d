import Verif.Lemmas.Front.RunsInit
import Verif.Lemmas.Front.Accept
/-!
Well-typed programs can be generated.
-/
namespace Koopa
open Spec

/-- `v` is a global constant of type `t`. -/
def GlobalConst (s : BS) (v : Value) (t : Ty) : Prop := ∃ x, GlobalVal s.prog v x ∧ x.ty = t ∧ x.kind.isConst = true

/-- There is room for `k` more global values. -/
def RoomFor (k : Nat) (s : BS) : Prop := FInv s.prog ∧ s.prog.ids.nextGlobal + k ≤ localStart

theorem globalType_querier {p : Program} {v : Value} {x : VData} (h : GlobalVal p v x) :
    (viewGlobalQuerier p.view).valueType v = some x.ty := by
  have : p.view.g v = some x.shape := view_g_iff.2 ⟨x, h, rfl⟩
  simp [viewGlobalQuerier, this, VData.shape]

theorem globalConst_querier {p : Program} {v : Value} {x : VData} (h : GlobalVal p v x) :
    (viewGlobalQuerier p.view).isConst v = some x.kind.isConst := by
  have : p.view.g v = some x.shape := view_g_iff.2 ⟨x, h, rfl⟩
  simp [viewGlobalQuerier, this, VData.shape]

/-- A well-typed global value is made. -/
theorem makeGlobal {k : Nat} {kd : VKind} {t : Ty} {i : GlobalInst} {s : BS} (hI : RoomFor (k + 1) s)
    (hk : InstTy (GlobalConst s) (fun _ _ => False) (fun _ _ => False) kd t) (hi : Raw.globalInst t kd = some i) :
    ∃ v s', Done (B.api (·.newGlobal i)) s v s' ∧ RoomFor k s' ∧ Ext s.prog s'.prog ∧ s'.prog.view.g v = some (t, none, kd) := by
  obtain ⟨hf, hr⟩ := hI
  obtain ⟨h1, h2⟩ := Raw.globalInst_build (q := viewGlobalQuerier s.prog.view)
    (by rintro v t ⟨x, hx, rfl, -⟩; exact globalType_querier hx) hk (by
      rintro es rfl e he
      cases hk with
      | aggregate _ _ h =>
        obtain ⟨x, hx, -, hc⟩ := h e he
        rw [globalConst_querier hx, hc]) hi
  obtain ⟨p', hp, h3, h4, h5⟩ := newGlobal_run hf h1 h2 (by omega)
  refine ⟨s.prog.ids.nextGlobal, { s with prog := p' }, .of_api hp, ⟨h3, ?_⟩, h4, ?_⟩
  · have : p'.ids.nextGlobal = s.prog.ids.nextGlobal + 1 := by
      have := congrArg (fun v => v.ids.nextGlobal) h5
      exact this
    show p'.ids.nextGlobal + k ≤ localStart
    omega
  · show p'.view.g _ = _
    rw [h5]; simp [VData.shape, VData.new]

theorem globalMakeCtx : MakeCtx none RoomFor GlobalConst where
  less k s h := ⟨h.1, by have := h.2; omega⟩
  new k i t kd s hI hk hi := by
    have hg : Raw.globalInst t kd = some (.val i) := by
      cases kd <;> simp only [Raw.valInst, Option.some.injEq, reduceCtorEq] at hi <;> subst hi <;> rfl
    have hc : kd.isConst = true := by
      cases kd <;> simp only [Raw.valInst, Option.some.injEq, reduceCtorEq] at hi <;> rfl
    obtain ⟨v, s', h1, h2, h3, h4⟩ := makeGlobal hI hk hg
    refine ⟨v, s', h1, h2, ?_, ?_⟩
    · obtain ⟨x, hx, hs⟩ := view_g_iff.1 h4
      exact ⟨x, hx, congrArg (·.1) hs, by rw [show x.kind = kd from congrArg (·.2.2) hs]; exact hc⟩
    · rintro w t' ⟨x, hx, h5, h6⟩
      obtain ⟨x', hx', hs⟩ := h3.globalVal hx
      exact ⟨x', hx', (shape_ty hs).trans h5, by rw [shape_kind hs]; exact h6⟩

theorem defineGlobal_run {n : Str} {v : Value} {s : BS} (h1 : s.globalVars.get? n = none) (h2 : s.globalFuncs.get? n = none) :
    Done (defineGlobal n v) s () { s with globalVars := s.globalVars.insert n v } := by
  unfold defineGlobal
  refine .seq_get ?_
  rw [if_neg (by simp [Map.contains, h2])]
  refine .seq_modify rfl ?_
  rw [if_neg (by simp [Map.contains, h1])]
  exact .done _ _

/-- A well-typed definition of a global is accepted and makes as many values as counted. -/
theorem buildGlobalDef_run {name : Str} {ty : TyAst} {init : ValAst} {t : Ty} {k : Nat} {s : BS}
    (hI : RoomFor (constSize init + 1 + k) s) (hn : nameOk name) (hnv : s.globalVars.get? name = none)
    (hnf : s.globalFuncs.get? name = none) (ht : TyIs ty t) (hc : ConstOk init t) :
    ∃ s' v x, Done (buildGlobalDef name ty init) s () s' ∧ RoomFor k s' ∧ s'.globalVars.get? name = some v ∧
      GlobalVal s'.prog v x ∧ x.ty = .ptr t := by
  obtain ⟨i, s1, h1, hI1, hi1, -⟩ := genInit_run globalMakeCtx init (k := k + 1) (s := s) hc (by
    rw [show constSize init + (k + 1) = constSize init + 1 + k by omega]; exact hI)
  have htab := (genInit_sound globalInitCtx t init s s1 i (fun _ => hI.1) h1).2.1.2.1
  obtain ⟨v, s2, h2, hI2, he2, hv2⟩ := makeGlobal (kd := .globalAlloc i) (i := .globalAlloc i) hI1 (.globalAlloc hc.notUnit hi1) rfl
  have ht2 : s2.globalVars = s1.globalVars ∧ s2.globalFuncs = s1.globalFuncs := by
    obtain ⟨p, _, rfl⟩ := h2.api
    exact ⟨rfl, rfl⟩
  obtain ⟨s3, h3, hI3, ht3, hv3⟩ : ∃ s3, Done (nameGlobal v name) s2 () s3 ∧ RoomFor k s3 ∧
      (s3.globalVars = s2.globalVars ∧ s3.globalFuncs = s2.globalFuncs) ∧ ∃ n, s3.prog.view.g v = some (.ptr t, n, .globalAlloc i) := by
    unfold nameGlobal
    split
    · exact ⟨s2, .done _ _, hI2, ⟨rfl, rfl⟩, none, hv2⟩
    · obtain ⟨p, hp, hf, hv⟩ := setGlobalName_run hI2.1 (n := some name) hv2 (nameOk_valid hn)
      refine ⟨{ s2 with prog := p }, .of_api' hp, ⟨hf, ?_⟩, ⟨rfl, rfl⟩, some name, ?_⟩
      · have : p.ids = s2.prog.ids := congrArg View.ids hv
        show p.ids.nextGlobal + k ≤ localStart
        rw [this]; exact hI2.2
      · show p.view.g v = _
        rw [hv]; simp
  obtain ⟨n, hv3⟩ := hv3
  obtain ⟨x, hx, hs⟩ := view_g_iff.1 hv3
  have h4 := defineGlobal_run (n := name) (v := v) (s := s3) (by rw [ht3.1, ht2.1, htab.1]; exact hnv)
    (by rw [ht3.2, ht2.2, htab.2]; exact hnf)
  refine ⟨{ s3 with globalVars := s3.globalVars.insert name v }, v, x, ?_, hI3, ?_, hx, congrArg (·.1) hs⟩
  · unfold buildGlobalDef
    refine .seq_lift (genType_complete ht) (h1.of_attempt.seq ?_)
    simp only
    exact h2.seq (h3.seq h4)
  · simp [Map.get?_insert]

theorem buildFunDecl_run {name : Str} {params : List TyAst} {ret : Option TyAst} {ts : List Ty} {r : Ty} {s : BS}
    (hi : FInv s.prog) (hn : nameOk name) (hnv : s.globalVars.get? name = none)
    (hnf : s.globalFuncs.get? name = none) (ht : All2 TyIs params ts) (hr : RetIs TyIs ret r) :
    ∃ s', Done (buildFunDecl name params ret) s () s' ∧ s'.prog.ids.nextGlobal = s.prog.ids.nextGlobal := by
  have hu : ∀ t ∈ ts, t ≠ .unit := by
    intro t hm
    obtain ⟨i, hi⟩ := List.mem_iff_getElem?.1 hm
    obtain ⟨a, ha⟩ : ∃ a, params[i]? = some a := by
      have := (List.getElem?_eq_some_iff.1 hi).1
      have := ht.length
      exact ⟨params[i], List.getElem?_eq_getElem (by omega)⟩
    exact TyIs_not_unit (ht.get i a t ha hi)
  obtain ⟨p, hp, -, -, hv⟩ := newFuncDecl_run hi (n := name) (ps := ts) (r := r) (nameOk_valid hn) hu
  have h1 := defineFunc_run (f := s.prog.ids.nextFunc) (s := { s with prog := p }) hnv hnf
  refine ⟨{ s with prog := p, globalFuncs := s.globalFuncs.insert name s.prog.ids.nextFunc }, ?_, ?_⟩
  · unfold buildFunDecl
    exact .seq_lift (genTypes_complete ht) (.seq_lift (genRetType_complete hr) ((Done.of_api hp).seq h1))
  · exact congrArg (fun v => v.ids.nextGlobal) hv

/-! ### Items -/

theorem Builds.snoc {gs : List GlobalAst} {g : GlobalAst} {a b c : BS} (h : Builds gs a b) (h' : Done (buildOn g) b () c) :
    Builds (gs ++ [g]) a c := by
  induction h with
  | nil => exact .cons h' .nil
  | cons h1 _ ih => exact .cons h1 (ih h')

/-- The number of global values the items make. -/
def globalSizes (gs : List GlobalAst) : Nat := (gs.map globalSize).sum

theorem globalSizes_snoc (gs : List GlobalAst) (g : GlobalAst) : globalSizes (gs ++ [g]) = globalSizes gs + globalSize g := by
  simp [globalSizes]

/-- The tables contain the items. -/
structure Known (gv : List (Str × Ty)) (gf : List (Str × List Ty × Ty)) (s : BS) : Prop where
  vars : ∀ sy t, (sy, t) ∈ gv → ∃ v x, s.globalVars.get? sy = some v ∧ GlobalVal s.prog v x ∧ x.ty = t
  noVars : ∀ sy, (s.globalVars.get? sy).isSome → sy ∈ gv.map (·.1)
  fns : ∀ g ts r, (g, ts, r) ∈ gf → ∃ h, s.globalFuncs.get? g = some h ∧ FuncTy s.prog h (.func ts r)
  noFns : ∀ g, (s.globalFuncs.get? g).isSome → g ∈ gf.map (·.1)

theorem Known.newVar {gv : List (Str × Ty)} {gf : List (Str × List Ty × Ty)} {s : BS} (h : Known gv gf s) {n : Str}
    (hn : n ∉ gv.map (·.1)) : s.globalVars.get? n = none := by
  cases hg : s.globalVars.get? n with
  | none => rfl
  | some v => exact absurd (h.noVars n (by rw [hg]; rfl)) hn

theorem Known.newFun {gv : List (Str × Ty)} {gf : List (Str × List Ty × Ty)} {s : BS} (h : Known gv gf s) {n : Str}
    (hn : n ∉ gf.map (·.1)) : s.globalFuncs.get? n = none := by
  cases hg : s.globalFuncs.get? n with
  | none => rfl
  | some v => exact absurd (h.noFns n (by rw [hg]; rfl)) hn

theorem Known.addFn {gv : List (Str × Ty)} {gf : List (Str × List Ty × Ty)} {s s' : BS} (h : Known gv gf s) {n : Str} {f : Func}
    {ts : List Ty} {r : Ty} (he : Ext s.prog s'.prog) (hv : s'.globalVars = s.globalVars)
    (hf : s'.globalFuncs = s.globalFuncs.insert n f) (hn : n ∉ gf.map (·.1)) (hty : FuncTy s'.prog f (.func ts r)) :
    Known gv (gf ++ [(n, ts, r)]) s' where
  vars sy t hm := by
    obtain ⟨v, x, h1, h2, h3⟩ := h.vars sy t hm
    obtain ⟨x', h4, h5⟩ := he.globalVal h2
    exact ⟨v, x', by rw [hv]; exact h1, h4, (shape_ty h5).trans h3⟩
  noVars sy hm := h.noVars sy (by rw [← hv]; exact hm)
  fns g us u hm := by
    rw [hf]
    rcases List.mem_append.1 hm with hm' | hm'
    · obtain ⟨c, h1, h2⟩ := h.fns g us u hm'
      refine ⟨c, ?_, he.funcTy h2⟩
      rw [Map.get?_insert, if_neg (by rintro rfl; exact hn (List.mem_map.2 ⟨(_, us, u), hm', rfl⟩))]
      exact h1
    · simp only [List.mem_singleton, Prod.mk.injEq] at hm'
      obtain ⟨rfl, rfl, rfl⟩ := hm'
      exact ⟨f, by rw [Map.get?_insert, if_pos rfl], hty⟩
  noFns g hm := by
    rw [hf, Map.get?_insert] at hm
    rw [List.map_append, List.mem_append]
    split at hm
    · rename_i he; subst he; simp
    · exact .inl (h.noFns g hm)

/-- Well-typed items are built one after the other. -/
theorem ItemsOk.builds {gs : List GlobalAst} {gv : List (Str × Ty)} {gf : List (Str × List Ty × Ty)} (h : ItemsOk gs gv gf)
    (hc : ∀ g ∈ gs, g.clean) {s : BS} (h0 : Known [] [] s) : ∀ {k : Nat}, RoomFor (globalSizes gs + k) s →
    ∃ s', Builds gs s s' ∧ Known gv gf s' ∧ RoomFor k s' := by
  induction h with
  | nil =>
    intro k hr
    exact ⟨s, .nil, h0, by simpa [globalSizes] using hr⟩
  | @globalDef gs gv gf name ty init t _ hn hv hf ht hc' ih =>
    intro k hr
    rw [globalSizes_snoc, Nat.add_assoc] at hr
    obtain ⟨s1, h1, hK, hr1⟩ := ih (fun g hg => hc g (by simp [hg])) hr
    obtain ⟨s2, v, x, h2, hr2, h3, h4, h5⟩ := buildGlobalDef_run (k := k) hr1 hn (hK.newVar hv) (hK.newFun hf) ht hc'
    obtain ⟨-, hD⟩ := h2.buildGlobalDef (fun _ => hr1.1)
    obtain ⟨v', hD⟩ := hD hr2.1.max
    refine ⟨s2, h1.snoc h2, ⟨?_, ?_, ?_, ?_⟩, hr2⟩
    · intro sy u hm
      rcases List.mem_append.1 hm with hm' | hm'
      · obtain ⟨w, y, a1, a2, a3⟩ := hK.vars sy u hm'
        obtain ⟨y', a4, a5⟩ := hD.ext.globalVal a2
        refine ⟨w, y', ?_, a4, (shape_ty a5).trans a3⟩
        rw [hD.gv, Map.get?_insert, if_neg (by rintro rfl; exact hv (List.mem_map.2 ⟨(_, u), hm', rfl⟩))]
        exact a1
      · simp only [List.mem_singleton, Prod.mk.injEq] at hm'
        obtain ⟨rfl, rfl⟩ := hm'
        exact ⟨v, x, h3, h4, h5⟩
    · intro sy hm
      rw [hD.gv, Map.get?_insert] at hm
      rw [List.map_append, List.mem_append]
      split at hm
      · rename_i he; subst he; simp
      · exact .inl (hK.noVars sy hm)
    · intro g us u hm
      obtain ⟨c, a1, a2⟩ := hK.fns g us u hm
      exact ⟨c, by rw [hD.gf]; exact a1, hD.ext.funcTy a2⟩
    · intro g hm
      rw [hD.gf] at hm
      exact hK.noFns g hm
  | @funDecl gs gv gf name params ret ts r _ hn hv hf ht hr' ih =>
    intro k hr
    rw [globalSizes_snoc, Nat.add_assoc] at hr
    obtain ⟨s1, h1, hK, hr1⟩ := ih (fun g hg => hc g (by simp [hg])) hr
    obtain ⟨s2, h2, h3⟩ := buildFunDecl_run hr1.1 hn (hK.newVar hv) (hK.newFun hf) ht hr'
    have hD := h2.buildFunDecl hr1.1
    refine ⟨s2, h1.snoc h2, hK.addFn hD.ext hD.gv hD.gf hf ?_, hD.inv, ?_⟩
    · obtain ⟨fd, a1, a2⟩ := hD.fn
      obtain ⟨ts', r', a3, a4, a5⟩ := a2.hasTy
      refine ⟨fd, a1, ?_⟩
      have e1 : ts' = ts := Option.some.inj ((genTypes_complete a4).symm.trans (genTypes_complete ht))
      have e2 : r' = r := Option.some.inj ((genRetType_complete a5).symm.trans (genRetType_complete hr'))
      rw [a3, e1, e2]
    · rw [h3]; exact (by have := hr1.2; simp only [globalSize] at this; omega)
  | @funDef gs gv gf name params ret bbs order ts r _ hn hv hf hok ih =>
    intro k hr
    rw [globalSizes_snoc, Nat.add_assoc] at hr
    obtain ⟨s1, h1, hK, hr1⟩ := ih (fun g hg => hc g (by simp [hg])) hr
    obtain ⟨s2, h2⟩ := buildFunDef_run hr1.1 hn (hK.newVar hv) (hK.newFun hf) hK.vars hK.noVars hK.fns hok
    have hD := h2.buildFunDef hr1.1 (hc (.funDef name params ret bbs) (by simp))
    refine ⟨s2, h1.snoc h2, hK.addFn hD.ext hD.gv hD.gf hf ?_, hD.inv, ?_⟩
    · obtain ⟨fd, r', order', a1, a2⟩ := hD.fn
      obtain ⟨ts', a3, a4⟩ := a2.hasTy
      refine ⟨fd, a1, ?_⟩
      have e1 : ts' = ts := Option.some.inj ((genTypes_complete a4).symm.trans (genTypes_complete hok.paramTys))
      have e2 : r' = r := Option.some.inj ((genRetType_complete a2.hasRet).symm.trans (genRetType_complete hok.retTy))
      rw [a3, e1, e2]
    · rw [hD.globals]; exact (by have := hr1.2; simp only [globalSize] at this; omega)

end Koopa
