import Verif.Lemmas.Front.ElabStmt
/-!
When the operations that build programs do not panic, and what they do then.
-/
namespace Koopa
open Spec

theorem Spec.All2.memL {α β : Type} {R : α → β → Prop} {as : List α} {bs : List β} (h : All2 R as bs) :
    ∀ a ∈ as, ∃ b ∈ bs, R a b := by
  induction h with
  | nil => simp
  | cons h _ ih =>
    intro a ha
    rcases List.mem_cons.1 ha with rfl | ha
    · exact ⟨_, by simp, h⟩
    · obtain ⟨b, hb, hr⟩ := ih a ha; exact ⟨b, by simp [hb], hr⟩

/-- The operands of a well-typed instruction exist. -/
theorem Spec.InstTy.live {H : Value → Ty → Prop} {P : BB → List Ty → Prop} {F : Func → Ty → Prop}
    {k : VKind} {t : Ty} (h : InstTy H P F k t) :
    (∀ v ∈ operands k, ∃ t, H v t) ∧ ∀ b ∈ targets k, ∃ ts, P b ts := by
  cases h <;> simp only [operands, targets, List.mem_cons, List.mem_append, List.not_mem_nil,
    false_imp_iff, or_false, implies_true, and_true, true_and, and_self]
  case aggregate _ _ h => intro v hv; exact ⟨_, h v hv⟩
  case globalAlloc _ h => rintro v rfl; exact ⟨_, h⟩
  case load h => rintro v rfl; exact ⟨_, h⟩
  case store h1 h2 => rintro v (rfl | rfl) <;> first | exact ⟨_, h1⟩ | exact ⟨_, h2⟩
  case getPtr h1 h2 => rintro v (rfl | rfl) <;> first | exact ⟨_, h1⟩ | exact ⟨_, h2⟩
  case getElemPtr h1 h2 => rintro v (rfl | rfl) <;> first | exact ⟨_, h1⟩ | exact ⟨_, h2⟩
  case binary h1 h2 => rintro v (rfl | rfl) <;> first | exact ⟨_, h1⟩ | exact ⟨_, h2⟩
  case branch h1 h2 h3 h4 h5 _ =>
    refine ⟨?_, ?_⟩
    · rintro v (rfl | h | h)
      · exact ⟨_, h1⟩
      · obtain ⟨t, _, h⟩ := h4.memL v h; exact ⟨t, h⟩
      · obtain ⟨t, _, h⟩ := h5.memL v h; exact ⟨t, h⟩
    · rintro b (rfl | rfl) <;> first | exact ⟨_, h2⟩ | exact ⟨_, h3⟩
  case jump h1 h2 =>
    refine ⟨?_, ?_⟩
    · intro v h; obtain ⟨t, _, h⟩ := h2.memL v h; exact ⟨t, h⟩
    · rintro b rfl; exact ⟨_, h1⟩
  case call h2 h1 => intro v h; obtain ⟨t, _, h⟩ := h2.memL v h; exact ⟨t, h⟩
  case ret _ h => rintro v rfl; exact ⟨_, h⟩

/-- What the builders of function `f` see. -/
def viewQuerier (V : View) (f : Func) : Querier where
  valueType v := (V.val f v).map (·.1)
  isConst v := (V.val f v).map (·.2.2.isConst)
  bbParams b := (V.b f b).map (·.2)
  funcType g := (V.head g).map (·.1)

theorem FInv.querier {p : Program} (hi : FInv p) {f : Func} {fd : FData} (hf : p.funcs.get? f = some fd) :
    (p.ctx fd).querier p.funcTys = viewQuerier p.view f := by
  rw [querier_view hf]
  unfold viewQuerier
  congr 1
  funext g
  exact hi.ft g

theorem hasTy_live {p : Program} {f : Func} {fd : FData} (hf : p.funcs.get? f = some fd) {v : Value} {t : Ty}
    (h : HasTy p f v t) : ((p.ctx fd).data v).isSome := by
  rw [data_isSome_iff]
  obtain ⟨x, h | ⟨fd', hf', h⟩, _⟩ := h
  · left; show (p.values.get? v).isSome; rw [show p.values.get? v = some x from h]; rfl
  · right
    rw [hf] at hf'; cases hf'
    show (fd.dfg.values.get? v).isSome; rw [h]; rfl

theorem view_head_isSome {p : Program} {f : Func} (h : (p.view.head f).isSome) :
    ∃ fd, p.funcs.get? f = some fd := by
  cases hf : p.funcs.get? f with
  | none => simp [Program.view, hf] at h
  | some fd => exact ⟨fd, rfl⟩

/-- If the builder accepts, the value is created. -/
theorem newLocal_total {p : Program} (hi : FInv p) {f : Func} {i : LocalInst} {data : VData}
    (hh : (p.view.head f).isSome) (hr : i.notRaw) (hb : i.build (viewQuerier p.view f) = some data) :
    ∃ p', p.newLocal f i = some (p', p.ids.nextLocal) := by
  obtain ⟨fd, hf⟩ := view_head_isSome hh
  rw [← hi.querier hf] at hb
  have ht := LocalInst.build_typed hi.reach.linv hf hr hb
  obtain ⟨h1, h2⟩ := ht.live
  unfold Program.newLocal Program.newLocalData Program.onDfg
  rw [hf]
  simp only [Option.bind_eq_bind, Option.bind_some, hb, hf]
  unfold Ctx.newValueData
  rw [valueUses_eq, bbUses_eq]
  obtain ⟨c1, e1⟩ := addUses_isSome (c := p.ctx fd) (u := p.ids.nextLocal) (vs := operands data.kind)
    (fun v hv => by obtain ⟨t, h⟩ := h1 v hv; exact hasTy_live hf h)
  have k1 := addUses_shape e1
  obtain ⟨c2, e2⟩ := addBbUses_isSome (c := c1) (u := p.ids.nextLocal) (bs := targets data.kind) (by
    intro b hb
    obtain ⟨ts, x, ⟨fd', hf', hx⟩, _⟩ := h2 b hb
    rw [hf] at hf'; cases hf'
    have := k1.b b
    have hx' : (p.ctx fd).d.bbs.get? b = some x := hx
    rw [hx'] at this
    cases hc : c1.d.bbs.get? b with
    | none => rw [hc] at this; simp at this
    | some y => rfl)
  have e1' : Ctx.addUses (Program.ctx { p with ids := { p.ids with nextLocal := p.ids.nextLocal + 1 } } fd)
      p.ids.nextLocal (operands data.kind) = some c1 := e1
  simp only [e1', Option.bind_eq_bind, Option.bind_some, e2]
  exact ⟨_, rfl⟩

/-- Creating a value. -/
theorem newLocal_run {p : Program} (hi : FInv p) {f : Func} {i : LocalInst} {data : VData}
    (hh : (p.view.head f).isSome) (hr : i.notRaw)
    (hb : i.build (viewQuerier p.view f) = some data) :
    ∃ p', p.newLocal f i = some (p', p.ids.nextLocal) ∧ FInv p' ∧ GenExt p p' ∧
      p'.view = { p.view with
        l := fun f' w => if f' = f ∧ w = p.ids.nextLocal then some data.shape else p.view.l f' w
        ids := { p.ids with nextLocal := p.ids.nextLocal + 1 } } := by
  obtain ⟨p', h⟩ := newLocal_total hi hh hr hb
  obtain ⟨fd, data', hf, hb', -, hv⟩ := newLocal_view h
  rw [hi.querier hf, hb, Option.some.injEq] at hb'
  subst hb'
  obtain ⟨h1, h2⟩ := hi.newLocal hr h
  exact ⟨p', h, h1, h2, hv⟩

theorem setName_ok {d : VData} {n : Option Str} (h : validOptName n = true) :
    d.setName n = some { d with name := n } := by
  unfold VData.setName; rw [if_pos h]

/-- Naming a value. -/
theorem setLocalName_run {p : Program} (hi : FInv p) {f : Func} {v : Value} {n : Option Str} {s : Sig}
    (hv : p.view.l f v = some s) (hn : validOptName n = true) :
    ∃ p', p.setLocalName f v n = some p' ∧ FInv p' ∧
      p'.view = { p.view with
        l := fun f' w => if f' = f ∧ w = v then some (s.1, n, s.2.2) else p.view.l f' w } := by
  obtain ⟨x, ⟨fd, hf, hx⟩, rfl⟩ := view_l_iff.1 hv
  have hx' : (p.ctx fd).d.values.get? v = some x := hx
  have h : ∃ p', p.setLocalName f v n = some p' := by
    unfold Program.setLocalName Program.onDfg Ctx.setValueName
    simp only [hf, Option.bind_eq_bind, Option.bind_some, hx', setName_ok hn]
    exact ⟨_, rfl⟩
  obtain ⟨p', h⟩ := h
  obtain ⟨t, n0, k, h1, h2⟩ := setLocalName_view h
  rw [hv] at h1; cases h1
  exact ⟨p', h, hi.setLocalName h, h2⟩

theorem blockParams_ok : ∀ (ps : List (Option Str × Ty)) (c : Ctx) (next i : Nat),
    (∀ q ∈ ps, validOptName q.1 = true) → ∃ c' hs, c.blockParams next i ps = some (c', hs)
  | [], c, next, i, _ => ⟨c, [], rfl⟩
  | (n, t) :: ps, c, next, i, h => by
    have h0 := h (n, t) (by simp)
    have h1 : ∃ c1, c.newValueData next { VData.new t (.blockArgRef i) with name := n } = some c1 := ⟨_, rfl⟩
    obtain ⟨c1, h1⟩ := h1
    obtain ⟨c2, hs, h2⟩ := blockParams_ok ps c1 (next + 1) (i + 1) (fun q hq => h q (by simp [hq]))
    refine ⟨c2, next :: hs, ?_⟩
    simp only [Ctx.blockParams, setName_ok h0, Option.bind_eq_bind, Option.bind_some, h1, h2]

/-- Creating a block. -/
theorem newBb_run {p : Program} (hi : FInv p) {f : Func} {n : Option Str} {ps : List (Option Str × Ty)}
    (hh : (p.view.head f).isSome) (hn : validOptName n = true)
    (hps : ∀ q ∈ ps, validOptName q.1 = true ∧ q.2 ≠ .unit) :
    ∃ p', p.newBbWithParamNames f n ps = some (p', p.ids.nextBb) ∧ FInv p' ∧ Ext p p' ∧
      p'.view = { p.view with
        l := fun f' w => if f' = f then
          (paramSig VKind.blockArgRef p.ids.nextLocal 0 ps w).or (p.view.l f w) else p.view.l f' w
        b := fun f' w => if f' = f ∧ w = p.ids.nextBb then some (n, paramHandles p.ids.nextLocal ps.length)
          else p.view.b f' w
        ids := { p.ids with nextLocal := p.ids.nextLocal + ps.length, nextBb := p.ids.nextBb + 1 } } := by
  obtain ⟨fd, hf⟩ := view_head_isSome hh
  have hu : ps.all (fun q => !q.2.isUnit) = true := by
    rw [List.all_eq_true]
    intro q hq
    have := (hps q hq).2
    cases hq2 : q.2 <;> simp [Ty.isUnit, hq2] at this ⊢
  obtain ⟨c, hs, hc⟩ := blockParams_ok ps (p.ctx fd) p.ids.nextLocal 0 (fun q hq => (hps q hq).1)
  have h : ∃ p', p.newBbWithParamNames f n ps = some (p', p.ids.nextBb) := by
    unfold Program.newBbWithParamNames
    simp only [Koopa.assert, hn, hu, if_true, Option.bind_eq_bind, Option.bind_some, hf, hc]
    exact ⟨_, rfl⟩
  obtain ⟨p', h⟩ := h
  obtain ⟨h1, h2⟩ := hi.newBb h
  obtain ⟨-, -, -, -, h3⟩ := newBbParams_view h
  exact ⟨p', h, h1, h2, h3⟩

theorem paramSig_nil (k : Nat → VKind) (next i : Nat) (w : Value) : paramSig k next i [] w = none := by
  simp [paramSig]

/-- `basic_block` is `basic_block_with_param_names` without parameters. -/
theorem newBb_eq (p : Program) (f : Func) (n : Option Str) :
    p.newBb f n = p.newBbWithParamNames f n [] := by
  unfold Program.newBb Program.newBbWithParamNames Program.onDfg
  simp only [Koopa.assert, Option.bind_eq_bind, List.all_nil, if_true, Ctx.blockParams, Option.bind_some,
    List.length_nil, Nat.add_zero]
  cases validOptName n <;> simp
  cases p.funcs.get? f <;> rfl

/-- Appending a block. -/
theorem pushBb_run {p : Program} (hi : FInv p) {f : Func} {b : BB} {l : Layout}
    (hl : p.view.lay f = some l) (hb : (p.view.b f b).isSome) (hn : b ∉ l.bbs.map (·.1)) :
    ∃ p', p.pushBb f b = some p' ∧ FInv p' ∧ Ext p p' ∧
      p'.view = { p.view with
        lay := fun f' => if f' = f then some { l with bbs := l.bbs ++ [(b, [])] } else p.view.lay f' } := by
  obtain ⟨fd, hf, he⟩ : ∃ fd, p.funcs.get? f = some fd ∧ fd.layout = l := by
    simpa [Program.view] using hl
  have h : ∃ p', p.pushBb f b = some p' := by
    unfold Program.pushBb Program.onLayout
    simp only [hf, Option.bind_eq_bind, Option.bind_some, he]
    unfold Layout.insertBb Layout.insts?
    rw [lookup_eq_none_iff.2 hn]
    exact ⟨_, rfl⟩
  obtain ⟨p', h⟩ := h
  obtain ⟨h1, h2⟩ := hi.pushBb hb h
  obtain ⟨l', h3, -, h4⟩ := pushBb_view h
  rw [hl] at h3; cases h3
  exact ⟨p', h, h1, h2, h4⟩

/-- Appending an instruction. -/
theorem pushInst_run {p : Program} (hi : FInv p) {f : Func} {b : BB} {v : Value} {l : Layout} {is : List Value}
    (hl : p.view.lay f = some l) (his : (b, is) ∈ l.bbs) (hv : (p.view.l f v).isSome)
    (hn : ∀ b' is', (b', is') ∈ l.bbs → v ∉ is') :
    ∃ p', p.pushInst f b v = some p' ∧ FInv p' ∧ Ext p p' ∧
      p'.view = { p.view with
        lay := fun f' => if f' = f then
          some { bbs := setInsts b (is ++ [v]) l.bbs, instBb := l.instBb.insert v b }
          else p.view.lay f' } := by
  obtain ⟨fd, hf, he⟩ : ∃ fd, p.funcs.get? f = some fd ∧ fd.layout = l := by
    simpa [Program.view] using hl
  have his' := ((hi.lays f l hl).1.insts?_iff).2 his
  have h : ∃ p', p.pushInst f b v = some p' := by
    unfold Program.pushInst Program.onLayout
    simp only [hf, Option.bind_eq_bind, Option.bind_some, he, his', Layout.insertInst, if_neg (hn b is his)]
    exact ⟨_, rfl⟩
  obtain ⟨p', h⟩ := h
  obtain ⟨h1, h2⟩ := hi.pushInst hv (by
    intro l' b' is' hl' hm
    rw [hl] at hl'; cases hl'; exact hn b' is' hm) h
  obtain ⟨l', is', h3, h5, -, h4⟩ := pushInst_view h
  rw [hl] at h3; cases h3
  rw [his'] at h5; cases h5
  exact ⟨p', h, h1, h2, h4⟩

/-! ### Globals and functions -/

theorem addGlobalUses_isSome {u : Value} : ∀ (vs : List Value) (g : Map Value VData),
    (∀ v ∈ vs, (g.get? v).isSome) → ∃ g', addGlobalUses u g vs = some g'
  | [], g, _ => ⟨g, rfl⟩
  | v :: vs, g, h => by
    obtain ⟨x, hx⟩ := Option.isSome_iff_exists.1 (h v (by simp))
    obtain ⟨g', hg⟩ := addGlobalUses_isSome (u := u) vs (g.insert v (x.addUser u)) (fun w hw => by
      rw [Map.get?_insert]; split
      · rfl
      · exact h w (by simp [hw]))
    exact ⟨g', by simp only [addGlobalUses, hx, hg]⟩

/-- What the global builders see. -/
def viewGlobalQuerier (V : View) : Querier where
  valueType v := (V.g v).map (·.1)
  isConst v := (V.g v).map (·.2.2.isConst)
  bbParams _ := none
  funcType _ := none

theorem newGlobal_run {p : Program} (hi : FInv p) {i : GlobalInst} {data : VData} (hr : i.notRaw)
    (hb : i.build (viewGlobalQuerier p.view) = some data) (hm : p.ids.nextGlobal < localStart) :
    ∃ p', p.newGlobal i = some (p', p.ids.nextGlobal) ∧ FInv p' ∧ Ext p p' ∧
      p'.view = { p.view with
        g := fun w => if w = p.ids.nextGlobal then some data.shape else p.view.g w
        insts := if data.kind.isGlobalAlloc then p.view.insts ++ [p.ids.nextGlobal] else p.view.insts
        ids := { p.ids with nextGlobal := p.ids.nextGlobal + 1 } } := by
  have hb' : i.build (globalQuerier p.values) = some data := by rw [globalQuerier_view]; exact hb
  have hlive := (GlobalInst.build_typed hr hb').live.1
  obtain ⟨g, hg⟩ := addGlobalUses_isSome (u := p.ids.nextGlobal) (operands data.kind) p.values (fun v hv => by
    obtain ⟨t, x, hx, _⟩ := hlive v hv
    rw [show p.values.get? v = some x from hx]; rfl)
  have h : ∃ p', p.newGlobal i = some (p', p.ids.nextGlobal) := by
    unfold Program.newGlobal Program.newGlobalData
    rw [hb']
    simp only [Option.bind_eq_bind, Option.bind_some]
    rw [valueUses_eq, hg]
    exact ⟨_, rfl⟩
  obtain ⟨p', h⟩ := h
  obtain ⟨data', h1, -, h2⟩ := newGlobal_view h
  rw [hb'] at h1; cases h1
  have hids : p'.ids = { p.ids with nextGlobal := p.ids.nextGlobal + 1 } := congrArg View.ids h2
  obtain ⟨h3, h4⟩ := hi.newGlobal hr h (by rw [hids]; exact hm)
  exact ⟨p', h, h3, h4, h2⟩

theorem setGlobalName_run {p : Program} (hi : FInv p) {v : Value} {n : Option Str} {s : Sig}
    (hv : p.view.g v = some s) (hn : validOptName n = true) :
    ∃ p', p.setGlobalName v n = some p' ∧ FInv p' ∧
      p'.view = { p.view with g := fun w => if w = v then some (s.1, n, s.2.2) else p.view.g w } := by
  obtain ⟨x, hx, rfl⟩ := view_g_iff.1 hv
  have hx' : p.values.get? v = some x := hx
  have h : ∃ p', p.setGlobalName v n = some p' := by
    unfold Program.setGlobalName
    simp only [Option.bind_eq_bind, hx', Option.bind_some, setName_ok hn]
    exact ⟨_, rfl⟩
  obtain ⟨p', h⟩ := h
  obtain ⟨t, n0, k, h1, h2⟩ := setGlobalName_view h
  rw [hv] at h1; cases h1
  exact ⟨p', h, hi.setGlobalName h, h2⟩

theorem funcParams_ok : ∀ (ps : List (Option Str × Ty)) (vs : Map Value VData) (next i : Nat),
    (∀ q ∈ ps, validOptName q.1 = true) → ∃ vs' hs, funcParams vs next i ps = some (vs', hs)
  | [], vs, next, i, _ => ⟨vs, [], rfl⟩
  | (n, t) :: ps, vs, next, i, h => by
    have h0 := h (n, t) (by simp)
    obtain ⟨c2, hs, h2⟩ := funcParams_ok ps
      (vs.insert next { VData.new t (.funcArgRef i) with name := n }) (next + 1) (i + 1)
      (fun q hq => h q (by simp [hq]))
    refine ⟨c2, next :: hs, ?_⟩
    simp only [funcParams, setName_ok h0, Option.bind_eq_bind, Option.bind_some, h2]

theorem checkSanity_ok {n : Str} {ts : List Ty} (hn : validName n = true) (ht : ∀ t ∈ ts, t ≠ .unit) :
    checkSanity n ts = some () := by
  unfold checkSanity
  have hu : ts.all (fun t => !t.isUnit) = true := by
    rw [List.all_eq_true]
    intro q hq
    have := ht q hq
    cases q <;> simp [Ty.isUnit] at this ⊢
  simp [Koopa.assert, hn, hu]

theorem newFuncDef_run {p : Program} (hi : FInv p) {n : Str} {ps : List (Option Str × Ty)} {r : Ty}
    (hn : validName n = true) (hps : ∀ q ∈ ps, validOptName q.1 = true ∧ q.2 ≠ .unit) :
    ∃ p', p.newFuncDefWithParamNames n ps r = some (p', p.ids.nextFunc) ∧ FInv p' ∧ Ext p p' ∧
      p'.view = { p.view with
        l := fun f' w => if f' = p.ids.nextFunc then paramSig VKind.funcArgRef p.ids.nextLocal 0 ps w
          else p.view.l f' w
        b := fun f' w => if f' = p.ids.nextFunc then none else p.view.b f' w
        head := fun f' => if f' = p.ids.nextFunc then
          some (.func (ps.map (·.2)) r, n, paramHandles p.ids.nextLocal ps.length) else p.view.head f'
        lay := fun f' => if f' = p.ids.nextFunc then some Layout.new else p.view.lay f'
        fns := p.view.fns ++ [p.ids.nextFunc]
        ft := fun f' => if f' = p.ids.nextFunc then some (.func (ps.map (·.2)) r) else p.view.ft f'
        ids := { p.ids with nextLocal := p.ids.nextLocal + ps.length, nextFunc := p.ids.nextFunc + 1 } } := by
  obtain ⟨vs, hs, hp⟩ := funcParams_ok ps .empty p.ids.nextLocal 0 (fun q hq => (hps q hq).1)
  have hc : checkSanity n (ps.map (·.2)) = some () := checkSanity_ok hn (by
    intro t ht
    obtain ⟨q, hq, rfl⟩ := List.mem_map.1 ht
    exact (hps q hq).2)
  have h : ∃ p', p.newFuncDefWithParamNames n ps r = some (p', p.ids.nextFunc) := by
    unfold Program.newFuncDefWithParamNames
    simp only [hc, Option.bind_eq_bind, Option.bind_some, hp]
    exact ⟨_, rfl⟩
  obtain ⟨p', h⟩ := h
  obtain ⟨h1, h2⟩ := hi.newFuncDef h
  obtain ⟨-, -, -, h3⟩ := newFuncDef_view h
  exact ⟨p', h, h1, h2, h3⟩

theorem newFuncDecl_run {p : Program} (hi : FInv p) {n : Str} {ps : List Ty} {r : Ty}
    (hn : validName n = true) (hps : ∀ t ∈ ps, t ≠ .unit) :
    ∃ p', p.newFuncDecl n ps r = some (p', p.ids.nextFunc) ∧ FInv p' ∧ Ext p p' ∧
      p'.view = { p.view with
        l := fun f' w => if f' = p.ids.nextFunc then none else p.view.l f' w
        b := fun f' w => if f' = p.ids.nextFunc then none else p.view.b f' w
        head := fun f' => if f' = p.ids.nextFunc then some (.func ps r, n, []) else p.view.head f'
        lay := fun f' => if f' = p.ids.nextFunc then some Layout.new else p.view.lay f'
        fns := p.view.fns ++ [p.ids.nextFunc]
        ft := fun f' => if f' = p.ids.nextFunc then some (.func ps r) else p.view.ft f'
        ids := { p.ids with nextFunc := p.ids.nextFunc + 1 } } := by
  have h : ∃ p', p.newFuncDecl n ps r = some (p', p.ids.nextFunc) := by
    unfold Program.newFuncDecl
    simp only [checkSanity_ok hn hps, Option.bind_eq_bind, Option.bind_some]
    exact ⟨_, rfl⟩
  obtain ⟨p', h⟩ := h
  obtain ⟨h1, h2⟩ := hi.newFuncDecl h
  obtain ⟨-, -, -, h3⟩ := newFuncDecl_view h
  exact ⟨p', h, h1, h2, h3⟩

end Koopa
