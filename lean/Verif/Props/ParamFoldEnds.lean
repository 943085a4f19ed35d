import Verif.Props.FoldEnds
/-!
C67: when folding the parameters does not panic.
-/
namespace Koopa
open Spec ConstFold

/-- Every block with parameters is the target of some instruction, and arguments for blocks are values of the function. -/
structure Spec.ParamsFed (p : Program) (f : Func) : Prop where
  used : ∀ b x, Block p f b x → x.params ≠ [] → ∃ u, Targets p f u b
  args : ∀ u x b as, LocalVal p f u x → (b, as) ∈ transfers x.kind → ∀ a ∈ as, ∃ y, LocalVal p f a y

/-- The data of a constant of `f`. -/
def ConstFold.ConstData (p : Program) (f : Func) (x : VData) : Prop := ∃ v y, LocalVal p f v y ∧ y.kind.isConst = true ∧ x.ty = y.ty ∧ x.kind = y.kind

theorem usesEq_total {rec : Value → Value → Option Bool} : ∀ {l r : List Value}, (∀ a ∈ l, ∀ b ∈ r, ∃ x, rec a b = some x) → ∃ x, usesEq rec l r = some x
  | [], r, _ => ⟨true, by cases r <;> rfl⟩
  | a :: l, [], _ => ⟨true, rfl⟩
  | a :: l, b :: r, h => by
    obtain ⟨x, hx⟩ := h a (by simp) b (by simp)
    unfold usesEq
    rw [hx]
    cases x with
    | true => exact usesEq_total (fun a ha b hb => h a (by simp [ha]) b (by simp [hb]))
    | false => exact ⟨false, rfl⟩

/-- The elements of an aggregate are constants of a smaller type. -/
theorem elem_data {p : Program} {f : Func} (hi : CInv p) (hW : Whole p f) {x : VData} (hx : ConstData p f x) {es : List Value} (hk : x.kind = .aggregate es)
    {e : Value} (he : e ∈ es) : ∃ y, LocalVal p f e y ∧ y.kind.isConst = true ∧ sizeOf y.ty < sizeOf x.ty := by
  obtain ⟨v, x0, hx0, -, h1, h2⟩ := hx
  have hk0 : x0.kind = .aggregate es := by rw [← h2]; exact hk
  have hT := hi.wellTyped.locals f v x0 hx0
  obtain ⟨t', m', k, h3, h4⟩ := hW.elems v x0.ty x0.name es (by rw [← hk0]; exact view_l_iff.2 ⟨x0, hx0, rfl⟩) e he
  obtain ⟨y, hy, ey⟩ := view_l_iff.1 h3
  have hyk : y.kind = k := congrArg (·.2.2) ey
  refine ⟨y, hy, by rw [hyk]; exact h4, ?_⟩
  rw [hk0] at hT
  rw [h1]
  generalize hty : x0.ty = T at hT
  cases hT with
  | @aggregate _ t _ _ hes =>
    obtain ⟨z, hz | hz, rfl⟩ := hes e he
    · have := hi.isLocal hy
      rw [hi.isGlobal hz] at this; cases this
    · cases localVal_unique hy hz
      simp only [Ty.array.sizeOf_spec]
      omega

/-- Comparing constants ends. -/
theorem dataEq_total {p : Program} {f : Func} {fd : FData} (hi : CInv p) (hW : Whole p f) (hf : p.funcs.get? f = some fd) : ∀ (n : Nat) {x y : VData},
    sizeOf x.ty ≤ n → ConstData p f x → ConstData p f y → ∃ r, dataEqWith ((p.ctx fd).valueEq n) x y = some r
  | n, x, y, hn, hx, hy => by
    have hkx : x.kind.isConst = true := by obtain ⟨_, _, _, h, _, e⟩ := hx; rw [e]; exact h
    have hky : y.kind.isConst = true := by obtain ⟨_, _, _, h, _, e⟩ := hy; rw [e]; exact h
    unfold dataEqWith
    split
    · exact ⟨_, rfl⟩
    · have key : ∀ l r, x.kind = .aggregate l → y.kind = .aggregate r → ∃ s, usesEq ((p.ctx fd).valueEq n) l r = some s := by
        intro l r hl hr
        refine usesEq_total (fun a ha b hb => ?_)
        obtain ⟨da, hda, hka, hsa⟩ := elem_data hi hW hx hl ha
        obtain ⟨db, hdb, hkb, -⟩ := elem_data hi hW hy hr hb
        match n, hn with
        | 0, hn => omega
        | n + 1, hn =>
          unfold Ctx.valueEq
          rw [ctx_local hi hf (local_get hf hda), ctx_local hi hf (local_get hf hdb)]
          exact dataEq_total hi hW hf n (by omega) ⟨a, da, hda, hka, rfl, rfl⟩ ⟨b, db, hdb, hkb, rfl, rfl⟩
      cases h1 : x.kind <;> rw [h1] at hkx <;> (first | (cases hkx; done) | skip) <;>
        cases h2 : y.kind <;> rw [h2] at hky <;> (first | (cases hky; done) | skip) <;>
        dsimp only <;> first
        | exact ⟨_, rfl⟩
        | (split
           · exact ⟨_, rfl⟩
           · first
             | exact ⟨_, rfl⟩
             | (obtain ⟨s, hs⟩ := key _ _ h1 h2; rw [valueUses_eq, valueUses_eq]; exact ⟨s, hs⟩))

/-- The loop over the users ends. -/
theorem constArg_total {p : Program} {f : Func} {fd : FData} (hi : CInv p) (hW : Whole p f) (hf : p.funcs.get? f = some fd) {n : Nat}
    (hn : ∀ v x, LocalVal p f v x → sizeOf x.ty ≤ n) {b : BB} {i : Nat} : ∀ {us : List Value} {ans : Option VData},
    (∀ u ∈ us, ∃ a d, argAt fd b i u = some a ∧ fd.dfg.values.get? a = some d) → (∀ d, ans = some d → ConstData p f d) → (us ≠ [] ∨ ans ≠ none) →
    ∃ r, constArg (p.ctx fd) n fd b i us ans = some r
  | [], none, _, _, h => by rcases h with h | h <;> exact absurd rfl h
  | [], some d, _, _, _ => ⟨some d, rfl⟩
  | u :: us, ans, hu, ha, _ => by
    obtain ⟨a, d, h1, h2⟩ := hu u (by simp)
    unfold constArg
    rw [h1]
    dsimp only
    rw [h2]
    dsimp only
    split
    · rename_i hk
      have hd : ConstData p f d.clone := ⟨a, d, ⟨fd, hf, h2⟩, hk, rfl, rfl⟩
      have ih := constArg_total hi hW hf hn (b := b) (i := i) (us := us) (ans := some d.clone) (fun u h => hu u (by simp [h]))
        (fun d' e => by cases e; exact hd) (.inr (by intro e; cases e))
      cases ans with
      | none => exact ih
      | some v =>
        dsimp only
        obtain ⟨v0, y0, hy0, -, e1, -⟩ := ha v rfl
        obtain ⟨r, hr⟩ := dataEq_total hi hW hf n (x := v) (y := d) (by rw [e1]; exact hn _ _ hy0) (ha v rfl) ⟨a, d, ⟨fd, hf, h2⟩, hk, rfl, rfl⟩
        rw [hr]
        cases r with
        | true => exact ih
        | false => exact ⟨_, rfl⟩
    · exact ⟨_, rfl⟩

/-- A user of a block passes an argument for every parameter. -/
theorem argAt_total {p : Program} {f : Func} {fd : FData} (hi : CInv p) (hP : ParamsFed p f) (hf : p.funcs.get? f = some fd) {b : BB} {x : BData}
    (hx : fd.dfg.bbs.get? b = some x) {i : Nat} (hi' : i < x.params.length) {u : Value} (hu : Targets p f u b) :
    ∃ a d, argAt fd b i u = some a ∧ fd.dfg.values.get? a = some d := by
  obtain ⟨du, hdu, ht⟩ := hu
  have hlen : ∀ ts, ParamTys p f b ts → i < ts.length := by
    rintro ts ⟨y, hy, hall⟩
    have := block_get hf hy
    rw [hx] at this; cases this
    rw [← hall.length]; exact hi'
  have hloc : ∀ as, (b, as) ∈ transfers du.kind → i < as.length → ∃ a d, as[i]? = some a ∧ fd.dfg.values.get? a = some d := by
    intro as has hl
    obtain ⟨y, hy⟩ := hP.args u du b as hdu has _ (List.getElem_mem hl)
    exact ⟨_, y, List.getElem?_eq_getElem hl, local_get hf hy⟩
  have hty := hi.wellTyped.locals f u du hdu
  unfold argAt
  rw [local_get hf hdu]
  dsimp only
  generalize du.ty = T at hty
  generalize du.kind = K at hty ht hloc
  cases hty with
  | branch h1 h2 h3 h4 h5 h6 =>
    rename_i c t e ta fa ts fs
    simp only [targets, List.mem_cons, List.not_mem_nil, or_false] at ht
    dsimp only
    split
    · rename_i e'
      subst e'
      exact hloc ta (by simp [transfers]) (by rw [h4.length]; exact hlen _ h2)
    · rename_i hne
      rcases ht with rfl | rfl
      · exact absurd rfl hne
      · exact hloc fa (by simp [transfers]) (by rw [h5.length]; exact hlen _ h3)
  | jump h1 h2 =>
    simp only [targets, List.mem_cons, List.not_mem_nil, or_false] at ht
    subst ht
    dsimp only
    exact hloc _ (by simp [transfers]) (by rw [h2.length]; exact hlen _ h1)
  | _ => cases ht

theorem evalParams_total {c : Ctx} {n : Nat} {fd : FData} {b : BB} {users : List Value} : ∀ {is : List Nat},
    (∀ i ∈ is, ∃ r, constArg c n fd b i users none = some r) → ∃ r, evalParams c n fd b users is = some r
  | [], _ => ⟨[], rfl⟩
  | i :: is, h => by
    obtain ⟨r, hr⟩ := h i (by simp)
    obtain ⟨s, hs⟩ := evalParams_total (is := is) (fun i hi => h i (by simp [hi]))
    unfold evalParams
    rw [hr]
    cases r with
    | none => exact ⟨s, hs⟩
    | some d => exact ⟨(i, d) :: s, by rw [hs]; rfl⟩

/-- Looking for constant parameters ends. -/
theorem evalBbs_total {p : Program} {f : Func} {fd : FData} (hi : CInv p) (hW : Whole p f) (hP : ParamsFed p f) (hf : p.funcs.get? f = some fd) {n : Nat}
    (hn : ∀ v x, LocalVal p f v x → sizeOf x.ty ≤ n) {us : List Value → List Value} (hus : ∀ l v, v ∈ us l ↔ v ∈ l) : ∀ {bs : List BB},
    ∃ l, evalBbs (p.ctx fd) n fd us bs = some l
  | [] => ⟨[], rfl⟩
  | b :: bs => by
    obtain ⟨l, hl⟩ := evalBbs_total hi hW hP hf hn hus (bs := bs)
    unfold evalBbs
    split
    · exact ⟨l, hl⟩
    · rename_i x hx
      obtain ⟨ev, hev⟩ := evalParams_total (c := p.ctx fd) (n := n) (fd := fd) (b := b) (users := us x.usedBy) (is := List.range x.params.length) (fun i h => by
        have hlt := List.mem_range.1 h
        have huse := hi.inv.blockUses f b x ⟨fd, hf, hx⟩
        refine constArg_total hi hW hf hn (fun u hu => argAt_total hi hP hf hx hlt ((huse u).1 ((hus _ _).1 hu))) (fun d e => by cases e) (.inl (fun e => ?_))
        obtain ⟨u, hu⟩ := hP.used b x ⟨fd, hf, hx⟩ (fun e => by rw [e] at hlt; cases hlt)
        have := (hus _ u).2 ((huse u).2 hu)
        rw [e] at this; cases this)
      rw [hev]
      cases ev with
      | nil => exact ⟨l, hl⟩
      | cons q ev => exact ⟨_, by dsimp only; rw [hl]; rfl⟩

/-- One parameter is replaced. -/
theorem replaceParam_total {p q : Program} {f : Func} {fd : FData} {E : List (BB × Nat × VData)} {b : BB} {i : Nat} {d : VData} (hi : CInv p) (hF : Foldable p f)
    (hW : Whole p f) (hf : p.funcs.get? f = some fd) (hS : Sound p f fd E) (hm : Mid p q f E) (hr : Reach (fun p op => op.Ok p ∧ op.NoRemoveFunc) q)
    (hmax : q.ids.nextGlobal ≤ localStart) (hb : ∃ n ps x, p.view.b f b = some (n, ps) ∧ ps[i]? = some x) (hnew : ∀ d, (b, i, d) ∉ E) (hd : ConstData p f d) :
    ∃ q', replaceParam f b i d q = some q' := by
  obtain ⟨n, ps, x, hb, hx⟩ := hb
  obtain ⟨ps', hb', hlen, hps⟩ := hm.blocks b n ps hb
  have hx' : ps'[i]? = some x := by
    rcases hps i x hx with ⟨_, e⟩ | ⟨d', y, e, _⟩
    · exact e
    · exact absurd e (hnew d')
  obtain ⟨t, m, j, hxl⟩ := hF.params b n ps hb x (List.mem_of_getElem? hx)
  have hsx : q.view.l f x = p.view.l f x := hm.same x (hi.lRange hxl).2 (fun b2 n2 ps2 i2 d2 he hb2 hx2 => by
    have := hF.apart b b2 n n2 ps ps2 x hb hb2 (List.mem_of_getElem? hx) (List.mem_of_getElem? hx2)
    subst this
    rw [hb] at hb2
    obtain ⟨rfl, rfl⟩ : n = n2 ∧ ps = ps2 := by simpa using hb2
    have := hF.once b n ps hb i i2 x hx hx2
    subst this
    exact hnew d2 he)
  obtain ⟨B, ⟨fq, hfq, hB⟩, -, hBp⟩ := view_b_iff.1 hb'
  rw [hxl] at hsx
  obtain ⟨param, hparam, eparam⟩ := view_l_iff.1 hsx
  have hpk : param.kind = .blockArgRef j := congrArg (·.2.2) eparam
  have hpg := local_get hfq hparam
  have hxB : B.params[i]? = some x := by rw [hBp]; exact hx'
  have hops : ∀ w ∈ operands d.kind, w ≠ x ∧ ((q.ctx fq).data w).isSome := by
    intro w hw
    have hdk : d.kind.isConst = true := by obtain ⟨_, _, _, h, _, e⟩ := hd; rw [e]; exact h
    obtain ⟨es, hes⟩ : ∃ es, d.kind = .aggregate es := by
      cases hk : d.kind <;> rw [hk] at hdk hw <;> first | (cases hdk; done) | (cases hw; done) | exact ⟨_, rfl⟩
    rw [hes] at hw
    obtain ⟨y, hy, hyk, -⟩ := elem_data hi hW hd hes hw
    have hyv : p.view.l f w = some (y.ty, y.name, y.kind) := view_l_iff.2 ⟨y, hy, rfl⟩
    refine ⟨?_, ?_⟩
    · rintro rfl
      rw [hxl] at hyv
      have : y.kind = .blockArgRef j := (congrArg (·.2.2) (Option.some.inj hyv)).symm
      rw [this] at hyk; cases hyk
    · obtain ⟨n', k', h1, -⟩ := hm.typesKept hi hF hf hS hyv
      obtain ⟨z, hz, -⟩ := view_l_iff.1 h1
      exact hasTy_live hfq ⟨z, .inr hz, rfl⟩
  have htgt : ∀ c ∈ targets d.kind, (fq.dfg.bbs.get? c).isSome := by
    intro c hc
    have hdk : d.kind.isConst = true := by obtain ⟨_, _, _, h, _, e⟩ := hd; rw [e]; exact h
    cases hk : d.kind <;> rw [hk] at hdk hc <;> first | (cases hdk; done) | (cases hc; done)
  obtain ⟨c, hc⟩ := (hr.invExact hmax).replace_total (data := d) hfq hpg hops htgt
  have h1 : q.replaceLocal f x (.val (.raw d)) = some (q.putCtx f fq c) := by
    have hbuild : (LocalInst.val (.raw d)).build ((q.ctx fq).querier q.funcTys) = some d := rfl
    simp only [Program.replaceLocal, Program.onDfg, hfq, hbuild, hc, Option.bind_eq_bind, Option.bind_some]
  generalize q.putCtx f fq c = q1 at h1
  obtain ⟨_, _, _, hfq', -, -, hv1⟩ := replaceLocal_view h1
  have hf1 : ∃ f1, q1.funcs.get? f = some f1 := by
    have : q1.view.head f = q.view.head f := by rw [hv1]
    simp only [Program.view, hfq, Option.map_some] at this
    obtain ⟨f1, h, -⟩ := Option.map_eq_some_iff.1 this
    exact ⟨f1, h⟩
  obtain ⟨f1, hf1⟩ := hf1
  obtain ⟨q2, w, h2⟩ : ∃ q2 w, q1.newLocal f (.val (.raw param.clone)) = some (q2, w) := by
    have hbuild : (LocalInst.val (.raw param.clone)).build ((q1.ctx f1).querier q1.funcTys) = some param.clone := rfl
    have hk : param.clone.kind = .blockArgRef j := hpk
    have hv : param.clone.kind.valueUses = [] := by rw [hk]; rfl
    have hbu : param.clone.kind.bbUses = [] := by rw [hk]; rfl
    unfold Program.newLocal Program.newLocalData Program.onDfg Ctx.newValueData
    simp only [hf1, hbuild, Option.bind_eq_bind, Option.bind_some, hv, hbu]
    exact ⟨_, _, rfl⟩
  obtain ⟨_, _, -, -, -, hv2⟩ := newLocal_view h2
  have hb2 : q2.view.b f b = some (n, ps') := by rw [hv2, hv1]; exact hb'
  obtain ⟨B2, ⟨f2, hf2, hB2⟩, -, -⟩ := view_b_iff.1 hb2
  refine ⟨{ q2.putCtx f f2 { (q2.ctx f2) with d := { (q2.ctx f2).d with bbs := (q2.ctx f2).d.bbs.insert b { B2 with params := B2.params.set i w } } } with ids := q2.ids }, ?_⟩
  have hB2' : (q2.ctx f2).d.bbs.get? b = some B2 := hB2
  simp only [replaceParam, hfq, hB, hxB, hpg, h1, h2, hf2, hB2, Option.bind_eq_bind, Option.bind_some, Program.setBbParams, Program.onDfg, Ctx.setBbParams,
    Ctx.modBb, hB2']
  rfl

theorem ConstFold.Sound.mono {p : Program} {f : Func} {fd : FData} {E E' : List (BB × Nat × VData)} (h : Sound p f fd E) (hs : ∀ e ∈ E', e ∈ E) : Sound p f fd E' :=
  ⟨fun b i d hm => h.live b i d (hs _ hm), fun b i d hm => h.passed b i d (hs _ hm), fun b i d hm => h.from_ b i d (hs _ hm)⟩

theorem replaceFlat_total {p : Program} {f : Func} {fd : FData} (hi : CInv p) (hF : Foldable p f) (hW : Whole p f) (hf : p.funcs.get? f = some fd) :
    ∀ {E E0 : List (BB × Nat × VData)} {q : Program}, Mid p q f E0 → Sound p f fd (E0 ++ E) → ((E0 ++ E).map (fun e => (e.1, e.2.1))).Nodup →
    Reach (fun p op => op.Ok p ∧ op.NoRemoveFunc) q → q.ids.nextGlobal ≤ localStart → ∃ q', replaceFlat f E q = some q'
  | [], E0, q, _, _, _, _, _ => ⟨q, rfl⟩
  | (b, i, d) :: E, E0, q, hm, hS, hn, hr, hmax => by
    have hnew : ∀ d, (b, i, d) ∉ E0 := by
      intro d' hd'
      rw [List.map_append, List.nodup_append] at hn
      exact hn.2.2 (b, i) (List.mem_map.2 ⟨_, hd', rfl⟩) (b, i) (by simp) rfl
    have hlive := hS.live b i d (by simp)
    obtain ⟨u, du, as, a, da, -, -, -, k4, k5, k6⟩ := hS.from_ b i d (by simp)
    have hd : ConstData p f d := ⟨a, da, ⟨fd, hf, k4⟩, k5, congrArg (·.1) k6, congrArg (·.2.2) k6⟩
    obtain ⟨q1, h1⟩ := replaceParam_total hi hF hW hf (hS.mono (fun e he => by simp [he])) hm hr hmax hlive hnew hd
    have hone : replaceFlat f [(b, i, d)] q = some q1 := by simp only [replaceFlat, h1]
    obtain ⟨hr1, hg1⟩ := replaceFlat_reach hr hone
    obtain ⟨q', hq'⟩ := replaceFlat_total hi hF hW hf (E := E) (hm.step hi hF hlive hnew h1) (by simpa using hS) (by simpa using hn) hr1 (by rw [hg1]; exact hmax)
    exact ⟨q', by simp only [replaceFlat, h1]; exact hq'⟩

/-- Folding the parameters ends. -/
theorem evalBbParams_total {p : Program} {f : Func} {fd : FData} (hi : CInv p) (hF : Foldable p f) (hW : Whole p f) (hP : ParamsFed p f)
    (hf : p.funcs.get? f = some fd) {n : Nat} (hn : ∀ v x, LocalVal p f v x → sizeOf x.ty ≤ n) {bs : List BB} (hb : bs.Nodup) {us : List Value → List Value}
    (hus : ∀ l v, v ∈ us l ↔ v ∈ l) : ∃ p', evalBbParams f n bs us p = some p' := by
  obtain ⟨l, hl⟩ := evalBbs_total hi hW hP hf hn hus (bs := bs)
  have h0 : Mid p p f [] := ⟨rfl, fun _ _ _ => rfl, fun _ _ _ => rfl, Nat.le_refl _,
    fun b n ps hb => ⟨ps, hb, rfl, fun i x hx => .inl ⟨fun _ h => (by cases h), hx⟩⟩, fun _ _ _ => rfl, fun _ h => h, fun v s hlt h => absurd (hi.lRange h).2 (by omega),
    fun b b' n n' ps ps' i j y hb hb' hx hy hlt => by
      obtain ⟨_, _, _, e⟩ := hF.params b n ps hb y (List.mem_of_getElem? hx)
      exact absurd (hi.lRange e).2 (by omega)⟩
  obtain ⟨p', hp'⟩ := replaceFlat_total hi hF hW hf h0 (evalBbs_sound hi hf hus hl) (evalBbs_nodup hb hl) hi.reach hi.max
  refine ⟨p', ?_⟩
  unfold evalBbParams
  rw [hf]
  dsimp only
  rw [hl]
  dsimp only
  rw [replaceBbs_flat]
  exact hp'

/-- The types of the values of a function are bounded. -/
theorem types_bounded {p : Program} {f : Func} {fd : FData} (hf : p.funcs.get? f = some fd) : ∃ N, ∀ v x, LocalVal p f v x → sizeOf x.ty ≤ N := by
  have key : ∀ l : List Value, ∃ N, ∀ v ∈ l, ∀ x, fd.dfg.values.get? v = some x → sizeOf x.ty ≤ N := by
    intro l
    induction l with
    | nil => exact ⟨0, fun v hv => by cases hv⟩
    | cons w l ih =>
      obtain ⟨N, hN⟩ := ih
      cases hw : fd.dfg.values.get? w with
      | none =>
        refine ⟨N, fun v hv x hx => ?_⟩
        rcases List.mem_cons.1 hv with rfl | hv
        · rw [hw] at hx; cases hx
        · exact hN v hv x hx
      | some y =>
        refine ⟨N + sizeOf y.ty, fun v hv x hx => ?_⟩
        rcases List.mem_cons.1 hv with rfl | hv
        · rw [hw] at hx; cases hx; omega
        · have := hN v hv x hx; omega
  obtain ⟨N, hN⟩ := key fd.dfg.values.keys
  refine ⟨N, fun v x hx => ?_⟩
  have := local_get hf hx
  exact hN v (by rw [Map.mem_keys, this]; rfl) x this

/-- C67: folding the parameters does not panic if every block with parameters is jumped to and no argument for a block is a global, whatever the orders. -/
theorem C67_params_end_partial {w : World} {input : Str} {p0 p : Program} {f : Func} {fd : FData} {chk : Bool} (h : Accepted w input p0)
    (hp : FoldPasses chk p0 p) (hf : p.funcs.get? f = some fd) (hP : ParamsFed p f) :
    ∃ N, ∀ n, N ≤ n → ∀ bs us, bs.Nodup → (∀ l v, v ∈ us l ↔ v ∈ l) → ∃ p', evalBbParams f n bs us p = some p' := by
  obtain ⟨k1, -, k3, -⟩ := FoldPasses_spec h hp
  obtain ⟨N, hN⟩ := types_bounded hf
  exact ⟨N, fun n hn bs us hb hus => evalBbParams_total k1 (k3 f) ((FoldPasses_whole h hp).1 f) hP hf
    (fun v x hx => Nat.le_trans (hN v x hx) hn) hb hus⟩

theorem ConstFold.Light.paramsFed {p p' : Program} (h : Light p p') {f : Func} (hP : ParamsFed p f) : ParamsFed p' f := by
  have hconst : ∀ c, targets (ConstFold.kindOf c) = [] ∧ transfers (ConstFold.kindOf c) = [] := by
    intro c; cases c <;> exact ⟨rfl, rfl⟩
  have hbin : ∀ op a b, targets (.binary op a b) = [] := fun _ _ _ => rfl
  constructor
  · intro b x hb hx
    have hb' : p'.view.b f b = some (x.name, x.params) := view_b_iff.2 ⟨x, hb, rfl, rfl⟩
    rw [h.b] at hb'
    obtain ⟨x0, hb0, -, e⟩ := view_b_iff.1 hb'
    obtain ⟨u, y, hy, ht⟩ := hP.used b x0 hb0 (by rw [e]; exact hx)
    have hyv : p.view.l f u = some (y.ty, y.name, y.kind) := view_l_iff.2 ⟨y, hy, rfl⟩
    rcases h.l f u with e1 | ⟨t', n, op, a, c, ans, e0, -, -⟩
    · rw [hyv] at e1
      obtain ⟨z, hz, ez⟩ := view_l_iff.1 e1
      have : z.kind = y.kind := congrArg (·.2.2) ez
      exact ⟨u, z, hz, by rw [this]; exact ht⟩
    · rw [hyv] at e0
      have : y.kind = .binary op a c := congrArg (·.2.2) (Option.some.inj e0)
      rw [this] at ht; cases ht
  · intro u x b as hx ht a ha
    have hxv : p'.view.l f u = some (x.ty, x.name, x.kind) := view_l_iff.2 ⟨x, hx, rfl⟩
    rcases h.l f u with e1 | ⟨t', n, op, a, c, ans, -, e0, -⟩
    · rw [hxv] at e1
      obtain ⟨z, hz, ez⟩ := view_l_iff.1 e1.symm
      have : z.kind = x.kind := congrArg (·.2.2) ez
      obtain ⟨y, hy⟩ := hP.args u z b as hz (by rw [this]; exact ht) a ha
      have hyv : p.view.l f a = some (y.ty, y.name, y.kind) := view_l_iff.2 ⟨y, hy, rfl⟩
      rcases h.l f a with e2 | ⟨_, _, _, _, _, _, -, e2, -⟩
      · rw [hyv] at e2
        obtain ⟨z, hz, -⟩ := view_l_iff.1 e2
        exact ⟨z, hz⟩
      · obtain ⟨z, hz, -⟩ := view_l_iff.1 e2
        exact ⟨z, hz⟩
    · rw [hxv] at e0
      have : x.kind = ConstFold.kindOf ans := congrArg (·.2.2) (Option.some.inj e0)
      rw [this, (hconst ans).2] at ht; cases ht

/-- C67: without overflow checks, the whole pass on a function ends if the function has no undefined constants and does not divide, every block with
parameters is jumped to, and no argument for a block is a global. -/
theorem C67_pass_total_partial {w : World} {input : Str} {p0 p : Program} {f : Func} {fd : FData} (h : Accepted w input p0) (hp : FoldPasses false p0 p)
    (hf : p.funcs.get? f = some fd) (hD : DividesNot p f) (hP : ParamsFed p f) :
    ∃ N, ∀ n, N ≤ n → ∀ ord rounds bord us, ListsAll ord f → instCount p f < rounds → (∀ q, (bord q).Nodup) → (∀ l v, v ∈ us l ↔ v ∈ l) →
      ∃ p', runOn false f ord rounds n bord us p = some p' := by
  obtain ⟨k1, k2, k3, -⟩ := FoldPasses_spec h hp
  obtain ⟨N, hN⟩ := types_bounded hf
  refine ⟨N + 1, fun n hn ord rounds bord us ho hr hb hus => ?_⟩
  obtain ⟨p1, h1⟩ := C67_fold_total_partial h hp hf ho hr hD
  obtain ⟨i1, -, -, i4⟩ := foldLoop_spec k1 (k2 f) h1
  obtain ⟨f1, hf1⟩ : ∃ f1, p1.funcs.get? f = some f1 := by
    have : p1.view.head f = p.view.head f := by rw [i4.head]
    simp only [Program.view, hf, Option.map_some] at this
    obtain ⟨f1, h, -⟩ := Option.map_eq_some_iff.1 this
    exact ⟨f1, h⟩
  obtain ⟨p', hp'⟩ := evalBbParams_total i1 (i4.foldable (k3 f)) (i4.whole ((FoldPasses_whole h hp).1 f)) (i4.paramsFed hP) hf1 (n := n) (fun v x hx => by
    have hxv : p1.view.l f v = some (x.ty, x.name, x.kind) := view_l_iff.2 ⟨x, hx, rfl⟩
    rcases i4.l f v with e | ⟨_, _, _, _, _, _, -, e, -⟩
    · rw [hxv] at e
      obtain ⟨z, hz, ez⟩ := view_l_iff.1 e.symm
      have e1 : z.ty = x.ty := congrArg (·.1) ez
      have := hN v z hz
      rw [e1] at this; omega
    · rw [hxv] at e
      have e1 : x.ty = .i32 := congrArg (·.1) (Option.some.inj e)
      rw [e1]; simp; omega) (hb p1) hus
  exact ⟨p', by unfold runOn; rw [h1]; exact hp'⟩

/-- Every block with parameters is jumped to and arguments for blocks are values of the function. -/
def fedCheck (p : Program) (f : Func) : Bool :=
  match p.funcs.get? f with
  | none => false
  | some fd => fd.dfg.bbs.keys.all (fun b => match fd.dfg.bbs.get? b with
      | none => true
      | some x => x.params.isEmpty || fd.dfg.values.keys.any (fun u => match fd.dfg.values.get? u with
        | none => false
        | some y => (targets y.kind).contains b)) &&
    fd.dfg.values.keys.all (fun u => match fd.dfg.values.get? u with
      | none => true
      | some y => (transfers y.kind).all (fun e => e.2.all (fun a => (fd.dfg.values.get? a).isSome)))

theorem fedCheck_iff {p : Program} {f : Func} (h : fedCheck p f = true) : ParamsFed p f := by
  unfold fedCheck at h
  split at h
  · cases h
  · rename_i fd hf
    rw [Bool.and_eq_true, List.all_eq_true, List.all_eq_true] at h
    obtain ⟨h1, h2⟩ := h
    constructor
    · rintro b x ⟨fd', hf', hb⟩ hx
      rw [hf] at hf'; cases hf'
      have := h1 b (by rw [Map.mem_keys, hb]; rfl)
      rw [hb] at this
      dsimp only at this
      rw [Bool.or_eq_true, List.any_eq_true] at this
      rcases this with e | ⟨u, -, e⟩
      · exact absurd (List.isEmpty_iff.1 e) hx
      · split at e
        · cases e
        · rename_i y hy
          exact ⟨u, y, ⟨fd, hf, hy⟩, List.contains_iff_mem.1 e⟩
    · intro u x b as hx ht a ha
      have hv := local_get hf hx
      have := h2 u (by rw [Map.mem_keys, hv]; rfl)
      rw [hv] at this
      dsimp only at this
      rw [List.all_eq_true] at this
      have := this _ ht
      rw [List.all_eq_true] at this
      obtain ⟨y, hy⟩ := Option.isSome_iff_exists.1 (this a ha)
      exact ⟨y, fd, hf, hy⟩

/-- The hypotheses are met by a function with two parameters. -/
example : ∃ p f fd, Accepted someWorld paramText p ∧ FoldPasses false p p ∧ p.funcs.get? f = some fd ∧ DividesNot p f ∧ ParamsFed p f ∧
    ListsAll (plainOrders.values f) f ∧ instCount p f < 10 ∧ ∃ b x, Block p f b x ∧ x.params.length = 2 := by
  obtain ⟨p, h, hq⟩ := acceptsWith_iff (input := paramText) (q := fun p => match p.funcs.keys with
    | [] => false
    | f :: _ => match p.funcs.get? f with
      | none => false
      | some fd => dividesNotCheck p f && fedCheck p f && decide (instCount p f < 10) && fd.dfg.bbs.keys.any (fun b => match fd.dfg.bbs.get? b with
        | none => false
        | some x => x.params.length == 2)) (by decide +kernel)
  split at hq
  · cases hq
  · rename_i f _ _
    split at hq
    · cases hq
    · rename_i fd hf
      simp only [Bool.and_eq_true, decide_eq_true_eq, List.any_eq_true] at hq
      obtain ⟨⟨⟨h1, h2⟩, h3⟩, b, -, h4⟩ := hq
      split at h4
      · cases h4
      · rename_i x hx
        exact ⟨p, f, fd, h, .refl, hf, dividesNotCheck_iff h1, fedCheck_iff h2, plain_listsAll f, h3, b, x, ⟨fd, hf, hx⟩, by simpa using h4⟩

theorem argAt_transfer {p : Program} {f : Func} {fd : FData} (hf : p.funcs.get? f = some fd) {b : BB} {i : Nat} {u a : Value} (ht : Targets p f u b)
    (h : argAt fd b i u = some a) : ∃ d as, LocalVal p f u d ∧ (b, as) ∈ transfers d.kind ∧ as[i]? = some a := by
  obtain ⟨d, hd, ht⟩ := ht
  unfold argAt at h
  rw [local_get hf hd] at h
  dsimp only at h
  cases hk : d.kind <;> rw [hk] at h ht <;> dsimp only at h <;> first | (cases h; done) | skip
  · rename_i c t g ts fs
    split at h
    · rename_i e
      subst e
      exact ⟨d, ts, hd, by rw [hk]; simp [transfers], h⟩
    · rename_i e
      simp only [targets, List.mem_cons, List.not_mem_nil, or_false] at ht
      rcases ht with rfl | rfl
      · exact absurd rfl e
      · exact ⟨d, fs, hd, by rw [hk]; simp [transfers], h⟩
  · rename_i t as
    simp only [targets, List.mem_cons, List.not_mem_nil, or_false] at ht
    subst ht
    exact ⟨d, as, hd, by rw [hk]; simp [transfers], h⟩

theorem evalBbParams_at {p : Program} {f : Func} {fd : FData} (hf : p.funcs.get? f = some fd) {b : BB} {x : BData} (hx : fd.dfg.bbs.get? b = some x) {i : Nat}
    (hi : i < x.params.length) {n : Nat} {bs : List BB} {us : List Value → List Value} (hb : b ∈ bs)
    (hC : constArg (p.ctx fd) n fd b i (us x.usedBy) none = none) : evalBbParams f n bs us p = none := by
  have hP : ∀ is, i ∈ is → evalParams (p.ctx fd) n fd b (us x.usedBy) is = none := by
    intro is
    induction is with
    | nil => intro h; cases h
    | cons j is ih =>
      intro hm
      unfold evalParams
      rcases List.mem_cons.1 hm with rfl | hm
      · rw [hC]
      · rw [ih hm]
        split <;> rfl
  have hE : evalBbs (p.ctx fd) n fd us bs = none := by
    induction bs with
    | nil => cases hb
    | cons c bs ih =>
      unfold evalBbs
      rcases List.mem_cons.1 hb with rfl | hb
      · rw [hx]
        dsimp only
        rw [hP _ (List.mem_range.2 hi)]
      · rw [ih hb]
        split
        · rfl
        · split <;> rfl
  unfold evalBbParams
  rw [hf]
  dsimp only
  rw [hE]

/-- C67: folding the parameters panics, whatever the orders and bounds, if nothing that goes to a block passes a value of the function for one of
its parameters: nothing goes there, or only globals are passed. -/
theorem C67_params_stuck {w : World} {input : Str} {p0 p : Program} {f : Func} {chk : Bool} (h : Accepted w input p0) (hp : FoldPasses chk p0 p)
    {b : BB} {x : BData} (hx : Block p f b x) {i : Nat} (hi : i < x.params.length)
    (hno : ∀ u d as a, LocalVal p f u d → (b, as) ∈ transfers d.kind → as[i]? = some a → ¬ ∃ y, LocalVal p f a y)
    {n : Nat} {bs : List BB} {us : List Value → List Value} (hb : b ∈ bs) (hus : ∀ l v, v ∈ us l ↔ v ∈ l) : evalBbParams f n bs us p = none := by
  obtain ⟨k1, -⟩ := FoldPasses_spec h hp
  have hx0 := hx
  obtain ⟨fd, hf, hx⟩ := hx
  have hC : constArg (p.ctx fd) n fd b i (us x.usedBy) none = none := by
    cases hl : us x.usedBy with
    | nil => rfl
    | cons u l =>
      unfold constArg
      cases ha : argAt fd b i u with
      | none => rfl
      | some a =>
        dsimp only
        have ht : Targets p f u b := (k1.inv.blockUses f b x hx0 u).1 ((hus _ _).1 (by rw [hl]; simp))
        obtain ⟨d, as, h1, h2, h3⟩ := argAt_transfer hf ht ha
        cases hy : fd.dfg.values.get? a with
        | none => rfl
        | some y => exact absurd ⟨y, fd, hf, hy⟩ (hno u d as a h1 h2 h3)
  exact evalBbParams_at hf hx hi hb hC

/-- C67: folding the parameters panics in no order exactly if every block with parameters is jumped to and no argument for a block is a global. -/
theorem C67_params_exact {w : World} {input : Str} {p0 p : Program} {f : Func} {fd : FData} {chk : Bool} (h : Accepted w input p0)
    (hp : FoldPasses chk p0 p) (hf : p.funcs.get? f = some fd) :
    (∃ N, ∀ n, N ≤ n → ∀ bs us, bs.Nodup → (∀ l v, v ∈ us l ↔ v ∈ l) → ∃ p', evalBbParams f n bs us p = some p') ↔ ParamsFed p f := by
  refine ⟨fun ⟨N, hN⟩ => ?_, fun hP => C67_params_end_partial h hp hf hP⟩
  obtain ⟨k1, -⟩ := FoldPasses_spec h hp
  constructor
  · intro b x hx hps
    refine Classical.byContradiction fun hno => ?_
    obtain ⟨p', hp'⟩ := hN N (Nat.le_refl _) [b] id (by simp) (fun _ _ => Iff.rfl)
    rw [C67_params_stuck h hp hx (i := 0) (n := N) (bs := [b]) (us := id) (List.length_pos_iff.2 hps)
      (fun u d as a h1 h2 _ => absurd ⟨u, d, h1, (transfers_targets h2).1⟩ hno) (by simp) (fun _ _ => Iff.rfl)] at hp'
    cases hp'
  · intro u d b as hd ht a ha
    refine Classical.byContradiction fun hno => ?_
    obtain ⟨i, hia⟩ := List.getElem?_of_mem ha
    have hu : fd.dfg.values.get? u = some d := local_get hf hd
    -- the block, with as many parameters
    have hty := k1.wellTyped.locals f u d hd
    obtain ⟨x, hx, hlen, harg⟩ : ∃ x, Block p f b x ∧ x.params.length = as.length ∧ argAt fd b i u = some a := by
      unfold argAt
      rw [hu]
      dsimp only
      generalize d.ty = T at hty
      generalize d.kind = K at hty ht
      cases hty with
      | branch h1 h2 h3 h4 h5 h6 =>
        rename_i c t f' ta fa ts fs
        simp only [transfers, List.mem_cons, Prod.mk.injEq, List.not_mem_nil, or_false] at ht
        rcases ht with ⟨rfl, rfl⟩ | ⟨rfl, rfl⟩
        · obtain ⟨y, hy, hall⟩ := h2
          refine ⟨y, hy, ?_, by simp [hia]⟩
          have l1 := hall.length
          have l2 := h4.length
          omega
        · obtain ⟨y, hy, hall⟩ := h3
          refine ⟨y, hy, ?_, ?_⟩
          · have l1 := hall.length
            have l2 := h5.length
            omega
          · dsimp only
            split
            · rename_i e
              obtain ⟨-, e2⟩ := h6 e
              rw [e2] at ha; cases ha
            · exact hia
      | jump h1 h2 =>
        simp only [transfers, List.mem_cons, Prod.mk.injEq, List.not_mem_nil, or_false] at ht
        obtain ⟨rfl, rfl⟩ := ht
        obtain ⟨y, hy, hall⟩ := h1
        refine ⟨y, hy, ?_, hia⟩
        have l1 := hall.length
        have l2 := h2.length
        omega
      | _ => cases ht
    have hi : i < x.params.length := by
      rw [hlen]
      exact (List.getElem?_eq_some_iff.1 hia).1
    have hxu : u ∈ x.usedBy := (k1.inv.blockUses f b x hx u).2 ⟨d, hd, (transfers_targets ht).1⟩
    obtain ⟨p', hp'⟩ := hN N (Nat.le_refl _) [b] (fun l => if u ∈ l then u :: l else l) (by simp) (fun l v => by
      split
      · rename_i hm
        exact ⟨fun hv => (List.mem_cons.1 hv).elim (fun e => e ▸ hm) id, List.mem_cons_of_mem _⟩
      · exact Iff.rfl)
    obtain ⟨fd', hf', hxg⟩ := hx
    rw [hf] at hf'; cases hf'
    rw [evalBbParams_at hf hxg hi (by simp) (by
      rw [if_pos hxu]
      unfold constArg
      rw [harg]
      dsimp only
      cases hy : fd.dfg.values.get? a with
      | none => rfl
      | some y => exact absurd ⟨y, fd, hf, hy⟩ hno)] at hp'
    cases hp'

/-- A global is passed to a block. -/
def globalArgText : Str := "global @g = alloc i32, zeroinit fun @main(): i32 {%e: jump %b(@g) %b(%p: *i32): %v = load %p ret %v}".toList

/-- No value of `f` is passed for parameter `0` of some block, to which something jumps. -/
def globalArgCheck (p : Program) (f : Func) : Bool :=
  match p.funcs.get? f with
  | none => false
  | some fd => fd.dfg.bbs.keys.any (fun b => match fd.dfg.bbs.get? b with
      | none => false
      | some x => decide (0 < x.params.length) && !x.usedBy.isEmpty && fd.dfg.values.keys.all (fun u => match fd.dfg.values.get? u with
        | none => true
        | some y => (transfers y.kind).all (fun e => e.1 != b || match e.2[0]? with
          | none => true
          | some a => (fd.dfg.values.get? a).isNone)))

/-- The hypotheses are met by a block that is jumped to with a global. -/
example : ∃ p f b x, Accepted someWorld globalArgText p ∧ FoldPasses false p p ∧ Block p f b x ∧ 0 < x.params.length ∧ (∃ u, Targets p f u b) ∧
    ∀ u d as a, LocalVal p f u d → (b, as) ∈ transfers d.kind → as[0]? = some a → ¬ ∃ y, LocalVal p f a y := by
  obtain ⟨p, h, hq⟩ := acceptsWith_iff (input := globalArgText) (q := fun p => match p.funcs.keys with
    | [] => false
    | f :: _ => globalArgCheck p f) (by decide +kernel)
  split at hq
  · cases hq
  · rename_i f _ _
    unfold globalArgCheck at hq
    split at hq
    · cases hq
    · rename_i fd hf
      rw [List.any_eq_true] at hq
      obtain ⟨b, -, hq⟩ := hq
      split at hq
      · cases hq
      · rename_i x hx
        simp only [Bool.and_eq_true, decide_eq_true_eq, List.all_eq_true] at hq
        obtain ⟨⟨h1, h2⟩, h3⟩ := hq
        obtain ⟨k1, -⟩ := FoldPasses_spec (chk := false) h .refl
        refine ⟨p, f, b, x, h, .refl, ⟨fd, hf, hx⟩, h1, ?_, ?_⟩
        · cases hu : x.usedBy with
          | nil => rw [hu] at h2; cases h2
          | cons u l => exact ⟨u, (k1.inv.blockUses f b x ⟨fd, hf, hx⟩ u).1 (by rw [hu]; simp)⟩
        · rintro u d as a hd ht ha ⟨y, hy⟩
          have hv := local_get hf hd
          have := h3 u (by rw [Map.mem_keys, hv]; rfl)
          rw [hv] at this
          dsimp only at this
          rw [List.all_eq_true] at this
          have := this _ ht
          dsimp only at this
          rw [ha] at this
          simp only [bne_self_eq_false, Bool.false_or] at this
          rw [local_get hf hy] at this
          cases this

end Koopa
