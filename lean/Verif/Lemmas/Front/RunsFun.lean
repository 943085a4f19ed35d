import Verif.Lemmas.Front.Runs
/-!
Well-typed functions can be generated.
-/
namespace Koopa
open Spec

/-! ### What the tables contain while a body is built -/

/-- The block named `n` defines `sy` before statement `i` of block `j`. -/
inductive Defd (params : List (Str × TyAst)) (order : List BlockAst) (j i : Nat) : Str → Str → Prop where
  | arg {e : BlockAst} {sy : Str} {a : TyAst} : order[0]? = some e → (sy, a) ∈ params → Defd params order j i e.name sy
  | param {j' : Nat} {b' : BlockAst} {sy : Str} {a : TyAst} : order[j' + 1]? = some b' → (sy, a) ∈ b'.params →
      Defd params order j i b'.name sy
  | inst {j' i' : Nat} {b' : BlockAst} {sy : Str} {e : ExprAst} : order[j']? = some b' → b'.stmts[i']? = some (.def sy e) →
      (j' < j ∨ j' = j ∧ i' < i) → Defd params order j i b'.name sy

/-- What is known of the function that is built. -/
structure Plan (D : Body) (gv : List (Str × Ty)) (gf : List (Str × List Ty × Ty)) (T : Str → Ty) : Prop where
  head : (D.base.view.head D.f).isSome
  vars : ∀ sy t, (sy, t) ∈ gv → ∃ v, D.gv.get? sy = some v ∧ HasTy D.base D.f v t
  noVars : ∀ sy, (D.gv.get? sy).isSome → sy ∈ gv.map (·.1)
  fns : ∀ g ts r, (g, ts, r) ∈ gf → ∃ h, D.gf.get? g = some h ∧ FuncTy D.base h (.func ts r)
  names : (D.order.map (·.name)).Nodup
  distinct : (D.params.map (·.1) ++ D.order.flatMap paramNames ++ D.order.flatMap defNames).Nodup
  global : ∀ n ∈ D.params.map (·.1) ++ D.order.flatMap paramNames ++ D.order.flatMap defNames, n ∉ gv.map (·.1)
  namesOk : ∀ n ∈ D.params.map (·.1) ++ D.order.flatMap paramNames ++ D.order.flatMap defNames ++ D.order.map (·.name), nameOk n
  targets : ∀ b ∈ D.order, ∀ t ∈ successors b, ∃ b' ∈ D.order, b'.name = t
  reach : ∀ e, D.order[0]? = some e → ∀ b ∈ D.order, Flows D.order e.name b.name
  paramTys : ∀ q ∈ D.params, TyIs q.2 (T q.1)
  blockTys : ∀ b ∈ D.order, ∀ q ∈ b.params, TyIs q.2 (T q.1)

/-- The tables contain what was defined before statement `i` of block `j`. -/
structure Ready (D : Body) (T : Str → Ty) (s : BS) (lay : List (BB × List Value)) (j i : Nat) : Prop where
  body : BodyInv D s lay
  table : Table D s.localBbs
  all : ∀ b ∈ D.order, (s.localBbs.get? b.name).isSome
  preds : ∀ b ∈ D.order, ∀ t ∈ successors b, ∀ i, s.localBbs.get? t = some i → b.name ∈ i.preds
  tys : ∀ n i, s.localBbs.get? n = some i → ∀ sy v, i.localDefs.get? sy = some v → HasTy s.prog D.f v (T sy)
  defd : ∀ n sy, Defd D.params D.order j i n sy → ∀ info, s.localBbs.get? n = some info → (info.localDefs.get? sy).isSome

theorem mem_defNames {b : BlockAst} {i : Nat} {d : Str} {e : ExprAst} (h : b.stmts[i]? = some (.def d e)) : d ∈ defNames b :=
  List.mem_filterMap.2 ⟨_, List.mem_of_getElem? h, rfl⟩

theorem Plan.inScope {D : Body} {gv : List (Str × Ty)} {gf : List (Str × List Ty × Ty)} {T : Str → Ty} (hP : Plan D gv gf T)
    {j i : Nat} {b : BlockAst} {sy : Str} (hb : D.order[j]? = some b) (h : InScope D.params D.order j i sy) :
    (∃ n, Defd D.params D.order j i n sy ∧ Flows D.order n b.name) ∧
      sy ∈ D.params.map (·.1) ++ D.order.flatMap paramNames ++ D.order.flatMap defNames := by
  simp only [List.mem_append, List.mem_map, List.mem_flatMap, paramNames]
  cases h with
  | arg h =>
    obtain ⟨e, he⟩ : ∃ e, D.order[0]? = some e := by
      cases ho : D.order with
      | nil => rw [ho] at hb; simp at hb
      | cons e _ => exact ⟨e, rfl⟩
    exact ⟨⟨_, .arg he h, hP.reach e he b (List.mem_of_getElem? hb)⟩, .inl (.inl ⟨_, h, rfl⟩)⟩
  | param h1 h2 h3 h4 =>
    rw [hb] at h1; cases h1
    exact ⟨⟨_, .param h2 h3, h4⟩, .inl (.inr ⟨_, List.mem_of_getElem? h2, _, h3, rfl⟩)⟩
  | inst h1 h2 h3 h4 h5 =>
    rw [hb] at h1; cases h1
    exact ⟨⟨_, .inst h2 h3 h5, h4⟩, .inr ⟨_, List.mem_of_getElem? h2, mem_defNames h3⟩⟩

theorem Ready.back {D : Body} {T : Str → Ty} {s : BS} {lay : List (BB × List Value)} {j i : Nat} (h : Ready D T s lay j i)
    (ht : ∀ b ∈ D.order, ∀ t ∈ successors b, ∃ b' ∈ D.order, b'.name = t)
    {a c : Str} (hf : Flows D.order a c) : Back s.localBbs a c := by
  induction hf with
  | refl => exact .refl
  | @step c b _ hb hc ih =>
    obtain ⟨b', hb', rfl⟩ := ht b hb c hc
    obtain ⟨i, hi⟩ := Option.isSome_iff_exists.1 (h.all b' hb')
    exact .step hi (h.preds b hb _ hc i hi) ih

theorem order_unique {order : List BlockAst} (hn : (order.map (·.name)).Nodup) {j j' : Nat} {b b' : BlockAst}
    (h : order[j]? = some b) (h' : order[j']? = some b') (he : b.name = b'.name) : j = j' := by
  have x : (order.map (·.name))[j]? = some b.name := by rw [List.getElem?_map, h]; rfl
  have y : (order.map (·.name))[j']? = some b.name := by rw [List.getElem?_map, h', he]; rfl
  have hj : j < (order.map (·.name)).length := (List.getElem?_eq_some_iff.1 x).1
  exact (List.getElem?_inj hj hn).1 (x.trans y.symm)

theorem localTys_of {p : Program} {f : Func} {b : BB} {k : Nat → VKind} {x : BData} {ps : List (Str × TyAst)} {ts : List Ty}
    (hx : Block p f b x) (hp : ParamsFrom p f k ps x.params) (ht : All2 TyIs (ps.map (·.2)) ts) : LocalTys p f b ts := by
  have hl := ht.length
  rw [List.length_map] at hl
  refine ⟨x, hx, All2.of_get (hp.1.trans hl) ?_⟩
  intro i v t h1 h2
  obtain ⟨q, hq⟩ : ∃ q, ps[i]? = some q := by
    have := (List.getElem?_eq_some_iff.1 h2).1
    exact ⟨ps[i], List.getElem?_eq_getElem (by omega)⟩
  obtain ⟨y, hy, -, h3, -⟩ := hp.2 i q v hq h1
  exact ⟨y, hy, TyIs_unique h3 (ht.get i q.2 t (by simp [hq]) h2)⟩

/-- Everything a statement may refer to is found. -/
theorem Ready.knows {D : Body} {gv : List (Str × Ty)} {gf : List (Str × List Ty × Ty)} {T : Str → Ty} (hP : Plan D gv gf T)
    {s : BS} {lay : List (BB × List Value)} {j i : Nat} {b : BlockAst} (h : Ready D T s lay j i) (hb : D.order[j]? = some b) :
    Knows (tyEnv gv gf D.params D.order T D.r j i) D.f b.name s where
  inv := h.body.inv
  head := by
    obtain ⟨x, hx⟩ := Option.isSome_iff_exists.1 hP.head
    rw [h.body.within.ext.head _ _ hx]; rfl
  sym sy t ht := by
    rcases ht with ht | ⟨hs, rfl⟩
    · obtain ⟨v, h1, h2⟩ := hP.vars sy t ht
      exact ⟨v, .inl (by rw [h.body.gv]; exact h1), h.body.within.ext.hasTy h2⟩
    · obtain ⟨⟨n, hd, hf⟩, hm⟩ := hP.inScope hb hs
      have hng : s.globalVars.get? sy = none := by
        rw [h.body.gv]
        cases hg : D.gv.get? sy with
        | none => rfl
        | some v => exact absurd (hP.noVars sy (by rw [hg]; rfl)) (hP.global sy hm)
      have hc : PredsIn s.localBbs := by
        intro n i hi q hq
        obtain ⟨b, hb, rfl, _⟩ := h.body.preds n i hi q hq
        exact h.all b hb
      obtain ⟨r, vis, h1, h2⟩ := findLocal_finds (sym := sy) hc (h.all b (List.mem_of_getElem? hb))
      have hn : (s.localBbs.get? n).isSome := by
        cases hd with
        | arg h1 _ => exact h.all _ (List.mem_of_getElem? h1)
        | param h1 _ => exact h.all _ (List.mem_of_getElem? h1)
        | inst h1 _ _ => exact h.all _ (List.mem_of_getElem? h1)
      obtain ⟨info, hi⟩ := Option.isSome_iff_exists.1 hn
      obtain ⟨v, hv⟩ := Option.isSome_iff_exists.1 (h.defd n sy hd info hi)
      obtain ⟨w, rfl⟩ := Option.isSome_iff_exists.1 (h2 n info v (h.back hP.targets hf) hi hv)
      obtain ⟨n', i', -, a2, a3⟩ := findLocal_sound h1
      exact ⟨w, .inr ⟨hng, vis, h1⟩, h.tys n' i' a2 sy w a3⟩
  bb l ts hl := by
    obtain ⟨b', hb', rfl, ht⟩ := hl
    obtain ⟨info, hi⟩ := Option.isSome_iff_exists.1 (h.all b' hb')
    obtain ⟨j', b2, is, h1, h2, h3⟩ := h.body.infos _ _ hi
    obtain ⟨j0, h0⟩ := List.mem_iff_getElem?.1 hb'
    cases order_unique hP.names h1 h0 h2
    rw [h0] at h1; cases h1
    obtain ⟨x, hx, -, hp⟩ := h.body.blks _ _ _ _ h0 h3
    exact ⟨info, hi, localTys_of hx hp ht⟩
  inj l l' a a' ha ha' he := by
    obtain ⟨j1, b1, is1, h1, rfl, h3⟩ := h.body.infos _ _ ha
    obtain ⟨j2, b2, is2, h4, rfl, h6⟩ := h.body.infos _ _ ha'
    obtain ⟨l, hl, hll⟩ := h.body.layout
    have hk := (h.body.inv.lays D.f l hl).1.keys
    rw [hll] at hk
    have x : (lay.map (·.1))[j1]? = some a.bb := by rw [List.getElem?_map, h3]; rfl
    have y : (lay.map (·.1))[j2]? = some a.bb := by rw [List.getElem?_map, h6, he]; rfl
    have hj : j1 < (lay.map (·.1)).length := (List.getElem?_eq_some_iff.1 x).1
    cases (List.getElem?_inj hj hk).1 (x.trans y.symm)
    rw [h1] at h4; cases h4; rfl
  fn g ts r hg := by
    obtain ⟨c, h1, h2⟩ := hP.fns g ts r hg
    exact ⟨c, by rw [h.body.gf]; exact h1, h.body.within.ext.funcTy h2⟩

/-- A statement is built and its definition recorded. -/
theorem buildStmt_run {D : Body} {gv : List (Str × Ty)} {gf : List (Str × List Ty × Ty)} {T : Str → Ty} (hP : Plan D gv gf T)
    {s : BS} {lay : List (BB × List Value)} {j : Nat} {b : BlockAst} {h : BB} {is : List Value} {st : StmtAst}
    (hR : Ready D T s lay j is.length) (hb : D.order[j]? = some b) (hj : lay[j]? = some (h, is))
    (hst : b.stmts[is.length]? = some st) (hok : StmtOk (tyEnv gv gf D.params D.order T D.r j is.length) T st)
    (hnew : ∀ d e, st = .def d e → d ∉ s.localSyms) :
    ∃ s' v lay', Done (buildStmt D.f D.r b.name st) s () s' ∧ Ready D T s' lay' j (is.length + 1) ∧
      (∀ q, lay'[q]? = if q = j then some (h, is ++ [v]) else lay[q]?) ∧
      (∀ x ∈ s'.localSyms, x ∈ s.localSyms ∨ ∃ e, st = .def x e) := by
  have hbm := List.mem_of_getElem? hb
  obtain ⟨info, hi⟩ := Option.isSome_iff_exists.1 (hR.all b hbm)
  have hK := hR.knows hP hb
  obtain ⟨v, s1, h1, hty⟩ := genStmt_run hK hok hi (by
    rintro d e rfl
    have hd : d ∈ D.params.map (·.1) ++ D.order.flatMap paramNames ++ D.order.flatMap defNames :=
      List.mem_append.2 (.inr (List.mem_flatMap.2 ⟨b, hbm, mem_defNames hst⟩))
    refine ⟨?_, hnew d e rfl, hP.namesOk d (List.mem_append.2 (.inl hd))⟩
    rw [hR.body.gv]
    cases hg : D.gv.get? d with
    | none => rfl
    | some v => exact absurd (hP.noVars d (by rw [hg]; rfl)) (hP.global d hd))
  have hS := h1.genStmt hR.body.inv
  have hi1 : ∃ info1, s1.localBbs.get? b.name = some info1 ∧ info1.bb = info.bb := by
    by_cases hd : ∃ d e, st = .def d e
    · obtain ⟨d, e, rfl⟩ := hd
      obtain ⟨i0, h2, h3⟩ := hS.bbsDef d e rfl
      rw [hi] at h2; cases h2
      exact ⟨{ info with localDefs := info.localDefs.insert d v }, by rw [h3, Map.get?_insert, if_pos rfl], rfl⟩
    · rw [hS.bbs (fun d e he => hd ⟨d, e, he⟩)]
      exact ⟨info, hi, rfl⟩
  obtain ⟨info1, hi1, hbb⟩ := hi1
  have hh : info.bb = h := by
    obtain ⟨j', b', is', a1, a2, a3⟩ := hR.body.infos _ _ hi
    cases order_unique hP.names a1 hb a2
    rw [hj] at a3
    cases a3; rfl
  obtain ⟨l, hl, hll⟩ := hR.body.layout
  have hl1 : s1.prog.view.lay D.f = some l := by rw [hS.ext.lay]; exact hl
  obtain ⟨t, k, hval, -⟩ := hS.val
  obtain ⟨p, hp, -, hpe, -⟩ := pushInst_run hS.inv (b := h) (v := v) hl1 (is := is)
    (by rw [hll]; exact List.mem_of_getElem? hj) (by rw [hval]; rfl) (by
      intro b' is0 hm hv0
      obtain ⟨x, hx⟩ := Option.isSome_iff_exists.1 (((hR.body.inv.lays D.f l hl).2 b' is0 hm).2 v hv0)
      have := (hR.body.inv.lRange hx).2
      have := hS.lo
      omega)
  have hdone : Done (buildStmt D.f D.r b.name st) s () { s1 with prog := p } := by
    unfold buildStmt
    refine h1.of_attempt.seq (.seq_get ?_)
    simp only [hi1]
    exact .of_api' (by rw [hbb, hh]; exact hp)
  obtain ⟨v', lay', hB, hlay, hsy1, hsy2, -, hTab⟩ := Done.buildStmt hR.body hR.table hP.names hb hj hst (by rintro rfl; cases hok) hdone
  have htab : ∀ n i, s1.localBbs.get? n = some i → ∃ i0, s.localBbs.get? n = some i0 ∧ i.preds = i0.preds ∧
      (∀ sy w, i.localDefs.get? sy = some w → i0.localDefs.get? sy = some w ∨ w = v ∧ ∃ e, st = .def sy e) ∧
      (∀ sy, (i0.localDefs.get? sy).isSome → (i.localDefs.get? sy).isSome) ∧
      (n = b.name → ∀ d e, st = .def d e → (i.localDefs.get? d).isSome) := by
    intro n i hi'
    by_cases hd : ∃ d e, st = .def d e
    · obtain ⟨d, e, rfl⟩ := hd
      obtain ⟨i0, h2, h3⟩ := hS.bbsDef d e rfl
      rw [h3, Map.get?_insert] at hi'
      split at hi'
      · rename_i hn; subst hn; cases hi'
        refine ⟨i0, h2, rfl, ?_, ?_, ?_⟩
        · intro sy w hw
          simp only [Map.get?_insert] at hw
          split at hw
          · rename_i hsy; subst hsy; cases hw; exact .inr ⟨rfl, e, rfl⟩
          · exact .inl hw
        · intro sy hsy
          simp only [Map.get?_insert]
          split
          · rfl
          · exact hsy
        · rintro - d' e' ⟨⟩
          simp [Map.get?_insert]
      · rename_i hn
        exact ⟨i, hi', rfl, fun _ _ h => .inl h, fun _ h => h, fun h => absurd h hn⟩
    · rw [hS.bbs (fun d e he => hd ⟨d, e, he⟩)] at hi'
      exact ⟨i, hi', rfl, fun _ _ h => .inl h, fun _ h => h, fun _ d e he => absurd ⟨d, e, he⟩ hd⟩
  refine ⟨_, v', lay', hdone, ⟨hB, hTab, ?_, ?_, ?_, ?_⟩, hlay, ?_⟩
  · intro b' hb'
    have := hR.all b' hb'
    show (s1.localBbs.get? b'.name).isSome
    by_cases hd : ∃ d e, st = .def d e
    · obtain ⟨d, e, rfl⟩ := hd
      obtain ⟨i0, h2, h3⟩ := hS.bbsDef d e rfl
      rw [h3, Map.get?_insert]
      split
      · rfl
      · exact this
    · rw [hS.bbs (fun d e he => hd ⟨d, e, he⟩)]
      exact this
  · intro b' hb' t ht i hi'
    obtain ⟨i0, h2, h3, -⟩ := htab t i hi'
    rw [h3]
    exact hR.preds b' hb' t ht i0 h2
  · intro n i hi' sy w hw
    obtain ⟨i0, h2, -, h3, -⟩ := htab n i hi'
    rcases h3 sy w hw with h4 | ⟨rfl, e, rfl⟩
    · exact (hS.ext.ext.trans hpe).hasTy (hR.tys n i0 h2 sy w h4)
    · exact hpe.hasTy (hty sy e rfl)
  · intro n sy hd i hi'
    obtain ⟨i0, h2, -, -, h3, h4⟩ := htab n i hi'
    have old : Defd D.params D.order j is.length n sy → (i.localDefs.get? sy).isSome :=
      fun hd => h3 sy (hR.defd n sy hd i0 h2)
    cases hd with
    | arg a1 a2 => exact old (.arg a1 a2)
    | param a1 a2 => exact old (.param a1 a2)
    | @inst j' i' b' sy e a1 a2 a3 =>
      by_cases hlt : j' < j ∨ j' = j ∧ i' < is.length
      · exact old (.inst a1 a2 hlt)
      · have : j' = j ∧ i' = is.length := by omega
        obtain ⟨rfl, rfl⟩ := this
        rw [hb] at a1; cases a1
        rw [hst] at a2; cases a2
        exact h4 rfl sy e rfl
  · intro x hx
    by_cases hd : ∃ d e, st = .def d e
    · obtain ⟨d, e, rfl⟩ := hd
      rw [(hsy2 d e rfl).1] at hx
      rcases List.mem_cons.1 hx with rfl | hx
      · exact .inr ⟨e, rfl⟩
      · exact .inl hx
    · rw [hsy1 (fun d e he => hd ⟨d, e, he⟩)] at hx
      exact .inl hx

/-! ### Blocks -/

theorem filterMap_unique {α β : Type} {g : α → Option β} {d : β} : ∀ {l : List α} {i i' : Nat} {a a' : α},
    (l.filterMap g).Nodup → l[i]? = some a → l[i']? = some a' → g a = some d → g a' = some d → i = i'
  | [], i, _, _, _, _, h, _, _, _ => by simp at h
  | b :: l, i, i', a, a', hn, h, h', hg, hg' => by
    have htail : (l.filterMap g).Nodup := by
      rw [List.filterMap_cons] at hn
      split at hn
      · exact hn
      · exact (List.nodup_cons.1 hn).2
    cases i with
    | zero =>
      cases i' with
      | zero => rfl
      | succ i' =>
        simp only [List.getElem?_cons_zero, Option.some.injEq] at h
        subst h
        rw [List.filterMap_cons, hg] at hn
        have hm : d ∈ l.filterMap g := List.mem_filterMap.2 ⟨a', List.mem_of_getElem? (by simpa using h'), hg'⟩
        exact absurd hm (List.nodup_cons.1 hn).1
    | succ i =>
      cases i' with
      | zero =>
        simp only [List.getElem?_cons_zero, Option.some.injEq] at h'
        subst h'
        rw [List.filterMap_cons, hg'] at hn
        have hm : d ∈ l.filterMap g := List.mem_filterMap.2 ⟨a, List.mem_of_getElem? (by simpa using h), hg⟩
        exact absurd hm (List.nodup_cons.1 hn).1
      | succ i' =>
        have := filterMap_unique (l := l) (i := i) (i' := i') htail (by simpa using h) (by simpa using h') hg hg'
        omega

theorem flatMap_unique {α β : Type} {g : α → List β} {d : β} : ∀ {l : List α} {i i' : Nat} {a a' : α},
    (l.flatMap g).Nodup → l[i]? = some a → l[i']? = some a' → d ∈ g a → d ∈ g a' → i = i'
  | [], i, _, _, _, _, h, _, _, _ => by simp at h
  | b :: l, i, i', a, a', hn, h, h', hg, hg' => by
    rw [List.flatMap_cons, List.nodup_append] at hn
    obtain ⟨-, htail, hdis⟩ := hn
    cases i with
    | zero =>
      cases i' with
      | zero => rfl
      | succ i' =>
        simp only [List.getElem?_cons_zero, Option.some.injEq] at h
        subst h
        have hm : d ∈ l.flatMap g := List.mem_flatMap.2 ⟨a', List.mem_of_getElem? (by simpa using h'), hg'⟩
        exact absurd rfl (hdis d hg d hm)
    | succ i =>
      cases i' with
      | zero =>
        simp only [List.getElem?_cons_zero, Option.some.injEq] at h'
        subst h'
        have hm : d ∈ l.flatMap g := List.mem_flatMap.2 ⟨a, List.mem_of_getElem? (by simpa using h), hg⟩
        exact absurd rfl (hdis d hg' d hm)
      | succ i' =>
        have := flatMap_unique (l := l) (i := i) (i' := i') htail (by simpa using h) (by simpa using h') hg hg'
        omega

/-- `x` is a parameter or defined before statement `i` of block `j`. -/
def Seen (params : List (Str × TyAst)) (order : List BlockAst) (j i : Nat) (x : Str) : Prop :=
  x ∈ params.map (·.1) ++ order.flatMap paramNames ∨ ∃ (j' i' : Nat) (b' : BlockAst) (e : ExprAst), order[j']? = some b' ∧
    b'.stmts[i']? = some (.def x e) ∧ (j' < j ∨ j' = j ∧ i' < i)

theorem Plan.fresh {D : Body} {gv : List (Str × Ty)} {gf : List (Str × List Ty × Ty)} {T : Str → Ty} (hP : Plan D gv gf T)
    {j i : Nat} {b : BlockAst} {d : Str} {e : ExprAst} (hb : D.order[j]? = some b) (hst : b.stmts[i]? = some (.def d e)) :
    ¬ Seen D.params D.order j i d := by
  have hn := hP.distinct
  rw [List.nodup_append] at hn
  obtain ⟨-, hn, hdis⟩ := hn
  have hd : d ∈ D.order.flatMap defNames := List.mem_flatMap.2 ⟨b, List.mem_of_getElem? hb, mem_defNames hst⟩
  rintro (h | ⟨j', i', b', e', h1, h2, h3⟩)
  · exact hdis d h d hd rfl
  · cases flatMap_unique hn hb h1 (mem_defNames hst) (mem_defNames h2)
    rw [hb] at h1; cases h1
    have : (defNames b).Nodup := by
      obtain ⟨l1, l2, ho⟩ : ∃ l1 l2, D.order = l1 ++ b :: l2 := List.append_of_mem (List.mem_of_getElem? hb)
      rw [ho, List.flatMap_append, List.nodup_append, List.flatMap_cons, List.nodup_append] at hn
      exact hn.2.1.1
    cases filterMap_unique this hst h2 (d := d) rfl rfl
    omega

theorem buildStmts_run {D : Body} {gv : List (Str × Ty)} {gf : List (Str × List Ty × Ty)} {T : Str → Ty} (hP : Plan D gv gf T)
    {j : Nat} {b : BlockAst} {h : BB} (hb : D.order[j]? = some b)
    (hok : ∀ (i : Nat) st, b.stmts[i]? = some st → StmtOk (tyEnv gv gf D.params D.order T D.r j i) T st) :
    ∀ {sts : List StmtAst} {s : BS} {lay : List (BB × List Value)} {is : List Value},
    Ready D T s lay j is.length → lay[j]? = some (h, is) → b.stmts.drop is.length = sts →
    (∀ x ∈ s.localSyms, Seen D.params D.order j is.length x) →
    ∃ us s' lay', Done (B.each (buildStmt D.f D.r b.name) sts) s us s' ∧ Ready D T s' lay' j b.stmts.length ∧
      (∀ q, q ≠ j → lay'[q]? = lay[q]?) ∧ (∀ x ∈ s'.localSyms, Seen D.params D.order j b.stmts.length x)
  | [], s, lay, is, hR, hj, hd, hsy => by
    have hl : b.stmts.length ≤ is.length := List.drop_eq_nil_iff.1 hd
    refine ⟨[], s, lay, .done _ _, ⟨hR.body, hR.table, hR.all, hR.preds, hR.tys, ?_⟩, fun _ _ => rfl, ?_⟩
    · intro n sy hdf
      refine hR.defd n sy ?_
      cases hdf with
      | arg a1 a2 => exact .arg a1 a2
      | param a1 a2 => exact .param a1 a2
      | inst a1 a2 a3 => exact .inst a1 a2 (by omega)
    · intro x hx
      rcases hsy x hx with h1 | ⟨j', i', b', e, h1, h2, h3⟩
      · exact .inl h1
      · refine .inr ⟨j', i', b', e, h1, h2, ?_⟩
        rcases h3 with h3 | ⟨rfl, h3⟩
        · exact .inl h3
        · rw [hb] at h1; cases h1
          exact .inr ⟨rfl, (List.getElem?_eq_some_iff.1 h2).1⟩
  | st :: sts, s, lay, is, hR, hj, hd, hsy => by
    have hst : b.stmts[is.length]? = some st := by
      have : (b.stmts.drop is.length)[0]? = some st := by rw [hd]; rfl
      simpa using this
    obtain ⟨s1, v, lay1, h1, hR1, hl1, hs1⟩ := buildStmt_run hP hR hb hj hst (hok _ _ hst) (by
      rintro d e rfl hm
      exact hP.fresh hb hst (hsy d hm))
    have hlen : (is ++ [v]).length = is.length + 1 := by simp
    obtain ⟨us, s2, lay2, h2, hR2, hl2, hs2⟩ := buildStmts_run hP hb hok (sts := sts) (s := s1) (lay := lay1) (is := is ++ [v])
      (by rw [hlen]; exact hR1) (by rw [hl1, if_pos rfl]) (by
        rw [hlen, ← List.drop_drop, hd]; rfl) (by
        intro x hx
        rw [hlen]
        rcases hs1 x hx with hx | ⟨e, rfl⟩
        · rcases hsy x hx with h3 | ⟨j', i', b', e, h3, h4, h5⟩
          · exact .inl h3
          · exact .inr ⟨j', i', b', e, h3, h4, by omega⟩
        · exact .inr ⟨j, is.length, b, e, hb, hst, by omega⟩)
    refine ⟨() :: us, s2, lay2, h1.seq_each h2, hR2, ?_, hs2⟩
    intro q hq
    rw [hl2 q hq, hl1, if_neg hq]

theorem buildBlocks_run {D : Body} {gv : List (Str × Ty)} {gf : List (Str × List Ty × Ty)} {T : Str → Ty} (hP : Plan D gv gf T)
    (hok : ∀ (j i : Nat) b st, D.order[j]? = some b → b.stmts[i]? = some st →
      StmtOk (tyEnv gv gf D.params D.order T D.r j i) T st) :
    ∀ {bs : List BlockAst} {j : Nat} {s : BS} {lay : List (BB × List Value)}, Ready D T s lay j 0 → D.order.drop j = bs →
    (∀ (q : Nat) h is, j ≤ q → lay[q]? = some (h, is) → is = []) → (∀ x ∈ s.localSyms, Seen D.params D.order j 0 x) →
    ∃ us s', Done (B.each (buildBlock D.f D.r) bs) s us s'
  | [], j, s, lay, hR, hd, hl, hsy => ⟨[], s, .done _ _⟩
  | b :: bs, j, s, lay, hR, hd, hl, hsy => by
    have hb : D.order[j]? = some b := by
      have : (D.order.drop j)[0]? = some b := by rw [hd]; rfl
      simpa using this
    obtain ⟨h, is, hj⟩ : ∃ h is, lay[j]? = some (h, is) := by
      have hlt : j < lay.length := by rw [hR.body.len]; exact (List.getElem?_eq_some_iff.1 hb).1
      exact ⟨_, _, List.getElem?_eq_getElem hlt⟩
    cases hl j h is (Nat.le_refl j) hj
    obtain ⟨us, s1, lay1, h1, hR1, hl1, hs1⟩ := buildStmts_run hP hb (fun i st => hok j i b st hb) (sts := b.stmts) (s := s)
      (lay := lay) (is := []) hR hj rfl hsy
    obtain ⟨us', s2, h2⟩ := buildBlocks_run hP hok (bs := bs) (j := j + 1) (s := s1) (lay := lay1) (by
      refine ⟨hR1.body, hR1.table, hR1.all, hR1.preds, hR1.tys, ?_⟩
      intro n sy hdf
      refine hR1.defd n sy ?_
      cases hdf with
      | arg a1 a2 => exact .arg a1 a2
      | param a1 a2 => exact .param a1 a2
      | @inst j' i' b' _ _ a1 a2 a3 =>
        refine .inst a1 a2 ?_
        by_cases he : j' = j
        · subst he
          rw [hb] at a1; cases a1
          exact .inr ⟨rfl, (List.getElem?_eq_some_iff.1 a2).1⟩
        · exact .inl (by omega)) (by rw [← List.drop_drop, hd]; rfl) (by
      intro q h is hq hm
      rw [hl1 q (by omega)] at hm
      exact hl q h is (by omega) hm) (by
      intro x hx
      rcases hs1 x hx with h3 | ⟨j', i', b', e, h3, h4, h5⟩
      · exact .inl h3
      · exact .inr ⟨j', i', b', e, h3, h4, by omega⟩)
    refine ⟨() :: us', s2, Done.seq_each (b := ()) ?_ h2⟩
    unfold buildBlock
    exact h1.seq (.done () _)

end Koopa
