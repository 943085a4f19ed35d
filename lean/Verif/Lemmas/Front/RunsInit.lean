import Verif.Lemmas.Front.RunsFun
/-!
Well-typed functions can be generated: preparing the blocks.
-/
namespace Koopa
open Spec

theorem genParams_complete : ∀ {ps : List (Str × TyAst)} {ts : List Ty}, All2 TyIs (ps.map (·.2)) ts →
    (∀ q ∈ ps, nameOk q.1) → ∃ qs, genParams ps = some qs ∧ qs.map (·.2) = ts ∧
      ∀ q ∈ qs, validOptName q.1 = true ∧ q.2 ≠ .unit
  | [], _, .nil, _ => ⟨[], rfl, rfl, by simp⟩
  | (n, a) :: ps, t :: ts, .cons h hs, hn => by
    obtain ⟨qs, h1, h2, h3⟩ := genParams_complete hs (fun q hq => hn q (by simp [hq]))
    refine ⟨(tempName n, t) :: qs, ?_, ?_, ?_⟩
    · rw [genParams, genType_complete h, h1]
    · rw [List.map_cons, h2]
    · intro q hq
      rcases List.mem_cons.1 hq with rfl | hq
      · exact ⟨nameOk_opt (hn (n, a) (by simp)), TyIs_not_unit h⟩
      · exact h3 q hq

theorem defineSym_run {d : Str} {s : BS} (hg : s.globalVars.get? d = none) (hl : d ∉ s.localSyms) :
    Done (defineSym d) s () { s with localSyms := d :: s.localSyms } := by
  unfold defineSym
  refine .seq_get ?_
  rw [if_neg (by simp [Map.contains, hg]), if_neg hl]
  exact .of_modify rfl

theorem defineParams_run : ∀ {ps : List (Str × TyAst)} {vs : List Value} {m : Map Str Value} {s : BS}, vs.length = ps.length →
    (ps.map (·.1)).Nodup → (∀ n ∈ ps.map (·.1), n ∉ s.localSyms ∧ s.globalVars.get? n = none) →
    ∃ m' ls, Done (defineParams ps vs m) s m' { s with localSyms := ls } ∧ (∀ n ∈ ps.map (·.1), (m'.get? n).isSome) ∧
      ∀ n, (m.get? n).isSome → (m'.get? n).isSome
  | [], [], m, s, _, _, _ => ⟨m, s.localSyms, .done _ _, by simp, fun _ h => h⟩
  | [], _ :: _, _, _, hl, _, _ => by simp at hl
  | _ :: _, [], _, _, hl, _, _ => by simp at hl
  | (n, a) :: ps, v :: vs, m, s, hl, hn, hf => by
    rw [List.map_cons, List.nodup_cons] at hn
    have h0 := defineSym_run (hf n (by simp)).2 (hf n (by simp)).1
    obtain ⟨m', ls, h1, h2, h3⟩ := defineParams_run (ps := ps) (vs := vs) (m := m.insert n v)
      (s := { s with localSyms := n :: s.localSyms }) (by simpa using hl) hn.2 (by
        intro x hx
        refine ⟨?_, (hf x (by simp [hx])).2⟩
        rw [List.mem_cons]
        rintro (rfl | h)
        · exact hn.1 hx
        · exact (hf x (by simp [hx])).1 h)
    refine ⟨m', ls, ?_, ?_, ?_⟩
    · rw [defineParams]
      exact h0.seq h1
    · intro x hx
      rcases List.mem_cons.1 hx with rfl | hx
      · exact h3 _ (by simp [Map.get?_insert])
      · exact h2 x hx
    · intro x hx
      refine h3 x ?_
      rw [Map.get?_insert]
      split
      · rfl
      · exact hx

theorem initBb_run {D : Body} {s : BS} {lay : List (BB × List Value)} {bs : List BlockAst} {b : BlockAst} {ts : List Ty}
    (hI : InitInv D s lay bs) (hh : (D.base.view.head D.f).isSome) (hn : nameOk b.name) (hps : ∀ q ∈ b.params, nameOk q.1)
    (ht : All2 TyIs (b.params.map (·.2)) ts) (hd : (paramNames b).Nodup)
    (hf : ∀ n ∈ paramNames b, n ∉ s.localSyms ∧ D.gv.get? n = none) :
    ∃ s' i, Done (initBb D.f b) s () s' ∧ s'.localBbs = s.localBbs.insert b.name i ∧
      ∀ n ∈ paramNames b, (i.localDefs.get? n).isSome := by
  obtain ⟨qs, hq, -, hqs⟩ := genParams_complete ht hps
  have hh' : (s.prog.view.head D.f).isSome := by
    obtain ⟨x, hx⟩ := Option.isSome_iff_exists.1 hh
    rw [hI.within.ext.head _ _ hx]; rfl
  obtain ⟨p1, hp1, i1, e1, v1⟩ := newBb_run hI.inv hh' (nameOk_opt hn) hqs
  have hb1 : p1.view.b D.f s.prog.ids.nextBb = some (tempName b.name, paramHandles s.prog.ids.nextLocal qs.length) := by
    rw [v1]; simp
  obtain ⟨l, hl, hll⟩ := hI.layout
  have hl1 : p1.view.lay D.f = some l := by rw [v1]; exact hl
  obtain ⟨p2, hp2, i2, e2, v2⟩ := pushBb_run i1 hl1 (b := s.prog.ids.nextBb) (by rw [hb1]; rfl) (by
    intro hm
    obtain ⟨⟨b0, is⟩, hm, hbe⟩ := List.mem_map.1 hm
    obtain ⟨x, hx⟩ := Option.isSome_iff_exists.1 ((hI.inv.lays D.f l hl).2 b0 is hm).1
    have := hI.inv.bRange hx
    simp only at hbe
    omega)
  obtain ⟨x, hx, -, hxp⟩ := view_b_iff.1 (e2.b _ _ _ hb1)
  have hbp : p2.bbParams D.f s.prog.ids.nextBb = some x.params := by
    obtain ⟨fd, hf, hx⟩ := hx
    simp [Program.bbParams, hf, hx]
  have hvl : x.params.length = b.params.length := by
    rw [hxp, ← (genParams_sound hq).1]; simp [paramHandles]
  obtain ⟨m, ls, h1, h2, -⟩ := defineParams_run (ps := b.params) (vs := x.params) (m := .empty) (s := { s with prog := p2 }) hvl hd
    (by
      intro n hn
      refine ⟨(hf n hn).1, ?_⟩
      show s.globalVars.get? n = none
      rw [hI.gv]; exact (hf n hn).2)
  refine ⟨{ s with prog := p2, localSyms := ls, localBbs := s.localBbs.insert b.name ⟨s.prog.ids.nextBb, [], m⟩ },
    ⟨s.prog.ids.nextBb, [], m⟩, ?_, ?_, h2⟩
  · unfold initBb
    refine .seq_lift hq ((Done.of_api hp1).seq ((Done.of_api' (s := { s with prog := p1 }) hp2).seq (.seq_get (.seq_lift hbp (h1.seq ?_)))))
    exact .of_modify (s := { s with prog := p2, localSyms := ls }) rfl
  · rfl

theorem initAll_run {D : Body} (hh : (D.base.view.head D.f).isSome) {T : Str → Ty} : ∀ {bs done : List BlockAst} {s : BS}
    {lay : List (BB × List Value)}, InitInv D s lay done → (∀ b ∈ bs, nameOk b.name ∧ ∀ q ∈ b.params, nameOk q.1 ∧ TyIs q.2 (T q.1)) →
    (bs.map (·.name)).Nodup → (bs.flatMap paramNames).Nodup → (∀ n ∈ bs.flatMap paramNames, n ∉ s.localSyms ∧ D.gv.get? n = none) →
    ∃ us s', Done (B.each (initBb D.f) bs) s us s' ∧ (∀ n, n ∉ bs.map (·.name) → s'.localBbs.get? n = s.localBbs.get? n) ∧
      ∀ b ∈ bs, ∃ i, s'.localBbs.get? b.name = some i ∧ ∀ n ∈ paramNames b, (i.localDefs.get? n).isSome
  | [], _, s, _, _, _, _, _, _ => ⟨[], s, .done _ _, fun _ _ => rfl, by simp⟩
  | b :: bs, done, s, lay, hI, hok, hn, hd, hf => by
    rw [List.map_cons, List.nodup_cons] at hn
    rw [List.flatMap_cons, List.nodup_append] at hd
    have hb := hok b (by simp)
    obtain ⟨s1, i, h1, h2, h3⟩ := initBb_run (b := b) (ts := b.params.map (fun q => T q.1)) hI hh hb.1 (fun q hq => (hb.2 q hq).1) (by
        refine All2.of_get (by simp) ?_
        intro k a t ha ht
        rw [List.getElem?_map, Option.map_eq_some_iff] at ha ht
        obtain ⟨q, hq, rfl⟩ := ha
        obtain ⟨q', hq', rfl⟩ := ht
        rw [hq] at hq'; cases hq'
        exact (hb.2 q (List.mem_of_getElem? hq)).2) hd.1 (fun n hn => hf n (by
          rw [List.flatMap_cons]; exact List.mem_append.2 (.inl hn)))
    obtain ⟨hdl, hI1, ha⟩ := h1.initBb hI
    obtain ⟨us, s2, h4, h5, h6⟩ := initAll_run hh (bs := bs) hI1 (fun b hb => hok b (by simp [hb])) hn.2 hd.2.1 (by
      intro n hn
      have := hf n (by rw [List.flatMap_cons]; exact List.mem_append.2 (.inr hn))
      refine ⟨?_, this.2⟩
      rw [ha.eq, List.mem_append, List.mem_reverse]
      rintro (h | h)
      · exact hd.2.2 n h n hn rfl
      · exact this.1 h)
    refine ⟨() :: us, s2, h1.seq_each h4, ?_, ?_⟩
    · intro n hm
      rw [List.map_cons, List.mem_cons, not_or] at hm
      rw [h5 n hm.2, h2, Map.get?_insert, if_neg hm.1]
    · intro b' hb'
      rcases List.mem_cons.1 hb' with rfl | hb'
      · exact ⟨i, by rw [h5 _ hn.1, h2, Map.get?_insert, if_pos rfl], h3⟩
      · exact h6 b' hb'

theorem enterArgs_run {args : Map Str Value} {e : BlockAst} {s : BS} {i : BbInfo} (hi : s.localBbs.get? e.name = some i) :
    Done (enterArgs args e) s () { s with
      localSyms := args.keys ++ s.localSyms, localBbs := s.localBbs.insert e.name { i with localDefs := args } } := by
  unfold enterArgs
  refine .seq_modify rfl (.seq_get ?_)
  simp only [hi]
  exact .of_modify (s := { s with localSyms := args.keys ++ s.localSyms }) rfl

/-! ### Predecessors -/

/-- Predecessors are added. -/
structure MorePreds (s s' : BS) : Prop where
  prog : s'.prog = s.prog
  keys : ∀ n, (s.localBbs.get? n).isSome → (s'.localBbs.get? n).isSome
  back : ∀ n i', s'.localBbs.get? n = some i' → ∃ i, s.localBbs.get? n = some i ∧ i'.localDefs = i.localDefs ∧
    ∀ q ∈ i.preds, q ∈ i'.preds

theorem MorePreds.refl (s : BS) : MorePreds s s := ⟨rfl, fun _ h => h, fun _ i h => ⟨i, h, rfl, fun _ h => h⟩⟩

theorem MorePreds.trans {a b c : BS} (h : MorePreds a b) (h' : MorePreds b c) : MorePreds a c where
  prog := h'.prog.trans h.prog
  keys n hn := h'.keys n (h.keys n hn)
  back n i hi := by
    obtain ⟨i1, h1, h2, h3⟩ := h'.back n i hi
    obtain ⟨i2, h4, h5, h6⟩ := h.back n i1 h1
    exact ⟨i2, h4, h2.trans h5, fun q hq => h3 q (h6 q hq)⟩

theorem addPred_run {n t : Str} {s : BS} (ht : (s.localBbs.get? t).isSome) :
    ∃ s', Done (addPred n t) s () s' ∧ MorePreds s s' ∧ ∀ i, s'.localBbs.get? t = some i → n ∈ i.preds := by
  obtain ⟨i, hi⟩ := Option.isSome_iff_exists.1 ht
  refine ⟨{ s with localBbs := s.localBbs.insert t { i with preds := i.preds ++ [n] } }, ?_, ⟨rfl, ?_, ?_⟩, ?_⟩
  · unfold addPred
    refine .seq_get ?_
    simp only [hi]
    exact .of_modify rfl
  · intro x hx
    simp only [Map.get?_insert]
    split
    · rfl
    · exact hx
  · intro x i' hx
    simp only [Map.get?_insert] at hx
    split at hx
    · rename_i he; subst he; cases hx
      exact ⟨i, hi, rfl, fun q hq => List.mem_append.2 (.inl hq)⟩
    · exact ⟨i', hx, rfl, fun _ h => h⟩
  · intro i' hx
    simp only [Map.get?_insert, if_pos rfl] at hx
    cases hx
    simp

theorem addPredList_run {n : Str} : ∀ {ts : List Str} {s : BS}, (∀ t ∈ ts, (s.localBbs.get? t).isSome) →
    ∃ us s', Done (B.each (addPred n) ts) s us s' ∧ MorePreds s s' ∧ ∀ t ∈ ts, ∀ i, s'.localBbs.get? t = some i → n ∈ i.preds
  | [], s, _ => ⟨[], s, .done _ _, .refl s, by simp⟩
  | t :: ts, s, h => by
    obtain ⟨s1, h1, h2, h3⟩ := addPred_run (n := n) (h t (by simp))
    obtain ⟨us, s2, h4, h5, h6⟩ := addPredList_run (n := n) (ts := ts) (s := s1) (fun x hx => h2.keys x (h x (by simp [hx])))
    refine ⟨() :: us, s2, h1.seq_each h4, h2.trans h5, ?_⟩
    intro x hx i hi
    rcases List.mem_cons.1 hx with rfl | hx
    · obtain ⟨i1, h7, -, h8⟩ := h5.back _ i hi
      exact h8 n (h3 i1 h7)
    · exact h6 x hx i hi

theorem addPreds_run {b : BlockAst} {s : BS} (hl : b.stmts.getLast?.isSome) (h : ∀ t ∈ successors b, (s.localBbs.get? t).isSome) :
    ∃ s', Done (addPreds b) s () s' ∧ MorePreds s s' ∧ ∀ t ∈ successors b, ∀ i, s'.localBbs.get? t = some i → b.name ∈ i.preds := by
  obtain ⟨last, hl⟩ := Option.isSome_iff_exists.1 hl
  have he : successors b = predTargets last := by
    unfold successors
    rw [hl]
    cases last <;> rfl
  rw [he] at h ⊢
  obtain ⟨us, s', h1, h2, h3⟩ := addPredList_run (n := b.name) h
  refine ⟨s', ?_, h2, h3⟩
  unfold addPreds
  simp only [hl]
  exact h1.seq (.done _ _)

theorem addAllPreds_run : ∀ {bs : List BlockAst} {s : BS}, (∀ b ∈ bs, b.stmts.getLast?.isSome) →
    (∀ b ∈ bs, ∀ t ∈ successors b, (s.localBbs.get? t).isSome) →
    ∃ us s', Done (B.each addPreds bs) s us s' ∧ MorePreds s s' ∧
      ∀ b ∈ bs, ∀ t ∈ successors b, ∀ i, s'.localBbs.get? t = some i → b.name ∈ i.preds
  | [], s, _, _ => ⟨[], s, .done _ _, .refl s, by simp⟩
  | b :: bs, s, hl, h => by
    obtain ⟨s1, h1, h2, h3⟩ := addPreds_run (hl b (by simp)) (h b (by simp))
    obtain ⟨us, s2, h4, h5, h6⟩ := addAllPreds_run (bs := bs) (s := s1) (fun x hx => hl x (by simp [hx]))
      (fun x hx t ht => h2.keys t (h x (by simp [hx]) t ht))
    refine ⟨() :: us, s2, h1.seq_each h4, h2.trans h5, ?_⟩
    intro x hx t ht i hi
    rcases List.mem_cons.1 hx with rfl | hx
    · obtain ⟨i1, h7, -, h8⟩ := h5.back _ i hi
      exact h8 _ (h3 t ht i1 h7)
    · exact h6 x hx t ht i hi

/-! ### Function definitions -/

theorem argMap_ok : ∀ {ps : List (Str × TyAst)} {vs : List Value} {m : Map Str Value}, (ps.map (·.1)).Nodup →
    (∀ n ∈ ps.map (·.1), m.get? n = none) → ∃ m', argMap ps vs m = (m', 0)
  | [], [], m, _, _ => ⟨m, rfl⟩
  | [], _ :: _, m, _, _ => ⟨m, rfl⟩
  | _ :: _, [], m, _, _ => ⟨m, rfl⟩
  | (n, a) :: ps, v :: vs, m, hn, h => by
    rw [List.map_cons, List.nodup_cons] at hn
    obtain ⟨m', h'⟩ := argMap_ok (ps := ps) (vs := vs) (m := m.insert n v) hn.2 (by
      intro x hx
      rw [Map.get?_insert, if_neg (by rintro rfl; exact hn.1 hx)]
      exact h x (by simp [hx]))
    refine ⟨m', ?_⟩
    rw [argMap, h']
    simp [Map.contains, h n (by simp)]

theorem defineFunc_run {n : Str} {f : Func} {s : BS} (h1 : s.globalVars.get? n = none) (h2 : s.globalFuncs.get? n = none) :
    Done (defineFunc n f) s () { s with globalFuncs := s.globalFuncs.insert n f } := by
  unfold defineFunc
  refine .seq_get ?_
  rw [if_neg (by simp [Map.contains, h1])]
  refine .seq_modify rfl ?_
  rw [if_neg (by simp [Map.contains, h2])]
  exact .done _ _

/-- Blocks that can be reached can be reached through such blocks. -/
theorem Spec.BreadthFirst.flows {bbs order : List BlockAst} {e : BlockAst} (h : BreadthFirst bbs order e) {b : BlockAst}
    (hb : b ∈ order) : Flows order e.name b.name := by
  have key : ∀ n, Flows bbs e.name n → Flows order e.name n ∧ ∀ b' ∈ bbs, b'.name = n → b' ∈ order := by
    intro n hn
    generalize hx : e.name = x at hn
    induction hn with
    | refl =>
      refine ⟨.refl, ?_⟩
      intro b' hb' hn
      exact (h.exact b').2 ⟨hb', by rw [hn, hx]; exact .refl⟩
    | @step c b' hf hb' hc ih =>
      obtain ⟨h1, h2⟩ := ih
      refine ⟨.step h1 (h2 b' hb' rfl) hc, ?_⟩
      intro b2 hb2 hn2
      exact (h.exact b2).2 ⟨hb2, by rw [hn2, hx]; exact .step hf hb' hc⟩
  exact (key _ ((h.exact b).1 hb).2).1

theorem endStmt_targets {st : StmtAst} (h : endStmt st = true) : (targetsOf st).isSome := by
  cases st <;> simp_all [endStmt, targetsOf]

/-- A well-typed function definition is accepted. -/
theorem buildFunDef_run {name : Str} {params : List (Str × TyAst)} {ret : Option TyAst} {bbs order : List BlockAst}
    {ts : List Ty} {r : Ty} {gv : List (Str × Ty)} {gf : List (Str × List Ty × Ty)} {s : BS} (hi : FInv s.prog)
    (hname : nameOk name) (hnv : s.globalVars.get? name = none) (hnf : s.globalFuncs.get? name = none)
    (hvars : ∀ sy t, (sy, t) ∈ gv → ∃ v x, s.globalVars.get? sy = some v ∧ GlobalVal s.prog v x ∧ x.ty = t)
    (hno : ∀ sy, (s.globalVars.get? sy).isSome → sy ∈ gv.map (·.1))
    (hfns : ∀ g ts r, (g, ts, r) ∈ gf → ∃ h, s.globalFuncs.get? g = some h ∧ FuncTy s.prog h (.func ts r))
    (hok : FunOk gv (gf ++ [(name, ts, r)]) params ret bbs order ts r) :
    ∃ s', Done (buildFunDef name params ret bbs) s () s' := by
  obtain ⟨e, hbf⟩ := hok.isOrder
  obtain ⟨T, hT1, hT2, hT3⟩ := hok.body
  have hnodup := hok.names
  rw [List.nodup_append, List.nodup_append] at hnodup
  obtain ⟨⟨hnp, hnb, hpb⟩, -, -⟩ := hnodup
  obtain ⟨qs, hq, hqt, hqs⟩ := genParams_complete hok.paramTys (by
    intro q hq
    exact hok.namesOk q.1 (by simp only [List.mem_append, List.mem_map]; exact .inl (.inl (.inl ⟨q, hq, rfl⟩))))
  obtain ⟨p1, hp1, hpi, hpe, hv⟩ := newFuncDef_run hi (n := name) (ps := qs) (r := r) (nameOk_valid hname) hqs
  have hhd : p1.view.head s.prog.ids.nextFunc = some (.func ts r, name, paramHandles s.prog.ids.nextLocal qs.length) := by
    rw [hv, ← hqt]; simp
  obtain ⟨fd1, hfd1, hfe⟩ := Option.map_eq_some_iff.1 hhd
  simp only [Prod.mk.injEq] at hfe
  have hpf : ParamsFrom p1 s.prog.ids.nextFunc VKind.funcArgRef params fd1.params := by
    rw [hfe.2.2]
    refine paramsFrom hq ?_
    intro w sg hw
    rw [hv]; simp [hw]
  obtain ⟨args, eam⟩ := argMap_ok (ps := params) (vs := fd1.params) (m := .empty) hnp (by simp [Map.get?, Map.empty, Map.lookup])
  obtain ⟨-, -, ham3, ham4⟩ := argMap_clean hpf.1 eam
  have hargs : ∀ sy v, args.get? sy = some v →
      ∃ (i : Nat) (a : TyAst), params[i]? = some (sy, a) ∧ fd1.params[i]? = some v := by
    intro sy v hv
    rcases ham3 sy v hv with h | h
    · simp [Map.get?, Map.empty, Map.lookup] at h
    · exact h
  have h1 := defineFunc_run (f := s.prog.ids.nextFunc) (s := { s with prog := p1 }) hnv hnf
  obtain ⟨s4, h2⟩ := blockList_run hbf (fun b hb => by
    obtain ⟨st, h1, h2⟩ := hok.ends b hb
    exact ⟨st, h1, endStmt_targets h2⟩) { s with
      prog := p1, globalFuncs := s.globalFuncs.insert name s.prog.ids.nextFunc, localSyms := [] }
  obtain ⟨⟨e', hbf', hhead, hnames⟩, w, rfl⟩ := h2.blockList
  have hee : e' = e := Option.some.inj (hbf'.first.symm.trans hbf.first)
  subst hee
  let D : Body := ⟨p1, s.prog.ids.nextFunc, params, fd1.params, order, r, s.globalVars,
    s.globalFuncs.insert name s.prog.ids.nextFunc⟩
  have he0 : D.order[0]? = some e' := by
    show order[0]? = some e'
    rw [← List.head?_eq_getElem?]; exact hhead
  have hlg : ∀ n, n ∉ gv.map (·.1) → s.globalVars.get? n = none := by
    intro n hn
    cases hg : s.globalVars.get? n with
    | none => rfl
    | some v => exact absurd (hno n (by rw [hg]; rfl)) hn
  have hP : Plan D gv (gf ++ [(name, ts, r)]) T := by
    refine ⟨by rw [show D.base.view.head D.f = _ from hhd]; rfl, ?_, hno, ?_, hnames, hok.names, hok.global, hok.namesOk, ?_, ?_, hT1, hT2⟩
    · intro sy t h
      obtain ⟨v, x, h3, h4, h5⟩ := hvars sy t h
      obtain ⟨x', h6, h7⟩ := hpe.globalVal h4
      exact ⟨v, h3, x', .inl h6, (shape_ty h7).trans h5⟩
    · intro g us u h
      rcases List.mem_append.1 h with h | h
      · obtain ⟨c, h3, h4⟩ := hfns g us u h
        refine ⟨c, ?_, hpe.funcTy h4⟩
        show (s.globalFuncs.insert name _).get? g = _
        rw [Map.get?_insert, if_neg (by rintro rfl; rw [hnf] at h3; cases h3)]
        exact h3
      · simp only [List.mem_singleton, Prod.mk.injEq] at h
        obtain ⟨rfl, rfl, rfl⟩ := h
        refine ⟨s.prog.ids.nextFunc, ?_, fd1, hfd1, hfe.1⟩
        show (s.globalFuncs.insert g _).get? g = _
        rw [Map.get?_insert, if_pos rfl]
    · intro b hb t ht
      exact (hbf.targets b hb t ht).2
    · intro e0 he b hb
      rw [he0] at he; cases he
      exact hbf.flows hb
  have hI0 : InitInv D { s with
      prog := p1, globalFuncs := s.globalFuncs.insert name s.prog.ids.nextFunc, localSyms := [], warns := w,
      localBbs := Map.empty } [] [] := by
    refine ⟨hpi, .refl _ _, rfl, rfl, ⟨Layout.new, by rw [hv]; simp [D], rfl⟩, rfl, (fun _ h => by simp at h), ?_, ?_, ?_⟩
    · intro j b h is h1; simp at h1
    · intro n i h; simp [Map.get?, Map.empty, Map.lookup] at h
    · intro b hb
      rw [hv] at hb
      simp [D] at hb
  obtain ⟨us1, s7, h3, -, h5⟩ := initAll_run hP.head (T := T) (bs := order) hI0 (by
      intro b hb
      refine ⟨hok.namesOk _ (List.mem_append.2 (.inr (List.mem_map.2 ⟨b, hb, rfl⟩))), ?_⟩
      intro q hq
      refine ⟨hok.namesOk _ ?_, hT2 b hb q hq⟩
      exact List.mem_append.2 (.inl (List.mem_append.2 (.inl (List.mem_append.2 (.inr (List.mem_flatMap.2
        ⟨b, hb, List.mem_map.2 ⟨q, hq, rfl⟩⟩)))))) ) hnames hnb (by
      intro n hn
      refine ⟨by simp, hlg n (hok.global n ?_)⟩
      exact List.mem_append.2 (.inl (List.mem_append.2 (.inr hn))))
  obtain ⟨lay1, hI1, hadd1⟩ := Done.initAll hI0 h3
  rw [List.nil_append] at hI1
  have hem : e' ∈ order := List.mem_of_getElem? he0
  obtain ⟨i0, h6, -⟩ := h5 e' hem
  have h7 := enterArgs_run (args := args) h6
  obtain ⟨hB1, hsy1⟩ := Done.enterArgs hI1 he0 hargs (hI1.within.ext.paramsFrom hpf) h7
  have hkeys : ∀ b ∈ order, ((s7.localBbs.insert e'.name { i0 with localDefs := args }).get? b.name).isSome := by
    intro b hb
    rw [Map.get?_insert]
    split
    · rfl
    · obtain ⟨i, h8, -⟩ := h5 b hb
      rw [h8]; rfl
  obtain ⟨us2, s9, h8, h9, h10⟩ := addAllPreds_run (bs := order) (s := { s7 with
      localSyms := args.keys ++ s7.localSyms, localBbs := s7.localBbs.insert e'.name { i0 with localDefs := args } }) (by
      intro b hb
      obtain ⟨st, h1, -⟩ := hok.ends b hb
      rw [h1]; rfl) (by
      intro b hb t ht
      obtain ⟨b', hb', rfl⟩ := (hbf.targets b hb t ht).2
      exact hkeys b' hb')
  obtain ⟨hB2, hsy2⟩ := Done.addAllPreds (D := D) (bs := order) (fun _ h => h) hB1 h8
  have hTab : Table D s9.localBbs := by
    obtain ⟨rest, ho⟩ : ∃ rest, order = e' :: rest := by
      cases order with
      | nil => simp [D] at he0
      | cons a l =>
        have he0 : (a :: l)[0]? = some e' := he0
        simp at he0
        exact ⟨l, by rw [he0]⟩
    rw [ho] at h3 h8
    exact Done.table (D := D) ho hnames (by
      intro sy
      rw [ham4]
      simp [Map.get?, Map.empty, Map.lookup, D]) rfl h3 h7 h8
  have hR : Ready D T s9 lay1 0 0 := by
    refine ⟨hB2, hTab, fun b hb => h9.keys _ (hkeys b hb), h10, ?_, ?_⟩
    · intro n i hn sy v hv
      obtain ⟨-, hdef⟩ := hB2.defs n i hn sy v hv
      have hpp : s9.prog = s7.prog := h9.prog
      cases hdef with
      | @arg b k _ a _ d1 d2 d3 =>
        obtain ⟨x, hx, -, h11, -⟩ := (hI1.within.ext.paramsFrom hpf).2 k (sy, a) v d2 d3
        refine ⟨x, .inr (by rw [hpp]; exact hx), TyIs_unique h11 ?_⟩
        exact hT1 (sy, a) (List.mem_of_getElem? d2)
      | @param b j k h is x _ a _ d1 d2 d3 d4 d5 =>
        obtain ⟨y, hy, -, h11⟩ := hB2.blks _ _ _ _ d1 d2
        have : y = x := by
          obtain ⟨fd, k1, k2⟩ := hy
          obtain ⟨fd', k3, k4⟩ := d3
          rw [k1] at k3; cases k3
          rw [k2] at k4; exact Option.some.inj k4
        subst this
        obtain ⟨z, hz, -, h12, -⟩ := h11.2 k (sy, a) v d4 d5
        exact ⟨z, .inr hz, TyIs_unique h12 (hT2 b (List.mem_of_getElem? d1) (sy, a) (List.mem_of_getElem? d4))⟩
      | inst d1 d2 d3 d4 =>
        have := hI1.empty _ (List.mem_of_getElem? d2)
        simp only at this
        rw [this] at d4
        simp at d4
    · intro n sy hd info hinfo
      obtain ⟨i1, h11, h12, -⟩ := h9.back n info hinfo
      rw [h12]
      simp only [Map.get?_insert] at h11
      cases hd with
      | @arg e0 _ a d1 d2 =>
        rw [he0] at d1; cases d1
        rw [if_pos rfl] at h11; cases h11
        exact (ham4 sy).2 (.inr (List.mem_map.2 ⟨_, d2, rfl⟩))
      | @param j' b' _ a d1 d2 =>
        rw [if_neg (by intro hx; cases order_unique hnames d1 he0 hx)] at h11
        obtain ⟨i2, h13, h14⟩ := h5 b' (List.mem_of_getElem? d1)
        rw [h13] at h11; cases h11
        exact h14 sy (List.mem_map.2 ⟨_, d2, rfl⟩)
      | inst d1 d2 d3 => omega
  obtain ⟨us3, s10, h11⟩ := buildBlocks_run hP hT3 (bs := order) (j := 0) hR rfl
    (fun q h is _ hq => hI1.empty _ (List.mem_of_getElem? hq)) (by
      intro x hx
      rw [hsy2, hsy1, hadd1.eq] at hx
      simp only [List.append_nil, List.mem_append, List.mem_reverse] at hx
      refine .inl (List.mem_append.2 ?_)
      rcases hx with hx | hx
      · rcases (ham4 x).1 (Map.mem_keys.1 hx) with h | h
        · simp [Map.get?, Map.empty, Map.lookup] at h
        · exact .inl h
      · exact .inr hx)
  refine ⟨s10, ?_⟩
  unfold buildFunDef
  refine .seq_lift (genRetType_complete hok.retTy) (.seq_lift hq ((Done.of_api hp1).seq (.seq_get (.seq_lift hfd1 ?_))))
  rw [eam]
  simp only
  refine (Done.done () _).seq (h1.seq (.seq_modify rfl (h2.seq (Done.seq (a := ()) (s1 := s9) ?_ (h11.seq (.done _ _))))))
  unfold initBbs
  refine .seq_modify rfl (h3.seq ?_)
  obtain ⟨e0, rest, ho⟩ : ∃ e0 rest, order = e0 :: rest := by
    cases order with
    | nil => simp at hhead
    | cons a l => exact ⟨a, l, rfl⟩
  have : e0 = e' := by rw [ho] at hhead; simpa using hhead
  subst this
  rw [ho]
  simp only
  rw [← ho]
  exact h7.seq (h8.seq (.done _ _))

end Koopa
