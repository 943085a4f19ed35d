import Verif.Lemmas.Front.NoPanic
/-!
Items that do not make the generator panic: blocks and items.
-/
namespace Koopa
open Spec

/-! ### The order of blocks -/

theorem addTargets_facts {entry : Str} {m : Map Str BlockAst} : ∀ {ts q : List Str} {n : Nat}, addTargets entry m ts = (q, n) →
    q.length ≤ ts.length ∧ (∀ x ∈ q, x ∈ m.keys) ∧ ∀ t ∈ ts, t ≠ entry → (m.get? t).isSome → t ∈ q
  | [], q, n, h => by
    simp only [addTargets, Prod.mk.injEq] at h
    obtain ⟨rfl, rfl⟩ := h
    simp
  | t :: ts, q, n, h => by
    rw [addTargets] at h
    rcases hr : addTargets entry m ts with ⟨q1, n1⟩
    rw [hr] at h
    obtain ⟨h1, h2, h3⟩ := addTargets_facts hr
    simp only at h
    split at h
    · rename_i he
      cases h
      refine ⟨by simp; omega, h2, ?_⟩
      intro x hx hne
      rcases List.mem_cons.1 hx with rfl | hx
      · exact absurd he hne
      · exact h3 x hx hne
    · split at h
      · rename_i hc
        cases h
        refine ⟨by simpa using h1, ?_, ?_⟩
        · intro x hx
          rcases List.mem_cons.1 hx with rfl | hx
          · exact Map.mem_keys.2 hc
          · exact h2 x hx
        · intro x hx hne hs
          rcases List.mem_cons.1 hx with rfl | hx
          · exact List.mem_cons_self
          · exact List.mem_cons_of_mem _ (h3 x hx hne hs)
      · rename_i hc
        cases h
        refine ⟨by simp; omega, h2, ?_⟩
        intro x hx hne hs
        rcases List.mem_cons.1 hx with rfl | hx
        · exact absurd hs hc
        · exact h3 x hx hne hs

/-- The breadth-first loop ends, whatever labels are repeated or missing. -/
theorem bfs_total {entry : Str} {m : Map Str BlockAst}
    (hm : ∀ k b, m.get? k = some b → b.name = k ∧ ∃ st, b.stmts.getLast? = some st ∧ (targetsOf st).isSome) :
    ∀ {fuel : Nat} {queue vis : List Str}, vis.Nodup → (∀ x ∈ vis, x ∈ m.keys) → (∀ x ∈ queue, x ∈ m.keys) →
    3 * m.keys.length + queue.length ≤ fuel + 3 * vis.length →
    ∃ o, bfs entry m fuel queue vis = some o ∧ (∀ b ∈ o.blocks, m.get? b.name = some b) ∧
      (∀ x ∈ queue, x ∈ vis ∨ x ∈ o.blocks.map (·.name)) ∧
      ∀ b ∈ o.blocks, ∀ t ∈ successors b, t ≠ entry → (m.get? t).isSome → t ∈ vis ∨ t ∈ o.blocks.map (·.name)
  | fuel, [], vis, _, _, _, _ => by
    refine ⟨⟨[], vis, 0⟩, by cases fuel <;> rfl, by simp, by simp, by simp⟩
  | 0, q :: queue, vis, hn, hs, hq, hf => by
    have := hn.length_le_of_subset (l₂ := m.keys) (fun x hx => hs x hx)
    simp only [List.length_cons] at hf
    omega
  | fuel + 1, name :: queue, vis, hn, hs, hq, hf => by
    rw [bfs]
    simp only [List.length_cons] at hf
    by_cases hv : name ∈ vis
    · rw [if_pos hv]
      obtain ⟨o, h1, h2, h3, h4⟩ := bfs_total (entry := entry) hm (fuel := fuel) (queue := queue) hn hs (fun x hx => hq x (by simp [hx])) (by omega)
      refine ⟨o, h1, h2, ?_, h4⟩
      intro x hx
      rcases List.mem_cons.1 hx with rfl | hx
      · exact .inl hv
      · exact h3 x hx
    · rw [if_neg hv]
      obtain ⟨b, hb⟩ := Option.isSome_iff_exists.1 (Map.mem_keys.1 (hq name (by simp)))
      obtain ⟨hbn, st, hl, ht⟩ := hm name b hb
      rcases ha : addTargets entry m (successors b) with ⟨q, e⟩
      obtain ⟨a1, a2, a3⟩ := addTargets_facts ha
      have hn' : (name :: vis).Nodup := List.nodup_cons.2 ⟨hv, hn⟩
      have hs' : ∀ x ∈ name :: vis, x ∈ m.keys := by
        intro x hx
        rcases List.mem_cons.1 hx with rfl | hx
        · exact hq _ (by simp)
        · exact hs x hx
      have := hn'.length_le_of_subset (l₂ := m.keys) (fun x hx => hs' x hx)
      have := successors_length b
      obtain ⟨o, h1, h2, h3, h4⟩ := bfs_total (entry := entry) hm (fuel := fuel) (queue := queue ++ q) hn' hs' (by
        intro x hx
        rcases List.mem_append.1 hx with hx | hx
        · exact hq x (by simp [hx])
        · exact a2 x hx) (by simp only [List.length_append, List.length_cons] at *; omega)
      refine ⟨{ o with blocks := b :: o.blocks, errs := o.errs + e }, ?_, ?_, ?_, ?_⟩
      · simp only [hb, hl, targetsOf_ok hl ht, ha, h1]
      · intro x hx
        rcases List.mem_cons.1 hx with rfl | hx
        · rw [hbn]; exact hb
        · exact h2 x hx
      · intro x hx
        simp only [List.map_cons, List.mem_cons] at hx ⊢
        rcases hx with rfl | hx
        · exact .inr (.inl hbn.symm)
        · rcases h3 x (List.mem_append.2 (.inl hx)) with h | h
          · rcases List.mem_cons.1 h with rfl | h
            · exact .inr (.inl hbn.symm)
            · exact .inl h
          · exact .inr (.inr h)
      · have key : ∀ t, t ∈ name :: vis ∨ t ∈ o.blocks.map (·.name) → t ∈ vis ∨ t ∈ (b :: o.blocks).map (·.name) := by
          rintro t (h | h)
          · rcases List.mem_cons.1 h with rfl | h
            · exact .inr (by simp [hbn])
            · exact .inl h
          · exact .inr (by rw [List.map_cons]; exact List.mem_cons_of_mem _ h)
        intro x hx t ht hne hts
        rcases List.mem_cons.1 hx with rfl | hx
        · exact key t (h3 t (List.mem_append.2 (.inr (a3 t ht hne hts))))
        · exact key t (h4 x hx t ht hne hts)

theorem blockMap_facts : ∀ {bs : List BlockAst} {m m' : Map Str BlockAst} {n : Nat}, blockMap m bs = (m', n) →
    (∀ k b, m'.get? k = some b → (b ∈ bs ∧ b.name = k) ∨ m.get? k = some b) ∧ (∀ b ∈ bs, (m'.get? b.name).isSome) ∧
    ∀ k, (m.get? k).isSome → (m'.get? k).isSome
  | [], m, m', n, h => by
    simp only [blockMap, Prod.mk.injEq] at h
    obtain ⟨rfl, rfl⟩ := h
    exact ⟨fun k b h => .inr h, by simp, fun _ h => h⟩
  | a :: bs, m, m', n, h => by
    rw [blockMap] at h
    rcases hr : blockMap (m.insert a.name a) bs with ⟨m1, n1⟩
    rw [hr] at h
    simp only [Prod.mk.injEq] at h
    obtain ⟨rfl, -⟩ := h
    obtain ⟨h1, h2, h3⟩ := blockMap_facts hr
    refine ⟨?_, ?_, ?_⟩
    · intro k b hb
      rcases h1 k b hb with ⟨h, e⟩ | h
      · exact .inl ⟨by simp [h], e⟩
      · rw [Map.get?_insert] at h
        split at h
        · rename_i he
          cases h
          exact .inl ⟨by simp, he.symm⟩
        · exact .inr h
    · intro b hb
      rcases List.mem_cons.1 hb with rfl | hb
      · exact h3 _ (by simp [Map.get?_insert])
      · exact h2 b hb
    · intro k hk
      refine h3 k ?_
      rw [Map.get?_insert]
      split
      · rfl
      · exact hk

/-- The blocks of a function are put in an order. -/
theorem blockList_total {bbs : List BlockAst} (hne : bbs ≠ [])
    (hend : ∀ b ∈ bbs, ∃ st, b.stmts.getLast? = some st ∧ (targetsOf st).isSome)
    (hto : ∀ b ∈ bbs, ∀ t ∈ successors b, ∃ b' ∈ bbs, b'.name = t) (s : BS) :
    ∃ order e w, blockList bbs s = some (.ok order, { s with errs := e, warns := w }) ∧ order ≠ [] ∧ (∀ b ∈ order, b ∈ bbs) ∧
      ∀ b ∈ order, ∀ t ∈ successors b, t ∈ order.map (·.name) := by
  cases bbs with
  | nil => exact absurd rfl hne
  | cons entry bs =>
    rcases hb : blockMap .empty (entry :: bs) with ⟨m, dups⟩
    obtain ⟨h1, h2, -⟩ := blockMap_facts hb
    have hm : ∀ k b, m.get? k = some b → b ∈ entry :: bs ∧ b.name = k := by
      intro k b h
      rcases h1 k b h with h | h
      · exact h
      · simp [Map.get?, Map.empty, Map.lookup] at h
    obtain ⟨o, h3, h4, h5, h6⟩ := bfs_total (entry := entry.name) (m := m) (fuel := bfsFuel m) (queue := [entry.name]) (vis := [])
      (fun k b h => ⟨(hm k b h).2, hend b (hm k b h).1⟩) (by simp) (by simp) (by
        intro x hx
        rw [List.mem_singleton] at hx
        subst hx
        exact Map.mem_keys.2 (h2 entry (by simp))) (by simp [bfsFuel, Map.keys])
    have he : entry.name ∈ o.blocks.map (·.name) := by simpa using h5 entry.name (by simp)
    refine ⟨o.blocks, s.errs + dups + o.errs, s.warns + (m.keys.filter (fun k => !decide (k ∈ o.visited))).length, ?_, ?_,
      fun b hb => (hm _ _ (h4 b hb)).1, ?_⟩
    · unfold blockList
      simp only [hb, h3]
    · intro h; rw [h] at he; simp at he
    · intro b hb t ht
      by_cases hte : t = entry.name
      · subst hte; exact he
      · obtain ⟨b', hb', rfl⟩ := hto b (hm _ _ (h4 b hb)).1 t ht
        simpa using h6 b hb _ ht hte (h2 b' hb')

/-! ### Preparing the blocks -/

theorem all2_of_forall {α β : Type} {R : α → β → Prop} : ∀ {as : List α}, (∀ a ∈ as, ∃ b, R a b) → ∃ bs, All2 R as bs
  | [], _ => ⟨[], .nil⟩
  | a :: as, h => by
    obtain ⟨b, hb⟩ := h a (by simp)
    obtain ⟨bs, hbs⟩ := all2_of_forall (as := as) (fun a ha => h a (by simp [ha]))
    exact ⟨b :: bs, .cons hb hbs⟩

theorem all2_proper {as : List TyAst} {ts : List Ty} (h : All2 TyIs as ts) : ∀ t ∈ ts, Proper t := by
  induction h with
  | nil => simp
  | cons h _ ih =>
    intro t ht
    rcases List.mem_cons.1 ht with rfl | ht
    · exact proper_of_tyIs h
    · exact ih t ht

theorem paramSig_ty {k : Nat → VKind} {next i : Nat} {ps : List (Option Str × Ty)} {w : Value} {sg : Sig}
    (h : paramSig k next i ps w = some sg) : sg.1 ∈ ps.map (·.2) := by
  unfold paramSig at h
  split at h
  · cases h
  · rw [Option.map_eq_some_iff] at h
    obtain ⟨q, hq, rfl⟩ := h
    exact List.mem_map.2 ⟨q, List.mem_of_getElem? hq, rfl⟩

theorem paramSig_all {k : Nat → VKind} {L : Value → Option Sig} : ∀ {ps : List (Option Str × Ty)} {next i : Nat},
    (∀ w sg, paramSig k next i ps w = some sg → L w = some sg) →
    All2 (fun v t => ∃ n kd, L v = some (t, n, kd)) (paramHandles next ps.length) (ps.map (·.2))
  | [], _, _, _ => .nil
  | (n, t) :: ps, next, i, h => by
    rw [show paramHandles next ((n, t) :: ps).length = next :: paramHandles (next + 1) ps.length by
      simp [paramHandles, List.range']]
    refine .cons ⟨n, k i, h _ _ (by rw [paramSig_cons, if_pos rfl])⟩ (paramSig_all (k := k) (i := i + 1) ?_)
    intro w sg hw
    refine h w sg ?_
    rw [paramSig_cons, if_neg]
    · exact hw
    · rintro rfl
      unfold paramSig at hw
      rw [if_pos (by omega)] at hw
      cases hw

section
variable {gs : List GlobalAst} {f : Func} {bbs : List BlockAst}

theorem defineParamsRets {P : Value → Prop} : ∀ {ps : List (Str × TyAst)} {vs : List Value} {m : Map Str Value} {s : BS},
    InBody gs f bbs s → (∀ v ∈ vs, P v) → (∀ sy v, m.get? sy = some v → P v) →
    Rets gs f bbs (defineParams ps vs m) s (fun m' _ => ∀ sy v, m'.get? sy = some v → P v)
  | [], [], m, s, h, _, hm => .pure h hm
  | [], _ :: _, m, s, h, _, hm => .pure h hm
  | _ :: _, [], m, s, h, _, hm => .pure h hm
  | (n, a) :: ps, v :: vs, m, s, h, hv, hm => by
    rw [defineParams]
    refine (symDefRets h).bind ?_
    intro _ s1 h1 _
    refine defineParamsRets h1.body (fun w hw => hv w (by simp [hw])) ?_
    intro sy w hw
    rw [Map.get?_insert] at hw
    split at hw
    · cases hw; exact hv v (by simp)
    · exact hm sy w hw

/-- A block is made. -/
theorem initBbRets {b : BlockAst} {s : BS} (h : InBody gs f bbs s) (hb : b ∈ bbs) (hn : nameOk b.name)
    (hps : ∀ q ∈ b.params, nameOk q.1) (ht : ∀ q ∈ b.params, ∃ t, TyIs q.2 t) :
    Rets gs f bbs (initBb f b) s (fun _ s' => (s'.localBbs.get? b.name).isSome) := by
  obtain ⟨ts, hts⟩ := all2_of_forall (as := b.params.map (·.2)) (R := TyIs) (by
    intro a ha
    obtain ⟨q, hq, rfl⟩ := List.mem_map.1 ha
    exact ht q hq)
  have hpr := all2_proper hts
  obtain ⟨qs, hq, hqt, hqs⟩ := genParams_complete hts hps
  have hlen : ts.length = b.params.length := by have := hts.length; simpa using this.symm
  unfold initBb
  refine .lift hq ?_
  obtain ⟨p1, hp1, i1, e1, v1⟩ := newBb_run h.inv h.head (nameOk_opt hn) hqs
  have hlay : p1.view.lay = s.prog.view.lay := by rw [v1]
  have hg1 : Larger s.prog p1 := grow_of_ext e1 (fun f' l hl => ⟨l, by rw [hlay]; exact hl, fun _ h => h⟩)
  have h1 : To gs f bbs s { s with prog := p1 } := by
    refine ⟨h.grow i1 hg1 ?_ (by show p1.view.g = _; rw [v1]) rfl rfl rfl, hg1, congrArg (fun v => v.ids.nextGlobal) v1, fun _ h => h⟩
    intro f' w sg hw
    have hw' : p1.view.l f' w = some sg := hw
    rw [v1] at hw'
    simp only at hw'
    split at hw'
    · rename_i hff; subst hff
      rw [Option.or_eq_some_iff] at hw'
      rcases hw' with hw' | ⟨-, hw'⟩
      · exact .inr (hpr _ (by rw [← hqt]; exact paramSig_ty hw'))
      · exact h.lty _ _ _ hw'
    · exact h.lty _ _ _ hw'
  have hb1 : p1.view.b f s.prog.ids.nextBb = some (tempName b.name, paramHandles s.prog.ids.nextLocal qs.length) := by
    rw [v1]; simp
  have hbt : BlockTys p1 f s.prog.ids.nextBb ts := by
    refine ⟨_, _, hb1, ?_⟩
    rw [← hqt]
    refine paramSig_all (k := VKind.blockArgRef) (i := 0) ?_
    intro w sg hw
    rw [v1]
    simp [hw]
  refine .bind (.done (.of_api hp1) h1 (Q := fun a s' => a = s.prog.ids.nextBb ∧ s' = { s with prog := p1 }) ⟨rfl, rfl⟩) ?_
  rintro _ _ - ⟨rfl, rfl⟩
  obtain ⟨l, hl⟩ := Option.isSome_iff_exists.1 h.lay
  obtain ⟨p2, hp2, i2, e2, v2⟩ := pushBb_run i1 (f := f) (l := l) (by rw [hlay]; exact hl) (b := s.prog.ids.nextBb) (by rw [hb1]; rfl) (by
    intro hm
    obtain ⟨⟨b0, is⟩, hm, hbe⟩ := List.mem_map.1 hm
    obtain ⟨x, hx⟩ := Option.isSome_iff_exists.1 ((h.inv.lays f l hl).2 b0 is hm).1
    have := h.inv.bRange hx
    simp only at hbe
    omega)
  have hl2 : p2.view.lay f = some { l with bbs := l.bbs ++ [(s.prog.ids.nextBb, [])] } := by rw [v2]; simp
  have hg2 : Larger p1 p2 := by
    refine grow_of_ext e2 ?_
    intro f' l' hl'
    by_cases hff : f' = f
    · subst hff
      rw [hlay, hl] at hl'; cases hl'
      exact ⟨_, hl2, fun b' hb' => by simp only [List.map_append, List.mem_append]; exact .inl hb'⟩
    · exact ⟨l', by rw [v2]; simp only [if_neg hff]; exact hl', fun _ h => h⟩
  have h2 : To gs f bbs { s with prog := p1 } { s with prog := p2 } := by
    refine ⟨h1.body.grow i2 hg2 ?_ (by show p2.view.g = p1.view.g; rw [v2]) rfl rfl rfl, hg2, congrArg (fun v => v.ids.nextGlobal) v2, fun _ h => h⟩
    intro f' w sg hw
    have hw' : p2.view.l f' w = some sg := hw
    rw [v2] at hw'
    exact h1.body.lty f' w sg hw'
  refine .bind (.done (.of_api' (s := { s with prog := p1 }) hp2) h2 (Q := fun _ s' => s' = { s with prog := p2 }) rfl) ?_
  rintro _ _ - rfl
  refine .get ?_
  have hbt2 := hg2.blockTys hbt
  obtain ⟨nm, ps, hb2, hal⟩ := hbt2
  have hbp : p2.bbParams f s.prog.ids.nextBb = some ps := by
    obtain ⟨x, ⟨fd, hf, hx⟩, -, rfl⟩ := view_b_iff.1 hb2
    simp [Program.bbParams, hf, hx]
  refine .lift hbp ?_
  refine (defineParamsRets (P := fun v => (p2.view.l f v).isSome) h2.body (by
    intro v hv
    obtain ⟨t, -, n, k, h⟩ := hal.memL v hv
    rw [h]; rfl) (by intro sy v h; simp [Map.get?, Map.empty, Map.lookup] at h)).bind ?_
  intro m s3 h3 hm
  have hk : ∀ n, (s3.localBbs.get? n).isSome → ((s3.localBbs.insert b.name ⟨s.prog.ids.nextBb, [], m⟩).get? n).isSome := by
    intro n hn
    rw [Map.get?_insert]
    split
    · rfl
    · exact hn
  refine .done (.of_modify rfl) ⟨⟨⟨h3.body.inv, h3.body.lty, h3.body.gty, h3.body.vars, h3.body.fns⟩, h3.body.lay, ?_⟩, .refl _, rfl, hk⟩
    (by simp [Map.get?_insert])
  intro n i hi
  simp only [Map.get?_insert] at hi
  split at hi
  · rename_i hne
    cases hi
    refine ⟨⟨b, hb, hne.symm, ts, h3.grow.blockTys ⟨nm, ps, hb2, hal⟩, hlen, hpr⟩, ?_, by simp, ?_⟩
    · obtain ⟨l', hl', hm'⟩ := h3.grow.lay f _ hl2
      exact ⟨l', hl', hm' _ (by simp)⟩
    · intro sy v hv
      obtain ⟨⟨t, n, k⟩, h4⟩ := Option.isSome_iff_exists.1 (hm sy v hv)
      obtain ⟨n', h5⟩ := h3.grow.l f v t n k h4
      rw [show ({ s3 with localBbs := _ } : BS).prog = s3.prog from rfl, h5]; rfl
  · exact (h3.body.table n i hi).grow (.refl _) hk

theorem initAllRets : ∀ {bs : List BlockAst} {s : BS}, InBody gs f bbs s → (∀ b ∈ bs, b ∈ bbs ∧ nameOk b.name ∧
    (∀ q ∈ b.params, nameOk q.1) ∧ ∀ q ∈ b.params, ∃ t, TyIs q.2 t) →
    Rets gs f bbs (B.each (initBb f) bs) s (fun _ s' => ∀ b ∈ bs, (s'.localBbs.get? b.name).isSome)
  | [], s, h, _ => .pure h (by simp)
  | b :: bs, s, h, hb => by
    rw [B.each]
    obtain ⟨h1, h2, h3, h4⟩ := hb b (by simp)
    refine (initBbRets h h1 h2 h3 h4).bind ?_
    intro _ s1 h5 h6
    refine (initAllRets (bs := bs) h5.body (fun b hm => hb b (by simp [hm]))).bind ?_
    intro _ s2 h7 h8
    refine .pure h7.body ?_
    intro x hx
    rcases List.mem_cons.1 hx with rfl | hx
    · exact h7.keys _ h6
    · exact h8 x hx

theorem addPredRets {n t : Str} {s : BS} (h : InBody gs f bbs s) (hn : (s.localBbs.get? n).isSome) (ht : (s.localBbs.get? t).isSome) :
    Rets gs f bbs (addPred n t) s (fun _ _ => True) := by
  obtain ⟨i, hi⟩ := Option.isSome_iff_exists.1 ht
  unfold addPred
  refine .get ?_
  simp only [hi]
  have hk : ∀ x, (s.localBbs.get? x).isSome → ((s.localBbs.insert t { i with preds := i.preds ++ [n] }).get? x).isSome := by
    intro x hx
    rw [Map.get?_insert]
    split
    · rfl
    · exact hx
  refine .done (.of_modify rfl) ⟨⟨⟨h.inv, h.lty, h.gty, h.vars, h.fns⟩, h.lay, ?_⟩, .refl _, rfl, hk⟩ trivial
  intro m j hj
  simp only [Map.get?_insert] at hj
  split at hj
  · rename_i he; subst he; cases hj
    have h0 := h.table m i hi
    refine ⟨h0.block, h0.laid, ?_, h0.defs⟩
    intro q hq
    refine hk q ?_
    rcases List.mem_append.1 hq with hq | hq
    · exact h0.preds q hq
    · rw [List.mem_singleton] at hq; subst hq; exact hn
  · exact (h.table m j hj).grow (.refl _) hk

theorem addPredsRets {b : BlockAst} {s : BS} (h : InBody gs f bbs s) (hn : (s.localBbs.get? b.name).isSome)
    (hl : b.stmts.getLast?.isSome) (ht : ∀ t ∈ successors b, (s.localBbs.get? t).isSome) :
    Rets gs f bbs (addPreds b) s (fun _ _ => True) := by
  obtain ⟨last, hl⟩ := Option.isSome_iff_exists.1 hl
  have he : successors b = predTargets last := by
    unfold successors
    rw [hl]
    cases last <;> rfl
  unfold addPreds
  simp only [hl]
  refine (eachRets h ?_).bind ?_
  · intro t hm s' h'
    exact addPredRets h'.body (h'.keys _ hn) (h'.keys _ (ht t (by rw [he]; exact hm)))
  · intro _ s1 h1 _
    exact .pure h1.body trivial

/-- The blocks of a function are prepared and generated. -/
theorem bodyRets {args : Map Str Value} {r : Ty} {order : List BlockAst} {s : BS} (h : Fit gs s) (hlay : (s.prog.view.lay f).isSome)
    (hargs : ∀ sy v, args.get? sy = some v → (s.prog.view.l f v).isSome) (hne : order ≠ []) (hin : ∀ b ∈ order, b ∈ bbs)
    (hto : ∀ b ∈ order, ∀ t ∈ successors b, t ∈ order.map (·.name)) (hr : OkTy r)
    (hb : ∀ b ∈ bbs, BlockHarmless gs bbs b) (hN : ∀ b ∈ bbs, BlockNamed nameOk b)
    (hend : ∀ b ∈ bbs, b.stmts.getLast?.isSome) :
    ∃ x s', (initBbs f args order >>= fun _ => B.each (buildBlock f r) order >>= fun _ => Pure.pure ()) s = some (x, s') ∧
      Fit gs s' ∧ s'.prog.ids.nextGlobal = s.prog.ids.nextGlobal := by
  have h0 : InBody gs f bbs { s with localBbs := .empty } := by
    refine ⟨⟨h.inv, h.lty, h.gty, h.vars, h.fns⟩, hlay, ?_⟩
    intro n i hi
    simp [Map.get?, Map.empty, Map.lookup] at hi
  cases order with
  | nil => exact absurd rfl hne
  | cons entry rest =>
    have key : Rets gs f bbs ((do
        let _ ← B.each (initBb f) (entry :: rest)
        enterArgs args entry
        let _ ← B.each addPreds (entry :: rest)
        return () : B Unit) >>= fun _ => B.each (buildBlock f r) (entry :: rest) >>= fun _ => Pure.pure ())
        { s with localBbs := .empty } (fun _ _ => True) := by
      refine Rets.bind (Q := fun _ s' => ∀ b ∈ entry :: rest, (s'.localBbs.get? b.name).isSome) ?_ ?_
      · refine (initAllRets h0 ?_).bind ?_
        · intro b hm
          exact ⟨hin b hm, (hN b (hin b hm)).1, (hN b (hin b hm)).2.1, (hb b (hin b hm)).params⟩
        · intro _ s1 h1 hall
          obtain ⟨i, hi⟩ := Option.isSome_iff_exists.1 (hall entry (by simp))
          have hk : ∀ x, (s1.localBbs.get? x).isSome → ((s1.localBbs.insert entry.name { i with localDefs := args }).get? x).isSome := by
            intro x hx
            rw [Map.get?_insert]
            split
            · rfl
            · exact hx
          have h2 : To gs f bbs s1 { s1 with
              localSyms := args.keys ++ s1.localSyms, localBbs := s1.localBbs.insert entry.name { i with localDefs := args } } := by
            refine ⟨⟨⟨h1.body.inv, h1.body.lty, h1.body.gty, h1.body.vars, h1.body.fns⟩, h1.body.lay, ?_⟩, .refl _, rfl, hk⟩
            intro m j hj
            simp only [Map.get?_insert] at hj
            split at hj
            · rename_i he; subst he; cases hj
              have h0 := h1.body.table _ i hi
              refine ⟨h0.block, h0.laid, fun q hq => hk q (h0.preds q hq), ?_⟩
              intro sy v hv
              obtain ⟨⟨t, n, k⟩, h4⟩ := Option.isSome_iff_exists.1 (hargs sy v hv)
              obtain ⟨n', h5⟩ := h1.grow.l f v t n k h4
              rw [show ({ s1 with localSyms := _, localBbs := _ } : BS).prog = s1.prog from rfl, h5]; rfl
            · exact (h1.body.table m j hj).grow (.refl _) hk
          refine .bind (.done (enterArgs_run hi) h2 (Q := fun _ s' => ∀ b ∈ entry :: rest, (s'.localBbs.get? b.name).isSome)
            (fun b hb => hk _ (hall b hb))) ?_
          intro _ s3 h3 hall3
          have h4 : Rets gs f bbs (B.each addPreds (entry :: rest)) s3 (fun _ _ => True) := by
            refine eachRets h3.body ?_
            intro b hm s' h'
            refine addPredsRets h'.body (h'.keys _ (hall3 b hm)) (hend b (hin b hm)) ?_
            intro t ht
            obtain ⟨b', hb', rfl⟩ := List.mem_map.1 (hto b hm t ht)
            exact h'.keys _ (hall3 b' hb')
          obtain ⟨x, s4, h5, h6, h7⟩ := h4
          cases x with
          | error e => exact ⟨.error e, s4, by rw [B.bind_eq, h5], h6, by simp⟩
          | ok us => exact ⟨.ok (), s4, by rw [B.bind_eq, h5]; rfl, h6, fun _ _ b hb => h6.keys _ (hall3 b hb)⟩
      · intro _ s1 h1 hall
        refine (eachRets h1.body ?_).bind ?_
        · intro b hm s' h'
          exact blockRets h'.body (h'.keys _ (hall b hm)) hr (hb b (hin b hm)).stmts (hN b (hin b hm)).2.2
        · intro _ s2 h2 _
          exact .pure h2.body trivial
    obtain ⟨x, s', h1, h2, -⟩ := key
    exact ⟨x, s', h1, h2.body.toFit, h2.glob⟩

end

end Koopa
