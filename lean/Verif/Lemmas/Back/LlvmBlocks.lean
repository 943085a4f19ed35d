import Verif.Lemmas.Back.LlvmTyped
/-!
The blocks, functions and items that a program is translated to are well formed.
-/
namespace Koopa
open Spec Spec.Ll

section
variable {p : Program} {M : Mod} {f : Func} {fd : FData} {N : Names} {F : Fn} {n : Nat} {ts : List Ty} {r : Ty}

/-! ### Ends of blocks -/

/-- The label of a block. -/
def LabelOf (N : Names) (c : BB) (l : Str) : Prop := N.bb c = some ('%' :: l)

theorem instOf_end {v : Value} {d : VData} {xs : List Inst} (h : InstOf p fd N v d xs) (ht : terminator d.kind = true) :
    ∃ ys t, xs = ys ++ [t] ∧ t.isEnd = true ∧ (∀ i ∈ ys, i.isEnd = false) ∧ All2 (LabelOf N) (targets d.kind) (xs.flatMap Inst.labels) := by
  cases h with
  | branch a1 a2 a3 a4 a5 =>
    refine ⟨[_], _, rfl, rfl, fun i hi => by rw [List.mem_singleton.1 hi]; rfl, ?_⟩
    rw [a1]
    exact .cons a4 (.cons a5 .nil)
  | jump a1 a2 =>
    refine ⟨[], _, rfl, rfl, fun i hi => (by cases hi), ?_⟩
    rw [a1]
    exact .cons a2 .nil
  | retVoid a1 | ret a1 =>
    refine ⟨[], _, rfl, rfl, fun i hi => (by cases hi), ?_⟩
    rw [a1]
    exact .nil
  | alloc a1 | load a1 | store a1 | getPtr a1 | getElemPtr a1 | arith a1 | compare a1 | call a1 | callVoid a1 => rw [a1] at ht; cases ht

theorem instOf_mid {v : Value} {d : VData} {xs : List Inst} (h : InstOf p fd N v d xs) (ht : terminator d.kind = false) :
    ∀ i ∈ xs, i.isEnd = false ∧ i.labels = [] := by
  cases h with
  | compare =>
    intro i hi
    rcases List.mem_cons.1 hi with rfl | hi
    · exact ⟨rfl, rfl⟩
    · rw [List.mem_singleton.1 hi]; exact ⟨rfl, rfl⟩
  | branch a1 | jump a1 | retVoid a1 | ret a1 => rw [a1] at ht; cases ht
  | alloc | load | store | getPtr | getElemPtr | arith | call | callVoid => intro i hi; rw [List.mem_singleton.1 hi]; exact ⟨rfl, rfl⟩

theorem insts_split : ∀ {vs ws : List Value} {xs : List Inst}, InstsOf p fd N (vs ++ ws) xs →
    ∃ ys zs, xs = ys ++ zs ∧ InstsOf p fd N vs ys ∧ InstsOf p fd N ws zs
  | [], _, xs, h => ⟨[], xs, rfl, .nil, h⟩
  | v :: vs, ws, _, .cons h1 h2 h3 => by
    obtain ⟨ys, zs, rfl, h4, h5⟩ := insts_split h3
    exact ⟨_, zs, (List.append_assoc ..).symm, .cons h1 h2 h4, h5⟩

/-- The translated block ends where the block ends, and control may go to the blocks that the last instruction names. -/
theorem insts_ends {is : List Value} {xs : List Inst} (h : InstsOf p fd N is xs)
    (he : ∃ init t, is = init ++ [t] ∧ (∃ x, fd.dfg.values.get? t = some x ∧ terminator x.kind = true) ∧
      ∀ v ∈ init, ∃ x, fd.dfg.values.get? v = some x ∧ terminator x.kind = false) :
    (∃ ys t, xs = ys ++ [t] ∧ t.isEnd = true ∧ ∀ i ∈ ys, i.isEnd = false) ∧
      ∃ t d, t ∈ is ∧ is.getLast? = some t ∧ fd.dfg.values.get? t = some d ∧ terminator d.kind = true ∧
        All2 (LabelOf N) (targets d.kind) (xs.flatMap Inst.labels) := by
  obtain ⟨init, t, rfl, ⟨d, hd, ht⟩, hm⟩ := he
  obtain ⟨ys, zs, rfl, h1, h2⟩ := insts_split h
  have hys : ∀ i ∈ ys, i.isEnd = false ∧ i.labels = [] := by
    intro i hi
    obtain ⟨v, x, ws, k1, k2, k3, k4, -⟩ := insts_mem' h1 hi
    obtain ⟨x', k5, k6⟩ := hm v k1
    rw [k2] at k5; cases k5
    exact instOf_mid k3 k6 i k4
  cases h2 with
  | cons e1 e2 e3 =>
    cases e3
    rw [hd] at e1; cases e1
    obtain ⟨us, i, g1, g2, g3, g4⟩ := instOf_end e2 ht
    rw [List.append_nil]
    refine ⟨⟨ys ++ us, i, by rw [g1, List.append_assoc], g2, fun k hk => ?_⟩, t, d, by simp, by simp, hd, ht, ?_⟩
    · rcases List.mem_append.1 hk with hk | hk
      · exact (hys k hk).1
      · exact g3 k hk
    · rw [List.flatMap_append, List.flatMap_eq_nil_iff.2 (fun i hi => (hys i hi).2)]
      exact g4

variable (C : TCtx p M f fd N F n ts r)
include C

/-- The block of a label. -/
theorem TCtx.block {B : Blk} (hB : B ∈ F.blks) : ∃ b is, (b, is) ∈ fd.layout.bbs ∧ BlkOf p fd N (b, is) B := by
  obtain ⟨⟨b, is⟩, h1, h2⟩ := all2_mem' C.fnOf.blks hB
  exact ⟨b, is, h1, h2⟩

/-- Control may go from a translated block where it may go from the block. -/
theorem TCtx.labels {b : BB} {is : List Value} {B : Blk} (hb : (b, is) ∈ fd.layout.bbs) (hB : BlkOf p fd N (b, is) B) :
    ∃ t d, t ∈ is ∧ fd.dfg.values.get? t = some d ∧ terminator d.kind = true ∧ exits fd is = targets d.kind ∧
      All2 (LabelOf N) (targets d.kind) B.labels := by
  obtain ⟨-, t, d, h1, h2, h3, h4, h5⟩ := insts_ends hB.2.2 (C.body.ends b is hb)
  exact ⟨t, d, h1, h3, h4, by unfold exits; rw [h2]; simp only [h3], h5⟩

/-! ### Phi nodes -/

/-- An argument passed to a block. -/
theorem TCtx.phiArg {u : Value} {c : BB} (hu : fd.layout.parentBb u = some c) {d : VData} (hd : fd.dfg.values.get? u = some d) {b : BB} (hb : b ∈ targets d.kind)
    {bd : BData} (hbd : fd.dfg.bbs.get? b = some bd) {k : Nat} {v a : Value} {x : VData} (hv : bd.params[k]? = some v) (hx : fd.dfg.values.get? v = some x)
    (ha : BackLlvm.phiArg b k d.kind = some a) : Mentionable p f fd a ∧ HasTy p f a x.ty := by
  obtain ⟨is, h1, h2⟩ := ((C.wf.parents f fd C.get).parent u c).1 hu
  obtain ⟨j, hj⟩ := List.getElem?_of_mem h1
  obtain ⟨i, hi⟩ := List.getElem?_of_mem h2
  obtain ⟨x', hx', W⟩ := C.body.insts j i c is u hj hi
  rw [hd] at hx'; cases hx'
  have T := C.instTy hd
  have key : ∀ {as : List Value} {ts' : List Ty}, ParamTys p f b ts' → All2 (HasTy p f) as ts' → as[k]? = some a → HasTy p f a x.ty := by
    rintro as ts' ⟨bd', ⟨fd', e1, e2⟩, e3⟩ e4 e5
    rw [C.get] at e1; cases e1
    rw [hbd] at e2; cases e2
    obtain ⟨t, t1, t2⟩ := all2_get e3 k v hv
    obtain ⟨t', t3, t4⟩ := all2_get e4 k a e5
    rw [t1] at t3; cases t3
    rw [C.hasTy_local t2 hx]
    exact t4
  revert T W ha hb
  generalize d.kind = K
  generalize d.ty = t
  intro hb ha W T
  cases T with
  | branch t1 t2 t3 t4 t5 t6 =>
    cases W with
    | branch w1 w2 w3 =>
      simp only [BackLlvm.phiArg] at ha
      split at ha
      · rename_i e
        subst e
        exact ⟨mentionable_usable (w2 a (List.mem_of_getElem? ha)), key t2 t4 ha⟩
      · rename_i e
        simp only [targets, List.mem_cons, List.not_mem_nil, or_false] at hb
        rcases hb with rfl | rfl
        · exact absurd rfl e
        · exact ⟨mentionable_usable (w3 a (List.mem_of_getElem? ha)), key t3 t5 ha⟩
  | jump t1 t2 =>
    cases W with
    | jump w1 =>
      simp only [BackLlvm.phiArg] at ha
      simp only [targets, List.mem_cons, List.not_mem_nil, or_false] at hb
      subst hb
      exact ⟨mentionable_usable (w1 a (List.mem_of_getElem? ha)), key t1 t2 ha⟩
  | _ => simp [BackLlvm.phiArg] at ha

/-- A block with parameters is not named twice. -/
theorem TCtx.targets_once {v : Value} {d : VData} (hd : fd.dfg.values.get? v = some d) {b : BB} {bd : BData} (hbd : fd.dfg.bbs.get? b = some bd)
    (hp : bd.params ≠ []) : ((targets d.kind).filter (· = b)).length ≤ 1 := by
  have T := C.instTy hd
  revert T
  generalize d.kind = K
  generalize d.ty = t
  intro T
  cases T with
  | branch t1 t2 t3 t4 t5 t6 =>
    rename_i c t' f' ta fa ts' fs'
    simp only [targets, List.filter_cons, List.filter_nil]
    by_cases h1 : t' = b
    · by_cases h2 : f' = b
      · exfalso
        subst h1
        obtain ⟨e1, -⟩ := t6 h2.symm
        subst e1
        cases t4
        obtain ⟨bd', ⟨fd', e1, e2⟩, e3⟩ := t2
        rw [C.get] at e1; cases e1
        rw [hbd] at e2; cases e2
        have := all2_len e3
        exact hp (List.length_eq_zero_iff.1 this)
      · simp [h1, h2]
    · by_cases h2 : f' = b <;> simp [h1, h2]
  | jump => exact Nat.le_trans (List.length_filter_le ..) (Nat.le_refl 1)
  | _ => simp [targets]

omit C in
theorem labels_filter (hN : N.Distinct) {b : BB} {l : Str} (hb : LabelOf N b l) : ∀ {cs : List BB} {ls : List Str}, All2 (LabelOf N) cs ls →
    (ls.filter (· = l)).length = (cs.filter (· = b)).length
  | [], [], .nil => rfl
  | c :: cs, l' :: ls, .cons h hs => by
    have ih := labels_filter hN hb hs
    have : (l' = l) ↔ (c = b) := by
      constructor
      · rintro rfl; exact hN.bbs _ _ _ h hb
      · rintro rfl
        have h : N.bb c = some ('%' :: l') := h
        rw [show N.bb c = some ('%' :: l) from hb] at h
        cases h; rfl
    simp only [List.filter_cons, decide_eq_true_eq]
    by_cases h1 : c = b
    · simp [this.2 h1, h1, ih]
    · simp [mt this.1 h1, h1, ih]

omit C in
theorem mem_preds {l x : Str} : x ∈ F.preds l ↔ ∃ B ∈ F.blks, l ∈ B.labels ∧ B.label = x := by
  simp only [Fn.preds, List.mem_flatMap, List.mem_map, List.mem_filter, decide_eq_true_eq]
  constructor
  · rintro ⟨B, h1, l', ⟨h2, rfl⟩, h3⟩; exact ⟨B, h1, h2, h3⟩
  · rintro ⟨B, h1, h2, h3⟩; exact ⟨B, h1, l, ⟨h2, rfl⟩, h3⟩

theorem TCtx.labelsOnce : (F.blks.map (·.label)).Nodup := by
  have h : ∀ {qs : List (BB × List Value)} {Bs : List Blk}, All2 (BlkOf p fd N) qs Bs → (qs.map (·.1)).Nodup → (Bs.map (·.label)).Nodup := by
    intro qs Bs h
    induction h with
    | nil => intro _; exact List.nodup_nil
    | cons h1 h2 ih =>
      intro hn
      simp only [List.map_cons, List.nodup_cons] at hn ⊢
      refine ⟨fun hm => hn.1 ?_, ih hn.2⟩
      obtain ⟨B, b1, b2⟩ := List.mem_map.1 hm
      obtain ⟨q, q1, q2⟩ := all2_mem' h2 b1
      have := h1.1
      rw [← b2] at this
      rw [C.distinct.bbs _ _ _ this q2.1]
      exact List.mem_map.2 ⟨q, q1, rfl⟩
  exact h C.fnOf.blks C.body.blocksOnce

/-- Nothing is said twice about where control comes from to a block with parameters. -/
theorem TCtx.preds_once {b : BB} {l : Str} (hl : LabelOf N b l) {bd : BData} (hbd : fd.dfg.bbs.get? b = some bd) (hp : bd.params ≠ []) : (F.preds l).Nodup := by
  have h1 : ∀ B ∈ F.blks, (B.labels.filter (· = l)).length ≤ 1 := by
    intro B hB
    obtain ⟨c, is, k1, k2⟩ := C.block hB
    obtain ⟨t, d, -, e2, -, -, e5⟩ := C.labels k1 k2
    rw [labels_filter C.distinct hl e5]
    exact C.targets_once e2 hbd hp
  have h2 := C.labelsOnce
  unfold Fn.preds
  generalize F.blks = Bs at h1 h2
  induction Bs with
  | nil => exact List.nodup_nil
  | cons B Bs ih =>
    simp only [List.map_cons, List.nodup_cons] at h2
    rw [List.flatMap_cons]
    refine List.nodup_append.2 ⟨?_, ih (fun B h => h1 B (List.mem_cons_of_mem _ h)) h2.2, ?_⟩
    · have := h1 B List.mem_cons_self
      match B.labels.filter (· = l), this with
      | [], _ => exact List.nodup_nil
      | [_], _ => simp
    · rintro x hx y hy rfl
      simp only [List.mem_flatMap, List.mem_map] at hx hy
      obtain ⟨_, -, rfl⟩ := hx
      obtain ⟨B', b1, _, -, b2⟩ := hy
      exact h2.1 (b2 ▸ List.mem_map.2 ⟨B', b1, rfl⟩)

/-- The last instruction of a block is the only one that names blocks. -/
theorem TCtx.one_user {u u' : Value} {d d' : VData} (h : fd.dfg.values.get? u = some d) (h' : fd.dfg.values.get? u' = some d') {b : BB} (hb : b ∈ targets d.kind)
    (hb' : b ∈ targets d'.kind) {c : BB} (hc : fd.layout.parentBb u = some c) (hc' : fd.layout.parentBb u' = some c) : u = u' := by
  have hP := C.wf.parents f fd C.get
  obtain ⟨is, h1, h2⟩ := (hP.parent u c).1 hc
  obtain ⟨is', h3, h4⟩ := (hP.parent u' c).1 hc'
  cases keys_eq C.body.blocksOnce h1 h3
  obtain ⟨init, t, rfl, -, hm⟩ := C.body.ends c is h1
  have key : ∀ w x, w ∈ init ++ [t] → fd.dfg.values.get? w = some x → terminator x.kind = true → w = t := by
    intro w x hw hx ht
    rcases List.mem_append.1 hw with hw | hw
    · obtain ⟨x', e1, e2⟩ := hm w hw
      rw [hx] at e1; cases e1
      rw [ht] at e2; cases e2
    · exact List.mem_singleton.1 hw
  rw [key u d h2 h (targets_term hb), key u' d' h4 h' (targets_term hb')]

theorem TCtx.phi_ok {b : BB} {is : List Value} {B : Blk} (hb : (b, is) ∈ fd.layout.bbs) (hB : BlkOf p fd N (b, is) B) {φ : Phi} (hφ : φ ∈ B.phis) :
    PhiOk M F B.label φ := by
  obtain ⟨hl, ⟨bd, us, hbd, hus, hphis⟩, -⟩ := hB
  obtain ⟨k, v, hk, d, hd, -, hty, hinc⟩ := phis_get hphis φ hφ
  have hne : bd.params ≠ [] := by intro e; rw [e] at hk; cases hk
  obtain ⟨bd', e1, e2⟩ := C.body.blocks b is hb
  rw [hbd] at e1; cases e1
  obtain ⟨y, e3, -, e4⟩ := e2 k v hk
  rw [hd] at e3; cases e3
  have hD := expressible_ok e4
  have hU : ∀ u, u ∈ us ↔ Targets p f u b := fun u => hus.mem_iff.trans (C.wf.blockUses f b bd ⟨fd, C.get, hbd⟩ u)
  have hT : ∀ u d', u ∈ us → fd.dfg.values.get? u = some d' → b ∈ targets d'.kind := by
    intro u d' hu hd'
    obtain ⟨y, ⟨fd', g1, g2⟩, g3⟩ := (hU u).1 hu
    rw [C.get] at g1; cases g1
    rw [hd'] at g2; cases g2
    exact g3
  have honce : (φ.inc.map (·.2)).Nodup := by
    have h : ∀ {vs : List Value} {qs : List (Opd × Str)}, All2 (IncOf fd N b (0 + k)) vs qs → vs.Nodup → (∀ u ∈ vs, u ∈ us) → (qs.map (·.2)).Nodup := by
      intro vs qs h
      induction h with
      | nil => intro _ _; exact List.nodup_nil
      | cons h1 h2 ih =>
        intro hn hs
        simp only [List.map_cons, List.nodup_cons] at hn ⊢
        refine ⟨fun hm => hn.1 ?_, ih hn.2 (fun u hu => hs u (List.mem_cons_of_mem _ hu))⟩
        obtain ⟨q, q1, q2⟩ := List.mem_map.1 hm
        obtain ⟨u, u1, d', a, c, u2, u3, u4, u5, u6⟩ := all2_mem' h2 q1
        obtain ⟨d'', a', c', v2, v3, v4, v5, v6⟩ := h1
        rw [q2] at u6
        cases C.distinct.bbs _ _ _ u6 v6
        rw [C.one_user v2 u2 (hT _ _ (hs _ List.mem_cons_self) v2) (hT _ _ (hs _ (List.mem_cons_of_mem _ u1)) u2) v5 u5]
        exact u1
    exact h hinc (hus.nodup_iff.2 (C.once b bd hbd)) (fun _ h => h)
  refine ⟨by rw [hty]; exact hD, ?_, honce, ?_⟩
  · refine (List.perm_ext_iff_of_nodup honce (C.preds_once hl hbd hne)).2 (fun x => ?_)
    rw [mem_preds, List.mem_map]
    constructor
    · rintro ⟨q, q1, rfl⟩
      obtain ⟨u, u1, d', a, c, u2, u3, u4, u5, u6⟩ := all2_mem' hinc q1
      obtain ⟨is', c1, c2⟩ := ((C.wf.parents f fd C.get).parent u c).1 u5
      obtain ⟨B', b1, b2⟩ := all2_mem C.fnOf.blks c1
      refine ⟨B', b1, ?_, ?_⟩
      · obtain ⟨t, d'', t1, t2, t3, -, t5⟩ := C.labels c1 b2
        obtain ⟨init, t', rfl, ⟨x', k1, k2⟩, k3⟩ := C.body.ends c is' c1
        have key : ∀ w z, w ∈ init ++ [t'] → fd.dfg.values.get? w = some z → terminator z.kind = true → w = t' := by
          intro w z hw hz ht
          rcases List.mem_append.1 hw with hw | hw
          · obtain ⟨z', e1, e2⟩ := k3 w hw
            rw [hz] at e1; cases e1
            rw [ht] at e2; cases e2
          · exact List.mem_singleton.1 hw
        have hub := hT u d' u1 u2
        have : u = t := by rw [key u d' c2 u2 (targets_term hub), key t d'' t1 t2 t3]
        subst this
        rw [u2] at t2; cases t2
        obtain ⟨l', l1, l2⟩ := all2_mem t5 hub
        have l2 : N.bb b = some ('%' :: l') := l2
        rw [show N.bb b = some ('%' :: B.label) from hl] at l2
        cases l2
        exact l1
      · have := b2.1
        rw [show N.bb c = _ from u6] at this
        exact (List.cons.inj (Option.some.inj this)).2.symm
    · rintro ⟨B', b1, b2, rfl⟩
      obtain ⟨c, is', c1, c2⟩ := C.block b1
      obtain ⟨t, d', t1, t2, t3, -, t5⟩ := C.labels c1 c2
      obtain ⟨b', b3, b4⟩ := all2_mem' t5 b2
      cases C.distinct.bbs _ _ _ b4 hl
      obtain ⟨q, q1, d'', a, c', u2, u3, u4, u5, u6⟩ := all2_mem hinc ((hU t).2 ⟨d', C.local t2, b3⟩)
      refine ⟨q, q1, ?_⟩
      have := ((C.wf.parents f fd C.get).parent t c).2 ⟨is', c1, t1⟩
      rw [u5] at this; cases this
      have := c2.1
      rw [show N.bb c = _ from u6] at this
      exact (List.cons.inj (Option.some.inj this)).2
  · intro q hq
    obtain ⟨u, u1, d', a, c, u2, u3, u4, u5, -⟩ := all2_mem' hinc hq
    rw [Nat.zero_add] at u3
    obtain ⟨g1, g2⟩ := C.phiArg u5 u2 (hT u d' u1 u2) hbd hk hd u3
    rw [hty]
    exact C.opd u4 g1 g2 hD

/-! ### Functions -/

theorem TCtx.fn_ok : FnOk M F := by
  obtain ⟨ts', e⟩ := C.fnOf.ty
  rw [C.ty] at e
  have er : r = F.ret := by cases e; rfl
  refine ⟨fun q hq => ?_, ?_, ?_, fun B hB => ?_⟩
  · obtain ⟨v, hv, d, h1, h2, -⟩ := all2_mem' C.fnOf.params hq
    obtain ⟨k, hk⟩ := List.getElem?_of_mem hv
    obtain ⟨x, hx, -, h3⟩ := C.body.params.2 k v hk
    rw [h1] at hx; cases hx
    rw [h2]
    exact C.tys _ (List.mem_of_getElem? h3)
  · rw [← er]; exact C.ret
  · obtain ⟨e, h1, -, h2⟩ := C.body.order
    have hF := C.fnOf.blks
    have hmem : ∀ B ∈ F.blks, ∃ b is, (b, is) ∈ fd.layout.bbs ∧ BlkOf p fd N (b, is) B := fun B h => C.block h
    generalize hl : fd.layout.bbs = qs at hF h1
    generalize hk : F.blks = Bs at hF
    cases hF with
    | nil => cases h1
    | cons g1 g2 =>
      rename_i q B qs Bs
      obtain ⟨b, is⟩ := q
      cases h1
      refine ⟨B, Bs, rfl, ?_, ?_⟩
      · obtain ⟨-, ⟨bd, us, b1, -, b2⟩, -⟩ := g1
        rw [C.entry b is qs bd hl b1] at b2
        generalize B.phis = φs at b2
        cases b2; rfl
      · rw [List.eq_nil_iff_forall_not_mem]
        intro x hx
        obtain ⟨B', b1, b2, -⟩ := mem_preds.1 hx
        obtain ⟨c, is', c1, c2⟩ := hmem B' b1
        obtain ⟨t, d, -, -, -, t4, t5⟩ := C.labels c1 c2
        obtain ⟨b', b3, b4⟩ := all2_mem' t5 b2
        cases C.distinct.bbs _ _ _ b4 g1.1
        exact ((h2 c is' c1).2 b (by rw [t4]; exact b3)).1 rfl
  · obtain ⟨b, is, h1, h2⟩ := C.block hB
    obtain ⟨h3, -⟩ := insts_ends h2.2.2 (C.body.ends b is h1)
    refine ⟨fun φ hφ => C.phi_ok h1 h2 hφ, fun i hi => ?_, h3⟩
    obtain ⟨v, d, xs, k1, k2, k3, k4, k5⟩ := insts_mem' h2.2.2 hi
    obtain ⟨j, hj⟩ := List.getElem?_of_mem h1
    obtain ⟨k, hk⟩ := List.getElem?_of_mem k1
    exact C.inst_ok hj hk k2 k3 hB k5 i k4

end

/-! ### Modules -/

/-- What is known about a function of the module. -/
theorem func_ctx {p : Program} {G : Names} (hP : Printable p) (hw : WellFormed p) (he : PlainEntries p)
    (ho : ∀ f fd b x, p.funcs.get? f = some fd → fd.dfg.bbs.get? b = some x → x.usedBy.Nodup) {Gs Fs : List Item}
    (hGs : All2 (GlobalItem p G) p.instLayout Gs)
    (hFs : All2 (fun f I => ∃ N, FNames p f G N ∧ NShape N ∧ FuncItem p N f I) p.funcLayout Fs) {f : Func} (hf : f ∈ p.funcLayout) {N : Names}
    (h1 : FNames p f G N) {fd : FData} {F : Fn} (h3 : p.funcs.get? f = some fd) (h4 : fd.dfg.bbs.isEmpty = false) (h5 : FnOf p fd N f F) :
    ∃ n ts r, TCtx p (Gs ++ Fs) f fd N F n ts r := by
  obtain ⟨n, hn⟩ := List.getElem?_of_mem hf
  obtain ⟨fd', ts, r, k1, k2⟩ := hP.funcs n f hn
  rw [h3] at k1; cases k1
  rcases k2.body with ⟨k3, -⟩ | k3
  · rw [h4] at k3; cases k3
  · refine ⟨n, ts, r, hP, hw, h3, hn, h5, k3, k2.ty, fun t ht => expressible_ok (k2.tys t ht), k2.ret.imp id expressible_ok, fun b x hb => ho f _ b x h3 hb, h1.distinct, fun b is bs bd e1 e2 => he f _ b is bs bd h3 e1 e2, ?_, ?_⟩
    · intro v m hv hm
      obtain ⟨I, i1, i2⟩ := all2_mem hGs hv
      cases i2 with
      | mk a1 a2 a3 a4 a5 =>
        have := h1.within.2 _ _ hm
        rw [a4] at this; cases this
        exact ⟨_, _, _, _, a1, a2, a3, List.mem_append_left _ i1⟩
    · intro g m gd ts' r' g1 g2 g3 g4
      have g5 : g ∈ p.funcLayout := by
        rcases List.mem_append.1 g4 with g4 | g4
        · exact List.mem_of_mem_take g4
        · rw [List.mem_singleton.1 g4]; exact hf
      obtain ⟨I, i1, N', i2, -, i3⟩ := all2_mem hFs g5
      have hm := h1.within.1 _ _ g3
      cases i3 with
      | declare a1 a2 a3 a4 =>
        rw [g1] at a1; cases a1
        rw [g2] at a3; cases a3
        have := i2.within.1 _ _ a4
        rw [hm] at this; cases this
        exact .declare (List.mem_append_right _ i1)
      | @define _ F' a1 a2 a3 =>
        rw [g1] at a1; cases a1
        have e := i2.within.1 _ _ a3.name
        rw [hm] at e; cases e
        obtain ⟨n', hn'⟩ := List.getElem?_of_mem g5
        obtain ⟨gd', ts'', r'', b1, b2⟩ := hP.funcs n' g hn'
        rw [g1] at b1; cases b1
        have e := b2.ty
        rw [g2] at e; cases e
        rcases b2.body with ⟨b3, -⟩ | b3
        · rw [a2] at b3; cases b3
        · obtain ⟨us, e⟩ := a3.ty
          rw [g2] at e
          have er : r' = _ := (Ty.func.inj e).2
          have ep : ts' = F'.params.map (·.1) := by
            refine List.ext_getElem? (fun i => ?_)
            rw [List.getElem?_map]
            have hl : gd.params.length = _ := all2_len a3.params
            cases hp : gd.params[i]? with
            | none =>
              have h6 := List.getElem?_eq_none_iff.1 hp
              rw [List.getElem?_eq_none_iff.2 (by rw [← b3.params.1]; exact h6), List.getElem?_eq_none_iff.2 (by rw [← hl]; exact h6)]
              rfl
            | some v =>
              obtain ⟨x, c1, -, c2⟩ := b3.params.2 i v hp
              obtain ⟨q, c3, d, c4, c5, -⟩ := all2_get a3.params i v hp
              rw [c1] at c4; cases c4
              rw [c2, c3, Option.map_some, c5]
          rw [er, ep]
          exact .define (List.mem_append_right _ i1) rfl

/-- The same for every function of the module. -/
theorem module_ctx {p : Program} {G : Names} (hP : Printable p) (hw : WellFormed p) (he : PlainEntries p)
    (ho : ∀ f fd b x, p.funcs.get? f = some fd → fd.dfg.bbs.get? b = some x → x.usedBy.Nodup) {Gs Fs : List Item}
    (hGs : All2 (GlobalItem p G) p.instLayout Gs)
    (hFs : All2 (fun f I => ∃ N, FNames p f G N ∧ NShape N ∧ FuncItem p N f I) p.funcLayout Fs) {F : Fn} (hF : .define F ∈ Gs ++ Fs) :
    ∃ f fd N n ts r, TCtx p (Gs ++ Fs) f fd N F n ts r := by
  rcases List.mem_append.1 hF with h | h
  · obtain ⟨v, -, h1⟩ := all2_mem' hGs h
    cases h1
  · obtain ⟨f, hf, N, h1, -, h2⟩ := all2_mem' hFs h
    cases h2 with
    | define h3 h4 h5 => exact ⟨f, _, N, func_ctx hP hw he ho hGs hFs hf h1 h3 h4 h5⟩

theorem module_ok {p : Program} {G : Names} (hP : Printable p) (hw : WellFormed p) (he : PlainEntries p)
    (ho : ∀ f fd b x, p.funcs.get? f = some fd → fd.dfg.bbs.get? b = some x → x.usedBy.Nodup) {Gs Fs : List Item}
    (hGs : All2 (GlobalItem p G) p.instLayout Gs)
    (hFs : All2 (fun f I => ∃ N, FNames p f G N ∧ NShape N ∧ FuncItem p N f I) p.funcLayout Fs) : ModOk (Gs ++ Fs) := by
  intro I hI
  cases I with
  | define F =>
    obtain ⟨f, fd, N, n, ts, r, C⟩ := module_ctx hP hw he ho hGs hFs hI
    exact .define C.fn_ok
  | declare m r ts =>
    rcases List.mem_append.1 hI with h | h
    · obtain ⟨v, -, h1⟩ := all2_mem' hGs h
      cases h1
    · obtain ⟨f, hf, N, -, -, h2⟩ := all2_mem' hFs h
      cases h2 with
      | declare h3 h4 h5 h6 =>
        obtain ⟨k, hk⟩ := List.getElem?_of_mem hf
        obtain ⟨fd', ts', r', k1, k2⟩ := hP.funcs k f hk
        rw [h3] at k1; cases k1
        have := k2.ty
        rw [h5] at this; cases this
        exact .declare (fun t ht => expressible_ok (k2.tys t ht)) (k2.ret.imp id expressible_ok)
  | global m t c =>
    rcases List.mem_append.1 hI with h | h
    · obtain ⟨v, hv, h1⟩ := all2_mem' hGs h
      cases h1 with
      | mk a1 a2 a3 a4 a5 =>
        rename_i d x i
        have hD : TyOk x.ty := by
          obtain ⟨d', i', y, b1, b2, -, b3, b4⟩ := hP.insts v hv
          rw [show p.values.get? v = some d' from b1] at a1; cases a1
          rw [b2] at a2
          have a2 := VKind.globalAlloc.inj a2
          rw [← a2, show p.values.get? i' = some y from b3] at a3; cases a3
          exact expressible_ok b4
        refine .global hD (cst_ty (fun v d h => hP.typed.globals v d h) (fun v t d h h' => ?_) a5 (hP.typed.globals i x a3) hD)
        obtain ⟨y, e3, rfl⟩ := h
        have e3 : p.values.get? v = some y := e3
        rw [h'] at e3; cases e3; rfl
    · obtain ⟨f, hf, N, -, -, h2⟩ := all2_mem' hFs h
      cases h2

end Koopa
