import Verif.Lemmas.Back.LlvmReady
/-!
No name is defined twice in the module that a program is translated to.
-/
namespace Koopa
open Spec Spec.Ll

theorem ents_nodup {N : Names} (hN : N.Distinct) : ∀ {es : List Ent} {ns : List Str}, es.map N.ent = ns.map some → es.Nodup → ns.Nodup
  | [], [], _, _ => .nil
  | [], _ :: _, h, _ => by cases h
  | _ :: _, [], h, _ => by cases h
  | e :: es, n :: ns, h, hd => by
    simp only [List.map_cons, List.cons.injEq] at h
    rw [List.nodup_cons] at hd ⊢
    refine ⟨fun hm => hd.1 ?_, ents_nodup hN h.2 hd.2⟩
    have : some n ∈ es.map N.ent := by rw [h.2]; exact List.mem_map.2 ⟨n, hm, rfl⟩
    obtain ⟨e', h1, h2⟩ := List.mem_map.1 this
    rw [hN.ents e e' n h.1 h2]
    exact h1

/-- The value that an entity belongs to. -/
def Ent.owner : Ent → Option Value
  | .value v => some v
  | .temp v => some v
  | _ => none

/-- The names are those of different entities that belong to the value. -/
def Owns (N : Names) (v : Value) (ns : List Str) : Prop :=
  ∃ es : List Ent, es.map N.ent = ns.map some ∧ es.Nodup ∧ ∀ e ∈ es, Ent.owner e = some v

theorem owns_ents {N : Names} : ∀ {V : List Value} {nss : List (List Str)}, All2 (Owns N) V nss → V.Nodup →
    ∃ es : List Ent, es.map N.ent = nss.flatten.map some ∧ es.Nodup ∧ ∀ e ∈ es, ∃ v ∈ V, Ent.owner e = some v
  | _, _, .nil, _ => ⟨[], rfl, .nil, fun _ h => by cases h⟩
  | _, _, .cons (a := v) h hs, hd => by
    rw [List.nodup_cons] at hd
    obtain ⟨es, h1, h2, h3⟩ := h
    obtain ⟨es', k1, k2, k3⟩ := owns_ents hs hd.2
    refine ⟨es ++ es', by simp [h1, k1], List.nodup_append.2 ⟨h2, k2, ?_⟩, ?_⟩
    · rintro a ha b hb rfl
      obtain ⟨w, hw, hw'⟩ := k3 a hb
      rw [h3 a ha] at hw'
      cases hw'
      exact hd.1 hw
    · intro e he
      rcases List.mem_append.1 he with he | he
      · exact ⟨v, List.mem_cons_self .., h3 e he⟩
      · obtain ⟨w, hw, hw'⟩ := k3 e he
        exact ⟨w, List.mem_cons_of_mem _ hw, hw'⟩

theorem owns_one {N : Names} {v : Value} {n : Str} (h : N.ent (.value v) = some n) : Owns N v [n] :=
  ⟨[.value v], by simp [h], by simp, fun e he => by rw [List.mem_singleton.1 he]; rfl⟩

theorem owns_none {N : Names} {v : Value} : Owns N v [] := ⟨[], rfl, .nil, fun _ h => by cases h⟩

theorem inst_owns {p : Program} {fd : FData} {N : Names} {v : Value} {d : VData} {xs : List Inst} (h : InstOf p fd N v d xs) : Owns N v (xs.flatMap Inst.defs) := by
  cases h with
  | alloc _ _ h => exact owns_one h
  | load _ h _ => exact owns_one h
  | getPtr _ h _ _ _ => exact owns_one h
  | getElemPtr _ h _ _ _ => exact owns_one h
  | arith _ _ h _ _ => exact owns_one h
  | compare _ _ h h' _ _ => exact ⟨[.temp v, .value v], by simp [h, h', Inst.defs], by simp, fun e he => by
      simp only [List.mem_cons, List.not_mem_nil, or_false] at he
      rcases he with rfl | rfl <;> rfl⟩
  | branch _ h _ _ _ => exact ⟨[.temp v], by simp [h, Inst.defs], by simp, fun e he => by rw [List.mem_singleton.1 he]; rfl⟩
  | call _ _ h _ _ => exact owns_one h
  | _ => exact owns_none

theorem insts_own {p : Program} {fd : FData} {N : Names} {vs : List Value} {xs : List Inst} (h : InstsOf p fd N vs xs) :
    ∃ nss, All2 (Owns N) vs nss ∧ nss.flatten = xs.flatMap Inst.defs := by
  induction h with
  | nil => exact ⟨[], .nil, rfl⟩
  | cons _ h _ ih =>
    obtain ⟨nss, h1, h2⟩ := ih
    exact ⟨_ :: nss, .cons (inst_owns h) h1, by simp [h2]⟩

theorem phis_own {fd : FData} {N : Names} {b : BB} {us : List Value} {i : Nat} {vs : List Value} {φs : List Phi} (h : PhisOf fd N b us i vs φs) :
    ∃ nss, All2 (Owns N) vs nss ∧ nss.flatten = φs.map (·.name) := by
  induction h with
  | nil => exact ⟨[], .nil, rfl⟩
  | cons h _ ih =>
    obtain ⟨nss, h1, h2⟩ := ih
    obtain ⟨d, -, h3, -⟩ := h
    exact ⟨_ :: nss, .cons (owns_one h3) h1, by simp [h2]⟩

theorem params_own {fd : FData} {N : Names} : ∀ {vs : List Value} {qs : List (Ty × Str)}, All2 (ParamOf fd N) vs qs →
    ∃ nss, All2 (Owns N) vs nss ∧ nss.flatten = qs.map (·.2)
  | _, _, .nil => ⟨[], .nil, rfl⟩
  | _, _, .cons h hs => by
    obtain ⟨nss, h1, h2⟩ := params_own hs
    obtain ⟨d, -, -, h3⟩ := h
    exact ⟨_ :: nss, .cons (owns_one h3) h1, by simp [h2]⟩

/-- The parameters of a block. -/
def blockParams (fd : FData) (q : BB × List Value) : List Value := match fd.dfg.bbs.get? q.1 with
  | some bd => bd.params
  | none => []

theorem blks_own {p : Program} {fd : FData} {N : Names} : ∀ {bs : List (BB × List Value)} {Bs : List Blk}, All2 (BlkOf p fd N) bs Bs →
    (∃ nss, All2 (Owns N) (bs.flatMap (blockParams fd)) nss ∧ nss.flatten = Bs.flatMap (fun b => b.phis.map (·.name))) ∧
    (∃ nss, All2 (Owns N) (bs.flatMap (·.2)) nss ∧ nss.flatten = Bs.flatMap (fun b => b.insts.flatMap Inst.defs)) ∧
    bs.map (fun q => N.bb q.1) = Bs.map (fun b => some ('%' :: b.label))
  | _, _, .nil => ⟨⟨[], .nil, rfl⟩, ⟨[], .nil, rfl⟩, rfl⟩
  | _, _, .cons (a := q) h hs => by
    obtain ⟨⟨n1, a1, a2⟩, ⟨n2, b1, b2⟩, c⟩ := blks_own hs
    obtain ⟨h1, ⟨bd, us, h2, -, h3⟩, h4⟩ := h
    obtain ⟨m1, d1, d2⟩ := phis_own h3
    obtain ⟨m2, e1, e2⟩ := insts_own h4
    have hq : blockParams fd q = bd.params := by unfold blockParams; rw [h2]
    refine ⟨⟨m1 ++ n1, ?_, by simp [a2, d2]⟩, ⟨m2 ++ n2, ?_, by simp [b2, e2]⟩, by simp [h1, c]⟩
    · rw [List.flatMap_cons, hq]; exact all2_append d1 a1
    · rw [List.flatMap_cons]; exact all2_append e1 b1

theorem kinds_nodup {fd : FData} {mk : Nat → VKind} (hmk : ∀ a b, mk a = mk b → a = b) {vs : List Value}
    (h : ∀ (i : Nat) v, vs[i]? = some v → ∃ x, fd.dfg.values.get? v = some x ∧ x.kind = mk i) : vs.Nodup := by
  rw [List.nodup_iff_pairwise_ne, List.pairwise_iff_getElem]
  intro i j hi hj hij e
  obtain ⟨x, h1, h2⟩ := h i _ (List.getElem?_eq_getElem hi)
  obtain ⟨y, h3, h4⟩ := h j _ (List.getElem?_eq_getElem hj)
  rw [e, h3] at h1
  cases h1
  have := hmk _ _ (h2.symm.trans h4)
  omega

/-- No value is twice among the parameters and instructions of a function. -/
theorem body_nodup {p : Program} {before : List Func} {f : Func} {fd : FData} {ts : List Ty} {r : Ty} (h : PrintableBody p before f fd ts r) :
    (fd.params ++ (fd.layout.bbs.flatMap (blockParams fd) ++ fd.layout.bbs.flatMap (·.2))).Nodup := by
  have hpar : ∀ v ∈ fd.params, ∃ x i, fd.dfg.values.get? v = some x ∧ x.kind = .funcArgRef i := by
    intro v hv
    obtain ⟨i, hi⟩ := List.getElem?_of_mem hv
    obtain ⟨x, h1, h2, -⟩ := h.params.2 i v hi
    exact ⟨x, i, h1, h2⟩
  have hblk : ∀ v ∈ fd.layout.bbs.flatMap (blockParams fd), ∃ x i, fd.dfg.values.get? v = some x ∧ x.kind = .blockArgRef i := by
    intro v hv
    obtain ⟨⟨b, is⟩, h1, h2⟩ := List.mem_flatMap.1 hv
    obtain ⟨x, h3, h4⟩ := h.blocks b is h1
    unfold blockParams at h2
    simp only [h3] at h2
    obtain ⟨i, hi⟩ := List.getElem?_of_mem h2
    obtain ⟨y, h5, h6, -⟩ := h4 i v hi
    exact ⟨y, i, h5, h6⟩
  have hins : ∀ v ∈ fd.layout.bbs.flatMap (·.2), ∃ x, fd.dfg.values.get? v = some x ∧ (∀ i, x.kind ≠ .funcArgRef i) ∧ ∀ i, x.kind ≠ .blockArgRef i := by
    intro v hv
    obtain ⟨⟨b, is⟩, h1, h2⟩ := List.mem_flatMap.1 hv
    obtain ⟨j, hj⟩ := List.getElem?_of_mem h1
    obtain ⟨i, hi⟩ := List.getElem?_of_mem h2
    obtain ⟨x, h3, h4⟩ := h.insts j i b is v hj hi
    refine ⟨x, h3, ?_, ?_⟩ <;> (intro k hk; rw [hk] at h4; cases h4)
  refine List.nodup_append.2 ⟨?_, List.nodup_append.2 ⟨?_, h.instsOnce, ?_⟩, ?_⟩
  · exact kinds_nodup (mk := .funcArgRef) (by intro a b e; cases e; rfl) (fun i v hv => by
      obtain ⟨x, h1, h2, -⟩ := h.params.2 i v hv
      exact ⟨x, h1, h2⟩)
  · have key : ∀ bs : List (BB × List Value), (∀ q ∈ bs, q ∈ fd.layout.bbs) → (bs.map (·.1)).Nodup → (bs.flatMap (blockParams fd)).Nodup := by
      intro bs
      induction bs with
      | nil => intro _ _; exact .nil
      | cons q bs ih =>
        intro hq hd
        rw [List.map_cons, List.nodup_cons] at hd
        obtain ⟨b, is⟩ := q
        obtain ⟨x, h3, h4⟩ := h.blocks b is (hq _ (List.mem_cons_self ..))
        have hx : blockParams fd (b, is) = x.params := by unfold blockParams; simp only [h3]
        rw [List.flatMap_cons, hx]
        refine List.nodup_append.2 ⟨?_, ih (fun q h => hq q (List.mem_cons_of_mem _ h)) hd.2, ?_⟩
        · exact kinds_nodup (mk := .blockArgRef) (by intro a b e; cases e; rfl) (fun i v hv => by
            obtain ⟨y, h1, h2, -⟩ := h4 i v hv
            exact ⟨y, h1, h2⟩)
        · rintro v hv w hw rfl
          obtain ⟨⟨b', is'⟩, k1, k2⟩ := List.mem_flatMap.1 hw
          obtain ⟨x', k3, -⟩ := h.blocks b' is' (hq _ (List.mem_cons_of_mem _ k1))
          unfold blockParams at k2
          simp only [k3] at k2
          have := h.paramsOnce b b' x x' v (List.mem_map.2 ⟨_, hq _ (List.mem_cons_self ..), rfl⟩)
            (List.mem_map.2 ⟨_, hq _ (List.mem_cons_of_mem _ k1), rfl⟩) h3 k3 hv k2
          exact hd.1 (List.mem_map.2 ⟨(b', is'), k1, this.symm⟩)
    exact key _ (fun _ h => h) h.blocksOnce
  · rintro v hv w hw rfl
    obtain ⟨x, i, h1, h2⟩ := hblk v hv
    obtain ⟨y, h3, -, h4⟩ := hins v hw
    rw [h1] at h3; cases h3
    exact h4 i h2
  · rintro v hv w hw rfl
    obtain ⟨x, i, h1, h2⟩ := hpar v hv
    rcases List.mem_append.1 hw with hw | hw
    · obtain ⟨y, j, h3, h4⟩ := hblk v hw
      rw [h1] at h3; cases h3
      rw [h2] at h4; cases h4
    · obtain ⟨y, h3, h4, -⟩ := hins v hw
      rw [h1] at h3; cases h3
      exact h4 i h2

theorem bbs_nodup {N : Names} (hN : N.Distinct) : ∀ {bs : List (BB × List Value)} {ls : List Str},
    bs.map (fun q => N.bb q.1) = ls.map (fun l => some ('%' :: l)) → (bs.map (·.1)).Nodup → ls.Nodup
  | [], [], _, _ => .nil
  | [], _ :: _, h, _ => by cases h
  | _ :: _, [], h, _ => by cases h
  | b :: bs, l :: ls, h, hd => by
    simp only [List.map_cons, List.cons.injEq] at h
    rw [List.map_cons, List.nodup_cons] at hd
    rw [List.nodup_cons]
    refine ⟨fun hm => hd.1 ?_, bbs_nodup hN h.2 hd.2⟩
    have : some ('%' :: l) ∈ bs.map (fun q => N.bb q.1) := by rw [h.2]; exact List.mem_map.2 ⟨l, hm, rfl⟩
    obtain ⟨b', h1, h2⟩ := List.mem_map.1 this
    rw [hN.bbs _ _ _ h.1 h2]
    exact List.mem_map.2 ⟨b', h1, rfl⟩

theorem items_ents {p : Program} {G : Names} : ∀ {vs : List Value} {Gs : List Item}, All2 (GlobalItem p G) vs Gs →
    (vs.map Ent.global).map G.ent = (Gs.map Item.name).map some
  | _, _, .nil => rfl
  | _, _, .cons h hs => by
    cases h with
    | mk _ _ _ h _ => simp [h, Item.name, ← items_ents hs]

theorem funcs_ents {p : Program} {G : Names} : ∀ {fs : List Func} {Fs : List Item}, All2 (fun f I => ∃ N, FNames p f G N ∧ NShape N ∧ FuncItem p N f I) fs Fs →
    (fs.map Ent.func).map G.ent = (Fs.map Item.name).map some
  | _, _, .nil => rfl
  | _, _, .cons h hs => by
    obtain ⟨N, h1, -, h2⟩ := h
    have := funcs_ents hs
    cases h2 with
    | declare _ _ _ h3 => simp [h1.within.1 _ _ h3, Item.name, ← this]
    | define _ _ h3 => simp [h1.within.1 _ _ h3.name, Item.name, ← this]

/-- No two places of the module have the same entity. -/
structure ModNodup (p : Program) : Prop where
  insts : p.instLayout.Nodup
  funcs : p.funcLayout.Nodup
  body : ∀ f fd, f ∈ p.funcLayout → p.funcs.get? f = some fd → fd.dfg.bbs.isEmpty = false →
    (fd.params ++ (fd.layout.bbs.flatMap (blockParams fd) ++ fd.layout.bbs.flatMap (·.2))).Nodup ∧ (fd.layout.bbs.map (·.1)).Nodup

theorem Spec.Printable.modNodup {p : Program} (hP : Printable p) : ModNodup p := by
  refine ⟨hP.instsOnce, hP.funcsOnce, fun f fd hf h3 h4 => ?_⟩
  obtain ⟨i, hi⟩ := List.getElem?_of_mem hf
  obtain ⟨fd', ts, r, k1, k2⟩ := hP.funcs i f hi
  rw [h3] at k1; cases k1
  rcases k2.body with ⟨k3, -⟩ | k3
  · rw [h4] at k3; cases k3
  · exact ⟨body_nodup k3, k3.blocksOnce⟩

theorem module_well_named {p : Program} {G : Names} (hP : ModNodup p) {Gs Fs : List Item} (hG : G.Distinct) (hGs : All2 (GlobalItem p G) p.instLayout Gs)
    (hFs : All2 (fun f I => ∃ N, FNames p f G N ∧ NShape N ∧ FuncItem p N f I) p.funcLayout Fs) : WellNamed (Gs ++ Fs) := by
  have key : ∀ F, .define F ∈ Gs ++ Fs → F.defs.Nodup ∧ (F.blks.map (·.label)).Nodup := by
    intro F hF
    rcases List.mem_append.1 hF with h | h
    · obtain ⟨v, -, h1⟩ := all2_mem' hGs h
      cases h1
    · obtain ⟨f, hf, N, h1, -, h2⟩ := all2_mem' hFs h
      cases h2 with
      | define h3 h4 h5 =>
        obtain ⟨k1, k2⟩ := hP.body _ _ hf h3 h4
        obtain ⟨n1, a1, a2⟩ := params_own h5.params
        obtain ⟨⟨n2, b1, b2⟩, ⟨n3, c1, c2⟩, d⟩ := blks_own h5.blks
        obtain ⟨es, e1, e2, -⟩ := owns_ents (all2_append a1 (all2_append b1 c1)) k1
        refine ⟨ents_nodup h1.distinct (es := es) ?_ e2, bbs_nodup h1.distinct (bs := _) ?_ k2⟩
        · rw [e1]; simp [Fn.defs, a2, b2, c2]
        · rw [d]; simp
  refine ⟨?_, fun F h => (key F h).1, fun F h => (key F h).2⟩
  refine ents_nodup hG (es := p.instLayout.map .global ++ p.funcLayout.map .func) ?_ ?_
  · rw [List.map_append, items_ents hGs, funcs_ents hFs, List.map_append, List.map_append]
  · refine List.nodup_append.2 ⟨?_, ?_, ?_⟩
    · exact List.Pairwise.map _ (fun a b h e => h (Ent.global.inj e)) hP.insts
    · exact List.Pairwise.map _ (fun a b h e => h (Ent.func.inj e)) hP.funcs
    · rintro a ha b hb rfl
      obtain ⟨v, -, rfl⟩ := List.mem_map.1 ha
      obtain ⟨f, -, h⟩ := List.mem_map.1 hb
      cases h

/-- Names made from names that are apart differ. -/
theorem names_apart {p : Program} (hn : LlvmNames p) (ha : LabelsApart p) {f : Func} {v : Value} {b : BB} {x l : Option Str} (hx : ValueNamed p f v x)
    (hl : LabelNamed p f b l) {n : Str} (h : FromName x n) (h' : FromName l n) (hk : ∀ k, ¬ TempNo llvmKs n k) : False := by
  obtain ⟨d, h1, rfl⟩ := hx
  obtain ⟨e, h2, rfl⟩ := hl
  cases hd : d.name with
  | none => rw [hd] at h; obtain ⟨k, h⟩ := h; exact hk k h
  | some x =>
    cases he : e.name with
    | none => rw [he] at h'; obtain ⟨k, h⟩ := h'; exact hk k h
    | some l =>
      rw [hd] at h
      rw [he] at h'
      obtain ⟨a1, a2⟩ := ha.apart f v d b e x l h1 h2 hd he
      have key : ∀ y, AsciiName y → ∃ c s, y = c :: s ∧ (c = '@' ∨ c = '%') ∧ s.head? ≠ some '$' := by
        rintro y ⟨c, s, rfl, hc, hs⟩
        refine ⟨c, s, rfl, hc, fun h => ?_⟩
        cases s with
        | nil => cases h
        | cons z t =>
          have : z = '$' := by simpa using h
          subst this
          exact not_dollar hs _ rfl
      have suff : ∀ y i, (∃ c s, y = c :: s ∧ (c = '@' ∨ c = '%') ∧ s.head? ≠ some '$') → ∃ c s, suffixed y i = c :: s ∧ (c = '@' ∨ c = '%') ∧ s.head? ≠ some '$' := by
        rintro y i ⟨c, s, rfl, hc, hs⟩
        refine ⟨c, s ++ '_' :: showNat i, rfl, hc, ?_⟩
        cases s with
        | nil => simp
        | cons z t => simpa using hs
      have inj : ∀ y z, (∃ c s, y = c :: s ∧ (c = '@' ∨ c = '%') ∧ s.head? ≠ some '$') → (∃ c s, z = c :: s ∧ (c = '@' ∨ c = '%') ∧ s.head? ≠ some '$') →
          llvmLocal y = llvmLocal z → y = z := by
        rintro y z ⟨c, s, rfl, hc, hs⟩ ⟨c', s', rfl, hc', hs'⟩ h
        exact llvmLocal_inj hc hc' hs hs' h
      have k1 := key x (hn.locals f v d x h1 hd)
      have k2 := key l (hn.bbs f b e l h2 he)
      rcases from_local (hn.locals f v d x h1 hd) (ha.values f v d x h1 hd) h hk with rfl | ⟨i, rfl⟩ <;>
        rcases from_local (hn.bbs f b e l h2 he) (ha.bbs f b e l h2 he) h' hk with h3 | ⟨j, h3⟩
      · exact a1 (inj _ _ k1 k2 h3)
      · exact (a2 j).1 (inj _ _ k1 (suff _ _ k2) h3)
      · exact (a2 i).2 (inj _ _ (suff _ _ k1) k2 h3).symm
      · exact a1 (suffixed_base (inj _ _ (suff _ _ k1) (suff _ _ k2) h3))

theorem module_labels {p : Program} {G : Names} (hP : Printable p) (hn : LlvmNames p) (ha : LabelsApart p) {Gs Fs : List Item} (hGs : All2 (GlobalItem p G) p.instLayout Gs)
    (hFs : All2 (fun f I => ∃ N, FNames p f G N ∧ NShape N ∧ FuncItem p N f I) p.funcLayout Fs) : LabelsDiffer (Gs ++ Fs) := by
  intro F hF B hB hm
  rcases List.mem_append.1 hF with h | h
  · obtain ⟨v, -, h1⟩ := all2_mem' hGs h
    cases h1
  · obtain ⟨f, hf, N, h1, -, h2⟩ := all2_mem' hFs h
    cases h2 with
    | define h3 h4 h5 =>
      obtain ⟨i, hi⟩ := List.getElem?_of_mem hf
      obtain ⟨fd, ts, r, k1, k2⟩ := hP.funcs i f hi
      rw [h3] at k1; cases k1
      rcases k2.body with ⟨k3, -⟩ | k3
      · rw [h4] at k3; cases k3
      · obtain ⟨n1, a1, a2⟩ := params_own h5.params
        obtain ⟨⟨n2, b1, b2⟩, ⟨n3, c1, c2⟩, d⟩ := blks_own h5.blks
        obtain ⟨es, e1, e2, e3⟩ := owns_ents (all2_append a1 (all2_append b1 c1)) (body_nodup k3)
        have hd : F.defs = (n1 ++ (n2 ++ n3)).flatten := by simp [Fn.defs, a2, b2, c2]
        obtain ⟨⟨b, is⟩, -, q1, -⟩ := all2_mem' h5.blks hB
        rw [hd] at hm
        have hm' : some ('%' :: B.label) ∈ es.map N.ent := by rw [e1]; exact List.mem_map.2 ⟨_, hm, rfl⟩
        obtain ⟨e, e4, he⟩ := List.mem_map.1 hm'
        have hk := h1.locals.apart e b _ he q1
        obtain ⟨l, l1, l2⟩ := h1.locals.bb b _ q1
        cases e with
        | func g => obtain ⟨v, -, e5⟩ := e3 _ e4; cases e5
        | global v => obtain ⟨v, -, e5⟩ := e3 _ e4; cases e5
        | value v =>
          obtain ⟨x, x1, x2⟩ := h1.locals.value v _ he
          exact names_apart hn ha x1 l1 x2 l2 hk
        | temp v =>
          obtain ⟨k, x1⟩ := h1.locals.temp v _ he
          exact hk k x1

end Koopa
