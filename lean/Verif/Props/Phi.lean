import Verif.Spec.Edges
import Verif.Props.Names
import Verif.Props.FrontCases
/-!
C30: the phi nodes of the LLVM text.
-/
namespace Koopa
open Spec

/-- The line of a phi node for a parameter written `n` of type `t`, with incoming pairs `qs`. -/
def PhiLine (p : Program) (fd : FData) (n : Piece) (t : Ty) (pairs : List (Value × BB)) (ps : List Piece) : Prop :=
  ∃ us : List (List Piece), ps = txt "  " :: n :: txt " = phi " :: .lit (BackLlvm.ty t) :: txt " " :: (sepPieces us ++ [txt "\n"]) ∧
    All2 (fun q u => ∃ x d, BackLlvm.value p fd false q.1 = some x ∧ fd.dfg.bbs.get? q.2 = some d ∧
      u = txt "[" :: (x ++ [txt ", ", .bb q.2 d.name, txt "]"])) pairs us

/-! ### Where the line is -/

theorem infix_left {α : Type} {q a : List α} (b : List α) (h : q <:+: a) : q <:+: a ++ b := h.trans ⟨[], b, rfl⟩

theorem infix_right {α : Type} {q b : List α} (a : List α) (h : q <:+: b) : q <:+: a ++ b := h.trans ⟨a, [], by simp⟩

theorem infix_tail {α : Type} {q b : List α} (x : α) (h : q <:+: b) : q <:+: x :: b := infix_right [x] h

theorem phis_infix {p : Program} {fd : FData} {b : BB} {us : List Value} : ∀ {vs : List Value} {k : Nat} {ps : List Piece},
    BackLlvm.phis p fd b us k vs = some ps → ∀ {i : Nat} {v : Value}, vs[i]? = some v → ∃ q, BackLlvm.phi p fd b us (k + i) v = some q ∧ q <:+: ps
  | [], _, _, _, i, v, hi => by simp at hi
  | x :: vs, k, ps, h, i, v, hi => by
    rw [BackLlvm.phis] at h
    split at h
    · rename_i a c ha hc
      cases h
      cases i with
      | zero => cases hi; exact ⟨a, ha, [], c, by simp⟩
      | succ i =>
        obtain ⟨q, h1, s, t, h2⟩ := phis_infix hc (i := i) (v := v) (by simpa using hi)
        refine ⟨q, by rw [← h1, Nat.add_assoc, Nat.add_comm 1], a ++ s, t, ?_⟩
        rw [← h2]; simp
    · cases h

theorem blocks_infix {p : Program} {fd : FData} : ∀ {bs : List (BB × List Value)} {ps : List Piece},
    BackLlvm.blocks o p fd bs = some ps → ∀ {b : BB} {is : List Value}, (b, is) ∈ bs → ∃ q, BackLlvm.bb o p fd b is = some q ∧ q <:+: ps
  | [], _, _, _, _, hm => by cases hm
  | [(c, js)], ps, h, b, is, hm => by
    cases List.mem_singleton.1 hm
    exact ⟨ps, h, List.infix_refl _⟩
  | (c, js) :: y :: rest, ps, h, b, is, hm => by
    rw [BackLlvm.blocks] at h
    split at h
    · rename_i u w hu hw
      cases h
      rcases List.mem_cons.1 hm with hm | hm
      · cases hm; exact ⟨u, hu, infix_left _ (List.infix_refl _)⟩
      · obtain ⟨q, h1, s, t, h2⟩ := blocks_infix hw hm
        refine ⟨q, h1, u ++ txt "\n" :: s, t, ?_⟩
        rw [← h2]; simp
    · cases h
    · intro h; cases h

theorem funcsOf_infix {g : Func → Option (List Piece)} : ∀ {fs : List Func} {ps : List Piece},
    funcsOf g fs = some ps → ∀ {f : Func}, f ∈ fs → ∃ q, g f = some q ∧ q <:+: ps
  | [], _, _, _, hm => by cases hm
  | [c], ps, h, f, hm => by
    cases List.mem_singleton.1 hm
    obtain ⟨x, hx, rfl⟩ := Option.map_eq_some_iff.1 h
    exact ⟨x, hx, [.enter], [.exit], by simp⟩
  | c :: y :: rest, ps, h, f, hm => by
    rw [funcsOf] at h
    split at h
    · rename_i u w hu hw
      cases h
      rcases List.mem_cons.1 hm with hm | hm
      · cases hm; exact ⟨u, hu, infix_tail _ (infix_left _ (List.infix_refl _))⟩
      · obtain ⟨q, h1, s, t, h2⟩ := funcsOf_infix hw hm
        refine ⟨q, h1, .enter :: (u ++ .exit :: txt "\n" :: s), t, ?_⟩
        rw [← h2]; simp
    · cases h
    · intro h; cases h

theorem phi_infix {p : Program} {ps : List Piece} (h : BackLlvm.visit o p = some ps) {f : Func} {fd : FData} (hm : f ∈ p.funcLayout)
    (hf : p.funcs.get? f = some fd) {b : BB} {is : List Value} (hb : (b, is) ∈ fd.layout.bbs) {d : BData}
    (hd : fd.dfg.bbs.get? b = some d) {i : Nat} {v : Value} (hi : d.params[i]? = some v) :
    ∃ q, BackLlvm.phi p fd b (o.iter b d.usedBy) i v = some q ∧ q <:+: ps := by
  unfold BackLlvm.visit at h
  split at h
  · rename_i gs fs hgs hfs
    cases h
    rw [BackLlvm.funcs_eq] at hfs
    obtain ⟨q1, h1, i1⟩ := funcsOf_infix hfs hm
    unfold BackLlvm.func at h1
    rw [hf] at h1
    simp only at h1
    split at h1
    · split at h1
      · rename_i he
        simp only [Map.isEmpty] at he
        simp only [Map.get?] at hd
        rw [List.isEmpty_iff.1 he] at hd
        cases hd
      · split at h1
        · rename_i ps2 bs hps hbs
          cases h1
          obtain ⟨q2, h2, i2⟩ := blocks_infix hbs hb
          unfold BackLlvm.bb at h2
          rw [hd] at h2
          simp only at h2
          split at h2
          · rename_i qs ls hq hl
            cases h2
            obtain ⟨q3, h3, i3⟩ := phis_infix hq hi
            rw [Nat.zero_add] at h3
            have i4 := List.IsInfix.trans (infix_tail _ (infix_tail _ (infix_left _ i3))) i2
            have i5 := List.IsInfix.trans (infix_tail _ (infix_tail _ (infix_tail _ (infix_tail _ (infix_tail _ (infix_tail _ (infix_tail _
              (infix_right _ (infix_tail _ (infix_tail _ (infix_left _ i4))))))))))) i1
            exact ⟨q3, h3, infix_tail _ (infix_right _ (infix_right _ i5))⟩
          · cases h2
        · cases h1
    · cases h1
  · cases h

/-! ### What the line says -/

theorem All2.split {α β γ : Type} {R : α → β → Prop} {A : α → γ → Prop} {B : γ → β → Prop} (h : ∀ a b, R a b → ∃ c, A a c ∧ B c b) :
    ∀ {as : List α} {bs : List β}, All2 R as bs → ∃ cs, All2 A as cs ∧ All2 B cs bs
  | _, _, .nil => ⟨[], .nil, .nil⟩
  | _, _, .cons h1 h2 => by
    obtain ⟨c, h3, h4⟩ := h _ _ h1
    obtain ⟨cs, h5, h6⟩ := All2.split h h2
    exact ⟨c :: cs, .cons h3 h5, .cons h4 h6⟩

theorem Spec.All2.mem_left {α β : Type} {R : α → β → Prop} {as : List α} {bs : List β} (h : All2 R as bs) :
    ∀ {a}, a ∈ as → ∃ b, b ∈ bs ∧ R a b := by
  induction h with
  | nil => intro a h; cases h
  | cons h1 _ ih =>
    intro a h
    rcases List.mem_cons.1 h with rfl | h
    · exact ⟨_, List.mem_cons_self, h1⟩
    · obtain ⟨b, h2, h3⟩ := ih h
      exact ⟨b, List.mem_cons_of_mem _ h2, h3⟩

theorem mem_sites {l : Layout} {c : BB} {u : Value} : (c, u) ∈ sites l ↔ Listed l c u := by
  unfold sites Listed
  simp only [List.mem_flatMap, List.mem_map, Prod.mk.injEq, Prod.exists]
  constructor
  · rintro ⟨b, is, h1, w, h2, rfl, rfl⟩; exact ⟨is, h1, h2⟩
  · rintro ⟨is, h1, h2⟩; exact ⟨c, is, h1, u, h2, rfl, rfl⟩

theorem sites_nodup {l : Layout} (h : ParentsRight l) : ((sites l).map (·.2)).Nodup := by
  have hb := h.blocksOnce
  have hl := h.instsOnce
  have ho : ∀ i b b' is is', (b, is) ∈ l.bbs → i ∈ is → (b', is') ∈ l.bbs → i ∈ is' → b = b' :=
    fun i b b' is is' h1 h2 h3 h4 => h.oneBlock i b b' ⟨is, h1, h2⟩ ⟨is', h3, h4⟩
  unfold sites
  generalize l.bbs = bs at hb hl ho
  induction bs with
  | nil => exact List.nodup_nil
  | cons x bs ih =>
    obtain ⟨b, is⟩ := x
    rw [List.map_cons, List.nodup_cons] at hb
    rw [List.flatMap_cons, List.map_append, List.nodup_append]
    refine ⟨?_, ih hb.2 (fun b is h1 => hl b is (List.mem_cons_of_mem _ h1))
      (fun i b b' is is' h1 h2 h3 h4 => ho i b b' is is' (List.mem_cons_of_mem _ h1) h2 (List.mem_cons_of_mem _ h3) h4), ?_⟩
    · rw [List.map_map, show ((fun x : BB × Value => x.2) ∘ fun u => (b, u)) = id from rfl, List.map_id]
      exact hl b is List.mem_cons_self
    · intro u hu w hw e
      subst e
      simp only [List.mem_map, Prod.exists, List.mem_flatMap, Prod.mk.injEq] at hu hw
      obtain ⟨_, _, ⟨_, h1, rfl, rfl⟩, rfl⟩ := hu
      obtain ⟨_, _, ⟨b', is', h2, _, h3, rfl, rfl⟩, h4⟩ := hw
      subst h4
      have := ho _ _ _ _ _ List.mem_cons_self h1 (List.mem_cons_of_mem _ h2) h3
      subst this
      exact hb.1 (List.mem_map.2 ⟨_, h2, rfl⟩)

/-- Does the value transfer control to the block? -/
def entersBb (fd : FData) (b : BB) (u : Value) : Bool :=
  match fd.dfg.values.get? u with
  | none => false
  | some x => decide (b ∈ targets x.kind)

theorem phiArg_passes {b : BB} {i : Nat} {k : VKind} (hb : b ∈ targets k)
    (hs : ∀ c ta fa, k ≠ .branch c b b ta fa) : ∃ as, passes b k = [as] ∧ BackLlvm.phiArg b i k = as[i]? := by
  cases k with
  | jump t as =>
    simp only [targets, List.mem_singleton] at hb
    subst hb
    exact ⟨as, by simp [passes], rfl⟩
  | branch c t f ta fa =>
    by_cases h1 : t = b
    · subst h1
      have h2 : f ≠ t := fun e => hs c ta fa (by rw [e])
      exact ⟨ta, by simp [passes, h2], by simp [BackLlvm.phiArg]⟩
    · have h2 : f = b := by
        simp only [targets, List.mem_cons, List.not_mem_nil, or_false] at hb
        rcases hb with hb | hb
        · exact absurd hb.symm h1
        · exact hb.symm
      exact ⟨fa, by simp [passes, h1, h2], by simp [BackLlvm.phiArg, h1]⟩
  | _ => simp [targets] at hb

theorem passes_nil {b : BB} {k : VKind} (hb : b ∉ targets k) : passes b k = [] := by
  cases k with
  | jump t as =>
    simp only [targets, List.mem_singleton] at hb
    simp [passes, Ne.symm hb]
  | branch c t f ta fa =>
    simp only [targets, List.mem_cons, List.not_mem_nil, or_false, not_or] at hb
    simp [passes, Ne.symm hb.1, Ne.symm hb.2]
  | _ => rfl

/-- The pair of a phi node that user `u` contributes. -/
def pairOf (fd : FData) (b : BB) (i : Nat) (u : Value) : Option Value × BB :=
  (match fd.dfg.values.get? u with
    | none => none
    | some x => BackLlvm.phiArg b i x.kind, match fd.layout.parentBb u with
    | none => 0
    | some c => c)

theorem pairs_edges {fd : FData} {b : BB} {i : Nat} (hp : ParentsRight fd.layout)
    (hs : ∀ u x, fd.dfg.values.get? u = some x → ∀ c ta fa, x.kind ≠ .branch c b b ta fa) :
    ((sites fd.layout).filter (fun s => entersBb fd b s.2)).map (fun s => pairOf fd b i s.2) =
      (edges fd b).map (fun e => (e.2[i]?, e.1)) := by
  have hpar : ∀ c u, (c, u) ∈ sites fd.layout → fd.layout.parentBb u = some c :=
    fun c u h => (hp.parent u c).2 (mem_sites.1 h)
  unfold edges
  generalize sites fd.layout = S at hpar
  induction S with
  | nil => rfl
  | cons s S ih =>
    obtain ⟨c, u⟩ := s
    have ih := ih (fun c u h => hpar c u (List.mem_cons_of_mem _ h))
    have hc := hpar c u List.mem_cons_self
    rw [List.flatMap_cons, List.map_append, ← ih, List.filter_cons]
    rcases hu : fd.dfg.values.get? u with _ | x
    · simp [entersBb, hu]
    · by_cases hb : b ∈ targets x.kind
      · obtain ⟨as, h1, h2⟩ := phiArg_passes (i := i) hb (hs u x hu)
        simp [entersBb, hu, hb, h1, pairOf, hc, h2]
      · simp [entersBb, hu, hb, passes_nil hb]

theorem phi_spec {p : Program} {f : Func} {fd : FData} (hf : p.funcs.get? f = some fd) (hp : ParentsRight fd.layout)
    {b : BB} {users : List Value} (hu : ∀ u, u ∈ users ↔ Targets p f u b) (hn : users.Nodup)
    (hs : ∀ u x, fd.dfg.values.get? u = some x → ∀ c ta fa, x.kind ≠ .branch c b b ta fa)
    {i : Nat} {v : Value} {ps : List Piece} (h : BackLlvm.phi p fd b users i v = some ps) :
    ∃ x n pairs, fd.dfg.values.get? v = some x ∧ namePiece v x = some n ∧ PhiLine p fd n x.ty pairs ps ∧
      (pairs.map (fun q => (some q.1, q.2))).Perm ((edges fd b).map (fun e => (e.2[i]?, e.1))) := by
  unfold BackLlvm.phi at h
  split at h
  · cases h
  · rename_i x hx
    split at h
    · rename_i n us hnp hus
      cases h
      have h1 := allSome_all2 hus
      obtain ⟨pairs, h2, h3⟩ := All2.split (A := fun u (q : Value × BB) => ∃ d, fd.dfg.values.get? u = some d ∧ BackLlvm.phiArg b i d.kind = some q.1 ∧
          fd.layout.parentBb u = some q.2)
        (B := fun (q : Value × BB) u => ∃ x d, BackLlvm.value p fd false q.1 = some x ∧ fd.dfg.bbs.get? q.2 = some d ∧
          u = txt "[" :: (x ++ [txt ", ", .bb q.2 d.name, txt "]"])) (fun u w hw => by
          unfold BackLlvm.incoming at hw
          split at hw
          · cases hw
          · rename_i y hy
            split at hw
            · cases hw
            · rename_i a ha
              split at hw
              · rename_i z c hz hc
                obtain ⟨cp, hcp, rfl⟩ := Option.map_eq_some_iff.1 hw
                obtain ⟨bd, hbd, rfl⟩ := Option.map_eq_some_iff.1 hcp
                exact ⟨(a, c), ⟨y, hy, ha, hc⟩, z, bd, hz, hbd, rfl⟩
              · cases hw) h1
      refine ⟨x, n, pairs, hx, hnp, ⟨us, rfl, h3⟩, ?_⟩
      have h4 : pairs.map (fun q => (some q.1, q.2)) = users.map (pairOf fd b i) := by
        clear h3 h1 hn hu hus
        generalize users = us' at h2
        induction h2 with
        | nil => rfl
        | cons h5 _ ih =>
          obtain ⟨y, h6, h7, h8⟩ := h5
          rw [List.map_cons, List.map_cons, ih]
          congr 1
          simp [pairOf, h6, h7, h8]
      have h5 : users.Perm (((sites fd.layout).filter (fun s => entersBb fd b s.2)).map (·.2)) := by
        refine (List.perm_ext_iff_of_nodup hn ?_).2 (fun u => ?_)
        · exact (sites_nodup hp).sublist (List.Sublist.map _ List.filter_sublist)
        · rw [hu]
          constructor
          · intro ht
            obtain ⟨q, -, y, h6, h7, h8⟩ := h2.mem_left ((hu u).2 ht)
            obtain ⟨y', ⟨fd', hf', hy'⟩, hb⟩ := ht
            rw [hf] at hf'; cases hf'
            rw [h6] at hy'; cases hy'
            exact List.mem_map.2 ⟨(q.2, u), List.mem_filter.2 ⟨mem_sites.2 ((hp.parent _ _).1 h8), by simp [entersBb, h6, hb]⟩, rfl⟩
          · intro hm
            obtain ⟨⟨c, w⟩, h6, rfl⟩ := List.mem_map.1 hm
            have h7 := (List.mem_filter.1 h6).2
            unfold entersBb at h7
            split at h7
            · cases h7
            · rename_i y hy
              exact ⟨y, ⟨fd, hf, hy⟩, of_decide_eq_true h7⟩
      rw [h4, ← pairs_edges hp hs]
      have h6 := h5.map (pairOf fd b i)
      rw [List.map_map] at h6
      exact h6
    · cases h

/-- C30, the general form: in the LLVM text of a program that was built by calls within `Op.Ok`, `Op.TyOk` and
`Op.BlockOk`, there is for every parameter of every laid-out block of a function whose parent blocks are
recorded correctly (C10) a phi node whose incoming pairs are, up to order, the edges into the block, each
with the argument passed along it and the block it comes from. -/
theorem C30_phi_covers_edges {p : Program} (r : Reach (fun p op => op.Ok p ∧ op.TyOk p ∧ op.BlockOk p) p)
    (hmax : p.ids.nextGlobal ≤ localStart) {ps : List Piece} (h : BackLlvm.visit o p = some ps)
    {f : Func} {fd : FData} (hf : p.funcs.get? f = some fd) (hp : ParentsRight fd.layout)
    {b : BB} {is : List Value} (hb : (b, is) ∈ fd.layout.bbs) {d : BData} (hd : fd.dfg.bbs.get? b = some d)
    {i : Nat} {v : Value} (hi : d.params[i]? = some v) :
    ∃ x n pairs line, fd.dfg.values.get? v = some x ∧ namePiece v x = some n ∧ line <:+: ps ∧
      PhiLine p fd n x.ty pairs line ∧
      (pairs.map (fun q => (some q.1, q.2))).Perm ((edges fd b).map (fun e => (e.2[i]?, e.1))) := by
  have hB := (r.mono (fun _ _ ho => ho.2.2)).binv
  have hty : WellTyped p := C08_well_typed (r.mono (fun _ _ ho => ⟨ho.1, ho.2.1⟩)) hmax
  obtain ⟨line, h1, h2⟩ := phi_infix h ((hB.fLayout f).2 ⟨fd, hf⟩) hf hb hd hi
  have hu := C02_block_uses_exact_partial (r.mono (fun _ _ ho => ho.2.2)) f b d ⟨fd, hf, hd⟩
  have hs : ∀ u x, fd.dfg.values.get? u = some x → ∀ c ta fa, x.kind ≠ .branch c b b ta fa := by
    intro u x hx c ta fa hk
    have h3 := hty.locals f u x ⟨fd, hf, hx⟩
    rw [hk] at h3
    generalize x.ty = t at h3
    cases h3 with
    | branch _ h4 _ h6 _ h8 =>
      obtain ⟨d', ⟨fd', hf', hd'⟩, h9⟩ := h4
      rw [hf] at hf'; cases hf'
      rw [hd] at hd'; cases hd'
      rw [(h8 rfl).1] at h6
      cases h6
      generalize d.params = l at h9 hi
      cases h9
      simp at hi
  obtain ⟨x, n, pairs, h3, h4, h5, h6⟩ := phi_spec hf hp (fun u => (o.perm b d.usedBy).mem_iff.trans (hu u))
    ((o.perm b d.usedBy).nodup_iff.2 ((hB.graphs trivial f fd hf).once b d hd)) hs h1
  exact ⟨x, n, pairs, line, h3, h4, h2, h5, h6⟩

/-- C30 for every program the front end returns. -/
theorem C30_accepted {w : World} {input : Str} {p : Program} (ha : Accepted w input p) {ps : List Piece} (h : BackLlvm.visit o p = some ps)
    {f : Func} {fd : FData} (hf : p.funcs.get? f = some fd)
    {b : BB} {is : List Value} (hb : (b, is) ∈ fd.layout.bbs) {d : BData} (hd : fd.dfg.bbs.get? b = some d)
    {i : Nat} {v : Value} (hi : d.params[i]? = some v) :
    ∃ x n pairs line, fd.dfg.values.get? v = some x ∧ namePiece v x = some n ∧ line <:+: ps ∧
      PhiLine p fd n x.ty pairs line ∧
      (pairs.map (fun q => (some q.1, q.2))).Perm ((edges fd b).map (fun e => (e.2[i]?, e.1))) := by
  obtain ⟨gs, hg, -⟩ := C47_program_is_text ha
  obtain ⟨hI, -⟩ := ha.items hg
  exact C30_phi_covers_edges (hI.reach.mono (fun _ _ ho => ⟨ho.1, ho.2.1, ho.2.2.2.1⟩)) hI.max h hf
    ((C43_accepted_well_formed ha).parents f fd hf) hb hd hi

/-- A case for C30: the loop text is accepted and printed; its second block has one parameter and two
incoming edges, one of them from itself. -/
example : ∃ p, Accepted someWorld loopText p ∧ ∃ ps f fd b is d v, BackLlvm.visit .backwards p = some ps ∧ p.funcs.get? f = some fd ∧
    (b, is) ∈ fd.layout.bbs ∧ fd.dfg.bbs.get? b = some d ∧ d.params[0]? = some v ∧
    (edges fd b).length = 2 ∧ (edges fd b).map (·.1) = [fd.layout.bbs.head!.1, b] := by
  obtain ⟨p, h, hq⟩ := acceptsWith_iff (input := loopText) (q := fun p => match p.funcs.get? 4 with
    | some fd => match fd.layout.bbs[1]? with
      | some (b, is) => match fd.dfg.bbs.get? b with
        | some d => match d.params[0]? with
          | some v => (BackLlvm.visit .backwards p).isSome && decide ((edges fd b).length = 2 ∧ (edges fd b).map (·.1) = [fd.layout.bbs.head!.1, b])
          | none => false
        | none => false
      | none => false
    | none => false) (by decide +kernel)
  refine ⟨p, h, ?_⟩
  split at hq
  · rename_i fd hf
    split at hq
    · rename_i b is hb
      split at hq
      · rename_i d hd
        split at hq
        · rename_i v hv
          rw [Bool.and_eq_true, decide_eq_true_eq] at hq
          obtain ⟨ps, hps⟩ := Option.isSome_iff_exists.1 hq.1
          exact ⟨ps, 4, fd, b, is, d, v, hps, hf, List.mem_of_getElem? hb, hd, hv, hq.2⟩
        · cases hq
      · cases hq
    · cases hq
  · cases hq

end Koopa
