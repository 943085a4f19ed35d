import Verif.Model.Examples.ConstFold
import Verif.Lemmas.Examples.Sim
import Verif.Lemmas.Front.BuildInv
/-! The effect of constant folding on a program. -/
namespace Koopa
open Spec

/-- Replacing a local value. -/
theorem replaceLocal_view {p p' : Program} {f : Func} {v : Value} {i : LocalInst} (h : p.replaceLocal f v i = some p') :
    ∃ fd data old, p.funcs.get? f = some fd ∧ i.build ((p.ctx fd).querier p.funcTys) = some data ∧
      fd.dfg.values.get? v = some old ∧
      p'.view = { p.view with l := fun f' w => if f' = f ∧ w = v then some data.shape else p.view.l f' w } := by
  unfold Program.replaceLocal Program.onDfg at h
  simp only [Option.bind_eq_bind, Option.bind_eq_some_iff, Option.some.injEq] at h
  obtain ⟨fd, hf, data, hb, fd', hf', c, hc, rfl⟩ := h
  rw [hf] at hf'; cases hf'
  obtain ⟨⟨old, h0, h1⟩, h2, h3, h4⟩ := replace_shape hc
  refine ⟨fd, data, old, hf, hb, h0, ?_⟩
  refine Eq.trans (view_putCtx (p := p) hf rfl rfl rfl rfl rfl) ?_
  simp only [View.mk.injEq, true_and]
  refine ⟨?_, ?_, ?_, rfl⟩
  · funext w; exact h3 w
  · funext f' w
    by_cases hff : f' = f
    · subst hff
      simp only [if_true, true_and, view_l_self hf]
      by_cases hw : w = v
      · subst hw; simp only [if_true, h1]; rfl
      · rw [if_neg hw]; exact h2 w hw
    · simp [hff]
  · funext f' w
    by_cases hff : f' = f
    · subst hff; simp only [if_true, view_b_self hf]; exact h4 w
    · simp [hff]

/-- A well-typed program that was built through the interface, in which no function was removed, with consistent layouts. -/
structure CInv (p : Program) : Prop where
  reach : Reach (fun p op => op.Ok p ∧ op.NoRemoveFunc) p
  max : p.ids.nextGlobal ≤ localStart
  lays : ∀ g l, p.view.lay g = some l → LInv l ∧ ∀ b is, (b, is) ∈ l.bbs →
    (p.view.b g b).isSome ∧ ∀ v ∈ is, (p.view.l g v).isSome
  wellTyped : WellTyped p

theorem FInv.cinv {p : Program} (h : FInv p) : CInv p :=
  ⟨h.reach.mono (fun _ _ ho => ⟨ho.1, ho.2.2.1⟩), h.max, h.lays, h.wellTyped⟩

theorem CInv.inv {p : Program} (h : CInv p) : Inv (fun _ _ => False) p := h.reach.invExact h.max

theorem CInv.lRange {p : Program} (h : CInv p) {f : Func} {v : Value} {s : Sig}
    (hv : p.view.l f v = some s) : localStart ≤ v ∧ v < p.ids.nextLocal := by
  obtain ⟨x, hx, -⟩ := view_l_iff.1 hv
  exact h.inv.lRange f v x hx

theorem CInv.replaceLocal {p p' : Program} {f : Func} {v : Value} {i : LocalInst} (hi : CInv p) (hr : i.notRaw)
    (ht : ∀ fd d x, p.funcs.get? f = some fd → i.build ((p.ctx fd).querier p.funcTys) = some d → LocalVal p f v x → d.ty = x.ty)
    (h : p.replaceLocal f v i = some p') : CInv p' := by
  obtain ⟨fd, data, old, hf, hb, ho, hv⟩ := replaceLocal_view h
  have hids : p'.ids = p.ids := congrArg View.ids hv
  refine ⟨.step hi.reach (op := .replaceLocal f v i) ⟨trivial, trivial⟩ h, by rw [hids]; exact hi.max, ?_,
    hi.wellTyped.step hi.inv hi.reach.linv (op := .replaceLocal f v i) trivial ⟨hr, ht⟩ h⟩
  intro g l hl
  rw [hv] at hl
  obtain ⟨h1, h2⟩ := hi.lays g l hl
  refine ⟨h1, fun b is hb => ⟨by rw [hv]; exact (h2 b is hb).1, fun w hw => ?_⟩⟩
  rw [hv]
  dsimp only
  split
  · rfl
  · exact (h2 b is hb).2 w hw

theorem removeInst_view {p p' : Program} {f : Func} {b : BB} {v : Value}
    (h : p.onLayout f (fun l => (l.removeInst b v).map (·.1)) = some p') :
    ∃ l l', p.view.lay f = some l ∧ l.step (.removeInst b v) = some l' ∧
      p'.view = { p.view with lay := fun f' => if f' = f then some l' else p.view.lay f' } := onLayout_view h

theorem CInv.removeInst {p p' : Program} {f : Func} {b : BB} {v : Value} (hi : CInv p)
    (h : p.onLayout f (fun l => (l.removeInst b v).map (·.1)) = some p') : CInv p' := by
  obtain ⟨l, l', hl, hs, hv⟩ := removeInst_view h
  have hids : p'.ids = p.ids := congrArg View.ids hv
  refine ⟨.step hi.reach (op := .layout f (.removeInst b v)) ⟨trivial, trivial⟩ h, by rw [hids]; exact hi.max, ?_,
    hi.wellTyped.step hi.inv hi.reach.linv (op := .layout f (.removeInst b v)) trivial trivial h⟩
  intro g k hk
  have e1 : p'.view.l = p.view.l := by rw [hv]
  have e2 : p'.view.b = p.view.b := by rw [hv]
  rw [e1, e2]
  rw [hv] at hk
  dsimp only at hk
  split at hk
  · rename_i he; subst he; cases hk
    obtain ⟨a, c⟩ := hi.lays g l hl
    refine ⟨a.step (op := .removeInst b v) trivial hs, ?_⟩
    intro b' js hm
    unfold Layout.step Layout.removeInst at hs
    simp only [Option.map_eq_some_iff] at hs
    obtain ⟨⟨l1, ch⟩, hs, rfl⟩ := hs
    split at hs
    · cases hs
    · rename_i is his
      split at hs
      · cases hs
        have hm : (b', js) ∈ setInsts b (is.filter (fun x => decide (x ≠ v))) l.bbs := hm
        rw [mem_setInsts a.keys] at hm
        rcases hm with ⟨_, h1⟩ | ⟨rfl, rfl, _⟩
        · exact c b' js h1
        · obtain ⟨c1, c2⟩ := c b' is (a.insts?_iff.1 his)
          exact ⟨c1, fun w hw => c2 w (List.mem_filter.1 hw).1⟩
      · cases hs; exact c b' js hm
  · exact hi.lays g k hk

namespace ConstFold
open Interp (checked shiftBy ofBool evalOp)

/-- Folding and executing agree. -/
theorem foldOp_evalOp (chk : Bool) (op : BinOp) (l r : I32) :
    (∀ n, foldOp chk op l r = some (some n) → evalOp chk op l r = some n) ∧
    (foldOp chk op l r = some none → evalOp chk op l r = none) := by
  cases op <;> simp only [foldOp, evalOp, Option.map_eq_some_iff, Option.some.injEq, reduceCtorEq, and_false, exists_false,
    false_implies, and_true, forall_eq', implies_true, gt_iff_lt, ge_iff_le]
  case div =>
    by_cases h : r = 0
    · simp [h]
    · rw [if_pos h, if_neg h]; simp
  case mod =>
    by_cases h : r = 0
    · simp [h]
    · rw [if_pos h]
      by_cases h' : l = BitVec.intMin 32 ∧ r = -1
      · rw [if_pos h']; simp
      · rw [if_neg h', if_neg (by rintro (e | e); exact h e; exact h' e)]; simp
  all_goals
    intro n hn
    obtain ⟨a, ha, rfl⟩ := hn
    first | exact ha | exact ⟨_, ha, rfl⟩

/-- `v` is among the evaluated values, with this result. -/
def Folded (ev : List (Value × Option I32 × BB)) (v : Value) (ans : Option I32) : Prop := ∃ bb, (v, ans, bb) ∈ ev

/-- The kind of the constant. -/
def kindOf : Option I32 → VKind
  | some n => .integer n
  | none => .undef

theorem evaluated_spec {chk : Bool} {fd : FData} : ∀ {vs : List Value} {ev : List (Value × Option I32 × BB)},
    evaluated chk fd vs = some ev → ∀ v ans bb, (v, ans, bb) ∈ ev → v ∈ vs ∧
      ∃ d op a b da db i j, fd.dfg.values.get? v = some d ∧ d.kind = .binary op a b ∧
        fd.dfg.values.get? a = some da ∧ da.kind = .integer i ∧ fd.dfg.values.get? b = some db ∧ db.kind = .integer j ∧
        foldOp chk op i j = some ans ∧ fd.layout.parentBb v = some bb
  | [], ev, h, v, ans, bb, hm => by cases h; cases hm
  | w :: vs, ev, h, v, ans, bb, hm => by
    unfold evaluated at h
    split at h
    · cases h
    · obtain ⟨h1, h2⟩ := evaluated_spec h v ans bb hm
      exact ⟨by simp [h1], h2⟩
    · rename_i x hx
      simp only [Option.map_eq_some_iff] at h
      obtain ⟨ev', h, rfl⟩ := h
      rcases List.mem_cons.1 hm with rfl | hm
      · unfold foldValue at hx
        split at hx
        · cases hx
        · rename_i d hd
          split at hx
          · rename_i op a b hk
            split at hx
            · rename_i da db ha hb
              split at hx
              · rename_i i j hi hj
                split at hx
                · rename_i ans' bb' hf hp
                  cases hx
                  exact ⟨by simp, d, op, a, b, da, db, i, j, hd, hk, ha, hi, hb, hj, hf, hp⟩
                · cases hx
              · cases hx
              · cases hx
              · cases hx
            · cases hx
          · cases hx
      · obtain ⟨h1, h2⟩ := evaluated_spec h v ans bb hm
        exact ⟨by simp [h1], h2⟩

theorem constOf_build {q : Querier} {ans : Option I32} {d : VData} (h : (LocalInst.val (constOf ans)).build q = some d) :
    d.shape = (.i32, none, kindOf ans) := by
  cases ans with
  | none => cases h; rfl
  | some n => cases h; rfl

/-- The effect of the replacements. -/
structure Replaced (p p' : Program) (f : Func) (ev : List (Value × Option I32 × BB)) : Prop where
  inv : CInv p'
  other : ∀ g v, (g = f → ∀ ans, ¬ Folded ev v ans) → p'.view.l g v = p.view.l g v
  folded : ∀ v ans, Folded ev v ans → ∃ ans', Folded ev v ans' ∧ p'.view.l f v = some (.i32, none, kindOf ans')
  rest : p'.view = { p.view with l := p'.view.l }

theorem replaceAll_spec {f : Func} : ∀ {ev : List (Value × Option I32 × BB)} {p p' : Program}, CInv p →
    (∀ v ans, Folded ev v ans → ∃ n k, p.view.l f v = some (.i32, n, k)) → replaceAll f ev p = some p' → Replaced p p' f ev
  | [], p, p', hi, _, h => by
    cases h
    exact ⟨hi, fun _ _ _ => rfl, fun v ans ⟨bb, hm⟩ => (by cases hm), rfl⟩
  | (v, ans, bb) :: ev, p, p', hi, ht, h => by
    unfold replaceAll at h
    split at h
    · cases h
    · rename_i p1 h1
      obtain ⟨fd, data, old, hf, hb, ho, hv⟩ := replaceLocal_view h1
      rw [constOf_build hb] at hv
      have hi1 : CInv p1 := hi.replaceLocal (by cases ans <;> trivial) (fun fd' d x hf' hb' hx => by
        obtain ⟨n, k, he⟩ := ht v ans ⟨bb, by simp⟩
        obtain ⟨x', hx', hs⟩ := view_l_iff.1 he
        have : x' = x := by
          obtain ⟨g1, e1, e2⟩ := hx
          obtain ⟨g2, e3, e4⟩ := hx'
          rw [e1] at e3; cases e3; rw [e2] at e4; cases e4; rfl
        subst this
        have h2 := constOf_build hb'
        unfold VData.shape at h2 hs
        simp only [Prod.mk.injEq] at h2 hs
        rw [h2.1, hs.1]) h1
      have hl1 : ∀ g w, p1.view.l g w = if g = f ∧ w = v then some (.i32, none, kindOf ans) else p.view.l g w := by
        intro g w; rw [hv]
      have ih := replaceAll_spec (ev := ev) hi1 (fun w a ⟨b, hm⟩ => by
        rw [hl1]
        split
        · exact ⟨_, _, rfl⟩
        · exact ht w a ⟨b, by simp [hm]⟩) h
      refine ⟨ih.inv, ?_, ?_, ?_⟩
      · intro g w hw
        rw [ih.other g w (fun e a ⟨b, hm⟩ => hw e a ⟨b, by simp [hm]⟩), hl1, if_neg]
        rintro ⟨rfl, rfl⟩
        exact hw rfl ans ⟨bb, by simp⟩
      · intro w a ⟨b, hm⟩
        by_cases hw : ∃ a', Folded ev w a'
        · obtain ⟨a', hw⟩ := hw
          obtain ⟨a2, ⟨b2, hm2⟩, h3⟩ := ih.folded w a' hw
          exact ⟨a2, ⟨b2, by simp [hm2]⟩, h3⟩
        · rcases List.mem_cons.1 hm with he | hm
          · obtain ⟨rfl, rfl, rfl⟩ : w = v ∧ a = ans ∧ b = bb := by simpa using he
            refine ⟨a, ⟨b, by simp⟩, ?_⟩
            rw [ih.other f w (fun _ a' h' => hw ⟨a', h'⟩), hl1, if_pos ⟨rfl, rfl⟩]
          · exact absurd ⟨a, b, hm⟩ hw
      · rw [ih.rest, hv]

theorem removeInst_insts {l l' : Layout} {b : BB} {v : Value} (hl : LInv l) (hp : l.parentBb v = some b ∨ ∀ b, ¬ Listed l b v)
    (h : l.step (.removeInst b v) = some l') :
    LInv l' ∧ l'.bbs = l.bbs.map (fun q => (q.1, q.2.filter (fun x => decide (x ≠ v)))) := by
  refine ⟨hl.step (op := .removeInst b v) trivial h, ?_⟩
  unfold Layout.step Layout.removeInst at h
  simp only [Option.map_eq_some_iff] at h
  obtain ⟨⟨l1, ch⟩, h, rfl⟩ := h
  have hone : ∀ b' is, (b', is) ∈ l.bbs → v ∈ is → b' = b := by
    intro b' is hm hv
    rcases hp with hp | hp
    · have := (hl.parent v b').2 ⟨is, hm, hv⟩
      unfold Layout.parentBb at hp
      rw [this] at hp; cases hp; rfl
    · exact absurd ⟨is, hm, hv⟩ (hp b')
  have hfil : ∀ is : List Value, v ∉ is → is.filter (fun x => decide (x ≠ v)) = is := by
    intro is hv
    rw [List.filter_eq_self]
    intro a ha
    simp only [ne_eq, decide_eq_true_eq]
    rintro rfl
    exact hv ha
  split at h
  · cases h
  · rename_i is his
    split at h
    · cases h
      dsimp only
      have hk := hl.keys
      have hm := hl.insts?_iff.1 his
      clear his hp
      generalize l.bbs = L at hone hk hm
      induction L with
      | nil => rfl
      | cons q L ih =>
        obtain ⟨b', is'⟩ := q
        unfold setInsts
        simp only [List.map_cons, List.nodup_cons] at hk ⊢
        split
        · rename_i e
          subst e
          rcases List.mem_cons.1 hm with e | hm
          · cases e
            congr 1
            rw [eq_comm]
            refine Eq.trans (List.map_congr_left (g := id) (fun q hq => ?_)) (List.map_id _)
            obtain ⟨b2, is2⟩ := q
            have : v ∉ is2 := fun hv => hk.1 (by
              have := hone b2 is2 (by simp [hq]) hv
              subst this
              exact List.mem_map.2 ⟨_, hq, rfl⟩)
            simp only [hfil is2 this, id]
          · exact absurd (List.mem_map.2 ⟨_, hm, rfl⟩) hk.1
        · rename_i hne
          have : v ∉ is' := fun hv => hne (hone b' is' (by simp) hv)
          rw [hfil is' this]
          congr 1
          refine ih (fun b2 is2 h2 => hone b2 is2 (by simp [h2])) hk.2 ?_
          rcases List.mem_cons.1 hm with e | hm
          · cases e; exact absurd rfl hne
          · exact hm
    · rename_i hv
      cases h
      refine Eq.symm (Eq.trans (List.map_congr_left (g := id) (fun q hq => ?_)) (List.map_id _))
      obtain ⟨b2, is2⟩ := q
      have : v ∉ is2 := fun hv2 => by
        have := hone b2 is2 hq hv2
        subst this
        have := hl.insts?_iff.2 hq
        rw [his] at this; cases this
        exact hv hv2
      simp only [hfil is2 this, id]

/-- The effect of taking the instructions out of the layout. -/
structure Unlisted (p p' : Program) (f : Func) (ev : List (Value × Option I32 × BB)) (l l' : Layout) : Prop where
  inv : CInv p'
  rest : p'.view = { p.view with lay := fun g => if g = f then some l' else p.view.lay g }
  bbs : ∃ q : List (BB × List Value), l'.bbs = q ∧ q = l.bbs.map (fun q => (q.1, q.2.filter (fun x => decide (x ∉ ev.map (·.1)))))

theorem unlistAll_spec {f : Func} : ∀ {ev : List (Value × Option I32 × BB)} {p p' : Program} {l : Layout}, CInv p → p.view.lay f = some l →
    (∀ v ans bb, (v, ans, bb) ∈ ev → l.parentBb v = some bb ∨ ∀ b, ¬ Listed l b v) → unlistAll f ev p = some p' →
    ∃ l', Unlisted p p' f ev l l'
  | [], p, p', l, hi, hl, _, h => by
    cases h
    refine ⟨l, hi, ?_, _, rfl, ?_⟩
    · have : p.view.lay = fun g => if g = f then some l else p.view.lay g := by
        funext g; split
        · rename_i e; rw [e, hl]
        · rfl
      rw [← this]
    · refine Eq.symm (Eq.trans (List.map_congr_left (g := id) (fun q hq => ?_)) (List.map_id _))
      simp only [List.map_nil, List.not_mem_nil, not_false_eq_true, decide_true, List.filter_eq_self.2 (fun _ _ => rfl), id]
  | (v, ans, bb) :: ev, p, p', l, hi, hl, hp, h => by
    unfold unlistAll at h
    split at h
    · cases h
    · rename_i p1 h1
      obtain ⟨l0, l1, e0, hs, hv⟩ := removeInst_view h1
      rw [hl] at e0; cases e0
      have hi1 := hi.removeInst h1
      have hL := (hi.lays f l hl).1
      obtain ⟨hL1, hbb⟩ := removeInst_insts hL (hp v ans bb (by simp)) hs
      have hl1 : p1.view.lay f = some l1 := by rw [hv]; simp
      have hlist : ∀ b w, Listed l1 b w ↔ Listed l b w ∧ w ≠ v := by
        intro b w
        unfold Listed
        rw [hbb]
        constructor
        · rintro ⟨is, hm, hw⟩
          obtain ⟨⟨b2, is2⟩, hm2, e⟩ := List.mem_map.1 hm
          simp only [Prod.mk.injEq] at e
          obtain ⟨rfl, rfl⟩ := e
          have := List.mem_filter.1 hw
          simp at this
          exact ⟨⟨is2, hm2, this.1⟩, this.2⟩
        · rintro ⟨⟨is, hm, hw⟩, hne⟩
          exact ⟨_, List.mem_map.2 ⟨(b, is), hm, rfl⟩, List.mem_filter.2 ⟨hw, by simp [hne]⟩⟩
      obtain ⟨l', ih⟩ := unlistAll_spec hi1 hl1 (fun w a b hm => by
        rcases hp w a b (by simp [hm]) with h | h
        · by_cases hw : w = v
          · exact .inr (fun b' hb' => ((hlist b' w).1 hb').2 hw)
          · refine .inl ((hL1.parent w b).2 ((hlist b w).2 ⟨(hL.parent w b).1 h, hw⟩))
        · exact .inr (fun b' hb' => h b' ((hlist b' w).1 hb').1)) h
      refine ⟨l', ih.inv, ?_, ?_⟩
      · rw [ih.rest, hv]
        simp only [View.mk.injEq, true_and, and_true]
        funext g
        split
        · rfl
        · rfl
      · obtain ⟨q, e1, e2⟩ := ih.bbs
        refine ⟨q, e1, ?_⟩
        rw [e2, hbb, List.map_map]
        refine List.map_congr_left (fun r _ => ?_)
        simp only [Function.comp, List.filter_filter, List.map_cons, List.mem_cons, not_or]
        congr 1
        refine List.filter_congr (fun x _ => ?_)
        simp [Bool.and_comm]

/-- The kind of a parameter. -/
def IsParam (k : VKind) : Prop := (∃ i, k = .funcArgRef i) ∨ ∃ i, k = .blockArgRef i

/-- The parameters of the function, and of the blocks that its instructions transfer control to, are values of these kinds. -/
def ParamsProper (p : Program) (f : Func) : Prop :=
  (∀ t n ps, p.view.head f = some (t, n, ps) → ∀ v ∈ ps, ∀ s, p.view.l f v = some s → IsParam s.2.2) ∧
  ∀ l b is v s t n ps, p.view.lay f = some l → (b, is) ∈ l.bbs → v ∈ is → p.view.l f v = some s → t ∈ targets s.2.2 →
    p.view.b f t = some (n, ps) → ∀ x ∈ ps, ∀ s', p.view.l f x = some s' → IsParam s'.2.2

theorem insts_filter {l l' : Layout} {P : Value → Bool} (h : l'.bbs = l.bbs.map (fun q => (q.1, q.2.filter P))) (b : BB) :
    l'.insts? b = (l.insts? b).map (·.filter P) := by
  unfold Layout.insts?
  rw [h]
  generalize l.bbs = L
  induction L with
  | nil => rfl
  | cons q L ih =>
    obtain ⟨b', is⟩ := q
    simp only [List.map_cons, Map.lookup]
    split
    · rfl
    · exact ih

theorem insts_mem {l : Layout} {b : BB} {is : List Value} (h : l.insts? b = some is) : (b, is) ∈ l.bbs := by
  unfold Layout.insts? at h
  generalize l.bbs = L at h ⊢
  induction L with
  | nil => cases h
  | cons q L ih =>
    obtain ⟨b', js⟩ := q
    unfold Map.lookup at h
    split at h
    · rename_i e; cases h; subst e; simp
    · exact List.mem_cons_of_mem _ (ih h)

theorem shapeOf_some {x : Option VData} {d : VData} (h : shapeOf x = some d.shape) :
    ∃ d', x = some d' ∧ d'.ty = d.ty ∧ d'.name = d.name ∧ d'.kind = d.kind := by
  cases x with
  | none => cases h
  | some d' =>
    unfold shapeOf VData.shape at h
    simp only [Option.map_some, Option.some.injEq, Prod.mk.injEq] at h
    exact ⟨d', rfl, h.1, h.2.1, h.2.2⟩

/-- A function and the same with the values `fs` folded. -/
theorem funcSim_folded {rt rt' : Interp.Rt} {fd fd' : FData} {fs : List Value} (hdep : rt'.depth = rt.depth)
    (hty : fd'.ty = fd.ty) (hname : fd'.name = fd.name) (hps : fd'.params = fd.params)
    (hbbs : fd'.layout.bbs = fd.layout.bbs.map (fun q => (q.1, q.2.filter (fun x => decide (x ∉ fs)))))
    (hother : ∀ v, v ∉ fs → shapeOf (fd'.dfg.values.get? v) = shapeOf (fd.dfg.values.get? v))
    (hfold : ∀ v ∈ fs, ∃ d op a b da db i j ans d', fd.dfg.values.get? v = some d ∧ d.kind = .binary op a b ∧ d.ty = .i32 ∧
        fd.dfg.values.get? a = some da ∧ da.kind = .integer i ∧ fd.dfg.values.get? b = some db ∧ db.kind = .integer j ∧
        foldOp rt.chk op i j = some ans ∧ fd'.dfg.values.get? v = some d' ∧ d'.ty = .i32 ∧ d'.kind = kindOf ans)
    (hblocks : ∀ b, bshapeOf (fd'.dfg.bbs.get? b) = bshapeOf (fd.dfg.bbs.get? b))
    (hp1 : ∀ v ∈ fd.params, v ∉ fs) (hp2 : ∀ b is v d t x, (b, is) ∈ fd.layout.bbs → v ∈ is → fd.dfg.values.get? v = some d → t ∈ targets d.kind →
      fd.dfg.bbs.get? t = some x → ∀ y ∈ x.params, y ∉ fs)
    (hl : ∀ v, (fd.dfg.values.get? v).isSome → isGlobal v = false) :
    Interp.FuncSim rt rt' Interp.NoAlloc True Interp.All fd fd' where
  ty := hty
  name := hname
  params := hps
  entry := by
    rw [hbbs]
    cases fd.layout.bbs <;> rfl
  consts e d h hc := by
    have : e ∉ fs := fun hm => by
      obtain ⟨d2, op, a, b, da, db, i, j, ans, d', h1, h2, _⟩ := hfold e hm
      rw [h] at h1; cases h1
      rw [h2] at hc; cases hc
    have h2 := hother e this
    rw [h] at h2
    obtain ⟨d', e1, e2, _, e3⟩ := shapeOf_some h2
    exact ⟨d', e1, e2, e3⟩
  types v d _ h := by
    by_cases hm : v ∈ fs
    · obtain ⟨d2, op, a, b, da, db, i, j, ans, d', h1, h2, h3, _, _, _, _, _, h4, h5, _⟩ := hfold v hm
      rw [h] at h1; cases h1
      exact ⟨d', h4, by rw [h5, h3]⟩
    · have h2 := hother v hm
      rw [h] at h2
      obtain ⟨d', e1, e2, _, _⟩ := shapeOf_some h2
      exact ⟨d', e1, e2⟩
  bound v d hv _ h := by
    have h2 := hother v (hp1 v hv)
    rw [h] at h2
    obtain ⟨d', e1, e2, _, e3⟩ := shapeOf_some h2
    exact ⟨d', e1, by rw [e3]⟩
  blocks b is h := by
    refine ⟨is.filter (fun x => decide (x ∉ fs)), by rw [insts_filter hbbs, h]; rfl, ?_⟩
    have hm0 := insts_mem h
    have hin : ∀ v ∈ is, ∃ js, (b, js) ∈ fd.layout.bbs ∧ v ∈ js := fun v hv => ⟨is, hm0, hv⟩
    clear h hm0
    induction is with
    | nil => exact .nil
    | cons v is ih =>
      replace ih := ih (fun w hw => hin w (List.mem_cons_of_mem _ hw))
      obtain ⟨js, hjs, hvj⟩ := hin v (by simp)
      rw [List.filter_cons]
      by_cases hm : v ∈ fs
      · rw [if_neg (by simp [hm])]
        refine .fold (fun d hd => ?_) ih
        obtain ⟨d2, op, a, b, da, db, i, j, ans, d', h1, h2, h3, h4, h5, h6, h7, h8, h9, h10, h11⟩ := hfold v hm
        rw [hd] at h1; cases h1
        refine ⟨op, a, b, h2, ?_⟩
        intro fr fr' i' j' n e1 e2 e3 e4 e5
        have ga := hl a (by rw [h4]; rfl)
        have gb := hl b (by rw [h6]; rfl)
        have gv := hl v (by rw [hd]; rfl)
        unfold Interp.evalValue at e3 e4 ⊢
        rw [ga] at e3
        rw [gb] at e4
        rw [gv]
        simp only [Bool.false_eq_true, if_false] at e3 e4 ⊢
        rw [e1, h4] at e3
        rw [e1, h6] at e4
        rw [e2, h9, hdep]
        dsimp only at e3 e4 ⊢
        rw [h5] at e3
        rw [h7] at e4
        obtain ⟨at1, an, ak, au⟩ := da
        obtain ⟨bt1, bn, bk, bu⟩ := db
        obtain ⟨vt1, vn, vk, vu⟩ := d'
        simp only at h5 h7 h10 h11
        subst h5 h7 h11
        cases hdep2 : rt.depth with
        | zero => rw [hdep2] at e3; cases e3
        | succ m =>
          rw [hdep2] at e3 e4
          have hi : i' = i := by cases e3; rfl
          have hj : j' = j := by cases e4; rfl
          subst hi hj
          obtain ⟨f1, f2⟩ := foldOp_evalOp rt.chk op i' j'
          cases ans with
          | none => rw [f2 h8] at e5; cases e5
          | some n' =>
            rw [f1 n' h8] at e5
            cases e5
            rfl
      · rw [if_pos (by simp [hm])]
        refine .keep (fun d hd => ?_) ih
        have h2 := hother v hm
        rw [hd] at h2
        obtain ⟨d', e1, e2, _, e3⟩ := shapeOf_some h2
        refine ⟨hl v (by rw [hd]; rfl), fun _ h => h, d', e1, e2, ?_⟩
        rw [e3]
        refine .of_same (fun _ _ => trivial) (fun t ht as _ x hx => ?_)
        have hb := hblocks t
        rw [hx] at hb
        cases hb' : fd'.dfg.bbs.get? t with
        | none => rw [hb'] at hb; cases hb
        | some x' =>
          rw [hb'] at hb
          unfold bshapeOf at hb
          simp only [Option.map_some, Option.some.injEq, Prod.mk.injEq] at hb
          refine ⟨x', rfl, ?_⟩
          rw [hb.2]
          refine .same (fun _ _ => trivial) (fun y hy dy hdy => ?_)
          have h2 := hother y (hp2 b js v d t x hjs hvj hd ht hx y hy)
          rw [hdy] at h2
          obtain ⟨d', e1, _, _, e3⟩ := shapeOf_some h2
          exact ⟨hl y (by rw [hdy]; rfl), d', e1, by rw [e3]⟩

/-- What folding changes: some instructions on two operands become constants and are no longer listed. -/
structure Light (p p' : Program) : Prop where
  head : p'.view.head = p.view.head
  b : p'.view.b = p.view.b
  lay : ∀ g l', p'.view.lay g = some l' → ∃ l, p.view.lay g = some l ∧ ∀ c is', (c, is') ∈ l'.bbs → ∃ is, (c, is) ∈ l.bbs ∧ ∀ v ∈ is', v ∈ is
  l : ∀ g v, p'.view.l g v = p.view.l g v ∨ ∃ t n op a c ans, p.view.l g v = some (t, n, .binary op a c) ∧ p'.view.l g v = some (.i32, none, kindOf ans) ∧
    ∀ l' b is', p'.view.lay g = some l' → (b, is') ∈ l'.bbs → v ∉ is'
  rest : p'.view.g = p.view.g ∧ p'.view.insts = p.view.insts ∧ p'.view.fns = p.view.fns

theorem Light.refl (p : Program) : Light p p :=
  ⟨rfl, rfl, fun _ l h => ⟨l, h, fun _ is h => ⟨is, h, fun _ h => h⟩⟩, fun _ _ => .inl rfl, rfl, rfl, rfl⟩

theorem Light.trans {p q r : Program} (h : Light p q) (h' : Light q r) : Light p r := by
  refine ⟨h'.head.trans h.head, h'.b.trans h.b, fun g l' hl => ?_, fun g v => ?_, h'.rest.1.trans h.rest.1, h'.rest.2.1.trans h.rest.2.1, h'.rest.2.2.trans h.rest.2.2⟩
  · obtain ⟨l1, h1, h2⟩ := h'.lay g l' hl
    obtain ⟨l, h3, h4⟩ := h.lay g l1 h1
    refine ⟨l, h3, fun c is' hc => ?_⟩
    obtain ⟨is1, h5, h6⟩ := h2 c is' hc
    obtain ⟨is, h7, h8⟩ := h4 c is1 h5
    exact ⟨is, h7, fun v hv => h8 v (h6 v hv)⟩
  · rcases h'.l g v with e | ⟨t, n, op, a, c, ans, e1, e2⟩
    · rw [e]
      rcases h.l g v with e3 | ⟨t', n', op', a', c', ans', e3, e4, e5⟩
      · exact .inl e3
      · refine .inr ⟨t', n', op', a', c', ans', e3, e4, fun l' b is' hl hb hv => ?_⟩
        obtain ⟨l1, h1, h2⟩ := h'.lay g l' hl
        obtain ⟨is1, h5, h6⟩ := h2 b is' hb
        exact e5 l1 b is1 h1 h5 (h6 v hv)
    · rcases h.l g v with e3 | ⟨t', n', op', a', c', ans', e3, e4, -⟩
      · exact .inr ⟨t, n, op, a, c, ans, by rw [← e3]; exact e1, e2⟩
      · exact .inr ⟨t', n', op', a', c', ans, e3, e2⟩

/-- What one round of folding does to the program. -/
structure Round (chk : Bool) (f : Func) (p p' : Program) : Prop where
  inv : CInv p'
  params : ∀ g, ParamsProper p g → ParamsProper p' g
  light : Light p p'
  insts : p'.instLayout = p.instLayout
  globals : ∀ v, (p'.values.get? v).map (fun d => (d.ty, d.kind)) = (p.values.get? v).map (fun d => (d.ty, d.kind))
  live : ∀ g, (p'.funcs.get? g).isSome = (p.funcs.get? g).isSome
  sim : ∀ rt rt' : Interp.Rt, rt'.depth = rt.depth → rt.chk = chk → ∀ g fd, p.funcs.get? g = some fd →
    ∃ fd', p'.funcs.get? g = some fd' ∧ Interp.FuncSim rt rt' Interp.NoAlloc True Interp.All fd fd'

theorem CInv.local_not_global {p : Program} (hi : CInv p) {f : Func} {fd : FData} (hf : p.funcs.get? f = some fd) {v : Value}
    (h : (fd.dfg.values.get? v).isSome) : isGlobal v = false := by
  cases hv : fd.dfg.values.get? v with
  | none => rw [hv] at h; cases h
  | some d =>
    have := hi.lRange (f := f) (v := v) (s := d.shape) (by rw [view_l_self hf, hv]; rfl)
    unfold isGlobal
    have h1 := this.1
    simp only [Bool.and_eq_false_imp, decide_eq_true_eq, decide_eq_false_iff_not, Nat.not_lt]
    intro _
    exact h1

theorem evalConst_round {chk : Bool} {f : Func} {vs : List Value} {p p' : Program} {ch : Bool} (hi : CInv p) (hp : ParamsProper p f)
    (h : evalConst chk f vs p = some (p', ch)) : Round chk f p p' := by
  unfold evalConst at h
  split at h
  · cases h
  · rename_i fd hf
    split at h
    · cases h
    · rename_i ev hev
      split at h
      · cases h
      · rename_i p1 h1
        simp only [Option.map_eq_some_iff, Prod.mk.injEq] at h
        obtain ⟨p2, h2, e, _⟩ := h
        rw [e] at h2

        have hspec := evaluated_spec hev
        have hw := hi.wellTyped
        have hty : ∀ v d op a b, fd.dfg.values.get? v = some d → d.kind = .binary op a b → d.ty = .i32 := by
          intro v d op a b hd hk
          have := hw.locals f v d ⟨fd, hf, hd⟩
          rw [hk] at this
          generalize d.ty = t at this ⊢
          cases this
          rfl
        have hr := replaceAll_spec hi (fun v ans ⟨bb, hm⟩ => by
          obtain ⟨_, d, op, a, b, da, db, i, j, hd, hk, _⟩ := hspec v ans bb hm
          exact ⟨d.name, d.kind, by rw [view_l_self hf, hd, ← hty v d op a b hd hk]; rfl⟩) h1
        have hlay : p1.view.lay f = some fd.layout := by
          rw [hr.rest]; simp [Program.view, hf]
        obtain ⟨l', hu⟩ := unlistAll_spec hr.inv hlay (fun v ans bb hm => by
          obtain ⟨_, d, op, a, b, da, db, i, j, _, _, _, _, _, _, _, hpb⟩ := hspec v ans bb hm
          exact .inl hpb) h2
        have hview : p'.view = { p.view with l := p1.view.l, lay := fun g => if g = f then some l' else p.view.lay g } := by
          rw [hu.rest, hr.rest]
        have hhead : p'.view.head = p.view.head := by rw [hview]
        have hbk : p'.view.b = p.view.b := by rw [hview]
        have hl : p'.view.l = p1.view.l := by rw [hview]
        have hmem : ∀ v, v ∈ ev.map (·.1) → ∃ ans, Folded ev v ans := by
          intro v hv
          obtain ⟨⟨v', ans, bb⟩, hm, rfl⟩ := List.mem_map.1 hv
          exact ⟨ans, bb, hm⟩
        have hmem' : ∀ v ans, Folded ev v ans → v ∈ ev.map (·.1) := fun v ans ⟨bb, hm⟩ => List.mem_map.2 ⟨_, hm, rfl⟩
        have hnp : ∀ v ans, Folded ev v ans → ∀ s, p.view.l f v = some s → ¬ IsParam s.2.2 := by
          intro v ans ⟨bb, hm⟩ s hs hs'
          obtain ⟨_, d, op, a, b, da, db, i, j, hd, hk, _⟩ := hspec v ans bb hm
          rw [view_l_self hf, hd] at hs
          cases hs
          have hs' : IsParam d.kind := hs'
          rw [hk] at hs'
          rcases hs' with ⟨_, e⟩ | ⟨_, e⟩ <;> cases e
        have hlive : ∀ v ans, Folded ev v ans → ∃ s, p.view.l f v = some s := by
          intro v ans ⟨bb, hm⟩
          obtain ⟨_, d, op, a, b, da, db, i, j, hd, hk, _⟩ := hspec v ans bb hm
          exact ⟨d.shape, by rw [view_l_self hf, hd]; rfl⟩
        have hbb : l'.bbs = fd.layout.bbs.map (fun q => (q.1, q.2.filter (fun x => decide (x ∉ ev.map (·.1))))) := by
          obtain ⟨q, e1, e2⟩ := hu.bbs
          rw [e1, e2]
        have hpar : ∀ g, g ≠ f → ParamsProper p g → ParamsProper p' g := by
          intro g hg hpg
          have hlg : p'.view.l g = p.view.l g := by
            funext v
            rw [hl, hr.other g v (fun e => absurd e hg)]
          have hlay' : p'.view.lay g = p.view.lay g := by rw [hview]; simp [hg]
          unfold ParamsProper
          rw [hlg, hlay', hhead, hbk]
          exact hpg
        have hparf : ParamsProper p' f := by
          refine ⟨?_, ?_⟩
          · intro t n ps hh v hv s hs
            rw [hhead] at hh
            rw [hl] at hs
            have hno : ∀ ans, ¬ Folded ev v ans := fun ans hfo => by
              obtain ⟨s0, hs0⟩ := hlive v ans hfo
              exact hnp v ans hfo s0 hs0 (hp.1 t n ps hh v hv s0 hs0)
            rw [hr.other f v (fun _ => hno)] at hs
            exact hp.1 t n ps hh v hv s hs
          · intro l b is v s t n ps hlay' hb hv hs ht hb' x hx s' hs'
            have hla' : l = l' := by
              rw [hview] at hlay'
              simp only [if_true] at hlay'
              cases hlay'; rfl
            rw [hla', hbb] at hb
            obtain ⟨⟨b0, is0⟩, hb0, e⟩ := List.mem_map.1 hb
            simp only [Prod.mk.injEq] at e
            obtain ⟨rfl, rfl⟩ := e
            obtain ⟨hv0, hv1⟩ := List.mem_filter.1 hv
            rw [decide_eq_true_eq] at hv1
            rw [hl, hr.other f v (fun _ ans hfo => hv1 (hmem' v ans hfo))] at hs
            rw [hbk] at hb'
            rw [hl] at hs'
            have hlayf : p.view.lay f = some fd.layout := by simp [Program.view, hf]
            have hpp := hp.2 fd.layout b0 is0 v s t n ps hlayf hb0 hv0 hs ht hb' x hx
            have hno : ∀ ans, ¬ Folded ev x ans := fun ans hfo => by
              obtain ⟨s0, hs0⟩ := hlive x ans hfo
              exact hnp x ans hfo s0 hs0 (hpp s0 hs0)
            rw [hr.other f x (fun _ => hno)] at hs'
            exact hpp s' hs'
        have hlight : Light p p' := by
          refine ⟨hhead, hbk, fun g l2 hl2 => ?_, fun g v => ?_, by rw [hview], by rw [hview], by rw [hview]⟩
          · rw [hview] at hl2
            simp only at hl2
            split at hl2
            · rename_i hg
              cases hl2
              subst hg
              refine ⟨fd.layout, by simp [Program.view, hf], fun c is' hc => ?_⟩
              rw [hbb] at hc
              obtain ⟨⟨c0, is0⟩, hc0, e⟩ := List.mem_map.1 hc
              simp only [Prod.mk.injEq] at e
              obtain ⟨rfl, rfl⟩ := e
              exact ⟨is0, hc0, fun v hv => (List.mem_filter.1 hv).1⟩
            · exact ⟨l2, hl2, fun c is hc => ⟨is, hc, fun _ h => h⟩⟩
          · rw [hl]
            by_cases hfo : g = f ∧ ∃ ans, Folded ev v ans
            · obtain ⟨rfl, ans, hfo⟩ := hfo
              obtain ⟨ans', -, e⟩ := hr.folded v ans hfo
              obtain ⟨bb, hm⟩ := hfo
              obtain ⟨_, d, op, a, b, da, db, i, j, hd, hk, _⟩ := hspec v ans bb hm
              refine .inr ⟨d.ty, d.name, op, a, b, ans', by rw [view_l_self hf, hd, ← hk]; rfl, e, fun l2 c is2 hl2 hc hv => ?_⟩
              rw [hview] at hl2
              simp only [if_true, Option.some.injEq] at hl2
              subst hl2
              rw [hbb] at hc
              obtain ⟨⟨c0, is0⟩, hc0, e⟩ := List.mem_map.1 hc
              simp only [Prod.mk.injEq] at e
              obtain ⟨rfl, rfl⟩ := e
              have := (List.mem_filter.1 hv).2
              simp only [decide_eq_true_eq] at this
              exact this (List.mem_map.2 ⟨_, hm, rfl⟩)
            · exact .inl (hr.other g v (fun e ans h => hfo ⟨e, ans, h⟩))
        refine ⟨hu.inv, fun g hpg => if hg : g = f then hg ▸ hparf else hpar g hg hpg, hlight, congrArg View.insts hview, ?_, ?_, ?_⟩
        · intro v
          have : shapeOf (p'.values.get? v) = shapeOf (p.values.get? v) := congrFun (congrArg View.g hview) v
          unfold shapeOf at this
          cases e1 : p'.values.get? v <;> cases e2 : p.values.get? v <;> rw [e1, e2] at this <;> simp_all
        · intro g
          have := congrFun hhead g
          simp only [Program.view] at this
          cases e1 : p'.funcs.get? g <;> cases e2 : p.funcs.get? g <;> rw [e1, e2] at this <;> simp_all
        · intro rt rt' hdep hchk g fg hg
          have hh := congrFun hhead g
          simp only [Program.view, hg] at hh
          cases hg' : p'.funcs.get? g with
          | none => rw [hg'] at hh; cases hh
          | some fg' =>
            rw [hg'] at hh
            simp only [Option.map_some, Option.some.injEq, Prod.mk.injEq] at hh
            refine ⟨fg', rfl, ?_⟩
            have hlg : ∀ v, shapeOf (fg'.dfg.values.get? v) = p1.view.l g v := by
              intro v; rw [← hl, view_l_self hg']
            have hbg : ∀ b, bshapeOf (fg'.dfg.bbs.get? b) = bshapeOf (fg.dfg.bbs.get? b) := by
              intro b; rw [← view_b_self hg', ← view_b_self hg, hbk]
            by_cases hgf : g = f
            · subst hgf
              rw [hf] at hg; cases hg
              have hla : fg'.layout = l' := by
                have := congrFun (congrArg View.lay hview) g
                simp only [if_true] at this
                simp only [Program.view, hg', Option.map_some, Option.some.injEq] at this
                exact this
              refine funcSim_folded (fs := ev.map (·.1)) hdep hh.1 hh.2.1 hh.2.2 (by rw [hla, hbb]) ?_ ?_ hbg ?_ ?_
                (fun v hv => CInv.local_not_global hi hf hv)
              · intro v hv
                rw [hlg, hr.other g v (fun _ ans hfo => hv (hmem' v ans hfo)), view_l_self hf]
              · intro v hv
                obtain ⟨ans0, hfo0⟩ := hmem v hv
                obtain ⟨ans, ⟨bb, hm⟩, hs⟩ := hr.folded v ans0 hfo0
                obtain ⟨_, d, op, a, b, da, db, i, j, k1, k2, k3, k4, k5, k6, k7, k8⟩ := hspec v ans bb hm
                rw [← hlg] at hs
                cases hd' : fg'.dfg.values.get? v with
                | none => rw [hd'] at hs; cases hs
                | some d' =>
                  rw [hd'] at hs
                  unfold shapeOf at hs
                  simp only [Option.map_some, Option.some.injEq, Prod.mk.injEq] at hs
                  exact ⟨d, op, a, b, da, db, i, j, ans, d', k1, k2, hty v d op a b k1 k2, k3, k4, k5, k6, by rw [hchk]; exact k7,
                    rfl, hs.1, hs.2.2⟩
              · intro v hv hm
                obtain ⟨ans, hfo⟩ := hmem v hm
                obtain ⟨s, hs⟩ := hlive v ans hfo
                exact hnp v ans hfo s hs (hp.1 fd.ty fd.name fd.params (by simp [Program.view, hf]) v hv s hs)
              · intro b is v d t x hb hv hd ht hx y hy hm
                obtain ⟨ans, hfo⟩ := hmem y hm
                obtain ⟨s, hs⟩ := hlive y ans hfo
                exact hnp y ans hfo s hs (hp.2 fd.layout b is v d.shape t x.name x.params (by simp [Program.view, hf]) hb hv
                  (by rw [view_l_self hf, hd]; rfl) ht (by rw [view_b_self hf, hx]; rfl) y hy s hs)
            · have hla : fg'.layout = fg.layout := by
                have := congrFun (congrArg View.lay hview) g
                simp only [if_neg hgf] at this
                simp only [Program.view, hg', hg, Option.map_some, Option.some.injEq] at this
                exact this
              refine funcSim_folded (fs := []) hdep hh.1 hh.2.1 hh.2.2 ?_ ?_ (fun v hv => by cases hv) hbg (fun _ _ h => by cases h)
                (fun _ _ _ _ _ _ _ _ _ _ _ _ _ h => by cases h) (fun v hv => CInv.local_not_global hi hg hv)
              · rw [hla]
                refine Eq.symm (Eq.trans (List.map_congr_left (g := id) (fun q hq => ?_)) (List.map_id _))
                simp only [List.not_mem_nil, not_false_eq_true, decide_true, List.filter_eq_self.2 (fun _ _ => rfl), id]
              · intro v _
                rw [hlg, hr.other g v (fun e => absurd e hgf), view_l_self hg]

end ConstFold
end Koopa
