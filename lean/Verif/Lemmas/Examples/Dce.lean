import Verif.Model.Examples.Dce
import Verif.Lemmas.Examples.ParamFold
/-! The effect of dead code elimination. -/
namespace Koopa
open Spec

/-- A program that was built through the interface, in which no function was removed, with consistent layouts. -/
structure DInv (p : Program) : Prop where
  reach : Reach (fun p op => op.Ok p ∧ op.NoRemoveFunc) p
  max : p.ids.nextGlobal ≤ localStart
  lays : ∀ g l, p.view.lay g = some l → LInv l

theorem FInv.dinv {p : Program} (h : FInv p) : DInv p :=
  ⟨h.reach.mono (fun _ _ ho => ⟨ho.1, ho.2.2.1⟩), h.max, fun g l hl => (h.lays g l hl).1⟩

theorem DInv.inv {p : Program} (h : DInv p) : Inv (fun _ _ => False) p := h.reach.invExact h.max

/-- A step that leaves the layouts alone. -/
theorem DInv.step {p p' : Program} {op : Op} (h : DInv p) (ho : op.Ok p) (hn : op.NoRemoveFunc) (hs : p.step op = some p')
    (hi : p'.ids = p.ids) (hl : p'.view.lay = p.view.lay) : DInv p' :=
  ⟨.step h.reach ⟨ho, hn⟩ hs, by rw [hi]; exact h.max, by rw [hl]; exact h.lays⟩

theorem DInv.replaceLocal {p p' : Program} {f : Func} {v : Value} {i : LocalInst} (h : DInv p)
    (hs : p.replaceLocal f v i = some p') : DInv p' := by
  obtain ⟨_, _, _, _, _, _, hv⟩ := replaceLocal_view hs
  exact h.step (op := .replaceLocal f v i) trivial trivial hs (congrArg View.ids hv) (by rw [hv])

theorem DInv.setBbParams {p p' : Program} {f : Func} {b : BB} {ps : List Value} (h : DInv p)
    (hs : p.setBbParams f b ps = some p') : DInv p' := by
  obtain ⟨_, _, _, hv⟩ := setBbParams_view hs
  exact h.step (op := .setBbParams f b ps) trivial trivial hs (congrArg View.ids hv) (by rw [hv])

/-- Removing a local value. -/
theorem removeLocal_view {p p' : Program} {f : Func} {v : Value} (h : p.removeLocal f v = some p') :
    ∃ x, LocalVal p f v x ∧ x.usedBy = [] ∧
      p'.view = { p.view with l := fun f' w => if f' = f ∧ w = v then none else p.view.l f' w } := by
  unfold Program.removeLocal Program.onDfg at h
  simp only [Option.bind_eq_bind, Option.bind_eq_some_iff, Option.some.injEq, Option.map_eq_some_iff] at h
  obtain ⟨fd, hf, c, ⟨⟨c', data⟩, hc, rfl⟩, rfl⟩ := h
  unfold Ctx.removeValue at hc
  simp only [Option.bind_eq_bind, Option.bind_eq_some_iff, Option.some.injEq, Prod.mk.injEq] at hc
  obtain ⟨old, ho, _, hg, c1, h1, c2, h2, rfl, rfl⟩ := hc
  have hu : old.usedBy = [] := by
    unfold guard at hg
    split at hg
    · assumption
    · cases hg
  refine ⟨old, ⟨fd, hf, ho⟩, hu, ?_⟩
  have hs := (delUses_shape h1).trans (delBbUses_shape h2)
  refine Eq.trans (view_putCtx (p := p) hf rfl rfl rfl rfl rfl) ?_
  simp only [View.mk.injEq, true_and]
  refine ⟨?_, ?_, ?_, rfl⟩
  · funext w; exact hs.g w
  · funext f' w
    by_cases hff : f' = f
    · subst hff
      simp only [if_true, true_and, view_l_self hf]
      rw [hs.v]
      show shapeOf ((fd.dfg.values.erase v).get? w) = _
      by_cases hw : w = v
      · subst hw; rw [Map.get?_erase_self]; simp [shapeOf]
      · rw [if_neg hw, Map.get?_erase_ne _ hw]
    · simp [hff]
  · funext f' w
    by_cases hff : f' = f
    · subst hff; simp only [if_true, view_b_self hf]; exact hs.b w
    · simp [hff]

theorem DInv.removeLocal {p p' : Program} {f : Func} {v : Value} (h : DInv p) (hs : p.removeLocal f v = some p') : DInv p' := by
  obtain ⟨_, _, _, hv⟩ := removeLocal_view hs
  exact h.step (op := .removeLocal f v) trivial trivial hs (congrArg View.ids hv) (by rw [hv])

theorem DInv.removeInst {p p' : Program} {f : Func} {b : BB} {v : Value} (h : DInv p)
    (hs : p.onLayout f (fun l => (l.removeInst b v).map (·.1)) = some p') : DInv p' := by
  obtain ⟨l, l', hl, hs', hv⟩ := removeInst_view hs
  refine ⟨.step (op := .layout f (.removeInst b v)) h.reach ⟨trivial, trivial⟩ hs, ?_, ?_⟩
  · rw [show p'.ids = p.ids from congrArg View.ids hv]; exact h.max
  · intro g k hk
    rw [hv] at hk
    dsimp only at hk
    split at hk
    · cases hk; exact (h.lays f l hl).step (op := .removeInst b v) trivial hs'
    · exact h.lays g k hk

theorem DInv.lRange {p : Program} (h : DInv p) {f : Func} {v : Value} {s : Sig}
    (hv : p.view.l f v = some s) : localStart ≤ v ∧ v < p.ids.nextLocal := by
  obtain ⟨x, hx, -⟩ := view_l_iff.1 hv
  exact h.inv.lRange f v x hx

theorem DInv.local_not_global {p : Program} (hi : DInv p) {f : Func} {v : Value} (h : (p.view.l f v).isSome) : isGlobal v = false := by
  obtain ⟨s, hs⟩ := Option.isSome_iff_exists.1 h
  have h1 := (hi.lRange hs).1
  unfold isGlobal
  simp only [Bool.and_eq_false_imp, decide_eq_true_eq, decide_eq_false_iff_not, Nat.not_lt]
  intro _
  exact h1

namespace Dce

theorem mem_once {v : Value} : ∀ {l : List Value}, v ∈ once l ↔ v ∈ l
  | [] => by simp [once]
  | w :: l => by
    simp only [once, List.mem_cons, List.mem_filter, decide_eq_true_eq]
    rw [mem_once (l := l)]
    constructor
    · rintro (h | h)
      · exact .inl h
      · exact .inr h.1
    · rintro (h | h)
      · exact .inl h
      · by_cases e : v = w
        · exact .inl e
        · exact .inr ⟨h, e⟩

theorem once_nodup : ∀ {l : List Value}, (once l).Nodup
  | [] => by simp [once]
  | w :: l => by
    simp only [once, List.nodup_cons, List.mem_filter, decide_eq_true_eq, ne_eq, not_true_eq_false, and_false, not_false_eq_true, true_and]
    exact (once_nodup (l := l)).filter _

/-! ### Marking -/

/-- An instruction whose operands that are instructions are all in the set. -/
def ClosedAt (fd : FData) (live : List Value) (v : Value) : Prop :=
  ∀ d, fd.dfg.values.get? v = some d → ∀ o ∈ operands d.kind, ∀ e, fd.dfg.values.get? o = some e → e.kind.isLocalInst = true → o ∈ live

/-- What is needed by critical instructions. -/
inductive Needed (fd : FData) : Value → Prop where
  | critical {v : Value} {d : VData} : fd.dfg.values.get? v = some d → isCritical d.kind = true → Needed fd v
  | operand {u v : Value} {d e : VData} : Needed fd u → fd.dfg.values.get? u = some d → v ∈ operands d.kind →
      fd.dfg.values.get? v = some e → e.kind.isLocalInst = true → Needed fd v

/-- The state while marking. -/
structure Marking (fd : FData) (start : List Value) (st : St) : Prop where
  kept : ∀ v ∈ start, v ∈ st.liveset
  todo : ∀ v ∈ st.worklist, v ∈ st.liveset
  closed : ∀ v ∈ st.liveset, v ∉ st.worklist → ClosedAt fd st.liveset v
  crit : ∀ v ∈ st.worklist, Needed fd v
  only : ∀ v ∈ st.liveset, v ∈ start ∨ Needed fd v

theorem ClosedAt.mono {fd : FData} {a b : List Value} {v : Value} (h : ClosedAt fd a v) (hs : ∀ x ∈ a, x ∈ b) : ClosedAt fd b v :=
  fun d hd o ho e he hl => hs o (h d hd o ho e he hl)

theorem Marking.add {fd : FData} {start : List Value} {st : St} (h : Marking fd start st) {v : Value} (hn : Needed fd v) :
    Marking fd start (st.add v) where
  kept w hw := by simp [St.add, h.kept w hw]
  todo w hw := by
    simp only [St.add, List.mem_cons] at hw ⊢
    rcases hw with rfl | hw
    · exact .inl rfl
    · exact .inr (h.todo w hw)
  closed w hw hnw := by
    simp only [St.add, List.mem_cons, not_or] at hw hnw ⊢
    rcases hw with rfl | hw
    · exact absurd rfl hnw.1
    · exact (h.closed w hw hnw.2).mono (fun x hx => by simp [hx])
  crit w hw := by
    simp only [St.add, List.mem_cons] at hw
    rcases hw with rfl | hw
    · exact hn
    · exact h.crit w hw
  only w hw := by
    simp only [St.add, List.mem_cons] at hw
    rcases hw with rfl | hw
    · exact .inr hn
    · exact h.only w hw

theorem seed_spec {fd : FData} {start : List Value} : ∀ {vs : List Value} {st : St}, Marking fd start st →
    Marking fd start (seed fd vs st) ∧ (∀ v ∈ st.liveset, v ∈ (seed fd vs st).liveset) ∧
      ∀ v ∈ vs, ∀ d, fd.dfg.values.get? v = some d → isCritical d.kind = true → v ∈ (seed fd vs st).liveset
  | [], st, h => ⟨h, fun _ h => h, by simp⟩
  | v :: vs, st, h => by
    unfold seed
    split
    · rename_i d hd
      have hm : Marking fd start (if isCritical d.kind then st.add v else st) := by
        split
        · rename_i hc; exact h.add (.critical hd hc)
        · exact h
      obtain ⟨h1, h2, h3⟩ := seed_spec (vs := vs) hm
      refine ⟨h1, fun w hw => h2 w ?_, fun w hw e he hc => ?_⟩
      · split
        · simp [St.add, hw]
        · exact hw
      · rcases List.mem_cons.1 hw with rfl | hw
        · rw [hd] at he; cases he
          exact h2 w (by rw [if_pos hc]; simp [St.add])
        · exact h3 w hw e he hc
    · rename_i hd
      obtain ⟨h1, h2, h3⟩ := seed_spec (vs := vs) h
      refine ⟨h1, h2, fun w hw e he hc => ?_⟩
      rcases List.mem_cons.1 hw with rfl | hw
      · rw [hd] at he; cases he
      · exact h3 w hw e he hc

theorem visit_spec {fd : FData} {start : List Value} {u : Value} {d : VData} (hu : Needed fd u) (hd : fd.dfg.values.get? u = some d) :
    ∀ {vs : List Value} {st st' : St}, (∀ v ∈ vs, v ∈ operands d.kind) →
    (∀ v ∈ start, v ∈ st.liveset) → (∀ v ∈ st.worklist, v ∈ st.liveset) → (∀ v ∈ st.liveset, v ∉ st.worklist → v = u ∨ ClosedAt fd st.liveset v) →
    (∀ v ∈ st.worklist, Needed fd v) → (∀ v ∈ st.liveset, v ∈ start ∨ Needed fd v) → visit fd vs st = some st' →
    (∀ v ∈ st.liveset, v ∈ st'.liveset) ∧ (∀ v ∈ start, v ∈ st'.liveset) ∧ (∀ v ∈ st'.worklist, v ∈ st'.liveset) ∧
      (∀ v ∈ st'.liveset, v ∉ st'.worklist → v = u ∨ ClosedAt fd st'.liveset v) ∧ (∀ v ∈ st'.worklist, Needed fd v) ∧
      (∀ v ∈ st'.liveset, v ∈ start ∨ Needed fd v) ∧
      ∀ v ∈ vs, ∀ e, fd.dfg.values.get? v = some e → e.kind.isLocalInst = true → v ∈ st'.liveset
  | [], st, st', _, h1, h2, h3, h4, h5, h => by
    cases h
    exact ⟨fun _ h => h, h1, h2, h3, h4, h5, by simp⟩
  | v :: vs, st, st', ho, h1, h2, h3, h4, h5, h => by
    unfold visit at h
    split at h
    · rename_i hv
      obtain ⟨g1, g2, g3, g4, g5, g6, g7⟩ := visit_spec hu hd (fun w hw => ho w (by simp [hw])) h1 h2 h3 h4 h5 h
      refine ⟨g1, g2, g3, g4, g5, g6, fun w hw e he hl => ?_⟩
      rcases List.mem_cons.1 hw with rfl | hw
      · exact g1 w hv
      · exact g7 w hw e he hl
    · split at h
      · cases h
      · rename_i e0 he0
        have hn : e0.kind.isLocalInst = true → Needed fd v := fun hl => .operand hu hd (ho v (by simp)) he0 hl
        have key : ∀ st1, st1 = (if e0.kind.isLocalInst then st.add v else st) → (∀ w ∈ st.liveset, w ∈ st1.liveset) ∧
            (∀ v ∈ st1.worklist, v ∈ st1.liveset) ∧ (∀ v ∈ st1.liveset, v ∉ st1.worklist → v = u ∨ ClosedAt fd st1.liveset v) ∧
            (∀ v ∈ st1.worklist, Needed fd v) ∧ (∀ v ∈ st1.liveset, v ∈ start ∨ Needed fd v) := by
          rintro st1 rfl
          split
          · rename_i hl
            refine ⟨fun w hw => by simp [St.add, hw], fun w hw => ?_, fun w hw hnw => ?_, fun w hw => ?_, fun w hw => ?_⟩
            · simp only [St.add, List.mem_cons] at hw ⊢
              rcases hw with rfl | hw
              · exact .inl rfl
              · exact .inr (h2 w hw)
            · simp only [St.add, List.mem_cons, not_or] at hw hnw ⊢
              rcases hw with rfl | hw
              · exact absurd rfl hnw.1
              · rcases h3 w hw hnw.2 with e | e
                · exact .inl e
                · exact .inr (e.mono (fun x hx => by simp [hx]))
            · simp only [St.add, List.mem_cons] at hw
              rcases hw with rfl | hw
              · exact hn hl
              · exact h4 w hw
            · simp only [St.add, List.mem_cons] at hw
              rcases hw with rfl | hw
              · exact .inr (hn hl)
              · exact h5 w hw
          · exact ⟨fun _ h => h, h2, h3, h4, h5⟩
        obtain ⟨k1, k2, k3, k4, k5⟩ := key _ rfl
        obtain ⟨g1, g2, g3, g4, g5, g6, g7⟩ := visit_spec hu hd (fun w hw => ho w (by simp [hw])) (fun w hw => k1 w (h1 w hw)) k2 k3 k4 k5 h
        refine ⟨fun w hw => g1 w (k1 w hw), g2, g3, g4, g5, g6, fun w hw e he hl => ?_⟩
        rcases List.mem_cons.1 hw with rfl | hw
        · rw [he0] at he; cases he
          exact g1 w (by rw [if_pos hl]; simp [St.add])
        · exact g7 w hw e he hl

theorem markLoop_spec {fd : FData} {start : List Value} : ∀ {n : Nat} {st st' : St}, Marking fd start st → markLoop fd n st = some st' →
    (∀ v ∈ st.liveset, v ∈ st'.liveset) ∧ st'.worklist = [] ∧ Marking fd start st'
  | 0, _, _, _, h => by cases h
  | n + 1, st, st', hm, h => by
    unfold markLoop at h
    split at h
    · rename_i hw
      cases h
      exact ⟨fun _ h => h, hw, hm⟩
    · rename_i v wl hw
      split at h
      · cases h
      · rename_i d hd
        split at h
        · cases h
        · rename_i st1 h1
          have hv : v ∈ st.worklist := by rw [hw]; simp
          obtain ⟨g1, g2, g3, g4, g5, g6, g7⟩ := visit_spec (start := start) (st := { worklist := wl, liveset := st.liveset }) (hm.crit v hv) hd (vs := d.kind.valueUses) (fun w hw => by rw [← valueUses_eq]; exact hw)
            hm.kept (fun w hw' => hm.todo w (by rw [hw]; exact List.mem_cons_of_mem _ hw')) (fun w hl hnw => by
              by_cases e : w = v
              · exact .inl e
              · exact .inr (hm.closed w hl (by rw [hw]; exact fun hh => (List.mem_cons.1 hh).elim e hnw))) (fun w hw' => hm.crit w (by rw [hw]; exact List.mem_cons_of_mem _ hw'))
            hm.only h1
          have hm1 : Marking fd start st1 := by
            refine ⟨g2, g3, fun w hl hnw => ?_, g5, g6⟩
            rcases g4 w hl hnw with rfl | e
            · intro d' hd' o ho e he hli
              rw [hd] at hd'; cases hd'
              exact g7 o (by rw [valueUses_eq]; exact ho) e he hli
            · exact e
          obtain ⟨k1, k2, k3⟩ := markLoop_spec hm1 h
          exact ⟨fun w hw => k1 w (g1 w hw), k2, k3⟩

/-- What holds after marking. -/
structure Marked (fd : FData) (start : List Value) (live : List Value) : Prop where
  kept : ∀ v ∈ start, v ∈ live
  closed : ∀ v ∈ live, ClosedAt fd live v
  crit : ∀ v d, fd.dfg.values.get? v = some d → isCritical d.kind = true → v ∈ live
  only : ∀ v ∈ live, v ∈ start ∨ Needed fd v

theorem mark_spec {fd : FData} {n : Nat} {vs : List Value} {st st' : St} (hc : ∀ v ∈ st.liveset, ClosedAt fd st.liveset v)
    (hw : st.worklist = []) (hvs : ∀ v, (fd.dfg.values.get? v).isSome → v ∈ vs) (h : mark fd n vs st = some st') :
    st'.worklist = [] ∧ Marked fd st.liveset st'.liveset := by
  have h0 : Marking fd st.liveset st := ⟨fun _ h => h, by simp [hw], fun v hv _ => hc v hv, by simp [hw], fun v hv => .inl hv⟩
  obtain ⟨h1, h2, h3⟩ := seed_spec (vs := vs) h0
  obtain ⟨k1, k2, k3⟩ := markLoop_spec h1 h
  refine ⟨k2, k3.kept, fun v hv => k3.closed v hv (by rw [k2]; simp), fun v d hd hcr => k1 v (h3 v (hvs v (by rw [hd]; rfl)) d hd hcr), k3.only⟩

/-- A set that is closed and contains the critical instructions contains what is needed. -/
theorem Marked.needed {fd : FData} {start live : List Value} (h : Marked fd start live) {v : Value} (hn : Needed fd v) : v ∈ live := by
  induction hn with
  | critical hd hc => exact h.crit _ _ hd hc
  | operand _ hd ho he hl ih => exact h.closed _ ih _ hd _ ho _ he hl

/-! ### Sweeping -/

/-- The parameters of blocks are no instructions, the listed values are, and a conditional branch with
equal targets passes no arguments. -/
structure Sane (p : Program) (f : Func) : Prop where
  params : ∀ b n ps, p.view.b f b = some (n, ps) → ∀ x ∈ ps, ∀ t m k, p.view.l f x = some (t, m, k) → ∃ i, k = .blockArgRef i
  listed : ∀ l b v, p.view.lay f = some l → Listed l b v → ∃ t m k, p.view.l f v = some (t, m, k) ∧ k.isLocalInst = true
  arms : ∀ v t m c b b' ts fs, p.view.l f v = some (t, m, .branch c b b' ts fs) → b = b' → ts = [] ∧ fs = []

/-- The effect of taking the instructions out of the layout. -/
structure Unlisted (p p' : Program) (f : Func) (ds : List Value) (l l' : Layout) : Prop where
  inv : DInv p'
  rest : p'.view = { p.view with lay := fun g => if g = f then some l' else p.view.lay g }
  bbs : l'.bbs = l.bbs.map (fun q => (q.1, q.2.filter (fun x => decide (x ∉ ds))))

theorem unlist_spec {f : Func} : ∀ {ev : List (BB × Value)} {p p' : Program} {l : Layout}, DInv p → p.view.lay f = some l →
    (∀ b v, (b, v) ∈ ev → l.parentBb v = some b ∨ ∀ b, ¬ Listed l b v) → unlist f ev p = some p' →
    ∃ l', Unlisted p p' f (ev.map (·.2)) l l'
  | [], p, p', l, hi, hl, _, h => by
    cases h
    refine ⟨l, hi, ?_, ?_⟩
    · have : p.view.lay = fun g => if g = f then some l else p.view.lay g := by
        funext g; split
        · rename_i e; rw [e, hl]
        · rfl
      rw [← this]
    · refine Eq.symm (Eq.trans (List.map_congr_left (g := id) (fun q hq => ?_)) (List.map_id _))
      simp only [List.map_nil, List.not_mem_nil, not_false_eq_true, decide_true, List.filter_eq_self.2 (fun _ _ => rfl), id]
  | (bb, v) :: ev, p, p', l, hi, hl, hp, h => by
    unfold unlist at h
    split at h
    · cases h
    · rename_i p1 h1
      obtain ⟨l0, l1, e0, hs, hv⟩ := removeInst_view h1
      rw [hl] at e0; cases e0
      have hi1 := hi.removeInst h1
      have hL := hi.lays f l hl
      obtain ⟨hL1, hbb⟩ := ConstFold.removeInst_insts hL (hp bb v (by simp)) hs
      have hl1 : p1.view.lay f = some l1 := by rw [hv]; simp
      have hlist : ∀ b w, Listed l1 b w ↔ Listed l b w ∧ w ≠ v := by
        intro b w
        unfold Listed
        rw [hbb]
        constructor
        · rintro ⟨is, hm, hw⟩
          obtain ⟨⟨b2, is2⟩, hm2, e⟩ := List.mem_map.1 hm
          simp only [Prod.mk.injEq] at e
          obtain ⟨rfl, rfl⟩ := e
          have := List.mem_filter.1 hw
          simp at this
          exact ⟨⟨is2, hm2, this.1⟩, this.2⟩
        · rintro ⟨⟨is, hm, hw⟩, hne⟩
          exact ⟨_, List.mem_map.2 ⟨(b, is), hm, rfl⟩, List.mem_filter.2 ⟨hw, by simp [hne]⟩⟩
      obtain ⟨l', ih⟩ := unlist_spec hi1 hl1 (fun b w hm => by
        rcases hp b w (by simp [hm]) with h | h
        · by_cases hw : w = v
          · exact .inr (fun b' hb' => ((hlist b' w).1 hb').2 hw)
          · refine .inl ((hL1.parent w b).2 ((hlist b w).2 ⟨(hL.parent w b).1 h, hw⟩))
        · exact .inr (fun b' hb' => h b' ((hlist b' w).1 hb').1)) h
      refine ⟨l', ih.inv, ?_, ?_⟩
      · rw [ih.rest, hv]
        simp only [View.mk.injEq, true_and, and_true]
        funext g
        split
        · rfl
        · rfl
      · rw [ih.bbs, hbb, List.map_map]
        refine List.map_congr_left (fun r _ => ?_)
        simp only [Function.comp, List.filter_filter, List.map_cons, List.mem_cons, not_or]
        congr 1
        refine List.filter_congr (fun x _ => ?_)
        simp [Bool.and_comm]

theorem undefAll_spec {f : Func} : ∀ {vs : List Value} {p p' : Program}, DInv p → undefAll f vs p = some p' →
    DInv p' ∧ p'.view = { p.view with l := p'.view.l } ∧ ∀ g v, ¬ (g = f ∧ v ∈ vs) → p'.view.l g v = p.view.l g v
  | [], p, p', hi, h => by cases h; exact ⟨hi, rfl, fun _ _ _ => rfl⟩
  | v :: vs, p, p', hi, h => by
    unfold undefAll at h
    split at h
    · cases h
    · split at h
      · cases h
      · rename_i p1 h1
        obtain ⟨a, b, c⟩ := undefAll_spec (hi.replaceLocal h1) h
        obtain ⟨_, _, _, _, _, _, hv⟩ := replaceLocal_view h1
        refine ⟨a, by rw [b, hv], fun g w hw => ?_⟩
        rw [c g w (fun e => hw ⟨e.1, by simp [e.2]⟩), hv]
        dsimp only
        rw [if_neg (fun e => hw ⟨e.1, by simp [e.2]⟩)]

theorem removeAll_spec {f : Func} : ∀ {vs : List Value} {p p' : Program}, DInv p → removeAll f vs p = some p' →
    DInv p' ∧ p'.view = { p.view with l := fun g v => if g = f ∧ v ∈ vs then none else p.view.l g v }
  | [], p, p', hi, h => by cases h; exact ⟨hi, by simp⟩
  | v :: vs, p, p', hi, h => by
    unfold removeAll at h
    split at h
    · cases h
    · rename_i p1 h1
      obtain ⟨a, b⟩ := removeAll_spec (hi.removeLocal h1) h
      obtain ⟨_, _, _, hv⟩ := removeLocal_view h1
      refine ⟨a, ?_⟩
      rw [b, hv]
      simp only [View.mk.injEq, true_and, and_true]
      funext g w
      by_cases e : g = f ∧ w = v
      · obtain ⟨rfl, rfl⟩ := e; simp
      · by_cases e' : g = f ∧ w ∈ vs
        · simp [e'.1, e'.2]
        · rw [if_neg e', if_neg e, if_neg]
          rintro ⟨h1, h2⟩
          rcases List.mem_cons.1 h2 with h2 | h2
          · exact e ⟨h1, h2⟩
          · exact e' ⟨h1, h2⟩

/-- The effect of removing the instructions `ds`. -/
structure Swept (p p' : Program) (f : Func) (ds : List Value) (l l' : Layout) : Prop where
  inv : DInv p'
  rest : p'.view = { p.view with l := fun g v => if g = f ∧ v ∈ ds then none else p.view.l g v,
                                 lay := fun g => if g = f then some l' else p.view.lay g }
  bbs : l'.bbs = l.bbs.map (fun q => (q.1, q.2.filter (fun x => decide (x ∉ ds))))

theorem mem_deadInsts {live : List Value} {l : Layout} {b : BB} {v : Value} :
    (b, v) ∈ deadInsts live l ↔ Listed l b v ∧ v ∉ live := by
  unfold deadInsts Listed
  simp only [List.mem_flatMap, List.mem_map, List.mem_filter, decide_eq_true_eq, Prod.mk.injEq]
  constructor
  · rintro ⟨⟨b', is⟩, hm, w, ⟨hw, hn⟩, rfl, rfl⟩
    exact ⟨⟨is, hm, hw⟩, hn⟩
  · rintro ⟨⟨is, hm, hv⟩, hn⟩
    exact ⟨(b, is), hm, v, ⟨hv, hn⟩, rfl, rfl⟩

theorem sweep_spec {f : Func} {st : St} {p p' : Program} {c : Bool} (hi : DInv p) (h : sweep f st p = some (p', c)) :
    ∃ l l' ds, p.view.lay f = some l ∧ (∀ v, v ∈ ds ↔ (∃ b, Listed l b v) ∧ v ∉ st.liveset) ∧ (c = false → ds = []) ∧ Swept p p' f ds l l' := by
  unfold sweep at h
  split at h
  · cases h
  · rename_i fd hf
    have hlay : p.view.lay f = some fd.layout := by simp [Program.view, hf]
    dsimp only at h
    split at h
    · cases h
    · rename_i p1 h1
      split at h
      · cases h
      · rename_i p2 h2
        simp only [Option.map_eq_some_iff, Prod.mk.injEq] at h
        obtain ⟨p3, h3, rfl, rfl⟩ := h
        obtain ⟨l', hu⟩ := unlist_spec hi hlay (fun b v hm => .inl (((hi.lays f _ hlay).parent v b).2 (mem_deadInsts.1 hm).1)) h1
        obtain ⟨i2, r2, o2⟩ := undefAll_spec hu.inv h2
        obtain ⟨i3, r3⟩ := removeAll_spec i2 h3
        refine ⟨_, l', (deadInsts st.liveset fd.layout).map (·.2), hlay, fun v => ?_, fun e => ?_, i3, ?_, hu.bbs⟩
        · simp only [List.mem_map, Prod.exists, exists_eq_right]
          constructor
          · rintro ⟨b, hb⟩
            exact ⟨⟨b, (mem_deadInsts.1 hb).1⟩, (mem_deadInsts.1 hb).2⟩
          · rintro ⟨⟨b, hb⟩, hn⟩
            exact ⟨b, mem_deadInsts.2 ⟨hb, hn⟩⟩
        · cases hd : deadInsts st.liveset fd.layout with
          | nil => rfl
          | cons _ _ => rw [hd] at e; cases e
        · rw [r3, r2, hu.rest]
          simp only [View.mk.injEq, true_and, and_true]
          funext g v
          split
          · rfl
          · rename_i hn
            rw [o2 g v hn, hu.rest]

/-! ### Removing parameters -/

theorem dropAt_nil {α : Type} : ∀ {n : Nat} {xs : List α}, dropAt [] n xs = xs
  | _, [] => rfl
  | n, x :: xs => by simp [dropAt, dropAt_nil]

theorem mem_dropAt {α : Type} {is : List Nat} : ∀ {n : Nat} {xs : List α} {i : Nat} {x : α}, xs[i]? = some x → n + i ∉ is → x ∈ dropAt is n xs
  | n, y :: xs, 0, x, h, hn => by
    cases h
    simp [dropAt, show n ∉ is from hn]
  | n, y :: xs, i + 1, x, h, hn => by
    have := mem_dropAt (n := n + 1) (xs := xs) (i := i) (x := x) (by simpa using h) (by rwa [Nat.add_assoc, Nat.add_comm 1])
    unfold dropAt
    split
    · exact this
    · exact List.mem_cons_of_mem _ this
  | _, [], _, _, h, _ => by simp at h

theorem dropAt_sublist {α : Type} {is : List Nat} : ∀ {n : Nat} {xs : List α}, (dropAt is n xs).Sublist xs
  | _, [] => .slnil
  | n, x :: xs => by
    unfold dropAt
    split
    · exact dropAt_sublist.cons _
    · exact dropAt_sublist.cons_cons _

theorem of_mem_dropAt {α : Type} {is : List Nat} : ∀ {n : Nat} {xs : List α} {x : α}, x ∈ dropAt is n xs → ∃ i : Nat, xs[i]? = some x ∧ n + i ∉ is
  | _, [], _, h => by cases h
  | n, y :: xs, x, h => by
    unfold dropAt at h
    have key : x ∈ dropAt is (n + 1) xs → ∃ i : Nat, (y :: xs)[i]? = some x ∧ n + i ∉ is := fun h => by
      obtain ⟨i, h1, h2⟩ := of_mem_dropAt h
      exact ⟨i + 1, by simpa using h1, by rwa [Nat.add_comm i 1, ← Nat.add_assoc]⟩
    split at h
    · exact key h
    · rename_i hn
      rcases List.mem_cons.1 h with rfl | h
      · exact ⟨0, rfl, hn⟩
      · exact key h

/-- The positions that are dropped at block `b`. -/
def pos : List (BB × List (Nat × Value)) → BB → List Nat
  | [], _ => []
  | (b', m) :: l, b => if b' = b then m.map (·.1) else pos l b

/-- The parameters that are removed. -/
def gone (l : List (BB × List (Nat × Value))) : List Value := l.flatMap (fun q => q.2.map (·.2))

theorem pos_none : ∀ {l : List (BB × List (Nat × Value))} {b : BB}, b ∉ l.map (·.1) → pos l b = []
  | [], _, _ => rfl
  | (b', m) :: l, b, h => by
    simp only [List.map_cons, List.mem_cons, not_or] at h
    unfold pos
    rw [if_neg (fun e => h.1 e.symm)]
    exact pos_none h.2

theorem pos_mem : ∀ {l : List (BB × List (Nat × Value))} {b : BB} {m : List (Nat × Value)}, (l.map (·.1)).Nodup → (b, m) ∈ l → pos l b = m.map (·.1)
  | (b', m') :: l, b, m, hn, h => by
    simp only [List.map_cons, List.nodup_cons] at hn
    unfold pos
    rcases List.mem_cons.1 h with e | h
    · cases e; rw [if_pos rfl]
    · rw [if_neg]
      · exact pos_mem hn.2 h
      · rintro rfl
        exact hn.1 (List.mem_map.2 ⟨_, h, rfl⟩)

theorem unusedParams_spec {fd : FData} : ∀ {n : Nat} {ps : List Value} {m : List (Nat × Value)}, unusedParams fd n ps = some m →
    (∀ x ∈ ps, (fd.dfg.values.get? x).isSome) ∧
    ∀ i x, (i, x) ∈ m ↔ ∃ j, i = n + j ∧ ps[j]? = some x ∧ ∃ d, fd.dfg.values.get? x = some d ∧ d.usedBy = []
  | n, [], m, h => by cases h; simp
  | n, y :: ps, m, h => by
    unfold unusedParams at h
    split at h
    · cases h
    · rename_i d hd
      simp only [Option.map_eq_some_iff] at h
      obtain ⟨m', h, rfl⟩ := h
      obtain ⟨h1, h2⟩ := unusedParams_spec h
      refine ⟨fun x hx => ?_, fun i x => ?_⟩
      · rcases List.mem_cons.1 hx with rfl | hx
        · rw [hd]; rfl
        · exact h1 x hx
      · have key : (i, x) ∈ m' ↔ ∃ j, i = n + (j + 1) ∧ (y :: ps)[j + 1]? = some x ∧ ∃ d, fd.dfg.values.get? x = some d ∧ d.usedBy = [] := by
          rw [h2]
          constructor <;> rintro ⟨j, rfl, e⟩ <;> exact ⟨j, by omega, by simpa using e⟩
        by_cases hu : d.usedBy = []
        · rw [if_pos (by simp [hu]), List.mem_cons, key]
          constructor
          · rintro (e | ⟨j, e1, e2⟩)
            · cases e; exact ⟨0, rfl, rfl, d, hd, hu⟩
            · exact ⟨j + 1, e1, e2⟩
          · rintro ⟨j, e1, e2, e3⟩
            cases j with
            | zero => cases e2; subst e1; exact .inl rfl
            | succ j => exact .inr ⟨j, e1, e2, e3⟩
        · rw [if_neg (by simp [hu]), key]
          constructor
          · rintro ⟨j, e⟩; exact ⟨j + 1, e⟩
          · rintro ⟨j, e1, e2, d', e3, e4⟩
            cases j with
            | zero => cases e2; rw [hd] at e3; cases e3; exact absurd e4 hu
            | succ j => exact ⟨j, e1, e2, d', e3, e4⟩

theorem unusedBbs_spec {fd : FData} : ∀ {bs : List BB} {l : List (BB × List (Nat × Value))}, unusedBbs fd bs = some l →
    (l.map (·.1)).Sublist bs ∧ (∀ b m, (b, m) ∈ l → ∃ x, fd.dfg.bbs.get? b = some x ∧ unusedParams fd 0 x.params = some m) ∧
    ∀ b ∈ bs, ∀ x, fd.dfg.bbs.get? b = some x → ∃ m, unusedParams fd 0 x.params = some m ∧ (m = [] ∨ (b, m) ∈ l)
  | [], l, h => by cases h; simp
  | b :: bs, l, h => by
    unfold unusedBbs at h
    split at h
    · rename_i hb
      obtain ⟨h1, h2, h3⟩ := unusedBbs_spec h
      refine ⟨h1.cons _, h2, fun b' hb' x hx => ?_⟩
      rcases List.mem_cons.1 hb' with rfl | hb'
      · rw [hb] at hx; cases hx
      · exact h3 b' hb' x hx
    · rename_i y hy
      split at h
      · cases h
      · rename_i m hm
        simp only [Option.map_eq_some_iff] at h
        obtain ⟨l', h, rfl⟩ := h
        obtain ⟨h1, h2, h3⟩ := unusedBbs_spec h
        split
        · rename_i he
          refine ⟨h1.cons _, h2, fun b' hb' x hx => ?_⟩
          rcases List.mem_cons.1 hb' with rfl | hb'
          · rw [hy] at hx; cases hx
            exact ⟨m, hm, .inl (by simpa using he)⟩
          · exact h3 b' hb' x hx
        · refine ⟨by simpa using h1.cons_cons b, fun b' m' hm' => ?_, fun b' hb' x hx => ?_⟩
          · rcases List.mem_cons.1 hm' with e | hm'
            · cases e; exact ⟨y, hy, hm⟩
            · exact h2 b' m' hm'
          · rcases List.mem_cons.1 hb' with rfl | hb'
            · rw [hy] at hx; cases hx
              exact ⟨m, hm, .inr (by simp)⟩
            · obtain ⟨m', e1, e2⟩ := h3 b' hb' x hx
              exact ⟨m', e1, e2.imp id (fun e => by simp [e])⟩

/-- An order goes through a set once, and through a map. -/
structure Orders.Fair (o : Orders) : Prop where
  set : ∀ p l v, v ∈ o.set p l ↔ v ∈ l
  once : ∀ p l, (o.set p l).Nodup
  map : ∀ p m, (o.map p m).Perm m

theorem dropParams_spec {f : Func} {o : Orders} (ho : o.Fair) {b : BB} {m : List (Nat × Value)} {p p' : Program} (hi : DInv p) (h : dropParams f o b m p = some p') :
    DInv p' ∧ p'.view = { p.view with
      l := fun g v => if g = f ∧ v ∈ m.map (·.2) then none else p.view.l g v,
      b := fun g c => if g = f ∧ c = b then (p.view.b f b).map (fun q => (q.1, dropAt (m.map (·.1)) 0 q.2)) else p.view.b g c } := by
  unfold dropParams at h
  simp only [Option.bind_eq_bind, Option.bind_eq_some_iff] at h
  obtain ⟨fd, hf, x, hx, p1, h1, h2⟩ := h
  obtain ⟨i2, r2⟩ := removeAll_spec (hi.setBbParams h1) h2
  obtain ⟨n, ps0, hps, hv⟩ := setBbParams_view h1
  refine ⟨i2, ?_⟩
  rw [r2, hv]
  have hm : ∀ v, v ∈ (o.map p1 m).map (·.2) ↔ v ∈ m.map (·.2) := fun v => ((ho.map p1 m).map _).mem_iff
  simp only [hm, View.mk.injEq, true_and, and_true]
  funext g c
  split
  · rw [hps]
    rw [view_b_self hf, hx] at hps
    unfold bshapeOf at hps
    simp only [Option.map_some, Option.some.injEq, Prod.mk.injEq] at hps
    rw [hps.2]
    rfl
  · rfl

theorem dropAllParams_spec {f : Func} {o : Orders} (ho : o.Fair) : ∀ {l : List (BB × List (Nat × Value))} {p p' : Program}, DInv p → (l.map (·.1)).Nodup →
    dropAllParams f o l p = some p' →
    DInv p' ∧ p'.view = { p.view with
      l := fun g v => if g = f ∧ v ∈ gone l then none else p.view.l g v,
      b := fun g c => if g = f then (p.view.b f c).map (fun q => (q.1, dropAt (pos l c) 0 q.2)) else p.view.b g c }
  | [], p, p', hi, _, h => by
    cases h
    refine ⟨hi, ?_⟩
    have : p.view.b = fun g c => if g = f then (p.view.b f c).map (fun q => (q.1, dropAt (pos [] c) 0 q.2)) else p.view.b g c := by
      funext g c
      split
      · rename_i e; subst e
        simp [pos, dropAt_nil]
      · rfl
    rw [← this]
    simp [gone]
  | (b, m) :: l, p, p', hi, hn, h => by
    unfold dropAllParams at h
    split at h
    · cases h
    · rename_i p1 h1
      simp only [List.map_cons, List.nodup_cons] at hn
      obtain ⟨i1, r1⟩ := dropParams_spec ho hi h1
      obtain ⟨i2, r2⟩ := dropAllParams_spec ho i1 hn.2 h
      refine ⟨i2, ?_⟩
      rw [r2, r1]
      simp only [View.mk.injEq, true_and, and_true]
      constructor
      · funext g v
        have : v ∈ gone ((b, m) :: l) ↔ v ∈ m.map (·.2) ∨ v ∈ gone l := by simp [gone]
        simp only [this]
        by_cases e : g = f <;> by_cases e1 : v ∈ gone l <;> by_cases e2 : v ∈ m.map (·.2) <;> simp only [e, e1, e2, and_self, and_true, true_and, and_false, false_and, or_self, or_true, true_or, if_true, if_false]
      · funext g c
        by_cases e : g = f
        · subst e
          simp only [if_true, true_and]
          by_cases e1 : c = b
          · subst e1
            have hp : pos l c = [] := pos_none hn.1
            simp only [if_true, pos, hp]
            cases p.view.b g c <;> simp [dropAt_nil]
          · rw [if_neg e1]
            have : pos ((b, m) :: l) c = pos l c := if_neg (fun h => e1 h.symm)
            rw [this]
        · simp [e]

/-! ### Updating the users -/

theorem dropArgs_spec {b : BB} {is : List Nat} {k k' : VKind} {kept : List Value} (h : dropArgs b is k = some (k', kept)) :
    targets k' = targets k ∧ ∀ v ∈ kept, v ∈ operands k' := by
  cases k with
  | branch c t f ts fs =>
    unfold dropArgs at h
    by_cases e : t = b
    · simp only [if_pos e] at h; cases h; exact ⟨rfl, fun v hv => by simp [operands, hv]⟩
    · simp only [if_neg e] at h; cases h; exact ⟨rfl, fun v hv => by simp [operands, hv]⟩
  | jump t as => cases h; exact ⟨rfl, fun v hv => by simp [operands, hv]⟩
  | _ => cases h

theorem cleanArgs_noop {f : Func} {u : Value} : ∀ {vs : List Value} {p p' : Program}, DInv p → (∀ v ∈ vs, LocalUse p f u v) →
    cleanArgs f vs p = some p' → p' = p
  | [], p, p', _, _, h => by cases h; rfl
  | v :: vs, p, p', hi, hu, h => by
    unfold cleanArgs at h
    split at h
    · cases h
    · rename_i d hd
      simp only [Option.bind_eq_some_iff] at hd
      obtain ⟨fd, hf, hd⟩ := hd
      have h1 := (hi.inv.localUses f v d ⟨fd, hf, hd⟩ u).2 (hu v (by simp))
      split at h
      · rename_i he
        simp only [List.isEmpty_iff] at he
        rw [he] at h1; cases h1
      · exact cleanArgs_noop hi (fun w hw => hu w (by simp [hw])) h

theorem updateUser_spec {f : Func} {o : Orders} (hF : o.Fair) {b : BB} {is : List Nat} {u : Value} {p p' : Program} (hi : DInv p) (h : updateUser f o b is u p = some p') :
    DInv p' ∧ ∃ t n k k' kept, p.view.l f u = some (t, n, k) ∧ dropArgs b is k = some (k', kept) ∧
      p'.view = { p.view with l := fun g v => if g = f ∧ v = u then some (t, n, k') else p.view.l g v } := by
  unfold updateUser at h
  simp only [Option.bind_eq_bind, Option.bind_eq_some_iff] at h
  obtain ⟨fd, hf, d, hd, ⟨k', kept⟩, hk, p1, h1, h2⟩ := h
  obtain ⟨fd', data, old, hf', hb, ho, hv⟩ := replaceLocal_view h1
  have i1 := hi.replaceLocal h1
  have hdata : data.shape = (d.ty, d.name, k') := by cases hb; rfl
  rw [hdata] at hv
  have hu : p1.view.l f u = some (d.ty, d.name, k') := by rw [hv]; simp
  obtain ⟨x, hx, hs⟩ := view_l_iff.1 hu
  have : p' = p1 := cleanArgs_noop (u := u) i1 (fun v hv => ⟨x, hx, by
    have : x.kind = k' := (Prod.mk.inj (Prod.mk.inj hs).2).2
    rw [this]
    exact (dropArgs_spec hk).2 v ((hF.set _ _ _).1 hv)⟩) h2
  subst this
  refine ⟨i1, d.ty, d.name, d.kind, k', kept, ?_, hk, hv⟩
  rw [view_l_self hf, hd]; rfl

/-- The instruction without the arguments. -/
def dropB (b : BB) (is : List Nat) (k : VKind) : VKind := match dropArgs b is k with | some q => q.1 | none => k

/-- The change of the kind only. -/
def onKind (F : VKind → VKind) (s : Sig) : Sig := (s.1, s.2.1, F s.2.2)

theorem updateUsers_spec {f : Func} {o : Orders} (hF : o.Fair) {b : BB} {is : List Nat} : ∀ {us : List Value} {p p' : Program}, DInv p → us.Nodup →
    updateUsers f o b is us p = some p' →
    DInv p' ∧ p'.view = { p.view with l := fun g v => if g = f ∧ v ∈ us then (p.view.l g v).map (onKind (dropB b is)) else p.view.l g v }
  | [], p, p', hi, _, h => by cases h; exact ⟨hi, by simp⟩
  | u :: us, p, p', hi, hn, h => by
    unfold updateUsers at h
    split at h
    · cases h
    · rename_i p1 h1
      rw [List.nodup_cons] at hn
      obtain ⟨i1, t, n, k, k', kept, e1, e2, r1⟩ := updateUser_spec hF hi h1
      obtain ⟨i2, r2⟩ := updateUsers_spec hF i1 hn.2 h
      refine ⟨i2, ?_⟩
      rw [r2, r1]
      simp only [View.mk.injEq, true_and, and_true]
      funext g v
      by_cases e : g = f
      · subst e
        simp only [true_and, List.mem_cons]
        by_cases ev : v = u
        · subst ev
          rw [if_neg hn.1, if_pos rfl, if_pos (.inl rfl), e1]
          simp [onKind, dropB, e2]
        · simp [ev]
      · simp [e]

/-- The kind without the arguments for the parameters in `l`. -/
def drops : List (BB × List (Nat × Value)) → VKind → VKind
  | [], k => k
  | (b, m) :: l, k => drops l (if b ∈ targets k then dropB b (m.map (·.1)) k else k)

theorem updateAll_spec {f : Func} {o : Orders} (hF : o.Fair) : ∀ {l : List (BB × List (Nat × Value))} {p p' : Program}, DInv p → updateAll f o l p = some p' →
    DInv p' ∧ p'.view = { p.view with l := fun g v => if g = f then (p.view.l g v).map (onKind (drops l)) else p.view.l g v }
  | [], p, p', hi, h => by
    cases h
    refine ⟨hi, ?_⟩
    have : p.view.l = fun g v => if g = f then (p.view.l g v).map (onKind (drops [])) else p.view.l g v := by
      funext g v
      split
      · have : onKind (drops []) = id := rfl
        rw [this, Option.map_id_fun, id]
      · rfl
    rw [← this]
  | (b, m) :: l, p, p', hi, h => by
    unfold updateAll at h
    split at h
    · cases h
    · rename_i x hx
      simp only [Option.bind_eq_some_iff] at hx
      obtain ⟨fd, hf, hx⟩ := hx
      split at h
      · cases h
      · rename_i p1 h1
        obtain ⟨i1, r1⟩ := updateUsers_spec hF hi (hF.once _ _) h1
        obtain ⟨i2, r2⟩ := updateAll_spec hF i1 h
        refine ⟨i2, ?_⟩
        rw [r2, r1]
        simp only [View.mk.injEq, true_and, and_true]
        funext g v
        by_cases e : g = f
        · subst e
          simp only [true_and, if_true]
          cases hs : p.view.l g v with
          | none => simp
          | some s =>
            obtain ⟨d, hd, rfl⟩ := view_l_iff.1 hs
            have hu : v ∈ o.set p x.usedBy ↔ b ∈ targets d.kind := by
              rw [hF.set, hi.inv.blockUses g b x ⟨fd, hf, hx⟩ v]
              constructor
              · rintro ⟨d', hd', ht⟩
                obtain ⟨_, a1, a2⟩ := hd
                obtain ⟨_, a3, a4⟩ := hd'
                rw [a1] at a3; cases a3; rw [a2] at a4; cases a4
                exact ht
              · exact fun ht => ⟨d, hd, ht⟩
            by_cases hb : b ∈ targets d.kind
            · rw [if_pos (hu.2 hb)]
              simp [onKind, drops, VData.shape, hb]
            · rw [if_neg (fun h => hb (hu.1 h))]
              simp [onKind, drops, VData.shape, hb]
        · simp [e]

theorem drops_other : ∀ {l : List (BB × List (Nat × Value))} {k : VKind}, targets k = [] → drops l k = k
  | [], _, _ => rfl
  | (b, m) :: l, k, h => by
    unfold drops
    rw [h, if_neg (by simp)]
    exact drops_other h

theorem drops_jump {t : BB} : ∀ {l : List (BB × List (Nat × Value))} {as : List Value}, (l.map (·.1)).Nodup →
    drops l (.jump t as) = .jump t (dropAt (pos l t) 0 as)
  | [], as, _ => by simp [drops, pos, dropAt_nil]
  | (b, m) :: l, as, hn => by
    simp only [List.map_cons, List.nodup_cons] at hn
    unfold drops
    by_cases e : b = t
    · subst e
      simp only [targets, List.mem_singleton, if_true, dropB, dropArgs, pos]
      rw [drops_jump hn.2, pos_none hn.1, dropAt_nil]
    · rw [if_neg (by simp [targets, e]), drops_jump hn.2]
      simp [pos, e]

theorem drops_branch {c : Value} {t f : BB} : ∀ {l : List (BB × List (Nat × Value))} {ts fs : List Value}, (l.map (·.1)).Nodup →
    (t = f → ts = [] ∧ fs = []) →
    drops l (.branch c t f ts fs) = .branch c t f (dropAt (pos l t) 0 ts) (dropAt (pos l f) 0 fs)
  | [], ts, fs, _, _ => by simp [drops, pos, dropAt_nil]
  | (b, m) :: l, ts, fs, hn, ha => by
    simp only [List.map_cons, List.nodup_cons] at hn
    unfold drops
    by_cases e : t = f
    · subst e
      obtain ⟨rfl, rfl⟩ := ha rfl
      have : (if b ∈ targets (.branch c t t [] []) then dropB b (m.map (·.1)) (.branch c t t [] []) else .branch c t t [] []) = .branch c t t [] [] := by
        split
        · unfold dropB dropArgs
          by_cases h : t = b
          · simp only [if_pos h]; rfl
          · simp only [if_neg h]; rfl
        · rfl
      rw [this, drops_branch hn.2 (fun _ => ⟨rfl, rfl⟩)]
      rfl
    · by_cases e1 : b = t
      · subst e1
        rw [if_pos (by simp [targets])]
        simp only [dropB, dropArgs, if_true]
        rw [drops_branch hn.2 (fun h => absurd h e), pos_none hn.1, dropAt_nil]
        simp [pos, e]
      · by_cases e2 : b = f
        · subst e2
          rw [if_pos (by simp [targets])]
          simp only [dropB, dropArgs]
          rw [if_neg (fun h => e1 h.symm)]
          dsimp only
          rw [drops_branch hn.2 (fun h => absurd h e), pos_none hn.1, dropAt_nil]
          simp [pos, e1]
        · rw [if_neg (by simp [targets, e1, e2]), drops_branch hn.2 (fun h => absurd h e)]
          simp [pos, e1, e2]

theorem targets_drops : ∀ {l : List (BB × List (Nat × Value))} {k : VKind}, targets (drops l k) = targets k
  | [], _ => rfl
  | (b, m) :: l, k => by
    unfold drops
    rw [targets_drops]
    split
    · unfold dropB
      split
      · rename_i q hq
        exact (dropArgs_spec (kept := q.2) (k' := q.1) hq).1
      · rfl
    · rfl

theorem operands_dropB {b : BB} {is : List Nat} {k : VKind} : ∀ o ∈ operands (dropB b is k), o ∈ operands k := by
  intro o ho
  cases k with
  | branch c t f ts fs =>
    unfold dropB dropArgs at ho
    by_cases h : t = b
    · simp only [if_pos h, operands, List.mem_append, List.mem_cons, List.not_mem_nil, or_false] at ho ⊢
      rcases ho with h1 | h1 | h1
      · exact .inl h1
      · exact .inr (.inl (dropAt_sublist.subset h1))
      · exact .inr (.inr h1)
    · simp only [if_neg h, operands, List.mem_append, List.mem_cons, List.not_mem_nil, or_false] at ho ⊢
      rcases ho with h1 | h1 | h1
      · exact .inl h1
      · exact .inr (.inl h1)
      · exact .inr (.inr (dropAt_sublist.subset h1))
  | jump t as =>
    simp only [dropB, dropArgs, operands] at ho ⊢
    exact dropAt_sublist.subset ho
  | _ => exact ho

theorem operands_drops : ∀ {l : List (BB × List (Nat × Value))} {k : VKind}, ∀ o ∈ operands (drops l k), o ∈ operands k
  | [], _ => fun _ h => h
  | (b, m) :: l, k => by
    intro o ho
    unfold drops at ho
    have := operands_drops o ho
    split at this
    · exact operands_dropB o this
    · exact this

theorem shape_kind_drops : ∀ {l : List (BB × List (Nat × Value))} {k : VKind},
    (drops l k).isLocalInst = k.isLocalInst ∧ isCritical (drops l k) = isCritical k ∧ (drops l k).isConst = k.isConst
  | [], _ => ⟨rfl, rfl, rfl⟩
  | (b, m) :: l, k => by
    unfold drops
    obtain ⟨h1, h2, h3⟩ := shape_kind_drops (l := l) (k := if b ∈ targets k then dropB b (m.map (·.1)) k else k)
    rw [h1, h2, h3]
    split
    · cases k with
      | branch c t f ts fs => 
        unfold dropB dropArgs
        by_cases h : t = b
        · simp only [if_pos h]; exact ⟨rfl, rfl, rfl⟩
        · simp only [if_neg h]; exact ⟨rfl, rfl, rfl⟩
      | _ => exact ⟨rfl, rfl, rfl⟩
    · exact ⟨rfl, rfl, rfl⟩

/-- The effect of removing the parameters `l`. -/
structure Dropped (p p' : Program) (f : Func) (l : List (BB × List (Nat × Value))) : Prop where
  inv : DInv p'
  keys : (l.map (·.1)).Nodup
  rest : p'.view = { p.view with
    l := fun g v => if g = f then (if v ∈ gone l then none else (p.view.l g v).map (onKind (drops l))) else p.view.l g v,
    b := fun g c => if g = f then (p.view.b f c).map (fun q => (q.1, dropAt (pos l c) 0 q.2)) else p.view.b g c }
  gone_iff : ∀ b n ps, p.view.b f b = some (n, ps) → ∀ (i : Nat) x, ps[i]? = some x → (i ∈ pos l b ↔ x ∈ gone l)
  param : ∀ x ∈ gone l, (p.view.l f x).isSome ∧ ∃ b n ps, p.view.b f b = some (n, ps) ∧ x ∈ ps
  unused : ∀ x ∈ gone l, ∀ u, ¬ LocalUse p f u x
  used : ∀ b n ps, p.view.b f b = some (n, ps) → ∀ x ∈ ps, x ∉ gone l → ∃ u, LocalUse p f u x

theorem optBbParams_spec {f : Func} {o : Orders} (hF : o.Fair) {bs : List BB} {p p' : Program} {c : Bool} (hi : DInv p) (hn : bs.Nodup)
    (hall : ∀ b, (p.view.b f b).isSome → b ∈ bs) (h : optBbParams f o bs p = some (p', c)) :
    ∃ l, (c = false → l = []) ∧ Dropped p p' f l := by
  unfold optBbParams at h
  split at h
  · cases h
  · rename_i fd hf
    split at h
    · cases h
    · rename_i l hl
      split at h
      · cases h
      · rename_i p1 h1
        simp only [Option.map_eq_some_iff, Prod.mk.injEq] at h
        obtain ⟨p2, h2, rfl, rfl⟩ := h
        obtain ⟨s1, s2, s3⟩ := unusedBbs_spec hl
        have hk : (l.map (·.1)).Nodup := s1.nodup hn
        obtain ⟨i1, r1⟩ := dropAllParams_spec hF hi hk h1
        obtain ⟨i2, r2⟩ := updateAll_spec hF i1 h2
        have hgone : ∀ x, x ∈ gone l ↔ ∃ b m i, (b, m) ∈ l ∧ (i, x) ∈ m := by
          intro x
          simp only [gone, List.mem_flatMap, List.mem_map, Prod.exists, exists_eq_right]
          constructor
          · rintro ⟨b, m, h, i, h'⟩; exact ⟨b, m, i, h, h'⟩
          · rintro ⟨b, m, i, h, h'⟩; exact ⟨b, m, h, i, h'⟩
        have hun : ∀ x ∈ gone l, ∃ d, fd.dfg.values.get? x = some d ∧ d.usedBy = [] := by
          intro x hx
          obtain ⟨b, m, i, hm, hi'⟩ := (hgone x).1 hx
          obtain ⟨y, hy, hu⟩ := s2 b m hm
          obtain ⟨j, -, -, e⟩ := ((unusedParams_spec hu).2 i x).1 hi'
          exact e
        have hblk : ∀ b n ps, p.view.b f b = some (n, ps) → ∃ y m, fd.dfg.bbs.get? b = some y ∧ y.params = ps ∧
            unusedParams fd 0 y.params = some m ∧ pos l b = m.map (·.1) ∧ ((b, m) ∈ l ∨ m = []) := by
          intro b n ps hb
          have hb' := hall b (by rw [hb]; rfl)
          rw [view_b_self hf] at hb
          cases hy : fd.dfg.bbs.get? b with
          | none => rw [hy] at hb; cases hb
          | some y =>
            rw [hy] at hb
            unfold bshapeOf at hb
            simp only [Option.map_some, Option.some.injEq, Prod.mk.injEq] at hb
            obtain ⟨m, e1, e2⟩ := s3 b hb' y hy
            refine ⟨y, m, rfl, hb.2, e1, ?_, e2.symm⟩
            by_cases hin : (b, m) ∈ l
            · exact pos_mem hk hin
            · rcases e2 with rfl | e2
              · refine pos_none (fun hh => ?_)
                obtain ⟨⟨b', m'⟩, hm', e⟩ := List.mem_map.1 hh
                simp only at e
                subst e
                obtain ⟨y', hy', hu'⟩ := s2 b' m' hm'
                rw [hy] at hy'; cases hy'
                rw [e1] at hu'; cases hu'
                exact hin hm'
              · exact absurd e2 hin
        refine ⟨l, fun e => ?_, i2, hk, ?_, ?_, ?_, ?_, ?_⟩
        · cases l with
          | nil => rfl
          | cons _ _ => cases e
        · rw [r2, r1]
          simp only [View.mk.injEq, true_and, and_true]
          funext g v
          by_cases e : g = f <;> by_cases e' : v ∈ gone l <;> simp [e, e']
        · intro b n ps hb i x hx
          obtain ⟨y, m, hy, rfl, hu, hpos, hm⟩ := hblk b n ps hb
          rw [hpos]
          have hspec := (unusedParams_spec hu).2
          constructor
          · intro hi'
            obtain ⟨⟨i', x'⟩, h1, h2⟩ := List.mem_map.1 hi'
            simp only at h2
            subst h2
            obtain ⟨j, e1, e2, -⟩ := (hspec _ _).1 h1
            rw [Nat.zero_add] at e1
            subst e1
            rw [hx] at e2; cases e2
            rcases hm with hm | rfl
            · exact (hgone x).2 ⟨b, m, _, hm, h1⟩
            · cases h1
          · intro hg
            obtain ⟨d, hd, hd'⟩ := hun x hg
            exact List.mem_map.2 ⟨(i, x), (hspec i x).2 ⟨i, by simp, hx, d, hd, hd'⟩, rfl⟩
        · intro x hx
          obtain ⟨b, m, i, hm, hi'⟩ := (hgone x).1 hx
          obtain ⟨y, hy, hu⟩ := s2 b m hm
          obtain ⟨j, -, e, -⟩ := ((unusedParams_spec hu).2 i x).1 hi'
          obtain ⟨d, hd, -⟩ := hun x hx
          exact ⟨by rw [view_l_self hf, hd]; rfl, b, y.name, y.params, by rw [view_b_self hf, hy]; rfl, List.mem_of_getElem? e⟩
        · intro x hx u hu
          obtain ⟨d, hd, hd'⟩ := hun x hx
          have := (hi.inv.localUses f x d ⟨fd, hf, hd⟩ u).2 hu
          rw [hd'] at this; cases this
        · intro b n ps hb x hx hg
          obtain ⟨y, m, hy, rfl, hu, hpos, hm⟩ := hblk b n ps hb
          obtain ⟨d, hd⟩ := Option.isSome_iff_exists.1 ((unusedParams_spec hu).1 x hx)
          cases hus : d.usedBy with
          | cons u us => exact ⟨u, (hi.inv.localUses f x d ⟨fd, hf, hd⟩ u).1 (by rw [hus]; simp)⟩
          | nil =>
            exfalso
            obtain ⟨i, hi'⟩ := List.getElem?_of_mem hx
            have := ((unusedParams_spec hu).2 i x).2 ⟨i, by simp, hi', d, hd, hus⟩
            rcases hm with hm | rfl
            · exact hg ((hgone x).2 ⟨b, m, i, hm, this⟩)
            · cases this

/-! ### Runs -/

/-- A function, and the same without the instructions `ds`. -/
theorem funcSim_removed {rt rt' : Interp.Rt} {fd fd' : FData} {ds : List Value} {D : Value → Prop} (hty : fd'.ty = fd.ty) (hname : fd'.name = fd.name)
    (hps : fd'.params = fd.params) (hbbs : fd'.layout.bbs = fd.layout.bbs.map (fun q => (q.1, q.2.filter (fun x => decide (x ∉ ds)))))
    (hother : ∀ v, v ∉ ds → shapeOf (fd'.dfg.values.get? v) = shapeOf (fd.dfg.values.get? v)) (hgone : ∀ v ∈ ds, fd'.dfg.values.get? v = none)
    (hblocks : ∀ b, bshapeOf (fd'.dfg.bbs.get? b) = bshapeOf (fd.dfg.bbs.get? b))
    (hpure : ∀ v ∈ ds, ∀ d, fd.dfg.values.get? v = some d → Interp.pureInst d.kind = true)
    (hD : ∀ v d, fd.dfg.values.get? v = some d → (D v ↔ v ∈ ds)) (hng : ∀ v, (fd.dfg.values.get? v).isSome → isGlobal v = false)
    (hgn : ∀ v ∈ ds, isGlobal v = false)
    (hpar : ∀ t x, fd.dfg.bbs.get? t = some x → ∀ y ∈ x.params, (fd.dfg.values.get? y).isSome → y ∉ ds)
    (hcl : ∀ v d, fd'.dfg.values.get? v = some d → ∀ o ∈ operands d.kind, (fd'.dfg.values.get? o).isSome ∨ isGlobal o = true) :
    Interp.FuncSim rt rt' D False (fun v => (fd'.dfg.values.get? v).isSome ∨ isGlobal v = true) fd fd' := by
  have hstay : ∀ v d, v ∉ ds → fd.dfg.values.get? v = some d → ∃ d', fd'.dfg.values.get? v = some d' ∧ d'.ty = d.ty ∧ d'.kind = d.kind := by
    intro v d hv hd
    have := hother v hv
    rw [hd] at this
    obtain ⟨d', e1, e2, _, e3⟩ := ConstFold.shapeOf_some this
    exact ⟨d', e1, e2, e3⟩
  have hin : ∀ v d, ((fd'.dfg.values.get? v).isSome ∨ isGlobal v = true) → fd.dfg.values.get? v = some d → v ∉ ds := by
    intro v d hk hd hv
    rcases hk with hk | hk
    · rw [hgone v hv] at hk; cases hk
    · rw [hng v (by rw [hd]; rfl)] at hk; cases hk
  refine ⟨hty, hname, hps, by rw [hbbs]; cases fd.layout.bbs <;> rfl, ?_, ?_, ?_, ?_⟩
  · intro v d hd hc
    refine hstay v d (fun hv => ?_) hd
    have := hpure v hv d hd
    generalize d.kind = K at hc this
    cases K <;> first | (cases this; done) | (cases hc; done)
  · intro v d hk hd
    obtain ⟨d', e1, e2, _⟩ := hstay v d (hin v d hk hd) hd
    exact ⟨d', e1, e2⟩
  · intro b is hb
    refine ⟨is.filter (fun x => decide (x ∉ ds)), by rw [ConstFold.insts_filter hbbs, hb]; rfl, ?_⟩
    clear hb
    induction is with
    | nil => exact .nil
    | cons v is ih =>
      by_cases hv : v ∈ ds
      · rw [List.filter_cons_of_neg (by simp [hv])]
        refine .dead ?_ (fun d hd => ⟨hpure v hv d hd, fun _ => (hD v d hd).2 hv, fun h => h.elim⟩) ih
        rintro (hk | hk)
        · rw [hgone v hv] at hk; cases hk
        · rw [hgn v hv] at hk; cases hk
      · rw [List.filter_cons_of_pos (by simp [hv])]
        refine .keep (fun d hd => ?_) ih
        obtain ⟨d', e1, e2, e3⟩ := hstay v d hv hd
        refine ⟨hng v (by rw [hd]; rfl), fun _ h => hv ((hD v d hd).1 h), d', e1, e2, ?_⟩
        rw [e3]
        have hop := hcl v d' e1
        rw [e3] at hop
        refine Interp.KindSim.of_same hop (fun t _ as has x hx => ?_)
        have hb := hblocks t
        rw [hx] at hb
        cases hx' : fd'.dfg.bbs.get? t with
        | none => rw [hx'] at hb; cases hb
        | some x' =>
          rw [hx'] at hb
          unfold bshapeOf at hb
          simp only [Option.map_some, Option.some.injEq, Prod.mk.injEq] at hb
          refine ⟨x', rfl, ?_⟩
          rw [hb.2]
          refine Interp.PassSim.same (fun a ha => hop a (has a ha)) (fun y hy dy hdy => ⟨hng y (by rw [hdy]; rfl), ?_⟩)
          obtain ⟨dy', f1, _, f2⟩ := hstay y dy (hpar t x hx y hy (by rw [hdy]; rfl)) hdy
          exact ⟨dy', f1, by rw [f2]⟩
  · intro v d _ hk hd
    obtain ⟨d', e1, _, e3⟩ := hstay v d (hin v d hk hd) hd
    exact ⟨d', e1, by rw [e3]⟩

theorem passSim_drop {rt rt' : Interp.Rt} {Kept : Value → Prop} {fd fd' : FData} {is : List Nat} : ∀ {n : Nat} {ps as : List Value},
    (∀ (i : Nat) x a, ps[i]? = some x → as[i]? = some a → (n + i ∈ is ∧ ¬ Kept x) ∨ (n + i ∉ is ∧ Kept a ∧
      ∀ d, fd.dfg.values.get? x = some d → isGlobal x = false ∧ ∃ d', fd'.dfg.values.get? x = some d' ∧ d'.kind.isConst = d.kind.isConst)) →
    Interp.PassSim rt rt' Kept fd fd' (ps.zip as) ((dropAt is n ps).zip (dropAt is n as))
  | n, [], as, _ => by simp only [dropAt, List.zip_nil_left]; exact .nil
  | n, x :: ps, [], _ => by simp only [dropAt, List.zip_nil_right]; exact .nil
  | n, x :: ps, a :: as, h => by
    have ih := passSim_drop (rt := rt) (rt' := rt') (Kept := Kept) (fd := fd) (fd' := fd') (is := is) (n := n + 1) (ps := ps) (as := as) (fun i y b hy hb => by
      have := h (i + 1) y b (by simpa using hy) (by simpa using hb)
      rwa [show n + (i + 1) = n + 1 + i by omega] at this)
    rw [List.zip_cons_cons]
    rcases h 0 x a rfl rfl with ⟨h1, h2⟩ | ⟨h1, h2, h3⟩
    · simp only [dropAt, if_pos (show n ∈ is from h1)]
      exact .drop h2 ih
    · simp only [dropAt, if_neg (show n ∉ is from h1), List.zip_cons_cons]
      exact .keep h2 h3 ih

/-- A function, and the same without the parameters in `l`. -/
theorem funcSim_dropped {rt rt' : Interp.Rt} {fd fd' : FData} {l : List (BB × List (Nat × Value))} (hkeys : (l.map (·.1)).Nodup) (hty : fd'.ty = fd.ty)
    (hname : fd'.name = fd.name) (hps : fd'.params = fd.params) (hlay : fd'.layout.bbs = fd.layout.bbs)
    (hother : ∀ v, v ∉ gone l → shapeOf (fd'.dfg.values.get? v) = (shapeOf (fd.dfg.values.get? v)).map (onKind (drops l)))
    (hgone : ∀ v ∈ gone l, fd'.dfg.values.get? v = none)
    (hblocks : ∀ b, bshapeOf (fd'.dfg.bbs.get? b) = (bshapeOf (fd.dfg.bbs.get? b)).map (fun q => (q.1, dropAt (pos l b) 0 q.2)))
    (hpos : ∀ b x, fd.dfg.bbs.get? b = some x → ∀ (i : Nat) y, x.params[i]? = some y → (i ∈ pos l b ↔ y ∈ gone l))
    (hng : ∀ v, (fd.dfg.values.get? v).isSome → isGlobal v = false) (hgn : ∀ v ∈ gone l, isGlobal v = false)
    (hpk : ∀ v ∈ gone l, ∀ d, fd.dfg.values.get? v = some d → ∃ i, d.kind = .blockArgRef i)
    (hin : ∀ b is, (b, is) ∈ fd.layout.bbs → ∀ v ∈ is, v ∉ gone l)
    (harms : ∀ v d, fd.dfg.values.get? v = some d → ∀ c b b' ts fs, d.kind = .branch c b b' ts fs → b = b' → ts = [] ∧ fs = [])
    (hcl : ∀ v d, fd'.dfg.values.get? v = some d → ∀ o ∈ operands d.kind, (fd'.dfg.values.get? o).isSome ∨ isGlobal o = true) :
    Interp.FuncSim rt rt' Interp.NoAlloc True (fun v => (fd'.dfg.values.get? v).isSome ∨ isGlobal v = true) fd fd' := by
  have hstay : ∀ v d, v ∉ gone l → fd.dfg.values.get? v = some d → ∃ d', fd'.dfg.values.get? v = some d' ∧ d'.ty = d.ty ∧ d'.kind = drops l d.kind := by
    intro v d hv hd
    have := hother v hv
    rw [hd] at this
    cases hd' : fd'.dfg.values.get? v with
    | none => rw [hd'] at this; cases this
    | some d' =>
      rw [hd'] at this
      simp only [shapeOf, onKind, VData.shape, Option.map_some, Option.some.injEq, Prod.mk.injEq] at this
      exact ⟨d', rfl, this.1, this.2.2⟩
  have hnk : ∀ v, v ∈ gone l → ¬ ((fd'.dfg.values.get? v).isSome ∨ isGlobal v = true) := by
    rintro v hv (hk | hk)
    · rw [hgone v hv] at hk; cases hk
    · rw [hgn v hv] at hk; cases hk
  refine ⟨hty, hname, hps, by rw [hlay], ?_, ?_, ?_, ?_⟩
  · intro v d hd hc
    obtain ⟨d', e1, e2, e3⟩ := hstay v d (fun hv => by
      obtain ⟨i, e⟩ := hpk v hv d hd
      rw [e] at hc; cases hc) hd
    refine ⟨d', e1, e2, ?_⟩
    rw [e3]
    refine drops_other ?_
    generalize d.kind = K at hc
    cases K <;> first | rfl | cases hc
  · intro v d hk hd
    obtain ⟨d', e1, e2, _⟩ := hstay v d (fun hv => hnk v hv hk) hd
    exact ⟨d', e1, e2⟩
  · intro b is hb
    refine ⟨is, by unfold Layout.insts? at hb ⊢; rw [hlay]; exact hb, ?_⟩
    have hmem := hin b is (ConstFold.insts_mem hb)
    clear hb
    induction is with
    | nil => exact .nil
    | cons v is ih =>
      refine .keep (fun d hd => ?_) (ih (fun w hw => hmem w (by simp [hw])))
      obtain ⟨d', e1, e2, e3⟩ := hstay v d (hmem v (by simp)) hd
      refine ⟨hng v (by rw [hd]; rfl), fun _ h => h, d', e1, e2, ?_⟩
      have hop := hcl v d' e1
      have harm := harms v d hd
      rw [e3] at hop ⊢
      have hedge : ∀ t as, (∀ a ∈ dropAt (pos l t) 0 as, (fd'.dfg.values.get? a).isSome ∨ isGlobal a = true) →
          Interp.EdgeSim rt rt' (fun v => (fd'.dfg.values.get? v).isSome ∨ isGlobal v = true) fd fd' t as (dropAt (pos l t) 0 as) := by
        intro t as has x hx
        have hb := hblocks t
        rw [hx] at hb
        cases hx' : fd'.dfg.bbs.get? t with
        | none => rw [hx'] at hb; cases hb
        | some x' =>
          rw [hx'] at hb
          unfold bshapeOf at hb
          simp only [Option.map_some, Option.some.injEq, Prod.mk.injEq] at hb
          refine ⟨x', rfl, ?_⟩
          rw [hb.2]
          refine passSim_drop (fun i y a hy ha => ?_)
          rw [Nat.zero_add]
          by_cases hi : i ∈ pos l t
          · exact .inl ⟨hi, hnk y ((hpos t x hx i y hy).1 hi)⟩
          · refine .inr ⟨hi, has a (mem_dropAt ha (by rwa [Nat.zero_add])), fun dy hdy => ⟨hng y (by rw [hdy]; rfl), ?_⟩⟩
            obtain ⟨dy', f1, _, f2⟩ := hstay y dy (fun hg => hi ((hpos t x hx i y hy).2 hg)) hdy
            exact ⟨dy', f1, by rw [f2]; exact shape_kind_drops.2.2⟩
      generalize d.kind = K at hop harm
      cases K with
      | branch c t f ts fs =>
        rw [drops_branch hkeys (harm c t f ts fs rfl)] at hop ⊢
        exact .branch (hop c (by simp [operands])) (hedge t ts (fun a ha => hop a (by simp [operands, ha])))
          (hedge f fs (fun a ha => hop a (by simp [operands, ha])))
      | jump t as =>
        rw [drops_jump hkeys] at hop ⊢
        exact .jump (hedge t as (fun a ha => hop a (by simp [operands, ha])))
      | _ => rw [drops_other rfl] at hop ⊢; exact .same rfl hop
  · intro v d _ hk hd
    obtain ⟨d', e1, _, e3⟩ := hstay v d (fun hv => hnk v hv hk) hd
    exact ⟨d', e1, by rw [e3]; exact shape_kind_drops.2.2⟩

end Dce
end Koopa
