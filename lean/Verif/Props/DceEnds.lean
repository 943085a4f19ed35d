import Verif.Props.Dce
/-!
C68: the marking of dead code elimination ends, and when it panics.
-/
namespace Koopa
open Spec Dce

namespace Dce

/-- The values of a function that are not marked. -/
def unmarked (fd : FData) (live : List Value) : Nat := (fd.dfg.values.keys.filter (fun v => decide (v ∉ live))).length

theorem filter_cons_lt {l live : List Value} {u : Value} (hu : u ∈ l) (hn : u ∉ live) :
    (l.filter (fun v => decide (v ∉ u :: live))).length < (l.filter (fun v => decide (v ∉ live))).length := by
  have mono : ∀ l : List Value, (l.filter (fun v => decide (v ∉ u :: live))).length ≤ (l.filter (fun v => decide (v ∉ live))).length := by
    intro l
    induction l with
    | nil => simp
    | cons a l ih =>
      by_cases h1 : a ∈ live
      · have h2 : a ∈ u :: live := by simp [h1]
        simp only [List.filter_cons, h1, h2, not_true, decide_false, Bool.false_eq_true, if_false]
        exact ih
      · simp only [List.filter_cons (p := fun v => decide (v ∉ live)), h1, not_false_iff, decide_true, if_true, List.length_cons]
        simp only [List.filter_cons]
        split
        · simp only [List.length_cons]; omega
        · omega
  induction l with
  | nil => cases hu
  | cons a l ih =>
    by_cases e : a = u
    · subst e
      have := mono l
      have h2 : a ∈ a :: live := by simp
      simp only [List.filter_cons, hn, h2, not_true, not_false_iff, decide_false, decide_true, Bool.false_eq_true, if_false, if_true, List.length_cons]
      omega
    · have hu : u ∈ l := by
        rcases List.mem_cons.1 hu with h | h
        · exact absurd h.symm e
        · exact h
      have := ih hu
      by_cases h1 : a ∈ live
      · have h2 : a ∈ u :: live := by simp [h1]
        simp only [List.filter_cons, h1, h2, not_true, decide_false, Bool.false_eq_true, if_false]
        exact this
      · have h2 : a ∉ u :: live := by simp [h1, e]
        simp only [List.filter_cons, h1, h2, not_false_iff, decide_true, if_true, List.length_cons]
        omega

theorem visit_none {fd : FData} : ∀ {us : List Value} {st : St}, visit fd us st = none → ∃ u ∈ us, fd.dfg.values.get? u = none
  | [], _, h => by cases h
  | u :: us, st, h => by
    unfold visit at h
    split at h
    · obtain ⟨w, h1, h2⟩ := visit_none h
      exact ⟨w, by simp [h1], h2⟩
    · split at h
      · rename_i e
        exact ⟨u, by simp, e⟩
      · obtain ⟨w, h1, h2⟩ := visit_none h
        exact ⟨w, by simp [h1], h2⟩

theorem visit_run {fd : FData} : ∀ {us : List Value} {st st' : St}, visit fd us st = some st' →
    (∀ u ∈ us, (fd.dfg.values.get? u).isSome ∨ u ∈ st.liveset) ∧ (∀ v ∈ st.liveset, v ∈ st'.liveset) ∧ (∀ v ∈ st.worklist, v ∈ st'.worklist) ∧
    (∀ v ∈ st'.liveset, v ∈ st.liveset ∨ (v ∈ st'.worklist ∧ (fd.dfg.values.get? v).isSome)) ∧
    (∀ v ∈ st'.worklist, v ∈ st.worklist ∨ (v ∈ us ∧ ∃ d, fd.dfg.values.get? v = some d ∧ d.kind.isLocalInst = true)) ∧
    st'.worklist.length + unmarked fd st'.liveset ≤ st.worklist.length + unmarked fd st.liveset
  | [], st, st', h => by
    cases h
    exact ⟨(fun _ h => by cases h), fun _ h => h, fun _ h => h, fun _ h => .inl h, fun _ h => .inl h, Nat.le_refl _⟩
  | u :: us, st, st', h => by
    unfold visit at h
    split at h
    · rename_i hu
      obtain ⟨h1, h2, h3, h4, h5, h6⟩ := visit_run h
      refine ⟨fun w hw => ?_, h2, h3, h4, fun v hv => (h5 v hv).imp id (fun ⟨a, b⟩ => ⟨by simp [a], b⟩), h6⟩
      rcases List.mem_cons.1 hw with rfl | hw
      · exact .inr hu
      · exact h1 w hw
    · rename_i hu
      split at h
      · cases h
      · rename_i d hd
        by_cases hl : d.kind.isLocalInst = true
        · rw [if_pos hl] at h
          obtain ⟨h1, h2, h3, h4, h5, h6⟩ := visit_run h
          refine ⟨fun w hw => ?_, fun v hv => h2 v (by simp [St.add, hv]), fun v hv => h3 v (by simp [St.add, hv]), fun v hv => ?_, fun v hv => ?_, ?_⟩
          · rcases List.mem_cons.1 hw with rfl | hw
            · exact .inl (by rw [hd]; rfl)
            · rcases h1 w hw with h | h
              · exact .inl h
              · simp only [St.add, List.mem_cons] at h
                rcases h with rfl | h
                · exact .inl (by rw [hd]; rfl)
                · exact .inr h
          · rcases h4 v hv with h | h
            · simp only [St.add, List.mem_cons] at h
              rcases h with rfl | h
              · exact .inr ⟨h3 v (by simp [St.add]), by rw [hd]; rfl⟩
              · exact .inl h
            · exact .inr h
          · rcases h5 v hv with h | ⟨a, b⟩
            · simp only [St.add, List.mem_cons] at h
              rcases h with rfl | h
              · exact .inr ⟨by simp, d, hd, hl⟩
              · exact .inl h
            · exact .inr ⟨by simp [a], b⟩
          · have : unmarked fd (u :: st.liveset) < unmarked fd st.liveset := filter_cons_lt (by rw [Map.mem_keys, hd]; rfl) hu
            simp only [St.add, List.length_cons] at h6
            omega
        · rw [if_neg hl] at h
          obtain ⟨h1, h2, h3, h4, h5, h6⟩ := visit_run h
          refine ⟨fun w hw => ?_, h2, h3, h4, fun v hv => (h5 v hv).imp id (fun ⟨a, b⟩ => ⟨by simp [a], b⟩), h6⟩
          rcases List.mem_cons.1 hw with rfl | hw
          · exact .inl (by rw [hd]; rfl)
          · exact h1 w hw

/-- If the loop panics, it has come to a needed instruction with an operand outside the function. -/
theorem markLoop_none {fd : FData} : ∀ {n : Nat} {st : St}, (∀ v ∈ st.worklist, Needed fd v ∧ (fd.dfg.values.get? v).isSome) →
    st.worklist.length + unmarked fd st.liveset < n → markLoop fd n st = none →
    ∃ v d u, Needed fd v ∧ fd.dfg.values.get? v = some d ∧ u ∈ operands d.kind ∧ fd.dfg.values.get? u = none
  | 0, _, _, hn, _ => by omega
  | n + 1, st, hN, hn, h => by
    unfold markLoop at h
    split at h
    · cases h
    · rename_i v wl hw
      obtain ⟨hv, hs⟩ := hN v (by rw [hw]; simp)
      split at h
      · rename_i e
        rw [e] at hs; cases hs
      · rename_i d hd
        split at h
        · rename_i h1
          obtain ⟨u, h2, h3⟩ := visit_none h1
          rw [valueUses_eq] at h2
          exact ⟨v, d, u, hv, hd, h2, h3⟩
        · rename_i st1 h1
          obtain ⟨-, -, -, -, h5, h6⟩ := visit_run h1
          refine markLoop_none (fun w hw' => ?_) ?_ h
          · rcases h5 w hw' with h' | ⟨h', e, he, hl⟩
            · exact hN w (by rw [hw]; exact List.mem_cons_of_mem _ h')
            · rw [valueUses_eq] at h'
              exact ⟨.operand hv hd h' he hl, by rw [he]; rfl⟩
          · rw [hw, List.length_cons] at hn
            dsimp only at h6
            omega

/-- If the loop ends, it has come to everything on the list and everything it has marked. -/
theorem markLoop_run {fd : FData} : ∀ {n : Nat} {st st' : St}, markLoop fd n st = some st' →
    (∀ v ∈ st.liveset, v ∈ st'.liveset) ∧ (∀ v ∈ st'.liveset, v ∈ st.liveset ∨ (fd.dfg.values.get? v).isSome) ∧
    ∀ v, v ∈ st.worklist ∨ (v ∈ st'.liveset ∧ v ∉ st.liveset) → ∀ d, fd.dfg.values.get? v = some d → ∀ o ∈ operands d.kind,
      (fd.dfg.values.get? o).isSome ∨ o ∈ st.liveset
  | 0, _, _, h => by cases h
  | n + 1, st, st', h => by
    unfold markLoop at h
    split at h
    · rename_i hw
      cases h
      refine ⟨fun _ h => h, fun _ h => .inl h, fun v hv => ?_⟩
      rcases hv with hv | hv
      · rw [hw] at hv; cases hv
      · exact absurd hv.1 hv.2
    · rename_i v wl hw
      split at h
      · cases h
      · rename_i d hd
        split at h
        · cases h
        · rename_i st1 h1
          obtain ⟨k1, k2, k3, k4, -, -⟩ := visit_run h1
          obtain ⟨g1, g2, g3⟩ := markLoop_run h
          dsimp only at k1 k2 k3 k4
          have back : ∀ o, (fd.dfg.values.get? o).isSome ∨ o ∈ st1.liveset → (fd.dfg.values.get? o).isSome ∨ o ∈ st.liveset := by
            intro o ho
            rcases ho with ho | ho
            · exact .inl ho
            · rcases k4 o ho with h | h
              · exact .inr h
              · exact .inl h.2
          refine ⟨fun w hw => g1 w (k2 w hw), fun w hw => (back w ((g2 w hw).symm)).symm, fun w hw' e he o ho => ?_⟩
          by_cases hwv : w = v
          · subst hwv
            rw [hd] at he; cases he
            exact k1 o (by rw [valueUses_eq]; exact ho)
          · refine back o (g3 w ?_ e he o ho)
            rcases hw' with hw' | ⟨h2, h3⟩
            · rw [hw] at hw'
              rcases List.mem_cons.1 hw' with h4 | h4
              · exact absurd h4 hwv
              · exact .inl (k3 w h4)
            · by_cases h4 : w ∈ st1.liveset
              · rcases k4 w h4 with h5 | h5
                · exact absurd h5 h3
                · exact .inl h5.1
              · exact .inr ⟨h2, h4⟩

theorem seed_run {fd : FData} : ∀ {vs : List Value} {st : St}, (∀ v ∈ st.worklist, Needed fd v ∧ (fd.dfg.values.get? v).isSome) →
    (∀ v ∈ (seed fd vs st).worklist, Needed fd v ∧ (fd.dfg.values.get? v).isSome) ∧
    (∀ v ∈ (seed fd vs st).liveset, v ∈ st.liveset ∨ (v ∈ (seed fd vs st).worklist ∧ (fd.dfg.values.get? v).isSome)) ∧
    (∀ v ∈ st.worklist, v ∈ (seed fd vs st).worklist) ∧ (seed fd vs st).worklist.length ≤ vs.length + st.worklist.length
  | [], st, h => ⟨h, fun _ h => .inl h, fun _ h => h, by simp [seed]⟩
  | v :: vs, st, h => by
    unfold seed
    split
    · rename_i d hd
      split
      · rename_i hc
        obtain ⟨h1, h2, h3, h4⟩ := seed_run (vs := vs) (st := st.add v) (fun w hw => by
          simp only [St.add, List.mem_cons] at hw
          rcases hw with rfl | hw
          · exact ⟨.critical hd hc, by rw [hd]; rfl⟩
          · exact h w hw)
        refine ⟨h1, fun w hw => ?_, fun w hw => h3 w (by simp [St.add, hw]), ?_⟩
        · rcases h2 w hw with h | h
          · simp only [St.add, List.mem_cons] at h
            rcases h with rfl | h
            · exact .inr ⟨h3 w (by simp [St.add]), by rw [hd]; rfl⟩
            · exact .inl h
          · exact .inr h
        · simp only [St.add, List.length_cons] at h4 ⊢
          omega
      · obtain ⟨h1, h2, h3, h4⟩ := seed_run (vs := vs) h
        exact ⟨h1, h2, h3, by simp only [List.length_cons]; omega⟩
    · obtain ⟨h1, h2, h3, h4⟩ := seed_run (vs := vs) h
      exact ⟨h1, h2, h3, by simp only [List.length_cons]; omega⟩

/-- Marking with nothing of the function marked before. -/
theorem mark_none_iff {fd : FData} {n : Nat} {vs : List Value} {st : St} (hw : st.worklist = []) (hvs : ∀ v, (fd.dfg.values.get? v).isSome → v ∈ vs)
    (hst : ∀ v ∈ st.liveset, fd.dfg.values.get? v = none ∧ ∀ u d, fd.dfg.values.get? u = some d → v ∉ operands d.kind)
    (hn : vs.length + fd.dfg.values.keys.length < n) :
    mark fd n vs st = none ↔ ∃ v d u, Needed fd v ∧ fd.dfg.values.get? v = some d ∧ u ∈ operands d.kind ∧ fd.dfg.values.get? u = none := by
  obtain ⟨h1, h2, -, h4⟩ := seed_run (fd := fd) (vs := vs) (st := st) (fun v hv => by rw [hw] at hv; cases hv)
  constructor
  · intro h
    refine markLoop_none h1 ?_ h
    have : unmarked fd (seed fd vs st).liveset ≤ fd.dfg.values.keys.length := List.length_filter_le _ _
    rw [hw, List.length_nil] at h4
    omega
  · rintro ⟨v, d, u, hv, hd, hu, hno⟩
    cases hc : mark fd n vs st with
    | none => rfl
    | some st' =>
      exfalso
      obtain ⟨-, hM⟩ := mark_spec (fun v hv d hd => by rw [(hst v hv).1] at hd; cases hd) hw hvs hc
      have hvl := hM.needed hv
      obtain ⟨-, -, g3⟩ := markLoop_run hc
      have hs : v ∉ st.liveset := fun hm => by rw [(hst v hm).1] at hd; cases hd
      have := g3 v (by
        by_cases hm : v ∈ (seed fd vs st).liveset
        · exact .inl ((h2 v hm).resolve_left hs).1
        · exact .inr ⟨hvl, hm⟩) d hd u hu
      rcases this with h | h
      · rw [hno] at h; cases h
      · rcases h2 u h with h | h
        · exact (hst u h).2 v d hd hu
        · rw [hno] at h; cases h.2

/-- What is marked are values of the functions that have been dealt with. -/
theorem eliminates_live {fs : List Func} {st st' : St} {p p' : Program} (h : Eliminates fs st p st' p') (hfs : fs.Nodup) (hi : DInv p)
    (hS : ∀ g, Sane p g) (hT : ∀ g, Stable p g st.liveset) (hw : st.worklist = []) :
    st'.worklist = [] ∧ ∀ v ∈ st'.liveset, v ∈ st.liveset ∨ ∃ g ∈ fs, ∃ x, LocalVal p g v x := by
  induction h with
  | nil => exact ⟨hw, fun v hv => .inl hv⟩
  | @cons f fs n k o st st1 st2 p p1 p2 ho h1 _ ih =>
    rw [List.nodup_cons] at hfs
    obtain ⟨R, w1, u1⟩ := runOn_spec hi hS hT hw ho h1
    obtain ⟨k1, k2⟩ := ih hfs.2 R.inv R.sane R.stable w1
    refine ⟨k1, fun v hv => ?_⟩
    rcases k2 v hv with h | ⟨g, hg, x, hx⟩
    · rcases R.only v h with h2 | h2
      · exact .inl h2
      · exact .inr ⟨f, by simp, needed_live h2⟩
    · obtain ⟨y, hy, -⟩ := (R.agree (fun e => hfs.1 (e ▸ hg))).symm.localVal hx
      exact .inr ⟨g, by simp [hg], y, hy⟩

end Dce

theorem Dce.get_localVal {p : Program} {f : Func} {fd : FData} (hf : p.funcs.get? f = some fd) {v : Value} {x : VData} (h : LocalVal p f v x) :
    fd.dfg.values.get? v = some x := by
  obtain ⟨fd', h1, h2⟩ := h
  rw [hf] at h1; cases h1; exact h2

/-- C68: marking the live instructions of a function ends, whatever the order and whichever functions the pass has dealt with before; it panics exactly
if an instruction with an effect, or one that such an instruction needs, mentions a global. -/
theorem C68_mark_exact {w : World} {input : Str} {p0 p : Program} {fs : List Func} {st : St} (ha : Accepted w input p0) (hfs : fs.Nodup)
    (h : Eliminates fs .new p0 st p) {f : Func} {fd : FData} (hf : p.funcs.get? f = some fd) (hnf : f ∉ fs) {vs : List Value}
    (hvs : ∀ v x, LocalVal p f v x → v ∈ vs) {n : Nat} (hn : vs.length + fd.dfg.values.keys.length < n) :
    mark fd n vs st = none ↔ ∃ v u, Spec.Needed p f v ∧ LocalUse p f v u ∧ ∃ y, GlobalVal p u y := by
  obtain ⟨gs, hg, -⟩ := C47_program_is_text ha
  have hD := (ha.items hg).1.dinv
  obtain ⟨hw, hlive⟩ := eliminates_live h hfs hD ha.sane (fun _ _ hu => by cases hu) rfl
  obtain ⟨-, hag, -, -, hgl, -⟩ := dce_accepted ha hfs h
  have A := (hag f hnf).symm
  have use0 : ∀ v u, LocalUse p f v u → LocalUse p0 f v u := by
    rintro v u ⟨x, hx, hu⟩
    obtain ⟨y, hy, -, -, e⟩ := A.localVal hx
    exact ⟨y, hy, by rw [e]; exact hu⟩
  have glob : ∀ u x, GlobalVal p0 u x → ∃ y, GlobalVal p u y := by
    intro u x hx
    have : p.view.g u = some x.shape := by rw [hgl]; exact view_g_iff.2 ⟨x, hx, rfl⟩
    obtain ⟨y, hy, -⟩ := view_g_iff.1 this
    exact ⟨y, hy⟩
  have glob0 : ∀ u x, GlobalVal p u x → ∃ y, GlobalVal p0 u y := by
    intro u x hx
    have : p0.view.g u = some x.shape := by rw [← hgl]; exact view_g_iff.2 ⟨x, hx, rfl⟩
    obtain ⟨y, hy, -⟩ := view_g_iff.1 this
    exact ⟨y, hy⟩
  have apart : ∀ g u x y, LocalVal p0 g u x → GlobalVal p0 u y → False := by
    intro g u x y hx hy
    have h1 := hD.inv.lRange g u x hx
    have h2 := hD.inv.gRange u y hy
    have := hD.inv.gMax
    omega
  rw [mark_none_iff hw (fun v hv => by
      obtain ⟨x, hx⟩ := Option.isSome_iff_exists.1 hv
      exact hvs v x ⟨fd, hf, hx⟩) (fun v hv => ?_) hn]
  · constructor
    · rintro ⟨v, d, u, h1, h2, h3, h4⟩
      have hu : LocalUse p f v u := ⟨d, ⟨fd, hf, h2⟩, h3⟩
      refine ⟨v, u, (needed_iff hf).1 h1, hu, ?_⟩
      rcases hD.inv.closedL f v u (use0 v u hu) with ⟨y, hy⟩ | ⟨y, hy⟩
      · exact glob u y hy
      · obtain ⟨z, hz, -⟩ := A.symm.localVal hy
        rw [get_localVal hf hz] at h4; cases h4
    · rintro ⟨v, u, h1, ⟨d, hd, hu⟩, y, hy⟩
      refine ⟨v, d, u, (needed_iff hf).2 h1, get_localVal hf hd, hu, ?_⟩
      cases hc : fd.dfg.values.get? u with
      | none => rfl
      | some z =>
        exfalso
        obtain ⟨z0, hz0, -⟩ := A.localVal ⟨fd, hf, hc⟩
        obtain ⟨y0, hy0⟩ := glob0 u y hy
        exact apart f u z0 y0 hz0 hy0
  · rcases hlive v hv with h | ⟨g, hg, x, hx⟩
    · cases h
    · have hne : g ≠ f := fun e => hnf (e ▸ hg)
      refine ⟨?_, fun u d hd hu => ?_⟩
      · cases hc : fd.dfg.values.get? v with
        | none => rfl
        | some z =>
          obtain ⟨z0, hz0, -⟩ := A.localVal ⟨fd, hf, hc⟩
          exact absurd (hD.inv.lDisj g f v x z0 hx hz0) hne
      · rcases hD.inv.closedL f u v (use0 u v ⟨d, ⟨fd, hf, hd⟩, hu⟩) with ⟨y, hy⟩ | ⟨y, hy⟩
        · exact apart g v x y hx hy
        · exact hne (hD.inv.lDisj g f v x y hx hy)

/-- C68: marking ends if no needed instruction mentions a global. -/
theorem C68_mark_ends_partial {w : World} {input : Str} {p0 p : Program} {fs : List Func} {st : St} (ha : Accepted w input p0) (hfs : fs.Nodup)
    (h : Eliminates fs .new p0 st p) {f : Func} {fd : FData} (hf : p.funcs.get? f = some fd) (hnf : f ∉ fs) {vs : List Value}
    (hvs : ∀ v x, LocalVal p f v x → v ∈ vs) {n : Nat} (hn : vs.length + fd.dfg.values.keys.length < n)
    (hno : ∀ v u y, Spec.Needed p f v → LocalUse p f v u → ¬ GlobalVal p u y) : ∃ st', mark fd n vs st = some st' := by
  cases hc : mark fd n vs st with
  | some st' => exact ⟨st', rfl⟩
  | none =>
    obtain ⟨v, u, h1, h2, y, h3⟩ := (C68_mark_exact ha hfs h hf hnf hvs hn).1 hc
    exact absurd h3 (hno v u y h1 h2)

/-- The statement of C68. -/
def MarkNeverPanics : Prop := ∀ (w : World) (input : Str) (p : Program) (f : Func) (fd : FData) (vs : List Value) (n : Nat), Accepted w input p →
  p.funcs.get? f = some fd → (∀ v x, LocalVal p f v x → v ∈ vs) → vs.length + fd.dfg.values.keys.length < n → ∃ st', mark fd n vs .new = some st'

/-- C68 does not hold: a store to a global variable. -/
theorem C68_violated : ¬ MarkNeverPanics := by
  intro hall
  obtain ⟨p, h, hq⟩ := acceptsWith_iff (input := globalText) (q := mentionsGlobal) (by decide +kernel)
  unfold mentionsGlobal at hq
  split at hq
  · rename_i f l hf
    split at hq
    · rename_i fd hfd
      obtain ⟨u, -, hu⟩ := List.any_eq_true.1 hq
      split at hu
      · rename_i x hx
        simp only [Bool.and_eq_true] at hu
        obtain ⟨v, hv, hn⟩ := List.any_eq_true.1 hu.2
        obtain ⟨gs, hg, -⟩ := C47_program_is_text h
        have hlists : ∀ v x, LocalVal p f v x → v ∈ fd.dfg.values.keys := fun v x hx => by rw [Map.mem_keys, get_localVal hfd hx]; rfl
        obtain ⟨st', hst⟩ := hall _ _ _ f fd fd.dfg.values.keys _ h hfd hlists (Nat.lt_succ_self _)
        rw [(C68_mark_exact h List.nodup_nil .nil hfd (by simp) hlists (Nat.lt_succ_self _)).2 ⟨u, v, .effect ⟨fd, hfd, hx⟩ hu.1, ⟨x, ⟨fd, hfd, hx⟩, hv⟩, ?_⟩] at hst
        · cases hst
        · rcases (h.items hg).1.dinv.inv.closedL f u v ⟨x, ⟨fd, hfd, hx⟩, hv⟩ with h1 | ⟨y, hy⟩
          · exact h1
          · rw [get_localVal hfd hy] at hn; cases hn
      · cases hu
    · cases hq
  · cases hq

/-- Some function has instructions with effects, and all that is mentioned is local. -/
def mentionsLocals (p : Program) : Bool :=
  match p.funcLayout with
  | f :: _ => match p.funcs.get? f with
    | some fd => fd.dfg.values.keys.all (fun u => match fd.dfg.values.get? u with
      | some x => (operands x.kind).all (fun v => !isGlobal v)
      | none => true) && fd.dfg.values.keys.any (fun u => match fd.dfg.values.get? u with
      | some x => effectful x.kind && !(operands x.kind).isEmpty
      | none => false)
    | none => false
  | [] => false

/-- The hypotheses are met. -/
example : ∃ p f fd, Accepted someWorld deadText p ∧ Eliminates [] .new p .new p ∧ p.funcs.get? f = some fd ∧ (∀ v x, LocalVal p f v x → v ∈ fd.dfg.values.keys) ∧
    (∀ v u y, Spec.Needed p f v → LocalUse p f v u → ¬ GlobalVal p u y) ∧ ∃ v u, Spec.Needed p f v ∧ LocalUse p f v u := by
  obtain ⟨p, h, hq⟩ := acceptsWith_iff (input := deadText) (q := mentionsLocals) (by decide +kernel)
  unfold mentionsLocals at hq
  split at hq
  · rename_i f l hf
    split at hq
    · rename_i fd hfd
      rw [Bool.and_eq_true, List.all_eq_true, List.any_eq_true] at hq
      obtain ⟨h1, w, -, h2⟩ := hq
      obtain ⟨gs, hg, -⟩ := C47_program_is_text h
      refine ⟨p, f, fd, h, .nil, hfd, fun v x hx => by rw [Map.mem_keys, get_localVal hfd hx]; rfl, ?_, ?_⟩
      · rintro v u y - ⟨x, hx, hu⟩ hy
        have hv := get_localVal hfd hx
        have := h1 v (by rw [Map.mem_keys, hv]; rfl)
        rw [hv] at this
        dsimp only at this
        rw [List.all_eq_true] at this
        have := this u hu
        have hG : isGlobal u = true := by
          have h3 := (h.items hg).1.dinv.inv.gRange u y hy
          have h4 := (h.items hg).1.dinv.inv.gMax
          unfold isGlobal
          simp only [Bool.and_eq_true, decide_eq_true_eq]
          omega
        rw [hG] at this; cases this
      · split at h2
        · rename_i x hx
          rw [Bool.and_eq_true] at h2
          cases ho : operands x.kind with
          | nil => rw [ho] at h2; cases h2.2
          | cons u us => exact ⟨w, u, .effect ⟨fd, hfd, hx⟩ h2.1, x, ⟨fd, hfd, hx⟩, by rw [ho]; simp⟩
        · cases h2
    · cases hq
  · cases hq

end Koopa
