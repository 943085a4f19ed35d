import Verif.Lemmas.Lib.RawGenTotal
/-!
The generator succeeds on blocks and functions.
-/
namespace Koopa.Raw
open Spec

section
variable {p : Program} {g0 : Nat}

/-! ### Blocks -/

theorem genInsts_total (hc : Convertible p) {rank : Value → Nat} {R n : Nat} {one : Item → Gen Nat} (ih : Good p g0 rank R n one)
    {f : Func} {fd : FData} {b w : BB} {is : List Value} (hfd : p.funcs.get? f = some fd) (his : (b, is) ∈ fd.layout.bbs) :
    ∀ (vs : List Value) (k : Nat) (s : GSt) (js : List Value), GInv p g0 s → GlobsDone p s → s.cur = some f → s.bv f b = some w →
      DomOk p s f b → is.drop k = vs → s.Ins f b js → All2 (fun v w => s.lv f v = some w) (is.take k) js →
      (∀ v ∈ vs, need p rank R s (.val v) ≤ n) →
      ∃ s' js', genInsts one w vs s = some (.ok ((), s')) ∧ GInv p g0 s' ∧ GStepX p (fun g c => g = f ∧ c = b) s s' ∧
        s'.Ins f b js' ∧ All2 (fun v w => s'.lv f v = some w) is js' ∧
        ∀ u w, s.lv f u = none → s'.lv f u = some w → u ∈ vs ∨ FlowFree p f u ∨ InNew p s f u
  | [], k, s, js, hi, _, _, _, _, hk, hins, hjs, _ => by
    refine ⟨s, js, rfl, hi, GStepX.refl _ s, hins, ?_, fun u w h h' => by rw [h] at h'; cases h'⟩
    rw [List.take_of_length_le (List.drop_eq_nil_iff.1 hk)] at hjs
    exact hjs
  | v :: vs, k, s, js, hi, hd, hcur, hb, hdom, hk, hins, hjs, hneed => by
    have hvk : is[k]? = some v := by
      have := congrArg (·[0]?) hk
      simpa using this
    have hdrop : is.drop (k + 1) = vs := by
      rw [← List.drop_drop, hk]; rfl
    have hvm : v ∈ is := List.mem_iff_getElem?.2 ⟨k, hvk⟩
    obtain ⟨x, hx⟩ := hc.instData _ _ _ _ _ hfd his hvm
    have hlo := hc.localId _ _ _ hx
    obtain ⟨u, s1, h1, h2, h3, h4, h5⟩ := ih (.val v) s hi hd
      ⟨f, hcur, .inr ⟨hlo, b, .inst hfd his hvm, hdom⟩⟩ (hneed v (by simp))
    have hcur1 := h3.cur.trans hcur
    obtain ⟨i1, hf1⟩ := Option.isSome_iff_exists.1 (h2.cur f hcur1)
    have hu : s1.lv f v = some u := by
      have := h4 f (.inl hcur)
      rw [show s1.item f (.val v) = s1.rv f v from rfl, GSt.rv, if_neg (by simp [hlo])] at this
      exact this
    have hb1 := h3.le.bv _ _ _ hb
    have hins1 := h3.ins _ _ _ hins (fun h => h)
    have hjs1 : All2 (fun v w => s1.lv f v = some w) (is.take k) js := hjs.imp (fun _ _ _ h => h3.le.lv _ _ _ h)
    obtain ⟨p2, e1, e2, e3, e4, e5⟩ := h2.addInst hc hf1 hfd (by rw [← GSt.bv_eq hf1]; exact hb1) his hins1
      (hjs1.imp (fun _ _ _ h => by rw [← GSt.lv_eq hf1]; exact h)) hvk (by rw [← GSt.lv_eq hf1]; exact hu)
    have hle2 : Le s1 { s1 with prog := p2 } := Le.congr rfl (fun _ => rfl)
    have hstep : GStepX p (fun g c => g = f ∧ c = b) s1 { s1 with prog := p2 } := by
      refine ⟨hle2, rfl, ?_, ?_, ?_, fun _ _ h _ => h, rfl, e5⟩
      · intro g c ks hks hn
        exact e4 g c ks hks (fun hg hcb => hn ⟨hg, hcb⟩)
      · intro g c w' a1 a2
        rw [show ({ s1 with prog := p2 } : GSt).bv g c = s1.bv g c from rfl, a1] at a2; cases a2
      · intro g gd a1 a2
        rw [show ({ s1 with prog := p2 } : GSt).fv g = s1.fv g from rfl, a1] at a2; cases a2
    have hle := h3.le.trans hle2
    obtain ⟨s3, js3, r1, r2, r3, r4, r5, r6⟩ := genInsts_total hc ih hfd his vs (k + 1) { s1 with prog := p2 } (js ++ [u]) e2
      (hd.mono hle) hcur1 hb1 (fun fd' c a1 a2 a3 => hle.bvSome (hdom fd' c a1 a2 a3)) hdrop e3 (by
        rw [List.take_succ, hvk]
        exact All2.snoc hjs1 hu)
      (fun v' hv' => Nat.le_trans (need_mono hle _) (hneed v' (by simp [hv'])))
    have hX : ∀ g c, g = f ∧ c = b → ∃ w, True ∧ s.bv g c = some w := by
      rintro g c ⟨rfl, rfl⟩; exact ⟨w, trivial, hb⟩
    have hX1 : ∀ g c, g = f ∧ c = b → ∃ w, True ∧ s1.bv g c = some w := by
      rintro g c ⟨rfl, rfl⟩; exact ⟨w, trivial, hb1⟩
    refine ⟨s3, js3, ?_, r2, GStepX.trans hX (GStepX.weaken h3) (GStepX.trans hX1 hstep r3), r4, r5, ?_⟩
    · simp only [genInsts, bind_def, h1, curInfo_run hcur1 hf1, Gen.api', e1, r1]
    · intro u' w' hn hs
      cases hm : s1.lv f u' with
      | some w1 =>
        obtain ⟨_, m2, _⟩ := h5 f u' w1 hcur hn hm
        rcases m2 with h | h
        · cases h; exact .inl (by simp)
        · exact .inr h
      | none =>
        rcases r6 u' w' hm hs with h | h | h
        · exact .inl (by simp [h])
        · exact .inr (.inl h)
        · exact .inr (.inr (h.mono hle))

theorem each_params {m : Builder} (hm : Holds p m) {f : Func} {s : GSt} : ∀ (vs : List Value),
    (∀ v ∈ vs, Used p (some f) v ∧ ∃ y, LocalVal p f v y) →
    ∃ dps, Gen.each (fun v => do let x ← deref m.vals v; pure (x.name, x.ty)) vs s = some (.ok (dps, s)) ∧
      Gen.each (fun v => do let x ← deref m.vals v; pure x.name) vs s = some (.ok (dps.map (·.1), s)) ∧ ParamsAre p f vs dps
  | [], _ => ⟨[], rfl, rfl, .nil⟩
  | v :: vs, h => by
    obtain ⟨hu, y, hy⟩ := h v (by simp)
    obtain ⟨dps, h1, h2, h3⟩ := each_params hm vs (fun v hv => h v (by simp [hv]))
    obtain ⟨us, hbox⟩ := hm.locals f v y hu hy
    refine ⟨(y.name, y.ty) :: dps, ?_, ?_, .cons ⟨y, hy, rfl⟩ h3⟩
    · simp only [Gen.each, bind_def, deref_run hbox, pure_def] at h1 ⊢
      rw [h1]
    · simp only [Gen.each, bind_def, deref_run hbox, pure_def, List.map_cons] at h2 ⊢
      rw [h2]

theorem paramUsed (hc : Convertible p) {f : Func} {fd : FData} (hfd : p.funcs.get? f = some fd) {b : BB} {x : BData}
    (hb : b ∈ fd.layout.bbs.map (·.1)) (hx : fd.dfg.bbs.get? b = some x) :
    ∀ v ∈ x.params, Used p (some f) v ∧ ∃ n y, LocalVal p f v y ∧ y.kind = .blockArgRef n := by
  intro v hv
  obtain ⟨x', hx', h⟩ := hc.blockData _ _ _ hfd hb
  rw [hx] at hx'; cases hx'
  obtain ⟨n, hn⟩ := List.mem_iff_getElem?.1 hv
  obtain ⟨y, h1, h2⟩ := h n v hn
  exact ⟨.param hfd hb hx hv, n, y, h1, h2⟩

theorem gen_bb (hc : Convertible p) {m : Builder} (hm : Holds p m) {rank : Value → Nat} {R : Nat} (hr : Ranked p rank R) {n : Nat}
    (ih : Good p g0 rank R n (gen m n)) {b : BB} {s : GSt} (hi : GInv p g0 s) (hd : GlobsDone p s) (hpre : Pre p s (.bb b))
    (hneed : need p rank R s (.bb b) ≤ n + 1) : Outcome p g0 rank (gen m (n + 1)) (.bb b) s := by
  obtain ⟨f, fd, hcur, hfd, hb, hdom⟩ := hpre
  obtain ⟨i, hf⟩ := Option.isSome_iff_exists.1 (hi.cur f hcur)
  obtain ⟨fd', hfd', hfi⟩ := hi.funcs f i hf
  rw [hfd] at hfd'; cases hfd'
  cases hbv : i.bbs.get? b with
  | some w =>
    refine ⟨w, s, by simp only [gen, bind_def, curInfo_run hcur hf, hbv, pure_def], hi, GStepX.refl _ s, ?_, ?_⟩
    · rintro g (hg | ⟨_, hg⟩)
      · rw [hcur] at hg; cases hg
        show s.bv f b = _
        rw [GSt.bv_eq hf]; exact hbv
      · cases hg
    · intro f u w _ h h'; rw [h] at h'; cases h'
  | none =>
    obtain ⟨⟨b', is⟩, his, rfl⟩ := List.mem_map.1 hb
    dsimp only at hb hdom hbv ⊢
    obtain ⟨x, hx, -⟩ := hc.blockData _ _ _ hfd hb
    have hbox := hm.blocks f fd b' is x hfd his hx
    have hpu := paramUsed hc hfd hb hx
    obtain ⟨dps, hd1, -, hd2⟩ := each_params hm (s := s) x.params (fun v hv => by
      obtain ⟨h1, _, y, h2, _⟩ := hpu v hv; exact ⟨h1, y, h2⟩)
    obtain ⟨p1, p2, w, l, a1, a2, a3, a4, a5, a6, a7, a8, a9, a10⟩ := hi.addBlock hc hf hfd hb hbv hx (by
      intro e he
      obtain ⟨hem⟩ : Nonempty (e ∈ fd.layout.bbs.map (·.1)) := ⟨List.mem_of_head? he⟩
      rcases hdom e hem (dom_entry hfd he b') with h | h
      · exact .inl h
      · rw [GSt.bv_eq hf] at h; exact .inr h) hd2
    generalize hi2 : ({ i with
        bbs := i.bbs.insert b' w
        values := insertAll i.values (x.params.zip (paramHandles s.prog.ids.nextLocal x.params.length)) } : FuncInfo) = i2 at a6 a7
    have hi2f : i2.func = i.func := by rw [← hi2]
    have hi2b : i2.bbs = i.bbs.insert b' w := by rw [← hi2]
    have hi2v : i2.values = insertAll i.values (x.params.zip (paramHandles s.prog.ids.nextLocal x.params.length)) := by rw [← hi2]
    have hself := GSt.upd_self (s := s) f p2 i2
    have hb1 : (s.upd f p2 i2).bv f b' = some w := by rw [GSt.bv_eq hself, hi2b]; simp
    have hdom1 : DomOk p (s.upd f p2 i2) f b' := by
      intro fd1 c e1 e2 e3
      rw [hfd] at e1; cases e1
      rcases hdom c e2 e3 with rfl | h
      · rw [hb1]; rfl
      · exact a7.bvSome h
    have hcnt : cnt p (s.upd f p2 i2) < cnt p s := cnt_lt a7 ((mem_marks hfd).2 b' hb)
      (show (s.bv f b').isSome = false by rw [GSt.bv_eq hf, hbv]; rfl) (show ((s.upd f p2 i2).bv f b').isSome = true by rw [hb1]; rfl)
    have hneed1 : ∀ v ∈ is, need p rank R (s.upd f p2 i2) (.val v) ≤ n := by
      intro v hv
      have h1 := hr.bound f v (.inst hfd his hv)
      have h2 := Nat.mul_le_mul_right (R + 2) (Nat.succ_le_of_lt hcnt)
      rw [Nat.succ_mul] at h2
      unfold need at hneed ⊢
      simp only at hneed ⊢
      omega
    obtain ⟨s', js', r1, r2, r3, r4, r5, r6⟩ := genInsts_total hc ih hfd his (w := w) is 0 (s.upd f p2 i2) [] a6 (hd.mono a7) hcur hb1
      hdom1 (by simp) ⟨i2, w, _, hself, by rw [hi2b]; simp, by rw [hi2f]; exact a8, by simp⟩ .nil hneed1
    have hbn : s.bv f b' = none := by rw [GSt.bv_eq hf]; exact hbv
    have hbv1 : ∀ g c, ¬ (g = f ∧ c = b') → (s.upd f p2 i2).bv g c = s.bv g c := by
      intro g c hne
      by_cases e : g = f
      · subst e
        rw [GSt.bv_eq hself, GSt.bv_eq hf, hi2b, Map.get?_insert, if_neg (fun h => hne ⟨rfl, h⟩)]
      · unfold GSt.bv; rw [GSt.upd_ne _ _ e]
    have hstep : GStep p s s' := by
      refine ⟨a7.trans r3.le, r3.cur, ?_, ?_, ?_, ?_, r3.values, r3.insts.trans a10⟩
      · rintro g c js ⟨i', w', l', c1, c2, c3, c4⟩ _
        have hne : ¬ (g = f ∧ c = b') := by
          rintro ⟨rfl, rfl⟩
          rw [hf] at c1; cases c1
          rw [hbv] at c2; cases c2
        refine r3.ins g c js ?_ hne
        by_cases e : g = f
        · subst e
          rw [hf] at c1; cases c1
          rw [a4] at c3; cases c3
          refine ⟨i2, w', _, hself, ?_, by rw [hi2f]; exact a8, by simp [c4]⟩
          rw [hi2b, Map.get?_insert, if_neg (fun h => hne ⟨rfl, h⟩)]; exact c2
        · refine ⟨i', w', l', by rw [GSt.upd_ne _ _ e]; exact c1, c2, ?_, c4⟩
          show p2.view.lay i'.func = _
          rw [a9]
          · exact c3
          · intro h; exact e (hi.injFuncs _ _ _ _ c1 hf h)
      · intro g c w' c1 c2
        by_cases hne : g = f ∧ c = b'
        · obtain ⟨rfl, rfl⟩ := hne
          exact ⟨fd, is, js', hfd, his, r4, r5⟩
        · exact r3.newBlk g c w' (by rw [hbv1 g c hne]; exact c1) c2
      · intro g gd c1 c2 c3
        have e : g ≠ f := by rintro rfl; rw [GSt.fv_eq hf] at c1; cases c1
        refine r3.newFun g gd ?_ c2 c3
        unfold GSt.fv at c1 ⊢; rw [GSt.upd_ne _ _ e]; exact c1
      · intro g i' c1 c2
        have e : g ≠ f := by rintro rfl; exact c2 hcur
        exact r3.frame g i' (by rw [GSt.upd_ne _ _ e]; exact c1) c2
    have hread2 : Fits is := (hc.funcFits _ _ hfd).2.2 _ _ his
    refine ⟨w, s', ?_, r2, hstep, ?_, ?_⟩
    · have hbb : p2.bbParams i.func w = some (paramHandles s.prog.ids.nextLocal x.params.length) := a3
      have hst : GSt.mk p2 s.values (s.funcs.insert f i2) s.cur = s.upd f p2 i2 := rfl
      simp only [gen, genBlock, bind_def, curInfo_run hcur hf, hbv, deref_run hbox, pure_def, read_of (hc.blockFits _ _ _ _ hfd hb hx)]
      simp only [hd1, curInfo_run hcur hf, Gen.api, Gen.api', a1, a2, get_def, hbb, need_some, pure_def, modify_def, read_of hread2, hi2, hst, r1]
    · rintro g (hg | ⟨_, hg⟩)
      · rw [hcur] at hg; cases hg
        exact r3.le.bv _ _ _ hb1
      · cases hg
    · intro g u w' hg hun hus
      rw [hcur] at hg; cases hg
      refine ⟨fun g h => (by cases h), .inr ?_, fun v' h _ => (by cases h)⟩
      cases hm1 : (s.upd f p2 i2).lv f u with
      | none =>
        rcases r6 u w' hm1 hus with h | h | h
        · exact .inr ⟨fd, b', is, hfd, his, h, hbn⟩
        · exact .inl h
        · exact .inr (h.mono a7)
      | some w1 =>
        rw [GSt.lv_eq hself, hi2v] at hm1
        rw [GSt.lv_eq hf] at hun
        have hup : u ∈ x.params := by
          by_cases hup : u ∈ x.params
          · exact hup
          · exfalso
            rw [insertAll_old (fun h => by
              obtain ⟨q, hq, rfl⟩ := List.mem_map.1 h
              exact hup (List.of_mem_zip (show (q.1, q.2) ∈ _ from hq)).1), hun] at hm1
            cases hm1
        obtain ⟨_, k, y, hy, hk⟩ := hpu u hup
        left
        intro y' hy'
        cases LocalVal.unique hy hy'
        rw [hk]; rfl

end

end Koopa.Raw
