import Verif.Lemmas.Lib.RawGenTotal2
/-!
The generator succeeds on functions, so on everything that is mentioned in functions.
-/
namespace Koopa.Raw
open Spec

section
variable {p : Program} {g0 : Nat}

/-- Blocks that are complete and lead to generated blocks only: all reachable blocks are generated. -/
theorem all_marked (hc : Convertible p) {s s' : GSt} (hi : GInv p g0 s') (hs : GStep p s s') {f : Func} {fd : FData}
    (hfd : p.funcs.get? f = some fd) (hnone : ∀ b, s.bv f b = none) {e : BB × List Value} (he : fd.layout.bbs.head? = some e)
    (hem : (s'.bv f e.1).isSome) : ∀ b ∈ fd.layout.bbs.map (·.1), (s'.bv f b).isSome := by
  intro b hb
  have hr := hc.reachable _ _ _ hfd hb
  clear hb
  induction hr with
  | entry hf' he' _ =>
    rw [hfd] at hf'; cases hf'
    rw [he] at he'; cases he'
    exact hem
  | step _ hedge _ ih =>
    obtain ⟨fd1, is, u, x, h1, h2, h3, h4, h5⟩ := hedge
    rw [hfd] at h1; cases h1
    obtain ⟨w, hw⟩ := Option.isSome_iff_exists.1 ih
    obtain ⟨fd2, is', js, e1, e2, _, e4⟩ := hs.newBlk _ _ _ (hnone _) hw
    rw [hfd] at e1; cases e1
    cases listed_same hc hfd h2 e2
    obtain ⟨w', _, hw'⟩ := e4.memL u h3
    obtain ⟨i, hf, hv⟩ := Option.bind_eq_some_iff.1 (show (s'.funcs.get? f).bind (·.values.get? u) = some w' from hw')
    obtain ⟨_, _, hfi⟩ := hi.funcs f i hf
    obtain ⟨_, y, k, hy, hk, _⟩ := hfi.vals u w' hv
    cases LocalVal.unique h4 hy
    exact hk.1 _ (target_mem h5)

theorem argUsed (hc : Convertible p) {f : Func} {fd : FData} (hfd : p.funcs.get? f = some fd) :
    ∀ v ∈ fd.params, Used p (some f) v ∧ ∃ y, LocalVal p f v y := by
  intro v hv
  obtain ⟨ts, r, _, _, _, _, h⟩ := hc.funcTy _ _ hfd
  obtain ⟨n, hn⟩ := List.mem_iff_getElem?.1 hv
  obtain ⟨y, h1, _⟩ := h n v hn
  exact ⟨.arg hfd hv, y, h1⟩

theorem zip_fst_snd {α β : Type} : ∀ (l : List (α × β)), (l.map (·.1)).zip (l.map (·.2)) = l
  | [] => rfl
  | (a, b) :: l => by simp [zip_fst_snd l]

theorem gen_func (hc : Convertible p) {m : Builder} (hm : Holds p m) {rank : Value → Nat} {R : Nat} {n : Nat}
    (ih : Good p g0 rank R n (gen m n)) {f : Func} {s : GSt} (hi : GInv p g0 s) (hd : GlobsDone p s) (hpre : Pre p s (.func f))
    (hneed : need p rank R s (.func f) ≤ n + 1) : Outcome p g0 rank (gen m (n + 1)) (.func f) s := by
  cases hf : s.funcs.get? f with
  | some i =>
    refine ⟨i.func, s, by simp only [gen, bind_def, get_def, hf, pure_def], hi, GStepX.refl _ s, ?_, ?_⟩
    · intro g _; exact GSt.fv_eq hf
    · intro f u w _ h h'; rw [h] at h'; cases h'
  | none =>
    obtain ⟨fd, hfd⟩ := Option.isSome_iff_exists.1 (show (p.funcs.get? f).isSome from hpre)
    obtain ⟨ts, r, hty, hts, hdecl, hdef, hps⟩ := hc.funcTy _ _ hfd
    have hbox := hm.funcs f fd hfd
    have hname : validName fd.name = true := valid_good (hc.funcNames _ _ hfd)
    have hfits := hc.funcFits _ _ hfd
    have hlen : (Slice.of .basicBlock (fd.layout.bbs.map (·.1))).len = fd.layout.bbs.length := by
      unfold Slice.of
      simp only
      rw [Nat.mod_eq_of_lt hfits.2.1, List.length_map]
    have hplen : (Slice.of .value fd.params).len = fd.params.length := by
      unfold Slice.of
      simp only
      rw [Nat.mod_eq_of_lt hfits.1]
    obtain ⟨dps, -, hd1, hd2⟩ := each_params hm (s := s) fd.params (argUsed hc hfd)
    -- the function without blocks
    have hstart : ∃ p2, FInv p2 ∧ p2.ids.nextGlobal = s.prog.ids.nextGlobal ∧
        p2.view = { s.prog.view with
          l := fun f' w => if f' = s.prog.ids.nextFunc then paramSig VKind.funcArgRef s.prog.ids.nextLocal 0 dps w
            else s.prog.view.l f' w
          b := fun f' w => if f' = s.prog.ids.nextFunc then none else s.prog.view.b f' w
          head := fun f' => if f' = s.prog.ids.nextFunc then
            some (fd.ty, fd.name, paramHandles s.prog.ids.nextLocal dps.length) else s.prog.view.head f'
          lay := fun f' => if f' = s.prog.ids.nextFunc then some Layout.new else s.prog.view.lay f'
          fns := s.prog.view.fns ++ [s.prog.ids.nextFunc]
          ft := p2.view.ft
          ids := p2.view.ids } ∧
        (if fd.layout.bbs.length = 0 then Gen.api (·.newFuncDecl fd.name ts r)
          else if fd.params.length ≠ ts.length then Gen.fail .funcParamNumMismatch
          else do
            let ps ← (Slice.of .value fd.params).read .value
            let names ← Gen.each (fun v => do
              let x ← deref m.vals v
              pure x.name) ps
            Gen.api (·.newFuncDefWithParamNames fd.name (names.zip ts) r)) s =
          some (.ok (s.prog.ids.nextFunc, { s with prog := p2 })) := by
      by_cases hb : fd.layout.bbs = []
      · have hpar := hdecl hb
        rw [hpar] at hd2
        cases hd2
        obtain ⟨p2, h1, h2, _, h4⟩ := newFuncDecl_run hi.fin (n := fd.name) (ps := ts) (r := r) hname hts
        refine ⟨p2, h2, ?_, ?_, ?_⟩
        · have : p2.view.ids = { s.prog.ids with nextFunc := s.prog.ids.nextFunc + 1 } := by rw [h4]
          have h := congrArg Ids.nextGlobal this
          exact h
        · rw [h4]
          have : ∀ w, paramSig VKind.funcArgRef s.prog.ids.nextLocal 0 [] w = none := by
            intro w; simp [paramSig]
          simp only [this, hty, List.length_nil]
          rfl
        · rw [if_pos (by rw [hb]; rfl)]
          simp only [Gen.api, h1]
      · have hpl := hdef hb
        have hmap : dps.map (·.2) = ts := by
          apply List.ext_getElem?
          intro k
          cases hk : fd.params[k]? with
          | none =>
            have h1 : fd.params.length ≤ k := List.getElem?_eq_none_iff.1 hk
            rw [List.getElem?_eq_none (by rw [List.length_map, ← hd2.length]; exact h1), List.getElem?_eq_none (by omega)]
          | some v =>
            obtain ⟨q, h1, y, hy, rfl⟩ := All2.get_left hd2 hk
            obtain ⟨y', hy', _, ht⟩ := hps k v hk
            cases LocalVal.unique hy hy'
            rw [List.getElem?_map, h1, ht]; rfl
        have hok : ∀ q ∈ dps, validOptName q.1 = true ∧ q.2 ≠ .unit := by
          intro q hq
          obtain ⟨v, hv, y, hy, rfl⟩ := All2.memR hd2 q hq
          refine ⟨valid_good (hc.names _ _ _ hy (argUsed hc hfd v hv).1), hts _ ?_⟩
          rw [← hmap]
          exact List.mem_map.2 ⟨_, hq, rfl⟩
        obtain ⟨p2, h1, h2, _, h4⟩ := newFuncDef_run hi.fin (n := fd.name) (ps := dps) (r := r) hname hok
        refine ⟨p2, h2, ?_, ?_, ?_⟩
        · have : p2.view.ids = { s.prog.ids with nextLocal := s.prog.ids.nextLocal + dps.length, nextFunc := s.prog.ids.nextFunc + 1 } := by
            rw [h4]
          have h := congrArg Ids.nextGlobal this
          exact h
        · rw [h4]
          simp only [hmap, hty]
        · rw [if_neg (by simpa using hb), if_neg (by simpa using hpl)]
          rw [bind_def, read_of hfits.1, pure_def]
          simp only [bind_def, hd1]
          rw [← hmap, zip_fst_snd]
          simp only [Gen.api, h1]
    obtain ⟨p2, hfin2, hids2, hview2, hrun2⟩ := hstart
    obtain ⟨fd', hfd', hpar', a1, a2, a3, a4, a5⟩ := hi.addFunc hc hf hfd hd2 hfin2 hview2 hids2
    generalize hi2 : ({ func := s.prog.ids.nextFunc, bbs := .empty, values := insertAll .empty (fd.params.zip fd'.params) } : FuncInfo)
      = i2 at a1 a2
    have hi2f : i2.func = s.prog.ids.nextFunc := by rw [← hi2]
    have hi2b : i2.bbs = .empty := by rw [← hi2]
    have hself := GSt.upd_self (s := s) f p2 i2
    have hst : GSt.mk p2 s.values (s.funcs.insert f i2) s.cur = s.upd f p2 i2 := rfl
    have hcurf : s.cur ≠ some f := by
      intro h
      have := hi.cur f h
      rw [hf] at this; cases this
    have hins0 : ∀ g c js, s.Ins g c js → (s.upd f p2 i2).Ins g c js := by
      rintro g c js ⟨i', w', l', c1, c2, c3, c4⟩
      have e : g ≠ f := by rintro rfl; rw [hf] at c1; cases c1
      refine ⟨i', w', l', by rw [GSt.upd_ne _ _ e]; exact c1, c2, ?_, c4⟩
      show p2.view.lay i'.func = _
      rw [a3 _ (a5 g i' c1)]; exact c3
    have hbvf : ∀ c, (s.upd f p2 i2).bv f c = none := by
      intro c; rw [GSt.bv_eq hself, hi2b]; rfl
    have hbv0 : ∀ g c, s.bv g c = none → (s.upd f p2 i2).bv g c = none := by
      intro g c h
      by_cases e : g = f
      · subst e; exact hbvf c
      · unfold GSt.bv at h ⊢; rw [GSt.upd_ne _ _ e]; exact h
    have hfv0 : ∀ g, g ≠ f → (s.upd f p2 i2).fv g = s.fv g := by
      intro g e; unfold GSt.fv; rw [GSt.upd_ne _ _ e]
    have hframe0 : ∀ h i, s.funcs.get? h = some i → (s.upd f p2 i2).funcs.get? h = some i := by
      intro h i hh
      have e : h ≠ f := by rintro rfl; rw [hf] at hh; cases hh
      rw [GSt.upd_ne _ _ e]; exact hh
    by_cases hb : fd.layout.bbs = []
    · refine ⟨s.prog.ids.nextFunc, s.upd f p2 i2, ?_, a1, ?_, ?_, ?_⟩
      · simp only [gen, bind_def, get_def, hf, genFunc, deref_run hbox, pure_def, hty, hlen, hplen]
        rw [hrun2]
        simp only [read_of hfits.1, pure_def, hfd', need_some, modify_def, hi2, hst]
        rw [if_pos (by rw [hb]; rfl)]
        rfl
      · refine ⟨a2, rfl, fun g c js h _ => hins0 g c js h, ?_, ?_, fun h i hh _ => hframe0 h i hh, rfl, a4⟩
        · intro g c w h h'
          rw [hbv0 g c h] at h'; cases h'
        · intro g gd h h' hg b hbm
          by_cases e : g = f
          · subst e
            rw [hfd] at hg; cases hg
            rw [hb] at hbm; cases hbm
          · rw [hfv0 g e, h] at h'; cases h'
      · intro g _
        show (s.upd f p2 i2).fv f = _
        rw [GSt.fv_eq hself, hi2f]
      · intro c u w hcu h h'
        obtain ⟨ic, hic⟩ := Option.isSome_iff_exists.1 (hi.cur c hcu)
        rw [GSt.lv_eq hic] at h
        rw [GSt.lv_eq (hframe0 c ic hic), h] at h'; cases h'
    · obtain ⟨e0, rest, hbs⟩ := List.exists_cons_of_ne_nil hb
      have hhead : fd.layout.bbs.head? = some e0 := by rw [hbs]; rfl
      have hhead' : (fd.layout.bbs.map (·.1)).head? = some e0.1 := by rw [hbs]; rfl
      have hmem0 : e0.1 ∈ fd.layout.bbs.map (·.1) := by rw [hbs]; simp
      generalize hs2 : ({ s.upd f p2 i2 with cur := some f } : GSt) = s2
      have hs2c : s2.cur = some f := by rw [← hs2]
      have hs2f : s2.funcs = (s.upd f p2 i2).funcs := by rw [← hs2]
      have hs2v : s2.values = s.values := by rw [← hs2]; rfl
      have hs2p : s2.prog = p2 := by rw [← hs2]; rfl
      have hle2 : Le (s.upd f p2 i2) s2 := Le.congr hs2v (fun g => by rw [hs2f])
      have hg2 : GInv p g0 s2 := a1.congr hs2p hs2v (fun g => by rw [hs2f]) (by
        intro g hg
        rw [hs2c] at hg; cases hg
        rw [hself]; rfl)
      have hbv2 : ∀ g c, s2.bv g c = (s.upd f p2 i2).bv g c := fun g c => by unfold GSt.bv; rw [hs2f]
      have hfv2 : ∀ g, s2.fv g = (s.upd f p2 i2).fv g := fun g => by unfold GSt.fv; rw [hs2f]
      have hcnt : cnt p s2 < cnt p s := cnt_lt (a2.trans hle2) (mem_marks hfd).1
        (show (s.fv f).isSome = false by unfold GSt.fv; rw [hf]; rfl)
        (show (s2.fv f).isSome = true by rw [hfv2, GSt.fv_eq hself]; rfl)
      have hneed2 : ∀ b, need p rank R s2 (.bb b) ≤ n := by
        intro b
        have h2 := Nat.mul_le_mul_right (R + 2) (Nat.succ_le_of_lt hcnt)
        rw [Nat.succ_mul] at h2
        unfold need at hneed ⊢
        simp only at hneed ⊢
        omega
      have hle02 := a2.trans hle2
      obtain ⟨we, s3, r1, r2, r3, r4, r5⟩ := ih (.bb e0.1) s2 hg2 (hd.mono hle02) ⟨f, fd, hs2c, hfd, hmem0, fun c _ hcd =>
        .inl (dom_self_entry hfd hhead' hcd)⟩ (hneed2 _)
      have hmk : ∀ b ∈ fd.layout.bbs.map (·.1), (s3.bv f b).isSome :=
        all_marked hc r2 r3 hfd (fun b => by rw [hbv2, hbvf]) hhead (by
          rw [show s3.bv f e0.1 = s3.item f (.bb e0.1) from rfl, r4 f (.inl hs2c)]; rfl)
      obtain ⟨s4, q1, q2, q3, q4, q5⟩ := ih.runs (f := f) ((rest.map (·.1)).map .bb) s3 r2 ((hd.mono hle02).mono r3.le)
        (r3.cur.trans hs2c) (by
          intro i hi
          obtain ⟨b, hb, rfl⟩ := List.mem_map.1 hi
          exact ⟨f, fd, r3.cur.trans hs2c, hfd, by rw [hbs, List.map_cons]; exact List.mem_cons_of_mem _ hb,
            fun c hcm _ => .inr (hmk c hcm)⟩) (by
          intro i hi
          obtain ⟨b, hb, rfl⟩ := List.mem_map.1 hi
          exact Nat.le_trans (need_mono r3.le _) (hneed2 b))
      have hruns : Runs (gen m n) (s4.h f) ((fd.layout.bbs.map (·.1)).map .bb) s2 s4 := by
        rw [hbs, List.map_cons, List.map_cons]
        refine .cons ?_ q1
        rw [GSt.h_eq (q3.le.item (r4 f (.inl hs2c)))]; exact r1
      have hstep24 := r3.trans q3
      generalize hs5 : ({ s4 with cur := s.cur } : GSt) = s5
      have hs5c : s5.cur = s.cur := by rw [← hs5]
      have hs5f : s5.funcs = s4.funcs := by rw [← hs5]
      have hs5v : s5.values = s4.values := by rw [← hs5]
      have hs5p : s5.prog = s4.prog := by rw [← hs5]
      have hle5 : Le s4 s5 := Le.congr hs5v (fun g => by rw [hs5f])
      have hins5 : ∀ g c js, s4.Ins g c js → s5.Ins g c js := by
        rintro g c js ⟨i', w', l', c1, c2, c3, c4⟩
        exact ⟨i', w', l', by rw [hs5f]; exact c1, c2, by rw [hs5p]; exact c3, c4⟩
      have hins2 : ∀ g c js, (s.upd f p2 i2).Ins g c js → s2.Ins g c js := by
        rintro g c js ⟨i', w', l', c1, c2, c3, c4⟩
        exact ⟨i', w', l', by rw [hs2f]; exact c1, c2, by rw [hs2p]; exact c3, c4⟩
      have hframe : ∀ h i, s.funcs.get? h = some i → s5.funcs.get? h = some i := by
        intro h i hh
        rw [hs5f]
        have e : h ≠ f := by rintro rfl; rw [hf] at hh; cases hh
        exact hstep24.frame h i (by rw [hs2f]; exact hframe0 h i hh) (by rw [hs2c]; intro h'; cases h'; exact e rfl)
      have hfv5 : s5.fv f = some s.prog.ids.nextFunc := by
        apply (hstep24.le.trans hle5).fv
        rw [hfv2, GSt.fv_eq hself, hi2f]
      refine ⟨s.prog.ids.nextFunc, s5, ?_, ?_, ?_, ?_, ?_⟩
      · simp only [gen, bind_def, get_def, hf, genFunc, deref_run hbox, pure_def, hty, hlen, hplen]
        rw [hrun2]
        simp only [read_of hfits.1, pure_def, hfd', need_some, modify_def, hi2, hst]
        rw [if_neg (by simpa using hb)]
        have hst2 : GSt.mk (s.upd f p2 i2).prog (s.upd f p2 i2).values (s.upd f p2 i2).funcs (some f) = s2 := hs2
        have hst5 : GSt.mk s4.prog s4.values s4.funcs (s.upd f p2 i2).cur = s5 := hs5
        simp only [bind_def, get_def, modify_def, read_of hfits.2.1, pure_def, hst2, each_bbs hruns, hst5]
      · refine q2.congr hs5p hs5v (fun g => by rw [hs5f]) ?_
        intro g hg
        rw [hs5c] at hg
        obtain ⟨ig, hig⟩ := Option.isSome_iff_exists.1 (hi.cur g hg)
        have := hframe g ig hig
        rw [hs5f] at this
        rw [this]; rfl
      · refine ⟨hle02.trans (hstep24.le.trans hle5), hs5c, ?_, ?_, ?_, fun h i hh _ => hframe h i hh, ?_, ?_⟩
        · intro g c js h _
          exact hins5 _ _ _ (hstep24.ins _ _ _ (hins2 _ _ _ (hins0 _ _ _ h)) (fun h => h))
        · intro g c w h h'
          have h4 : s4.bv g c = some w := by unfold GSt.bv at h' ⊢; rw [hs5f] at h'; exact h'
          obtain ⟨gd, is, js, c1, c2, c3, c4⟩ := hstep24.newBlk g c w (by rw [hbv2]; exact hbv0 g c h) h4
          exact ⟨gd, is, js, c1, c2, hins5 _ _ _ c3, c4.imp (fun _ _ _ h => hle5.lv _ _ _ h)⟩
        · intro g gd h h' hg b hbm
          by_cases e : g = f
          · subst e
            rw [hfd] at hg; cases hg
            exact hle5.bvSome (q3.le.bvSome (hmk b hbm))
          · have h4 : (s4.fv g).isSome := by unfold GSt.fv at h' ⊢; rw [hs5f] at h'; exact h'
            exact hle5.bvSome (hstep24.newFun g gd (by rw [hfv2, hfv0 g e]; exact h) h4 hg b hbm)
        · rw [hs5v, hstep24.values, hs2v]
        · rw [hs5p, hstep24.insts, hs2p, a4]
      · intro g _; exact hfv5
      · intro c u w hcu h h'
        obtain ⟨ic, hic⟩ := Option.isSome_iff_exists.1 (hi.cur c hcu)
        rw [GSt.lv_eq hic] at h
        rw [GSt.lv_eq (hframe c ic hic), h] at h'; cases h'

/-- Everything in functions is generated, with enough depth of recursion. -/
theorem gen_good (hc : Convertible p) {m : Builder} (hm : Holds p m) {rank : Value → Nat} {R : Nat} (hr : Ranked p rank R) :
    ∀ n, Good p g0 rank R n (gen m n)
  | 0, item, s, _, _, _, h => by
    exfalso
    unfold need at h
    cases item <;> simp only at h <;> omega
  | n + 1, .val _, _, hi, hd, hpre, h => gen_val hc hm hr (gen_good hc hm hr n) hi hd hpre h
  | n + 1, .bb _, _, hi, hd, hpre, h => gen_bb hc hm hr (gen_good hc hm hr n) hi hd hpre h
  | n + 1, .func _, _, hi, hd, hpre, h => gen_func hc hm (gen_good hc hm hr n) hi hd hpre h

end

end Koopa.Raw
