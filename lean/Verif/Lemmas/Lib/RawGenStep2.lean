import Verif.Lemmas.Lib.RawGenStep
/-!
Instructions, functions and global values.
-/
namespace Koopa.Raw
open Spec

section
variable {p : Program} {g0 : Nat} {s : GSt}

theorem Le.congr {s s' : GSt} (hv : s'.values = s.values) (hf : ∀ g, s'.funcs.get? g = s.funcs.get? g) : Le s s' :=
  ⟨fun _ _ h => by unfold GSt.gv at h ⊢; rw [hv]; exact h, fun _ _ _ h => by unfold GSt.lv at h ⊢; rw [hf]; exact h,
    fun _ _ _ h => by unfold GSt.bv at h ⊢; rw [hf]; exact h, fun _ _ h => by unfold GSt.fv at h ⊢; rw [hf]; exact h⟩

/-- Only the program, the handles and the current function matter. -/
theorem GInv.congr {s' : GSt} (hi : GInv p g0 s) (hp : s'.prog = s.prog) (hv : s'.values = s.values)
    (hf : ∀ g, s'.funcs.get? g = s.funcs.get? g) (hcur : ∀ f, s'.cur = some f → (s.funcs.get? f).isSome) : GInv p g0 s' := by
  have hle := Le.congr hv hf
  have hg : ∀ v, s'.gv v = s.gv v := fun v => by unfold GSt.gv; rw [hv]
  refine ⟨by rw [hp]; exact hi.fin, fun f h => by rw [hf]; exact hcur f h, ?_, ?_, ?_, ?_, ?_, ?_, ?_⟩
  · obtain ⟨L, h1, h2, h3⟩ := hi.count
    exact ⟨L, h1, fun v h => by rw [hg]; exact h2 v h, by rw [hp]; exact h3⟩
  · intro v w h
    rw [hg] at h
    obtain ⟨hu, x, k, hx, hk, hs⟩ := hi.globs v w h
    exact ⟨hu, x, k, hx, hk.mono hle, by rw [hp]; exact hs⟩
  · intro w q h
    rw [hp] at h
    obtain ⟨v, hv⟩ := hi.onlyGlobs w q h
    exact ⟨v, by rw [hg]; exact hv⟩
  · intro v v' w h h'
    rw [hg] at h h'
    exact hi.injGlobs v v' w h h'
  · intro f i h
    rw [hf] at h
    obtain ⟨fd, h1, h2⟩ := hi.funcs f i h
    exact ⟨fd, h1, h2.frame hle (by rw [hp]; exact ⟨rfl, rfl, rfl, rfl⟩)⟩
  · intro g q h
    rw [hp] at h
    obtain ⟨f, i, h1, h2⟩ := hi.onlyFuncs g q h
    exact ⟨f, i, by rw [hf]; exact h1, h2⟩
  · intro a b i i' ha hb h
    rw [hf] at ha hb
    exact hi.injFuncs a b i i' ha hb h

/-- Instructions of a function are listed once. -/
theorem listed_once (hc : Convertible p) {f : Func} {fd : FData} (hfd : p.funcs.get? f = some fd) {a b : BB} {is js : List Value}
    (ha : (a, is) ∈ fd.layout.bbs) (hb : (b, js) ∈ fd.layout.bbs) {v : Value} (h1 : v ∈ is) (h2 : v ∈ js) : a = b ∧ is = js := by
  have hn := hc.instsOnce _ _ hfd
  rw [List.Nodup, List.pairwise_flatMap] at hn
  have key : ∀ {l : List (BB × List Value)}, l.Pairwise (fun a₁ a₂ => ∀ x, x ∈ a₁.2 → ∀ y, y ∈ a₂.2 → x ≠ y) →
      ∀ {q q' : BB × List Value}, q ∈ l → q' ∈ l → v ∈ q.2 → v ∈ q'.2 → q = q' := by
    intro l h
    induction h with
    | nil => intro q q' h; cases h
    | cons h _ ih =>
      intro q q' hq hq' h3 h4
      rcases List.mem_cons.1 hq with rfl | hq1
      · rcases List.mem_cons.1 hq' with rfl | hq2
        · rfl
        · exact absurd rfl (h _ hq2 _ h3 _ h4)
      · rcases List.mem_cons.1 hq' with rfl | hq2
        · exact absurd rfl (h _ hq1 _ h4 _ h3)
        · exact ih hq1 hq2 h3 h4
  have := key hn.2 ha hb h1 h2
  cases this; exact ⟨rfl, rfl⟩

theorem listed_nodup (hc : Convertible p) {f : Func} {fd : FData} (hfd : p.funcs.get? f = some fd) {a : BB} {is : List Value}
    (ha : (a, is) ∈ fd.layout.bbs) : is.Nodup := by
  have hn := hc.instsOnce _ _ hfd
  rw [List.Nodup, List.pairwise_flatMap] at hn
  exact hn.1 _ ha

theorem listed_same (hc : Convertible p) {f : Func} {fd : FData} (hfd : p.funcs.get? f = some fd) {a : BB} {is js : List Value}
    (ha : (a, is) ∈ fd.layout.bbs) (hb : (a, js) ∈ fd.layout.bbs) : is = js := by
  have hn := hc.blocksNodup _ _ hfd
  have h1 := (lookup_eq_some_iff hn).2 ha
  have h2 := (lookup_eq_some_iff hn).2 hb
  rw [h1] at h2; cases h2; rfl

theorem Ins.unique (hi : GInv p g0 s) {f : Func} {b : BB} {js ks : List Value} (h : s.Ins f b js) (h' : s.Ins f b ks) : js = ks := by
  obtain ⟨i, w, l, h1, h2, h3, h4⟩ := h
  obtain ⟨i', w', l', h1', h2', h3', h4'⟩ := h'
  rw [h1] at h1'; cases h1'
  rw [h2] at h2'; cases h2'
  rw [h3] at h3'; cases h3'
  have hn := (hi.fin.lays _ _ h3).1.keys
  have e1 := (lookup_eq_some_iff hn).2 h4
  have e2 := (lookup_eq_some_iff hn).2 h4'
  rw [e1] at e2; cases e2; rfl

theorem All2.memR {α β : Type} {R : α → β → Prop} {as : List α} {bs : List β} (h : All2 R as bs) :
    ∀ b ∈ bs, ∃ a ∈ as, R a b := by
  induction h with
  | nil => simp
  | cons h _ ih =>
    intro b hb
    rcases List.mem_cons.1 hb with rfl | hb
    · exact ⟨_, by simp, h⟩
    · obtain ⟨a, ha, hr⟩ := ih b hb; exact ⟨a, by simp [ha], hr⟩

theorem All2.snoc {α β : Type} {R : α → β → Prop} {as : List α} {bs : List β} {a : α} {b : β} (h : All2 R as bs) (h' : R a b) :
    All2 R (as ++ [a]) (bs ++ [b]) := by
  induction h with
  | nil => exact .cons h' .nil
  | cons h _ ih => exact .cons h ih

/-- An instruction is appended to a block. -/
theorem GInv.addInst (hc : Convertible p) (hi : GInv p g0 s) {f : Func} {i : FuncInfo} {fd : FData}
    (hf : s.funcs.get? f = some i) (hfd : p.funcs.get? f = some fd) {b : BB} {w : BB} {is js : List Value} {n : Nat} {v u : Value}
    (hb : i.bbs.get? b = some w) (his : (b, is) ∈ fd.layout.bbs) (hins : s.Ins f b js)
    (hjs : All2 (fun v w => i.values.get? v = some w) (is.take n) js) (hv : is[n]? = some v) (hu : i.values.get? v = some u) :
    ∃ p2, s.prog.pushInst i.func w u = some p2 ∧ GInv p g0 { s with prog := p2 } ∧
      ({ s with prog := p2 } : GSt).Ins f b (js ++ [u]) ∧
      (∀ g c ks, s.Ins g c ks → (g = f → c ≠ b) → ({ s with prog := p2 } : GSt).Ins g c ks) ∧
      p2.view.insts = s.prog.view.insts := by
  obtain ⟨fd', hfd', hfi⟩ := hi.funcs f i hf
  rw [hfd] at hfd'; cases hfd'
  obtain ⟨l, hl, hl1, hl2, hl3⟩ := hfi.lay
  have hw : (w, js) ∈ l.bbs := by
    obtain ⟨i', w', l', h1, h2, h3, h4⟩ := hins
    rw [hf] at h1; cases h1
    rw [hb] at h2; cases h2
    rw [hl] at h3; cases h3
    exact h4
  have hnd := listed_nodup hc hfd his
  have hnot : v ∉ is.take n := by
    intro h
    obtain ⟨k, hk⟩ := List.mem_iff_getElem?.1 h
    rw [List.getElem?_take] at hk
    split at hk
    · rename_i hlt
      have hlt' := (List.getElem?_eq_some_iff.1 hk).1
      have := (List.getElem?_inj hlt' hnd).1 (hk.trans hv.symm)
      omega
    · cases hk
  have hvm : v ∈ is := List.mem_iff_getElem?.2 ⟨n, hv⟩
  have hkeys := (hi.fin.lays _ _ hl).1.keys
  have hnew : ∀ b' is', (b', is') ∈ l.bbs → u ∉ is' := by
    intro b' is' hm hu'
    obtain ⟨c, hc'⟩ := hl2 b' (List.mem_map.2 ⟨_, hm, rfl⟩)
    obtain ⟨js', is'', k, e1, e2, e3⟩ := hl1 c b' hc'
    have : js' = is' := by
      have h1 := (lookup_eq_some_iff hkeys).2 e1
      have h2 := (lookup_eq_some_iff hkeys).2 hm
      rw [h1] at h2; cases h2; rfl
    subst this
    obtain ⟨v', hv', hv''⟩ := All2.memR e3 u hu'
    have := hfi.injVals _ _ _ hv'' hu
    subst this
    obtain ⟨rfl, rfl⟩ := listed_once hc hfd e2 his (List.mem_of_mem_take hv') hvm
    rw [hb] at hc'; cases hc'
    have : js = js' := by
      have h1 := (lookup_eq_some_iff hkeys).2 hw
      have h2 := (lookup_eq_some_iff hkeys).2 hm
      rw [h1] at h2; cases h2; rfl
    subst this
    obtain ⟨v'', h1, h2⟩ := All2.memR hjs u hu'
    have := hfi.injVals _ _ _ h2 hu
    subst this
    exact hnot h1
  obtain ⟨_, y, k, _, _, hsig⟩ := hfi.vals v u hu
  obtain ⟨p2, hp2, hfin2, _, hv2⟩ := pushInst_run hi.fin hl hw (by rw [hsig]; rfl) hnew
  have hvl : p2.view.l = s.prog.view.l := by rw [hv2]
  have hvb : p2.view.b = s.prog.view.b := by rw [hv2]
  have hvg : p2.view.g = s.prog.view.g := by rw [hv2]
  have hvh : p2.view.head = s.prog.view.head := by rw [hv2]
  have hvi : p2.view.insts = s.prog.view.insts := by rw [hv2]
  have hvy : p2.view.lay = fun f' => if f' = i.func then
      some { bbs := setInsts w (js ++ [u]) l.bbs, instBb := l.instBb.insert u w } else s.prog.view.lay f' := by rw [hv2]
  have hvyf : p2.view.lay i.func = some { bbs := setInsts w (js ++ [u]) l.bbs, instBb := l.instBb.insert u w } := by
    rw [hvy]; simp only [if_true]
  have hids : p2.ids.nextGlobal = s.prog.ids.nextGlobal := by
    have e1 : p2.ids = s.prog.ids := congrArg View.ids hv2
    rw [e1]
  have hwk : w ∈ l.bbs.map (·.1) := List.mem_map.2 ⟨_, hw, rfl⟩
  have hle : Le s (s.upd f p2 i) := Le.upd hf p2 rfl (fun _ _ h => h) (fun _ _ h => h)
  have hupd : GInv p g0 (s.upd f p2 i) := by
    refine hi.update hf hfd hle rfl hfin2 hids hvg hvh ?_ ?_
    · intro g hg
      refine ⟨by rw [hvl], by rw [hvb], by rw [hvh], ?_⟩
      rw [hvy]; simp only; rw [if_neg hg]
    · refine ⟨?_, ?_, ?_, hfi.injVals, hfi.args, ?_, ?_, hfi.injBlks, ?_⟩
      · show ∃ ws, p2.view.head i.func = _ ∧ _; rw [hvh]; exact hfi.head
      · intro a c h
        obtain ⟨e1, y, k, e2, e3, e4⟩ := hfi.vals a c h
        exact ⟨e1, y, k, e2, e3.mono hle, by show p2.view.l _ _ = _; rw [hvl]; exact e4⟩
      · intro a q h; exact hfi.onlyVals a q (by rw [← hvl]; exact h)
      · intro a c h
        obtain ⟨e1, y, k, e2, e3, e4⟩ := hfi.blks a c h
        exact ⟨e1, y, k, e2, by show p2.view.b _ _ = _; rw [hvb]; exact e3, e4⟩
      · intro a q h; exact hfi.onlyBlks a q (by rw [← hvb]; exact h)
      · refine ⟨_, hvyf, ?_, ?_, ?_⟩
        · intro c d hcd
          by_cases e : c = b
          · subst e
            rw [hb] at hcd; cases hcd
            refine ⟨js ++ [u], is, n + 1, (mem_setInsts hkeys).2 (.inr ⟨rfl, rfl, hwk⟩), his, ?_⟩
            rw [List.take_add_one, hv]
            exact All2.snoc hjs hu
          · obtain ⟨ks, is', k, a1, a2, a3⟩ := hl1 c d hcd
            refine ⟨ks, is', k, (mem_setInsts hkeys).2 (.inl ⟨?_, a1⟩), a2, a3⟩
            rintro rfl
            exact e (hfi.injBlks _ _ _ hcd hb)
        · simp only [setInsts_keys]; exact hl2
        · simp only [setInsts_keys]; exact hl3
  refine ⟨p2, hp2, hupd.congr rfl rfl ?_ ?_, ⟨i, w, _, hf, hb, hvyf,
    (mem_setInsts hkeys).2 (.inr ⟨rfl, rfl, hwk⟩)⟩, ?_, hvi⟩
  · intro g
    show s.funcs.get? g = _
    by_cases e : g = f
    · subst e; rw [GSt.upd_self, hf]
    · rw [GSt.upd_ne _ _ e]
  · intro g hg
    by_cases e : g = f
    · subst e; rw [GSt.upd_self]; rfl
    · rw [GSt.upd_ne _ _ e]; exact hi.cur g hg
  · rintro g c ks ⟨j, d, m, h1, h2, h3, h4⟩ hne
    by_cases e : g = f
    · subst e
      rw [hf] at h1; cases h1
      rw [hl] at h3; cases h3
      refine ⟨i, d, _, hf, h2, hvyf, (mem_setInsts hkeys).2 (.inl ⟨?_, h4⟩)⟩
      rintro rfl
      exact hne rfl (hfi.injBlks _ _ _ h2 hb)
    · refine ⟨j, d, m, h1, h2, ?_, h4⟩
      show p2.view.lay j.func = _
      rw [hvy]; simp only
      rw [if_neg (fun h => e (hi.injFuncs _ _ _ _ h1 hf h))]; exact h3

/-! ### Functions -/

theorem Le.new {f : Func} (hf : s.funcs.get? f = none) (p2 : Program) (i2 : FuncInfo) : Le s (s.upd f p2 i2) := by
  have ne : ∀ {g}, g = f → s.funcs.get? g = none := by rintro g rfl; exact hf
  refine ⟨fun _ _ h => h, ?_, ?_, ?_⟩
  · intro g v w hw
    unfold GSt.lv at hw ⊢
    rw [GSt.upd_ne _ _ (fun e => by rw [ne e] at hw; cases hw)]; exact hw
  · intro g v w hw
    unfold GSt.bv at hw ⊢
    rw [GSt.upd_ne _ _ (fun e => by rw [ne e] at hw; cases hw)]; exact hw
  · intro g w hw
    unfold GSt.fv at hw ⊢
    rw [GSt.upd_ne _ _ (fun e => by rw [ne e] at hw; cases hw)]; exact hw

/-- A function without blocks is added. -/
theorem GInv.addFunc (hc : Convertible p) (hi : GInv p g0 s) {f : Func} {fd : FData}
    (hf : s.funcs.get? f = none) (hfd : p.funcs.get? f = some fd) {dps : List (Option Str × Ty)}
    (hdps : ParamsAre p f fd.params dps) {p2 : Program} (hfin : FInv p2)
    (hv : p2.view = { s.prog.view with
        l := fun f' w => if f' = s.prog.ids.nextFunc then paramSig VKind.funcArgRef s.prog.ids.nextLocal 0 dps w
          else s.prog.view.l f' w
        b := fun f' w => if f' = s.prog.ids.nextFunc then none else s.prog.view.b f' w
        head := fun f' => if f' = s.prog.ids.nextFunc then
          some (fd.ty, fd.name, paramHandles s.prog.ids.nextLocal dps.length) else s.prog.view.head f'
        lay := fun f' => if f' = s.prog.ids.nextFunc then some Layout.new else s.prog.view.lay f'
        fns := s.prog.view.fns ++ [s.prog.ids.nextFunc]
        ft := p2.view.ft
        ids := p2.view.ids }) (hids : p2.ids.nextGlobal = s.prog.ids.nextGlobal) :
    ∃ fd', p2.funcs.get? s.prog.ids.nextFunc = some fd' ∧
      fd'.params = paramHandles s.prog.ids.nextLocal fd.params.length ∧
      let i2 : FuncInfo := { func := s.prog.ids.nextFunc, bbs := .empty, values := insertAll .empty (fd.params.zip fd'.params) }
      GInv p g0 (s.upd f p2 i2) ∧ Le s (s.upd f p2 i2) ∧
        (∀ g, g ≠ s.prog.ids.nextFunc → p2.view.lay g = s.prog.view.lay g) ∧ p2.view.insts = s.prog.view.insts ∧
        ∀ g i, s.funcs.get? g = some i → i.func ≠ s.prog.ids.nextFunc := by
  have hvl : p2.view.l = fun f' w => if f' = s.prog.ids.nextFunc then paramSig VKind.funcArgRef s.prog.ids.nextLocal 0 dps w
          else s.prog.view.l f' w := by rw [hv]
  have hvb : p2.view.b = fun f' w => if f' = s.prog.ids.nextFunc then none else s.prog.view.b f' w := by rw [hv]
  have hvg : p2.view.g = s.prog.view.g := by rw [hv]
  have hvh : p2.view.head = fun f' => if f' = s.prog.ids.nextFunc then
          some (fd.ty, fd.name, paramHandles s.prog.ids.nextLocal dps.length) else s.prog.view.head f' := by rw [hv]
  have hvi : p2.view.insts = s.prog.view.insts := by rw [hv]
  have hvy : p2.view.lay = fun f' => if f' = s.prog.ids.nextFunc then some Layout.new else s.prog.view.lay f' := by rw [hv]
  have hlen : dps.length = fd.params.length := hdps.length.symm
  have hhead : p2.view.head s.prog.ids.nextFunc = some (fd.ty, fd.name, paramHandles s.prog.ids.nextLocal fd.params.length) := by
    rw [hvh, ← hlen]; simp
  obtain ⟨fd', hfd', _, _, hps⟩ := view_head_iff.1 hhead
  obtain ⟨ts, r, hty, _, _, _, hrefs'⟩ := hc.funcTy _ _ hfd
  have hrefs : ∀ (i : Nat) v, fd.params[i]? = some v → ∃ y, LocalVal p f v y ∧ y.kind = .funcArgRef i := by
    intro i v h
    obtain ⟨x, h1, h2, _⟩ := hrefs' i v h
    exact ⟨x, h1, h2⟩
  have hnd : fd.params.Nodup := params_nodup (p := p) (f := f) (mk := .funcArgRef) (by intro a b e; cases e; rfl) hrefs
  refine ⟨fd', hfd', hps, ?_⟩
  rw [hps]
  have viff := fun u w => insertAll_iff (m := (.empty : Map Nat Nat)) (v := u) (w := w) (next := s.prog.ids.nextLocal) hnd
  have hnew : ∀ g i, s.funcs.get? g = some i → i.func ≠ s.prog.ids.nextFunc := by
    intro g i hg he
    have := hi.headSome hg
    rw [he] at this
    obtain ⟨q, hq⟩ := Option.isSome_iff_exists.1 this
    have := hi.fin.fRange hq
    omega
  have hle : Le s (s.upd f p2 (FuncInfo.mk s.prog.ids.nextFunc .empty
      (insertAll .empty (fd.params.zip (paramHandles s.prog.ids.nextLocal fd.params.length))))) := Le.new hf p2 _
  refine ⟨?_, hle, fun g hg => by rw [hvy]; simp [hg], hvi, hnew⟩
  refine ⟨hfin, ?_, ?_, ?_, ?_, hi.injGlobs, ?_, ?_, ?_⟩
  · intro g hgc
    by_cases e : g = f
    · subst e; rw [GSt.upd_self]; rfl
    · rw [GSt.upd_ne _ _ e]; exact hi.cur g hgc
  · obtain ⟨L, h1, h2, h3⟩ := hi.count
    exact ⟨L, h1, h2, hids.trans h3⟩
  · intro v w hw
    obtain ⟨hu, x, k, hx, hk, hs⟩ := hi.globs v w hw
    exact ⟨hu, x, k, hx, hk.mono hle, by show p2.view.g w = _; rw [hvg]; exact hs⟩
  · intro w q hq
    exact hi.onlyGlobs w q (by rw [← hvg]; exact hq)
  · intro g j hj
    by_cases e : g = f
    · subst e; rw [GSt.upd_self] at hj; cases hj
      refine ⟨fd, hfd, ?_, ?_, ?_, ?_, ?_, ?_, ?_, ?_, ?_⟩
      · refine ⟨_, hhead, All2.of_get (by simp [paramHandles]) ?_⟩
        intro n u w' h1 h2
        refine (viff u w').2 (.inl ⟨n, h1, ?_⟩)
        rw [paramHandles_get] at h2
        split at h2
        · exact (Option.some.inj h2).symm
        · cases h2
      · intro u w hw
        rcases (viff u w).1 hw with ⟨n, hn', rfl⟩ | ⟨_, hw⟩
        · obtain ⟨y, hy, hk⟩ := hrefs n u hn'
          obtain ⟨q, hq, y', hy', rfl⟩ := All2.get_left hdps hn'
          cases LocalVal.unique hy hy'
          refine ⟨.arg hfd (List.mem_iff_getElem?.2 ⟨n, hn'⟩), y, _, hy, ⟨by rw [hk]; simp [kindItems], rfl⟩, ?_⟩
          show p2.view.l s.prog.ids.nextFunc _ = _
          rw [hvl]
          simp [paramSig, hq, hk, mapKind]
        · cases hw
      · intro w q hq
        replace hq : p2.view.l s.prog.ids.nextFunc w = some q := hq
        rw [hvl] at hq; simp only [if_true] at hq
        unfold paramSig at hq
        split at hq
        · cases hq
        · rename_i hlt
          obtain ⟨d, hd, _⟩ := Option.map_eq_some_iff.1 hq
          have hlt' := (List.getElem?_eq_some_iff.1 hd).1
          rw [hlen] at hlt'
          refine ⟨fd.params[w - s.prog.ids.nextLocal], (viff _ w).2 (.inl ⟨w - s.prog.ids.nextLocal, List.getElem?_eq_getElem hlt', ?_⟩)⟩
          omega
      · intro u u' w hw hw'
        rcases (viff u w).1 hw with ⟨n, hn1, rfl⟩ | ⟨_, hw⟩
        · rcases (viff u' _).1 hw' with ⟨m, hn2, e⟩ | ⟨_, hw'⟩
          · have : n = m := by omega
            subst this
            rw [hn1] at hn2; cases hn2; rfl
          · cases hw'
        · cases hw
      · intro u w y n hw hy hk
        rcases (viff u w).1 hw with ⟨m, hm, rfl⟩ | ⟨_, hw⟩
        · obtain ⟨z, hz, hk'⟩ := hrefs m u hm
          cases LocalVal.unique hy hz
          rw [hk] at hk'; cases hk'
        · cases hw
      · intro b w hw; cases hw
      · intro w q hq
        replace hq : p2.view.b s.prog.ids.nextFunc w = some q := hq
        rw [hvb] at hq; simp at hq
      · intro b b' w hw; cases hw
      · refine ⟨Layout.new, by show p2.view.lay s.prog.ids.nextFunc = _; rw [hvy]; simp, ?_, ?_, ?_⟩
        · intro b w hw; cases hw
        · intro w hw; cases hw
        · intro w hw; cases hw
    · rw [GSt.upd_ne _ _ e] at hj
      obtain ⟨gd, h1, h2⟩ := hi.funcs g j hj
      have hne := hnew g j hj
      refine ⟨gd, h1, h2.frame hle ⟨?_, ?_, ?_, ?_⟩⟩
      · funext w; show p2.view.l _ w = _; rw [hvl]; simp only; rw [if_neg hne]
      · funext w; show p2.view.b _ w = _; rw [hvb]; simp only; rw [if_neg hne]
      · show p2.view.head _ = _; rw [hvh]; simp only; rw [if_neg hne]
      · show p2.view.lay _ = _; rw [hvy]; simp only; rw [if_neg hne]
  · intro g q hq
    replace hq : p2.view.head g = some q := hq
    rw [hvh] at hq; simp only at hq
    split at hq
    · rename_i e; exact ⟨f, _, GSt.upd_self .., e.symm⟩
    · obtain ⟨f', i', h1, h2⟩ := hi.onlyFuncs g q hq
      refine ⟨f', i', ?_, h2⟩
      rw [GSt.upd_ne _ _ (by rintro rfl; rw [hf] at h1; cases h1)]; exact h1
  · intro a b i' j' ha hb he
    by_cases ea : a = f
    · subst ea
      rw [GSt.upd_self] at ha; cases ha
      by_cases eb : b = a
      · exact eb.symm
      · rw [GSt.upd_ne _ _ eb] at hb
        exact absurd he.symm (hnew _ _ hb)
    · rw [GSt.upd_ne _ _ ea] at ha
      by_cases eb : b = f
      · subst eb
        rw [GSt.upd_self] at hb; cases hb
        exact absurd he (hnew _ _ ha)
      · rw [GSt.upd_ne _ _ eb] at hb
        exact hi.injFuncs _ _ _ _ ha hb he

end

end Koopa.Raw
