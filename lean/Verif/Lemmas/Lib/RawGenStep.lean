import Verif.Lemmas.Lib.RawGenInv
import Verif.Lemmas.Front.ElabFun
/-!
The single steps of the generator keep the invariant.
-/
namespace Koopa.Raw
open Spec

section
variable {p : Program} {g0 : Nat} {s : GSt}

/-- The state after function `f` changed. -/
def GSt.upd (s : GSt) (f : Func) (p2 : Program) (i2 : FuncInfo) : GSt := { s with prog := p2, funcs := s.funcs.insert f i2 }

theorem GSt.upd_self (f : Func) (p2 : Program) (i2 : FuncInfo) : (s.upd f p2 i2).funcs.get? f = some i2 := by
  simp [GSt.upd]

theorem GSt.upd_ne {f g : Func} (p2 : Program) (i2 : FuncInfo) (h : g ≠ f) : (s.upd f p2 i2).funcs.get? g = s.funcs.get? g := by
  simp [GSt.upd, Map.get?_insert, h]

theorem Le.upd {f : Func} {i i2 : FuncInfo} (hf : s.funcs.get? f = some i) (p2 : Program) (h : i2.func = i.func)
    (hv : ∀ v w, i.values.get? v = some w → i2.values.get? v = some w) (hb : ∀ v w, i.bbs.get? v = some w → i2.bbs.get? v = some w) :
    Le s (s.upd f p2 i2) := by
  refine ⟨fun _ _ h => h, ?_, ?_, ?_⟩
  · intro g v w hw
    by_cases e : g = f
    · subst e
      rw [GSt.lv_eq hf] at hw
      rw [GSt.lv_eq (GSt.upd_self ..)]; exact hv _ _ hw
    · unfold GSt.lv; rw [GSt.upd_ne _ _ e]; exact hw
  · intro g v w hw
    by_cases e : g = f
    · subst e
      rw [GSt.bv_eq hf] at hw
      rw [GSt.bv_eq (GSt.upd_self ..)]; exact hb _ _ hw
    · unfold GSt.bv; rw [GSt.upd_ne _ _ e]; exact hw
  · intro g w hw
    by_cases e : g = f
    · subst e
      rw [GSt.fv_eq hf] at hw
      rw [GSt.fv_eq (GSt.upd_self ..), h]; exact hw
    · unfold GSt.fv; rw [GSt.upd_ne _ _ e]; exact hw

/-- A change in one function. -/
theorem GInv.update (hi : GInv p g0 s) {f : Func} {i i2 : FuncInfo} {fd : FData} {p2 : Program} (hf : s.funcs.get? f = some i)
    (hfd : p.funcs.get? f = some fd) (hle : Le s (s.upd f p2 i2)) (hi2 : i2.func = i.func) (hfin : FInv p2)
    (hids : p2.ids.nextGlobal = s.prog.ids.nextGlobal) (hg : p2.view.g = s.prog.view.g) (hh : p2.view.head = s.prog.view.head)
    (hsame : ∀ g, g ≠ i.func → SameView s.prog.view p2.view g) (hnew : FuncInv p (s.upd f p2 i2) f i2 fd) :
    GInv p g0 (s.upd f p2 i2) := by
  refine ⟨hfin, ?_, ?_, ?_, ?_, hi.injGlobs, ?_, ?_, ?_⟩
  · intro g hgc
    by_cases e : g = f
    · subst e; rw [GSt.upd_self]; rfl
    · rw [GSt.upd_ne _ _ e]; exact hi.cur g hgc
  · obtain ⟨L, h1, h2, h3⟩ := hi.count
    exact ⟨L, h1, h2, hids.trans h3⟩
  · intro v w hw
    obtain ⟨hu, x, k, hx, hk, hs⟩ := hi.globs v w hw
    exact ⟨hu, x, k, hx, hk.mono hle, by show p2.view.g w = _; rw [hg]; exact hs⟩
  · intro w q hq
    exact hi.onlyGlobs w q (by rw [← hg]; exact hq)
  · intro g j hj
    by_cases e : g = f
    · subst e; rw [GSt.upd_self] at hj; cases hj; exact ⟨fd, hfd, hnew⟩
    · rw [GSt.upd_ne _ _ e] at hj
      obtain ⟨gd, h1, h2⟩ := hi.funcs g j hj
      exact ⟨gd, h1, h2.frame hle (hsame _ (fun h => e (hi.injFuncs _ _ _ _ hj hf h)))⟩
  · intro g q hq
    obtain ⟨f', i', h1, h2⟩ := hi.onlyFuncs g q (by rw [← hh]; exact hq)
    by_cases e : f' = f
    · subst e; rw [hf] at h1; cases h1
      exact ⟨f', i2, GSt.upd_self .., hi2.trans h2⟩
    · exact ⟨f', i', by rw [GSt.upd_ne _ _ e]; exact h1, h2⟩
  · intro a b i' j' ha hb he
    by_cases ea : a = f
    · subst ea
      rw [GSt.upd_self] at ha; cases ha
      by_cases eb : b = a
      · exact eb.symm
      · rw [GSt.upd_ne _ _ eb] at hb
        exact hi.injFuncs _ _ _ _ hf hb (hi2.symm.trans he)
    · rw [GSt.upd_ne _ _ ea] at ha
      by_cases eb : b = f
      · subst eb
        rw [GSt.upd_self] at hb; cases hb
        exact hi.injFuncs _ _ _ _ ha hf (he.trans hi2)
      · rw [GSt.upd_ne _ _ eb] at hb
        exact hi.injFuncs _ _ _ _ ha hb he

theorem curInfo_run {f : Func} {i : FuncInfo} (hcur : s.cur = some f) (hf : s.funcs.get? f = some i) :
    curInfo s = some (.ok ((f, i), s)) := by
  simp only [curInfo, bind_def, get_def, hcur, hf, need_some, pure_def]

theorem newLocal_gen {f : Func} {i : FuncInfo} (hcur : s.cur = some f) (hf : s.funcs.get? f = some i) {j : LocalInst} {p' : Program}
    {w : Value} (h : s.prog.newLocal i.func j = some (p', w)) : newLocal j s = some (.ok (w, { s with prog := p' })) := by
  simp only [newLocal, bind_def, curInfo_run hcur hf, Gen.api, h]

theorem keepVal_gen {f : Func} {i : FuncInfo} (hcur : s.cur = some f) (hf : s.funcs.get? f = some i) {v w : Value} {n : Option Str}
    {p' : Program} (h : s.prog.setLocalName i.func w n = some p') :
    keepVal v n w s = some (.ok ((), s.upd f p' { i with values := i.values.insert v w })) := by
  simp only [keepVal, bind_def, get_def, hcur, curInfo_run hcur hf, Gen.api', h, modify_def, GSt.upd]

theorem GInv.headSome (hi : GInv p g0 s) {f : Func} {i : FuncInfo} (hf : s.funcs.get? f = some i) :
    (s.prog.view.head i.func).isSome := by
  obtain ⟨fd, _, h⟩ := hi.funcs f i hf
  obtain ⟨ws, h, _⟩ := h.head
  rw [h]; rfl

/-- A value of the current function is made. -/
theorem GInv.addLocal (hc : Convertible p) (hi : GInv p g0 s) {f : Func} {i : FuncInfo} {fd : FData} (hcur : s.cur = some f)
    (hf : s.funcs.get? f = some i) (hfd : p.funcs.get? f = some fd)
    {v : Value} {x : VData} (hn : i.values.get? v = none) (hu : Used p (some f) v) (hx : LocalVal p f v x)
    (hm : ∀ j ∈ kindItems x.kind, (s.item f j).isSome)
    (h1 : ∀ n, x.kind ≠ .funcArgRef n) (h2 : ∀ n, x.kind ≠ .blockArgRef n) :
    ∃ j s1 s2 w, localInst x.ty (mapKind (fun v => s.h f (.val v)) (fun b => s.h f (.bb b)) (fun g => s.h f (.func g)) x.kind) = some j ∧
      newLocal j s = some (.ok (w, s1)) ∧ keepVal v x.name w s1 = some (.ok ((), s2)) ∧
      ∃ p2, s2 = s.upd f p2 { i with values := i.values.insert v w } ∧ GInv p g0 s2 ∧ Le s s2 ∧
        p2.view.lay = s.prog.view.lay ∧ p2.view.insts = s.prog.view.insts := by
  obtain ⟨j, hj, hr, hb⟩ := hi.instOk hc hf hu hx hm h1 h2
  obtain ⟨p1, hp1, hfin1, hext, hv1⟩ := newLocal_run hi.fin (hi.headSome hf) hr hb
  have hl : p1.view.l i.func s.prog.ids.nextLocal = some (x.ty, none,
      mapKind (fun v => s.h f (.val v)) (fun b => s.h f (.bb b)) (fun g => s.h f (.func g)) x.kind) := by
    rw [hv1]; simp [VData.shape, VData.new]
  obtain ⟨p2, hp2, hfin2, hv2⟩ := setLocalName_run hfin1 (n := x.name) hl (valid_good (hc.names _ _ _ hx hu))
  have hvl : p2.view.l = fun f' w => if f' = i.func ∧ w = s.prog.ids.nextLocal then some (x.ty, x.name,
      mapKind (fun v => s.h f (.val v)) (fun b => s.h f (.bb b)) (fun g => s.h f (.func g)) x.kind) else s.prog.view.l f' w := by
    rw [hv2]
    simp only
    rw [hv1]
    funext f' w
    simp only
    split <;> rfl
  have hvg : p2.view.g = s.prog.view.g := by rw [hv2]; simp only; rw [hv1]
  have hvb : p2.view.b = s.prog.view.b := by rw [hv2]; simp only; rw [hv1]
  have hvh : p2.view.head = s.prog.view.head := by rw [hv2]; simp only; rw [hv1]
  have hvy : p2.view.lay = s.prog.view.lay := by rw [hv2]; simp only; rw [hv1]
  have hvi : p2.view.insts = s.prog.view.insts := by rw [hv2]; simp only; rw [hv1]
  have hids : p2.ids.nextGlobal = s.prog.ids.nextGlobal := by
    have e1 : p2.ids = p1.ids := congrArg View.ids hv2
    rw [e1]
    have e2 : p1.ids = _ := congrArg View.ids hv1
    rw [e2]
  have hfresh : ∀ q, s.prog.view.l i.func s.prog.ids.nextLocal ≠ some q := by
    intro q hq
    have := (hi.fin.lRange hq).2
    omega
  have hle : Le s (s.upd f p2 { i with values := i.values.insert v s.prog.ids.nextLocal }) := Le.upd hf p2 rfl (by
    intro u w hw
    rw [Map.get?_insert, if_neg]
    · exact hw
    · rintro rfl; rw [hn] at hw; cases hw) (fun _ _ h => h)
  obtain ⟨fd', hfd', hfi⟩ := hi.funcs f i hf
  rw [hfd] at hfd'; cases hfd'
  have keep : ∀ {u w}, i.values.get? u = some w → (i.values.insert v s.prog.ids.nextLocal).get? u = some w := by
    intro u w hw
    rw [Map.get?_insert, if_neg]
    · exact hw
    · rintro rfl; rw [hn] at hw; cases hw
  have keepA : ∀ {us ws}, All2 (fun v w => i.values.get? v = some w) us ws →
      All2 (fun u w => (i.values.insert v s.prog.ids.nextLocal).get? u = some w) us ws := fun h => h.imp (fun _ _ _ h => keep h)
  have old : ∀ {u w}, i.values.get? u = some w → w ≠ s.prog.ids.nextLocal := by
    rintro u w hw rfl
    obtain ⟨_, _, _, _, _, h⟩ := hfi.vals _ _ hw
    exact hfresh _ h
  refine ⟨j, { s with prog := p1 }, _, _, hj, newLocal_gen hcur hf hp1, keepVal_gen (s := { s with prog := p1 }) hcur hf hp2, p2, rfl, ?_, hle, hvy, hvi⟩
  refine hi.update hf hfd hle rfl hfin2 hids hvg hvh ?_ ?_
  · intro g hg
    refine ⟨?_, by rw [hvb], by rw [hvh], by rw [hvy]⟩
    funext w
    rw [hvl]; simp only
    rw [if_neg (fun h => hg h.1)]
  · refine ⟨?_, ?_, ?_, ?_, ?_, ?_, ?_, hfi.injBlks, ?_⟩
    · obtain ⟨ws, e1, e2⟩ := hfi.head
      exact ⟨ws, by show p2.view.head i.func = _; rw [hvh]; exact e1, keepA e2⟩
    · intro u w hw
      simp only [Map.get?_insert] at hw
      split at hw
      · rename_i e; subst e; cases hw
        refine ⟨hu, x, _, hx, KOk.mono hle ⟨hm, rfl⟩, ?_⟩
        show p2.view.l i.func _ = _
        rw [hvl]; simp
      · obtain ⟨e1, y, k, e2, e3, e4⟩ := hfi.vals u w hw
        refine ⟨e1, y, k, e2, e3.mono hle, ?_⟩
        show p2.view.l i.func w = _
        rw [hvl]; simp only
        rw [if_neg (fun h => old hw h.2)]; exact e4
    · intro w q hq
      replace hq : p2.view.l i.func w = some q := hq
      rw [hvl] at hq; simp only at hq
      split at hq
      · rename_i e; exact ⟨v, by simp [e.2]⟩
      · obtain ⟨u, hw⟩ := hfi.onlyVals w q hq
        exact ⟨u, keep hw⟩
    · intro u u' w hw hw'
      simp only [Map.get?_insert] at hw hw'
      split at hw <;> split at hw'
      · simp_all
      · cases hw; exact absurd rfl (old hw')
      · cases hw'; exact absurd rfl (old hw)
      · exact hfi.injVals _ _ _ hw hw'
    · intro u w y n hw hy hk
      simp only [Map.get?_insert] at hw
      split at hw
      · rename_i e; subst e
        obtain ⟨a, e1, e2⟩ := hx
        obtain ⟨b, e3, e4⟩ := hy
        rw [e1] at e3; cases e3
        rw [e2] at e4; cases e4
        exact absurd hk (h2 n)
      · exact hfi.args u w y n hw hy hk
    · intro b w hw
      obtain ⟨e1, y, ws, e2, e3, e4⟩ := hfi.blks b w hw
      exact ⟨e1, y, ws, e2, by show p2.view.b i.func w = _; rw [hvb]; exact e3, keepA e4⟩
    · intro w q hq
      exact hfi.onlyBlks w q (by rw [← hvb]; exact hq)
    · obtain ⟨l, e1, e2, e3, e4⟩ := hfi.lay
      refine ⟨l, by show p2.view.lay i.func = _; rw [hvy]; exact e1, ?_, e3, e4⟩
      intro b w hw
      obtain ⟨js, is, n, a1, a2, a3⟩ := e2 b w hw
      exact ⟨js, is, n, a1, a2, keepA a3⟩

/-! ### Blocks -/

theorem insertAll_old : ∀ {l : List (Nat × Nat)} {m : Map Nat Nat} {v : Nat}, v ∉ l.map (·.1) → (insertAll m l).get? v = m.get? v
  | [], _, _, _ => rfl
  | (a, b) :: l, m, v, h => by
    simp only [List.map_cons, List.mem_cons, not_or] at h
    rw [insertAll, insertAll_old h.2, Map.get?_insert, if_neg h.1]

theorem insertAll_new : ∀ {ps hs : List Nat} {m : Map Nat Nat} {v w n : Nat}, ps.Nodup → ps[n]? = some v → hs[n]? = some w →
    (insertAll m (ps.zip hs)).get? v = some w
  | [], _, _, _, _, _, _, h, _ => by simp at h
  | _ :: _, [], _, _, _, _, _, _, h => by simp at h
  | a :: ps, b :: hs, m, v, w, n, hn, h1, h2 => by
    rw [List.nodup_cons] at hn
    rw [List.zip_cons_cons, insertAll]
    cases n with
    | zero =>
      simp only [List.getElem?_cons_zero, Option.some.injEq] at h1 h2
      subst h1; subst h2
      rw [insertAll_old, Map.get?_insert_self]
      intro h
      obtain ⟨q, hq, rfl⟩ := List.mem_map.1 h
      exact hn.1 (List.of_mem_zip hq).1
    | succ n =>
      simp only [List.getElem?_cons_succ] at h1 h2
      exact insertAll_new hn.2 h1 h2

theorem paramHandles_get {next n k : Nat} : (paramHandles next n)[k]? = if k < n then some (next + k) else none := by
  unfold paramHandles
  split
  · rename_i h; rw [List.getElem?_range' h, Nat.one_mul]
  · rename_i h; rw [List.getElem?_eq_none_iff, List.length_range']; omega

/-- What the map holds after the parameters are inserted. -/
theorem insertAll_iff {ps : List Nat} {m : Map Nat Nat} {v w next : Nat} (hn : ps.Nodup) :
    (insertAll m (ps.zip (paramHandles next ps.length))).get? v = some w ↔
      (∃ n, ps[n]? = some v ∧ w = next + n) ∨ (v ∉ ps ∧ m.get? v = some w) := by
  by_cases h : v ∈ ps
  · obtain ⟨n, hn'⟩ := List.mem_iff_getElem?.1 h
    have hlt := (List.getElem?_eq_some_iff.1 hn').1
    rw [insertAll_new (w := next + n) hn hn' (by rw [paramHandles_get, if_pos hlt])]
    constructor
    · intro e; cases e; exact .inl ⟨n, hn', rfl⟩
    · rintro (⟨k, hk, rfl⟩ | ⟨h', _⟩)
      · have hlt' := (List.getElem?_eq_some_iff.1 hk).1
        rw [((List.getElem?_inj hlt' hn).1 (hk.trans hn'.symm))]
      · exact absurd h h'
  · rw [insertAll_old (by
      intro h'
      obtain ⟨q, hq, rfl⟩ := List.mem_map.1 h'
      exact h (List.of_mem_zip hq).1)]
    constructor
    · intro e; exact .inr ⟨h, e⟩
    · rintro (⟨k, hk, rfl⟩ | ⟨_, h'⟩)
      · exact absurd (List.mem_iff_getElem?.2 ⟨k, hk⟩) h
      · exact h'

theorem LocalVal.unique {f : Func} {v : Value} {x y : VData} (hx : LocalVal p f v x) (hy : LocalVal p f v y) : x = y := by
  obtain ⟨a, e1, e2⟩ := hx
  obtain ⟨b, e3, e4⟩ := hy
  rw [e1] at e3; cases e3
  rw [e2] at e4; cases e4; rfl

theorem params_nodup {f : Func} {mk : Nat → VKind} (hmk : ∀ a b, mk a = mk b → a = b) {ps : List Value}
    (h : ∀ (i : Nat) v, ps[i]? = some v → ∃ y, LocalVal p f v y ∧ y.kind = mk i) : ps.Nodup := by
  rw [List.nodup_iff_pairwise_ne, List.pairwise_iff_getElem]
  intro i j hi hj hij he
  obtain ⟨y, h1, h2⟩ := h i _ (List.getElem?_eq_getElem hi)
  obtain ⟨z, h3, h4⟩ := h j _ (List.getElem?_eq_getElem hj)
  rw [he] at h1
  rw [LocalVal.unique h1 h3, h4] at h2
  have := hmk _ _ h2
  omega

/-- The parameters of a function or a block are described by `dps`. -/
def ParamsAre (p : Program) (f : Func) (ps : List Value) (dps : List (Option Str × Ty)) : Prop :=
  All2 (fun v q => ∃ y, LocalVal p f v y ∧ q = (y.name, y.ty)) ps dps

theorem All2.get_left {α β : Type} {R : α → β → Prop} {as : List α} {bs : List β} (h : All2 R as bs) {n : Nat} {a : α}
    (ha : as[n]? = some a) : ∃ b, bs[n]? = some b ∧ R a b := by
  have hlt := (List.getElem?_eq_some_iff.1 ha).1
  rw [h.length] at hlt
  exact ⟨bs[n], List.getElem?_eq_getElem hlt, h.get n _ _ ha (List.getElem?_eq_getElem hlt)⟩

/-- A block is added to a function. -/
theorem GInv.addBlock (hc : Convertible p) (hi : GInv p g0 s) {f : Func} {i : FuncInfo} {fd : FData}
    (hf : s.funcs.get? f = some i) (hfd : p.funcs.get? f = some fd) {b : BB} {x : BData} (hb : b ∈ fd.layout.bbs.map (·.1))
    (hn : i.bbs.get? b = none) (hx : fd.dfg.bbs.get? b = some x)
    (hentry : ∀ e, (fd.layout.bbs.map (·.1)).head? = some e → e = b ∨ (i.bbs.get? e).isSome)
    {dps : List (Option Str × Ty)} (hdps : ParamsAre p f x.params dps) :
    ∃ p1 p2 w l, s.prog.newBbWithParamNames i.func x.name dps = some (p1, w) ∧ p1.pushBb i.func w = some p2 ∧
      p2.bbParams i.func w = some (paramHandles s.prog.ids.nextLocal x.params.length) ∧ s.prog.view.lay i.func = some l ∧
      (∀ js, (w, js) ∉ l.bbs) ∧
      let i2 : FuncInfo := { i with
        bbs := i.bbs.insert b w
        values := insertAll i.values (x.params.zip (paramHandles s.prog.ids.nextLocal x.params.length)) }
      GInv p g0 (s.upd f p2 i2) ∧ Le s (s.upd f p2 i2) ∧
        p2.view.lay i.func = some { l with bbs := l.bbs ++ [(w, [])] } ∧ (∀ g, g ≠ i.func → p2.view.lay g = s.prog.view.lay g) ∧
        p2.view.insts = s.prog.view.insts := by
  obtain ⟨fd', hfd', hfi⟩ := hi.funcs f i hf
  rw [hfd] at hfd'; cases hfd'
  obtain ⟨x', hx', hrefs⟩ := hc.blockData _ _ _ hfd hb
  rw [hx] at hx'; cases hx'
  have hnd : x.params.Nodup := params_nodup (p := p) (f := f) (mk := .blockArgRef) (by intro a b e; cases e; rfl) hrefs
  have hlen : dps.length = x.params.length := hdps.length.symm
  have hok : ∀ q ∈ dps, validOptName q.1 = true ∧ q.2 ≠ .unit := by
    intro q hq
    obtain ⟨n, hq⟩ := List.mem_iff_getElem?.1 hq
    have hlt := (List.getElem?_eq_some_iff.1 hq).1
    rw [hlen] at hlt
    have hv := List.getElem?_eq_getElem hlt
    obtain ⟨y, hy, rfl⟩ := hdps.get n _ _ hv hq
    obtain ⟨y', hy', hk⟩ := hrefs n _ hv
    cases LocalVal.unique hy hy'
    have hmem : x.params[n] ∈ x.params := List.getElem_mem hlt
    refine ⟨valid_good (hc.names _ _ _ hy (.param hfd hb hx hmem)), ?_⟩
    have := hc.typed.locals _ _ _ hy
    rw [hk] at this
    cases this with
    | blockArgRef h => exact h
  obtain ⟨p1, hp1, hfin1, _, hv1⟩ := newBb_run hi.fin (hi.headSome hf) (n := x.name) (ps := dps)
    (valid_good (hc.blockNames _ _ _ _ hfd hb hx)) hok
  obtain ⟨l, hl, hl1, hl2, hl3⟩ := hfi.lay
  have hbfresh : ∀ q, s.prog.view.b i.func s.prog.ids.nextBb ≠ some q := by
    intro q hq
    have := hi.fin.bRange hq
    omega
  have hnew : s.prog.ids.nextBb ∉ l.bbs.map (·.1) := by
    intro h
    obtain ⟨c, hc'⟩ := hl2 _ h
    obtain ⟨_, _, _, _, h, _⟩ := hfi.blks _ _ hc'
    exact hbfresh _ h
  obtain ⟨p2, hp2, hfin2, _, hv2⟩ := pushBb_run hfin1 (l := l) (b := s.prog.ids.nextBb) (by rw [hv1]; exact hl)
    (by rw [hv1]; simp) hnew
  have hvl : p2.view.l = fun f' w => if f' = i.func then
      (paramSig VKind.blockArgRef s.prog.ids.nextLocal 0 dps w).or (s.prog.view.l i.func w) else s.prog.view.l f' w := by
    rw [hv2]; simp only; rw [hv1]
  have hvb : p2.view.b = fun f' w => if f' = i.func ∧ w = s.prog.ids.nextBb then
      some (x.name, paramHandles s.prog.ids.nextLocal x.params.length) else s.prog.view.b f' w := by
    rw [hv2]; simp only; rw [hv1, ← hlen]
  have hvg : p2.view.g = s.prog.view.g := by rw [hv2]; simp only; rw [hv1]
  have hvh : p2.view.head = s.prog.view.head := by rw [hv2]; simp only; rw [hv1]
  have hvi : p2.view.insts = s.prog.view.insts := by rw [hv2]; simp only; rw [hv1]
  have hvy : p2.view.lay = fun f' => if f' = i.func then some { l with bbs := l.bbs ++ [(s.prog.ids.nextBb, [])] }
      else s.prog.view.lay f' := by
    rw [hv2]; simp only; rw [hv1]
  have hids : p2.ids.nextGlobal = s.prog.ids.nextGlobal := by
    have e1 : p2.ids = p1.ids := congrArg View.ids hv2
    rw [e1]
    have e2 : p1.ids = _ := congrArg View.ids hv1
    rw [e2]
  have hbp : p2.bbParams i.func s.prog.ids.nextBb = some (paramHandles s.prog.ids.nextLocal x.params.length) := by
    have : p2.view.b i.func s.prog.ids.nextBb = some (x.name, paramHandles s.prog.ids.nextLocal x.params.length) := by
      rw [hvb]; simp
    obtain ⟨z, ⟨zd, e1, e2⟩, _, e4⟩ := view_b_iff.1 this
    simp [Program.bbParams, e1, e2, e4]
  have hun : ∀ v ∈ x.params, i.values.get? v = none := by
    intro v hv
    cases hw : i.values.get? v with
    | none => rfl
    | some w =>
      obtain ⟨n, hn'⟩ := List.mem_iff_getElem?.1 hv
      obtain ⟨y, hy, hk⟩ := hrefs n v hn'
      obtain ⟨c, d, z, h1, h2, h3⟩ := hfi.args v w y n hw hy hk
      obtain ⟨h4, _⟩ := hfi.blks c d h1
      have := hc.paramsOnce _ _ _ _ _ _ _ hfd hx h2 hb h4 hv h3
      subst this
      rw [hn] at h1; cases h1
  have viff := fun u w => insertAll_iff (m := i.values) (v := u) (w := w) (next := s.prog.ids.nextLocal) hnd
  have keep : ∀ {u w}, i.values.get? u = some w →
      (insertAll i.values (x.params.zip (paramHandles s.prog.ids.nextLocal x.params.length))).get? u = some w := by
    intro u w hw
    refine (viff u w).2 (.inr ⟨fun h => ?_, hw⟩)
    rw [hun u h] at hw; cases hw
  have keepA : ∀ {us ws}, All2 (fun v w => i.values.get? v = some w) us ws → All2 (fun u w =>
      (insertAll i.values (x.params.zip (paramHandles s.prog.ids.nextLocal x.params.length))).get? u = some w) us ws :=
    fun h => h.imp (fun _ _ _ h => keep h)
  have keepB : ∀ {u w}, i.bbs.get? u = some w → (i.bbs.insert b s.prog.ids.nextBb).get? u = some w := by
    intro u w hw
    rw [Map.get?_insert, if_neg]
    · exact hw
    · rintro rfl; rw [hn] at hw; cases hw
  have old : ∀ {u w}, i.values.get? u = some w → w < s.prog.ids.nextLocal := by
    intro u w hw
    obtain ⟨_, _, _, _, _, h⟩ := hfi.vals _ _ hw
    exact (hi.fin.lRange h).2
  have oldB : ∀ {u w}, i.bbs.get? u = some w → w ≠ s.prog.ids.nextBb := by
    rintro u w hw rfl
    obtain ⟨_, _, _, _, h, _⟩ := hfi.blks _ _ hw
    exact hbfresh _ h
  have hle : Le s (s.upd f p2 { i with
      bbs := i.bbs.insert b s.prog.ids.nextBb
      values := insertAll i.values (x.params.zip (paramHandles s.prog.ids.nextLocal x.params.length)) }) :=
    Le.upd hf p2 rfl (fun _ _ h => keep h) (fun _ _ h => keepB h)
  have hnotin : ∀ js, (s.prog.ids.nextBb, js) ∉ l.bbs := fun js h => hnew (List.mem_map.2 ⟨_, h, rfl⟩)
  refine ⟨p1, p2, _, l, hp1, hp2, hbp, hl, hnotin, ?_, hle, by rw [hvy]; simp, fun g hg => by rw [hvy]; simp [hg], hvi⟩
  refine hi.update hf hfd hle rfl hfin2 hids hvg hvh ?_ ?_
  · intro g hg
    refine ⟨?_, ?_, by rw [hvh], ?_⟩
    · funext w; rw [hvl]; simp only; rw [if_neg hg]
    · funext w; rw [hvb]; simp only; rw [if_neg (fun h => hg h.1)]
    · rw [hvy]; simp only; rw [if_neg hg]
  · refine ⟨?_, ?_, ?_, ?_, ?_, ?_, ?_, ?_, ?_⟩
    · obtain ⟨ws, e1, e2⟩ := hfi.head
      exact ⟨ws, by show p2.view.head i.func = _; rw [hvh]; exact e1, keepA e2⟩
    · intro u w hw
      rcases (viff u w).1 hw with ⟨n, hn', rfl⟩ | ⟨_, hw⟩
      · obtain ⟨y, hy, hk⟩ := hrefs n u hn'
        obtain ⟨q, hq, y', hy', rfl⟩ := All2.get_left hdps hn'
        cases LocalVal.unique hy hy'
        refine ⟨.param hfd hb hx (List.mem_iff_getElem?.2 ⟨n, hn'⟩), y, _, hy, ⟨by rw [hk]; simp [kindItems], rfl⟩, ?_⟩
        show p2.view.l i.func _ = _
        rw [hvl]
        simp [paramSig, hq, hk, mapKind]
      · obtain ⟨e1, y, k, e2, e3, e4⟩ := hfi.vals u w hw
        refine ⟨e1, y, k, e2, e3.mono hle, ?_⟩
        show p2.view.l i.func w = _
        rw [hvl]; simp [paramSig, old hw, e4]
    · intro w q hq
      replace hq : p2.view.l i.func w = some q := hq
      rw [hvl] at hq; simp only [if_true] at hq
      rcases Option.or_eq_some_iff.1 hq with hq | ⟨_, hq⟩
      · unfold paramSig at hq
        split at hq
        · cases hq
        · rename_i hlt
          obtain ⟨d, hd, _⟩ := Option.map_eq_some_iff.1 hq
          have hlt' := (List.getElem?_eq_some_iff.1 hd).1
          rw [hlen] at hlt'
          refine ⟨x.params[w - s.prog.ids.nextLocal], (viff _ w).2 (.inl ⟨w - s.prog.ids.nextLocal, List.getElem?_eq_getElem hlt', ?_⟩)⟩
          omega
      · obtain ⟨u, hw⟩ := hfi.onlyVals w q hq
        exact ⟨u, keep hw⟩
    · intro u u' w hw hw'
      rcases (viff u w).1 hw with ⟨n, hn1, rfl⟩ | ⟨_, hw⟩
      · rcases (viff u' _).1 hw' with ⟨m, hn2, e⟩ | ⟨_, hw'⟩
        · have : n = m := by omega
          subst this
          rw [hn1] at hn2; cases hn2; rfl
        · have := old hw'; omega
      · rcases (viff u' _).1 hw' with ⟨m, hn2, e⟩ | ⟨_, hw'⟩
        · have := old hw; omega
        · exact hfi.injVals _ _ _ hw hw'
    · intro u w y n hw hy hk
      rcases (viff u w).1 hw with ⟨n, hn', rfl⟩ | ⟨_, hw⟩
      · exact ⟨b, s.prog.ids.nextBb, x, by simp, hx, List.mem_iff_getElem?.2 ⟨n, hn'⟩⟩
      · obtain ⟨c, d, z, e1, e2, e3⟩ := hfi.args u w y n hw hy hk
        exact ⟨c, d, z, keepB e1, e2, e3⟩
    · intro c w hw
      simp only [Map.get?_insert] at hw
      split at hw
      · rename_i e; subst e; cases hw
        refine ⟨hb, x, paramHandles s.prog.ids.nextLocal x.params.length, hx, by show p2.view.b i.func _ = _; rw [hvb]; simp, ?_⟩
        refine All2.of_get (by simp [paramHandles]) ?_
        intro n u w' h1 h2
        refine (viff u w').2 (.inl ⟨n, h1, ?_⟩)
        rw [paramHandles_get] at h2
        split at h2 <;> simp_all
      · obtain ⟨e1, y, ws, e2, e3, e4⟩ := hfi.blks c w hw
        refine ⟨e1, y, ws, e2, ?_, keepA e4⟩
        show p2.view.b i.func w = _
        rw [hvb]; simp only
        rw [if_neg (fun h => oldB hw h.2)]; exact e3
    · intro w q hq
      replace hq : p2.view.b i.func w = some q := hq
      rw [hvb] at hq; simp only at hq
      split at hq
      · rename_i e; exact ⟨b, by simp [e.2]⟩
      · obtain ⟨u, hw⟩ := hfi.onlyBlks w q hq
        exact ⟨u, keepB hw⟩
    · intro u u' w hw hw'
      simp only [Map.get?_insert] at hw hw'
      split at hw <;> split at hw'
      · simp_all
      · cases hw; exact absurd rfl (oldB hw')
      · cases hw'; exact absurd rfl (oldB hw)
      · exact hfi.injBlks _ _ _ hw hw'
    · refine ⟨{ l with bbs := l.bbs ++ [(s.prog.ids.nextBb, [])] }, by show p2.view.lay i.func = _; rw [hvy]; simp, ?_, ?_, ?_⟩
      · intro c w hw
        simp only [Map.get?_insert] at hw
        split at hw
        · rename_i e; subst e; cases hw
          obtain ⟨⟨c', is⟩, hq, rfl⟩ := List.mem_map.1 hb
          exact ⟨[], is, 0, by simp, hq, .nil⟩
        · obtain ⟨js, is, n, a1, a2, a3⟩ := hl1 c w hw
          exact ⟨js, is, n, by simp [a1], a2, keepA a3⟩
      · intro w hw
        simp only [List.map_append, List.map_cons, List.map_nil, List.mem_append, List.mem_cons, List.not_mem_nil, or_false] at hw
        rcases hw with hw | rfl
        · obtain ⟨c, hc'⟩ := hl2 w hw
          exact ⟨c, keepB hc'⟩
        · exact ⟨b, by simp⟩
      · intro w hw
        cases hbbs : l.bbs with
        | nil =>
          simp only [hbbs, List.nil_append, List.map_cons, List.map_nil, List.head?_cons, Option.some.injEq] at hw
          subst hw
          cases hh : (fd.layout.bbs.map (·.1)).head? with
          | none => rw [List.head?_eq_none_iff] at hh; rw [hh] at hb; cases hb
          | some e =>
            rcases hentry e hh with rfl | h
            · exact ⟨e, rfl, by simp⟩
            · obtain ⟨d, hd⟩ := Option.isSome_iff_exists.1 h
              obtain ⟨js, is, n, a1, _⟩ := hl1 e d hd
              rw [hbbs] at a1; cases a1
        | cons q r =>
          simp only [hbbs, List.cons_append, List.map_cons, List.head?_cons, Option.some.injEq] at hw
          obtain ⟨e, e1, e2⟩ := hl3 w (by rw [hbbs]; simp [hw])
          exact ⟨e, e1, keepB e2⟩
end

end Koopa.Raw
