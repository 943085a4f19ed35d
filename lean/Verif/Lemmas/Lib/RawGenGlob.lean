import Verif.Lemmas.Lib.RawGenTotal3
/-!
The generator succeeds on global values.
-/
namespace Koopa.Raw
open Spec

section
variable {p : Program} {g0 : Nat} {s : GSt}

theorem isConst_mapKind (a : Value → Value) (b : BB → BB) (c : Func → Func) (k : VKind) : (mapKind a b c k).isConst = k.isConst := by
  cases k <;> rfl

theorem const_not_alloc {k : VKind} (h : k.isConst = true) : k.isGlobalAlloc = false := by
  cases k <;> first | rfl | cases h

theorem GlobalVal.unique {v : Value} {x y : VData} (hx : GlobalVal p v x) (hy : GlobalVal p v y) : x = y :=
  Option.some.inj ((show p.values.get? v = some x from hx).symm.trans hy)

theorem initUsed (hc : Convertible p) {u v : Value} {x : VData} (hu : Used p none u) (hx : GlobalVal p u x) (hv : v ∈ operands x.kind) :
    isGlobal v = true ∧ Used p none v ∧ ∃ y, GlobalVal p v y ∧ y.kind.isConst = true := by
  obtain ⟨t, y, hy, _⟩ := (hc.typed.globals _ _ hx).live.1 _ hv
  exact ⟨hc.globalId _ _ hy, .init hu hx hv, y, hy, hc.initConst _ _ _ _ hu hx hv hy⟩

/-- A global value refers only to values. -/
theorem globalItems (hc : Convertible p) {u : Value} {x : VData} (hu : Used p none u) (hx : GlobalVal p u x) {i : Item}
    (hi : i ∈ kindItems x.kind) : ∃ v, i = .val v ∧ v ∈ operands x.kind := by
  rcases hc.globalKind _ _ hu hx with ⟨n, h⟩ | h | h | ⟨es, h⟩ | ⟨v, h⟩ <;> rw [h] at hi ⊢
  · simp [kindItems] at hi
  · simp [kindItems] at hi
  · simp [kindItems] at hi
  · simp only [kindItems, List.mem_map] at hi
    obtain ⟨v, hv, rfl⟩ := hi
    exact ⟨v, rfl, hv⟩
  · simp only [kindItems, List.mem_singleton] at hi
    exact ⟨v, hi, by simp [operands]⟩

/-- The value with the new handles can be made. -/
theorem GInv.globOk (hc : Convertible p) (hi : GInv p g0 s) {v : Value} {x : VData} (hu : Used p none v) (hx : GlobalVal p v x)
    (hm : ∀ j ∈ kindItems x.kind, (s.item 0 j).isSome) :
    ∃ j, globalInst x.ty (mapKind (fun v => s.h 0 (.val v)) (fun b => s.h 0 (.bb b)) (fun g => s.h 0 (.func g)) x.kind) = some j ∧
      j.notRaw ∧ j.build (viewGlobalQuerier s.prog.view) = some (VData.new x.ty
        (mapKind (fun v => s.h 0 (.val v)) (fun b => s.h 0 (.bb b)) (fun g => s.h 0 (.func g)) x.kind)) := by
  have hty := hc.typed.globals _ _ hx
  have hval : ∀ u ∈ operands x.kind, ∃ y k, GlobalVal p u y ∧ s.prog.view.g (s.h 0 (.val u)) = some (y.ty, y.name, k) ∧
      k.isConst = true := by
    intro u hu'
    obtain ⟨hg, hused, y, hy, hconst⟩ := initUsed hc hu hx hu'
    obtain ⟨w, hw⟩ := Option.isSome_iff_exists.1 (hm _ (operand_mem hu'))
    rw [GSt.h_eq hw]
    rw [show s.item 0 (.val u) = s.rv 0 u from rfl, GSt.rv, if_pos hg] at hw
    obtain ⟨_, y', k, hy', hk, hs⟩ := hi.globs u w hw
    have : y' = y := Option.some.inj ((show p.values.get? u = some y' from hy').symm.trans hy)
    subst this
    refine ⟨y', k, hy', hs, ?_⟩
    rw [hk.2, isConst_mapKind]; exact hconst
  have hmap : InstTy (fun w t => (viewGlobalQuerier s.prog.view).valueType w = some t) (fun _ _ => False) (fun _ _ => False)
      (mapKind (fun v => s.h 0 (.val v)) (fun b => s.h 0 (.bb b)) (fun g => s.h 0 (.func g)) x.kind) x.ty := by
    refine hty.map ?_ (fun _ _ _ h => h) (fun _ _ _ _ h => h) ?_
    · rintro u hu' t ⟨y, hy, rfl⟩
      obtain ⟨y', k, hy', hs, _⟩ := hval u hu'
      have : y' = y := Option.some.inj ((show p.values.get? u = some y' from hy').symm.trans hy)
      subst this
      simp [viewGlobalQuerier, hs]
    · intro a ha
      rcases hc.globalKind _ _ hu hx with ⟨n, h⟩ | h | h | ⟨es, h⟩ | ⟨v, h⟩ <;> rw [h] at ha <;> cases ha
  have hagg : ∀ es, mapKind (fun v => s.h 0 (.val v)) (fun b => s.h 0 (.bb b)) (fun g => s.h 0 (.func g)) x.kind = .aggregate es →
      ∀ e ∈ es, (viewGlobalQuerier s.prog.view).isConst e = some true := by
    intro es he e hem
    have : ∃ es', x.kind = .aggregate es' ∧ es = es'.map (fun v => s.h 0 (.val v)) := by
      cases hk : x.kind <;> simp [hk, mapKind] at he
      exact ⟨_, rfl, he.symm⟩
    obtain ⟨es', hk, rfl⟩ := this
    obtain ⟨u, hu', rfl⟩ := List.mem_map.1 hem
    obtain ⟨y, k, hy, hs, hcn⟩ := hval u (by rw [hk]; exact hu')
    simp [viewGlobalQuerier, hs, hcn]
  have hj : ∃ j, globalInst x.ty (mapKind (fun v => s.h 0 (.val v)) (fun b => s.h 0 (.bb b)) (fun g => s.h 0 (.func g)) x.kind) = some j := by
    rcases hc.globalKind _ _ hu hx with ⟨n, h⟩ | h | h | ⟨es, h⟩ | ⟨v, h⟩ <;> rw [h] <;> exact ⟨_, rfl⟩
  obtain ⟨j, hj⟩ := hj
  exact ⟨j, hj, globalInst_build (fun _ _ h => h) hmap hagg hj⟩

/-- A global value is added. -/
theorem GInv.addGlobal (hc : Convertible p) (hi : GInv p g0 s) (hroom : g0 + p.values.keys.length ≤ localStart)
    {v : Value} {x : VData} (hn : s.gv v = none) (hu : Used p none v) (hx : GlobalVal p v x)
    (hm : ∀ j ∈ kindItems x.kind, (s.item 0 j).isSome) :
    ∃ j p1 p2 w, globalInst x.ty (mapKind (fun v => s.h 0 (.val v)) (fun b => s.h 0 (.bb b)) (fun g => s.h 0 (.func g)) x.kind) = some j ∧
      s.prog.newGlobal j = some (p1, w) ∧ p1.setGlobalName w x.name = some p2 ∧
      GInv p g0 { s with prog := p2, values := s.values.insert v w } ∧ Le s { s with prog := p2, values := s.values.insert v w } ∧
      p2.view.insts = if x.kind.isGlobalAlloc then s.prog.view.insts ++ [w] else s.prog.view.insts := by
  obtain ⟨j, hj, hr, hb⟩ := hi.globOk hc hu hx hm
  obtain ⟨L, hL1, hL2, hL3⟩ := hi.count
  have hLv : (v :: L).Nodup := List.nodup_cons.2 ⟨fun h => (by have := hL2 v h; rw [hn] at this; cases this), hL1⟩
  have hsub : (v :: L) ⊆ p.values.keys := by
    intro u hu'
    rw [Map.mem_keys_iff]
    rcases List.mem_cons.1 hu' with rfl | hu'
    · rw [show p.values.get? u = some x from hx]; rfl
    · obtain ⟨w, hw⟩ := Option.isSome_iff_exists.1 (hL2 u hu')
      obtain ⟨_, y, _, hy, _⟩ := hi.globs u w hw
      rw [show p.values.get? u = some y from hy]; rfl
  have hlen := List.Nodup.length_le_of_subset hLv hsub
  rw [List.length_cons] at hlen
  have hmax : s.prog.ids.nextGlobal < localStart := by omega
  generalize hk0 : mapKind (fun v => s.h 0 (.val v)) (fun b => s.h 0 (.bb b)) (fun g => s.h 0 (.func g)) x.kind = k0 at hj hb
  obtain ⟨p1, hp1, hfin1, hext, hv1⟩ := newGlobal_run hi.fin hr hb hmax
  have hg1 : p1.view.g s.prog.ids.nextGlobal = some (x.ty, none, k0) := by
    rw [hv1]; simp [VData.shape, VData.new]
  obtain ⟨p2, hp2, hfin2, hv2⟩ := setGlobalName_run hfin1 (n := x.name) hg1 (valid_good (hc.globalNames _ _ hx hu))
  have hvg : p2.view.g = fun w => if w = s.prog.ids.nextGlobal then some (x.ty, x.name, k0) else s.prog.view.g w := by
    rw [hv2]
    simp only
    rw [hv1]
    funext w
    simp only
    split <;> rfl
  have hvl : p2.view.l = s.prog.view.l := by rw [hv2]; simp only; rw [hv1]
  have hvb : p2.view.b = s.prog.view.b := by rw [hv2]; simp only; rw [hv1]
  have hvh : p2.view.head = s.prog.view.head := by rw [hv2]; simp only; rw [hv1]
  have hvy : p2.view.lay = s.prog.view.lay := by rw [hv2]; simp only; rw [hv1]
  have hka : k0.isGlobalAlloc = x.kind.isGlobalAlloc := by rw [← hk0]; cases x.kind <;> rfl
  have hvi : p2.view.insts = if x.kind.isGlobalAlloc then s.prog.view.insts ++ [s.prog.ids.nextGlobal] else s.prog.view.insts := by
    rw [hv2]; simp only; rw [hv1, ← hka]; rfl
  have hids : p2.ids.nextGlobal = s.prog.ids.nextGlobal + 1 := by
    have e1 : p2.ids = p1.ids := congrArg View.ids hv2
    rw [e1]
    have e2 : p1.ids = _ := congrArg View.ids hv1
    rw [e2]
  have hfresh : ∀ u, s.gv u ≠ some s.prog.ids.nextGlobal := by
    intro u hw
    obtain ⟨_, _, _, _, _, h⟩ := hi.globs u _ hw
    have := (hi.fin.gRange h).2
    omega
  have hgv : ∀ u, ({ s with prog := p2, values := s.values.insert v s.prog.ids.nextGlobal } : GSt).gv u =
      if u = v then some s.prog.ids.nextGlobal else s.gv u := by
    intro u; unfold GSt.gv; rw [Map.get?_insert]
  have hle : Le s { s with prog := p2, values := s.values.insert v s.prog.ids.nextGlobal } := by
    refine ⟨?_, fun _ _ _ h => h, fun _ _ _ h => h, fun _ _ h => h⟩
    intro u w hw
    rw [hgv, if_neg]
    · exact hw
    · rintro rfl; rw [hn] at hw; cases hw
  refine ⟨j, p1, p2, _, hj, hp1, hp2, ?_, hle, hvi⟩
  refine ⟨hfin2, hi.cur, ⟨v :: L, hLv, ?_, by show p2.ids.nextGlobal = _; rw [hids, List.length_cons]; omega⟩, ?_, ?_, ?_, ?_, ?_, hi.injFuncs⟩
  · intro u hu'
    rw [hgv]
    split
    · rfl
    · rename_i hne
      rcases List.mem_cons.1 hu' with rfl | hu'
      · exact absurd rfl hne
      · exact hL2 u hu'
  · intro u w hw
    rw [hgv] at hw
    split at hw
    · rename_i e
      subst e
      cases hw
      refine ⟨hu, x, k0, hx, (KOk.mono hle ⟨hm, hk0.symm⟩), ?_⟩
      show p2.view.g _ = _
      rw [hvg]; simp
    · obtain ⟨h1, y, k, h2, h3, h4⟩ := hi.globs u w hw
      refine ⟨h1, y, k, h2, h3.mono hle, ?_⟩
      show p2.view.g _ = _
      rw [hvg]
      simp only
      rw [if_neg]
      · exact h4
      · rintro rfl; exact hfresh u hw
  · intro w q hw
    have hw : p2.view.g w = some q := hw
    rw [hvg] at hw
    simp only at hw
    split at hw
    · rename_i e
      exact ⟨v, by rw [hgv, if_pos rfl, e]⟩
    · obtain ⟨u, hu'⟩ := hi.onlyGlobs w q hw
      exact ⟨u, hle.gv _ _ hu'⟩
  · intro a b w ha hb'
    rw [hgv] at ha hb'
    split at ha <;> split at hb'
    · rename_i e1 e2; rw [e1, e2]
    · cases ha; exact absurd hb' (hfresh b)
    · cases hb'; exact absurd ha (hfresh a)
    · exact hi.injGlobs _ _ _ ha hb'
  · intro f i hf
    obtain ⟨fd, h1, h2⟩ := hi.funcs f i hf
    exact ⟨fd, h1, h2.frame hle ⟨by show p2.view.l _ = _; rw [hvl], by show p2.view.b _ = _; rw [hvb],
      by show p2.view.head _ = _; rw [hvh], by show p2.view.lay _ = _; rw [hvy]⟩⟩
  · intro g q hq
    have hq : p2.view.head g = some q := hq
    rw [hvh] at hq
    exact hi.onlyFuncs g q hq

/-- What generating global values does. -/
structure GlobStep (s s' : GSt) : Prop where
  le : Le s s'
  cur : s'.cur = s.cur
  funcs : s'.funcs = s.funcs

theorem GlobStep.trans {a b c : GSt} (h : GlobStep a b) (h' : GlobStep b c) : GlobStep a c :=
  ⟨h.le.trans h'.le, h'.cur.trans h.cur, h'.funcs.trans h.funcs⟩

def GlobOut (p : Program) (g0 : Nat) (rank : Value → Nat) (one : Item → Gen Nat) (v : Value) (s : GSt) : Prop :=
  ∃ w s', one (.val v) s = some (.ok (w, s')) ∧ GInv p g0 s' ∧ GlobStep s s' ∧ s'.gv v = some w ∧
    (∀ u w', s.gv u = none → s'.gv u = some w' → rank u ≤ rank v ∧ (u = v ∨ ∀ y, GlobalVal p u y → y.kind.isGlobalAlloc = false)) ∧
    ∀ x, GlobalVal p v x → s'.prog.view.insts =
      if s.gv v = none ∧ x.kind.isGlobalAlloc = true then s.prog.view.insts ++ [w] else s.prog.view.insts

/-- Constants are generated one after the other. -/
theorem glob_runs (hc : Convertible p) {rank : Value → Nat} {one : Item → Gen Nat} {r : Nat}
    (hone : ∀ v s, GInv p g0 s → s.cur = none → Used p none v → rank v < r → GlobOut p g0 rank one v s) :
    ∀ (vs : List Value) (s : GSt), GInv p g0 s → s.cur = none →
      (∀ v ∈ vs, isGlobal v = true ∧ Used p none v ∧ rank v < r ∧ ∃ y, GlobalVal p v y ∧ y.kind.isConst = true) →
      ∃ s', Runs one (s'.h 0) (vs.map .val) s s' ∧ GInv p g0 s' ∧ GlobStep s s' ∧ (∀ v ∈ vs, (s'.item 0 (.val v)).isSome) ∧
        (∀ u w', s.gv u = none → s'.gv u = some w' → rank u < r ∧ ∀ y, GlobalVal p u y → y.kind.isGlobalAlloc = false) ∧ s'.prog.view.insts = s.prog.view.insts
  | [], s, hi, _, _ => ⟨s, .nil, hi, ⟨Le.refl s, rfl, rfl⟩, by simp, fun u w h h' => (by rw [h] at h'; cases h'), rfl⟩
  | v :: vs, s, hi, hcur, h => by
    obtain ⟨hg, hu, hr, y, hy, hcn⟩ := h v (by simp)
    obtain ⟨w, s1, h1, h2, h3, h4, h5, h6⟩ := hone v s hi hcur hu hr
    obtain ⟨s2, e1, e2, e3, e4, e5, e6⟩ := glob_runs hc hone vs s1 h2 (h3.cur.trans hcur) (fun v hv => h v (by simp [hv]))
    have hw : s1.item 0 (.val v) = some w := by
      show s1.rv 0 v = _
      rw [GSt.rv, if_pos hg]; exact h4
    refine ⟨s2, .cons ?_ e1, e2, h3.trans e3, ?_, ?_, ?_⟩
    · rw [GSt.h_eq (e3.le.item hw)]; exact h1
    · intro u hu'
      rcases List.mem_cons.1 hu' with rfl | hu'
      · rw [e3.le.item hw]; rfl
      · exact e4 u hu'
    · intro u w' hn hs
      cases hm : s1.gv u with
      | some w1 =>
        obtain ⟨c1, c2⟩ := h5 u w1 hn hm
        refine ⟨Nat.lt_of_le_of_lt c1 hr, ?_⟩
        rcases c2 with rfl | c2
        · intro y' hy'
          cases GlobalVal.unique hy hy'
          exact const_not_alloc hcn
        · exact c2
      | none => exact e5 u w' hm hs
    · rw [e6, h6 y hy, if_neg]
      rintro ⟨_, h⟩
      rw [const_not_alloc hcn] at h; cases h

theorem gen_glob (hc : Convertible p) {m : Builder} (hm : Holds p m) (hroom : g0 + p.values.keys.length ≤ localStart)
    {rank : Value → Nat} (hr : ∀ u v x, GlobalVal p u x → Used p none u → v ∈ operands x.kind → rank v < rank u) :
    ∀ (n : Nat) (v : Value) (s : GSt), GInv p g0 s → s.cur = none → Used p none v → rank v < n →
      GlobOut p g0 rank (gen m n) v s
  | 0, _, _, _, _, _, h => absurd h (Nat.not_lt_zero _)
  | n + 1, v, s, hi, hcur, hu, hlt => by
    cases hgv : s.gv v with
    | some w =>
      refine ⟨w, s, by simp only [gen, bind_def, findVal_global hgv, pure_def], hi, ⟨Le.refl s, rfl, rfl⟩, hgv,
        fun u w h h' => (by rw [h] at h'; cases h'), fun x _ => by rw [if_neg (by rw [hgv]; simp)]⟩
    | none =>
      obtain ⟨x, hx⟩ := hc.liveG hu
      obtain ⟨us, hbox⟩ := hm.globals v x hu hx
      have hitems : kindItems x.kind = (operands x.kind).map .val := by
        rcases hc.globalKind _ _ hu hx with ⟨n, h⟩ | h | h | ⟨es, h⟩ | ⟨v, h⟩ <;> rw [h] <;> rfl
      obtain ⟨s1, r1, r2, r3, r4, r5, r6⟩ := glob_runs hc (one := gen m n) (r := rank v) (fun u s' a b c d =>
          gen_glob hc hm hroom hr n u s' a b c (by omega)) (operands x.kind) s hi hcur (fun u hu' => by
        obtain ⟨b1, b2, b3⟩ := initUsed hc hu hx hu'
        exact ⟨b1, b2, hr _ _ _ hx hu hu', b3⟩)
      rw [← hitems] at r1
      have hn1 : s1.gv v = none := by
        cases h : s1.gv v with
        | none => rfl
        | some w => exact absurd (r5 v w hgv h).1 (Nat.lt_irrefl _)
      obtain ⟨j, p1, p2, w, a1, a2, a3, a4, a5, a6⟩ := r2.addGlobal hc hroom hn1 hu hx (by
        rw [hitems]
        intro i hi
        obtain ⟨u, hu', rfl⟩ := List.mem_map.1 hi
        exact r4 u hu')
      have hcur1 := r3.cur.trans hcur
      have hk := genKind_global (one := gen m n) (g := s1.h 0) (s := s)
        (r := { ty := x.ty, name := x.name, usedBy := us, kind := .of x.kind }) rfl (hc.globalFits _ _ hx hu) r1 hcur1 a1
      have hfind : findVal v s = some (.ok (none, s)) := by
        have : s.values.get? v = none := hgv
        simp only [findVal, bind_def, get_def, this, hcur, pure_def]
      refine ⟨w, { s1 with prog := p2, values := s1.values.insert v w }, ?_, a4, r3.trans ⟨a5, rfl, rfl⟩, ?_, ?_, ?_⟩
      · simp only [gen, bind_def, hfind, deref_run hbox, pure_def, hk, Gen.api, a2, keepVal, get_def, hcur1, Gen.api', a3, modify_def]
      · unfold GSt.gv; simp
      · intro u w' hn hs
        cases h : s1.gv u with
        | some w1 => exact ⟨Nat.le_of_lt (r5 u w1 hn h).1, .inr (r5 u w1 hn h).2⟩
        | none =>
          have : u = v := by
            unfold GSt.gv at hs h
            simp only [Map.get?_insert] at hs
            split at hs
            · assumption
            · rw [h] at hs; cases hs
          subst this
          exact ⟨Nat.le_refl _, .inl rfl⟩
      · intro x' hx'
        have : x' = x := Option.some.inj ((show p.values.get? v = some x' from hx').symm.trans hx)
        subst this
        show p2.view.insts = _
        rw [a6, r6, hgv]
        simp

/-- The global variables are generated in their order. -/
theorem glob_phase (hc : Convertible p) {rank : Value → Nat} {one : Item → Gen Nat}
    (hone : ∀ v s, GInv p g0 s → s.cur = none → v ∈ p.instLayout → GlobOut p g0 rank one v s) :
    ∀ (vs : List Value) (s : GSt), GInv p g0 s → s.cur = none → (∀ v ∈ vs, v ∈ p.instLayout ∧ s.gv v = none) → vs.Nodup →
      ∃ s', Runs one (s'.h 0) (vs.map .val) s s' ∧ GInv p g0 s' ∧ GlobStep s s' ∧ (∀ v ∈ vs, (s'.gv v).isSome) ∧
        s'.prog.view.insts = s.prog.view.insts ++ vs.map (fun v => s'.h 0 (.val v))
  | [], s, hi, _, _, _ => ⟨s, .nil, hi, ⟨Le.refl s, rfl, rfl⟩, by simp, by simp⟩
  | v :: vs, s, hi, hcur, h, hnd => by
    obtain ⟨hl, hn⟩ := h v (by simp)
    obtain ⟨hnv, hnd⟩ := List.nodup_cons.1 hnd
    obtain ⟨x, i, hx, hk⟩ := hc.insts v hl
    obtain ⟨w, s1, h1, h2, h3, h4, h5, h6⟩ := hone v s hi hcur hl
    obtain ⟨s2, e1, e2, e3, e4, e5⟩ := glob_phase hc hone vs s1 h2 (h3.cur.trans hcur) (fun u hu => by
      obtain ⟨hul, hun⟩ := h u (by simp [hu])
      refine ⟨hul, ?_⟩
      cases hs : s1.gv u with
      | none => rfl
      | some w' =>
        obtain ⟨_, rfl | hcn⟩ := h5 u w' hun hs
        · exact absurd hu hnv
        · obtain ⟨y, j, hy, hky⟩ := hc.insts u hul
          have := hcn y hy
          rw [hky] at this; cases this) hnd
    have hw : s1.item 0 (.val v) = some w := by
      show s1.rv 0 v = _
      rw [GSt.rv, if_pos (hc.globalId _ _ hx)]; exact h4
    refine ⟨s2, .cons ?_ e1, e2, h3.trans e3, ?_, ?_⟩
    · rw [GSt.h_eq (e3.le.item hw)]; exact h1
    · intro u hu
      rcases List.mem_cons.1 hu with rfl | hu
      · rw [e3.le.gv _ _ h4]; rfl
      · exact e4 u hu
    · rw [e5, h6 x hx, if_pos ⟨hn, by rw [hk]; rfl⟩, List.map_cons, GSt.h_eq (e3.le.item hw)]
      simp

end

end Koopa.Raw
