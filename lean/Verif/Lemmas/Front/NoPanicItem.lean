import Verif.Lemmas.Front.NoPanicFun
/-!
Items that do not make the generator panic: items.
-/
namespace Koopa
open Spec

section
variable {gs : List GlobalAst}

theorem bind_ok {α β : Type} {m : B α} {k : α → B β} {s s1 : BS} {a : α} (h : m s = some (.ok a, s1)) : (m >>= k) s = k a s1 := by
  rw [B.bind_eq, h]

/-! ### Names -/

theorem logErrors_run : ∀ (n : Nat) (s : BS), logErrors n s = some (.ok (), { s with errs := s.errs + n })
  | 0, s => rfl
  | n + 1, s => by
    rw [logErrors, bind_ok (s1 := { s with errs := s.errs + 1 }) (a := ()) rfl, logErrors_run n]
    simp only [Nat.add_assoc, Nat.add_comm 1 n]

theorem defineFunc_fit {n : Str} {h : Func} {s : BS} (hf : Fit gs s) {ts : List Ty} {r : Ty} {nm : Str} {ps : List Value}
    (hh : s.prog.view.head h = some (.func ts r, nm, ps)) (ht : ∀ t ∈ ts, Proper t) (hr : OkTy r)
    (hg : ∃ g ∈ gs, arity g = some (n, ts.length)) :
    ∃ s', defineFunc n h s = some (.ok (), s') ∧ Fit gs s' ∧ s'.prog = s.prog := by
  unfold defineFunc
  rw [bind_ok (s1 := s) (a := s) rfl]
  have key : ∀ e, Fit gs { s with globalFuncs := s.globalFuncs.insert n h, errs := e } := by
    intro e
    refine ⟨hf.inv, hf.lty, hf.gty, hf.vars, ?_⟩
    intro n' h' hn
    simp only [Map.get?_insert] at hn
    split at hn
    · rename_i he; subst he; cases hn
      exact ⟨ts, r, nm, ps, hh, ht, hr, hg⟩
    · exact hf.fns n' h' hn
  split
  · exact ⟨_, rfl, ⟨hf.inv, hf.lty, hf.gty, hf.vars, hf.fns⟩, rfl⟩
  · rw [bind_ok (s1 := { s with globalFuncs := s.globalFuncs.insert n h }) (a := ()) rfl]
    split
    · exact ⟨_, rfl, key _, rfl⟩
    · exact ⟨_, rfl, key _, rfl⟩

theorem defineGlobal_fit {n : Str} {v : Value} {s : BS} (hf : Fit gs s) (hv : (s.prog.view.g v).isSome) :
    ∃ s', defineGlobal n v s = some (.ok (), s') ∧ Fit gs s' ∧ s'.prog = s.prog := by
  unfold defineGlobal
  rw [bind_ok (s1 := s) (a := s) rfl]
  have key : ∀ e, Fit gs { s with globalVars := s.globalVars.insert n v, errs := e } := by
    intro e
    refine ⟨hf.inv, hf.lty, hf.gty, ?_, hf.fns⟩
    intro n' v' hn
    simp only [Map.get?_insert] at hn
    split at hn
    · cases hn; exact hv
    · exact hf.vars n' v' hn
  split
  · exact ⟨_, rfl, ⟨hf.inv, hf.lty, hf.gty, hf.vars, hf.fns⟩, rfl⟩
  · rw [bind_ok (s1 := { s with globalVars := s.globalVars.insert n v }) (a := ()) rfl]
    split
    · exact ⟨_, rfl, key _, rfl⟩
    · exact ⟨_, rfl, key _, rfl⟩

/-! ### Functions -/

theorem argMap_values : ∀ {ps : List (Str × TyAst)} {vs : List Value} {m : Map Str Value} {sy : Str} {v : Value},
    (argMap ps vs m).1.get? sy = some v → v ∈ vs ∨ m.get? sy = some v
  | [], vs, m, sy, v, h => .inr (by simpa [argMap] using h)
  | _ :: _, [], m, sy, v, h => .inr (by simpa [argMap] using h)
  | (n, a) :: ps, w :: vs, m, sy, v, h => by
    rw [argMap] at h
    rcases argMap_values (ps := ps) (vs := vs) (m := m.insert n w) h with h | h
    · exact .inl (by simp [h])
    · rw [Map.get?_insert] at h
      split at h
      · cases h; exact .inl (by simp)
      · exact .inr h

theorem retIs_of {r : Option TyAst} (h : ∀ a, r = some a → ∃ t, TyIs a t) : ∃ t, RetIs TyIs r t ∧ OkTy t := by
  cases r with
  | none => exact ⟨.unit, .none, .inl rfl⟩
  | some a =>
    obtain ⟨t, ht⟩ := h a rfl
    exact ⟨t, .some ht, .inr (proper_of_tyIs ht)⟩

theorem buildFunDecl_fit {n : Str} {ps : List TyAst} {r : Option TyAst} {s : BS} (hf : Fit gs s) (hg : .funDecl n ps r ∈ gs)
    (hn : nameOk n) (hps : ∀ a ∈ ps, ∃ t, TyIs a t) (hr : ∀ a, r = some a → ∃ t, TyIs a t) :
    ∃ x s', buildFunDecl n ps r s = some (x, s') ∧ Fit gs s' ∧ s'.prog.ids.nextGlobal = s.prog.ids.nextGlobal := by
  obtain ⟨ts, hts⟩ := all2_of_forall hps
  obtain ⟨t, ht, hot⟩ := retIs_of hr
  have hpr := all2_proper hts
  have hlen := hts.length
  obtain ⟨p, hp, hi, he, hv⟩ := newFuncDecl_run hf.inv (n := n) (ps := ts) (r := t) (nameOk_valid hn) (fun t ht => (hpr t ht).notUnit)
  have h1 : Fit gs { s with prog := p } := by
    refine hf.grow hi (grow_of_ext he ?_) ?_ ?_ rfl rfl
    · intro f l hl
      refine ⟨l, ?_, fun _ h => h⟩
      rw [hv]
      simp only
      rw [if_neg]
      · exact hl
      · rintro rfl
        rw [(hf.inv.noLocals 0).2.2.2] at hl; cases hl
    · intro f v sg h
      simp only [hv] at h
      split at h
      · cases h
      · exact hf.lty _ _ _ h
    · intro v sg h
      simp only [hv] at h
      exact hf.gty _ _ h
  obtain ⟨s', h2, h3, h4⟩ := defineFunc_fit (n := n) (h := s.prog.ids.nextFunc) h1 (ts := ts) (r := t) (nm := n) (ps := [])
    (by simp [hv]) hpr hot ⟨_, hg, by simp [arity, hlen]⟩
  refine ⟨.ok (), s', ?_, h3, ?_⟩
  · unfold buildFunDecl
    rw [bind_ok (Done.of_lift (genTypes_complete hts)).run, bind_ok (Done.of_lift (genRetType_complete ht)).run,
      bind_ok (Done.of_api hp).run, h2]
  · rw [h4]; exact congrArg (fun v => v.ids.nextGlobal) hv

theorem buildFunDef_fit {n : Str} {ps : List (Str × TyAst)} {r : Option TyAst} {bbs : List BlockAst} {s : BS} (hf : Fit gs s)
    (hg : .funDef n ps r bbs ∈ gs) (hN : ItemNamed nameOk (.funDef n ps r bbs)) (hH : ItemHarmless gs (.funDef n ps r bbs))
    (hne : bbs ≠ []) (hend : ∀ b ∈ bbs, ∃ st, b.stmts.getLast? = some st ∧ (targetsOf st).isSome) :
    ∃ x s', buildFunDef n ps r bbs s = some (x, s') ∧ Fit gs s' ∧ s'.prog.ids.nextGlobal = s.prog.ids.nextGlobal := by
  obtain ⟨hn, hpn, hbn⟩ := hN
  obtain ⟨hp, hr, hb⟩ := hH
  obtain ⟨ts, hts⟩ := all2_of_forall (as := ps.map (·.2)) (R := TyIs) (by
    intro a ha
    obtain ⟨q, hq, rfl⟩ := List.mem_map.1 ha
    exact hp q hq)
  obtain ⟨t, ht, hot⟩ := retIs_of hr
  have hpr := all2_proper hts
  have hlen : ts.length = ps.length := by have := hts.length; simpa using this.symm
  obtain ⟨qs, hq, hqt, hqs⟩ := genParams_complete hts hpn
  obtain ⟨p, hp1, hi, he, hv⟩ := newFuncDef_run hf.inv (n := n) (ps := qs) (r := t) (nameOk_valid hn) hqs
  have h1 : Fit gs { s with prog := p } := by
    refine hf.grow hi (grow_of_ext he ?_) ?_ ?_ rfl rfl
    · intro f l hl
      refine ⟨l, ?_, fun _ h => h⟩
      rw [hv]
      simp only
      rw [if_neg]
      · exact hl
      · rintro rfl
        rw [(hf.inv.noLocals 0).2.2.2] at hl; cases hl
    · intro f v sg h
      simp only [hv] at h
      split at h
      · exact .inr (hpr _ (by rw [← hqt]; exact paramSig_ty h))
      · exact hf.lty _ _ _ h
    · intro v sg h
      simp only [hv] at h
      exact hf.gty _ _ h
  have hh : p.view.head s.prog.ids.nextFunc = some (.func ts t, n, paramHandles s.prog.ids.nextLocal qs.length) := by
    simp [hv, hqt]
  obtain ⟨fd, hfd, -, -, hfp⟩ := view_head_iff.1 hh
  rcases ha : argMap ps fd.params .empty with ⟨args, dups⟩
  have h1' : Fit gs { s with prog := p, errs := s.errs + dups } := ⟨h1.inv, h1.lty, h1.gty, h1.vars, h1.fns⟩
  obtain ⟨s2, h2, h3, h4⟩ := defineFunc_fit (n := n) (h := s.prog.ids.nextFunc) h1' hh hpr hot ⟨_, hg, by simp [arity, hlen]⟩
  obtain ⟨order, e, w, h5, h6, h7, h8⟩ := blockList_total hne hend (fun b hm => (hb b hm).targets) { s2 with localSyms := [] }
  have hp2 : s2.prog = p := h4
  obtain ⟨x, s3, h9, h10, h11⟩ := bodyRets (f := s.prog.ids.nextFunc) (args := args) (r := t) (s := { s2 with localSyms := [], errs := e, warns := w })
    ⟨h3.inv, h3.lty, h3.gty, h3.vars, h3.fns⟩ (by simp only [hp2, hv]; simp) (by
      intro sy v hsv
      have hm := argMap_values (ps := ps) (vs := fd.params) (m := .empty) (sy := sy) (v := v) (by rw [ha]; exact hsv)
      rcases hm with hm | hm
      · have hall := paramSig_all (k := VKind.funcArgRef) (L := p.view.l s.prog.ids.nextFunc) (ps := qs) (next := s.prog.ids.nextLocal) (i := 0) (by
          intro w sg hw; simp [hv, hw])
        rw [hfp] at hm
        obtain ⟨t, -, nm, k, h⟩ := hall.memL v hm
        simp only [hp2, h]; rfl
      · simp [Map.get?, Map.empty, Map.lookup] at hm) h6 h7 h8 hot hb hbn (fun b hm => by
        obtain ⟨st, h, -⟩ := hend b hm
        rw [h]; rfl)
  refine ⟨x, s3, ?_, h10, ?_⟩
  · unfold buildFunDef
    rw [bind_ok (Done.of_lift (genRetType_complete ht)).run, bind_ok (Done.of_lift hq).run, bind_ok (Done.of_api hp1).run,
      bind_ok (s1 := { s with prog := p }) (a := { s with prog := p }) rfl, bind_ok (Done.of_lift hfd).run]
    simp only [ha]
    rw [bind_ok (logErrors_run _ _), bind_ok h2, bind_ok (s1 := { s2 with localSyms := [] }) (a := ()) rfl, bind_ok h5]
    exact h9
  · rw [h11]
    show s2.prog.ids.nextGlobal = _
    rw [hp2]; exact congrArg (fun v => v.ids.nextGlobal) hv

/-! ### Global variables -/

/-- A global value is made. -/
theorem makeGlobal_fit {k : Nat} {kd : VKind} {t : Ty} {i : GlobalInst} {s : BS} (hf : Fit gs s) (hR : s.prog.ids.nextGlobal + (k + 1) ≤ localStart)
    (hk : InstTy (GlobalConst s) (fun _ _ => False) (fun _ _ => False) kd t) (hi : Raw.globalInst t kd = some i) (ht : OkTy t) :
    ∃ v s', Done (B.api (·.newGlobal i)) s v s' ∧ Fit gs s' ∧ s'.prog.ids.nextGlobal + k ≤ localStart ∧ Ext s.prog s'.prog ∧
      s'.prog.view.g v = some (t, none, kd) := by
  obtain ⟨h1, h2⟩ := Raw.globalInst_build (q := viewGlobalQuerier s.prog.view)
    (by rintro v t ⟨x, hx, rfl, -⟩; exact globalType_querier hx) hk (by
      rintro es rfl e he
      cases hk with
      | aggregate _ _ h =>
        obtain ⟨x, hx, -, hc⟩ := h e he
        rw [globalConst_querier hx, hc]) hi
  obtain ⟨p', hp, h3, h4, h5⟩ := newGlobal_run hf.inv h1 h2 (by omega)
  have h6 : p'.view.g s.prog.ids.nextGlobal = some (t, none, kd) := by rw [h5]; simp [VData.shape, VData.new]
  refine ⟨s.prog.ids.nextGlobal, { s with prog := p' }, .of_api hp, ?_, ?_, h4, h6⟩
  · refine hf.grow h3 (grow_of_ext h4 ?_) ?_ ?_ rfl rfl
    · intro f l hl
      exact ⟨l, by rw [h5]; exact hl, fun _ h => h⟩
    · intro f v sg h
      simp only [h5] at h
      exact hf.lty _ _ _ h
    · intro v sg h
      by_cases hv : v = s.prog.ids.nextGlobal
      · subst hv
        simp only [h6, Option.some.injEq] at h
        subst h; exact ht
      · simp only [h5, if_neg hv] at h
        exact hf.gty _ _ h
  · have : p'.ids.nextGlobal = s.prog.ids.nextGlobal + 1 := congrArg (fun v => v.ids.nextGlobal) h5
    show p'.ids.nextGlobal + k ≤ localStart
    omega

/-- What generating a constant of a global does. -/
def Inits (gs : List GlobalAst) {α : Type} (m : B α) (k : Nat) (s : BS) (Q : α → BS → Prop) : Prop :=
  ∃ r s', m s = some (r, s') ∧ Fit gs s' ∧ s'.prog.ids.nextGlobal + k ≤ localStart ∧
    (∀ v t, GlobalConst s v t → GlobalConst s' v t) ∧ ∀ a, r = .ok a → Q a s'

theorem Inits.fail {α : Type} {k : Nat} {s : BS} {Q : α → BS → Prop} (hf : Fit gs s) (hR : s.prog.ids.nextGlobal + k ≤ localStart) :
    Inits gs (B.fail : B α) k s Q :=
  ⟨.error (), _, rfl, ⟨hf.inv, hf.lty, hf.gty, hf.vars, hf.fns⟩, hR, fun _ _ h => h, by simp⟩

theorem Inits.bind {α β : Type} {m : B α} {f : α → B β} {k k' : Nat} {s : BS} {Q : α → BS → Prop} {Q' : β → BS → Prop}
    (h : Inits gs m (k' + k) s Q) (hf : ∀ a s', Fit gs s' → s'.prog.ids.nextGlobal + (k' + k) ≤ localStart → Q a s' → Inits gs (f a) k s' Q') :
    Inits gs (m >>= f) k s Q' := by
  obtain ⟨r, s1, h1, h2, h3, h4, h5⟩ := h
  cases r with
  | error e => exact ⟨.error e, s1, by rw [B.bind_eq, h1], h2, by omega, h4, by simp⟩
  | ok a =>
    obtain ⟨r, s2, g1, g2, g3, g4, g5⟩ := hf a s1 h2 h3 (h5 a rfl)
    exact ⟨r, s2, by rw [bind_ok h1, g1], g2, g3, fun v t h => g4 v t (h4 v t h), g5⟩

theorem newVal_fit {k : Nat} {kd : VKind} {t : Ty} {i : ValInst} {s : BS} (hf : Fit gs s) (hR : s.prog.ids.nextGlobal + (k + 1) ≤ localStart)
    (hk : InstTy (GlobalConst s) (fun _ _ => False) (fun _ _ => False) kd t) (hi : Raw.globalInst t kd = some (.val i)) (ht : Proper t)
    (hc : kd.isConst = true) : Inits gs (newVal none i) k s (fun v s' => GlobalConst s' v t) := by
  obtain ⟨v, s', h1, h2, h3, h4, h5⟩ := makeGlobal_fit hf hR hk hi (.inr ht)
  refine ⟨.ok v, s', h1.run, h2, h3, ?_, ?_⟩
  · rintro w t' ⟨x, hx, h5, h6⟩
    obtain ⟨x', hx', hs⟩ := h4.globalVal hx
    exact ⟨x', hx', (shape_ty hs).trans h5, by rw [shape_kind hs]; exact h6⟩
  · rintro _ ⟨⟩
    obtain ⟨x, hx, hs⟩ := view_g_iff.1 h5
    exact ⟨x, hx, congrArg (·.1) hs, by rw [show x.kind = kd from congrArg (·.2.2) hs]; exact hc⟩

theorem elemTy_run {t : Ty} {n : Nat} {s : BS} (hf : Fit gs s) : (∃ b e, elemTy t = some b ∧ aggElemTy t n s = some (.ok b, { s with errs := e })) ∨
    (elemTy t = none ∧ aggElemTy t n s = some (.error (), { s with errs := s.errs + 1 })) := by
  cases t with
  | array t m =>
    left
    by_cases h : m = n
    · exact ⟨t, s.errs, rfl, by simp only [aggElemTy, h, ne_eq, not_true_eq_false, if_false]; rfl⟩
    · exact ⟨t, s.errs + 1, rfl, by simp only [aggElemTy, ne_eq, h, not_false_eq_true, if_true]; rfl⟩
  | ptr t => exact .inl ⟨t, s.errs, rfl, rfl⟩
  | _ => exact .inr ⟨rfl, rfl⟩

theorem elemTy_proper {t b : Ty} (h : elemTy t = some b) (ht : Proper t) : Proper b := by
  cases ht with
  | i32 => cases h
  | array ht => cases h; exact ht
  | ptr ht => cases h; exact ht
  | func => cases h

theorem Fit.count {s : BS} (h : Fit gs s) (e : Nat) : Fit gs { s with errs := e } := ⟨h.inv, h.lty, h.gty, h.vars, h.fns⟩

mutual
theorem genInit_fit : ∀ {a : ValAst} {t : Ty} {r : Option Ty} {k : Nat} {s : BS}, InitMay t a r → Proper t → Fit gs s →
    s.prog.ids.nextGlobal + (constSize a + k) ≤ localStart →
    Inits gs (genInit none t a) k s (fun v s' => ∃ u, r = some u ∧ Proper u ∧ GlobalConst s' v u)
  | .int n, t, r, k, s, h, ht, hf, hR => by
    rw [genInit]
    · rw [constSize] at hR
      cases h with
      | int =>
        rw [if_pos (show Ty.i32.isI32 = true from rfl)]
        obtain ⟨x, s', h1, h2, h3, h4, h5⟩ := newVal_fit (kd := .integer n) (k := k) hf (by omega) (.integer n) rfl ht rfl
        exact ⟨x, s', h1, h2, h3, h4, fun v hv => ⟨_, rfl, ht, h5 v hv⟩⟩
      | badInt hne =>
        rw [if_neg (by cases t <;> simp_all [Ty.isI32])]
        exact .fail hf (by omega)
      all_goals simp
    all_goals simp
  | .undef, t, r, k, s, h, ht, hf, hR => by
    rw [genInit]
    · rw [constSize] at hR
      cases h with
      | undef =>
        obtain ⟨x, s', h1, h2, h3, h4, h5⟩ := newVal_fit (kd := .undef) (k := k) hf (by omega) (.undef ht.notUnit) rfl ht rfl
        exact ⟨x, s', h1, h2, h3, h4, fun v hv => ⟨_, rfl, ht, h5 v hv⟩⟩
      all_goals simp
    all_goals simp
  | .zero, t, r, k, s, h, ht, hf, hR => by
    rw [genInit]
    · rw [constSize] at hR
      cases h with
      | zero =>
        obtain ⟨x, s', h1, h2, h3, h4, h5⟩ := newVal_fit (kd := .zeroInit) (k := k) hf (by omega) (.zeroInit ht.notUnit) rfl ht rfl
        exact ⟨x, s', h1, h2, h3, h4, fun v hv => ⟨_, rfl, ht, h5 v hv⟩⟩
      all_goals simp
    all_goals simp
  | .sym n, t, r, k, s, h, ht, hf, hR => by cases h
  | .agg es, t, r, k, s, h, ht, hf, hR => by
    rw [genInit]
    rw [constSize] at hR
    rcases elemTy_run (t := t) (n := es.length) hf with ⟨b, e, hb, hrun⟩ | ⟨hb, hrun⟩
    · have key : ∀ r', ElemsMay b es r' → (∀ u, r' = some u → es ≠ [] ∧ r = some (.array u es.length)) →
          Inits gs (genInits none b es >>= fun elems => newVal none (.aggregate elems)) k { s with errs := e }
            (fun v s' => ∃ u, r = some u ∧ Proper u ∧ GlobalConst s' v u) := by
        intro r' hes hr'
        refine Inits.bind (k' := 1) (genInits_fit hes (elemTy_proper hb ht) (hf.count e) (by show s.prog.ids.nextGlobal + _ ≤ _; omega)) ?_
        rintro vs s1 hf1 hR1 ⟨u, rfl, hl, hv⟩
        obtain ⟨hne, rfl⟩ := hr' u rfl
        have hne' : vs ≠ [] := by
          rintro rfl
          exact hne (List.eq_nil_of_length_eq_zero hl.symm)
        have hpu : Proper u := by
          cases vs with
          | nil => exact absurd rfl hne'
          | cons v vs => exact (hv v (by simp)).1
        obtain ⟨x, s', h1, h2, h3, h4, h5⟩ := newVal_fit (kd := .aggregate vs) (k := k) hf1 (by omega)
          (.aggregate hne' hpu.notUnit (fun v hm => (hv v hm).2)) rfl (.array hpu) rfl
        exact ⟨x, s', h1, h2, h3, h4, fun v hv => ⟨_, rfl, .array hpu, by rw [← hl]; exact h5 v hv⟩⟩
      have hI : Inits gs (genInits none b es >>= fun elems => newVal none (.aggregate elems)) k { s with errs := e }
            (fun v s' => ∃ u, r = some u ∧ Proper u ∧ GlobalConst s' v u) := by
        cases h with
        | agg hb' hne hes =>
          rw [hb] at hb'; cases hb'
          exact key _ hes (by rintro _ ⟨⟩; exact ⟨hne, rfl⟩)
        | badElem hb' hes =>
          rw [hb] at hb'; cases hb'
          exact key _ hes (by simp)
        | noAgg hb' => rw [hb] at hb'; cases hb'
      obtain ⟨x, s', h1, h2, h3, h4, h5⟩ := hI
      exact ⟨x, s', by rw [bind_ok hrun, h1], h2, h3, h4, h5⟩
    · exact ⟨.error (), { s with errs := s.errs + 1 }, by rw [B.bind_eq, hrun], hf.count _, (by show s.prog.ids.nextGlobal + k ≤ _; omega), fun _ _ h => h, by simp⟩
theorem genInits_fit : ∀ {es : List ValAst} {t : Ty} {r : Option Ty} {k : Nat} {s : BS}, ElemsMay t es r → Proper t → Fit gs s →
    s.prog.ids.nextGlobal + (constSizes es + k) ≤ localStart →
    Inits gs (genInits none t es) k s (fun vs s' => ∃ u, r = some u ∧ vs.length = es.length ∧ ∀ v ∈ vs, Proper u ∧ GlobalConst s' v u)
  | [], t, r, k, s, h, ht, hf, hR => by
    rw [constSizes] at hR
    cases h with
    | nil => exact ⟨.ok [], s, rfl, hf, by omega, fun _ _ h => h, by rintro _ ⟨⟩; exact ⟨_, rfl, rfl, by simp⟩⟩
  | e :: es, t, r, k, s, h, ht, hf, hR => by
    rw [constSizes] at hR
    rw [genInits]
    obtain ⟨r0, h0, hrest⟩ : ∃ r0, InitMay t e r0 ∧ (∀ u, r0 = some u → ElemsMay t es r ∧ (∀ u', r = some u' → u' = u)) := by
      cases h with
      | cons h1 h2 => exact ⟨_, h1, by rintro u ⟨⟩; exact ⟨h2, by rintro _ ⟨⟩; rfl⟩⟩
      | bad h1 => exact ⟨_, h1, by simp⟩
      | later h1 h2 => exact ⟨_, h1, by rintro u ⟨⟩; exact ⟨h2, by simp⟩⟩
    obtain ⟨r1, s1, h1, h2, h3, h4, h5⟩ := genInit_fit (k := constSizes es + k) h0 ht hf (by omega)
    cases r1 with
    | error e => exact ⟨.error e, s1, by rw [B.bind_eq, h1], h2, by omega, h4, by simp⟩
    | ok v =>
      obtain ⟨u, hu, hpu, hv⟩ := h5 v rfl
      obtain ⟨hes, hsame⟩ := hrest u hu
      obtain ⟨r2, s2, g1, g2, g3, g4, g5⟩ := genInits_fit hes ht h2 h3
      cases r2 with
      | error e => exact ⟨.error e, s2, by rw [bind_ok h1, B.bind_eq, g1], g2, g3, fun v t h => g4 v t (h4 v t h), by simp⟩
      | ok vs =>
        refine ⟨.ok (v :: vs), s2, by rw [bind_ok h1, bind_ok g1]; rfl, g2, g3, fun v t h => g4 v t (h4 v t h), ?_⟩
        rintro _ ⟨⟩
        obtain ⟨u', rfl, j1, j2⟩ := g5 vs rfl
        obtain rfl := hsame u' rfl
        refine ⟨u', rfl, by simp [j1], ?_⟩
        intro w hw
        rcases List.mem_cons.1 hw with rfl | hw
        · exact ⟨hpu, g4 _ _ hv⟩
        · exact j2 w hw
end

theorem buildGlobalDef_fit {n : Str} {ty : TyAst} {init : ValAst} {t : Ty} {r : Option Ty} {k : Nat} {s : BS} (hf : Fit gs s)
    (hR : s.prog.ids.nextGlobal + (constSize init + 1 + k) ≤ localStart) (hn : nameOk n) (ht : TyIs ty t) (hI : InitMay t init r) :
    ∃ x s', buildGlobalDef n ty init s = some (x, s') ∧ Fit gs s' ∧ s'.prog.ids.nextGlobal + k ≤ localStart := by
  have hpt := proper_of_tyIs ht
  obtain ⟨r1, s1, h1, h2, h3, -, h5⟩ := genInit_fit (k := k + 1) hI hpt hf (by omega)
  unfold buildGlobalDef
  rw [bind_ok (Done.of_lift (genType_complete ht)).run]
  cases r1 with
  | error e =>
    refine ⟨.ok (), s1, ?_, h2, by omega⟩
    rw [bind_ok (s1 := s1) (a := none) (by unfold B.attempt; rw [h1])]
    rfl
  | ok i =>
    rw [bind_ok (s1 := s1) (a := some i) (by unfold B.attempt; rw [h1])]
    obtain ⟨u, -, hpu, hu⟩ := h5 i rfl
    obtain ⟨v, s2, g1, g2, g3, -, g5⟩ := makeGlobal_fit (kd := .globalAlloc i) (i := .globalAlloc i) h2 h3
      (.globalAlloc hpu.notUnit hu) rfl (.inr (.ptr hpu))
    simp only
    rw [bind_ok g1.run]
    obtain ⟨s3, j1, j2, j3, j4⟩ : ∃ s3, Done (nameGlobal v n) s2 () s3 ∧ Fit gs s3 ∧ s3.prog.ids.nextGlobal + k ≤ localStart ∧
        (s3.prog.view.g v).isSome := by
      unfold nameGlobal
      split
      · exact ⟨s2, .done _ _, g2, g3, by rw [g5]; rfl⟩
      · obtain ⟨p, hp, hi, hv⟩ := setGlobalName_run g2.inv (n := some n) g5 (nameOk_valid hn)
        refine ⟨{ s2 with prog := p }, .of_api' hp, ?_, ?_, by simp [hv]⟩
        · refine g2.grow hi ⟨?_, ?_, ?_, ?_, ?_⟩ ?_ ?_ rfl rfl
          · intro f w t n' k' h; exact ⟨n', by rw [hv]; exact h⟩
          · intro w t' n' k' h
            by_cases hw : w = v
            · subst hw
              rw [g5] at h; cases h
              exact ⟨some n, by simp [hv]⟩
            · exact ⟨n', by simp only [hv, if_neg hw]; exact h⟩
          · intro f b x h; rw [hv]; exact h
          · intro f x h; rw [hv]; exact h
          · intro f l h; exact ⟨l, by rw [hv]; exact h, fun _ h => h⟩
          · intro f w sg h
            simp only [hv] at h
            exact g2.lty _ _ _ h
          · intro w sg h
            simp only [hv] at h
            split at h
            · cases h; exact .inr (.ptr hpu)
            · exact g2.gty _ _ h
        · have : p.ids = s2.prog.ids := congrArg View.ids hv
          show p.ids.nextGlobal + k ≤ localStart
          rw [this]; exact g3
    rw [bind_ok j1.run]
    obtain ⟨s4, l1, l2, l3⟩ := defineGlobal_fit (n := n) j2 j4
    exact ⟨.ok (), s4, l1, l2, by rw [l3]; exact j3⟩

/-! ### Items -/

/-- What the grammar says about an item: names have the right form and blocks end as they should. -/
structure Formed (g : GlobalAst) : Prop where
  named : ItemNamed nameOk g
  blocks : ∀ n ps r bbs, g = .funDef n ps r bbs → bbs ≠ [] ∧ ∀ b ∈ bbs, ∃ st, b.stmts.getLast? = some st ∧ (targetsOf st).isSome

theorem buildOn_fit {g : GlobalAst} {k : Nat} {s : BS} (hg : g ∈ gs) (hF : Formed g) (hH : ItemHarmless gs g) (hf : Fit gs s)
    (hR : s.prog.ids.nextGlobal + (globalSize g + k) ≤ localStart) :
    ∃ x s', buildOn g s = some (x, s') ∧ Fit gs s' ∧ s'.prog.ids.nextGlobal + k ≤ localStart := by
  cases g with
  | globalDef n ty init =>
    obtain ⟨t, r, ht, hI⟩ := hH
    exact buildGlobalDef_fit hf hR hF.named ht hI
  | funDef n ps r bbs =>
    obtain ⟨h1, h2⟩ := hF.blocks _ _ _ _ rfl
    obtain ⟨x, s', h3, h4, h5⟩ := buildFunDef_fit hf hg hF.named hH h1 h2
    exact ⟨x, s', h3, h4, by rw [h5]; omega⟩
  | funDecl n ps r =>
    obtain ⟨x, s', h3, h4, h5⟩ := buildFunDecl_fit hf hg hF.named hH.1 hH.2
    exact ⟨x, s', h3, h4, by rw [h5]; omega⟩
  | eof => exact ⟨.ok (), s, rfl, hf, by omega⟩
  | error => exact ⟨.ok (), s, rfl, hf, by omega⟩

end

end Koopa
