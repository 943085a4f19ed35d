import Verif.Lemmas.Examples.MachineSim
/-!
Whole programs: the start of the machine, and how runs end.
-/
namespace Koopa
open Koopa.Spec Koopa.Interp

theorem constVal_unique {look : Value → Option VData} {d : VData} {x y : Val} (h : ConstVal look d x) (h' : ConstVal look d y) : x = y := by
  obtain ⟨n, hn⟩ := evalConst_complete h
  obtain ⟨m, hm⟩ := evalConst_complete h'
  have h1 := hn (max n m) (by omega)
  rw [hm (max n m) (by omega)] at h1
  cases h1; rfl

/-- A depth that suffices for a list of constants. -/
theorem depth_list (look : Value → Option VData) : ∀ (l : List VData), ∃ n, ∀ m, n ≤ m → ∀ d ∈ l, ∀ x,
    evalConst look m d = some x ↔ ConstVal look d x
  | [] => ⟨0, fun m _ d hd => by cases hd⟩
  | d :: l => by
    obtain ⟨n, hn⟩ := depth_list look l
    by_cases hd : ∃ x, ConstVal look d x
    · obtain ⟨x, hx⟩ := hd
      obtain ⟨k, hk⟩ := evalConst_complete hx
      refine ⟨max n k, fun m hm e he y => ?_⟩
      rcases List.mem_cons.1 he with rfl | he
      · constructor
        · exact evalConst_sound
        · intro hy; rw [constVal_unique hy hx]; exact hk m (by omega)
      · exact hn m (by omega) e he y
    · refine ⟨n, fun m hm e he y => ?_⟩
      rcases List.mem_cons.1 he with rfl | he
      · exact ⟨evalConst_sound, fun hy => absurd ⟨y, hy⟩ hd⟩
      · exact hn m hm e he y

theorem mem_of_get? {κ ν : Type} [DecidableEq κ] {m : Map κ ν} {k : κ} {n : ν} (h : m.get? k = some n) : (k, n) ∈ m.entries :=
  Map.mem_of_lookup h

theorem depth_map (m : Map Value VData) : ∃ n, ∀ k, n ≤ k → ∀ v d, m.get? v = some d → ∀ x,
    evalConst m.get? k d = some x ↔ ConstVal m.get? d x := by
  obtain ⟨n, hn⟩ := depth_list m.get? (m.entries.map (·.2))
  exact ⟨n, fun k hk v d hd x => hn k hk d (List.mem_map.2 ⟨(v, d), mem_of_get? hd, rfl⟩) x⟩

theorem depth_funcs : ∀ (l : List FData), ∃ n, ∀ k, n ≤ k → ∀ fd ∈ l, ∀ v d, fd.dfg.values.get? v = some d → ∀ x,
    evalConst fd.dfg.values.get? k d = some x ↔ ConstVal fd.dfg.values.get? d x
  | [] => ⟨0, fun k _ fd hf => by cases hf⟩
  | fd :: l => by
    obtain ⟨n, hn⟩ := depth_funcs l
    obtain ⟨m, hm⟩ := depth_map fd.dfg.values
    refine ⟨max n m, fun k hk gd hg => ?_⟩
    rcases List.mem_cons.1 hg with rfl | hg
    · exact hm k (by omega)
    · exact hn k (by omega) gd hg

/-- A depth that suffices for all constants of a program. -/
theorem depth_program (p : Program) : ∃ n, ∀ k, n ≤ k →
    (∀ f fd v d, p.funcs.get? f = some fd → fd.dfg.values.get? v = some d → ∀ x,
      evalConst fd.dfg.values.get? k d = some x ↔ ConstVal fd.dfg.values.get? d x) ∧
    ∀ v d, p.values.get? v = some d → ∀ x, evalConst p.values.get? k d = some x ↔ ConstVal p.values.get? d x := by
  obtain ⟨n, hn⟩ := depth_funcs (p.funcs.entries.map (·.2))
  obtain ⟨m, hm⟩ := depth_map p.values
  exact ⟨max n m, fun k hk => ⟨fun f fd v d hf => hn k (by omega) fd (List.mem_map.2 ⟨(f, fd), mem_of_get? hf, rfl⟩) v d, hm k (by omega)⟩⟩

/-- A global variable with an initial value. -/
def Initial (p : Program) (v : Value) (x : Val) : Prop :=
  ∃ d init e, GlobalVal p v d ∧ d.kind = .globalAlloc init ∧ GlobalVal p init e ∧ ConstVal p.values.get? e x

theorem Initial.unique {p : Program} {v : Value} {x y : Val} (h : Initial p v x) (h' : Initial p v y) : x = y := by
  obtain ⟨d, i, e, h1, h2, h3, h4⟩ := h
  obtain ⟨d', i', e', h1', h2', h3', h4'⟩ := h'
  unfold GlobalVal at h1 h1' h3 h3'
  rw [h1] at h1'; cases h1'
  rw [h2] at h2'; cases h2'
  rw [h3] at h3'; cases h3'
  exact constVal_unique h4 h4'

/-- One global variable, in the interpreter. -/
def initOf (p : Program) (depth : Nat) (v : Value) : Option Val :=
  match p.values.get? v with
  | none => none
  | some d => match d.kind with
    | .globalAlloc init => match p.values.get? init with
      | none => none
      | some i => evalConst p.values.get? depth i
    | _ => none

theorem initOf_iff {p : Program} {depth : Nat} (hd : ∀ v d, p.values.get? v = some d → ∀ x, evalConst p.values.get? depth d = some x ↔
    ConstVal p.values.get? d x) {v : Value} {x : Val} : initOf p depth v = some x ↔ Initial p v x := by
  constructor
  · intro h
    unfold initOf at h
    split at h
    · cases h
    · rename_i d hv
      split at h
      · rename_i init hk
        split at h
        · cases h
        · rename_i e he
          exact ⟨d, init, e, hv, hk, he, (hd _ _ he _).1 h⟩
      · cases h
  · rintro ⟨d, init, e, hv, hk, he, h⟩
    unfold GlobalVal at hv he
    unfold initOf
    obtain ⟨t, nm, k, u⟩ := d
    cases hk
    simp only [hv, he]
    exact (hd _ _ he _).2 h

theorem initGlobals_cons {p : Program} {depth : Nat} {v : Value} {vs : List Value} {m : Mem} {vars : Value → Option Val} :
    initGlobals p depth (v :: vs) m vars = match initOf p depth v with
      | none => none
      | some x => initGlobals p depth vs (fun o => if o = .glob v then some x else m o)
          (fun w => if w = v then some (.ptr (some (.glob v, [])) 0 0) else vars w) := by
  rw [initGlobals]
  unfold initOf
  cases hv : p.values.get? v with
  | none => rfl
  | some d =>
    obtain ⟨t, nm, k, u⟩ := d
    simp only []
    cases k with
    | globalAlloc init =>
      simp only []
      cases p.values.get? init with
      | none => rfl
      | some e =>
        simp only []
        cases evalConst p.values.get? depth e <;> rfl
    | _ => rfl

theorem initGlobals_some {p : Program} {depth : Nat} : ∀ {l : List Value} {m m' : Mem} {vars vars' : Value → Option Val},
    initGlobals p depth l m vars = some (m', vars') →
    (∀ v ∈ l, ∃ x, initOf p depth v = some x ∧ m' (.glob v) = some x ∧ vars' v = some (.ptr (some (.glob v, [])) 0 0)) ∧
    (∀ o, (∀ v ∈ l, o ≠ .glob v) → m' o = m o) ∧ ∀ v, v ∉ l → vars' v = vars v
  | [], m, m', vars, vars', h => by
    rw [initGlobals] at h; cases h
    exact ⟨fun v hv => (by cases hv), fun o _ => rfl, fun v _ => rfl⟩
  | v :: vs, m, m', vars, vars', h => by
    rw [initGlobals_cons] at h
    cases hx : initOf p depth v with
    | none => rw [hx] at h; cases h
    | some x =>
      rw [hx] at h
      obtain ⟨h1, h2, h3⟩ := initGlobals_some h
      refine ⟨fun u hu => ?_, fun o ho => ?_, fun u hu => ?_⟩
      · by_cases hm : u ∈ vs
        · exact h1 u hm
        · rcases List.mem_cons.1 hu with rfl | hu
          · refine ⟨x, hx, ?_, ?_⟩
            · rw [h2 (.glob u) (fun w hw e => by cases e; exact hm hw)]; simp
            · rw [h3 u hm]; simp
          · exact absurd hu hm
      · rw [h2 o (fun w hw => ho w (by simp [hw]))]
        simp [ho v (by simp)]
      · rw [List.mem_cons, not_or] at hu
        rw [h3 u hu.2]; simp [hu.1]

theorem initGlobals_exists {p : Program} {depth : Nat} : ∀ {l : List Value} {m : Mem} {vars : Value → Option Val},
    (∀ v ∈ l, ∃ x, initOf p depth v = some x) → ∃ r, initGlobals p depth l m vars = some r
  | [], m, vars, _ => ⟨_, rfl⟩
  | v :: vs, m, vars, h => by
    obtain ⟨x, hx⟩ := h v (by simp)
    rw [initGlobals_cons, hx]
    exact initGlobals_exists (fun u hu => h u (by simp [hu]))

theorem findMain_first {p : Program} {ord : List Func} {f : Func} (h : FirstMain p ord f) : findMain p ord = some f := by
  obtain ⟨a, b, fd, rfl, hf, hname, _, hfirst⟩ := h
  unfold findMain
  rw [List.find?_eq_some_iff_append]
  refine ⟨by rw [hf]; simp [hname], a, b, rfl, fun g hg => ?_⟩
  cases hgd : p.funcs.get? g with
  | none => rfl
  | some gd => simpa using hfirst g gd hg hgd

section
variable {σ : Type} {lib : Lib σ} {rt : Rt} {p : Program}

theorem MSteps.prefix {chk : Bool} {ps : Nat} : ∀ {a b : Nat} {s t : MState σ}, MSteps p lib chk ps (a + b) s t →
    ∃ u, MSteps p lib chk ps a s u ∧ MSteps p lib chk ps b u t
  | 0, b, s, t, h => ⟨s, .refl _, by rw [Nat.zero_add] at h; exact h⟩
  | a + 1, b, s, t, h => by
    rw [Nat.add_right_comm] at h
    cases h with
    | step h1 h2 =>
      obtain ⟨u, h3, h4⟩ := MSteps.prefix h2
      exact ⟨u, .step h1 h3, h4⟩

theorem MSteps.unique (hr : Agrees p rt) (hn : NoOverlap p) : ∀ {k : Nat} {s t u : MState σ}, MSteps p lib rt.chk rt.ptrSize k s t →
    MSteps p lib rt.chk rt.ptrSize k s u → t = u
  | 0, s, t, u, h, h' => by cases h; cases h'; rfl
  | k + 1, s, t, u, h, h' => by
    cases h with
    | step h1 h2 =>
      cases h' with
      | step h3 h4 =>
        rw [next_unique hr hn h1 h3] at h2
        exact MSteps.unique hr hn h2 h4

/-- A machine that cannot go on. -/
def Final (lib : Lib σ) (rt : Rt) (p : Program) (t : MState σ) : Prop := ∀ u, ¬ MNext p lib rt.chk rt.ptrSize t u

theorem final_le (hr : Agrees p rt) (hn : NoOverlap p) {k l : Nat} {s t u : MState σ} (h : MSteps p lib rt.chk rt.ptrSize k s t)
    (ht : Final lib rt p t) (h' : MSteps p lib rt.chk rt.ptrSize l s u) : l ≤ k := by
  rcases Nat.lt_or_ge k l with hkl | hkl
  · obtain ⟨j, rfl⟩ : ∃ j, l = k + (j + 1) := ⟨l - k - 1, by omega⟩
    obtain ⟨x, h1, h2⟩ := MSteps.prefix h'
    rw [MSteps.unique hr hn h1 h] at h2
    cases h2 with
    | step h3 _ => exact absurd h3 (ht _)
  · exact hkl

theorem final_unique (hr : Agrees p rt) (hn : NoOverlap p) {k l : Nat} {s t u : MState σ} (h : MSteps p lib rt.chk rt.ptrSize k s t)
    (ht : Final lib rt p t) (h' : MSteps p lib rt.chk rt.ptrSize l s u) (hu : Final lib rt p u) : t = u := by
  have := final_le hr hn h ht h'
  have := final_le hr hn h' hu h
  obtain rfl : k = l := by omega
  exact MSteps.unique hr hn h h'

theorem stop_final (hr : Agrees p rt) (hn : NoOverlap p) {t : MState σ} {r : MResult σ} (h : MStop p lib t r) : Final lib rt p t :=
  fun _ hu => next_not_stop hr hn hu h

/-- How the interpreter starts: either no machine can start and it is `bad`, or there is one machine and it runs the entry block. -/
theorem start_cases {chk : Bool} {depth ps : Nat} {ord : List Func} {f : Func} (lib : Lib σ) (w : σ) (hn : NoOverlap p) (hm : FirstMain p ord f)
    (hd : (∀ f fd v d, p.funcs.get? f = some fd → fd.dfg.values.get? v = some d → ∀ x,
      evalConst fd.dfg.values.get? depth d = some x ↔ ConstVal fd.dfg.values.get? d x) ∧
    ∀ v d, p.values.get? v = some d → ∀ x, evalConst p.values.get? depth d = some x ↔ ConstVal p.values.get? d x) :
    ((∀ s, ¬ MStart p f w s) ∧ ∀ fuel, interpret lib chk depth ps fuel ord p w = .bad) ∨
    ∃ rt b is fd fr st, Agrees p rt ∧ rt.chk = chk ∧ rt.ptrSize = ps ∧ p.funcs.get? f = some fd ∧ fr.func = fd ∧ fd.layout.insts? b = some is ∧
      (∀ s, MStart p f w s ↔ s = mk f fr is [] st) ∧
      ∀ fuel, interpret lib chk depth ps fuel ord p w = (evalBb lib rt fuel b fr st).bind (fun (x, st') => match x with
        | .int n => .done (n, st'.world)
        | _ => .err st'.world) := by
  have hfm := findMain_first hm
  obtain ⟨a, b, fd, rfl, hf, hname, hbbs, hfirst⟩ := hm
  cases hi : initGlobals p depth p.instLayout (fun _ => none) (fun _ => none) with
  | none =>
    left
    constructor
    · rintro s ⟨hs, _⟩
      obtain ⟨r, hr⟩ := initGlobals_exists (p := p) (depth := depth) (l := p.instLayout) (m := fun _ => none) (vars := fun _ => none) (by
        intro v hv
        obtain ⟨d, init, e, x, h1, h2, h3, h4, _⟩ := hs v hv
        exact ⟨x, (initOf_iff hd.2).2 ⟨d, init, e, h1, h2, h3, h4⟩⟩)
      rw [hi] at hr; cases hr
    · intro fuel; unfold interpret; rw [hi]
  | some mv =>
    obtain ⟨m, vars⟩ := mv
    obtain ⟨g1, g2, g3⟩ := initGlobals_some hi
    have hint : ∀ fuel, interpret lib chk depth ps fuel (a ++ f :: b) p w =
        (evalFunc lib p (evalBb lib { prog := p, vars, depth, ptrSize := ps, chk } fuel) f [] { mem := m, acts := 0, world := w }).bind
        (fun (x, st) => match x with
          | .int n => .done (n, st.world)
          | _ => .err st.world) := by
      intro fuel; unfold interpret; rw [hi]; simp only []; rw [hfm]; rfl
    by_cases ht : ∃ t, fd.ty = .func [] t
    · right
      obtain ⟨t, ht⟩ := ht
      cases hb : fd.layout.bbs with
      | nil => exact absurd hb hbbs
      | cons bi bs =>
        obtain ⟨bb, is⟩ := bi
        refine ⟨{ prog := p, vars, depth, ptrSize := ps, chk }, bb, is, fd,
          { func := fd, act := 0, vals := bindParams (fd.params.zip []), allocs := [] }, { mem := m, acts := 1, world := w },
          ⟨rfl, ?_, hd.1⟩, rfl, rfl, hf, rfl, insts_first hb, ?_, ?_⟩
        · intro v x
          by_cases hv : v ∈ p.instLayout
          · obtain ⟨_, _, _, h3⟩ := g1 v hv
            simp only [h3, hv, true_and, Option.some.injEq]
            exact eq_comm
          · simp [g3 v hv, hv]
        · intro s
          constructor
          · rintro ⟨h1, h2, ⟨fd', t', b', is', bs', regs, e1, e2, e3, e4, e5⟩, h4, h5⟩
            obtain ⟨acts, mem, born, world⟩ := s
            simp only [] at h1 h2 e5 h4 h5
            rw [hf] at e1; cases e1
            rw [hb] at e3; cases e3
            rw [(bound_iff _ _ (hn.distinct _ _ hf).1).1 e4] at e5
            have : mem = m := by
              funext o
              by_cases ho : ∃ v ∈ p.instLayout, o = .glob v
              · obtain ⟨v, hv, rfl⟩ := ho
                obtain ⟨d, init, e, x, i1, i2, i3, i4, i5⟩ := h1 v hv
                obtain ⟨y, j1, j2, _⟩ := g1 v hv
                rw [i5, j2, Initial.unique ⟨d, init, e, i1, i2, i3, i4⟩ ((initOf_iff hd.2).1 j1)]
              · have : ∀ v, v ∈ p.instLayout → o ≠ .glob v := fun v hv e => ho ⟨v, hv, e⟩
                rw [h2 o this, g2 o this]
            subst this h4 h5 e5
            rfl
          · rintro rfl
            refine ⟨?_, fun o ho => g2 o ho, ⟨fd, t, bb, is, bs, _, hf, ht, hb, (bound_iff _ _ (hn.distinct _ _ hf).1).2 rfl, rfl⟩, rfl, rfl⟩
            intro v hv
            obtain ⟨y, j1, j2, _⟩ := g1 v hv
            obtain ⟨d, init, e, i1, i2, i3, i4⟩ := (initOf_iff hd.2).1 j1
            exact ⟨d, init, e, y, i1, i2, i3, i4, j2⟩
        · intro fuel
          rw [hint, evalFunc_eq hf ht rfl, hb]
          simp only []
          show Out.bind (Out.bind (evalBb lib _ fuel bb _ _) _) _ = _
          cases evalBb lib { prog := p, vars, depth, ptrSize := ps, chk } fuel bb
            { func := fd, act := 0, vals := bindParams (fd.params.zip []), allocs := [] } { mem := m, acts := 1, world := w } with
          | done r => obtain ⟨x, st'⟩ := r; cases x <;> rfl
          | err w => rfl
          | bad => rfl
          | fuel => rfl
    · left
      constructor
      · rintro s ⟨_, _, ⟨fd', t', b', is', bs', regs, e1, e2, _⟩, _⟩
        rw [hf] at e1; cases e1
        exact ht ⟨t', e2⟩
      · intro fuel
        rw [hint, evalFunc_bad]
        · rfl
        · intro gd ps' t' h1 h2 h3
          rw [hf] at h1; cases h1
          cases ps' with
          | nil => exact ht ⟨t', h2⟩
          | cons => simp at h3

/-- What a run of the interpreter says about the machine. -/
theorem run_follows {chk : Bool} {depth ps : Nat} {ord : List Func} {f : Func} {lib : Lib σ} {w : σ} {rt : Rt} {b : BB} {is : List Value} {fd : FData}
    {fr : Frame} {st : St σ} (hn : NoOverlap p) (hr : Agrees p rt) (hf : p.funcs.get? f = some fd) (hfr : fr.func = fd)
    (hi : fd.layout.insts? b = some is)
    (hint : ∀ fuel, interpret lib chk depth ps fuel ord p w = (evalBb lib rt fuel b fr st).bind (fun (x, st') => match x with
        | .int n => .done (n, st'.world)
        | _ => .err st'.world)) (fuel : Nat) :
    match interpret lib chk depth ps fuel ord p w with
    | .done (n, w') => ∃ k T, MSteps p lib rt.chk rt.ptrSize k (mk f fr is [] st) T ∧ MStop p lib T (.exit n w')
    | .err w' => ∃ k T, MSteps p lib rt.chk rt.ptrSize k (mk f fr is [] st) T ∧ MStop p lib T (.failed w')
    | .bad => ∃ k T, MSteps p lib rt.chk rt.ptrSize k (mk f fr is [] st) T ∧ MStuck p lib rt.chk rt.ptrSize T
    | .fuel => ∃ k T, fuel ≤ k + 1 ∧ MSteps p lib rt.chk rt.ptrSize k (mk f fr is [] st) T := by
  have h := bb_follows (lib := lib) hr hn fuel f fr is [] st b (by rw [hfr]; exact hf) (by rw [hfr]; exact hi)
  rw [hint]
  cases ho : evalBb lib rt fuel b fr st with
  | done r =>
    obtain ⟨x, st'⟩ := r
    rw [ho] at h
    obtain ⟨k, fr', v, vs, d, h1, e1, e2, e3, e4⟩ := h
    have hrun : AtInst p (mk f fr' (v :: vs) [] st') (actOf f fr' (v :: vs)) [] v d :=
      mk_runs (by rw [e1, hfr]; exact hf) (by rw [e1]; exact e3)
    cases x with
    | int n => exact ⟨k, _, h1, .exit hrun e4⟩
    | undef | array | ptr | unsafePtr => exact ⟨k, _, h1, .noInt hrun e4 (fun n e => by cases e)⟩
  | err w => rw [ho] at h; exact h
  | bad => rw [ho] at h; exact h
  | fuel => rw [ho] at h; exact h

end

end Koopa
