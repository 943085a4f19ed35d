import Verif.Lemmas.Back.SameFun
/-!
Reading the tree of a program back gives the same program.
-/
namespace Koopa
open Spec

theorem Map.isEmpty_of_none {κ ν : Type} [DecidableEq κ] {m : Map κ ν} (h : ∀ k v, m.get? k ≠ some v) : m.isEmpty = true := by
  obtain ⟨l⟩ := m
  cases l with
  | nil => rfl
  | cons q l =>
    obtain ⟨k, v⟩ := q
    refine absurd ?_ (h k v)
    simp [Map.get?, Map.lookup]

/-- What the function at place `i` of the text is read as. -/
inductive ReadsAs (p : Program) (N : Func → Nm) (p' : Program) (vars : List (Str × Value)) (fns : List (Str × Func)) (i : Nat) (f : Func)
    (fd : FData) (f' : Func) (fd' : FData) : Prop where
  | decl {ts : List Ty} {r : Ty} : fd.ty = .func ts r → fd.dfg.bbs.isEmpty = true → fd.layout.bbs = [] → fd.params = [] →
      DeclIs p' f' fd' ((N f).fn f) (ts.map astOf) (retAst r) → ReadsAs p N p' vars fns i f fd f' fd'
  | «def» {ts : List Ty} {r r' : Ty} : fd.ty = .func ts r → (∀ t ∈ ts, Expressible t) → r = r' → PrintableBody p (p.funcLayout.take i) f fd ts r →
      ReadFun p (p.funcLayout.take i) f fd (N f) p' vars (fns.take (i + 1)) f' fd' r r' → ReadsAs p N p' vars fns i f fd f' fd'

/-- A program read from the tree of a program. -/
structure ReadBack (p : Program) (G : Nm) (N : Func → Nm) (p' : Program) (vars : List (Str × Value)) (fns : List (Str × Func)) : Prop where
  text : FromText p' (globalTrees p G ++ funTrees p N) vars fns
  globals : All2 (fun v (q : Str × Value) => q.1 = G.glob v ∧ ∃ x x' i i', GlobalVal p v x ∧ GlobalVal p' q.2 x' ∧ x.ty = x'.ty ∧ x.kind = .globalAlloc i ∧
      x'.kind = .globalAlloc i' ∧ SameConst p.values.get? p'.values.get? i i' ∧ x'.name = keptName q.1) p.instLayout vars
  len : p.funcLayout.length = fns.length
  funs : ∀ (i : Nat) f, p.funcLayout[i]? = some f → ∃ fd f' fd', p.funcs.get? f = some fd ∧ fns[i]? = some ((N f).fn f, f') ∧
    p'.funcs.get? f' = some fd' ∧ fd.ty = fd'.ty ∧ fd'.name = (N f).fn f ∧ ReadsAs p N p' vars fns i f fd f' fd'

theorem ret_unique {r r' : Ty} (h : r = .unit ∨ Expressible r) (h' : RetIs TyIs (retAst r) r') : r = r' := by
  unfold retAst at h'
  rcases h with rfl | h
  · have h' : RetIs TyIs none r' := h'
    cases h'; rfl
  · rw [h.not_unit] at h'
    have h' : RetIs TyIs (some (astOf r)) r' := h'
    cases h' with
    | some h1 => exact TyIs_unique (astOf_is h) h1

theorem tys_unique {ts ts' : List Ty} (h : ∀ t ∈ ts, Expressible t) (h' : All2 TyIs (ts.map astOf) ts') : ts = ts' := by
  induction ts generalizing ts' with
  | nil => cases h'; rfl
  | cons t ts ih =>
    cases h' with
    | cons h1 h2 =>
      rw [TyIs_unique h1 (astOf_is (h t List.mem_cons_self)), ih (fun t ht => h t (List.mem_cons_of_mem _ ht)) h2]

theorem params_tys {p : Program} {before : List Func} {f : Func} {fd : FData} {ts : List Ty} {r : Ty} (hb : PrintableBody p before f fd ts r) (M : Nm) :
    (paramsOf fd M fd.params).map (·.2) = ts.map astOf := by
  unfold paramsOf
  rw [List.map_map]
  apply List.ext_getElem?
  intro i
  rw [List.getElem?_map, List.getElem?_map]
  rcases h : fd.params[i]? with _ | v
  · have : ts[i]? = none := by rw [List.getElem?_eq_none_iff, ← hb.params.1]; rwa [List.getElem?_eq_none_iff] at h
    rw [this]; rfl
  · obtain ⟨x, h1, -, h3⟩ := hb.params.2 i v h
    rw [h3]
    simp only [Option.map_some, Function.comp, paramAst, h1]

theorem readBack {p : Program} (hp : Printable p) {G : Nm} {N : Func → Nm} (hn : Naming p G N) {p' : Program} {vars : List (Str × Value)} {fns : List (Str × Func)}
    (A : FromText p' (globalTrees p G ++ funTrees p N) vars fns) : ReadBack p G N p' vars fns := by
  obtain ⟨h1, h2, h3⟩ := A.items.ofTree hp
  have hG := same_globals hp A G h1
  -- the types of functions
  have base : ∀ (i : Nat) f, p.funcLayout[i]? = some f → ∃ fd f' fd' ts r, p.funcs.get? f = some fd ∧ fns[i]? = some ((N f).fn f, f') ∧
      p'.funcs.get? f' = some fd' ∧ fd.ty = fd'.ty ∧ fd'.name = (N f).fn f ∧ PrintableFun p (p.funcLayout.take i) f fd ts r ∧
      ((fd.dfg.bbs.isEmpty = true ∧ fd.layout.bbs = [] ∧ fd.params = [] ∧ DeclIs p' f' fd' ((N f).fn f) (ts.map astOf) (retAst r)) ∨
        ∃ order, PrintableBody p (p.funcLayout.take i) f fd ts r ∧
          FunIs p' (fun n v => (n, v) ∈ vars) (fun n g => (n, g) ∈ fns.take (i + 1)) f' fd' ((N f).fn f) (paramsOf fd (N f) fd.params) (retAst r) (orderOf fd (N f)) order r) := by
    intro i f hi
    obtain ⟨n, f', fd', a1, a2, a3⟩ := h3 i f hi
    obtain ⟨fd, ts, r, b1, b2⟩ := hp.funcs i f hi
    have hit : (fd.dfg.bbs.isEmpty = true ∧ fd.layout.bbs = [] ∧ fd.params = [] ∧ funItem p f (N f) = .funDecl ((N f).fn f) (ts.map astOf) (retAst r)) ∨
      (PrintableBody p (p.funcLayout.take i) f fd ts r ∧ funItem p f (N f) = .funDef ((N f).fn f) (paramsOf fd (N f) fd.params) (retAst r) (orderOf fd (N f))) := by
      unfold funItem funAst
      simp only [b1, b2.ty]
      rcases b2.body with ⟨c1, c2, c3⟩ | hb
      · exact .inl ⟨c1, c2, c3, by rw [if_pos c1]⟩
      · exact .inr ⟨hb, by rw [if_neg (by simp [hb.hasBlocks])]; rfl⟩
    rcases hit with ⟨c1, c2, c3, c4⟩ | ⟨hb, c4⟩
    · rw [c4] at a3
      rcases a3 with ⟨ps, r', e1, e2⟩ | ⟨_, _, _, _, _, e1, -⟩
      · obtain ⟨d1, d2, d3⟩ := GlobalAst.funDecl.inj e1
        subst d1 d2 d3
        refine ⟨fd, f', fd', ts, r, b1, a1, a2, ?_, e2.hasName, b2, .inl ⟨c1, c2, c3, e2⟩⟩
        obtain ⟨ts', r', g1, g2, g3⟩ := e2.hasTy
        rw [b2.ty, g1, tys_unique b2.tys g2, ret_unique b2.ret g3]
      · cases e1
    · rw [c4] at a3
      rcases a3 with ⟨ps, r', e1, e2⟩ | ⟨ps, r', bbs, order, t, e1, e2⟩
      · cases e1
      · obtain ⟨d1, d2, d3, d4⟩ := GlobalAst.funDef.inj e1
        subst d1 d2 d3 d4
        have hr := ret_unique b2.ret e2.hasRet
        subst hr
        refine ⟨fd, f', fd', ts, r, b1, a1, a2, ?_, e2.hasName, b2, .inr ⟨order, hb, e2⟩⟩
        obtain ⟨ts', g1, g2⟩ := e2.hasTy
        rw [params_tys hb] at g2
        rw [b2.ty, g1, tys_unique b2.tys g2]
  refine ⟨A, hG, h2, fun i f hi => ?_⟩
  obtain ⟨fd, f', fd', ts, r, b1, b2, b3, b4, b5, b6, b7⟩ := base i f hi
  refine ⟨fd, f', fd', b1, b2, b3, b4, b5, ?_⟩
  rcases b7 with ⟨c1, c2, c3, c4⟩ | ⟨order, hb, hF⟩
  · exact .decl b6.ty c1 c2 c3 c4
  · have hfm := List.mem_of_getElem? hi
    obtain ⟨e, he⟩ := breadth_ok b1 hb (hn.ok f hfm fd b1)
    obtain ⟨e', he'⟩ := hF.isOrder
    have hord : order = orderOf fd (N f) := he'.unique he (by
      intro b hb'
      obtain ⟨⟨b, is⟩, hq, rfl⟩ := List.mem_map.1 hb'
      obtain ⟨init, t, rfl, ⟨x, h1, h2⟩, -⟩ := hb.ends b is hq
      refine ⟨stmtAst fd (N f) t, by simp [blockAst], ?_⟩
      unfold stmtAst
      simp only [h1]
      cases hk : x.kind with
      | branch => rfl
      | jump => rfl
      | ret v => cases v <;> rfl
      | _ => rw [hk] at h2; cases h2)
    subst hord
    obtain ⟨s1, s2⟩ := hn.same f
    refine .def b6.ty b6.tys rfl hb ⟨b3, hF, A.insts, ?_, ?_⟩
    · refine hG.imp (fun v _ q hq => ?_)
      obtain ⟨g1, x, x', _, _, g2, g3, g4, -⟩ := hq
      exact ⟨by rw [s1]; exact g1, x, x', g2, g3, g4⟩
    · intro g hg g' hg'
      have hgl : g ∈ p.funcLayout := by
        rcases List.mem_append.1 hg with h | h
        · exact List.mem_of_mem_take h
        · rw [List.mem_singleton] at h; subst h; exact hfm
      obtain ⟨k, hk⟩ := List.getElem?_of_mem (List.mem_of_mem_take hg')
      have hkl : k < p.funcLayout.length := by rw [h2]; exact (List.getElem?_eq_some_iff.1 hk).1
      obtain ⟨gd, f2, gd', _, _, d1, d2, d3, d4, -⟩ := base k _ (List.getElem?_eq_getElem hkl)
      rw [hk] at d2
      obtain ⟨e1, e2⟩ := Prod.mk.inj (Option.some.inj d2)
      subst e2
      rw [s2, (hn.same _).2] at e1
      have := hn.gok.injFn g hgl _ (List.getElem_mem hkl) e1
      rw [← this] at d1
      refine ⟨⟨k, by rw [this]; exact List.getElem?_eq_getElem hkl, ?_⟩, ?_⟩
      · rw [show p'.funcLayout = fns.map (·.2) from A.fns, List.getElem?_map, hk]; rfl
      · rintro t t' ⟨_, x1, rfl⟩ ⟨_, x2, rfl⟩
        rw [d1] at x1; cases x1
        rw [d3] at x2; cases x2
        exact d4

theorem all2_of {α β : Type} {R : α → β → Prop} {as : List α} {bs : List β} (hl : as.length = bs.length)
    (h : ∀ (i : Nat) a b, as[i]? = some a → bs[i]? = some b → R a b) : All2 R as bs := Spec.All2.of_get hl h

theorem sameFun {p : Program} (hp : Printable p) {before : List Func} {f : Func} {fd : FData} {ts : List Ty} {r : Ty}
    (hf : p.funcs.get? f = some fd) (hb : PrintableBody p before f fd ts r) {M : Nm} (hg : GNmOk p M) (hm : NmOk p fd M)
    {p' : Program} {gs : List GlobalAst} {vars : List (Str × Value)} {fns : List (Str × Func)} (A : FromText p' gs vars fns)
    {fns' : List (Str × Func)} {f' : Func} {fd' : FData} {r' : Ty} (F : ReadFun p before f fd M p' vars fns' f' fd' r r')
    (hE : ∀ t ∈ ts, Expressible t) (hr : r = r') (ht : fd.ty = fd'.ty) : SameFun p p' fd fd' := by
  have K := known hp hf hb hg hm A F hE hr
  have agree : ∀ {a v v' x}, At p p' fd fd' a v v' → (¬ ∃ j i, a = .inst j i) → fd.dfg.values.get? v = some x → isGlobal v' = false → SameTy fd fd' v v' := by
    intro a v v' x h1 h2 hx hl
    obtain ⟨x', h3, h4⟩ := K 0 a v v' h1 (fun h => absurd h h2) x.ty ⟨x, .inr ⟨fd, hf, hx⟩, rfl⟩
    rcases h3 with h3 | ⟨_, h3, h5⟩
    · rw [A.isGlobal h3] at hl; cases hl
    · rw [F.get] at h3; cases h3
      exact ⟨x, x', hx, h5, h4.symm⟩
  refine ⟨ht, ?_, ?_, ?_⟩
  · rw [hb.hasBlocks]
    obtain ⟨e, he, -⟩ := hb.order
    cases hq : fd.layout.bbs with
    | nil => rw [hq] at he; cases he
    | cons q l =>
      have : 0 < fd'.layout.bbs.length := by rw [lay_len F, hq]; simp
      obtain ⟨_, _, ⟨x, ⟨_, h1, h2⟩, -⟩, -⟩ := lay_pair F (List.getElem?_eq_getElem this)
      rw [F.get] at h1; cases h1
      exact (Map.isEmpty_eq_false_of_get? h2).symm
  · have hlen := F.is.hasParams.1
    unfold paramsOf at hlen
    rw [List.length_map] at hlen
    refine all2_of hlen.symm (fun i v v' h1 h2 => ?_)
    obtain ⟨x, a1, -, a3⟩ := hb.params.2 i v h1
    obtain ⟨x', b1, b2, b3, b4⟩ := F.is.hasParams.2 i (paramAst fd M v) v' (by unfold paramsOf; rw [List.getElem?_map, h1]; rfl) h2
    exact agree (a := .arg i) ⟨h1, h2⟩ (by rintro ⟨_, _, h⟩; cases h) a1 (A.isLocal b1)
  · refine all2_of (lay_len F).symm (fun j q q' h1 h2 => ?_)
    obtain ⟨q0, c1, ⟨y', ⟨_, e1, e2⟩, c3, c4⟩, c5⟩ := lay_pair F h2
    rw [h1] at c1; cases c1
    rw [F.get] at e1; cases e1
    have e2 : fd'.dfg.bbs.get? q'.1 = some y' := e2
    obtain ⟨y, d1, d2⟩ := hb.blocks q.1 q.2 (List.mem_of_getElem? h1)
    refine ⟨⟨y, y', d1, e2, ?_⟩, ?_⟩
    · have hlen : y'.params.length = y.params.length := by
        have := c4.1
        unfold paramsOf paramsAt at this
        rw [d1] at this
        simpa using this
      refine all2_of hlen.symm (fun k v v' h3 h4 => ?_)
      obtain ⟨x, f1, -, f3⟩ := d2 k v h3
      obtain ⟨x', b1, -⟩ := c4.2 k (paramAst fd M v) v' (by
        unfold paramsOf paramsAt; rw [d1]; simp only [List.getElem?_map, h3]; rfl) h4
      exact agree (a := .param j k) ⟨by simp only [valueAt, h1, d1, h3], by simp only [valueAt, h2, e2, h4]⟩ (by rintro ⟨_, _, h⟩; cases h) f1 (A.isLocal b1)
    · refine all2_of c5.length.symm (fun k v v' h3 h4 => ?_)
      obtain ⟨u, g1, x', g2, g3, g4⟩ := Raw.All2.get_left c5 h4
      rw [h3] at g1; cases g1
      obtain ⟨x, hx, -⟩ := hb.insts j k q.1 q.2 v h1 h3
      obtain ⟨k1, k2⟩ := inst_same hp hf hb hg hm A F (K v') hE hr h1 h3 hx g2 g4
      obtain ⟨_, g5, g6⟩ := g2
      rw [F.get] at g5; cases g5
      exact ⟨x, x', hx, g6, k1, k2⟩

/-- Reading the tree of a program gives the same program. -/
theorem ReadBack.same {p : Program} (hp : Printable p) {G : Nm} {N : Func → Nm} (hn : Naming p G N) {p' : Program} {vars : List (Str × Value)} {fns : List (Str × Func)}
    (R : ReadBack p G N p' vars fns) : SameText p p' := by
  have A := R.text
  constructor
  · rw [show p'.instLayout = vars.map (·.2) from A.insts]
    have : ∀ {vs : List Value} {qs : List (Str × Value)}, All2 (fun v (q : Str × Value) => q.1 = G.glob v ∧ ∃ x x' i i', GlobalVal p v x ∧ GlobalVal p' q.2 x' ∧ x.ty = x'.ty ∧ x.kind = .globalAlloc i ∧
      x'.kind = .globalAlloc i' ∧ SameConst p.values.get? p'.values.get? i i' ∧ x'.name = keptName q.1) vs qs →
      All2 (fun v v' => ∃ x x' i i', GlobalVal p v x ∧ GlobalVal p' v' x' ∧ x.ty = x'.ty ∧ x.kind = .globalAlloc i ∧
      x'.kind = .globalAlloc i' ∧ SameConst p.values.get? p'.values.get? i i') vs (qs.map (·.2)) := by
      intro vs qs h
      induction h with
      | nil => exact .nil
      | cons h _ ih =>
        obtain ⟨-, x, x', i, i', h1, h2, h3, h4, h5, h6, -⟩ := h
        exact .cons ⟨x, x', i, i', h1, h2, h3, h4, h5, h6⟩ ih
    exact this R.globals
  · refine all2_of (by rw [show p'.funcLayout = fns.map (·.2) from A.fns, List.length_map, R.len]) (fun i f f' h1 h2 => ?_)
    obtain ⟨fd, f2, fd', b1, b2, b3, b4, b5, b6⟩ := R.funs i f h1
    rw [show p'.funcLayout = fns.map (·.2) from A.fns, List.getElem?_map, b2] at h2
    cases h2
    refine ⟨fd, fd', b1, b3, ?_⟩
    have hfm := List.mem_of_getElem? h1
    cases b6 with
    | decl c1 c2 c3 c4 c5 =>
      refine ⟨b4, ?_, ?_, ?_⟩
      · rw [c2]
        exact (Map.isEmpty_of_none (fun b x hx => c5.noBlocks.2 b x ⟨fd', b3, hx⟩)).symm
      · rw [c4, c5.hasParams]; exact .nil
      · rw [c3, c5.noBlocks.1]; exact .nil
    | «def» c1 c2 c3 c4 c5 =>
      exact sameFun hp b1 c4 (hn.gok.of_same (hn.same f)) (hn.ok f hfm fd b1) A c5 c2 c3 b4

end Koopa
