import Verif.Lemmas.Back.SameItems
/-!
Reading the tree of a program back: the functions of the program that is read have the same blocks and instructions.
-/
namespace Koopa
open Spec

/-! ### Constants -/

theorem ConstTyped.of {get : Value → Option VData} {H : Value → Ty → Prop} {P : BB → List Ty → Prop} {F : Func → Ty → Prop}
    (key : ∀ u x, get u = some x → InstTy H P F x.kind x.ty) (hH : ∀ u x t, get u = some x → H u t → x.ty = t) : ConstTyped get := by
  refine ⟨?_, ?_, ?_, ?_⟩
  · intro u x es h hk
    have := key u x h
    rw [hk] at this
    generalize hty : x.ty = ty at this
    cases this with
    | aggregate h1 h2 h3 => exact ⟨h1, _, rfl, fun e he y hy => hH e y _ hy (h3 e he)⟩
  · intro u x n h hk
    have := key u x h
    rw [hk] at this
    generalize hty : x.ty = ty at this
    cases this; rfl
  · intro u x h hk
    have := key u x h
    rw [hk] at this
    generalize hty : x.ty = ty at this
    cases this; assumption
  · intro u x h hk
    have := key u x h
    rw [hk] at this
    generalize hty : x.ty = ty at this
    cases this; assumption

theorem Spec.SameConst.tys {get get' : Value → Option VData} {v v' : Value} (h : SameConst get get' v v') :
    ∃ x x', get v = some x ∧ get' v' = some x' ∧ x.ty = x'.ty := by
  cases h with
  | leaf h1 h2 h3 _ _ => exact ⟨_, _, h1, h2, h3⟩
  | agg h1 h2 h3 _ _ _ _ => exact ⟨_, _, h1, h2, h3⟩

theorem leaf_is {den : Value → Ty → VKind → Prop} {k : VKind} {t : Ty} {v : Value} (h : ConstIs den (leafAst k) t v)
    (hk : (∃ n, k = .integer n) ∨ k = .zeroInit ∨ k = .undef) : den v t k := by
  rcases hk with ⟨n, rfl⟩ | rfl | rfl
  · have h : ConstIs den (.int n) t v := h
    cases h with
    | int h => exact h
  · have h : ConstIs den .zero t v := h
    cases h with
    | zero h => exact h
  · have h : ConstIs den .undef t v := h
    cases h with
    | undef h => exact h

theorem leaf_const {k : VKind} (hk : (∃ n, k = .integer n) ∨ k = .zeroInit ∨ k = .undef) :
    (∀ es, k ≠ .aggregate es) ∧ k.isConst = true ∧ operands k = [] := by
  rcases hk with ⟨n, rfl⟩ | rfl | rfl
  · exact ⟨by simp, rfl, rfl⟩
  · exact ⟨by simp, rfl, rfl⟩
  · exact ⟨by simp, rfl, rfl⟩

theorem leaf_same {get get' : Value → Option VData} {den : Value → Ty → VKind → Prop}
    (hd : ∀ v t k, den v t k → ∃ x, get' v = some x ∧ x.ty = t ∧ x.kind = k) {v : Value} {z : VData} (h : get v = some z)
    (hk : (∃ n, z.kind = .integer n) ∨ z.kind = .zeroInit ∨ z.kind = .undef) :
    ∀ n x v', (elemPieces get n v).isSome = true → get v = some x → ConstIs den (elemAst get n v) x.ty v' → SameConst get get' v v' := by
  intro n x v' _ hx hi
  rw [h] at hx; cases hx
  obtain ⟨k1, k2, k3⟩ := leaf_const hk
  unfold elemAst at hi; rw [h] at hi; simp only at hi
  rw [constAst_leaf _ _ k1] at hi
  obtain ⟨x', a1, a2, a3⟩ := hd _ _ _ (leaf_is hi hk)
  exact .leaf h a1 a2.symm a3.symm k2 k3

/-- A constant that is read from the tree of a constant is the same. -/
theorem same_const {get get' : Value → Option VData} {den : Value → Ty → VKind → Prop} (hc : ConstTyped get) (hc' : ConstTyped get')
    (hd : ∀ v t k, den v t k → ∃ x, get' v = some x ∧ x.ty = t ∧ x.kind = k) {v : Value} (h : Constant get v) :
    ∀ n x v', (elemPieces get n v).isSome = true → get v = some x → ConstIs den (elemAst get n v) x.ty v' → SameConst get get' v v' := by
  induction h with
  | int h hk => exact leaf_same hd h (.inl ⟨_, hk⟩)
  | undef h hk => exact leaf_same hd h (.inr (.inr hk))
  | zero h hk => exact leaf_same hd h (.inr (.inl hk))
  | @agg v x es h hk he ih =>
    intro n y v' hs hx hi
    rw [h] at hx; cases hx
    obtain ⟨hne, t, ht, hes⟩ := hc.agg _ _ _ h hk
    unfold elemPieces at hs
    unfold elemAst at hi
    rw [h] at hs hi
    simp only at hs hi
    rw [hk] at hs hi
    cases n with
    | zero => cases hs
    | succ n =>
      rw [constAst_agg, ht] at hi
      generalize hes' : es.map (elemAst get n) = as at hi
      generalize hl : es.length = m at hi
      cases hi with
      | @agg _ _ t' _ vs h1 h2 h3 =>
        obtain ⟨x', a1, a2, a3⟩ := hd _ _ _ h1
        have hlen : es.length = vs.length := by rw [h2, hl]
        have elems : ∀ (i : Nat) e e', es[i]? = some e → vs[i]? = some e' → SameConst get get' e e' := by
          intro i e e' hi hi'
          have hm := List.mem_of_getElem? hi
          have b1 := constPieces_agg_isSome.1 hs e hm
          obtain ⟨y, hy⟩ : ∃ y, get e = some y := by
            cases hg : get e with
            | none => unfold elemPieces at b1; rw [hg] at b1; cases b1
            | some y => exact ⟨y, rfl⟩
          refine ih e hm n y e' b1 hy ?_
          rw [hes e hm y hy]
          exact h3 i _ e' (by rw [← hes', List.getElem?_map, hi]; rfl) hi'
        obtain ⟨hne', t2, ht2, hes2⟩ := hc'.agg _ _ _ a1 a3
        refine .agg h a1 ?_ hk a3 hlen elems
        rw [ht, ht2, ← hlen]
        congr 1
        cases es with
        | nil => exact absurd rfl hne
        | cons e es =>
          cases vs with
          | nil => exact absurd rfl hne'
          | cons e' vs =>
            obtain ⟨z, z', c1, c2, c3⟩ := (elems 0 e e' rfl rfl).tys
            rw [← hes e List.mem_cons_self z c1, ← hes2 e' List.mem_cons_self z' c2, c3]

/-! ### Global variables -/

theorem FromText.layout {p : Program} {gs : List GlobalAst} {vars : List (Str × Value)} {fns : List (Str × Func)} (A : FromText p gs vars fns) :
    p.instLayout = vars.map (·.2) ∧ p.funcLayout = fns.map (·.2) := ⟨A.insts, A.fns⟩

section
variable {p' : Program} {gs : List GlobalAst} {vars : List (Str × Value)} {fns : List (Str × Func)} (A : FromText p' gs vars fns)
include A

theorem FromText.hasTy_unique {f : Func} {v : Value} {t t' : Ty} (h : HasTy p' f v t) (h' : HasTy p' f v t') : t = t' := by
  obtain ⟨x, h1, rfl⟩ := h
  obtain ⟨y, h2, rfl⟩ := h'
  have : x = y := by
    rcases h1 with h1 | h1 <;> rcases h2 with h2 | h2
    · have h1 : p'.values.get? v = some x := h1
      have h2 : p'.values.get? v = some y := h2
      rw [h1] at h2; cases h2; rfl
    · exact (A.apart h2 h1).elim
    · exact (A.apart h1 h2).elim
    · exact localVal_unique h1 h2
  rw [this]

theorem FromText.constTyped : ConstTyped p'.values.get? :=
  .of (H := GlobalHasTy p') (fun u x h => A.inv.wellTyped.globals u x h) (fun u x t h ⟨y, h1, h2⟩ => by
    have h1 : p'.values.get? u = some y := h1
    rw [h] at h1; cases h1; exact h2)

theorem FromText.constTypedIn {f : Func} {fd : FData} (hf : p'.funcs.get? f = some fd) : ConstTyped fd.dfg.values.get? :=
  .of (H := HasTy p' f) (fun u x h => A.inv.wellTyped.locals f u x ⟨fd, hf, h⟩) (fun u x t h ht =>
    A.hasTy_unique ⟨x, .inr ⟨fd, hf, h⟩, rfl⟩ ht)

end

/-- Global variables of `p` and what is read from the tree. -/
theorem same_globals {p p' : Program} (hp : Printable p) {gs : List GlobalAst} {vars : List (Str × Value)} {fns : List (Str × Func)}
    (A : FromText p' gs vars fns) (G : Nm) (h : All2 (fun v q => GlobAt p' (globalAst p G v) q) p.instLayout vars) :
    All2 (fun v (q : Str × Value) => q.1 = G.glob v ∧ ∃ x x' i i', GlobalVal p v x ∧ GlobalVal p' q.2 x' ∧ x.ty = x'.ty ∧ x.kind = .globalAlloc i ∧
      x'.kind = .globalAlloc i' ∧ SameConst p.values.get? p'.values.get? i i' ∧ x'.name = keptName q.1) p.instLayout vars := by
  refine h.imp (fun v hv q hq => ?_)
  obtain ⟨x, i, y, h1, h2, h3, h4, h5, h6, h7⟩ := globalAst_def hp G hv
  obtain ⟨ty, init, e1, x', i', y', t, b1, b2, b3, b4, b5, b6, b7⟩ := hq
  rw [h7] at e1
  obtain ⟨e0, e2, e3⟩ := GlobalAst.globalDef.inj e1
  subst e2 e3
  have ht := TyIs_unique b6 (astOf_is h5)
  subst ht
  have sc := same_const (global_typed hp) A.constTyped (den := GDenotes p') (fun v t k ⟨x, c1, c2, c3⟩ => ⟨x, c1, c2, c3⟩) h6 _ y i' h6.fuel h3 b7
  refine ⟨e0.symm, x, x', i, i', h1, b1, ?_, h2, b3, sc, b2⟩
  obtain ⟨z, z', c1, c2, c3⟩ := sc.tys
  have h3 : p.values.get? i = some y := h3
  have b4 : p'.values.get? i' = some y' := b4
  rw [h3] at c1; cases c1
  rw [b4] at c2; cases c2
  rw [h4, b5, c3]

/-! ### The values of a function -/

/-- The function read from the tree of a function. -/
structure ReadFun (p : Program) (before : List Func) (f : Func) (fd : FData) (M : Nm) (p' : Program) (vars : List (Str × Value))
    (fns' : List (Str × Func)) (f' : Func) (fd' : FData) (r r' : Ty) : Prop where
  get : p'.funcs.get? f' = some fd'
  is : FunIs p' (fun n v => (n, v) ∈ vars) (fun n g => (n, g) ∈ fns') f' fd' (M.fn f) (paramsOf fd M fd.params) (retAst r) (orderOf fd M)
    (orderOf fd M) r'
  insts : p'.instLayout = vars.map (·.2)
  vars : All2 (fun v (q : Str × Value) => q.1 = M.glob v ∧ ∃ x x', GlobalVal p v x ∧ GlobalVal p' q.2 x' ∧ x.ty = x'.ty) p.instLayout vars
  fns : ∀ g ∈ before ++ [f], ∀ g', (M.fn g, g') ∈ fns' → SamePlace p p' g g' ∧ ∀ t t', FuncTy p g t → FuncTy p' g' t' → t = t'

/-- The values stand at the same place. -/
def At (p p' : Program) (fd fd' : FData) (a : Place) (v v' : Value) : Prop := valueAt p fd a = some v ∧ valueAt p' fd' a = some v'

section
variable {p : Program} (hp : Printable p) {before : List Func} {f : Func} {fd : FData} {ts : List Ty} {r : Ty}
  (hf : p.funcs.get? f = some fd) (hb : PrintableBody p before f fd ts r) {M : Nm} (hg : GNmOk p M) (hm : NmOk p fd M)
  {p' : Program} {gs : List GlobalAst} {vars : List (Str × Value)} {fns : List (Str × Func)} (A : FromText p' gs vars fns)
  {fns' : List (Str × Func)} {f' : Func} {fd' : FData} {r' : Ty} (F : ReadFun p before f fd M p' vars fns' f' fd' r r')

/-- What a statement of the read function refers to. -/
abbrev envR (p' : Program) (vars : List (Str × Value)) (fns' : List (Str × Func)) (fd fd' : FData) (M : Nm) (f' : Func) (r' : Ty) (n : Str) (w : Value) : Env :=
  envOf p' (fun n v => (n, v) ∈ vars) (fun n g => (n, g) ∈ fns') f' (paramsOf fd M fd.params) fd'.params fd'.layout.bbs (orderOf fd M) r' n w

include F in
theorem lay_pair {j : Nat} {q' : BB × List Value} (hj : fd'.layout.bbs[j]? = some q') : ∃ q, fd.layout.bbs[j]? = some q ∧
    (∃ x, Block p' f' q'.1 x ∧ x.name = keptName (M.bb q.1) ∧ ParamsFrom p' f' VKind.blockArgRef (paramsOf fd M (paramsAt fd q.1)) x.params) ∧
    All2 (fun w v => ∃ x, LocalVal p' f' w x ∧ x.name = stmtName (stmtAst fd M v) ∧
      StmtIs (envR p' vars fns' fd fd' M f' r' (M.bb q.1) w) (stmtAst fd M v) x.ty x.kind) q'.2 q.2 := by
  obtain ⟨b, h1, h2, h3⟩ := Raw.All2.get_left F.is.blocks hj
  unfold orderOf at h1
  rw [List.getElem?_map] at h1
  obtain ⟨q, h4, rfl⟩ := Option.map_eq_some_iff.1 h1
  refine ⟨q, h4, ?_, ?_⟩
  · obtain ⟨x, a1, a2, a3⟩ := h2
    refine ⟨x, a1, a2, ?_⟩
    have e : (blockAst fd M q).params = paramsOf fd M (paramsAt fd q.1) := by
      unfold blockAst paramsAt paramsOf
      cases fd.dfg.bbs.get? q.1 <;> rfl
    rw [← e]; exact a3
  · have : ∀ {ws vs : List Value}, All2 (fun w st => ∃ x, LocalVal p' f' w x ∧ x.name = stmtName st ∧
        StmtIs (envR p' vars fns' fd fd' M f' r' (M.bb q.1) w) st x.ty x.kind) ws (vs.map (stmtAst fd M)) →
        All2 (fun w v => ∃ x, LocalVal p' f' w x ∧ x.name = stmtName (stmtAst fd M v) ∧
      StmtIs (envR p' vars fns' fd fd' M f' r' (M.bb q.1) w) (stmtAst fd M v) x.ty x.kind) ws vs := by
      intro ws vs h
      induction vs generalizing ws with
      | nil => cases h; exact .nil
      | cons v vs ih => cases h with | cons a b => exact .cons a (ih b)
    exact this h3

include F in
theorem lay_len : fd'.layout.bbs.length = fd.layout.bbs.length := by
  have := F.is.blocks.length
  unfold orderOf at this
  rwa [List.length_map] at this

include hg F in
theorem glob_place {v v' : Value} (hv : v ∈ p.instLayout) (h : (M.glob v, v') ∈ vars) :
    ∃ k : Nat, p.instLayout[k]? = some v ∧ p'.instLayout[k]? = some v' ∧ ∃ x x', GlobalVal p v x ∧ GlobalVal p' v' x' ∧ x.ty = x'.ty := by
  obtain ⟨k, hk⟩ := List.getElem?_of_mem h
  have hl : k < p.instLayout.length := by
    rw [F.vars.length]; exact (List.getElem?_eq_some_iff.1 hk).1
  obtain ⟨q, h1, h2, h3⟩ := Raw.All2.get_left F.vars (List.getElem?_eq_getElem hl)
  rw [hk] at h1; cases h1
  have e := hg.injGlob _ (List.getElem_mem hl) v hv h2.symm
  rw [e] at h3
  refine ⟨k, by rw [← e]; exact List.getElem?_eq_getElem hl, ?_, h3⟩
  rw [F.insts, List.getElem?_map, hk]; rfl

include F in
theorem glob_known {v : Value} (hv : v ∈ p.instLayout) : ∃ v', (M.glob v, v') ∈ vars := by
  obtain ⟨k, hk⟩ := List.getElem?_of_mem hv
  obtain ⟨⟨n, v'⟩, h1, h2, -⟩ := Raw.All2.get_left F.vars hk
  cases h2
  exact ⟨v', List.mem_of_getElem? h1⟩

include F in
theorem glob_name {n : Str} {v' : Value} (h : (n, v') ∈ vars) : ∃ v ∈ p.instLayout, n = M.glob v := by
  obtain ⟨k, hk⟩ := List.getElem?_of_mem h
  have hl : k < p.instLayout.length := by
    rw [F.vars.length]; exact (List.getElem?_eq_some_iff.1 hk).1
  obtain ⟨q, h1, h2, h3⟩ := Raw.All2.get_left F.vars (List.getElem?_eq_getElem hl)
  rw [hk] at h1; cases h1
  exact ⟨_, List.getElem_mem hl, h2⟩

include hp hf hb hm F in
theorem local_place {n : Str} {v v' : Value} (hv : HasName fd v)
    (h : Defines p' f' (paramsOf fd M fd.params) fd'.params fd'.layout.bbs (orderOf fd M) n (M.val v) v') : ∃ a, At p p' fd fd' a v v' := by
  have inj := fun u (hu : HasName fd u) (he : M.val u = M.val v) => hm.injVal u v hu hv he
  have pg : ∀ {vs : List Value} {i : Nat} {s : Str} {a : TyAst}, (paramsOf fd M vs)[i]? = some (s, a) → ∃ u, vs[i]? = some u ∧ M.val u = s := by
    intro vs i s a h
    unfold paramsOf at h
    rw [List.getElem?_map] at h
    obtain ⟨u, hu, he⟩ := Option.map_eq_some_iff.1 h
    exact ⟨u, hu, congrArg Prod.fst he⟩
  generalize hs : M.val v = s at h
  cases h with
  | @arg b i _ a _ h1 h2 h3 =>
    obtain ⟨u, hu, he⟩ := pg h2
    have := inj u (.arg (List.mem_of_getElem? hu)) (by rw [he, hs])
    subst this
    exact ⟨.arg i, hu, h3⟩
  | @param b j i h is x _ a _ h1 h2 h3 h4 h5 =>
    obtain ⟨q, a1, -, -⟩ := lay_pair F h2
    have e : b = blockAst fd M q := by
      rw [order_get a1] at h1; cases h1; rfl
    subst e
    have e : (blockAst fd M q).params = paramsOf fd M (paramsAt fd q.1) := by
      unfold blockAst paramsAt paramsOf
      cases fd.dfg.bbs.get? q.1 <;> rfl
    rw [e] at h4
    obtain ⟨u, hu, he⟩ := pg h4
    obtain ⟨y, b1, -⟩ := hb.blocks q.1 q.2 (List.mem_of_getElem? a1)
    have hu' : y.params[i]? = some u := by unfold paramsAt at hu; rw [b1] at hu; exact hu
    have := inj u (.param (List.mem_of_getElem? a1) b1 (List.mem_of_getElem? hu')) (by rw [he, hs])
    subst this
    obtain ⟨fd'', c1, c2⟩ := h3
    rw [F.get] at c1; cases c1
    refine ⟨.param (j + 1) i, ?_, ?_⟩
    · simp only [valueAt, a1, b1, hu']
    · simp only [valueAt, h2, c2, h5]
  | @inst b j i h is _ e _ h1 h2 h3 h4 =>
    obtain ⟨q, a1, -, -⟩ := lay_pair F h2
    have eb : b = blockAst fd M q := by
      rw [order_get a1] at h1; cases h1; rfl
    subst eb
    simp only [blockAst, List.getElem?_map] at h3
    obtain ⟨u, hu, he⟩ := Option.map_eq_some_iff.1 h3
    have hqm := List.mem_of_getElem? a1
    have hum := List.mem_of_getElem? hu
    obtain ⟨x, hx, -⟩ := hb.insts j i q.1 q.2 u a1 hu
    have hnu : x.ty ≠ .unit := fun hu => stmt_nodef hp hf hb hqm hum hx hu _ _ he
    obtain ⟨e', he'⟩ := stmt_names hp hf hb M hqm hum hx hnu
    rw [he] at he'
    have := inj u (.inst hqm hum hx hnu) (by cases he'; rw [hs])
    subst this
    refine ⟨.inst j i, ?_, ?_⟩
    · simp only [valueAt, a1, hu]
    · simp only [valueAt, h2, h4]

/-- The types of the values agree. -/
def Agree (p p' : Program) (f f' : Func) (v v' : Value) : Prop := ∀ t, HasTy p f v t → HasTy p' f' v' t

include hp hf hb hg hm F in
/-- A symbol refers to the value at the same place. -/
theorem sym_place {n : Str} {w v v' : Value} {j i : Nat} (hv : Visible p f fd j i v) (h : (envR p' vars fns' fd fd' M f' r' n w).sym (symOf M v) v') :
    ∃ a, At p p' fd fd' a v v' ∧ ((∃ j i, a = .inst j i) → v' < w) := by
  unfold symOf at h
  rcases visible_has hp hf hb hv with ⟨h0, h1⟩ | ⟨h0, h1⟩
  · rw [if_pos h0] at h
    rcases h with h | ⟨h, -⟩
    · obtain ⟨k, a1, a2, -⟩ := glob_place hg F h1 h
      exact ⟨.global k, ⟨a1, a2⟩, by rintro ⟨_, _, h⟩; cases h⟩
    · obtain ⟨v', h2⟩ := glob_known F h1
      exact absurd h2 (h v')
  · rw [if_neg (by simp [h0])] at h
    rcases h with h | ⟨-, n', h, hl, -⟩
    · obtain ⟨u, hu, he⟩ := glob_name F h
      exact absurd he (hm.apart v u h1 hu)
    · obtain ⟨a, ha⟩ := local_place hp hf hb hm F h1 h
      exact ⟨a, ha, fun _ => hl⟩

include hp hf hb hg F in
/-- Values that are no instructions have the same types. -/
theorem place_agree (hE : ∀ t ∈ ts, Expressible t) {a : Place} {v v' : Value} (h : At p p' fd fd' a v v') (ha : ¬ ∃ j i, a = .inst j i) : Agree p p' f f' v v' := by
  intro t ht
  obtain ⟨h1, h2⟩ := h
  cases a with
  | inst j i => exact absurd ⟨j, i, rfl⟩ ha
  | global k =>
    have h1 : p.instLayout[k]? = some v := h1
    have h2 : p'.instLayout[k]? = some v' := h2
    obtain ⟨q, a1, a2, x, x', a3, a4, a5⟩ := Raw.All2.get_left F.vars h1
    rw [F.insts, List.getElem?_map, a1] at h2
    cases h2
    obtain ⟨y, b1, b2⟩ := ht
    rcases b1 with b1 | b1
    · have a3 : p.values.get? v = some x := a3
      have b1 : p.values.get? v = some y := b1
      rw [a3] at b1; cases b1
      exact ⟨x', .inl a4, by rw [← a5, b2]⟩
    · have := hp.localId f v y b1
      rw [hp.globalId v x a3] at this; cases this
  | arg k =>
    have h1 : fd.params[k]? = some v := h1
    have h2 : fd'.params[k]? = some v' := h2
    obtain ⟨x, a1, -, a3⟩ := hb.params.2 k v h1
    obtain ⟨x', b1, b2, b3, b4⟩ := F.is.hasParams.2 k (paramAst fd M v) v' (by unfold paramsOf; rw [List.getElem?_map, h1]; rfl) h2
    refine ⟨x', .inr b1, ?_⟩
    simp only [paramAst, a1] at b3
    rw [← hasTy_local hp hf a1 ht]
    exact TyIs_unique b3 (astOf_is (hE _ (List.mem_of_getElem? a3)))
  | param j k =>
    simp only [valueAt] at h1 h2
    rcases hl' : fd'.layout.bbs[j]? with _ | q'
    · rw [hl'] at h2; cases h2
    · obtain ⟨q, c1, ⟨y', c2, c3, c4⟩, -⟩ := lay_pair F hl'
      obtain ⟨y, d1, d2⟩ := hb.blocks q.1 q.2 (List.mem_of_getElem? c1)
      obtain ⟨fd'', e1, e2⟩ := c2
      rw [F.get] at e1; cases e1
      have e2 : fd'.dfg.bbs.get? q'.1 = some y' := e2
      simp only [c1, d1] at h1
      simp only [hl', e2] at h2
      obtain ⟨x, f1, -, f3⟩ := d2 k v h1
      obtain ⟨x', b1, b2, b3, b4⟩ := c4.2 k (paramAst fd M v) v' (by
        unfold paramsOf paramsAt; rw [d1]; simp only [List.getElem?_map, h1]; rfl) h2
      refine ⟨x', .inr b1, ?_⟩
      simp only [paramAst, f1] at b3
      rw [← hasTy_local hp hf f1 ht]
      exact TyIs_unique b3 (astOf_is f3)

/-! ### Operands and instructions -/

include hb hm F in
theorem block_place {n : Str} {w : Value} {t tb : BB} (ht : ∃ q ∈ fd.layout.bbs, q.1 = t) (h : (envR p' vars fns' fd fd' M f' r' n w).bb (M.bb t) tb) :
    ∃ (j : Nat) (q q' : BB × List Value), fd.layout.bbs[j]? = some q ∧ fd'.layout.bbs[j]? = some q' ∧ q.1 = t ∧ q'.1 = tb := by
  obtain ⟨j, blk, is, h1, h2, h3⟩ := h
  obtain ⟨q, a1, -, -⟩ := lay_pair F h3
  rw [order_get a1] at h1; cases h1
  obtain ⟨q0, hq0, rfl⟩ := ht
  exact ⟨j, q, _, a1, h3, hm.injBb q (List.mem_of_getElem? a1) q0 hq0 h2, rfl⟩

include hp hf hb hg A F in
theorem block_tys (hE : ∀ t ∈ ts, Expressible t) {j : Nat} {q q' : BB × List Value} (h1 : fd.layout.bbs[j]? = some q) (h2 : fd'.layout.bbs[j]? = some q') {us us' : List Ty}
    (hu : ParamTys p f q.1 us) (hu' : ParamTys p' f' q'.1 us') : us = us' := by
  obtain ⟨x, ⟨_, a1, a2⟩, a3⟩ := hu
  obtain ⟨x', ⟨_, b1, b2⟩, b3⟩ := hu'
  rw [hf] at a1; cases a1
  rw [F.get] at b1; cases b1
  obtain ⟨q0, c1, ⟨y', ⟨_, e1, e2⟩, c3, c4⟩, -⟩ := lay_pair F h2
  rw [h1] at c1; cases c1
  rw [F.get] at e1; cases e1
  have b2 : fd'.dfg.bbs.get? q'.1 = some x' := b2
  have e2 : fd'.dfg.bbs.get? q'.1 = some y' := e2
  have a2 : fd.dfg.bbs.get? q.1 = some x := a2
  rw [b2] at e2; cases e2
  have hlen : x'.params.length = x.params.length := by
    have := c4.1
    unfold paramsOf paramsAt at this
    rw [a2] at this
    simpa using this
  apply List.ext_getElem?
  intro k
  rcases hk : x.params[k]? with _ | v
  · have h3 : us[k]? = none := by
      rw [List.getElem?_eq_none_iff, ← a3.length]; rwa [List.getElem?_eq_none_iff] at hk
    have h4 : us'[k]? = none := by
      rw [List.getElem?_eq_none_iff, ← b3.length, hlen]; rwa [List.getElem?_eq_none_iff] at hk
    rw [h3, h4]
  · obtain ⟨t, d1, d2⟩ := Raw.All2.get_left a3 hk
    have hk' : k < x'.params.length := by rw [hlen]; exact (List.getElem?_eq_some_iff.1 hk).1
    obtain ⟨t', d3, d4⟩ := Raw.All2.get_left b3 (List.getElem?_eq_getElem hk')
    have := place_agree hp hf hb hg F hE (a := .param j k) (v := v) (v' := x'.params[k]) ⟨by simp only [valueAt, h1, a2, hk], by
      simp only [valueAt, h2, b2]; exact List.getElem?_eq_getElem hk'⟩ (by rintro ⟨_, _, h⟩; cases h) t d2
    rw [d1, d3, A.hasTy_unique this d4]

include hp hf A F in
theorem const_place {n : Str} {w v v' : Value} {t : Ty} (hc : Constant fd.dfg.values.get? v) (ht : HasTy p f v t)
    (h : OperandIs (envR p' vars fns' fd fd' M f' r' n w) (valAst fd M v) t v') : SameOperand p p' fd fd' v v' := by
  obtain ⟨y, hy⟩ : ∃ y, fd.dfg.values.get? v = some y := by
    cases hc with
    | int h _ => exact ⟨_, h⟩
    | undef h _ => exact ⟨_, h⟩
    | zero h _ => exact ⟨_, h⟩
    | agg h _ _ => exact ⟨_, h⟩
  have e := hasTy_local hp hf hy ht
  subst e
  rw [local_const hp hf hc] at h
  have nosym : ∀ s, elemAst fd.dfg.values.get? (fd.dfg.values.entries.length + 1) v ≠ .sym s := by
    intro s hs
    have := const_ok (local_typed hp hf) hc _ y hc.fuel hy
    rw [hs] at this
    cases this
  generalize ha : elemAst fd.dfg.values.get? (fd.dfg.values.entries.length + 1) v = a at h
  cases h with
  | sym => exact absurd ha (nosym _)
  | const h =>
    rw [← ha] at h
    refine .inr (same_const (local_typed hp hf) (A.constTypedIn F.get) (den := LDenotes p' f') (fun v t k h => ?_) hc _ y v' hc.fuel hy h)
    obtain ⟨x, ⟨fd'', h1, h2⟩, h3, h4⟩ := h
    rw [F.get] at h1; cases h1
    exact ⟨x, h2, h3, h4⟩

/-- What is known when the instruction `w` is looked at: the types of values before it agree. -/
def SeenTyped (p p' : Program) (f f' : Func) (fd fd' : FData) (w : Value) : Prop :=
  ∀ a v v', At p p' fd fd' a v v' → ((∃ j i, a = .inst j i) → v' < w) → Agree p p' f f' v v'

section
variable {n : Str} {w : Value} {j i : Nat} (K : SeenTyped p p' f f' fd fd' w)

include hp hf hb hg hm F K in
theorem sym_same {v v' : Value} (hv : Visible p f fd j i v) (h : (envR p' vars fns' fd fd' M f' r' n w).sym (symOf M v) v') :
    SameOperand p p' fd fd' v v' ∧ Agree p p' f f' v v' := by
  obtain ⟨a, h1, h2⟩ := sym_place hp hf hb hg hm F hv h
  exact ⟨.inl ⟨a, h1⟩, K a v v' h1 h2⟩

include hp hf hb hg hm A F K in
theorem val_same {v v' : Value} {t : Ty} (hv : Usable p f fd j i v) (ht : HasTy p f v t)
    (h : OperandIs (envR p' vars fns' fd fd' M f' r' n w) (valAst fd M v) t v') : SameOperand p p' fd fd' v v' := by
  rcases hv with hv | ⟨x, h1, ⟨m, h2⟩ | h2⟩
  · rw [(named_value hp M (visible_named hp hf hb hv)).1] at h
    cases h with
    | sym h1 _ => exact (sym_same hp hf hb hg hm F K hv h1).1
    | const h => cases h
  · exact const_place hp hf A F (.int h1 h2) ht h
  · exact const_place hp hf A F (.undef h1 h2) ht h

include hp hf hb hg hm A F K in
theorem vals_same {as as' : List Value} {us : List Ty} (hv : ∀ v ∈ as, Usable p f fd j i v) (ht : All2 (HasTy p f) as us)
    (h : ArgsAre (envR p' vars fns' fd fd' M f' r' n w) (as.map (valAst fd M)) us as') : All2 (SameOperand p p' fd fd') as as' := by
  induction ht generalizing as' with
  | nil => cases h; exact .nil
  | cons h1 _ ih =>
    cases h with
    | cons h2 h3 => exact .cons (val_same hp hf hb hg hm A F K (hv _ List.mem_cons_self) h1 h2) (ih (fun v hv' => hv v (List.mem_cons_of_mem _ hv')) h3)

include hp hf hb hg hm A F K in
theorem inst_same (hE : ∀ t ∈ ts, Expressible t) (hr : r = r') {b : BB} {is : List Value} {v : Value} {x x' : VData}
    (hj : fd.layout.bbs[j]? = some (b, is)) (hi : is[i]? = some v) (hx : fd.dfg.values.get? v = some x) (hx' : LocalVal p' f' w x')
    (hst : StmtIs (envR p' vars fns' fd fd' M f' r' n w) (stmtAst fd M v) x'.ty x'.kind) :
    x.ty = x'.ty ∧ SameKind (SameOperand p p' fd fd') (SameBlock fd fd') (SamePlace p p') x.kind x'.kind := by
  obtain ⟨y, h1, hw⟩ := hb.insts j i b is v hj hi
  rw [hx] at h1; cases h1
  have hbm := List.mem_of_getElem? hj
  have hvm := List.mem_of_getElem? hi
  have hT := hp.typed.locals f v x ⟨fd, hf, hx⟩
  have hT' := A.inv.wellTyped.locals f' w x' hx'
  have tg : ∀ c ∈ targets x.kind, ∃ q ∈ fd.layout.bbs, q.1 = c := fun c hc => target_listed hb hbm hvm hx hc
  have sy := fun {s s'} => sym_same hp hf hb hg hm F (n := n) K (j := j) (i := i) (v := s) (v' := s')
  have vl := fun {s s' t} => val_same hp hf hb hg hm A F (n := n) K (j := j) (i := i) (v := s) (v' := s') (t := t)
  have vls := fun {s s' t} => vals_same hp hf hb hg hm A F (n := n) K (j := j) (i := i) (as := s) (as' := s') (us := t)
  have uq := fun {u t t'} => A.hasTy_unique (f := f') (v := u) (t := t) (t' := t')
  have blk : ∀ {t tb us us'}, t ∈ targets x.kind → (envR p' vars fns' fd fd' M f' r' n w).bb (M.bb t) tb → ParamTys p f t us → ParamTys p' f' tb us' →
      SameBlock fd fd' t tb ∧ us = us' := by
    intro t tb us us' h1 h2 h3 h4
    obtain ⟨k, q, q', a1, a2, rfl, rfl⟩ := block_place hb hm F (tg t h1) h2
    refine ⟨⟨k, by rw [List.getElem?_map, a1]; rfl, by rw [List.getElem?_map, a2]; rfl⟩, block_tys hp hf hb hg A F hE a1 a2 h3 h4⟩
  unfold stmtAst at hst
  simp only [hx] at hst
  obtain ⟨ty, name, kind, usedBy⟩ := x
  obtain ⟨ty', name', kind', usedBy'⟩ := x'
  simp only at hw hT hT' hst tg blk ⊢
  clear hx hx'
  cases hw with
  | alloc ht =>
    cases hst with
    | «def» h _ =>
      cases h with
      | alloc h => rw [TyIs_unique h (astOf_is ht)]; exact ⟨rfl, .alloc⟩
  | load hs ht =>
    cases hst with
    | «def» h _ =>
      cases h with
      | load h =>
        cases hT with
        | load h1 =>
          cases hT' with
          | load h2 =>
            obtain ⟨a1, a2⟩ := sy hs h
            have := uq (a2 _ h1) h2
            cases this
            exact ⟨rfl, .load a1⟩
  | store hv hd =>
    cases hst with
    | store h1 h2 h3 =>
      cases hT with
      | store h4 h5 =>
        cases hT'
        obtain ⟨a1, a2⟩ := sy hd h1
        have := uq (a2 _ h5) (denotes_hasTy.2 ⟨_, h2⟩)
        cases this
        refine ⟨rfl, .store ?_ a1⟩
        rcases hv with hv | hv
        · exact vl (.inl hv) h4 h3
        · exact const_place hp hf A F hv h4 h3
  | getPtr hs hi =>
    cases hst with
    | «def» h _ =>
      cases h with
      | getPtr h h' =>
        cases hT with
        | getPtr h1 h3 =>
          cases hT' with
          | getPtr h2 h4 =>
            obtain ⟨a1, a2⟩ := sy hs h
            have := uq (a2 _ h1) h2
            cases this
            exact ⟨rfl, .getPtr a1 (vl hi h3 h')⟩
  | getElemPtr hs hi =>
    cases hst with
    | «def» h _ =>
      cases h with
      | getElemPtr h h' =>
        cases hT with
        | getElemPtr h1 h3 =>
          cases hT' with
          | getElemPtr h2 h4 =>
            obtain ⟨a1, a2⟩ := sy hs h
            have := uq (a2 _ h1) h2
            cases this
            exact ⟨rfl, .getElemPtr a1 (vl hi h3 h')⟩
  | binary hs hi =>
    cases hst with
    | «def» h _ =>
      cases h with
      | binary h h' =>
        cases hT with
        | binary h1 h3 =>
          cases hT' with
          | binary h2 h4 => exact ⟨rfl, .binary (vl hs h1 h) (vl hi h3 h')⟩
  | branch hc h1 h2 =>
    cases hst with
    | branch a1 a2 a3 a4 a5 a6 a7 =>
      cases hT with
      | branch h3 h4 h5 h6 h7 h8 =>
        cases hT'
        obtain ⟨b1, rfl⟩ := blk List.mem_cons_self a2 h4 a3
        obtain ⟨b2, rfl⟩ := blk (List.mem_cons_of_mem _ List.mem_cons_self) a5 h5 a6
        exact ⟨rfl, .branch (vl hc h3 a1) b1 b2 (vls h1 h6 a4) (vls h2 h7 a7)⟩
  | jump h1 =>
    cases hst with
    | jump a1 a2 a3 =>
      cases hT with
      | jump h2 h3 =>
        cases hT'
        obtain ⟨b1, rfl⟩ := blk List.mem_cons_self a1 h2 a2
        exact ⟨rfl, .jump b1 (vls h1 h3 a3)⟩
  | @call g as _ hgm has =>
    have hc : ExprIs (envR p' vars fns' fd fd' M f' r' n w) (.call (M.fn g) (as.map (valAst fd M))) ty' kind' := by
      by_cases hu : ty = .unit
      · subst hu
        have hst : StmtIs _ (.call (M.fn g) (as.map (valAst fd M))) ty' kind' := hst
        cases hst with
        | call h => exact h
      · have hu' : ty.isUnit = false := by
          cases ty <;> first | rfl | exact absurd rfl hu
        simp only [kindAst, hu'] at hst
        cases hst with
        | «def» h _ => exact h
    cases hT with
    | call h1 h2 =>
      cases hc with
      | call c1 c2 c3 =>
        cases hT' with
        | call h3 h4 =>
          obtain ⟨d1, d2⟩ := F.fns g hgm _ c1
          have := d2 _ _ h1 c2
          cases this
          have := d2 _ _ h1 h3
          cases this
          exact ⟨rfl, .call d1 (vls has h2 c3)⟩
  | retNone h =>
    cases hst
    cases hT; cases hT'
    exact ⟨rfl, .retNone⟩
  | ret h hv hh =>
    cases hst with
    | ret h1 h2 =>
      cases hT; cases hT'
      exact ⟨rfl, .ret (vl hv hh (by rw [hr]; exact h2))⟩

end

include hp hf hb hg hm A F in
/-- The types of values at the same places agree. -/
theorem known (hE : ∀ t ∈ ts, Expressible t) (hr : r = r') : ∀ w, SeenTyped p p' f f' fd fd' w := by
  intro w
  induction w using Nat.strongRecOn with
  | ind w ih =>
    intro a v v' ha hl
    by_cases hi : ∃ j i, a = .inst j i
    · have hlt := hl hi
      obtain ⟨j, i, rfl⟩ := hi
      obtain ⟨h1, h2⟩ := ha
      simp only [valueAt] at h1 h2
      rcases hl' : fd'.layout.bbs[j]? with _ | q'
      · rw [hl'] at h2; cases h2
      · obtain ⟨⟨b, is⟩, c1, -, c3⟩ := lay_pair F hl'
        simp only [c1] at h1
        simp only [hl'] at h2
        obtain ⟨u, d1, x', d2, d3, d4⟩ := Raw.All2.get_left c3 h2
        simp only [h1] at d1
        cases d1
        obtain ⟨x, hx, -⟩ := hb.insts j i b is v c1 h1
        have := (inst_same hp hf hb hg hm A F (ih v' hlt) hE hr c1 h1 hx d2 d4).1
        intro t ht
        exact ⟨x', .inr d2, by rw [← this, hasTy_local hp hf hx ht]⟩
    · exact place_agree hp hf hb hg F hE ha hi

end

end Koopa
