import Verif.Lemmas.Back.SameProg
import Verif.Lemmas.Back.Readable
/-!
Programs read from the same tree are the same.
-/
namespace Koopa
open Spec

/-! ### Places of definitions -/

/-- The block named `n` defines the symbol at this place of the function. -/
inductive DefAt (params : List (Str × TyAst)) (order : List BlockAst) (s : Str) : Str → Place → Prop where
  | arg {b : BlockAst} {i : Nat} {a : TyAst} : order[0]? = some b → params[i]? = some (s, a) → DefAt params order s b.name (.arg i)
  | param {b : BlockAst} {j i : Nat} {a : TyAst} : order[j + 1]? = some b → b.params[i]? = some (s, a) →
      DefAt params order s b.name (.param (j + 1) i)
  | inst {b : BlockAst} {j i : Nat} {e : ExprAst} : order[j]? = some b → b.stmts[i]? = some (.def s e) → DefAt params order s b.name (.inst j i)

/-- A walk ends in one way. -/
theorem Spec.Meets.unique {has : Str → Prop} {preds : Str → List Str} {vis wait : List Str} {r r' : Str} (h : Meets has preds vis wait r)
    (h' : Meets has preds vis wait r') : r = r' := by
  induction h with
  | seen hv _ ih =>
    cases h' with
    | seen _ h' => exact ih h'
    | here hn _ => exact absurd hv hn
    | next hn _ _ => exact absurd hv hn
  | here hn hh =>
    cases h' with
    | seen hv _ => exact absurd hv hn
    | here _ _ => rfl
    | next _ hx _ => exact absurd hh hx
  | next hn hx _ ih =>
    cases h' with
    | seen hv _ => exact absurd hv hn
    | here _ hh => exact absurd hh hx
    | next _ _ h' => exact ih h'

theorem flatMap_nodup_index {α β : Type} {g : α → List β} : ∀ {l : List α}, (l.flatMap g).Nodup → ∀ {j j' : Nat} {a a' : α} {x : β},
    l[j]? = some a → l[j']? = some a' → x ∈ g a → x ∈ g a' → j = j'
  | [], _, _, _, _, _, _, h, _, _, _ => by simp at h
  | b :: l, hn, j, j', a, a', x, h, h', hx, hx' => by
    rw [List.flatMap_cons, List.nodup_append] at hn
    obtain ⟨-, h2, h3⟩ := hn
    have mem : ∀ {k : Nat} {c : α}, l[k]? = some c → x ∈ g c → x ∈ l.flatMap g :=
      fun hk hc => List.mem_flatMap.2 ⟨_, List.mem_of_getElem? hk, hc⟩
    cases j with
    | zero =>
      cases j' with
      | zero => rfl
      | succ j' =>
        cases h
        exact absurd rfl (h3 _ hx _ (mem h' hx'))
    | succ j =>
      cases j' with
      | zero =>
        cases h'
        exact absurd rfl (h3 _ hx' _ (mem h hx))
      | succ j' => rw [flatMap_nodup_index h2 (j := j) (j' := j') h h' hx hx']

theorem flatMap_nodup_at {α β : Type} {g : α → List β} {l : List α} (h : (l.flatMap g).Nodup) {a : α} (ha : a ∈ l) : (g a).Nodup := by
  induction l with
  | nil => cases ha
  | cons b l ih =>
    rw [List.flatMap_cons, List.nodup_append] at h
    rcases List.mem_cons.1 ha with rfl | ha
    · exact h.1
    · exact ih h.2.1 ha

theorem map_nodup_index {α β : Type} {g : α → β} : ∀ {l : List α}, (l.map g).Nodup → ∀ {i i' : Nat} {a a' : α}, l[i]? = some a → l[i']? = some a' →
    g a = g a' → i = i' := by
  intro l h i i' a a' h1 h2 he
  have e1 : (l.map g)[i]? = some (g a) := by rw [List.getElem?_map, h1]; rfl
  have e2 : (l.map g)[i']? = some (g a) := by rw [List.getElem?_map, h2, he]; rfl
  obtain ⟨l1, e1⟩ := List.getElem?_eq_some_iff.1 e1
  obtain ⟨l2, e2⟩ := List.getElem?_eq_some_iff.1 e2
  exact (List.getElem_inj h).1 (e1.trans e2.symm)

theorem filterMap_nodup_index {α β : Type} {g : α → Option β} : ∀ {l : List α}, (l.filterMap g).Nodup → ∀ {i i' : Nat} {a a' : α} {x : β},
    l[i]? = some a → l[i']? = some a' → g a = some x → g a' = some x → i = i'
  | [], _, _, _, _, _, _, h, _, _, _ => by simp at h
  | b :: l, hn, i, i', a, a', x, h, h', hx, hx' => by
    have mem : ∀ {k : Nat} {c : α}, l[k]? = some c → g c = some x → x ∈ l.filterMap g :=
      fun hk hc => List.mem_filterMap.2 ⟨_, List.mem_of_getElem? hk, hc⟩
    have tl : (l.filterMap g).Nodup := by
      rw [List.filterMap_cons] at hn
      cases hg : g b with
      | none => rw [hg] at hn; exact hn
      | some y => rw [hg] at hn; exact (List.nodup_cons.1 hn).2
    have hd : g b = some x → x ∉ l.filterMap g := by
      intro hg
      rw [List.filterMap_cons, hg] at hn
      exact (List.nodup_cons.1 hn).1
    cases i with
    | zero =>
      cases i' with
      | zero => rfl
      | succ i' =>
        cases h
        exact absurd (mem h' hx') (hd hx)
    | succ i =>
      cases i' with
      | zero =>
        cases h'
        exact absurd (mem h hx) (hd hx')
      | succ i' => rw [filterMap_nodup_index tl (i := i) (i' := i') h h' hx hx']

theorem mem_defNames {b : BlockAst} {i : Nat} {s : Str} {e : ExprAst} (h : b.stmts[i]? = some (.def s e)) : s ∈ defNames b :=
  List.mem_filterMap.2 ⟨_, List.mem_of_getElem? h, rfl⟩

theorem mem_paramNames {b : BlockAst} {i : Nat} {s : Str} {a : TyAst} (h : b.params[i]? = some (s, a)) : s ∈ paramNames b :=
  List.mem_map.2 ⟨_, List.mem_of_getElem? h, rfl⟩

/-- A symbol is defined at one place, or by a parameter of the function and one of a block. -/
theorem DefAt.unique {gv : Str → Value → Prop} {params : List (Str × TyAst)} {order : List BlockAst} (hu : UniqueNames gv params order)
    (ho : (order.map (·.name)).Nodup) {s n n' : Str} {a a' : Place} (h : DefAt params order s n a) (h' : DefAt params order s n' a')
    (hn : s ∉ order.flatMap defNames → n = n') : a = a' := by
  have hl := hu.locals
  rw [List.nodup_append] at hl
  obtain ⟨n1, n2, n3⟩ := hl
  have pm : ∀ {i : Nat} {t : TyAst}, params[i]? = some (s, t) → s ∈ params.map (·.1) := fun h => List.mem_map.2 ⟨_, List.mem_of_getElem? h, rfl⟩
  have im : ∀ {j i : Nat} {b : BlockAst} {e : ExprAst}, order[j]? = some b → b.stmts[i]? = some (.def s e) → s ∈ order.flatMap defNames :=
    fun h1 h2 => List.mem_flatMap.2 ⟨_, List.mem_of_getElem? h1, mem_defNames h2⟩
  have bm : ∀ {j i : Nat} {b : BlockAst} {e : TyAst}, order[j]? = some b → b.params[i]? = some (s, e) → s ∈ order.flatMap paramNames :=
    fun h1 h2 => List.mem_flatMap.2 ⟨_, List.mem_of_getElem? h1, mem_paramNames h2⟩
  cases h with
  | arg h0 h1 =>
    cases h' with
    | arg _ h2 => rw [map_nodup_index hu.distinct h1 h2 rfl]
    | param h2 h3 => exact absurd (map_nodup_index ho h0 h2 (hn fun hd => hu.apart s hd (pm h1))) (by simp)
    | inst h2 h3 => exact absurd (pm h1) (hu.apart s (im h2 h3))
  | param h1 h2 =>
    cases h' with
    | arg h0 h3 => exact absurd (map_nodup_index ho h1 h0 (hn fun hd => hu.apart s hd (pm h3))) (by simp)
    | param h3 h4 =>
      have e := flatMap_nodup_index n1 h1 h3 (mem_paramNames h2) (mem_paramNames h4)
      cases e
      rw [h1] at h3; cases h3
      rw [map_nodup_index (flatMap_nodup_at n1 (List.mem_of_getElem? h1)) h2 h4 rfl]
    | inst h3 h4 => exact absurd rfl (n3 _ (bm h1 h2) _ (im h3 h4))
  | inst h1 h2 =>
    cases h' with
    | arg _ h3 => exact absurd (pm h3) (hu.apart s (im h1 h2))
    | param h3 h4 => exact absurd rfl (n3 _ (bm h3 h4) _ (im h1 h2))
    | inst h3 h4 =>
      have e := flatMap_nodup_index n2 h1 h3 (mem_defNames h2) (mem_defNames h4)
      cases e
      rw [h1] at h3; cases h3
      have := filterMap_nodup_index (flatMap_nodup_at n2 (List.mem_of_getElem? h1)) h2 h4 rfl rfl
      rw [this]

/-- A definition stands where the text defines the symbol. -/
theorem Spec.Defines.at {p : Program} {f : Func} {fd : FData} {params : List (Str × TyAst)} {order : List BlockAst} {n s : Str} {v : Value}
    (hf : p.funcs.get? f = some fd) (h : Defines p f params fd.params fd.layout.bbs order n s v) : ∃ a, DefAt params order s n a ∧ valueAt p fd a = some v := by
  cases h with
  | @arg b i _ a _ h1 h2 h3 => exact ⟨.arg i, .arg h1 h2, h3⟩
  | @param b j i h is x _ a _ h1 h2 h3 h4 h5 =>
    obtain ⟨_, c1, c2⟩ := h3
    rw [hf] at c1; cases c1
    exact ⟨.param (j + 1) i, .param h1 h4, by simp only [valueAt, h2, c2, h5]⟩
  | @inst b j i h is _ e _ h1 h2 h3 h4 => exact ⟨.inst j i, .inst h1 h3, by simp only [valueAt, h2, h4]⟩

theorem all2_right {α β : Type} {R : α → β → Prop} {as : List α} {bs : List β} (h : All2 R as bs) {i : Nat} {b : β} (hb : bs[i]? = some b) :
    ∃ a, as[i]? = some a ∧ R a b := by
  have hl : i < as.length := by rw [h.length]; exact (List.getElem?_eq_some_iff.1 hb).1
  obtain ⟨b', h1, h2⟩ := Raw.All2.get_left h (List.getElem?_eq_getElem hl)
  rw [hb] at h1; cases h1
  exact ⟨_, List.getElem?_eq_getElem hl, h2⟩

/-! ### Constants -/

/-- Constants read from the same tree at the same type are the same. -/
theorem const_twins {get get' : Value → Option VData} {den den' : Value → Ty → VKind → Prop} (hc : ConstTyped get) (hc' : ConstTyped get')
    (hd : ∀ v t k, den v t k → ∃ x, get v = some x ∧ x.ty = t ∧ x.kind = k) (hd' : ∀ v t k, den' v t k → ∃ x, get' v = some x ∧ x.ty = t ∧ x.kind = k)
    {a : ValAst} {t : Ty} {v : Value} (h : ConstIs den a t v) : ∀ {v' : Value}, ConstIs den' a t v' → SameConst get get' v v' := by
  have leaf : ∀ {t k v v'}, k.isConst = true → operands k = [] → den v t k → den' v' t k → SameConst get get' v v' := by
    intro t k v v' k1 k2 h h'
    obtain ⟨x, a1, a2, a3⟩ := hd _ _ _ h
    obtain ⟨x', b1, b2, b3⟩ := hd' _ _ _ h'
    exact .leaf a1 b1 (by rw [a2, b2]) (by rw [a3, b3]) (by rw [a3]; exact k1) (by rw [a3]; exact k2)
  have aggs : ∀ {t t' v v'} {es es' : List Value}, den v t (.aggregate es) → den' v' t' (.aggregate es') → es.length = es'.length →
      (∀ (i : Nat) e e', es[i]? = some e → es'[i]? = some e' → SameConst get get' e e') → SameConst get get' v v' := by
    intro t t' v v' es es' h h' hl elems
    obtain ⟨x, a1, a2, a3⟩ := hd _ _ _ h
    obtain ⟨x', b1, b2, b3⟩ := hd' _ _ _ h'
    obtain ⟨hne, u, hu, hes⟩ := hc.agg _ _ _ a1 a3
    obtain ⟨hne', u2, hu2, hes2⟩ := hc'.agg _ _ _ b1 b3
    refine .agg a1 b1 ?_ a3 b3 hl elems
    rw [hu, hu2, ← hl]
    congr 1
    cases es with
    | nil => exact absurd rfl hne
    | cons e es =>
      cases es' with
      | nil => exact absurd rfl hne'
      | cons e' es' =>
        obtain ⟨z, z', c1, c2, c3⟩ := (elems 0 e e' rfl rfl).tys
        rw [← hes e List.mem_cons_self z c1, ← hes2 e' List.mem_cons_self z' c2, c3]
  induction h with
  | int h => intro v' h'; cases h' with | int h' => exact leaf rfl rfl h h'
  | undef h => intro v' h'; cases h' with | undef h' => exact leaf rfl rfl h h'
  | zero h => intro v' h'; cases h' with | zero h' => exact leaf rfl rfl h h'
  | @agg es t _ _ vs h1 h2 h3 ih =>
    intro v' h'
    generalize hn : es.length = n at h'
    cases h' with
    | agg g1 g2 g3 =>
      refine aggs h1 g1 (by rw [h2, g2]) (fun i e e' hi hi' => ?_)
      have hl : i < es.length := by rw [← h2]; exact (List.getElem?_eq_some_iff.1 hi).1
      exact ih i _ e (List.getElem?_eq_getElem hl) hi (g3 i _ e' (List.getElem?_eq_getElem hl) hi')
  | @aggPtr es t _ _ vs h1 h2 h3 ih =>
    intro v' h'
    cases h' with
    | aggPtr g1 g2 g3 =>
      refine aggs h1 g1 (by rw [h2, g2]) (fun i e e' hi hi' => ?_)
      have hl : i < es.length := by rw [← h2]; exact (List.getElem?_eq_some_iff.1 hi).1
      exact ih i _ e (List.getElem?_eq_getElem hl) hi (g3 i _ e' (List.getElem?_eq_getElem hl) hi')

theorem tysIs_unique {as : List TyAst} {ts ts' : List Ty} (h : All2 TyIs as ts) (h' : All2 TyIs as ts') : ts = ts' :=
  all2_right_unique (R := TyIs) (fun _ _ _ h h' => TyIs_unique h h') h h'

/-! ### Functions -/

/-- Both functions are read from the same tree; what it refers to outside agrees. -/
structure Twins (p p' : Program) (vars vars' : List (Str × Value)) (fns fns' : List (Str × Func)) (f f' : Func) (fd fd' : FData) (name : Str)
    (params : List (Str × TyAst)) (ret : Option TyAst) (bbs order : List BlockAst) (r : Ty) : Prop where
  get : p.funcs.get? f = some fd
  get' : p'.funcs.get? f' = some fd'
  is : FunIs p (fun n v => (n, v) ∈ vars) (fun n g => (n, g) ∈ fns) f fd name params ret bbs order r
  is' : FunIs p' (fun n v => (n, v) ∈ vars') (fun n g => (n, g) ∈ fns') f' fd' name params ret bbs order r
  known : ∀ n v, (n, v) ∈ vars → ∃ v', (n, v') ∈ vars'
  known' : ∀ n v', (n, v') ∈ vars' → ∃ v, (n, v) ∈ vars
  vars : ∀ n v v', (n, v) ∈ vars → (n, v') ∈ vars' → ∃ k : Nat, p.instLayout[k]? = some v ∧ p'.instLayout[k]? = some v'
  tys : ∀ (k : Nat) v v', p.instLayout[k]? = some v → p'.instLayout[k]? = some v' → ∃ x x', GlobalVal p v x ∧ GlobalVal p' v' x' ∧ x.ty = x'.ty
  fns : ∀ n g g', (n, g) ∈ fns → (n, g') ∈ fns' → SamePlace p p' g g' ∧ ∀ t t', FuncTy p g t → FuncTy p' g' t' → t = t'

section
variable {p p' : Program} {gs gs' : List GlobalAst} {gvars gvars' : List (Str × Value)} {gfns gfns' : List (Str × Func)} (A : FromText p gs gvars gfns)
  (A' : FromText p' gs' gvars' gfns')
  {vars vars' : List (Str × Value)} {fns fns' : List (Str × Func)} {f f' : Func} {fd fd' : FData} {name : Str}
  {params : List (Str × TyAst)} {ret : Option TyAst} {bbs order : List BlockAst} {r : Ty}
  (T : Twins p p' vars vars' fns fns' f f' fd fd' name params ret bbs order r)

abbrev envL (p : Program) (vars : List (Str × Value)) (fns : List (Str × Func)) (f : Func) (fd : FData) (params : List (Str × TyAst)) (order : List BlockAst)
    (r : Ty) (n : Str) (w : Value) : Env :=
  envOf p (fun n v => (n, v) ∈ vars) (fun n g => (n, g) ∈ fns) f params fd.params fd.layout.bbs order r n w

include T in
theorem Twins.sym {n : Str} {w w' v v' : Value} {s : Str} (h : (envL p vars fns f fd params order r n w).sym s v)
    (h' : (envL p' vars' fns' f' fd' params order r n w').sym s v') : ∃ a, At p p' fd fd' a v v' ∧ ((∃ j i, a = .inst j i) → v' < w') := by
  rcases h with h | ⟨h, n1, h1, h2, h3, h4⟩
  · rcases h' with h' | ⟨h', -⟩
    · obtain ⟨k, a1, a2⟩ := T.vars s v v' h h'
      exact ⟨.global k, ⟨a1, a2⟩, by rintro ⟨_, _, h⟩; cases h⟩
    · obtain ⟨u, hu⟩ := T.known s v h
      exact absurd hu (h' u)
  · rcases h' with h' | ⟨h', n2, g1, g2, g3, g4⟩
    · obtain ⟨u, hu⟩ := T.known' s v' h'
      exact absurd hu (h u)
    · obtain ⟨a, a1, a2⟩ := h1.at T.get
      obtain ⟨b, b1, b2⟩ := g1.at T.get'
      obtain ⟨e, he⟩ := T.is.isOrder
      have hn : (order.map (·.name)).Nodup := by
        rw [he.breadth]
        exact firsts_nodup _ _
      have := a1.unique T.is.unique hn b1 (fun hd => (h4 hd).unique (g4 hd))
      subst this
      exact ⟨a, ⟨a2, b2⟩, fun _ => g2⟩

include T in
theorem Twins.block {j : Nat} {q : BB × List Value} (hq : fd.layout.bbs[j]? = some q) : ∃ q' b, fd'.layout.bbs[j]? = some q' ∧ order[j]? = some b ∧
    (∃ x x', fd.dfg.bbs.get? q.1 = some x ∧ fd'.dfg.bbs.get? q'.1 = some x' ∧ x.name = x'.name ∧ ParamsFrom p f VKind.blockArgRef b.params x.params ∧
      ParamsFrom p' f' VKind.blockArgRef b.params x'.params) ∧
    All2 (fun w st => ∃ x, LocalVal p f w x ∧ x.name = stmtName st ∧ StmtIs (envL p vars fns f fd params order r b.name w) st x.ty x.kind) q.2 b.stmts ∧
    All2 (fun w st => ∃ x, LocalVal p' f' w x ∧ x.name = stmtName st ∧ StmtIs (envL p' vars' fns' f' fd' params order r b.name w) st x.ty x.kind) q'.2 b.stmts := by
  obtain ⟨b, h1, ⟨x, ⟨_, h2, h2'⟩, h3, h4⟩, h5⟩ := Raw.All2.get_left T.is.blocks hq
  obtain ⟨q', g1, ⟨x', ⟨_, g2, g2'⟩, g3, g4⟩, g5⟩ := all2_right T.is'.blocks h1
  rw [T.get] at h2; cases h2
  rw [T.get'] at g2; cases g2
  exact ⟨q', b, g1, h1, ⟨x, x', h2', g2', by rw [h3, g3], h4, g4⟩, h5, g5⟩

include T in
theorem Twins.len : fd.layout.bbs.length = fd'.layout.bbs.length := by rw [T.is.blocks.length, T.is'.blocks.length]

theorem params_tyAgree {p p' : Program} {f f' : Func} {k : Nat → VKind} {ps : List (Str × TyAst)} {vs vs' : List Value} (h : ParamsFrom p f k ps vs) (h' : ParamsFrom p' f' k ps vs')
    {i : Nat} {v v' : Value} (hi : vs[i]? = some v) (hi' : vs'[i]? = some v') : ∃ x x', LocalVal p f v x ∧ LocalVal p' f' v' x' ∧ x.ty = x'.ty ∧ x.name = x'.name := by
  have hl : i < ps.length := by rw [← h.1]; exact (List.getElem?_eq_some_iff.1 hi).1
  obtain ⟨x, a1, a2, a3, -⟩ := h.2 i _ v (List.getElem?_eq_getElem hl) hi
  obtain ⟨x', b1, b2, b3, -⟩ := h'.2 i _ v' (List.getElem?_eq_getElem hl) hi'
  exact ⟨x, x', a1, b1, TyIs_unique a3 b3, by rw [a2, b2]⟩

include A in
theorem FromText.hasTy_at {v : Value} {x : VData} {t : Ty} (hx : LocalVal p f v x) (h : HasTy p f v t) : x.ty = t := A.hasTy_unique ⟨x, .inr hx, rfl⟩ h

include A T in
/-- Values that are no instructions have the same types. -/
theorem Twins.place_agree {a : Place} {v v' : Value} (h : At p p' fd fd' a v v') (ha : ¬ ∃ j i, a = .inst j i) : Agree p p' f f' v v' := by
  intro t ht
  obtain ⟨h1, h2⟩ := h
  cases a with
  | inst j i => exact absurd ⟨j, i, rfl⟩ ha
  | global k =>
    obtain ⟨x, x', a1, a2, a3⟩ := T.tys k v v' h1 h2
    exact ⟨x', .inl a2, by rw [← a3]; exact A.hasTy_unique ⟨x, .inl a1, rfl⟩ ht⟩
  | arg k =>
    obtain ⟨x, x', a1, a2, a3, -⟩ := params_tyAgree T.is.hasParams T.is'.hasParams h1 h2
    exact ⟨x', .inr a2, by rw [← a3]; exact A.hasTy_at a1 ht⟩
  | param j k =>
    simp only [valueAt] at h1 h2
    rcases hl : fd.layout.bbs[j]? with _ | q
    · rw [hl] at h1; cases h1
    · obtain ⟨q', b, c1, c2, ⟨y, y', c3, c4, c5, c6, c7⟩, -⟩ := T.block hl
      simp only [hl, c3] at h1
      simp only [c1, c4] at h2
      obtain ⟨x, x', a1, a2, a3, -⟩ := params_tyAgree c6 c7 h1 h2
      exact ⟨x', .inr a2, by rw [← a3]; exact A.hasTy_at a1 ht⟩

include T in
theorem Twins.label {n l : Str} {w w' : Value} {t t' : BB} (h : (envL p vars fns f fd params order r n w).bb l t)
    (h' : (envL p' vars' fns' f' fd' params order r n w').bb l t') :
    ∃ (j : Nat) (q q' : BB × List Value), fd.layout.bbs[j]? = some q ∧ fd'.layout.bbs[j]? = some q' ∧ q.1 = t ∧ q'.1 = t' := by
  obtain ⟨j, blk, is, h1, h2, h3⟩ := h
  obtain ⟨j', blk', is', g1, g2, g3⟩ := h'
  obtain ⟨e, he⟩ := T.is.isOrder
  have hn : (order.map (·.name)).Nodup := by
    have := he.breadth
    rw [this]
    exact firsts_nodup _ _
  have := map_nodup_index hn h1 g1 (by rw [h2, g2])
  subst this
  exact ⟨j, _, _, h3, g3, rfl, rfl⟩

include A A' T in
theorem Twins.block_tys {j : Nat} {q q' : BB × List Value} (h1 : fd.layout.bbs[j]? = some q) (h2 : fd'.layout.bbs[j]? = some q') {us us' : List Ty}
    (hu : ParamTys p f q.1 us) (hu' : ParamTys p' f' q'.1 us') : us = us' := by
  obtain ⟨x, ⟨_, a1, a2⟩, a3⟩ := hu
  obtain ⟨x', ⟨_, b1, b2⟩, b3⟩ := hu'
  rw [T.get] at a1; cases a1
  rw [T.get'] at b1; cases b1
  have a2 : fd.dfg.bbs.get? q.1 = some x := a2
  have b2 : fd'.dfg.bbs.get? q'.1 = some x' := b2
  obtain ⟨q0, b, c1, c2, ⟨y, y', c3, c4, c5, c6, c7⟩, -⟩ := T.block h1
  rw [h2] at c1; cases c1
  rw [a2] at c3; cases c3
  rw [b2] at c4; cases c4
  have hlen : x'.params.length = x.params.length := by rw [c6.1, c7.1]
  apply List.ext_getElem?
  intro k
  rcases hk : x.params[k]? with _ | v
  · have h3 : us[k]? = none := by
      rw [List.getElem?_eq_none_iff, ← a3.length]; rwa [List.getElem?_eq_none_iff] at hk
    have h4 : us'[k]? = none := by
      rw [List.getElem?_eq_none_iff, ← b3.length, hlen]; rwa [List.getElem?_eq_none_iff] at hk
    rw [h3, h4]
  · obtain ⟨t, d1, d2⟩ := Raw.All2.get_left a3 hk
    have hk' : k < x'.params.length := by rw [hlen]; exact (List.getElem?_eq_some_iff.1 hk).1
    obtain ⟨t', d3, d4⟩ := Raw.All2.get_left b3 (List.getElem?_eq_getElem hk')
    obtain ⟨z, z', e1, e2, e3, -⟩ := params_tyAgree c6 c7 hk (List.getElem?_eq_getElem hk')
    rw [d1, d3, ← A.hasTy_at e1 d2, ← A'.hasTy_at e2 d4, e3]

theorem lden_get {p : Program} {f : Func} {fd : FData} (hf : p.funcs.get? f = some fd) : ∀ v t k, LDenotes p f v t k →
    ∃ x, fd.dfg.values.get? v = some x ∧ x.ty = t ∧ x.kind = k := by
  rintro v t k ⟨x, ⟨_, h1, h2⟩, h3, h4⟩
  rw [hf] at h1; cases h1
  exact ⟨x, h2, h3, h4⟩

section
variable {n : Str} {w w' : Value} (K : SeenTyped p p' f f' fd fd' w')

include T K in
theorem Twins.sym_same {s : Str} {v v' : Value} (h : (envL p vars fns f fd params order r n w).sym s v)
    (h' : (envL p' vars' fns' f' fd' params order r n w').sym s v') : SameOperand p p' fd fd' v v' ∧ Agree p p' f f' v v' := by
  obtain ⟨a, h1, h2⟩ := T.sym h h'
  exact ⟨.inl ⟨a, h1⟩, K a v v' h1 h2⟩

include A A' T K in
theorem Twins.val_same {a : ValAst} {t : Ty} {v v' : Value} (h : OperandIs (envL p vars fns f fd params order r n w) a t v)
    (h' : OperandIs (envL p' vars' fns' f' fd' params order r n w') a t v') : SameOperand p p' fd fd' v v' := by
  cases h with
  | sym h1 h2 =>
    cases h' with
    | sym h3 h4 => exact (T.sym_same K h1 h3).1
    | const h => cases h
  | const h =>
    cases h' with
    | sym h3 h4 => cases h
    | const h' => exact .inr (const_twins (A.constTypedIn T.get) (A'.constTypedIn T.get') (lden_get T.get) (lden_get T.get') h h')

include A A' T K in
theorem Twins.vals_same {as : List ValAst} {ts : List Ty} {vs vs' : List Value} (h : ArgsAre (envL p vars fns f fd params order r n w) as ts vs)
    (h' : ArgsAre (envL p' vars' fns' f' fd' params order r n w') as ts vs') : All2 (SameOperand p p' fd fd') vs vs' := by
  induction h generalizing vs' with
  | nil => cases h'; exact .nil
  | cons h1 _ ih =>
    cases h' with
    | cons h2 h3 => exact .cons (T.val_same A A' K h1 h2) (ih h3)

include A A' T K in
theorem Twins.expr_same {e : ExprAst} {t t' : Ty} {k k' : VKind} (h : ExprIs (envL p vars fns f fd params order r n w) e t k)
    (h' : ExprIs (envL p' vars' fns' f' fd' params order r n w') e t' k') (hT : InstTy (HasTy p f) (ParamTys p f) (FuncTy p) k t)
    (hT' : InstTy (HasTy p' f') (ParamTys p' f') (FuncTy p') k' t') :
    t = t' ∧ SameKind (SameOperand p p' fd fd') (SameBlock fd fd') (SamePlace p p') k k' := by
  have uq := fun {u t t'} => A'.hasTy_unique (f := f') (v := u) (t := t) (t' := t')
  cases h with
  | alloc h =>
    cases h' with
    | alloc h' => rw [TyIs_unique h h']; exact ⟨rfl, .alloc⟩
  | load h =>
    cases h' with
    | load h' =>
      cases hT with
      | load h1 =>
        cases hT' with
        | load h2 =>
          obtain ⟨a1, a2⟩ := T.sym_same K h h'
          have := uq (a2 _ h1) h2
          cases this
          exact ⟨rfl, .load a1⟩
  | getPtr h hi =>
    cases h' with
    | getPtr h' hi' =>
      cases hT with
      | getPtr h1 h3 =>
        cases hT' with
        | getPtr h2 h4 =>
          obtain ⟨a1, a2⟩ := T.sym_same K h h'
          have := uq (a2 _ h1) h2
          cases this
          exact ⟨rfl, .getPtr a1 (T.val_same A A' K hi hi')⟩
  | getElemPtr h hi =>
    cases h' with
    | getElemPtr h' hi' =>
      cases hT with
      | getElemPtr h1 h3 =>
        cases hT' with
        | getElemPtr h2 h4 =>
          obtain ⟨a1, a2⟩ := T.sym_same K h h'
          have := uq (a2 _ h1) h2
          cases this
          exact ⟨rfl, .getElemPtr a1 (T.val_same A A' K hi hi')⟩
  | binary h hi =>
    cases h' with
    | binary h' hi' =>
      cases hT with
      | binary h1 h3 =>
        cases hT' with
        | binary h2 h4 => exact ⟨rfl, .binary (T.val_same A A' K h h') (T.val_same A A' K hi hi')⟩
  | call c1 c2 c3 =>
    cases h' with
    | call d1 d2 d3 =>
      cases hT with
      | call h1 h2 =>
        cases hT' with
        | call h3 h4 =>
          obtain ⟨e1, e2⟩ := T.fns _ _ _ c1 d1
          have := e2 _ _ c2 d2
          cases this
          have := e2 _ _ h1 h3
          cases this
          exact ⟨rfl, .call e1 (T.vals_same A A' K c3 d3)⟩

include A A' T K in
theorem Twins.stmt_same {st : StmtAst} {t t' : Ty} {k k' : VKind} (h : StmtIs (envL p vars fns f fd params order r n w) st t k)
    (h' : StmtIs (envL p' vars' fns' f' fd' params order r n w') st t' k') (hT : InstTy (HasTy p f) (ParamTys p f) (FuncTy p) k t)
    (hT' : InstTy (HasTy p' f') (ParamTys p' f') (FuncTy p') k' t') :
    t = t' ∧ SameKind (SameOperand p p' fd fd') (SameBlock fd fd') (SamePlace p p') k k' := by
  have uq := fun {u t t'} => A'.hasTy_unique (f := f') (v := u) (t := t) (t' := t')
  have blk : ∀ {l tb tb' us us'}, (envL p vars fns f fd params order r n w).bb l tb → (envL p' vars' fns' f' fd' params order r n w').bb l tb' →
      ParamTys p f tb us → ParamTys p' f' tb' us' → SameBlock fd fd' tb tb' ∧ us = us' := by
    intro l tb tb' us us' h1 h2 h3 h4
    obtain ⟨j, q, q', a1, a2, rfl, rfl⟩ := T.label h1 h2
    exact ⟨⟨j, by rw [List.getElem?_map, a1]; rfl, by rw [List.getElem?_map, a2]; rfl⟩, T.block_tys A A' a1 a2 h3 h4⟩
  cases h with
  | «def» h _ =>
    cases h' with
    | «def» h' _ => exact T.expr_same A A' K h h' hT hT'
  | call h =>
    cases h' with
    | call h' => exact T.expr_same A A' K h h' hT hT'
  | store h1 h2 h3 =>
    cases h' with
    | store g1 g2 g3 =>
      cases hT; cases hT'
      obtain ⟨a1, a2⟩ := T.sym_same K h1 g1
      have := uq (a2 _ (denotes_hasTy.2 ⟨_, h2⟩)) (denotes_hasTy.2 ⟨_, g2⟩)
      cases this
      exact ⟨rfl, .store (T.val_same A A' K h3 g3) a1⟩
  | branch a1 a2 a3 a4 a5 a6 a7 =>
    cases h' with
    | branch b1 b2 b3 b4 b5 b6 b7 =>
      cases hT; cases hT'
      obtain ⟨c1, rfl⟩ := blk a2 b2 a3 b3
      obtain ⟨c2, rfl⟩ := blk a5 b5 a6 b6
      exact ⟨rfl, .branch (T.val_same A A' K a1 b1) c1 c2 (T.vals_same A A' K a4 b4) (T.vals_same A A' K a7 b7)⟩
  | jump a1 a2 a3 =>
    cases h' with
    | jump b1 b2 b3 =>
      cases hT; cases hT'
      obtain ⟨c1, rfl⟩ := blk a1 b1 a2 b2
      exact ⟨rfl, .jump c1 (T.vals_same A A' K a3 b3)⟩
  | retNone =>
    cases h'
    cases hT; cases hT'
    exact ⟨rfl, .retNone⟩
  | ret h1 h2 =>
    cases h' with
    | ret g1 g2 =>
      cases hT; cases hT'
      exact ⟨rfl, .ret (T.val_same A A' K h2 g2)⟩

end

include A A' T in
/-- The instructions at the same place. -/
theorem Twins.inst_same {j i : Nat} {q q' : BB × List Value} {v v' : Value} (h1 : fd.layout.bbs[j]? = some q) (h2 : fd'.layout.bbs[j]? = some q')
    (hi : q.2[i]? = some v) (hi' : q'.2[i]? = some v') (K : SeenTyped p p' f f' fd fd' v') :
    ∃ x x', LocalVal p f v x ∧ LocalVal p' f' v' x' ∧ x.name = x'.name ∧ x.ty = x'.ty ∧
      SameKind (SameOperand p p' fd fd') (SameBlock fd fd') (SamePlace p p') x.kind x'.kind := by
  obtain ⟨q0, b, c1, c2, -, c3, c4⟩ := T.block h1
  rw [h2] at c1; cases c1
  obtain ⟨st, d1, x, d2, d3, d4⟩ := Raw.All2.get_left c3 hi
  obtain ⟨st', e1, x', e2, e3, e4⟩ := Raw.All2.get_left c4 hi'
  rw [d1] at e1; cases e1
  obtain ⟨g1, g2⟩ := T.stmt_same A A' K d4 e4 (A.inv.wellTyped.locals f v x d2) (A'.inv.wellTyped.locals f' v' x' e2)
  exact ⟨x, x', d2, e2, by rw [d3, e3], g1, g2⟩

include A A' T in
/-- The types of values at the same places agree. -/
theorem Twins.known_tys : ∀ w, SeenTyped p p' f f' fd fd' w := by
  intro w
  induction w using Nat.strongRecOn with
  | ind w ih =>
    intro a v v' ha hl
    by_cases hi : ∃ j i, a = .inst j i
    · have hlt := hl hi
      obtain ⟨j, i, rfl⟩ := hi
      obtain ⟨h1, h2⟩ := ha
      simp only [valueAt] at h1 h2
      rcases hq : fd.layout.bbs[j]? with _ | q
      · rw [hq] at h1; cases h1
      rcases hq' : fd'.layout.bbs[j]? with _ | q'
      · rw [hq'] at h2; cases h2
      simp only [hq] at h1
      simp only [hq'] at h2
      obtain ⟨x, x', a1, a2, -, a3, -⟩ := T.inst_same A A' hq hq' h1 h2 (ih v' hlt)
      intro t ht
      exact ⟨x', .inr a2, by rw [← a3]; exact A.hasTy_at a1 ht⟩
    · exact T.place_agree A ha hi

end

section
variable {p p' : Program} {gs gs' : List GlobalAst} {gvars gvars' : List (Str × Value)} {gfns gfns' : List (Str × Func)} (A : FromText p gs gvars gfns)
  (A' : FromText p' gs' gvars' gfns')
  {vars vars' : List (Str × Value)} {fns fns' : List (Str × Func)} {f f' : Func} {fd fd' : FData} {name : Str}
  {params : List (Str × TyAst)} {ret : Option TyAst} {bbs order : List BlockAst} {r : Ty}
  (T : Twins p p' vars vars' fns fns' f f' fd fd' name params ret bbs order r)
include A A' T

theorem Twins.same : SameFun p p' fd fd' := by
  have K := T.known_tys A A'
  have pars : ∀ {k : Nat → VKind} {ps : List (Str × TyAst)} {vs vs' : List Value}, ParamsFrom p f k ps vs → ParamsFrom p' f' k ps vs' →
      All2 (SameTy fd fd') vs vs' := by
    intro k ps vs vs' h h'
    refine all2_of (by rw [h.1, h'.1]) (fun i v v' hi hi' => ?_)
    obtain ⟨x, x', ⟨_, a1, a2⟩, ⟨_, b1, b2⟩, a3, -⟩ := params_tyAgree h h' hi hi'
    rw [T.get] at a1; cases a1
    rw [T.get'] at b1; cases b1
    exact ⟨x, x', a2, b2, a3⟩
  refine ⟨?_, ?_, pars T.is.hasParams T.is'.hasParams, ?_⟩
  · obtain ⟨ts, h1, h2⟩ := T.is.hasTy
    obtain ⟨ts', h3, h4⟩ := T.is'.hasTy
    rw [h1, h3, tysIs_unique h2 h4]
  · obtain ⟨e, he⟩ := T.is.isOrder
    have hm : e ∈ order := (he.exact e).2 ⟨List.mem_of_mem_head? he.first, .refl⟩
    obtain ⟨j, hj⟩ := List.getElem?_of_mem hm
    obtain ⟨q, h1, -⟩ := all2_right T.is.blocks hj
    obtain ⟨q', b, c1, c2, ⟨y, y', c3, c4, -⟩, -⟩ := T.block h1
    rw [Map.isEmpty_eq_false_of_get? c3, Map.isEmpty_eq_false_of_get? c4]
  · refine all2_of T.len (fun j q q' h1 h2 => ?_)
    obtain ⟨q0, b, c1, c2, ⟨y, y', c3, c4, c5, c6, c7⟩, c8, c9⟩ := T.block h1
    rw [h2] at c1; cases c1
    refine ⟨⟨y, y', c3, c4, pars c6 c7⟩, all2_of (by rw [c8.length, c9.length]) (fun i v v' hi hi' => ?_)⟩
    obtain ⟨x, x', ⟨_, a1, a2⟩, ⟨_, b1, b2⟩, -, a3, a4⟩ := T.inst_same A A' h1 h2 hi hi' (K v')
    rw [T.get] at a1; cases a1
    rw [T.get'] at b1; cases b1
    exact ⟨x, x', a2, b2, a3, a4⟩

theorem Twins.names : (∀ b b' x x', SameBlock fd fd' b b' → fd.dfg.bbs.get? b = some x → fd'.dfg.bbs.get? b' = some x' → x.name = x'.name) ∧
    ∀ a v v' x x', valueAt p fd a = some v → valueAt p' fd' a = some v' → LocalVal p f v x → LocalVal p' f' v' x' → x.name = x'.name := by
  have K := T.known_tys A A'
  constructor
  · rintro b b' x x' ⟨j, h1, h2⟩ hx hx'
    rw [List.getElem?_map] at h1 h2
    obtain ⟨q, kh1, rfl⟩ := Option.map_eq_some_iff.1 h1
    replace h1 := kh1
    obtain ⟨q', kh2, rfl⟩ := Option.map_eq_some_iff.1 h2
    replace h2 := kh2
    obtain ⟨q0, b, c1, c2, ⟨y, y', c3, c4, c5, -⟩, -⟩ := T.block h1
    rw [h2] at c1; cases c1
    rw [hx] at c3; cases c3
    rw [hx'] at c4; cases c4
    exact c5
  · intro a v v' x x' h1 h2 hx hx'
    have pars : ∀ {k : Nat → VKind} {ps : List (Str × TyAst)} {vs vs' : List Value} {i : Nat}, ParamsFrom p f k ps vs → ParamsFrom p' f' k ps vs' →
        vs[i]? = some v → vs'[i]? = some v' → x.name = x'.name := by
      intro k ps vs vs' i h h' hi hi'
      obtain ⟨y, y', a1, a2, -, a3⟩ := params_tyAgree h h' hi hi'
      cases localVal_unique hx a1
      cases localVal_unique hx' a2
      exact a3
    cases a with
    | global k =>
      obtain ⟨y, y', a1, -⟩ := T.tys k v v' h1 h2
      exact (A.apart hx a1).elim
    | arg k => exact pars T.is.hasParams T.is'.hasParams h1 h2
    | param j k =>
      simp only [valueAt] at h1 h2
      rcases hl : fd.layout.bbs[j]? with _ | q
      · rw [hl] at h1; cases h1
      · obtain ⟨q', b, c1, c2, ⟨y, y', c3, c4, c5, c6, c7⟩, -⟩ := T.block hl
        simp only [hl, c3] at h1
        simp only [c1, c4] at h2
        exact pars c6 c7 h1 h2
    | inst j i =>
      simp only [valueAt] at h1 h2
      rcases hq : fd.layout.bbs[j]? with _ | q
      · rw [hq] at h1; cases h1
      rcases hq' : fd'.layout.bbs[j]? with _ | q'
      · rw [hq'] at h2; cases h2
      simp only [hq] at h1
      simp only [hq'] at h2
      obtain ⟨y, y', a1, a2, a3, -⟩ := T.inst_same A A' hq hq' h1 h2 (K v')
      cases localVal_unique hx a1
      cases localVal_unique hx' a2
      exact a3

end

/-! ### Programs -/

/-- The items of both programs, one by one. -/
inductive ItemTwins (p p' : Program) : List GlobalAst → List (Str × Value) → List (Str × Value) → List (Str × Func) → List (Str × Func) → Prop where
  | nil : ItemTwins p p' [] [] [] [] []
  | glob {gs : List GlobalAst} {vars vars' : List (Str × Value)} {fns fns' : List (Str × Func)} {name : Str} {ty : TyAst} {init : ValAst} {v v' : Value} :
      ItemTwins p p' gs vars vars' fns fns' → name ∉ vars.map (·.1) → GlobalIs p v name ty init → GlobalIs p' v' name ty init →
      ItemTwins p p' (gs ++ [.globalDef name ty init]) (vars ++ [(name, v)]) (vars' ++ [(name, v')]) fns fns'
  | decl {gs : List GlobalAst} {vars vars' : List (Str × Value)} {fns fns' : List (Str × Func)} {name : Str}
      {params : List TyAst} {ret : Option TyAst} {f f' : Func} {fd fd' : FData} : ItemTwins p p' gs vars vars' fns fns' → name ∉ fns.map (·.1) →
      p.funcs.get? f = some fd → p'.funcs.get? f' = some fd' → DeclIs p f fd name params ret → DeclIs p' f' fd' name params ret →
      ItemTwins p p' (gs ++ [.funDecl name params ret]) vars vars' (fns ++ [(name, f)]) (fns' ++ [(name, f')])
  | «def» {gs : List GlobalAst} {vars vars' : List (Str × Value)} {fns fns' : List (Str × Func)} {name : Str}
      {params : List (Str × TyAst)} {ret : Option TyAst} {bbs order : List BlockAst} {r : Ty} {f f' : Func} {fd fd' : FData} :
      ItemTwins p p' gs vars vars' fns fns' → name ∉ fns.map (·.1) → p.funcs.get? f = some fd → p'.funcs.get? f' = some fd' →
      FunIs p (fun n v => (n, v) ∈ vars) (fun n g => (n, g) ∈ fns ++ [(name, f)]) f fd name params ret bbs order r →
      FunIs p' (fun n v => (n, v) ∈ vars') (fun n g => (n, g) ∈ fns' ++ [(name, f')]) f' fd' name params ret bbs order r →
      ItemTwins p p' (gs ++ [.funDef name params ret bbs]) vars vars' (fns ++ [(name, f)]) (fns' ++ [(name, f')])

theorem RetIs_unique {a : Option TyAst} {t t' : Ty} (h : RetIs TyIs a t) (h' : RetIs TyIs a t') : t = t' := by
  cases h with
  | none => cases h'; rfl
  | some h => cases h' with | some h' => exact TyIs_unique h h'

theorem Spec.Items.twins {p p' : Program} {gs : List GlobalAst} {vars : List (Str × Value)} {fns : List (Str × Func)} (h : Items p gs vars fns) :
    ∀ {vars' : List (Str × Value)} {fns' : List (Str × Func)}, (∀ n ps r bs, GlobalAst.funDef n ps r bs ∈ gs → ∀ b ∈ bs, GoodBlock b) →
      Items p' gs vars' fns' → ItemTwins p p' gs vars vars' fns fns' := by
  induction h with
  | nil =>
    intro vars' fns' _ h'
    generalize hg : ([] : List GlobalAst) = gs at h'
    cases h' with
    | nil => exact .nil
    | _ => exact absurd hg.symm (by simp)
  | globalDef _ h1 h2 h3 ih =>
    intro vars' fns' hgood h'
    have hgood' := fun n ps r bs hm => hgood n ps r bs (List.mem_append_left _ hm)
    generalize hg : _ ++ [_] = gs2 at h'
    cases h' with
    | nil => exact absurd hg (by simp)
    | globalDef g0 g1 g2 g3 =>
      obtain ⟨e1, e2⟩ := List.append_inj' hg rfl
      subst e1; cases e2
      exact .glob (ih hgood' g0) h1 h3 g3
    | _ => cases (List.append_inj' hg rfl).2
  | funDecl _ h1 h2 h3 h4 ih =>
    intro vars' fns' hgood h'
    have hgood' := fun n ps r bs hm => hgood n ps r bs (List.mem_append_left _ hm)
    generalize hg : _ ++ [_] = gs2 at h'
    cases h' with
    | nil => exact absurd hg (by simp)
    | funDecl g0 g1 g2 g3 g4 =>
      obtain ⟨e1, e2⟩ := List.append_inj' hg rfl
      subst e1; cases e2
      exact .decl (ih hgood' g0) h2 h3 g3 h4 g4
    | _ => cases (List.append_inj' hg rfl).2
  | funDef _ h1 h2 h3 h4 ih =>
    intro vars' fns' hgood h'
    have hgood' := fun n ps r bs hm => hgood n ps r bs (List.mem_append_left _ hm)
    have hend := hgood _ _ _ _ (List.mem_append_right _ (List.mem_singleton.2 rfl))
    generalize hg : _ ++ [_] = gs2 at h'
    cases h' with
    | nil => exact absurd hg (by simp)
    | funDef g0 g1 g2 g3 g4 =>
      obtain ⟨e1, e2⟩ := List.append_inj' hg rfl
      subst e1; cases e2
      obtain ⟨e, he⟩ := h4.isOrder
      obtain ⟨e', he'⟩ := g4.isOrder
      have ho := he.unique he' (fun b hb => by
        obtain ⟨-, init, t, h5, h6, -⟩ := hend b hb
        exact ⟨t, by rw [h5]; simp, h6⟩)
      subst ho
      have hr := RetIs_unique h4.hasRet g4.hasRet
      subst hr
      exact .def (ih hgood' g0) h2 h3 g3 h4 g4
    | _ => cases (List.append_inj' hg rfl).2

theorem names_index {β : Type} {R : β → β → Prop} {qs qs' : List (Str × β)} (h : All2 (fun q q' => q.1 = q'.1 ∧ R q.2 q'.2) qs qs') (hn : (qs.map (·.1)).Nodup)
    {n : Str} {b b' : β} (hb : (n, b) ∈ qs) (hb' : (n, b') ∈ qs') : ∃ k : Nat, qs[k]? = some (n, b) ∧ qs'[k]? = some (n, b') ∧ R b b' := by
  obtain ⟨k, hk⟩ := List.getElem?_of_mem hb
  obtain ⟨k', hk'⟩ := List.getElem?_of_mem hb'
  obtain ⟨q, h1, h2, h3⟩ := all2_right h hk'
  have := map_nodup_index hn hk h1 h2.symm
  subst this
  rw [hk] at h1; cases h1
  exact ⟨k, hk, hk', h3⟩

/-- Global variables that are the same. -/
def GlobTwin (p p' : Program) (q q' : Str × Value) : Prop :=
  q.1 = q'.1 ∧ ∃ x x' i i', GlobalVal p q.2 x ∧ GlobalVal p' q'.2 x' ∧ x.ty = x'.ty ∧ x.kind = .globalAlloc i ∧
    x'.kind = .globalAlloc i' ∧ SameConst p.values.get? p'.values.get? i i' ∧ x.name = x'.name

/-- Functions that have the same name and type. -/
def FunTwin (p p' : Program) (q q' : Str × Func) : Prop :=
  q.1 = q'.1 ∧ ∃ fd fd', p.funcs.get? q.2 = some fd ∧ p'.funcs.get? q'.2 = some fd' ∧ fd.ty = fd'.ty ∧ fd.name = fd'.name

section
variable {p p' : Program} {gs gs' : List GlobalAst} {gvars gvars' : List (Str × Value)} {gfns gfns' : List (Str × Func)} (A : FromText p gs gvars gfns)
  (A' : FromText p' gs' gvars' gfns')
include A A'

theorem globals_twin {v v' : Value} {name : Str} {ty : TyAst} {init : ValAst} (h : GlobalIs p v name ty init) (h' : GlobalIs p' v' name ty init) :
    GlobTwin p p' (name, v) (name, v') := by
  obtain ⟨x, i, y, t, a1, a2, a3, a4, a5, a6, a7⟩ := h
  obtain ⟨x', i', y', t', b1, b2, b3, b4, b5, b6, b7⟩ := h'
  have ht := TyIs_unique a6 b6
  subst ht
  have sc := const_twins A.constTyped A'.constTyped (den := GDenotes p) (den' := GDenotes p') (fun v t k ⟨x, c1, c2, c3⟩ => ⟨x, c1, c2, c3⟩)
    (fun v t k ⟨x, c1, c2, c3⟩ => ⟨x, c1, c2, c3⟩) a7 b7
  refine ⟨rfl, x, x', i, i', a1, b1, ?_, a3, b3, sc, by rw [a2, b2]⟩
  obtain ⟨z, z', c1, c2, c3⟩ := sc.tys
  have a4 : p.values.get? i = some y := a4
  have b4 : p'.values.get? i' = some y' := b4
  rw [a4] at c1; cases c1
  rw [b4] at c2; cases c2
  rw [a5, b5, c3]

theorem ItemTwins.all {gs : List GlobalAst} {vars vars' : List (Str × Value)} {fns fns' : List (Str × Func)} (h : ItemTwins p p' gs vars vars' fns fns') :
    All2 (GlobTwin p p') vars vars' ∧ All2 (FunTwin p p') fns fns' ∧ (vars.map (·.1)).Nodup ∧ (fns.map (·.1)).Nodup := by
  have snoc : ∀ {l : List Str} {n : Str}, l.Nodup → n ∉ l → (l ++ [n]).Nodup := by
    intro l n h1 h2
    rw [List.nodup_append]
    refine ⟨h1, by simp, fun a ha b hb => ?_⟩
    rw [List.mem_singleton] at hb
    subst hb
    rintro rfl
    exact h2 ha
  induction h with
  | nil => exact ⟨.nil, .nil, .nil, .nil⟩
  | glob _ h1 h2 h3 ih =>
    obtain ⟨i1, i2, i3, i4⟩ := ih
    exact ⟨Raw.All2.snoc i1 (globals_twin A A' h2 h3), i2, by rw [List.map_append]; exact snoc i3 h1, i4⟩
  | decl _ h1 h2 h3 h4 h5 ih =>
    obtain ⟨i1, i2, i3, i4⟩ := ih
    refine ⟨i1, Raw.All2.snoc i2 ⟨rfl, _, _, h2, h3, ?_, by rw [h4.hasName, h5.hasName]⟩, i3, by rw [List.map_append]; exact snoc i4 h1⟩
    obtain ⟨ts, r, a1, a2, a3⟩ := h4.hasTy
    obtain ⟨ts', r', b1, b2, b3⟩ := h5.hasTy
    rw [a1, b1, tysIs_unique a2 b2, RetIs_unique a3 b3]
  | «def» _ h1 h2 h3 h4 h5 ih =>
    obtain ⟨i1, i2, i3, i4⟩ := ih
    refine ⟨i1, Raw.All2.snoc i2 ⟨rfl, _, _, h2, h3, ?_, by rw [h4.hasName, h5.hasName]⟩, i3, by rw [List.map_append]; exact snoc i4 h1⟩
    obtain ⟨ts, a1, a2⟩ := h4.hasTy
    obtain ⟨ts', b1, b2⟩ := h5.hasTy
    rw [a1, b1, tysIs_unique a2 b2]

/-- Both functions are the same. -/
def WholeTwin (p p' : Program) (q q' : Str × Func) : Prop :=
  ∃ fd fd', p.funcs.get? q.2 = some fd ∧ p'.funcs.get? q'.2 = some fd' ∧ SameFun p p' fd fd' ∧
    (∀ b b' x x', SameBlock fd fd' b b' → fd.dfg.bbs.get? b = some x → fd'.dfg.bbs.get? b' = some x' → x.name = x'.name) ∧
    ∀ a v v' x x', valueAt p fd a = some v → valueAt p' fd' a = some v' → LocalVal p q.2 v x → LocalVal p' q'.2 v' x' → x.name = x'.name

theorem ItemTwins.whole {gs : List GlobalAst} {vars vars' : List (Str × Value)} {fns fns' : List (Str × Func)} (h : ItemTwins p p' gs vars vars' fns fns')
    (H : ItemTwins p p' gs0 gvars gvars' gfns gfns')
    (hv : vars <+: gvars) (hv' : vars' <+: gvars') (hf : fns <+: gfns) (hf' : fns' <+: gfns') : All2 (WholeTwin p p') fns fns' := by
  obtain ⟨V, W, nV, nW⟩ := H.all A A'
  induction h with
  | nil => exact .nil
  | glob _ h1 h2 h3 ih =>
    exact ih ((List.prefix_append _ _).trans hv) ((List.prefix_append _ _).trans hv') hf hf'
  | decl _ h1 h2 h3 h4 h5 ih =>
    refine Raw.All2.snoc (ih hv hv' ((List.prefix_append _ _).trans hf) ((List.prefix_append _ _).trans hf')) ?_
    refine ⟨_, _, h2, h3, ⟨?_, ?_, ?_, ?_⟩, ?_, ?_⟩
    · obtain ⟨ts, r, a1, a2, a3⟩ := h4.hasTy
      obtain ⟨ts', r', b1, b2, b3⟩ := h5.hasTy
      rw [a1, b1, tysIs_unique a2 b2, RetIs_unique a3 b3]
    · rw [Map.isEmpty_of_none (fun b x hx => h4.noBlocks.2 b x ⟨_, h2, hx⟩), Map.isEmpty_of_none (fun b x hx => h5.noBlocks.2 b x ⟨_, h3, hx⟩)]
    · rw [h4.hasParams, h5.hasParams]; exact .nil
    · rw [h4.noBlocks.1, h5.noBlocks.1]; exact .nil
    · rintro b b' x x' ⟨j, e1, e2⟩
      rw [h4.noBlocks.1] at e1; simp at e1
    · intro a v v' x x' e1 e2 hx hx'
      cases a with
      | global k =>
        have e1 : p.instLayout[k]? = some v := e1
        rw [show p.instLayout = gvars.map (·.2) from A.insts, List.getElem?_map] at e1
        obtain ⟨q, e3, rfl⟩ := Option.map_eq_some_iff.1 e1
        obtain ⟨q', -, -, y, _, _, _, a1, -⟩ := Raw.All2.get_left V e3
        exact (A.apart hx a1).elim
      | arg k =>
        simp only [valueAt] at e1
        rw [h4.hasParams] at e1; simp at e1
      | param j k =>
        simp only [valueAt] at e1
        rw [h4.noBlocks.1] at e1; simp at e1
      | inst j k =>
        simp only [valueAt] at e1
        rw [h4.noBlocks.1] at e1; simp at e1
  | @«def» gs vars vars' fns fns' name params ret bbs order r f f' fd fd' h0 h1 h2 h3 h4 h5 ih =>
    refine Raw.All2.snoc (ih hv hv' ((List.prefix_append _ _).trans hf) ((List.prefix_append _ _).trans hf')) ?_
    obtain ⟨V0, -⟩ := h0.all A A'
    obtain ⟨e, he⟩ := h4.isOrder
    have T : Twins p p' vars vars' (fns ++ [(name, f)]) (fns' ++ [(name, f')]) f f' fd fd' name params ret bbs order r := by
      refine ⟨h2, h3, h4, h5, ?_, ?_, ?_, ?_, ?_⟩
      · intro n v hm
        obtain ⟨k, hk⟩ := List.getElem?_of_mem hm
        obtain ⟨⟨n', v'⟩, a1, a2, -⟩ := Raw.All2.get_left V0 hk
        cases a2
        exact ⟨v', List.mem_of_getElem? a1⟩
      · intro n v hm
        obtain ⟨k, hk⟩ := List.getElem?_of_mem hm
        obtain ⟨⟨n', v'⟩, a1, a2, -⟩ := all2_right V0 hk
        cases a2
        exact ⟨v', List.mem_of_getElem? a1⟩
      · intro n v v' hm hm'
        obtain ⟨k, a1, a2, -⟩ := names_index (R := fun v v' => ∃ x x' i i', GlobalVal p v x ∧ GlobalVal p' v' x' ∧ x.ty = x'.ty ∧ x.kind = .globalAlloc i ∧
          x'.kind = .globalAlloc i' ∧ SameConst p.values.get? p'.values.get? i i' ∧ x.name = x'.name) V nV (hv.subset hm) (hv'.subset hm')
        exact ⟨k, by rw [show p.instLayout = gvars.map (·.2) from A.insts, List.getElem?_map, a1]; rfl,
          by rw [show p'.instLayout = gvars'.map (·.2) from A'.insts, List.getElem?_map, a2]; rfl⟩
      · intro k v v' e1 e2
        rw [show p.instLayout = gvars.map (·.2) from A.insts, List.getElem?_map] at e1
        rw [show p'.instLayout = gvars'.map (·.2) from A'.insts, List.getElem?_map] at e2
        obtain ⟨q, ke1, rfl⟩ := Option.map_eq_some_iff.1 e1
        replace e1 := ke1
        obtain ⟨q', ke2, rfl⟩ := Option.map_eq_some_iff.1 e2
        replace e2 := ke2
        obtain ⟨q0, a1, -, x, x', _, _, a2, a3, a4, -⟩ := Raw.All2.get_left V e1
        rw [e2] at a1; cases a1
        exact ⟨x, x', a2, a3, a4⟩
      · intro n g g' hm hm'
        obtain ⟨k, a1, a2, fd, fd', a3, a4, a5, -⟩ := names_index (R := fun f f' => ∃ fd fd', p.funcs.get? f = some fd ∧ p'.funcs.get? f' = some fd' ∧ fd.ty = fd'.ty ∧ fd.name = fd'.name)
          W nW (hf.subset hm) (hf'.subset hm')
        refine ⟨⟨k, by rw [show p.funcLayout = gfns.map (·.2) from A.fns, List.getElem?_map, a1]; rfl,
          by rw [show p'.funcLayout = gfns'.map (·.2) from A'.fns, List.getElem?_map, a2]; rfl⟩, ?_⟩
        rintro t t' ⟨_, x1, rfl⟩ ⟨_, x2, rfl⟩
        rw [a3] at x1; cases x1
        rw [a4] at x2; cases x2
        exact a5
    exact ⟨fd, fd', h2, h3, T.same A A', (T.names A A').1, (T.names A A').2⟩

end

/-- Programs read from the same tree are the same and have the same names. -/
theorem one_meaning {p p' : Program} {gs : List GlobalAst} {vars vars' : List (Str × Value)} {fns fns' : List (Str × Func)} (A : FromText p gs vars fns)
    (A' : FromText p' gs vars' fns') (hgood : ∀ n ps r bs, GlobalAst.funDef n ps r bs ∈ gs → ∀ b ∈ bs, GoodBlock b) : SameText p p' ∧ SameNames p p' := by
  have H := A.items.twins hgood A'.items
  obtain ⟨V, W, nV, nW⟩ := H.all A A'
  have S := H.whole A A' H (List.prefix_refl _) (List.prefix_refl _) (List.prefix_refl _) (List.prefix_refl _)
  have e1 : p.instLayout = vars.map (·.2) := A.insts
  have e2 : p'.instLayout = vars'.map (·.2) := A'.insts
  have e3 : p.funcLayout = fns.map (·.2) := A.fns
  have e4 : p'.funcLayout = fns'.map (·.2) := A'.fns
  have place : ∀ f f', SamePlace p p' f f' → ∃ q q', f = q.2 ∧ f' = q'.2 ∧ FunTwin p p' q q' ∧ WholeTwin p p' q q' := by
    rintro f f' ⟨i, h1, h2⟩
    rw [e3, List.getElem?_map] at h1
    rw [e4, List.getElem?_map] at h2
    obtain ⟨q, kh1, rfl⟩ := Option.map_eq_some_iff.1 h1
    replace h1 := kh1
    obtain ⟨q', kh2, rfl⟩ := Option.map_eq_some_iff.1 h2
    replace h2 := kh2
    obtain ⟨q0, h3, h4⟩ := Raw.All2.get_left W h1
    obtain ⟨q1, h5, h6⟩ := Raw.All2.get_left S h1
    rw [h2] at h3 h5; cases h3; cases h5
    exact ⟨q, q', rfl, rfl, h4, h6⟩
  have two : ∀ {α β : Type} {g : α → β} {R : β → β → Prop} {l l' : List α}, All2 (fun a b => R (g a) (g b)) l l' → All2 R (l.map g) (l'.map g) := by
    intro α β g R l l' h
    induction h with
    | nil => exact .nil
    | cons h _ ih => exact .cons h ih
  refine ⟨⟨?_, ?_⟩, ⟨?_, ?_, ?_, ?_⟩⟩
  · rw [e1, e2]
    refine two (V.imp (fun q _ q' hq => ?_))
    obtain ⟨-, x, x', i, i', h1, h2, h3, h4, h5, h6, -⟩ := hq
    exact ⟨x, x', i, i', h1, h2, h3, h4, h5, h6⟩
  · rw [e3, e4]
    refine two (S.imp (fun q _ q' hq => ?_))
    obtain ⟨fd, fd', h1, h2, h3, -⟩ := hq
    exact ⟨fd, fd', h1, h2, h3⟩
  · rw [e1, e2]
    refine two (V.imp (fun q _ q' hq => ?_))
    obtain ⟨-, x, x', i, i', h1, h2, h3, h4, h5, h6, h7⟩ := hq
    exact ⟨x, x', h1, h2, h7⟩
  · intro f f' fd fd' hs h1 h2
    obtain ⟨q, q', rfl, rfl, ⟨-, gd, gd', g1, g2, -, g3⟩, -⟩ := place f f' hs
    rw [h1] at g1; cases g1
    rw [h2] at g2; cases g2
    exact g3
  · intro f f' fd fd' b b' x x' hs h1 h2
    obtain ⟨q, q', rfl, rfl, -, gd, gd', g1, g2, -, g3, g4⟩ := place f f' hs
    rw [h1] at g1; cases g1
    rw [h2] at g2; cases g2
    exact g3 b b' x x'
  · intro f f' fd fd' a v v' x x' hs h1 h2
    obtain ⟨q, q', rfl, rfl, -, gd, gd', g1, g2, -, g3, g4⟩ := place f f' hs
    rw [h1] at g1; cases g1
    rw [h2] at g2; cases g2
    exact g4 a v v' x x'

end Koopa
