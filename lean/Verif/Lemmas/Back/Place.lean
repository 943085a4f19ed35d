import Verif.Lemmas.Back.SameProg
/-!
Programs with the same text have the same tree under names that agree.
-/
namespace Koopa
open Spec

/-! ### Places -/

theorem nodup_index {α : Type} {l : List α} (h : l.Nodup) {i j : Nat} {a : α} (hi : l[i]? = some a) (hj : l[j]? = some a) : i = j := by
  obtain ⟨h1, -⟩ := List.getElem?_eq_some_iff.1 hi
  exact (List.getElem?_inj h1 h).1 (hi.trans hj.symm)

theorem flat_index {α β : Type} {g : α → List β} {l : List α} (h : (l.flatMap g).Nodup) {j j' i i' : Nat} {q q' : α} {v : β}
    (hj : l[j]? = some q) (hj' : l[j']? = some q') (hi : (g q)[i]? = some v) (hi' : (g q')[i']? = some v) : j = j' ∧ i = i' := by
  have h0 := h
  rw [List.Nodup, List.pairwise_flatMap] at h
  obtain ⟨h1, h2⟩ := h
  rw [List.pairwise_iff_getElem] at h2
  have key : ∀ {j j' : Nat} {q q' : α}, l[j]? = some q → l[j']? = some q' → v ∈ g q → v ∈ g q' → ¬ j < j' := by
    intro j j' q q' hj hj' hm hm' hlt
    obtain ⟨b1, e1⟩ := List.getElem?_eq_some_iff.1 hj
    obtain ⟨b2, e2⟩ := List.getElem?_eq_some_iff.1 hj'
    exact h2 j j' b1 b2 hlt v (by rw [e1]; exact hm) v (by rw [e2]; exact hm') rfl
  have hm := List.mem_of_getElem? hi
  have hm' := List.mem_of_getElem? hi'
  have hjj : j = j' := by
    have := key hj hj' hm hm'
    have := key hj' hj hm' hm
    omega
  subst hjj
  rw [hj] at hj'; cases hj'
  exact ⟨rfl, nodup_index (h1 q (List.mem_of_getElem? hj)) hi hi'⟩

theorem valueAt_param {p : Program} {fd : FData} {j i : Nat} {v : Value} (h : valueAt p fd (.param j i) = some v) :
    ∃ b is x, fd.layout.bbs[j]? = some (b, is) ∧ fd.dfg.bbs.get? b = some x ∧ x.params[i]? = some v := by
  simp only [valueAt] at h
  split at h
  · cases h
  · rename_i b is hj
    split at h
    · cases h
    · rename_i x hx
      exact ⟨b, is, x, hj, hx, h⟩

theorem valueAt_inst {p : Program} {fd : FData} {j i : Nat} {v : Value} (h : valueAt p fd (.inst j i) = some v) :
    ∃ b is, fd.layout.bbs[j]? = some (b, is) ∧ is[i]? = some v := by
  simp only [valueAt] at h
  split at h
  · cases h
  · rename_i b is hj
    exact ⟨b, is, hj, h⟩

/-- The kinds of values at a place of a function. -/
def PlaceKind (a : Place) (k : VKind) : Prop := match a with
  | .global _ => False
  | .arg i => k = .funcArgRef i
  | .param _ i => k = .blockArgRef i
  | .inst _ _ => ∀ i, k ≠ .funcArgRef i ∧ k ≠ .blockArgRef i

theorem Spec.Writable.notRef {V O I : Value → Prop} {F : Func → Prop} {H : Value → Ty → Prop} {r : Ty} {k : VKind} {t : Ty}
    (h : Writable V O I F H r k t) (i : Nat) : k ≠ .funcArgRef i ∧ k ≠ .blockArgRef i := by
  cases h <;> exact ⟨(by rintro ⟨⟩), (by rintro ⟨⟩)⟩

section
variable {p : Program} (hp : Printable p) {before : List Func} {f : Func} {fd : FData} {ts : List Ty} {r : Ty}
  (hf : p.funcs.get? f = some fd) (hb : PrintableBody p before f fd ts r)
include hp

theorem placed_global {k : Nat} {v : Value} (h : p.instLayout[k]? = some v) : isGlobal v = true ∧ v ∈ p.instLayout ∧
    ∃ x i, p.values.get? v = some x ∧ x.kind = .globalAlloc i := by
  have hm := List.mem_of_getElem? h
  obtain ⟨x, i, y, h1, h2, -⟩ := hp.insts v hm
  exact ⟨hp.globalId v x h1, hm, x, i, h1, h2⟩

include hf hb
theorem placed_local {a : Place} {v : Value} (h : valueAt p fd a = some v) (ha : ∀ k, a ≠ .global k) : isGlobal v = false ∧
    ∃ x, fd.dfg.values.get? v = some x ∧ x.kind.isConst = false ∧ x.kind.isGlobalAlloc = false ∧ PlaceKind a x.kind := by
  have loc : ∀ {x}, fd.dfg.values.get? v = some x → isGlobal v = false := fun hx => hp.localId f v _ ⟨fd, hf, hx⟩
  cases a with
  | global k => exact absurd rfl (ha k)
  | arg k =>
    obtain ⟨x, h1, h2, -⟩ := hb.params.2 k v h
    exact ⟨loc h1, x, h1, by rw [h2]; exact ⟨rfl, rfl, rfl⟩⟩
  | param j k =>
    obtain ⟨b, is, x, h1, h2, h3⟩ := valueAt_param h
    obtain ⟨x', h4, h5⟩ := hb.blocks b is (List.mem_of_getElem? h1)
    rw [h2] at h4; cases h4
    obtain ⟨y, h6, h7, -⟩ := h5 k v h3
    exact ⟨loc h6, y, h6, by rw [h7]; exact ⟨rfl, rfl, rfl⟩⟩
  | inst j k =>
    obtain ⟨b, is, h1, h2⟩ := valueAt_inst h
    obtain ⟨x, h3, h4⟩ := hb.insts j k b is v h1 h2
    exact ⟨loc h3, x, h3, h4.plain.1, h4.plain.2, h4.notRef⟩

/-- A value stands at one place only. -/
theorem place_inj {a b : Place} {v : Value} (h : valueAt p fd a = some v) (h' : valueAt p fd b = some v) : a = b := by
  by_cases ha : ∃ k, a = .global k
  · obtain ⟨k, rfl⟩ := ha
    obtain ⟨h1, -⟩ := placed_global hp h
    by_cases hb' : ∃ k, b = .global k
    · obtain ⟨k', rfl⟩ := hb'
      rw [nodup_index hp.instsOnce h h']
    · rw [(placed_local hp hf hb h' (fun k e => hb' ⟨k, e⟩)).1] at h1; cases h1
  obtain ⟨h1, x, hx, -, -, hk⟩ := placed_local hp hf hb h (fun k e => ha ⟨k, e⟩)
  have hb' : ∀ k, b ≠ .global k := by
    rintro k rfl
    rw [(placed_global hp h').1] at h1; cases h1
  obtain ⟨-, x', hx', -, -, hk'⟩ := placed_local hp hf hb h' hb'
  rw [hx] at hx'; cases hx'
  cases a with
  | global k => exact absurd ⟨k, rfl⟩ ha
  | arg i =>
    have hk : x.kind = .funcArgRef i := hk
    cases b with
    | global k => exact absurd rfl (hb' k)
    | arg i' =>
      have hk' : x.kind = .funcArgRef i' := hk'
      rw [hk] at hk'; cases hk'; rfl
    | param j i' =>
      have hk' : x.kind = .blockArgRef i' := hk'
      rw [hk] at hk'; cases hk'
    | inst j i' => exact absurd hk (hk' i).1
  | param j i =>
    have hk : x.kind = .blockArgRef i := hk
    cases b with
    | global k => exact absurd rfl (hb' k)
    | arg i' =>
      have hk' : x.kind = .funcArgRef i' := hk'
      rw [hk] at hk'; cases hk'
    | param j' i' =>
      have hk' : x.kind = .blockArgRef i' := hk'
      rw [hk] at hk'; cases hk'
      obtain ⟨c, is, y, e1, e2, e3⟩ := valueAt_param h
      obtain ⟨c', is', y', e1', e2', e3'⟩ := valueAt_param h'
      have m1 : (fd.layout.bbs.map (·.1))[j]? = some c := by rw [List.getElem?_map, e1]; rfl
      have m2 : (fd.layout.bbs.map (·.1))[j']? = some c' := by rw [List.getElem?_map, e1']; rfl
      have := hb.paramsOnce c c' y y' v (List.mem_of_getElem? m1) (List.mem_of_getElem? m2) e2 e2' (List.mem_of_getElem? e3) (List.mem_of_getElem? e3')
      subst this
      rw [nodup_index hb.blocksOnce m1 m2]
    | inst j i' => exact absurd hk (hk' i).2
  | inst j i =>
    cases b with
    | global k => exact absurd rfl (hb' k)
    | arg i' => exact absurd hk' (hk i').1
    | param j' i' => exact absurd hk' (hk i').2
    | inst j' i' =>
      obtain ⟨c, is, e1, e2⟩ := valueAt_inst h
      obtain ⟨c', is', e1', e2'⟩ := valueAt_inst h'
      obtain ⟨rfl, rfl⟩ := flat_index hb.instsOnce (g := fun q : BB × List Value => q.2) e1 e1' e2 e2'
      rfl

end

/-! ### Constants -/

theorem Spec.SameConst.constant {get get' : Value → Option VData} {v v' : Value} (h : SameConst get get' v v') : Constant get' v' := by
  induction h with
  | leaf h1 h2 h3 h4 h5 h6 =>
    rename_i v v' x x'
    rw [h4] at h5 h6
    cases hk : x'.kind with
    | integer n => exact .int h2 hk
    | zeroInit => exact .zero h2 hk
    | undef => exact .undef h2 hk
    | aggregate es =>
      rw [hk] at h6
      have h6 : es = [] := h6
      subst h6
      exact .agg h2 hk (by simp)
    | _ => rw [hk] at h5; cases h5
  | agg h1 h2 h3 h4 h5 h6 _ ih =>
    refine .agg h2 h5 (fun e he => ?_)
    obtain ⟨i, hi⟩ := List.getElem?_of_mem he
    obtain ⟨hl, -⟩ := List.getElem?_eq_some_iff.1 hi
    exact ih i _ e (List.getElem?_eq_getElem (by omega)) hi

theorem map_eq_of {α β γ : Type} {g : α → γ} {g' : β → γ} {as : List α} {bs : List β} (h : All2 (fun a b => g a = g' b) as bs) : as.map g = bs.map g' := by
  induction h with
  | nil => rfl
  | cons h _ ih => rw [List.map_cons, List.map_cons, h, ih]

theorem isAgg_or (k : VKind) : (∃ es, k = .aggregate es) ∨ ∀ es, k ≠ .aggregate es := by
  cases k <;> first | exact .inl ⟨_, rfl⟩ | exact .inr (fun _ h => by cases h)

theorem constAst_same {get get' : Value → Option VData} {v v' : Value} (h : SameConst get get' v v') : ∀ n n', (elemPieces get n v).isSome = true →
    (elemPieces get' n' v').isSome = true → elemAst get n v = elemAst get' n' v' := by
  induction h with
  | leaf h1 h2 h3 h4 h5 h6 =>
    rename_i v v' x x'
    intro n n' hn hn'
    unfold elemAst
    unfold elemPieces at hn hn'
    simp only [h1, h2] at hn hn' ⊢
    rw [← h4] at hn' ⊢
    rcases isAgg_or x.kind with ⟨es, hk⟩ | hk
    · rw [hk] at h6
      have h6 : es = [] := h6
      subst h6
      rw [hk] at hn hn' ⊢
      cases n with
      | zero => cases hn
      | succ n =>
        cases n' with
        | zero => cases hn'
        | succ n' => rfl
    · rw [constAst_leaf _ _ hk, constAst_leaf _ _ hk]
  | agg h1 h2 h3 h4 h5 h6 _ ih =>
    intro n n' hn hn'
    unfold elemAst
    unfold elemPieces at hn hn'
    simp only [h1, h2] at hn hn' ⊢
    rw [h4] at hn ⊢
    rw [h5] at hn' ⊢
    cases n with
    | zero => cases hn
    | succ n =>
      cases n' with
      | zero => cases hn'
      | succ n' =>
        rw [constAst_agg, constAst_agg]
        rw [constPieces_agg_isSome] at hn hn'
        congr 1
        refine map_eq_of (all2_of h6 (fun i e e' hi hi' => ?_))
        exact ih i e e' hi hi' n n' (hn e (List.mem_of_getElem? hi)) (hn' e' (List.mem_of_getElem? hi'))

/-! ### The tree of a function -/

/-- The names of the second program are those of the same things in the first. -/
structure Carry (p p' : Program) (fd fd' : FData) (M M' : Nm) : Prop where
  glob : ∀ (k : Nat) v v', p.instLayout[k]? = some v → p'.instLayout[k]? = some v' → M.glob v = M'.glob v'
  fn : ∀ g g', SamePlace p p' g g' → M.fn g = M'.fn g'
  val : ∀ a v v', At p p' fd fd' a v v' → HasName fd v → M.val v = M'.val v'
  bb : ∀ b b', SameBlock fd fd' b b' → M.bb b = M'.bb b'

section
variable {p : Program} (hp : Printable p) {before : List Func} {f : Func} {fd : FData} {ts : List Ty} {r : Ty}
  (hf : p.funcs.get? f = some fd) (hb : PrintableBody p before f fd ts r)
  {p' : Program} (hp' : Printable p') {before' : List Func} {f' : Func} {fd' : FData} {ts' : List Ty} {r' : Ty}
  (hf' : p'.funcs.get? f' = some fd') (hb' : PrintableBody p' before' f' fd' ts' r')
  {M M' : Nm} (C : Carry p p' fd fd' M M')
include hp hf hb hp' hf' hb' C

theorem operand_same {j i : Nat} {v v' : Value} (hu : Usable p f fd j i v ∨ Constant fd.dfg.values.get? v) (h : SameOperand p p' fd fd' v v') :
    valAst fd M v = valAst fd' M' v' := by
  rcases h with ⟨a, h1, h2⟩ | h
  · by_cases ha : ∃ k, a = .global k
    · obtain ⟨k, rfl⟩ := ha
      unfold valAst
      rw [(placed_global hp h1).1, (placed_global hp' h2).1, if_pos rfl, if_pos rfl, C.glob k v v' h1 h2]
    · have ha : ∀ k, a ≠ .global k := fun k e => ha ⟨k, e⟩
      obtain ⟨a1, x, a2, a3, -⟩ := placed_local hp hf hb h1 ha
      obtain ⟨b1, x', b2, b3, -⟩ := placed_local hp' hf' hb' h2 ha
      have hn : HasName fd v := by
        have cc : ∀ {w : Value} {P : Prop}, Constant fd.dfg.values.get? w → w = v → P := by
          intro w P hc e
          subst e
          cases hc with
          | int h hk => rw [a2] at h; cases h; rw [hk] at a3; cases a3
          | undef h hk => rw [a2] at h; cases h; rw [hk] at a3; cases a3
          | zero h hk => rw [a2] at h; cases h; rw [hk] at a3; cases a3
          | agg h hk _ => rw [a2] at h; cases h; rw [hk] at a3; cases a3
        rcases hu with (hu | ⟨y, hy, ⟨n, hk⟩ | hk⟩) | hu
        · rcases visible_has hp hf hb hu with ⟨e, -⟩ | ⟨-, e⟩
          · rw [a1] at e; cases e
          · exact e
        · exact cc (.int hy hk) rfl
        · exact cc (.undef hy hk) rfl
        · exact cc hu rfl
      unfold valAst
      simp only [a1, b1, a2, b2, a3, b3, Bool.false_eq_true, if_false, C.val a v v' ⟨h1, h2⟩ hn]
  · have e := constAst_same h (fd.dfg.values.entries.length + 1) (fd'.dfg.values.entries.length + 1)
    obtain ⟨x, x', h1, h2, -⟩ := h.tys
    have hc' := h.constant
    have g1 : isGlobal v = false := hp.localId f v x ⟨fd, hf, h1⟩
    have g2 : isGlobal v' = false := hp'.localId f' v' x' ⟨fd', hf', h2⟩
    have k : x.kind.isConst = true ∧ x'.kind.isConst = true := by
      cases h with
      | leaf e1 e2 _ e4 e5 _ =>
        rw [h1] at e1; cases e1
        rw [h2] at e2; cases e2
        exact ⟨e5, e4 ▸ e5⟩
      | agg e1 e2 _ e4 e5 _ _ =>
        rw [h1] at e1; cases e1
        rw [h2] at e2; cases e2
        rw [e4, e5]; exact ⟨rfl, rfl⟩
    have hc : Constant fd.dfg.values.get? v := by
      rcases hu with (hu | ⟨y, hy, ⟨n, hk⟩ | hk⟩) | hu
      · exfalso
        rcases visible_named hp hf hb hu with ⟨e, -⟩ | ⟨-, y, e1, e2, -⟩
        · rw [g1] at e; cases e
        · rw [h1] at e1; cases e1
          rw [k.1] at e2; cases e2
      · exact .int hy hk
      · exact .undef hy hk
      · exact hu
    have e := e hc.fuel hc'.fuel
    unfold elemAst at e
    rw [h1, h2] at e
    unfold valAst
    simp only [g1, g2, h1, h2, k.1, k.2, Bool.false_eq_true, if_false, if_true]
    exact e

theorem operands_same {j i : Nat} {vs vs' : List Value} (hu : ∀ v ∈ vs, Usable p f fd j i v) (h : All2 (SameOperand p p' fd fd') vs vs') :
    vs.map (valAst fd M) = vs'.map (valAst fd' M') :=
  map_eq_of (h.imp (fun v hv _ h => operand_same hp hf hb hp' hf' hb' C (.inl (hu v hv)) h))

theorem symbol_same {j i : Nat} {v v' : Value} (hu : Visible p f fd j i v) (h : SameOperand p p' fd fd' v v') : symOf M v = symOf M' v' := by
  have e := operand_same hp hf hb hp' hf' hb' C (.inl (.inl hu)) h
  have hn := visible_named hp hf hb hu
  rw [(named_value hp M hn).1] at e
  have hn' : Named p' fd' v' := by
    rcases h with ⟨a, h1, h2⟩ | h
    · by_cases ha : ∃ k, a = .global k
      · obtain ⟨k, rfl⟩ := ha
        obtain ⟨e1, -, e2⟩ := placed_global hp' h2
        exact .inl ⟨e1, e2⟩
      · obtain ⟨b1, x', b2, b3, b4, -⟩ := placed_local hp' hf' hb' h2 (fun k e => ha ⟨k, e⟩)
        exact .inr ⟨b1, x', b2, b3, b4⟩
    · exfalso
      cases h with
      | leaf e1 e2 _ e4 e5 _ =>
        rcases hn with ⟨e, -⟩ | ⟨-, y, c1, c2, -⟩
        · rw [hp.localId f v _ ⟨fd, hf, e1⟩] at e; cases e
        · rw [e1] at c1; cases c1
          rw [e5] at c2; cases c2
      | agg e1 e2 _ e4 e5 _ _ =>
        rcases hn with ⟨e, -⟩ | ⟨-, y, c1, c2, -⟩
        · rw [hp.localId f v _ ⟨fd, hf, e1⟩] at e; cases e
        · rw [e1] at c1; cases c1
          rw [e4] at c2; cases c2
  rw [(named_value hp' M' hn').1] at e
  exact ValAst.sym.inj e

theorem stmt_same {j i : Nat} {q q' : BB × List Value} {v v' : Value} {x x' : VData} (hj : fd.layout.bbs[j]? = some q) (hi : q.2[i]? = some v)
    (hj' : fd'.layout.bbs[j]? = some q') (hi' : q'.2[i]? = some v') (hx : fd.dfg.values.get? v = some x) (hx' : fd'.dfg.values.get? v' = some x')
    (ht : x.ty = x'.ty) (hk : SameKind (SameOperand p p' fd fd') (SameBlock fd fd') (SamePlace p p') x.kind x'.kind) :
    stmtAst fd M v = stmtAst fd' M' v' := by
  obtain ⟨b, is⟩ := q
  obtain ⟨b', is'⟩ := q'
  have hT := hp.typed.locals f v x ⟨fd, hf, hx⟩
  obtain ⟨y, hy, hw⟩ := hb.insts j i b is v hj hi
  rw [hx] at hy; cases hy
  have nm : x.ty ≠ .unit → M.val v = M'.val v' := fun hu =>
    C.val (.inst j i) v v' ⟨by simp only [valueAt, hj]; exact hi, by simp only [valueAt, hj']; exact hi'⟩
      (.inst (List.mem_of_getElem? hj) (List.mem_of_getElem? hi) hx hu)
  unfold stmtAst
  rw [hx, hx']
  obtain ⟨ty, name, kind, usedBy⟩ := x
  obtain ⟨ty', name', kind', usedBy'⟩ := x'
  simp only at ht hk hT hw nm ⊢
  subst ht
  have op : ∀ {v v'}, Usable p f fd j i v → SameOperand p p' fd fd' v v' → valAst fd M v = valAst fd' M' v' :=
    fun h1 h2 => operand_same hp hf hb hp' hf' hb' C (.inl h1) h2
  have ops : ∀ {vs vs'}, (∀ v ∈ vs, Usable p f fd j i v) → All2 (SameOperand p p' fd fd') vs vs' → vs.map (valAst fd M) = vs'.map (valAst fd' M') :=
    fun h1 h2 => operands_same hp hf hb hp' hf' hb' C h1 h2
  have sy : ∀ {v v'}, Visible p f fd j i v → SameOperand p p' fd fd' v v' → symOf M v = symOf M' v' :=
    fun h1 h2 => symbol_same hp hf hb hp' hf' hb' C h1 h2
  cases hk with
  | alloc =>
    cases hw with
    | alloc h => simp only [kindAst, nm (by simp)]
  | load h1 =>
    cases hw with
    | load h2 h3 => simp only [kindAst, nm h3, sy h2 h1]
  | store h1 h2 =>
    cases hw with
    | store h3 h4 =>
      simp only [kindAst, sy h4 h2]
      rw [operand_same hp hf hb hp' hf' hb' C (j := j) (i := i) (h3.elim (fun h => .inl (.inl h)) .inr) h1]
  | getPtr h1 h2 =>
    cases hT
    cases hw with
    | getPtr h3 h4 => simp only [kindAst, nm (by simp), sy h3 h1, op h4 h2]
  | getElemPtr h1 h2 =>
    cases hT
    cases hw with
    | getElemPtr h3 h4 => simp only [kindAst, nm (by simp), sy h3 h1, op h4 h2]
  | binary h1 h2 =>
    cases hT
    cases hw with
    | binary h3 h4 => simp only [kindAst, nm (by simp), op h3 h1, op h4 h2]
  | branch h1 h2 h3 h4 h5 =>
    cases hw with
    | branch e1 e2 e3 => simp only [kindAst, op e1 h1, C.bb _ _ h2, C.bb _ _ h3, ops e2 h4, ops e3 h5]
  | jump h1 h2 =>
    cases hw with
    | jump e1 => simp only [kindAst, C.bb _ _ h1, ops e1 h2]
  | call h1 h2 =>
    cases hw with
    | call e1 e2 =>
      simp only [kindAst, C.fn _ _ h1, ops e2 h2]
      split
      · rfl
      · rename_i hu
        rw [nm (by rintro rfl; exact hu rfl)]
  | retNone => rfl
  | ret h1 =>
    cases hw with
    | ret e1 e2 e3 => simp only [kindAst, op e2 h1]

omit hp hf hp' hf' hb' in
theorem param_same {a : Place} {v v' : Value} (h : At p p' fd fd' a v v') (hn : HasName fd v) (ht : SameTy fd fd' v v') :
    paramAst fd M v = paramAst fd' M' v' := by
  obtain ⟨x, x', h1, h2, h3⟩ := ht
  unfold paramAst
  rw [C.val a v v' h hn, h1, h2]
  simp only [h3]

theorem fun_same (hs : SameFun p p' fd fd') (hfn : M.fn f = M'.fn f') : funAst M f fd = funAst M' f' fd' := by
  unfold funAst
  rw [hs.ty, hs.isDecl, hfn]
  have e1 : fd.params.map (paramAst fd M) = fd'.params.map (paramAst fd' M') :=
    map_eq_of (all2_of hs.params.length (fun i v v' h1 h2 =>
      param_same hb C (a := .arg i) ⟨h1, h2⟩ (.arg (List.mem_of_getElem? h1)) (hs.params.get i v v' h1 h2)))
  have e2 : fd.layout.bbs.map (blockAst fd M) = fd'.layout.bbs.map (blockAst fd' M') := by
    refine map_eq_of (all2_of hs.blocks.length (fun j q q' h1 h2 => ?_))
    obtain ⟨⟨x, x', h3, h4, h5⟩, h6⟩ := hs.blocks.get j q q' h1 h2
    have eb : M.bb q.1 = M'.bb q'.1 := C.bb _ _ ⟨j, by rw [List.getElem?_map, h1]; rfl, by rw [List.getElem?_map, h2]; rfl⟩
    have ep : x.params.map (paramAst fd M) = x'.params.map (paramAst fd' M') :=
      map_eq_of (all2_of h5.length (fun i v v' h7 h8 =>
        param_same hb C (a := .param j i) ⟨by simp only [valueAt, h1, h3, h7], by simp only [valueAt, h2, h4, h8]⟩
          (.param (List.mem_of_getElem? h1) h3 (List.mem_of_getElem? h7)) (h5.get i v v' h7 h8)))
    have es : q.2.map (stmtAst fd M) = q'.2.map (stmtAst fd' M') :=
      map_eq_of (all2_of h6.length (fun i v v' h7 h8 => by
        obtain ⟨y, y', g1, g2, g3, g4⟩ := h6.get i v v' h7 h8
        exact stmt_same hp hf hb hp' hf' hb' C h1 h7 h2 h8 g1 g2 g3 g4))
    unfold blockAst
    rw [h3, h4, eb, es]
    simp only [ep]
  rw [e1, e2]

end

/-- The tree of a global variable. -/
theorem globalAst_same {p p' : Program} {M M' : Nm} {v v' : Value} {x x' : VData} {i i' : Value} (hx : p.values.get? v = some x)
    (hx' : p'.values.get? v' = some x') (hk : x.kind = .globalAlloc i) (hk' : x'.kind = .globalAlloc i') (hc : Constant p.values.get? i)
    (h : SameConst p.values.get? p'.values.get? i i') (hn : M.glob v = M'.glob v') : globalAst p M v = globalAst p' M' v' := by
  obtain ⟨y, y', h1, h2, h3⟩ := h.tys
  have e := constAst_same h (p.values.entries.length + 1) (p'.values.entries.length + 1) hc.fuel h.constant.fuel
  unfold elemAst at e
  rw [h1, h2] at e
  unfold globalAst
  simp only [hx, hx', hk, hk', h1, h2, hn, h3]
  simp only at e
  rw [e]

end Koopa
