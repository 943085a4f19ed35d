import Verif.Lemmas.Back.LlvmWhole
import Verif.Lemmas.Same.Run
/-!
An LLVM module runs in one way only, if memory from `alloca` is zero and but for the choice of objects.
-/
namespace Koopa
open Spec Spec.Ll Interp

/-! ### Values -/

section
variable {R : Obj → Obj → Prop}

theorem zeroed_rel {t : Ty} {x y : Val} (h : Zeroed t x) (h' : Zeroed t y) : SameShape R x y := by
  induction h generalizing y with
  | i32 => cases h'; exact .int _
  | ptr => cases h'; exact .null _ _
  | array n _ ih =>
    cases h' with
    | array _ h' =>
      refine .array (by simp) (fun i a b ha hb => ?_)
      rw [List.eq_of_mem_replicate (List.mem_of_getElem? ha), List.eq_of_mem_replicate (List.mem_of_getElem? hb)]
      exact ih h'

theorem cst_rel {t : Ty} {c : Cst} {x y : Val} (h : CstVal t c x) (h' : CstVal t c y) : SameShape R x y := by
  induction h generalizing y with
  | int => cases h'; exact .int _
  | zero h => cases h' with | zero h' => exact zeroed_rel h h'
  | undef => cases h'; exact .undef
  | @array t es xs h1 _ ih =>
    cases h' with
    | @array _ _ ys k1 k2 =>
      refine .array (by omega) (fun i a b ha hb => ?_)
      have hi : i < es.length := by rw [h1]; exact (List.getElem?_eq_some_iff.1 ha).1
      exact ih i es[i] a (List.getElem?_eq_getElem hi) ha (k2 i es[i] b (List.getElem?_eq_getElem hi) hb)

theorem elem_rel {x y x' y' : Val} {is : List Nat} (h : Elem y is x) (h' : Elem y' is x') (hy : SameShape R y y') : SameShape R x x' := by
  induction h generalizing y' with
  | here => cases h'; exact hy
  | inside h1 _ ih =>
    cases h' with
    | inside k1 k2 =>
      cases hy with
      | array l1 l2 => exact ih k2 (l2 _ _ _ h1 k1)

theorem replaced_rel {u u' y y' z z' : Val} {is : List Nat} (h : Replaced u y is z) (h' : Replaced u' y' is z') (hu : SameShape R u u') (hy : SameShape R y y') :
    SameShape R z z' := by
  induction h generalizing y' z' with
  | here => cases h'; exact hu
  | @inside l i is x x1 h1 _ ih =>
    cases h' with
    | @inside l' _ _ x' x1' k1 k2 =>
      cases hy with
      | array l1 l2 =>
        have h3 := ih k2 (l2 _ _ _ h1 k1)
        have hi : i < l.length := (List.getElem?_eq_some_iff.1 h1).1
        refine .array (by simp [l1]) (fun j a b ha hb => ?_)
        rw [List.getElem?_set] at ha hb
        by_cases hj : i = j
        · subst hj
          rw [if_pos rfl, if_pos hi] at ha
          rw [if_pos rfl, if_pos (by omega)] at hb
          cases ha; cases hb; exact h3
        · rw [if_neg hj] at ha hb
          exact l2 j a b ha hb

theorem moved_rel {size : Nat} {i : Int} {x y x' y' : Val} (h : Moved size i x y) (h' : Moved size i x' y') (hx : SameShape R x x') : SameShape R y y' := by
  cases h with
  | ptr h1 h2 =>
    cases hx with
    | null =>
      cases h' with
      | ptr k1 k2 =>
        have e := Int.ofNat.inj (h1.trans k1.symm)
        subst e
        exact .null _ _
    | ptr path _ _ hr =>
      cases h' with
      | ptr k1 k2 =>
        have e := Int.ofNat.inj (h1.trans k1.symm)
        subst e
        exact .ptr _ _ _ hr
  | ext q => cases hx; cases h'; exact .unsafePtr _

end

theorem bits_eq {n k : I32} (h : ∀ i, i < 32 → n.getLsbD i = k.getLsbD i) : n = k := BitVec.eq_of_getLsbD_eq h

theorem lArith_unique {op : Ll.Arith} {l r n k : I32} (h : op.Val l r n) (h' : op.Val l r k) : n = k := by
  cases op <;> simp only [Ll.Arith.Val] at h h'
  · exact BitVec.eq_of_toInt_eq (h.trans h'.symm)
  · exact BitVec.eq_of_toInt_eq (h.trans h'.symm)
  · exact BitVec.eq_of_toInt_eq (h.trans h'.symm)
  · exact BitVec.eq_of_toInt_eq (h.2.2.trans h'.2.2.symm)
  · exact BitVec.eq_of_toInt_eq (h.2.2.trans h'.2.2.symm)
  · exact bits_eq (fun i hi => (h i hi).trans (h' i hi).symm)
  · exact bits_eq (fun i hi => (h i hi).trans (h' i hi).symm)
  · exact bits_eq (fun i hi => (h i hi).trans (h' i hi).symm)
  · exact BitVec.eq_of_toNat_eq (h.2.trans h'.2.symm)
  · exact BitVec.eq_of_toNat_eq (h.2.trans h'.2.symm)
  · exact BitVec.eq_of_toInt_eq (h.2.trans h'.2.symm)

theorem oneIf_unique {q : Prop} {n k : I32} (h : OneIf q n) (h' : OneIf q k) : n = k := by
  by_cases hq : q
  · rw [h.1 hq, h'.1 hq]
  · rw [h.2 hq, h'.2 hq]

/-! ### States -/

/-- The activations are the same but for the choice of objects. -/
structure LActEq (M : Mod) (R : Obj → Obj → Prop) (a a' : LAct) : Prop where
  fn : a.fn = a'.fn
  inM : .define a.fn ∈ M
  cur : a.cur = a'.cur
  rest : a.rest = a'.rest
  regs : ∀ n, OptRel (SameShape R) (a.regs n) (a'.regs n)
  objs : All2 R a.objs a'.objs

/-- Memory is the same but for the choice of objects. -/
structure MemEq (R : Obj → Obj → Prop) (dead dead' : List Obj) (m m' : Mem) : Prop where
  one : OneToOne R
  mem : ∀ o o', R o o' → OptRel (SameShape R) (m o) (m' o')
  left : ∀ o o', R o o' → m o ≠ none ∨ o ∈ dead
  right : ∀ o o', R o o' → m' o' ≠ none ∨ o' ∈ dead'

/-- The machines are the same but for the choice of objects. -/
structure LStEq {σ : Type} (M : Mod) (R : Obj → Obj → Prop) (s s' : LState σ) : Prop where
  acts : All2 (LActEq M R) s.acts s'.acts
  mem : MemEq R s.dead s'.dead s.mem s'.mem
  dead : All2 R s.dead s'.dead
  addr : ∀ n, OptRel R (s.addr n) (s'.addr n)
  world : s.world = s'.world
  few : ∃ L : List Obj, ∀ o, s'.mem o ≠ none → o ∈ L

section
variable {M : Mod} {R : Obj → Obj → Prop} {σ : Type} {lib : Lib σ} {ptrSize : Nat}
variable {addr addr' : Str → Option Obj} {regs regs' : Str → Option Val}

theorem LActEq.mono {S : Obj → Obj → Prop} (hRS : ∀ o o', R o o' → S o o') {a a' : LAct} (h : LActEq M R a a') : LActEq M S a a' :=
  ⟨h.fn, h.inM, h.cur, h.rest, fun n => (h.regs n).mono (fun _ _ => SameShape.mono hRS), all2_mono hRS h.objs⟩

theorem LActEq.gets {a a' : LAct} (h : LActEq M R a a') (n : Str) {x x' : Val} (hx : SameShape R x x') : LActEq M R (a.gets n x) (a'.gets n x') := by
  refine ⟨h.fn, h.inM, h.cur, by simp only [LAct.gets, h.rest], fun u => ?_, h.objs⟩
  simp only [LAct.gets]
  split
  · exact .some hx
  · exact h.regs u

theorem LActEq.next {a a' : LAct} (h : LActEq M R a a') : LActEq M R { a with rest := a.rest.tail } { a' with rest := a'.rest.tail } :=
  ⟨h.fn, h.inM, h.cur, by simp only [h.rest], h.regs, h.objs⟩

theorem LActEq.back {a a' : LAct} (h : LActEq M R a a') (n : Option Str) {x x' : Val} (hx : SameShape R x x') : LActEq M R (a.back n x) (a'.back n x') := by
  cases n with
  | some n => exact h.gets n hx
  | none => exact h.next

/-- Operands have the same values. -/
theorem opd_rel (ha : ∀ n, OptRel R (addr n) (addr' n)) (hr : ∀ n, OptRel (SameShape R) (regs n) (regs' n)) {t : Ty} {o : Opd} {x x' : Val}
    (h : OpdVal addr regs t o x) (h' : OpdVal addr' regs' t o x') : SameShape R x x' := by
  cases h with
  | cst h => cases h' with | cst h' => exact cst_rel h h'
  | loc h =>
    cases h' with
    | loc h' =>
      obtain ⟨y, h1, h2⟩ := (hr _).get h
      rw [h'] at h1; cases h1
      exact h2
  | glob h =>
    cases h' with
    | glob h' =>
      obtain ⟨y, h1, h2⟩ := (ha _).get h
      rw [h'] at h1; cases h1
      exact .ptr _ _ _ h2

theorem cst_shape {t : Ty} {c : Cst} {x : Val} (h : CstVal t c x) : SameShape R x x := cst_rel h h

/-- An operand that has a value in one machine has one in the other. -/
theorem opd_live (ha : ∀ n, OptRel R (addr n) (addr' n)) (hr : ∀ n, OptRel (SameShape R) (regs n) (regs' n)) {t : Ty} {o : Opd} {x : Val}
    (h : OpdVal addr regs t o x) : ∃ x', OpdVal addr' regs' t o x' ∧ SameShape R x x' := by
  cases h with
  | cst h => exact ⟨x, .cst h, cst_shape h⟩
  | loc h =>
    obtain ⟨y, h1, h2⟩ := (hr _).get h
    exact ⟨y, .loc h1, h2⟩
  | glob h =>
    obtain ⟨y, h1, h2⟩ := (ha _).get h
    exact ⟨_, .glob h1, .ptr _ _ _ h2⟩

theorem shape_ptrs {q q' : Obj × List Nat} {i n i' n' : Nat} (h : SameShape R (.ptr (some q) i n) (.ptr (some q') i' n')) : R q.1 q'.1 ∧ q.2 = q'.2 := by
  cases h with
  | ptr path _ _ hr => exact ⟨hr, rfl⟩

theorem stored_rel {dead dead' : List Obj} {m m' : Mem} (hm : MemEq R dead dead' m m') {q q' : Obj × List Nat} {x x' : Val} (hq : R q.1 q'.1 ∧ q.2 = q'.2)
    (h : Stored m q x) (h' : Stored m' q' x') : SameShape R x x' := by
  obtain ⟨y, h1, h2⟩ := h
  obtain ⟨y', k1, k2⟩ := h'
  obtain ⟨z, l1, l2⟩ := (hm.mem _ _ hq.1).get h1
  rw [k1] at l1; cases l1
  rw [← hq.2] at k2
  exact elem_rel h2 k2 l2

theorem stored_live {dead dead' : List Obj} {m m' : Mem} (hm : MemEq R dead dead' m m') {q : Obj × List Nat} {o' : Obj} {x : Val} (hq : R q.1 o')
    (h : Stored m q x) : ∃ x', Stored m' (o', q.2) x' ∧ SameShape R x x' := by
  obtain ⟨y, h1, h2⟩ := h
  obtain ⟨z, l1, l2⟩ := (hm.mem _ _ hq).get h1
  obtain ⟨x', k1, k2⟩ := elem_shape h2 l2
  exact ⟨x', ⟨z, l1, k1⟩, k2⟩

theorem MemEq.store {dead dead' : List Obj} {m m' m1 m1' : Mem} (hm : MemEq R dead dead' m m') {q q' : Obj × List Nat} {x x' : Val} (hq : R q.1 q'.1 ∧ q.2 = q'.2)
    (hx : SameShape R x x') (h : Storing m q x m1) (h' : Storing m' q' x' m1') : MemEq R dead dead' m1 m1' := by
  obtain ⟨y, z, h1, h2, h3, h4⟩ := h
  obtain ⟨y', z', k1, k2, k3, k4⟩ := h'
  obtain ⟨u, l1, l2⟩ := (hm.mem _ _ hq.1).get h1
  rw [k1] at l1; cases l1
  rw [← hq.2] at k2
  have hz := replaced_rel h2 k2 hx l2
  refine ⟨hm.one, fun o o' ho => ?_, fun o o' ho => ?_, fun o o' ho => ?_⟩
  · by_cases e : o = q.1
    · subst e
      cases hm.one.1 _ _ _ ho hq.1
      rw [h3, k3]; exact .some hz
    · have e' : o' ≠ q'.1 := fun e' => e (hm.one.2 _ _ _ ho (e' ▸ hq.1))
      rw [h4 _ e, k4 _ e']
      exact hm.mem _ _ ho
  · by_cases e : o = q.1
    · rw [e, h3]; exact .inl (by simp)
    · rw [h4 _ e]; exact hm.left _ _ ho
  · by_cases e : o' = q'.1
    · rw [e, k3]; exact .inl (by simp)
    · rw [k4 _ e]; exact hm.right _ _ ho

/-- A new object. -/
theorem MemEq.alloc {dead dead' : List Obj} {m m' m1 m1' : Mem} (hm : MemEq R dead dead' m m') {o o' : Obj} {x x' : Val} (h1 : m o = none) (h2 : o ∉ dead)
    (h3 : m1 o = some x) (h4 : ∀ q, q ≠ o → m1 q = m q) (k1 : m' o' = none) (k2 : o' ∉ dead') (k3 : m1' o' = some x') (k4 : ∀ q, q ≠ o' → m1' q = m' q)
    (hx : ∀ S, SameShape S x x') : MemEq (fun a b => R a b ∨ (a = o ∧ b = o')) dead dead' m1 m1' := by
  have n1 : ∀ b, ¬ R o b := fun b hb => (hm.left _ _ hb).elim (fun h => h h1) h2
  have n2 : ∀ a, ¬ R a o' := fun a ha => (hm.right _ _ ha).elim (fun h => h k1) k2
  refine ⟨⟨?_, ?_⟩, ?_, ?_, ?_⟩
  · rintro a b c (h | ⟨rfl, rfl⟩) (h' | ⟨e, rfl⟩)
    · exact hm.one.1 _ _ _ h h'
    · subst e; exact absurd h (n1 _)
    · exact absurd h' (n1 _)
    · rfl
  · rintro a b c (h | ⟨rfl, rfl⟩) (h' | ⟨rfl, e⟩)
    · exact hm.one.2 _ _ _ h h'
    · subst e; exact absurd h (n2 _)
    · exact absurd h' (n2 _)
    · rfl
  · rintro a b (h | ⟨rfl, rfl⟩)
    · rw [h4 a (by rintro rfl; exact n1 _ h), k4 b (by rintro rfl; exact n2 _ h)]
      exact (hm.mem _ _ h).mono (fun _ _ => SameShape.mono (fun _ _ h => .inl h))
    · rw [h3, k3]; exact .some (hx _)
  · rintro a b (h | ⟨rfl, rfl⟩)
    · rw [h4 a (by rintro rfl; exact n1 _ h)]; exact hm.left _ _ h
    · rw [h3]; exact .inl (by simp)
  · rintro a b (h | ⟨rfl, rfl⟩)
    · rw [k4 b (by rintro rfl; exact n2 _ h)]; exact hm.right _ _ h
    · rw [k3]; exact .inl (by simp)

/-- One instruction that does not transfer control, in both machines. -/
theorem does_rel (hl : Blind lib) (ha : ∀ n, OptRel R (addr n) (addr' n)) {dead dead' : List Obj} {m m' : Mem} (hm : MemEq R dead dead' m m') {a a' : LAct}
    (hA : LActEq M R a a') {w w1 w1' : σ} {i : Inst} {a1 a1' : LAct} {m1 m1' : Mem} (h : LDoes lib ptrSize Zeroed addr dead a m w i a1 m1 w1)
    (h' : LDoes lib ptrSize Zeroed addr' dead' a' m' w i a1' m1' w1') :
    ∃ S, (∀ o o', R o o' → S o o') ∧ MemEq S dead dead' m1 m1' ∧ LActEq M S a1 a1' ∧ w1 = w1' := by
  have hop : ∀ {t : Ty} {o : Opd} {x x' : Val}, OpdVal addr a.regs t o x → OpdVal addr' a'.regs t o x' → SameShape R x x' := fun h h' => opd_rel ha hA.regs h h'
  have hid : ∀ o o', R o o' → R o o' := fun _ _ h => h
  cases h with
  | @alloca x t o y m1 h1 h2 h3 h4 h5 =>
    cases h' with
    | @alloca _ _ o' y' _ k1 k2 k3 k4 k5 =>
      refine ⟨fun a b => R a b ∨ (a = o ∧ b = o'), fun _ _ h => .inl h, hm.alloc h1 h2 h4 h5 k1 k2 k4 k5 (fun _ => zeroed_rel h3 k3), ?_, rfl⟩
      have hg := (hA.mono (S := fun a b => R a b ∨ (a = o ∧ b = o')) (fun _ _ h => .inl h)).gets x (.ptr [] 0 0 (.inr ⟨rfl, rfl⟩))
      exact ⟨hg.fn, hg.inM, hg.cur, hg.rest, hg.regs, .cons (.inr ⟨rfl, rfl⟩) hg.objs⟩
  | load h1 h2 =>
    cases h' with
    | load k1 k2 => exact ⟨R, hid, hm, hA.gets _ (stored_rel hm (shape_ptrs (hop h1 k1)) h2 k2), rfl⟩
    | loadExt k1 => have := hop h1 k1; cases this
  | loadExt h1 =>
    cases h' with
    | load k1 k2 => have := hop h1 k1; cases this
    | loadExt k1 =>
      have := hop h1 k1
      cases this
      exact ⟨R, hid, hm, hA.gets _ (external_shape (lib.loadExt _ _ _)), rfl⟩
  | store h1 h2 h3 =>
    cases h' with
    | store k1 k2 k3 => exact ⟨R, hid, hm.store (shape_ptrs (hop h2 k2)) (hop h1 k1) h3 k3, hA.next, rfl⟩
    | storeExt k1 k2 => have := hop h2 k2; cases this
  | storeExt h1 h2 h3 =>
    cases h' with
    | store k1 k2 k3 => have := hop h2 k2; cases this
    | storeExt k1 k2 k3 =>
      have := hop h2 k2
      cases this
      rw [hl.store R hm.one _ _ _ _ _ (hop h1 k1), k3] at h3
      cases h3
      exact ⟨R, hid, hm, hA.next, rfl⟩
  | gep h1 h2 h3 =>
    cases h' with
    | gep k1 k2 k3 =>
      have := hop h2 k2
      cases this
      exact ⟨R, hid, hm, hA.gets _ (moved_rel h3 k3 (hop h1 k1)), rfl⟩
  | gepElem h1 h2 h3 h4 h5 =>
    cases h' with
    | gepElem k1 k2 k3 k4 k5 =>
      have e := hop h3 k3
      cases e
      have hq := shape_ptrs (hop h1 k1)
      have hs := stored_rel hm hq h4 k4
      generalize e1 : Val.array _ = z at hs
      generalize e2 : Val.array _ = z' at hs
      cases hs with
      | array l1 l2 =>
        cases e1; cases e2
        refine ⟨R, hid, hm, hA.gets _ (moved_rel h5 k5 ?_), rfl⟩
        rw [l1, hq.2]
        exact .ptr _ _ _ hq.1
      | _ => cases e1
    | gepElemExt k1 => have := hop h1 k1; cases this
  | gepElemExt h1 h2 h3 h4 =>
    cases h' with
    | gepElem k1 => have := hop h1 k1; cases this
    | gepElemExt k1 k2 k3 k4 =>
      have e := hop h3 k3
      cases e
      exact ⟨R, hid, hm, hA.gets _ (moved_rel h4 k4 (hop h1 k1)), rfl⟩
  | arith h1 h2 h3 =>
    cases h' with
    | arith k1 k2 k3 =>
      have e1 := hop h1 k1
      have e2 := hop h2 k2
      cases e1; cases e2
      cases lArith_unique h3 k3
      exact ⟨R, hid, hm, hA.gets _ (.int _), rfl⟩
  | icmp h1 h2 h3 =>
    cases h' with
    | icmp k1 k2 k3 =>
      have e1 := hop h1 k1
      have e2 := hop h2 k2
      cases e1; cases e2
      cases oneIf_unique h3 k3
      exact ⟨R, hid, hm, hA.gets _ (.int _), rfl⟩
  | zext h1 =>
    cases h' with
    | zext k1 => exact ⟨R, hid, hm, hA.gets _ (hop h1 k1), rfl⟩

/-- There is an object outside of a list. -/
theorem new_obj (L : List Obj) : ∃ o, o ∉ L := by
  have key : ∃ k, ∀ i v n, .loc i v n ∈ L → i < k := by
    induction L with
    | nil => exact ⟨0, fun _ _ _ h => by cases h⟩
    | cons o L ih =>
      obtain ⟨k, hk⟩ := ih
      cases o with
      | glob v => exact ⟨k, fun i u n h => hk i u n (by simpa using h)⟩
      | loc j v n =>
        refine ⟨k + j + 1, fun i u m h => ?_⟩
        rcases List.mem_cons.1 h with e | h
        · cases e; omega
        · have := hk i u m h; omega
  obtain ⟨k, hk⟩ := key
  exact ⟨.loc k 0 0, fun h => Nat.lt_irrefl _ (hk _ _ _ h)⟩

/-- An instruction that one machine can run, the other can run as well. -/
theorem does_live (hl : Blind lib) (ha : ∀ n, OptRel R (addr n) (addr' n)) {dead dead' : List Obj} {m m' : Mem} (hm : MemEq R dead dead' m m')
    (hf : ∃ L : List Obj, ∀ o, m' o ≠ none → o ∈ L) {a a' : LAct}
    (hA : LActEq M R a a') {w w1 : σ} {i : Inst} {a1 : LAct} {m1 : Mem} (h : LDoes lib ptrSize Zeroed addr dead a m w i a1 m1 w1) :
    ∃ a1' m1' w1', LDoes lib ptrSize Zeroed addr' dead' a' m' w i a1' m1' w1' := by
  have hop : ∀ {t : Ty} {o : Opd} {x : Val}, OpdVal addr a.regs t o x → ∃ x', OpdVal addr' a'.regs t o x' ∧ SameShape R x x' := fun h => opd_live ha hA.regs h
  cases h with
  | @alloca x t o y m1 h1 h2 h3 h4 h5 =>
    obtain ⟨L, hL⟩ := hf
    obtain ⟨o', ho'⟩ := new_obj (L ++ dead')
    rw [List.mem_append, not_or] at ho'
    exact ⟨_, fun q => if q = o' then some y else m' q, _, .alloca (Classical.not_not.1 (fun h => ho'.1 (hL _ h))) ho'.2 h3 (by simp) (fun q hq => by simp [hq])⟩
  | load h1 h2 =>
    obtain ⟨x', k1, k2⟩ := hop h1
    obtain ⟨o', rfl, hr⟩ := shape_ptr k2
    obtain ⟨y', l1, -⟩ := stored_live hm hr h2
    exact ⟨_, _, _, .load k1 l1⟩
  | loadExt h1 =>
    obtain ⟨x', k1, k2⟩ := hop h1
    cases shape_ext k2
    exact ⟨_, _, _, .loadExt k1⟩
  | store h1 h2 h3 =>
    obtain ⟨x', k1, k2⟩ := hop h1
    obtain ⟨q', k3, k4⟩ := hop h2
    obtain ⟨o', rfl, hr⟩ := shape_ptr k4
    obtain ⟨y, z, l1, l2, l3, l4⟩ := h3
    obtain ⟨y', n1, n2⟩ := (hm.mem _ _ hr).get l1
    obtain ⟨z', n3, -⟩ := replaced_shape l2 k2 n2
    exact ⟨_, fun q => if q = o' then some z' else m' q, _, .store k1 k3 ⟨y', z', n1, n3, by simp, fun q hq => by simp [hq]⟩⟩
  | storeExt h1 h2 h3 =>
    obtain ⟨x', k1, k2⟩ := hop h1
    obtain ⟨q', k3, k4⟩ := hop h2
    cases shape_ext k4
    rw [hl.store R hm.one _ _ _ _ _ k2] at h3
    exact ⟨_, _, _, .storeExt k1 k3 h3⟩
  | gep h1 h2 h3 =>
    obtain ⟨x', k1, k2⟩ := hop h1
    obtain ⟨y', k3, k4⟩ := hop h2
    cases shape_int k4
    obtain ⟨z', l1, -⟩ := moved_shape h3 k2
    exact ⟨_, _, _, .gep k1 k3 l1⟩
  | gepElem h1 h2 h3 h4 h5 =>
    obtain ⟨x', k1, k2⟩ := hop h1
    obtain ⟨o', rfl, hr⟩ := shape_ptr k2
    obtain ⟨y', k3, k4⟩ := hop h2
    cases shape_int k4
    obtain ⟨z', k5, k6⟩ := hop h3
    cases shape_int k6
    obtain ⟨u, l1, l2⟩ := stored_live hm hr h4
    generalize e1 : Val.array _ = z at l2
    cases l2 with
    | array n1 n2 =>
      cases e1
      obtain ⟨z', o1, -⟩ := moved_shape h5 (SameShape.ptr (R := R) _ 0 _ hr)
      rw [n1] at o1
      exact ⟨_, _, _, .gepElem k1 k3 k5 l1 o1⟩
    | _ => cases e1
  | gepElemExt h1 h2 h3 h4 =>
    obtain ⟨x', k1, k2⟩ := hop h1
    cases shape_ext k2
    obtain ⟨y', k3, k4⟩ := hop h2
    cases shape_int k4
    obtain ⟨z', k5, k6⟩ := hop h3
    cases shape_int k6
    exact ⟨_, _, _, .gepElemExt k1 k3 k5 h4⟩
  | arith h1 h2 h3 =>
    obtain ⟨x', k1, k2⟩ := hop h1
    cases shape_int k2
    obtain ⟨y', k3, k4⟩ := hop h2
    cases shape_int k4
    exact ⟨_, _, _, .arith k1 k3 h3⟩
  | icmp h1 h2 h3 =>
    obtain ⟨x', k1, k2⟩ := hop h1
    cases shape_int k2
    obtain ⟨y', k3, k4⟩ := hop h2
    cases shape_int k4
    exact ⟨_, _, _, .icmp k1 k3 h3⟩
  | zext h1 =>
    obtain ⟨x', k1, k2⟩ := hop h1
    cases shape_int k2
    exact ⟨_, _, _, .zext k1⟩

theorem does_few {fill : Ty → Val → Prop} {dead : List Obj} {m m1 : Mem} {a a1 : LAct} {w w1 : σ} {i : Inst} (h : LDoes lib ptrSize fill addr dead a m w i a1 m1 w1)
    (hf : ∃ L : List Obj, ∀ o, m o ≠ none → o ∈ L) : ∃ L : List Obj, ∀ o, m1 o ≠ none → o ∈ L := by
  obtain ⟨L, hL⟩ := hf
  cases h with
  | @alloca x t o y m1 h1 h2 h3 h4 h5 =>
    refine ⟨o :: L, fun q hq => ?_⟩
    by_cases e : q = o
    · rw [e]; exact List.mem_cons_self
    · rw [h5 q e] at hq
      exact List.mem_cons_of_mem _ (hL q hq)
  | @store _ _ _ q _ _ _ _ _ h3 =>
    obtain ⟨y, z, l1, l2, l3, l4⟩ := h3
    refine ⟨L, fun r hr => ?_⟩
    by_cases e : r = q.1
    · exact hL r (by rw [e, l1]; simp)
    · rw [l4 r e] at hr
      exact hL r hr
  | _ => exact ⟨L, hL⟩

/-! ### Control -/

theorem map_inj_of_nodup {α β : Type} {f : α → β} {l : List α} (h : (l.map f).Nodup) {a b : α} (ha : a ∈ l) (hb : b ∈ l) (he : f a = f b) : a = b := by
  induction l with
  | nil => cases ha
  | cons c l ih =>
    rw [List.map_cons, List.nodup_cons] at h
    rcases List.mem_cons.1 ha with rfl | ha
    · rcases List.mem_cons.1 hb with rfl | hb
      · rfl
      · exact absurd (List.mem_map.2 ⟨b, hb, he.symm⟩) h.1
    · rcases List.mem_cons.1 hb with hb | hb
      · subst hb; exact absurd (show f b ∈ l.map f from List.mem_map.2 ⟨a, ‹a ∈ l›, he⟩) h.1
      · exact ih h.2 ha hb

theorem goes_rel (ha : ∀ n, OptRel R (addr n) (addr' n)) (hr : ∀ n, OptRel (SameShape R) (regs n) (regs' n)) {i : Inst} {l l' : Str}
    (h : LGoes addr regs i l) (h' : LGoes addr' regs' i l') : l = l' := by
  cases h with
  | jump => cases h'; rfl
  | brTrue h1 =>
    cases h' with
    | brTrue => rfl
    | brFalse k1 => have := opd_rel ha hr h1 k1; cases this
  | brFalse h1 =>
    cases h' with
    | brFalse => rfl
    | brTrue k1 => have := opd_rel ha hr h1 k1; cases this

theorem goes_live (ha : ∀ n, OptRel R (addr n) (addr' n)) (hr : ∀ n, OptRel (SameShape R) (regs n) (regs' n)) {i : Inst} {l : Str}
    (h : LGoes addr regs i l) : LGoes addr' regs' i l := by
  cases h with
  | jump => exact .jump _
  | brTrue h1 =>
    obtain ⟨x', k1, k2⟩ := opd_live ha hr h1
    cases shape_int k2
    exact .brTrue k1
  | brFalse h1 =>
    obtain ⟨x', k1, k2⟩ := opd_live ha hr h1
    cases shape_int k2
    exact .brFalse k1

theorem enters_rel (ha : ∀ n, OptRel R (addr n) (addr' n)) (hr : ∀ n, OptRel (SameShape R) (regs n) (regs' n)) {fn : Fn} (hn : (fn.blks.map (·.label)).Nodup)
    {cur l : Str} {is is' : List Inst} {r1 r1' : Str → Option Val} (h : LEnters addr fn cur regs l is r1) (h' : LEnters addr' fn cur regs' l is' r1') :
    is = is' ∧ ∀ n, OptRel (SameShape R) (r1 n) (r1' n) := by
  obtain ⟨b, h1, h2, h3, h4, h5⟩ := h
  obtain ⟨b', k1, k2, k3, k4, k5⟩ := h'
  cases map_inj_of_nodup hn h1 k1 (h2.trans k2.symm)
  refine ⟨h3.symm.trans k3, fun n => ?_⟩
  by_cases e : ∃ φ, φ ∈ b.phis ∧ n = φ.name
  · obtain ⟨φ, e1, rfl⟩ := e
    obtain ⟨x, l1, ⟨o, l2⟩, l3⟩ := h4 φ e1
    obtain ⟨x', m1, -, m3⟩ := k4 φ e1
    rw [l1, m1]
    exact .some (opd_rel ha hr (l3 o l2) (m3 o l2))
  · rw [h5 n (fun φ hφ e1 => e ⟨φ, hφ, e1⟩), k5 n (fun φ hφ e1 => e ⟨φ, hφ, e1⟩)]
    exact hr n

theorem enters_live (hone : OneToOne R) (ha : ∀ n, OptRel R (addr n) (addr' n)) (hr : ∀ n, OptRel (SameShape R) (regs n) (regs' n)) {fn : Fn}
    {cur l : Str} {is : List Inst} {r1 : Str → Option Val} (h : LEnters addr fn cur regs l is r1) :
    ∃ r1', LEnters addr' fn cur regs' l is r1' := by
  classical
  obtain ⟨b, h1, h2, h3, h4, h5⟩ := h
  let r1' : Str → Option Val := fun n => if ∃ φ, φ ∈ b.phis ∧ n = φ.name then
    (if hq : ∃ x', ∃ x, r1 n = some x ∧ SameShape R x x' then some (Classical.choose hq) else none) else regs' n
  refine ⟨r1', b, h1, h2, h3, fun φ hφ => ?_, fun n hn => ?_⟩
  · obtain ⟨x, l1, ⟨o, l2⟩, l3⟩ := h4 φ hφ
    obtain ⟨x', m1, m2⟩ := opd_live ha hr (l3 o l2)
    refine ⟨x', ?_, ⟨o, l2⟩, fun o' ho' => ?_⟩
    · have hq : ∃ x', ∃ x, r1 φ.name = some x ∧ SameShape R x x' := ⟨x', x, l1, m2⟩
      show (if ∃ ψ, ψ ∈ b.phis ∧ φ.name = ψ.name then _ else _) = some x'
      rw [if_pos ⟨φ, hφ, rfl⟩, dif_pos hq]
      obtain ⟨y, n1, n2⟩ := Classical.choose_spec hq
      rw [l1] at n1; cases n1
      rw [SameShape.unique hone n2 m2]
    · obtain ⟨x'', n1, n2⟩ := opd_live ha hr (l3 o' ho')
      rw [SameShape.unique hone m2 n2]
      exact n1
  · show (if ∃ φ, φ ∈ b.phis ∧ n = φ.name then _ else _) = regs' n
    rw [if_neg]
    rintro ⟨φ, e1, e2⟩
    exact hn φ e1 e2

theorem returns_rel (ha : ∀ n, OptRel R (addr n) (addr' n)) (hr : ∀ n, OptRel (SameShape R) (regs n) (regs' n)) {i : Inst} {x x' : Val}
    (h : LReturns addr regs i x) (h' : LReturns addr' regs' i x') : SameShape R x x' := by
  cases h with
  | void => cases h'; exact .undef
  | value h => cases h' with | value h' => exact opd_rel ha hr h h'

theorem returns_live (ha : ∀ n, OptRel R (addr n) (addr' n)) (hr : ∀ n, OptRel (SameShape R) (regs n) (regs' n)) {i : Inst} {x : Val}
    (h : LReturns addr regs i x) : ∃ x', LReturns addr' regs' i x' ∧ SameShape R x x' := by
  cases h with
  | void => exact ⟨_, .void, .undef⟩
  | value h =>
    obtain ⟨x', k1, k2⟩ := opd_live ha hr h
    exact ⟨x', .value k1, k2⟩

theorem opds_rel (ha : ∀ n, OptRel R (addr n) (addr' n)) (hr : ∀ n, OptRel (SameShape R) (regs n) (regs' n)) {as : List (Ty × Opd)} {xs xs' : List Val}
    (h : OpdVals addr regs as xs) (h' : OpdVals addr' regs' as xs') : All2 (SameShape R) xs xs' := by
  induction as generalizing xs xs' with
  | nil =>
    obtain ⟨h1, -⟩ := h
    obtain ⟨k1, -⟩ := h'
    cases xs with
    | cons => cases h1
    | nil => cases xs' with
      | cons => cases k1
      | nil => exact .nil
  | cons a as ih =>
    obtain ⟨h1, h2⟩ := h
    obtain ⟨k1, k2⟩ := h'
    cases xs with
    | nil => cases h1
    | cons x xs =>
      cases xs' with
      | nil => cases k1
      | cons x' xs' =>
        exact .cons (opd_rel ha hr (h2 0 a x rfl rfl) (k2 0 a x' rfl rfl))
          (ih ⟨by simpa using h1, fun i b y hb hy => h2 (i + 1) b y (by simpa using hb) (by simpa using hy)⟩
            ⟨by simpa using k1, fun i b y hb hy => k2 (i + 1) b y (by simpa using hb) (by simpa using hy)⟩)

theorem opds_live (ha : ∀ n, OptRel R (addr n) (addr' n)) (hr : ∀ n, OptRel (SameShape R) (regs n) (regs' n)) {as : List (Ty × Opd)} {xs : List Val}
    (h : OpdVals addr regs as xs) : ∃ xs', OpdVals addr' regs' as xs' := by
  induction as generalizing xs with
  | nil => exact ⟨[], rfl, fun i a x h => by simp at h⟩
  | cons a as ih =>
    obtain ⟨h1, h2⟩ := h
    cases xs with
    | nil => cases h1
    | cons x xs =>
      obtain ⟨x', k1, -⟩ := opd_live ha hr (h2 0 a x rfl rfl)
      obtain ⟨xs', l1, l2⟩ := ih (xs := xs) ⟨by simpa using h1, fun i b y hb hy => h2 (i + 1) b y (by simpa using hb) (by simpa using hy)⟩
      refine ⟨x' :: xs', by simp [l1], fun i b y hb hy => ?_⟩
      cases i with
      | zero => cases hb; cases hy; exact k1
      | succ i => exact l2 i b y (by simpa using hb) (by simpa using hy)

theorem lbound_rel {ps : List (Ty × Str)} {xs xs' : List Val} (hx : All2 (SameShape R) xs xs') (h : LBound ps xs regs) (h' : LBound ps xs' regs') :
    ∀ n, OptRel (SameShape R) (regs n) (regs' n) := by
  intro n
  by_cases e : n ∈ ps.map (·.2)
  · obtain ⟨q, e1, rfl⟩ := List.mem_map.1 e
    obtain ⟨i, hi⟩ := List.getElem?_of_mem e1
    rw [h.2.1 i q hi, h'.2.1 i q hi]
    exact all2_at hx i
  · rw [h.2.2 n e, h'.2.2 n e]; exact .none

theorem lbound_live (hone : OneToOne R) {ps : List (Ty × Str)} {xs xs' : List Val} (hx : All2 (SameShape R) xs xs') (h : LBound ps xs regs) :
    ∃ regs', LBound ps xs' regs' := by
  classical
  obtain ⟨h1, h2, h3⟩ := h
  have hlen : ps.length = xs'.length := by rw [h1, all2_length hx]
  refine ⟨fun n => if hn : ∃ i : Nat, ∃ q, ps[i]? = some q ∧ q.2 = n then xs'[Classical.choose hn]? else none, hlen, fun i q hi => ?_, fun n hn => ?_⟩
  · have hex : ∃ j : Nat, ∃ q', ps[j]? = some q' ∧ q'.2 = q.2 := ⟨i, q, hi, rfl⟩
    simp only [dif_pos hex]
    obtain ⟨q', e1, e2⟩ := Classical.choose_spec hex
    generalize Classical.choose hex = j at e1
    have a1 := h2 j q' e1
    rw [e2, h2 i q hi] at a1
    have b1 := all2_at hx i
    have b2 := all2_at hx j
    rw [a1] at b1
    generalize xs[j]? = u, xs'[i]? = v, xs'[j]? = w at b1 b2
    cases b1 with
    | none => cases b2; rfl
    | some r1 => cases b2 with | some r2 => rw [SameShape.unique hone r1 r2]
  · simp only []
    rw [dif_neg]
    rintro ⟨i, q, e1, rfl⟩
    exact hn (List.mem_map.2 ⟨q, List.mem_of_getElem? e1, rfl⟩)

theorem entry_rel {fn : Fn} (hM : .define fn ∈ M) {xs xs' : List Val} (hx : All2 (SameShape R) xs xs') {a a' : LAct} (h : LEntry fn xs a) (h' : LEntry fn xs' a') :
    LActEq M R a a' := by
  obtain ⟨b, bs, h1, h2, h3, h4, h5, h6, h7⟩ := h
  obtain ⟨b', bs', k1, k2, k3, k4, k5, k6, k7⟩ := h'
  rw [h1] at k1; cases k1
  exact ⟨h4.trans k4.symm, by rw [h4]; exact hM, h5.trans k5.symm, h6.trans k6.symm, lbound_rel hx h3 k3, by rw [h7, k7]; exact .nil⟩

theorem entry_live (hone : OneToOne R) {fn : Fn} {xs xs' : List Val} (hx : All2 (SameShape R) xs xs') {a : LAct} (h : LEntry fn xs a) : ∃ a', LEntry fn xs' a' := by
  obtain ⟨b, bs, h1, h2, h3, h4, h5, h6, h7⟩ := h
  obtain ⟨r, hr⟩ := lbound_live hone hx h3
  exact ⟨⟨fn, b.label, b.insts, r, []⟩, b, bs, h1, h2, hr, rfl, rfl, rfl, rfl⟩

theorem freed_rel {dead dead' os os' : List Obj} {m m' m1 m1' : Mem} (hm : MemEq R dead dead' m m') (ho : All2 R os os') (h : Freed os m m1) (h' : Freed os' m' m1') :
    MemEq R (os ++ dead) (os' ++ dead') m1 m1' := by
  have hin : ∀ o o', R o o' → (o ∈ os ↔ o' ∈ os') := by
    intro o o' hr
    constructor
    · intro h1
      obtain ⟨q, q1, q2⟩ := all2_inl ho h1
      rw [hm.one.1 _ _ _ hr q2]; exact q1
    · intro h1
      obtain ⟨q, q1, q2⟩ := all2_inl (all2_flip ho) h1
      rw [hm.one.2 _ _ _ hr q2]; exact q1
  refine ⟨hm.one, fun o o' hr => ?_, fun o o' hr => ?_, fun o o' hr => ?_⟩
  · by_cases e : o ∈ os
    · rw [h.1 o e, h'.1 o' ((hin _ _ hr).1 e)]; exact .none
    · rw [h.2 o e, h'.2 o' (fun e' => e ((hin _ _ hr).2 e'))]; exact hm.mem _ _ hr
  · by_cases e : o ∈ os
    · exact .inr (List.mem_append_left _ e)
    · rw [h.2 o e]
      exact (hm.left _ _ hr).imp id (List.mem_append_right _)
  · by_cases e : o' ∈ os'
    · exact .inr (List.mem_append_left _ e)
    · rw [h'.2 o' e]
      exact (hm.right _ _ hr).imp id (List.mem_append_right _)

theorem freed_few {os : List Obj} {m m1 : Mem} (h : Freed os m m1) (hf : ∃ L : List Obj, ∀ o, m o ≠ none → o ∈ L) : ∃ L : List Obj, ∀ o, m1 o ≠ none → o ∈ L := by
  obtain ⟨L, hL⟩ := hf
  refine ⟨L, fun o ho => hL o ?_⟩
  by_cases e : o ∈ os
  · exact absurd (h.1 o e) ho
  · rw [← h.2 o e]; exact ho

theorem all2_app {α β : Type} {S : α → β → Prop} {as as' : List α} {bs bs' : List β} (h : All2 S as bs) (h' : All2 S as' bs') : All2 S (as ++ as') (bs ++ bs') := by
  induction h with
  | nil => exact h'
  | cons h _ ih => exact .cons h ih

/-! ### Steps -/

theorem item_unique (hw : WellNamed M) {I J : Item} (hi : I ∈ M) (hj : J ∈ M) (h : I.name = J.name) : I = J := map_inj_of_nodup hw.items hi hj h

theorem does_not {fill : Ty → Val → Prop} {dead : List Obj} {m m1 : Mem} {a a1 : LAct} {w w1 : σ} {i : Inst} (h : LDoes lib ptrSize fill addr dead a m w i a1 m1 w1) :
    (∀ l, ¬ LGoes addr' regs' i l) ∧ (∀ n t f as, i ≠ .call n t f as) ∧ ∀ x, ¬ LReturns addr' regs' i x := by
  cases h <;> exact ⟨fun _ h => (by cases h), fun _ _ _ _ h => (by cases h), fun _ h => (by cases h)⟩

theorem goes_not {i : Inst} {l : Str} (h : LGoes addr regs i l) : (∀ n t f as, i ≠ .call n t f as) ∧ ∀ x, ¬ LReturns addr' regs' i x := by
  cases h <;> exact ⟨fun _ _ _ _ h => (by cases h), fun _ h => (by cases h)⟩

theorem returns_not {i : Inst} {x : Val} (h : LReturns addr regs i x) : ∀ n t f as, i ≠ .call n t f as := by
  cases h <;> exact fun _ _ _ _ h => (by cases h)

theorem acts_cons {s s' : LState σ} (h : LStEq M R s s') {a : LAct} {st : List LAct} (ha : s.acts = a :: st) :
    ∃ a' st', s'.acts = a' :: st' ∧ LActEq M R a a' ∧ All2 (LActEq M R) st st' := by
  have h1 := h.acts
  rw [ha] at h1
  generalize e : s'.acts = l at h1
  cases h1 with
  | cons h2 h3 => exact ⟨_, _, rfl, h2, h3⟩

/-- One step in both machines. -/
theorem next_rel (hw : WellNamed M) (hl : Blind lib) {s s' t t' : LState σ} (h : LStEq M R s s') (hn : LNext M lib ptrSize Zeroed s t)
    (hn' : LNext M lib ptrSize Zeroed s' t') : ∃ S, LStEq M S t t' := by
  cases hn with
  | @does a a1 stack i m w h1 h2 h3 =>
    obtain ⟨a', st', e1, e2, e3⟩ := acts_cons h h1
    rw [e2.rest] at h2
    cases hn' with
    | does k1 k2 k3 =>
      rw [e1] at k1; cases k1
      rw [k2] at h2; cases h2
      rw [← h.world] at k3
      obtain ⟨S, s1, s2, s3, s4⟩ := does_rel hl h.addr h.mem e2 h3 k3
      exact ⟨S, .cons s3 (all2_mono (fun _ _ h => h.mono s1) e3), s2, all2_mono s1 h.dead, fun n => (h.addr n).mono s1, s4, does_few k3 h.few⟩
    | goes k1 k2 k3 =>
      rw [e1] at k1; cases k1
      rw [k2] at h2; cases h2
      exact absurd k3 ((does_not h3).1 _)
    | callExt k1 k2 =>
      rw [e1] at k1; cases k1
      rw [k2] at h2; cases h2
      exact absurd rfl ((does_not (regs' := a'.regs) (addr' := s'.addr) h3).2.1 _ _ _ _)
    | call k1 k2 =>
      rw [e1] at k1; cases k1
      rw [k2] at h2; cases h2
      exact absurd rfl ((does_not (regs' := a'.regs) (addr' := s'.addr) h3).2.1 _ _ _ _)
    | ret k1 k2 k3 =>
      rw [e1] at k1; cases k1
      rw [k2] at h2; cases h2
      exact absurd k3 ((does_not h3).2.2 _)
  | @goes a stack i l is r1 h1 h2 h3 h4 =>
    obtain ⟨a', st', e1, e2, e3⟩ := acts_cons h h1
    rw [e2.rest] at h2
    cases hn' with
    | does k1 k2 k3 =>
      rw [e1] at k1; cases k1
      rw [k2] at h2; cases h2
      exact absurd h3 ((does_not k3).1 _)
    | goes k1 k2 k3 k4 =>
      rw [e1] at k1; cases k1
      rw [k2] at h2; cases h2
      cases goes_rel h.addr e2.regs h3 k3
      rw [e2.fn, e2.cur] at h4
      obtain ⟨rfl, q2⟩ := enters_rel h.addr e2.regs (hw.labels _ (e2.fn ▸ e2.inM)) h4 k4
      exact ⟨R, .cons ⟨e2.fn, e2.inM, rfl, rfl, q2, e2.objs⟩ e3, h.mem, h.dead, h.addr, h.world, h.few⟩
    | callExt k1 k2 =>
      rw [e1] at k1; cases k1
      rw [k2] at h2; cases h2
      exact absurd rfl ((goes_not (regs' := a'.regs) (addr' := s'.addr) h3).1 _ _ _ _)
    | call k1 k2 =>
      rw [e1] at k1; cases k1
      rw [k2] at h2; cases h2
      exact absurd rfl ((goes_not (regs' := a'.regs) (addr' := s'.addr) h3).1 _ _ _ _)
    | ret k1 k2 k3 =>
      rw [e1] at k1; cases k1
      rw [k2] at h2; cases h2
      exact absurd k3 ((goes_not h3).2 _)
  | callExt h1 h2 h3 h4 h5 =>
    obtain ⟨a', st', e1, e2, e3⟩ := acts_cons h h1
    rw [e2.rest] at h2
    cases hn' with
    | does k1 k2 k3 =>
      rw [e1] at k1; cases k1
      rw [k2] at h2; cases h2
      exact absurd rfl ((does_not (regs' := a'.regs) (addr' := s'.addr) k3).2.1 _ _ _ _)
    | goes k1 k2 k3 k4 =>
      rw [e1] at k1; cases k1
      rw [k2] at h2; cases h2
      exact absurd rfl ((goes_not (regs' := a'.regs) (addr' := s'.addr) k3).1 _ _ _ _)
    | callExt k1 k2 k3 k4 k5 =>
      rw [e1] at k1; cases k1
      rw [k2] at h2; cases h2
      have hI := item_unique hw h4 k4 rfl
      cases hI
      rw [hl.call R h.mem.one _ _ _ _ _ (opds_rel h.addr e2.regs h3 k3), h.world, k5] at h5
      cases h5
      exact ⟨R, .cons (e2.back _ (external_shape (lib.callExt _ _ _ _ _ _ k5))) e3, h.mem, h.dead, h.addr, rfl, h.few⟩
    | call k1 k2 k3 k4 k5 =>
      rw [e1] at k1; cases k1
      rw [k2] at h2; cases h2
      have hI := item_unique hw h4 k4 rfl
      cases hI
    | ret k1 k2 k3 =>
      rw [e1] at k1; cases k1
      rw [k2] at h2; cases h2
      exact absurd rfl (returns_not k3 _ _ _ _)
  | call h1 h2 h3 h4 h5 =>
    obtain ⟨a', st', e1, e2, e3⟩ := acts_cons h h1
    rw [e2.rest] at h2
    cases hn' with
    | does k1 k2 k3 =>
      rw [e1] at k1; cases k1
      rw [k2] at h2; cases h2
      exact absurd rfl ((does_not (regs' := a'.regs) (addr' := s'.addr) k3).2.1 _ _ _ _)
    | goes k1 k2 k3 k4 =>
      rw [e1] at k1; cases k1
      rw [k2] at h2; cases h2
      exact absurd rfl ((goes_not (regs' := a'.regs) (addr' := s'.addr) k3).1 _ _ _ _)
    | callExt k1 k2 k3 k4 k5 =>
      rw [e1] at k1; cases k1
      rw [k2] at h2; cases h2
      have hI := item_unique hw h4 k4 rfl
      cases hI
    | call k1 k2 k3 k4 k5 =>
      rw [e1] at k1; cases k1
      rw [k2] at h2
      simp only [Option.some.injEq, Inst.call.injEq] at h2
      obtain ⟨rfl, rfl, hname, rfl⟩ := h2
      have hI := item_unique hw h4 k4 hname.symm
      cases hI
      exact ⟨R, .cons (entry_rel h4 (opds_rel h.addr e2.regs h3 k3) h5 k5) (.cons e2 e3), h.mem, h.dead, h.addr, h.world, h.few⟩
    | ret k1 k2 k3 =>
      rw [e1] at k1; cases k1
      rw [k2] at h2; cases h2
      exact absurd rfl (returns_not k3 _ _ _ _)
  | ret h1 h2 h3 h4 h5 =>
    obtain ⟨a', st', e1, e2, e3⟩ := acts_cons h h1
    rw [e2.rest] at h2
    cases hn' with
    | does k1 k2 k3 =>
      rw [e1] at k1; cases k1
      rw [k2] at h2; cases h2
      exact absurd h3 ((does_not k3).2.2 _)
    | goes k1 k2 k3 k4 =>
      rw [e1] at k1; cases k1
      rw [k2] at h2; cases h2
      exact absurd h3 ((goes_not k3).2 _)
    | callExt k1 k2 =>
      rw [e1] at k1; cases k1
      rw [k2] at h2; cases h2
      exact absurd rfl (returns_not h3 _ _ _ _)
    | call k1 k2 =>
      rw [e1] at k1; cases k1
      rw [k2] at h2; cases h2
      exact absurd rfl (returns_not h3 _ _ _ _)
    | ret k1 k2 k3 k4 k5 =>
      rw [e1] at k1; cases k1
      rw [k2] at h2; cases h2
      cases e3 with
      | cons f1 f2 =>
        rw [f1.rest, k4] at h4; cases h4
        exact ⟨R, .cons (f1.back _ (returns_rel h.addr e2.regs h3 k3)) f2, freed_rel h.mem e2.objs h5 k5, all2_app e2.objs h.dead, h.addr, h.world, freed_few k5 h.few⟩

/-- If one machine can go on, so can the other. -/
theorem next_live (hl : Blind lib) {s s' t : LState σ} (h : LStEq M R s s') (hn : LNext M lib ptrSize Zeroed s t) :
    ∃ t', LNext M lib ptrSize Zeroed s' t' := by
  classical
  cases hn with
  | does h1 h2 h3 =>
    obtain ⟨a', st', e1, e2, e3⟩ := acts_cons h h1
    rw [e2.rest] at h2
    obtain ⟨a1', m1', w1', k⟩ := does_live hl h.addr h.mem h.few e2 h3
    rw [h.world] at k
    exact ⟨_, .does e1 h2 k⟩
  | goes h1 h2 h3 h4 =>
    obtain ⟨a', st', e1, e2, e3⟩ := acts_cons h h1
    rw [e2.rest] at h2
    rw [e2.fn, e2.cur] at h4
    obtain ⟨r1', k⟩ := enters_live h.mem.one h.addr e2.regs h4
    exact ⟨_, .goes e1 h2 (goes_live h.addr e2.regs h3) k⟩
  | callExt h1 h2 h3 h4 h5 =>
    obtain ⟨a', st', e1, e2, e3⟩ := acts_cons h h1
    rw [e2.rest] at h2
    obtain ⟨xs', k⟩ := opds_live h.addr e2.regs h3
    rw [hl.call R h.mem.one _ _ _ _ _ (opds_rel h.addr e2.regs h3 k), h.world] at h5
    exact ⟨_, .callExt e1 h2 k h4 h5⟩
  | call h1 h2 h3 h4 h5 =>
    obtain ⟨a', st', e1, e2, e3⟩ := acts_cons h h1
    rw [e2.rest] at h2
    obtain ⟨xs', k⟩ := opds_live h.addr e2.regs h3
    obtain ⟨b, hb⟩ := entry_live h.mem.one (opds_rel h.addr e2.regs h3 k) h5
    exact ⟨_, .call e1 h2 k h4 hb⟩
  | ret h1 h2 h3 h4 h5 =>
    obtain ⟨a', st', e1, e2, e3⟩ := acts_cons h h1
    rw [e2.rest] at h2
    obtain ⟨x', k, -⟩ := returns_live h.addr e2.regs h3
    cases e3 with
    | cons f1 f2 =>
      rw [f1.rest] at h4
      exact ⟨_, .ret (m := fun o => if o ∈ a'.objs then none else s'.mem o) e1 h2 k h4 ⟨fun o ho => by simp [ho], fun o ho => by simp [ho]⟩⟩

/-- A machine that stops does not go on. -/
theorem stop_no_next {fill : Ty → Val → Prop} {s t : LState σ} {n : I32} {w : σ} (h : LStop s n w) : ¬ LNext M lib ptrSize fill s t := by
  obtain ⟨a, i, h1, h2, h3, h4⟩ := h
  intro hn
  cases hn with
  | does k1 k2 k3 =>
    rw [h1] at k1; cases k1
    rw [h2] at k2; cases k2
    exact (does_not k3).2.2 _ h3
  | goes k1 k2 k3 k4 =>
    rw [h1] at k1; cases k1
    rw [h2] at k2; cases k2
    exact (goes_not k3).2 _ h3
  | callExt k1 k2 =>
    rw [h1] at k1; cases k1
    rw [h2] at k2; cases k2
    exact returns_not h3 _ _ _ _ rfl
  | call k1 k2 =>
    rw [h1] at k1; cases k1
    rw [h2] at k2; cases k2
    exact returns_not h3 _ _ _ _ rfl
  | ret k1 k2 =>
    rw [h1] at k1; cases k1

theorem stop_live {s s' : LState σ} (h : LStEq M R s s') {n : I32} {w : σ} (hs : LStop s n w) : LStop s' n w := by
  obtain ⟨a, i, h1, h2, h3, h4⟩ := hs
  obtain ⟨a', st', e1, e2, e3⟩ := acts_cons h h1
  cases e3
  obtain ⟨x', k1, k2⟩ := returns_live h.addr e2.regs h3
  cases shape_int k2
  exact ⟨a', i, e1, e2.rest ▸ h2, k1, h.world ▸ h4⟩

theorem lstop_unique {s : LState σ} {n n' : I32} {w w' : σ} (h : LStop s n w) (h' : LStop s n' w') : n = n' ∧ w = w' := by
  obtain ⟨a, i, h1, h2, h3, h4⟩ := h
  obtain ⟨a', i', k1, k2, k3, k4⟩ := h'
  rw [h1] at k1; cases k1
  rw [h2] at k2; cases k2
  refine ⟨?_, h4.symm.trans k4⟩
  cases h3 with
  | @value v _ h3 =>
    cases k3 with
    | value k3 =>
      obtain ⟨t, o⟩ := v
      cases h3 with
      | cst h3 =>
        cases k3 with
        | cst k3 =>
          have := cst_rel (R := fun _ _ => False) h3 k3
          cases this; rfl
      | loc h3 =>
        cases k3 with
        | loc k3 => rw [h3] at k3; cases k3; rfl

/-- All beginnings are the same but for the choice of objects. -/
theorem start_rel (hw : WellNamed M) {w : σ} {s s' : LState σ} (h : LStart M w s) (h' : LStart M w s') : ∃ R, LStEq M R s s' := by
  obtain ⟨h1, h2, h3, h4, ⟨fn, a, h5, h6, h7, h8⟩, h9, h10⟩ := h
  obtain ⟨k1, k2, k3, k4, ⟨fn', a', k5, k6, k7, k8⟩, k9, k10⟩ := h'
  have hI := item_unique hw h5 k5 (h6.trans k6.symm)
  cases hI
  refine ⟨fun o o' => ∃ n, s.addr n = some o ∧ s'.addr n = some o', ?_, ⟨⟨?_, ?_⟩, ?_, ?_, ?_⟩, ?_, ?_, h10.trans k10.symm, ?_⟩
  · rw [h8, k8]; exact .cons (entry_rel h5 .nil h7 k7) .nil
  · rintro o p q ⟨n, e1, e2⟩ ⟨m, e3, e4⟩
    cases h3 _ _ _ e1 e3
    rw [e2] at e4; exact Option.some.inj e4
  · rintro o p q ⟨n, e1, e2⟩ ⟨m, e3, e4⟩
    cases k3 _ _ _ e2 e4
    rw [e1] at e3; exact Option.some.inj e3
  · rintro o o' ⟨n, e1, e2⟩
    obtain ⟨t, c, hm⟩ := h2 _ _ e1
    obtain ⟨q, x, f1, f2, f3⟩ := h1 _ _ _ hm
    obtain ⟨q', x', g1, g2, g3⟩ := k1 _ _ _ hm
    rw [e1] at f1; cases f1
    rw [e2] at g1; cases g1
    rw [f3, g3]
    exact .some (cst_rel f2 g2)
  · rintro o o' ⟨n, e1, e2⟩
    obtain ⟨t, c, hm⟩ := h2 _ _ e1
    obtain ⟨q, x, f1, f2, f3⟩ := h1 _ _ _ hm
    rw [e1] at f1; cases f1
    exact .inl (by rw [f3]; simp)
  · rintro o o' ⟨n, e1, e2⟩
    obtain ⟨t, c, hm⟩ := k2 _ _ e2
    obtain ⟨q, x, f1, f2, f3⟩ := k1 _ _ _ hm
    rw [e2] at f1; cases f1
    exact .inl (by rw [f3]; simp)
  · rw [h9, k9]; exact .nil
  · intro n
    cases e : s.addr n with
    | none =>
      cases e' : s'.addr n with
      | none => exact .none
      | some o' =>
        obtain ⟨t, c, hm⟩ := k2 _ _ e'
        obtain ⟨q, x, f1, -⟩ := h1 _ _ _ hm
        rw [e] at f1; cases f1
    | some o =>
      obtain ⟨t, c, hm⟩ := h2 _ _ e
      obtain ⟨q, x, f1, -⟩ := k1 _ _ _ hm
      rw [f1]
      exact .some ⟨n, e, f1⟩
  · refine ⟨M.filterMap (fun I => s'.addr I.name), fun o ho => ?_⟩
    obtain ⟨x, hx⟩ := Option.ne_none_iff_exists'.1 ho
    obtain ⟨n, t, c, e1, e2⟩ := k4 o x hx
    exact List.mem_filterMap.2 ⟨_, e1, e2⟩

/-! ### Runs -/

/-- The first steps of a run that one machine makes are those of the other. -/
theorem steps_rel (hw : WellNamed M) (hl : Blind lib) {j : Nat} {s t : LState σ} (h : LSteps M lib ptrSize Zeroed j s t) : ∀ {R : Obj → Obj → Prop} {s' t' : LState σ},
    LStEq M R s s' → LSteps M lib ptrSize Zeroed j s' t' → ∃ S, LStEq M S t t' := by
  induction h with
  | refl s => intro R s' t' h h'; cases h'; exact ⟨R, h⟩
  | step h1 _ ih =>
    intro R s' t' h h'
    cases h' with
    | step k1 k2 =>
      obtain ⟨S, hS⟩ := next_rel hw hl h h1 k1
      exact ih hS k2

/-- The other machine can make the steps, too. -/
theorem steps_live (hw : WellNamed M) (hl : Blind lib) {j : Nat} {s t : LState σ} (h : LSteps M lib ptrSize Zeroed j s t) : ∀ {R : Obj → Obj → Prop} {s' : LState σ},
    LStEq M R s s' → ∃ S t', LSteps M lib ptrSize Zeroed j s' t' ∧ LStEq M S t t' := by
  induction h with
  | refl s => intro R s' h; exact ⟨R, s', .refl _, h⟩
  | step h1 _ ih =>
    intro R s' h
    obtain ⟨t1, k1⟩ := next_live hl h h1
    obtain ⟨S, hS⟩ := next_rel hw hl h h1 k1
    obtain ⟨S', t', l1, l2⟩ := ih hS
    exact ⟨S', t', .step k1 l1, l2⟩

theorem lsteps_split {fill : Ty → Val → Prop} {m n : Nat} {s u : LState σ} (h : LSteps M lib ptrSize fill (m + n) s u) :
    ∃ t, LSteps M lib ptrSize fill m s t ∧ LSteps M lib ptrSize fill n t u := by
  induction m generalizing s with
  | zero => rw [Nat.zero_add] at h; exact ⟨s, .refl _, h⟩
  | succ m ih =>
    rw [Nat.add_right_comm] at h
    cases h with
    | step h1 h2 =>
      obtain ⟨t, k1, k2⟩ := ih h2
      exact ⟨t, .step h1 k1, k2⟩

/-- A module that can end with an exit code ends with it however it runs. -/
theorem only_exits (hw : WellNamed M) (hl : Blind lib) {w w' : σ} {n : I32} (h : LRuns M lib ptrSize Zeroed w n w') : LOnlyExits M lib ptrSize Zeroed w n w' := by
  obtain ⟨s, k, t, h1, h2, h3⟩ := h
  refine ⟨k, fun s' j t' k1 k2 => ?_⟩
  obtain ⟨R, hR⟩ := start_rel hw h1 k1
  by_cases hj : j ≤ k
  · refine ⟨hj, ?_⟩
    obtain ⟨i, rfl⟩ : ∃ i, k = j + i := ⟨k - j, by omega⟩
    obtain ⟨t1, l1, l2⟩ := lsteps_split h2
    obtain ⟨S, hS⟩ := steps_rel hw hl l1 hR k2
    obtain ⟨S', u, m1, m2⟩ := steps_live hw hl l2 hS
    exact ⟨i, u, m1, stop_live m2 h3⟩
  · exfalso
    obtain ⟨i, rfl⟩ : ∃ i, j = k + (i + 1) := ⟨j - k - 1, by omega⟩
    obtain ⟨t1, l1, l2⟩ := lsteps_split k2
    obtain ⟨S, hS⟩ := steps_rel hw hl h2 hR l1
    cases l2 with
    | step l2 _ => exact stop_no_next (stop_live hS h3) l2

theorem only_forever (hw : WellNamed M) (hl : Blind lib) {w : σ} (h : LForever M lib ptrSize Zeroed w) : LOnlyForever M lib ptrSize Zeroed w := by
  obtain ⟨s, h1, h2⟩ := h
  intro s' j t' k1 k2
  obtain ⟨R, hR⟩ := start_rel hw h1 k1
  obtain ⟨t, ht⟩ := h2 (j + 1)
  obtain ⟨t1, l1, l2⟩ := lsteps_split ht
  obtain ⟨S, hS⟩ := steps_rel hw hl l1 hR k2
  cases l2 with
  | step l2 _ => exact next_live hl hS l2

end

end Koopa
