import Verif.Lemmas.Same.Match
/-!
Programs that match behave in the same way: one instruction.
-/
namespace Koopa
open Spec Interp

variable {M : Match} {p p' : Program} {own : Nat → Option (Func × Func)} {σ : Type}

theorem external_shape {R : Obj → Obj → Prop} {x : Val} (h : External x) : SameShape R x x := by
  induction h with
  | undef => exact .undef
  | int n => exact .int n
  | array _ ih => exact .array rfl (fun i a b ha hb => by rw [ha] at hb; cases hb; exact ih a (List.mem_of_getElem? ha))
  | unsafePtr q => exact .unsafePtr q

theorem zeroed_shape {R : Obj → Obj → Prop} {t : Ty} {x : Val} (h : Zeroed t x) : SameShape R x x := by
  induction h with
  | i32 => exact .int _
  | ptr => exact .null _ _
  | array n _ ih =>
    refine .array rfl (fun i a b ha hb => ?_)
    rw [ha] at hb; cases hb
    rw [List.eq_of_mem_replicate (List.mem_of_getElem? ha)]; exact ih

theorem const_shape {R : Obj → Obj → Prop} {look : Value → Option VData} {d : VData} {x : Val} (h : ConstVal look d x) : SameShape R x x := by
  induction h with
  | integer _ => exact .int _
  | zeroInit _ h => exact zeroed_shape h
  | undef _ => exact .undef
  | @aggregate d es ds xs _ h1 h2 _ ih =>
    refine .array rfl (fun i a b ha hb => ?_)
    rw [ha] at hb; cases hb
    have hlt : i < ds.length := by
      rw [h2]; exact (List.getElem?_eq_some_iff.1 ha).1
    exact ih i ds[i] a (List.getElem?_eq_getElem hlt) ha

theorem SameShape.unique {R : Obj → Obj → Prop} (hR : OneToOne R) {x y : Val} (h : SameShape R x y) : ∀ {z : Val}, SameShape R x z → y = z := by
  induction h with
  | undef => intro z h; cases h; rfl
  | int n => intro z h; cases h; rfl
  | @array l l' h1 _ ih =>
    intro z h; cases h with
    | @array _ l'' h2 h3 =>
      congr 1
      refine List.ext_getElem? (fun i => ?_)
      rcases Nat.lt_or_ge i l.length with hi | hi
      · have a1 := List.getElem?_eq_getElem hi
        have a2 := List.getElem?_eq_getElem (h1 ▸ hi : i < l'.length)
        have a3 := List.getElem?_eq_getElem (h2 ▸ hi : i < l''.length)
        rw [a2, a3, ih i _ _ a1 a2 (h3 i _ _ a1 a3)]
      · rw [List.getElem?_eq_none (h1 ▸ hi), List.getElem?_eq_none (h2 ▸ hi)]
  | null i n => intro z h; cases h; rfl
  | ptr path i n hr => intro z h; cases h with | ptr _ _ _ h => rw [hR.1 _ _ _ hr h]
  | unsafePtr q => intro z h; cases h; rfl

theorem elem_shape {R : Obj → Obj → Prop} {y x : Val} {is : List Nat} (h : Elem y is x) : ∀ {y' : Val}, SameShape R y y' → ∃ x', Elem y' is x' ∧ SameShape R x x' := by
  induction h with
  | here x => intro y' hy; exact ⟨y', .here _, hy⟩
  | @inside l i is x y h1 _ ih =>
    intro y' hy
    cases hy with
    | @array _ l' h2 h3 =>
      have hi : i < l'.length := by rw [← h2]; exact (List.getElem?_eq_some_iff.1 h1).1
      have a2 := List.getElem?_eq_getElem hi
      obtain ⟨x', k1, k2⟩ := ih (h3 i _ _ h1 a2)
      exact ⟨x', .inside a2 k1, k2⟩

theorem replaced_shape {R : Obj → Obj → Prop} {w y z : Val} {is : List Nat} (h : Replaced w y is z) : ∀ {w' y' : Val}, SameShape R w w' → SameShape R y y' →
    ∃ z', Replaced w' y' is z' ∧ SameShape R z z' := by
  induction h with
  | here x => intro w' y' hw hy; exact ⟨w', .here _, hw⟩
  | @inside l i is x x1 h1 _ ih =>
    intro w' y' hw hy
    cases hy with
    | @array _ l' h2 h3 =>
      have hi : i < l'.length := by rw [← h2]; exact (List.getElem?_eq_some_iff.1 h1).1
      have a2 := List.getElem?_eq_getElem hi
      obtain ⟨x', k1, k2⟩ := ih hw (h3 i _ _ h1 a2)
      refine ⟨_, .inside a2 k1, .array (by simp [h2]) (fun j a b ha hb => ?_)⟩
      rw [List.getElem?_set] at ha hb
      by_cases hj : i = j
      · subst hj
        rw [if_pos rfl, if_pos hi] at hb
        rw [if_pos rfl, if_pos (by omega)] at ha
        cases ha; cases hb; exact k2
      · rw [if_neg hj] at ha hb
        exact h3 j a b ha hb

theorem opnd_shape (hM : M.Ok p p') {f f' : Func} {regs regs' : Value → Option Val}
    (hr : ∀ v v', M.V f f' v v' → OptRel (SameShape (ObjRel M own)) (regs v) (regs' v')) {v v' : Value} (h : OpMatch M p p' f f' v v') {x : Val}
    (hx : Operand p f regs v x) : ∃ x', Operand p' f' regs' v' x' ∧ SameShape (ObjRel M own) x x' := by
  cases h with
  | global hg =>
    obtain ⟨h1, h2, h3, h4, d, d', i, i', e, e', k1, k2, k3, k4, -⟩ := hM.globals v v' hg
    cases hx with
    | global => exact ⟨_, .global h2 k2 (by rw [k4]; rfl) h4, .ptr [] 0 0 (.glob hg)⟩
    | const a => rw [h1] at a; cases a
    | reg a => rw [h1] at a; cases a
  | const h1 h2 h3 h4 h5 h6 h7 h8 h9 h10 =>
    cases hx with
    | global a => rw [h1] at a; cases a
    | const _ a b _ c =>
      rw [h3] at a; cases a
      rw [h5] at b; cases b
      exact ⟨x, .const h2 h4 h6 h8 ((h10 x).1 c), const_shape c⟩
    | reg _ a b =>
      obtain ⟨fd1, a1, a2⟩ := a
      rw [h3] at a1; cases a1
      rw [h5] at a2; cases a2
      rw [h7] at b; cases b
  | reg hv =>
    obtain ⟨h1, h2, d, d', k1, k2, k3, k4, k5, -⟩ := hM.values _ _ v v' hv
    cases hx with
    | global a => rw [h1] at a; cases a
    | const _ a b c _ =>
      obtain ⟨fd1, a1, a2⟩ := k1
      rw [a] at a1; cases a1
      rw [b] at a2; cases a2
      rw [k4] at c; cases c
    | reg _ _ _ a =>
      obtain ⟨x', b1, b2⟩ := (hr v v' hv).get a
      exact ⟨x', .reg h2 k2 k5 b1, b2⟩
  | dead h _ => exact absurd hx (h _ _)

theorem opnds_shape (hM : M.Ok p p') {f f' : Func} {regs regs' : Value → Option Val}
    (hr : ∀ v v', M.V f f' v v' → OptRel (SameShape (ObjRel M own)) (regs v) (regs' v')) {vs vs' : List Value} (h : All2 (OpMatch M p p' f f') vs vs') : ∀ {xs : List Val},
    Operands p f regs vs xs → ∃ xs', Operands p' f' regs' vs' xs' ∧ All2 (SameShape (ObjRel M own)) xs xs' := by
  induction h with
  | nil =>
    rintro xs ⟨h1, -⟩
    cases xs with
    | nil => exact ⟨[], ⟨rfl, fun i v x hv => by simp at hv⟩, .nil⟩
    | cons => cases h1
  | cons h _ ih =>
    rintro xs ⟨h1, h2⟩
    cases xs with
    | nil => cases h1
    | cons x xs =>
      obtain ⟨x', a1, a2⟩ := opnd_shape hM hr h (h2 0 _ _ rfl rfl)
      obtain ⟨xs', ⟨b1, b2⟩, b3⟩ := ih (xs := xs) ⟨by simpa using h1, fun i v y hv hy => h2 (i + 1) v y (by simpa using hv) (by simpa using hy)⟩
      refine ⟨x' :: xs', ⟨by simp [b1], fun i v y hv hy => ?_⟩, .cons a2 b3⟩
      cases i with
      | zero => cases hv; cases hy; exact a1
      | succ i => exact b2 i v y (by simpa using hv) (by simpa using hy)

theorem moved_shape {R : Obj → Obj → Prop} {size : Nat} {i : Int} {x y x' : Val} (h : Moved size i x y) (hx : SameShape R x x') :
    ∃ y', Moved size i x' y' ∧ SameShape R y y' := by
  cases h with
  | ptr h1 h2 =>
    cases hx with
    | null => exact ⟨_, .ptr h1 h2, .null _ _⟩
    | ptr path _ _ hr => exact ⟨_, .ptr h1 h2, .ptr _ _ _ hr⟩
  | ext q => cases hx; exact ⟨_, .ext q, .unsafePtr _⟩

theorem outside_shape {R : Obj → Obj → Prop} {i : Int} {x x' : Val} (h : Outside i x) (hx : SameShape R x x') : Outside i x' := by
  cases h with
  | ptr h1 =>
    cases hx with
    | null => exact .ptr h1
    | ptr path _ _ hr => exact .ptr h1

/-- A stored value. -/
theorem stored_shape {m m' : Mem} (hm : ∀ o o', ObjRel M own o o' → OptRel (SameShape (ObjRel M own)) (m o) (m' o')) {o o' : Obj} (ho : ObjRel M own o o') {path : List Nat} {x : Val}
    (h : Stored m (o, path) x) : ∃ x', Stored m' (o', path) x' ∧ SameShape (ObjRel M own) x x' := by
  obtain ⟨y, h1, h2⟩ := h
  obtain ⟨y', h3, h4⟩ := (hm o o' ho).get h1
  obtain ⟨x', h5, h6⟩ := elem_shape h2 h4
  exact ⟨x', ⟨y', h3, h5⟩, h6⟩

/-- Memory with one object changed. -/
theorem update_shape (hM : M.Ok p p') {m m' m1 : Mem} (hm : ∀ o o', ObjRel M own o o' → OptRel (SameShape (ObjRel M own)) (m o) (m' o')) {o o' : Obj} (ho : ObjRel M own o o') {x x' : Val}
    (h1 : m1 o = some x) (h2 : ∀ q, q ≠ o → m1 q = m q) (hx : SameShape (ObjRel M own) x x') :
    ∀ q q', ObjRel M own q q' → OptRel (SameShape (ObjRel M own)) (m1 q) ((fun q => if q = o' then some x' else m' q) q') := by
  intro q q' hq
  have h1' := ObjRel.oneToOne hM own
  by_cases e : q = o
  · subst e
    cases h1'.1 _ _ _ ho hq
    simp only [if_true, h1]
    exact .some hx
  · have e' : q' ≠ o' := fun e2 => e (h1'.2 _ _ _ hq (e2 ▸ ho))
    simp only [if_neg e', h2 q e]
    exact hm q q' hq

theorem gets_regs (hM : M.Ok p p') {a a' : Act} (ha : ActMatch M own a a') {v v' : Value} (hv : M.V a.fn a'.fn v v') {x x' : Val} (hx : SameShape (ObjRel M own) x x') :
    ∀ u u', M.V a.fn a'.fn u u' → OptRel (SameShape (ObjRel M own)) ((a.gets v x).regs u) ((a'.gets v' x').regs u') := by
  intro u u' hu
  show OptRel _ (if u = v then some x else a.regs u) (if u' = v' then some x' else a'.regs u')
  by_cases e : u = v
  · subst e
    cases (hM.vOne _ _).1 _ _ _ hv hu
    rw [if_pos rfl, if_pos rfl]; exact .some hx
  · have e' : u' ≠ v' := fun e2 => e ((hM.vOne _ _).2 _ _ _ hu (e2 ▸ hv))
    rw [if_neg e, if_neg e']
    exact ha.regs u u' hu

theorem all2_tail {α β : Type} {R : α → β → Prop} {as : List α} {bs : List β} (h : All2 R as bs) : All2 R as.tail bs.tail := by
  cases h with
  | nil => exact .nil
  | cons _ h => exact h

theorem ActMatch.gets (hM : M.Ok p p') {a a' : Act} (ha : ActMatch M own a a') {v v' : Value} (hv : M.V a.fn a'.fn v v') {x x' : Val} (hx : SameShape (ObjRel M own) x x') :
    ActMatch M own (a.gets v x) (a'.gets v' x') :=
  ⟨ha.fn, all2_tail ha.rest, gets_regs hM ha hv hx, ha.id, ha.made, ha.own⟩

theorem ActMatch.next {a a' : Act} (ha : ActMatch M own a a') : ActMatch M own { a with rest := a.rest.tail } { a' with rest := a'.rest.tail } :=
  ⟨ha.fn, all2_tail ha.rest, ha.regs, ha.id, ha.made, ha.own⟩

/-- The types of local operands. -/
theorem opnd_ty (hM : M.Ok p p') {f f' : Func} {v v' : Value} (h : OpMatch M p p' f f' v v') {regs : Value → Option Val} {x : Val} (hx : Operand p f regs v x) {e : VData}
    (he : LocalVal p f v e) : ∃ e', LocalVal p' f' v' e' ∧ e.ty = e'.ty := by
  cases h with
  | global hv => exact absurd he ((hM.apart v v' hv).1 f e)
  | const h1 h2 h3 h4 h5 h6 h7 h8 h9 =>
    obtain ⟨fd1, a1, a2⟩ := he
    rw [h3] at a1; cases a1
    rw [h5] at a2; cases a2
    exact ⟨_, ⟨_, h4, h6⟩, h9⟩
  | reg hv =>
    obtain ⟨h1, h2, d, d', ⟨fd, k0, k1⟩, k2, k3, -⟩ := hM.values _ _ v v' hv
    obtain ⟨fd1, a1, a2⟩ := he
    rw [k0] at a1; cases a1
    rw [k1] at a2; cases a2
    exact ⟨d', k2, k3⟩
  | dead h => exact absurd hx (h _ _)

end Koopa
