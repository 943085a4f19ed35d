import Verif.Lemmas.Same.Step
/-!
Programs that match behave in the same way: whole runs.
-/
namespace Koopa
open Spec Interp

variable {M : Match} {p p' : Program} {own : Nat → Option (Func × Func)} {σ : Type}

theorem shape_int {R : Obj → Obj → Prop} {n : I32} {x : Val} (h : SameShape R (.int n) x) : x = .int n := by cases h; rfl

theorem shape_ext {R : Obj → Obj → Prop} {q : Option Nat} {x : Val} (h : SameShape R (.unsafePtr q) x) : x = .unsafePtr q := by cases h; rfl

theorem shape_ptr {R : Obj → Obj → Prop} {q : Obj × List Nat} {i n : Nat} {x : Val} (h : SameShape R (.ptr (some q) i n) x) :
    ∃ o', x = .ptr (some (o', q.2)) i n ∧ R q.1 o' := by
  cases h with
  | ptr path i n hr => exact ⟨_, rfl, hr⟩

theorem shape_null {R : Obj → Obj → Prop} {i n : Nat} {x : Val} (h : SameShape R (.ptr none i n) x) : x = .ptr none i n := by cases h; rfl

/-- An instruction that does not transfer control. -/
theorem does_match (hM : M.Ok p p') {lib : Lib σ} (hl : Blind lib) {chk : Bool} {ptrSize : Nat} {a a' : Act} (ha : ActMatch M own a a') {v v' : Value}
    (hv : M.V a.fn a'.fn v v') {d d' : VData} (hty : d.ty = d'.ty) (hk : SameKind (OpMatch M p p' a.fn a'.fn) (M.B a.fn a'.fn) M.F d.kind d'.kind) {m m' : Mem}
    (hm : ∀ o o', ObjRel M own o o' → OptRel (SameShape (ObjRel M own)) (m o) (m' o')) {w w1 : σ} {a1 : Act} {m1 : Mem}
    (h : Does p lib chk ptrSize a v d m w a1 m1 w1) :
    ∃ a1' m1', Does p' lib chk ptrSize a' v' d' m' w a1' m1' w1 ∧ ActMatch M own a1 a1' ∧
      ∀ o o', ObjRel M own o o' → OptRel (SameShape (ObjRel M own)) (m1 o) (m1' o') := by
  have hone := ObjRel.oneToOne hM own
  cases h with
  | @alloc t x m1 h1 h2 h3 h4 h5 =>
    rw [h1] at hk
    generalize e : d'.kind = k' at hk
    cases hk with
    | alloc =>
      have hc := ha.made v v' hv
      have ho : ObjRel M own (.loc a.id v (a.made.count v)) (.loc a'.id v' (a'.made.count v')) := by
        rw [← hc, ← ha.id]; exact .loc ha.own hv
      refine ⟨{ a'.gets v' (.ptr (some (.loc a'.id v' (a'.made.count v'), [])) 0 0) with made := v' :: a'.made },
        fun q => if q = .loc a'.id v' (a'.made.count v') then some x else m' q, .alloc e (hty ▸ h2) h3 (by simp) (fun o ho => by simp [ho]), ?_,
        update_shape hM hm ho h4 h5 (zeroed_shape h3)⟩
      have hg := ActMatch.gets hM ha hv (SameShape.ptr [] 0 0 ho)
      refine ⟨hg.fn, hg.rest, hg.regs, hg.id, fun u u' hu => ?_, hg.own⟩
      show (v :: a.made).count u = (v' :: a'.made).count u'
      rw [List.count_cons, List.count_cons, ha.made u u' hu]
      congr 1
      by_cases e : v = u
      · subst e
        cases (hM.vOne _ _).1 _ _ _ hv hu
        simp
      · have e' : v' ≠ u' := fun e2 => e ((hM.vOne _ _).2 _ _ _ hv (e2 ▸ hu))
        simp [e, e']
  | load h1 h2 h3 =>
    rw [h1] at hk
    generalize e : d'.kind = k' at hk
    cases hk with
    | load o1 =>
      obtain ⟨x', a1, a2⟩ := opnd_shape hM ha.regs o1 h2
      obtain ⟨o', rfl, a3⟩ := shape_ptr a2
      obtain ⟨y', a4, a5⟩ := stored_shape hm a3 h3
      exact ⟨_, m', .load e a1 a4, ha.gets hM hv a5, hm⟩
  | loadExt h1 h2 =>
    rw [h1] at hk
    generalize e : d'.kind = k' at hk
    cases hk with
    | load o1 =>
      obtain ⟨x', a1, a2⟩ := opnd_shape hM ha.regs o1 h2
      cases shape_ext a2
      refine ⟨_, m', .loadExt e a1, ?_, hm⟩
      rw [hty]
      exact ha.gets hM hv (external_shape (lib.loadExt _ _ _))
  | store h1 h2 h3 h4 =>
    rw [h1] at hk
    generalize e : d'.kind = k' at hk
    cases hk with
    | store o1 o2 =>
      obtain ⟨x', a1, a2⟩ := opnd_shape hM ha.regs o1 h2
      obtain ⟨y', b1, b2⟩ := opnd_shape hM ha.regs o2 h3
      obtain ⟨o', rfl, a3⟩ := shape_ptr b2
      obtain ⟨y, z, c1, c2, c3, c4⟩ := h4
      obtain ⟨y1, d1, d2⟩ := (hm _ _ a3).get c1
      obtain ⟨z1, e1, e2⟩ := replaced_shape c2 a2 d2
      exact ⟨_, fun q => if q = o' then some z1 else m' q, .store e a1 b1 ⟨y1, z1, d1, e1, by simp, fun o ho => by simp [ho]⟩, ha.next,
        update_shape hM hm a3 c3 c4 e2⟩
  | storeExt h1 h2 h3 h4 h5 =>
    rw [h1] at hk
    generalize e : d'.kind = k' at hk
    cases hk with
    | store o1 o2 =>
      obtain ⟨x', a1, a2⟩ := opnd_shape hM ha.regs o1 h2
      obtain ⟨y', b1, b2⟩ := opnd_shape hM ha.regs o2 h3
      cases shape_ext b2
      obtain ⟨e', c1, c2⟩ := opnd_ty hM o1 h2 h4
      exact ⟨_, m', .storeExt e a1 b1 c1 (by rw [← c2, ← hl.store _ hone _ _ _ _ _ a2]; exact h5), ha.next, hm⟩
  | getPtr h1 h2 h3 h4 h5 =>
    rw [h1] at hk
    generalize e : d'.kind = k' at hk
    cases hk with
    | getPtr o1 o2 =>
      obtain ⟨x', a1, a2⟩ := opnd_shape hM ha.regs o1 h3
      obtain ⟨y', b1, b2⟩ := opnd_shape hM ha.regs o2 h4
      cases shape_int b2
      obtain ⟨z, c1, c2⟩ := moved_shape h5 a2
      exact ⟨_, m', .getPtr e (hty ▸ h2) a1 b1 c1, ha.gets hM hv c2, hm⟩
  | getElemPtr h1 h2 h3 h4 h5 h6 =>
    rw [h1] at hk
    generalize e : d'.kind = k' at hk
    cases hk with
    | getElemPtr o1 o2 =>
      obtain ⟨x', a1, a2⟩ := opnd_shape hM ha.regs o1 h3
      obtain ⟨o', rfl, a3⟩ := shape_ptr a2
      obtain ⟨y', b1, b2⟩ := opnd_shape hM ha.regs o2 h4
      cases shape_int b2
      obtain ⟨z, c1, c2⟩ := stored_shape hm a3 h5
      generalize e3 : Val.array _ = z0 at c2
      cases c2 with
      | array l1 l2 =>
        cases e3
        obtain ⟨z, e1, e2⟩ := moved_shape h6 (SameShape.ptr _ 0 _ a3)
        rw [l1] at e1
        exact ⟨_, m', .getElemPtr e (hty ▸ h2) a1 b1 c1 e1, ha.gets hM hv e2, hm⟩
      | _ => cases e3
  | getElemPtrExt h1 h2 h3 h4 h5 =>
    rw [h1] at hk
    generalize e : d'.kind = k' at hk
    cases hk with
    | getElemPtr o1 o2 =>
      obtain ⟨x', a1, a2⟩ := opnd_shape hM ha.regs o1 h3
      cases shape_ext a2
      obtain ⟨y', b1, b2⟩ := opnd_shape hM ha.regs o2 h4
      cases shape_int b2
      obtain ⟨z, e1, e2⟩ := moved_shape h5 (SameShape.unsafePtr (R := ObjRel M own) _)
      exact ⟨_, m', .getElemPtrExt e (hty ▸ h2) a1 b1 e1, ha.gets hM hv e2, hm⟩
  | binary h1 h2 h3 h4 =>
    rw [h1] at hk
    generalize e : d'.kind = k' at hk
    cases hk with
    | binary o1 o2 =>
      obtain ⟨x', a1, a2⟩ := opnd_shape hM ha.regs o1 h2
      cases shape_int a2
      obtain ⟨y', b1, b2⟩ := opnd_shape hM ha.regs o2 h3
      cases shape_int b2
      exact ⟨_, m', .binary e a1 b1 h4, ha.gets hM hv (.int _), hm⟩

theorem fails_match (hM : M.Ok p p') {lib : Lib σ} (hl : Blind lib) {a a' : Act} (ha : ActMatch M own a a')
    {d d' : VData} (hty : d.ty = d'.ty) (hk : SameKind (OpMatch M p p' a.fn a'.fn) (M.B a.fn a'.fn) M.F d.kind d'.kind) {m m' : Mem}
    (hm : ∀ o o', ObjRel M own o o' → OptRel (SameShape (ObjRel M own)) (m o) (m' o')) {w : σ} (h : Fails p lib a d m w) : Fails p' lib a' d' m' w := by
  have hone := ObjRel.oneToOne hM own
  cases h with
  | load h1 h2 =>
    rw [h1] at hk
    generalize e : d'.kind = k' at hk
    cases hk with
    | load o1 =>
      obtain ⟨x', a1, a2⟩ := opnd_shape hM ha.regs o1 h2
      cases shape_null a2
      exact .load e a1
  | loadExt h1 h2 =>
    rw [h1] at hk
    generalize e : d'.kind = k' at hk
    cases hk with
    | load o1 =>
      obtain ⟨x', a1, a2⟩ := opnd_shape hM ha.regs o1 h2
      cases shape_ext a2
      exact .loadExt e a1
  | store h1 h2 h3 =>
    rw [h1] at hk
    generalize e : d'.kind = k' at hk
    cases hk with
    | store o1 o2 =>
      obtain ⟨x', a1, a2⟩ := opnd_shape hM ha.regs o1 h2
      obtain ⟨y', b1, b2⟩ := opnd_shape hM ha.regs o2 h3
      cases shape_null b2
      exact .store e a1 b1
  | storeExt h1 h2 h3 h4 h5 =>
    rw [h1] at hk
    generalize e : d'.kind = k' at hk
    cases hk with
    | store o1 o2 =>
      obtain ⟨x', a1, a2⟩ := opnd_shape hM ha.regs o1 h2
      obtain ⟨y', b1, b2⟩ := opnd_shape hM ha.regs o2 h3
      cases shape_ext b2
      obtain ⟨e', c1, c2⟩ := opnd_ty hM o1 h2 h4
      exact .storeExt e a1 b1 c1 (fun k hk => by rw [← c2, ← hl.store _ hone _ _ _ _ _ a2]; exact h5 k hk)
  | getPtr h1 h2 h3 h4 h5 =>
    rw [h1] at hk
    generalize e : d'.kind = k' at hk
    cases hk with
    | getPtr o1 o2 =>
      obtain ⟨x', a1, a2⟩ := opnd_shape hM ha.regs o1 h3
      obtain ⟨y', b1, b2⟩ := opnd_shape hM ha.regs o2 h4
      cases shape_int b2
      exact .getPtr e (hty ▸ h2) a1 b1 (outside_shape h5 a2)
  | getElemPtr h1 h2 h3 h4 h5 h6 =>
    rw [h1] at hk
    generalize e : d'.kind = k' at hk
    cases hk with
    | getElemPtr o1 o2 =>
      obtain ⟨x', a1, a2⟩ := opnd_shape hM ha.regs o1 h3
      obtain ⟨o', rfl, a3⟩ := shape_ptr a2
      obtain ⟨y', b1, b2⟩ := opnd_shape hM ha.regs o2 h4
      cases shape_int b2
      obtain ⟨z, c1, c2⟩ := stored_shape hm a3 h5
      generalize e3 : Val.array _ = z0 at c2
      cases c2 with
      | array l1 l2 =>
        cases e3
        have e1 := outside_shape h6 (SameShape.ptr _ 0 _ a3)
        rw [l1] at e1
        exact .getElemPtr e (hty ▸ h2) a1 b1 c1 e1
      | _ => cases e3
  | getElemPtrNull h1 h2 h3 h4 =>
    rw [h1] at hk
    generalize e : d'.kind = k' at hk
    cases hk with
    | getElemPtr o1 o2 =>
      obtain ⟨x', a1, a2⟩ := opnd_shape hM ha.regs o1 h3
      cases shape_null a2
      obtain ⟨y', b1, b2⟩ := opnd_shape hM ha.regs o2 h4
      cases shape_int b2
      exact .getElemPtrNull e (hty ▸ h2) a1 b1

theorem goes_match (hM : M.Ok p p') {f f' : Func} {regs regs' : Value → Option Val}
    (hr : ∀ v v', M.V f f' v v' → OptRel (SameShape (ObjRel M own)) (regs v) (regs' v')) {d d' : VData}
    (hk : SameKind (OpMatch M p p' f f') (M.B f f') M.F d.kind d'.kind) {b : BB} {args : List Value} (h : Goes p f regs d b args) :
    ∃ b' args', Goes p' f' regs' d' b' args' ∧ M.B f f' b b' ∧ All2 (OpMatch M p p' f f') args args' := by
  cases h with
  | jump h1 =>
    rw [h1] at hk
    generalize e : d'.kind = k' at hk
    cases hk with
    | jump o1 o2 => exact ⟨_, _, .jump e, o1, o2⟩
  | branchTrue h1 h2 h3 =>
    rw [h1] at hk
    generalize e : d'.kind = k' at hk
    cases hk with
    | branch o1 o2 o3 o4 o5 =>
      obtain ⟨x', a1, a2⟩ := opnd_shape hM hr o1 h2
      cases shape_int a2
      exact ⟨_, _, .branchTrue e a1 h3, o2, o4⟩
  | branchFalse h1 h2 h3 =>
    rw [h1] at hk
    generalize e : d'.kind = k' at hk
    cases hk with
    | branch o1 o2 o3 o4 o5 =>
      obtain ⟨x', a1, a2⟩ := opnd_shape hM hr o1 h2
      exact ⟨_, _, .branchFalse e a1 (fun i hi => by subst hi; cases a2; exact h3 i rfl), o3, o5⟩

theorem zip_match {α β γ δ : Type} {R : α → β → Prop} {S : γ → δ → Prop} : ∀ {as : List α} {bs : List β} {cs : List γ} {ds : List δ}, All2 R as bs → All2 S cs ds →
    All2 (fun x y => R x.1 y.1 ∧ S x.2 y.2) (as.zip cs) (bs.zip ds)
  | _, _, _, _, .nil, _ => by simp; exact .nil
  | _, _, _, _, .cons _ _, .nil => .nil
  | _, _, _, _, .cons h hs, .cons h' hs' => .cons ⟨h, h'⟩ (zip_match hs hs')

theorem all2_inl {α β : Type} {R : α → β → Prop} {as : List α} {bs : List β} (h : All2 R as bs) {a : α} (ha : a ∈ as) : ∃ b ∈ bs, R a b := by
  induction h with
  | nil => cases ha
  | cons h _ ih =>
    rcases List.mem_cons.1 ha with rfl | ha
    · exact ⟨_, List.mem_cons_self, h⟩
    · obtain ⟨b, h1, h2⟩ := ih ha
      exact ⟨b, List.mem_cons_of_mem _ h1, h2⟩

theorem enters_match (hM : M.Ok p p') {f f' : Func} {regs regs' regs1 : Value → Option Val}
    (hr : ∀ v v', M.V f f' v v' → OptRel (SameShape (ObjRel M own)) (regs v) (regs' v')) {b b' : BB} (hb : M.B f f' b b') {args args' is : List Value}
    (ha : All2 (OpMatch M p p' f f') args args') (h : Enters p f regs b args is regs1) :
    ∃ is' regs1', Enters p' f' regs' b' args' is' regs1' ∧ All2 (M.V f f') is is' ∧
      ∀ v v', M.V f f' v v' → OptRel (SameShape (ObjRel M own)) (regs1 v) (regs1' v') := by
  classical
  have hone := ObjRel.oneToOne hM own
  obtain ⟨fd, fd', bd, bd', js, js', h1, h2, h3, h4, h5, h6, h7, h8⟩ := hM.blocks _ _ _ _ hb
  obtain ⟨fd0, bd0, k1, k2, k3, k4, k5⟩ := h
  rw [h1] at k1; cases k1
  rw [h3] at k2; cases k2
  rw [h5] at k3; cases k3
  have hz := zip_match h7 ha
  -- the registers of the other program
  let Q : Value → Val → Prop := fun q' x' => ∃ q a' x, (q', a') ∈ bd'.params.zip args' ∧ M.V f f' q q' ∧ regs1 q = some x ∧ SameShape (ObjRel M own) x x'
  let regs1' : Value → Option Val := fun q' => if hq : ∃ x', Q q' x' then some (Classical.choose hq) else regs' q'
  -- what becomes of a pair
  have key : ∀ q' a', (q', a') ∈ bd'.params.zip args' → ∃ q a x x', (q, a) ∈ bd.params.zip args ∧ M.V f f' q q' ∧ Operand p' f' regs' a' x' ∧ regs1 q = some x ∧
      SameShape (ObjRel M own) x x' ∧ regs1' q' = some x' := by
    intro q' a' hq
    obtain ⟨⟨q, a⟩, m1, m2, m3⟩ := all2_inl (all2_flip hz) hq
    obtain ⟨⟨d, hd⟩, x, n1, n2⟩ := k4 q a m1
    obtain ⟨x', n3, n4⟩ := opnd_shape hM hr m3 n1
    refine ⟨q, a, x, x', m1, m2, n3, n2, n4, ?_⟩
    have hex : ∃ x', Q q' x' := ⟨x', q, a', x, hq, m2, n2, n4⟩
    show (if hq : ∃ x', Q q' x' then some (Classical.choose hq) else regs' q') = some x'
    rw [dif_pos hex]
    obtain ⟨q1, a1, x1, o1, o2, o3, o4⟩ := Classical.choose_spec hex
    cases (hM.vOne _ _).2 _ _ _ o2 m2
    rw [n2] at o3; cases o3
    rw [SameShape.unique hone o4 n4]
  refine ⟨js', regs1', ⟨fd', bd', h2, h4, h6, fun q' a' hq => ?_, fun v' hv => ?_⟩, h8, fun v v' hv => ?_⟩
  · obtain ⟨q, a, x, x', m1, m2, m3, m4, m5, m6⟩ := key q' a' hq
    refine ⟨?_, x', m3, m6⟩
    obtain ⟨-, -, d, d', -, ⟨fd1, n1, n2⟩, -⟩ := hM.values _ _ _ _ m2
    rw [h2] at n1; cases n1
    exact ⟨d', n2⟩
  · show (if hq : ∃ x', Q v' x' then some (Classical.choose hq) else regs' v') = regs' v'
    rw [dif_neg]
    rintro ⟨x', q, a', x, n1, -⟩
    exact hv a' n1
  · by_cases hin : ∃ a', (v', a') ∈ bd'.params.zip args'
    · obtain ⟨a', hin⟩ := hin
      obtain ⟨q, a, x, x', m1, m2, m3, m4, m5, m6⟩ := key v' a' hin
      cases (hM.vOne _ _).2 _ _ _ m2 hv
      rw [m4, m6]; exact .some m5
    · have e1 : regs1' v' = regs' v' := by
        show (if hq : ∃ x', Q v' x' then some (Classical.choose hq) else regs' v') = regs' v'
        rw [dif_neg]
        rintro ⟨x', q, a', x, n1, -⟩
        exact hin ⟨a', n1⟩
      have e2 : regs1 v = regs v := by
        refine k5 v (fun a ha => hin ?_)
        obtain ⟨⟨q', a'⟩, m1, m2, -⟩ := all2_inl hz ha
        cases (hM.vOne _ _).1 _ _ _ m2 hv
        exact ⟨a', m1⟩
      rw [e1, e2]; exact hr v v' hv

theorem returns_match (hM : M.Ok p p') {f f' : Func} {regs regs' : Value → Option Val}
    (hr : ∀ v v', M.V f f' v v' → OptRel (SameShape (ObjRel M own)) (regs v) (regs' v')) {d d' : VData}
    (hk : SameKind (OpMatch M p p' f f') (M.B f f') M.F d.kind d'.kind) {x : Val} (h : Returns p f regs d x) :
    ∃ x', Returns p' f' regs' d' x' ∧ SameShape (ObjRel M own) x x' := by
  cases h with
  | unit h1 =>
    rw [h1] at hk
    generalize e : d'.kind = k' at hk
    cases hk with
    | retNone => exact ⟨_, .unit e, .undef⟩
  | value h1 h2 =>
    rw [h1] at hk
    generalize e : d'.kind = k' at hk
    cases hk with
    | ret o1 =>
      obtain ⟨x', a1, a2⟩ := opnd_shape hM hr o1 h2
      exact ⟨x', .value e a1, a2⟩

theorem all2_length {α β : Type} {R : α → β → Prop} {as : List α} {bs : List β} (h : All2 R as bs) : as.length = bs.length := by
  induction h with
  | nil => rfl
  | cons _ _ ih => simp [ih]

theorem calls_match (hM : M.Ok p p') {f f' : Func} {regs regs' : Value → Option Val}
    (hr : ∀ v v', M.V f f' v v' → OptRel (SameShape (ObjRel M own)) (regs v) (regs' v')) {d d' : VData}
    (hk : SameKind (OpMatch M p p' f f') (M.B f f') M.F d.kind d'.kind) {g : Func} {gd : FData} {xs : List Val} (h : Calls p f regs d g gd xs) :
    ∃ g' gd' xs', Calls p' f' regs' d' g' gd' xs' ∧ M.F g g' ∧ p'.funcs.get? g' = some gd' ∧ All2 (SameShape (ObjRel M own)) xs xs' := by
  obtain ⟨args, ps, t, h1, h2, h3, h4, h5⟩ := h
  rw [h1] at hk
  generalize e : d'.kind = k' at hk
  cases hk with
  | call o1 o2 =>
    obtain ⟨xs', a1, a2⟩ := opnds_shape hM hr o2 h2
    obtain ⟨fd, fd', b1, b2, b3, -⟩ := hM.funcs _ _ o1
    rw [h3] at b1; cases b1
    exact ⟨_, fd', xs', ⟨_, ps, t, e, a1, b2, by rw [← b3, h4], by rw [h5, all2_length a2]⟩, o1, b2, a2⟩

theorem at_match (hM : M.Ok p p') {s s' : MState σ} (h : StMatch M own s s') {a : Act} {stack : List Act} {v : Value} {d : VData} (ha : AtInst p s a stack v d) :
    ∃ a' stack' v' d', AtInst p' s' a' stack' v' d' ∧ ActMatch M own a a' ∧ All2 (ActMatch M own) stack stack' ∧ M.V a.fn a'.fn v v' ∧ d.ty = d'.ty ∧
      ((Inert d.kind ∧ Inert d'.kind) ∨ SameKind (OpMatch M p p' a.fn a'.fn) (M.B a.fn a'.fn) M.F d.kind d'.kind) := by
  obtain ⟨h1, h2, fd, h3, h4⟩ := ha
  have hacts := h.acts
  rw [h1] at hacts
  generalize e : s'.acts = as' at hacts
  cases hacts with
  | @cons _ a' _ stack' k1 k2 =>
    have hrest := k1.rest
    generalize e1 : a.rest = r at hrest h2
    generalize e2 : a'.rest = r' at hrest
    cases hrest with
    | nil => cases h2
    | cons l1 l2 =>
      cases h2
      obtain ⟨n1, n2, d0, d', ⟨fd0, n3, n4⟩, n5, n6, n7, n8, n9⟩ := hM.values _ _ _ _ l1
      rw [h3] at n3; cases n3
      rw [h4] at n4; cases n4
      exact ⟨a', stack', _, d', ⟨e, by rw [e2]; rfl, n5⟩, k1, k2, l1, n6, n9⟩

theorem shape_own {own own' : Nat → Option (Func × Func)} (ho : ∀ i q, own i = some q → own' i = some q) {x y : Val} (h : SameShape (ObjRel M own) x y) :
    SameShape (ObjRel M own') x y :=
  SameShape.mono (fun _ _ h => by
    cases h with
    | glob h => exact .glob h
    | loc h1 h2 => exact .loc (ho _ _ h1) h2) h

theorem ActMatch.own_mono {own own' : Nat → Option (Func × Func)} (ho : ∀ i q, own i = some q → own' i = some q) {a a' : Act} (h : ActMatch M own a a') : ActMatch M own' a a' :=
  ⟨h.fn, h.rest, fun v v' hv => (h.regs v v' hv).mono (fun _ _ => shape_own ho), h.id, h.made, ho _ _ h.own⟩

theorem ended_match {i : Nat} {m m' m1 : Mem} (hm : ∀ o o', ObjRel M own o o' → OptRel (SameShape (ObjRel M own)) (m o) (m' o')) (h : Ended i m m1) :
    ∃ m1', Ended i m' m1' ∧ ∀ o o', ObjRel M own o o' → OptRel (SameShape (ObjRel M own)) (m1 o) (m1' o') := by
  refine ⟨fun o => match o with
    | .loc j _ _ => if j = i then none else m' o
    | .glob _ => m' o, fun o => by cases o <;> rfl, fun o o' ho => ?_⟩
  rw [h o]
  have h1 := hm o o' ho
  cases ho with
  | glob => exact h1
  | loc =>
    simp only
    split
    · exact .none
    · exact h1

theorem not_inert {d : VData} {k : VKind} (h : d.kind = k) (hk : ¬ Inert k) : ¬ Inert d.kind := by rw [h]; exact hk

theorem not_inert_does {lib : Lib σ} {chk : Bool} {ptrSize : Nat} {a a1 : Act} {v : Value} {d : VData} {m m1 : Mem} {w w1 : σ}
    (h : Does p lib chk ptrSize a v d m w a1 m1 w1) : ¬ Inert d.kind := by
  cases h with
  | alloc h => exact not_inert h id
  | load h => exact not_inert h id
  | loadExt h => exact not_inert h id
  | store h => exact not_inert h id
  | storeExt h => exact not_inert h id
  | getPtr h => exact not_inert h id
  | getElemPtr h => exact not_inert h id
  | getElemPtrExt h => exact not_inert h id
  | binary h => exact not_inert h id

theorem not_inert_fails {lib : Lib σ} {a : Act} {d : VData} {m : Mem} {w : σ} (h : Fails p lib a d m w) : ¬ Inert d.kind := by
  cases h with
  | load h => exact not_inert h id
  | loadExt h => exact not_inert h id
  | store h => exact not_inert h id
  | storeExt h => exact not_inert h id
  | getPtr h => exact not_inert h id
  | getElemPtr h => exact not_inert h id
  | getElemPtrNull h => exact not_inert h id

theorem not_inert_goes {f : Func} {regs : Value → Option Val} {d : VData} {b : BB} {args : List Value} (h : Goes p f regs d b args) : ¬ Inert d.kind := by
  cases h with
  | jump h => exact not_inert h id
  | branchTrue h => exact not_inert h id
  | branchFalse h => exact not_inert h id

theorem not_inert_returns {f : Func} {regs : Value → Option Val} {d : VData} {x : Val} (h : Returns p f regs d x) : ¬ Inert d.kind := by
  cases h with
  | unit h => exact not_inert h id
  | value h => exact not_inert h id

theorem not_inert_calls {f : Func} {regs : Value → Option Val} {d : VData} {g : Func} {gd : FData} {xs : List Val} (h : Calls p f regs d g gd xs) : ¬ Inert d.kind := by
  obtain ⟨args, ps, t, h1, -⟩ := h
  exact not_inert h1 id

theorem all2_at {α β : Type} {R : α → β → Prop} {as : List α} {bs : List β} (h : All2 R as bs) : ∀ i : Nat, OptRel R as[i]? bs[i]? := by
  induction h with
  | nil => intro i; exact .none
  | cons h _ ih =>
    intro i
    cases i with
    | zero => exact .some h
    | succ i => exact ih i

/-- The parameters of a function. -/
theorem bound_match (hM : M.Ok p p') {f f' : Func} {ps ps' : List Value} (hp : All2 (M.V f f') ps ps') {own : Nat → Option (Func × Func)} {xs xs' : List Val}
    (hx : All2 (SameShape (ObjRel M own)) xs xs') {regs : Value → Option Val} (h : Bound ps xs regs) :
    ∃ regs', Bound ps' xs' regs' ∧ ∀ v v', M.V f f' v v' → OptRel (SameShape (ObjRel M own)) (regs v) (regs' v') := by
  have hone := ObjRel.oneToOne hM own
  have hget : ∀ (i : Nat) q', ps'[i]? = some q' → ∃ q, ps[i]? = some q ∧ M.V f f' q q' := by
    intro i q' hq
    obtain ⟨q, h1, h2⟩ := (OptRel.flip (S := fun b a => M.V f f' a b) (fun _ _ h => h) (all2_at hp i)).get hq
    exact ⟨q, h1, h2⟩
  have hsame : ∀ (i j : Nat) q', ps'[i]? = some q' → ps'[j]? = some q' → xs'[i]? = xs'[j]? := by
    intro i j q' hi hj
    obtain ⟨q, h1, h2⟩ := hget i q' hi
    obtain ⟨r, h3, h4⟩ := hget j q' hj
    cases (hM.vOne _ _).2 _ _ _ h2 h4
    have e1 := h.1 i q h1
    rw [h.1 j q h3] at e1
    have a1 := all2_at hx i
    have a2 := all2_at hx j
    rw [e1] at a2
    generalize xs[i]? = u, xs'[i]? = v, xs'[j]? = w at a1 a2
    cases a1 with
    | none => cases a2; rfl
    | some r1 => cases a2 with | some r2 => rw [SameShape.unique hone r1 r2]
  refine ⟨fun q' => if q' ∈ ps' then xs'[ps'.idxOf q']? else none, ⟨fun i q' hi => ?_, fun q' hq => if_neg hq⟩, fun v v' hv => ?_⟩
  · have hmem := List.mem_of_getElem? hi
    simp only [if_pos hmem]
    refine hsame _ i q' ?_ hi
    have := List.idxOf_lt_length_of_mem hmem
    rw [List.getElem?_eq_getElem this, List.getElem_idxOf]
  · by_cases hin : v' ∈ ps'
    · simp only [if_pos hin]
      have hlt := List.idxOf_lt_length_of_mem hin
      have hg : ps'[ps'.idxOf v']? = some v' := by rw [List.getElem?_eq_getElem hlt, List.getElem_idxOf]
      obtain ⟨q, h1, h2⟩ := hget _ v' hg
      cases (hM.vOne _ _).2 _ _ _ h2 hv
      rw [h.1 _ v h1]
      exact all2_at hx _
    · simp only [if_neg hin]
      rw [h.2 v (fun hm => hin ?_)]
      · exact .none
      · obtain ⟨w, h1, h2⟩ := all2_inl hp hm
        cases (hM.vOne _ _).1 _ _ _ h2 hv
        exact h1

/-- Objects of activations to come are not made before. -/
theorem does_fresh {lib : Lib σ} {chk : Bool} {ptrSize : Nat} {a a1 : Act} {v : Value} {d : VData} {m m1 : Mem} {w w1 : σ}
    (h : Does p lib chk ptrSize a v d m w a1 m1 w1) {k : Nat} (ha : a.id < k) (hm : ∀ i v n, k ≤ i → m (.loc i v n) = none) :
    ∀ i v n, k ≤ i → m1 (.loc i v n) = none := by
  intro i u n hi
  cases h with
  | alloc _ _ _ _ h5 =>
    rw [h5 _ (fun e => by cases e; omega)]
    exact hm i u n hi
  | store _ _ _ h4 =>
    obtain ⟨y, z, c1, c2, c3, c4⟩ := h4
    rw [c4 _ (fun e => by rw [← e, hm i u n hi] at c1; cases c1)]
    exact hm i u n hi
  | _ => exact hm i u n hi

theorem ended_fresh {j k : Nat} {m m1 : Mem} (h : Ended j m m1) (hm : ∀ i v n, k ≤ i → m (.loc i v n) = none) : ∀ i v n, k ≤ i → m1 (.loc i v n) = none := by
  intro i v n hi
  rw [h]
  simp only
  split
  · rfl
  · exact hm i v n hi

theorem StMatch.young {s s' : MState σ} (h : StMatch M own s s') {a a' : Act} (ha : ActMatch M own a a') : a.id < s.born := by
  refine Nat.lt_of_not_le (fun hle => ?_)
  have := ha.own
  rw [h.owned _ hle] at this; cases this

/-- One step. -/
theorem next_match (hM : M.Ok p p') {lib : Lib σ} (hl : Blind lib) {chk : Bool} {ptrSize : Nat} {s s' t : MState σ} (h : StMatch M own s s')
    (hn : MNext p lib chk ptrSize s t) : ∃ own' t', MNext p' lib chk ptrSize s' t' ∧ StMatch M own' t t' := by
  cases hn with
  | does h1 h2 =>
    obtain ⟨a', stack', v', d', k1, k2, k3, k4, k5, k6⟩ := at_match hM h h1
    have hk := k6.resolve_left (fun hi => not_inert_does h2 hi.1)
    obtain ⟨a1', m1', l1, l2, l3⟩ := does_match hM hl k2 k4 k5 hk h.mem h2
    have hy := h.young k2
    have f1 := does_fresh h2 hy h.fresh
    have f2 := does_fresh l1 (k2.id ▸ hy) h.fresh'
    rw [h.world] at l1
    exact ⟨own, _, .does k1 l1, .cons l2 k3, l3, h.born, rfl, h.owned, f1, f2⟩
  | goes h1 h2 h3 =>
    obtain ⟨a', stack', v', d', k1, k2, k3, k4, k5, k6⟩ := at_match hM h h1
    have hk := k6.resolve_left (fun hi => not_inert_goes h2 hi.1)
    obtain ⟨b', args', l1, l2, l3⟩ := goes_match hM k2.regs hk h2
    obtain ⟨is', regs1', l4, l5, l6⟩ := enters_match hM k2.regs l2 l3 h3
    exact ⟨own, _, .goes k1 l1 l4, .cons ⟨k2.fn, l5, l6, k2.id, k2.made, k2.own⟩ k3, h.mem, h.born, h.world, h.owned, h.fresh, h.fresh'⟩
  | callExt h1 h2 h3 h4 =>
    obtain ⟨a', stack', v', d', k1, k2, k3, k4, k5, k6⟩ := at_match hM h h1
    have hk := k6.resolve_left (fun hi => not_inert_calls h2 hi.1)
    obtain ⟨g', gd', xs', l1, l2, l3, l4⟩ := calls_match hM k2.regs hk h2
    obtain ⟨fd, fd', n1, n2, n3, n4, -⟩ := hM.funcs _ _ l2
    obtain ⟨-, -, -, -, -, e1, -⟩ := h2
    rw [n1] at e1; cases e1
    rw [l3] at n2; cases n2
    rcases n4 with ⟨o1, o2, o3⟩ | ⟨b, is, bs, b', is', bs', o1, -⟩
    · refine ⟨own, _, .callExt k1 l1 o2 (x := _) (w := _) ?_, .cons (k2.gets hM k4 (external_shape (lib.callExt _ _ _ _ _ _ h4))) k3, h.mem, h.born, rfl, h.owned, h.fresh, h.fresh'⟩
      rw [← o3, ← n3, ← h.world, ← hl.call _ (ObjRel.oneToOne hM own) _ _ _ _ _ l4]
      exact h4
    · rw [h3] at o1; cases o1
  | @call _ _ _ _ g gd xs b0 is0 bs0 regs0 h1 h2 h3 h4 =>
    obtain ⟨a', stack', v', d', k1, k2, k3, k4, k5, k6⟩ := at_match hM h h1
    have hk := k6.resolve_left (fun hi => not_inert_calls h2 hi.1)
    obtain ⟨g', gd', xs', l1, l2, l3, l4⟩ := calls_match hM k2.regs hk h2
    obtain ⟨fd, fd', n1, n2, n3, n4, n5⟩ := hM.funcs _ _ l2
    obtain ⟨-, -, -, -, -, e1, -⟩ := h2
    rw [n1] at e1; cases e1
    rw [l3] at n2; cases n2
    rcases n4 with ⟨o1, o2, o3⟩ | ⟨b, is, bs, b', is', bs', o1, o2, o3⟩
    · rw [h3] at o1; cases o1
    · rw [h3] at o1; cases o1
      have ho : ∀ i q, own i = some q → (fun i => if i = s.born then some (g, g') else own i) i = some q := by
        intro i q hi
        have : i ≠ s.born := fun e => by rw [h.owned i (Nat.le_of_eq e.symm)] at hi; cases hi
        simp only [if_neg this]; exact hi
      obtain ⟨regs', q1, q2⟩ := bound_match hM n5 l4 h4
      refine ⟨fun i => if i = s.born then some (g, g') else own i, _, .call k1 l1 o2 q1, .cons ⟨l2, o3, ?_, h.born, fun _ _ _ => rfl, by simp⟩
        (.cons (k2.own_mono ho) (all2_mono (fun _ _ h => h.own_mono ho) k3)), ?_, by simp [h.born], h.world, ?_,
        fun i v n hi => h.fresh i v n (by simp only at hi; omega), fun i v n hi => h.fresh' i v n (by simp only at hi; omega)⟩
      · exact fun v v' hv => (q2 v v' hv).mono (fun _ _ => shape_own ho)
      · intro o o' hoo
        cases hoo with
        | glob hg => exact (h.mem _ _ (.glob hg)).mono (fun _ _ => shape_own ho)
        | @loc i n f f' v v' e1 e2 =>
          by_cases e : i = s.born
          · simp only
            rw [h.fresh i v n (Nat.le_of_eq e.symm), h.fresh' i v' n (Nat.le_of_eq e.symm)]
            exact .none
          · simp only [if_neg e] at e1
            exact (h.mem _ _ (.loc e1 e2)).mono (fun _ _ => shape_own ho)
      · intro i hi
        simp only at hi ⊢
        rw [if_neg (by omega)]
        exact h.owned i (by omega)
  | @ret _ c1 _ _ _ _ _ _ h1 h2 h3 h4 =>
    obtain ⟨a', stack', v', d', k1, k2, k3, k4, k5, k6⟩ := at_match hM h h1
    have hk := k6.resolve_left (fun hi => not_inert_returns h2 hi.1)
    obtain ⟨x', l1, l2⟩ := returns_match hM k2.regs hk h2
    cases k3 with
    | @cons _ c' _ _ q1 q2 =>
      have hrest := q1.rest
      generalize e1 : c1.rest = r at hrest h3
      generalize e2 : c'.rest = r' at hrest
      cases hrest with
      | nil => cases h3
      | cons r1 r2 =>
        cases h3
        obtain ⟨m1', o1, o2⟩ := ended_match h.mem h4
        rw [k2.id] at o1
        exact ⟨own, _, .ret k1 l1 (by rw [e2]; rfl) o1, .cons (q1.gets hM r1 l2) q2, o2, h.born, h.world, h.owned, ended_fresh h4 h.fresh, ended_fresh o1 h.fresh'⟩

end Koopa
