import Verif.Spec.LlvmValid
import Verif.Lemmas.Back.LlvmUnique
/-!
The module that a program is translated to is well typed.
-/
namespace Koopa
open Spec Spec.Ll

/-! ### Types -/

theorem expressible_ok {t : Ty} (h : Expressible t) : TyOk t := by
  induction h with
  | i32 => exact .i32
  | array _ _ _ ih => exact .array ih
  | ptr _ ih => exact .ptr ih
  | proc _ ih => exact .proc ih
  | func _ _ ih ih' => exact .func ih ih'

/-! ### Constants -/

theorem cst_ty {get : Value → Option VData} {H : Value → Ty → Prop} {P : BB → List Ty → Prop} {Fn : Func → Ty → Prop}
    (hT : ∀ v d, get v = some d → InstTy H P Fn d.kind d.ty) (hH : ∀ v t d, H v t → get v = some d → d.ty = t) :
    ∀ {k : VKind} {c : Cst}, CstOf get k c → ∀ {t : Ty}, InstTy H P Fn k t → TyOk t → CstTy t c := by
  intro k c h
  induction h with
  | int n => intro t ht hs; cases ht; exact .int n
  | zero => intro t ht hs; cases ht; exact .zero hs
  | undef => intro t ht hs; cases ht; exact .undef hs
  | @agg es ds cs h1 h2 h3 ih =>
    intro t ht hs
    cases ht with
    | aggregate a1 a2 a3 =>
      rename_i t
      have hs : TyOk t := by cases hs; assumption
      have hl : es.length = cs.length := by
        have e1 := congrArg List.length h1
        have e2 := congrArg List.length h2
        simp only [List.length_map] at e1 e2
        omega
      have key : ∀ (i : Nat) c, cs[i]? = some c → c.1 = t ∧ CstTy t c.2 := by
        intro i c hc
        have e2 := congrArg (·[i]?) h2
        simp only [List.getElem?_map, hc, Option.map_some] at e2
        obtain ⟨d, hd, e3⟩ := Option.map_eq_some_iff.1 e2.symm
        have e1 := congrArg (·[i]?) h1
        simp only [List.getElem?_map, hd, Option.map_some] at e1
        obtain ⟨e, he, e4⟩ := Option.map_eq_some_iff.1 e1
        have ht := hH e t d (a3 e (List.mem_of_getElem? he)) e4
        have := ih i d c hd hc (hT e d e4) (by rw [ht]; exact hs)
        rw [ht] at this e3
        exact ⟨e3.symm, this⟩
      rw [hl]
      refine .array (fun e he => ?_) (fun e he => ?_)
      · obtain ⟨i, hi⟩ := List.getElem?_of_mem he
        exact (key i e hi).1
      · obtain ⟨i, hi⟩ := List.getElem?_of_mem he
        exact (key i e hi).2

/-! ### Functions -/

/-- What is known where a function is translated. -/
structure TCtx (p : Program) (M : Mod) (f : Func) (fd : FData) (N : Names) (F : Fn) (n : Nat) (ts : List Ty) (r : Ty) : Prop where
  P : Printable p
  wf : WellFormed p
  get : p.funcs.get? f = some fd
  at' : p.funcLayout[n]? = some f
  fnOf : FnOf p fd N f F
  body : PrintableBody p (p.funcLayout.take n) f fd ts r
  ty : fd.ty = .func ts r
  tys : ∀ t ∈ ts, TyOk t
  ret : r = .unit ∨ TyOk r
  once : ∀ b x, fd.dfg.bbs.get? b = some x → x.usedBy.Nodup
  distinct : N.Distinct
  entry : ∀ b is bs bd, fd.layout.bbs = (b, is) :: bs → fd.dfg.bbs.get? b = some bd → bd.params = []
  globals : ∀ v m, v ∈ p.instLayout → N.ent (.global v) = some m → ∃ d x i c, p.values.get? v = some d ∧ d.kind = .globalAlloc i ∧
    p.values.get? i = some x ∧ .global m x.ty c ∈ M
  funcs : ∀ g m gd ts' r', p.funcs.get? g = some gd → gd.ty = .func ts' r' → N.ent (.func g) = some m → g ∈ p.funcLayout.take n ++ [f] → HasSig M m ts' r'

section
variable {p : Program} {M : Mod} {f : Func} {fd : FData} {N : Names} {F : Fn} {n : Nat} {ts : List Ty} {r : Ty} (C : TCtx p M f fd N F n ts r)
include C

theorem TCtx.local {v : Value} {d : VData} (h : fd.dfg.values.get? v = some d) : LocalVal p f v d := ⟨fd, C.get, h⟩

theorem TCtx.instTy {v : Value} {d : VData} (h : fd.dfg.values.get? v = some d) : InstTy (HasTy p f) (ParamTys p f) (FuncTy p) d.kind d.ty :=
  C.P.typed.locals f v d (C.local h)

theorem TCtx.hasTy_local {v : Value} {t : Ty} {d : VData} (h : HasTy p f v t) (hd : fd.dfg.values.get? v = some d) : d.ty = t := by
  obtain ⟨x, h1 | ⟨fd', h1, h2⟩, rfl⟩ := h
  · have := C.P.globalId v x h1
    rw [C.P.localId f v d (C.local hd)] at this; cases this
  · rw [C.get] at h1; cases h1
    rw [hd] at h2; cases h2; rfl

theorem TCtx.hasTy_valueTy {v : Value} {t t' : Ty} (h : HasTy p f v t) (h' : BackLlvm.valueTy p fd v = some t') : t' = t := by
  obtain ⟨x, h1 | ⟨fd', h1, h2⟩, rfl⟩ := h
  · unfold BackLlvm.valueTy at h'
    rw [if_pos (C.P.globalId v x h1), show p.values.get? v = some x from h1] at h'
    exact (Option.some.inj h').symm
  · unfold BackLlvm.valueTy at h'
    rw [C.get] at h1; cases h1
    rw [if_neg (by rw [C.P.localId f v x (C.local h2)]; nofun), h2] at h'
    exact (Option.some.inj h').symm

/-- An instruction defines its name with its type. -/
theorem TCtx.makes {v : Value} {d : VData} {xs : List Inst} (h : InstOf p fd N v d xs) (hd : fd.dfg.values.get? v = some d) (hu : d.ty ≠ .unit)
    {m : Str} (hm : N.ent (.value v) = some m) : ∃ i ∈ xs, i.Makes m (.of d.ty) := by
  have hty := C.instTy hd
  cases h with
  | alloc a1 a2 a3 => rw [hm] at a3; cases a3; rw [a2]; exact ⟨_, List.mem_singleton_self _, .alloca _ _⟩
  | load a1 a2 a3 => rw [hm] at a2; cases a2; exact ⟨_, List.mem_singleton_self _, .load _ _ _⟩
  | store a1 => rw [a1] at hty; generalize d.ty = t at *; cases hty; exact absurd rfl hu
  | getPtr a1 a2 a3 a4 a5 =>
    rw [hm] at a2; cases a2
    rw [a1] at hty
    refine ⟨_, List.mem_singleton_self _, ?_⟩
    generalize d.ty = t at *
    cases hty with
    | getPtr b1 b2 =>
      have := C.hasTy_valueTy b1 a3
      cases this
      exact .gep _ _ _ _
  | getElemPtr a1 a2 a3 a4 a5 =>
    rw [hm] at a2; cases a2
    rw [a1] at hty
    refine ⟨_, List.mem_singleton_self _, ?_⟩
    generalize d.ty = t at *
    cases hty with
    | getElemPtr b1 b2 =>
      have := C.hasTy_valueTy b1 a3
      cases this
      exact .gepElem _ _ _ _ _ _
  | arith a1 a2 a3 =>
    rw [hm] at a3; cases a3
    rw [a1] at hty
    refine ⟨_, List.mem_singleton_self _, ?_⟩
    generalize d.ty = t at *
    cases hty; exact .arith _ _ _ _
  | compare a1 a2 a3 =>
    rw [hm] at a3; cases a3
    rw [a1] at hty
    refine ⟨_, List.mem_cons_of_mem _ (List.mem_singleton_self _), ?_⟩
    generalize d.ty = t at *
    cases hty; exact .zext _ _
  | branch a1 => rw [a1] at hty; generalize d.ty = t at *; cases hty; exact absurd rfl hu
  | jump a1 => rw [a1] at hty; generalize d.ty = t at *; cases hty; exact absurd rfl hu
  | call a1 a2 a3 => rw [hm] at a3; cases a3; exact ⟨_, List.mem_singleton_self _, .call _ _ _ _⟩
  | callVoid a1 a2 => exact absurd a2 hu
  | retVoid a1 => rw [a1] at hty; generalize d.ty = t at *; cases hty; exact absurd rfl hu
  | ret a1 => rw [a1] at hty; generalize d.ty = t at *; cases hty; exact absurd rfl hu

omit C in
theorem insts_mem {vs : List Value} {xs : List Inst} (h : InstsOf p fd N vs xs) {v : Value} (hv : v ∈ vs) :
    ∃ d ys, fd.dfg.values.get? v = some d ∧ InstOf p fd N v d ys ∧ ∀ i ∈ ys, i ∈ xs := by
  induction h with
  | nil => cases hv
  | cons h1 h2 _ ih =>
    rcases List.mem_cons.1 hv with rfl | hv
    · exact ⟨_, _, h1, h2, fun i hi => List.mem_append_left _ hi⟩
    · obtain ⟨d, ys, h3, h4, h5⟩ := ih hv
      exact ⟨d, ys, h3, h4, fun i hi => List.mem_append_right _ (h5 i hi)⟩

omit C in
theorem insts_mem' {vs : List Value} {xs : List Inst} (h : InstsOf p fd N vs xs) {i : Inst} (hi : i ∈ xs) :
    ∃ v d ys, v ∈ vs ∧ fd.dfg.values.get? v = some d ∧ InstOf p fd N v d ys ∧ i ∈ ys ∧ ∀ i ∈ ys, i ∈ xs := by
  induction h with
  | nil => cases hi
  | cons h1 h2 _ ih =>
    rcases List.mem_append.1 hi with hi | hi
    · exact ⟨_, _, _, List.mem_cons_self, h1, h2, hi, fun i hi => List.mem_append_left _ hi⟩
    · obtain ⟨v, d, ys, h0, h3, h4, h5, h6⟩ := ih hi
      exact ⟨v, d, ys, List.mem_cons_of_mem _ h0, h3, h4, h5, fun i hi => List.mem_append_right _ (h6 i hi)⟩

/-- A value that an instruction may mention by its name has its type in the translated function. -/
theorem TCtx.visible {j i : Nat} {v : Value} {d : VData} (h : Visible p f fd j i v) (hd : fd.dfg.values.get? v = some d) {m : Str}
    (hm : N.ent (.value v) = some m) : LocTy F m (.of d.ty) := by
  cases h with
  | global h1 =>
    obtain ⟨x, -, -, h2, -⟩ := C.P.insts v h1
    have := C.P.globalId v x h2
    rw [C.P.localId f v d (C.local hd)] at this; cases this
  | arg h1 =>
    obtain ⟨q, h2, d', h3, h4, h5⟩ := all2_mem C.fnOf.params h1
    rw [hd] at h3; cases h3
    rw [hm] at h5; cases h5
    rw [← h4]
    exact .param h2
  | param h1 h2 h3 h4 h5 =>
    obtain ⟨B, b1, b2, ⟨bd, us, b3, -, b4⟩, b5⟩ := all2_mem C.fnOf.blks (List.mem_of_getElem? h2)
    rw [h3] at b3; cases b3
    obtain ⟨φ, f1, d', f2, f3, f4⟩ : ∃ φ ∈ B.phis, ∃ d', fd.dfg.values.get? v = some d' ∧ N.ent (.value v) = some φ.name ∧ φ.ty = d'.ty := by
      obtain ⟨φ, g1, g2⟩ := phis_get' b4 v h4
      obtain ⟨k, w, g3, d', g4, g5, g6, -⟩ := phis_get b4 φ g1
      have := C.distinct.ents _ _ _ g2 g5
      cases this
      exact ⟨φ, g1, d', g4, g5, g6⟩
    rw [hd] at f2; cases f2
    rw [hm] at f3; cases f3
    rw [← f4]
    exact .phi b1 f1 rfl
  | inst h1 h2 h3 h4 h5 =>
    obtain ⟨B, b1, b2, b3, b5⟩ := all2_mem C.fnOf.blks (List.mem_of_getElem? h2)
    rw [hd] at h4; cases h4
    obtain ⟨d', ys, c1, c2, c3⟩ := insts_mem b5 (List.mem_of_getElem? h3)
    rw [hd] at c1; cases c1
    obtain ⟨i, e1, e2⟩ := C.makes c2 hd h5 hm
    exact .inst b1 (c3 i e1) e2

/-- A constant, or a value that may be mentioned by its name. -/
def Mentionable (p : Program) (f : Func) (fd : FData) (v : Value) : Prop :=
  (∃ j i, Visible p f fd j i v) ∨ ∃ x, fd.dfg.values.get? v = some x ∧ x.kind.isConst = true

omit C in
theorem mentionable_constant {v : Value} (h : Constant fd.dfg.values.get? v) : Mentionable p f fd v := by
  cases h with
  | int h1 h2 | undef h1 h2 | zero h1 h2 | agg h1 h2 => exact .inr ⟨_, h1, by rw [h2]; rfl⟩

omit C in
theorem mentionable_usable {j i : Nat} {v : Value} (h : Usable p f fd j i v) : Mentionable p f fd v := by
  rcases h with h | ⟨x, h1, ⟨k, h2⟩ | h2⟩
  · exact .inl ⟨_, _, h⟩
  · exact .inr ⟨_, h1, by rw [h2]; rfl⟩
  · exact .inr ⟨_, h1, by rw [h2]; rfl⟩

/-! ### Types of values -/

theorem TCtx.result {g : Func} {gd : FData} {us : List Ty} {t : Ty} (hg : g ∈ p.funcLayout.take n ++ [f]) (h1 : p.funcs.get? g = some gd)
    (h2 : gd.ty = .func us t) : (∀ u ∈ us, TyOk u) ∧ (t = .unit ∨ TyOk t) := by
  have h3 : g ∈ p.funcLayout := by
    rcases List.mem_append.1 hg with h | h
    · exact List.mem_of_mem_take h
    · rw [List.mem_singleton.1 h]; exact List.mem_of_getElem? C.at'
  obtain ⟨k, hk⟩ := List.getElem?_of_mem h3
  obtain ⟨gd', ts', r', k1, k2⟩ := C.P.funcs k g hk
  rw [h1] at k1; cases k1
  have := k2.ty
  rw [h2] at this; cases this
  exact ⟨fun u hu => expressible_ok (k2.tys u hu), k2.ret.imp id expressible_ok⟩

/-- A visible value has a type of LLVM if the instructions before have. -/
theorem TCtx.visible_step {j i : Nat} (ih : ∀ j' i' b is w d, (j' < j ∨ j' = j ∧ i' < i) → fd.layout.bbs[j']? = some (b, is) → is[i']? = some w →
    fd.dfg.values.get? w = some d → d.ty ≠ .unit → TyOk d.ty) {v : Value} (hv : Visible p f fd j i v) {t : Ty} (ht : HasTy p f v t) : TyOk t := by
  cases hv with
  | global h1 =>
    obtain ⟨d, k, z, h2, h3, -, h4, h5⟩ := C.P.insts v h1
    have hty := C.P.typed.globals v d h2
    obtain ⟨y, hy | hy, e⟩ := ht
    · have hy : p.values.get? v = some y := hy
      rw [show p.values.get? v = some d from h2] at hy; cases hy
      rw [h3, e] at hty
      cases hty with
      | globalAlloc _ e1 =>
        obtain ⟨z', e2, rfl⟩ := e1
        have e2 : p.values.get? k = some z' := e2
        rw [show p.values.get? k = some z from h4] at e2; cases e2
        exact .ptr (expressible_ok h5)
    · have := C.P.globalId v d h2
      rw [C.P.localId f v y hy] at this; cases this
  | arg h =>
    obtain ⟨k, hk⟩ := List.getElem?_of_mem h
    obtain ⟨x, hx, h1, h2⟩ := C.body.params.2 k v hk
    rw [← C.hasTy_local ht hx]
    exact C.tys _ (List.mem_of_getElem? h2)
  | param a1 a2 a3 a4 a5 =>
    obtain ⟨x, b1, b2⟩ := C.body.blocks _ _ (List.mem_of_getElem? a2)
    rw [a3] at b1; cases b1
    obtain ⟨k, hk⟩ := List.getElem?_of_mem a4
    obtain ⟨y, hy, h1, h2⟩ := b2 k v hk
    rw [← C.hasTy_local ht hy]
    exact expressible_ok h2
  | inst a1 a2 a3 a4 a5 a6 a7 =>
    rw [← C.hasTy_local ht a4]
    exact ih _ _ _ _ _ _ a7 a2 a3 a4 a5

theorem TCtx.inst_step {j i : Nat} (ih : ∀ j' i' b is w d, (j' < j ∨ j' = j ∧ i' < i) → fd.layout.bbs[j']? = some (b, is) → is[i']? = some w →
    fd.dfg.values.get? w = some d → d.ty ≠ .unit → TyOk d.ty) {b : BB} {is : List Value} {v : Value} {d : VData} (hj : fd.layout.bbs[j]? = some (b, is))
    (hi : is[i]? = some v) (hd : fd.dfg.values.get? v = some d) (hu : d.ty ≠ .unit) : TyOk d.ty := by
  obtain ⟨x, hx, W⟩ := C.body.insts j i b is v hj hi
  rw [hd] at hx; cases hx
  have T := C.instTy hd
  revert W T hu
  generalize d.kind = k
  generalize d.ty = t
  intro hu W T
  cases W with
  | alloc h => exact .ptr (expressible_ok h)
  | load w1 w2 =>
    cases T with
    | load t1 => cases C.visible_step ih w1 t1; assumption
  | store w1 w2 => cases T; exact absurd rfl hu
  | getPtr w1 w2 =>
    cases T with
    | getPtr t1 t2 => exact C.visible_step ih w1 t1
  | getElemPtr w1 w2 =>
    cases T with
    | getElemPtr t1 t2 =>
      cases C.visible_step ih w1 t1 with
      | ptr h => cases h with
        | array h => exact .ptr h
  | binary w1 w2 => cases T; exact .i32
  | branch w1 w2 w3 => cases T; exact absurd rfl hu
  | jump w1 => cases T; exact absurd rfl hu
  | call w1 w2 =>
    cases T with
    | call t1 t2 =>
      obtain ⟨gd, g1, g2⟩ := t1
      exact (C.result w1 g1 g2).2.resolve_left hu
  | retNone w1 => cases T; exact absurd rfl hu
  | ret w1 w2 w3 => cases T; exact absurd rfl hu

/-- The results of instructions have types of LLVM. -/
theorem TCtx.inst_ty : ∀ (j i : Nat) b is v d, fd.layout.bbs[j]? = some (b, is) → is[i]? = some v → fd.dfg.values.get? v = some d → d.ty ≠ .unit → TyOk d.ty := by
  intro j
  induction j using Nat.strongRecOn with
  | ind j ihj =>
    intro i
    induction i using Nat.strongRecOn with
    | ind i ihi =>
      intro b is v d hj hi hd hu
      refine C.inst_step (fun j' i' b' is' w d' hlt => ?_) hj hi hd hu
      rcases hlt with h | ⟨rfl, h⟩
      · exact ihj j' h i' b' is' w d'
      · exact ihi i' h b' is' w d'

/-- So have the visible values. -/
theorem TCtx.visible_ty {j i : Nat} {v : Value} (hv : Visible p f fd j i v) {t : Ty} (ht : HasTy p f v t) : TyOk t :=
  C.visible_step (fun j' i' b is w d _ => C.inst_ty j' i' b is w d) hv ht

theorem TCtx.opd {v : Value} {o : Opd} (h : OpdOf fd N v o) (hv : Mentionable p f fd v) {t : Ty} (ht : HasTy p f v t) (hok : TyOk t) : OpdTy M F (.of t) o := by
  cases h with
  | glob h1 h2 =>
    obtain ⟨j, i, hv⟩ | ⟨x, hx, -⟩ := hv
    · have hl : v ∈ p.instLayout := by
        cases hv with
        | global h => exact h
        | arg h =>
          obtain ⟨k, hk⟩ := List.getElem?_of_mem h
          obtain ⟨x, hx, -⟩ := C.body.params.2 k v hk
          rw [C.P.localId f v x (C.local hx)] at h1; cases h1
        | param a1 a2 a3 a4 a5 =>
          obtain ⟨x, b1, b2⟩ := C.body.blocks _ _ (List.mem_of_getElem? a2)
          rw [a3] at b1; cases b1
          obtain ⟨k, hk⟩ := List.getElem?_of_mem a4
          obtain ⟨y, hy, -⟩ := b2 k v hk
          rw [C.P.localId f v y (C.local hy)] at h1; cases h1
        | inst _ _ _ hx _ _ => rw [C.P.localId f v _ (C.local hx)] at h1; cases h1
      obtain ⟨d, x, k, c, g1, g2, g3, g4⟩ := C.globals v _ hl h2
      obtain ⟨y, hy | ⟨fd', hy1, hy2⟩, rfl⟩ := ht
      · have hy : p.values.get? v = some y := hy
        rw [g1] at hy; cases hy
        have hty := C.P.typed.globals v d g1
        rw [g2] at hty
        generalize d.ty = t at hty
        cases hty with
        | globalAlloc _ e1 =>
          obtain ⟨z, e2, rfl⟩ := e1
          have e2 : p.values.get? k = some z := e2
          rw [g3] at e2; cases e2
          exact .glob g4
      · rw [C.P.localId f v y ⟨fd', hy1, hy2⟩] at h1; cases h1
    · rw [C.P.localId f v x (C.local hx)] at h1; cases h1
  | cst h1 h2 h3 h4 =>
    have hd := C.hasTy_local ht h2
    subst hd
    exact .cst (cst_ty (fun v d h => C.instTy h) (fun v t d h h' => C.hasTy_local h h') h4 (C.instTy h2) hok)
  | loc h1 h2 h3 h4 =>
    have hd := C.hasTy_local ht h2
    subst hd
    rcases hv with ⟨j, i, hv⟩ | ⟨x, hx, hk⟩
    · exact .loc (C.visible hv h2 h4)
    · rw [h2] at hx; cases hx
      rw [h3] at hk; cases hk

theorem TCtx.topd {v : Value} {a : Ty × Opd} (h : TOpdOf p fd N v a) (hv : Mentionable p f fd v) {t : Ty} (ht : HasTy p f v t) (hok : TyOk t) :
    ∃ o, a = (t, o) ∧ OpdTy M F (.of t) o := by
  obtain ⟨t', o⟩ := a
  have : t' = t := C.hasTy_valueTy ht h.1
  subst this
  exact ⟨o, rfl, C.opd h.2 hv ht hok⟩

/-- The arguments of a call. -/
theorem TCtx.topds {ts' : List Ty} : ∀ {vs : List Value} {as : List (Ty × Opd)}, All2 (TOpdOf p fd N) vs as → (∀ v ∈ vs, Mentionable p f fd v) →
    All2 (HasTy p f) vs ts' → (∀ t ∈ ts', TyOk t) → as.map (·.1) = ts' ∧ ∀ a ∈ as, OpdTy M F (.of a.1) a.2 := by
  induction ts' with
  | nil => intro vs as h _ ht _; cases ht; cases h; exact ⟨rfl, by simp⟩
  | cons t ts' ih =>
    intro vs as h hv ht hok
    cases ht with
    | cons t1 t2 =>
      cases h with
      | cons h1 h2 =>
        obtain ⟨o, rfl, h3⟩ := C.topd h1 (hv _ List.mem_cons_self) t1 (hok _ List.mem_cons_self)
        obtain ⟨h4, h5⟩ := ih h2 (fun v hm => hv v (List.mem_cons_of_mem _ hm)) t2 (fun t hm => hok t (List.mem_cons_of_mem _ hm))
        refine ⟨by simp [h4], fun a ha => ?_⟩
        rcases List.mem_cons.1 ha with rfl | ha
        · exact h3
        · exact h5 a ha

/-! ### Instructions -/

theorem TCtx.label {b : BB} {is : List Value} (hb : (b, is) ∈ fd.layout.bbs) {v : Value} (hv : v ∈ is) {d : VData} (hd : fd.dfg.values.get? v = some d)
    {c : BB} (hc : c ∈ targets d.kind) {l : Str} (hl : N.bb c = some ('%' :: l)) : HasLabel F l := by
  obtain ⟨⟨c', is'⟩, h1, rfl⟩ := List.mem_map.1 (C.wf.laidOut f fd b is v d c C.get hb hv (C.local hd) hc)
  obtain ⟨B, b1, b2, -⟩ := all2_mem C.fnOf.blks h1
  rw [hl] at b2
  cases b2
  exact ⟨B, b1, rfl⟩

theorem TCtx.inst_ok {j i : Nat} {b : BB} {is : List Value} {v : Value} {d : VData} {xs : List Inst} {B : Blk} (hj : fd.layout.bbs[j]? = some (b, is))
    (hi : is[i]? = some v) (hd : fd.dfg.values.get? v = some d) (h : InstOf p fd N v d xs) (hB : B ∈ F.blks) (hsub : ∀ i ∈ xs, i ∈ B.insts) :
    ∀ i ∈ xs, InstOk M F i := by
  obtain ⟨x, hx, W⟩ := C.body.insts j i b is v hj hi
  rw [hd] at hx; cases hx
  have T := C.instTy hd
  have hb := List.mem_of_getElem? hj
  have hv := List.mem_of_getElem? hi
  have vis : ∀ {v}, Visible p f fd j i v → Mentionable p f fd v := fun h => .inl ⟨_, _, h⟩
  cases h with
  | alloc a1 a2 a3 =>
    have := C.inst_ty j i b is v d hj hi hd (by rw [a2]; nofun)
    rw [a2] at this
    cases this with
    | ptr h => exact fun i hi => by rw [List.mem_singleton.1 hi]; exact .alloca h
  | load a1 a2 a3 =>
    have D := C.inst_ty j i b is v d hj hi hd
    rw [a1] at W T
    generalize d.ty = t at *
    cases W with
    | load w1 w2 =>
      cases T with
      | load t1 =>
        obtain ⟨o, rfl, h1⟩ := C.topd a3 (vis w1) t1 (C.visible_ty w1 t1)
        exact fun i hi => by rw [List.mem_singleton.1 hi]; exact .load (D w2) h1
  | store a1 a2 a3 =>
    rw [a1] at W T
    generalize d.ty = t at *
    cases W with
    | store w1 w2 =>
      cases T with
      | store t1 t2 =>
        have hD := C.visible_ty w2 t2
        obtain ⟨o', rfl, h2⟩ := C.topd a3 (vis w2) t2 hD
        cases hD with | ptr hD => ?_
        have w1 : Mentionable p f fd _ := w1.elim vis mentionable_constant
        obtain ⟨o, rfl, h1⟩ := C.topd a2 w1 t1 hD
        exact fun i hi => by rw [List.mem_singleton.1 hi]; exact .store hD h1 h2
  | getPtr a1 a2 a3 a4 a5 =>
    rw [a1] at W T
    generalize d.ty = t at *
    cases W with
    | getPtr w1 w2 =>
      cases T with
      | getPtr t1 t2 =>
        cases C.hasTy_valueTy t1 a3
        obtain ⟨o, rfl, h1⟩ := C.topd a4 (vis w1) t1 (C.visible_ty w1 t1)
        obtain ⟨o', rfl, h2⟩ := C.topd a5 (mentionable_usable w2) t2 .i32
        have hD := C.visible_ty w1 t1
        cases hD with
        | ptr hD => exact fun i hi => by rw [List.mem_singleton.1 hi]; exact .gep hD h1 h2
  | getElemPtr a1 a2 a3 a4 a5 =>
    rw [a1] at W T
    generalize d.ty = t at *
    cases W with
    | getElemPtr w1 w2 =>
      cases T with
      | getElemPtr t1 t2 =>
        cases C.hasTy_valueTy t1 a3
        obtain ⟨o, rfl, h1⟩ := C.topd a4 (vis w1) t1 (C.visible_ty w1 t1)
        obtain ⟨o', rfl, h2⟩ := C.topd a5 (mentionable_usable w2) t2 .i32
        have hD := C.visible_ty w1 t1
        cases hD with
        | ptr hD => exact fun i hi => by rw [List.mem_singleton.1 hi]; exact .gepElem hD h1 (.cst (.int 0)) h2
  | arith a1 a2 a3 a4 a5 =>
    rw [a1] at W T
    generalize d.ty = t at *
    cases W with
    | binary w1 w2 =>
      cases T with
      | binary t1 t2 =>
        exact fun i hi => by
          rw [List.mem_singleton.1 hi]
          exact .arith (C.opd a4 (mentionable_usable w1) t1 .i32) (C.opd a5 (mentionable_usable w2) t2 .i32)
  | compare a1 a2 a3 a4 a5 a6 =>
    rw [a1] at W T
    generalize d.ty = t at *
    cases W with
    | binary w1 w2 =>
      cases T with
      | binary t1 t2 =>
        intro i hi
        rcases List.mem_cons.1 hi with rfl | hi
        · exact .icmp (C.opd a5 (mentionable_usable w1) t1 .i32) (C.opd a6 (mentionable_usable w2) t2 .i32)
        · rw [List.mem_singleton.1 hi]
          exact .zext (.loc (.inst hB (hsub _ List.mem_cons_self) (.icmp _ _ _ _)))
  | branch a1 a2 a3 a4 a5 =>
    have l1 := C.label hb hv hd (by rw [a1]; simp [targets]) a4
    have l2 := C.label hb hv hd (by rw [a1]; simp [targets]) a5
    rw [a1] at W T
    generalize d.ty = t at *
    cases W with
    | branch w1 w2 =>
      cases T with
      | branch t1 t2 =>
        intro i hi
        rcases List.mem_cons.1 hi with rfl | hi
        · exact .icmp (C.opd a3 (mentionable_usable w1) t1 .i32) (.cst (.int 0))
        · rw [List.mem_singleton.1 hi]
          exact .br (.loc (.inst hB (hsub _ List.mem_cons_self) (.icmp _ _ _ _))) l1 l2
  | jump a1 a2 =>
    have l1 := C.label hb hv hd (by rw [a1]; simp [targets]) a2
    exact fun i hi => by rw [List.mem_singleton.1 hi]; exact .jump l1
  | call a1 a2 a3 a4 a5 =>
    have D := C.inst_ty j i b is v d hj hi hd a2
    rw [a1] at W T
    generalize d.ty = t at *
    cases W with
    | call w1 w2 =>
      cases T with
      | call t1 t2 =>
        obtain ⟨gd, g1, g2⟩ := t1
        obtain ⟨h1, h2⟩ := C.topds a5 (fun v hv => mentionable_usable (w2 v hv)) t2 (C.result w1 g1 g2).1
        exact fun i hi => by
          rw [List.mem_singleton.1 hi]
          exact .call D (by rw [h1]; exact C.funcs _ _ gd _ _ g1 g2 a4 w1) h2
  | callVoid a1 a2 a3 a4 =>
    rw [a1, a2] at W T
    cases W with
    | call w1 w2 =>
      cases T with
      | call t1 t2 =>
        obtain ⟨gd, g1, g2⟩ := t1
        obtain ⟨h1, h2⟩ := C.topds a4 (fun v hv => mentionable_usable (w2 v hv)) t2 (C.result w1 g1 g2).1
        exact fun i hi => by
          rw [List.mem_singleton.1 hi]
          exact .callVoid (by rw [h1]; exact C.funcs _ _ gd _ _ g1 g2 a3 w1) h2
  | retVoid a1 =>
    obtain ⟨ts', e⟩ := C.fnOf.ty
    rw [C.ty] at e
    cases e
    rw [a1] at W
    generalize d.ty = t at *
    cases W with
    | retNone w1 => exact fun i hi => by rw [List.mem_singleton.1 hi]; exact .retVoid w1
  | ret a1 a2 =>
    obtain ⟨ts', e⟩ := C.fnOf.ty
    rw [C.ty] at e
    cases e
    rw [a1] at W
    generalize d.ty = t at *
    cases W with
    | ret w1 w2 w3 =>
      obtain ⟨o, rfl, h1⟩ := C.topd a2 (mentionable_usable w2) w3 (C.ret.resolve_left w1)
      exact fun i hi => by rw [List.mem_singleton.1 hi]; exact .ret (C.ret.resolve_left w1) h1

end

end Koopa
