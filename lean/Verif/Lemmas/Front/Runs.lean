import Verif.Spec.Typed
import Verif.Lemmas.Front.Search
import Verif.Lemmas.Front.Convert
import Verif.Lemmas.Lib.RawGen
/-!
Well-typed statements can be generated: no panic and no error.
-/
namespace Koopa
open Spec

/-! ### Composing runs -/

theorem Done.seq {α β : Type} {m : B α} {k : α → B β} {s s1 s' : BS} {a : α} {b : β} (h : Done m s a s1)
    (h' : Done (k a) s1 b s') : Done (m >>= k) s b s' :=
  ⟨by rw [B.bind_eq, h.run]; exact h'.run, h'.errs.trans h.errs⟩

theorem Done.done {α : Type} (a : α) (s : BS) : Done (Pure.pure a : B α) s a s := ⟨rfl, rfl⟩

theorem Done.seq_get {β : Type} {k : BS → B β} {s s' : BS} {b : β} (h : Done (k s) s b s') : Done (B.get >>= k) s b s' :=
  ⟨h.run, h.errs⟩

theorem Done.of_lift {α : Type} {o : Option α} {a : α} {s : BS} (h : o = some a) : Done (B.lift o) s a s := by
  subst h; exact ⟨rfl, rfl⟩

theorem Done.seq_lift {α β : Type} {o : Option α} {k : α → B β} {s s' : BS} {a : α} {b : β} (ho : o = some a)
    (h : Done (k a) s b s') : Done (B.lift o >>= k) s b s' := (Done.of_lift ho).seq h

theorem Done.of_modify {f : BS → BS} {s : BS} (hf : (f s).errs = s.errs) : Done (B.modify f) s () (f s) := ⟨rfl, hf⟩

theorem Done.seq_modify {β : Type} {f : BS → BS} {k : Unit → B β} {s s' : BS} {b : β} (hf : (f s).errs = s.errs)
    (h : Done (k ()) (f s) b s') : Done (B.modify f >>= k) s b s' := (Done.of_modify hf).seq h

theorem Done.of_api {α : Type} {op : Program → Option (Program × α)} {a : α} {s : BS} {p : Program}
    (h : op s.prog = some (p, a)) : Done (B.api op) s a { s with prog := p } := by
  refine ⟨?_, rfl⟩
  unfold B.api; rw [h]

theorem Done.of_api' {op : Program → Option Program} {s : BS} {p : Program}
    (h : op s.prog = some p) : Done (B.api' op) s () { s with prog := p } := by
  refine ⟨?_, rfl⟩
  unfold B.api'; rw [h]

theorem Done.of_attempt {α : Type} {m : B α} {a : α} {s s' : BS} (h : Done m s a s') : Done (B.attempt m) s (some a) s' := by
  refine ⟨?_, h.errs⟩
  unfold B.attempt; rw [h.run]

theorem Done.seq_each {α β : Type} {m : α → B β} {a : α} {as : List α} {b : β} {bs : List β} {s s1 s' : BS}
    (h : Done (m a) s b s1) (h' : Done (B.each m as) s1 bs s') : Done (B.each m (a :: as)) s (b :: bs) s' := by
  rw [B.each]
  exact h.seq (h'.seq (.done _ _))

/-! ### Making values -/

theorem FInv.apart {p : Program} (hi : FInv p) {f : Func} {v : Value} {a b : Sig} (h : p.view.l f v = some a)
    (h' : p.view.g v = some b) : False := by
  have h1 := hi.lRange h
  have h2 := hi.gRange h'
  have := hi.max
  omega

theorem hasTy_view {p : Program} {f : Func} {v : Value} {t : Ty} (h : HasTy p f v t) :
    ∃ n k, p.view.g v = some (t, n, k) ∨ p.view.l f v = some (t, n, k) := by
  obtain ⟨x, h | h, rfl⟩ := h
  · exact ⟨x.name, x.kind, .inl (view_g_iff.2 ⟨x, h, rfl⟩)⟩
  · exact ⟨x.name, x.kind, .inr (view_l_iff.2 ⟨x, h, rfl⟩)⟩

theorem view_hasTy {p : Program} {f : Func} {v : Value} {t : Ty} {n : Option Str} {k : VKind}
    (h : p.view.l f v = some (t, n, k)) : HasTy p f v t := denotes_hasTy.2 ⟨k, view_denotes h⟩

theorem hasTy_querier {p : Program} (hi : FInv p) {f : Func} {v : Value} {t : Ty} (h : HasTy p f v t) :
    (viewQuerier p.view f).valueType v = some t := by
  obtain ⟨n, k, h | h⟩ := hasTy_view h
  · simp [viewQuerier, View.val, h]
  · have : p.view.g v = none := by
      cases hg : p.view.g v with
      | none => rfl
      | some s => exact (hi.apart h hg).elim
    simp [viewQuerier, View.val, h, this]

/-- A well-typed instruction is made. -/
theorem makeLocal {f : Func} {k : VKind} {t : Ty} {i : LocalInst} {s : BS} (hi : FInv s.prog)
    (hh : (s.prog.view.head f).isSome) (hk : InstTy (HasTy s.prog f) (ParamTys s.prog f) (FuncTy s.prog) k t)
    (ha : ∀ es, k = .aggregate es → ∀ e ∈ es, (viewQuerier s.prog.view f).isConst e = some true)
    (hl : Raw.localInst t k = some i) :
    ∃ v s', Done (B.api (·.newLocal f i)) s v s' ∧ s'.prog.view.l f v = some (t, none, k) ∧ i.notRaw := by
  obtain ⟨hr, hb⟩ := Raw.localInst_build (q := viewQuerier s.prog.view f) (fun v t h => hasTy_querier hi h) (by
      rintro b ts ⟨x, hx, hps⟩
      exact ⟨x.params, by simp [viewQuerier, view_b_iff.2 ⟨x, hx, rfl, rfl⟩], hps⟩) (by
      rintro g t ⟨fd, hf, rfl⟩
      simp [viewQuerier, view_head_iff.2 ⟨fd, hf, rfl, rfl, rfl⟩]) hk ha hl
  obtain ⟨p', hp, h1, h2, h3⟩ := newLocal_run hi hh hr hb
  refine ⟨_, _, Done.of_api hp, ?_, hr⟩
  show p'.view.l f _ = _
  rw [h3]
  simp [VData.shape, VData.new]

/-- The same for instructions other than aggregates. -/
theorem makeInst {f : Func} {k : VKind} {t : Ty} {i : LocalInst} {s : BS} (hi : FInv s.prog)
    (hh : (s.prog.view.head f).isSome) (hk : InstTy (HasTy s.prog f) (ParamTys s.prog f) (FuncTy s.prog) k t)
    (hl : Raw.localInst t k = some i) (ha : ∀ es, k ≠ .aggregate es := by simp) :
    ∃ v s', Done (B.api (·.newLocal f i)) s v s' ∧ HasTy s'.prog f v t := by
  obtain ⟨v, s', h1, h2, _⟩ := makeLocal hi hh hk (fun es h => absurd h (ha es)) hl
  exact ⟨v, s', h1, view_hasTy h2⟩

/-! ### Constants -/

theorem Spec.ConstOk.notUnit {a : ValAst} {t : Ty} (h : ConstOk a t) : t ≠ .unit := by
  cases h <;> simp_all

/-- What is needed to make constants. `I k s`: `k` more values can be made in `s`. -/
structure MakeCtx (scope : Option Func) (I : Nat → BS → Prop) (has : BS → Value → Ty → Prop) : Prop where
  less : ∀ k s, I (k + 1) s → I k s
  new : ∀ k i t kd s, I (k + 1) s → InstTy (has s) (fun _ _ => False) (fun _ _ => False) kd t → Raw.valInst t kd = some i →
    ∃ v s', Done (newVal scope i) s v s' ∧ I k s' ∧ has s' v t ∧ ∀ w t', has s w t' → has s' w t'

mutual
theorem genInit_run {scope : Option Func} {I : Nat → BS → Prop} {has : BS → Value → Ty → Prop} (C : MakeCtx scope I has) :
    ∀ (a : ValAst) {t : Ty} {k : Nat} {s : BS}, ConstOk a t → I (constSize a + k) s →
    ∃ v s', Done (genInit scope t a) s v s' ∧ I k s' ∧ has s' v t ∧ ∀ w t', has s w t' → has s' w t'
  | .undef, t, k, s, h, hI => by
    rw [genInit]
    cases h with
    | undef hu => exact C.new k (.undef t) t .undef s (by rw [Nat.add_comm]; exact hI) (.undef hu) rfl
  | .zero, t, k, s, h, hI => by
    rw [genInit]
    cases h with
    | zero hu => exact C.new k (.zeroInit t) t .zeroInit s (by rw [Nat.add_comm]; exact hI) (.zeroInit hu) rfl
  | .int n, t, k, s, h, hI => by
    rw [genInit]
    cases h with
    | int =>
      rw [if_pos (by rfl)]
      exact C.new k (.integer n) .i32 (.integer n) s (by rw [Nat.add_comm]; exact hI) (.integer n) rfl
  | .agg es, t, k, s, h, hI => by
    cases h with
    | @agg _ t hne hes =>
      rw [genInit]
      obtain ⟨vs, s1, h1, h2, h3, h4, h5⟩ := genInits_run C es (t := t) (k := k + 1) (s := s) hes (by
        rw [constSize] at hI
        rw [show constSizes es + (k + 1) = constSizes es + 1 + k by omega]; exact hI)
      have hu : t ≠ .unit := by
        cases es with
        | nil => simp at hne
        | cons e es => exact (hes e (by simp)).notUnit
      have hty : InstTy (has s1) (fun _ _ => False) (fun _ _ => False) (.aggregate vs) (.array t vs.length) := by
        refine .aggregate ?_ hu h4
        intro hn; subst hn; cases es <;> simp_all
      obtain ⟨v, s2, h6, h7, h8, h9⟩ := C.new k (.aggregate vs) _ _ s1 h2 hty rfl
      rw [h3] at h8
      refine ⟨v, s2, Done.seq (a := t) (s1 := s) ?_ (h1.seq h6), h7, h8, fun w t' h => h9 w t' (h5 w t' h)⟩
      simp only [aggElemTy, ne_eq, not_true_eq_false, if_false]
      exact .done _ _
  | .sym _, t, k, s, h, hI => by cases h
theorem genInits_run {scope : Option Func} {I : Nat → BS → Prop} {has : BS → Value → Ty → Prop} (C : MakeCtx scope I has) :
    ∀ (es : List ValAst) {t : Ty} {k : Nat} {s : BS}, (∀ e ∈ es, ConstOk e t) → I (constSizes es + k) s →
    ∃ vs s', Done (genInits scope t es) s vs s' ∧ I k s' ∧ vs.length = es.length ∧ (∀ v ∈ vs, has s' v t) ∧
      ∀ w t', has s w t' → has s' w t'
  | [], t, k, s, _, hI => by
    rw [genInits]
    rw [constSizes, Nat.zero_add] at hI
    exact ⟨[], s, .done _ _, hI, rfl, by simp, fun _ _ h => h⟩
  | e :: es, t, k, s, h, hI => by
    rw [genInits]
    rw [constSizes, Nat.add_assoc] at hI
    obtain ⟨v, s1, h1, h2, h3, h4⟩ := genInit_run C e (h e (by simp)) hI
    obtain ⟨vs, s2, h5, h6, h7, h8, h9⟩ := genInits_run C es (fun e he => h e (by simp [he])) h2
    refine ⟨v :: vs, s2, h1.seq (h5.seq (.done _ _)), h6, by simp [h7], ?_, fun w t' h => h9 w t' (h4 w t' h)⟩
    intro w hw
    rcases List.mem_cons.1 hw with rfl | hw
    · exact h9 _ _ h3
    · exact h8 w hw
end

theorem GenTo.head {s s' : BS} (h : GenTo s s') (f : Func) : s'.prog.view.head f = s.prog.view.head f := by
  rw [h.ext.view]

/-- A local constant. -/
def ConstAt (f : Func) (s : BS) (v : Value) (t : Ty) : Prop :=
  ∃ n k, s.prog.view.l f v = some (t, n, k) ∧ k.isConst = true

theorem localMakeCtx (f : Func) : MakeCtx (some f) (fun _ s => FInv s.prog ∧ (s.prog.view.head f).isSome) (ConstAt f) where
  less _ _ h := h
  new k i t kd s hI hk hi := by
    have hl : Raw.localInst t kd = some (.val i) := by
      cases kd <;> simp only [Raw.valInst, Option.some.injEq, reduceCtorEq] at hi <;> subst hi <;> rfl
    have hc : kd.isConst = true := by
      cases kd <;> simp only [Raw.valInst, Option.some.injEq, reduceCtorEq] at hi <;> rfl
    have hk' : InstTy (HasTy s.prog f) (ParamTys s.prog f) (FuncTy s.prog) kd t := by
      have := hk.map (H' := HasTy s.prog f) (P' := ParamTys s.prog f) (F' := FuncTy s.prog) (val := id) (blk := id) (fn := id)
        (fun v _ t ⟨n, k, h, _⟩ => view_hasTy h) (fun _ _ _ h => h.elim) (fun _ _ _ _ h => h.elim) (fun _ _ _ _ h => h)
      rwa [show mapKind id id id kd = kd by cases kd <;> simp [mapKind] at this ⊢] at this
    obtain ⟨v, s', h1, h2, h3⟩ := makeLocal hI.1 hI.2 hk' (by
      rintro es rfl e he
      cases hk with
      | aggregate _ _ h =>
        obtain ⟨n, k, hv, hc⟩ := h e he
        have : s.prog.view.g e = none := by
          cases hg : s.prog.view.g e with
          | none => rfl
          | some s => exact (hI.1.apart hv hg).elim
        simp [viewQuerier, View.val, hv, this, hc]) hl
    have h4 := h1.newLocal hI.1 h3
    refine ⟨v, s', h1, ⟨h4.to.inv, by rw [h4.to.head]; exact hI.2⟩, ⟨none, kd, h2, hc⟩, ?_⟩
    rintro w t' ⟨n, k, hv, hc⟩
    exact ⟨n, k, h4.to.ext.l _ _ _ hv, hc⟩

/-! ### Operands -/

/-- Looking up symbol `sy` in block `n` gives `v`. -/
def Looks (s : BS) (n sy : Str) (v : Value) : Prop :=
  s.globalVars.get? sy = some v ∨ s.globalVars.get? sy = none ∧
    ∃ vis, findLocal s.localBbs sy (findFuel s.localBbs) [] n = some (some v, vis)

theorem Looks.run {s : BS} {n sy : Str} {v : Value} (h : Looks s n sy v) : Done (genSymbol n sy) s v s := by
  unfold genSymbol
  refine .seq_get ?_
  rcases h with h | ⟨h, vis, h'⟩
  · simp only [h]; exact .done _ _
  · simp only [h]
    exact .seq_lift h' (.done _ _)

theorem valueTy_run {f : Func} {v : Value} {t : Ty} {s : BS} (hi : FInv s.prog) (h : HasTy s.prog f v t) :
    Done (valueTy f v) s t s := by
  unfold valueTy
  refine .seq_get (.of_lift ?_)
  unfold Program.valueTy
  obtain ⟨x, hx, rfl⟩ := h
  rcases hx with hx | ⟨fd, hf, hx⟩
  · have hr := hi.gRange (view_g_iff.2 ⟨x, hx, rfl⟩)
    have := hi.max
    rw [if_pos (by simp [isGlobal]; omega), show s.prog.values.get? v = some x from hx]
    rfl
  · have hr := hi.lRange (view_l_iff.2 ⟨x, ⟨fd, hf, hx⟩, rfl⟩)
    rw [if_neg (by simp [isGlobal]; omega)]
    simp only [hf, hx]
    rfl

/-- The parameters of the block have these types, and they are local values. -/
def LocalTys (p : Program) (f : Func) (b : BB) (ts : List Ty) : Prop :=
  ∃ x, Block p f b x ∧ All2 (fun v t => ∃ y, LocalVal p f v y ∧ y.ty = t) x.params ts

theorem LocalTys.paramTys {p : Program} {f : Func} {b : BB} {ts : List Ty} (h : LocalTys p f b ts) : ParamTys p f b ts := by
  obtain ⟨x, hx, h⟩ := h
  exact ⟨x, hx, h.mono (fun _ _ ⟨y, hy, e⟩ => ⟨y, .inr hy, e⟩)⟩

theorem Ext.localTys {p p' : Program} (h : Ext p p') {f : Func} {b : BB} {ts : List Ty} (hl : LocalTys p f b ts) :
    LocalTys p' f b ts := by
  obtain ⟨x, hx, hp⟩ := hl
  obtain ⟨x', hx', -, hp'⟩ := h.block hx
  refine ⟨x', hx', ?_⟩
  rw [hp']
  refine hp.mono ?_
  rintro v t ⟨y, hy, rfl⟩
  obtain ⟨y', hy', hs⟩ := h.localVal hy
  exact ⟨y', hy', shape_ty hs⟩

theorem bbParamsTy_run {f : Func} {b : BB} {ts : List Ty} {s : BS} (h : LocalTys s.prog f b ts) :
    Done (bbParamsTy f b) s ts s := by
  unfold bbParamsTy
  refine .seq_get (.of_lift ?_)
  obtain ⟨x, ⟨fd, hf, hx⟩, hp⟩ := h
  unfold Program.bbParamsTy Program.bbParams
  simp only [hf, hx, Option.map_some]
  generalize x.params = ps at hp
  induction hp with
  | nil => rfl
  | cons h _ ih =>
    obtain ⟨y, ⟨fd', hf', hy⟩, rfl⟩ := h
    rw [hf] at hf'; cases hf'
    rw [Program.valueTys]
    simp only [hf, hy, ih]

/-- The tables contain what the environment promises. -/
structure Knows (E : TyEnv) (f : Func) (n : Str) (s : BS) : Prop where
  inv : FInv s.prog
  head : (s.prog.view.head f).isSome
  sym : ∀ sy t, E.sym sy t → ∃ v, Looks s n sy v ∧ HasTy s.prog f v t
  bb : ∀ l ts, E.bb l ts → ∃ i, s.localBbs.get? l = some i ∧ LocalTys s.prog f i.bb ts
  inj : ∀ l l' i i', s.localBbs.get? l = some i → s.localBbs.get? l' = some i' → i.bb = i'.bb → l = l'
  fn : ∀ g ts r, E.fn g ts r → ∃ h, s.globalFuncs.get? g = some h ∧ FuncTy s.prog h (.func ts r)

theorem Knows.to {E : TyEnv} {f : Func} {n : Str} {s s' : BS} (h : Knows E f n s) (g : GenTo s s') : Knows E f n s' where
  inv := g.inv
  head := by rw [g.head]; exact h.head
  sym sy t ht := by
    obtain ⟨v, h1, h2⟩ := h.sym sy t ht
    exact ⟨v, by unfold Looks; rw [g.gv, g.bbs]; exact h1, g.ext.ext.hasTy h2⟩
  bb l ts hl := by
    obtain ⟨i, h1, h2⟩ := h.bb l ts hl
    exact ⟨i, by rw [g.bbs]; exact h1, g.ext.ext.localTys h2⟩
  inj := by rw [g.bbs]; exact h.inj
  fn a ts r ha := by
    obtain ⟨i, h1, h2⟩ := h.fn a ts r ha
    exact ⟨i, by rw [g.gf]; exact h1, g.ext.ext.funcTy h2⟩

theorem genValue_run {E : TyEnv} {f : Func} {n : Str} {s : BS} {a : ValAst} {t : Ty} (hK : Knows E f n s)
    (h : OperandOk E a t) : ∃ v s', Done (genValue f n t a) s v s' ∧ GenTo s s' ∧ HasTy s'.prog f v t := by
  have hd : ∃ v s', Done (genValue f n t a) s v s' ∧ HasTy s'.prog f v t := by
    cases h with
    | sym h =>
      obtain ⟨v, h1, h2⟩ := hK.sym _ _ h
      refine ⟨v, s, ?_, h2⟩
      unfold genValue
      refine h1.run.seq ((valueTy_run hK.inv h2).seq ?_)
      rw [if_pos rfl]
      exact .done _ _
    | const h =>
      obtain ⟨v, s', h1, -, ⟨n', k, h3, -⟩, -⟩ := genInit_run (localMakeCtx f) a (k := 0) (s := s) h ⟨hK.inv, hK.head⟩
      refine ⟨v, s', ?_, view_hasTy h3⟩
      cases h <;> exact h1
  obtain ⟨v, s', h1, h2⟩ := hd
  exact ⟨v, s', h1, (h1.genValue (r := .unit) hK.inv).1, h2⟩

theorem genArgs_run {E : TyEnv} {f : Func} {n : Str} {as : List ValAst} {ts : List Ty} (h : All2 (OperandOk E) as ts) :
    ∀ {s : BS}, Knows E f n s → ∃ vs s', Done (genArgs f n as ts) s vs s' ∧ GenTo s s' ∧ All2 (HasTy s'.prog f) vs ts := by
  induction h with
  | nil => intro s hK; exact ⟨[], s, .done _ _, .refl hK.inv, .nil⟩
  | cons h _ ih =>
    intro s hK
    obtain ⟨v, s1, h1, g1, t1⟩ := genValue_run hK h
    obtain ⟨vs, s2, h2, g2, t2⟩ := ih (hK.to g1)
    exact ⟨v :: vs, s2, h1.seq (h2.seq (.done _ _)), g1.trans g2, .cons (g2.ext.ext.hasTy t1) t2⟩

/-! ### Instructions -/

theorem genCall_run {E : TyEnv} {f : Func} {n g : Str} {s : BS} {as : List ValAst} {t : Ty} (hK : Knows E f n s)
    (h : ExprOk E (.call g as) t) : ∃ v s', Done (genCall f n g as) s v s' ∧ HasTy s'.prog f v t := by
  cases h with
  | call h1 h2 =>
    obtain ⟨c, hc, fd, hf, hty⟩ := hK.fn _ _ _ h1
    obtain ⟨vs, s1, r1, g1, t1⟩ := genArgs_run h2 hK
    obtain ⟨v, s2, r2, t2⟩ := makeInst (k := .call c vs) (i := .call c vs) g1.inv (by rw [g1.head]; exact hK.head)
      (.call (g1.ext.ext.funcTy ⟨fd, hf, hty⟩) t1) rfl
    refine ⟨v, s2, ?_, t2⟩
    unfold genCall
    refine .seq_get ?_
    simp only [hc]
    refine .seq_lift hf ?_
    simp only [hty]
    exact r1.seq r2

theorem genInst_run {E : TyEnv} {f : Func} {n : Str} {s : BS} {e : ExprAst} {t : Ty} (hK : Knows E f n s)
    (h : ExprOk E e t) : ∃ v s', Done (genInst f n e) s v s' ∧ HasTy s'.prog f v t := by
  cases h with
  | alloc h =>
    obtain ⟨v, s', h1, h2⟩ := makeInst (k := .alloc) (i := .alloc _) hK.inv hK.head (.alloc (TyIs_not_unit h)) rfl
    exact ⟨v, s', .seq_lift (genType_complete h) h1, h2⟩
  | load h =>
    obtain ⟨a, l1, t1⟩ := hK.sym _ _ h
    obtain ⟨v, s', h1, h2⟩ := makeInst (k := .load a) (i := .load a) hK.inv hK.head (.load t1) rfl
    exact ⟨v, s', l1.run.seq ((valueTy_run hK.inv t1).seq h1), h2⟩
  | getPtr h h' =>
    obtain ⟨a, l1, t1⟩ := hK.sym _ _ h
    obtain ⟨i, s1, r1, g1, t2⟩ := genValue_run hK h'
    obtain ⟨v, s', h1, h2⟩ := makeInst (k := .getPtr a i) (i := .getPtr a i) g1.inv (by rw [g1.head]; exact hK.head)
      (.getPtr (g1.ext.ext.hasTy t1) t2) rfl
    exact ⟨v, s', l1.run.seq ((valueTy_run hK.inv t1).seq (r1.seq h1)), h2⟩
  | getElemPtr h h' =>
    obtain ⟨a, l1, t1⟩ := hK.sym _ _ h
    obtain ⟨i, s1, r1, g1, t2⟩ := genValue_run hK h'
    obtain ⟨v, s', h1, h2⟩ := makeInst (k := .getElemPtr a i) (i := .getElemPtr a i) g1.inv (by rw [g1.head]; exact hK.head)
      (.getElemPtr (g1.ext.ext.hasTy t1) t2) rfl
    exact ⟨v, s', l1.run.seq ((valueTy_run hK.inv t1).seq (r1.seq h1)), h2⟩
  | binary h h' =>
    obtain ⟨a, s1, r1, g1, t1⟩ := genValue_run hK h
    obtain ⟨b, s2, r2, g2, t2⟩ := genValue_run (hK.to g1) h'
    obtain ⟨v, s', h1, h2⟩ := makeInst (k := .binary _ a b) (i := .binary _ a b) g2.inv
      (by rw [g2.head, g1.head]; exact hK.head) (.binary (g2.ext.ext.hasTy t1) t2) rfl
    exact ⟨v, s', r1.seq (r2.seq h1), h2⟩
  | call h h' => exact genCall_run hK (.call h h')

/-! ### Statements -/

theorem genBb_run {n : Str} {s : BS} {i : BbInfo} (h : s.localBbs.get? n = some i) : Done (genBb n) s i.bb s := by
  unfold genBb
  refine .seq_get ?_
  simp only [h]
  exact .done _ _

theorem nameOk_valid {n : Str} (h : nameOk n) : validName n = true := by
  match n, h with
  | c :: d :: r, h =>
    rcases h with rfl | rfl <;> rfl

theorem nameOk_opt {n : Str} (h : nameOk n) : validOptName (tempName n) = true := by
  unfold tempName
  split
  · rfl
  · exact nameOk_valid h

theorem recordDef_run {n d : Str} {v : Value} {s : BS} {i : BbInfo} (h : s.localBbs.get? n = some i) :
    Done (recordDef n d v) s () { s with localBbs := s.localBbs.insert n { i with localDefs := i.localDefs.insert d v } } := by
  unfold recordDef
  refine .seq_get ?_
  simp only [h]
  exact .of_modify rfl

theorem genDef_run {E : TyEnv} {f : Func} {n d : Str} {s : BS} {e : ExprAst} {t : Ty} {i : BbInfo} (hK : Knows E f n s)
    (h : ExprOk E e t) (hu : t ≠ .unit) (hg : s.globalVars.get? d = none) (hl : d ∉ s.localSyms) (hn : nameOk d)
    (hi : s.localBbs.get? n = some i) : ∃ v s', Done (genDef f n d e) s v s' ∧ HasTy s'.prog f v t := by
  have h0 : Done (defineSym d) s () { s with localSyms := d :: s.localSyms } := by
    unfold defineSym
    refine .seq_get ?_
    rw [if_neg (by simp [Map.contains, hg]), if_neg hl]
    exact .of_modify rfl
  obtain ⟨v, s1, h1, t1⟩ := genInst_run (s := { s with localSyms := d :: s.localSyms }) (E := E) (n := n)
    ⟨hK.inv, hK.head, hK.sym, hK.bb, hK.inj, hK.fn⟩ h
  obtain ⟨g1, -, -, t0, k, hv, -⟩ := h1.genInst (r := .unit) (s := { s with localSyms := d :: s.localSyms }) hK.inv
  have e0 : t0 = t := by
    have h1 := hasTy_querier g1.inv t1
    have h2 := hasTy_querier g1.inv (view_hasTy hv)
    rw [h1] at h2; cases h2; rfl
  subst e0
  have h2 : ∃ s2, Done (nameLocal f v d) s1 () s2 ∧ s2.localBbs = s1.localBbs ∧ HasTy s2.prog f v t0 := by
    unfold nameLocal
    split
    · exact ⟨s1, .done _ _, rfl, t1⟩
    · obtain ⟨p, hp, -, hvw⟩ := setLocalName_run g1.inv hv (n := some d) (nameOk_valid hn)
      refine ⟨_, .of_api' hp, rfl, ?_⟩
      refine view_hasTy (n := some d) (k := k) ?_
      show p.view.l f v = _
      rw [hvw]; simp
  obtain ⟨s2, h2, e2, t2⟩ := h2
  have h3 := recordDef_run (d := d) (v := v) (s := s2) (by rw [e2, show s1.localBbs = s.localBbs from g1.bbs, hi])
  refine ⟨v, { s2 with localBbs := s2.localBbs.insert n { i with localDefs := i.localDefs.insert d v } }, ?_, t2⟩
  unfold genDef
  refine h0.seq (h1.seq ((valueTy_run g1.inv t1).seq ?_))
  rw [if_neg (by rw [isUnit_iff]; exact hu)]
  exact h2.seq (h3.seq (.done v _))

/-- A well-typed statement is generated; a definition has the type `T` says. -/
theorem genStmt_run {E : TyEnv} {T : Str → Ty} {f : Func} {n : Str} {s : BS} {st : StmtAst} {i : BbInfo} (hK : Knows E f n s)
    (h : StmtOk E T st) (hi : s.localBbs.get? n = some i)
    (hd : ∀ d e, st = .def d e → s.globalVars.get? d = none ∧ d ∉ s.localSyms ∧ nameOk d) :
    ∃ v s', Done (genStmt f n E.ret st) s v s' ∧ ∀ d e, st = .def d e → HasTy s'.prog f v (T d) := by
  cases h with
  | «def» h hu =>
    obtain ⟨h1, h2, h3⟩ := hd _ _ rfl
    obtain ⟨v, s', h4, h5⟩ := genDef_run hK h hu h1 h2 h3 hi
    exact ⟨v, s', h4, by rintro d e ⟨⟩; exact h5⟩
  | store h h' =>
    obtain ⟨a, l1, t1⟩ := hK.sym _ _ h'
    obtain ⟨b, s1, r1, g1, t2⟩ := genValue_run hK h
    obtain ⟨v, s', h1, h2⟩ := makeInst (k := .store b a) (i := .store b a) g1.inv (by rw [g1.head]; exact hK.head)
      (.store t2 (g1.ext.ext.hasTy t1)) rfl
    exact ⟨v, s', l1.run.seq ((valueTy_run hK.inv t1).seq (r1.seq h1)), by simp⟩
  | call h =>
    obtain ⟨v, s', h1, h2⟩ := genCall_run hK h
    exact ⟨v, s', h1, by simp⟩
  | branch h1 h2 h3 h4 h5 h6 =>
    obtain ⟨c, s1, r1, g1, t1⟩ := genValue_run hK h1
    obtain ⟨bt, b1, l1⟩ := (hK.to g1).bb _ _ h2
    obtain ⟨ta, s2, r2, g2, t2⟩ := genArgs_run h3 (hK.to g1)
    obtain ⟨bf, b2, l2⟩ := (hK.to (g1.trans g2)).bb _ _ h4
    obtain ⟨fa, s3, r3, g3, t3⟩ := genArgs_run h5 (hK.to (g1.trans g2))
    have hinj : bt.bb = bf.bb → ta = [] ∧ fa = [] := by
      intro he
      rw [g2.bbs] at b2
      obtain ⟨rfl, rfl⟩ := h6 ((hK.to g1).inj _ _ _ _ b1 b2 he)
      cases h3; cases h5; cases t2; cases t3
      exact ⟨rfl, rfl⟩
    obtain ⟨v, s', h7, h8⟩ := makeInst (k := .branch c bt.bb bf.bb ta fa) (i := .branchWithArgs c bt.bb bf.bb ta fa) g3.inv
      (by rw [g3.head, g2.head, g1.head]; exact hK.head)
      (.branch ((g2.trans g3).ext.ext.hasTy t1) ((g2.trans g3).ext.ext.localTys l1).paramTys (g3.ext.ext.localTys l2).paramTys
        (t2.mono (fun _ _ h => g3.ext.ext.hasTy h)) t3 hinj) rfl
    refine ⟨v, s', ?_, by simp⟩
    refine r1.seq ((genBb_run b1).seq ((bbParamsTy_run l1).seq (r2.seq ((genBb_run b2).seq ((bbParamsTy_run l2).seq (r3.seq ?_))))))
    rw [if_neg]
    · exact h7
    · rintro ⟨he, h | h⟩
      · exact h (hinj he).1
      · exact h (hinj he).2
  | jump h1 h2 =>
    obtain ⟨bt, b1, l1⟩ := hK.bb _ _ h1
    obtain ⟨ta, s2, r2, g2, t2⟩ := genArgs_run h2 hK
    obtain ⟨v, s', h7, h8⟩ := makeInst (k := .jump bt.bb ta) (i := .jumpWithArgs bt.bb ta) g2.inv
      (by rw [g2.head]; exact hK.head) (.jump (g2.ext.ext.localTys l1).paramTys t2) rfl
    exact ⟨v, s', (genBb_run b1).seq ((bbParamsTy_run l1).seq (r2.seq h7)), by simp⟩
  | retNone h =>
    obtain ⟨v, s', h7, h8⟩ := makeInst (k := .ret none) (i := .ret none) hK.inv hK.head .retNone rfl
    refine ⟨v, s', ?_, by simp⟩
    rw [h]
    exact h7
  | ret hu h =>
    obtain ⟨a, s1, r1, g1, t2⟩ := genValue_run hK h
    obtain ⟨v, s', h7, h8⟩ := makeInst (k := .ret (some a)) (i := .ret (some a)) g1.inv (by rw [g1.head]; exact hK.head)
      (.ret hu t2) rfl
    refine ⟨v, s', ?_, by simp⟩
    have hf : E.ret.isUnit = false := by
      cases hr : E.ret <;> simp_all [Ty.isUnit]
    show Done (genReturn f n E.ret _) _ _ _
    unfold genReturn
    rw [if_neg (by simp), if_neg (by simp [hf])]
    exact r1.seq h7

end Koopa
