import Verif.Spec.Harmless
import Verif.Lemmas.Front.RunsProg
/-!
Items that do not make the generator panic: statements.
-/
namespace Koopa
open Spec

/-! ### Types -/

/-- Types that do not contain unit where a value is meant. -/
inductive Proper : Ty → Prop where
  | i32 : Proper .i32
  | array {t : Ty} {n : Nat} : Proper t → Proper (.array t n)
  | ptr {t : Ty} : Proper t → Proper (.ptr t)
  | func {ts : List Ty} {r : Ty} : Proper (.func ts r)

theorem Proper.notUnit {t : Ty} (h : Proper t) : t ≠ .unit := by cases h <;> simp

theorem proper_of_tyIs : ∀ {a : TyAst} {t : Ty}, TyIs a t → Proper t
  | _, _, .int => .i32
  | _, _, .array h _ => .array (proper_of_tyIs h)
  | _, _, .pointer h => .ptr (proper_of_tyIs h)
  | _, _, .func _ _ => .func

/-- The type of a value. -/
def OkTy (t : Ty) : Prop := t = .unit ∨ Proper t

theorem OkTy.ptr {t : Ty} (h : OkTy (.ptr t)) : Proper t := by
  rcases h with h | h
  · cases h
  · cases h with | ptr h => exact h

theorem OkTy.elem {t : Ty} {n : Nat} (h : Proper (.array t n)) : Proper t := by cases h with | array h => exact h

/-! ### Growing programs -/

/-- The program grows; names may change. -/
structure Larger (p p' : Program) : Prop where
  l : ∀ f v t n k, p.view.l f v = some (t, n, k) → ∃ n', p'.view.l f v = some (t, n', k)
  g : ∀ v t n k, p.view.g v = some (t, n, k) → ∃ n', p'.view.g v = some (t, n', k)
  b : ∀ f b x, p.view.b f b = some x → p'.view.b f b = some x
  head : ∀ f x, p.view.head f = some x → p'.view.head f = some x
  lay : ∀ f l, p.view.lay f = some l → ∃ l', p'.view.lay f = some l' ∧ ∀ b ∈ l.bbs.map (·.1), b ∈ l'.bbs.map (·.1)

theorem Larger.refl (p : Program) : Larger p p :=
  ⟨fun _ _ _ n _ h => ⟨n, h⟩, fun _ _ n _ h => ⟨n, h⟩, fun _ _ _ h => h, fun _ _ h => h, fun _ l h => ⟨l, h, fun _ h => h⟩⟩

theorem Larger.trans {p q r : Program} (h : Larger p q) (h' : Larger q r) : Larger p r where
  l f v t n k hv := by obtain ⟨n', h1⟩ := h.l f v t n k hv; exact h'.l f v t n' k h1
  g v t n k hv := by obtain ⟨n', h1⟩ := h.g v t n k hv; exact h'.g v t n' k h1
  b f b x hx := h'.b f b x (h.b f b x hx)
  head f x hx := h'.head f x (h.head f x hx)
  lay f l hl := by
    obtain ⟨l1, h1, h2⟩ := h.lay f l hl
    obtain ⟨l2, h3, h4⟩ := h'.lay f l1 h1
    exact ⟨l2, h3, fun b hb => h4 b (h2 b hb)⟩

theorem grow_of_ext {p p' : Program} (h : Ext p p')
    (hl : ∀ f l, p.view.lay f = some l → ∃ l', p'.view.lay f = some l' ∧ ∀ b ∈ l.bbs.map (·.1), b ∈ l'.bbs.map (·.1)) : Larger p p' :=
  ⟨fun f v t n k hv => ⟨n, h.l f v _ hv⟩, fun v t n k hv => ⟨n, h.g v _ hv⟩, h.b, h.head, hl⟩

theorem Larger.hasTy {p p' : Program} (h : Larger p p') {f : Func} {v : Value} {t : Ty} (hv : HasTy p f v t) : HasTy p' f v t := by
  obtain ⟨n, k, hv | hv⟩ := hasTy_view hv
  · obtain ⟨n', h1⟩ := h.g v t n k hv
    obtain ⟨x, hx, hs⟩ := view_g_iff.1 h1
    exact ⟨x, .inl hx, congrArg (·.1) hs⟩
  · obtain ⟨n', h1⟩ := h.l f v t n k hv
    exact view_hasTy h1

/-- The block has parameters of these types. -/
def BlockTys (p : Program) (f : Func) (b : BB) (ts : List Ty) : Prop :=
  ∃ nm ps, p.view.b f b = some (nm, ps) ∧ All2 (fun v t => ∃ n k, p.view.l f v = some (t, n, k)) ps ts

theorem Larger.blockTys {p p' : Program} (h : Larger p p') {f : Func} {b : BB} {ts : List Ty} (hb : BlockTys p f b ts) :
    BlockTys p' f b ts := by
  obtain ⟨nm, ps, h1, h2⟩ := hb
  refine ⟨nm, ps, h.b _ _ _ h1, h2.mono ?_⟩
  rintro v t ⟨n, k, hv⟩
  obtain ⟨n', h3⟩ := h.l f v t n k hv
  exact ⟨n', k, h3⟩

theorem BlockTys.localTys {p : Program} {f : Func} {b : BB} {ts : List Ty} (h : BlockTys p f b ts) : LocalTys p f b ts := by
  obtain ⟨nm, ps, h1, h2⟩ := h
  obtain ⟨x, hx, -, rfl⟩ := view_b_iff.1 h1
  refine ⟨x, hx, h2.mono ?_⟩
  rintro v t ⟨n, k, hv⟩
  obtain ⟨y, hy, hs⟩ := view_l_iff.1 hv
  exact ⟨y, hy, congrArg (·.1) hs⟩

/-! ### Invariants -/

/-- What holds between items of the text `gs`. -/
structure Fit (gs : List GlobalAst) (s : BS) : Prop where
  inv : FInv s.prog
  lty : ∀ f v sg, s.prog.view.l f v = some sg → OkTy sg.1
  gty : ∀ v sg, s.prog.view.g v = some sg → OkTy sg.1
  vars : ∀ n v, s.globalVars.get? n = some v → (s.prog.view.g v).isSome
  fns : ∀ n h, s.globalFuncs.get? n = some h → ∃ ts r nm ps, s.prog.view.head h = some (.func ts r, nm, ps) ∧
    (∀ t ∈ ts, Proper t) ∧ OkTy r ∧ ∃ g ∈ gs, arity g = some (n, ts.length)

/-- What holds for the table entry of the block named `n`. -/
structure InfoFit (f : Func) (bbs : List BlockAst) (s : BS) (n : Str) (i : BbInfo) : Prop where
  block : ∃ b ∈ bbs, b.name = n ∧ ∃ ts, BlockTys s.prog f i.bb ts ∧ ts.length = b.params.length ∧ ∀ t ∈ ts, Proper t
  laid : ∃ l, s.prog.view.lay f = some l ∧ i.bb ∈ l.bbs.map (·.1)
  preds : ∀ q ∈ i.preds, (s.localBbs.get? q).isSome
  defs : ∀ sy v, i.localDefs.get? sy = some v → (s.prog.view.l f v).isSome

/-- What holds in the body of function `f` with blocks `bbs`. -/
structure InBody (gs : List GlobalAst) (f : Func) (bbs : List BlockAst) (s : BS) : Prop extends Fit gs s where
  lay : (s.prog.view.lay f).isSome
  table : ∀ n i, s.localBbs.get? n = some i → InfoFit f bbs s n i

theorem InBody.head {gs : List GlobalAst} {f : Func} {bbs : List BlockAst} {s : BS} (h : InBody gs f bbs s) :
    (s.prog.view.head f).isSome := by
  obtain ⟨l, hl⟩ := Option.isSome_iff_exists.1 h.lay
  obtain ⟨q, hq⟩ := lay_head hl
  rw [hq]; rfl

theorem Fit.hasTy {gs : List GlobalAst} {s : BS} (h : Fit gs s) {f : Func} {v : Value} {t : Ty} (hv : HasTy s.prog f v t) : OkTy t := by
  obtain ⟨n, k, hv | hv⟩ := hasTy_view hv
  · exact h.gty _ _ hv
  · exact h.lty _ _ _ hv

/-- The state changes within the body. -/
structure To (gs : List GlobalAst) (f : Func) (bbs : List BlockAst) (s s' : BS) : Prop where
  body : InBody gs f bbs s'
  grow : Larger s.prog s'.prog
  glob : s'.prog.ids.nextGlobal = s.prog.ids.nextGlobal
  keys : ∀ n, (s.localBbs.get? n).isSome → (s'.localBbs.get? n).isSome

section
variable {gs : List GlobalAst} {f : Func} {bbs : List BlockAst}

theorem To.refl {s : BS} (h : InBody gs f bbs s) : To gs f bbs s s := ⟨h, .refl _, rfl, fun _ h => h⟩

theorem To.trans {a b c : BS} (h : To gs f bbs a b) (h' : To gs f bbs b c) : To gs f bbs a c :=
  ⟨h'.body, h.grow.trans h'.grow, h'.glob.trans h.glob, fun n hn => h'.keys n (h.keys n hn)⟩

theorem InfoFit.grow {s s' : BS} {n : Str} {i : BbInfo} (h : InfoFit f bbs s n i) (hg : Larger s.prog s'.prog)
    (hk : ∀ n, (s.localBbs.get? n).isSome → (s'.localBbs.get? n).isSome) : InfoFit f bbs s' n i where
  block := by
    obtain ⟨b, hb, hn, ts, h1, h2⟩ := h.block
    exact ⟨b, hb, hn, ts, hg.blockTys h1, h2⟩
  laid := by
    obtain ⟨l, hl, hm⟩ := h.laid
    obtain ⟨l', hl', hm'⟩ := hg.lay f l hl
    exact ⟨l', hl', hm' _ hm⟩
  preds q hq := hk q (h.preds q hq)
  defs sy v hv := by
    obtain ⟨⟨t, n, k⟩, h1⟩ := Option.isSome_iff_exists.1 (h.defs sy v hv)
    obtain ⟨n', h2⟩ := hg.l f v t n k h1
    rw [h2]; rfl

theorem Fit.grow {s s' : BS} (h : Fit gs s) (hi : FInv s'.prog) (hg : Larger s.prog s'.prog)
    (hl : ∀ f v sg, s'.prog.view.l f v = some sg → OkTy sg.1) (hgt : ∀ v sg, s'.prog.view.g v = some sg → OkTy sg.1)
    (hv : s'.globalVars = s.globalVars) (hf : s'.globalFuncs = s.globalFuncs) : Fit gs s' where
  inv := hi
  lty := hl
  gty := hgt
  vars n v h1 := by
    rw [hv] at h1
    obtain ⟨⟨t, nm, k⟩, h2⟩ := Option.isSome_iff_exists.1 (h.vars n v h1)
    obtain ⟨n', h3⟩ := hg.g v t nm k h2
    rw [h3]; rfl
  fns n c h1 := by
    rw [hf] at h1
    obtain ⟨ts, r, nm, ps, h2, h3⟩ := h.fns n c h1
    exact ⟨ts, r, nm, ps, hg.head _ _ h2, h3⟩

/-- The program grows and the tables stay. -/
theorem InBody.grow {s s' : BS} (h : InBody gs f bbs s) (hi : FInv s'.prog) (hg : Larger s.prog s'.prog)
    (hl : ∀ f v sg, s'.prog.view.l f v = some sg → OkTy sg.1) (hgt : s'.prog.view.g = s.prog.view.g)
    (hv : s'.globalVars = s.globalVars) (hf : s'.globalFuncs = s.globalFuncs) (hb : s'.localBbs = s.localBbs) : InBody gs f bbs s' where
  toFit := h.toFit.grow hi hg hl (by rw [hgt]; exact h.gty) hv hf
  lay := by
    obtain ⟨l, hl⟩ := Option.isSome_iff_exists.1 h.lay
    obtain ⟨l', hl', -⟩ := hg.lay f l hl
    rw [hl']; rfl
  table n i hi := by
    rw [hb] at hi
    exact (h.table n i hi).grow hg (fun n hn => by rw [hb]; exact hn)

/-! ### Running -/

/-- `m` returns, with a value or with an error. A value satisfies `Q`. -/
def Rets {α : Type} (gs : List GlobalAst) (f : Func) (bbs : List BlockAst) (m : B α) (s : BS) (Q : α → BS → Prop) : Prop :=
  ∃ r s', m s = some (r, s') ∧ To gs f bbs s s' ∧ ∀ a, r = .ok a → Q a s'

theorem Rets.bind {α β : Type} {m : B α} {k : α → B β} {s : BS} {Q : α → BS → Prop} {Q' : β → BS → Prop}
    (h : Rets gs f bbs m s Q) (hk : ∀ a s', To gs f bbs s s' → Q a s' → Rets gs f bbs (k a) s' Q') :
    Rets gs f bbs (m >>= k) s Q' := by
  obtain ⟨r, s1, h1, h2, h3⟩ := h
  cases r with
  | error e => exact ⟨.error e, s1, by rw [B.bind_eq, h1], h2, by simp⟩
  | ok a =>
    obtain ⟨r, s2, h4, h5, h6⟩ := hk a s1 h2 (h3 a rfl)
    exact ⟨r, s2, by rw [B.bind_eq, h1]; exact h4, h2.trans h5, h6⟩

theorem Rets.pure {α : Type} {a : α} {s : BS} {Q : α → BS → Prop} (h : InBody gs f bbs s) (hq : Q a s) :
    Rets gs f bbs (Pure.pure a) s Q := ⟨.ok a, s, rfl, .refl h, by rintro b ⟨⟩; exact hq⟩

theorem InBody.count {s : BS} (h : InBody gs f bbs s) (e w : Nat) (ls : List Str) :
    InBody gs f bbs { s with errs := e, warns := w, localSyms := ls } where
  toFit := ⟨h.inv, h.lty, h.gty, h.vars, h.fns⟩
  lay := h.lay
  table n i hi := (h.table n i hi).grow (.refl _) (fun _ h => h)

theorem To.count {s : BS} (h : InBody gs f bbs s) (e w : Nat) (ls : List Str) :
    To gs f bbs s { s with errs := e, warns := w, localSyms := ls } := ⟨h.count e w ls, .refl _, rfl, fun _ h => h⟩

theorem Rets.fail {α : Type} {s : BS} {Q : α → BS → Prop} (h : InBody gs f bbs s) : Rets gs f bbs B.fail s Q :=
  ⟨.error (), _, rfl, .count h _ _ _, by simp⟩

theorem Rets.throw {α : Type} {s : BS} {Q : α → BS → Prop} (h : InBody gs f bbs s) : Rets gs f bbs B.throw s Q :=
  ⟨.error (), _, rfl, .refl h, by simp⟩

theorem Rets.logError {s : BS} {Q : Unit → BS → Prop} (h : InBody gs f bbs s)
    (hq : Q () { s with errs := s.errs + 1 }) : Rets gs f bbs B.logError s Q :=
  ⟨.ok (), _, rfl, .count h _ _ _, by rintro _ ⟨⟩; exact hq⟩

/-- A step known to succeed. -/
theorem Rets.done {α : Type} {m : B α} {s s' : BS} {a : α} {Q : α → BS → Prop} (h : Done m s a s') (ht : To gs f bbs s s')
    (hq : Q a s') : Rets gs f bbs m s Q := ⟨.ok a, s', h.run, ht, by rintro _ ⟨⟩; exact hq⟩

theorem Rets.get {β : Type} {k : BS → B β} {s : BS} {Q : β → BS → Prop} (h : Rets gs f bbs (k s) s Q) :
    Rets gs f bbs (B.get >>= k) s Q := h

theorem Rets.lift {α β : Type} {o : Option α} {k : α → B β} {s : BS} {a : α} {Q : β → BS → Prop} (ho : o = some a)
    (h : Rets gs f bbs (k a) s Q) : Rets gs f bbs (B.lift o >>= k) s Q := by
  subst ho; exact h

theorem Rets.mono {α : Type} {m : B α} {s : BS} {Q Q' : α → BS → Prop} (h : Rets gs f bbs m s Q)
    (hq : ∀ a s', Q a s' → Q' a s') : Rets gs f bbs m s Q' := by
  obtain ⟨r, s1, h1, h2, h3⟩ := h
  exact ⟨r, s1, h1, h2, fun a ha => hq a s1 (h3 a ha)⟩

/-! ### Values -/

/-- The value is a new one of the function that is in no block yet. -/
def Loose (f : Func) (v : Value) (s : BS) : Prop :=
  (s.prog.view.l f v).isSome ∧ ∀ l, s.prog.view.lay f = some l → ∀ b is, (b, is) ∈ l.bbs → v ∉ is

/-- A well-typed instruction is made. -/
theorem makeRets {k : VKind} {t : Ty} {i : LocalInst} {s : BS} (h : InBody gs f bbs s)
    (hk : InstTy (HasTy s.prog f) (ParamTys s.prog f) (FuncTy s.prog) k t) (ht : OkTy t)
    (hl : Raw.localInst t k = some i) (ha : ∀ es, k ≠ .aggregate es := by simp) :
    Rets gs f bbs (B.api (·.newLocal f i)) s (fun v s' => Loose f v s' ∧ HasTy s'.prog f v t) := by
  obtain ⟨hr, hb⟩ := Raw.localInst_build (q := viewQuerier s.prog.view f) (fun v t hv => hasTy_querier h.inv hv) (by
      rintro b ts ⟨x, hx, hps⟩
      exact ⟨x.params, by simp [viewQuerier, view_b_iff.2 ⟨x, hx, rfl, rfl⟩], hps⟩) (by
      rintro g t ⟨fd, hf, rfl⟩
      simp [viewQuerier, view_head_iff.2 ⟨fd, hf, rfl, rfl, rfl⟩]) hk (fun es he => absurd he (ha es)) hl
  obtain ⟨p', hp, h1, h2, h3⟩ := newLocal_run h.inv h.head hr hb
  have hlay : p'.view.lay = s.prog.view.lay := by rw [h3]
  have hv : p'.view.l f s.prog.ids.nextLocal = some (t, none, k) := by rw [h3]; simp [VData.shape, VData.new]
  refine .done (.of_api hp) ⟨?_, ?_, ?_, fun _ h => h⟩ ⟨⟨?_, ?_⟩, view_hasTy hv⟩
  · refine h.grow h1 (grow_of_ext h2.ext ?_) ?_ (by show p'.view.g = _; rw [h3]) rfl rfl rfl
    · intro f' l hl'; exact ⟨l, by show p'.view.lay f' = _; rw [hlay]; exact hl', fun _ h => h⟩
    · intro f' w sg hw
      have hw' : p'.view.l f' w = some sg := hw
      rw [h3] at hw'
      simp only at hw'
      split at hw'
      · cases hw'; exact ht
      · exact h.lty _ _ _ hw'
  · exact grow_of_ext h2.ext (fun f' l hl' => ⟨l, by show p'.view.lay f' = _; rw [hlay]; exact hl', fun _ h => h⟩)
  · exact congrArg (fun v => v.ids.nextGlobal) h3
  · show (p'.view.l f _).isSome; rw [hv]; rfl
  · intro l hl' b is hb hm
    have hl'' : p'.view.lay f = some l := hl'
    rw [hlay] at hl''
    obtain ⟨sg, hsg⟩ := Option.isSome_iff_exists.1 (((h.inv.lays f l hl'').2 b is hb).2 _ hm)
    have := (h.inv.lRange hsg).2
    omega

theorem symRets {n sy : Str} {s : BS} (h : InBody gs f bbs s) (hn : (s.localBbs.get? n).isSome) :
    Rets gs f bbs (genSymbol n sy) s (fun v s' => ∃ t, HasTy s'.prog f v t) := by
  unfold genSymbol
  refine .get ?_
  cases hg : s.globalVars.get? sy with
  | some v =>
    refine .pure h ?_
    obtain ⟨⟨t, nm, k⟩, h1⟩ := Option.isSome_iff_exists.1 (h.vars sy v hg)
    obtain ⟨x, hx, hs⟩ := view_g_iff.1 h1
    exact ⟨t, x, .inl hx, congrArg (·.1) hs⟩
  | none =>
    have hP : PredsIn s.localBbs := fun n i hi => (h.table n i hi).preds
    obtain ⟨r, vis, h1, -⟩ := findLocal_finds (sym := sy) hP hn
    refine .lift h1 ?_
    cases r with
    | none => exact .fail h
    | some v =>
      refine .pure h ?_
      obtain ⟨m, i, -, hi, hd⟩ := findLocal_sound h1
      obtain ⟨⟨t, nm, k⟩, h2⟩ := Option.isSome_iff_exists.1 ((h.table m i hi).defs sy v hd)
      exact ⟨t, view_hasTy h2⟩

theorem valRets {n : Str} {s : BS} {a : ValAst} {t : Ty} (h : InBody gs f bbs s) (hn : (s.localBbs.get? n).isSome)
    (ha : PlainVal a) (ht : Proper t) : Rets gs f bbs (genValue f n t a) s (fun v s' => HasTy s'.prog f v t) := by
  cases a with
  | agg es => exact ha.elim
  | sym sy =>
    rw [genValue]
    refine (symRets h hn).bind ?_
    rintro v s1 h1 ⟨t', hv⟩
    refine .bind (.done (valueTy_run h1.body.inv hv) (.refl h1.body) (Q := fun a s' => a = t' ∧ s' = s1) ⟨rfl, rfl⟩) ?_
    rintro _ _ h2 ⟨rfl, rfl⟩
    split
    · rename_i he; subst he; exact .pure h2.body hv
    · exact .fail h2.body
  | int i =>
    rw [genValue, genInit]
    · split
      · rename_i he
        have : t = .i32 := by cases t <;> simp_all [Ty.isI32]
        subst this
        exact (makeRets h (.integer i) (.inr .i32) rfl).mono (fun _ _ h => h.2)
      · exact .fail h
    · simp
  | undef =>
    rw [genValue, genInit]
    · exact (makeRets h (.undef ht.notUnit) (.inr ht) rfl).mono (fun _ _ h => h.2)
    · simp
  | zero =>
    rw [genValue, genInit]
    · exact (makeRets h (.zeroInit ht.notUnit) (.inr ht) rfl).mono (fun _ _ h => h.2)
    · simp

theorem argRets {n : Str} : ∀ {as : List ValAst} {ts : List Ty} {s : BS}, InBody gs f bbs s → (s.localBbs.get? n).isSome →
    (∀ a ∈ as, PlainVal a) → (∀ t ∈ ts, Proper t) → ts.length ≤ as.length →
    Rets gs f bbs (genArgs f n as ts) s (fun vs s' => All2 (HasTy s'.prog f) vs ts)
  | [], [], s, h, _, _, _, _ => .pure h .nil
  | _ :: _, [], s, h, _, _, _, _ => .pure h .nil
  | [], _ :: _, _, _, _, _, _, hl => by simp at hl
  | a :: as, t :: ts, s, h, hn, ha, ht, hl => by
    rw [genArgs]
    refine (valRets h hn (ha a (by simp)) (ht t (by simp))).bind ?_
    intro v s1 h1 hv
    refine (argRets (n := n) (as := as) (ts := ts) h1.body (h1.keys n hn) (fun a h => ha a (by simp [h])) (fun t h => ht t (by simp [h]))
      (by simpa using hl)).bind ?_
    intro vs s2 h2 hvs
    exact .pure h2.body (.cons (h2.grow.hasTy hv) hvs)

/-! ### Instructions -/

theorem tyRets {v : Value} {t : Ty} {s : BS} (h : InBody gs f bbs s) (hv : HasTy s.prog f v t) :
    Rets gs f bbs (valueTy f v) s (fun a s' => a = t ∧ s' = s) := .done (valueTy_run h.inv hv) (.refl h) ⟨rfl, rfl⟩

theorem callRets {n c : Str} {as : List ValAst} {s : BS} (h : InBody gs f bbs s) (hn : (s.localBbs.get? n).isSome)
    (hc : CallFits gs c as) : Rets gs f bbs (genCall f n c as) s (fun v s' => Loose f v s' ∧ ∃ t, HasTy s'.prog f v t) := by
  unfold genCall
  refine .get ?_
  cases hg : s.globalFuncs.get? c with
  | none => exact .fail h
  | some callee =>
    obtain ⟨ts, r, nm, ps, h1, h2, h3, g, hg, ha⟩ := h.fns c callee hg
    obtain ⟨fd, hf, hty, -, -⟩ := view_head_iff.1 h1
    refine .lift hf ?_
    simp only [hty]
    refine (argRets h hn hc.1 h2 (hc.2 g hg _ ha)).bind ?_
    intro vs s1 h4 hvs
    obtain ⟨fd', hf', hty', -, -⟩ := view_head_iff.1 (h4.grow.head _ _ h1)
    exact (makeRets h4.body (.call ⟨fd', hf', hty'⟩ hvs) h3 rfl).mono (fun v s' h => ⟨h.1, _, h.2⟩)

theorem instRets {n : Str} {e : ExprAst} {s : BS} (h : InBody gs f bbs s) (hn : (s.localBbs.get? n).isSome)
    (he : ExprHarmless gs e) : Rets gs f bbs (genInst f n e) s (fun v s' => Loose f v s' ∧ ∃ t, HasTy s'.prog f v t) := by
  cases e with
  | alloc a =>
    obtain ⟨t, ht⟩ := he
    rw [genInst]; unfold genAlloc
    refine .lift (genType_complete ht) ?_
    have hp := proper_of_tyIs ht
    exact (makeRets h (.alloc hp.notUnit) (.inr (.ptr hp)) rfl).mono (fun v s' h => ⟨h.1, _, h.2⟩)
  | load sy =>
    rw [genInst]; unfold genLoad
    refine (symRets h hn).bind ?_
    rintro v s1 h1 ⟨t, hv⟩
    refine (tyRets h1.body hv).bind ?_
    rintro _ _ h2 ⟨rfl, rfl⟩
    split
    · rename_i t'
      have := h2.body.hasTy hv
      exact (makeRets h2.body (.load hv) (.inr this.ptr) rfl).mono (fun v s' h => ⟨h.1, _, h.2⟩)
    · exact .fail h2.body
  | getPtr sy a =>
    rw [genInst]; unfold genGetPtr
    refine (symRets h hn).bind ?_
    rintro v s1 h1 ⟨t, hv⟩
    refine (tyRets h1.body hv).bind ?_
    rintro _ _ h2 ⟨rfl, rfl⟩
    split
    · rename_i t'
      refine (valRets h2.body (h1.keys n hn) he .i32).bind ?_
      intro i s3 h3 hi
      have := h2.body.hasTy hv
      exact (makeRets h3.body (.getPtr (h3.grow.hasTy hv) hi) this rfl).mono (fun v s' h => ⟨h.1, _, h.2⟩)
    · exact .fail h2.body
  | getElemPtr sy a =>
    rw [genInst]; unfold genGetElemPtr
    refine (symRets h hn).bind ?_
    rintro v s1 h1 ⟨t, hv⟩
    refine (tyRets h1.body hv).bind ?_
    rintro _ _ h2 ⟨rfl, rfl⟩
    split
    · rename_i t' len
      refine (valRets h2.body (h1.keys n hn) he .i32).bind ?_
      intro i s3 h3 hi
      have := (h2.body.hasTy hv).ptr
      exact (makeRets h3.body (.getElemPtr (h3.grow.hasTy hv) hi) (.inr (.ptr (OkTy.elem this))) rfl).mono (fun v s' h => ⟨h.1, _, h.2⟩)
    · exact .fail h2.body
  | binary op l r =>
    rw [genInst]; unfold genBinary
    refine (valRets h hn he.1 .i32).bind ?_
    intro x s1 h1 hx
    refine (valRets h1.body (h1.keys n hn) he.2 .i32).bind ?_
    intro y s2 h2 hy
    exact (makeRets h2.body (.binary (h2.grow.hasTy hx) hy) (.inr .i32) rfl).mono (fun v s' h => ⟨h.1, _, h.2⟩)
  | call c as =>
    rw [genInst]
    exact callRets h hn he

/-- A label that is in the table. -/
theorem bbRets {l : Str} {s : BS} (h : InBody gs f bbs s) : Rets gs f bbs (genBb l) s (fun b s' => s' = s ∧
    ∃ x ∈ bbs, x.name = l ∧ ∃ ts, BlockTys s.prog f b ts ∧ ts.length = x.params.length ∧ ∀ t ∈ ts, Proper t) := by
  unfold genBb
  refine .get ?_
  cases hl : s.localBbs.get? l with
  | none => exact .fail h
  | some i => exact .pure h ⟨rfl, (h.table l i hl).block⟩

theorem paramsRets {b : BB} {ts : List Ty} {s : BS} (h : InBody gs f bbs s) (hb : BlockTys s.prog f b ts) :
    Rets gs f bbs (bbParamsTy f b) s (fun a s' => a = ts ∧ s' = s) := .done (bbParamsTy_run hb.localTys) (.refl h) ⟨rfl, rfl⟩

theorem symDefRets {n : Str} {s : BS} (h : InBody gs f bbs s) : Rets gs f bbs (defineSym n) s (fun _ _ => True) := by
  unfold defineSym
  refine .get ?_
  split
  · exact .logError h trivial
  · split
    · exact .logError h trivial
    · exact ⟨.ok (), _, rfl, .count h _ _ _, fun _ _ => trivial⟩

theorem nameRets {v : Value} {n : Str} {s : BS} (h : InBody gs f bbs s) (hv : Loose f v s) (hn : nameOk n) :
    Rets gs f bbs (nameLocal f v n) s (fun _ s' => Loose f v s' ∧ s'.localBbs = s.localBbs) := by
  unfold nameLocal
  split
  · exact .pure h ⟨hv, rfl⟩
  · obtain ⟨⟨t, n0, k⟩, h0⟩ := Option.isSome_iff_exists.1 hv.1
    obtain ⟨p, hp, hi, hvw⟩ := setLocalName_run h.inv h0 (n := some n) (nameOk_valid hn)
    have hlay : p.view.lay = s.prog.view.lay := by rw [hvw]
    have hg : Larger s.prog p := by
      constructor
      · intro f' w t' n' k' hw
        rw [hvw]
        simp only
        split
        · rename_i he
          obtain ⟨rfl, rfl⟩ := he
          rw [h0] at hw; cases hw
          exact ⟨_, rfl⟩
        · exact ⟨n', hw⟩
      · intro w t' n' k' hw; exact ⟨n', by rw [hvw]; exact hw⟩
      · intro f' b x hx; rw [hvw]; exact hx
      · intro f' x hx; rw [hvw]; exact hx
      · intro f' l hl; exact ⟨l, by rw [hlay]; exact hl, fun _ h => h⟩
    refine .done (.of_api' hp) ⟨?_, hg, ?_, fun _ h => h⟩ ⟨⟨?_, ?_⟩, rfl⟩
    · refine h.grow hi hg ?_ (by show p.view.g = _; rw [hvw]) rfl rfl rfl
      intro f' w sg hw
      have hw' : p.view.l f' w = some sg := hw
      rw [hvw] at hw'
      simp only at hw'
      split at hw'
      · cases hw'; exact (h.lty _ _ _ h0 :)
      · exact h.lty _ _ _ hw'
    · exact congrArg (fun v => v.ids.nextGlobal) hvw
    · show (p.view.l f v).isSome; rw [hvw]; simp
    · intro l hl
      have hl' : p.view.lay f = some l := hl
      rw [hlay] at hl'
      exact hv.2 l hl'

theorem recordRets {v : Value} {n d : Str} {s : BS} (h : InBody gs f bbs s) (hn : (s.localBbs.get? n).isSome) (hv : Loose f v s) :
    Rets gs f bbs (recordDef n d v) s (fun _ s' => Loose f v s') := by
  obtain ⟨i, hi⟩ := Option.isSome_iff_exists.1 hn
  have hk : ∀ m, (s.localBbs.get? m).isSome →
      ((s.localBbs.insert n { i with localDefs := i.localDefs.insert d v }).get? m).isSome := by
    intro m hm
    rw [Map.get?_insert]
    split
    · rfl
    · exact hm
  refine .done (recordDef_run hi) ⟨⟨⟨h.inv, h.lty, h.gty, h.vars, h.fns⟩, h.lay, ?_⟩, .refl _, rfl, hk⟩ hv
  intro m j hj
  simp only [Map.get?_insert] at hj
  split at hj
  · rename_i he; subst he; cases hj
    have h0 := h.table m i hi
    refine ⟨h0.block, h0.laid, fun q hq => hk q (h0.preds q hq), ?_⟩
    intro sy w hw
    simp only [Map.get?_insert] at hw
    split at hw
    · cases hw; exact hv.1
    · exact h0.defs sy w hw
  · exact (h.table m j hj).grow (.refl _) hk

theorem defRets {n d : Str} {e : ExprAst} {s : BS} (h : InBody gs f bbs s) (hn : (s.localBbs.get? n).isSome)
    (hd : nameOk d) (he : ExprHarmless gs e) : Rets gs f bbs (genDef f n d e) s (fun v s' => Loose f v s') := by
  unfold genDef
  refine (symDefRets h).bind ?_
  intro _ s1 h1 _
  refine (instRets h1.body (h1.keys n hn) he).bind ?_
  rintro v s2 h2 ⟨hv, t, ht⟩
  refine (tyRets h2.body ht).bind ?_
  rintro _ _ h3 ⟨rfl, rfl⟩
  split
  · exact .fail h3.body
  · refine (nameRets h3.body hv hd).bind ?_
    rintro _ s4 h4 ⟨hv4, hb4⟩
    refine (recordRets h4.body (h4.keys n (h2.keys n (h1.keys n hn))) hv4).bind ?_
    intro _ s5 h5 hv5
    exact .pure h5.body hv5

/-- Harmless statements do not panic. -/
theorem stmtRets {n : Str} {r : Ty} {st : StmtAst} {s : BS} (h : InBody gs f bbs s) (hn : (s.localBbs.get? n).isSome)
    (hr : OkTy r) (hst : StmtHarmless gs bbs st) (hd : ∀ d e, st = .def d e → nameOk d) :
    Rets gs f bbs (genStmt f n r st) s (fun v s' => Loose f v s') := by
  cases st with
  | «def» d e => exact defRets h hn (hd d e rfl) hst
  | error => exact .throw h
  | call c as => exact (callRets h hn hst).mono (fun _ _ h => h.1)
  | store a sy =>
    rw [genStmt]; unfold genStore
    refine (symRets h hn).bind ?_
    rintro v s1 h1 ⟨t, hv⟩
    refine (tyRets h1.body hv).bind ?_
    rintro _ _ h2 ⟨rfl, rfl⟩
    split
    · rename_i t'
      refine (valRets h2.body (h1.keys n hn) hst (h2.body.hasTy hv).ptr).bind ?_
      intro i s3 h3 hi
      exact (makeRets h3.body (.store hi (h3.grow.hasTy hv)) (.inl rfl) rfl).mono (fun v s' h => h.1)
    · exact .fail h2.body
  | jump t as =>
    rw [genStmt]; unfold genJump
    refine (bbRets h).bind ?_
    rintro b _ h1 ⟨rfl, x, hx, hxn, ts, h2, h3, h4⟩
    refine (paramsRets h1.body h2).bind ?_
    rintro _ _ h5 ⟨rfl, rfl⟩
    refine (argRets h5.body hn hst.1 h4 (by rw [h3]; exact hst.2 x hx hxn)).bind ?_
    intro vs s2 h6 hvs
    exact (makeRets h6.body (.jump (h6.grow.blockTys h2).localTys.paramTys hvs) (.inl rfl) rfl).mono (fun v s' h => h.1)
  | branch c t ta e ea =>
    rw [genStmt]; unfold genBranch
    obtain ⟨hc, hta, hea⟩ := hst
    refine (valRets h hn hc .i32).bind ?_
    intro v s1 h1 hv
    refine (bbRets h1.body).bind ?_
    rintro b _ h2 ⟨rfl, x, hx, hxn, ts, h3, h4, h5⟩
    refine (paramsRets h2.body h3).bind ?_
    rintro _ _ h6 ⟨rfl, rfl⟩
    refine (argRets h6.body (h1.keys n hn) hta.1 h5 (by rw [h4]; exact hta.2 x hx hxn)).bind ?_
    intro vs s2 h7 hvs
    refine (bbRets h7.body).bind ?_
    rintro b' _ h8 ⟨rfl, x', hx', hxn', ts', h9, h10, h11⟩
    refine (paramsRets h8.body h9).bind ?_
    rintro _ _ h12 ⟨rfl, rfl⟩
    refine (argRets h12.body (h7.keys n (h1.keys n hn)) hea.1 h11 (by rw [h10]; exact hea.2 x' hx' hxn')).bind ?_
    intro vs' s3 h13 hvs'
    split
    · exact .fail h13.body
    · rename_i hne
      refine (makeRets h13.body (.branch (h13.grow.hasTy (h7.grow.hasTy hv)) (h13.grow.blockTys (h7.grow.blockTys h3)).localTys.paramTys
        (h13.grow.blockTys h9).localTys.paramTys (hvs.mono (fun _ _ h => h13.grow.hasTy h)) hvs' ?_) (.inl rfl) rfl).mono (fun v s' h => h.1)
      intro he
      refine ⟨?_, ?_⟩
      · exact Classical.byContradiction fun h => hne ⟨he, .inl h⟩
      · exact Classical.byContradiction fun h => hne ⟨he, .inr h⟩
  | ret v =>
    rw [genStmt]; unfold genReturn
    split
    · exact .fail h
    · split
      · exact .fail h
      · rename_i h1 h2
        cases v with
        | none => exact (makeRets h .retNone (.inl rfl) rfl).mono (fun v s' h => h.1)
        | some a =>
          have hp : Proper r := by
            rcases hr with rfl | hr
            · simp [Ty.isUnit] at h2
            · exact hr
          refine (valRets h hn (hst a rfl) hp).bind ?_
          intro v s1 h3 hv
          exact (makeRets h3.body (.ret hp.notUnit hv) (.inl rfl) rfl).mono (fun v s' h => h.1)

/-! ### Blocks -/

theorem pushRets {n : Str} {v : Value} {s : BS} {i : BbInfo} (h : InBody gs f bbs s) (hi : s.localBbs.get? n = some i)
    (hv : Loose f v s) : Rets gs f bbs (B.api' (·.pushInst f i.bb v)) s (fun _ _ => True) := by
  obtain ⟨l, hl, hm⟩ := (h.table n i hi).laid
  obtain ⟨⟨b, is⟩, hm, rfl⟩ := List.mem_map.1 hm
  obtain ⟨p, hp, hfi, he, hvw⟩ := pushInst_run h.inv hl hm hv.1 (hv.2 l hl)
  have hg : Larger s.prog p := by
    refine grow_of_ext he ?_
    intro f' l' hl'
    rw [hvw]
    simp only
    split
    · rename_i hff; subst hff
      rw [hl] at hl'; cases hl'
      exact ⟨_, rfl, fun b' hb' => by rw [setInsts_keys]; exact hb'⟩
    · exact ⟨l', hl', fun _ h => h⟩
  refine .done (.of_api' hp) ⟨?_, hg, ?_, fun _ h => h⟩ trivial
  · refine h.grow hfi hg ?_ (by show p.view.g = _; rw [hvw]) rfl rfl rfl
    intro f' w sg hw
    have hw' : p.view.l f' w = some sg := hw
    rw [hvw] at hw'
    exact h.lty _ _ _ hw'
  · exact congrArg (fun v => v.ids.nextGlobal) hvw

theorem buildStmtRets {n : Str} {r : Ty} {st : StmtAst} {s : BS} (h : InBody gs f bbs s) (hn : (s.localBbs.get? n).isSome)
    (hr : OkTy r) (hst : StmtHarmless gs bbs st) (hd : ∀ d e, st = .def d e → nameOk d) :
    Rets gs f bbs (buildStmt f r n st) s (fun _ _ => True) := by
  obtain ⟨x, s1, h1, h2, h3⟩ := stmtRets h hn hr hst hd
  unfold buildStmt
  have h4 : Rets gs f bbs (B.attempt (genStmt f n r st)) s (fun o s' => ∀ v, o = some v → Loose f v s') := by
    cases x with
    | error e =>
      exact ⟨.ok none, s1, by unfold B.attempt; rw [h1], h2, by rintro a ⟨⟩ v hv; cases hv⟩
    | ok v =>
      exact ⟨.ok (some v), s1, by unfold B.attempt; rw [h1], h2, by rintro a ⟨⟩ w ⟨⟩; exact h3 _ rfl⟩
  refine h4.bind ?_
  intro o s2 h5 h6
  cases o with
  | none => exact .pure h5.body trivial
  | some v =>
    refine .get ?_
    obtain ⟨i, hi⟩ := Option.isSome_iff_exists.1 (h5.keys n hn)
    simp only [hi]
    exact pushRets h5.body hi (h6 v rfl)

theorem eachRets {α β : Type} {m : α → B β} : ∀ {as : List α} {s : BS}, InBody gs f bbs s →
    (∀ a ∈ as, ∀ s', To gs f bbs s s' → Rets gs f bbs (m a) s' (fun _ _ => True)) →
    Rets gs f bbs (B.each m as) s (fun _ _ => True)
  | [], s, h, _ => .pure h trivial
  | a :: as, s, h, hm => by
    rw [B.each]
    refine (hm a (by simp) s (.refl h)).bind ?_
    intro b s1 h1 _
    refine (eachRets (as := as) h1.body (fun a ha s' h' => hm a (by simp [ha]) s' (h1.trans h'))).bind ?_
    intro bs s2 h2 _
    exact .pure h2.body trivial

theorem blockRets {r : Ty} {b : BlockAst} {s : BS} (h : InBody gs f bbs s) (hn : (s.localBbs.get? b.name).isSome)
    (hr : OkTy r) (hb : ∀ st ∈ b.stmts, StmtHarmless gs bbs st) (hd : ∀ d e, StmtAst.def d e ∈ b.stmts → nameOk d) :
    Rets gs f bbs (buildBlock f r b) s (fun _ _ => True) := by
  unfold buildBlock
  refine (eachRets h ?_).bind ?_
  · intro st hst s' h'
    exact buildStmtRets h'.body (h'.keys _ hn) hr (hb st hst) (fun d e he => hd d e (he ▸ hst))
  · intro _ s1 h1 _
    exact .pure h1.body trivial

end

end Koopa
