import Verif.Lemmas.Front.Done
import Verif.Lemmas.Front.BuildInv
import Verif.Spec.Elab
/-!
Statements: what the generator makes of a statement is what the statement means.
-/
namespace Koopa
open Spec

/-! ### More facts about more programs -/

theorem Spec.All2.length {α β : Type} {R : α → β → Prop} {as : List α} {bs : List β} (h : All2 R as bs) :
    as.length = bs.length := by
  induction h with
  | nil => rfl
  | cons _ _ ih => simp [ih]

theorem Spec.All2.mono {α β : Type} {R R' : α → β → Prop} {as : List α} {bs : List β} (h : All2 R as bs)
    (hr : ∀ a b, R a b → R' a b) : All2 R' as bs := by
  induction h with
  | nil => exact .nil
  | cons h _ ih => exact .cons (hr _ _ h) ih

theorem Ext.globalVal {p p' : Program} (h : Ext p p') {v : Value} {x : VData} (hx : GlobalVal p v x) :
    ∃ x', GlobalVal p' v x' ∧ x'.shape = x.shape := view_g_iff.1 (h.g v _ (view_g_iff.2 ⟨x, hx, rfl⟩))

theorem Ext.localVal {p p' : Program} (h : Ext p p') {f : Func} {v : Value} {x : VData} (hx : LocalVal p f v x) :
    ∃ x', LocalVal p' f v x' ∧ x'.shape = x.shape := view_l_iff.1 (h.l f v _ (view_l_iff.2 ⟨x, hx, rfl⟩))

theorem Ext.block {p p' : Program} (h : Ext p p') {f : Func} {b : BB} {x : BData} (hx : Block p f b x) :
    ∃ x', Block p' f b x' ∧ x'.name = x.name ∧ x'.params = x.params :=
  view_b_iff.1 (h.b f b _ (view_b_iff.2 ⟨x, hx, rfl, rfl⟩))

theorem view_head_iff {p : Program} {f : Func} {t : Ty} {n : Str} {ps : List Value} :
    p.view.head f = some (t, n, ps) ↔
      ∃ fd, p.funcs.get? f = some fd ∧ fd.ty = t ∧ fd.name = n ∧ fd.params = ps := by
  unfold Program.view
  simp only [Option.map_eq_some_iff, Prod.mk.injEq]

theorem shape_ty {x y : VData} (h : x.shape = y.shape) : x.ty = y.ty := congrArg (·.1) h
theorem shape_name {x y : VData} (h : x.shape = y.shape) : x.name = y.name := congrArg (·.2.1) h
theorem shape_kind {x y : VData} (h : x.shape = y.shape) : x.kind = y.kind := congrArg (·.2.2) h

theorem Ext.denotes {p p' : Program} (h : Ext p p') {f : Func} {v : Value} {t : Ty} {k : VKind}
    (hd : Denotes p f v t k) : Denotes p' f v t k := by
  obtain ⟨x, hx | hx, rfl, rfl⟩ := hd
  · obtain ⟨x', h1, h2⟩ := h.globalVal hx
    exact ⟨x', .inl h1, shape_ty h2, shape_kind h2⟩
  · obtain ⟨x', h1, h2⟩ := h.localVal hx
    exact ⟨x', .inr h1, shape_ty h2, shape_kind h2⟩

theorem Ext.ldenotes {p p' : Program} (h : Ext p p') {f : Func} {v : Value} {t : Ty} {k : VKind}
    (hd : LDenotes p f v t k) : LDenotes p' f v t k := by
  obtain ⟨x, hx, rfl, rfl⟩ := hd
  obtain ⟨x', h1, h2⟩ := h.localVal hx
  exact ⟨x', h1, shape_ty h2, shape_kind h2⟩

theorem denotes_hasTy {p : Program} {f : Func} {v : Value} {t : Ty} :
    HasTy p f v t ↔ ∃ k, Denotes p f v t k :=
  ⟨fun ⟨x, h, e⟩ => ⟨x.kind, x, h, e, rfl⟩, fun ⟨_, x, h, e, _⟩ => ⟨x, h, e⟩⟩

theorem Ext.hasTy {p p' : Program} (h : Ext p p') {f : Func} {v : Value} {t : Ty} (hd : HasTy p f v t) :
    HasTy p' f v t := by
  obtain ⟨k, hk⟩ := denotes_hasTy.1 hd
  exact denotes_hasTy.2 ⟨k, h.denotes hk⟩

theorem Ext.paramTys {p p' : Program} (h : Ext p p') {f : Func} {b : BB} {ts : List Ty}
    (hd : ParamTys p f b ts) : ParamTys p' f b ts := by
  obtain ⟨x, hx, ha⟩ := hd
  obtain ⟨x', h1, -, h2⟩ := h.block hx
  exact ⟨x', h1, by rw [h2]; exact ha.mono (fun _ _ => h.hasTy)⟩

theorem Ext.funcTy {p p' : Program} (h : Ext p p') {g : Func} {t : Ty} (hd : FuncTy p g t) : FuncTy p' g t := by
  obtain ⟨fd, hf, he⟩ := hd
  obtain ⟨fd', h1, h2, -, -⟩ := view_head_iff.1 (h.head g _ (view_head_iff.2 ⟨fd, hf, he, rfl, rfl⟩))
  exact ⟨fd', h1, h2⟩

/-! ### Environments -/

/-- `E'` knows everything `E` knows. -/
structure Spec.Env.Le (E E' : Env) : Prop where
  den : ∀ v t k, E.den v t k → E'.den v t k
  lit : ∀ v t k, E.lit v t k → E'.lit v t k
  sym : ∀ s v, E.sym s v → E'.sym s v
  bb : ∀ s b, E.bb s b → E'.bb s b
  bbTys : ∀ b ts, E.bbTys b ts → E'.bbTys b ts
  fn : ∀ s g, E.fn s g → E'.fn s g
  fnTy : ∀ g t, E.fnTy g t → E'.fnTy g t
  ret : E.ret = E'.ret

theorem Spec.ConstIs.mono {d d' : Value → Ty → VKind → Prop} (hd : ∀ v t k, d v t k → d' v t k) {a : ValAst} {t : Ty}
    {v : Value} (h : ConstIs d a t v) : ConstIs d' a t v := by
  induction h with
  | int h => exact .int (hd _ _ _ h)
  | undef h => exact .undef (hd _ _ _ h)
  | zero h => exact .zero (hd _ _ _ h)
  | agg h hl _ ih => exact .agg (hd _ _ _ h) hl (fun i e w h1 h2 => ih i e w h1 h2)
  | aggPtr h hl _ ih => exact .aggPtr (hd _ _ _ h) hl (fun i e w h1 h2 => ih i e w h1 h2)

theorem Spec.OperandIs.mono {E E' : Env} (hE : E.Le E') {a : ValAst} {t : Ty} {v : Value} (h : OperandIs E a t v) :
    OperandIs E' a t v := by
  cases h with
  | sym h1 h2 => exact .sym (hE.sym _ _ h1) (hE.den _ _ _ h2)
  | const h => exact .const (h.mono hE.lit)

theorem Spec.ArgsAre.mono {E E' : Env} (hE : E.Le E') {as : List ValAst} {ts : List Ty} {vs : List Value}
    (h : ArgsAre E as ts vs) : ArgsAre E' as ts vs := by
  induction h with
  | nil => exact .nil
  | cons h _ ih => exact .cons (h.mono hE) ih

theorem Spec.ExprIs.mono {E E' : Env} (hE : E.Le E') {e : ExprAst} {t : Ty} {k : VKind} (h : ExprIs E e t k) :
    ExprIs E' e t k := by
  cases h with
  | alloc h => exact .alloc h
  | load h => exact .load (hE.sym _ _ h)
  | getPtr h h' => exact .getPtr (hE.sym _ _ h) (h'.mono hE)
  | getElemPtr h h' => exact .getElemPtr (hE.sym _ _ h) (h'.mono hE)
  | binary h h' => exact .binary (h.mono hE) (h'.mono hE)
  | call h h' h'' => exact .call (hE.fn _ _ h) (hE.fnTy _ _ h') (h''.mono hE)

theorem Spec.StmtIs.mono {E E' : Env} (hE : E.Le E') {st : StmtAst} {t : Ty} {k : VKind} (h : StmtIs E st t k) :
    StmtIs E' st t k := by
  cases h with
  | «def» h h' => exact .def (h.mono hE) h'
  | store h h' h'' => exact .store (hE.sym _ _ h) (hE.den _ _ _ h') (h''.mono hE)
  | call h => exact .call (h.mono hE)
  | branch h1 h2 h3 h4 h5 h6 h7 =>
    exact .branch (h1.mono hE) (hE.bb _ _ h2) (hE.bbTys _ _ h3) (h4.mono hE) (hE.bb _ _ h5) (hE.bbTys _ _ h6) (h7.mono hE)
  | jump h1 h2 h3 => exact .jump (hE.bb _ _ h1) (hE.bbTys _ _ h2) (h3.mono hE)
  | retNone h => exact .retNone (hE.ret ▸ h)
  | ret h h' => exact .ret (hE.ret ▸ h) (hE.ret ▸ h'.mono hE)

/-- The block named `n'` is met when predecessors are followed from `n`. -/
inductive Back (m : Map Str BbInfo) : Str → Str → Prop where
  | refl {n : Str} : Back m n n
  | step {n q n' : Str} {i : BbInfo} : m.get? n = some i → q ∈ i.preds → Back m n' q → Back m n' n

/-- The predecessors of a block according to the table. -/
def tblPreds (m : Map Str BbInfo) (n : Str) : List Str := ((m.get? n).map (·.preds)).getD []

/-- The table has a local definition of `sy` in a block. -/
def tblHas (m : Map Str BbInfo) (sy n : Str) : Prop := ∃ i, m.get? n = some i ∧ (i.localDefs.get? sy).isSome

/-- Looking up a symbol in block `n`. -/
def SymAt (S : BS) (n sy : Str) (v : Value) : Prop :=
  S.globalVars.get? sy = some v ∨ S.globalVars.get? sy = none ∧
    ∃ n' i, Back S.localBbs n' n ∧ S.localBbs.get? n' = some i ∧ i.localDefs.get? sy = some v ∧
      Meets (tblHas S.localBbs sy) (tblPreds S.localBbs) [] [n] n'

/-- What statements refer to, according to the tables of `S` and the program `p`. -/
def stEnv (S : BS) (f : Func) (n : Str) (r : Ty) (p : Program) : Env where
  den := Denotes p f
  lit := LDenotes p f
  sym := SymAt S n
  bb l b := ∃ i, S.localBbs.get? l = some i ∧ i.bb = b
  bbTys := ParamTys p f
  fn l g := S.globalFuncs.get? l = some g
  fnTy := FuncTy p
  ret := r

theorem stEnv_le {S : BS} {f : Func} {n : Str} {r : Ty} {p p' : Program} (h : Ext p p') :
    (stEnv S f n r p).Le (stEnv S f n r p') :=
  ⟨fun _ _ _ => h.denotes, fun _ _ _ => h.ldenotes, fun _ _ h => h, fun _ _ h => h, fun _ _ => h.paramTys, fun _ _ h => h,
    fun _ _ => h.funcTy, rfl⟩

/-- A search that finds nothing leaves the blocks that wait. -/
theorem findLocal_skips {m : Map Str BbInfo} {sym : Str} : ∀ {fuel : Nat} {vis : List Str} {bb : Str} {vis' : List Str},
    findLocal m sym fuel vis bb = some (none, vis') → ∀ (wait : List Str) (r : Str),
    Meets (tblHas m sym) (tblPreds m) vis' wait r → Meets (tblHas m sym) (tblPreds m) vis (bb :: wait) r
  | 0, _, _, _, h => by simp [findLocal] at h
  | n + 1, vis, bb, vis', h => by
    intro wait r hr
    rw [findLocal] at h
    split at h
    · rename_i hv
      simp only [Option.some.injEq, Prod.mk.injEq, true_and] at h
      subst h
      exact .seen hv hr
    · rename_i hv
      split at h
      · simp at h
      · rename_i i hi
        split at h
        · simp at h
        · rename_i hno
          have key : ∀ (ps vis : List Str), findPreds (findLocal m sym n) vis ps = some (none, vis') →
              Meets (tblHas m sym) (tblPreds m) vis (ps ++ wait) r := by
            intro ps
            induction ps with
            | nil =>
              intro vis h
              simp only [findPreds, Option.some.injEq, Prod.mk.injEq, true_and] at h
              subst h
              exact hr
            | cons q ps ih =>
              intro vis h
              rw [findPreds] at h
              split at h
              · simp at h
              · simp at h
              · rename_i vis1 h1
                exact findLocal_skips h1 _ _ (ih _ h)
          refine .next hv ?_ ?_
          · rintro ⟨i', h1, h2⟩
            rw [hi] at h1; cases h1
            rw [hno] at h2; cases h2
          · have : tblPreds m bb = i.preds := by unfold tblPreds; rw [hi]; rfl
            rw [this]
            exact key _ _ h

/-- A search finds the first block with a definition. -/
theorem findLocal_meets {m : Map Str BbInfo} {sym : Str} : ∀ {fuel : Nat} {vis : List Str} {bb : Str}
    {v : Value} {vis' : List Str}, findLocal m sym fuel vis bb = some (some v, vis') →
    ∃ n' i, Back m n' bb ∧ m.get? n' = some i ∧ i.localDefs.get? sym = some v ∧
      ∀ wait, Meets (tblHas m sym) (tblPreds m) vis (bb :: wait) n'
  | 0, _, _, _, _, h => by simp [findLocal] at h
  | n + 1, vis, bb, v, vis', h => by
    rw [findLocal] at h
    split at h
    · simp at h
    · rename_i hv
      split at h
      · simp at h
      · rename_i i hi
        split at h
        · rename_i w hw
          simp only [Option.some.injEq, Prod.mk.injEq] at h
          obtain ⟨rfl, -⟩ := h
          exact ⟨bb, i, .refl, hi, hw, fun _ => .here hv ⟨i, hi, by rw [hw]; rfl⟩⟩
        · rename_i hno
          have key : ∀ (ps : List Str) (vis : List Str), (∀ q ∈ ps, q ∈ i.preds) →
              findPreds (findLocal m sym n) vis ps = some (some v, vis') →
              ∃ n' i', Back m n' bb ∧ m.get? n' = some i' ∧ i'.localDefs.get? sym = some v ∧
                ∀ wait, Meets (tblHas m sym) (tblPreds m) vis (ps ++ wait) n' := by
            intro ps
            induction ps with
            | nil => intro vis _ h; simp [findPreds] at h
            | cons q ps ih =>
              intro vis hq h
              rw [findPreds] at h
              split at h
              · simp at h
              · rename_i w vis1 h1
                simp only [Option.some.injEq, Prod.mk.injEq] at h
                obtain ⟨rfl, rfl⟩ := h
                obtain ⟨n', i', a, b, c, d⟩ := findLocal_meets h1
                exact ⟨n', i', .step hi (hq q (by simp)) a, b, c, fun wait => d _⟩
              · rename_i vis1 h1
                obtain ⟨n', i', a, b, c, d⟩ := ih _ (fun q' h' => hq q' (by simp [h'])) h
                exact ⟨n', i', a, b, c, fun wait => findLocal_skips h1 _ _ (d wait)⟩
          obtain ⟨n', i', a, b, c, d⟩ := key _ _ (fun _ h => h) h
          refine ⟨n', i', a, b, c, fun wait => .next hv ?_ ?_⟩
          · rintro ⟨i2, h1, h2⟩
            rw [hi] at h1; cases h1
            rw [hno] at h2; cases h2
          · have : tblPreds m bb = i.preds := by unfold tblPreds; rw [hi]; rfl
            rw [this]
            exact d wait

theorem findLocal_sound {m : Map Str BbInfo} {sym : Str} {fuel : Nat} {vis : List Str} {bb : Str}
    {v : Value} {vis' : List Str} (h : findLocal m sym fuel vis bb = some (some v, vis')) :
    ∃ n' i, Back m n' bb ∧ m.get? n' = some i ∧ i.localDefs.get? sym = some v := by
  obtain ⟨n', i, a, b, c, -⟩ := findLocal_meets h
  exact ⟨n', i, a, b, c⟩

/-! ### Generating values -/

/-- Only local values are added, the tables stay. -/
structure GenTo (s s' : BS) : Prop where
  inv : FInv s'.prog
  ext : GenExt s.prog s'.prog
  gv : s'.globalVars = s.globalVars
  gf : s'.globalFuncs = s.globalFuncs
  bbs : s'.localBbs = s.localBbs
  syms : s'.localSyms = s.localSyms

theorem GenTo.refl {s : BS} (h : FInv s.prog) : GenTo s s := ⟨h, .refl _, rfl, rfl, rfl, rfl⟩
theorem GenTo.trans {a b c : BS} (h : GenTo a b) (h' : GenTo b c) : GenTo a c :=
  ⟨h'.inv, h.ext.trans h'.ext, h'.gv.trans h.gv, h'.gf.trans h.gf, h'.bbs.trans h.bbs, h'.syms.trans h.syms⟩

theorem GenTo.symAt {s s' : BS} (h : GenTo s s') {n sy : Str} {v : Value} : SymAt s' n sy v ↔ SymAt s n sy v := by
  unfold SymAt; rw [h.gv, h.bbs]

/-- The kind of the value a builder call makes. -/
def ValInst.toKind : ValInst → VKind
  | .raw d => d.kind
  | .integer n => .integer n
  | .zeroInit _ => .zeroInit
  | .undef _ => .undef
  | .aggregate es => .aggregate es
def LocalInst.toKind : LocalInst → VKind
  | .val i => i.toKind
  | .alloc _ => .alloc
  | .load v => .load v
  | .store v d => .store v d
  | .getPtr v i => .getPtr v i
  | .getElemPtr v i => .getElemPtr v i
  | .binary o l r => .binary o l r
  | .branch c t f => .branch c t f [] []
  | .branchWithArgs c t f ta fa => .branch c t f ta fa
  | .jump b => .jump b []
  | .jumpWithArgs b as => .jump b as
  | .call g as => .call g as
  | .ret v => .ret v
def ValInst.TyIs : ValInst → Ty → Prop
  | .integer _, t => t = .i32
  | .zeroInit t', t => t = t'
  | .undef t', t => t = t'
  | _, _ => True

theorem ValInst.build_kind {q : Querier} {i : ValInst} {d : VData} (hr : i.notRaw) (h : i.build q = some d) :
    d.kind = i.toKind ∧ d.name = none ∧ i.TyIs d.ty := by
  cases i <;> simp only [ValInst.build, Option.bind_eq_bind, Option.bind_eq_some_iff, Option.some.injEq] at h
  case raw => exact hr.elim
  case integer => subst h; exact ⟨rfl, rfl, rfl⟩
  case zeroInit => obtain ⟨_, _, rfl⟩ := h; exact ⟨rfl, rfl, rfl⟩
  case undef => obtain ⟨_, _, rfl⟩ := h; exact ⟨rfl, rfl, rfl⟩
  case aggregate =>
    obtain ⟨_, _, _, _, _, _, _, _, _, _, _, _, _, _, _, _, rfl⟩ := h
    exact ⟨rfl, rfl, trivial⟩

theorem LocalInst.build_kind {q : Querier} {i : LocalInst} {d : VData} (hr : i.notRaw) (h : i.build q = some d) :
    d.kind = i.toKind ∧ d.name = none ∧ (∀ t, i = .alloc t → d.ty = .ptr t) ∧ ∀ j, i = .val j → j.TyIs d.ty := by
  cases i
  case val i =>
    obtain ⟨a, b, c⟩ := ValInst.build_kind hr h
    exact ⟨a, b, by simp, by rintro j ⟨⟩; exact c⟩
  all_goals simp only [LocalInst.build, Option.bind_eq_bind, Option.bind_eq_some_iff] at h
  case alloc => obtain ⟨_, _, h⟩ := h; cases h; exact ⟨rfl, rfl, by rintro t ⟨⟩; rfl, by simp⟩
  case load => obtain ⟨_, _, h⟩ := h; split at h <;> cases h; exact ⟨rfl, rfl, by simp, by simp⟩
  case store => obtain ⟨_, _, _, _, _, _, h⟩ := h; cases h; exact ⟨rfl, rfl, by simp, by simp⟩
  case getPtr =>
    obtain ⟨_, _, h⟩ := h
    split at h
    · simp only [Option.bind_eq_some_iff] at h
      obtain ⟨_, _, _, _, h⟩ := h
      cases h; exact ⟨rfl, rfl, by simp, by simp⟩
    · cases h
  case getElemPtr =>
    obtain ⟨_, _, _, _, _, _, h⟩ := h; split at h <;> cases h; exact ⟨rfl, rfl, by simp, by simp⟩
  case binary => obtain ⟨_, _, _, _, _, _, h⟩ := h; cases h; exact ⟨rfl, rfl, by simp, by simp⟩
  case branch => obtain ⟨_, _, _, _, _, _, _, _, _, _, _, _, h⟩ := h; cases h; exact ⟨rfl, rfl, by simp, by simp⟩
  case branchWithArgs =>
    obtain ⟨_, _, _, _, _, _, _, _, _, _, _, _, _, _, h⟩ := h; cases h; exact ⟨rfl, rfl, by simp, by simp⟩
  case jump => obtain ⟨_, _, _, _, h⟩ := h; cases h; exact ⟨rfl, rfl, by simp, by simp⟩
  case jumpWithArgs => obtain ⟨_, _, _, _, h⟩ := h; cases h; exact ⟨rfl, rfl, by simp, by simp⟩
  case call =>
    obtain ⟨_, _, h⟩ := h
    split at h
    · simp only [Option.bind_eq_some_iff] at h
      obtain ⟨_, _, _, _, h⟩ := h
      cases h; exact ⟨rfl, rfl, by simp, by simp⟩
    · cases h
  case ret =>
    split at h
    · cases h; exact ⟨rfl, rfl, by simp, by simp⟩
    · simp only [Option.bind_eq_some_iff] at h
      obtain ⟨_, _, _, _, h⟩ := h
      cases h; exact ⟨rfl, rfl, by simp, by simp⟩

/-- A new local value. -/
structure NewLocal (f : Func) (i : LocalInst) (s : BS) (v : Value) (s' : BS) : Prop where
  to : GenTo s s'
  handle : v = s.prog.ids.nextLocal
  next : s'.prog.ids.nextLocal = v + 1
  val : ∃ t, s'.prog.view.l f v = some (t, none, i.toKind) ∧ (∀ t', i = .alloc t' → t = .ptr t') ∧
    ∀ j, i = .val j → j.TyIs t

theorem Done.newLocal {f : Func} {i : LocalInst} {s s' : BS} {v : Value} (hi : FInv s.prog)
    (h : Done (B.api (·.newLocal f i)) s v s') (hr : i.notRaw) : NewLocal f i s v s' := by
  obtain ⟨p, hp, rfl⟩ := h.api
  obtain ⟨h1, h2⟩ := hi.newLocal hr hp
  obtain ⟨fd, data, hf, hb, hv, hvw⟩ := newLocal_view hp
  obtain ⟨k1, k2, k3, k4⟩ := LocalInst.build_kind hr hb
  refine ⟨⟨h1, h2, rfl, rfl, rfl, rfl⟩, hv, ?_, data.ty, ?_, k3, k4⟩
  · have := congrArg (fun V => V.ids.nextLocal) hvw; exact this
  · show p.view.l f v = _
    rw [hvw]
    simp only [true_and, if_true, VData.shape, k1, k2]

theorem view_denotes {p : Program} {f : Func} {v : Value} {t : Ty} {n : Option Str} {k : VKind}
    (h : p.view.l f v = some (t, n, k)) : Denotes p f v t k := by
  obtain ⟨x, hx, hs⟩ := view_l_iff.1 h
  exact ⟨x, .inr hx, congrArg (·.1) hs, congrArg (·.2.2) hs⟩

theorem view_ldenotes {p : Program} {f : Func} {v : Value} {t : Ty} {n : Option Str} {k : VKind}
    (h : p.view.l f v = some (t, n, k)) : LDenotes p f v t k := by
  obtain ⟨x, hx, hs⟩ := view_l_iff.1 h
  exact ⟨x, hx, congrArg (·.1) hs, congrArg (·.2.2) hs⟩

/-- Constants, wherever they are made. `R s s'` is a step that keeps `I`, `den` is what is known of
values. -/
structure InitCtx (scope : Option Func) (I : BS → Prop) (R : BS → BS → Prop)
    (den : BS → Value → Ty → VKind → Prop) : Prop where
  refl : ∀ s, I s → R s s
  trans : ∀ a b c, R a b → R b c → R a c
  mono : ∀ s s' v t k, R s s' → den s v t k → den s' v t k
  new : ∀ i s v s', i.notRaw → I s → Done (newVal scope i) s v s' →
    I s' ∧ R s s' ∧ ∃ t, den s' v t i.toKind ∧ i.TyIs t

mutual
theorem genInit_sound {scope : Option Func} {I : BS → Prop} {R : BS → BS → Prop}
    {den : BS → Value → Ty → VKind → Prop} (C : InitCtx scope I R den) (ty : Ty) :
    ∀ (a : ValAst) (s s' : BS) (v : Value), I s → Done (genInit scope ty a) s v s' →
    I s' ∧ R s s' ∧ ConstIs (den s') a ty v
  | .undef, s, s', v, hi, h => by
    rw [genInit] at h
    obtain ⟨h1, h2, t, h3, h4⟩ := C.new (.undef ty) s v s' trivial hi h
    cases h4
    exact ⟨h1, h2, .undef h3⟩
  | .zero, s, s', v, hi, h => by
    rw [genInit] at h
    obtain ⟨h1, h2, t, h3, h4⟩ := C.new (.zeroInit ty) s v s' trivial hi h
    cases h4
    exact ⟨h1, h2, .zero h3⟩
  | .int n, s, s', v, hi, h => by
    rw [genInit] at h
    split at h
    · rename_i hty
      obtain ⟨h1, h2, t, h3, h4⟩ := C.new (.integer n) s v s' trivial hi h
      cases h4
      have : ty = .i32 := by cases ty <;> simp [Ty.isI32] at hty; rfl
      subst this
      exact ⟨h1, h2, .int h3⟩
    · exact h.fail.elim
  | .agg es, s, s', v, hi, h => by
    rw [genInit] at h
    obtain ⟨t, s1, h1, h⟩ := h.bind logs_aggElemTy
      (fun t => (Logs.bind (logs_genInits t es) (fun _ => logs_newVal.logs)).weak)
    obtain ⟨vs, s2, h2, h⟩ := h.bind (logs_genInits t es) (fun _ => logs_newVal.logs.weak)
    have h1' : s1 = s ∧ (ty = .array t es.length ∨ ty = .ptr t) := by
      unfold aggElemTy at h1
      split at h1
      · split at h1
        · obtain ⟨_, _, h3, _⟩ := h1.bind Calm.logError.logs (fun _ => Calm.pure.logs.weak)
          exact h3.logError.elim
        · rename_i hlen
          obtain ⟨rfl, rfl⟩ := h1.pure
          refine ⟨rfl, .inl ?_⟩
          rw [Decidable.not_not.1 hlen]
      · obtain ⟨rfl, rfl⟩ := h1.pure; exact ⟨rfl, .inr rfl⟩
      · exact h1.fail.elim
    obtain ⟨hs1, hty⟩ := h1'
    rw [hs1] at h2
    clear h1
    obtain ⟨i1, r1, l1, c1⟩ := genInits_sound C t es s s2 vs hi h2
    obtain ⟨i2, r2, t', d2, -⟩ := C.new (.aggregate vs) s2 v s' trivial i1 h
    refine ⟨i2, C.trans _ _ _ r1 r2, ?_⟩
    have hc : ∀ (i : Nat) (e : ValAst) (w : Value), es[i]? = some e → vs[i]? = some w →
        ConstIs (den s') e t w := fun i e w h1 h2 => (c1 i e w h1 h2).mono (fun v t k => C.mono _ _ v t k r2)
    rcases hty with rfl | rfl
    · exact .agg d2 l1 hc
    · exact .aggPtr d2 l1 hc
  | .sym _, s, s', v, hi, h => by
    rw [genInit] at h; exact h.panic.elim
theorem genInits_sound {scope : Option Func} {I : BS → Prop} {R : BS → BS → Prop}
    {den : BS → Value → Ty → VKind → Prop} (C : InitCtx scope I R den) (ty : Ty) :
    ∀ (es : List ValAst) (s s' : BS) (vs : List Value), I s → Done (genInits scope ty es) s vs s' →
    I s' ∧ R s s' ∧ vs.length = es.length ∧
      ∀ (i : Nat) (e : ValAst) (w : Value), es[i]? = some e → vs[i]? = some w → ConstIs (den s') e ty w
  | [], s, s', vs, hi, h => by
    rw [genInits] at h
    obtain ⟨rfl, rfl⟩ := h.pure
    exact ⟨hi, C.refl _ hi, rfl, by simp⟩
  | e :: es, s, s', vs, hi, h => by
    rw [genInits] at h
    obtain ⟨v, s1, h1, h⟩ := h.bind (logs_genInit ty e)
      (fun _ => (Logs.bind (logs_genInits ty es) (fun _ => Calm.pure.logs)).weak)
    obtain ⟨ws, s2, h2, h⟩ := h.bind (logs_genInits ty es) (fun _ => Calm.pure.logs.weak)
    obtain ⟨rfl, rfl⟩ := h.pure
    obtain ⟨i1, r1, c1⟩ := genInit_sound C ty e s s1 v hi h1
    obtain ⟨i2, r2, l2, c2⟩ := genInits_sound C ty es s1 s' ws i1 h2
    refine ⟨i2, C.trans _ _ _ r1 r2, by simp [l2], ?_⟩
    intro i e' w h3 h4
    cases i with
    | zero =>
      simp only [List.getElem?_cons_zero, Option.some.injEq] at h3 h4
      subst h3; subst h4
      exact c1.mono (fun v t k => C.mono _ _ v t k r2)
    | succ i => exact c2 i e' w (by simpa using h3) (by simpa using h4)
end

theorem localInitCtx (f : Func) : InitCtx (some f) (fun s => FInv s.prog) GenTo (fun s => LDenotes s.prog f) where
  refl _ h := .refl h
  trans _ _ _ h h' := h.trans h'
  mono _ _ _ _ _ h h' := h.ext.ext.ldenotes h'
  new i s v s' hr hi h := by
    have h1 := Done.newLocal (i := .val i) hi h hr
    obtain ⟨t, ht, -, hj⟩ := h1.val
    exact ⟨h1.to.inv, h1.to, t, view_ldenotes ht, hj i rfl⟩

theorem valueTy_sound {p : Program} {f : Func} {v : Value} {t : Ty} (h : p.valueTy f v = some t) :
    ∃ k, Denotes p f v t k := by
  unfold Program.valueTy at h
  split at h
  · obtain ⟨x, hx, rfl⟩ := Option.map_eq_some_iff.1 h
    exact ⟨x.kind, x, .inl hx, rfl, rfl⟩
  · split at h
    · simp at h
    · rename_i fd hf
      obtain ⟨x, hx, rfl⟩ := Option.map_eq_some_iff.1 h
      exact ⟨x.kind, x, .inr ⟨fd, hf, hx⟩, rfl, rfl⟩

theorem Done.valueTy {f : Func} {v : Value} {t : Ty} {s s' : BS} (h : Done (valueTy f v) s t s') :
    s' = s ∧ ∃ k, Denotes s.prog f v t k := by
  unfold Koopa.valueTy at h
  replace h := h.bind_get
  obtain ⟨h2, rfl⟩ := h.lift
  exact ⟨rfl, valueTy_sound h2⟩

theorem valueTys_sound {p : Program} {f : Func} : ∀ {vs : List Value} {ts : List Ty},
    p.valueTys f vs = some ts → All2 (HasTy p f) vs ts
  | [], ts, h => by simp only [Program.valueTys, Option.some.injEq] at h; subst h; exact .nil
  | v :: vs, ts, h => by
    rw [Program.valueTys] at h
    split at h
    · simp at h
    · rename_i fd hf
      split at h
      · simp at h
      · rename_i x hx
        split at h
        · simp at h
        · rename_i ts' ht
          simp only [Option.some.injEq] at h
          subst h
          exact .cons ⟨x, .inr ⟨fd, hf, hx⟩, rfl⟩ (valueTys_sound ht)

theorem Done.bbParamsTy {f : Func} {b : BB} {ts : List Ty} {s s' : BS} (h : Done (bbParamsTy f b) s ts s') :
    s' = s ∧ ParamTys s.prog f b ts := by
  unfold Koopa.bbParamsTy at h
  replace h := h.bind_get
  obtain ⟨h2, rfl⟩ := h.lift
  refine ⟨rfl, ?_⟩
  unfold Program.bbParamsTy Program.bbParams at h2
  split at h2
  · simp at h2
  · rename_i ps hps
    split at hps
    · simp at hps
    · rename_i fd hf
      obtain ⟨x, hx, rfl⟩ := Option.map_eq_some_iff.1 hps
      exact ⟨x, ⟨fd, hf, hx⟩, valueTys_sound h2⟩

theorem Done.genSymbol {n sy : Str} {v : Value} {s s' : BS} (h : Done (genSymbol n sy) s v s') :
    s' = s ∧ SymAt s n sy v := by
  unfold Koopa.genSymbol at h
  replace h := h.bind_get
  split at h
  · rename_i w hw
    obtain ⟨rfl, rfl⟩ := h.pure
    exact ⟨rfl, .inl hw⟩
  · rename_i hg
    obtain ⟨⟨r, vis⟩, h3, h4⟩ := h.bind_lift
    simp only at h4
    split at h4
    · obtain ⟨rfl, rfl⟩ := h4.pure
      obtain ⟨n', i, a, b, c, d⟩ := findLocal_meets h3
      exact ⟨rfl, .inr ⟨hg, n', i, a, b, c, d []⟩⟩
    · exact h4.fail.elim

theorem Done.genBb {n : Str} {b : BB} {s s' : BS} (h : Done (genBb n) s b s') :
    s' = s ∧ ∃ i, s.localBbs.get? n = some i ∧ i.bb = b := by
  unfold Koopa.genBb at h
  replace h := h.bind_get
  split at h
  · rename_i i hi
    obtain ⟨rfl, rfl⟩ := h.pure
    exact ⟨rfl, i, hi, rfl⟩
  · exact h.fail.elim

theorem Done.genValue {f : Func} {n : Str} {t : Ty} {a : ValAst} {v : Value} {s s' : BS} {r : Ty}
    (hi : FInv s.prog) (h : Done (genValue f n t a) s v s') :
    GenTo s s' ∧ OperandIs (stEnv s f n r s'.prog) a t v := by
  unfold Koopa.genValue at h
  split at h
  · obtain ⟨w, s1, h1, h5⟩ := h.bind logs_genSymbol (fun _ => Logs.weak (by logs_inst))
    obtain ⟨rfl, h2⟩ := h1.genSymbol
    obtain ⟨t', s2, h3, h6⟩ := h5.bind logs_valueTy.logs (fun _ => Logs.weak (by logs_inst))
    obtain ⟨rfl, k, h4⟩ := h3.valueTy
    split at h6
    · rename_i hc; subst hc
      obtain ⟨rfl, rfl⟩ := h6.pure
      exact ⟨.refl hi, .sym h2 h4⟩
    · exact h6.fail.elim
  · obtain ⟨-, h2, h3⟩ := genInit_sound (localInitCtx f) t a s s' v hi h
    exact ⟨h2, .const h3⟩

/-- What a statement refers to after a step. -/
theorem GenTo.env {s s' : BS} (h : GenTo s s') {f : Func} {n : Str} {r : Ty} {p : Program} :
    stEnv s' f n r p = stEnv s f n r p := by
  unfold stEnv
  congr 1
  · funext sy v; exact propext h.symAt
  · funext l b; rw [h.bbs]
  · funext l g; rw [h.gf]

theorem Done.genArgs {f : Func} {n : Str} {r : Ty} : ∀ {as : List ValAst} {ts : List Ty} {vs : List Value} {s s' : BS},
    FInv s.prog → Done (genArgs f n as ts) s vs s' →
    GenTo s s' ∧ (vs.length = ts.length → ArgsAre (stEnv s f n r s'.prog) as ts vs)
  | [], ts, vs, s, s', hi, h => by
    rw [Koopa.genArgs] at h
    obtain ⟨rfl, rfl⟩ := h.pure
    refine ⟨.refl hi, fun hl => ?_⟩
    cases ts with
    | nil => exact .nil
    | cons t ts => simp at hl
    all_goals simp
  | a :: as, [], vs, s, s', hi, h => by
    rw [Koopa.genArgs] at h
    obtain ⟨rfl, rfl⟩ := h.pure
    exact ⟨.refl hi, fun _ => .nil⟩
    all_goals simp
  | a :: as, t :: ts, vs, s, s', hi, h => by
    rw [Koopa.genArgs] at h
    obtain ⟨v, s1, h1, h⟩ := h.bind logs_genValue (fun _ => Logs.weak (by logs_inst))
    obtain ⟨ws, s2, h2, h⟩ := h.bind (logs_genArgs _ _) (fun _ => Logs.weak (by logs_inst))
    obtain ⟨rfl, rfl⟩ := h.pure
    obtain ⟨g1, o1⟩ := h1.genValue (r := r) hi
    obtain ⟨g2, o2⟩ := h2.genArgs (r := r) g1.inv
    refine ⟨g1.trans g2, fun hl => .cons (o1.mono (stEnv_le g2.ext.ext)) ?_⟩
    rw [← g1.env]
    exact o2 (by simpa using hl)

mutual
theorem genType_sound : ∀ {a : TyAst} {t : Ty}, genType a = some t → TyIs a t
  | .int, t, h => by simp only [genType, Option.some.injEq] at h; subst h; exact .int
  | .array b n, t, h => by
    rw [genType] at h
    split at h
    · simp at h
    · rename_i t' ht
      unfold Ty.getArray at h
      split at h
      · simp only [Option.some.injEq] at h
        subst h
        exact .array (genType_sound ht) ‹_›
      · simp at h
  | .pointer b, t, h => by
    rw [genType] at h
    split at h
    · simp at h
    · rename_i t' ht
      simp only [Option.some.injEq] at h
      subst h
      exact .pointer (genType_sound ht)
  | .func ps r, t, h => by
    rw [genType] at h
    split at h
    · simp at h
    · rename_i ts hts
      split at h
      · simp at h
      · rename_i t' ht
        simp only [Option.some.injEq] at h
        subst h
        exact .func (genTypes_sound hts) (genRetType_sound ht)
theorem genTypes_sound : ∀ {as : List TyAst} {ts : List Ty}, genTypes as = some ts → All2 TyIs as ts
  | [], ts, h => by simp only [genTypes, Option.some.injEq] at h; subst h; exact .nil
  | a :: as, ts, h => by
    rw [genTypes] at h
    split at h
    · simp at h
    · rename_i t ht
      split at h
      · simp at h
      · rename_i ts' hts
        simp only [Option.some.injEq] at h
        subst h
        exact .cons (genType_sound ht) (genTypes_sound hts)
theorem genRetType_sound : ∀ {a : Option TyAst} {t : Ty}, genRetType a = some t → RetIs TyIs a t
  | none, t, h => by simp only [genRetType, Option.some.injEq] at h; subst h; exact .none
  | some a, t, h => by rw [genRetType] at h; exact .some (genType_sound h)
end

/-! ### Generating instructions -/

/-- A kind that obeys its typing rule. -/
def LocalTyped (p : Program) (f : Func) (k : VKind) : Prop := ∃ t, InstTy (HasTy p f) (ParamTys p f) (FuncTy p) k t

/-- A new local value and the constants it uses. -/
structure NewInst (f : Func) (s : BS) (v : Value) (s' : BS) (Q : Ty → VKind → Prop) : Prop where
  to : GenTo s s'
  lo : s.prog.ids.nextLocal ≤ v
  next : s'.prog.ids.nextLocal = v + 1
  val : ∃ t k, s'.prog.view.l f v = some (t, none, k) ∧ Q t k

theorem NewLocal.inst {f : Func} {i : LocalInst} {s s1 s' : BS} {v : Value} {Q : Ty → VKind → Prop}
    (h : NewLocal f i s1 v s') (h0 : GenTo s s1)
    (hQ : ∀ t, (∀ t', i = .alloc t' → t = .ptr t') → LocalTyped s'.prog f i.toKind → Q t i.toKind) : NewInst f s v s' Q := by
  obtain ⟨t, h1, h2, -⟩ := h.val
  refine ⟨h0.trans h.to, by rw [h.handle]; exact h0.ext.nextLocal, h.next, t, _, h1, hQ t h2 ?_⟩
  obtain ⟨x, hx, hs⟩ := view_l_iff.1 h1
  have := h.to.inv.wellTyped.locals f v x hx
  rw [show x.kind = i.toKind from congrArg (·.2.2) hs] at this
  exact ⟨_, this⟩

theorem LocalTyped.call {p : Program} {f g : Func} {vs : List Value} (h : LocalTyped p f (.call g vs))
    {ts : List Ty} {r : Ty} (hf : FuncTy p g (.func ts r)) : vs.length = ts.length := by
  obtain ⟨t, h⟩ := h
  cases h with
  | call h1 h2 =>
    obtain ⟨fd, h3, h4⟩ := h1
    obtain ⟨fd', h5, h6⟩ := hf
    rw [h3] at h5; cases h5
    rw [h4] at h6; cases h6
    exact h2.length

theorem paramTys_length {p : Program} {f : Func} {b : BB} {ts ts' : List Ty} (h : ParamTys p f b ts)
    (h' : ParamTys p f b ts') : ts.length = ts'.length := by
  obtain ⟨x, ⟨fd, h1, h2⟩, h3⟩ := h
  obtain ⟨x', ⟨fd', h1', h2'⟩, h3'⟩ := h'
  rw [h1] at h1'; cases h1'
  rw [h2] at h2'; cases h2'
  rw [← h3.length, h3'.length]

theorem LocalTyped.jump {p : Program} {f : Func} {b : BB} {vs : List Value} (h : LocalTyped p f (.jump b vs))
    {ts : List Ty} (hf : ParamTys p f b ts) : vs.length = ts.length := by
  obtain ⟨t, h⟩ := h
  cases h with
  | jump h1 h2 => rw [h2.length, paramTys_length h1 hf]

theorem LocalTyped.branch {p : Program} {f : Func} {c : Value} {b b' : BB} {vs vs' : List Value}
    (h : LocalTyped p f (.branch c b b' vs vs')) {ts ts' : List Ty} (hf : ParamTys p f b ts)
    (hf' : ParamTys p f b' ts') : vs.length = ts.length ∧ vs'.length = ts'.length := by
  obtain ⟨t, h⟩ := h
  cases h with
  | branch h0 h1 h2 h3 h4 _ =>
    exact ⟨by rw [h3.length, paramTys_length h1 hf], by rw [h4.length, paramTys_length h2 hf']⟩

theorem Done.genCall {f : Func} {n fn : Str} {args : List ValAst} {r : Ty} {v : Value} {s s' : BS}
    (hi : FInv s.prog) (h : Done (genCall f n fn args) s v s') :
    NewInst f s v s' (ExprIs (stEnv s f n r s'.prog) (.call fn args)) := by
  unfold Koopa.genCall at h
  replace h := h.bind_get
  split at h
  · exact h.fail.elim
  · rename_i g hg
    obtain ⟨fd, hf, h1⟩ := h.bind_lift
    split at h1
    · rename_i tys rt hty
      obtain ⟨vs, s1, h2, h3⟩ := h1.bind (logs_genArgs _ _) (fun _ => Logs.weak (by logs_inst))
      obtain ⟨g1, o1⟩ := h2.genArgs (r := r) hi
      have h4 := h3.newLocal g1.inv trivial
      have hft : FuncTy s'.prog g (.func tys rt) := (g1.trans h4.to).ext.ext.funcTy ⟨fd, hf, hty⟩
      exact h4.inst g1 fun t _ ht =>
        .call hg hft ((o1 (ht.call hft)).mono (stEnv_le h4.to.ext.ext))
    · exact h1.panic.elim

theorem Done.genInst {f : Func} {n : Str} {e : ExprAst} {r : Ty} {v : Value} {s s' : BS}
    (hi : FInv s.prog) (h : Done (genInst f n e) s v s') :
    NewInst f s v s' (ExprIs (stEnv s f n r s'.prog) e) := by
  unfold Koopa.genInst at h
  split at h
  · unfold genAlloc at h
    obtain ⟨t, ht, h1⟩ := h.bind_lift
    have h2 := h1.newLocal hi trivial
    refine h2.inst (.refl hi) fun t' h3 _ => ?_
    rw [h3 t rfl]
    exact .alloc (genType_sound ht)
  · unfold genLoad at h
    obtain ⟨a, s1, h1, h2⟩ := h.bind logs_genSymbol (fun _ => Logs.weak (by logs_inst))
    obtain ⟨rfl, o1⟩ := h1.genSymbol
    obtain ⟨t, s2, h3, h4⟩ := h2.bind logs_valueTy.logs (fun _ => Logs.weak (by logs_inst))
    obtain ⟨rfl, k, h5⟩ := h3.valueTy
    split at h4
    · have h6 := h4.newLocal hi trivial
      exact h6.inst (.refl hi) fun _ _ _ => .load o1
    · exact h4.fail.elim
  · unfold genGetPtr at h
    obtain ⟨a, s1, h1, h2⟩ := h.bind logs_genSymbol (fun _ => Logs.weak (by logs_inst))
    obtain ⟨rfl, o1⟩ := h1.genSymbol
    obtain ⟨t, s2, h3, h4⟩ := h2.bind logs_valueTy.logs (fun _ => Logs.weak (by logs_inst))
    obtain ⟨rfl, k, h5⟩ := h3.valueTy
    split at h4
    · obtain ⟨i, s3, h6, h7⟩ := h4.bind logs_genValue (fun _ => Logs.weak (by logs_inst))
      obtain ⟨g1, o2⟩ := h6.genValue (r := r) hi
      have h8 := h7.newLocal g1.inv trivial
      exact h8.inst g1 fun _ _ _ => .getPtr o1 (o2.mono (stEnv_le h8.to.ext.ext))
    · exact h4.fail.elim
  · unfold genGetElemPtr at h
    obtain ⟨a, s1, h1, h2⟩ := h.bind logs_genSymbol (fun _ => Logs.weak (by logs_inst))
    obtain ⟨rfl, o1⟩ := h1.genSymbol
    obtain ⟨t, s2, h3, h4⟩ := h2.bind logs_valueTy.logs (fun _ => Logs.weak (by logs_inst))
    obtain ⟨rfl, k, h5⟩ := h3.valueTy
    split at h4
    · obtain ⟨i, s3, h6, h7⟩ := h4.bind logs_genValue (fun _ => Logs.weak (by logs_inst))
      obtain ⟨g1, o2⟩ := h6.genValue (r := r) hi
      have h8 := h7.newLocal g1.inv trivial
      exact h8.inst g1 fun _ _ _ => .getElemPtr o1 (o2.mono (stEnv_le h8.to.ext.ext))
    · exact h4.fail.elim
  · unfold genBinary at h
    obtain ⟨a, s1, h1, h2⟩ := h.bind logs_genValue (fun _ => Logs.weak (by logs_inst))
    obtain ⟨g1, o1⟩ := h1.genValue (r := r) hi
    obtain ⟨b, s2, h3, h4⟩ := h2.bind logs_genValue (fun _ => Logs.weak (by logs_inst))
    obtain ⟨g2, o2⟩ := h3.genValue (r := r) g1.inv
    have h5 := h4.newLocal g2.inv trivial
    rw [g1.env] at o2
    exact h5.inst (g1.trans g2) fun _ _ _ =>
      .binary (o1.mono (stEnv_le (g2.trans h5.to).ext.ext)) (o2.mono (stEnv_le h5.to.ext.ext))
  · exact h.genCall hi

theorem Done.genStore {f : Func} {n sy : Str} {a : ValAst} {r : Ty} {v : Value} {s s' : BS}
    (hi : FInv s.prog) (h : Done (genStore f n a sy) s v s') :
    NewInst f s v s' (StmtIs (stEnv s f n r s'.prog) (.store a sy)) := by
  unfold Koopa.genStore at h
  obtain ⟨a, s1, h1, h2⟩ := h.bind logs_genSymbol (fun _ => Logs.weak (by logs_inst))
  obtain ⟨rfl, o1⟩ := h1.genSymbol
  obtain ⟨t, s2, h3, h4⟩ := h2.bind logs_valueTy.logs (fun _ => Logs.weak (by logs_inst))
  obtain ⟨rfl, k, h5⟩ := h3.valueTy
  split at h4
  · obtain ⟨i, s3, h6, h7⟩ := h4.bind logs_genValue (fun _ => Logs.weak (by logs_inst))
    obtain ⟨g1, o2⟩ := h6.genValue (r := r) hi
    have h8 := h7.newLocal g1.inv trivial
    exact h8.inst g1 fun _ _ _ =>
      .store o1 ((g1.trans h8.to).ext.ext.denotes h5) (o2.mono (stEnv_le h8.to.ext.ext))
  · exact h4.fail.elim

theorem Done.genBranch {f : Func} {n tn fn : Str} {c : ValAst} {ta fa : List ValAst} {r : Ty} {v : Value} {s s' : BS}
    (hi : FInv s.prog) (h : Done (genBranch f n c tn ta fn fa) s v s') :
    NewInst f s v s' (StmtIs (stEnv s f n r s'.prog) (.branch c tn ta fn fa)) := by
  unfold Koopa.genBranch at h
  obtain ⟨cv, s1, h1, h2⟩ := h.bind logs_genValue (fun _ => Logs.weak (by logs_inst))
  obtain ⟨g1, o1⟩ := h1.genValue (r := r) hi
  obtain ⟨tb, s2, h3, h4⟩ := h2.bind logs_genBb (fun _ => Logs.weak (by logs_inst))
  obtain ⟨rfl, b1⟩ := h3.genBb
  obtain ⟨ts, s3, h5, h6⟩ := h4.bind logs_bbParamsTy.logs (fun _ => Logs.weak (by logs_inst))
  obtain ⟨rfl, p1⟩ := h5.bbParamsTy
  obtain ⟨tv, s4, h7, h8⟩ := h6.bind (logs_genArgs _ _) (fun _ => Logs.weak (by logs_inst))
  obtain ⟨g2, a1⟩ := h7.genArgs (r := r) g1.inv
  obtain ⟨fb, s5, h9, h10⟩ := h8.bind logs_genBb (fun _ => Logs.weak (by logs_inst))
  obtain ⟨rfl, b2⟩ := h9.genBb
  obtain ⟨fs, s6, h11, h12⟩ := h10.bind logs_bbParamsTy.logs (fun _ => Logs.weak (by logs_inst))
  obtain ⟨rfl, p2⟩ := h11.bbParamsTy
  obtain ⟨fv, s7, h13, h14⟩ := h12.bind (logs_genArgs _ _) (fun _ => Logs.weak (by logs_inst))
  obtain ⟨g3, a2⟩ := h13.genArgs (r := r) g2.inv
  split at h14
  · exact h14.fail.elim
  · have h15 := h14.newLocal g3.inv trivial
    have e1 := (g2.trans g3).trans h15.to
    have e2 := g3.trans h15.to
    have p1' := e1.ext.ext.paramTys p1
    have p2' := e2.ext.ext.paramTys p2
    rw [g1.env] at a1
    rw [(g1.trans g2).env] at a2
    rw [g1.bbs] at b1
    rw [(g1.trans g2).bbs] at b2
    refine h15.inst ((g1.trans g2).trans g3) fun _ _ ht => ?_
    obtain ⟨l1, l2⟩ := ht.branch p1' p2'
    exact .branch (o1.mono (stEnv_le e1.ext.ext)) b1 p1' ((a1 l1).mono (stEnv_le e2.ext.ext)) b2 p2'
      ((a2 l2).mono (stEnv_le h15.to.ext.ext))

theorem Done.genJump {f : Func} {n tn : Str} {ta : List ValAst} {r : Ty} {v : Value} {s s' : BS}
    (hi : FInv s.prog) (h : Done (genJump f n tn ta) s v s') :
    NewInst f s v s' (StmtIs (stEnv s f n r s'.prog) (.jump tn ta)) := by
  unfold Koopa.genJump at h
  obtain ⟨tb, s2, h3, h4⟩ := h.bind logs_genBb (fun _ => Logs.weak (by logs_inst))
  obtain ⟨rfl, b1⟩ := h3.genBb
  obtain ⟨ts, s3, h5, h6⟩ := h4.bind logs_bbParamsTy.logs (fun _ => Logs.weak (by logs_inst))
  obtain ⟨rfl, p1⟩ := h5.bbParamsTy
  obtain ⟨tv, s4, h7, h8⟩ := h6.bind (logs_genArgs _ _) (fun _ => Logs.weak (by logs_inst))
  obtain ⟨g2, a1⟩ := h7.genArgs (r := r) hi
  have h15 := h8.newLocal g2.inv trivial
  have p1' := (g2.trans h15.to).ext.ext.paramTys p1
  refine h15.inst g2 fun _ _ ht => ?_
  exact .jump b1 p1' ((a1 (ht.jump p1')).mono (stEnv_le h15.to.ext.ext))

theorem isUnit_iff {t : Ty} : t.isUnit = true ↔ t = .unit := by cases t <;> simp [Ty.isUnit]

theorem Done.genReturn {f : Func} {n : Str} {r : Ty} {a : Option ValAst} {v : Value} {s s' : BS}
    (hi : FInv s.prog) (h : Done (genReturn f n r a) s v s') :
    NewInst f s v s' (StmtIs (stEnv s f n r s'.prog) (.ret a)) := by
  unfold Koopa.genReturn at h
  split at h
  · exact h.fail.elim
  · rename_i hc1
    split at h
    · exact h.fail.elim
    · rename_i hc2
      split at h
      · have h15 := h.newLocal hi trivial
        refine h15.inst (.refl hi) fun _ _ _ => .retNone ?_
        have : r = .unit := by simpa [isUnit_iff] using hc1
        exact this
      · rename_i a
        obtain ⟨v, s1, h1, h2⟩ := h.bind logs_genValue (fun _ => Logs.weak (by logs_inst))
        obtain ⟨g1, o1⟩ := h1.genValue (r := r) hi
        have h15 := h2.newLocal g1.inv trivial
        refine h15.inst g1 fun _ _ _ => .ret ?_ (o1.mono (stEnv_le h15.to.ext.ext))
        intro hu
        have hu : r = .unit := hu
        subst hu
        simp [isUnit_iff] at hc2

/-- What a statement does. -/
structure StmtDone (f : Func) (n : Str) (r : Ty) (st : StmtAst) (s : BS) (v : Value) (s' : BS) : Prop where
  inv : FInv s'.prog
  ext : GenExt s.prog s'.prog
  gv : s'.globalVars = s.globalVars
  gf : s'.globalFuncs = s.globalFuncs
  bbs : (∀ d e, st ≠ .def d e) → s'.localBbs = s.localBbs
  syms : (∀ d e, st ≠ .def d e) → s'.localSyms = s.localSyms
  bbsDef : ∀ d e, st = .def d e → ∃ i, s.localBbs.get? n = some i ∧
    s'.localBbs = s.localBbs.insert n { i with localDefs := i.localDefs.insert d v }
  symsDef : ∀ d e, st = .def d e → s'.localSyms = d :: s.localSyms ∧ d ∉ s.localSyms ∧ s.globalVars.get? d = none
  lo : s.prog.ids.nextLocal ≤ v
  hi : v < s'.prog.ids.nextLocal
  val : ∃ t k, s'.prog.view.l f v = some (t, stmtName st, k) ∧ StmtIs (stEnv s f n r s'.prog) st t k

theorem NewInst.stmt {f : Func} {n : Str} {r : Ty} {st : StmtAst} {s : BS} {v : Value} {s' : BS}
    (h : NewInst f s v s' (StmtIs (stEnv s f n r s'.prog) st)) (hd : ∀ d e, st ≠ .def d e) : StmtDone f n r st s v s' := by
  refine ⟨h.to.inv, h.to.ext, h.to.gv, h.to.gf, fun _ => h.to.bbs, fun _ => h.to.syms, fun d e he => absurd he (hd d e),
    fun d e he => absurd he (hd d e), h.lo, by rw [h.next]; exact Nat.lt_succ_self _, ?_⟩
  obtain ⟨t, k, h1, h2⟩ := h.val
  refine ⟨t, k, ?_, h2⟩
  rw [h1]
  cases st <;> first | rfl | exact absurd rfl (hd _ _)

theorem Done.defineSym {d : Str} {u : Unit} {s s' : BS} (h : Done (defineSym d) s u s') :
    s' = { s with localSyms := d :: s.localSyms } ∧ d ∉ s.localSyms ∧ s.globalVars.get? d = none := by
  unfold Koopa.defineSym at h
  replace h := h.bind_get
  split at h
  · exact h.logError.elim
  · rename_i hc
    split at h
    · exact h.logError.elim
    · rename_i hd
      exact ⟨h.modify, hd, by simpa [Map.contains] using hc⟩

theorem isTemp_eq (n : Str) : isTemp n = temporary n := by
  unfold isTemp temporary isNum
  congr 1

theorem tempName_eq (n : Str) : tempName n = keptName n := by
  unfold tempName keptName; rw [isTemp_eq]

theorem Done.genDef {f : Func} {n d : Str} {r : Ty} {e : ExprAst} {v : Value} {s s' : BS}
    (hi : FInv s.prog) (h : Done (genDef f n d e) s v s') : StmtDone f n r (.def d e) s v s' := by
  unfold Koopa.genDef at h
  obtain ⟨u, s1, h1, h2⟩ := h.bind logs_defineSym.logs (fun _ => LogsW.mk fun s r s' hr => by
    refine (Logs.weak ?_).run s r s' hr
    refine (logs_genInst e).bind fun _ => logs_valueTy.logs.bind fun _ => ?_
    split
    · exact Logs.fail
    · exact logs_nameLocal.logs.bind fun _ => logs_recordDef.logs.bind fun _ => Calm.pure.logs)
  obtain ⟨rfl, hnew, hng⟩ := h1.defineSym
  obtain ⟨w, s2, h3, h4⟩ := h2.bind (logs_genInst e) (fun _ => Logs.weak (by
    refine logs_valueTy.logs.bind fun _ => ?_
    split
    · exact Logs.fail
    · exact logs_nameLocal.logs.bind fun _ => logs_recordDef.logs.bind fun _ => Calm.pure.logs))
  have g1 := h3.genInst (r := r) (by exact hi)
  obtain ⟨t, s3, h5, h6⟩ := h4.bind logs_valueTy.logs (fun _ => Logs.weak (by
    split
    · exact Logs.fail
    · exact logs_nameLocal.logs.bind fun _ => logs_recordDef.logs.bind fun _ => Calm.pure.logs))
  obtain ⟨rfl, k, h7⟩ := h5.valueTy
  split at h6
  · exact h6.fail.elim
  · rename_i hu
    obtain ⟨_, s4, h8, h9⟩ := h6.bind logs_nameLocal.logs (fun _ =>
      (logs_recordDef.logs.bind fun _ => Calm.pure.logs).weak)
    obtain ⟨_, s5, h10, h11⟩ := h9.bind logs_recordDef.logs (fun _ => Calm.pure.logs.weak)
    obtain ⟨rfl, rfl⟩ := h11.pure
    obtain ⟨t', k', h12, h13⟩ := g1.val
    -- naming
    have hname : ∃ p, s4 = { s3 with prog := p } ∧ FInv p ∧
        p.view = { s3.prog.view with l := fun f' w => if f' = f ∧ w = v then some (t', keptName d, k') else s3.prog.view.l f' w } := by
      unfold nameLocal at h8
      split at h8
      · rename_i ht
        obtain ⟨-, rfl⟩ := h8.pure
        refine ⟨s4.prog, rfl, g1.to.inv, ?_⟩
        have hk : keptName d = none := by unfold keptName; rw [← isTemp_eq, ht]; rfl
        rw [hk]
        have : (fun f' w => if f' = f ∧ w = v then some (t', none, k') else s4.prog.view.l f' w) = s4.prog.view.l := by
          funext f' w
          split
          · rename_i hc; obtain ⟨rfl, rfl⟩ := hc; exact h12.symm
          · rfl
        rw [this]
      · rename_i ht
        obtain ⟨p, hp, rfl⟩ := h8.api'
        refine ⟨p, rfl, g1.to.inv.setLocalName hp, ?_⟩
        obtain ⟨t0, n0, k0, h14, h15⟩ := setLocalName_view hp
        rw [h12] at h14
        cases h14
        rw [h15]
        have hk : keptName d = some d := by
          unfold keptName; rw [← isTemp_eq]; simp [ht]
        rw [hk]
    obtain ⟨p, rfl, hpi, hpv⟩ := hname
    have hrec : ∃ i, s.localBbs.get? n = some i ∧
        s' = { { s3 with prog := p } with localBbs := s.localBbs.insert n { i with localDefs := i.localDefs.insert d v } } := by
      unfold recordDef at h10
      replace h10 := h10.bind_get
      have hb : s3.localBbs = s.localBbs := g1.to.bbs
      split at h10
      · exact h10.panic.elim
      · rename_i i hi'
        refine ⟨i, by rw [← hb]; exact hi', ?_⟩
        rw [h10.modify]
        simp only [hb]
    obtain ⟨i, hi1, rfl⟩ := hrec
    have hlo : s.prog.ids.nextLocal ≤ v := g1.lo
    have hidp : p.ids = s3.prog.ids := congrArg View.ids hpv
    have hext : GenExt s.prog p := by
      have e := g1.to.ext
      have e1 : ∀ f' w x, s.prog.view.l f' w = some x → p.view.l f' w = some x := by
        intro f' w x hx
        rw [hpv]; simp only
        rw [if_neg]
        · exact e.l f' w x hx
        · rintro ⟨rfl, rfl⟩
          have := (hi.lRange hx).2; omega
      refine ⟨?_, e1, ?_, by rw [hidp]; exact e.nextLocal⟩
      · conv => lhs; rw [hpv, e.view]
        rw [hidp, hpv]
      · intro f' w x hx
        rw [hpv] at hx; simp only at hx
        split at hx
        · rename_i hc; obtain ⟨rfl, rfl⟩ := hc; exact .inr hlo
        · exact e.fresh f' w x hx
    refine ⟨hpi, hext, g1.to.gv, g1.to.gf, fun hd => absurd rfl (hd _ _), fun hd => absurd rfl (hd _ _), ?_, ?_, hlo, ?_, ?_⟩
    · rintro d' e' ⟨⟩; exact ⟨i, hi1, rfl⟩
    · rintro d' e' ⟨⟩; exact ⟨g1.to.syms, hnew, hng⟩
    · show v < p.ids.nextLocal
      rw [hidp, g1.next]; exact Nat.lt_succ_self _
    · refine ⟨t', k', ?_, ?_⟩
      · show p.view.l f v = _
        rw [hpv]; simp [stmtName]
      · have hle : (stEnv s f n r s3.prog).Le (stEnv s f n r p) := by
          have hs : ∀ f' w x, s3.prog.view.l f' w = some x → ∃ m, p.view.l f' w = some (x.1, m, x.2.2) := by
            intro f' w x hx
            rw [hpv]; simp only
            split
            · rename_i hc; obtain ⟨rfl, rfl⟩ := hc
              rw [h12] at hx; cases hx; exact ⟨_, rfl⟩
            · exact ⟨x.2.1, hx⟩
          have hden : ∀ w t k, Denotes s3.prog f w t k → Denotes p f w t k := by
            rintro w t k ⟨x, hx | hx, rfl, rfl⟩
            · have : p.view.g w = some x.shape := by rw [hpv]; exact view_g_iff.2 ⟨x, hx, rfl⟩
              obtain ⟨x', h1, h2⟩ := view_g_iff.1 this
              exact ⟨x', .inl h1, shape_ty h2, shape_kind h2⟩
            · obtain ⟨m, hm⟩ := hs f w _ (view_l_iff.2 ⟨x, hx, rfl⟩)
              exact view_denotes hm
          have hlit : ∀ w t k, LDenotes s3.prog f w t k → LDenotes p f w t k := by
            rintro w t k ⟨x, hx, rfl, rfl⟩
            obtain ⟨m, hm⟩ := hs f w _ (view_l_iff.2 ⟨x, hx, rfl⟩)
            exact view_ldenotes hm
          refine ⟨hden, hlit, fun _ _ h => h, fun _ _ h => h, ?_, fun _ _ h => h, ?_, rfl⟩
          · rintro b ts ⟨x, hx, ha⟩
            have : p.view.b f b = some (x.name, x.params) := by rw [hpv]; exact view_b_iff.2 ⟨x, hx, rfl, rfl⟩
            obtain ⟨x', h1, -, h2⟩ := view_b_iff.1 this
            refine ⟨x', h1, ?_⟩
            rw [h2]
            refine ha.mono fun w t hw => ?_
            obtain ⟨k, hk⟩ := denotes_hasTy.1 hw
            exact denotes_hasTy.2 ⟨k, hden _ _ _ hk⟩
          · rintro g t ⟨fd, hf, he⟩
            have : p.view.head g = some (t, fd.name, fd.params) := by
              rw [hpv]; exact view_head_iff.2 ⟨fd, hf, he, rfl, rfl⟩
            obtain ⟨fd', h1, h2, -, -⟩ := view_head_iff.1 this
            exact ⟨fd', h1, h2⟩
        have hut : t' ≠ .unit := by
          have : t' = t := by
            obtain ⟨x, hx, hs⟩ := view_l_iff.1 h12
            obtain ⟨y, hy | hy, rfl, -⟩ := h7
            · have h1 := g1.to.inv.gRange (view_g_iff.2 ⟨y, hy, rfl⟩)
              have h2 := g1.to.inv.lRange h12
              have := g1.to.inv.max; omega
            · obtain ⟨fd, a, b⟩ := hx
              obtain ⟨fd', a', b'⟩ := hy
              rw [a] at a'; cases a'
              rw [b] at b'; cases b'
              exact (congrArg (·.1) hs).symm
          subst this
          intro h; exact hu (isUnit_iff.2 h)
        exact .def (h13.mono hle) hut

theorem Done.genStmt {f : Func} {n : Str} {r : Ty} {st : StmtAst} {v : Value} {s s' : BS}
    (hi : FInv s.prog) (h : Done (genStmt f n r st) s v s') : StmtDone f n r st s v s' := by
  unfold Koopa.genStmt at h
  split at h
  · exact (h.genStore hi).stmt (by simp)
  · exact (h.genBranch hi).stmt (by simp)
  · exact (h.genJump hi).stmt (by simp)
  · have h1 := h.genCall (r := r) hi
    refine NewInst.stmt ⟨h1.to, h1.lo, h1.next, ?_⟩ (by simp)
    obtain ⟨t, k, a, b⟩ := h1.val
    exact ⟨t, k, a, .call b⟩
  · exact (h.genReturn hi).stmt (by simp)
  · exact h.throw.elim
  · exact h.genDef hi

end Koopa
