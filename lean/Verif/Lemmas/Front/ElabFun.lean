import Verif.Lemmas.Front.ElabStmt
import Verif.Lemmas.Front.Bfs
/-!
Functions: what the generator makes of a function definition is the function that is written.
-/
namespace Koopa
open Spec

/-! ### Lists -/

theorem Spec.All2.of_get {α β : Type} {R : α → β → Prop} : ∀ {as : List α} {bs : List β}, as.length = bs.length →
    (∀ (i : Nat) a b, as[i]? = some a → bs[i]? = some b → R a b) → All2 R as bs
  | [], [], _, _ => .nil
  | [], _ :: _, h, _ => by simp at h
  | _ :: _, [], h, _ => by simp at h
  | a :: as, b :: bs, hl, h =>
    .cons (h 0 a b rfl rfl) (All2.of_get (by simpa using hl) fun i a b h1 h2 => h (i + 1) a b (by simpa using h1) (by simpa using h2))

theorem Spec.All2.get {α β : Type} {R : α → β → Prop} {as : List α} {bs : List β} (h : All2 R as bs) :
    ∀ (i : Nat) a b, as[i]? = some a → bs[i]? = some b → R a b := by
  induction h with
  | nil => intro i a b h; simp at h
  | cons h _ ih =>
    intro i a b h1 h2
    cases i with
    | zero => simp at h1 h2; subst h1; subst h2; exact h
    | succ i => exact ih i a b (by simpa using h1) (by simpa using h2)

theorem setInsts_get {b : BB} {is is0 : List Value} : ∀ {l : List (BB × List Value)} {j : Nat},
    (l.map (·.1)).Nodup → l[j]? = some (b, is0) → ∀ q, (setInsts b is l)[q]? = if q = j then some (b, is) else l[q]?
  | [], j, _, h, q => by simp at h
  | (b', is') :: l, j, hn, h, q => by
    rw [List.map_cons, List.nodup_cons] at hn
    rw [setInsts]
    cases j with
    | zero =>
      simp only [List.getElem?_cons_zero, Option.some.injEq, Prod.mk.injEq] at h
      obtain ⟨rfl, rfl⟩ := h
      rw [if_pos rfl]
      cases q with
      | zero => simp
      | succ q => simp
    | succ j =>
      simp only [List.getElem?_cons_succ] at h
      have hne : b' ≠ b := by
        rintro rfl
        exact hn.1 (List.mem_map.2 ⟨_, List.mem_of_getElem? h, rfl⟩)
      rw [if_neg hne]
      cases q with
      | zero => simp
      | succ q => simp only [List.getElem?_cons_succ, Nat.add_right_cancel_iff]; exact setInsts_get hn.2 h q

theorem setInsts_length {b : BB} {is : List Value} : ∀ {l : List (BB × List Value)}, (setInsts b is l).length = l.length
  | [] => rfl
  | (b', is') :: l => by
    rw [setInsts]; split
    · rfl
    · simp [setInsts_length]

theorem Map.mem_keys {κ ν : Type} [DecidableEq κ] {m : Map κ ν} {k : κ} : k ∈ m.keys ↔ (m.get? k).isSome := by
  unfold Map.keys Map.get?
  induction m.entries with
  | nil => simp [Map.lookup]
  | cons p l ih =>
    obtain ⟨a, b⟩ := p
    simp only [List.map_cons, List.mem_cons, Map.lookup]
    by_cases h : a = k
    · simp [h]
    · simp only [if_neg h, ih]
      constructor
      · rintro (rfl | h1)
        · exact absurd rfl h
        · exact h1
      · exact .inr

theorem Done.each_cons {α β : Type} {m : α → B β} (hm : ∀ a, Calm (m a)) {a : α} {as : List α} {s s' : BS} {bs : List β}
    (h : Done (B.each m (a :: as)) s bs s') : ∃ b bs' s1, Done (m a) s b s1 ∧ Done (B.each m as) s1 bs' s' := by
  rw [B.each] at h
  obtain ⟨b, s1, h1, h2⟩ := h.bind (hm a).logs (fun _ => (Calm.bind (Calm.each hm as) fun _ => Calm.pure).logs.weak)
  obtain ⟨bs', s2, h3, h4⟩ := h2.bind (Calm.each hm as).logs (fun _ => Calm.pure.logs.weak)
  obtain ⟨rfl, rfl⟩ := h4.pure
  exact ⟨b, bs', s1, h1, h3⟩

theorem Done.each_nil {α β : Type} {m : α → B β} {s s' : BS} {bs : List β}
    (h : Done (B.each m []) s bs s') : s' = s := h.pure.2

/-! ### Parameters -/

theorem genParams_sound : ∀ {ps : List (Str × TyAst)} {qs : List (Option Str × Ty)}, genParams ps = some qs →
    qs.length = ps.length ∧ ∀ (i : Nat) (q : Str × TyAst), ps[i]? = some q →
      ∃ t, qs[i]? = some (keptName q.1, t) ∧ TyIs q.2 t
  | [], qs, h => by simp only [genParams, Option.some.injEq] at h; subst h; simp
  | (n, a) :: ps, qs, h => by
    rw [genParams] at h
    split at h
    · simp at h
    · rename_i t ht
      split at h
      · simp at h
      · rename_i qs' hq
        simp only [Option.some.injEq] at h
        subst h
        obtain ⟨h1, h2⟩ := genParams_sound hq
        refine ⟨by simp [h1], ?_⟩
        intro i q hi
        cases i with
        | zero =>
          simp only [List.getElem?_cons_zero, Option.some.injEq] at hi
          subst hi
          exact ⟨t, by simp [tempName_eq], genType_sound ht⟩
        | succ i => simpa using h2 i q (by simpa using hi)

theorem paramsFrom {p : Program} {f : Func} {k : Nat → VKind} {ps : List (Str × TyAst)} {qs : List (Option Str × Ty)}
    {next : Nat} (hq : genParams ps = some qs)
    (hl : ∀ w s, paramSig k next 0 qs w = some s → p.view.l f w = some s) :
    ParamsFrom p f k ps (paramHandles next qs.length) := by
  obtain ⟨h1, h2⟩ := genParams_sound hq
  refine ⟨by simp [paramHandles, h1], ?_⟩
  intro i q v hi hv
  obtain ⟨t, ht, ha⟩ := h2 i q hi
  have hv : v = next + i := by
    unfold paramHandles at hv
    by_cases hlt : i < qs.length
    · rw [List.getElem?_range' hlt] at hv
      simpa using hv.symm
    · rw [List.getElem?_eq_none (by simpa using hlt)] at hv
      simp at hv
  subst hv
  have : paramSig k next 0 qs (next + i) = some (t, keptName q.1, k i) := by
    unfold paramSig
    rw [if_neg (by omega), show next + i - next = i by omega, ht]
    simp
  obtain ⟨x, hx, hs⟩ := view_l_iff.1 (hl _ _ this)
  exact ⟨x, hx, congrArg (·.2.1) hs, by rw [show x.ty = t from congrArg (·.1) hs]; exact ha, congrArg (·.2.2) hs⟩

theorem Ext.paramFrom {p p' : Program} (h : Ext p p') {f : Func} {k : Nat → VKind} {i : Nat} {q : Str × TyAst} {v : Value}
    (hp : ParamFrom p f k i q v) : ParamFrom p' f k i q v := by
  obtain ⟨x, hx, h1, h2, h3⟩ := hp
  obtain ⟨x', hx', hs⟩ := h.localVal hx
  exact ⟨x', hx', (shape_name hs).trans h1, by rw [shape_ty hs]; exact h2, (shape_kind hs).trans h3⟩

theorem Ext.paramsFrom {p p' : Program} (h : Ext p p') {f : Func} {k : Nat → VKind} {ps : List (Str × TyAst)}
    {vs : List Value} (hp : ParamsFrom p f k ps vs) : ParamsFrom p' f k ps vs :=
  ⟨hp.1, fun i q v h1 h2 => h.paramFrom (hp.2 i q v h1 h2)⟩

/-! ### Growing layouts -/

/-- Instructions are only appended. -/
structure Appends (lay lay' : List (BB × List Value)) : Prop where
  length : lay'.length = lay.length
  at' : ∀ (q : Nat) (h : BB) (is : List Value), lay[q]? = some (h, is) → ∃ is2, lay'[q]? = some (h, is ++ is2)

theorem Appends.refl (lay : List (BB × List Value)) : Appends lay lay := ⟨rfl, fun _ _ is h => ⟨[], by simpa using h⟩⟩

theorem definesMono {p p' : Program} {f : Func} {params : List (Str × TyAst)} {args : List Value}
    {lay lay' : List (BB × List Value)} {order : List BlockAst} (h : Ext p p') (hg : Appends lay lay') {n s : Str} {v : Value}
    (hd : Defines p f params args lay order n s v) : Defines p' f params args lay' order n s v := by
  cases hd with
  | arg h1 h2 h3 => exact .arg h1 h2 h3
  | param h1 h2 h3 h4 h5 =>
    obtain ⟨x', hx', -, hp⟩ := h.block h3
    obtain ⟨is2, h6⟩ := hg.at' _ _ _ h2
    exact .param h1 h6 hx' h4 (by rw [hp]; exact h5)
  | inst h1 h2 h3 h4 =>
    obtain ⟨is2, h6⟩ := hg.at' _ _ _ h2
    refine .inst h1 h6 h3 ?_
    rw [List.getElem?_append_left]
    · exact h4
    · exact (List.getElem?_eq_some_iff.1 h4).1

theorem envOf_le {p p' : Program} {gv : Str → Value → Prop} {gf : Str → Func → Prop} {f : Func}
    {params : List (Str × TyAst)} {args : List Value} {lay lay' : List (BB × List Value)} {order : List BlockAst}
    {r : Ty} {n : Str} {w : Value} (h : Ext p p') (hg : Appends lay lay') :
    (envOf p gv gf f params args lay order r n w).Le (envOf p' gv gf f params args lay' order r n w) := by
  refine ⟨fun _ _ _ => h.denotes, fun _ _ _ => h.ldenotes, ?_, ?_, fun _ _ => h.paramTys, fun _ _ h => h, fun _ _ => h.funcTy, rfl⟩
  · rintro s v (h1 | ⟨h1, n', h2, h3, h4, h5⟩)
    · exact .inl h1
    · exact .inr ⟨h1, n', definesMono h hg h2, h3, h4, h5⟩
  · rintro l b ⟨j, blk, is, h1, h2, h3⟩
    obtain ⟨is2, h4⟩ := hg.at' _ _ _ h3
    exact ⟨j, blk, _, h1, h2, h4⟩

/-! ### The body of a function -/

/-- Only function `f` changes, and it grows. -/
structure Within (f : Func) (p p' : Program) : Prop where
  ext : Ext p p'
  lay : ∀ g, g ≠ f → p'.view.lay g = p.view.lay g
  b : ∀ g, g ≠ f → p'.view.b g = p.view.b g
  insts : p'.view.insts = p.view.insts
  fns : p'.view.fns = p.view.fns
  globals : p'.view.ids.nextGlobal = p.view.ids.nextGlobal

theorem Within.refl (f : Func) (p : Program) : Within f p p := ⟨.refl p, fun _ _ => rfl, fun _ _ => rfl, rfl, rfl, rfl⟩

theorem Within.trans {f : Func} {a b c : Program} (h : Within f a b) (h' : Within f b c) : Within f a c :=
  ⟨h.ext.trans h'.ext, fun g hg => (h'.lay g hg).trans (h.lay g hg),
    fun g hg => (h'.b g hg).trans (h.b g hg), h'.insts.trans h.insts, h'.fns.trans h.fns, h'.globals.trans h.globals⟩

theorem GenExt.within {f : Func} {p p' : Program} (h : GenExt p p') : Within f p p' :=
  ⟨h.ext, fun _ _ => by rw [h.lay], fun _ _ => by rw [h.view], by rw [h.view], by rw [h.view], by rw [h.view]; rfl⟩

/-- What is fixed while a body is built. -/
structure Body where
  base : Program
  f : Func
  params : List (Str × TyAst)
  args : List Value
  order : List BlockAst
  r : Ty
  gv : Map Str Value
  gf : Map Str Func

/-- The meaning of symbols and labels in the block named `n`. -/
def Body.env (D : Body) (p : Program) (lay : List (BB × List Value)) (n : Str) (w : Value) : Env :=
  envOf p (fun n v => D.gv.get? n = some v) (fun n g => D.gf.get? n = some g) D.f D.params D.args lay D.order D.r n w

/-- The invariant while the body is built. -/
structure BodyInv (D : Body) (s : BS) (lay : List (BB × List Value)) : Prop where
  inv : FInv s.prog
  within : Within D.f D.base s.prog
  gv : s.globalVars = D.gv
  gf : s.globalFuncs = D.gf
  layout : ∃ l, s.prog.view.lay D.f = some l ∧ l.bbs = lay
  len : lay.length = D.order.length
  blks : ∀ (j : Nat) b h is, D.order[j]? = some b → lay[j]? = some (h, is) →
    ∃ x, Block s.prog D.f h x ∧ x.name = keptName b.name ∧ ParamsFrom s.prog D.f VKind.blockArgRef b.params x.params
  infos : ∀ n i, s.localBbs.get? n = some i → ∃ (j : Nat) (b : BlockAst) (is : List Value),
    D.order[j]? = some b ∧ b.name = n ∧ lay[j]? = some (i.bb, is)
  preds : ∀ n i, s.localBbs.get? n = some i → ∀ q ∈ i.preds, ∃ b ∈ D.order, b.name = q ∧ n ∈ successors b
  defs : ∀ n i, s.localBbs.get? n = some i → ∀ sy v, i.localDefs.get? sy = some v →
    v < s.prog.ids.nextLocal ∧ Defines s.prog D.f D.params D.args lay D.order n sy v
  stmts : ∀ (j : Nat) b h is (i : Nat) w st, D.order[j]? = some b → lay[j]? = some (h, is) → is[i]? = some w →
    b.stmts[i]? = some st → ∃ x, LocalVal s.prog D.f w x ∧ x.name = stmtName st ∧
      StmtIs (D.env s.prog lay b.name w) st x.ty x.kind
  noOthers : ∀ b, (s.prog.view.b D.f b).isSome → b ∈ lay.map (·.1)

theorem back_flows {D : Body} {s : BS} {lay : List (BB × List Value)} (h : BodyInv D s lay) {n' n : Str}
    (hb : Back s.localBbs n' n) : Flows D.order n' n := by
  induction hb with
  | refl => exact .refl
  | @step n q n' i h1 h2 _ ih =>
    obtain ⟨b, hb, rfl, hs⟩ := h.preds n i h1 q h2
    exact .step ih hb hs

/-- The table contains the predecessors and the parameters of the blocks. -/
structure Table (D : Body) (m : Map Str BbInfo) : Prop where
  preds : ∀ n, tblPreds m n = predsOf D.order n
  has : ∀ sy, sy ∉ D.order.flatMap defNames → ∀ n, tblHas m sy n ↔ TakesParam D.params D.order sy n

theorem Table.meets {D : Body} {m : Map Str BbInfo} (h : Table D m) {sy n n' : Str} (hs : sy ∉ D.order.flatMap defNames)
    (hm : Meets (tblHas m sy) (tblPreds m) [] [n] n') :
    Meets (TakesParam D.params D.order sy) (predsOf D.order) [] [n] n' := by
  have e1 : tblPreds m = predsOf D.order := funext h.preds
  have e2 : tblHas m sy = TakesParam D.params D.order sy := funext fun n => propext (h.has sy hs n)
  rw [← e1, ← e2]
  exact hm

/-- Definitions of statements keep the table. -/
theorem Table.define {D : Body} {m : Map Str BbInfo} (h : Table D m) {n d : Str} {i : BbInfo} {v : Value}
    (hi : m.get? n = some i) (hd : d ∈ D.order.flatMap defNames) :
    Table D (m.insert n { i with localDefs := i.localDefs.insert d v }) := by
  refine ⟨fun x => ?_, fun sy hs x => ?_⟩
  · rw [← h.preds x]
    unfold tblPreds
    rw [Map.get?_insert]
    split
    · rename_i hx; subst hx; rw [hi]; rfl
    · rfl
  · rw [← h.has sy hs x]
    unfold tblHas
    rw [Map.get?_insert]
    split
    · rename_i hx; subst hx
      rw [hi]
      have hne : sy ≠ d := by rintro rfl; exact hs hd
      simp only [Option.some.injEq, exists_eq_left', Map.get?_insert, if_neg hne]
    · rfl

/-- Looking things up in the tables gives what the text means. -/
theorem stEnv_le_env {D : Body} {s : BS} {lay lay' : List (BB × List Value)} (h : BodyInv D s lay) (hT : Table D s.localBbs) {n : Str}
    {p p' : Program} {w : Value} (h1 : Ext s.prog p') (h2 : Ext p p') (hg : Appends lay lay') (hw : s.prog.ids.nextLocal ≤ w) :
    (stEnv s D.f n D.r p).Le (D.env p' lay' n w) := by
  refine ⟨fun _ _ _ => h2.denotes, fun _ _ _ => h2.ldenotes, ?_, ?_, fun _ _ => h2.paramTys, ?_, fun _ _ => h2.funcTy, rfl⟩
  · rintro sy v (h3 | ⟨h3, n', i, h4, h5, h6, hm⟩)
    · rw [h.gv] at h3; exact .inl h3
    · rw [h.gv] at h3
      obtain ⟨h7, h8⟩ := h.defs n' i h5 sy v h6
      refine .inr ⟨fun v' hv' => ?_, n', definesMono h1 hg h8, by omega, back_flows h h4, fun hs => hT.meets hs hm⟩
      have hv' : D.gv.get? sy = some v' := hv'
      rw [h3] at hv'; cases hv'
  · rintro l b ⟨i, h3, rfl⟩
    obtain ⟨j, b, is, h4, h5, h6⟩ := h.infos l i h3
    obtain ⟨is2, h7⟩ := hg.at' _ _ _ h6
    exact ⟨j, b, _, h4, h5, h7⟩
  · intro l g h3
    have h3 : s.globalFuncs.get? l = some g := h3
    rw [h.gf] at h3; exact h3

/-- One statement. -/
theorem Done.buildStmt {D : Body} {s s' : BS} {lay : List (BB × List Value)} {u : Unit} {j : Nat} {b : BlockAst}
    {h : BB} {is : List Value} {st : StmtAst} (hI : BodyInv D s lay) (hT : Table D s.localBbs) (hne : (D.order.map (·.name)).Nodup)
    (hb : D.order[j]? = some b) (hj : lay[j]? = some (h, is)) (hst : b.stmts[is.length]? = some st)
    (herr : st ≠ .error) (hd : Done (buildStmt D.f D.r b.name st) s u s') :
    ∃ v lay', BodyInv D s' lay' ∧ (∀ q, lay'[q]? = if q = j then some (h, is ++ [v]) else lay[q]?) ∧
      ((∀ d e, st ≠ .def d e) → s'.localSyms = s.localSyms) ∧
      (∀ d e, st = .def d e → s'.localSyms = d :: s.localSyms ∧ d ∉ s.localSyms ∧ D.gv.get? d = none) ∧
      (∀ x ∈ lay.flatMap (·.2), x < v) ∧ Table D s'.localBbs := by
  unfold Koopa.buildStmt at hd
  obtain ⟨o, s1, h1, h2⟩ := hd.bind (Calm.attempt logsW_genStmt).logs (fun _ => Logs.weak (by logs_inst))
  obtain ⟨v, rfl, h3⟩ := h1.attempt (logs_genStmt herr)
  replace h2 := h2.bind_get
  have hS := h3.genStmt hI.inv
  -- the tables after the statement
  have htab : ∀ n i, s1.localBbs.get? n = some i → ∃ i0, s.localBbs.get? n = some i0 ∧ i.bb = i0.bb ∧ i.preds = i0.preds ∧
      ∀ sy w, i.localDefs.get? sy = some w → i0.localDefs.get? sy = some w ∨ (n = b.name ∧ w = v ∧ ∃ e, st = .def sy e) := by
    intro n i hi
    by_cases hdef : ∃ d e, st = .def d e
    · obtain ⟨d, e, rfl⟩ := hdef
      obtain ⟨i0, hi0, hm⟩ := hS.bbsDef d e rfl
      rw [hm, Map.get?_insert] at hi
      split at hi
      · rename_i hn; subst hn
        cases hi
        refine ⟨i0, hi0, rfl, rfl, ?_⟩
        intro sy w hw
        simp only [Map.get?_insert] at hw
        split at hw
        · rename_i hsy; subst hsy; cases hw; exact .inr ⟨rfl, rfl, e, rfl⟩
        · exact .inl hw
      · exact ⟨i, hi, rfl, rfl, fun _ _ h => .inl h⟩
    · rw [hS.bbs (fun d e he => hdef ⟨d, e, he⟩)] at hi
      exact ⟨i, hi, rfl, rfl, fun _ _ h => .inl h⟩
  cases hget : s1.localBbs.get? b.name with
  | none => rw [hget] at h2; exact h2.panic.elim
  | some i =>
  rw [hget] at h2
  obtain ⟨p, hp, rfl⟩ := h2.api'
  obtain ⟨i0, hi0, hbb, -, -⟩ := htab _ _ hget
  have hih : i.bb = h := by
    obtain ⟨j', b', is', a1, a2, a3⟩ := hI.infos _ _ hi0
    have : j' = j := by
      have x : (D.order.map (·.name))[j']? = some b.name := by rw [List.getElem?_map, a1]; simp [a2]
      have y : (D.order.map (·.name))[j]? = some b.name := by rw [List.getElem?_map, hb]; rfl
      have hj' : j' < (D.order.map (·.name)).length := (List.getElem?_eq_some_iff.1 x).1
      exact (List.getElem?_inj hj' hne).1 (x.trans y.symm)
    subst this
    rw [hj] at a3
    simp only [Option.some.injEq, Prod.mk.injEq] at a3
    rw [hbb, ← a3.1]
  obtain ⟨l, hl, hll⟩ := hI.layout
  have hl1 : s1.prog.view.lay D.f = some l := by rw [hS.ext.lay]; exact hl
  obtain ⟨l', is', hl', his', hn, hv⟩ := pushInst_view hp
  rw [hl1] at hl'; cases hl'
  have hkeys := (hI.inv.lays D.f l hl).1.keys
  have his'' : is' = is := by
    have a := ((hI.inv.lays D.f l hl).1.insts?_iff).1 his'
    have bb : (h, is) ∈ l.bbs := by rw [hll]; exact List.mem_of_getElem? hj
    rw [← ((hI.inv.lays D.f l hl).1.insts?_iff)] at bb
    rw [hih] at his'
    rw [his'] at bb; cases bb; rfl
  subst his''
  have hnew : ∀ l b' is, s1.prog.view.lay D.f = some l → (b', is) ∈ l.bbs → v ∉ is := by
    intro l0 b' is0 h0 hm hv0
    rw [hS.ext.lay] at h0
    obtain ⟨x, hx⟩ := Option.isSome_iff_exists.1 (((hI.inv.lays D.f l0 h0).2 b' is0 hm).2 v hv0)
    have := (hI.inv.lRange hx).2
    have := hS.lo
    omega
  obtain ⟨t, k, hval, hstm⟩ := hS.val
  obtain ⟨hpi, hpe⟩ := hS.inv.pushInst (by rw [hval]; rfl) hnew hp
  have hext : Ext s.prog p := hS.ext.ext.trans hpe
  refine ⟨v, setInsts h (is' ++ [v]) lay, ?_, ?_, hS.syms, ?_, ?_, ?_⟩
  · have hlay' : ∀ q, (setInsts h (is' ++ [v]) lay)[q]? = if q = j then some (h, is' ++ [v]) else lay[q]? := by
      rw [hll] at hkeys
      exact setInsts_get hkeys hj
    have hgrow : Appends lay (setInsts h (is' ++ [v]) lay) := by
      refine ⟨setInsts_length, ?_⟩
      intro q h' is2 hq
      rw [hlay']
      split
      · rename_i hqj; subst hqj
        rw [hj] at hq; cases hq
        exact ⟨[v], rfl⟩
      · exact ⟨[], by simpa using hq⟩
    have hnl : s.prog.ids.nextLocal ≤ p.ids.nextLocal := hext.nextLocal
    have hvp : v < p.ids.nextLocal := by
      have := hpe.nextLocal; have := hS.hi; omega
    have hdn : st = st := rfl
    refine ⟨hpi, (hI.within.trans hS.ext.within).trans ⟨hpe, fun g hg => by rw [hv]; simp [hg],
      fun g hg => by rw [hv], by rw [hv], by rw [hv], by rw [hv]⟩,
      hS.gv.trans hI.gv, hS.gf.trans hI.gf, ?_, ?_, ?_, ?_, ?_, ?_, ?_, ?_⟩
    · refine ⟨_, by rw [hv]; simp only [if_true]; rfl, ?_⟩
      rw [hih, hll]
    · rw [setInsts_length]; exact hI.len
    · intro j' b' h' is2 a1 a2
      rw [hlay'] at a2
      have : ∃ is3, lay[j']? = some (h', is3) := by
        split at a2
        · rename_i hq; subst hq; cases a2; exact ⟨_, hj⟩
        · exact ⟨_, a2⟩
      obtain ⟨is3, a3⟩ := this
      obtain ⟨x, hx, c1, c2⟩ := hI.blks j' b' h' is3 a1 a3
      obtain ⟨x', hx', d1, d2⟩ := hext.block hx
      exact ⟨x', hx', d1.trans c1, by rw [d2]; exact hext.paramsFrom c2⟩
    · intro n i' hi'
      obtain ⟨i1, c1, c2, c3, -⟩ := htab n i' hi'
      obtain ⟨j', b', is2, d1, d2, d3⟩ := hI.infos n i1 c1
      obtain ⟨is3, d4⟩ := hgrow.at' _ _ _ d3
      exact ⟨j', b', _, d1, d2, by rw [c2]; exact d4⟩
    · intro n i' hi' q hq
      obtain ⟨i1, c1, c2, c3, -⟩ := htab n i' hi'
      rw [c3] at hq
      exact hI.preds n i1 c1 q hq
    · intro n i' hi' sy w hw
      obtain ⟨i1, c1, c2, c3, c4⟩ := htab n i' hi'
      rcases c4 sy w hw with h5 | ⟨rfl, rfl, e, rfl⟩
      · obtain ⟨d1, d2⟩ := hI.defs n i1 c1 sy w h5
        exact ⟨Nat.lt_of_lt_of_le d1 hnl, definesMono hext hgrow d2⟩
      · refine ⟨hvp, .inst (j := j) (h := h) (is := is' ++ [w]) hb ?_ hst ?_⟩
        · rw [hlay', if_pos rfl]
        · simp
    · intro j' b' h' is2 i' w st' a1 a2 a3 a4
      rw [hlay'] at a2
      have hold : ∀ is3, lay[j']? = some (h', is3) → is3[i']? = some w → ∃ x, LocalVal p D.f w x ∧ x.name = stmtName st' ∧
          StmtIs (D.env p (setInsts h (is' ++ [v]) lay) b'.name w) st' x.ty x.kind := by
        intro is3 e1 e2
        obtain ⟨x, hx, c1, c2⟩ := hI.stmts j' b' h' is3 i' w st' a1 e1 e2 a4
        obtain ⟨x', hx', hs⟩ := hext.localVal hx
        refine ⟨x', hx', (shape_name hs).trans c1, ?_⟩
        rw [shape_ty hs, shape_kind hs]
        exact c2.mono (envOf_le hext hgrow)
      split at a2
      · rename_i hq; subst hq
        simp only [Option.some.injEq, Prod.mk.injEq] at a2
        obtain ⟨rfl, rfl⟩ := a2
        by_cases hlt : i' < is'.length
        · rw [List.getElem?_append_left hlt] at a3
          exact hold is' hj a3
        · have hi' : i' = is'.length := by
            have := (List.getElem?_eq_some_iff.1 a3).1
            simp at this; omega
          subst hi'
          simp at a3; subst a3
          rw [hb] at a1; cases a1
          rw [hst] at a4; cases a4
          obtain ⟨x, hx, hs⟩ := view_l_iff.1 (hpe.l _ _ _ hval)
          refine ⟨x, hx, congrArg (·.2.1) hs, ?_⟩
          rw [show x.ty = t from congrArg (·.1) hs, show x.kind = k from congrArg (·.2.2) hs]
          exact hstm.mono (stEnv_le_env hI hT hext hpe hgrow hS.lo)
      · exact hold is2 a2 a3
    · intro b' hb'
      rw [setInsts_keys]
      refine hI.noOthers b' ?_
      rw [hv] at hb'
      have hb' : (s1.prog.view.b D.f b').isSome := hb'
      rw [hS.ext.view] at hb'
      exact hb'
  · rw [hll] at hkeys
    exact setInsts_get hkeys hj
  · intro d e he
    have := hS.symsDef d e he
    rw [hI.gv] at this
    exact this
  · intro x hx
    obtain ⟨⟨b', is0⟩, hm, hx⟩ := List.mem_flatMap.1 hx
    rw [← hll] at hm
    obtain ⟨y, hy⟩ := Option.isSome_iff_exists.1 (((hI.inv.lays D.f l hl).2 b' is0 hm).2 x hx)
    have := (hI.inv.lRange hy).2
    have := hS.lo
    omega
  · show Table D s1.localBbs
    by_cases hdef : ∃ d e, st = .def d e
    · obtain ⟨d, e, rfl⟩ := hdef
      obtain ⟨i1, hi1, hm⟩ := hS.bbsDef d e rfl
      rw [hm]
      exact hT.define hi1 (List.mem_flatMap.2 ⟨b, List.mem_of_getElem? hb,
        List.mem_filterMap.2 ⟨_, List.mem_of_getElem? hst, rfl⟩⟩)
    · rw [hS.bbs (fun d e he => hdef ⟨d, e, he⟩)]
      exact hT

/-- Handles grow along the layout. -/
def Ascending (lay : List (BB × List Value)) : Prop := (lay.flatMap (·.2)).Pairwise (· < ·)

theorem Ascending.push {lay lay' : List (BB × List Value)} {j : Nat} {h : BB} {is : List Value} {v : Value}
    (ha : Ascending lay) (hj : lay[j]? = some (h, is)) (hv : ∀ x ∈ lay.flatMap (·.2), x < v)
    (hl : ∀ (q : Nat) h is, j < q → lay[q]? = some (h, is) → is = [])
    (hq : ∀ q, lay'[q]? = if q = j then some (h, is ++ [v]) else lay[q]?) : Ascending lay' := by
  obtain ⟨hlt, he⟩ := List.getElem?_eq_some_iff.1 hj
  have e1 : lay' = lay.set j (h, is ++ [v]) := by
    apply List.ext_getElem?
    intro q
    rw [hq, List.getElem?_set]
    by_cases hqj : q = j
    · subst hqj; simp [hlt]
    · rw [if_neg hqj, if_neg (Ne.symm hqj)]
  have e2 : (lay.drop (j + 1)).flatMap (·.2) = [] := by
    rw [List.flatMap_eq_nil_iff]
    rintro ⟨h', is'⟩ hm
    obtain ⟨q, hq'⟩ := List.getElem?_of_mem hm
    rw [List.getElem?_drop] at hq'
    exact hl _ _ _ (by omega) hq'
  have e3 : lay.flatMap (·.2) = (lay.take j).flatMap (·.2) ++ is := by
    have : lay = lay.take j ++ (h, is) :: lay.drop (j + 1) := by
      rw [← he, ← List.drop_eq_getElem_cons hlt, List.take_append_drop]
    calc lay.flatMap (·.2) = (lay.take j ++ (h, is) :: lay.drop (j + 1)).flatMap (·.2) := by rw [← this]
      _ = _ := by rw [List.flatMap_append, List.flatMap_cons, e2]; simp
  have e4 : lay'.flatMap (·.2) = lay.flatMap (·.2) ++ [v] := by
    rw [e1, List.set_eq_take_append_cons_drop, if_pos hlt, List.flatMap_append, List.flatMap_cons, e2, e3]; simp
  unfold Ascending
  rw [e4, List.pairwise_append]
  exact ⟨ha, by simp, fun x hx y hy => by rw [List.mem_singleton.1 hy]; exact hv x hx⟩

/-! ### New names -/

/-- The names are new and are added to the list. -/
structure Adds (gv : Map Str Value) (l names l' : List Str) : Prop where
  eq : l' = names.reverse ++ l
  nodup : names.Nodup
  fresh : ∀ n ∈ names, n ∉ l
  global : ∀ n ∈ names, gv.get? n = none

theorem Adds.nil {gv : Map Str Value} {l : List Str} : Adds gv l [] l :=
  ⟨rfl, List.nodup_nil, fun _ h => by simp at h, fun _ h => by simp at h⟩

theorem Adds.one {gv : Map Str Value} {l : List Str} {n : Str} (h : n ∉ l) (hg : gv.get? n = none) :
    Adds gv l [n] (n :: l) :=
  ⟨rfl, by simp, by simpa using h, by simpa using hg⟩

theorem Adds.trans {gv : Map Str Value} {a b c ns ms : List Str} (h : Adds gv a ns b) (h' : Adds gv b ms c) :
    Adds gv a (ns ++ ms) c := by
  refine ⟨by rw [h'.eq, h.eq]; simp, ?_, ?_, ?_⟩
  · rw [List.nodup_append]
    refine ⟨h.nodup, h'.nodup, ?_⟩
    rintro x hx y hy rfl
    exact h'.fresh x hy (by rw [h.eq]; simp [hx])
  · intro n hn hm
    rcases List.mem_append.1 hn with h1 | h1
    · exact h.fresh n h1 hm
    · exact h'.fresh n h1 (by rw [h.eq]; simp [hm])
  · intro n hn
    rcases List.mem_append.1 hn with h1 | h1
    · exact h.global n h1
    · exact h'.global n h1

/-! ### Statements and blocks in sequence -/

theorem Done.buildStmts {D : Body} {j : Nat} {b : BlockAst} {bh : BB} (hne : (D.order.map (·.name)).Nodup)
    (hb : D.order[j]? = some b) (herr : .error ∉ b.stmts) : ∀ {sts : List StmtAst} {s s' : BS}
    {lay : List (BB × List Value)} {is : List Value} {us : List Unit}, BodyInv D s lay → Table D s.localBbs → lay[j]? = some (bh, is) →
    Ascending lay → (∀ (q : Nat) h is, j < q → lay[q]? = some (h, is) → is = []) →
    b.stmts.drop is.length = sts → Done (B.each (Koopa.buildStmt D.f D.r b.name) sts) s us s' →
    ∃ is' lay', BodyInv D s' lay' ∧ Table D s'.localBbs ∧ (∀ q, lay'[q]? = if q = j then some (bh, is') else lay[q]?) ∧
      is'.length = is.length + sts.length ∧ Ascending lay' ∧
      Adds D.gv s.localSyms (sts.filterMap (fun st => match st with | .def n _ => some n | _ => none)) s'.localSyms
  | [], s, s', lay, is, us, hI, hT, hj, ha, hl, hd, h => by
    rw [h.each_nil]
    refine ⟨is, lay, hI, hT, ?_, by simp, ha, Adds.nil⟩
    intro q; split
    · rename_i hq; rw [hq]; exact hj
    · rfl
  | st :: sts, s, s', lay, is, us, hI, hT, hj, ha, hl, hd, h => by
    obtain ⟨_, _, s1, h1, h2⟩ := h.each_cons (fun _ => logs_buildStmt)
    have hst : b.stmts[is.length]? = some st := by
      have := congrArg (fun l : List StmtAst => l[0]?) hd
      simpa using this
    have hdrop : b.stmts.drop (is.length + 1) = sts := by
      have := congrArg List.tail hd
      simpa [List.tail_drop] using this
    obtain ⟨v, lay1, hI1, hq1, hs1, hs2, hv, hT1⟩ := h1.buildStmt hI hT hne hb hj hst (by rintro rfl; exact herr (List.mem_of_getElem? hst))
    have hj1 : lay1[j]? = some (bh, is ++ [v]) := by rw [hq1, if_pos rfl]
    have hl1 : ∀ (q : Nat) h is, j < q → lay1[q]? = some (h, is) → is = [] := by
      intro q h is hq hl'
      rw [hq1, if_neg (by omega)] at hl'
      exact hl q h is hq hl'
    obtain ⟨is', lay', hI', hT', hq', hlen, hasc, hadd⟩ :=
      Done.buildStmts hne hb herr hI1 hT1 hj1 (ha.push hj hv hl hq1) hl1 (by simpa using hdrop) h2
    refine ⟨is', lay', hI', hT', ?_, by simp at hlen; simp; omega, hasc, ?_⟩
    · intro q
      rw [hq']
      split
      · rfl
      · rename_i hq; rw [hq1, if_neg hq]
    · by_cases hdef : ∃ d e, st = .def d e
      · obtain ⟨d, e, rfl⟩ := hdef
        obtain ⟨e1, e2, e3⟩ := hs2 d e rfl
        rw [e1] at hadd
        exact (Adds.one e2 e3).trans hadd
      · have hno : ∀ d e, st ≠ .def d e := fun d e he => hdef ⟨d, e, he⟩
        rw [hs1 hno] at hadd
        rw [List.filterMap_cons]
        split
        · exact hadd
        · rename_i hm
          split at hm
          · exact absurd rfl (hno _ _)
          · simp at hm

theorem Done.buildBlocks {D : Body} (hne : (D.order.map (·.name)).Nodup) (herr : ∀ b ∈ D.order, .error ∉ b.stmts) :
    ∀ {bs : List BlockAst} {j : Nat} {s s' : BS}
    {lay : List (BB × List Value)} {us : List Unit}, BodyInv D s lay → Table D s.localBbs → Ascending lay →
    D.order.drop j = bs → (∀ (q : Nat) h is, j ≤ q → lay[q]? = some (h, is) → is = []) →
    (∀ (q : Nat) b h is, q < j → D.order[q]? = some b → lay[q]? = some (h, is) → is.length = b.stmts.length) →
    Done (B.each (buildBlock D.f D.r) bs) s us s' →
    ∃ lay', BodyInv D s' lay' ∧ Ascending lay' ∧
      (∀ (q : Nat) b h is, D.order[q]? = some b → lay'[q]? = some (h, is) → is.length = b.stmts.length) ∧
      Adds D.gv s.localSyms (bs.flatMap defNames) s'.localSyms
  | [], j, s, s', lay, us, hI, _, ha, hd, _, hlo, h => by
    rw [h.each_nil]
    refine ⟨lay, hI, ha, ?_, Adds.nil⟩
    intro q b h is h1 h2
    refine hlo q b h is ?_ h1 h2
    have := (List.getElem?_eq_some_iff.1 h1).1
    have h3 := congrArg List.length hd
    simp at h3
    omega
  | b :: bs, j, s, s', lay, us, hI, hT, ha, hd, hhi, hlo, h => by
    obtain ⟨_, _, s1, h1, h2⟩ := h.each_cons (fun _ => logs_buildBlock)
    have hb : D.order[j]? = some b := by
      have := congrArg (fun l : List BlockAst => l[0]?) hd
      simpa using this
    have hdrop : D.order.drop (j + 1) = bs := by
      have := congrArg List.tail hd
      simpa [List.tail_drop] using this
    have hjl : j < lay.length := by
      rw [hI.len]; exact (List.getElem?_eq_some_iff.1 hb).1
    obtain ⟨⟨hh, is⟩, hj⟩ : ∃ x, lay[j]? = some x := ⟨_, List.getElem?_eq_getElem hjl⟩
    have := hhi j hh is (Nat.le_refl _) hj
    subst this
    unfold buildBlock at h1
    obtain ⟨_, s2, h3, h4⟩ := h1.bind (Calm.each (fun _ => logs_buildStmt) _).logs (fun _ => Calm.pure.logs.weak)
    obtain ⟨-, rfl⟩ := h4.pure
    obtain ⟨is', lay1, hI1, hT1, hq1, hlen, hasc, hadd⟩ :=
      Done.buildStmts hne hb (herr b (List.mem_of_getElem? hb)) hI hT hj ha (fun q h is hq hl => hhi q h is (by omega) hl) rfl h3
    have hhi1 : ∀ (q : Nat) h is, j + 1 ≤ q → lay1[q]? = some (h, is) → is = [] := by
      intro q h is hq hl
      rw [hq1, if_neg (by omega)] at hl
      exact hhi q h is (by omega) hl
    have hlo1 : ∀ (q : Nat) b h is, q < j + 1 → D.order[q]? = some b → lay1[q]? = some (h, is) →
        is.length = b.stmts.length := by
      intro q b' h is hq h5 hl
      rw [hq1] at hl
      split at hl
      · rename_i he; subst he
        rw [hb] at h5; cases h5; cases hl
        simpa using hlen
      · exact hlo q b' h is (by omega) h5 hl
    obtain ⟨lay', hI', ha', hall, hadd'⟩ := Done.buildBlocks hne herr hI1 hT1 hasc hdrop hhi1 hlo1 h2
    exact ⟨lay', hI', ha', hall, hadd.trans hadd'⟩

/-- Solves goals about code that prepares functions. -/
syntax "calm" : tactic
macro_rules | `(tactic| calm) => `(tactic| repeat' first
  | exact Calm.pure
  | exact Calm.logError
  | exact Calm.panic
  | exact Calm.lift
  | exact Calm.get
  | exact Calm.api
  | exact Calm.api'
  | exact Calm.modify (fun _ => Nat.le_refl _)
  | exact logs_defineParams _ _ _
  | exact logs_logErrors _
  | exact logs_defineFunc
  | exact logs_defineGlobal
  | exact logs_nameGlobal
  | exact logs_blockList
  | exact logs_initBbs
  | exact logs_enterArgs
  | exact Calm.each (fun _ => logs_buildBlock) _
  | exact Calm.each (fun _ => logs_addPreds) _
  | (refine Calm.bind ?_ ?_)
  | (intro _)
  | split)

/-! ### Preparing the blocks -/

theorem Done.defineParams : ∀ {ps : List (Str × TyAst)} {vs : List Value} {m m' : Map Str Value} {s s' : BS},
    vs.length = ps.length → Done (Koopa.defineParams ps vs m) s m' s' →
    (∃ ls, s' = { s with localSyms := ls } ∧ Adds s.globalVars s.localSyms (ps.map (·.1)) ls) ∧
    ∀ k v, m'.get? k = some v → m.get? k = some v ∨ ∃ (i : Nat) (a : TyAst), ps[i]? = some (k, a) ∧ vs[i]? = some v
  | [], [], m, m', s, s', _, h => by
    obtain ⟨rfl, rfl⟩ := h.pure
    exact ⟨⟨_, rfl, Adds.nil⟩, fun _ _ h => .inl h⟩
  | [], _ :: _, _, _, _, _, hl, _ => by simp at hl
  | _ :: _, [], _, _, _, _, hl, _ => by simp at hl
  | (n, a) :: ps, v :: vs, m, m', s, s', hl, h => by
    rw [Koopa.defineParams] at h
    obtain ⟨_, s1, h1, h2⟩ := h.bind logs_defineSym.logs (fun _ => (logs_defineParams _ _ _).logs.weak)
    obtain ⟨rfl, h3, h4⟩ := h1.defineSym
    obtain ⟨⟨ls, rfl, h5⟩, h6⟩ := Done.defineParams (by simpa using hl) h2
    refine ⟨⟨ls, rfl, (Adds.one h3 h4).trans h5⟩, ?_⟩
    intro k w hk
    rcases h6 k w hk with h7 | ⟨i, a', h8, h9⟩
    · rw [Map.get?_insert] at h7
      split at h7
      · rename_i he; subst he; cases h7
        exact .inr ⟨0, a, rfl, rfl⟩
      · exact .inl h7
    · exact .inr ⟨i + 1, a', by simpa using h8, by simpa using h9⟩

/-- The invariant while the blocks are created. -/
structure InitInv (D : Body) (s : BS) (lay : List (BB × List Value)) (bs : List BlockAst) : Prop where
  inv : FInv s.prog
  within : Within D.f D.base s.prog
  gv : s.globalVars = D.gv
  gf : s.globalFuncs = D.gf
  layout : ∃ l, s.prog.view.lay D.f = some l ∧ l.bbs = lay
  len : lay.length = bs.length
  empty : ∀ x ∈ lay, x.2 = []
  blks : ∀ (j : Nat) b h is, bs[j]? = some b → lay[j]? = some (h, is) →
    ∃ x, Block s.prog D.f h x ∧ x.name = keptName b.name ∧ ParamsFrom s.prog D.f VKind.blockArgRef b.params x.params
  infos : ∀ n i, s.localBbs.get? n = some i → i.preds = [] ∧ ∃ (j : Nat) (b : BlockAst),
    bs[j]? = some b ∧ b.name = n ∧ lay[j]? = some (i.bb, []) ∧
    ∀ sy v, i.localDefs.get? sy = some v → ∃ (q : Nat) (a : TyAst) (x : BData),
      Block s.prog D.f i.bb x ∧ b.params[q]? = some (sy, a) ∧ x.params[q]? = some v
  noOthers : ∀ b, (s.prog.view.b D.f b).isSome → b ∈ lay.map (·.1)

theorem Done.initBb {D : Body} {s s' : BS} {lay : List (BB × List Value)} {bs : List BlockAst} {b : BlockAst} {u : Unit}
    (hI : InitInv D s lay bs) (h : Done (Koopa.initBb D.f b) s u s') :
    ∃ hd, InitInv D s' (lay ++ [(hd, [])]) (bs ++ [b]) ∧ Adds D.gv s.localSyms (paramNames b) s'.localSyms := by
  unfold Koopa.initBb at h
  obtain ⟨qs, hq, h1⟩ := h.bind_lift
  obtain ⟨hd, s1, h2, h3⟩ := h1.bind Calm.api.logs (fun _ => (Calm.logs (by calm)).weak)
  obtain ⟨p1, hp1, rfl⟩ := h2.api
  obtain ⟨_, s2, h4, h5⟩ := h3.bind Calm.api'.logs (fun _ => (Calm.logs (by calm)).weak)
  obtain ⟨p2, hp2, rfl⟩ := h4.api'
  replace h5 := h5.bind_get
  obtain ⟨vs, hvs, h6⟩ := h5.bind_lift
  obtain ⟨defs, s3, h7, h8⟩ := h6.bind (logs_defineParams _ _ _).logs (fun _ => (Calm.logs (by calm)).weak)
  have h9 := h8.modify
  obtain ⟨i1, e1⟩ := hI.inv.newBb hp1
  obtain ⟨-, hhd, -, -, hv1⟩ := newBbParams_view hp1
  have hb1 : p1.view.b D.f hd = some (tempName b.name, paramHandles s.prog.ids.nextLocal qs.length) := by
    rw [hv1]; simp
  obtain ⟨i2, e2⟩ := i1.pushBb (by rw [hb1]; rfl) hp2
  obtain ⟨l2, hl2, hn2, hv2⟩ := pushBb_view hp2
  have hb2 := e2.b _ _ _ hb1
  obtain ⟨x, hx, hxn, hxp⟩ := view_b_iff.1 hb2
  have hvsx : vs = paramHandles s.prog.ids.nextLocal qs.length := by
    have : p2.bbParams D.f hd = some x.params := by
      obtain ⟨fd, hf, hx⟩ := hx
      simp [Program.bbParams, hf, hx]
    rw [this] at hvs; cases hvs; exact hxp
  have hlay : ∃ l, p2.view.lay D.f = some l ∧ l.bbs = lay ++ [(hd, [])] := by
    obtain ⟨l, hl, hll⟩ := hI.layout
    have : p1.view.lay D.f = some l := by rw [hv1]; exact hl
    rw [this] at hl2; cases hl2
    exact ⟨_, by rw [hv2]; simp only [if_true]; rfl, by simp [hll]⟩
  have hlen := (genParams_sound hq).1
  have hvl : vs.length = b.params.length := by rw [hvsx]; simp [paramHandles, hlen]
  obtain ⟨⟨ls, rfl, hadd⟩, hdefs⟩ := h7.defineParams hvl
  subst h9
  have hext : Ext s.prog p2 := e1.trans e2
  have hpf : ParamsFrom p2 D.f VKind.blockArgRef b.params x.params := by
    rw [hxp]
    refine e2.paramsFrom (paramsFrom hq ?_)
    intro w sg hw
    rw [hv1]; simp [hw]
  refine ⟨hd, ⟨i2, ?_, hI.gv, hI.gf, hlay, by simp [hI.len], ?_, ?_, ?_, ?_⟩, ?_⟩
  · refine hI.within.trans ⟨hext, ?_, ?_, ?_, ?_, ?_⟩
    · intro g hg; rw [hv2]; simp only [if_neg hg]; rw [hv1]
    · intro g hg; rw [hv2, hv1]; simp [hg]
    · rw [hv2, hv1]
    · rw [hv2, hv1]
    · rw [hv2, hv1]; rfl
  · intro y hy
    rcases List.mem_append.1 hy with h | h
    · exact hI.empty y h
    · simp at h; rw [h]
  · intro j b' h' is a1 a2
    by_cases hj : j < bs.length
    · rw [List.getElem?_append_left hj] at a1
      rw [List.getElem?_append_left (by rw [hI.len]; exact hj)] at a2
      obtain ⟨y, hy, c1, c2⟩ := hI.blks j b' h' is a1 a2
      obtain ⟨y', hy', d1, d2⟩ := hext.block hy
      exact ⟨y', hy', d1.trans c1, by rw [d2]; exact hext.paramsFrom c2⟩
    · have hj : j = bs.length := by
        have := (List.getElem?_eq_some_iff.1 a1).1
        simp at this; omega
      subst hj
      simp at a1; subst a1
      rw [← hI.len] at a2
      simp at a2
      obtain ⟨rfl, rfl⟩ := a2
      exact ⟨x, hx, hxn.trans (tempName_eq _), hpf⟩
  · intro n i hi
    simp only [Map.get?_insert] at hi
    split at hi
    · rename_i hn; subst hn; cases hi
      refine ⟨rfl, bs.length, b, by simp, rfl, by rw [← hI.len]; simp, ?_⟩
      intro sy v hv
      rcases hdefs sy v hv with h | ⟨q, a, c1, c2⟩
      · simp [Map.get?, Map.empty, Map.lookup] at h
      · exact ⟨q, a, x, hx, c1, by rw [hxp, ← hvsx]; exact c2⟩
    · obtain ⟨c0, j, b', c1, c2, c3, c4⟩ := hI.infos n i hi
      refine ⟨c0, j, b', ?_, c2, ?_, ?_⟩
      · rw [List.getElem?_append_left (List.getElem?_eq_some_iff.1 c1).1]; exact c1
      · rw [List.getElem?_append_left (List.getElem?_eq_some_iff.1 c3).1]; exact c3
      · intro sy v hv
        obtain ⟨q, a, y, d1, d2, d3⟩ := c4 sy v hv
        obtain ⟨y', hy', g1, g2⟩ := hext.block d1
        exact ⟨q, a, y', hy', d2, by rw [g2]; exact d3⟩
  · intro b' hb'
    rw [List.map_append]
    by_cases he : b' = hd
    · subst he; simp
    · refine List.mem_append.2 (.inl (hI.noOthers b' ?_))
      rw [hv2, hv1] at hb'
      simpa [he] using hb'
  · rw [hI.gv] at hadd; exact hadd

theorem Done.initAll {D : Body} : ∀ {bs done : List BlockAst} {s s' : BS} {lay : List (BB × List Value)} {us : List Unit},
    InitInv D s lay done → Done (B.each (Koopa.initBb D.f) bs) s us s' →
    ∃ lay', InitInv D s' lay' (done ++ bs) ∧ Adds D.gv s.localSyms (bs.flatMap paramNames) s'.localSyms
  | [], done, s, s', lay, us, hI, h => by
    rw [h.each_nil]
    exact ⟨lay, by simpa using hI, Adds.nil⟩
  | b :: bs, done, s, s', lay, us, hI, h => by
    obtain ⟨_, _, s1, h1, h2⟩ := h.each_cons (fun _ => logs_initBb)
    obtain ⟨hd, hI1, ha1⟩ := h1.initBb hI
    obtain ⟨lay', hI', ha'⟩ := Done.initAll hI1 h2
    exact ⟨lay', by simpa using hI', ha1.trans ha'⟩

theorem Done.enterArgs {D : Body} {s s' : BS} {lay : List (BB × List Value)} {args : Map Str Value} {e : BlockAst} {u : Unit}
    (hI : InitInv D s lay D.order) (he : D.order[0]? = some e)
    (hargs : ∀ sy v, args.get? sy = some v → ∃ (i : Nat) (a : TyAst), D.params[i]? = some (sy, a) ∧ D.args[i]? = some v)
    (hpf : ParamsFrom s.prog D.f VKind.funcArgRef D.params D.args)
    (h : Done (Koopa.enterArgs args e) s u s') :
    BodyInv D s' lay ∧ s'.localSyms = args.keys ++ s.localSyms := by
  unfold Koopa.enterArgs at h
  replace h := h.bind_modify rfl
  replace h := h.bind_get
  split at h
  · exact h.panic.elim
  · rename_i info hinfo
    have h9 := h.modify
    subst h9
    have hb : ∀ n i, (s.localBbs.insert e.name { info with localDefs := args }).get? n = some i →
        ∃ i0, s.localBbs.get? n = some i0 ∧ i.bb = i0.bb ∧ i.preds = i0.preds ∧
          (n = e.name ∧ i.localDefs = args ∨ n ≠ e.name ∧ i.localDefs = i0.localDefs) := by
      intro n i hi
      rw [Map.get?_insert] at hi
      split at hi
      · rename_i hn; subst hn; cases hi
        exact ⟨info, hinfo, rfl, rfl, .inl ⟨rfl, rfl⟩⟩
      · rename_i hn
        exact ⟨i, hi, rfl, rfl, .inr ⟨hn, rfl⟩⟩
    refine ⟨⟨hI.inv, hI.within, hI.gv, hI.gf, hI.layout, hI.len, hI.blks, ?_, ?_, ?_, ?_, hI.noOthers⟩, rfl⟩
    · intro n i hi
      obtain ⟨i0, c1, c2, c3, -⟩ := hb n i hi
      obtain ⟨-, j, b, d1, d2, d3, -⟩ := hI.infos n i0 c1
      exact ⟨j, b, [], d1, d2, by rw [c2]; exact d3⟩
    · intro n i hi q hq
      obtain ⟨i0, c1, c2, c3, -⟩ := hb n i hi
      rw [c3, (hI.infos n i0 c1).1] at hq
      simp at hq
    · intro n i hi sy v hv
      obtain ⟨i0, c1, c2, c3, ⟨rfl, c4⟩ | ⟨hne, c4⟩⟩ := hb n i hi
      · rw [c4] at hv
        obtain ⟨q, a, d1, d2⟩ := hargs sy v hv
        refine ⟨?_, .arg he d1 d2⟩
        obtain ⟨x, hx, -⟩ := hpf.2 q _ v d1 d2
        exact (hI.inv.lRange (view_l_iff.2 ⟨x, hx, rfl⟩)).2
      · rw [c4] at hv
        obtain ⟨-, j, b, d1, rfl, d3, d4⟩ := hI.infos n i0 c1
        obtain ⟨q, a, x, g1, g2, g3⟩ := d4 sy v hv
        cases j with
        | zero => rw [he] at d1; cases d1; exact absurd rfl hne
        | succ j =>
          refine ⟨?_, .param d1 d3 g1 g2 g3⟩
          obtain ⟨y, hy, -, hyp⟩ := hI.blks _ b _ _ d1 d3
          have : y = x := by
            obtain ⟨fd, k1, k2⟩ := hy
            obtain ⟨fd', k3, k4⟩ := g1
            rw [k1] at k3; cases k3
            rw [k2] at k4; exact Option.some.inj k4
          subst this
          obtain ⟨z, hz, -⟩ := hyp.2 q _ v g2 g3
          exact (hI.inv.lRange (view_l_iff.2 ⟨z, hz, rfl⟩)).2
    · intro j b h is i w st _ h2 h3
      have := hI.empty _ (List.mem_of_getElem? h2)
      simp only at this
      rw [this] at h3
      simp at h3

theorem Done.addPred {D : Body} {s s' : BS} {lay : List (BB × List Value)} {b : BlockAst} {t : Str} {u : Unit}
    (hI : BodyInv D s lay) (hb : b ∈ D.order) (ht : t ∈ successors b) (h : Done (Koopa.addPred b.name t) s u s') :
    BodyInv D s' lay ∧ s'.localSyms = s.localSyms := by
  unfold Koopa.addPred at h
  replace h := h.bind_get
  split at h
  · exact h.panic.elim
  · rename_i info hinfo
    have h9 := h.modify
    subst h9
    have hb' : ∀ n i, (s.localBbs.insert t { info with preds := info.preds ++ [b.name] }).get? n = some i →
        ∃ i0, s.localBbs.get? n = some i0 ∧ i.bb = i0.bb ∧ i.localDefs = i0.localDefs ∧
          ∀ q ∈ i.preds, q ∈ i0.preds ∨ n = t ∧ q = b.name := by
      intro n i hi
      rw [Map.get?_insert] at hi
      split at hi
      · rename_i hn; subst hn; cases hi
        refine ⟨info, hinfo, rfl, rfl, ?_⟩
        intro q hq
        rcases List.mem_append.1 hq with h | h
        · exact .inl h
        · simp at h; exact .inr ⟨rfl, h⟩
      · exact ⟨i, hi, rfl, rfl, fun _ h => .inl h⟩
    refine ⟨⟨hI.inv, hI.within, hI.gv, hI.gf, hI.layout, hI.len, hI.blks, ?_, ?_, ?_, hI.stmts, hI.noOthers⟩, rfl⟩
    · intro n i hi
      obtain ⟨i0, c1, c2, c3, -⟩ := hb' n i hi
      rw [c2]
      exact hI.infos n i0 c1
    · intro n i hi q hq
      obtain ⟨i0, c1, c2, c3, c4⟩ := hb' n i hi
      rcases c4 q hq with h | ⟨rfl, rfl⟩
      · exact hI.preds n i0 c1 q h
      · exact ⟨b, hb, rfl, ht⟩
    · intro n i hi sy v hv
      obtain ⟨i0, c1, c2, c3, c4⟩ := hb' n i hi
      rw [c3] at hv
      exact hI.defs n i0 c1 sy v hv

theorem Done.addPredList {D : Body} {lay : List (BB × List Value)} {b : BlockAst} (hb : b ∈ D.order) :
    ∀ {ts : List Str} {s s' : BS} {us : List Unit}, (∀ t ∈ ts, t ∈ successors b) → BodyInv D s lay →
    Done (B.each (Koopa.addPred b.name) ts) s us s' → BodyInv D s' lay ∧ s'.localSyms = s.localSyms
  | [], _, _, _, _, hI, h => by rw [h.each_nil]; exact ⟨hI, rfl⟩
  | t :: ts, _, _, _, ht, hI, h => by
    obtain ⟨_, _, s1, h1, h2⟩ := h.each_cons (fun _ => by unfold Koopa.addPred; calm)
    obtain ⟨hI1, e1⟩ := h1.addPred hI hb (ht t (by simp))
    obtain ⟨hI2, e2⟩ := Done.addPredList hb (fun t h => ht t (by simp [h])) hI1 h2
    exact ⟨hI2, e2.trans e1⟩

theorem Done.addPreds {D : Body} {s s' : BS} {lay : List (BB × List Value)} {b : BlockAst} {u : Unit}
    (hI : BodyInv D s lay) (hb : b ∈ D.order) (h : Done (Koopa.addPreds b) s u s') :
    BodyInv D s' lay ∧ s'.localSyms = s.localSyms := by
  unfold Koopa.addPreds at h
  split at h
  · exact h.panic.elim
  · rename_i last hlast
    obtain ⟨_, s1, h1, h2⟩ := h.bind (Calm.each (fun _ => by unfold Koopa.addPred; calm) _).logs (fun _ => Calm.pure.logs.weak)
    obtain ⟨-, rfl⟩ := h2.pure
    refine Done.addPredList hb ?_ hI h1
    intro t ht
    unfold successors
    rw [hlast]
    cases last <;> simpa [predTargets] using ht

theorem Done.addAllPreds {D : Body} {lay : List (BB × List Value)} :
    ∀ {bs : List BlockAst} {s s' : BS} {us : List Unit}, (∀ b ∈ bs, b ∈ D.order) → BodyInv D s lay →
    Done (B.each Koopa.addPreds bs) s us s' → BodyInv D s' lay ∧ s'.localSyms = s.localSyms
  | [], _, _, _, _, hI, h => by rw [h.each_nil]; exact ⟨hI, rfl⟩
  | t :: ts, _, _, _, ht, hI, h => by
    obtain ⟨_, _, s1, h1, h2⟩ := h.each_cons (fun _ => logs_addPreds)
    obtain ⟨hI1, e1⟩ := h1.addPreds hI (ht t (by simp))
    obtain ⟨hI2, e2⟩ := Done.addAllPreds (fun t h => ht t (by simp [h])) hI1 h2
    exact ⟨hI2, e2.trans e1⟩

/-! ### The table that is prepared -/

theorem Done.defineParams_has : ∀ {ps : List (Str × TyAst)} {vs : List Value} {m m' : Map Str Value} {s s' : BS},
    vs.length = ps.length → Done (Koopa.defineParams ps vs m) s m' s' →
    s'.localBbs = s.localBbs ∧ ∀ k, (m'.get? k).isSome ↔ (m.get? k).isSome ∨ k ∈ ps.map (·.1)
  | [], [], m, m', s, s', _, h => by
    obtain ⟨rfl, rfl⟩ := h.pure
    simp
  | [], _ :: _, _, _, _, _, hl, _ => by simp at hl
  | _ :: _, [], _, _, _, _, hl, _ => by simp at hl
  | (n, a) :: ps, v :: vs, m, m', s, s', hl, h => by
    rw [Koopa.defineParams] at h
    obtain ⟨_, s1, h1, h2⟩ := h.bind logs_defineSym.logs (fun _ => (logs_defineParams _ _ _).logs.weak)
    obtain ⟨rfl, -, -⟩ := h1.defineSym
    obtain ⟨e1, e2⟩ := Done.defineParams_has (by simpa using hl) h2
    refine ⟨e1, fun k => ?_⟩
    rw [e2, Map.get?_insert]
    by_cases hk : k = n <;> simp [hk]

theorem Done.initBb_table {f : Func} {b : BlockAst} {s s' : BS} {u : Unit} (h : Done (Koopa.initBb f b) s u s') :
    ∃ info, s'.localBbs = s.localBbs.insert b.name info ∧ info.preds = [] ∧
      ∀ sy, (info.localDefs.get? sy).isSome ↔ sy ∈ paramNames b := by
  unfold Koopa.initBb at h
  obtain ⟨qs, hq, h1⟩ := h.bind_lift
  obtain ⟨hd, s1, h2, h3⟩ := h1.bind Calm.api.logs (fun _ => (Calm.logs (by calm)).weak)
  obtain ⟨p1, hp1, rfl⟩ := h2.api
  obtain ⟨_, s2, h4, h5⟩ := h3.bind Calm.api'.logs (fun _ => (Calm.logs (by calm)).weak)
  obtain ⟨p2, hp2, rfl⟩ := h4.api'
  replace h5 := h5.bind_get
  obtain ⟨vs, hvs, h6⟩ := h5.bind_lift
  obtain ⟨defs, s3, h7, h8⟩ := h6.bind (logs_defineParams _ _ _).logs (fun _ => (Calm.logs (by calm)).weak)
  have h9 := h8.modify
  obtain ⟨-, hhd, -, -, hv1⟩ := newBbParams_view hp1
  have hb1 : p1.view.b f hd = some (tempName b.name, paramHandles s.prog.ids.nextLocal qs.length) := by
    rw [hv1]; simp
  obtain ⟨l2, hl2, hn2, hv2⟩ := pushBb_view hp2
  have hb2 : p2.view.b f hd = some (tempName b.name, paramHandles s.prog.ids.nextLocal qs.length) := by
    rw [hv2]; exact hb1
  obtain ⟨x, hx, hxn, hxp⟩ := view_b_iff.1 hb2
  have hvsx : vs = paramHandles s.prog.ids.nextLocal qs.length := by
    have : p2.bbParams f hd = some x.params := by
      obtain ⟨fd, hf, hx⟩ := hx
      simp [Program.bbParams, hf, hx]
    rw [this] at hvs; cases hvs; exact hxp
  have hlen := (genParams_sound hq).1
  have hvl : vs.length = b.params.length := by rw [hvsx]; simp [paramHandles, hlen]
  obtain ⟨e1, e2⟩ := h7.defineParams_has hvl
  subst h9
  refine ⟨⟨hd, [], defs⟩, by simp only [e1], rfl, fun sy => ?_⟩
  rw [e2]
  simp [Map.get?, Map.empty, Map.lookup, paramNames]

theorem Done.initAll_table {f : Func} : ∀ {bs done : List BlockAst} {s s' : BS} {us : List Unit},
    ((done ++ bs).map (·.name)).Nodup → (∀ n, tblPreds s.localBbs n = []) →
    (∀ sy n, tblHas s.localBbs sy n ↔ ∃ b ∈ done, b.name = n ∧ sy ∈ paramNames b) →
    Done (B.each (Koopa.initBb f) bs) s us s' →
    (∀ n, tblPreds s'.localBbs n = []) ∧
      ∀ sy n, tblHas s'.localBbs sy n ↔ ∃ b ∈ done ++ bs, b.name = n ∧ sy ∈ paramNames b
  | [], done, s, s', us, _, h1, h2, h => by
    rw [h.each_nil, List.append_nil]
    exact ⟨h1, h2⟩
  | b :: bs, done, s, s', us, hn, h1, h2, h => by
    obtain ⟨_, _, s1, h3, h4⟩ := h.each_cons (fun _ => logs_initBb)
    obtain ⟨info, e1, e2, e3⟩ := h3.initBb_table
    have := Done.initAll_table (bs := bs) (done := done ++ [b]) (by simpa using hn) (by
      intro n
      unfold tblPreds
      rw [e1, Map.get?_insert]
      split
      · simp [e2]
      · exact h1 n) (by
      intro sy n
      unfold tblHas
      rw [e1, Map.get?_insert]
      split
      · rename_i hx; subst hx
        simp only [Option.some.injEq, exists_eq_left', e3]
        constructor
        · intro hs; exact ⟨b, by simp, rfl, hs⟩
        · rintro ⟨b', hb', he, hs⟩
          rcases List.mem_append.1 hb' with hd | hd
          · exfalso
            rw [List.map_append, List.nodup_append] at hn
            exact hn.2.2 _ (List.mem_map.2 ⟨b', hd, rfl⟩) _ (by simp) he
          · rw [List.mem_singleton.1 hd] at hs; exact hs
      · rename_i hx
        rw [show (∃ i, s.localBbs.get? n = some i ∧ (i.localDefs.get? sy).isSome) ↔ _ from h2 sy n]
        constructor
        · rintro ⟨b', hb', he⟩; exact ⟨b', by simp [hb'], he⟩
        · rintro ⟨b', hb', he, hs⟩
          rcases List.mem_append.1 hb' with hd | hd
          · exact ⟨b', hd, he, hs⟩
          · rw [List.mem_singleton.1 hd] at he; exact absurd he (by first | exact hx | exact fun h => hx h.symm)) h4
    simpa using this

theorem Done.enterArgs_table {args : Map Str Value} {e : BlockAst} {rest : List BlockAst} {params : List (Str × TyAst)} {s s' : BS} {u : Unit}
    (hn : ((e :: rest).map (·.name)).Nodup)
    (ha : ∀ sy, (args.get? sy).isSome ↔ sy ∈ params.map (·.1))
    (h1 : ∀ n, tblPreds s.localBbs n = [])
    (h2 : ∀ sy n, tblHas s.localBbs sy n ↔ ∃ b ∈ e :: rest, b.name = n ∧ sy ∈ paramNames b)
    (h : Done (Koopa.enterArgs args e) s u s') :
    (∀ n, tblPreds s'.localBbs n = []) ∧ ∀ sy n, tblHas s'.localBbs sy n ↔ TakesParam params (e :: rest) sy n := by
  unfold Koopa.enterArgs at h
  replace h := h.bind_modify rfl
  replace h := h.bind_get
  split at h
  · exact h.panic.elim
  · rename_i info hinfo
    have h9 := h.modify
    subst h9
    have hinfo : s.localBbs.get? e.name = some info := hinfo
    have hne : ∀ b ∈ rest, b.name ≠ e.name := by
      intro b hb he
      rw [List.map_cons, List.nodup_cons] at hn
      exact hn.1 (he ▸ List.mem_map.2 ⟨b, hb, rfl⟩)
    constructor
    · intro n
      rw [← h1 n]
      unfold tblPreds
      simp only [Map.get?_insert]
      split
      · rename_i hx; subst hx; rw [hinfo]; rfl
      · rfl
    · intro sy n
      by_cases hx : n = e.name
      · subst hx
        have : tblHas (s.localBbs.insert e.name { info with localDefs := args }) sy e.name ↔ sy ∈ params.map (·.1) := by
          unfold tblHas
          simp only [Map.get?_insert, if_true, Option.some.injEq, exists_eq_left', ha]
        refine this.trans ⟨fun hs => .arg rfl hs, fun ht => ?_⟩
        generalize hn' : e.name = n at ht
        cases ht with
        | arg h1 h2 => exact h2
        | @param j b h1 h2 => exact absurd hn'.symm (hne b (List.mem_of_getElem? (by simpa using h1)))
      · have : tblHas (s.localBbs.insert e.name { info with localDefs := args }) sy n ↔ tblHas s.localBbs sy n := by
          unfold tblHas
          simp only [Map.get?_insert, if_neg hx]
        refine this.trans ((h2 sy n).trans ⟨?_, ?_⟩)
        · rintro ⟨b, hb, rfl, hs⟩
          rcases List.mem_cons.1 hb with rfl | hb
          · exact absurd rfl hx
          · obtain ⟨j, hj⟩ := List.getElem?_of_mem hb
            exact .param (j := j) (by simpa using hj) hs
        · intro ht
          cases ht with
          | arg h1 h2 => simp at h1; subst h1; exact absurd rfl hx
          | @param j b h1 h2 => exact ⟨b, List.mem_cons_of_mem _ (List.mem_of_getElem? (by simpa using h1)), rfl, h2⟩

theorem Done.addPred_table {q t : Str} {s s' : BS} {u : Unit} (h : Done (Koopa.addPred q t) s u s') :
    (∀ n, tblPreds s'.localBbs n = tblPreds s.localBbs n ++ if t = n then [q] else []) ∧
      ∀ sy n, tblHas s'.localBbs sy n ↔ tblHas s.localBbs sy n := by
  unfold Koopa.addPred at h
  replace h := h.bind_get
  split at h
  · exact h.panic.elim
  · rename_i info hinfo
    have h9 := h.modify
    subst h9
    constructor
    · intro n
      unfold tblPreds
      simp only [Map.get?_insert]
      by_cases hx : n = t
      · subst hx; simp [hinfo]
      · rw [if_neg hx, if_neg (Ne.symm hx), List.append_nil]
    · intro sy n
      unfold tblHas
      simp only [Map.get?_insert]
      split
      · rename_i hx; subst hx; rw [hinfo]; simp
      · rfl

theorem Done.addPredList_table {q : Str} : ∀ {ts : List Str} {s s' : BS} {us : List Unit},
    Done (B.each (Koopa.addPred q) ts) s us s' →
    (∀ n, tblPreds s'.localBbs n = tblPreds s.localBbs n ++ (ts.filter (· = n)).map (fun _ => q)) ∧
      ∀ sy n, tblHas s'.localBbs sy n ↔ tblHas s.localBbs sy n
  | [], _, _, _, h => by rw [h.each_nil]; simp
  | t :: ts, _, _, _, h => by
    obtain ⟨_, _, s1, h1, h2⟩ := h.each_cons (fun _ => by unfold Koopa.addPred; calm)
    obtain ⟨a1, a2⟩ := h1.addPred_table
    obtain ⟨b1, b2⟩ := Done.addPredList_table h2
    refine ⟨fun n => ?_, fun sy n => (b2 sy n).trans (a2 sy n)⟩
    rw [b1, a1, List.filter_cons]
    by_cases hx : t = n <;> simp [hx]

theorem Done.addPreds_table {b : BlockAst} {s s' : BS} {u : Unit} (h : Done (Koopa.addPreds b) s u s') :
    (∀ n, tblPreds s'.localBbs n = tblPreds s.localBbs n ++ ((successors b).filter (· = n)).map (fun _ => b.name)) ∧
      ∀ sy n, tblHas s'.localBbs sy n ↔ tblHas s.localBbs sy n := by
  unfold Koopa.addPreds at h
  split at h
  · exact h.panic.elim
  · rename_i last hlast
    obtain ⟨_, s1, h1, h2⟩ := h.bind (Calm.each (fun _ => by unfold Koopa.addPred; calm) _).logs (fun _ => Calm.pure.logs.weak)
    obtain ⟨-, rfl⟩ := h2.pure
    have := h1.addPredList_table
    have hs : successors b = predTargets last := by
      unfold successors
      rw [hlast]
      cases last <;> rfl
    rw [hs]
    exact this

theorem Done.addAllPreds_table : ∀ {bs : List BlockAst} {s s' : BS} {us : List Unit},
    Done (B.each Koopa.addPreds bs) s us s' →
    (∀ n, tblPreds s'.localBbs n = tblPreds s.localBbs n ++ predsOf bs n) ∧
      ∀ sy n, tblHas s'.localBbs sy n ↔ tblHas s.localBbs sy n
  | [], _, _, _, h => by rw [h.each_nil]; simp [predsOf]
  | b :: bs, _, _, _, h => by
    obtain ⟨_, _, s1, h1, h2⟩ := h.each_cons (fun _ => logs_addPreds)
    obtain ⟨a1, a2⟩ := h1.addPreds_table
    obtain ⟨b1, b2⟩ := Done.addAllPreds_table h2
    refine ⟨fun n => ?_, fun sy n => (b2 sy n).trans (a2 sy n)⟩
    rw [b1, a1]
    simp [predsOf]

/-- The table before the body is built. -/
theorem Done.table {D : Body} {e : BlockAst} {rest : List BlockAst} {args : Map Str Value} {s s1 s2 s3 : BS}
    {us us' : List Unit} {u : Unit} (ho : D.order = e :: rest) (hn : (D.order.map (·.name)).Nodup)
    (ha : ∀ sy, (args.get? sy).isSome ↔ sy ∈ D.params.map (·.1)) (h0 : s.localBbs = .empty)
    (h1 : Done (B.each (Koopa.initBb D.f) (e :: rest)) s us s1) (h2 : Done (Koopa.enterArgs args e) s1 u s2)
    (h3 : Done (B.each Koopa.addPreds (e :: rest)) s2 us' s3) : Table D s3.localBbs := by
  rw [ho] at hn
  obtain ⟨a1, a2⟩ := Done.initAll_table (done := []) (by simpa using hn)
    (by intro n; rw [h0]; simp [tblPreds, Map.get?, Map.empty, Map.lookup])
    (by intro sy n; rw [h0]; simp [tblHas, Map.get?, Map.empty, Map.lookup]) h1
  obtain ⟨b1, b2⟩ := h2.enterArgs_table (params := D.params) hn ha a1 (by simpa using a2)
  obtain ⟨c1, c2⟩ := h3.addAllPreds_table
  refine ⟨fun n => ?_, fun sy _ n => ?_⟩
  · rw [c1, b1, ho]; rfl
  · rw [c2, b2, ho]

/-! ### Function definitions -/

theorem argMap_clean : ∀ {ps : List (Str × TyAst)} {vs : List Value} {m m' : Map Str Value}, vs.length = ps.length →
    argMap ps vs m = (m', 0) → (ps.map (·.1)).Nodup ∧ (∀ n ∈ ps.map (·.1), m.get? n = none) ∧
    (∀ k v, m'.get? k = some v → m.get? k = some v ∨ ∃ (i : Nat) (a : TyAst), ps[i]? = some (k, a) ∧ vs[i]? = some v) ∧
    (∀ k, (m'.get? k).isSome ↔ (m.get? k).isSome ∨ k ∈ ps.map (·.1))
  | [], [], m, m', _, h => by
    simp only [argMap, Prod.mk.injEq, and_true] at h
    subst h; simp
  | [], _ :: _, _, _, hl, _ => by simp at hl
  | _ :: _, [], _, _, hl, _ => by simp at hl
  | (n, a) :: ps, v :: vs, m, m', hl, h => by
    rw [argMap] at h
    rcases e : argMap ps vs (m.insert n v) with ⟨m1, k1⟩
    rw [e] at h
    simp only [Prod.mk.injEq] at h
    obtain ⟨rfl, h⟩ := h
    split at h
    · simp at h
    · rename_i hc
      subst h
      obtain ⟨h1, h2, h3, h4⟩ := argMap_clean (by simpa using hl) e
      have hm : m.get? n = none := by simpa [Map.contains] using hc
      have hn : n ∉ ps.map (·.1) := by
        intro hn
        have := h2 n hn
        simp [Map.get?_insert] at this
      refine ⟨by rw [List.map_cons, List.nodup_cons]; exact ⟨hn, h1⟩, ?_, ?_, ?_⟩
      · intro k hk
        simp only [List.map_cons, List.mem_cons] at hk
        rcases hk with rfl | hk
        · exact hm
        · have := h2 k hk
          rw [Map.get?_insert] at this
          split at this
          · simp at this
          · exact this
      · intro k w hk
        rcases h3 k w hk with h | ⟨i, a', h5, h6⟩
        · rw [Map.get?_insert] at h
          split at h
          · rename_i he; subst he; cases h
            exact .inr ⟨0, a, rfl, rfl⟩
          · exact .inl h
        · exact .inr ⟨i + 1, a', by simpa using h5, by simpa using h6⟩
      · intro k
        rw [h4 k, Map.get?_insert]
        simp only [List.map_cons, List.mem_cons]
        split
        · rename_i he; simp [he]
        · rename_i he; simp [he]

theorem Done.logErrors {n : Nat} {s s' : BS} {u : Unit} (h : Done (Koopa.logErrors n) s u s') : n = 0 ∧ s' = s := by
  cases n with
  | zero => exact ⟨rfl, h.pure.2⟩
  | succ n =>
    rw [Koopa.logErrors] at h
    obtain ⟨_, s1, h1, _⟩ := h.bind Calm.logError.logs (fun _ => (logs_logErrors n).logs.weak)
    exact h1.logError.elim

theorem Done.defineFunc {n : Str} {f : Func} {s s' : BS} {u : Unit} (h : Done (Koopa.defineFunc n f) s u s') :
    s.globalVars.get? n = none ∧ s.globalFuncs.get? n = none ∧
    s' = { s with globalFuncs := s.globalFuncs.insert n f } := by
  unfold Koopa.defineFunc at h
  replace h := h.bind_get
  split at h
  · exact h.logError.elim
  · rename_i hc
    replace h := h.bind_modify rfl
    split at h
    · exact h.logError.elim
    · rename_i hd
      exact ⟨by simpa [Map.contains] using hc, by simpa [Map.contains] using hd, h.pure.2⟩

/-- A function definition that is accepted. -/
structure FunDone (name : Str) (params : List (Str × TyAst)) (ret : Option TyAst) (bbs : List BlockAst) (s s' : BS) :
    Prop where
  inv : FInv s'.prog
  ext : Ext s.prog s'.prog
  insts : s'.prog.view.insts = s.prog.view.insts
  lay : ∀ g, g ≠ s.prog.ids.nextFunc → s'.prog.view.lay g = s.prog.view.lay g
  b : ∀ g, g ≠ s.prog.ids.nextFunc → s'.prog.view.b g = s.prog.view.b g
  fns : s'.prog.view.fns = s.prog.view.fns ++ [s.prog.ids.nextFunc]
  globals : s'.prog.ids.nextGlobal = s.prog.ids.nextGlobal
  gv : s'.globalVars = s.globalVars
  gf : s'.globalFuncs = s.globalFuncs.insert name s.prog.ids.nextFunc
  newVar : s.globalVars.get? name = none
  newFun : s.globalFuncs.get? name = none
  fn : ∃ fd r order, s'.prog.funcs.get? s.prog.ids.nextFunc = some fd ∧
    FunIs s'.prog (fun n v => s.globalVars.get? n = some v)
      (fun n g => (s.globalFuncs.insert name s.prog.ids.nextFunc).get? n = some g)
      s.prog.ids.nextFunc fd name params ret bbs order r

theorem Done.buildFunDef {name : Str} {params : List (Str × TyAst)} {ret : Option TyAst} {bbs : List BlockAst}
    {s s' : BS} {u : Unit} (hi : FInv s.prog) (herr : ∀ b ∈ bbs, .error ∉ b.stmts)
    (h : Done (Koopa.buildFunDef name params ret bbs) s u s') : FunDone name params ret bbs s s' := by
  unfold Koopa.buildFunDef at h
  obtain ⟨r, hr, h1⟩ := h.bind_lift
  obtain ⟨qs, hq, h2⟩ := h1.bind_lift
  obtain ⟨f, s1, h3, h4⟩ := h2.bind Calm.api.logs (fun _ => (Calm.logs (by calm)).weak)
  obtain ⟨p1, hp1, rfl⟩ := h3.api
  replace h4 := h4.bind_get
  obtain ⟨fd1, hfd1, h5⟩ := h4.bind_lift
  rcases eam : argMap params fd1.params .empty with ⟨args, dups⟩
  rw [eam] at h5
  simp only at h5
  obtain ⟨_, s2, h6, h7⟩ := h5.bind (logs_logErrors _).logs (fun _ => (Calm.logs (by calm)).weak)
  obtain ⟨rfl, rfl⟩ := h6.logErrors
  obtain ⟨_, s3, h8, h9⟩ := h7.bind logs_defineFunc.logs (fun _ => (Calm.logs (by calm)).weak)
  obtain ⟨hnv, hnf, rfl⟩ := h8.defineFunc
  replace h9 := h9.bind_modify rfl
  obtain ⟨order, s4, h10, h11⟩ := h9.bind logs_blockList.logs (fun _ => (Calm.logs (by calm)).weak)
  obtain ⟨⟨e, hbf, hhead, hnames⟩, w, rfl⟩ := h10.blockList
  obtain ⟨_, s5, h12, h13⟩ := h11.bind logs_initBbs.logs (fun _ => (Calm.logs (by calm)).weak)
  obtain ⟨_, s6, h14, h15⟩ := h13.bind (Calm.each (fun _ => logs_buildBlock) _).logs (fun _ => Calm.pure.logs.weak)
  obtain ⟨-, rfl⟩ := h15.pure
  obtain ⟨hpi, hpe⟩ := hi.newFuncDef hp1
  obtain ⟨rfl, -, -, hv⟩ := newFuncDef_view hp1
  -- the parameters
  have hhd : p1.view.head s.prog.ids.nextFunc =
      some (.func (qs.map (·.2)) r, name, paramHandles s.prog.ids.nextLocal qs.length) := by
    rw [hv]; simp
  have hfp : fd1.params = paramHandles s.prog.ids.nextLocal qs.length := by
    obtain ⟨fd, hf, he⟩ := Option.map_eq_some_iff.1 hhd
    rw [show p1.funcs.get? s.prog.ids.nextFunc = some fd1 from hfd1] at hf
    cases hf
    exact congrArg (·.2.2) he
  have hpf : ParamsFrom p1 s.prog.ids.nextFunc VKind.funcArgRef params fd1.params := by
    rw [hfp]
    refine paramsFrom hq ?_
    intro w sg hw
    rw [hv]; simp [hw]
  obtain ⟨ham1, -, ham3, ham4⟩ := argMap_clean hpf.1 eam
  have hargs : ∀ sy v, args.get? sy = some v →
      ∃ (i : Nat) (a : TyAst), params[i]? = some (sy, a) ∧ fd1.params[i]? = some v := by
    intro sy v hv
    rcases ham3 sy v hv with h | h
    · simp [Map.get?, Map.empty, Map.lookup] at h
    · exact h
  -- the blocks
  let D : Body := ⟨p1, s.prog.ids.nextFunc, params, fd1.params, order, r, s.globalVars,
    s.globalFuncs.insert name s.prog.ids.nextFunc⟩
  have he0 : D.order[0]? = some e := by
    show order[0]? = some e
    rw [← List.head?_eq_getElem?]; exact hhead
  unfold initBbs at h12
  replace h12 := h12.bind_modify rfl
  obtain ⟨_, s7, h16, h17⟩ := h12.bind (Calm.each (fun _ => logs_initBb) _).logs (fun _ => (Calm.logs (by calm)).weak)
  have hI0 : InitInv D { s with
      prog := p1, globalFuncs := s.globalFuncs.insert name s.prog.ids.nextFunc, localSyms := [], warns := w,
      localBbs := Map.empty } [] [] := by
    refine ⟨hpi, .refl _ _, rfl, rfl, ⟨Layout.new, by rw [hv]; simp [D], rfl⟩, rfl, (fun _ h => by simp at h), ?_, ?_, ?_⟩
    · intro j b h is h1; simp at h1
    · intro n i h; simp [Map.get?, Map.empty, Map.lookup] at h
    · intro b hb
      rw [hv] at hb
      simp [D] at hb
  obtain ⟨lay1, hI1, hadd1⟩ := Done.initAll hI0 h16
  rw [List.nil_append] at hI1
  obtain ⟨e', rest, rfl⟩ : ∃ e' rest, order = e' :: rest := by
    cases order with
    | nil => simp at hhead
    | cons a l => exact ⟨a, l, rfl⟩
  simp only [List.head?_cons, Option.some.injEq] at hhead
  subst hhead
  simp only at h17
  obtain ⟨_, s8, h18, h19⟩ := h17.bind logs_enterArgs.logs (fun _ => (Calm.logs (by calm)).weak)
  obtain ⟨_, s9, h20, h21⟩ := h19.bind (Calm.each (fun _ => logs_addPreds) _).logs (fun _ => Calm.pure.logs.weak)
  obtain ⟨-, rfl⟩ := h21.pure
  obtain ⟨hB1, hsy1⟩ := Done.enterArgs hI1 he0 hargs (hI1.within.ext.paramsFrom hpf) h18
  obtain ⟨hB2, hsy2⟩ := Done.addAllPreds (fun _ h => h) hB1 h20
  have hT : Table D s5.localBbs := Done.table (D := D) rfl hnames (by
    intro sy
    rw [ham4]
    simp [Map.get?, Map.empty, Map.lookup, D]) rfl h16 h18 h20
  have herr' : ∀ b ∈ D.order, .error ∉ b.stmts := fun b hb => herr b ((hbf.exact b).1 hb).1
  have hasc0 : Ascending lay1 := by
    have : lay1.flatMap (·.2) = [] := by
      rw [List.flatMap_eq_nil_iff]
      rintro ⟨h, is⟩ hm
      exact hI1.empty _ hm
    unfold Ascending; rw [this]; exact .nil
  obtain ⟨lay, hB, hasc, hlen, hadd2⟩ := Done.buildBlocks (D := D) hnames herr' hB2 hT hasc0 (j := 0) rfl
    (fun q h is _ hq => hI1.empty _ (List.mem_of_getElem? hq)) (fun q _ _ _ hq => by omega) h14
  rw [hsy2, hsy1] at hadd2
  obtain ⟨l, hl, hll⟩ := hB.layout
  have hhd' := hB.within.ext.head _ _ hhd
  obtain ⟨fd, hfd, hfdl⟩ := Option.map_eq_some_iff.1 (show (s'.prog.funcs.get? s.prog.ids.nextFunc).map (·.layout) = some l from hl)
  obtain ⟨fd', hfd', hfh⟩ := Option.map_eq_some_iff.1 hhd'
  rw [hfd] at hfd'; cases hfd'
  simp only [Prod.mk.injEq] at hfh
  obtain ⟨hty, hnm, hps⟩ := hfh
  refine ⟨hB.inv, hpe.trans hB.within.ext, ?_, ?_, ?_, ?_, ?_, hB.gv, hB.gf, hnv, hnf, fd, r, e' :: rest, hfd, ?_⟩
  · rw [hB.within.insts]; show p1.view.insts = _; rw [hv]
  · intro g hg; rw [hB.within.lay g hg]; show p1.view.lay g = _; rw [hv]; simp [hg]
  · intro g hg; rw [hB.within.b g hg]; show p1.view.b g = _; rw [hv]; simp [hg]
  · rw [hB.within.fns]; show p1.view.fns = _; rw [hv]
  · exact hB.within.globals.trans (by show p1.view.ids.nextGlobal = _; rw [hv])
  have hfps : fd.params = fd1.params := hps.trans hfp.symm
  have hgp := genParams_sound hq
  refine ⟨hnm, ⟨_, hty, ?_⟩, genRetType_sound hr, ?_, ⟨e', hbf⟩, ?_, by rw [hfdl, hll]; exact hasc, ?_, ?_⟩
  · refine All2.of_get (by simp [hgp.1]) ?_
    intro i a t h1 h2
    rw [List.getElem?_map, Option.map_eq_some_iff] at h1 h2
    obtain ⟨q, h1, rfl⟩ := h1
    obtain ⟨q', h2, rfl⟩ := h2
    obtain ⟨t, h3, h4⟩ := hgp.2 i q h1
    rw [h3] at h2; cases h2
    exact h4
  · rw [hfps]; exact hB.within.ext.paramsFrom hpf
  · have hbp : s7.localSyms = ((e' :: rest).flatMap paramNames).reverse := by
      rw [hadd1.eq]; simp
    refine ⟨ham1, ?_, ?_, ?_⟩
    · rw [List.nodup_append]
      refine ⟨hadd1.nodup, hadd2.nodup, ?_⟩
      rintro x hx y hy rfl
      refine hadd2.fresh x hy ?_
      rw [hbp]
      exact List.mem_append.2 (.inr (List.mem_reverse.2 hx))
    · intro n hn hp
      refine hadd2.fresh n hn (List.mem_append.2 (.inl (Map.mem_keys.2 ((ham4 n).2 (.inr hp)))))
    · intro n hn v hgv
      have : s.globalVars.get? n = none := by
        rcases List.mem_append.1 hn with h | h
        · exact hadd1.global n h
        · exact hadd2.global n h
      rw [this] at hgv; cases hgv
  · rw [hfdl, hll, hfps]
    refine All2.of_get hB.len ?_
    rintro j ⟨h, is⟩ b h1 h2
    refine ⟨hB.blks j b h is h2 h1, All2.of_get (hlen j b h is h2 h1) ?_⟩
    intro i w st h3 h4
    exact hB.stmts j b h is i w st h2 h1 h3 h4
  · intro b x hx
    rw [hfdl, hll]
    refine hB.noOthers b ?_
    rw [view_b_iff.2 ⟨x, hx, rfl, rfl⟩]; rfl

end Koopa
