import Verif.Lemmas.Back.TreeLex
import Verif.Spec.Typed
/-!
The tree of a program that can be written is well typed.
-/
namespace Koopa
open Spec

def tyOf (fd : FData) (v : Value) : Ty := match fd.dfg.values.get? v with
  | some x => x.ty
  | none => .unit

def gtyOf (p : Program) (v : Value) : Ty := match p.values.get? v with
  | some x => x.ty
  | none => .unit

def sigOf (p : Program) (g : Func) : List Ty × Ty := match p.funcs.get? g with
  | some fd => match fd.ty with
    | .func ts r => (ts, r)
    | _ => ([], .unit)
  | none => ([], .unit)

open Classical in
/-- The type of the value that has the name. -/
noncomputable def tyNamed (fd : FData) (M : Nm) (s : Str) : Ty :=
  if h : ∃ v, HasName fd v ∧ M.val v = s then tyOf fd h.choose else .unit

/-- The global variables with their types. -/
def gvOf (p : Program) (M : Nm) : List (Str × Ty) := p.instLayout.map (fun v => (M.glob v, gtyOf p v))

/-- The functions with their types. -/
def gfOf (p : Program) (M : Nm) (fs : List Func) : List (Str × List Ty × Ty) := fs.map (fun g => (M.fn g, sigOf p g))

/-! ### Constants -/

/-- What typing says about constants. -/
structure ConstTyped (get : Value → Option VData) : Prop where
  agg : ∀ u x es, get u = some x → x.kind = .aggregate es → es ≠ [] ∧ ∃ t, x.ty = .array t es.length ∧ ∀ e ∈ es, ∀ y, get e = some y → y.ty = t
  int : ∀ u x n, get u = some x → x.kind = .integer n → x.ty = .i32
  undef : ∀ u x, get u = some x → x.kind = .undef → x.ty ≠ .unit
  zero : ∀ u x, get u = some x → x.kind = .zeroInit → x.ty ≠ .unit

theorem const_ok {get : Value → Option VData} (hc : ConstTyped get) {v : Value} (h : Constant get v) :
    ∀ n x, (elemPieces get n v).isSome = true → get v = some x → ConstOk (elemAst get n v) x.ty := by
  induction h with
  | int h hk =>
    intro n y _ hx
    rw [h] at hx; cases hx
    have := hc.int _ _ _ h hk
    unfold elemAst; rw [h]; simp only
    rw [constAst_leaf _ _ (by rw [hk]; simp), hk, this]; exact .int
  | undef h hk =>
    intro n y _ hx
    rw [h] at hx; cases hx
    have := hc.undef _ _ h hk
    unfold elemAst; rw [h]; simp only
    rw [constAst_leaf _ _ (by rw [hk]; simp), hk]; exact .undef this
  | zero h hk =>
    intro n y _ hx
    rw [h] at hx; cases hx
    have := hc.zero _ _ h hk
    unfold elemAst; rw [h]; simp only
    rw [constAst_leaf _ _ (by rw [hk]; simp), hk]; exact .zero this
  | @agg v x es h hk he ih =>
    intro n y hs hx
    rw [h] at hx; cases hx
    obtain ⟨hne, t, ht, hes⟩ := hc.agg _ _ _ h hk
    unfold elemPieces at hs
    unfold elemAst
    rw [h] at hs ⊢
    simp only at hs ⊢
    rw [hk] at hs ⊢
    cases n with
    | zero => cases hs
    | succ n =>
      rw [constAst_agg, ht]
      have := ConstOk.agg (es := es.map (elemAst get n)) (t := t) (by simpa using hne) (by
        intro e he'
        obtain ⟨u, hu, rfl⟩ := List.mem_map.1 he'
        have h1 := constPieces_agg_isSome.1 hs u hu
        have h2 : ∃ y, get u = some y := by
          cases hg : get u with
          | none => unfold elemPieces at h1; rw [hg] at h1; cases h1
          | some y => exact ⟨y, rfl⟩
        obtain ⟨y, hy⟩ := h2
        have := ih u hu n y h1 hy
        rw [hes u hu y hy] at this
        exact this)
      rwa [List.length_map] at this

theorem nodes_const {get : Value → Option VData} {v : Value} (h : Constant get v) :
    ∀ n, (elemPieces get n v).isSome = true → Nodes get v (constSize (elemAst get n v)) := by
  have sizes : ∀ l : List ValAst, constSizes l = (l.map constSize).sum := by
    intro l
    induction l with
    | nil => rfl
    | cons a l ih => rw [constSizes, ih]; rfl
  induction h with
  | int h hk =>
    intro n _
    unfold elemAst; rw [h]; simp only
    rw [constAst_leaf _ _ (by rw [hk]; simp), hk]; exact .leaf h (by rw [hk]; rfl)
  | undef h hk =>
    intro n _
    unfold elemAst; rw [h]; simp only
    rw [constAst_leaf _ _ (by rw [hk]; simp), hk]; exact .leaf h (by rw [hk]; rfl)
  | zero h hk =>
    intro n _
    unfold elemAst; rw [h]; simp only
    rw [constAst_leaf _ _ (by rw [hk]; simp), hk]; exact .leaf h (by rw [hk]; rfl)
  | @agg v x es h hk he ih =>
    intro n hs
    unfold elemPieces at hs
    unfold elemAst
    rw [h] at hs ⊢
    simp only at hs ⊢
    rw [hk] at hs ⊢
    cases n with
    | zero => cases hs
    | succ n =>
      rw [constAst_agg, constSize, sizes]
      refine .agg h hk (by simp) ?_
      intro i e k hi hk'
      simp only [List.map_map, List.getElem?_map, hi, Option.map_some] at hk'
      cases hk'
      have hm := List.mem_of_getElem? hi
      exact ih e hm n (constPieces_agg_isSome.1 hs e hm)

section
variable {p : Program} (hp : Printable p)
include hp

theorem global_typed : ConstTyped p.values.get? := by
  have key : ∀ u x, p.values.get? u = some x → InstTy (GlobalHasTy p) (fun _ _ => False) (fun _ _ => False) x.kind x.ty :=
    fun u x h => hp.typed.globals u x h
  refine ⟨?_, ?_, ?_, ?_⟩
  · intro u x es h hk
    have := key u x h
    rw [hk] at this
    generalize hty : x.ty = ty at this
    cases this with
    | aggregate h1 h2 h3 =>
      refine ⟨h1, _, rfl, fun e he y hy => ?_⟩
      obtain ⟨z, h4, h5⟩ := h3 e he
      have h4 : p.values.get? e = some z := h4
      rw [hy] at h4; cases h4; exact h5
  · intro u x n h hk
    have := key u x h
    rw [hk] at this
    generalize hty : x.ty = ty at this
    cases this; rfl
  · intro u x h hk
    have := key u x h
    rw [hk] at this
    generalize hty : x.ty = ty at this
    cases this; assumption
  · intro u x h hk
    have := key u x h
    rw [hk] at this
    generalize hty : x.ty = ty at this
    cases this; assumption

theorem hasTy_local {f : Func} {fd : FData} (hf : p.funcs.get? f = some fd) {v : Value} {x : VData} {t : Ty}
    (hx : fd.dfg.values.get? v = some x) (h : HasTy p f v t) : x.ty = t := by
  obtain ⟨y, h1, h2⟩ := h
  rcases h1 with h1 | ⟨fd', h3, h4⟩
  · have := hp.globalId v y h1
    rw [hp.localId f v x ⟨fd, hf, hx⟩] at this; cases this
  · rw [hf] at h3; cases h3
    rw [hx] at h4; cases h4; exact h2

theorem local_typed {f : Func} {fd : FData} (hf : p.funcs.get? f = some fd) : ConstTyped fd.dfg.values.get? := by
  have key : ∀ u x, fd.dfg.values.get? u = some x → InstTy (HasTy p f) (ParamTys p f) (FuncTy p) x.kind x.ty :=
    fun u x h => hp.typed.locals f u x ⟨fd, hf, h⟩
  refine ⟨?_, ?_, ?_, ?_⟩
  · intro u x es h hk
    have := key u x h
    rw [hk] at this
    generalize hty : x.ty = ty at this
    cases this with
    | aggregate h1 h2 h3 => exact ⟨h1, _, rfl, fun e he y hy => hasTy_local hp hf hy (h3 e he)⟩
  · intro u x n h hk
    have := key u x h
    rw [hk] at this
    generalize hty : x.ty = ty at this
    cases this; rfl
  · intro u x h hk
    have := key u x h
    rw [hk] at this
    generalize hty : x.ty = ty at this
    cases this; assumption
  · intro u x h hk
    have := key u x h
    rw [hk] at this
    generalize hty : x.ty = ty at this
    cases this; assumption

end

/-! ### Flow between blocks -/

section
variable {p : Program} (hp : Printable p) {before : List Func} {f : Func} {fd : FData} {ts : List Ty} {r : Ty}
  (hf : p.funcs.get? f = some fd) (hb : PrintableBody p before f fd ts r) {M : Nm} (hg : GNmOk p M) (hm : NmOk p fd M)

theorem flatMap_ext {α β : Type} {g h : α → List β} : ∀ {l : List α}, (∀ a ∈ l, g a = h a) → l.flatMap g = l.flatMap h
  | [], _ => rfl
  | a :: l, he => by rw [List.flatMap_cons, List.flatMap_cons, he a List.mem_cons_self, flatMap_ext (fun b hb => he b (List.mem_cons_of_mem _ hb))]

def orderOf (fd : FData) (M : Nm) : List BlockAst := fd.layout.bbs.map (blockAst fd M)

include hb in
theorem succ_exits {b : BB} {is : List Value} (h : (b, is) ∈ fd.layout.bbs) : successors (blockAst fd M (b, is)) = (exits fd is).map M.bb := by
  obtain ⟨init, t, rfl, ⟨x, h1, h2⟩, -⟩ := hb.ends b is h
  unfold successors exits blockAst
  simp only [List.map_append, List.map_cons, List.map_nil, List.getLast?_append, List.getLast?_singleton, Option.some_or, h1, stmtAst]
  cases hk : x.kind with
  | branch c t f ta fa => rfl
  | jump t a => rfl
  | ret v => cases v <;> rfl
  | _ => rw [hk] at h2; cases h2

include hf hb in
theorem leads_flows {a b : BB} (h : Leads p f a b) : Flows (orderOf fd M) (M.bb a) (M.bb b) := by
  induction h with
  | refl => exact .refl
  | @step b c h1 h2 ih =>
    obtain ⟨fd', is, u, x, h3, h4, h5, ⟨fd'', h6, h7⟩, h8⟩ := h2
    rw [hf] at h3 h6; cases h3; cases h6
    refine .step (b := blockAst fd M (b, is)) ih (List.mem_map.2 ⟨_, h4, rfl⟩) ?_
    rw [succ_exits hb h4, (exits_of hb h4 h5 h7 (target_term hb h8)).1]
    exact List.mem_map.2 ⟨_, h8, rfl⟩

include hm in
theorem bb_inj {b c : BB} (h : b ∈ fd.layout.bbs.map (·.1)) (h' : c ∈ fd.layout.bbs.map (·.1)) (he : M.bb b = M.bb c) : b = c := by
  obtain ⟨q, hq, rfl⟩ := List.mem_map.1 h
  obtain ⟨q', hq', rfl⟩ := List.mem_map.1 h'
  exact hm.injBb q hq q' hq' he

theorem firsts_map {g : BB → Str} {P : BB → Prop} (hinj : ∀ a b, P a → P b → g a = g b → a = b) : ∀ (l seen : List BB), (∀ a ∈ l, P a) → (∀ a ∈ seen, P a) →
    firsts (seen.map g) (l.map g) = (firstOnes seen l).map g
  | [], _, _, _ => rfl
  | a :: l, seen, h, hs => by
    have ha := h a List.mem_cons_self
    have hmem : g a ∈ seen.map g ↔ a ∈ seen := by
      constructor
      · intro h1
        obtain ⟨b, hb, he⟩ := List.mem_map.1 h1
        rw [← hinj b a (hs b hb) ha he]; exact hb
      · exact fun h1 => List.mem_map.2 ⟨a, h1, rfl⟩
    rw [List.map_cons, firsts, firstOnes]
    by_cases h1 : a ∈ seen
    · rw [if_pos (hmem.2 h1), if_pos h1]
      exact firsts_map hinj l seen (fun b hb => h b (List.mem_cons_of_mem _ hb)) hs
    · rw [if_neg (fun h2 => h1 (hmem.1 h2)), if_neg h1, List.map_cons]
      congr 1
      exact firsts_map hinj l (a :: seen) (fun b hb => h b (List.mem_cons_of_mem _ hb)) (by
        intro b hb
        rcases List.mem_cons.1 hb with rfl | hb
        · exact ha
        · exact hs b hb)

theorem order_names (fd : FData) (M : Nm) : (orderOf fd M).map (·.name) = (fd.layout.bbs.map (·.1)).map M.bb := by
  unfold orderOf; rw [List.map_map, List.map_map]; rfl

include hf hb hm in
theorem breadth_ok : ∃ e, BreadthFirst (orderOf fd M) (orderOf fd M) e := by
  obtain ⟨e, h1, h2, h3⟩ := hb.order
  have hcons : ∃ q rest, fd.layout.bbs = q :: rest ∧ q.1 = e := by
    cases hq : fd.layout.bbs with
    | nil => rw [hq] at h1; cases h1
    | cons q rest => rw [hq] at h1; cases h1; exact ⟨q, rest, rfl, rfl⟩
  obtain ⟨q, rest, hq, rfl⟩ := hcons
  have hem : q.1 ∈ fd.layout.bbs.map (·.1) := by rw [hq]; exact List.mem_cons_self
  have hsucc : (orderOf fd M).flatMap successors = (fd.layout.bbs.flatMap (fun q => exits fd q.2)).map M.bb := by
    unfold orderOf
    rw [List.flatMap_map, List.map_flatMap]
    refine flatMap_ext (fun a ha => ?_)
    exact succ_exits hb (b := a.1) (is := a.2) ha
  refine ⟨blockAst fd M q, ?_, ?_, ?_, ?_, ?_⟩
  · unfold orderOf; rw [hq]; rfl
  · rw [order_names, List.Nodup, List.pairwise_map]
    exact List.Pairwise.imp_of_mem (fun ha hb hne he => hne (bb_inj hm ha hb he)) hb.blocksOnce
  · intro b
    refine ⟨fun h => ⟨h, ?_⟩, fun h => h.1⟩
    obtain ⟨a, ha, rfl⟩ := List.mem_map.1 h
    exact leads_flows hf hb (h3 a.1 a.2 ha).1
  · rw [order_names, hsucc]
    have := firsts_map (g := M.bb) (P := (· ∈ fd.layout.bbs.map (·.1))) (fun a b ha hb he => bb_inj hm ha hb he)
      (q.1 :: fd.layout.bbs.flatMap (fun q => exits fd q.2)) [] (by
        intro a ha
        rcases List.mem_cons.1 ha with rfl | ha
        · exact hem
        · obtain ⟨c, hc, ha⟩ := List.mem_flatMap.1 ha
          exact ((h3 c.1 c.2 hc).2 a ha).2) (by simp)
    rw [← h2] at this
    exact this.symm
  · intro b hb' t ht
    obtain ⟨a, ha, rfl⟩ := List.mem_map.1 hb'
    rw [show successors (blockAst fd M a) = _ from succ_exits hb (b := a.1) (is := a.2) ha] at ht
    obtain ⟨c, hc, rfl⟩ := List.mem_map.1 ht
    obtain ⟨h4, h5⟩ := (h3 a.1 a.2 ha).2 c hc
    refine ⟨fun he => h4 (bb_inj hm h5 hem he), ?_⟩
    obtain ⟨d, hd, rfl⟩ := List.mem_map.1 h5
    exact ⟨blockAst fd M d, List.mem_map.2 ⟨d, hd, rfl⟩, rfl⟩

/-! ### Statements -/

def paramsOf (fd : FData) (M : Nm) (vs : List Value) : List (Str × TyAst) := vs.map (paramAst fd M)

/-- What a statement refers to. -/
noncomputable def envAt (p : Program) (fd : FData) (M : Nm) (fs : List Func) (r : Ty) (j i : Nat) : TyEnv :=
  tyEnv (gvOf p M) (gfOf p M fs) (paramsOf fd M fd.params) (orderOf fd M) (tyNamed fd M) r j i

include hm in
theorem tyNamed_eq {v : Value} (h : HasName fd v) : tyNamed fd M (M.val v) = tyOf fd v := by
  unfold tyNamed
  have hex : ∃ u, HasName fd u ∧ M.val u = M.val v := ⟨v, h, rfl⟩
  rw [dif_pos hex]
  have := hex.choose_spec
  rw [hm.injVal _ _ this.1 h this.2]

theorem tyOf_eq {v : Value} {x : VData} (h : fd.dfg.values.get? v = some x) : tyOf fd v = x.ty := by unfold tyOf; rw [h]

theorem order_get {j : Nat} {q : BB × List Value} (h : fd.layout.bbs[j]? = some q) : (orderOf fd M)[j]? = some (blockAst fd M q) := by
  unfold orderOf; rw [List.getElem?_map, h]; rfl

include hp hf hb hm

theorem sym_ok (fs : List Func) {r' : Ty} {j i : Nat} {v : Value} {t : Ty} (h : Visible p f fd j i v) (ht : HasTy p f v t) :
    (envAt p fd M fs r' j i).sym (symOf M v) t := by
  unfold symOf
  rcases visible_has hp hf hb h with ⟨h0, h1⟩ | ⟨h0, h1⟩
  · rw [if_pos h0]
    left
    refine List.mem_map.2 ⟨v, h1, ?_⟩
    obtain ⟨y, h2, h3⟩ := ht
    rcases h2 with h2 | h2
    · have h2 : p.values.get? v = some y := h2
      simp only [gtyOf, h2, h3]
    · rw [hp.localId f v y h2] at h0; cases h0
  · rw [if_neg (by simp [h0])]
    right
    have hty : tyNamed fd M (M.val v) = t := by
      rw [tyNamed_eq hm h1]
      obtain ⟨y, h2, h3⟩ := ht
      rcases h2 with h2 | ⟨fd', h4, h5⟩
      · rw [hp.globalId v y h2] at h0; cases h0
      · rw [hf] at h4; cases h4
        rw [tyOf_eq h5, h3]
    refine ⟨?_, hty⟩
    cases h with
    | global h =>
      obtain ⟨x, k, y, h1, h2, -⟩ := hp.insts v h
      rw [hp.globalId v x h1] at h0; cases h0
    | arg h => exact .arg (a := (paramAst fd M v).2) (List.mem_map.2 ⟨v, h, rfl⟩)
    | param h2 h3 h4 h5 h6 =>
      refine .param (a := (paramAst fd M v).2) (order_get h2) (order_get h3) ?_ (leads_flows hf hb h6)
      simp only [blockAst, h4]
      exact List.mem_map.2 ⟨v, h5, rfl⟩
    | inst h2 h3 h4 h5 h6 h7 h8 =>
      obtain ⟨e, he⟩ := stmt_names hp hf hb M (List.mem_of_getElem? h3) (List.mem_of_getElem? h4) h5 h6
      refine .inst (order_get h2) (order_get h3) (e := e) (i' := _) ?_ (leads_flows hf hb h7) h8
      simp only [blockAst, List.getElem?_map, h4, Option.map_some, he]

theorem val_ok (fs : List Func) {r' : Ty} {j i : Nat} {v : Value} {t : Ty} (h : Usable p f fd j i v) (ht : HasTy p f v t) :
    OperandOk (envAt p fd M fs r' j i) (valAst fd M v) t := by
  have cst : ∀ {x}, fd.dfg.values.get? v = some x → Constant fd.dfg.values.get? v → OperandOk (envAt p fd M fs r' j i) (valAst fd M v) t := by
    intro x hx hc
    rw [local_const hp hf hc, ← hasTy_local hp hf hx ht]
    exact .const (const_ok (local_typed hp hf) hc _ x hc.fuel hx)
  rcases h with h | ⟨x, h1, ⟨n, h2⟩ | h2⟩
  · rw [(named_value hp M (visible_named hp hf hb h)).1]; exact .sym (sym_ok hp hf hb hm fs h ht)
  · exact cst h1 (.int h1 h2)
  · exact cst h1 (.undef h1 h2)

theorem vals_ok (fs : List Func) {r' : Ty} {j i : Nat} {as : List Value} {us : List Ty} (h : ∀ v ∈ as, Usable p f fd j i v)
    (ht : All2 (HasTy p f) as us) : All2 (OperandOk (envAt p fd M fs r' j i)) (as.map (valAst fd M)) us := by
  induction ht with
  | nil => exact .nil
  | cons h1 _ ih => exact .cons (val_ok hp hf hb hm fs (h _ List.mem_cons_self) h1) (ih (fun v hv => h v (List.mem_cons_of_mem _ hv)))

omit hm in
theorem block_ok (fs : List Func) {r' : Ty} {j i : Nat} {b : BB} {us : List Ty} (h : ParamTys p f b us) (hl : ∃ q ∈ fd.layout.bbs, q.1 = b) :
    (envAt p fd M fs r' j i).bb (M.bb b) us := by
  obtain ⟨⟨b', is⟩, hq, rfl⟩ := hl
  obtain ⟨x, ⟨fd', h1, h2⟩, h3⟩ := h
  rw [hf] at h1; cases h1
  refine ⟨blockAst fd M (b', is), List.mem_map.2 ⟨_, hq, rfl⟩, rfl, ?_⟩
  obtain ⟨y, h4, h5⟩ := hb.blocks b' is hq
  have h2 : fd.dfg.bbs.get? b' = some x := h2
  rw [h2] at h4; cases h4
  simp only [blockAst, h2]
  have : ∀ (vs : List Value) (us : List Ty), All2 (HasTy p f) vs us → (∀ v ∈ vs, ∃ y, fd.dfg.values.get? v = some y ∧ Expressible y.ty) →
      All2 TyIs ((vs.map (paramAst fd M)).map (·.2)) us := by
    intro vs us h
    induction h with
    | nil => intro _; exact .nil
    | cons h1 _ ih =>
      intro h2
      obtain ⟨y, h3, h4⟩ := h2 _ List.mem_cons_self
      refine .cons ?_ (ih (fun v hv => h2 v (List.mem_cons_of_mem _ hv)))
      simp only [paramAst, h3]
      rw [← hasTy_local hp hf h3 h1]
      exact astOf_is h4
  refine this _ _ h3 (fun v hv => ?_)
  obtain ⟨k, hk⟩ := List.getElem?_of_mem hv
  obtain ⟨y, h6, -, h7⟩ := h5 k v hk
  exact ⟨y, h6, h7⟩

theorem stmt_ok (fs : List Func) (hfs : ∀ g ∈ before ++ [f], g ∈ fs) {j i : Nat} {b : BB} {is : List Value} {v : Value}
    (hj : fd.layout.bbs[j]? = some (b, is)) (hi : is[i]? = some v) : StmtOk (envAt p fd M fs r j i) (tyNamed fd M) (stmtAst fd M v) := by
  obtain ⟨x, hx, hw⟩ := hb.insts j i b is v hj hi
  have hbm := List.mem_of_getElem? hj
  have hvm := List.mem_of_getElem? hi
  have hT := hp.typed.locals f v x ⟨fd, hf, hx⟩
  have tg : ∀ c ∈ targets x.kind, ∃ q ∈ fd.layout.bbs, q.1 = c := fun c hc => target_listed hb hbm hvm hx hc
  have nm : x.ty ≠ .unit → tyNamed fd M (M.val v) = x.ty := fun hu => by
    rw [tyNamed_eq hm (.inst hbm hvm hx hu), tyOf_eq hx]
  have df : ∀ e, x.ty ≠ .unit → ExprOk (envAt p fd M fs r j i) e x.ty → StmtOk (envAt p fd M fs r j i) (tyNamed fd M) (.def (M.val v) e) := by
    intro e hu he
    have := nm hu
    exact .def (by rw [this]; exact he) (by rw [this]; exact hu)
  have sy := fun {s t} => sym_ok hp hf hb hm fs (r' := r) (j := j) (i := i) (v := s) (t := t)
  have vl := fun {s t} => val_ok hp hf hb hm fs (r' := r) (j := j) (i := i) (v := s) (t := t)
  have vls := fun {s t} => vals_ok hp hf hb hm fs (r' := r) (j := j) (i := i) (as := s) (us := t)
  have bk := fun {s t} => block_ok hp hf hb (M := M) fs (r' := r) (j := j) (i := i) (b := s) (us := t)
  unfold stmtAst
  simp only [hx]
  obtain ⟨ty, name, kind, usedBy⟩ := x
  simp only at hw hT tg nm df ⊢
  cases hw with
  | alloc ht => exact df _ (by simp) (.alloc (astOf_is ht))
  | load hs ht =>
    cases hT with
    | load h => exact df _ ht (.load (sy hs h))
  | store hv hd =>
    cases hT with
    | store h1 h2 =>
      refine .store ?_ (sy hd h2)
      rcases hv with hv | hv
      · exact vl (.inl hv) h1
      · rw [local_const hp hf hv]
        obtain ⟨y, hy⟩ : ∃ y, fd.dfg.values.get? _ = some y := by
          cases hv with
          | int h _ => exact ⟨_, h⟩
          | undef h _ => exact ⟨_, h⟩
          | zero h _ => exact ⟨_, h⟩
          | agg h _ _ => exact ⟨_, h⟩
        rw [← hasTy_local hp hf hy h1]
        exact .const (const_ok (local_typed hp hf) hv _ _ hv.fuel hy)
  | getPtr hs hi =>
    cases hT with
    | getPtr h1 h2 => exact df _ (by simp) (.getPtr (sy hs h1) (vl hi h2))
  | getElemPtr hs hi =>
    cases hT with
    | getElemPtr h1 h2 => exact df _ (by simp) (.getElemPtr (sy hs h1) (vl hi h2))
  | binary hs hi =>
    cases hT with
    | binary h1 h2 => exact df _ (by simp) (.binary (vl hs h1) (vl hi h2))
  | branch hc h1 h2 =>
    cases hT with
    | branch h3 h4 h5 h6 h7 h8 =>
      have t1 := tg _ (List.mem_cons_self)
      have t2 := tg _ (List.mem_cons_of_mem _ List.mem_cons_self)
      refine .branch (vl hc h3) (bk h4 t1) (vls h1 h6) (bk h5 t2) (vls h2 h7) ?_
      intro he
      have : _ = _ := bb_inj hm (by obtain ⟨q, hq, rfl⟩ := t1; exact List.mem_map.2 ⟨q, hq, rfl⟩)
        (by obtain ⟨q, hq, rfl⟩ := t2; exact List.mem_map.2 ⟨q, hq, rfl⟩) he
      obtain ⟨e1, e2⟩ := h8 this
      rw [e1, e2]; exact ⟨rfl, rfl⟩
  | jump h1 =>
    cases hT with
    | jump h2 h3 => exact .jump (bk h2 (tg _ List.mem_cons_self)) (vls h1 h3)
  | @call g as _ hgm has =>
    cases hT with
    | call h1 h2 =>
      have hfn : ExprOk (envAt p fd M fs r j i) (.call (M.fn g) (as.map (valAst fd M))) ty := by
        refine .call ?_ (vls has h2)
        refine List.mem_map.2 ⟨g, hfs g hgm, ?_⟩
        obtain ⟨gd, h3, h4⟩ := h1
        simp only [sigOf, h3, h4]
      by_cases hu : ty = .unit
      · subst hu
        exact .call hfn
      · have hu' : ty.isUnit = false := by
          cases ty <;> first | rfl | exact absurd rfl hu
        simp only [kindAst, hu']
        exact df _ hu hfn
  | retNone h => exact .retNone h
  | ret h hv hr => exact .ret h (vl hv hr)

end

/-! ### Names -/

/-- The parameters of a block. -/
def paramsAt (fd : FData) (b : BB) : List Value := match fd.dfg.bbs.get? b with
  | some x => x.params
  | none => []

def hasResult (fd : FData) (v : Value) : Bool := match fd.dfg.values.get? v with
  | some x => !x.ty.isUnit
  | none => false

section
variable {p : Program} (hp : Printable p) {before : List Func} {f : Func} {fd : FData} {ts : List Ty} {r : Ty}
  (hf : p.funcs.get? f = some fd) (hb : PrintableBody p before f fd ts r) {M : Nm} (hg : GNmOk p M) (hm : NmOk p fd M)

theorem paramNames_eq (q : BB × List Value) : paramNames (blockAst fd M q) = (paramsAt fd q.1).map M.val := by
  unfold paramNames blockAst paramsAt
  cases fd.dfg.bbs.get? q.1 with
  | none => rfl
  | some x => simp only [List.map_map]; rfl

include hp hf hb

theorem stmt_nodef {b : BB} {is : List Value} {v : Value} {x : VData} (hm : (b, is) ∈ fd.layout.bbs) (hv : v ∈ is)
    (hx : fd.dfg.values.get? v = some x) (hu : x.ty = .unit) : ∀ n e, stmtAst fd M v ≠ .def n e := by
  obtain ⟨j, hj⟩ := List.getElem?_of_mem hm
  obtain ⟨i, hi⟩ := List.getElem?_of_mem hv
  obtain ⟨x', h1, hw⟩ := hb.insts j i b is v hj hi
  rw [hx] at h1; cases h1
  have hT := hp.typed.locals f v x ⟨fd, hf, hx⟩
  unfold stmtAst
  simp only [hx]
  obtain ⟨ty, name, kind, usedBy⟩ := x
  simp only at hw hT hu ⊢
  subst hu
  intro n e he
  cases hw with
  | load _ h => exact h rfl
  | store => cases he
  | getPtr => cases hT
  | getElemPtr => cases hT
  | binary => cases hT
  | branch => cases he
  | jump => cases he
  | call => cases he
  | retNone => cases he
  | ret => cases he

theorem defNames_eq {q : BB × List Value} (hq : q ∈ fd.layout.bbs) : defNames (blockAst fd M q) = (q.2.filter (hasResult fd)).map M.val := by
  obtain ⟨b, is⟩ := q
  unfold defNames blockAst
  simp only
  have : ∀ l : List Value, (∀ v ∈ l, v ∈ is) → (l.map (stmtAst fd M)).filterMap (fun st => match st with | .def n _ => some n | _ => none) =
      (l.filter (hasResult fd)).map M.val := by
    intro l
    induction l with
    | nil => intro _; rfl
    | cons v l ih =>
      intro hl
      have hv := hl v List.mem_cons_self
      obtain ⟨j, hj⟩ := List.getElem?_of_mem hq
      obtain ⟨i, hi⟩ := List.getElem?_of_mem hv
      obtain ⟨x, hx, -⟩ := hb.insts j i b is v hj hi
      have ih := ih (fun u hu => hl u (List.mem_cons_of_mem _ hu))
      by_cases hu : x.ty = .unit
      · have h1 : hasResult fd v = false := by simp only [hasResult, hx, hu]; rfl
        have h2 := stmt_nodef hp hf hb (M := M) hq hv hx hu
        rw [List.filter_cons_of_neg (by simp [h1]), List.map_cons, List.filterMap_cons, ← ih]
        cases hs : stmtAst fd M v <;> first | rfl | exact absurd hs (h2 _ _)
      · have h1 : hasResult fd v = true := by
          unfold hasResult; rw [hx]
          have : x.ty.isUnit = false := by cases ht : x.ty <;> first | rfl | exact absurd ht hu
          simp [this]
        obtain ⟨e, he⟩ := stmt_names hp hf hb M hq hv hx hu
        rw [List.filter_cons_of_pos h1, List.map_cons, he, List.filterMap_cons, ih]
        rfl
  exact this is (fun v hv => hv)

/-- The values with names, in order. -/
def namedValues (fd : FData) : List Value :=
  fd.params ++ fd.layout.bbs.flatMap (fun q => paramsAt fd q.1) ++ fd.layout.bbs.flatMap (fun q => q.2.filter (hasResult fd))

theorem names_eq : (paramsOf fd M fd.params).map (·.1) ++ (orderOf fd M).flatMap paramNames ++ (orderOf fd M).flatMap defNames =
    (namedValues fd).map M.val := by
  unfold paramsOf orderOf namedValues
  rw [List.map_append, List.map_append, List.map_map, List.flatMap_map, List.flatMap_map, List.map_flatMap, List.map_flatMap]
  congr 1
  · congr 1
    exact flatMap_ext (fun q _ => paramNames_eq q)
  · exact flatMap_ext (fun q hq => defNames_eq hp hf hb hq)

omit hp hf in
theorem named_of {v : Value} (h : v ∈ namedValues fd) : HasName fd v := by
  unfold namedValues at h
  rcases List.mem_append.1 h with h | h
  · rcases List.mem_append.1 h with h | h
    · exact .arg h
    · obtain ⟨q, hq, h⟩ := List.mem_flatMap.1 h
      obtain ⟨x, h1, -⟩ := hb.blocks q.1 q.2 hq
      unfold paramsAt at h
      rw [h1] at h
      exact .param hq h1 h
  · obtain ⟨q, hq, h⟩ := List.mem_flatMap.1 h
    obtain ⟨h1, h2⟩ := List.mem_filter.1 h
    unfold hasResult at h2
    cases hx : fd.dfg.values.get? v with
    | none => rw [hx] at h2; cases h2
    | some x =>
      rw [hx] at h2
      refine .inst (b := q.1) (is := q.2) hq h1 hx ?_
      intro he; simp only [he] at h2; cases h2

omit hp hf in
theorem named_nodup : (namedValues fd).Nodup := by
  have argk : ∀ v ∈ fd.params, ∃ x i, fd.dfg.values.get? v = some x ∧ x.kind = .funcArgRef i := by
    intro v hv
    obtain ⟨k, hk⟩ := List.getElem?_of_mem hv
    obtain ⟨x, h1, h2, -⟩ := hb.params.2 k v hk
    exact ⟨x, k, h1, h2⟩
  have park : ∀ q ∈ fd.layout.bbs, ∀ v ∈ paramsAt fd q.1, ∃ x i, fd.dfg.values.get? v = some x ∧ x.kind = .blockArgRef i := by
    intro q hq v hv
    obtain ⟨x, h1, h2⟩ := hb.blocks q.1 q.2 hq
    unfold paramsAt at hv
    rw [h1] at hv
    obtain ⟨k, hk⟩ := List.getElem?_of_mem hv
    obtain ⟨y, h3, h4, -⟩ := h2 k v hk
    exact ⟨y, k, h3, h4⟩
  have insk : ∀ v ∈ fd.layout.bbs.flatMap (fun q => q.2.filter (hasResult fd)), ∃ x, fd.dfg.values.get? v = some x ∧ ∀ i, x.kind ≠ .funcArgRef i ∧ x.kind ≠ .blockArgRef i := by
    intro v hv
    obtain ⟨q, hq, h⟩ := List.mem_flatMap.1 hv
    obtain ⟨h1, -⟩ := List.mem_filter.1 h
    obtain ⟨j, hj⟩ := List.getElem?_of_mem hq
    obtain ⟨i, hi⟩ := List.getElem?_of_mem h1
    obtain ⟨x, hx, hw⟩ := hb.insts j i q.1 q.2 v hj hi
    refine ⟨x, hx, fun i => ?_⟩
    generalize x.kind = k at hw
    generalize x.ty = t at hw
    cases hw <;> simp
  have idx : ∀ {l : List Value} {mk : Nat → VKind}, (∀ a b, mk a = mk b → a = b) → (∀ (i : Nat) v, l[i]? = some v → ∃ x, fd.dfg.values.get? v = some x ∧ x.kind = mk i) → l.Nodup := by
    intro l mk hmk h
    rw [List.nodup_iff_pairwise_ne, List.pairwise_iff_getElem]
    intro i j hi hj hij he
    obtain ⟨y, h1, h2⟩ := h i _ (List.getElem?_eq_getElem hi)
    obtain ⟨z, h3, h4⟩ := h j _ (List.getElem?_eq_getElem hj)
    rw [he, h3] at h1
    cases h1
    rw [h4] at h2
    have := hmk _ _ h2
    omega
  unfold namedValues
  rw [List.nodup_append, List.nodup_append]
  refine ⟨⟨?_, ?_, ?_⟩, ?_, ?_⟩
  · exact idx (mk := VKind.funcArgRef) (by intro a b h; cases h; rfl) (fun i v hi => by
      obtain ⟨x, h1, h2, -⟩ := hb.params.2 i v hi
      exact ⟨x, h1, h2⟩)
  · have : ∀ l : List (BB × List Value), (∀ q ∈ l, q ∈ fd.layout.bbs) → (l.map (·.1)).Nodup → (l.flatMap (fun q => paramsAt fd q.1)).Nodup := by
      intro l
      induction l with
      | nil => intro _ _; exact List.nodup_nil
      | cons q l ih =>
        intro hl hn
        rw [List.map_cons, List.nodup_cons] at hn
        rw [List.flatMap_cons, List.nodup_append]
        have hq := hl q List.mem_cons_self
        refine ⟨?_, ih (fun a ha => hl a (List.mem_cons_of_mem _ ha)) hn.2, ?_⟩
        · obtain ⟨x, h1, h2⟩ := hb.blocks q.1 q.2 hq
          unfold paramsAt; rw [h1]
          exact idx (mk := VKind.blockArgRef) (by intro a b h; cases h; rfl) (fun i v hi => by
            obtain ⟨x, h1, h2, -⟩ := h2 i v hi
            exact ⟨x, h1, h2⟩)
        · intro u hu w hw he
          subst he
          obtain ⟨q', hq', hw⟩ := List.mem_flatMap.1 hw
          have hq'' := hl q' (List.mem_cons_of_mem _ hq')
          obtain ⟨x, h1, -⟩ := hb.blocks q.1 q.2 hq
          obtain ⟨x', h1', -⟩ := hb.blocks q'.1 q'.2 hq''
          unfold paramsAt at hu hw
          rw [h1] at hu
          rw [h1'] at hw
          have := hb.paramsOnce q.1 q'.1 x x' u (List.mem_map.2 ⟨q, hq, rfl⟩) (List.mem_map.2 ⟨q', hq'', rfl⟩) h1 h1' hu hw
          exact hn.1 (List.mem_map.2 ⟨q', hq', this.symm⟩)
    exact this _ (fun q hq => hq) hb.blocksOnce
  · intro u hu w hw he
    subst he
    obtain ⟨q, hq, hw⟩ := List.mem_flatMap.1 hw
    obtain ⟨x, i, h1, h2⟩ := argk u hu
    obtain ⟨y, k, h3, h4⟩ := park q hq u hw
    rw [h1] at h3; cases h3
    rw [h2] at h4; cases h4
  · have : ∀ l : List (BB × List Value), (l.flatMap (·.2)).Nodup → (l.flatMap (fun q => q.2.filter (hasResult fd))).Nodup := by
      intro l h
      have e : l.flatMap (fun q => q.2.filter (hasResult fd)) = (l.flatMap (·.2)).filter (hasResult fd) := by
        rw [List.filter_flatMap]
      rw [e]
      exact h.filter _
    exact this _ hb.instsOnce
  · intro u hu w hw he
    subst he
    obtain ⟨x, h1, h2⟩ := insk u hw
    rcases List.mem_append.1 hu with hu | hu
    · obtain ⟨y, i, h3, h4⟩ := argk u hu
      rw [h1] at h3; cases h3
      exact (h2 i).1 h4
    · obtain ⟨q, hq, hu⟩ := List.mem_flatMap.1 hu
      obtain ⟨y, i, h3, h4⟩ := park q hq u hu
      rw [h1] at h3; cases h3
      exact (h2 i).2 h4

omit hp hf hb in
theorem LexSym.nameOk {s : Str} (h : LexSym s) : nameOk s := by
  unfold LexSym at h
  generalize hk : TokKind.sym s = k at h
  cases h with
  | sym ht hs =>
    cases hk
    obtain ⟨⟨c, t, rfl, -⟩, -⟩ := hs
    exact ht
  | temp hs =>
    cases hk
    rcases hs with rfl | ⟨c, t, rfl, -⟩ <;> exact .inr rfl
  | _ => cases hk

include hg hm

theorem fun_ok (hb' : PrintableFun p before f fd ts r) (fs : List Func) (hfs : ∀ g ∈ before ++ [f], g ∈ fs) :
    FunOk (gvOf p M) (gfOf p M fs) (paramsOf fd M fd.params) (retAst r) (orderOf fd M) (orderOf fd M) ts r := by
  have names := names_eq hp hf hb (M := M)
  refine ⟨breadth_ok hf hb hm, ?_, ?_, ?_, ?_, ?_, ?_, tyNamed fd M, ?_, ?_, ?_⟩
  · unfold paramsOf
    rw [List.map_map]
    refine Spec.All2.of_get (by rw [List.length_map]; exact hb.params.1) ?_
    intro i a t ha ht
    rw [List.getElem?_map] at ha
    obtain ⟨v, hv, rfl⟩ := Option.map_eq_some_iff.1 ha
    obtain ⟨x, h1, -, h3⟩ := hb.params.2 i v hv
    rw [ht] at h3; cases h3
    simp only [Function.comp, paramAst, h1]
    exact astOf_is (hb'.tys _ (List.mem_of_getElem? ht))
  · unfold retAst
    rcases hb'.ret with rfl | hr
    · exact .none
    · rw [hr.not_unit]; exact .some (astOf_is hr)
  · rw [names, List.Nodup, List.pairwise_map]
    exact List.Pairwise.imp_of_mem (fun ha hc hne he => hne (hm.injVal _ _ (named_of hb ha) (named_of hb hc) he)) (named_nodup hb)
  · rw [names]
    intro n hn hgv
    obtain ⟨v, hv, rfl⟩ := List.mem_map.1 hn
    unfold gvOf at hgv
    rw [List.map_map] at hgv
    obtain ⟨u, hu, he⟩ := List.mem_map.1 hgv
    exact hm.apart v u (named_of hb hv) hu he.symm
  · rw [names]
    intro n hn
    rcases List.mem_append.1 hn with hn | hn
    · obtain ⟨v, hv, rfl⟩ := List.mem_map.1 hn
      exact (hm.lexVal v (named_of hb hv)).nameOk
    · rw [order_names] at hn
      obtain ⟨b, hb, rfl⟩ := List.mem_map.1 hn
      obtain ⟨q, hq, rfl⟩ := List.mem_map.1 hb
      exact (hm.lexBb q hq).nameOk
  · intro b hb'
    obtain ⟨⟨b, is⟩, hq, rfl⟩ := List.mem_map.1 hb'
    obtain ⟨init, t, rfl, ⟨x, h1, h2⟩, -⟩ := hb.ends b is hq
    refine ⟨stmtAst fd M t, by simp [blockAst], ?_⟩
    unfold stmtAst
    simp only [h1]
    cases hk : x.kind with
    | branch => rfl
    | jump => rfl
    | ret v => cases v <;> rfl
    | _ => rw [hk] at h2; cases h2
  · intro q hq
    obtain ⟨v, hv, rfl⟩ := List.mem_map.1 hq
    obtain ⟨k, hk⟩ := List.getElem?_of_mem hv
    obtain ⟨y, h3, -, h5⟩ := hb.params.2 k v hk
    show TyIs _ (tyNamed fd M (M.val v))
    rw [tyNamed_eq hm (.arg hv), tyOf_eq h3]
    simp only [paramAst, h3]
    exact astOf_is (hb'.tys _ (List.mem_of_getElem? h5))
  · intro b hb1 q hq
    obtain ⟨⟨b, is⟩, hbm, rfl⟩ := List.mem_map.1 hb1
    obtain ⟨x, h1, h2⟩ := hb.blocks b is hbm
    simp only [blockAst, h1] at hq
    obtain ⟨v, hv, rfl⟩ := List.mem_map.1 hq
    obtain ⟨k, hk⟩ := List.getElem?_of_mem hv
    obtain ⟨y, h3, -, h5⟩ := h2 k v hk
    show TyIs _ (tyNamed fd M (M.val v))
    rw [tyNamed_eq hm (.param hbm h1 hv), tyOf_eq h3]
    simp only [paramAst, h3]
    exact astOf_is h5
  · intro j i b st hj hi
    unfold orderOf at hj
    rw [List.getElem?_map] at hj
    obtain ⟨⟨b, is⟩, hq, rfl⟩ := Option.map_eq_some_iff.1 hj
    simp only [blockAst, List.getElem?_map] at hi
    obtain ⟨v, hv, rfl⟩ := Option.map_eq_some_iff.1 hi
    exact stmt_ok hp hf hb hm fs hfs hq hv

end

/-! ### The whole program -/

theorem items_map {G M : Nm} (h : M.glob = G.glob ∧ M.fn = G.fn) (p : Program) (fs : List Func) : gvOf p M = gvOf p G ∧ gfOf p M fs = gfOf p G fs := by
  unfold gvOf gfOf
  rw [h.1, h.2]; exact ⟨rfl, rfl⟩

theorem globals_ok {p : Program} (hp : Printable p) {G : Nm} (hg : GNmOk p G) : ∀ vs rest : List Value, p.instLayout = vs.reverse ++ rest →
    ItemsOk (vs.reverse.map (globalAst p G)) (vs.reverse.map (fun v => (G.glob v, gtyOf p v))) [] := by
  intro vs
  induction vs with
  | nil => intro _ _; exact .nil
  | cons v vs ih =>
    intro rest h
    have h' : p.instLayout = vs.reverse ++ v :: rest := by rw [h]; simp
    have hv : v ∈ p.instLayout := by rw [h']; simp
    obtain ⟨x, i, y, h1, h2, h3, h4, h5⟩ := hp.insts v hv
    have h1' : p.values.get? v = some x := h1
    have h4' : p.values.get? i = some y := h4
    rw [List.reverse_cons, List.map_append, List.map_append, List.map_singleton, List.map_singleton]
    have hty : gtyOf p v = .ptr y.ty := by
      have := hp.typed.globals v x h1
      rw [h2] at this
      unfold gtyOf; rw [h1']
      simp only
      generalize x.ty = t at this
      cases this with
      | globalAlloc _ h6 =>
        obtain ⟨z, h7, h8⟩ := h6
        have h7 : p.values.get? i = some z := h7
        rw [h4'] at h7; cases h7; rw [h8]
    have hast : globalAst p G v = .globalDef (G.glob v) (astOf y.ty) (elemAst p.values.get? (p.values.entries.length + 1) i) := by
      unfold globalAst elemAst
      simp only [h1', h2, h4']
    rw [hast, hty]
    refine .globalDef (ih (v :: rest) h') (hg.lexGlob v hv).nameOk ?_ (by simp) (astOf_is h5) (const_ok (global_typed hp) h3 _ y h3.fuel h4')
    rw [List.map_map]
    intro hmem
    obtain ⟨u, hu, he⟩ := List.mem_map.1 hmem
    have : u = v := hg.injGlob u (by rw [h']; exact List.mem_append_left _ hu) v hv he
    subst this
    have hnd := hp.instsOnce
    rw [h', List.nodup_append] at hnd
    exact hnd.2.2 u hu u List.mem_cons_self rfl

theorem funs_ok {p : Program} (hp : Printable p) {G : Nm} {N : Func → Nm} (h : Naming p G N) : ∀ fs rest : List Func, p.funcLayout = fs.reverse ++ rest →
    ItemsOk (globalTrees p G ++ fs.reverse.map (fun f => funItem p f (N f))) (gvOf p G) (gfOf p G fs.reverse) := by
  intro fs
  induction fs with
  | nil =>
    intro rest hr
    have := globals_ok hp h.gok p.instLayout.reverse [] (by simp)
    rw [List.reverse_reverse] at this
    simpa [globalTrees, gvOf, gfOf] using this
  | cons f fs ih =>
    intro rest hr
    have hr' : p.funcLayout = fs.reverse ++ f :: rest := by rw [hr]; simp
    have hfm : f ∈ p.funcLayout := by rw [hr']; simp
    have hi : p.funcLayout[fs.length]? = some f := by
      rw [hr', List.getElem?_append_right (by simp)]; simp
    have htake : p.funcLayout.take fs.length = fs.reverse := by
      rw [hr']
      have : fs.length = fs.reverse.length := by simp
      rw [this, List.take_left]
    obtain ⟨fd, ts, r, h1, h2⟩ := hp.funcs _ f hi
    rw [htake] at h2
    have hsig : sigOf p f = (ts, r) := by simp only [sigOf, h1, h2.ty]
    have hgf : gfOf p G (f :: fs).reverse = gfOf p G fs.reverse ++ [(G.fn f, ts, r)] := by
      unfold gfOf
      rw [List.reverse_cons, List.map_append, List.map_singleton, hsig]
    have hnd := hp.funcsOnce
    rw [hr', List.nodup_append] at hnd
    have n1 : nameOk (G.fn f) := (h.gok.lexFn f hfm).nameOk
    have n2 : G.fn f ∉ (gvOf p G).map (·.1) := by
      unfold gvOf; rw [List.map_map]
      intro hmem
      obtain ⟨u, hu, he⟩ := List.mem_map.1 hmem
      exact h.gok.apart u hu f hfm he
    have n3 : G.fn f ∉ (gfOf p G fs.reverse).map (·.1) := by
      unfold gfOf; rw [List.map_map]
      intro hmem
      obtain ⟨u, hu, he⟩ := List.mem_map.1 hmem
      have : u = f := h.gok.injFn u (by rw [hr']; exact List.mem_append_left _ hu) f hfm he
      subst this
      exact hnd.2.2 u hu u List.mem_cons_self rfl
    have ih := ih (f :: rest) hr'
    rw [hgf, List.reverse_cons, List.map_append, List.map_singleton, ← List.append_assoc]
    have hs := h.same f
    obtain ⟨m1, m2⟩ := items_map hs p (fs.reverse ++ [f])
    have hfn : (N f).fn f = G.fn f := by rw [hs.2]
    unfold funItem
    simp only [h1]
    unfold funAst
    simp only [h2.ty, hfn]
    rcases h2.body with ⟨b1, b2, b3⟩ | hbd
    · rw [if_pos b1]
      refine .funDecl ih n1 n2 n3 (astOfs_is (fun t ht => astOf_is (h2.tys t ht))) ?_
      unfold retAst
      rcases h2.ret with rfl | hr
      · exact .none
      · rw [hr.not_unit]; exact .some (astOf_is hr)
    · rw [if_neg (by simp [hbd.hasBlocks])]
      have := fun_ok hp h1 hbd (h.gok.of_same hs) (h.ok f hfm fd h1) h2 (fs.reverse ++ [f]) (fun g hg => hg)
      rw [m1, m2] at this
      have e : gfOf p G (fs.reverse ++ [f]) = gfOf p G fs.reverse ++ [(G.fn f, ts, r)] := by
        unfold gfOf
        rw [List.map_append, List.map_singleton, hsig]
      rw [e] at this
      exact .funDef ih n1 n2 n3 this

theorem Naming.items {p : Program} (hp : Printable p) {G : Nm} {N : Func → Nm} (h : Naming p G N) :
    ItemsOk (globalTrees p G ++ funTrees p N) (gvOf p G) (gfOf p G p.funcLayout) := by
  have := funs_ok hp h p.funcLayout.reverse [] (by simp)
  rw [List.reverse_reverse] at this
  exact this

theorem funItem_size (p : Program) (f : Func) (M : Nm) : globalSize (funItem p f M) = 0 := by
  unfold funItem
  split
  · rfl
  · unfold funAst
    split
    · split <;> rfl
    · rfl

/-- The number of global values the text makes. -/
theorem tree_size {p : Program} (hp : Printable p) (G : Nm) (N : Func → Nm) :
    GlobalNodes p (((globalTrees p G ++ funTrees p N).map globalSize).sum) := by
  refine ⟨p.instLayout.map (fun v => globalSize (globalAst p G v) - 1), ?_, ?_⟩
  · have : ∀ vs : List Value, (∀ v ∈ vs, v ∈ p.instLayout) → All2 (fun v k => ∃ x i, GlobalVal p v x ∧ x.kind = .globalAlloc i ∧ Nodes p.values.get? i k) vs
        (vs.map (fun v => globalSize (globalAst p G v) - 1)) := by
      intro vs
      induction vs with
      | nil => intro _; exact .nil
      | cons v vs ih =>
        intro hv
        refine .cons ?_ (ih (fun u hu => hv u (List.mem_cons_of_mem _ hu)))
        obtain ⟨x, i, y, h1, h2, h3, h4, h5⟩ := hp.insts v (hv v List.mem_cons_self)
        have h1' : p.values.get? v = some x := h1
        have h4' : p.values.get? i = some y := h4
        have hast : globalAst p G v = .globalDef (G.glob v) (astOf y.ty) (elemAst p.values.get? (p.values.entries.length + 1) i) := by
          unfold globalAst elemAst
          simp only [h1', h2, h4']
        refine ⟨x, i, h1, h2, ?_⟩
        show Nodes p.values.get? i (globalSize (globalAst p G v) - 1)
        rw [hast]
        exact nodes_const h3 _ h3.fuel
    exact this _ (fun v hv => hv)
  · rw [List.map_append, List.sum_append]
    have h0 : ((funTrees p N).map globalSize).sum = 0 := by
      unfold funTrees
      rw [List.map_map]
      have : ∀ fs : List Func, (fs.map (globalSize ∘ fun f => funItem p f (N f))).sum = 0 := by
        intro fs
        induction fs with
        | nil => rfl
        | cons f fs ih =>
          rw [List.map_cons, List.sum_cons, ih]
          simp only [Function.comp, funItem_size]
      exact this _
    rw [h0, Nat.add_zero]
    unfold globalTrees
    rw [List.map_map, List.map_map]
    have : ∀ vs : List Value, (∀ v ∈ vs, v ∈ p.instLayout) → (vs.map (globalSize ∘ globalAst p G)).sum =
        (vs.map ((fun x => x + 1) ∘ fun v => globalSize (globalAst p G v) - 1)).sum := by
      intro vs
      induction vs with
      | nil => intro _; rfl
      | cons v vs ih =>
        intro hv
        rw [List.map_cons, List.map_cons, List.sum_cons, List.sum_cons, ih (fun u hu => hv u (List.mem_cons_of_mem _ hu))]
        obtain ⟨x, i, y, h1, h2, h3, h4, h5⟩ := hp.insts v (hv v List.mem_cons_self)
        have h1' : p.values.get? v = some x := h1
        have h4' : p.values.get? i = some y := h4
        have hast : globalAst p G v = .globalDef (G.glob v) (astOf y.ty) (elemAst p.values.get? (p.values.entries.length + 1) i) := by
          unfold globalAst elemAst
          simp only [h1', h2, h4']
        simp only [Function.comp, hast, globalSize]
        omega
    exact this _ (fun v hv => hv)

end Koopa
