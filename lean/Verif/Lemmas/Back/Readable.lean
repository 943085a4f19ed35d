import Verif.Lemmas.Back.SameItems
import Verif.Lemmas.Back.SameProg
import Verif.Lemmas.Front.NamesIn
/-!
Accepted programs can be written.
-/
namespace Koopa
open Spec

/-! ### Types -/

mutual
theorem ty_expressible : ∀ {a : TyAst} {t : Ty}, TyIs a t → ShortTy t → Expressible t
  | .int, _, .int, _ => .i32
  | .array a n, _, .array h hn, .array hs hl => .array (ty_expressible h hs) (Nat.pos_of_ne_zero hn) hl
  | .pointer a, _, .pointer h, .ptr hs => .ptr (ty_expressible h hs)
  | .func ps r, _, .func h hr, .func hs hl => by
    have h1 := tys_expressible h hs
    rcases ret_expressible hr hl with rfl | h2
    · exact .proc h1
    · exact .func h1 h2
theorem tys_expressible : ∀ {as : List TyAst} {ts : List Ty}, All2 TyIs as ts → (∀ t ∈ ts, ShortTy t) → ∀ t ∈ ts, Expressible t
  | [], _, .nil, _ => by simp
  | a :: as, _, .cons (bs := ts) h hs, hl => by
    intro t ht
    rcases List.mem_cons.1 ht with rfl | ht
    · exact ty_expressible h (hl _ List.mem_cons_self)
    · exact tys_expressible hs (fun t ht => hl t (List.mem_cons_of_mem _ ht)) t ht
theorem ret_expressible : ∀ {a : Option TyAst} {t : Ty}, RetIs TyIs a t → ShortTy t → t = .unit ∨ Expressible t
  | none, _, .none, _ => .inl rfl
  | some a, _, .some h, hl => .inr (ty_expressible h hl)
end

/-! ### Constants -/

theorem const_constant {den : Value → Ty → VKind → Prop} {get : Value → Option VData} (hd : ∀ v t k, den v t k → ∃ x, get v = some x ∧ x.kind = k)
    {a : ValAst} {t : Ty} {v : Value} (h : ConstIs den a t v) : Constant get v := by
  induction h with
  | int h => obtain ⟨x, h1, h2⟩ := hd _ _ _ h; exact .int h1 h2
  | undef h => obtain ⟨x, h1, h2⟩ := hd _ _ _ h; exact .undef h1 h2
  | zero h => obtain ⟨x, h1, h2⟩ := hd _ _ _ h; exact .zero h1 h2
  | @agg es t t' v vs h hl _ ih =>
    obtain ⟨x, h1, h2⟩ := hd _ _ _ h
    refine .agg h1 h2 (fun e he => ?_)
    obtain ⟨i, hi⟩ := List.getElem?_of_mem he
    have := (List.getElem?_eq_some_iff.1 hi).1
    exact ih i _ e (List.getElem?_eq_getElem (by omega)) hi
  | @aggPtr es t t' v vs h hl _ ih =>
    obtain ⟨x, h1, h2⟩ := hd _ _ _ h
    refine .agg h1 h2 (fun e he => ?_)
    obtain ⟨i, hi⟩ := List.getElem?_of_mem he
    have := (List.getElem?_eq_some_iff.1 hi).1
    exact ih i _ e (List.getElem?_eq_getElem (by omega)) hi

theorem init_expressible {p : Program} (hw : WellTyped p) {a : ValAst} {t : Ty} {v : Value} (h : ConstIs (GDenotes p) a t v) :
    (∃ A, TyIs A t) → ∀ y, GlobalVal p v y → ShortTy y.ty → Expressible y.ty := by
  have uq : ∀ {v x y}, GlobalVal p v x → GlobalVal p v y → x = y := fun h h' => Option.some.inj (h.symm.trans h')
  have ag : ∀ {v : Value} {t' : Ty} {vs : List Value}, GDenotes p v t' (.aggregate vs) → (∀ e ∈ vs, ∀ y, GlobalVal p e y → ShortTy y.ty → Expressible y.ty) →
      ∀ y, GlobalVal p v y → ShortTy y.ty → Expressible y.ty := by
    rintro v t' vs ⟨x, h1, -, h2⟩ ih y hy hst
    cases uq h1 hy
    have := hw.globals v x h1
    rw [h2] at this
    generalize x.ty = t at this hst
    cases this with
    | @aggregate _ t a1 a2 a3 =>
      cases vs with
      | nil => exact absurd rfl a1
      | cons e vs =>
        obtain ⟨z, z1, rfl⟩ := a3 e List.mem_cons_self
        cases hst with
        | array hz hl => exact .array (ih e List.mem_cons_self z z1 hz) (by simp) hl
  induction h with
  | int h =>
    rintro - y hy -
    obtain ⟨x, h1, h2, -⟩ := h
    cases uq h1 hy; rw [h2]; exact .i32
  | undef h =>
    rintro ⟨A, hA⟩ y hy hs
    obtain ⟨x, h1, h2, -⟩ := h
    cases uq h1 hy; subst h2; exact ty_expressible hA hs
  | zero h =>
    rintro ⟨A, hA⟩ y hy hs
    obtain ⟨x, h1, h2, -⟩ := h
    cases uq h1 hy; subst h2; exact ty_expressible hA hs
  | @agg es t t' v vs h hl _ ih =>
    rintro ⟨A, hA⟩
    refine ag h (fun e he => ?_)
    obtain ⟨i, hi⟩ := List.getElem?_of_mem he
    have := (List.getElem?_eq_some_iff.1 hi).1
    refine ih i _ e (List.getElem?_eq_getElem (by omega)) hi ?_
    cases hA with
    | array h _ => exact ⟨_, h⟩
  | @aggPtr es t t' v vs h hl _ ih =>
    rintro ⟨A, hA⟩
    refine ag h (fun e he => ?_)
    obtain ⟨i, hi⟩ := List.getElem?_of_mem he
    have := (List.getElem?_eq_some_iff.1 hi).1
    refine ih i _ e (List.getElem?_eq_getElem (by omega)) hi ?_
    cases hA with
    | pointer h => exact ⟨_, h⟩

/-! ### The shape of statements -/

/-- A symbol, an integer or `undef`. -/
def smallVal : ValAst → Bool
  | .sym _ => true
  | .int _ => true
  | .undef => true
  | _ => false

def smallExpr : ExprAst → Bool
  | .getPtr _ v => smallVal v
  | .getElemPtr _ v => smallVal v
  | .binary _ a b => smallVal a && smallVal b
  | .call _ as => as.all smallVal
  | _ => true

/-- The operands of statements, apart from what is stored. -/
def smallStmt : StmtAst → Bool
  | .def _ e => smallExpr e
  | .call _ as => as.all smallVal
  | .branch c _ ta _ fa => smallVal c && ta.all smallVal && fa.all smallVal
  | .jump _ as => as.all smallVal
  | .ret (some v) => smallVal v
  | _ => true

theorem GVal.small {v : ValAst} {ts : List Token} (h : GVal v ts) : smallVal v = true := by cases h <;> rfl

theorem Sep.small {vs : List ValAst} {ts : List Token} (h : Sep GVal vs ts) : vs.all smallVal = true := by
  induction h with
  | one h => simp [GVal.small h]
  | cons h _ _ ih => simp only [List.all_cons, GVal.small h, ih]; rfl

theorem Paren.small {vs : List ValAst} {ts : List Token} (h : Paren GVal vs ts) : vs.all smallVal = true := by
  cases h with
  | empty => rfl
  | items _ h _ => exact Sep.small h

theorem Opt.small {vs : List ValAst} {ts : List Token} (h : Opt GVal vs ts) : vs.all smallVal = true := by
  cases h with
  | none => rfl
  | list h => exact Paren.small h

theorem GStmt.small {st : StmtAst} {ts : List Token} (h : GStmt st ts) : smallStmt st = true ∧ endStmt st = false := by
  cases h with
  | «def» _ _ he =>
    refine ⟨?_, rfl⟩
    cases he with
    | alloc => rfl
    | load => rfl
    | getPtr _ _ _ h => exact GVal.small h
    | getElemPtr _ _ _ h => exact GVal.small h
    | binary _ h _ h' => simp [smallStmt, smallExpr, GVal.small h, GVal.small h']
    | call h => cases h with | mk _ _ h => exact Paren.small h
  | storeSym => exact ⟨rfl, rfl⟩
  | storeInit => exact ⟨rfl, rfl⟩
  | call h => cases h with | mk _ _ h => exact ⟨Paren.small h, rfl⟩

theorem GTerm.small {st : StmtAst} {ts : List Token} {a : Token} (h : GTerm st ts a) : smallStmt st = true ∧ endStmt st = true := by
  cases h with
  | branch _ hc _ _ h _ _ h' => exact ⟨by simp only [smallStmt, GVal.small hc, Opt.small h, Opt.small h']; rfl, rfl⟩
  | jump _ _ h => exact ⟨Opt.small h, rfl⟩
  | ret => exact ⟨rfl, rfl⟩
  | retVal _ _ h => exact ⟨GVal.small h, rfl⟩

/-- A block ends with its only last statement. -/
def GoodBlock (b : BlockAst) : Prop :=
  (∀ st ∈ b.stmts, smallStmt st = true) ∧ ∃ init t, b.stmts = init ++ [t] ∧ endStmt t = true ∧ ∀ st ∈ init, endStmt st = false

theorem GBody.good {sts : List StmtAst} {ts : List Token} {a : Token} (h : GBody sts ts a) :
    (∀ st ∈ sts, smallStmt st = true) ∧ ∃ init t, sts = init ++ [t] ∧ endStmt t = true ∧ ∀ st ∈ init, endStmt st = false := by
  induction h with
  | last h =>
    obtain ⟨h1, h2⟩ := GTerm.small h
    exact ⟨by simpa using h1, [], _, rfl, h2, by simp⟩
  | cons h _ ih =>
    obtain ⟨h1, h2⟩ := GStmt.small h
    obtain ⟨h3, init, t, rfl, h4, h5⟩ := ih
    refine ⟨?_, _ :: init, t, rfl, h4, ?_⟩
    · intro st hs
      rcases List.mem_cons.1 hs with rfl | hs
      · exact h1
      · exact h3 st hs
    · intro st hs
      rcases List.mem_cons.1 hs with rfl | hs
      · exact h2
      · exact h5 st hs

theorem GBlocks.good {bs : List BlockAst} {ts : List Token} {a : Token} (h : GBlocks bs ts a) : ∀ b ∈ bs, GoodBlock b := by
  induction h with
  | nil => simp
  | cons _ h _ ih =>
    intro b hb
    rcases List.mem_cons.1 hb with rfl | hb
    · cases h with
      | mk _ _ _ hs => exact GBody.good hs
    · exact ih b hb

theorem GProg.good {gs : List GlobalAst} {ts : List Token} (h : GProg gs ts) : ∀ n ps r bs, GlobalAst.funDef n ps r bs ∈ gs → ∀ b ∈ bs, GoodBlock b := by
  induction h with
  | nil => simp
  | cons h _ ih =>
    intro n ps r bs hm
    rcases List.mem_cons.1 hm with rfl | hm
    · cases h with
      | funDef _ _ _ _ _ hb _ _ => exact GBlocks.good hb
    · exact ih n ps r bs hm

/-! ### The functions of the text -/

/-- The function at place `i`, with what it sees. -/
def ItemAt (p : Program) (gs : List GlobalAst) (vars : List (Str × Value)) (fns : List (Str × Func)) (i : Nat) (n : Str) (f : Func) : Prop :=
  ∃ fd, p.funcs.get? f = some fd ∧ ((∃ ps r, DeclIs p f fd n ps r) ∨
    ∃ ps r bbs order t gv, (∀ s v, gv s v → (s, v) ∈ vars) ∧ .funDef n ps r bbs ∈ gs ∧
      FunIs p gv (fun n g => (n, g) ∈ fns.take (i + 1)) f fd n ps r bbs order t)

theorem Spec.Items.at {p : Program} {gs : List GlobalAst} {vars : List (Str × Value)} {fns : List (Str × Func)} (h : Items p gs vars fns) :
    ∀ (i : Nat) n f, fns[i]? = some (n, f) → ItemAt p gs vars fns i n f := by
  induction h with
  | nil => simp
  | globalDef _ _ _ _ ih =>
    intro i n f hi
    obtain ⟨fd, h1, h2 | ⟨ps, r, bbs, order, t, gv, a1, a2, a3⟩⟩ := ih i n f hi
    · exact ⟨fd, h1, .inl h2⟩
    · exact ⟨fd, h1, .inr ⟨ps, r, bbs, order, t, gv, fun s v h => List.mem_append_left _ (a1 s v h), List.mem_append_left _ a2, a3⟩⟩
  | @funDecl gs vars fns _ _ _ _ _ _ h1 h2 h3 h4 ih =>
    intro i n f hi
    by_cases hl : i < fns.length
    · rw [List.getElem?_append_left hl] at hi
      obtain ⟨fd, h1, h2 | ⟨ps, r, bbs, order, t, gv, a1, a2, a3⟩⟩ := ih i n f hi
      · exact ⟨fd, h1, .inl h2⟩
      · refine ⟨fd, h1, .inr ⟨ps, r, bbs, order, t, gv, a1, List.mem_append_left _ a2, ?_⟩⟩
        rw [List.take_append_of_le_length (by omega)]; exact a3
    · rw [List.getElem?_append_right (by omega)] at hi
      have := (List.getElem?_eq_some_iff.1 hi).1
      simp at this
      rw [this] at hi; simp at hi
      obtain ⟨rfl, rfl⟩ := hi
      exact ⟨_, h3, .inl ⟨_, _, h4⟩⟩
  | @funDef gs vars fns _ _ _ _ _ _ _ _ _ h1 h2 h3 h4 ih =>
    intro i n f hi
    by_cases hl : i < fns.length
    · rw [List.getElem?_append_left hl] at hi
      obtain ⟨fd, h1, h2 | ⟨ps, r, bbs, order, t, gv, a1, a2, a3⟩⟩ := ih i n f hi
      · exact ⟨fd, h1, .inl h2⟩
      · refine ⟨fd, h1, .inr ⟨ps, r, bbs, order, t, gv, a1, List.mem_append_left _ a2, ?_⟩⟩
        rw [List.take_append_of_le_length (by omega)]; exact a3
    · rw [List.getElem?_append_right (by omega)] at hi
      have hl' := (List.getElem?_eq_some_iff.1 hi).1
      simp at hl'
      rw [hl'] at hi; simp at hi
      obtain ⟨rfl, rfl⟩ := hi
      have e : ∀ x, (fns ++ [x]).take (i + 1) = fns ++ [x] := fun x => List.take_of_length_le (by simp; omega)
      rw [← e] at h4
      exact ⟨_, h3, .inr ⟨_, _, _, _, _, _, fun s v h => h, List.mem_append_right _ (List.mem_singleton.2 rfl), h4⟩⟩

/-! ### Breadth-first order -/

theorem firsts_rel {R : Str → BB → Prop} (hr : ∀ s b b', R s b → R s b' → b = b') (hl : ∀ s s' b, R s b → R s' b → s = s') :
    ∀ {l : List Str} {l' : List BB}, All2 R l l' → ∀ {seen : List Str} {seen' : List BB}, All2 R seen seen' → All2 R (firsts seen l) (firstOnes seen' l')
  | _, _, .nil, _, _, _ => .nil
  | _, _, .cons (a := a) (b := b) h hs, seen, seen', hse => by
    have hm : a ∈ seen ↔ b ∈ seen' := by
      constructor
      · intro h1
        obtain ⟨b', h2, h3⟩ := hse.memL a h1
        rw [hr a b b' h h3]; exact h2
      · intro h1
        obtain ⟨a', h2, h3⟩ := Raw.All2.memR hse b h1
        rw [hl a a' b h h3]; exact h2
    rw [firsts, firstOnes]
    by_cases h1 : a ∈ seen
    · rw [if_pos h1, if_pos (hm.1 h1)]; exact firsts_rel hr hl hs hse
    · rw [if_neg h1, if_neg (fun h2 => h1 (hm.2 h2))]; exact .cons h (firsts_rel hr hl hs (.cons h hse))

theorem all2_right_unique {α β : Type} {R : α → β → Prop} (hr : ∀ s b b', R s b → R s b' → b = b') :
    ∀ {l : List α} {l' l'' : List β}, All2 R l l' → All2 R l l'' → l' = l''
  | _, _, _, .nil, .nil => rfl
  | _, _, _, .cons h hs, .cons h' hs' => by rw [hr _ _ _ h h', all2_right_unique hr hs hs']

theorem all2_append {α β : Type} {R : α → β → Prop} : ∀ {l m : List α} {l' m' : List β}, All2 R l l' → All2 R m m' → All2 R (l ++ m) (l' ++ m')
  | _, _, _, _, .nil, h => h
  | _, _, _, _, .cons h hs, h' => .cons h (all2_append hs h')

theorem all2_flatMap {α β γ δ : Type} {R : α → β → Prop} {S : γ → δ → Prop} {g : α → List γ} {g' : β → List δ} :
    ∀ {l : List α} {l' : List β}, All2 R l l' → (∀ a b, R a b → All2 S (g a) (g' b)) → All2 S (l.flatMap g) (l'.flatMap g')
  | _, _, .nil, _ => .nil
  | _, _, .cons h hs, hg => by
    rw [List.flatMap_cons, List.flatMap_cons]
    exact all2_append (hg _ _ h) (all2_flatMap hs hg)

theorem all2_snoc_right {α β : Type} {R : α → β → Prop} : ∀ {l : List α} {l' : List β} {b : β}, All2 R l (l' ++ [b]) →
    ∃ init a, l = init ++ [a] ∧ All2 R init l' ∧ R a b
  | _, [], _, .cons h .nil => ⟨[], _, rfl, .nil, h⟩
  | _, c :: l', _, .cons h hs => by
    obtain ⟨init, a, rfl, h1, h2⟩ := all2_snoc_right hs
    exact ⟨_ :: init, a, rfl, .cons h h1, h2⟩

theorem flows_order {bbs order : List BlockAst} {e : BlockAst} (hB : BreadthFirst bbs order e) {c : Str} (h : Flows bbs e.name c) : Flows order e.name c := by
  induction h with
  | refl => exact .refl
  | step h1 h2 h3 ih => exact .step ih ((hB.exact _).2 ⟨h2, h1⟩) h3

section
variable {p : Program} {gs : List GlobalAst} {vars : List (Str × Value)} {fns : List (Str × Func)} (A : FromText p gs vars fns)
  {gv : Str → Value → Prop} {gf : Str → Func → Prop} {f : Func} {fd : FData} {n : Str} {params : List (Str × TyAst)} {ret : Option TyAst}
  {bbs order : List BlockAst} {r : Ty} (hf : p.funcs.get? f = some fd) (hF : FunIs p gv gf f fd n params ret bbs order r)
  (hgood : ∀ b ∈ bbs, GoodBlock b)

/-- The label refers to the block. -/
def Lab (fd : FData) (order : List BlockAst) (l : Str) (b : BB) : Prop :=
  ∃ (j : Nat) (blk : BlockAst) (is : List Value), order[j]? = some blk ∧ blk.name = l ∧ fd.layout.bbs[j]? = some (b, is)

include hF in
theorem order_index {j j' : Nat} {b b' : BlockAst} (h : order[j]? = some b) (h' : order[j']? = some b') (he : b.name = b'.name) : j = j' := by
  obtain ⟨e, hB⟩ := hF.isOrder
  have x : (order.map (·.name))[j]? = some b.name := by rw [List.getElem?_map, h]; rfl
  have y : (order.map (·.name))[j']? = some b.name := by rw [List.getElem?_map, h', he]; rfl
  exact (List.getElem?_inj (List.getElem?_eq_some_iff.1 x).1 hB.namesNodup).1 (x.trans y.symm)

include hF in
theorem lab_right {l : Str} {b b' : BB} (h : Lab fd order l b) (h' : Lab fd order l b') : b = b' := by
  obtain ⟨j, blk, is, h1, h2, h3⟩ := h
  obtain ⟨j', blk', is', h4, h5, h6⟩ := h'
  have := order_index hF h1 h4 (h2.trans h5.symm)
  subst this
  rw [h3] at h6; cases h6; rfl

include A hf in
theorem keys_nodup : (fd.layout.bbs.map (·.1)).Nodup :=
  A.tidy.keys f fd.layout (by show (p.funcs.get? f).map _ = _; rw [hf]; rfl)

include A hf in
theorem lab_left {l l' : Str} {b : BB} (h : Lab fd order l b) (h' : Lab fd order l' b) : l = l' := by
  obtain ⟨j, blk, is, h1, h2, h3⟩ := h
  obtain ⟨j', blk', is', h4, h5, h6⟩ := h'
  have x : (fd.layout.bbs.map (·.1))[j]? = some b := by rw [List.getElem?_map, h3]; rfl
  have y : (fd.layout.bbs.map (·.1))[j']? = some b := by rw [List.getElem?_map, h6]; rfl
  have := (List.getElem?_inj (List.getElem?_eq_some_iff.1 x).1 (keys_nodup A hf)).1 (x.trans y.symm)
  subst this
  rw [h1] at h4; cases h4
  rw [← h2, h5]

include hf in
theorem local_get {v : Value} {x : VData} (h : LocalVal p f v x) : fd.dfg.values.get? v = some x := by
  obtain ⟨fd', h1, h2⟩ := h
  rw [hf] at h1; cases h1; exact h2

include hf in
theorem block_get {b : BB} {x : BData} (h : Block p f b x) : fd.dfg.bbs.get? b = some x := by
  obtain ⟨fd', h1, h2⟩ := h
  rw [hf] at h1; cases h1; exact h2

theorem endStmt_term {E : Env} {st : StmtAst} {t : Ty} {k : VKind} (h : StmtIs E st t k) : terminator k = endStmt st := by
  cases h with
  | «def» h _ => cases h <;> rfl
  | call h => cases h; rfl
  | _ => rfl

include hF in
theorem good_block (hgood : ∀ b ∈ bbs, GoodBlock b) {j : Nat} {b : BlockAst} (h : order[j]? = some b) : GoodBlock b := by
  obtain ⟨e, hB⟩ := hF.isOrder
  exact hgood b ((hB.exact b).1 (List.mem_of_getElem? h)).1

include hF in
theorem lay_at {j : Nat} {q : BB × List Value} (h : fd.layout.bbs[j]? = some q) : ∃ b, order[j]? = some b ∧
    (∃ x, Block p f q.1 x ∧ x.name = keptName b.name ∧ ParamsFrom p f VKind.blockArgRef b.params x.params) ∧
      All2 (fun (w : Value) (st : StmtAst) => ∃ x, LocalVal p f w x ∧ x.name = stmtName st ∧
        StmtIs (envOf p gv gf f params fd.params fd.layout.bbs order r b.name w) st x.ty x.kind) q.2 b.stmts := by
  obtain ⟨b, hb⟩ : ∃ x, order[j]? = some x :=
    ⟨_, List.getElem?_eq_getElem (by rw [← hF.blocks.length]; exact (List.getElem?_eq_some_iff.1 h).1)⟩
  exact ⟨b, hb, hF.blocks.get _ _ _ h hb⟩

include hF in
theorem order_at {j : Nat} {b : BlockAst} (h : order[j]? = some b) : ∃ q, fd.layout.bbs[j]? = some q :=
  ⟨_, List.getElem?_eq_getElem (by rw [hF.blocks.length]; exact (List.getElem?_eq_some_iff.1 h).1)⟩

include hf hF hgood in
/-- The blocks where control may pass are the labels that are written. -/
theorem exits_rel {j : Nat} {b : BlockAst} {q : BB × List Value} (h : order[j]? = some b) (h' : fd.layout.bbs[j]? = some q) :
    All2 (Lab fd order) (successors b) (exits fd q.2) := by
  obtain ⟨-, init, t, h1, h2, -⟩ := good_block hF hgood h
  obtain ⟨-, hS⟩ := hF.blocks.get _ _ _ h' h
  rw [h1] at hS
  obtain ⟨is, v, e1, -, x, hx, -, hs⟩ := all2_snoc_right hS
  unfold successors exits
  rw [h1, e1]
  simp only [List.getLast?_append, List.getLast?_singleton, Option.some_or, local_get hf hx]
  generalize x.kind = k at hs
  cases hs with
  | «def» => cases h2
  | store => cases h2
  | call => cases h2
  | branch _ b1 _ _ b2 _ _ => exact .cons b1 (.cons b2 .nil)
  | jump b1 _ _ => exact .cons b1 .nil
  | retNone => exact .nil
  | ret => exact .nil

include hf in
theorem exit_edge {b c : BB} {is : List Value} (h : (b, is) ∈ fd.layout.bbs) (hc : c ∈ exits fd is) : Edge p f b c := by
  unfold exits at hc
  split at hc
  · cases hc
  · rename_i v hv
    split at hc
    · cases hc
    · rename_i x hx
      exact ⟨fd, is, v, x, hf, h, List.mem_of_getLast? hv, ⟨fd, hf, hx⟩, hc⟩

include hf hF hgood in
theorem flows_leads {a c : Str} (h : Flows order a c) : ∀ b b', Lab fd order a b → Lab fd order c b' → Leads p f b b' := by
  induction h with
  | refl =>
    intro b b' h1 h2
    rw [lab_right hF h1 h2]; exact .refl
  | @step c b0 h1 h2 h3 ih =>
    intro b b' hb hb'
    obtain ⟨j, hj⟩ := List.getElem?_of_mem h2
    obtain ⟨⟨h0, is0⟩, hq⟩ := order_at hF hj
    have := ih b h0 hb ⟨j, b0, is0, hj, rfl, hq⟩
    obtain ⟨c', hc', hl⟩ := (exits_rel hf hF hgood hj hq).memL c h3
    rw [lab_right hF hb' hl]
    exact .step this (exit_edge hf (List.mem_of_getElem? hq) hc')

include A hf hF hgood in
theorem text_order : ∃ e, (fd.layout.bbs.map (·.1)).head? = some e ∧
    fd.layout.bbs.map (·.1) = firstOnes [] (e :: fd.layout.bbs.flatMap (fun q => exits fd q.2)) ∧
    ∀ b is, (b, is) ∈ fd.layout.bbs → Leads p f e b ∧ ∀ c ∈ exits fd is, c ≠ e ∧ c ∈ fd.layout.bbs.map (·.1) := by
  obtain ⟨e, hB⟩ := hF.isOrder
  have h0 : order[0]? = some e := by rw [← List.head?_eq_getElem?]; exact hB.head
  obtain ⟨⟨b0, is0⟩, hq0⟩ := order_at hF h0
  have l0 : Lab fd order e.name b0 := ⟨0, e, is0, h0, rfl, hq0⟩
  have hlay : All2 (Lab fd order) (order.map (·.name)) (fd.layout.bbs.map (·.1)) := by
    refine .of_get (by simp [hF.blocks.length]) (fun i a b h1 h2 => ?_)
    rw [List.getElem?_map] at h1 h2
    obtain ⟨blk, h3, rfl⟩ := Option.map_eq_some_iff.1 h1
    obtain ⟨q, h4, rfl⟩ := Option.map_eq_some_iff.1 h2
    exact ⟨i, blk, q.2, h3, rfl, h4⟩
  have hex : All2 (Lab fd order) (order.flatMap successors) (fd.layout.bbs.flatMap (fun q => exits fd q.2)) := by
    have : All2 (fun b (q : BB × List Value) => All2 (Lab fd order) (successors b) (exits fd q.2)) order fd.layout.bbs :=
      .of_get hF.blocks.length.symm (fun i a b h1 h2 => exits_rel hf hF hgood h1 h2)
    exact all2_flatMap this (fun _ _ h => h)
  refine ⟨b0, by rw [List.head?_eq_getElem?, List.getElem?_map, hq0]; rfl, ?_, ?_⟩
  · have h1 := firsts_rel (R := Lab fd order) (fun _ _ _ h h' => lab_right hF h h') (fun _ _ _ h h' => lab_left A hf h h') (.cons l0 hex) (seen := []) .nil
    rw [← hB.breadth] at h1
    exact all2_right_unique (R := Lab fd order) (fun _ _ _ h h' => lab_right hF h h') hlay h1
  · intro b is hm
    obtain ⟨j, hj⟩ := List.getElem?_of_mem hm
    obtain ⟨blk, hblk, -⟩ := lay_at hF hj
    refine ⟨flows_leads hf hF hgood (flows_order hB ((hB.exact blk).1 (List.mem_of_getElem? hblk)).2) _ _ l0 ⟨j, blk, is, hblk, rfl, hj⟩, ?_⟩
    intro c hc
    obtain ⟨s, h1, h2⟩ := Raw.All2.memR (exits_rel hf hF hgood hblk hj) c hc
    obtain ⟨h3, b', h4, h5⟩ := hB.targets blk (List.mem_of_getElem? hblk) s h1
    refine ⟨fun he => h3 ?_, ?_⟩
    · subst he; exact lab_left A hf h2 l0
    · obtain ⟨j', _, is', _, _, h6⟩ := h2
      exact List.mem_map.2 ⟨_, List.mem_of_getElem? h6, rfl⟩

/-! ### Instructions -/

include A hf hF hgood in
theorem sym_visible (hgv : ∀ s v, gv s v → (s, v) ∈ vars) {j i : Nat} {q : BB × List Value} {b : BlockAst} {w : Value} (hj : order[j]? = some b)
    (hq : fd.layout.bbs[j]? = some q) (hw : q.2[i]? = some w) {s : Str} {v : Value}
    (h : (envOf p gv gf f params fd.params fd.layout.bbs order r b.name w).sym s v) : Visible p f fd j i v := by
  have lab : ∀ {j : Nat} {b : BlockAst} {q : BB × List Value}, order[j]? = some b → fd.layout.bbs[j]? = some q → Lab fd order b.name q.1 :=
    fun h h' => ⟨_, _, _, h, rfl, h'⟩
  rcases h with h | ⟨-, n', hd, hlt, hfl, -⟩
  · refine .global ?_
    rw [show p.instLayout = vars.map (·.2) from A.insts]
    exact List.mem_map.2 ⟨_, hgv s v h, rfl⟩
  · cases hd with
    | arg _ a1 a2 => exact .arg (List.mem_of_getElem? a2)
    | @param blk j' k h is x _ a _ a0 a1 a2 a3 a4 =>
      exact .param hq a1 (block_get hf a2) (List.mem_of_getElem? a4) (flows_leads hf hF hgood hfl _ _ (lab a0 a1) (lab hj hq))
    | @inst blk j' i' h is s e _ a0 a1 a2 a3 =>
      obtain ⟨-, hS⟩ := hF.blocks.get _ _ _ a1 a0
      obtain ⟨x, hx, -, hs⟩ := hS.get _ _ _ a3 a2
      have hu : x.ty ≠ .unit := by cases hs with | «def» _ h => exact h
      exact .inst hq a1 a3 (local_get hf hx) hu (flows_leads hf hF hgood hfl _ _ (lab a0 a1) (lab hj hq))
        (ascending_before hF.ascending hq hw a1 a3 hlt)

/-- What the operands of a statement are. -/
structure EnvVis (p : Program) (f : Func) (fd : FData) (before : List Func) (j i : Nat) (E : Env) : Prop where
  sym : ∀ s v, E.sym s v → Visible p f fd j i v
  den : ∀ v t k, E.den v t k → HasTy p f v t
  lit : ∀ v t k, E.lit v t k → ∃ x, fd.dfg.values.get? v = some x ∧ x.ty = t ∧ x.kind = k
  fn : ∀ n g, E.fn n g → g ∈ before ++ [f]

theorem operand_usable {before : List Func} {j i : Nat} {E : Env} (hE : EnvVis p f fd before j i E) (hf : p.funcs.get? f = some fd) {a : ValAst} {t : Ty} {v : Value}
    (h : OperandIs E a t v) (hs : smallVal a = true) : Usable p f fd j i v ∧ HasTy p f v t := by
  cases h with
  | sym h1 h2 => exact ⟨.inl (hE.sym _ _ h1), hE.den _ _ _ h2⟩
  | const h =>
    cases h with
    | int h =>
      obtain ⟨x, h1, h2, h3⟩ := hE.lit _ _ _ h
      exact ⟨.inr ⟨x, h1, .inl ⟨_, h3⟩⟩, x, .inr ⟨fd, hf, h1⟩, h2⟩
    | undef h =>
      obtain ⟨x, h1, h2, h3⟩ := hE.lit _ _ _ h
      exact ⟨.inr ⟨x, h1, .inr h3⟩, x, .inr ⟨fd, hf, h1⟩, h2⟩
    | zero => cases hs
    | agg => cases hs
    | aggPtr => cases hs

theorem args_usable {before : List Func} {j i : Nat} {E : Env} (hE : EnvVis p f fd before j i E) (hf : p.funcs.get? f = some fd) {as : List ValAst} {ts : List Ty} {vs : List Value}
    (h : ArgsAre E as ts vs) : as.all smallVal = true → ∀ v ∈ vs, Usable p f fd j i v := by
  induction h with
  | nil => simp
  | cons h _ ih =>
    intro hs v hv
    simp only [List.all_cons, Bool.and_eq_true] at hs
    rcases List.mem_cons.1 hv with rfl | hv
    · exact (operand_usable hE hf h hs.1).1
    · exact ih hs.2 v hv

theorem stmt_writable {before : List Func} {j i : Nat} {E : Env} (hE : EnvVis p f fd before j i E) (hf : p.funcs.get? f = some fd) (hr : E.ret = r)
    {st : StmtAst} {t : Ty} {k : VKind} (h : StmtIs E st t k) (hs : smallStmt st = true) (ht : ShortTy t) :
    Writable (Visible p f fd j i) (Usable p f fd j i) (Constant fd.dfg.values.get?) (· ∈ before ++ [f]) (HasTy p f) r k t := by
  cases h with
  | «def» h hu =>
    cases h with
    | alloc h => cases ht with | ptr ht => exact .alloc (ty_expressible h ht)
    | load h => exact .load (hE.sym _ _ h) hu
    | getPtr h h' => exact .getPtr (hE.sym _ _ h) (operand_usable hE hf h' hs).1
    | getElemPtr h h' => exact .getElemPtr (hE.sym _ _ h) (operand_usable hE hf h' hs).1
    | binary h h' =>
      simp only [smallStmt, smallExpr, Bool.and_eq_true] at hs
      exact .binary (operand_usable hE hf h hs.1).1 (operand_usable hE hf h' hs.2).1
    | call h _ h' => exact .call (hE.fn _ _ h) (args_usable hE hf h' hs)
  | call h => cases h with | call h _ h' => exact .call (hE.fn _ _ h) (args_usable hE hf h' hs)
  | store h h1 h2 =>
    refine .store ?_ (hE.sym _ _ h)
    cases h2 with
    | sym h _ => exact .inl (hE.sym _ _ h)
    | const h => exact .inr (const_constant (fun v t k h => by obtain ⟨x, h1, _, h3⟩ := hE.lit v t k h; exact ⟨x, h1, h3⟩) h)
  | branch h _ _ h1 _ _ h2 =>
    simp only [smallStmt, Bool.and_eq_true] at hs
    exact .branch (operand_usable hE hf h hs.1.1).1 (args_usable hE hf h1 hs.1.2) (args_usable hE hf h2 hs.2)
  | jump _ _ h => exact .jump (args_usable hE hf h hs)
  | retNone h => exact .retNone (hr ▸ h)
  | ret h h' =>
    obtain ⟨h1, h2⟩ := operand_usable hE hf h' hs
    exact .ret (hr ▸ h) h1 (hr ▸ h2)

include A hf hF hgood in
theorem text_body (hgv : ∀ s v, gv s v → (s, v) ∈ vars) (hfl : f ∈ p.funcLayout) (hsh : ShortArrays p) {before : List Func} (hgf : ∀ n g, gf n g → g ∈ before ++ [f])
    {ts : List Ty} (hty : fd.ty = .func ts r) : PrintableBody p before f fd ts r := by
  obtain ⟨e, hB⟩ := hF.isOrder
  have h0 : order[0]? = some e := by rw [← List.head?_eq_getElem?]; exact hB.head
  obtain ⟨⟨b0, is0⟩, hq0⟩ := order_at hF h0
  have hne : fd.layout.bbs ≠ [] := by intro h; rw [h] at hq0; cases hq0
  refine ⟨?_, ?_, keys_nodup A hf, hF.ascending.imp (fun h => Nat.ne_of_lt h), ?_, ?_, ?_, ?_, text_order A hf hF hgood⟩
  · obtain ⟨_, _, ⟨x, hx, -⟩, -⟩ := lay_at hF hq0
    have := block_get hf hx
    cases h : fd.dfg.bbs.isEmpty with
    | false => rfl
    | true =>
      unfold Map.isEmpty at h
      rw [List.isEmpty_iff] at h
      rw [Map.get?, h] at this
      cases this
  · obtain ⟨ts', r', h1, -, -, h2, h3⟩ := A.funcTy hf
    rw [hty] at h1
    cases h1
    refine ⟨h2 hne, fun i v hi => ?_⟩
    obtain ⟨x, h4, h5, h6⟩ := h3 i v hi
    exact ⟨x, local_get hf h4, h5, h6⟩
  · intro b is hm
    obtain ⟨j, hj⟩ := List.getElem?_of_mem hm
    obtain ⟨blk, hblk, ⟨x, hx, -, hp⟩, -⟩ := lay_at hF hj
    refine ⟨x, block_get hf hx, fun i v hi => ?_⟩
    have hl := (List.getElem?_eq_some_iff.1 hi).1
    obtain ⟨y, hy, -, ht, hk⟩ := hp.2 i _ _ (List.getElem?_eq_getElem (by rw [← hp.1]; exact hl)) hi
    refine ⟨y, local_get hf hy, hk, ty_expressible ht (hsh.locals f hfl fd hf (.param j i) v y ?_ (local_get hf hy))⟩
    simp only [valueAt, hj, block_get hf hx, hi]
  · intro b b' x x' v _ _ h1 h2 h3 h4
    exact A.tidy.once f b b' _ _ _ _ v (view_b_iff.2 ⟨_, ⟨_, hf, h1⟩, rfl, rfl⟩) (view_b_iff.2 ⟨_, ⟨_, hf, h2⟩, rfl, rfl⟩) h3 h4
  · intro j i b is v hj hi
    obtain ⟨blk, hblk, -, hS⟩ := lay_at hF hj
    obtain ⟨st, hst⟩ : ∃ st, blk.stmts[i]? = some st :=
      ⟨_, List.getElem?_eq_getElem (by rw [← hS.length]; exact (List.getElem?_eq_some_iff.1 hi).1)⟩
    obtain ⟨x, hx, -, hs⟩ := hS.get _ _ _ hi hst
    refine ⟨x, local_get hf hx, ?_⟩
    refine stmt_writable ⟨?_, ?_, ?_, ?_⟩ hf rfl hs ((good_block hF hgood hblk).1 st (List.mem_of_getElem? hst)) (hsh.locals f hfl fd hf (.inst j i) v x (by simp only [valueAt, hj, hi]) (local_get hf hx))
    · intro s v h
      exact sym_visible A hf hF hgood hgv hblk hj hi h
    · rintro v t k ⟨x, h1, h2, -⟩
      exact ⟨x, h1, h2⟩
    · rintro v t k ⟨x, h1, h2, h3⟩
      exact ⟨x, local_get hf h1, h2, h3⟩
    · exact hgf
  · intro b is hm
    obtain ⟨j, hj⟩ := List.getElem?_of_mem hm
    obtain ⟨blk, hblk, -, hS⟩ := lay_at hF hj
    obtain ⟨-, init, t, h1, h2, h3⟩ := good_block hF hgood hblk
    rw [h1] at hS
    obtain ⟨is', v, e1, hI, x, hx, -, hs⟩ := all2_snoc_right hS
    refine ⟨is', v, e1, ⟨x, local_get hf hx, (endStmt_term hs).trans h2⟩, fun u hu => ?_⟩
    obtain ⟨st, hst, y, hy, -, hs'⟩ := hI.memL u hu
    exact ⟨y, local_get hf hy, (endStmt_term hs').trans (h3 st hst)⟩

end

/-- An accepted program whose arrays are not too long can be written. -/
theorem FromText.printable {p : Program} {gs : List GlobalAst} {vars : List (Str × Value)} {fns : List (Str × Func)} (A : FromText p gs vars fns)
    (hgood : ∀ n ps r bs, GlobalAst.funDef n ps r bs ∈ gs → ∀ b ∈ bs, GoodBlock b) (hsh : ShortArrays p) : Printable p := by
  have hlay := C42_program_layouts (A.inv.reach.mono (fun _ _ _ => trivial))
  refine ⟨A.inv.wellTyped, fun v x h => A.isGlobal h, fun f v x h => A.isLocal h, hlay.2.2.2.2.imp (fun h => Nat.ne_of_lt h), ?_,
    hlay.2.1.imp (fun h => Nat.ne_of_lt h), ?_⟩
  · intro v hv
    have hv0 := hv
    rw [show p.instLayout = vars.map (·.2) from A.insts] at hv
    obtain ⟨⟨n, u'⟩, hm', rfl⟩ := List.mem_map.1 hv
    obtain ⟨_, _, _, x, i, y, t, hx, _, hk, hy, hxy, ht, hc⟩ := A.items.global hm'
    refine ⟨x, i, y, hx, hk, const_constant (fun v t k h => ?_) hc, hy, init_expressible A.inv.wellTyped hc ⟨_, ht⟩ y hy ?_⟩
    rotate_left
    · have := hsh.globals _ hv0 x hx
      rw [hxy] at this
      cases this with | ptr h => exact h
    obtain ⟨z, h1, -, h2⟩ := h
    exact ⟨z, h1, h2⟩
  · intro i f hi
    have hL : p.funcLayout = fns.map (·.2) := A.fns
    have hfl := List.mem_of_getElem? hi
    rw [hL, List.getElem?_map] at hi
    obtain ⟨⟨n, f'⟩, hfi, rfl⟩ := Option.map_eq_some_iff.1 hi
    obtain ⟨fd, hf, h⟩ := A.items.at i n f' hfi
    rcases h with ⟨ps, r, hD⟩ | ⟨ps, ret, bbs, order, r, gv, h1, h2, hF⟩
    · obtain ⟨ts, r, h1, h2, h3⟩ := hD.hasTy
      have hs := hsh.funcs f' hfl fd hf
      rw [h1] at hs
      cases hs with
      | func hs hs' =>
        exact ⟨fd, ts, r, hf, h1, tys_expressible h2 hs, ret_expressible h3 hs',
          .inl ⟨Map.isEmpty_of_none (fun b x hb => hD.noBlocks.2 b x ⟨fd, hf, hb⟩), hD.noBlocks.1, hD.hasParams⟩⟩
    · obtain ⟨ts, h3, h4⟩ := hF.hasTy
      have hs := hsh.funcs f' hfl fd hf
      rw [h3] at hs
      cases hs with
      | func hs hs' =>
        refine ⟨fd, ts, r, hf, h3, tys_expressible h4 hs, ret_expressible hF.hasRet hs', .inr ?_⟩
        refine text_body A hf hF (hgood n ps ret bbs h2) h1 hfl hsh (fun m g hg => ?_) h3
        have hl := (List.getElem?_eq_some_iff.1 hfi).1
        rw [List.take_add_one, hfi] at hg
        rw [hL, ← List.map_take]
        rcases List.mem_append.1 hg with hg | hg
        · exact List.mem_append_left _ (List.mem_map.2 ⟨_, hg, rfl⟩)
        · simp at hg
          exact List.mem_append_right _ (by simp [hg.2])

/-- The names of an accepted program are symbols, and only functions have temporary ones. -/
theorem Accepted.plainNames {w : World} {input : Str} {p : Program} (h : Accepted w input p)
    (hf : ∀ f fd, p.funcs.get? f = some fd → temporary fd.name = false) : PlainNames p := by
  have hN := h.names
  have key : ∀ {s : Str}, SymName s → temporary s = false → PlainName s := by
    intro s h1 h2
    generalize hk : TokKind.sym s = k at h1
    unfold SymName at h1
    cases h1 with
    | sym h3 h4 => exact ⟨_, _, rfl, h3, h4⟩
    | @temp s hs =>
      exfalso
      have : temporary ('%' :: s) = true := by
        unfold temporary
        rw [List.all_cons, Bool.and_eq_true]
        refine ⟨rfl, List.all_eq_true.2 (fun x hx => ?_)⟩
        rcases hs with rfl | ⟨c, t, rfl, -, h5⟩
        · simp at hx; subst hx; decide
        · rw [h5 x hx, Bool.or_true]
      rw [this] at h2; cases h2
  have kt : ∀ {s : Str}, tempName s = some s → temporary s = false := by
    intro s hs
    rw [tempName_eq, keptName] at hs
    split at hs
    · cases hs
    · rename_i h; simpa using h
  refine ⟨?_, ?_, ?_, ?_⟩
  · intro f fd hfd
    refine key (hN.head f fd.ty fd.name fd.params ?_) (hf f fd hfd)
    show (p.funcs.get? f).map _ = _
    rw [hfd]; rfl
  · intro v x s hx hs
    have := hN.g v x.ty s x.kind (by rw [← hs]; exact view_g_iff.2 ⟨x, hx, rfl⟩)
    exact key this.1 (kt this.2)
  · intro f v x s hx hs
    have := hN.l f v x.ty s x.kind (by rw [← hs]; exact view_l_iff.2 ⟨x, hx, rfl⟩)
    exact key this.1 (kt this.2)
  · intro f b x s hx hs
    have := hN.b f b s x.params (by rw [← hs]; exact view_b_iff.2 ⟨x, hx, rfl, rfl⟩)
    exact key this.1 (kt this.2)

theorem Accepted.printable {w : World} {input : Str} {p : Program} (h : Accepted w input p) (hsh : ShortArrays p) : Printable p := by
  obtain ⟨gs, hr, -⟩ := C47_program_is_text h
  obtain ⟨vars, fns, A⟩ := h.fromText hr
  obtain ⟨ts, -, hg⟩ := hr
  exact A.printable (GProg.good hg) hsh

end Koopa
