import Verif.Lemmas.Front.Kept
import Verif.Props.Elab
import Verif.Spec.Raw
/-!
Programs generated from text fulfil what the raw representation asks for, apart from dominance and
the sizes of lists.
-/
namespace Koopa
open Spec

theorem localVal_unique {p : Program} {f : Func} {v : Value} {x y : VData} (hx : LocalVal p f v x) (hy : LocalVal p f v y) : x = y := by
  obtain ⟨fd1, e1, e2⟩ := hx
  obtain ⟨fd2, e3, e4⟩ := hy
  rw [e1] at e3; cases e3
  rw [e2] at e4; cases e4; rfl

/-- What is known of an accepted program. -/
structure FromText (p : Program) (gs : List GlobalAst) (vars : List (Str × Value)) (fns : List (Str × Func)) : Prop where
  inv : FInv p
  tidy : Tidy p
  but : But [] p
  items : Items p gs vars fns
  insts : p.view.insts = vars.map (·.2)
  fns : p.view.fns = fns.map (·.2)

theorem Accepted.fromText {w : World} {input : Str} {p : Program} (h : Accepted w input p) {gs : List GlobalAst} (hg : Reads input gs) :
    ∃ vars fns, FromText p gs vars fns := by
  obtain ⟨h1, vars, fns, h2, h3, h4⟩ := h.items hg
  obtain ⟨w', h5, -⟩ := h.run
  obtain ⟨h6, h7⟩ := generate_kept h5
  exact ⟨vars, fns, h1, h6, h7, h2, h3, h4⟩

/-- Every function of the program is an item, and sees global variables of the text. -/
theorem Spec.Items.func' {p : Program} {gs : List GlobalAst} {vars : List (Str × Value)} {fns : List (Str × Func)}
    (h : Items p gs vars fns) {n : Str} {f : Func} (hm : (n, f) ∈ fns) : ∃ fd, p.funcs.get? f = some fd ∧
      ((∃ params ret, DeclIs p f fd n params ret) ∨
        ∃ params ret bbs order r gv gf, (∀ s v, gv s v → (s, v) ∈ vars) ∧ FunIs p gv gf f fd n params ret bbs order r) := by
  induction h with
  | nil => simp at hm
  | globalDef _ _ _ _ ih =>
    obtain ⟨fd, h1, h2⟩ := ih hm
    refine ⟨fd, h1, ?_⟩
    rcases h2 with h2 | ⟨a, b, c, d, e, g, i, j, k⟩
    · exact .inl h2
    · exact .inr ⟨a, b, c, d, e, g, i, fun s v h => List.mem_append_left _ (j s v h), k⟩
  | funDecl _ _ _ hf hF ih =>
    rw [List.mem_append, List.mem_singleton] at hm
    rcases hm with hm | hm
    · exact ih hm
    · cases hm
      exact ⟨_, hf, .inl ⟨_, _, hF⟩⟩
  | funDef _ _ _ hf hF ih =>
    rw [List.mem_append, List.mem_singleton] at hm
    rcases hm with hm | hm
    · exact ih hm
    · cases hm
      exact ⟨_, hf, .inr ⟨_, _, _, _, _, _, _, fun _ _ h => h, hF⟩⟩

mutual
/-- Every type of the text has the type it stands for. -/
theorem genType_complete : ∀ {a : TyAst} {t : Ty}, TyIs a t → genType a = some t
  | .int, _, .int => rfl
  | .array a n, _, .array h hn => by
    rw [genType, genType_complete h]
    simp only [Ty.getArray]
    rw [if_pos hn]
  | .pointer a, _, .pointer h => by rw [genType, genType_complete h]
  | .func ps r, _, .func h hr => by rw [genType, genTypes_complete h, genRetType_complete hr]
theorem genTypes_complete : ∀ {as : List TyAst} {ts : List Ty}, All2 TyIs as ts → genTypes as = some ts
  | [], _, .nil => rfl
  | a :: as, _, .cons h hs => by rw [genTypes, genType_complete h, genTypes_complete hs]
theorem genRetType_complete : ∀ {a : Option TyAst} {t : Ty}, RetIs TyIs a t → genRetType a = some t
  | none, _, .none => rfl
  | some a, _, .some h => by rw [genRetType]; exact genType_complete h
end

theorem TyIs_unique {a : TyAst} {t t' : Ty} (h : TyIs a t) (h' : TyIs a t') : t = t' :=
  Option.some.inj ((genType_complete h).symm.trans (genType_complete h'))

theorem TyIs_not_unit {a : TyAst} {t : Ty} (h : TyIs a t) : t ≠ .unit := by cases h <;> simp

theorem const_cases {den : Value → Ty → VKind → Prop} {a : ValAst} {t : Ty} {v : Value} (h : ConstIs den a t v) :
    ∃ t' k, den v t' k ∧ k.isConst = true ∧ targets k = [] ∧
      ((∃ n, k = .integer n) ∨ k = .zeroInit ∨ k = .undef ∨ ∃ es, k = .aggregate es) ∧
      ∀ w ∈ operands k, ∃ a t, ConstIs den a t w := by
  cases h with
  | int h => exact ⟨_, _, h, rfl, rfl, .inl ⟨_, rfl⟩, by simp [operands]⟩
  | undef h => exact ⟨_, _, h, rfl, rfl, .inr (.inr (.inl rfl)), by simp [operands]⟩
  | zero h => exact ⟨_, _, h, rfl, rfl, .inr (.inl rfl), by simp [operands]⟩
  | @agg es t t' v vs h h1 h2 =>
    refine ⟨_, _, h, rfl, rfl, .inr (.inr (.inr ⟨_, rfl⟩)), ?_⟩
    intro w hw
    obtain ⟨i, hi⟩ := List.getElem?_of_mem (show w ∈ vs from hw)
    have hl := (List.getElem?_eq_some_iff.1 hi).1
    exact ⟨_, _, h2 i _ w (List.getElem?_eq_getElem (by omega)) hi⟩
  | @aggPtr es t t' v vs h h1 h2 =>
    refine ⟨_, _, h, rfl, rfl, .inr (.inr (.inr ⟨_, rfl⟩)), ?_⟩
    intro w hw
    obtain ⟨i, hi⟩ := List.getElem?_of_mem (show w ∈ vs from hw)
    have hl := (List.getElem?_eq_some_iff.1 hi).1
    exact ⟨_, _, h2 i _ w (List.getElem?_eq_getElem (by omega)) hi⟩

/-- An operand of a statement is a symbol or a constant. -/
def Opnd (E : Env) (v : Value) : Prop := (∃ s, E.sym s v) ∨ ∃ a t, ConstIs E.lit a t v

theorem OperandIs_opnd {E : Env} {a : ValAst} {t : Ty} {v : Value} (h : OperandIs E a t v) : Opnd E v := by
  cases h with
  | sym h _ => exact .inl ⟨_, h⟩
  | const h => exact .inr ⟨_, _, h⟩

theorem ArgsAre_opnd {E : Env} {as : List ValAst} {ts : List Ty} {vs : List Value} (h : ArgsAre E as ts vs) : ∀ v ∈ vs, Opnd E v := by
  induction h with
  | nil => simp
  | cons h _ ih =>
    intro v hv
    rcases List.mem_cons.1 hv with rfl | hv
    · exact OperandIs_opnd h
    · exact ih v hv

theorem ExprIs_opnd {E : Env} {e : ExprAst} {t : Ty} {k : VKind} (h : ExprIs E e t k) :
    (∀ v ∈ operands k, Opnd E v) ∧ targets k = [] ∧ ∀ es, k ≠ .aggregate es := by
  cases h with
  | alloc => exact ⟨by simp [operands], rfl, by simp⟩
  | load h => refine ⟨?_, rfl, by simp⟩; simp only [operands, List.mem_singleton]; rintro _ rfl; exact .inl ⟨_, h⟩
  | getPtr h h' =>
    refine ⟨?_, rfl, by simp⟩; simp only [operands, List.mem_cons, List.not_mem_nil, or_false]
    rintro _ (rfl | rfl)
    · exact .inl ⟨_, h⟩
    · exact OperandIs_opnd h'
  | getElemPtr h h' =>
    refine ⟨?_, rfl, by simp⟩; simp only [operands, List.mem_cons, List.not_mem_nil, or_false]
    rintro _ (rfl | rfl)
    · exact .inl ⟨_, h⟩
    · exact OperandIs_opnd h'
  | binary h h' =>
    refine ⟨?_, rfl, by simp⟩; simp only [operands, List.mem_cons, List.not_mem_nil, or_false]
    rintro _ (rfl | rfl)
    · exact OperandIs_opnd h
    · exact OperandIs_opnd h'
  | call _ _ h => exact ⟨ArgsAre_opnd h, rfl, by simp⟩

theorem StmtIs_opnd {E : Env} {st : StmtAst} {t : Ty} {k : VKind} (h : StmtIs E st t k) :
    (∀ v ∈ operands k, Opnd E v) ∧ ∀ es, k ≠ .aggregate es := by
  cases h with
  | «def» h _ => exact ⟨(ExprIs_opnd h).1, (ExprIs_opnd h).2.2⟩
  | call h => exact ⟨(ExprIs_opnd h).1, (ExprIs_opnd h).2.2⟩
  | store h _ h' =>
    refine ⟨?_, by simp⟩; simp only [operands, List.mem_cons, List.not_mem_nil, or_false]
    rintro _ (rfl | rfl)
    · exact OperandIs_opnd h'
    · exact .inl ⟨_, h⟩
  | branch h _ _ h1 _ _ h2 =>
    refine ⟨?_, by simp⟩; simp only [operands, List.mem_cons, List.mem_append]
    rintro v (rfl | h3 | h3)
    · exact OperandIs_opnd h
    · exact ArgsAre_opnd h1 v h3
    · exact ArgsAre_opnd h2 v h3
  | jump _ _ h => exact ⟨ArgsAre_opnd h, by simp⟩
  | retNone => exact ⟨by simp [operands], by simp⟩
  | ret _ h => refine ⟨?_, by simp⟩; simp only [operands, List.mem_singleton]; rintro _ rfl; exact OperandIs_opnd h

section
variable {p : Program} {gs : List GlobalAst} {vars : List (Str × Value)} {fns : List (Str × Func)} (A : FromText p gs vars fns)
include A

theorem FromText.isGlobal {v : Value} {x : VData} (h : GlobalVal p v x) : isGlobal v = true := by
  have h1 := A.inv.inv.gRange v x h
  have h2 := A.inv.max
  unfold Koopa.isGlobal
  simp only [Bool.and_eq_true, decide_eq_true_eq]
  omega

theorem FromText.isLocal {f : Func} {v : Value} {x : VData} (h : LocalVal p f v x) : Koopa.isGlobal v = false := by
  have h1 := A.inv.inv.lRange f v x h
  unfold Koopa.isGlobal
  simp only [Bool.and_eq_false_iff, decide_eq_false_iff_not]
  omega

theorem FromText.apart {f : Func} {v : Value} {x y : VData} (h : LocalVal p f v x) (h' : GlobalVal p v y) : False := by
  have h1 := A.isLocal h
  rw [A.isGlobal h'] at h1
  cases h1

theorem FromText.fun {f : Func} {fd : FData} (hf : p.funcs.get? f = some fd) :
    (∃ n params ret, DeclIs p f fd n params ret) ∨
    ∃ n params ret bbs order r gv gf, (∀ s v, gv s v → ∃ x, GlobalVal p v x) ∧ FunIs p gv gf f fd n params ret bbs order r := by
  have h1 : f ∈ p.view.fns := by
    rw [A.inv.fns]
    show ((p.funcs.get? f).map _).isSome
    rw [hf]; rfl
  rw [A.fns] at h1
  obtain ⟨⟨n, f'⟩, hm, rfl⟩ := List.mem_map.1 h1
  obtain ⟨fd', hf', h2⟩ := A.items.func' hm
  rw [hf] at hf'; cases hf'
  rcases h2 with ⟨a, b, c⟩ | ⟨a, b, c, d, e, g, i, j, k⟩
  · exact .inl ⟨n, a, b, c⟩
  · refine .inr ⟨n, a, b, c, d, e, g, i, fun s v hs => ?_, k⟩
    obtain ⟨_, _, _, x, _, _, _, hx, _⟩ := A.items.global (j s v hs)
    exact ⟨x, hx⟩

theorem FromText.blockListed {f : Func} {fd : FData} (hf : p.funcs.get? f = some fd) {b : BB} {x : BData} (hb : Block p f b x) :
    b ∈ fd.layout.bbs.map (·.1) := by
  rcases A.fun hf with ⟨_, _, _, h⟩ | ⟨_, _, _, _, _, _, _, _, _, h⟩
  · exact (h.noBlocks.2 b x hb).elim
  · exact h.noOthers b x hb

/-! ### Everything is used -/

theorem FromText.usedLocal {f : Func} {v : Value} {x : VData} (hx : LocalVal p f v x) : Used p (some f) v := by
  obtain ⟨n, hn⟩ : ∃ n, n = p.ids.nextLocal - v := ⟨_, rfl⟩
  induction n using Nat.strongRecOn generalizing v x with
  | _ n ih =>
    have hv := view_l_iff.2 ⟨x, hx, rfl⟩
    obtain ⟨fd, hfd, hvd⟩ := hx
    rcases A.but (some f) v (by unfold liveIn; simp only; rw [hv]; rfl) with h | h
    · cases h
    · cases h with
      | @operand _ _ w t n k h1 h2 =>
        obtain ⟨y, hy, hs⟩ := view_l_iff.1 h1
        have hk : y.kind = k := congrArg (·.2.2) hs
        have hlt : v < w := by
          rcases A.tidy.lop _ _ _ _ _ h1 v h2 with h | h
          · exact h
          · obtain ⟨s, hs⟩ := Option.isSome_iff_exists.1 h
            obtain ⟨z, hz, _⟩ := view_g_iff.1 hs
            exact (A.apart ⟨fd, hfd, hvd⟩ hz).elim
        have hw := (A.inv.inv.lRange f w y hy).2
        exact .operand (ih (p.ids.nextLocal - w) (by omega) hy rfl) hy (by rw [hk]; exact h2) ⟨fd, hfd, hvd⟩
      | arg h1 =>
        obtain ⟨ft, fn, ps, h2, h3⟩ := A.tidy.arg _ _ _ _ _ h1
        obtain ⟨fd', hf', e⟩ := Option.map_eq_some_iff.1 (show (p.funcs.get? f).map _ = some (ft, fn, ps) from h2)
        simp only [Prod.mk.injEq] at e
        exact .arg hf' (by rw [e.2.2]; exact h3)
      | param h1 =>
        obtain ⟨b, bn, ps, h2, h3⟩ := A.tidy.blk _ _ _ _ _ h1
        obtain ⟨y, hy, -, rfl⟩ := view_b_iff.1 h2
        have := A.blockListed hfd hy
        obtain ⟨fd', hf', hy⟩ := hy
        rw [hfd] at hf'; cases hf'
        exact .param hfd this hy h3
      | @inst _ l b is _ h1 h2 h3 =>
        obtain ⟨fd', hf', e⟩ := Option.map_eq_some_iff.1 (show (p.funcs.get? f).map _ = some l from h1)
        subst e
        exact .inst hf' h2 h3

theorem FromText.usedGlobal {v : Value} {x : VData} (hx : GlobalVal p v x) : Used p none v := by
  obtain ⟨n, hn⟩ : ∃ n, n = p.ids.nextGlobal - v := ⟨_, rfl⟩
  induction n using Nat.strongRecOn generalizing v x with
  | _ n ih =>
    have hv := view_g_iff.2 ⟨x, hx, rfl⟩
    rcases A.but none v (by unfold liveIn; simp only; rw [hv]; rfl) with h | h
    · cases h
    · cases h with
      | @operand _ _ w t n k h1 h2 =>
        obtain ⟨y, hy, hs⟩ := view_g_iff.1 h1
        have hk : y.kind = k := congrArg (·.2.2) hs
        have hlt : v < w := A.tidy.gop _ _ _ _ h1 v h2
        have hw := (A.inv.inv.gRange w y hy).2
        exact .init (ih (p.ids.nextGlobal - w) (by omega) hy rfl) hy (by rw [hk]; exact h2)
      | listed h1 => exact .listed h1

/-! ### What values are -/

/-- Parameters, listed instructions and constants. -/
def GoodVal (p : Program) (f : Func) (fd : FData) (v : Value) : Prop :=
  (∃ y i, LocalVal p f v y ∧ (y.kind = .funcArgRef i ∨ y.kind = .blockArgRef i)) ∨
  (∃ b is, (b, is) ∈ fd.layout.bbs ∧ v ∈ is) ∨ ∃ a t, ConstIs (LDenotes p f) a t v

omit A in
theorem FunIs_listed {gv : Str → Value → Prop} {gf : Str → Func → Prop} {f : Func} {fd : FData} {n : Str}
    {params : List (Str × TyAst)} {ret : Option TyAst} {bbs order : List BlockAst} {r : Ty}
    (hF : FunIs p gv gf f fd n params ret bbs order r) {b : BB} {is : List Value} {v : Value} (hm : (b, is) ∈ fd.layout.bbs) (hv : v ∈ is) :
    ∃ x nm st, LocalVal p f v x ∧ StmtIs (envOf p gv gf f params fd.params fd.layout.bbs order r nm v) st x.ty x.kind := by
  obtain ⟨j, hj⟩ := List.getElem?_of_mem hm
  obtain ⟨blk, hblk⟩ : ∃ x, order[j]? = some x :=
    ⟨_, List.getElem?_eq_getElem (by rw [← hF.blocks.length]; exact (List.getElem?_eq_some_iff.1 hj).1)⟩
  obtain ⟨-, hS⟩ := hF.blocks.get _ _ _ hj hblk
  obtain ⟨i, hi⟩ := List.getElem?_of_mem hv
  obtain ⟨st, hst⟩ : ∃ st, blk.stmts[i]? = some st :=
    ⟨_, List.getElem?_eq_getElem (by rw [← hS.length]; exact (List.getElem?_eq_some_iff.1 hi).1)⟩
  obtain ⟨y, hy, -, hs⟩ := hS.get _ _ _ hi hst
  exact ⟨y, _, st, hy, hs⟩

theorem FromText.symGood {gv : Str → Value → Prop} {gf : Str → Func → Prop} {f : Func} {fd : FData} {n : Str}
    {params : List (Str × TyAst)} {ret : Option TyAst} {bbs order : List BlockAst} {r : Ty}
    (hF : FunIs p gv gf f fd n params ret bbs order r) (hgv : ∀ s v, gv s v → ∃ x, GlobalVal p v x) {nm s : Str} {w v : Value}
    (hs : (envOf p gv gf f params fd.params fd.layout.bbs order r nm w).sym s v) {y : VData} (hy : LocalVal p f v y) :
    GoodVal p f fd v ∧ targets y.kind = [] := by
  rcases hs with hs | ⟨-, n', hd, -, -⟩
  · obtain ⟨x, hx⟩ := hgv s v hs
    exact (A.apart hy hx).elim
  · cases hd with
    | arg _ a1 a2 =>
      obtain ⟨x, hx, _, _, hk⟩ := hF.hasParams.2 _ _ _ a1 a2
      cases localVal_unique hx hy
      exact ⟨.inl ⟨_, _, hx, .inl hk⟩, by rw [hk]; rfl⟩
    | @param blk j i h is z' _ a _ a0 a1 a2 a3 a4 =>
      obtain ⟨⟨z, hz, _, hp⟩, -⟩ := hF.blocks.get _ _ _ a1 a0
      have : z = z' := by
        obtain ⟨fd1, e1, e2⟩ := hz
        obtain ⟨fd2, e3, e4⟩ := a2
        rw [e1] at e3; cases e3
        exact Option.some.inj (e2.symm.trans e4)
      subst this
      obtain ⟨x, hx, _, _, hk⟩ := hp.2 _ _ _ a3 a4
      cases localVal_unique hx hy
      exact ⟨.inl ⟨_, _, hx, .inr hk⟩, by rw [hk]; rfl⟩
    | inst a0 a1 a2 a3 =>
      obtain ⟨-, hS⟩ := hF.blocks.get _ _ _ a1 a0
      obtain ⟨x, hx, -, hs⟩ := hS.get _ _ _ a3 a2
      cases localVal_unique hx hy
      refine ⟨.inr (.inl ⟨_, _, List.mem_of_getElem? a1, List.mem_of_getElem? a3⟩), ?_⟩
      cases hs with
      | «def» he _ => exact (ExprIs_opnd he).2.1

theorem FromText.constGood {f : Func} {v : Value} {a : ValAst} {t : Ty} (h : ConstIs (LDenotes p f) a t v) {y : VData}
    (hy : LocalVal p f v y) : targets y.kind = [] ∧ y.kind.isConst = true := by
  obtain ⟨t', k, ⟨x, hx, _, rfl⟩, h1, h2, _⟩ := const_cases h
  cases localVal_unique hx hy; exact ⟨h2, h1⟩

theorem FromText.operandGood {gv : Str → Value → Prop} {gf : Str → Func → Prop} {f : Func} {fd : FData} {n : Str}
    {params : List (Str × TyAst)} {ret : Option TyAst} {bbs order : List BlockAst} {r : Ty}
    (hF : FunIs p gv gf f fd n params ret bbs order r) (hgv : ∀ s v, gv s v → ∃ x, GlobalVal p v x) {u v : Value} {x y : VData}
    (hu : GoodVal p f fd u) (hx : LocalVal p f u x) (hv : v ∈ operands x.kind) (hy : LocalVal p f v y) :
    GoodVal p f fd v ∧ targets y.kind = [] := by
  rcases hu with ⟨x', i, hx', hk⟩ | ⟨b, is, hm, hu⟩ | ⟨a, t, hc⟩
  · cases localVal_unique hx hx'
    rcases hk with hk | hk <;> rw [hk] at hv <;> simp [operands] at hv
  · obtain ⟨x', nm, st, hx', hs⟩ := FunIs_listed hF hm hu
    cases localVal_unique hx hx'
    rcases (StmtIs_opnd hs).1 v hv with ⟨s, hs⟩ | ⟨a, t, hc⟩
    · exact A.symGood hF hgv hs hy
    · exact ⟨.inr (.inr ⟨a, t, hc⟩), (A.constGood hc hy).1⟩
  · obtain ⟨t', k, ⟨x', hx', _, rfl⟩, -, -, -, h5⟩ := const_cases hc
    cases localVal_unique hx hx'
    obtain ⟨a, t, hc⟩ := h5 v hv
    exact ⟨.inr (.inr ⟨a, t, hc⟩), (A.constGood hc hy).1⟩

theorem FromText.usedGood {sc : Option Func} {v : Value} (hu : Used p sc v) : ∀ f fd, sc = some f → p.funcs.get? f = some fd →
    GoodVal p f fd v ∧ ∃ n params ret bbs order r gv gf, (∀ s v, gv s v → ∃ x, GlobalVal p v x) ∧
      FunIs p gv gf f fd n params ret bbs order r := by
  induction hu with
  | listed => intro f fd h; cases h
  | init => intro f fd h; cases h
  | arg h1 h2 =>
    intro f fd h hf; cases h; rw [h1] at hf; cases hf
    rcases A.fun h1 with ⟨_, _, _, h⟩ | ⟨_, _, _, _, _, _, _, _, hgv, hF⟩
    · rw [h.hasParams] at h2; cases h2
    · refine ⟨?_, _, _, _, _, _, _, _, _, hgv, hF⟩
      obtain ⟨i, hi⟩ := List.getElem?_of_mem h2
      have hl := (List.getElem?_eq_some_iff.1 hi).1
      obtain ⟨x, hx, _, _, hk⟩ := hF.hasParams.2 i _ _ (List.getElem?_eq_getElem (by rw [← hF.hasParams.1]; exact hl)) hi
      exact .inl ⟨x, i, hx, .inl hk⟩
  | param h1 h2 h3 h4 =>
    intro f fd h hf; cases h; rw [h1] at hf; cases hf
    rcases A.fun h1 with ⟨_, _, _, h⟩ | ⟨_, _, _, _, _, _, _, _, hgv, hF⟩
    · rw [h.noBlocks.1] at h2; cases h2
    · refine ⟨?_, _, _, _, _, _, _, _, _, hgv, hF⟩
      obtain ⟨⟨b, is⟩, hm, rfl⟩ := List.mem_map.1 h2
      obtain ⟨blk, _, ⟨z, hz, _, hp⟩, _⟩ := hF.blocks.memL _ hm
      obtain ⟨fd1, e1, e2⟩ := hz
      rw [h1] at e1; cases e1
      have := Option.some.inj (e2.symm.trans h3); subst this
      obtain ⟨i, hi⟩ := List.getElem?_of_mem h4
      have hl := (List.getElem?_eq_some_iff.1 hi).1
      obtain ⟨x, hx, _, _, hk⟩ := hp.2 i _ _ (List.getElem?_eq_getElem (by rw [← hp.1]; exact hl)) hi
      exact .inl ⟨x, i, hx, .inr hk⟩
  | inst h1 h2 h3 =>
    intro f fd h hf; cases h; rw [h1] at hf; cases hf
    rcases A.fun h1 with ⟨_, _, _, h⟩ | ⟨_, _, _, _, _, _, _, _, hgv, hF⟩
    · rw [h.noBlocks.1] at h2; cases h2
    · exact ⟨.inr (.inl ⟨_, _, h2, h3⟩), _, _, _, _, _, _, _, _, hgv, hF⟩
  | operand _ h2 h3 h4 ih =>
    intro f fd h hf; cases h
    obtain ⟨h5, n, params, ret, bbs, order, r, gv, gf, hgv, hF⟩ := ih _ fd rfl hf
    exact ⟨(A.operandGood hF hgv h5 h2 h3 h4).1, n, params, ret, bbs, order, r, gv, gf, hgv, hF⟩

/-- Listed global variables and constants. -/
theorem FromText.globalGood {v : Value} (hu : Used p none v) : v ∈ p.instLayout ∨ ∃ a t, ConstIs (GDenotes p) a t v := by
  have key : ∀ sc v, Used p sc v → sc = none → v ∈ p.instLayout ∨ ∃ a t, ConstIs (GDenotes p) a t v := by
    intro sc v hu
    induction hu with
    | listed h => intro _; exact .inl h
    | @init u v x h1 h2 h3 ih =>
      intro _
      rcases ih rfl with h | ⟨a, t, h⟩
      · have hm : u ∈ p.view.insts := h
        rw [A.insts] at hm
        obtain ⟨⟨n, u'⟩, hm', rfl⟩ := List.mem_map.1 hm
        obtain ⟨_, _, _, x', i, y, t, hx', _, hk, hy, _, _, hc⟩ := A.items.global hm'
        have := Option.some.inj (hx'.symm.trans h2); subst this
        rw [hk] at h3
        simp only [operands, List.mem_singleton] at h3
        subst h3
        exact .inr ⟨_, _, hc⟩
      · obtain ⟨t', k, ⟨x', hx', _, rfl⟩, -, -, -, h5⟩ := const_cases h
        have := Option.some.inj (hx'.symm.trans h2); subst this
        exact .inr (h5 v h3)
    | arg => intro h; cases h
    | param => intro h; cases h
    | inst => intro h; cases h
    | operand => intro h; cases h
  exact key _ _ hu rfl

theorem FromText.globalOperand {u v : Value} {x : VData} (hu : Used p none u) (hx : GlobalVal p u x) (hv : v ∈ operands x.kind) :
    ∃ a t, ConstIs (GDenotes p) a t v := by
  rcases A.globalGood hu with h | ⟨a, t, h⟩
  · have hm : u ∈ p.view.insts := h
    rw [A.insts] at hm
    obtain ⟨⟨n, u'⟩, hm', rfl⟩ := List.mem_map.1 hm
    obtain ⟨_, _, _, x', i, y, t, hx', _, hk, hy, _, _, hc⟩ := A.items.global hm'
    have := Option.some.inj (hx'.symm.trans hx); subst this
    rw [hk] at hv
    simp only [operands, List.mem_singleton] at hv
    subst hv
    exact ⟨_, _, hc⟩
  · obtain ⟨t', k, ⟨x', hx', _, rfl⟩, -, -, -, h5⟩ := const_cases h
    have := Option.some.inj (hx'.symm.trans hx); subst this
    exact h5 v hv

/-! ### Blocks -/

theorem FromText.reachable {f : Func} {fd : FData} {b : BB} (hf : p.funcs.get? f = some fd) (hb : b ∈ fd.layout.bbs.map (·.1)) :
    Avoids p f (fun _ => False) b := by
  rcases A.fun hf with ⟨_, _, _, h⟩ | ⟨_, params, _, bbs, order, r, gv, gf, hgv, hF⟩
  · rw [h.noBlocks.1] at hb; cases hb
  · obtain ⟨e, hB⟩ := hF.isOrder
    have hnd := hB.namesNodup
    have same : ∀ {j j' : Nat} {b b' : BlockAst}, order[j]? = some b → order[j']? = some b' → b.name = b'.name → j = j' := by
      intro j j' b b' h h' he
      have x : (order.map (·.name))[j]? = some b.name := by rw [List.getElem?_map, h]; rfl
      have y : (order.map (·.name))[j']? = some b.name := by rw [List.getElem?_map, h', he]; rfl
      exact (List.getElem?_inj (List.getElem?_eq_some_iff.1 x).1 hnd).1 (x.trans y.symm)
    have key : ∀ c, Flows bbs e.name c → ∀ (j : Nat) (blk : BlockAst) (h : BB) (is : List Value), order[j]? = some blk → blk.name = c →
        fd.layout.bbs[j]? = some (h, is) → Avoids p f (fun _ => False) h := by
      intro c hc
      induction hc with
      | refl =>
        intro j blk h is h1 h2 h3
        have h0 : order[0]? = some e := by rw [← List.head?_eq_getElem?]; exact hB.head
        have := same h1 h0 h2
        subst this
        exact .entry (e := (h, is)) hf (by rw [List.head?_eq_getElem?]; exact h3) (fun h => h)
      | @step c b0 hfl hb0 hsu ih =>
        intro j blk h is h1 h2 h3
        have hin : b0 ∈ order := (hB.exact b0).2 ⟨hb0, hfl⟩
        obtain ⟨j0, hj0⟩ := List.getElem?_of_mem hin
        obtain ⟨⟨h0, is0⟩, hl0⟩ : ∃ q, fd.layout.bbs[j0]? = some q :=
          ⟨_, List.getElem?_eq_getElem (by rw [hF.blocks.length]; exact (List.getElem?_eq_some_iff.1 hj0).1)⟩
        have hav := ih j0 b0 h0 is0 hj0 rfl hl0
        obtain ⟨-, hS⟩ := hF.blocks.get _ _ _ hl0 hj0
        have edge : ∀ last, b0.stmts.getLast? = some last → (∀ E t k, StmtIs E last t k → E.bb = (envOf p gv gf f params fd.params fd.layout.bbs order r b0.name 0).bb →
            h ∈ targets k) → Avoids p f (fun _ => False) h := by
          intro last hla hE
          obtain ⟨i, hi⟩ := List.getElem?_of_mem (List.mem_of_getLast? hla)
          obtain ⟨u, hu⟩ : ∃ u, is0[i]? = some u :=
            ⟨_, List.getElem?_eq_getElem (by rw [hS.length]; exact (List.getElem?_eq_some_iff.1 hi).1)⟩
          obtain ⟨x, hx, -, hs⟩ := hS.get _ _ _ hu hi
          exact .step hav ⟨fd, is0, u, x, hf, List.mem_of_getElem? hl0, List.mem_of_getElem? hu, hx, hE _ _ _ hs rfl⟩ (fun h => h)
        have lab : ∀ {tb : BB}, (envOf p gv gf f params fd.params fd.layout.bbs order r b0.name 0).bb c tb → tb = h := by
          rintro tb ⟨j', blk', is', h4, h5, h6⟩
          have := same h4 h1 (h5.trans h2.symm)
          subst this
          rw [h3] at h6; cases h6; rfl
        unfold successors at hsu
        split at hsu
        · rename_i c0 tn ta fn fa hla
          apply edge _ hla
          intro E t k hs hE
          cases hs with
          | branch _ b1 _ _ b2 _ _ =>
            rw [hE] at b1 b2
            simp only [List.mem_cons, List.not_mem_nil, or_false] at hsu
            rcases hsu with rfl | rfl
            · rw [lab b1]; simp [targets]
            · rw [lab b2]; simp [targets]
        · rename_i tn ta hla
          apply edge _ hla
          intro E t k hs hE
          cases hs with
          | jump b1 _ _ =>
            rw [hE] at b1
            simp only [List.mem_cons, List.not_mem_nil, or_false] at hsu
            subst hsu
            rw [lab b1]; simp [targets]
        · cases hsu
    obtain ⟨⟨b, is⟩, hm, rfl⟩ := List.mem_map.1 hb
    obtain ⟨j, hj⟩ := List.getElem?_of_mem hm
    obtain ⟨blk, hblk⟩ : ∃ x, order[j]? = some x :=
      ⟨_, List.getElem?_eq_getElem (by rw [← hF.blocks.length]; exact (List.getElem?_eq_some_iff.1 hj).1)⟩
    exact key _ ((hB.exact blk).1 (List.mem_of_getElem? hblk)).2 j blk b is hblk rfl hj

/-! ### Conversion -/

theorem FromText.funcTy {f : Func} {fd : FData} (hf : p.funcs.get? f = some fd) : ∃ ts r, fd.ty = .func ts r ∧ (∀ t ∈ ts, t ≠ .unit) ∧
    (fd.layout.bbs = [] → fd.params = []) ∧ (fd.layout.bbs ≠ [] → fd.params.length = ts.length) ∧
    ∀ i v, fd.params[i]? = some v → ∃ x, LocalVal p f v x ∧ x.kind = .funcArgRef i ∧ ts[i]? = some x.ty := by
  have nu : ∀ {as : List TyAst} {ts : List Ty}, All2 TyIs as ts → ∀ t ∈ ts, t ≠ .unit := by
    intro as ts h
    induction h with
    | nil => simp
    | cons h _ ih =>
      intro t ht
      rcases List.mem_cons.1 ht with rfl | ht
      · exact TyIs_not_unit h
      · exact ih t ht
  rcases A.fun hf with ⟨_, _, _, h⟩ | ⟨_, params, _, bbs, order, r, gv, gf, hgv, hF⟩
  · obtain ⟨ts, r, h1, h2, -⟩ := h.hasTy
    refine ⟨ts, r, h1, nu h2, fun _ => h.hasParams, fun hc => (hc h.noBlocks.1).elim, ?_⟩
    rw [h.hasParams]; simp
  · obtain ⟨ts, h1, h2⟩ := hF.hasTy
    have hlen : params.length = ts.length := by have := h2.length; simpa using this
    refine ⟨ts, r, h1, nu h2, ?_, fun _ => hF.hasParams.1.trans hlen, ?_⟩
    · intro hc
      obtain ⟨e, hB⟩ := hF.isOrder
      have h3 := hF.blocks.length
      rw [hc] at h3
      have h4 := hB.head
      cases order with
      | nil => simp at h4
      | cons => simp at h3
    · intro i v hv
      have hl := (List.getElem?_eq_some_iff.1 hv).1
      obtain ⟨q, hq⟩ : ∃ q, params[i]? = some q := ⟨_, List.getElem?_eq_getElem (by rw [← hF.hasParams.1]; exact hl)⟩
      obtain ⟨x, hx, _, ht, hk⟩ := hF.hasParams.2 i _ _ hq hv
      refine ⟨x, hx, hk, ?_⟩
      have h3 : (params.map (·.2))[i]? = some q.2 := by rw [List.getElem?_map, hq]; rfl
      obtain ⟨t, h4⟩ : ∃ t, ts[i]? = some t := ⟨_, List.getElem?_eq_getElem (by rw [← hlen, ← hF.hasParams.1]; exact hl)⟩
      rw [h4, TyIs_unique (h2.get _ _ _ h3 h4) ht]

theorem FromText.blockData {f : Func} {fd : FData} {b : BB} (hf : p.funcs.get? f = some fd) (hb : b ∈ fd.layout.bbs.map (·.1)) :
    ∃ x, fd.dfg.bbs.get? b = some x ∧ ∀ i v, x.params[i]? = some v → ∃ y, LocalVal p f v y ∧ y.kind = .blockArgRef i := by
  rcases A.fun hf with ⟨_, _, _, h⟩ | ⟨_, params, _, bbs, order, r, gv, gf, hgv, hF⟩
  · rw [h.noBlocks.1] at hb; cases hb
  · obtain ⟨⟨b, is⟩, hm, rfl⟩ := List.mem_map.1 hb
    obtain ⟨blk, _, ⟨z, hz, _, hp⟩, _⟩ := hF.blocks.memL _ hm
    obtain ⟨fd1, e1, e2⟩ := hz
    rw [hf] at e1; cases e1
    refine ⟨z, e2, fun i v hv => ?_⟩
    have hl := (List.getElem?_eq_some_iff.1 hv).1
    obtain ⟨x, hx, _, _, hk⟩ := hp.2 i _ _ (List.getElem?_eq_getElem (by rw [← hp.1]; exact hl)) hv
    exact ⟨x, hx, hk⟩

theorem FromText.instData {f : Func} {fd : FData} {b : BB} {is : List Value} {v : Value} (hf : p.funcs.get? f = some fd)
    (hm : (b, is) ∈ fd.layout.bbs) (hv : v ∈ is) : ∃ x, LocalVal p f v x := by
  rcases A.fun hf with ⟨_, _, _, h⟩ | ⟨_, params, _, bbs, order, r, gv, gf, hgv, hF⟩
  · rw [h.noBlocks.1] at hm; cases hm
  · obtain ⟨x, _, _, hx, _⟩ := FunIs_listed hF hm hv
    exact ⟨x, hx⟩

theorem FromText.listed {v : Value} (hv : v ∈ p.instLayout) : ∃ x i, GlobalVal p v x ∧ x.kind = .globalAlloc i := by
  have hm : v ∈ p.view.insts := hv
  rw [A.insts] at hm
  obtain ⟨⟨n, u'⟩, hm', rfl⟩ := List.mem_map.1 hm
  obtain ⟨_, _, _, x', i, y, t, hx', _, hk, hy, _, _, hc⟩ := A.items.global hm'
  exact ⟨x', i, hx', hk⟩

/-- An accepted program can be converted, if parameters of blocks are mentioned only where they are defined on
every way, and the names and lists fit. -/
theorem FromText.convertible (hd : Dominated p) (hn : NamesFit p) (hl : ListsFit p) : Convertible p := by
  have hi := A.inv
  have hlay := C42_program_layouts (hi.reach.mono (fun _ _ _ => trivial))
  have view_l : ∀ {f v x}, LocalVal p f v x → p.view.l f v = some (x.ty, x.name, x.kind) := fun h => view_l_iff.2 ⟨_, h, rfl⟩
  have view_g : ∀ {v x}, GlobalVal p v x → p.view.g v = some (x.ty, x.name, x.kind) := fun h => view_g_iff.2 ⟨_, h, rfl⟩
  have view_b : ∀ {f fd b x}, p.funcs.get? f = some fd → fd.dfg.bbs.get? b = some x → p.view.b f b = some (x.name, x.params) :=
    fun h h' => view_b_iff.2 ⟨_, ⟨_, h, h'⟩, rfl, rfl⟩
  have fdOf : ∀ {f v x}, LocalVal p f v x → ∃ fd, p.funcs.get? f = some fd := fun ⟨fd, h, _⟩ => ⟨fd, h⟩
  refine {
    typed := hi.wellTyped
    globalId := fun v x h => A.isGlobal h
    localId := fun f v x h => A.isLocal h
    localOwner := fun f f' v x x' h h' => hi.inv.lDisj f f' v x x' h h'
    blockOwner := ?_
    instsNodup := ?_
    insts := fun v h => A.listed h
    globalKind := ?_
    initConst := ?_
    funcs := fun f => (hlay.1 f).trans Option.isSome_iff_exists.symm
    funcsNodup := ?_
    funcTy := fun f fd h => A.funcTy h
    blocksNodup := ?_
    instsOnce := ?_
    blockData := fun f fd b h h' => A.blockData h h'
    paramsOnce := fun f fd b b' x x' v h h1 h2 _ _ h3 h4 => A.tidy.once f b b' _ _ _ _ v (view_b h h1) (view_b h h2) h3 h4
    instData := fun f fd b is v h h1 h2 => A.instData h h1 h2
    argRef := ?_
    blockRef := ?_
    dominated := hd
    reachable := fun f fd b h h' => A.reachable h h'
    noGlobalAlloc := fun f v x i _ hx hk => A.tidy.noAlloc f v x.ty x.name i (by rw [view_l hx, hk])
    globalOps := fun f u v x y _ _ _ hy => A.usedGlobal hy
    targets := ?_
    noFlow := ?_
    aggConst := ?_
    acyclic := ⟨id, ?_, ?_⟩
    users := ?_
    globalUsers := ?_
    blockUsers := ?_
    names := fun f v x hx _ => hn.locals f v x hx
    globalNames := fun v x hx _ => hn.globals v x hx
    blockNames := fun f fd b x hf _ hb => hn.blocks f b x ⟨fd, hf, hb⟩
    funcNames := hn.funcs
    fits := fun f v x hx _ => hl.locals f v x hx
    globalFits := fun v x hx _ => hl.globals v x hx
    layoutFits := hl.layout
    funcFits := hl.funcs
    blockFits := fun f fd b x hf _ hb => hl.blocks f b x ⟨fd, hf, hb⟩ }
  · intro f f' b x x' h h'
    exact A.tidy.own f f' b (x.name, x.params) (x'.name, x'.params) (view_b_iff.2 ⟨_, h, rfl, rfl⟩) (view_b_iff.2 ⟨_, h', rfl, rfl⟩)
  · exact hlay.2.2.2.2.imp (fun h => Nat.ne_of_lt h)
  · intro v x hu hx
    rcases A.globalGood hu with h | ⟨a, t, h⟩
    · obtain ⟨x', i, hx', hk⟩ := A.listed h
      have := Option.some.inj (hx'.symm.trans hx); subst this
      exact .inr (.inr (.inr (.inr ⟨i, hk⟩)))
    · obtain ⟨t', k, ⟨x', hx', _, rfl⟩, -, -, h4, -⟩ := const_cases h
      have := Option.some.inj (hx'.symm.trans hx); subst this
      rcases h4 with h4 | h4 | h4 | h4
      · exact .inl h4
      · exact .inr (.inl h4)
      · exact .inr (.inr (.inl h4))
      · exact .inr (.inr (.inr (.inl h4)))
  · intro u v x y hu hx hv hy
    obtain ⟨a, t, h⟩ := A.globalOperand hu hx hv
    obtain ⟨t', k, ⟨x', hx', _, rfl⟩, h2, -⟩ := const_cases h
    have := Option.some.inj (hx'.symm.trans hy); subst this
    exact h2
  · exact hlay.2.1.imp (fun h => Nat.ne_of_lt h)
  · intro f fd hf
    exact A.tidy.keys f fd.layout (by show (p.funcs.get? f).map _ = _; rw [hf]; rfl)
  · intro f fd hf
    rcases A.fun hf with ⟨_, _, _, h⟩ | ⟨_, params, _, bbs, order, r, gv, gf, hgv, hF⟩
    · rw [h.noBlocks.1]; exact List.nodup_nil
    · exact hF.ascending.imp (fun h => Nat.ne_of_lt h)
  · intro f fd v x i hf _ hx hk
    obtain ⟨ft, fn, ps, h2, h3⟩ := A.tidy.arg f v x.ty x.name i (by rw [view_l hx, hk])
    obtain ⟨fd', hf', e⟩ := Option.map_eq_some_iff.1 (show (p.funcs.get? f).map _ = some (ft, fn, ps) from h2)
    simp only [Prod.mk.injEq] at e
    rw [hf] at hf'; cases hf'
    rw [e.2.2]; exact h3
  · intro f fd v x i hf _ hx hk
    obtain ⟨b, bn, ps, h2, h3⟩ := A.tidy.blk f v x.ty x.name i (by rw [view_l hx, hk])
    obtain ⟨y, hy, -, rfl⟩ := view_b_iff.1 h2
    have := A.blockListed hf hy
    obtain ⟨fd', hf', hy⟩ := hy
    rw [hf] at hf'; cases hf'
    exact ⟨b, y, this, hy, h3⟩
  · intro f fd u x b hf _ hx hb
    obtain ⟨y, hy⟩ := hi.inv.closedB f u b ⟨x, hx, hb⟩
    exact A.blockListed hf hy
  · intro f u v x y hu hx hv hy
    obtain ⟨fd, hf⟩ := fdOf hx
    obtain ⟨h1, _, _, _, _, _, _, _, _, hgv, hF⟩ := A.usedGood hu f fd rfl hf
    exact (A.operandGood hF hgv h1 hx hv hy).2
  · intro f u v x es y hu hx hk hv hy
    obtain ⟨fd, hf⟩ := fdOf hx
    obtain ⟨h1, _, _, _, _, _, _, _, _, hgv, hF⟩ := A.usedGood hu f fd rfl hf
    rcases h1 with ⟨x', i, hx', hk'⟩ | ⟨b, is, hm, hu'⟩ | ⟨a, t, hc⟩
    · cases localVal_unique hx hx'
      rw [hk] at hk'; rcases hk' with h | h <;> cases h
    · obtain ⟨x', nm, st, hx', hs⟩ := FunIs_listed hF hm hu'
      cases localVal_unique hx hx'
      exact ((StmtIs_opnd hs).2 es hk).elim
    · obtain ⟨t', k, ⟨x', hx', _, rfl⟩, -, -, -, h5⟩ := const_cases hc
      cases localVal_unique hx hx'
      rw [hk] at h5
      obtain ⟨a, t, hc⟩ := h5 v hv
      obtain ⟨t', k, ⟨y', hy', _, rfl⟩, h6, -⟩ := const_cases hc
      have : y' = y := by
        rcases hy with hy | hy
        · exact (A.apart hy' hy).elim
        · exact localVal_unique hy' hy
      rw [← this]; exact h6
  · intro f u v x hx _ hv
    rcases A.tidy.lop f u x.ty x.name x.kind (view_l hx) v hv with h | h
    · exact h
    · obtain ⟨s, hs⟩ := Option.isSome_iff_exists.1 h
      obtain ⟨y, hy, _⟩ := view_g_iff.1 hs
      have h1 := (hi.inv.lRange f u x hx).1
      have h2 := (hi.inv.gRange v y hy).2
      have h3 := hi.max
      show v < u
      omega
  · intro u v x hx _ hv
    exact A.tidy.gop u x.ty x.name x.kind (view_g hx) v hv
  · intro f v x u hx _ hu
    obtain ⟨y, hy, _⟩ := (hi.inv.localUses f v x hx u).1 hu
    exact A.usedLocal hy
  · intro v x u hx _ hu
    rcases (hi.inv.globalUses v x hx u).1 hu with ⟨y, hy, _⟩ | ⟨f, y, hy, _⟩ | h
    · exact .inl (A.usedGlobal hy)
    · exact .inr ⟨f, A.usedLocal hy⟩
    · exact h.elim
  · intro f fd b x u hf _ hx hu
    obtain ⟨y, hy, _⟩ := (hi.inv.blockUses f b x ⟨fd, hf, hx⟩ u).1 hu
    exact A.usedLocal hy

end

end Koopa
