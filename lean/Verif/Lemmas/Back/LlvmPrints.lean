import Verif.Lemmas.Back.Readable
import Verif.Props.Elab
import Verif.Lemmas.Back.TreeText
import Verif.Model.Back.Llvm
/-!
The LLVM generator finds everything it asks for in an accepted program.
-/
namespace Koopa
open Spec

theorem allSome_some {α β : Type} {f : α → Option β} : ∀ {as : List α}, (∀ a ∈ as, ∃ b, f a = some b) → ∃ bs, allSome f as = some bs
  | [], _ => ⟨[], rfl⟩
  | a :: as, h => by
    obtain ⟨b, hb⟩ := h a List.mem_cons_self
    obtain ⟨bs, hbs⟩ := allSome_some (f := f) (as := as) (fun a ha => h a (List.mem_cons_of_mem _ ha))
    exact ⟨b :: bs, by rw [allSome, hb]; simp only [hbs, Option.map_some]⟩

theorem allSome_none {α β : Type} {f : α → Option β} : ∀ {as : List α}, allSome f as = none → ∃ a ∈ as, f a = none
  | [], h => by cases h
  | a :: as, h => by
    rw [allSome] at h
    split at h
    · rename_i ha; exact ⟨a, List.mem_cons_self, ha⟩
    · obtain ⟨x, h1, h2⟩ := allSome_none (Option.map_eq_none_iff.1 h)
      exact ⟨x, List.mem_cons_of_mem _ h1, h2⟩

/-! ### Constants -/

theorem constLit_llvm {w : Bool} {t : Ty} {k : VKind} {ps : List Piece} (h : constLit k = some ps) : ∃ qs, BackLlvm.constLit w t k = some qs := by
  cases k <;> first | exact ⟨_, rfl⟩ | cases h

/-- A constant that can be written in the text form can be written in LLVM. -/
theorem constant_llvm {get : Value → Option VData} {w : Bool} : ∀ {n : Nat} {t : Ty} {k : VKind} {ps : List Piece}, constPieces get n k = some ps →
    ∃ qs, BackLlvm.constant get w n t k = some qs
  | 0, t, k, ps, h => constLit_llvm (by rw [constPieces] at h; exact h)
  | n + 1, t, k, ps, h => by
    by_cases hk : ∃ es, k = .aggregate es
    · obtain ⟨es, rfl⟩ := hk
      rw [constPieces] at h
      split at h
      · cases h
      · rename_i qs hq
        rw [BackLlvm.constant]
        split
        · rename_i hno
          obtain ⟨e, he, hn⟩ := allSome_none hno
          obtain ⟨q, -, hq'⟩ := (allSome_all2 hq).memL e he
          revert hq' hn
          cases get e with
          | none => intro _ hq'; cases hq'
          | some x =>
            intro hn hq'
            obtain ⟨qs, hqs⟩ := constant_llvm (w := w) (t := x.ty) hq'
            exact absurd (hqs.symm.trans hn) (by simp)
        · exact ⟨_, rfl⟩
    · have h' : constLit k = some ps := by
        rw [constPieces] at h
        · exact h
        · intro es he; exact hk ⟨es, he⟩
      rw [BackLlvm.constant]
      · exact constLit_llvm h'
      · intro es he; exact hk ⟨es, he⟩

theorem const_llvm {mp : Map Value VData} {v : Value} (h : Constant mp.get? v) (w : Bool) :
    ∃ x, mp.get? v = some x ∧ x.kind.isConst = true ∧ ∃ ps, BackLlvm.constant mp.get? w (mp.entries.length + 1) x.ty x.kind = some ps := by
  have hfu := h.fuel
  have hc : ∃ x, mp.get? v = some x ∧ x.kind.isConst = true := by
    cases h with
    | int h hk => exact ⟨_, h, by rw [hk]; rfl⟩
    | undef h hk => exact ⟨_, h, by rw [hk]; rfl⟩
    | zero h hk => exact ⟨_, h, by rw [hk]; rfl⟩
    | agg h hk _ => exact ⟨_, h, by rw [hk]; rfl⟩
  obtain ⟨x, h1, h2⟩ := hc
  rw [elemPieces, h1] at hfu
  obtain ⟨ps, hps⟩ := Option.isSome_iff_exists.1 hfu
  exact ⟨x, h1, h2, constant_llvm hps⟩

/-! ### Instructions -/

theorem namePiece_some {v : Value} {d : VData} (h : d.kind.isConst = false) : ∃ n, namePiece v d = some n := by
  unfold namePiece
  rw [h]
  simp only [Bool.false_eq_true, if_false]
  split <;> exact ⟨_, rfl⟩

/-- The value can be written as an operand. -/
def Sayable (p : Program) (fd : FData) (v : Value) : Prop := ∀ w, ∃ ps, BackLlvm.value p fd w v = some ps

theorem says_global {p : Program} {fd : FData} {v : Value} {x : VData} (h1 : isGlobal v = true) (h2 : p.values.get? v = some x) (h3 : x.kind.isConst = false) :
    Sayable p fd v := by
  intro w
  obtain ⟨n, hn⟩ := namePiece_some (v := v) h3
  unfold BackLlvm.value
  simp only [h1, if_true, h2, hn]
  exact ⟨_, rfl⟩

theorem says_local {p : Program} {fd : FData} {v : Value} {x : VData} (h1 : isGlobal v = false) (h2 : fd.dfg.values.get? v = some x) (h3 : x.kind.isConst = false) :
    Sayable p fd v := by
  intro w
  obtain ⟨n, hn⟩ := namePiece_some (v := v) h3
  unfold BackLlvm.value
  simp only [h1, h2, h3, hn]
  exact ⟨_, rfl⟩

theorem says_const {p : Program} {fd : FData} {v : Value} (h1 : isGlobal v = false) (h2 : Constant fd.dfg.values.get? v) : Sayable p fd v := by
  intro w
  obtain ⟨x, h3, h4, ps, h5⟩ := const_llvm h2 w
  unfold BackLlvm.value
  simp only [h1, h3, h4]
  exact ⟨ps, h5⟩

theorem valueTy_some {p : Program} {f : Func} {fd : FData} (hf : p.funcs.get? f = some fd) (hg : ∀ v x, GlobalVal p v x → isGlobal v = true)
    (hl : ∀ v x, LocalVal p f v x → isGlobal v = false) {v : Value} {t : Ty} (h : HasTy p f v t) : BackLlvm.valueTy p fd v = some t := by
  obtain ⟨x, h | h, rfl⟩ := h
  · unfold BackLlvm.valueTy
    rw [if_pos (hg v x h), show p.values.get? v = some x from h]; rfl
  · unfold BackLlvm.valueTy
    rw [if_neg (by simp [hl v x h])]
    obtain ⟨fd', h1, h2⟩ := h
    rw [hf] at h1; cases h1
    rw [h2]; rfl

theorem bbRef_some {p : Program} {f : Func} {fd : FData} (hf : p.funcs.get? f = some fd) {b : BB} {x : BData} (h : Block p f b x) : ∃ c, BackLlvm.bbRef fd b = some c := by
  obtain ⟨fd', h1, h2⟩ := h
  rw [hf] at h1; cases h1
  exact ⟨_, by unfold BackLlvm.bbRef; rw [h2]; rfl⟩

/-- The kinds of values that are instructions. -/
def listedKind : VKind → Bool
  | .alloc | .load _ | .store _ _ | .getPtr _ _ | .getElemPtr _ _ | .binary _ _ _ | .branch _ _ _ _ _ | .jump _ _ | .call _ _ | .ret _ => true
  | _ => false

theorem stmt_kind {E : Env} {st : StmtAst} {t : Ty} {k : VKind} (h : StmtIs E st t k) : listedKind k = true := by
  cases h with
  | «def» h _ => cases h <;> rfl
  | call h => cases h; rfl
  | _ => rfl

theorem listedKind_const {k : VKind} (h : listedKind k = true) : k.isConst = false := by
  cases k <;> first | rfl | cases h

/-- An instruction can be written if its operands can. -/
theorem content_some {p : Program} {f : Func} {fd : FData} (hf : p.funcs.get? f = some fd) (hg : ∀ v x, GlobalVal p v x → isGlobal v = true)
    (hl : ∀ v x, LocalVal p f v x → isGlobal v = false) {v : Value} {d : VData}
    (hT : InstTy (HasTy p f) (ParamTys p f) (FuncTy p) d.kind d.ty) (hk : listedKind d.kind = true)
    (ho : ∀ x ∈ operands d.kind, Sayable p fd x) : ∃ ps, BackLlvm.content p fd v d = some ps := by
  have hty : ∀ {v t}, HasTy p f v t → BackLlvm.valueTy p fd v = some t := fun h => valueTy_some hf hg hl h
  have hn := listedKind_const hk
  obtain ⟨n, hname⟩ := namePiece_some (v := v) hn
  have bb : ∀ {b ts}, ParamTys p f b ts → ∃ c, BackLlvm.bbRef fd b = some c := by
    rintro b ts ⟨x, hx, -⟩
    exact bbRef_some hf hx
  unfold BackLlvm.content
  revert hT hk ho
  generalize d.kind = k
  generalize d.ty = t
  intro hT hk ho
  cases hT with
  | alloc => exact ⟨_, rfl⟩
  | @load x t h =>
    obtain ⟨s, hs⟩ := ho x (by simp [operands]) true
    simp only [hs]; exact ⟨_, rfl⟩
  | @store x y =>
    obtain ⟨s, hs⟩ := ho x (by simp [operands]) true
    obtain ⟨s', hs'⟩ := ho y (by simp [operands]) true
    simp only [hs, hs']; exact ⟨_, rfl⟩
  | @getPtr x y _ h =>
    obtain ⟨s, hs⟩ := ho x (by simp [operands]) true
    obtain ⟨s', hs'⟩ := ho y (by simp [operands]) true
    simp only [hs, hs', hty h]; exact ⟨_, rfl⟩
  | @getElemPtr x y _ _ h =>
    obtain ⟨s, hs⟩ := ho x (by simp [operands]) true
    obtain ⟨s', hs'⟩ := ho y (by simp [operands]) true
    simp only [hs, hs', hty h]; exact ⟨_, rfl⟩
  | @binary op x y =>
    obtain ⟨s, hs⟩ := ho x (by simp [operands]) false
    obtain ⟨s', hs'⟩ := ho y (by simp [operands]) false
    simp only [hname, hs, hs']; exact ⟨_, rfl⟩
  | @branch c _ _ _ _ _ _ _ h1 h2 =>
    obtain ⟨s, hs⟩ := ho c (by simp [operands]) false
    obtain ⟨b, hb⟩ := bb h1
    obtain ⟨c, hc⟩ := bb h2
    simp only [hs, hb, hc]; exact ⟨_, rfl⟩
  | jump h1 =>
    obtain ⟨b, hb⟩ := bb h1
    simp only [hb]; exact ⟨_, rfl⟩
  | @call g as ts r h =>
    obtain ⟨gd, hg1, -⟩ := h
    obtain ⟨xs, hxs⟩ : ∃ xs, allSome (BackLlvm.value p fd true) as = some xs := allSome_some (fun a ha => ho a (by simpa [operands] using ha) true)
    simp only [hg1, hxs]; exact ⟨_, rfl⟩
  | retNone => exact ⟨_, rfl⟩
  | @ret x =>
    obtain ⟨s, hs⟩ := ho x (by simp [operands]) true
    simp only [hs]; exact ⟨_, rfl⟩
  | _ => cases hk

section
variable {p : Program} {gs : List GlobalAst} {vars : List (Str × Value)} {fns : List (Str × Func)} (A : FromText p gs vars fns)
  (hgood : ∀ n ps r bs, GlobalAst.funDef n ps r bs ∈ gs → ∀ b ∈ bs, GoodBlock b)
include A

/-- A function from the text. -/
theorem FromText.at {f : Func} {fd : FData} (hf : p.funcs.get? f = some fd) :
    (∃ n params ret, DeclIs p f fd n params ret) ∨
    ∃ n params ret bbs order r gv gf, (∀ s v, gv s v → (s, v) ∈ vars) ∧ GlobalAst.funDef n params ret bbs ∈ gs ∧
      FunIs p gv gf f fd n params ret bbs order r := by
  have h1 : f ∈ p.view.fns := by
    rw [A.inv.fns]
    show ((p.funcs.get? f).map _).isSome
    rw [hf]; rfl
  rw [A.fns] at h1
  obtain ⟨i, hi⟩ := List.getElem?_of_mem h1
  rw [List.getElem?_map] at hi
  obtain ⟨⟨n, f'⟩, hfi, rfl⟩ := Option.map_eq_some_iff.1 hi
  obtain ⟨fd', hf', h⟩ := A.items.at i n f' hfi
  rw [hf] at hf'; cases hf'
  rcases h with ⟨ps, r, hD⟩ | ⟨ps, ret, bbs, order, r, gv, h1, h2, hF⟩
  · exact .inl ⟨n, ps, r, hD⟩
  · exact .inr ⟨n, ps, ret, bbs, order, r, gv, _, h1, h2, hF⟩

/-- A visible value can be written. -/
theorem FromText.visible_says {f : Func} {fd : FData} (hf : p.funcs.get? f = some fd) {j i : Nat} {v : Value} (h : Visible p f fd j i v) : Sayable p fd v := by
  have loc : ∀ {x}, LocalVal p f v x → x.kind.isConst = false → Sayable p fd v := fun hx hk => says_local (A.isLocal hx) (local_get hf hx) hk
  cases h with
  | global h =>
    obtain ⟨x, k, h1, h2⟩ := A.listed h
    exact says_global (A.isGlobal h1) h1 (by rw [h2]; rfl)
  | arg h =>
    obtain ⟨k, hk⟩ := List.getElem?_of_mem h
    obtain ⟨_, _, _, _, _, _, h1⟩ := A.funcTy hf
    obtain ⟨x, h2, h3, -⟩ := h1 k v hk
    exact loc h2 (by rw [h3]; rfl)
  | param _ h2 h3 h4 _ =>
    obtain ⟨k, hk⟩ := List.getElem?_of_mem h4
    obtain ⟨x, h5, h6⟩ := A.blockData hf (List.mem_map.2 ⟨_, List.mem_of_getElem? h2, rfl⟩)
    rw [h3] at h5; cases h5
    obtain ⟨y, h7, h8⟩ := h6 k v hk
    exact loc h7 (by rw [h8]; rfl)
  | inst _ h2 h3 h4 _ _ _ =>
    rcases A.fun hf with ⟨_, _, _, h⟩ | ⟨_, params, _, bbs, order, r, gv, gf, hgv, hF⟩
    · rw [h.noBlocks.1] at h2; cases h2
    · obtain ⟨x, _, _, hx, hs⟩ := FunIs_listed hF (List.mem_of_getElem? h2) (List.mem_of_getElem? h3)
      exact loc hx (listedKind_const (stmt_kind hs))

include hgood

/-- What is known of a listed instruction. -/
theorem FromText.listed_inst {f : Func} {fd : FData} (hf : p.funcs.get? f = some fd) {b : BB} {is : List Value} {v : Value} (hm : (b, is) ∈ fd.layout.bbs)
    (hv : v ∈ is) : ∃ d, fd.dfg.values.get? v = some d ∧ listedKind d.kind = true ∧ ∀ x ∈ operands d.kind, Sayable p fd x := by
  rcases A.at hf with ⟨_, _, _, h⟩ | ⟨n, params, ret, bbs, order, r, gv, gf, hgv, hin, hF⟩
  · rw [h.noBlocks.1] at hm; cases hm
  · obtain ⟨j, hj⟩ := List.getElem?_of_mem hm
    obtain ⟨i, hi⟩ := List.getElem?_of_mem hv
    obtain ⟨blk, hblk, -, hS⟩ := lay_at hF hj
    obtain ⟨st, hst⟩ : ∃ st, blk.stmts[i]? = some st :=
      ⟨_, List.getElem?_eq_getElem (by rw [← hS.length]; exact (List.getElem?_eq_some_iff.1 hi).1)⟩
    obtain ⟨x, hx, -, hs⟩ := hS.get _ _ _ hi hst
    refine ⟨x, local_get hf hx, stmt_kind hs, fun y hy => ?_⟩
    rcases (StmtIs_opnd hs).1 y hy with ⟨s, h⟩ | ⟨a, t, h⟩
    · exact A.visible_says hf (sym_visible A hf hF (hgood _ _ _ _ hin) hgv hblk hj hi h)
    · obtain ⟨t', k, ⟨z, hz, -⟩, -⟩ := const_cases h
      refine says_const (A.isLocal hz) (const_constant (fun v t k h => ?_) h)
      obtain ⟨w, hw, -, hk⟩ := h
      exact ⟨w, local_get hf hw, hk⟩

/-- Every listed instruction can be written. -/
theorem FromText.inst_some {f : Func} {fd : FData} (hf : p.funcs.get? f = some fd) {b : BB} {is : List Value} {v : Value} (hm : (b, is) ∈ fd.layout.bbs)
    (hv : v ∈ is) : ∃ ps, BackLlvm.inst p fd v = some ps := by
  obtain ⟨d, h1, h2, h3⟩ := A.listed_inst hgood hf hm hv
  obtain ⟨ps, hps⟩ := content_some (v := v) hf (fun v x h => A.isGlobal h) (fun v x h => A.isLocal h) (A.inv.wellTyped.locals f v d ⟨fd, hf, h1⟩) h2 h3
  obtain ⟨n, hn⟩ := namePiece_some (v := v) (listedKind_const h2)
  unfold BackLlvm.inst
  simp only [h1, hps, hn, Option.map_some]
  split
  · exact ⟨_, rfl⟩
  · rename_i hno
    exfalso
    split at hno
    · exact hno _ _ rfl rfl
    · exact hno _ _ rfl rfl

/-- Every way into a block can be written. -/
theorem FromText.incoming_some {f : Func} {fd : FData} (hf : p.funcs.get? f = some fd) (hw : WellFormed p) {b : BB} {bd : BData} (hb : fd.dfg.bbs.get? b = some bd)
    {u : Value} (hu : u ∈ bd.usedBy) {i : Nat} (hi : i < bd.params.length) : ∃ ps, BackLlvm.incoming p fd b i u = some ps := by
  obtain ⟨d, hd, ht⟩ := (hw.blockUses f b bd ⟨fd, hf, hb⟩ u).1 hu
  have hd' := local_get hf hd
  obtain ⟨c, is, hm, hv⟩ : ∃ c is, (c, is) ∈ fd.layout.bbs ∧ u ∈ is := by
    rcases (A.usedGood (A.usedLocal hd) f fd rfl hf).1 with ⟨y, k, hy, hk⟩ | h | ⟨a, t, h⟩
    · cases localVal_unique hy hd
      rcases hk with hk | hk <;> rw [hk] at ht <;> cases ht
    · exact h
    · rw [(A.constGood h hd).1] at ht; cases ht
  have hp := ((hw.parents f fd hf).parent u c).2 ⟨is, hm, hv⟩
  obtain ⟨bd', hbd'⟩ := (hw.live f fd c is hf hm).1
  obtain ⟨cc, hcc⟩ := bbRef_some hf hbd'
  have hT := A.inv.wellTyped.locals f u d hd
  obtain ⟨d', e1, -, ho⟩ := A.listed_inst hgood hf hm hv
  rw [hd'] at e1; cases e1
  have key : ∀ {as : List Value} {ts : List Ty}, ParamTys p f b ts → All2 (HasTy p f) as ts → ∃ a, as[i]? = some a ∧ a ∈ as := by
    rintro as ts ⟨x, ⟨fd', e1, e2⟩, e3⟩ e4
    rw [hf] at e1; cases e1
    rw [hb] at e2; cases e2
    have hl : i < as.length := by rw [e4.length, ← e3.length]; exact hi
    exact ⟨_, List.getElem?_eq_getElem hl, List.getElem_mem hl⟩
  obtain ⟨a, ha, hao⟩ : ∃ a, BackLlvm.phiArg b i d.kind = some a ∧ a ∈ operands d.kind := by
    revert hT ht
    generalize d.kind = k
    generalize d.ty = t
    intro ht hT
    cases hT with
    | branch t1 t2 t3 t4 t5 =>
      simp only [BackLlvm.phiArg, operands]
      split
      · rename_i e; subst e
        obtain ⟨a, a1, a2⟩ := key t2 t4
        exact ⟨a, a1, by simp [a2]⟩
      · rename_i e
        simp only [targets, List.mem_cons, List.not_mem_nil, or_false] at ht
        rcases ht with rfl | rfl
        · exact absurd rfl e
        · obtain ⟨a, a1, a2⟩ := key t3 t5
          exact ⟨a, a1, by simp [a2]⟩
    | jump t1 t2 =>
      simp only [targets, List.mem_cons, List.not_mem_nil, or_false] at ht
      subst ht
      obtain ⟨a, a1, a2⟩ := key t1 t2
      exact ⟨a, a1, by simpa [operands] using a2⟩
    | _ => cases ht
  obtain ⟨ps, hps⟩ := ho a hao false
  unfold BackLlvm.incoming
  simp only [hd', ha, hps, hp, hcc, Option.map_some]
  exact ⟨_, rfl⟩

theorem FromText.phis_some {f : Func} {fd : FData} (hf : p.funcs.get? f = some fd) (hw : WellFormed p) {b : BB} {bd : BData} (hb : fd.dfg.bbs.get? b = some bd)
    {us : List Value} (hus : us.Perm bd.usedBy) (hps : ∀ v ∈ bd.params, ∃ y, fd.dfg.values.get? v = some y ∧ y.kind.isConst = false) :
    ∀ (k : Nat) (vs : List Value), (∀ i v, vs[i]? = some v → bd.params[k + i]? = some v) → ∃ ps, BackLlvm.phis p fd b us k vs = some ps
  | _, [], _ => ⟨[], rfl⟩
  | k, v :: vs, h => by
    have hk := h 0 v rfl
    obtain ⟨y, h1, h2⟩ := hps v (List.mem_of_getElem? hk)
    obtain ⟨n, hn⟩ := namePiece_some (v := v) h2
    obtain ⟨is, his⟩ : ∃ is, allSome (BackLlvm.incoming p fd b k) us = some is :=
      allSome_some (fun u hu => A.incoming_some hgood hf hw hb (hus.mem_iff.1 hu) (List.getElem?_eq_some_iff.1 hk).1)
    obtain ⟨ps, hps'⟩ := FromText.phis_some hf hw hb hus hps (k + 1) vs (fun i v hv => by rw [Nat.add_assoc, Nat.add_comm 1 i]; exact h (i + 1) v hv)
    rw [BackLlvm.phis]
    unfold BackLlvm.phi
    simp only [h1, hn, his, hps']
    exact ⟨_, rfl⟩

theorem FromText.bb_some (o : UserOrder) {f : Func} {fd : FData} (hf : p.funcs.get? f = some fd) (hw : WellFormed p) {b : BB} {is : List Value}
    (hm : (b, is) ∈ fd.layout.bbs) : ∃ ps, BackLlvm.bb o p fd b is = some ps := by
  obtain ⟨bd, h1, h2⟩ := A.blockData hf (List.mem_map.2 ⟨_, hm, rfl⟩)
  obtain ⟨ps, hps⟩ := A.phis_some hgood hf hw h1 (o.perm b bd.usedBy) (fun v hv => by
    obtain ⟨k, hk⟩ := List.getElem?_of_mem hv
    obtain ⟨y, h3, h4⟩ := h2 k v hk
    exact ⟨y, local_get hf h3, by rw [h4]; rfl⟩) 0 bd.params (fun i v h => by rw [Nat.zero_add]; exact h)
  obtain ⟨qs, hqs⟩ : ∃ qs, allSome (BackLlvm.inst p fd) is = some qs := allSome_some (fun v hv => A.inst_some hgood hf hm hv)
  unfold BackLlvm.bb
  simp only [h1, hps, hqs]
  exact ⟨_, rfl⟩

theorem FromText.blocks_some (o : UserOrder) {f : Func} {fd : FData} (hf : p.funcs.get? f = some fd) (hw : WellFormed p) :
    ∀ (qs : List (BB × List Value)), (∀ q ∈ qs, q ∈ fd.layout.bbs) → ∃ ps, BackLlvm.blocks o p fd qs = some ps
  | [], _ => ⟨[], rfl⟩
  | [(b, is)], h => A.bb_some hgood o hf hw (h _ List.mem_cons_self)
  | (b, is) :: q :: qs, h => by
    obtain ⟨x, hx⟩ := A.bb_some hgood o hf hw (h _ List.mem_cons_self)
    obtain ⟨y, hy⟩ := FromText.blocks_some o hf hw (q :: qs) (fun q hq => h q (List.mem_cons_of_mem _ hq))
    rw [BackLlvm.blocks]
    · simp only [hx, hy]; exact ⟨_, rfl⟩
    · simp

theorem FromText.func_some (o : UserOrder) {f : Func} {fd : FData} (hf : p.funcs.get? f = some fd) (hw : WellFormed p) : ∃ ps, BackLlvm.func o p f = some ps := by
  obtain ⟨ts, r, h1, -, -, -, h2⟩ := A.funcTy hf
  obtain ⟨ps, hps⟩ : ∃ ps, allSome (BackLlvm.param fd) fd.params = some ps := by
    refine allSome_some (fun v hv => ?_)
    obtain ⟨k, hk⟩ := List.getElem?_of_mem hv
    obtain ⟨x, h3, h4, -⟩ := h2 k v hk
    obtain ⟨n, hn⟩ := namePiece_some (v := v) (d := x) (by rw [h4]; rfl)
    unfold BackLlvm.param
    simp only [local_get hf h3, hn]
    exact ⟨_, rfl⟩
  obtain ⟨bs, hbs⟩ := A.blocks_some hgood o hf hw fd.layout.bbs (fun _ h => h)
  unfold BackLlvm.func
  simp only [hf, h1, hps, hbs]
  split <;> exact ⟨_, rfl⟩

omit hgood in
theorem FromText.global_some {v : Value} (hv : v ∈ p.instLayout) : ∃ ps, BackLlvm.globalInst p v = some ps := by
  rw [show p.instLayout = vars.map (·.2) from A.insts] at hv
  obtain ⟨⟨n, u'⟩, hm', rfl⟩ := List.mem_map.1 hv
  obtain ⟨_, _, _, x, i, y, t, hx, _, hk, hy, hxy, ht, hc⟩ := A.items.global hm'
  have hcc : Constant p.values.get? i := const_constant (fun v t k h => by
    obtain ⟨z, h1, -, h2⟩ := h
    exact ⟨z, h1, h2⟩) hc
  obtain ⟨z, h1, -, ps, h2⟩ := const_llvm hcc true
  unfold BackLlvm.globalInst
  simp only [show p.values.get? _ = some x from hx, hk, h1, h2]
  exact ⟨_, rfl⟩

end

end Koopa
