import Verif.Lemmas.Front.ParseRun
/-!
Soundness of the parsers without recovery: the tokens consumed denote the syntax tree returned.
-/
namespace Koopa
open Spec

theorem type_p {f : Bool} : ∀ n, ItemP f (P.type n) GTy n := by
  intro n
  induction n with
  | zero => intro s _ h; omega
  | succ n ih =>
    intro s hi hs
    unfold P.type
    refine Parses.bindCur ?_
    split
    · rename_i hk
      refine (next_p hi (by simp [hk])).bind ?_
      rintro _ _ s1 i1 - ⟨rfl, hlt⟩
      exact Parses.pure i1 ⟨.int hk, hlt⟩
    · rename_i hk
      refine (next_p hi (by simp [hk])).bind ?_
      rintro _ _ s1 i1 - ⟨rfl, hlt⟩
      refine (ih s1 i1 (by omega)).bind ?_
      rintro b ts s2 i2 - ⟨hG, hlt2⟩
      refine (expect_p i2 (by simp)).bind ?_
      rintro _ _ s3 i3 - ⟨t1, rfl, ht1, hlt3⟩
      refine (readInt_p i3).bind ?_
      rintro i _ s4 i4 - ⟨t2, rfl, ht2, hlt4⟩
      refine (expect_p i4 (by simp)).bind ?_
      rintro _ _ s5 i5 - ⟨t3, rfl, ht3, hlt5⟩
      refine Parses.pure i5 ⟨?_, by omega⟩
      simpa using GTy.array hk hG ht1 ht2 (asUsize_len i) ht3
    · rename_i hk
      refine (next_p hi (by simp [hk])).bind ?_
      rintro _ _ s1 i1 - ⟨rfl, hlt⟩
      refine (ih s1 i1 (by omega)).bind ?_
      rintro b ts s2 i2 - ⟨hG, hlt2⟩
      refine Parses.pure i2 ⟨?_, by omega⟩
      simpa using GTy.pointer hk hG
    · rename_i hk
      refine (list_p ih hi (by omega)).bind ?_
      rintro ps ts s1 i1 - ⟨hP, hlt⟩
      refine (retType_p ih i1 (by omega)).bind ?_
      rintro r tr s2 i2 hsz hR
      refine Parses.pure i2 ⟨?_, by omega⟩
      cases hR with
      | none => simpa using GTy.func hP
      | some ht hr => simpa using GTy.funcRet hP ht hr
    · exact Parses.fail hi

theorem value_p {f : Bool} {s : PS} (hi : PInv f s) :
    Parses f P.value s (fun a ts s' => (GVal a ts ∧ ts = [s.cur]) ∧ s'.size < s.size) := by
  unfold P.value
  refine Parses.bindCur ?_
  split
  all_goals rename_i hk
  · refine (next_p hi (by simp [hk])).bind ?_
    rintro _ _ s1 i1 - ⟨rfl, hlt⟩
    exact Parses.pure i1 ⟨⟨.sym hk, rfl⟩, hlt⟩
  · refine (next_p hi (by simp [hk])).bind ?_
    rintro _ _ s1 i1 - ⟨rfl, hlt⟩
    exact Parses.pure i1 ⟨⟨.int hk, rfl⟩, hlt⟩
  · refine (next_p hi (by simp [hk])).bind ?_
    rintro _ _ s1 i1 - ⟨rfl, hlt⟩
    exact Parses.pure i1 ⟨⟨.undef hk, rfl⟩, hlt⟩
  · exact Parses.fail hi

theorem valueItem {f : Bool} (n : Nat) : ItemP f P.value GVal n :=
  fun _ hi _ => (value_p hi).mono fun _ _ _ _ _ h => ⟨h.1.1, h.2⟩

theorem init_p {f : Bool} : ∀ n, ItemP f (P.init n) GInit n := by
  intro n
  induction n with
  | zero => intro s _ h; omega
  | succ n ih =>
    intro s hi hs
    unfold P.init
    refine Parses.bindCur ?_
    split
    all_goals rename_i hk
    · refine (next_p hi (by simp [hk])).bind ?_
      rintro _ _ s1 i1 - ⟨rfl, hlt⟩
      exact Parses.pure i1 ⟨.int hk, hlt⟩
    · refine (next_p hi (by simp [hk])).bind ?_
      rintro _ _ s1 i1 - ⟨rfl, hlt⟩
      exact Parses.pure i1 ⟨.undef hk, hlt⟩
    · refine (next_p hi (by simp [hk])).bind ?_
      rintro _ _ s1 i1 - ⟨rfl, hlt⟩
      exact Parses.pure i1 ⟨.zero hk, hlt⟩
    · refine (expect_p hi (by simp)).bind ?_
      rintro _ _ s1 i1 - ⟨t, rfl, ht, hlt⟩
      refine (listLoop_p ih n (Nat.le_refl _) s1 i1 (by omega)).bind ?_
      rintro es ts s2 i2 - ⟨hS, hlt2⟩
      refine (expect_p i2 (by simp)).bind ?_
      rintro _ _ s3 i3 - ⟨t', rfl, ht', hlt3⟩
      refine Parses.pure i3 ⟨?_, by omega⟩
      simpa using GInit.agg ht hS ht'
    · exact Parses.fail hi

theorem funCall_p {f : Bool} {n : Nat} {s : PS} (hi : PInv f s) (hk : s.cur.kind = .kw .call)
    (hs : s.size ≤ n) :
    Parses f (P.funCall n) s (fun a ts s' => GCall a ts ∧ s'.size < s.size) := by
  unfold P.funCall
  refine (next_p hi (by simp [hk])).bind ?_
  rintro _ _ s1 i1 - ⟨rfl, hlt⟩
  refine (readSym_p i1).bind ?_
  rintro g _ s2 i2 - ⟨t1, rfl, ht1, hlt2⟩
  refine (list_p (valueItem n) i2 (by omega)).bind ?_
  rintro as ts s3 i3 - ⟨hP, hlt3⟩
  refine Parses.pure i3 ⟨?_, by omega⟩
  simpa using GCall.mk hk ht1 hP

theorem expr_p {f : Bool} {n : Nat} {s : PS} (hi : PInv f s) (hs : s.size ≤ n) :
    Parses f (P.expr n) s (fun a ts s' => GExpr a ts ∧ s'.size < s.size) := by
  unfold P.expr
  refine Parses.bindCur ?_
  split
  all_goals rename_i hk
  · unfold P.memDecl
    refine (next_p hi (by simp [hk])).bind ?_
    rintro _ _ s1 i1 - ⟨rfl, hlt⟩
    refine (type_p n s1 i1 (by omega)).bind ?_
    rintro ty ts s2 i2 - ⟨hG, hlt2⟩
    exact Parses.pure i2 ⟨by simpa using GExpr.alloc hk hG, by omega⟩
  · unfold P.load
    refine (next_p hi (by simp [hk])).bind ?_
    rintro _ _ s1 i1 - ⟨rfl, hlt⟩
    refine (readSym_p i1).bind ?_
    rintro g _ s2 i2 - ⟨t1, rfl, ht1, hlt2⟩
    exact Parses.pure i2 ⟨by simpa using GExpr.load hk ht1, by omega⟩
  · unfold P.getPtr
    refine (next_p hi (by simp [hk])).bind ?_
    rintro _ _ s1 i1 - ⟨rfl, hlt⟩
    refine (readSym_p i1).bind ?_
    rintro g _ s2 i2 - ⟨t1, rfl, ht1, hlt2⟩
    refine (expect_p i2 (by simp)).bind ?_
    rintro _ _ s3 i3 - ⟨t2, rfl, ht2, hlt3⟩
    refine (value_p i3).bind ?_
    rintro v ts s4 i4 - ⟨⟨hv, -⟩, hlt4⟩
    exact Parses.pure i4 ⟨by simpa using GExpr.getPtr hk ht1 ht2 hv, by omega⟩
  · unfold P.getElemPtr
    refine (next_p hi (by simp [hk])).bind ?_
    rintro _ _ s1 i1 - ⟨rfl, hlt⟩
    refine (readSym_p i1).bind ?_
    rintro g _ s2 i2 - ⟨t1, rfl, ht1, hlt2⟩
    refine (expect_p i2 (by simp)).bind ?_
    rintro _ _ s3 i3 - ⟨t2, rfl, ht2, hlt3⟩
    refine (value_p i3).bind ?_
    rintro v ts s4 i4 - ⟨⟨hv, -⟩, hlt4⟩
    exact Parses.pure i4 ⟨by simpa using GExpr.getElemPtr hk ht1 ht2 hv, by omega⟩
  · unfold P.binary
    refine (readOp_p hi).bind ?_
    rintro op _ s1 i1 - ⟨t, rfl, ht, hlt⟩
    refine (value_p i1).bind ?_
    rintro l ts s2 i2 - ⟨⟨hl, -⟩, hlt2⟩
    refine (expect_p i2 (by simp)).bind ?_
    rintro _ _ s3 i3 - ⟨t1, rfl, ht1, hlt3⟩
    refine (value_p i3).bind ?_
    rintro r ts' s4 i4 - ⟨⟨hr, -⟩, hlt4⟩
    exact Parses.pure i4 ⟨by simpa using GExpr.binary ht hl ht1 hr, by omega⟩
  · refine (funCall_p hi hk hs).bind ?_
    rintro ⟨g, as⟩ ts s1 i1 - ⟨hG, hlt⟩
    exact Parses.pure i1 ⟨by simpa using GExpr.call hG, by omega⟩
  · exact Parses.fail hi

theorem symbolDef_p {f : Bool} {n : Nat} {s : PS} (hi : PInv f s) (hs : s.size ≤ n) :
    Parses f (P.symbolDef n) s (fun a ts s' => GStmt a ts ∧ s'.size < s.size) := by
  unfold P.symbolDef
  refine (readSym_p hi).bind ?_
  rintro nm _ s1 i1 - ⟨t, rfl, ht, hlt⟩
  refine (expect_p i1 (by simp)).bind ?_
  rintro _ _ s2 i2 - ⟨t1, rfl, ht1, hlt2⟩
  refine (expr_p (n := n) i2 (by omega)).bind ?_
  rintro e ts s3 i3 - ⟨he, hlt3⟩
  exact Parses.pure i3 ⟨by simpa using GStmt.def ht ht1 he, by omega⟩

theorem store_p {f : Bool} {n : Nat} {s : PS} (hi : PInv f s) (hk : s.cur.kind = .kw .store)
    (hs : s.size ≤ n) :
    Parses f (P.store n) s (fun a ts s' => GStmt a ts ∧ s'.size < s.size) := by
  unfold P.store
  refine (next_p hi (by simp [hk])).bind ?_
  rintro _ _ s1 i1 - ⟨rfl, hlt⟩
  have hv : Parses f (P.storeValue n) s1 (fun a ts s' =>
      ((∃ t x, ts = [t] ∧ t.kind = .sym x ∧ a = .sym x) ∨ GInit a ts) ∧ s'.size < s1.size) := by
    unfold P.storeValue
    refine Parses.bindCur ?_
    split
    · rename_i hk1
      refine (next_p i1 (by simp [hk1])).bind ?_
      rintro _ _ s2 i2 - ⟨rfl, hlt2⟩
      exact Parses.pure i2 ⟨.inl ⟨_, _, rfl, hk1, rfl⟩, hlt2⟩
    · exact (init_p n s1 i1 (by omega)).mono fun _ _ _ _ _ h => ⟨.inr h.1, h.2⟩
  refine hv.bind ?_
  rintro v ts s2 i2 - ⟨hv, hlt2⟩
  refine (expect_p i2 (by simp)).bind ?_
  rintro _ _ s3 i3 - ⟨t2, rfl, ht2, hlt3⟩
  refine (readSym_p i3).bind ?_
  rintro g _ s4 i4 - ⟨t3, rfl, ht3, hlt4⟩
  refine Parses.pure i4 ⟨?_, by omega⟩
  rcases hv with ⟨t, x, rfl, hx, rfl⟩ | hv
  · simpa using GStmt.storeSym hk hx ht2 ht3
  · simpa using GStmt.storeInit hk hv ht2 ht3

theorem branch_p {f : Bool} {n : Nat} {s : PS} (hi : PInv f s) (hk : s.cur.kind = .kw .br)
    (hs : s.size ≤ n) :
    Parses f (P.branch n) s (fun a ts s' => GTerm a ts s'.cur ∧ s'.size < s.size) := by
  unfold P.branch
  refine (next_p hi (by simp [hk])).bind ?_
  rintro _ _ s1 i1 - ⟨rfl, hlt⟩
  refine (value_p i1).bind ?_
  rintro c tc s2 i2 - ⟨⟨hc, -⟩, hlt2⟩
  refine (expect_p i2 (by simp)).bind ?_
  rintro _ _ s3 i3 - ⟨t1, rfl, ht1, hlt3⟩
  refine (readSym_p i3).bind ?_
  rintro tb _ s4 i4 - ⟨t2, rfl, ht2, hlt4⟩
  refine (optList_p (valueItem n) i4 (by omega)).bind ?_
  rintro ta ts s5 i5 hsz5 ho
  refine (expect_p i5 (by simp)).bind ?_
  rintro _ _ s6 i6 - ⟨t3, rfl, ht3, hlt6⟩
  refine (readSym_p i6).bind ?_
  rintro fb _ s7 i7 - ⟨t4, rfl, ht4, hlt7⟩
  refine (optList_p (valueItem n) i7 (by omega)).bind ?_
  rintro fa ts' s8 i8 hsz8 ho'
  refine Parses.pure i8 ⟨?_, by omega⟩
  simpa using GTerm.branch (after := s8.cur) hk hc ht1 ht2 ho ht3 ht4 ho'

theorem jump_p {f : Bool} {n : Nat} {s : PS} (hi : PInv f s) (hk : s.cur.kind = .kw .jump)
    (hs : s.size ≤ n) :
    Parses f (P.jump n) s (fun a ts s' => GTerm a ts s'.cur ∧ s'.size < s.size) := by
  unfold P.jump
  refine (next_p hi (by simp [hk])).bind ?_
  rintro _ _ s1 i1 - ⟨rfl, hlt⟩
  refine (readSym_p i1).bind ?_
  rintro tb _ s2 i2 - ⟨t1, rfl, ht1, hlt2⟩
  refine (optList_p (valueItem n) i2 (by omega)).bind ?_
  rintro ta ts s3 i3 hsz3 ho
  refine Parses.pure i3 ⟨?_, by omega⟩
  simpa using GTerm.jump (after := s3.cur) hk ht1 ho

theorem ret_p {f : Bool} {s : PS} (hi : PInv f s) (hk : s.cur.kind = .kw .ret) :
    Parses f P.ret s (fun a ts s' => GTerm a ts s'.cur ∧ s'.size < s.size) := by
  unfold P.ret
  refine Parses.bindCur ?_
  refine (next_p hi (by simp [hk])).bind ?_
  rintro _ _ s1 i1 - ⟨rfl, hlt⟩
  refine Parses.bindCur ?_
  split
  · rename_i hl
    refine (value_p i1).bind ?_
    rintro v _ s2 i2 - ⟨⟨hv, rfl⟩, hlt2⟩
    exact Parses.pure i2 ⟨.retVal hk hl.symm hv, by omega⟩
  · rename_i hl
    exact Parses.pure i1 ⟨.ret hk (fun h => hl h.symm), by omega⟩

theorem param_p {f : Bool} (n : Nat) : ItemP f (P.param n) GParam n := by
  intro s hi hs
  unfold P.param
  refine (readSym_p hi).bind ?_
  rintro nm _ s1 i1 - ⟨t, rfl, ht, hlt⟩
  refine (expect_p i1 (by simp)).bind ?_
  rintro _ _ s2 i2 - ⟨t1, rfl, ht1, hlt2⟩
  refine (type_p n s2 i2 (by omega)).bind ?_
  rintro ty ts s3 i3 - ⟨hG, hlt3⟩
  exact Parses.pure i3 ⟨by simpa using GParam.mk ht ht1 hG, by omega⟩

theorem globalDef_p {f : Bool} {n : Nat} {s : PS} (hi : PInv f s) (hk : s.cur.kind = .kw .global)
    (hs : s.size ≤ n) :
    Parses f (P.globalDef n) s (fun a ts s' => GGlobal a ts ∧ s'.size < s.size) := by
  unfold P.globalDef
  refine (next_p hi (by simp [hk])).bind ?_
  rintro _ _ s1 i1 - ⟨rfl, hlt⟩
  refine (readSym_p i1).bind ?_
  rintro nm _ s2 i2 - ⟨t1, rfl, ht1, hlt2⟩
  refine (expect_p i2 (by simp)).bind ?_
  rintro _ _ s3 i3 - ⟨t2, rfl, ht2, hlt3⟩
  refine (expect_p i3 (by simp)).bind ?_
  rintro _ _ s4 i4 - ⟨t3, rfl, ht3, hlt4⟩
  refine (type_p n s4 i4 (by omega)).bind ?_
  rintro ty ts s5 i5 - ⟨hG, hlt5⟩
  refine (expect_p i5 (by simp)).bind ?_
  rintro _ _ s6 i6 - ⟨t4, rfl, ht4, hlt6⟩
  refine (init_p n s6 i6 (by omega)).bind ?_
  rintro i ts' s7 i7 - ⟨hI, hlt7⟩
  refine Parses.pure i7 ⟨?_, by omega⟩
  simpa using GGlobal.globalDef hk ht1 ht2 ht3 hG ht4 hI

theorem funDecl_p {f : Bool} {n : Nat} {s : PS} (hi : PInv f s) (hk : s.cur.kind = .kw .decl)
    (hs : s.size ≤ n) :
    Parses f (P.funDecl n) s (fun a ts s' => GGlobal a ts ∧ s'.size < s.size) := by
  unfold P.funDecl
  refine (next_p hi (by simp [hk])).bind ?_
  rintro _ _ s1 i1 - ⟨rfl, hlt⟩
  refine (readSym_p i1).bind ?_
  rintro nm _ s2 i2 - ⟨t1, rfl, ht1, hlt2⟩
  refine (list_p (type_p n) i2 (by omega)).bind ?_
  rintro ps ts s3 i3 - ⟨hP, hlt3⟩
  refine (retType_p (type_p n) i3 (by omega)).bind ?_
  rintro r tr s4 i4 hsz4 hR
  refine Parses.pure i4 ⟨?_, by omega⟩
  simpa using GGlobal.funDecl hk ht1 hP hR

end Koopa
