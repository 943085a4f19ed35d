import Verif.Lemmas.Back.TreeRun
/-!
The tree of a program that can be written consists of symbols and types that can be read.
-/
namespace Koopa
open Spec

theorem GNmOk.of_same {p : Program} {G M : Nm} (h : GNmOk p G) (hs : M.glob = G.glob ∧ M.fn = G.fn) : GNmOk p M := by
  obtain ⟨h1, h2⟩ := hs
  exact ⟨by rw [h1]; exact h.lexGlob, by rw [h2]; exact h.lexFn, by rw [h1]; exact h.injGlob, by rw [h2]; exact h.injFn,
    by rw [h1, h2]; exact h.apart⟩

/-! ### Where blocks end -/

section
variable {p : Program} {before : List Func} {f : Func} {fd : FData} {ts : List Ty} {r : Ty} (hb : PrintableBody p before f fd ts r)
include hb

/-- Only the last instruction of a block has targets. -/
theorem exits_of {b : BB} {is : List Value} {u : Value} {x : VData} (hm : (b, is) ∈ fd.layout.bbs) (hu : u ∈ is)
    (hx : fd.dfg.values.get? u = some x) (ht : terminator x.kind = true) : exits fd is = targets x.kind ∧ is.getLast? = some u := by
  obtain ⟨init, t, rfl, ⟨y, h1, h2⟩, h3⟩ := hb.ends b is hm
  have : u = t := by
    rcases List.mem_append.1 hu with hu | hu
    · obtain ⟨z, h4, h5⟩ := h3 u hu
      rw [hx] at h4; cases h4
      rw [ht] at h5; cases h5
    · exact List.mem_singleton.1 hu
  subst this
  unfold exits
  simp [hx]

theorem target_term {k : VKind} {c : BB} (h : c ∈ targets k) : terminator k = true := by
  cases k <;> first | rfl | cases h

/-- The targets of an instruction are listed, and none is the first block. -/
theorem target_listed {b : BB} {is : List Value} {u : Value} {x : VData} (hm : (b, is) ∈ fd.layout.bbs) (hu : u ∈ is)
    (hx : fd.dfg.values.get? u = some x) {c : BB} (hc : c ∈ targets x.kind) : ∃ q ∈ fd.layout.bbs, q.1 = c := by
  obtain ⟨h1, -⟩ := exits_of hb hm hu hx (target_term hb hc)
  obtain ⟨e, -, -, h2⟩ := hb.order
  obtain ⟨-, h3⟩ := h2 b is hm
  obtain ⟨-, h4⟩ := h3 c (by rw [h1]; exact hc)
  obtain ⟨q, hq, rfl⟩ := List.mem_map.1 h4
  exact ⟨q, hq, rfl⟩

end

/-! ### Operands -/

theorem const_lex {get : Value → Option VData} (hne : ∀ u x es, get u = some x → x.kind = .aggregate es → es ≠ []) {v : Value} (h : Constant get v) :
    ∀ n, (elemPieces get n v).isSome = true → LexInit (elemAst get n v) := by
  induction h with
  | int h hk =>
    intro n _
    unfold elemAst; rw [h]; simp only
    rw [constAst_leaf _ _ (by rw [hk]; simp), hk]; exact .int
  | undef h hk =>
    intro n _
    unfold elemAst; rw [h]; simp only
    rw [constAst_leaf _ _ (by rw [hk]; simp), hk]; exact .undef
  | zero h hk =>
    intro n _
    unfold elemAst; rw [h]; simp only
    rw [constAst_leaf _ _ (by rw [hk]; simp), hk]; exact .zero
  | @agg v x es h hk he ih =>
    intro n hs
    unfold elemPieces at hs
    unfold elemAst
    rw [h] at hs ⊢
    simp only at hs ⊢
    rw [hk] at hs ⊢
    cases n with
    | zero => cases hs
    | succ n =>
      rw [constAst_agg]
      refine .agg ?_ ?_
      · have := hne v x es h hk
        simpa using this
      · intro e he'
        obtain ⟨u, hu, rfl⟩ := List.mem_map.1 he'
        exact ih u hu n (constPieces_agg_isSome.1 hs u hu)

section
variable {p : Program} (hp : Printable p) {before : List Func} {f : Func} {fd : FData} {ts : List Ty} {r : Ty}
  (hf : p.funcs.get? f = some fd) (hb : PrintableBody p before f fd ts r) {M : Nm} (hg : GNmOk p M) (hm : NmOk p fd M)
include hp hf hb

/-- What a visible value is. -/
theorem visible_has {j i : Nat} {v : Value} (h : Visible p f fd j i v) : (isGlobal v = true ∧ v ∈ p.instLayout) ∨ (isGlobal v = false ∧ HasName fd v) := by
  have loc : ∀ {x}, fd.dfg.values.get? v = some x → isGlobal v = false := fun hx => hp.localId f v _ ⟨fd, hf, hx⟩
  rcases visible_named hp hf hb h with ⟨h0, -⟩ | ⟨h0, -⟩
  · cases h with
    | global h => exact .inl ⟨h0, h⟩
    | arg h =>
      obtain ⟨k, hk⟩ := List.getElem?_of_mem h
      obtain ⟨x, h1, h2, -⟩ := hb.params.2 k v hk
      rw [loc h1] at h0; cases h0
    | param _ h2 h3 h4 _ =>
      obtain ⟨k, hk⟩ := List.getElem?_of_mem h4
      obtain ⟨x, h5, h6⟩ := hb.blocks _ _ (List.mem_of_getElem? h2)
      rw [h3] at h5; cases h5
      obtain ⟨y, h7, h8, -⟩ := h6 k v hk
      rw [loc h7] at h0; cases h0
    | inst _ _ _ h4 _ _ _ => rw [loc h4] at h0; cases h0
  · refine .inr ⟨h0, ?_⟩
    cases h with
    | global h =>
      obtain ⟨x, k, y, h1, h2, -⟩ := hp.insts v h
      rw [hp.globalId v x h1] at h0; cases h0
    | arg h => exact .arg h
    | param _ h2 h3 h4 _ => exact .param (List.mem_of_getElem? h2) h3 h4
    | inst _ h2 h3 h4 h5 _ _ => exact .inst (List.mem_of_getElem? h2) (List.mem_of_getElem? h3) h4 h5

include hg hm

theorem sym_lex {j i : Nat} {v : Value} (h : Visible p f fd j i v) : LexSym (symOf M v) := by
  unfold symOf
  rcases visible_has hp hf hb h with ⟨h0, h1⟩ | ⟨h0, h1⟩
  · rw [if_pos h0]; exact hg.lexGlob v h1
  · rw [if_neg (by simp [h0])]; exact hm.lexVal v h1

omit hb hg hm in
theorem local_const {v : Value} (h : Constant fd.dfg.values.get? v) :
    valAst fd M v = elemAst fd.dfg.values.get? (fd.dfg.values.entries.length + 1) v := by
  have hc : ∃ x, fd.dfg.values.get? v = some x ∧ x.kind.isConst = true := by
    cases h with
    | int h hk => exact ⟨_, h, by rw [hk]; rfl⟩
    | undef h hk => exact ⟨_, h, by rw [hk]; rfl⟩
    | zero h hk => exact ⟨_, h, by rw [hk]; rfl⟩
    | agg h hk _ => exact ⟨_, h, by rw [hk]; rfl⟩
  obtain ⟨x, h1, h2⟩ := hc
  unfold valAst elemAst
  rw [if_neg (by simp [hp.localId f v _ ⟨fd, hf, h1⟩]), h1]
  simp only [h2, if_true]

omit hb hg hm in
theorem init_lex {v : Value} (h : Constant fd.dfg.values.get? v) : LexInit (valAst fd M v) := by
  rw [local_const hp hf h]
  refine const_lex (fun u x es h1 h2 => ?_) h _ h.fuel
  have := hp.typed.locals f u x ⟨fd, hf, h1⟩
  rw [h2] at this
  generalize x.ty = t at this
  cases this
  assumption

theorem val_lex {j i : Nat} {v : Value} (h : Usable p f fd j i v) : LexVal (valAst fd M v) := by
  rcases h with h | ⟨x, h1, ⟨n, h2⟩ | h2⟩
  · rw [(named_value hp M (visible_named hp hf hb h)).1]; exact .sym (sym_lex hp hf hb hg hm h)
  · rw [local_const hp hf (.int h1 h2)]
    unfold elemAst; rw [h1]; simp only
    rw [constAst_leaf _ _ (by rw [h2]; simp), h2]; exact .int
  · rw [local_const hp hf (.undef h1 h2)]
    unfold elemAst; rw [h1]; simp only
    rw [constAst_leaf _ _ (by rw [h2]; simp), h2]; exact .undef

theorem vals_lex {j i : Nat} {as : List Value} (h : ∀ v ∈ as, Usable p f fd j i v) : ∀ a ∈ as.map (valAst fd M), LexVal a := by
  intro a ha
  obtain ⟨v, hv, rfl⟩ := List.mem_map.1 ha
  exact val_lex hp hf hb hg hm (h v hv)

/-- The statements can be read; terminators end blocks. -/
theorem stmt_lex (hcall : ∀ g ∈ before ++ [f], g ∈ p.funcLayout) {j i : Nat} {b : BB} {is : List Value} {v : Value} {x : VData}
    (hj : fd.layout.bbs[j]? = some (b, is)) (hi : is[i]? = some v) (hx : fd.dfg.values.get? v = some x) :
    (terminator x.kind = true → LexTerm (stmtAst fd M v)) ∧ (terminator x.kind = false → LexStmt (stmtAst fd M v)) := by
  obtain ⟨x', h1, hw⟩ := hb.insts j i b is v hj hi
  rw [hx] at h1; cases h1
  have hbm := List.mem_of_getElem? hj
  have hvm := List.mem_of_getElem? hi
  have hT := hp.typed.locals f v x ⟨fd, hf, hx⟩
  have tg : ∀ c ∈ targets x.kind, LexSym (M.bb c) := fun c hc => by
    obtain ⟨q, hq, rfl⟩ := target_listed hb hbm hvm hx hc
    exact hm.lexBb q hq
  have nm : x.ty ≠ .unit → LexSym (M.val v) := fun hu => hm.lexVal v (.inst hbm hvm hx hu)
  have sy := fun {s} => sym_lex hp hf hb hg hm (j := j) (i := i) (v := s)
  have vl := fun {s} => val_lex hp hf hb hg hm (j := j) (i := i) (v := s)
  have vls := fun {s} => vals_lex hp hf hb hg hm (j := j) (i := i) (as := s)
  unfold stmtAst
  simp only [hx]
  obtain ⟨ty, name, kind, usedBy⟩ := x
  simp only at hw hT tg nm ⊢
  cases hw with
  | alloc ht => exact ⟨fun h => (by cases h), fun _ => .def (nm (by simp)) (.alloc (astOf_lex ht))⟩
  | load hs ht => exact ⟨fun h => (by cases h), fun _ => .def (nm ht) (.load (sy hs))⟩
  | store hv hd =>
    refine ⟨fun h => (by cases h), fun _ => ?_⟩
    rcases hv with hv | hv
    · simp only [kindAst]
      rw [(named_value hp M (visible_named hp hf hb hv)).1]
      exact .storeSym (sy hv) (sy hd)
    · exact .storeInit (init_lex hp hf hv) (sy hd)
  | getPtr hs hi =>
    refine ⟨fun h => (by cases h), fun _ => .def (nm (by cases hT; simp)) (.getPtr (sy hs) (vl hi))⟩
  | getElemPtr hs hi =>
    refine ⟨fun h => (by cases h), fun _ => .def (nm (by cases hT; simp)) (.getElemPtr (sy hs) (vl hi))⟩
  | binary hs hi =>
    refine ⟨fun h => (by cases h), fun _ => .def (nm (by cases hT; simp)) (.binary (vl hs) (vl hi))⟩
  | branch hc h1 h2 =>
    exact ⟨fun _ => .branch (vl hc) (tg _ (by simp [targets])) (vls h1) (tg _ (by simp [targets])) (vls h2), fun h => by cases h⟩
  | jump h1 =>
    exact ⟨fun _ => .jump (tg _ (by simp [targets])) (vls h1), fun h => by cases h⟩
  | @call g as _ hgm has =>
    refine ⟨fun h => (by cases h), fun _ => ?_⟩
    have hl := hg.lexFn g (hcall g hgm)
    by_cases hu : ty = .unit
    · subst hu
      exact .call hl (vls has)
    · have hu' : ty.isUnit = false := by
        cases ty <;> first | rfl | exact absurd rfl hu
      simp only [kindAst, hu']
      exact .def (nm hu) (.call hl (vls has))
  | retNone => exact ⟨fun _ => .retNone, fun h => by cases h⟩
  | ret _ hv _ => exact ⟨fun _ => .ret (vl hv), fun h => by cases h⟩

omit hp hf hb hg hm in
theorem lexBody_of : ∀ {sts : List StmtAst} {t : StmtAst}, (∀ st ∈ sts, LexStmt st) → LexTerm t → LexBody (sts ++ [t])
  | [], _, _, ht => .last ht
  | _ :: _, _, h, ht => .cons (h _ List.mem_cons_self) (lexBody_of (fun st hst => h st (List.mem_cons_of_mem _ hst)) ht)

theorem block_lex (hcall : ∀ g ∈ before ++ [f], g ∈ p.funcLayout) {q : BB × List Value} (hq : q ∈ fd.layout.bbs) : LexBlock (blockAst fd M q) := by
  obtain ⟨b, is⟩ := q
  obtain ⟨j, hj⟩ := List.getElem?_of_mem hq
  obtain ⟨x, h1, h2⟩ := hb.blocks b is hq
  refine ⟨hm.lexBb _ hq, ?_, ?_⟩
  · intro q' hq'
    simp only [blockAst, h1] at hq'
    obtain ⟨v, hv, rfl⟩ := List.mem_map.1 hq'
    obtain ⟨k, hk⟩ := List.getElem?_of_mem hv
    obtain ⟨y, h3, -, h5⟩ := h2 k v hk
    refine ⟨hm.lexVal v (.param hq h1 hv), ?_⟩
    simp only [paramAst, h3]
    exact astOf_lex h5
  · obtain ⟨init, t, rfl, ⟨y, h3, h4⟩, h5⟩ := hb.ends b is hq
    simp only [blockAst, List.map_append, List.map_cons, List.map_nil]
    refine lexBody_of ?_ ?_
    · intro st hst
      obtain ⟨v, hv, rfl⟩ := List.mem_map.1 hst
      obtain ⟨i, hi⟩ := List.getElem?_of_mem (List.mem_append_left [t] hv)
      obtain ⟨z, h6, h7⟩ := h5 v hv
      exact (stmt_lex hp hf hb hg hm hcall hj hi h6).2 h7
    · obtain ⟨i, hi⟩ := List.getElem?_of_mem (List.mem_append_right init (List.mem_singleton_self t))
      exact (stmt_lex hp hf hb hg hm hcall hj hi h3).1 h4

end

theorem ret_lex {r : Ty} (h : r = .unit ∨ Expressible r) : ∀ a, retAst r = some a → LexTy a := by
  intro a ha
  unfold retAst at ha
  split at ha
  · cases ha
  · cases ha
    rcases h with rfl | h
    · rename_i h; exact absurd rfl h
    · exact astOf_lex h

section
variable {p : Program} (hp : Printable p) {M : Nm} (hg : GNmOk p M)
include hp hg

theorem item_lex {before : List Func} {f : Func} {fd : FData} {ts : List Ty} {r : Ty} (hf : p.funcs.get? f = some fd)
    (hb : PrintableFun p before f fd ts r) (hm : NmOk p fd M) (hcall : ∀ g ∈ before ++ [f], g ∈ p.funcLayout) : LexItem (funAst M f fd) := by
  have hn : LexSym (M.fn f) := hg.lexFn f (hcall f (by simp))
  unfold funAst
  simp only [hb.ty]
  rcases hb.body with ⟨h1, h2, h3⟩ | hbd
  · rw [if_pos h1]
    refine .funDecl hn ?_ (ret_lex hb.ret)
    intro a ha
    obtain ⟨t, ht, rfl⟩ := List.mem_map.1 ha
    exact astOf_lex (hb.tys t ht)
  · rw [if_neg (by simp [hbd.hasBlocks])]
    refine .funDef hn ?_ (ret_lex hb.ret) ?_ ?_
    · intro q hq
      obtain ⟨v, hv, rfl⟩ := List.mem_map.1 hq
      obtain ⟨k, hk⟩ := List.getElem?_of_mem hv
      obtain ⟨y, h3, -, h5⟩ := hbd.params.2 k v hk
      refine ⟨hm.lexVal v (.arg hv), ?_⟩
      simp only [paramAst, h3]
      exact astOf_lex (hb.tys _ (List.mem_of_getElem? h5))
    · obtain ⟨e, he, -⟩ := hbd.order
      intro h
      rw [List.map_eq_nil_iff] at h
      rw [h] at he; cases he
    · intro b hb'
      obtain ⟨q, hq, rfl⟩ := List.mem_map.1 hb'
      exact block_lex hp hf hbd hg hm hcall hq

theorem global_lex {v : Value} (hv : v ∈ p.instLayout) : LexGlobal (globalAst p M v) := by
  obtain ⟨x, i, y, h1, h2, h3, h4, h5⟩ := hp.insts v hv
  have h1' : p.values.get? v = some x := h1
  have h4' : p.values.get? i = some y := h4
  unfold globalAst
  simp only [h1', h2, h4']
  refine .mk (hg.lexGlob v hv) (astOf_lex h5) ?_
  have := const_lex (fun u x es h1 h2 => by
    have := hp.typed.globals u x h1
    rw [h2] at this
    generalize x.ty = t at this
    cases this
    assumption) h3 _ h3.fuel
  unfold elemAst at this
  rw [h4'] at this
  exact this

end

theorem Naming.reads {p : Program} (hp : Printable p) {G : Nm} {N : Func → Nm} (h : Naming p G N) :
    Reads (texts (progTP (globalTrees p G) (funTrees p N))) (globalTrees p G ++ funTrees p N) := by
  refine reads_prog ?_ ?_
  · intro g hg
    obtain ⟨v, hv, rfl⟩ := List.mem_map.1 hg
    exact global_lex hp h.gok hv
  · intro g hg
    obtain ⟨f, hf, rfl⟩ := List.mem_map.1 hg
    obtain ⟨i, hi⟩ := List.getElem?_of_mem hf
    obtain ⟨fd, ts, r, h1, h2⟩ := hp.funcs i f hi
    unfold funItem
    rw [h1]
    refine item_lex hp (h.gok.of_same (h.same f)) h1 h2 (h.ok f hf fd h1) ?_
    intro g hg
    rcases List.mem_append.1 hg with h | h
    · exact List.mem_of_mem_take h
    · rw [List.mem_singleton] at h; subst h; exact hf

end Koopa
