import Verif.Lemmas.Back.Tree
/-!
The generator writes the text of the tree of a program that can be written.
-/
namespace Koopa
open Spec

/-- The value is written by its name. -/
def Named (p : Program) (fd : FData) (v : Value) : Prop :=
  (isGlobal v = true ∧ ∃ x i, p.values.get? v = some x ∧ x.kind = .globalAlloc i) ∨
  (isGlobal v = false ∧ ∃ x, fd.dfg.values.get? v = some x ∧ x.kind.isConst = false ∧ x.kind.isGlobalAlloc = false)

theorem Spec.Writable.plain {V O I : Value → Prop} {F : Func → Prop} {H : Value → Ty → Prop} {r : Ty} {k : VKind} {t : Ty}
    (h : Writable V O I F H r k t) : k.isConst = false ∧ k.isGlobalAlloc = false := by
  cases h <;> exact ⟨rfl, rfl⟩

section
variable {p : Program} (hp : Printable p) {before : List Func} {f : Func} {fd : FData} {ts : List Ty} {r : Ty}
  (hf : p.funcs.get? f = some fd) (hb : PrintableBody p before f fd ts r) (M : Nm)
include hp

include hf hb in
theorem visible_named {j i : Nat} {v : Value} (h : Visible p f fd j i v) : Named p fd v := by
  have loc : ∀ {x}, fd.dfg.values.get? v = some x → isGlobal v = false := fun hx => hp.localId f v _ ⟨fd, hf, hx⟩
  cases h with
  | global h =>
    obtain ⟨x, k, y, h1, h2, -⟩ := hp.insts v h
    exact .inl ⟨hp.globalId v x h1, x, k, h1, h2⟩
  | arg h =>
    obtain ⟨k, hk⟩ := List.getElem?_of_mem h
    obtain ⟨x, h1, h2, -⟩ := hb.params.2 k v hk
    exact .inr ⟨loc h1, x, h1, by rw [h2]; exact ⟨rfl, rfl⟩⟩
  | param _ h2 h3 h4 _ =>
    obtain ⟨k, hk⟩ := List.getElem?_of_mem h4
    obtain ⟨x, h5, h6⟩ := hb.blocks _ _ (List.mem_of_getElem? h2)
    rw [h3] at h5; cases h5
    obtain ⟨y, h7, h8, -⟩ := h6 k v hk
    exact .inr ⟨loc h7, y, h7, by rw [h8]; exact ⟨rfl, rfl⟩⟩
  | inst _ h2 h3 h4 _ _ _ =>
    obtain ⟨x, h5, h6⟩ := hb.insts _ _ _ _ _ h2 h3
    rw [h4] at h5; cases h5
    exact .inr ⟨loc h4, _, h4, h6.plain⟩

theorem named_value {v : Value} (h : Named p fd v) : valAst fd M v = .sym (symOf M v) ∧ Writes M (BackKoopa.value p fd v) [.sym (symOf M v)] := by
  unfold valAst BackKoopa.value symOf
  rcases h with ⟨h1, x, i, h2, h3⟩ | ⟨h1, x, h2, h3, h4⟩
  · rw [if_pos h1, if_pos h1, if_pos h1, h2]
    refine ⟨rfl, [.global v x.name], ?_, rfl⟩
    simp only [namePiece, h3]
    rfl
  · rw [if_neg (by simp [h1]), if_neg (by simp [h1]), if_neg (by simp [h1]), h2]
    simp only [h3, namePiece, h4]
    exact ⟨rfl, [.value v x.name], rfl, rfl⟩

include hf in
theorem const_value {v : Value} (h : Constant fd.dfg.values.get? v) : Writes M (BackKoopa.value p fd v) (valTP (valAst fd M v)) := by
  have hfu := h.fuel
  have hc : ∃ x, fd.dfg.values.get? v = some x ∧ x.kind.isConst = true := by
    cases h with
    | int h hk => exact ⟨_, h, by rw [hk]; rfl⟩
    | undef h hk => exact ⟨_, h, by rw [hk]; rfl⟩
    | zero h hk => exact ⟨_, h, by rw [hk]; rfl⟩
    | agg h hk _ => exact ⟨_, h, by rw [hk]; rfl⟩
  obtain ⟨x, h1, h2⟩ := hc
  have hl := hp.localId f v _ ⟨fd, hf, h1⟩
  rw [elemPieces, h1] at hfu
  obtain ⟨ps, hps⟩ := Option.isSome_iff_exists.1 hfu
  unfold BackKoopa.value valAst
  rw [if_neg (by simp [hl]), if_neg (by simp [hl]), h1]
  simp only [h2, if_true]
  exact ⟨ps, hps, constPieces_ast M hps⟩

include hf hb in
theorem usable_value {j i : Nat} {v : Value} (h : Usable p f fd j i v) : Writes M (BackKoopa.value p fd v) (valTP (valAst fd M v)) := by
  rcases h with h | ⟨x, h1, h2 | h2⟩
  · obtain ⟨h1, h2⟩ := named_value hp M (visible_named hp hf hb h)
    rw [h1]; exact h2
  · obtain ⟨n, h2⟩ := h2
    exact const_value hp hf M (.int h1 h2)
  · exact const_value hp hf M (.undef h1 h2)

include hf hb in
theorem usable_args {j i : Nat} {as : List Value} (h : ∀ v ∈ as, Usable p f fd j i v) :
    ∃ pss, allSome (BackKoopa.value p fd) as = some pss ∧ (sepPieces pss).map (tpOf M) = argsTP (as.map (valAst fd M)) := by
  obtain ⟨pss, h1, h2⟩ := allSome_writes (f := BackKoopa.value p fd) (g := fun v => valTP (valAst fd M v)) (M := M)
    (fun v hv => usable_value hp hf hb M (h v hv))
  refine ⟨pss, h1, ?_⟩
  rw [sepPieces_map, h2, argsTP, List.map_map]; rfl

include hf hb in
theorem target_writes {j i : Nat} {b : BB} {x : BData} (hx : fd.dfg.bbs.get? b = some x) {as : List Value} (h : ∀ v ∈ as, Usable p f fd j i v) :
    Writes M (BackKoopa.target p fd b as) (targetTP (M.bb b) (as.map (valAst fd M))) := by
  obtain ⟨pss, h1, h2⟩ := usable_args hp hf hb M h
  unfold BackKoopa.target
  simp only [hx, h1]
  refine ⟨_, rfl, ?_⟩
  cases as with
  | nil => rfl
  | cons a as => simp [targetTP, h2]

omit hp in
theorem inst_def {v : Value} {x : VData} (h1 : fd.dfg.values.get? v = some x) (hu : x.ty ≠ .unit) (hc : x.kind.isConst = false)
    (hg : x.kind.isGlobalAlloc = false) {e : ExprAst} (h : Writes M (BackKoopa.content p fd x.ty x.kind) (exprTP e)) :
    Writes M (BackKoopa.inst p fd v) (lineTP (.def (M.val v) e)) := by
  obtain ⟨ps, h2, h3⟩ := h
  have hu' : x.ty.isUnit = false := by
    cases ht : x.ty <;> first | rfl | exact absurd ht hu
  have hn : namePiece v x = some (.value v x.name) := by unfold namePiece; rw [hc, hg]; rfl
  unfold BackKoopa.inst
  simp only [h1, hu', hn, h2]
  exact ⟨_, rfl, by simp [lineTP, stmtTP, h3]⟩

omit hp in
theorem inst_unit {v : Value} {x : VData} (h1 : fd.dfg.values.get? v = some x) (hu : x.ty = .unit) {st : StmtAst}
    (h : Writes M (BackKoopa.content p fd x.ty x.kind) (stmtTP st)) : Writes M (BackKoopa.inst p fd v) (lineTP st) := by
  obtain ⟨ps, h2, h3⟩ := h
  unfold BackKoopa.inst
  have hu' : x.ty.isUnit = true := by rw [hu]; rfl
  simp only [h1, hu', h2]
  exact ⟨_, rfl, by simp [lineTP, h3]⟩

include hf hb in
theorem inst_writes {j i : Nat} {b : BB} {is : List Value} {v : Value} (hj : fd.layout.bbs[j]? = some (b, is)) (hi : is[i]? = some v)
    (hcall : ∀ g ∈ before ++ [f], ∃ gd, p.funcs.get? g = some gd) :
    Writes M (BackKoopa.inst p fd v) (lineTP (stmtAst fd M v)) := by
  obtain ⟨x, h1, hw⟩ := hb.insts j i b is v hj hi
  have hT := hp.typed.locals f v x ⟨fd, hf, h1⟩
  unfold stmtAst
  simp only [h1]
  have blk : ∀ {b ts}, ParamTys p f b ts → ∃ d, fd.dfg.bbs.get? b = some d := by
    rintro b ts ⟨d, ⟨fd', h, h'⟩, -⟩
    rw [hf] at h; cases h
    exact ⟨d, h'⟩
  obtain ⟨hc, hg⟩ := hw.plain
  obtain ⟨ty, name, kind, usedBy⟩ := x
  simp only at hw hT ⊢
  have nm : ∀ {s}, Visible p f fd j i s → Writes M (BackKoopa.value p fd s) [.sym (symOf M s)] :=
    fun hs => (named_value hp M (visible_named hp hf hb hs)).2
  have op : ∀ {s}, Usable p f fd j i s → Writes M (BackKoopa.value p fd s) (valTP (valAst fd M s)) :=
    fun hs => usable_value hp hf hb M hs
  cases hw with
  | alloc ht =>
    refine inst_def M h1 (by simp) hc hg ⟨_, rfl, by simp [exprTP, astOf_text ht]⟩
  | load hs ht =>
    obtain ⟨ps, h3, h4⟩ := nm hs
    refine inst_def M h1 ht hc hg ?_
    simp only [BackKoopa.content, h3]
    exact ⟨_, rfl, by simp [exprTP, h4]⟩
  | store hv hd =>
    obtain ⟨ps, h3, h4⟩ := nm hd
    have : ∃ qs, BackKoopa.value p fd _ = some qs ∧ _ := hv.elim
      (fun h => by
        obtain ⟨e, h⟩ := named_value hp M (visible_named hp hf hb h)
        rw [← valTP, ← e] at h; exact h) (fun h => const_value hp hf M h)
    obtain ⟨qs, h5, h6⟩ := this
    cases hT
    refine inst_unit M h1 rfl ?_
    simp only [BackKoopa.content, h3, h5]
    exact ⟨_, rfl, by simp [kindAst, stmtTP, h4, h6]⟩
  | getPtr hs hi =>
    obtain ⟨ps, h3, h4⟩ := nm hs
    obtain ⟨qs, h5, h6⟩ := op hi
    cases hT
    refine inst_def M h1 (by simp) hc hg ?_
    simp only [BackKoopa.content, h3, h5]
    exact ⟨_, rfl, by simp [exprTP, h4, h6]⟩
  | getElemPtr hs hi =>
    obtain ⟨ps, h3, h4⟩ := nm hs
    obtain ⟨qs, h5, h6⟩ := op hi
    cases hT
    refine inst_def M h1 (by simp) hc hg ?_
    simp only [BackKoopa.content, h3, h5]
    exact ⟨_, rfl, by simp [exprTP, h4, h6]⟩
  | binary hs hi =>
    obtain ⟨ps, h3, h4⟩ := op hs
    obtain ⟨qs, h5, h6⟩ := op hi
    cases hT
    refine inst_def M h1 (by simp) hc hg ?_
    simp only [BackKoopa.content, h3, h5]
    exact ⟨_, rfl, by simp [exprTP, h4, h6]⟩
  | branch hcd hx hy =>
    cases hT with
    | branch _ ht hf' _ _ _ =>
      obtain ⟨d, hd⟩ := blk ht
      obtain ⟨d', hd'⟩ := blk hf'
      obtain ⟨ps, h3, h4⟩ := op hcd
      obtain ⟨qs, h5, h6⟩ := target_writes hp hf hb M hd hx
      obtain ⟨rs, h7, h8⟩ := target_writes hp hf hb M hd' hy
      refine inst_unit M h1 rfl ?_
      simp only [BackKoopa.content, h3, h5, h7]
      exact ⟨_, rfl, by simp [kindAst, stmtTP, h4, h6, h8]⟩
  | jump hx =>
    cases hT with
    | jump ht _ =>
      obtain ⟨d, hd⟩ := blk ht
      obtain ⟨qs, h5, h6⟩ := target_writes hp hf hb M hd hx
      refine inst_unit M h1 rfl ?_
      simp only [BackKoopa.content, h5]
      exact ⟨_, rfl, by simp [kindAst, stmtTP, h6]⟩
  | @call g as _ hgm hx =>
    obtain ⟨gd, hgd⟩ := hcall _ hgm
    obtain ⟨pss, h5, h6⟩ := usable_args hp hf hb M hx
    have key : Writes M (BackKoopa.content p fd ty (.call g as)) (exprTP (.call (M.fn g) (as.map (valAst fd M)))) := by
      simp only [BackKoopa.content, hgd, h5]
      exact ⟨_, rfl, by simp only [List.map_cons, List.map_append, h6, tpOf_txt, tpOf_func, List.map_nil, exprTP]⟩
    by_cases hu : ty = .unit
    · subst hu
      exact inst_unit M h1 rfl key
    · have hu' : ty.isUnit = false := by
        cases ty <;> first | rfl | exact absurd rfl hu
      simp only [kindAst, hu']
      exact inst_def M h1 hu hc hg key
  | retNone =>
    cases hT
    exact inst_unit M h1 rfl ⟨_, rfl, rfl⟩
  | ret _ hv _ =>
    obtain ⟨ps, h3, h4⟩ := op hv
    cases hT
    refine inst_unit M h1 rfl ?_
    simp only [BackKoopa.content, h3]
    exact ⟨_, rfl, by simp [kindAst, stmtTP, h4]⟩

omit hp in
theorem param_writes {v : Value} {x : VData} (h : fd.dfg.values.get? v = some x) (hc : x.kind.isConst = false)
    (hg : x.kind.isGlobalAlloc = false) (ht : Expressible x.ty) : Writes M (BackKoopa.param fd v) (paramTP (paramAst fd M v)) := by
  have hn : namePiece v x = some (.value v x.name) := by unfold namePiece; rw [hc, hg]; rfl
  unfold BackKoopa.param
  simp only [h, hn]
  exact ⟨_, rfl, by simp [paramTP, paramAst, h, astOf_text ht]⟩

omit hp in
theorem flatten_writes {α : Type} {M : Nm} (t : String) {g : α → List TP} : ∀ {pss : List (List Piece)} {as : List α},
    pss.map (List.map (tpOf M)) = as.map g → ((pss.map (fun i => txt t :: i)).flatten).map (tpOf M) = (as.map (fun a => tt t :: g a)).flatten
  | [], [], _ => rfl
  | [], _ :: _, h => by cases h
  | _ :: _, [], h => by cases h
  | ps :: pss, a :: as, h => by
    simp only [List.map_cons, List.cons.injEq] at h
    simp only [List.map_cons, List.flatten_cons, List.map_append, tpOf_txt, h.1, flatten_writes t h.2]

include hf hb in
theorem bb_writes {b : BB} {is : List Value} (hm : (b, is) ∈ fd.layout.bbs) (hcall : ∀ g ∈ before ++ [f], ∃ gd, p.funcs.get? g = some gd) :
    Writes M (BackKoopa.bb p fd b is) (blockTP (blockAst fd M (b, is))) := by
  obtain ⟨j, hj⟩ := List.getElem?_of_mem hm
  obtain ⟨x, h1, h2⟩ := hb.blocks b is hm
  obtain ⟨pss, h3, h4⟩ := allSome_writes (M := M) (f := BackKoopa.param fd) (g := fun v => paramTP (paramAst fd M v)) (as := x.params) (fun v hv => by
    obtain ⟨i, hi⟩ := List.getElem?_of_mem hv
    obtain ⟨y, h5, h6, h7⟩ := h2 i v hi
    exact param_writes M h5 (by rw [h6]; rfl) (by rw [h6]; rfl) h7)
  obtain ⟨iss, h5, h6⟩ := allSome_writes (M := M) (f := BackKoopa.inst p fd) (g := fun v => lineTP (stmtAst fd M v)) (as := is) (fun v hv => by
    obtain ⟨i, hi⟩ := List.getElem?_of_mem hv
    exact inst_writes hp hf hb M hj hi hcall)
  unfold BackKoopa.bb
  simp only [h1, h3, h5]
  refine ⟨_, rfl, ?_⟩
  have key := flatten_writes "  " h6
  simp only [List.map_cons, List.map_append, key, tpOf_bb, tpOf_txt, blockAst, h1, blockTP]
  have e : (if x.params.isEmpty then [] else txt "(" :: (sepPieces pss ++ [txt ")"])).map (tpOf M) =
      if (x.params.map (paramAst fd M)).isEmpty then [] else tt "(" :: (sepTP ((x.params.map (paramAst fd M)).map paramTP) ++ [tt ")"]) := by
    rw [List.isEmpty_map]
    split
    · rfl
    · simp only [List.map_cons, List.map_append, tpOf_txt, sepPieces_map, h4, List.map_map, List.map_nil]; rfl
  rw [e, bodyTP]
  simp only [List.map_map]
  rfl

omit hp in
theorem blocks_cons (q q' : BB × List Value) (l : List (BB × List Value)) : BackKoopa.blocks p fd (q :: q' :: l) =
    match BackKoopa.bb p fd q.1 q.2, BackKoopa.blocks p fd (q' :: l) with
    | some x, some y => some (x ++ txt "\n" :: y)
    | _, _ => none := by
  obtain ⟨b, is⟩ := q
  rw [BackKoopa.blocks]
  · rfl
  · simp

omit hp in
theorem blocks_writes : ∀ {l : List (BB × List Value)}, (∀ q ∈ l, Writes M (BackKoopa.bb p fd q.1 q.2) (blockTP (blockAst fd M q))) →
    Writes M (BackKoopa.blocks p fd l) (blocksTP (l.map (blockAst fd M)))
  | [], _ => ⟨[], rfl, rfl⟩
  | [q], h => h q List.mem_cons_self
  | q :: q' :: l, h => by
    obtain ⟨ps, h1, h2⟩ := h q List.mem_cons_self
    obtain ⟨qs, h3, h4⟩ := blocks_writes (l := q' :: l) (fun q hq => h q (List.mem_cons_of_mem _ hq))
    rw [blocks_cons, h1, h3]
    refine ⟨_, rfl, ?_⟩
    simp only [List.map_cons, List.map_append, tpOf_txt, blocksTP_cons, h2] at h4 ⊢
    rw [h4]

omit hp in
theorem ret_writes {r : Ty} (h : r = .unit ∨ Expressible r) : (BackKoopa.ret r).map (tpOf M) = retTP (retAst r) := by
  unfold BackKoopa.ret retAst
  rcases h with rfl | h
  · rfl
  · rw [h.not_unit]; simp [retTP, astOf_text h]

include hf in
theorem fun_writes {before : List Func} (hb : PrintableFun p before f fd ts r) (hcall : ∀ g ∈ before ++ [f], ∃ gd, p.funcs.get? g = some gd) :
    Writes M (BackKoopa.func p f) (funTP (funAst M f fd)) := by
  unfold BackKoopa.func funAst
  simp only [hf, hb.ty]
  rcases hb.body with ⟨h1, h2, h3⟩ | hbd
  · simp only [h1, if_true]
    refine ⟨_, rfl, ?_⟩
    simp only [List.map_cons, List.map_append, tpOf_txt, tpOf_func, sepPieces_map, List.map_map, ret_writes M hb.ret, funTP, List.map_nil]
    have : List.map (List.map (tpOf M) ∘ fun t => [Piece.lit t.show]) ts = List.map ((fun a => [tyTP a]) ∘ astOf) ts := by
      refine List.map_congr_left (fun t ht => ?_)
      simp [astOf_text (hb.tys t ht)]
    rw [this]
  · simp only [hbd.hasBlocks, Bool.false_eq_true, if_false]
    obtain ⟨pss, h3, h4⟩ := allSome_writes (M := M) (f := BackKoopa.param fd) (g := fun v => paramTP (paramAst fd M v)) (as := fd.params) (fun v hv => by
      obtain ⟨i, hi⟩ := List.getElem?_of_mem hv
      obtain ⟨y, h5, h6, h7⟩ := hbd.params.2 i v hi
      exact param_writes M h5 (by rw [h6]; rfl) (by rw [h6]; rfl) (hb.tys _ (List.mem_of_getElem? h7)))
    obtain ⟨bs, h5, h6⟩ := blocks_writes (p := p) (fd := fd) M (l := fd.layout.bbs) (fun q hq => bb_writes hp hf hbd M hq hcall)
    rw [h3, h5]
    refine ⟨_, rfl, ?_⟩
    simp only [List.map_cons, List.map_append, tpOf_txt, tpOf_func, sepPieces_map, List.map_map, ret_writes M hb.ret, funTP, List.map_nil, h4, h6]
    rfl

theorem global_writes {v : Value} (hv : v ∈ p.instLayout) : Writes M (BackKoopa.globalInst p v) (globalTP (globalAst p M v)) := by
  obtain ⟨x, i, y, h1, h2, h3, h4, h5⟩ := hp.insts v hv
  have hfu := h3.fuel
  rw [elemPieces, h4] at hfu
  obtain ⟨ps, hps⟩ := Option.isSome_iff_exists.1 hfu
  unfold BackKoopa.globalInst globalAst
  have h1' : p.values.get? v = some x := h1
  have h4' : p.values.get? i = some y := h4
  simp only [h1', h2, h4', hps]
  refine ⟨_, rfl, ?_⟩
  simp only [List.map_cons, List.map_append, tpOf_txt, tpOf_global, tpOf_lit, globalTP, constPieces_ast M hps, astOf_text h5, List.map_nil]

end

end Koopa
