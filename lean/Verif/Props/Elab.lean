import Verif.Lemmas.Front.ElabDriver
/-!
Properties of accepted texts: C18 (order of blocks), C19 (duplicate definitions), C20 (symbols), C21
(argument counts), C43 (well-formedness) and C47 (the program is the one written).
-/
namespace Koopa
open Spec

/-- The id counters start at these values and only grow. -/
structure World.Ok (w : World) : Prop where
  globals : globalStart ≤ w.ids.nextGlobal
  locals : localStart ≤ w.ids.nextLocal

/-- `input` is accepted with result `p`. The counter of global ids stays below the local ids. -/
structure Accepted (w : World) (input : Str) (p : Program) : Prop where
  ok : w.Ok
  run : ∃ w', generate w input false = some (some p, w') ∧ w'.ids.nextGlobal ≤ localStart

theorem Accepted.items {w : World} {input : Str} {p : Program} (h : Accepted w input p) {gs : List GlobalAst}
    (hg : Reads input gs) : FInv p ∧ ∃ vars fns, Items p gs vars fns ∧ p.view.insts = vars.map (·.2) ∧
      p.view.fns = fns.map (·.2) := by
  obtain ⟨w', h1, h2⟩ := h.run
  obtain ⟨ts, gs', vars, fns, a1, a2, a3, a4, a5, a6⟩ := generate_items h.ok.globals h.ok.locals h1 h2
  obtain ⟨ts', b1, b2⟩ := hg
  have := C45_grammar_unambiguous input ts ts' gs' gs a1 b1 a2 b2
  subst this
  exact ⟨a3, vars, fns, a4, a5, a6⟩

/-- C47: an accepted text is a text of the grammar, and the program is the one written there: its
global variables and functions are those of the text, in order, with the names, types, parameters,
blocks and instructions that are written. -/
theorem C47_program_is_text {w : World} {input : Str} {p : Program} (h : Accepted w input p) :
    ∃ gs, Reads input gs ∧ ProgIs p gs := by
  obtain ⟨w', h1, h2⟩ := h.run
  obtain ⟨ts, gs, vars, fns, a1, a2, a3, a4, a5, a6⟩ := generate_items h.ok.globals h.ok.locals h1 h2
  refine ⟨gs, ⟨ts, a1, a2⟩, vars, fns, a4, a5, a6, fun f => ?_⟩
  have := a3.fns (f := f)
  rw [show p.view.fns = p.funcLayout from rfl] at this
  rw [this]
  show _ ↔ ((p.funcs.get? f).map _).isSome
  simp

/-! ### Functions of the text -/

theorem Spec.Items.defined {p : Program} {gs : List GlobalAst} {vars : List (Str × Value)} {fns : List (Str × Func)}
    (h : Items p gs vars fns) {name : Str} {params : List (Str × TyAst)} {ret : Option TyAst} {bbs : List BlockAst}
    (hm : .funDef name params ret bbs ∈ gs) : ∃ vars' fns' f fd order r, vars' <+: vars ∧ fns' ++ [(name, f)] <+: fns ∧
      p.funcs.get? f = some fd ∧ FunIs p (fun n v => (n, v) ∈ vars') (fun n g => (n, g) ∈ fns' ++ [(name, f)]) f fd name
        params ret bbs order r := by
  induction h with
  | nil => simp at hm
  | globalDef _ _ _ _ ih =>
    rw [List.mem_append, List.mem_singleton] at hm
    rcases hm with hm | hm
    · obtain ⟨v', f', f, fd, o, r, h1, h2⟩ := ih hm
      exact ⟨v', f', f, fd, o, r, h1.trans (List.prefix_append ..), h2⟩
    · cases hm
  | funDecl _ _ _ _ _ ih =>
    rw [List.mem_append, List.mem_singleton] at hm
    rcases hm with hm | hm
    · obtain ⟨v', f', f, fd, o, r, h1, h2, h3⟩ := ih hm
      exact ⟨v', f', f, fd, o, r, h1, h2.trans (List.prefix_append ..), h3⟩
    · cases hm
  | funDef _ _ _ hf hF ih =>
    rw [List.mem_append, List.mem_singleton] at hm
    rcases hm with hm | hm
    · obtain ⟨v', f', f, fd, o, r, h1, h2, h3⟩ := ih hm
      exact ⟨v', f', f, fd, o, r, h1, h2.trans (List.prefix_append ..), h3⟩
    · cases hm
      exact ⟨_, _, _, _, _, _, List.prefix_refl _, List.prefix_refl _, hf, hF⟩

/-- Every function of the program is an item. -/
theorem Spec.Items.func {p : Program} {gs : List GlobalAst} {vars : List (Str × Value)} {fns : List (Str × Func)}
    (h : Items p gs vars fns) {n : Str} {f : Func} (hm : (n, f) ∈ fns) : ∃ fd, p.funcs.get? f = some fd ∧
      ((∃ params ret, .funDecl n params ret ∈ gs ∧ DeclIs p f fd n params ret) ∨
        ∃ params ret bbs order r gv gf, .funDef n params ret bbs ∈ gs ∧ FunIs p gv gf f fd n params ret bbs order r) := by
  induction h with
  | nil => simp at hm
  | globalDef _ _ _ _ ih =>
    obtain ⟨fd, h1, h2⟩ := ih hm
    refine ⟨fd, h1, ?_⟩
    rcases h2 with ⟨a, b, c, d⟩ | ⟨a, b, c, d, e, g, i, j, k⟩
    · exact .inl ⟨a, b, List.mem_append_left _ c, d⟩
    · exact .inr ⟨a, b, c, d, e, g, i, List.mem_append_left _ j, k⟩
  | funDecl _ _ _ hf hF ih =>
    rw [List.mem_append, List.mem_singleton] at hm
    rcases hm with hm | hm
    · obtain ⟨fd, h1, h2⟩ := ih hm
      refine ⟨fd, h1, ?_⟩
      rcases h2 with ⟨a, b, c, d⟩ | ⟨a, b, c, d, e, g, i, j, k⟩
      · exact .inl ⟨a, b, List.mem_append_left _ c, d⟩
      · exact .inr ⟨a, b, c, d, e, g, i, List.mem_append_left _ j, k⟩
    · cases hm
      exact ⟨_, hf, .inl ⟨_, _, by simp, hF⟩⟩
  | funDef _ _ _ hf hF ih =>
    rw [List.mem_append, List.mem_singleton] at hm
    rcases hm with hm | hm
    · obtain ⟨fd, h1, h2⟩ := ih hm
      refine ⟨fd, h1, ?_⟩
      rcases h2 with ⟨a, b, c, d⟩ | ⟨a, b, c, d, e, g, i, j, k⟩
      · exact .inl ⟨a, b, List.mem_append_left _ c, d⟩
      · exact .inr ⟨a, b, c, d, e, g, i, List.mem_append_left _ j, k⟩
    · cases hm
      exact ⟨_, hf, .inr ⟨_, _, _, _, _, _, _, by simp, hF⟩⟩

theorem Spec.Items.names {p : Program} {gs : List GlobalAst} {vars : List (Str × Value)} {fns : List (Str × Func)}
    (h : Items p gs vars fns) : (gs.map itemName).Nodup ∧
      ∀ n, n ∈ gs.map itemName ↔ n ∈ vars.map (·.1) ∨ n ∈ fns.map (·.1) := by
  have add : ∀ {l : List Str} {n : Str}, l.Nodup → n ∉ l → (l ++ [n]).Nodup := by
    intro l n h1 h2
    rw [List.nodup_append]
    refine ⟨h1, by simp, ?_⟩
    rintro a ha b hb rfl
    exact h2 (by simp at hb; rwa [hb] at ha)
  induction h with
  | nil => simp
  | globalDef _ h1 h2 _ ih =>
    rw [List.map_append]
    refine ⟨add ih.1 (by rw [itemName, ih.2]; rintro (h | h) <;> contradiction), fun n => ?_⟩
    have := ih.2 n
    simp only [List.mem_append, List.map_append, this, List.map_cons, List.map_nil, List.mem_singleton, itemName]
    grind
  | funDecl _ h1 h2 _ _ ih =>
    rw [List.map_append]
    refine ⟨add ih.1 (by rw [itemName, ih.2]; rintro (h | h) <;> contradiction), fun n => ?_⟩
    have := ih.2 n
    simp only [List.mem_append, List.map_append, this, List.map_cons, List.map_nil, List.mem_singleton, itemName]
    grind
  | funDef _ h1 h2 _ _ ih =>
    rw [List.map_append]
    refine ⟨add ih.1 (by rw [itemName, ih.2]; rintro (h | h) <;> contradiction), fun n => ?_⟩
    have := ih.2 n
    simp only [List.mem_append, List.map_append, this, List.map_cons, List.map_nil, List.mem_singleton, itemName]
    grind

/-! ### C18 -/

theorem firsts_append : ∀ (l l' seen : List Str), ∃ seen', firsts seen (l ++ l') = firsts seen l ++ firsts seen' l'
  | [], l', seen => ⟨seen, rfl⟩
  | a :: l, l', seen => by
    rw [List.cons_append, firsts, firsts]
    split
    · exact firsts_append l l' seen
    · obtain ⟨s, h⟩ := firsts_append l l' (a :: seen)
      exact ⟨s, by rw [h]; rfl⟩

theorem Spec.BreadthFirst.namesNodup {bbs order : List BlockAst} {e : BlockAst} (h : BreadthFirst bbs order e) :
    (order.map (·.name)).Nodup := by rw [h.breadth]; exact firsts_nodup _ _

theorem Spec.BreadthFirst.head {bbs order : List BlockAst} {e : BlockAst} (h : BreadthFirst bbs order e) :
    order.head? = some e := by
  have h1 := h.breadth
  rw [firsts, if_neg (by simp)] at h1
  cases order with
  | nil => simp at h1
  | cons a l =>
    simp only [List.map_cons, List.cons.injEq] at h1
    have ha : a ∈ bbs := ((h.exact a).1 (by simp)).1
    have he : e ∈ bbs := by
      have := h.first
      cases bbs with
      | nil => simp at this
      | cons b bs => simp at this; subst this; simp
    have hn := h.names
    simp only [List.head?_cons, Option.some.injEq]
    obtain ⟨i, hi⟩ := List.getElem?_of_mem ha
    obtain ⟨j, hj⟩ := List.getElem?_of_mem he
    have x : (bbs.map (·.name))[i]? = some e.name := by rw [List.getElem?_map, hi, ← h1.1]; rfl
    have y : (bbs.map (·.name))[j]? = some e.name := by rw [List.getElem?_map, hj]; rfl
    have := (List.getElem?_inj (List.getElem?_eq_some_iff.1 x).1 hn).1 (x.trans y.symm)
    subst this
    rw [hi] at hj; cases hj; rfl

/-- In breadth-first order every block but the first has a predecessor before it. -/
theorem Spec.BreadthFirst.pred {bbs order : List BlockAst} {e : BlockAst} (h : BreadthFirst bbs order e)
    {i : Nat} {b : BlockAst} (hi : order[i]? = some b) (h0 : 0 < i) :
    ∃ (j : Nat) (b' : BlockAst), j < i ∧ order[j]? = some b' ∧ b.name ∈ successors b' := by
  have hnd := h.namesNodup
  have hhead := h.head
  have hlen : i < order.length := (List.getElem?_eq_some_iff.1 hi).1
  have hsplit : e.name :: order.flatMap successors =
      (e.name :: (order.take i).flatMap successors) ++ (order.drop i).flatMap successors := by
    rw [List.cons_append, ← List.flatMap_append, List.take_append_drop]
  obtain ⟨seen, hf⟩ := firsts_append (e.name :: (order.take i).flatMap successors) ((order.drop i).flatMap successors) []
  have hb := h.breadth
  rw [hsplit, hf] at hb
  have hne : b.name ≠ e.name := by
    intro he
    have x : (order.map (·.name))[i]? = some e.name := by rw [List.getElem?_map, hi, ← he]; rfl
    have y : (order.map (·.name))[0]? = some e.name := by
      rw [List.getElem?_map, ← List.head?_eq_getElem?, hhead]; rfl
    have := (List.getElem?_inj (List.getElem?_eq_some_iff.1 x).1 hnd).1 (x.trans y.symm)
    omega
  have hbi : (order.map (·.name))[i]? = some b.name := by rw [List.getElem?_map, hi]; rfl
  by_cases hl : i < (firsts [] (e.name :: (order.take i).flatMap successors)).length
  · rw [hb, List.getElem?_append_left hl] at hbi
    have hm := (mem_firsts.1 (List.mem_of_getElem? hbi)).1
    rw [List.mem_cons] at hm
    rcases hm with hm | hm
    · exact absurd hm hne
    · obtain ⟨b', hb', hs⟩ := List.mem_flatMap.1 hm
      obtain ⟨j, hj⟩ := List.getElem?_of_mem hb'
      rw [List.getElem?_take] at hj
      split at hj
      · rename_i hji
        exact ⟨j, b', hji, hj, hs⟩
      · cases hj
  · exfalso
    -- the blocks before are closed under successors
    have hcl : ∀ x ∈ e.name :: (order.take i).flatMap successors, x ∈ (order.take i).map (·.name) := by
      intro x hx
      have hx' : x ∈ firsts [] (e.name :: (order.take i).flatMap successors) := mem_firsts.2 ⟨hx, by simp⟩
      obtain ⟨k, hk⟩ := List.getElem?_of_mem hx'
      have hkl := (List.getElem?_eq_some_iff.1 hk).1
      have : (order.map (·.name))[k]? = some x := by rw [hb, List.getElem?_append_left hkl]; exact hk
      rw [List.getElem?_map] at this
      obtain ⟨c, hc, rfl⟩ := Option.map_eq_some_iff.1 this
      refine List.mem_map.2 ⟨c, ?_, rfl⟩
      apply List.mem_of_getElem? (i := k)
      rw [List.getElem?_take, if_pos (by omega)]
      exact hc
    have hflow : ∀ x, Flows bbs e.name x → x ∈ (order.take i).map (·.name) := by
      intro x hx
      generalize hen : e.name = en at hx
      induction hx with
      | refl => subst hen; exact hcl _ (by simp)
      | @step c blk _ hblk hc ih =>
        subst hen
        obtain ⟨b', hb', hn'⟩ := List.mem_map.1 ih
        have hin : b' ∈ bbs := ((h.exact b').1 (List.mem_of_mem_take hb')).1
        have heq : b' = blk := by
          obtain ⟨k, hk⟩ := List.getElem?_of_mem hin
          obtain ⟨k', hk'⟩ := List.getElem?_of_mem hblk
          have x : (bbs.map (·.name))[k]? = some blk.name := by rw [List.getElem?_map, hk, ← hn']; rfl
          have y : (bbs.map (·.name))[k']? = some blk.name := by rw [List.getElem?_map, hk']; rfl
          have := (List.getElem?_inj (List.getElem?_eq_some_iff.1 x).1 h.names).1 (x.trans y.symm)
          subst this
          rw [hk] at hk'; cases hk'; rfl
        subst heq
        exact hcl _ (List.mem_cons_of_mem _ (List.mem_flatMap.2 ⟨b', hb', hc⟩))
    have hin := hflow b.name ((h.exact b).1 (List.mem_of_getElem? hi)).2
    obtain ⟨b', hb', hn'⟩ := List.mem_map.1 hin
    obtain ⟨k, hk⟩ := List.getElem?_of_mem hb'
    rw [List.getElem?_take] at hk
    split at hk
    · rename_i hki
      have x : (order.map (·.name))[k]? = some b.name := by rw [List.getElem?_map, hk, ← hn']; rfl
      have := (List.getElem?_inj (List.getElem?_eq_some_iff.1 x).1 hnd).1 (x.trans hbi.symm)
      omega
    · cases hk

/-- C18: the blocks laid out in the function of an accepted text are the blocks of the text that can be
reached from the first one (`e`), each once, `e` first; every other block has a predecessor before it;
and the order is breadth-first. Each laid-out block has the name, the number of parameters and the
number of statements of its block of the text. -/
theorem C18_breadth_first {w : World} {input : Str} {p : Program} (h : Accepted w input p) {gs : List GlobalAst}
    (hg : Reads input gs) {name : Str} {params : List (Str × TyAst)} {ret : Option TyAst} {bbs : List BlockAst}
    (hf : .funDef name params ret bbs ∈ gs) :
    ∃ (f : Func) (fd : FData) (e : BlockAst) (order : List BlockAst), p.funcs.get? f = some fd ∧ fd.name = name ∧ bbs.head? = some e ∧
      All2 (fun (hi : BB × List Value) (b : BlockAst) => ∃ x, Block p f hi.1 x ∧ x.name = keptName b.name ∧
        x.params.length = b.params.length ∧ hi.2.length = b.stmts.length) fd.layout.bbs order ∧
      (∀ b, b ∈ order ↔ b ∈ bbs ∧ Flows bbs e.name b.name) ∧ (order.map (·.name)).Nodup ∧ order.head? = some e ∧
      (∀ (i : Nat) b, order[i]? = some b → 0 < i →
        ∃ (j : Nat) (b' : BlockAst), j < i ∧ order[j]? = some b' ∧ b.name ∈ successors b') ∧
      order.map (·.name) = firsts [] (e.name :: order.flatMap successors) := by
  obtain ⟨-, vars, fns, hI, -, -⟩ := h.items hg
  obtain ⟨_, _, f, fd, order, r, -, -, hfd, hF⟩ := hI.defined hf
  obtain ⟨e, hB⟩ := hF.isOrder
  refine ⟨f, fd, e, order, hfd, hF.hasName, hB.first, ?_, hB.exact, hB.namesNodup, hB.head,
    fun i b h1 h2 => hB.pred h1 h2, hB.breadth⟩
  refine hF.blocks.mono ?_
  rintro ⟨b, is⟩ blk ⟨⟨x, h1, h2, h3⟩, h4⟩
  exact ⟨x, h1, h2, h3.1, h4.length⟩

/-- The entry of the function is its first block in the text. -/
theorem C18_entry_block {w : World} {input : Str} {p : Program} (h : Accepted w input p) {gs : List GlobalAst}
    (hg : Reads input gs) {name : Str} {params : List (Str × TyAst)} {ret : Option TyAst} {bbs : List BlockAst}
    (hf : .funDef name params ret bbs ∈ gs) :
    ∃ (f : Func) (fd : FData) (e : BlockAst) (b : BB) (x : BData), p.funcs.get? f = some fd ∧ fd.name = name ∧ bbs.head? = some e ∧
      fd.layout.entryBb = some b ∧ Block p f b x ∧ x.name = keptName e.name ∧ x.params.length = e.params.length := by
  obtain ⟨f, fd, e, order, h1, h2, h3, h4, -, -, h5, -, -⟩ := C18_breadth_first h hg hf
  cases order with
  | nil => cases h5
  | cons o os =>
    cases h5
    unfold Layout.entryBb
    generalize hl : fd.layout.bbs = l at h4
    cases h4 with
    | cons k ks =>
      obtain ⟨x, k1, k2, k3, -⟩ := k
      exact ⟨f, fd, e, _, x, h1, h2, h3, by rw [hl]; rfl, k1, k2, k3⟩

/-! ### C19 -/

/-- C19 as far as it holds: in an accepted text no two items share a name, no two blocks of a function
do, no two parameters of a function do; and among the blocks that can be reached (`order`) no two
block parameters and definitions share a name, definitions differ from the function parameters, and
none of them is the name of a global variable before the function. Not excluded are names that occur
again in unreachable blocks, and block parameters named like function parameters. -/
theorem C19_duplicates_rejected_partial {w : World} {input : Str} {p : Program} (h : Accepted w input p)
    {gs : List GlobalAst} (hg : Reads input gs) :
    (gs.map itemName).Nodup ∧
    ∀ pre post name params ret bbs, gs = pre ++ .funDef name params ret bbs :: post →
      (bbs.map (·.name)).Nodup ∧ (params.map (·.1)).Nodup ∧
      ∃ (e : BlockAst) (order : List BlockAst), bbs.head? = some e ∧ (∀ b, b ∈ order ↔ b ∈ bbs ∧ Flows bbs e.name b.name) ∧
        (order.map (·.name)).Nodup ∧
        (order.flatMap paramNames ++ order.flatMap defNames).Nodup ∧
        (∀ n ∈ order.flatMap defNames, n ∉ params.map (·.1)) ∧
        ∀ n ∈ order.flatMap paramNames ++ order.flatMap defNames, ∀ ty init, .globalDef n ty init ∉ pre := by
  obtain ⟨-, vars, fns, hI, -, -⟩ := h.items hg
  refine ⟨hI.names.1, ?_⟩
  intro pre post name params ret bbs hs
  have key : ∀ {gs vars fns}, Items p gs vars fns → ∀ {post}, gs = pre ++ .funDef name params ret bbs :: post →
      ∃ vars' fns' f fd order r, Items p pre vars' fns' ∧ FunIs p (fun n v => (n, v) ∈ vars') (fun n g => (n, g) ∈ fns' ++ [(name, f)])
        f fd name params ret bbs order r := by
    intro gs vars fns hI
    have last : ∀ {l : List GlobalAst} {g : GlobalAst} {post}, l ++ [g] = pre ++ .funDef name params ret bbs :: post →
        (post = [] ∧ l = pre ∧ g = .funDef name params ret bbs) ∨ ∃ post', l = pre ++ .funDef name params ret bbs :: post' := by
      intro l g post he
      rcases List.eq_nil_or_concat post with rfl | ⟨post', a, rfl⟩
      · have he' : l ++ [g] = pre ++ [.funDef name params ret bbs] := he
        exact .inl ⟨rfl, (List.append_inj' he' rfl).1, by simpa using (List.append_inj' he' rfl).2⟩
      · have he' : l ++ [g] = (pre ++ .funDef name params ret bbs :: post') ++ [a] := by rw [he]; simp
        exact .inr ⟨post', (List.append_inj' he' rfl).1⟩
    induction hI with
    | nil => intro post he; simp at he
    | globalDef _ _ _ _ ih =>
      intro post he
      rcases last he with ⟨-, -, h⟩ | ⟨post', h⟩
      · cases h
      · exact ih h
    | funDecl _ _ _ _ _ ih =>
      intro post he
      rcases last he with ⟨-, -, h⟩ | ⟨post', h⟩
      · cases h
      · exact ih h
    | funDef hi _ _ hf hF ih =>
      intro post he
      rcases last he with ⟨-, rfl, h⟩ | ⟨post', h⟩
      · cases h; exact ⟨_, _, _, _, _, _, hi, hF⟩
      · exact ih h
  obtain ⟨vars', fns', f, fd, order, r, hpre, hF⟩ := key hI hs
  obtain ⟨e, hB⟩ := hF.isOrder
  refine ⟨hB.names, hF.unique.distinct, e, order, hB.first, hB.exact, hB.namesNodup, hF.unique.locals, hF.unique.apart, ?_⟩
  intro n hn ty init hm
  have hv : ∀ {gs vars fns}, Items p gs vars fns → .globalDef n ty init ∈ gs → ∃ v, (n, v) ∈ vars := by
    intro gs vars fns hI
    induction hI with
    | nil => simp
    | globalDef _ _ _ _ ih =>
      intro hm
      rw [List.mem_append, List.mem_singleton] at hm
      rcases hm with hm | hm
      · obtain ⟨v, hv⟩ := ih hm; exact ⟨v, List.mem_append_left _ hv⟩
      · cases hm; exact ⟨_, List.mem_append_right _ (List.mem_singleton.2 rfl)⟩
    | funDecl _ _ _ _ _ ih =>
      intro hm
      rw [List.mem_append, List.mem_singleton] at hm
      rcases hm with hm | hm
      · exact ih hm
      · cases hm
    | funDef _ _ _ _ _ ih =>
      intro hm
      rw [List.mem_append, List.mem_singleton] at hm
      rcases hm with hm | hm
      · exact ih hm
      · cases hm
  obtain ⟨v, hv⟩ := hv hpre hm
  exact hF.unique.global n hn v hv

/-! ### C20 -/

theorem ascending_before {lay : List (BB × List Value)} (ha : (lay.flatMap (·.2)).Pairwise (· < ·)) {j j' i i' : Nat} {h h' : BB}
    {is is' : List Value} {v w : Value} (hj : lay[j]? = some (h, is)) (hi : is[i]? = some w)
    (hj' : lay[j']? = some (h', is')) (hi' : is'[i']? = some v) (hlt : v < w) : j' < j ∨ j' = j ∧ i' < i := by
  rw [List.pairwise_flatMap] at ha
  rcases Nat.lt_trichotomy j' j with h1 | h1 | h1
  · exact .inl h1
  · subst h1
    rw [hj] at hj'; cases hj'
    refine .inr ⟨rfl, ?_⟩
    have hp := ha.1 _ (List.mem_of_getElem? hj)
    obtain ⟨l1, e1⟩ := List.getElem?_eq_some_iff.1 hi
    obtain ⟨l2, e2⟩ := List.getElem?_eq_some_iff.1 hi'
    rcases Nat.lt_trichotomy i' i with h2 | h2 | h2
    · exact h2
    · subst h2; rw [hi] at hi'; cases hi'; exact absurd hlt (Nat.lt_irrefl _)
    · have := List.pairwise_iff_getElem.1 hp i i' l1 l2 h2
      rw [e1, e2] at this
      omega
  · obtain ⟨l1, e1⟩ := List.getElem?_eq_some_iff.1 hj
    obtain ⟨l2, e2⟩ := List.getElem?_eq_some_iff.1 hj'
    have := List.pairwise_iff_getElem.1 ha.2 j j' l1 l2 h1
    rw [e1, e2] at this
    have := this w (List.mem_of_getElem? hi) v (List.mem_of_getElem? hi')
    omega

theorem Spec.Items.global {p : Program} {gs : List GlobalAst} {vars : List (Str × Value)} {fns : List (Str × Func)}
    (h : Items p gs vars fns) {n : Str} {v : Value} (hm : (n, v) ∈ vars) :
    ∃ ty init, .globalDef n ty init ∈ gs ∧ GlobalIs p v n ty init := by
  induction h with
  | nil => simp at hm
  | globalDef _ _ _ hG ih =>
    rw [List.mem_append, List.mem_singleton] at hm
    rcases hm with hm | hm
    · obtain ⟨a, b, c, d⟩ := ih hm
      exact ⟨a, b, List.mem_append_left _ c, d⟩
    · cases hm; exact ⟨_, _, by simp, hG⟩
  | funDecl _ _ _ _ _ ih =>
    obtain ⟨a, b, c, d⟩ := ih hm
    exact ⟨a, b, List.mem_append_left _ c, d⟩
  | funDef _ _ _ _ _ ih =>
    obtain ⟨a, b, c, d⟩ := ih hm
    exact ⟨a, b, List.mem_append_left _ c, d⟩

/-- C20: in an accepted text, every statement `st` of a function stands for the laid-out instruction `w`
(`StmtIs`), where each symbol that became an operand refers to a global variable of the text, to the
function parameter of that name, to the parameter of that name of a block from which this block can be
reached, or to a definition of that name earlier in such a block. -/
theorem C20_symbols_resolve {w : World} {input : Str} {p : Program} (h : Accepted w input p) {gs : List GlobalAst}
    (hg : Reads input gs) {name : Str} {params : List (Str × TyAst)} {ret : Option TyAst} {bbs : List BlockAst}
    (hf : .funDef name params ret bbs ∈ gs) :
    ∃ f fd order gv, p.funcs.get? f = some fd ∧ fd.name = name ∧ (∃ e, BreadthFirst bbs order e) ∧
      (∀ s v, gv s v → ∃ ty init, .globalDef s ty init ∈ gs ∧ GlobalIs p v s ty init) ∧
      fd.layout.bbs.length = order.length ∧
      ∀ (j i : Nat) (b : BlockAst) (st : StmtAst) (bh : BB) (is : List Value), order[j]? = some b → b.stmts[i]? = some st →
        fd.layout.bbs[j]? = some (bh, is) → ∃ u x E, is[i]? = some u ∧ LocalVal p f u x ∧
          StmtIs E st x.ty x.kind ∧ E.den = Denotes p f ∧
          ∀ s v, E.sym s v → Resolves p gv f params fd.params fd.layout.bbs order j i s v := by
  obtain ⟨-, vars, fns, hI, -, -⟩ := h.items hg
  obtain ⟨vars', fns', f, fd, order, r, hv, -, hfd, hF⟩ := hI.defined hf
  refine ⟨f, fd, order, fun n v => (n, v) ∈ vars', hfd, hF.hasName, hF.isOrder, fun s v hs => hI.global (hv.subset hs), hF.blocks.length, ?_⟩
  intro j i b st bh is h1 h2 h3
  obtain ⟨-, hS⟩ := hF.blocks.get _ _ _ h3 h1
  have hi : i < is.length := by
    rw [hS.length]; exact (List.getElem?_eq_some_iff.1 h2).1
  obtain ⟨u, hu⟩ : ∃ u, is[i]? = some u := ⟨_, List.getElem?_eq_getElem hi⟩
  obtain ⟨x, hx, -, hst⟩ := hS.get _ _ _ hu h2
  refine ⟨u, x, _, hu, hx, hst, rfl, ?_⟩
  rintro s v (hs | ⟨-, n', hd, hlt, hfl, hm⟩)
  · exact .global hs
  · cases hd with
    | arg a0 a1 a2 =>
      refine .arg a1 a2 h1 a0 (hm fun hin => ?_)
      exact hF.unique.apart _ hin (List.mem_map.2 ⟨_, List.mem_of_getElem? a1, rfl⟩)
    | param a0 a1 a2 a3 a4 =>
      refine .param h1 a0 a1 a2 a3 a4 hfl (hm fun hin => ?_)
      exact (List.nodup_append.1 hF.unique.locals).2.2 _ (List.mem_flatMap.2 ⟨_, List.mem_of_getElem? a0,
        List.mem_map.2 ⟨_, List.mem_of_getElem? a3, rfl⟩⟩) _ hin rfl
    | inst a0 a1 a2 a3 => exact .inst h1 a0 a1 a2 a3 hfl (ascending_before hF.ascending h3 hu a1 a3 hlt)

/-! ### C21 -/

theorem Spec.ArgsAre.lengths {E : Env} {as : List ValAst} {ts : List Ty} {vs : List Value} (h : ArgsAre E as ts vs) :
    vs.length = ts.length ∧ ts.length ≤ as.length := by
  induction h with
  | nil => simp
  | cons _ _ ih => simp only [List.length_cons]; omega

/-- The argument lists of the instruction match its callee or targets, and no argument was missing in
the statement. -/
inductive ArgsFit (p : Program) (f : Func) : StmtAst → VKind → Prop where
  | call {n : Str} {as : List ValAst} {g : Func} {ts : List Ty} {r : Ty} {vs : List Value} : FuncTy p g (.func ts r) →
      vs.length = ts.length → ts.length ≤ as.length → ArgsFit p f (.call n as) (.call g vs)
  | defCall {d n : Str} {as : List ValAst} {g : Func} {ts : List Ty} {r : Ty} {vs : List Value} : FuncTy p g (.func ts r) →
      vs.length = ts.length → ts.length ≤ as.length → ArgsFit p f (.def d (.call n as)) (.call g vs)
  | jump {n : Str} {as : List ValAst} {b : BB} {ts : List Ty} {vs : List Value} : ParamTys p f b ts →
      vs.length = ts.length → ts.length ≤ as.length → ArgsFit p f (.jump n as) (.jump b vs)
  | branch {c : ValAst} {tn fn : Str} {ta fa : List ValAst} {v : Value} {tb fb : BB} {ts fs : List Ty} {tv fv : List Value} :
      ParamTys p f tb ts → tv.length = ts.length → ts.length ≤ ta.length →
      ParamTys p f fb fs → fv.length = fs.length → fs.length ≤ fa.length →
      ArgsFit p f (.branch c tn ta fn fa) (.branch v tb fb tv fv)
  | other {st : StmtAst} {k : VKind} : (∀ n as, st ≠ .call n as ∧ (∀ d, st ≠ .def d (.call n as)) ∧ st ≠ .jump n as) →
      (∀ c tn ta fn fa, st ≠ .branch c tn ta fn fa) → ArgsFit p f st k

/-- C21 as far as it holds: a text with too few arguments for a call, jump or branch in a reachable block is never
accepted, and the generated instruction has exactly as many arguments as parameters. Too many arguments are
accepted: see `C21_violated`. -/
theorem C21_argument_counts_partial {w : World} {input : Str} {p : Program} (h : Accepted w input p) {gs : List GlobalAst}
    (hg : Reads input gs) {name : Str} {params : List (Str × TyAst)} {ret : Option TyAst} {bbs : List BlockAst}
    (hf : .funDef name params ret bbs ∈ gs) :
    ∃ (f : Func) (fd : FData) (e : BlockAst) (order : List BlockAst), p.funcs.get? f = some fd ∧ fd.name = name ∧ bbs.head? = some e ∧
      (∀ b, b ∈ order ↔ b ∈ bbs ∧ Flows bbs e.name b.name) ∧
      ∀ b ∈ order, ∀ st ∈ b.stmts, ∃ u x, LocalVal p f u x ∧ ArgsFit p f st x.kind := by
  obtain ⟨-, vars, fns, hI, -, -⟩ := h.items hg
  obtain ⟨vars', fns', f, fd, order, r, hv, -, hfd, hF⟩ := hI.defined hf
  obtain ⟨e, hB⟩ := hF.isOrder
  refine ⟨f, fd, e, order, hfd, hF.hasName, hB.first, hB.exact, ?_⟩
  intro b hb st hst
  obtain ⟨j, hj⟩ := List.getElem?_of_mem hb
  obtain ⟨i, hi⟩ := List.getElem?_of_mem hst
  obtain ⟨⟨bh, is⟩, hl⟩ : ∃ x, fd.layout.bbs[j]? = some x :=
    ⟨_, List.getElem?_eq_getElem (by rw [hF.blocks.length]; exact (List.getElem?_eq_some_iff.1 hj).1)⟩
  obtain ⟨-, hS⟩ := hF.blocks.get _ _ _ hl hj
  obtain ⟨u, hu⟩ : ∃ u, is[i]? = some u :=
    ⟨_, List.getElem?_eq_getElem (by rw [hS.length]; exact (List.getElem?_eq_some_iff.1 hi).1)⟩
  obtain ⟨x, hx, -, hs⟩ := hS.get _ _ _ hu hi
  refine ⟨u, x, hx, ?_⟩
  generalize x.kind = k at hs
  generalize x.ty = t at hs
  cases hs with
  | «def» he _ =>
    cases he with
    | call _ h2 h3 => exact .defCall h2 h3.lengths.1 h3.lengths.2
    | _ => exact .other (by simp) (by simp)
  | call he => cases he with | call _ h2 h3 => exact .call h2 h3.lengths.1 h3.lengths.2
  | branch _ _ h1 h2 _ h3 h4 => exact .branch h1 h2.lengths.1 h2.lengths.2 h3 h4.lengths.1 h4.lengths.2
  | jump _ h1 h2 => exact .jump h1 h2.lengths.1 h2.lengths.2
  | _ => exact .other (by simp) (by simp)

/-! ### C43 -/

theorem GProg_closed {gs : List GlobalAst} {ts : List Token} (h : GProg gs ts) {n : Str} {params : List (Str × TyAst)}
    {ret : Option TyAst} {bbs : List BlockAst} (hm : .funDef n params ret bbs ∈ gs) :
    ∀ b ∈ bbs, ∃ init last, b.stmts = init ++ [last] ∧ isTerm last = true ∧
      ∀ st ∈ init, isTerm st = false ∧ isErr st = false := by
  induction h with
  | nil => simp at hm
  | cons hG _ ih =>
    rcases List.mem_cons.1 hm with rfl | hm
    · cases hG with
      | funDef _ _ _ _ _ hb _ _ => exact GBlocks_closed hb
    · exact ih hm

/-- A well-formed program. -/
structure WellFormed (p : Program) : Prop where
  valueUses : ValueUsesExact p
  blockUses : BlockUsesExact p
  closed : Closed p
  typed : WellTyped p
  parents : ∀ f fd, p.funcs.get? f = some fd → ParentsRight fd.layout
  live : ∀ f fd b is, p.funcs.get? f = some fd → (b, is) ∈ fd.layout.bbs →
    (∃ x, Block p f b x) ∧ ∀ v ∈ is, ∃ x, LocalVal p f v x
  ends : ∀ f fd b is, p.funcs.get? f = some fd → (b, is) ∈ fd.layout.bbs →
    ∃ init t, is = init ++ [t] ∧ (∃ x, LocalVal p f t x ∧ terminator x.kind = true) ∧
      ∀ v ∈ init, ∃ x, LocalVal p f v x ∧ terminator x.kind = false
  laidOut : ∀ f fd b is v x c, p.funcs.get? f = some fd → (b, is) ∈ fd.layout.bbs → v ∈ is → LocalVal p f v x →
    c ∈ targets x.kind → c ∈ fd.layout.bbs.map (·.1)

theorem LInv.parentsRight {l : Layout} (hi : LInv l) : ParentsRight l := by
  refine ⟨hi.parent, fun i => ?_, hi.keys, hi.insts, fun i b b' h h' => ?_⟩
  · constructor
    · intro h b hb
      have := (hi.parent i b).2 hb
      rw [show l.instBb.get? i = none from h] at this; cases this
    · intro h
      show l.instBb.get? i = none
      rw [Option.eq_none_iff_forall_ne_some]
      intro b hb
      exact h b ((hi.parent i b).1 hb)
  · have h1 := (hi.parent i b).2 h
    have h2 := (hi.parent i b').2 h'
    rw [h1] at h2; cases h2; rfl

theorem StmtIs_terminator {E : Env} {st : StmtAst} {t : Ty} {k : VKind} (h : StmtIs E st t k) :
    terminator k = isTerm st := by
  cases h with
  | «def» h _ => cases h <;> rfl
  | call h => cases h; rfl
  | _ => rfl

/-- C43: a program generated from text is well-formed: users of values and blocks are exact, nothing
dangles, every value is well-typed, parent blocks are right, every laid-out block is live and consists
of live instructions of which exactly the last one is a terminator, and control passes to laid-out
blocks only. -/
theorem C43_accepted_well_formed {w : World} {input : Str} {p : Program} (h : Accepted w input p) : WellFormed p := by
  obtain ⟨gs, hg, -⟩ := C47_program_is_text h
  obtain ⟨hi, vars, fns, hI, -, hfns⟩ := h.items hg
  obtain ⟨ts, -, hG⟩ := hg
  have hfun : ∀ f fd, p.funcs.get? f = some fd → fd.layout.bbs = [] ∨ ∃ n params ret bbs order r gv gf,
      .funDef n params ret bbs ∈ gs ∧ FunIs p gv gf f fd n params ret bbs order r := by
    intro f fd hf
    have h1 : f ∈ p.view.fns := by
      rw [hi.fns]
      show ((p.funcs.get? f).map _).isSome
      rw [hf]; rfl
    rw [hfns] at h1
    obtain ⟨⟨n, f'⟩, hm, rfl⟩ := List.mem_map.1 h1
    obtain ⟨fd', hf', h2⟩ := hI.func hm
    rw [hf] at hf'; cases hf'
    rcases h2 with ⟨a, b, c, d⟩ | ⟨a, b, c, d, e, g, i, j, k⟩
    · exact .inl d.noBlocks.1
    · exact .inr ⟨n, a, b, c, d, e, g, i, j, k⟩
  have hlive : ∀ f fd b is, p.funcs.get? f = some fd → (b, is) ∈ fd.layout.bbs →
      (∃ x, Block p f b x) ∧ ∀ v ∈ is, ∃ x, LocalVal p f v x := by
    intro f fd b is hf hm
    have h1 : p.view.lay f = some fd.layout := by
      show (p.funcs.get? f).map _ = _
      rw [hf]; rfl
    obtain ⟨h2, h3⟩ := (hi.lays f _ h1).2 b is hm
    refine ⟨?_, fun v hv => ?_⟩
    · obtain ⟨⟨n, ps⟩, hx⟩ := Option.isSome_iff_exists.1 h2
      obtain ⟨x, hx, -⟩ := view_b_iff.1 hx
      exact ⟨x, hx⟩
    · obtain ⟨s, hs⟩ := Option.isSome_iff_exists.1 (h3 v hv)
      obtain ⟨x, hx, -⟩ := view_l_iff.1 hs
      exact ⟨x, hx⟩
  refine ⟨?_, ?_, ?_, hi.wellTyped, ?_, hlive, ?_, ?_⟩
  · exact C01_value_uses_exact_partial (hi.reach.mono (fun _ _ ho => ⟨ho.1, ho.2.2.1⟩)) hi.max
  · exact C02_block_uses_exact_partial (hi.reach.mono (fun _ _ ho => ho.2.2.2.1))
  · exact (C03_no_dangling_operands_partial (hi.reach.mono (fun _ _ ho => ho.1)) hi.max).1
  · intro f fd hf
    have h1 : p.view.lay f = some fd.layout := by
      show (p.funcs.get? f).map _ = _
      rw [hf]; rfl
    exact (hi.lays f _ h1).1.parentsRight
  · intro f fd b is hf hm
    rcases hfun f fd hf with h1 | ⟨n, params, ret, bbs, order, r, gv, gf, hdef, hF⟩
    · rw [h1] at hm; cases hm
    · obtain ⟨j, hj⟩ := List.getElem?_of_mem hm
      obtain ⟨blk, hblk⟩ : ∃ x, order[j]? = some x :=
        ⟨_, List.getElem?_eq_getElem (by rw [← hF.blocks.length]; exact (List.getElem?_eq_some_iff.1 hj).1)⟩
      obtain ⟨-, hS⟩ := hF.blocks.get _ _ _ hj hblk
      obtain ⟨e, hB⟩ := hF.isOrder
      have hin : blk ∈ bbs := ((hB.exact blk).1 (List.mem_of_getElem? hblk)).1
      obtain ⟨init, last, he, ht, hinit⟩ := GProg_closed hG hdef blk hin
      have hlen := hS.length
      rw [he] at hlen
      simp only [List.length_append, List.length_singleton] at hlen
      have hne : is ≠ [] := by intro h; rw [h] at hlen; simp at hlen
      refine ⟨is.dropLast, is.getLast hne, (List.dropLast_concat_getLast hne).symm, ?_, ?_⟩
      · have h1 : is[init.length]? = some (is.getLast hne) := by
          rw [List.getLast_eq_getElem, List.getElem?_eq_getElem (by omega)]
          congr 2; omega
        obtain ⟨x, hx, -, hs⟩ := hS.get _ _ _ h1 (show blk.stmts[init.length]? = some last by rw [he]; simp)
        exact ⟨x, hx, by rw [StmtIs_terminator hs]; exact ht⟩
      · intro v hv
        obtain ⟨i, hv⟩ := List.getElem?_of_mem hv
        have hil : i < init.length := by
          have := (List.getElem?_eq_some_iff.1 hv).1
          simp at this; omega
        rw [List.getElem?_dropLast] at hv
        split at hv
        · have h2 : blk.stmts[i]? = some init[i] := by rw [he, List.getElem?_append_left hil, List.getElem?_eq_getElem hil]
          obtain ⟨x, hx, -, hs⟩ := hS.get _ _ _ hv h2
          exact ⟨x, hx, by rw [StmtIs_terminator hs]; exact (hinit _ (List.getElem_mem hil)).1⟩
        · cases hv
  · intro f fd b is v x c hf hm hv hx hc
    rcases hfun f fd hf with h1 | ⟨n, params, ret, bbs, order, r, gv, gf, hdef, hF⟩
    · rw [h1] at hm; cases hm
    · obtain ⟨j, hj⟩ := List.getElem?_of_mem hm
      obtain ⟨blk, hblk⟩ : ∃ x, order[j]? = some x :=
        ⟨_, List.getElem?_eq_getElem (by rw [← hF.blocks.length]; exact (List.getElem?_eq_some_iff.1 hj).1)⟩
      obtain ⟨-, hS⟩ := hF.blocks.get _ _ _ hj hblk
      obtain ⟨i, hi⟩ := List.getElem?_of_mem hv
      obtain ⟨st, hst⟩ : ∃ st, blk.stmts[i]? = some st :=
        ⟨_, List.getElem?_eq_getElem (by rw [← hS.length]; exact (List.getElem?_eq_some_iff.1 hi).1)⟩
      obtain ⟨y, hy, -, hs⟩ := hS.get _ _ _ hi hst
      have : y = x := by
        obtain ⟨fd1, e1, e2⟩ := hy
        obtain ⟨fd2, e3, e4⟩ := hx
        rw [e1] at e3; cases e3
        rw [e2] at e4; cases e4; rfl
      subst this
      have lab : ∀ l c, (envOf p gv gf f params fd.params fd.layout.bbs order r blk.name v).bb l c → c ∈ fd.layout.bbs.map (·.1) := by
        rintro l c ⟨j, _, is, -, -, h⟩
        exact List.mem_map.2 ⟨(c, is), List.mem_of_getElem? h, rfl⟩
      generalize y.kind = k at hs hc
      generalize y.ty = t at hs
      cases hs with
      | «def» h _ => cases h <;> simp [targets] at hc
      | call h => cases h; simp [targets] at hc
      | branch _ a1 _ _ a2 _ _ =>
        simp only [targets, List.mem_cons, List.not_mem_nil, or_false] at hc
        rcases hc with rfl | rfl
        · exact lab _ _ a1
        · exact lab _ _ a2
      | jump a1 _ _ =>
        simp only [targets, List.mem_cons, List.not_mem_nil, or_false] at hc
        subst hc
        exact lab _ _ a1
      | _ => simp [targets] at hc

end Koopa
