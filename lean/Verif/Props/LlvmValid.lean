import Verif.Lemmas.Back.LlvmSsa
import Verif.Lemmas.Lib.RawCheck
import Verif.Props.Llvm
/-!
C53: LLVM accepts the generated text. The rules are in `Spec/LlvmValid.lean`: types fit, blocks end once and at their end, phi nodes name every way to
their block once, control does not come back to the first block, what is called or jumped to is there (`ModOk`); no name is defined twice (`WellNamed`);
definitions come before uses (`Fn.Ssa`).
-/
namespace Koopa
open Koopa.Spec Koopa.Spec.Ll

/-- Blocks know their users once each. -/
theorem Accepted.usersOnce {w : World} {input : Str} {p : Program} (h : Accepted w input p) :
    ∀ f fd b x, p.funcs.get? f = some fd → fd.dfg.bbs.get? b = some x → x.usedBy.Nodup := by
  intro f fd b x hf hb
  obtain ⟨gs, hg, -⟩ := C47_program_is_text h
  obtain ⟨hI, -⟩ := h.items hg
  have hB := (hI.reach.mono (fun _ _ ho => ho.2.2.2.1)).binv
  exact (hB.graphs trivial f fd hf).once b x hb

/-- Missing for C53: programs with arrays of 2^63 or more elements, with names that LLVM cannot write, with parameters of entry blocks (C51_violated);
and programs in which a block has the name of a value (C53_labels_violated). Otherwise the generated text is that of exactly one module, which
is well typed and defines no name twice. Its definitions come before their uses exactly if those of the program do, which the front end does
not check (`C53_order_violated`). -/
theorem C53_llvm_valid_partial {w : World} {input : Str} {p : Program} (h : Accepted w input p) (hs : ShortArrays p) (hn : LlvmNamed p)
    (he : PlainEntries p) {s : Str} {m : NM} (hg : llvmGenerate o NM.new p = some (s, m)) :
    ∃ M, Written M s ∧ (∀ M', Written M' s → M' = M) ∧ WellNamed M ∧ ModOk M ∧
      ((∀ F, .define F ∈ M → F.Ssa) ↔ UsesDominated p) ∧ (LabelsApart p → LabelsDiffer M) := by
  obtain ⟨gs, hgs, -⟩ := C47_program_is_text h
  obtain ⟨vars, fns, A⟩ := h.fromText hgs
  have hP := h.printable hs
  have hw := C43_accepted_well_formed h
  obtain ⟨G, Gs, Fs, hG, hW, hGs, hFs⟩ := llvm_words (A.llvmNames hn) (A.llvmOrder hP) (fun f fd hf => A.llvmFn hP hw he hf) hg
  exact ⟨Gs ++ Fs, hW, fun M' h' => written_unique h' hW, module_well_named hP.modNodup hG hGs hFs, module_ok hP hw he h.usersOnce hGs hFs,
    module_ssa hP (A.lready hP hw he) hw he h.usersOnce hGs hFs, fun ha => module_labels hP (A.llvmNames hn) ha hGs hFs⟩

/-! ### Checks for concrete programs -/

/-- The blocks to which control can get without block `c`. -/
def around (fd : FData) (c : BB) : List BB :=
  Raw.closeUnder (fun a => (Raw.succs fd a).filter (· != c)) 8 (((fd.layout.bbs.head?.map (·.1)).toList).filter (· != c))

/-- Uses and definitions of one function, decided. -/
def orderedFunc (fd : FData) : Bool :=
  fd.layout.bbs.all fun c =>
    let l := around fd c.1
    let params := match fd.dfg.bbs.get? c.1 with
      | none => []
      | some x => x.params
    Raw.closedUnder (fun a => (Raw.succs fd a).filter (· != c.1)) l &&
    (((fd.layout.bbs.head?.map (·.1)).toList).filter (· != c.1)).all l.contains &&
    fd.layout.bbs.all fun b => (List.range b.2.length).all fun i =>
      match b.2[i]? with
      | none => true
      | some u => match fd.dfg.values.get? u with
        | none => true
        | some x => (operands x.kind).all fun v =>
          (!c.2.contains v || (b.2.take i).contains v || (c.1 != b.1 && !l.contains b.1)) && (!params.contains v || !l.contains b.1)

/-- Uses and definitions, decided. -/
def ordered (p : Program) : Bool := p.funcs.entries.all fun e => orderedFunc e.2

theorem ordered_iff {p : Program} (h : ordered p = true) : UsesDominated p := by
  unfold ordered at h
  rw [List.all_eq_true] at h
  have key : ∀ {f fd c is b bs i u x v}, p.funcs.get? f = some fd → (c, is) ∈ fd.layout.bbs → (b, bs) ∈ fd.layout.bbs → bs[i]? = some u →
      fd.dfg.values.get? u = some x → v ∈ operands x.kind →
      (v ∈ is → v ∈ bs.take i ∨ c ≠ b ∧ Dominates p f c b) ∧ (∀ bd, fd.dfg.bbs.get? c = some bd → v ∈ bd.params → Dominates p f c b) := by
    intro f fd c is b bs i u x v hf hc hb hi hu hv
    have h1 := h (f, fd) (mem_of_get? hf)
    unfold orderedFunc at h1
    rw [List.all_eq_true] at h1
    have h2 := h1 _ hc
    simp only [Bool.and_eq_true, List.all_eq_true] at h2
    obtain ⟨⟨h3, h4⟩, h5⟩ := h2
    have hin : ∀ a, Avoids p f (· = c) a → a ∈ around fd c := by
      intro a ha
      induction ha with
      | entry hf' he hn =>
        rw [hf] at hf'; cases hf'
        simpa using h4 _ (List.mem_filter.2 ⟨by rw [he]; simp, by simpa using hn⟩)
      | step _ hedge hn ih =>
        obtain ⟨fd', is, u, y, e1, e2, e3, ⟨fd2, e4, e4'⟩, e5⟩ := hedge
        rw [hf] at e1 e4; cases e1; cases e4
        refine Raw.closedUnder_mem h3 ih (List.mem_filter.2 ⟨?_, by simpa using hn⟩)
        unfold Raw.succs
        simp only [List.mem_flatMap, List.mem_filter]
        exact ⟨_, ⟨e2, by simp⟩, u, e3, by rw [e4']; exact e5⟩
    have h6 := h5 _ hb i (List.mem_range.2 (List.getElem?_eq_some_iff.1 hi).1)
    simp only [hi, hu, List.all_eq_true] at h6
    have h7 := h6 v hv
    rw [Bool.and_eq_true] at h7
    constructor
    · intro hvi
      have h8 := h7.1
      simp only [Bool.or_eq_true, Bool.and_eq_true, Bool.not_eq_true', List.contains_eq_mem, decide_eq_false_iff_not, decide_eq_true_eq, bne_iff_ne] at h8
      rcases h8 with (h8 | h8) | ⟨h8, h9⟩
      · exact absurd hvi h8
      · exact .inl h8
      · exact .inr ⟨h8, fun ha => h9 (hin b ha)⟩
    · intro bd hbd hvb ha
      have h8 := h7.2
      simp only [hbd, Bool.or_eq_true, Bool.not_eq_true', List.contains_eq_mem, decide_eq_false_iff_not] at h8
      rcases h8 with h8 | h8
      · exact h8 hvb
      · exact h8 (hin b ha)
  constructor
  · intro f fd b pre u post x v c is hf hb hu hv hc hvi
    have := (key (i := pre.length) hf hc hb (by simp) hu hv).1 hvi
    simpa using this
  · intro f fd b is u x v c bd hf hb hui hu hv hc hbd hvb
    obtain ⟨⟨c', is'⟩, hc', rfl⟩ := List.mem_map.1 hc
    obtain ⟨i, hi⟩ := List.getElem?_of_mem hui
    exact (key hf hc' hb hi hu hv).2 bd hbd hvb

/-- Names apart, decided: neither begins with the other. -/
def labelsApart (p : Program) : Bool :=
  p.funcs.entries.all fun e =>
    e.2.dfg.values.entries.all (fun x => match x.2.name with
      | none => true
      | some n => decide (n.length ≤ 512) && e.2.dfg.bbs.entries.all (fun y => match y.2.name with
        | none => true
        | some l => !l.isPrefixOf n && !n.isPrefixOf l)) &&
    e.2.dfg.bbs.entries.all (fun y => match y.2.name with
      | none => true
      | some l => decide (l.length ≤ 512))

theorem labelsApart_iff {p : Program} (h : labelsApart p = true) : LabelsApart p := by
  unfold labelsApart at h
  rw [List.all_eq_true] at h
  constructor
  · rintro f v d b e n l ⟨fd, h1, h2⟩ ⟨fd', h3, h4⟩ hn hl
    rw [h1] at h3; cases h3
    have := h _ (mem_of_get? h1)
    rw [Bool.and_eq_true, List.all_eq_true] at this
    have h5 := this.1 _ (mem_of_get? h2)
    simp only [hn, Bool.and_eq_true, List.all_eq_true] at h5
    have h6 := h5.2 _ (mem_of_get? h4)
    simp only [hl, Bool.and_eq_true, Bool.not_eq_true', ← Bool.not_eq_true, List.isPrefixOf_iff_prefix] at h6
    refine ⟨?_, fun i => ⟨?_, ?_⟩⟩
    · rintro rfl; exact h6.1 (List.prefix_refl _)
    · rintro rfl; exact h6.1 (List.prefix_append ..)
    · rintro rfl; exact h6.2 (List.prefix_append ..)
  · rintro f v d n ⟨fd, h1, h2⟩ hn
    have := h _ (mem_of_get? h1)
    rw [Bool.and_eq_true, List.all_eq_true] at this
    have h5 := this.1 _ (mem_of_get? h2)
    simp only [hn, Bool.and_eq_true, decide_eq_true_eq] at h5
    exact h5.1
  · rintro f v d n ⟨fd, h1, h2⟩ hn
    have := h _ (mem_of_get? h1)
    rw [Bool.and_eq_true, List.all_eq_true, List.all_eq_true] at this
    have h5 := this.2 _ (mem_of_get? h2)
    simpa only [hn, decide_eq_true_eq] using h5

/-- The program of `llvmText`, which has a loop with two block parameters, a global array, a recursive function, comparisons and calls, meets the hypotheses;
its definitions come before their uses, so LLVM accepts the text. -/
example : ∃ p s m M, Accepted someWorld llvmText p ∧ llvmGenerate .backwards NM.new p = some (s, m) ∧ Written M s ∧ WellNamed M ∧ ModOk M ∧
    LabelsDiffer M ∧ ∀ F, .define F ∈ M → F.Ssa := by
  obtain ⟨p, h, hq⟩ := acceptsWith_iff (input := llvmText)
    (q := fun p => shortArrays p && llvmNamed p && plainEntries p && ordered p && labelsApart p && (llvmGenerate .backwards NM.new p).isSome) (by decide +kernel)
  simp only [Bool.and_eq_true] at hq
  obtain ⟨⟨⟨⟨⟨h1, h2⟩, h3⟩, h5⟩, h7⟩, h6⟩ := hq
  obtain ⟨⟨s, m⟩, hg⟩ := Option.isSome_iff_exists.1 h6
  obtain ⟨M, k1, -, k2, k3, k4, k5⟩ := C53_llvm_valid_partial h (shortArrays_iff h1) (llvmNamed_iff h2) (plainEntries_iff h3) hg
  exact ⟨p, s, m, M, h, hg, k1, k2, k3, k5 (labelsApart_iff h7), k4.2 (ordered_iff h5)⟩

/-- A program that passes a function on, through memory and a block parameter. -/
def funcTypesText : Str := ("decl @get(i32): (i32, (): i32): i32 fun @keep(@g: (i32, (): i32): i32): *(i32, (): i32): i32 {%e: %p = alloc (i32, (): i32): i32 store @g, %p " ++
  "%h = load %p br 1, %a(%h), %b %a(%k: (i32, (): i32): i32): store %k, %p ret %p %b: %q = call @get(2) store %q, %p ret %p}").toList

/-- Functions as values: in LLVM they are pointers to functions. -/
example : ∃ p s m M, Accepted someWorld funcTypesText p ∧ llvmGenerate .backwards NM.new p = some (s, m) ∧ Written M s ∧ WellNamed M ∧ ModOk M ∧ ∀ F, .define F ∈ M → F.Ssa := by
  obtain ⟨p, h, hq⟩ := acceptsWith_iff (input := funcTypesText)
    (q := fun p => shortArrays p && llvmNamed p && plainEntries p && ordered p && (llvmGenerate .backwards NM.new p).isSome) (by decide +kernel)
  simp only [Bool.and_eq_true] at hq
  obtain ⟨⟨⟨⟨h1, h2⟩, h3⟩, h5⟩, h6⟩ := hq
  obtain ⟨⟨s, m⟩, hg⟩ := Option.isSome_iff_exists.1 h6
  obtain ⟨M, k1, -, k2, k3, k4, -⟩ := C53_llvm_valid_partial h (shortArrays_iff h1) (llvmNamed_iff h2) (plainEntries_iff h3) hg
  exact ⟨p, s, m, M, h, hg, k1, k2, k3, k4.2 (ordered_iff h5)⟩

/-! ### Programs whose text LLVM rejects -/

/-- In the generated text definitions come before uses. -/
def LlvmTextOrdered : Prop := ∀ o w input p s m M, Accepted w input p → ShortArrays p → LlvmNamed p → PlainEntries p →
  llvmGenerate o NM.new p = some (s, m) → Written M s → ∀ F, .define F ∈ M → F.Ssa

/-- A program in which a value is used where it is not defined on every way. -/
def unorderedText : Str := "fun @main(): i32 {%e: br 1, %a, %b %a: %x = add 1, 2 jump %c %b: jump %c %c: ret %x}".toList

/-- Of four blocks, the fourth uses what the second defines, and control can get there through the third. -/
def unordered (p : Program) : Bool := p.funcLayout.any fun f => match p.funcs.get? f with
  | none => false
  | some fd => match fd.layout.bbs with
    | (e, [je]) :: (a, x :: _) :: (b, [jb]) :: (c, [u]) :: _ => (match fd.dfg.values.get? u, fd.dfg.values.get? je, fd.dfg.values.get? jb with
      | some du, some de, some db => (operands du.kind).contains x && (targets de.kind).contains b && (targets db.kind).contains c && e != a && b != a && c != a
      | _, _, _ => false)
    | _ => false

theorem unordered_not {p : Program} (h : unordered p = true) : ¬ UsesDominated p := by
  intro hU
  unfold unordered at h
  rw [List.any_eq_true] at h
  obtain ⟨f, -, h⟩ := h
  split at h
  · cases h
  · rename_i fd hf
    split at h
    · rename_i e je a x is b jb c u qs hl
      split at h
      · rename_i du de db hu he hb
        simp only [Bool.and_eq_true, List.contains_eq_mem, decide_eq_true_eq, bne_iff_ne] at h
        obtain ⟨⟨⟨⟨⟨h1, h2⟩, h3⟩, h4⟩, h5⟩, h6⟩ := h
        have := hU.insts f fd c [] u [] du x a (x :: is) hf (by rw [hl]; simp) hu h1 (by rw [hl]; simp) (by simp)
        rcases this with h7 | ⟨-, h7⟩
        · cases h7
        · apply h7
          have a1 : Avoids p f (· = a) e := .entry (e := (e, [je])) hf (by rw [hl]; rfl) h4
          have a2 : Avoids p f (· = a) b := .step a1 ⟨fd, [je], je, de, hf, by rw [hl]; simp, by simp, ⟨fd, hf, he⟩, h2⟩ h5
          exact .step a2 ⟨fd, [jb], jb, db, hf, by rw [hl]; simp, by simp, ⟨fd, hf, hb⟩, h3⟩ h6
      · cases h
    · cases h

/-- C53 fails for the order of definitions and uses: the program is accepted and generated, but a way leads to a use around the definition. -/
theorem C53_order_violated : ¬ LlvmTextOrdered := by
  intro hall
  obtain ⟨p, h, hq⟩ := acceptsWith_iff (input := unorderedText)
    (q := fun p => shortArrays p && llvmNamed p && plainEntries p && unordered p && (llvmGenerate .backwards NM.new p).isSome) (by decide +kernel)
  simp only [Bool.and_eq_true] at hq
  obtain ⟨⟨⟨⟨h1, h2⟩, h3⟩, h5⟩, h6⟩ := hq
  obtain ⟨⟨s, m⟩, hg⟩ := Option.isSome_iff_exists.1 h6
  obtain ⟨M, k1, -, -, -, k4, -⟩ := C53_llvm_valid_partial h (shortArrays_iff h1) (llvmNamed_iff h2) (plainEntries_iff h3) hg
  exact unordered_not h5 (k4.1 (hall _ _ _ _ _ _ _ h (shortArrays_iff h1) (llvmNamed_iff h2) (plainEntries_iff h3) hg k1))

/-- C29 for programs from text: labels differ from the other local names. Missing: as in `C53_llvm_valid_partial`. -/
theorem C29_labels_partial {w : World} {input : Str} {p : Program} (h : Accepted w input p) (hs : ShortArrays p) (hn : LlvmNamed p)
    (he : PlainEntries p) (ha : LabelsApart p) {s : Str} {m : NM} (hg : llvmGenerate o NM.new p = some (s, m)) {M : Mod} (hW : Written M s) :
    WellNamed M ∧ LabelsDiffer M := by
  obtain ⟨M', k1, k2, k3, -, -, k4⟩ := C53_llvm_valid_partial h hs hn he hg
  cases k2 M hW
  exact ⟨k3, k4 ha⟩

/-- In the generated text labels differ from the names of values. -/
def LlvmTextLabels : Prop := ∀ o w input p s m M, Accepted w input p → ShortArrays p → LlvmNamed p → PlainEntries p →
  llvmGenerate o NM.new p = some (s, m) → Written M s → LabelsDiffer M

/-- A program in which a block and a value have the same name. -/
def labelText : Str := "fun @main(): i32 {%x: %x = add 1, 2 ret %x}".toList

/-- The LLVM text of the program. -/
def labelLlvm : Str := "define i32 @main() {\n$x:\n  %$x = add i32 1, 2\n  ret i32 %$x\n}\n".toList

/-- The function in it. -/
def labelFn : Fn := ⟨"@main".toList, .i32, [], [⟨"$x".toList, [], [.arith "%$x".toList .add (.cst (.int 1)) (.cst (.int 2)), .ret (some (.i32, .loc "%$x".toList))]⟩]⟩

theorem label_written : Written [.define labelFn] labelLlvm := by
  have hx : LocName "%$x".toList := ⟨"$x".toList, rfl, ⟨'$', ['x'], rfl, by decide⟩, by decide⟩
  have hm : GlobName "@main".toList := ⟨"main".toList, rfl, ⟨'m', "ain".toList, rfl, by decide⟩, by decide⟩
  have h1 : InstW (.arith "%$x".toList .add (.cst (.int 1)) (.cst (.int 2))) _ := .arith hx (.cst (.int 1)) (.cst (.int 2))
  have h2 : InstW (.ret (some (.i32, .loc "%$x".toList))) _ := .ret (.mk .i32 (.loc hx))
  have h3 := ItemW.define hm .i32 .nil (.cons (.mk (l := "$x".toList) hx .nil (.cons h1 (.cons h2 .nil))) .nil)
  have h4 := Lines.cons h3 .nil
  have key : ∀ ts, Lines ItemW [.define labelFn] ts → ts = words labelLlvm → Written [.define labelFn] labelLlvm := by
    rintro ts h rfl; exact h
  exact key _ h4 (by decide +kernel)

/-- C53 and C29 fail for labels also for programs from text: the front end does not compare the names of blocks and values. -/
theorem C53_labels_violated : ¬ LlvmTextLabels := by
  intro hall
  obtain ⟨p, h, hq⟩ := acceptsWith_iff (input := labelText)
    (q := fun p => shortArrays p && llvmNamed p && plainEntries p && decide ((llvmGenerate .backwards NM.new p).map (·.1) = some labelLlvm)) (by decide +kernel)
  simp only [Bool.and_eq_true, decide_eq_true_eq] at hq
  obtain ⟨⟨⟨h1, h2⟩, h3⟩, h4⟩ := hq
  obtain ⟨⟨s, m⟩, h5, rfl⟩ := Option.map_eq_some_iff.1 h4
  exact hall _ _ _ _ _ _ _ h (shortArrays_iff h1) (llvmNamed_iff h2) (plainEntries_iff h3) h5 label_written labelFn (by simp) _ (List.mem_singleton.2 rfl) (by decide)

end Koopa
