import Verif.Lemmas.Back.SameProg
import Verif.Lemmas.Back.Readable
import Verif.Lemmas.Back.Again
import Verif.Props.Typed
/-!
C27 and C28: reading the printed text.
-/
namespace Koopa
open Spec

/-- C27, for the programs that the text form can express (`Printable`, `PlainNames`), if there is room for the
global variables: the program is printed, the text is accepted, and the program read has the same global variables,
functions, types, blocks and instructions. Missing: the other well-formed programs, for which it fails. -/
theorem C27_printed_text_read_back_partial (p : Program) (hp : Printable p) (hn : PlainNames p) (w : World) (hw : w.Ok)
    (hg : ∀ n, GlobalNodes p n → w.ids.nextGlobal + n ≤ localStart) :
    ∃ s m p', koopaGenerate NM.new p = some (s, m) ∧ Accepted w s p' ∧ SameText p p' := by
  obtain ⟨m0, l, m', gs, s0, h, h1, -, h3⟩ := runs hp hn
  obtain ⟨N, -, hN, ht⟩ := h.naming hp hn h1 h3
  have hr := hN.reads hp
  rw [← ht] at hr
  obtain ⟨p', ha, -⟩ := C48_well_typed_accepted w _ _ _ _ hw hr (hN.items hp) (hg _ (tree_size hp _ _))
  obtain ⟨vars, fns, A⟩ := ha.fromText hr
  exact ⟨_, m', p', h.text, ha, (readBack hp hN A).same hp hN⟩

/-- C27 and the first half of C28: a program the front end accepts is printed, and the text is accepted again with the same
global variables, functions, types, blocks and instructions. Missing: functions named by temporaries, and lengths of
arrays that are no literals. -/
theorem C27_accepted_text_read_back_partial (w w' : World) (input : Str) (p : Program) (h : Accepted w input p) (hs : ShortArrays p)
    (hf : ∀ f fd, p.funcs.get? f = some fd → temporary fd.name = false) (hw : w'.Ok)
    (hg : ∀ n, GlobalNodes p n → w'.ids.nextGlobal + n ≤ localStart) :
    ∃ s m p', koopaGenerate NM.new p = some (s, m) ∧ Accepted w' s p' ∧ SameText p p' :=
  C27_printed_text_read_back_partial p (h.printable hs) (h.plainNames hf) w' hw hg

/-- C28: a program the front end accepts is printed, the text is accepted again, and every program read from it has the
same global variables, functions, types, blocks and instructions and is printed as the same text. Missing: functions
named by temporaries, for which it fails (`C28_violated`). -/
theorem C28_print_read_print_partial (w w' : World) (input : Str) (p : Program) (h : Accepted w input p) (hs : ShortArrays p)
    (hf : ∀ f fd, p.funcs.get? f = some fd → temporary fd.name = false) (hw : w'.Ok)
    (hg : ∀ n, GlobalNodes p n → w'.ids.nextGlobal + n ≤ localStart) :
    ∃ s m, koopaGenerate NM.new p = some (s, m) ∧ (∃ p', Accepted w' s p') ∧
      ∀ w'' p', Accepted w'' s p' → SameText p p' ∧ ∃ m', koopaGenerate NM.new p' = some (s, m') := by
  have hp := h.printable hs
  have hn := h.plainNames hf
  obtain ⟨m0, l, m', gs, s0, hr, h1, -, h3⟩ := runs hp hn
  obtain ⟨N, hN, hM, ht⟩ := hr.naming hp hn h1 h3
  have hrd := hM.reads hp
  rw [← ht] at hrd
  refine ⟨_, m', hr.text, ?_, ?_⟩
  · obtain ⟨p', ha, -⟩ := C48_well_typed_accepted w' _ _ _ _ hw hrd (hM.items hp) (hg _ (tree_size hp _ _))
    exact ⟨p', ha⟩
  · intro w'' p' ha
    obtain ⟨vars, fns, A⟩ := ha.fromText hrd
    have R := readBack hp hM A
    have hs' := R.same hp hM
    have hp' := ha.printable (hs'.short hs (fun _ _ h => A.isGlobal h) (fun _ _ _ h => A.isLocal h))
    exact ⟨hs', R.again hp hn hr h1 h3 hN hp' hs'⟩

/-! ### Cases -/

mutual
/-- `ShortTy` as a check. -/
def shortTy : Ty → Bool
  | .i32 => true
  | .unit => true
  | .array t n => shortTy t && decide (n < 2 ^ 63)
  | .ptr t => shortTy t
  | .func ps r => shortTys ps && shortTy r
def shortTys : List Ty → Bool
  | [] => true
  | t :: ts => shortTy t && shortTys ts
end

mutual
theorem shortTy_iff : ∀ t, shortTy t = true → ShortTy t
  | .i32, _ => .i32
  | .unit, _ => .unit
  | .array t n, h => by
    rw [shortTy, Bool.and_eq_true, decide_eq_true_eq] at h
    exact .array (shortTy_iff t h.1) h.2
  | .ptr t, h => by
    rw [shortTy] at h
    exact .ptr (shortTy_iff t h)
  | .func ps r, h => by
    rw [shortTy, Bool.and_eq_true] at h
    exact .func (shortTys_iff ps h.1) (shortTy_iff r h.2)
theorem shortTys_iff : ∀ ts, shortTys ts = true → ∀ t ∈ ts, ShortTy t
  | [], _ => fun _ h => by cases h
  | t :: ts, h => by
    rw [shortTys, Bool.and_eq_true] at h
    intro t' ht
    rcases List.mem_cons.1 ht with e | ht
    · rw [e]
      exact shortTy_iff t h.1
    · exact shortTys_iff ts h.2 _ ht
end

theorem all_get {κ ν : Type} [DecidableEq κ] {q : ν → Bool} {k : κ} {x : ν} : ∀ {l : List (κ × ν)}, l.all (fun e => q e.2) = true →
    Map.lookup l k = some x → q x = true
  | [], _, h => by cases h
  | (a, b) :: l, hq, h => by
    rw [List.all_cons, Bool.and_eq_true] at hq
    unfold Map.lookup at h
    split at h
    · cases h
      exact hq.1
    · exact all_get hq.2 h

/-- `ShortArrays` as a check. -/
def shortArrays (p : Program) : Bool :=
  p.values.entries.all (fun e => shortTy e.2.ty) &&
  p.funcs.entries.all (fun e => shortTy e.2.ty && e.2.dfg.values.entries.all (fun e => shortTy e.2.ty))

theorem shortArrays_iff {p : Program} (h : shortArrays p = true) : ShortArrays p := by
  unfold shortArrays at h
  rw [Bool.and_eq_true] at h
  have hf : ∀ {f fd}, p.funcs.get? f = some fd → _ := fun {f fd} hf =>
    all_get (q := fun fd : FData => shortTy fd.ty && fd.dfg.values.entries.all (fun e => shortTy e.2.ty)) h.2 hf
  constructor
  · intro v _ x hx
    exact shortTy_iff _ (all_get (q := fun x : VData => shortTy x.ty) h.1 hx)
  · intro f _ fd h1
    have := hf h1
    rw [Bool.and_eq_true] at this
    exact shortTy_iff _ this.1
  · intro f _ fd h1 a v x _ h2
    have := hf h1
    rw [Bool.and_eq_true] at this
    exact shortTy_iff _ (all_get (q := fun x : VData => shortTy x.ty) this.2 h2)

/-- No function is named by a temporary. -/
def plainFuns (p : Program) : Bool := p.funcs.entries.all (fun e => !temporary e.2.name)

theorem plainFuns_iff {p : Program} (h : plainFuns p = true) : ∀ f fd, p.funcs.get? f = some fd → temporary fd.name = false := by
  intro f fd hf
  have := all_get (q := fun fd : FData => !temporary fd.name) h hf
  simpa using this

/-- The only global variable is an integer. -/
def oneGlobal (p : Program) : Bool := match p.instLayout with
  | [v] => match p.values.get? v with
    | some x => match x.kind with
      | .globalAlloc i => match p.values.get? i with
        | some y => match y.kind with
          | .integer _ => true
          | _ => false
        | none => false
      | _ => false
    | none => false
  | _ => false

theorem oneGlobal_iff {p : Program} (h : oneGlobal p = true) : ∀ n, GlobalNodes p n → n = 2 := by
  unfold oneGlobal at h
  split at h <;> try cases h
  rename_i v hv
  split at h <;> try cases h
  rename_i x hx
  split at h <;> try cases h
  rename_i i hk
  split at h <;> try cases h
  rename_i y hy
  split at h <;> try cases h
  rename_i k hyk
  rintro n ⟨ns, h1, h2⟩
  rw [hv] at h1
  cases h1 with
  | cons h3 h4 =>
    cases h4
    obtain ⟨x', i', h5, h6, h7⟩ := h3
    unfold GlobalVal at h5
    rw [hx] at h5
    cases h5
    rw [hk] at h6
    cases h6
    cases h7 with
    | leaf _ _ => exact h2
    | agg h8 h9 => rw [hy] at h8; cases h8; rw [hyk] at h9; cases h9

/-- The program of the text with a loop meets the hypotheses of both theorems, and its text is read back. -/
example : ∃ p, Accepted someWorld loopText p ∧ Printable p ∧ PlainNames p ∧ ShortArrays p ∧
    (∀ n, GlobalNodes p n → someWorld.ids.nextGlobal + n ≤ localStart) ∧
    ∃ s m p', koopaGenerate NM.new p = some (s, m) ∧ Accepted someWorld s p' ∧ SameText p p' := by
  obtain ⟨p, h, hq⟩ := acceptsWith_iff (input := loopText) (q := fun p => shortArrays p && plainFuns p && oneGlobal p) (by decide +kernel)
  simp only [Bool.and_eq_true] at hq
  have hs := shortArrays_iff hq.1.1
  have hf := plainFuns_iff hq.1.2
  have hg : ∀ n, GlobalNodes p n → someWorld.ids.nextGlobal + n ≤ localStart := by
    intro n hn
    rw [oneGlobal_iff hq.2 n hn]
    decide
  exact ⟨p, h, h.printable hs, h.plainNames hf, hs, hg, C27_accepted_text_read_back_partial _ _ _ _ h hs hf ⟨by decide, by decide⟩ hg⟩

/-- So is that of the second theorem. -/
example : ∃ p s m p' m', Accepted someWorld loopText p ∧ koopaGenerate NM.new p = some (s, m) ∧ Accepted someWorld s p' ∧
    koopaGenerate NM.new p' = some (s, m') ∧ SameText p p' := by
  obtain ⟨p, h, hq⟩ := acceptsWith_iff (input := loopText) (q := fun p => shortArrays p && plainFuns p && oneGlobal p) (by decide +kernel)
  simp only [Bool.and_eq_true] at hq
  obtain ⟨s, m, h1, ⟨p', h2⟩, h3⟩ := C28_print_read_print_partial _ someWorld _ p h (shortArrays_iff hq.1.1) (plainFuns_iff hq.1.2)
    ⟨by decide, by decide⟩ (fun n hn => by rw [oneGlobal_iff hq.2 n hn]; decide)
  obtain ⟨h4, m', h5⟩ := h3 _ _ h2
  exact ⟨p, s, m, p', m', h, h1, h2, h5, h4⟩

/-! ### Where it fails -/

/-- The text cannot be read, checked with the parser. -/
def unreadable (input : Str) : Bool :=
  match PS.new (Lex.new input false) 0 with
  | some (.ok (), s) => match parseCalls (input.length + 2) s with
    | some (.ok _, s') => decide (s'.errs ≠ 0)
    | _ => true
  | _ => true

theorem unreadable_iff {input : Str} (h : unreadable input = true) : ∀ gs, ¬ Reads input gs := by
  intro gs hr
  obtain ⟨s, s', h1, h2, h3⟩ := (C45_parser_exact input 0 gs).2 hr
  unfold unreadable at h
  rw [h1] at h
  simp only at h
  rw [h2] at h
  simp only at h
  exact of_decide_eq_true h h3

/-- Part of C27 and C28 in full for texts of ASCII characters with lengths of arrays in range: the printed text of an accepted
program is accepted. -/
def PrintedTextsAccepted : Prop :=
  ∀ w input p s m, Accepted w input p → (∀ c ∈ input, c.toNat < 128) → ShortArrays p → koopaGenerate NM.new p = some (s, m) →
    ∃ w' p', Accepted w' s p'

/-- The printed text of the accepted program cannot be read. -/
def printsUnreadable (p : Program) : Bool := match koopaGenerate NM.new p with
  | some (s, _) => unreadable s
  | none => false

/-- C27 fails for accepted texts: a function keeps the temporary name it has in the text, a global variable does not and takes its
place, so the function is printed as `%0_0`, which is no symbol (generator.rs:171-181, lexer.rs). -/
theorem C27_violated : ¬ PrintedTextsAccepted := by
  intro hall
  obtain ⟨p, h, hq⟩ := acceptsWith_iff (input := "global %1 = alloc i32, 0 fun %0() {%e: ret\n}".toList)
    (q := fun p => shortArrays p && printsUnreadable p) (by decide +kernel)
  rw [Bool.and_eq_true] at hq
  obtain ⟨hs, hu⟩ := hq
  unfold printsUnreadable at hu
  split at hu
  · rename_i s m hg
    obtain ⟨w', p', h'⟩ := hall _ _ _ _ _ h (by decide) (shortArrays_iff hs) hg
    obtain ⟨gs, hr, -⟩ := C47_program_is_text h'
    exact unreadable_iff hu gs hr
  · cases hu

/-- C28 in full. -/
def PrintingIsFixpoint : Prop :=
  ∀ w input p s m, Accepted w input p → (∀ c ∈ input, c.toNat < 128) → ShortArrays p → koopaGenerate NM.new p = some (s, m) →
    ∃ w' p' m', Accepted w' s p' ∧ koopaGenerate NM.new p' = some (s, m')

/-- C28 fails in the same case. -/
theorem C28_violated : ¬ PrintingIsFixpoint := fun hall => C27_violated (fun w input p s m h1 h2 h3 h4 => by
  obtain ⟨w', p', m', h5, -⟩ := hall w input p s m h1 h2 h3 h4
  exact ⟨w', p', h5⟩)

/-- Programs built by calls of the library need not be expressible: here a function is declared after its caller, so the
front end rejects the printed text. -/
def forwardCall : List Op :=
  [ .newFuncDef "@f".toList [] .unit, .newFuncDecl "@g".toList [] .unit, .newBb 1 (some "%e".toList),
    .newLocal 1 (.call 2 []), .newLocal 1 (.ret none), .layout 1 (.insertBb 0 1),
    .layout 1 (.insertInst 1 0 0x40000000), .layout 1 (.insertInst 1 1 0x40000001) ]

example : ∃ p m w, (Program.new Ids.init).run forwardCall = some p ∧
    koopaGenerate NM.new p = some ("fun @f() {\n%e:\n  call @g()\n  ret\n}\n\ndecl @g()\n".toList, m) ∧
    generate someWorld "fun @f() {\n%e:\n  call @g()\n  ret\n}\n\ndecl @g()\n".toList false = some (none, w) ∧ w.errs = 1 := by
  obtain ⟨p, m, h1, h2⟩ := prints_iff (ops := forwardCall) (s := "fun @f() {\n%e:\n  call @g()\n  ret\n}\n\ndecl @g()\n") (by decide +kernel)
  obtain ⟨r, w, h3, h4⟩ := runsWith_iff (input := "fun @f() {\n%e:\n  call @g()\n  ret\n}\n\ndecl @g()\n".toList)
    (q := fun r w => !r.isSome && decide (w.errs = 1)) (by decide +kernel)
  simp only [Bool.and_eq_true, Bool.not_eq_true', decide_eq_true_eq] at h4
  cases r with
  | none => exact ⟨p, m, w, h1, h2, h3, h4.2⟩
  | some p => simp at h4

end Koopa
