import Verif.Props.Elab
import Verif.Props.Driver
import Verif.Lemmas.Front.AstEq
/-!
Concrete cases for the theorems on accepted texts, and texts for which C19, C21, C22 and C23 fail.
-/
namespace Koopa
open Spec

/-- The text is accepted in `someWorld` and the program passes the check. -/
def acceptsWith (input : Str) (q : Program → Bool) : Bool :=
  runsWith input (fun r w => match r with
    | some p => decide (w.ids.nextGlobal ≤ localStart) && q p
    | none => false)

theorem acceptsWith_iff {input : Str} {q : Program → Bool} (h : acceptsWith input q = true) :
    ∃ p, Accepted someWorld input p ∧ q p = true := by
  obtain ⟨r, w, h1, h2⟩ := runsWith_iff h
  split at h2
  · rename_i p
    rw [Bool.and_eq_true, decide_eq_true_eq] at h2
    exact ⟨p, ⟨⟨by decide, by decide⟩, w, h1, h2.1⟩, h2.2⟩
  · cases h2

/-- The text reads as `gs`, checked with the parser. -/
def readsCheck (input : Str) (gs : List GlobalAst) : Bool :=
  match PS.new (Lex.new input false) 0 with
  | some (.ok (), s) => match parseCalls (input.length + 2) s with
    | some (.ok gs', s') => decide (gs' = gs) && decide (s'.errs = 0)
    | _ => false
  | _ => false

theorem readsCheck_iff {input : Str} {gs : List GlobalAst} (h : readsCheck input gs = true) : Reads input gs := by
  unfold readsCheck at h
  split at h
  · rename_i s hs
    split at h
    · rename_i gs' s' hp
      rw [Bool.and_eq_true, decide_eq_true_eq, decide_eq_true_eq] at h
      obtain ⟨rfl, h2⟩ := h
      exact (C45_parser_exact input 0 gs').1 ⟨s, s', hs, hp, h2⟩
    · cases h
  · cases h

/-- A text with a global, a declaration, a loop, an unreachable block, and blocks that are not written
in breadth-first order. -/
def loopText : Str := "global @g = alloc i32, 1 decl @f(i32): i32 fun @m(%x: i32): i32 {%e: %0 = call @f(%x) br %0, %l(%0), %q %u: jump %u %q: ret 3 %l(%i: i32): %c = lt %i, 10 store %x, @g br %c, %l(7), %q}".toList

/-- Its items. -/
def loopItems : List GlobalAst :=
  [.globalDef "@g".toList .int (.int 1), .funDecl "@f".toList [.int] (some .int),
   .funDef "@m".toList [("%x".toList, .int)] (some .int)
    [⟨"%e".toList, [], [.def "%0".toList (.call "@f".toList [.sym "%x".toList]),
       .branch (.sym "%0".toList) "%l".toList [.sym "%0".toList] "%q".toList []]⟩,
     ⟨"%u".toList, [], [.jump "%u".toList []]⟩,
     ⟨"%q".toList, [], [.ret (some (.int 3))]⟩,
     ⟨"%l".toList, [("%i".toList, .int)], [.def "%c".toList (.binary .lt (.sym "%i".toList) (.int 10)),
       .store (.sym "%x".toList) "@g".toList, .branch (.sym "%c".toList) "%l".toList [.int 7] "%q".toList []]⟩]]

theorem loop_accepted : ∃ p, Accepted someWorld loopText p := by
  obtain ⟨p, h, -⟩ := acceptsWith_iff (input := loopText) (q := fun _ => true) (by decide +kernel)
  exact ⟨p, h⟩

theorem loop_reads : Reads loopText loopItems := readsCheck_iff (by decide +kernel)

/-- A case for C18, C19, C20, C21, C43 and C47: the text is accepted, reads as given and has a function. -/
example : ∃ p, Accepted someWorld loopText p ∧ Reads loopText loopItems ∧
    ∃ n params ret bbs, .funDef n params ret bbs ∈ loopItems ∧ bbs.length = 4 := by
  obtain ⟨p, h⟩ := loop_accepted
  exact ⟨p, h, loop_reads, _, _, _, _, List.mem_cons_of_mem _ (List.mem_cons_of_mem _ List.mem_cons_self), rfl⟩

/-- C18 on it: the blocks are laid out as `%e`, `%l`, `%q`, and `%u` is left out. -/
example : ∃ p, Accepted someWorld loopText p ∧ ∃ f fd, p.funcs.get? f = some fd ∧
    fd.layout.bbs.map (fun b => ((fd.dfg.bbs.get? b.1).bind (·.name)).map String.ofList) = [some "%e", some "%l", some "%q"] := by
  obtain ⟨p, h, hq⟩ := acceptsWith_iff (input := loopText) (q := fun p => match p.funcs.get? 4 with
    | some fd => decide (fd.layout.bbs.map (fun b => ((fd.dfg.bbs.get? b.1).bind (·.name)).map String.ofList) = [some "%e", some "%l", some "%q"])
    | none => false) (by decide +kernel)
  split at hq
  · rename_i fd hf
    exact ⟨p, h, 4, fd, hf, of_decide_eq_true hq⟩
  · cases hq

/-! ### C19 -/

/-- C19 in full for local symbols: named local values of one function have different names. -/
def LocalNamesDiffer : Prop :=
  ∀ w input p f u v x y, Accepted w input p → LocalVal p f u x → LocalVal p f v y → x.name = y.name →
    x.name ≠ none → u = v

/-- Two local values of function `f` have the same name. -/
def twins (p : Program) (f : Func) (u v : Value) : Bool :=
  match p.funcs.get? f with
  | none => false
  | some fd => match fd.dfg.values.get? u, fd.dfg.values.get? v with
    | some x, some y => decide (x.name = y.name ∧ x.name ≠ none ∧ u ≠ v)
    | _, _ => false

/-- C19 fails: the parameter of a function and the parameter of a block that is not the first may have
the same name (builder.rs:339 adds the former without a check). -/
theorem C19_violated : ¬ LocalNamesDiffer := by
  intro hall
  obtain ⟨p, h, hq⟩ := acceptsWith_iff
    (input := "fun @f(%x: i32): i32 {%e: jump %b(1) %b(%x: i32): ret %x}".toList)
    (q := fun p => twins p 3 (localStart + 4) (localStart + 5)) (by decide +kernel)
  unfold twins at hq
  split at hq
  · cases hq
  · rename_i fd hf
    split at hq
    · rename_i x y hx hy
      have hd := of_decide_eq_true hq
      exact hd.2.2 (hall _ _ _ _ _ _ x y h ⟨fd, hf, hx⟩ ⟨fd, hf, hy⟩ hd.1 hd.2.1)
    · cases hq

/-- Duplicate definitions in a block that cannot be reached are accepted as well. -/
example : ∃ p, Accepted someWorld "fun @f() {%e: jump %q %u: %a = alloc i32 %a = alloc i32 ret\n %q: ret\n}".toList p := by
  obtain ⟨p, h, -⟩ := acceptsWith_iff (q := fun _ => true)
    (input := "fun @f() {%e: jump %q %u: %a = alloc i32 %a = alloc i32 ret\n %q: ret\n}".toList) (by decide +kernel)
  exact ⟨p, h⟩

/-! ### C21 -/

/-- C21 in full for calls: accepted calls have as many arguments as the declared function has parameters. -/
def CallCountsRight : Prop :=
  ∀ w input p gs, Accepted w input p → Reads input gs → ∀ n tys r, .funDecl n tys r ∈ gs →
    ∀ m params ret bbs, .funDef m params ret bbs ∈ gs → ∀ b ∈ bbs, ∀ as, .call n as ∈ b.stmts → as.length = tys.length

/-- C21 fails: a further argument is accepted, because `generate_args` compares the length of the
arguments with itself (builder.rs:506). -/
theorem C21_violated : ¬ CallCountsRight := by
  intro hall
  obtain ⟨p, h, -⟩ := acceptsWith_iff (q := fun _ => true)
    (input := "decl @f(i32) fun @g() {%e: call @f(1, 2) ret\n}".toList) (by decide +kernel)
  have hr : Reads "decl @f(i32) fun @g() {%e: call @f(1, 2) ret\n}".toList
      [.funDecl "@f".toList [.int] none, .funDef "@g".toList [] none
        [⟨"%e".toList, [], [.call "@f".toList [.int 1, .int 2], .ret none]⟩]] := readsCheck_iff (by decide +kernel)
  have := hall _ _ _ _ h hr "@f".toList [.int] none List.mem_cons_self "@g".toList [] none _
    (List.mem_cons_of_mem _ List.mem_cons_self) _ List.mem_cons_self [.int 1, .int 2] List.mem_cons_self
  simp at this

/-- A missing argument panics (the assertion of ir/builder.rs:309-314). -/
theorem C21_missing_argument_panics :
    generate someWorld "decl @f(i32) fun @g() {%e: call @f() ret\n}".toList false = none :=
  Option.isNone_iff_eq_none.1 (by decide +kernel)

/-! ### C22 -/

/-- C22 in full: the front end returns. -/
def FrontReturns : Prop := ∀ w input fail, (generate w input fail).isSome = true

/-- C22 fails: the front end panics at an array type of length zero, at a jump to a block that is not
defined, at a missing argument, and at an aggregate whose elements differ in type. -/
theorem C22_violated : ¬ FrontReturns ∧
    generate someWorld "decl @f([i32, 0])".toList false = none ∧
    generate someWorld "fun @f() {%e: jump %q}".toList false = none ∧
    generate someWorld "decl @f(i32) fun @g() {%e: call @f() ret\n}".toList false = none ∧
    generate someWorld "global @a = alloc [[i32, 2], 2], {{1, 2}, {1}}".toList false = none := by
  have h1 : generate someWorld "decl @f([i32, 0])".toList false = none := Option.isNone_iff_eq_none.1 (by decide +kernel)
  refine ⟨fun h => ?_, h1, Option.isNone_iff_eq_none.1 (by decide +kernel), C21_missing_argument_panics,
    Option.isNone_iff_eq_none.1 (by decide +kernel)⟩
  have := h someWorld "decl @f([i32, 0])".toList false
  rw [h1] at this
  cases this

theorem driverLoop_panics {input : Str} {fail : Bool} : ∀ (n : Nat) (s : PS) (b : BS),
    ParseReach input fail s → b.errs = s.errs → s.size < n → driverLoop n s b = none →
    ∃ k s1 b1 s2 g, Rounds k s b s1 b1 ∧ s1.parseNext = some (.ok g, s2) ∧ g ≠ .eof ∧
      buildOn g { b1 with errs := s2.errs } = none
  | 0, _, _, _, _, hn, _ => by omega
  | n + 1, s, b, hr, he, hn, h => by
    obtain ⟨r, s1, h1, -, -, h2, h4, -, h3⟩ := C15_parseNext_returns input fail s hr
    cases r with
    | error x => rw [driverLoop, h1] at h; cases h
    | ok g =>
      by_cases hg : g = .eof
      · subst hg; rw [driverLoop, h1] at h; cases h
      · rcases hB : buildOn g { b with errs := s1.errs } with _ | ⟨r2, b2⟩
        · exact ⟨0, s, b, s1, g, .zero, h1, hg, hB⟩
        · rw [driverLoop_round h1 hg hB] at h
          split at h
          · cases h
          · obtain ⟨k, s3, b3, s4, g', i1, i2⟩ := driverLoop_panics n { s1 with errs := b2.errs } b2 (.count (.step hr h1)) rfl
              (by have := h4 g rfl hg; have e : PS.size { s1 with errs := b2.errs } = s1.size := rfl; omega) h
            refine ⟨k + 1, s3, b3, s4, g', ?_, i2⟩
            clear i2 h
            generalize hs0 : ({ s1 with errs := b2.errs } : PS) = s0 at i1
            induction i1 with
            | zero => subst hs0; exact .succ .zero h1 hg hB
            | succ _ a1 a2 a3 ih => exact .succ (ih hB ‹_› hs0) a1 a2 a3

/-- C22 as far as it holds: a panic of the front end is a panic of the IR generator on one of the
definitions; the lexer, the parser and the driver do not panic and return, also if the reader fails. Which
definitions make the generator panic is not characterised. -/
theorem C22_panics_in_generator_partial (w : World) (input : Str) (fail : Bool) (h : generate w input fail = none) :
    ∃ d w0 s k s1 b1 s2 g, Driver.new w input fail = some (d, w0) ∧ d.parser = .ok s ∧ Rounds k s (d.start w0) s1 b1 ∧
      s1.parseNext = some (.ok g, s2) ∧ g ≠ .eof ∧ buildOn g { b1 with errs := s2.errs } = none := by
  unfold generate at h
  rcases hn : PS.new (Lex.new input fail) 0 with _ | ⟨r0, s0⟩
  · obtain ⟨r, s, h1⟩ := PS.new_returns input fail 0
    rw [hn] at h1; cases h1
  · cases r0 with
    | error e => simp [Driver.new, hn, Driver.generate] at h
    | ok u =>
      simp only [Driver.new, hn, Driver.generate] at h
      split at h
      · rename_i hl
        obtain ⟨k, s1, b1, s2, g, h1, h2⟩ := driverLoop_panics _ _ _ (.new hn) rfl (by unfold PS.loopFuel; omega) hl
        exact ⟨_, _, s0, k, s1, b1, s2, g, by simp only [Driver.new, hn], rfl, h1, h2⟩
      · split at h <;> cases h

/-! ### C23 -/

/-- Two drivers are created, then both are run. -/
def twoDrivers (w : World) (a b : Str) : Option (Option Program × Option Program) := do
  let (da, w) ← Driver.new w a false
  let (db, w) ← Driver.new w b false
  let (ra, w) ← da.generate w
  let (rb, _) ← db.generate w
  return (ra, rb)

/-- C23 in full for two drivers: whether the second one yields a program does not depend on the first. -/
def DriversIndependent : Prop :=
  ∀ w a b ra rb r w', twoDrivers w a b = some (ra, rb) → generate w b false = some (r, w') → rb.isSome = r.isSome

/-- C23 fails: the error counter is shared by the drivers of a thread and reset on creation only
(span.rs:104-121, 129-137), so that errors in one text make another one fail. -/
theorem C23_violated : ¬ DriversIndependent := by
  intro hall
  have h1 : (match twoDrivers someWorld "decl @f() decl @f()".toList "decl @g()".toList with
    | some (_, rb) => rb.isNone
    | none => false) = true := by decide +kernel
  obtain ⟨r, w', h2, h3⟩ := runsWith_iff (input := "decl @g()".toList) (q := fun r _ => r.isSome) (by decide +kernel)
  split at h1
  · rename_i ra rb h
    have := hall _ _ _ _ _ _ _ h h2
    rw [h3] at this
    rw [Option.isNone_iff_eq_none] at h1
    subst h1
    cases this
  · cases h1

/-- C23 as far as it holds: a driver that runs right after its creation does not see what other drivers
did before, apart from the ids they used up. -/
theorem C23_fresh_driver_independent_partial (w w' : World) (input : Str) (fail : Bool) (h : w.ids = w'.ids) :
    generate w input fail = generate w' input fail := by
  obtain ⟨e, n, i⟩ := w
  obtain ⟨e', n', i'⟩ := w'
  cases h
  unfold generate Driver.new
  cases PS.new (Lex.new input fail) 0 with
  | none => rfl
  | some q => obtain ⟨r, s⟩ := q; cases r <;> rfl

end Koopa
