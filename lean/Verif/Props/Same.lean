import Verif.Lemmas.Same.KeptNames
import Verif.Lemmas.Same.Raw
import Verif.Props.RoundTrip
import Verif.Props.Raw
import Verif.Props.Llvm
/-!
C52: programs that are printed and read, or converted to the raw form and back, behave as before.
-/
namespace Koopa
open Spec Raw Interp

/-- C52 for the text form: a program the front end accepts is printed, the text is accepted again, and every function of every
program read from it has the name of the function in its place and behaves as it does. Missing: functions named by temporaries, for
which it fails (`C28_violated`), and lengths of arrays that are no literals. -/
theorem C52_print_read_behaves_partial (w w' : World) (input : Str) (p : Program) (h : Accepted w input p) (hs : ShortArrays p)
    (hf : ∀ f fd, p.funcs.get? f = some fd → temporary fd.name = false) (hw : w'.Ok)
    (hg : ∀ n, GlobalNodes p n → w'.ids.nextGlobal + n ≤ localStart) :
    ∃ s m, koopaGenerate NM.new p = some (s, m) ∧ (∃ p', Accepted w' s p') ∧
      ∀ w'' p', Accepted w'' s p' → p'.funcLayout.length = p.funcLayout.length ∧ ∀ f f', SamePlace p p' f f' →
        (∃ fd fd', p.funcs.get? f = some fd ∧ p'.funcs.get? f' = some fd' ∧ fd'.name = fd.name) ∧ BehaveSame p p' f f' := by
  have hp := h.printable hs
  have hn := h.plainNames hf
  obtain ⟨ast, hast, -⟩ := C47_program_is_text h
  obtain ⟨vars0, fns0, A0⟩ := h.fromText hast
  obtain ⟨m0, l, m', gs, s0, hr, h1, -, h3⟩ := runs hp hn
  obtain ⟨N, hN, hM, ht⟩ := hr.naming hp hn h1 h3
  have hk := Printed.kept A0.ownNames hn (A0.llvmOrder hp) hr
  have hrd := hM.reads hp
  rw [← ht] at hrd
  refine ⟨_, m', hr.text, ?_, ?_⟩
  · obtain ⟨p', ha, -⟩ := C48_well_typed_accepted w' _ _ _ _ hw hrd (hM.items hp) (hg _ (tree_size hp _ _))
    exact ⟨p', ha⟩
  · intro w'' p' ha
    obtain ⟨vars, fns, A⟩ := ha.fromText hrd
    have R := readBack hp hM A
    have hs' := R.same hp hM
    have hp' := ha.printable (hs'.short hs (fun _ _ h => A.isGlobal h) (fun _ _ _ h => A.isLocal h))
    have hname : ∀ f f', SamePlace p p' f f' → ∃ fd fd', p.funcs.get? f = some fd ∧ p'.funcs.get? f' = some fd' ∧ fd'.name = fd.name := by
      intro f f' hff
      have hff' := hff
      obtain ⟨i, hi, -⟩ := hff'
      obtain ⟨fd, a1, a2⟩ := hk f (List.mem_of_getElem? hi)
      obtain ⟨fd', a3, a4⟩ := read_func (G := m'.names) R hff
      exact ⟨fd, fd', a1, a3, by rw [a4]; show (m'.names.ent (.func f)).getD [] = _; rw [a2]; rfl⟩
    refine ⟨?_, fun f f' hff => ⟨hname f f' hff, ?_⟩⟩
    · exact (all2_length hs'.funcs).symm
    · refine (textMatch_ok hp hp' hs' ?_).behaveSame hff
      intro f f' fd fd' hff h1 h2 _
      obtain ⟨gd, gd', h3, h4, h5⟩ := hname f f' hff
      rw [h1] at h3; cases h3
      rw [h2] at h4; cases h4
      exact h5.symm

/-- The program can be converted to the raw form, and reading the raw form with fresh counters `ids` gives a program whose
functions have the same names and behave in the same way. -/
def RawBehaves (ids : Ids) (p : Program) : Prop :=
  ∃ N m r p', ∃ ρ : Func → Func, (∀ n, N ≤ n → buildRaw n .new p = some (m, r)) ∧ (∀ n, N ≤ n → generateProgram ids m n r = some (.ok p')) ∧
    p'.funcLayout.Perm (p.funcLayout.map ρ) ∧
    ∀ f fd, p.funcs.get? f = some fd → (∃ fd', p'.funcs.get? (ρ f) = some fd' ∧ fd'.name = fd.name) ∧ BehaveSame p p' f (ρ f)

/-- Instructions made by the front end are no constants. -/
theorem FromText.listed_not_const {p : Program} {gs : List GlobalAst} {vars : List (Str × Value)} {fns : List (Str × Func)}
    (A : FromText p gs vars fns) {f : Func} {fd : FData} {b : BB} {is : List Value} {v : Value} {x : VData} (hf : p.funcs.get? f = some fd)
    (hm : (b, is) ∈ fd.layout.bbs) (hv : v ∈ is) (hx : LocalVal p f v x) : x.kind.isConst = false := by
  rcases A.fun hf with ⟨_, _, _, h⟩ | ⟨_, _, _, _, _, _, _, _, _, hF⟩
  · rw [h.noBlocks.1] at hm; cases hm
  · obtain ⟨y, nm, st, hy, hs⟩ := FunIs_listed hF hm hv
    cases localVal_unique hx hy
    revert hs
    generalize x.kind = k
    generalize x.ty = t
    intro hs
    cases hs with
    | «def» he _ => cases he <;> rfl
    | call he => cases he <;> rfl
    | _ => rfl

/-- C52 for the raw form, for accepted texts in which parameters of blocks are used only where the block dominates. Missing: other
accepted texts, for which it fails (`C34_violated`). -/
theorem C52_raw_behaves_partial {w : World} {input : Str} {p : Program} {ids : Ids} (h : Accepted w input p) (hd : Dominated p)
    (hl : ListsFit p) (hr : IdsRoom ids p) : RawBehaves ids p := by
  obtain ⟨gs, hg, -⟩ := C47_program_is_text h
  obtain ⟨vars, fns, hA⟩ := h.fromText hg
  have hc := hA.convertible hd h.namesFit hl
  obtain ⟨n1, m, hb, hm⟩ := buildRaw_total hc
  obtain ⟨n2, s, hg, hi, hd⟩ := genProgram_total hc hm hr.globals hr.locals hr.room
  have h2 : generateProgram ids m n2 { values := .of .value p.instLayout, funcs := .of .function p.funcLayout } = some (.ok s.prog) := by
    unfold generateProgram; rw [hg]
  have hs := same_program hc hi hd
  have hfin := hi.fin
  refine ⟨max n1 n2, m, _, s.prog, s.ren.fn, fun n hn => buildRaw_more (Nat.le_trans (Nat.le_max_left _ _) hn) hb,
    fun n hn => generateProgram_more (Nat.le_trans (Nat.le_max_right _ _) hn) h2, hs.funcs, fun f fd hf => ⟨?_, ?_⟩⟩
  · obtain ⟨fd', h3, h4⟩ := hs.func f fd hf
    exact ⟨fd', h3, h4.name⟩
  · refine (rawMatch_ok hc hs ?_ ?_ (fun f fd b is v x a1 a2 a3 a4 => hA.listed_not_const a1 a2 a3 a4)).behaveSame ⟨by rw [hf]; rfl, rfl⟩
    · intro v x h
      have h1 := hfin.inv.gRange v x h
      have h2 := hfin.max
      unfold Koopa.isGlobal
      simp only [Bool.and_eq_true, decide_eq_true_eq]
      omega
    · intro f v x h
      have h1 := hfin.inv.lRange f v x h
      unfold Koopa.isGlobal
      simp only [Bool.and_eq_false_iff, decide_eq_false_iff_not]
      omega

/-! ### Cases -/

/-- The function `@put` prints an integer; the others do nothing. -/
def putCall (n : Str) (xs : List Val) (w : List I32) : Option (Val × List I32) := match n == "@put".toList, xs with
  | true, [.int i] => some (.int i, w ++ [i])
  | _, _ => none

/-- An outside world with the function `@put`, which remembers what was printed. -/
def putLib : Lib (List I32) :=
  { call := fun n _ xs w => putCall n xs w, load := fun _ _ _ => .undef, store := fun _ _ _ _ => none,
    callExt := fun n t xs w v w' h => (by
      unfold putCall at h
      split at h
      · cases h; exact .int _
      · cases h),
    loadExt := fun _ _ _ => .undef }

theorem putLib_blind : Blind putLib := by
  refine ⟨fun R _ n t xs ys w h => ?_, fun _ _ _ _ _ _ _ _ => rfl⟩
  show putCall n xs w = putCall n ys w
  unfold putCall
  cases hb : (n == "@put".toList)
  · rfl
  · cases h with
    | nil => rfl
    | cons h1 h2 =>
      cases h2 with
      | nil => cases h1 <;> rfl
      | cons _ _ => cases h1 <;> rfl

/-- Prints 3, 2, 1 and 0 and returns 2 plus what is in the global variable, to which it keeps a pointer. -/
def putText : Str :=
  ("global @g = alloc i32, 5 decl @put(i32): i32 " ++
   "fun @main(): i32 {%e: %p = alloc *i32 store @g, %p jump %b(3, 2) %b(%n: i32, %k: i32): %x = call @put(%n) br %n, %c, %d " ++
   "%c: %m = sub %n, 1 jump %b(%m, %k) %d: %q = load %p %y = load %q %z = add %y, %k ret %z}").toList

/-- The hypotheses, and what the interpreter does. -/
def putCheck (p : Program) : Bool :=
  shortArrays p && plainFuns p && oneGlobal p && domCheck p && fitsCheck p &&
  decide (someWorld.ids.nextGlobal + p.values.keys.length ≤ localStart) && noOverlapCheck p && deepEnough 100 p &&
  (match findMain p p.funcs.keys with
    | none => false
    | some f => match p.funcs.get? f with
      | none => false
      | some fd => !fd.layout.bbs.isEmpty && p.funcLayout.contains f) &&
  (match interpret putLib true 100 8 100 p.funcs.keys p [] with
    | .done (m, w) => m == 7 && w == [3, 2, 1, 0]
    | _ => false)

/-- The hypotheses of both theorems are met by a program that prints; so the programs read from its text and from its raw form print
the same numbers and return the same. -/
example : ∃ p s m p' f', Accepted someWorld putText p ∧ ShortArrays p ∧ Dominated p ∧ ListsFit p ∧ IdsRoom someWorld.ids p ∧
    koopaGenerate NM.new p = some (s, m) ∧ Accepted someWorld s p' ∧ MRuns p' putLib true 8 f' [] (.exit 7 [3, 2, 1, 0]) ∧
    ∃ n m r p'' f'', buildRaw n .new p = some (m, r) ∧ generateProgram someWorld.ids m n r = some (.ok p'') ∧
      MRuns p'' putLib true 8 f'' [] (.exit 7 [3, 2, 1, 0]) := by
  obtain ⟨p, h, hq⟩ := acceptsWith_iff (input := putText) (q := putCheck) (by decide +kernel)
  unfold putCheck at hq
  simp only [Bool.and_eq_true, decide_eq_true_eq] at hq
  obtain ⟨⟨⟨⟨⟨⟨⟨⟨⟨h1, h2⟩, h3⟩, h4⟩, h5⟩, h6⟩, h7⟩, h8⟩, h9⟩, h10⟩ := hq
  have hr : IdsRoom someWorld.ids p := ⟨by decide, by decide, h6⟩
  obtain ⟨f, fd, hf, hfl, hrun⟩ : ∃ f fd, p.funcs.get? f = some fd ∧ f ∈ p.funcLayout ∧ MRuns p putLib true 8 f [] (.exit 7 [3, 2, 1, 0]) := by
    split at h9
    · cases h9
    · rename_i f hm
      split at h9
      · cases h9
      · rename_i fd hf
        rw [Bool.and_eq_true] at h9
        have hfm := firstMain_of_find hm hf (fun e => by rw [e] at h9; exact absurd h9.1 (by decide))
        refine ⟨f, fd, hf, by simpa using h9.2, ?_⟩
        split at h10
        · rename_i k w hk
          rw [Bool.and_eq_true] at h10
          rw [eq_of_beq h10.1, eq_of_beq h10.2] at hk
          exact ((machine_at_depth (noOverlapCheck_sound h7).1 (noOverlapCheck_sound h7).2 hfm (deepEnough_iff h8) putLib true 8 []).1 _ _).1 ⟨100, hk⟩
        · cases h10
  obtain ⟨s, m, a1, ⟨p', a2⟩, a3⟩ := C52_print_read_behaves_partial _ someWorld _ p h (shortArrays_iff h1) (plainFuns_iff h2)
    ⟨by decide, by decide⟩ (fun n hn => by rw [oneGlobal_iff h3 n hn]; decide)
  obtain ⟨a4, a5⟩ := a3 _ _ a2
  obtain ⟨i, hi⟩ := List.getElem?_of_mem hfl
  obtain ⟨f', hf'⟩ : ∃ f', p'.funcLayout[i]? = some f' :=
    ⟨_, List.getElem?_eq_getElem (by rw [a4]; exact (List.getElem?_eq_some_iff.1 hi).1)⟩
  obtain ⟨N, m2, r, p'', ρ, b1, b2, -, b3⟩ := C52_raw_behaves_partial h (domCheck_sound h4) (fitsCheck_sound h5) hr
  exact ⟨p, s, m, p', f', h, shortArrays_iff h1, domCheck_sound h4, fitsCheck_sound h5, hr, a1, a2,
    (((a5 f f' ⟨i, hi, hf'⟩).2 putLib putLib_blind true 8 []).1 _).1 hrun,
    N, m2, r, p'', ρ f, b1 N (Nat.le_refl _), b2 N (Nat.le_refl _), (((b3 f fd hf).2 putLib putLib_blind true 8 []).1 _).1 hrun⟩

end Koopa
