import Verif.Lemmas.Front.NoPanicItem
import Verif.Lemmas.Front.ParseTrees
import Verif.Lemmas.Front.AstEq
import Verif.Props.FrontCases
import Verif.Props.Typed
/-!
C22: texts that do not make the front end panic, whether they are correct or not.
-/
namespace Koopa
open Spec

/-- The trees that calls of `parse_next` return, up to the end of the input or the first failing call. -/
def treesFrom : Nat → PS → List GlobalAst
  | 0, _ => []
  | n + 1, s => match s.parseNext with
    | some (.ok .eof, _) => []
    | some (.ok g, s) => g :: treesFrom n s
    | _ => []

/-- The trees of a text, which may have syntax errors, and whose reader may fail at the end. -/
def treesOf (input : Str) (fail : Bool) : List GlobalAst :=
  match PS.new (Lex.new input fail) 0 with
  | some (.ok (), s) => treesFrom s.loopFuel s
  | _ => []

theorem treesFrom_ok {n : Nat} {s s' : PS} {g : GlobalAst} (h : s.parseNext = some (.ok g, s')) (hg : g ≠ .eof) :
    treesFrom (n + 1) s = g :: treesFrom n s' := by
  rw [treesFrom, h]
  cases g <;> first | exact absurd rfl hg | rfl

/-- The trees do not depend on the errors counted before. -/
theorem treesFrom_errs : ∀ (n : Nat) (s : PS) (m : Nat), treesFrom n { s with errs := m } = treesFrom n s
  | 0, _, _ => rfl
  | n + 1, s, m => by
    rcases h : s.parseNext with _ | ⟨r, s'⟩
    · rcases h' : ({ s with errs := m } : PS).parseNext with _ | ⟨r', s'⟩
      · rw [treesFrom, treesFrom, h, h']
      · obtain ⟨k, h2⟩ := parseNext_errs h' s.errs
        rw [show ({ ({ s with errs := m } : PS) with errs := s.errs } : PS) = s from rfl, h] at h2
        cases h2
    · obtain ⟨k, h2⟩ := parseNext_errs h m
      cases r with
      | error e => rw [treesFrom, treesFrom, h, h2]
      | ok g =>
        by_cases hg : g = .eof
        · subst hg; rw [treesFrom, treesFrom, h, h2]
        · rw [treesFrom_ok h hg, treesFrom_ok h2 hg, treesFrom_errs n s' k]

theorem formed_of_reach {input : Str} {fail : Bool} {s s' : PS} {g : GlobalAst} (h : ParseReach input fail s)
    (hs : s.parseNext = some (.ok g, s')) : Formed g := by
  refine ⟨h.named hs, ?_⟩
  rintro n ps r bbs rfl
  obtain ⟨h1, h2⟩ := C16_recovered_blocks input fail s s' n ps r bbs h hs
  refine ⟨h1, fun b hb => ?_⟩
  obtain ⟨init, last, h3, h4, -⟩ := h2 b hb
  refine ⟨last, by rw [h3, List.getLast?_concat], ?_⟩
  cases last <;> simp [isTerm, isErr, targetsOf] at h4 ⊢

theorem driverLoop_returns {input : Str} {fail : Bool} {gs : List GlobalAst} (hH : Harmless gs) :
    ∀ (n : Nat) (s : PS) (b : BS), ParseReach input fail s → s.size < n → (∀ g ∈ treesFrom n s, g ∈ gs) → Fit gs b →
      b.prog.ids.nextGlobal + ((treesFrom n s).map globalSize).sum ≤ localStart → (driverLoop n s b).isSome = true
  | 0, _, _, _, hn, _, _, _ => by omega
  | n + 1, s, b, hr, hn, hm, hf, hR => by
    obtain ⟨r, s1, h1, -, -, -, h4, -, -⟩ := C15_parseNext_returns input fail s hr
    cases r with
    | error x => rw [driverLoop, h1]; rfl
    | ok g =>
      by_cases hg : g = .eof
      · subst hg; rw [driverLoop, h1]; rfl
      · rw [treesFrom_ok h1 hg] at hm hR
        rw [List.map_cons, List.sum_cons] at hR
        have hmem : g ∈ gs := hm g List.mem_cons_self
        obtain ⟨x, b2, h5, h6, h7⟩ := buildOn_fit (s := { b with errs := s1.errs }) hmem (formed_of_reach hr h1) (hH g hmem)
          (hf.count _) hR
        rw [driverLoop_round h1 hg h5]
        split
        · rfl
        · refine driverLoop_returns hH n { s1 with errs := b2.errs } b2 (.count (.step hr h1))
            (by have := h4 g rfl hg; have e : PS.size { s1 with errs := b2.errs } = s1.size := rfl; omega) ?_ h6 ?_
          · rw [treesFrom_errs]; exact fun g' h' => hm g' (List.mem_cons_of_mem _ h')
          · rw [treesFrom_errs]; exact h7

/-- C22: the front end returns for every text, with or without syntax errors, and whether the reader fails or
not, as long as its trees have no empty array types, jump only to labels that exist, give calls and jumps at least
as many arguments as there are parameters, and use aggregates only in initialisers, where elements have the
same type. The trees may have any other error: unknown or duplicate symbols, operands and results of wrong types,
arguments of wrong types or too many, initialisers of a wrong type or length, rejected statements.

Full statement: `FrontReturns`, which is false (`C22_violated`). What is missing for a characterisation: aggregates
that are operands of instructions, and which of the excluded texts do panic. -/
theorem C22_returns_partial (w : World) (input : Str) (fail : Bool) (hw : w.Ok) (hH : Harmless (treesOf input fail))
    (hR : w.ids.nextGlobal + ((treesOf input fail).map globalSize).sum ≤ localStart) :
    (generate w input fail).isSome = true := by
  unfold treesOf at hH hR
  unfold generate
  obtain ⟨r, s, hn⟩ := PS.new_returns input fail 0
  cases r with
  | error e => simp only [Driver.new, hn, Driver.generate]; rfl
  | ok u =>
    simp only [hn] at hH hR
    simp only [Driver.new, hn, Driver.generate]
    have hI : Fit (treesFrom s.loopFuel s) (Driver.start ⟨.ok s, BS.new w.ids⟩ { w with errs := s.errs, warns := 0 }) := by
      refine ⟨FInv.new w.ids hw.globals hw.locals (by omega), ?_, ?_, ?_, ?_⟩
      · intro f v sg h
        simp [shapeOf, Driver.start, BS.new, Program.view, Program.new, Map.empty, Map.get?, Map.lookup] at h
      · intro v sg h
        simp [shapeOf, Driver.start, BS.new, Program.view, Program.new, Map.empty, Map.get?, Map.lookup] at h
      · intro n v h
        simp [Driver.start, BS.new, Map.empty, Map.get?, Map.lookup] at h
      · intro n v h
        simp [Driver.start, BS.new, Map.empty, Map.get?, Map.lookup] at h
    have hl := driverLoop_returns hH s.loopFuel { s with errs := s.errs }
      (Driver.start ⟨.ok s, BS.new w.ids⟩ { w with errs := s.errs, warns := 0 }) (.new hn) (by unfold PS.loopFuel; show s.size < _; omega)
      (fun g h => h) hI hR
    obtain ⟨⟨ended, b⟩, hb⟩ := Option.isSome_iff_exists.1 hl
    rw [hb]
    simp only
    split <;> rfl

theorem treesFrom_calls : ∀ (n : Nat) (s s' : PS) (gs : List GlobalAst), parseCalls n s = some (.ok gs, s') → treesFrom n s = gs
  | 0, _, _, _, h => by cases h
  | n + 1, s, s', gs, h => by
    rcases h1 : s.parseNext with _ | ⟨r, s1⟩
    · rw [parseCalls, h1] at h; cases h
    · cases r with
      | error e => rw [parseCalls_err h1] at h; cases h
      | ok g =>
        by_cases hg : g = .eof
        · subst hg
          rw [parseCalls_eof h1] at h
          cases h
          rw [treesFrom, h1]
        · rw [parseCalls_ok h1 hg] at h
          split at h
          · cases h
          · cases h
          · rename_i gs1 s2 h2
            cases h
            rw [treesFrom_ok h1 hg, treesFrom_calls n s1 _ gs1 h2]

/-- The trees of a text of the grammar are those it reads as. -/
theorem treesOf_reads {input : Str} {gs : List GlobalAst} (hr : Reads input gs) : treesOf input false = gs := by
  obtain ⟨ts, h1, h2⟩ := hr
  obtain ⟨s, s', h3, h4, h5⟩ := eats_of_toks (Toks_space.2 h1) Token.default 0
  rw [← Lex.new_eq] at h3
  have h3' : PS.new (Lex.new input false) 0 = some (.ok (), s) := h3
  obtain ⟨hi, hs, he⟩ := PS.new_ok h3'
  have hp := parseCalls_complete (k := s.loopFuel) h2 hi h4 h5 (by unfold PS.loopFuel; omega)
  unfold treesOf
  rw [h3']
  exact treesFrom_calls _ _ _ _ hp

/-- C22 for texts of the grammar, without the parser: if the text reads as harmless trees, the front end returns. -/
theorem C22_reads_returns_partial (w : World) (input : Str) (gs : List GlobalAst) (hw : w.Ok) (hr : Reads input gs)
    (hH : Harmless gs) (hR : w.ids.nextGlobal + (gs.map globalSize).sum ≤ localStart) :
    (generate w input false).isSome = true := by
  have e := treesOf_reads hr
  exact C22_returns_partial w input false hw (by rw [e]; exact hH) (by rw [e]; exact hR)

/-! ### Cases -/

/-- A text with an initialiser of wrong length, a name that is defined twice, an unknown symbol, operands of wrong
types, a syntax error (`load 3`), and too many arguments. -/
def wrongText : Str := "global @g = alloc [i32, 3], {1, 2} decl @f(i32) fun @g(): i32 {%e: %x = add @g, %y %x = load 3 call @f(@g, 2) br %x, %e, %e}".toList

def wrongTrees : List GlobalAst :=
  [.globalDef "@g".toList (.array .int 3) (.agg [.int 1, .int 2]), .funDecl "@f".toList [.int] none,
   .funDef "@g".toList [] (some .int) [⟨"%e".toList, [],
     [.def "%x".toList (.binary .add (.sym "@g".toList) (.sym "%y".toList)), .error,
      .call "@f".toList [.sym "@g".toList, .int 2], .branch (.sym "%x".toList) "%e".toList [] "%e".toList []]⟩]]

theorem wrongTrees_harmless : Harmless wrongTrees := by
  intro g hg
  simp only [wrongTrees, List.mem_cons, List.not_mem_nil, or_false] at hg
  rcases hg with rfl | rfl | rfl
  · exact ⟨.array .i32 3, _, .array .int (by decide), .agg rfl (by simp) (.cons .int (.cons .int .nil))⟩
  · exact ⟨by rintro a ha; simp at ha; subst ha; exact ⟨_, .int⟩, by simp⟩
  · refine ⟨by simp, by rintro _ ⟨⟩; exact ⟨_, .int⟩, ?_⟩
    intro b hb
    simp only [List.mem_cons, List.not_mem_nil, or_false] at hb
    subst hb
    refine ⟨by simp, ?_, ?_⟩
    · intro st hst
      simp only [List.mem_cons, List.not_mem_nil, or_false] at hst
      rcases hst with rfl | rfl | rfl | rfl
      · exact ⟨trivial, trivial⟩
      · trivial
      · refine ⟨by intro a ha; simp at ha; rcases ha with rfl | rfl <;> trivial, ?_⟩
        intro g hg k hk
        simp only [wrongTrees, List.mem_cons, List.not_mem_nil, or_false] at hg
        rcases hg with rfl | rfl | rfl <;> simp [arity] at hk
        subst hk; simp
      · refine ⟨trivial, ⟨by simp, ?_⟩, ⟨by simp, ?_⟩⟩ <;> · intro b hb _; simp at hb; subst hb; simp
    · intro t ht
      simp [successors] at ht
      exact ⟨_, List.mem_cons_self, ht.symm⟩

/-- A case for C22: all this is reported, and the front end returns, with any counters that leave room for the
four globals. -/
example (w : World) (hw : w.Ok) (h : w.ids.nextGlobal + 4 ≤ localStart) : (generate w wrongText false).isSome = true := by
  have e : treesOf wrongText false = wrongTrees := of_decide_eq_true (by decide +kernel)
  refine C22_returns_partial w wrongText false hw (by rw [e]; exact wrongTrees_harmless) ?_
  rw [e]
  exact h

/-- A case for C22 with a reader that fails within the function: two trees were built. -/
example (w : World) (hw : w.Ok) (h : w.ids.nextGlobal + 4 ≤ localStart) : (generate w wrongText.dropLast true).isSome = true := by
  have e : treesOf wrongText.dropLast true = wrongTrees.take 2 := of_decide_eq_true (by decide +kernel)
  refine C22_returns_partial w _ true hw ?_ (by rw [e]; exact h)
  rw [e]
  intro g hg
  simp only [wrongTrees, List.take, List.mem_cons, List.not_mem_nil, or_false] at hg
  rcases hg with rfl | rfl
  · exact wrongTrees_harmless (.globalDef _ _ _) List.mem_cons_self
  · exact wrongTrees_harmless (.funDecl _ _ _) (List.mem_cons_of_mem _ List.mem_cons_self)

/-- A case for C22 and texts of the grammar: an operand of a wrong type and an unknown function. -/
example (w : World) (hw : w.Ok) (h : w.ids.nextGlobal ≤ localStart) :
    (generate w "fun @f(%p: *i32): i32 {%e: %x = add %p, 1 call @g(%x, %x) ret %p}".toList false).isSome = true := by
  refine C22_reads_returns_partial w _ [.funDef "@f".toList [("%p".toList, .pointer .int)] (some .int) [⟨"%e".toList, [],
     [.def "%x".toList (.binary .add (.sym "%p".toList) (.int 1)), .call "@g".toList [.sym "%x".toList, .sym "%x".toList],
      .ret (some (.sym "%p".toList))]⟩]] hw (readsCheck_iff (by decide +kernel)) ?_ h
  intro g hg
  simp only [List.mem_cons, List.not_mem_nil, or_false] at hg
  subst hg
  refine ⟨by rintro a ha; simp at ha; subst ha; exact ⟨_, .pointer .int⟩, by rintro _ ⟨⟩; exact ⟨_, .int⟩, ?_⟩
  intro b hb
  simp only [List.mem_cons, List.not_mem_nil, or_false] at hb
  subst hb
  refine ⟨by simp, ?_, by simp [successors]⟩
  intro st hst
  simp only [List.mem_cons, List.not_mem_nil, or_false] at hst
  rcases hst with rfl | rfl | rfl
  · exact ⟨trivial, trivial⟩
  · refine ⟨by intro a ha; simp at ha; subst ha; trivial, ?_⟩
    intro g hg k hk
    simp only [List.mem_cons, List.not_mem_nil, or_false] at hg
    subst hg
    simp [arity] at hk
  · rintro _ ⟨⟩; trivial

end Koopa
