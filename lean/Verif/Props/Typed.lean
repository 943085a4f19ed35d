import Verif.Spec.Typed
import Verif.Lemmas.Front.RunsProg
import Verif.Props.FrontCases
/-!
C48: well-typed texts are accepted.
-/
namespace Koopa
open Spec

theorem GProg_clean {gs : List GlobalAst} {ts : List Token} (h : GProg gs ts) : ∀ g ∈ gs, g.clean := by
  induction h with
  | nil => intro g hg; cases hg
  | cons h hs ih =>
    intro g hg
    rcases List.mem_cons.1 hg with rfl | hg
    · cases h with
      | globalDef => trivial
      | funDecl => trivial
      | funDef _ _ _ _ _ hb hne _ =>
        intro b hb1 hin
        obtain ⟨init, last, e, ht, hi⟩ := GBlocks_closed hb b hb1
        rw [e, List.mem_append, List.mem_singleton] at hin
        rcases hin with hin | rfl
        · have := (hi _ hin).2
          simp [isErr] at this
        · simp [isTerm] at ht
    · exact ih g hg

/-- **C48.** A text whose items are well typed is accepted, whatever was built before, as long as the
ids of its global values are available. The program is the one the text stands for. -/
theorem C48_well_typed_accepted (w : World) (input : Str) (gs : List GlobalAst) (gv : List (Str × Ty))
    (gf : List (Str × List Ty × Ty)) (hw : w.Ok) (hr : Reads input gs) (ht : ItemsOk gs gv gf)
    (hn : w.ids.nextGlobal + (gs.map globalSize).sum ≤ localStart) :
    ∃ p, Accepted w input p ∧ ProgIs p gs := by
  have hc : ∀ g ∈ gs, g.clean := by
    obtain ⟨ts, -, h⟩ := hr
    exact GProg_clean h
  have h0 : Known [] [] (BS.new w.ids) := by
    constructor
    · intro sy t h; cases h
    · intro sy h; simp [BS.new, Map.get?, Map.empty, Map.lookup] at h
    · intro g ts r h; cases h
    · intro g h; simp [BS.new, Map.get?, Map.empty, Map.lookup] at h
  have hR : RoomFor (globalSizes gs + 0) (BS.new w.ids) :=
    ⟨FInv.new w.ids hw.globals hw.locals (by omega), by unfold globalSizes; exact hn⟩
  obtain ⟨b, hb, -, hR'⟩ := ItemsOk.builds ht hc h0 hR
  have ha : Accepted w input b.prog := ⟨hw, _, generate_of_builds hr hb, by have := hR'.2; simpa using this⟩
  obtain ⟨gs', ⟨ts', c1, c2⟩, hp⟩ := C47_program_is_text ha
  obtain ⟨ts, d1, d2⟩ := hr
  rw [← C45_grammar_unambiguous input ts' ts gs' gs c1 d1 c2 d2]
  exact ⟨b.prog, ha, hp⟩

/-- The blocks of the function of `loopItems`. -/
def loopE : BlockAst := ⟨"%e".toList, [], [.def "%0".toList (.call "@f".toList [.sym "%x".toList]),
  .branch (.sym "%0".toList) "%l".toList [.sym "%0".toList] "%q".toList []]⟩
def loopU : BlockAst := ⟨"%u".toList, [], [.jump "%u".toList []]⟩
def loopQ : BlockAst := ⟨"%q".toList, [], [.ret (some (.int 3))]⟩
def loopL : BlockAst := ⟨"%l".toList, [("%i".toList, .int)], [.def "%c".toList (.binary .lt (.sym "%i".toList) (.int 10)),
  .store (.sym "%x".toList) "@g".toList, .branch (.sym "%c".toList) "%l".toList [.int 7] "%q".toList []]⟩

theorem loop_flows {a : Str} (h : Flows [loopE, loopU, loopQ, loopL] loopE.name a) :
    a ∈ [loopE.name, loopL.name, loopQ.name] := by
  induction h with
  | refl => exact List.mem_cons_self
  | step _ hb hc ih =>
    have hd : ∀ b ∈ [loopE, loopU, loopQ, loopL], b.name ∈ [loopE.name, loopL.name, loopQ.name] →
        ∀ c ∈ successors b, c ∈ [loopE.name, loopL.name, loopQ.name] := by decide +kernel
    exact hd _ hb ih _ hc

theorem loop_order : BreadthFirst [loopE, loopU, loopQ, loopL] [loopE, loopL, loopQ] loopE where
  first := rfl
  names := by decide +kernel
  exact b := by
    have h0 : Flows [loopE, loopU, loopQ, loopL] loopE.name loopE.name := .refl
    have h1 : Flows [loopE, loopU, loopQ, loopL] loopE.name loopL.name := .step h0 (by simp) (by decide +kernel)
    have h2 : Flows [loopE, loopU, loopQ, loopL] loopE.name loopQ.name := .step h0 (by simp) (by decide +kernel)
    constructor
    · intro h
      simp only [List.mem_cons, List.not_mem_nil, or_false] at h
      rcases h with rfl | rfl | rfl
      · exact ⟨by simp, h0⟩
      · exact ⟨by simp, h1⟩
      · exact ⟨by simp, h2⟩
    · rintro ⟨h, hf⟩
      have hf := loop_flows hf
      simp only [List.mem_cons, List.not_mem_nil, or_false] at h
      rcases h with rfl | rfl | rfl | rfl
      · simp
      · exact absurd hf (by decide +kernel)
      · simp
      · simp
  breadth := by decide +kernel
  targets := by decide +kernel

/-- The loop is well typed. -/
theorem loop_typed : ItemsOk loopItems [("@g".toList, .ptr .i32)]
    [("@f".toList, [.i32], .i32), ("@m".toList, [.i32], .i32)] := by
  have h1 : ItemsOk [.globalDef "@g".toList .int (.int 1)] [("@g".toList, .ptr .i32)] [] :=
    .globalDef .nil (Or.inl rfl) (by simp) (by simp) .int .int
  have h2 : ItemsOk [.globalDef "@g".toList .int (.int 1), .funDecl "@f".toList [.int] (some .int)]
      [("@g".toList, .ptr .i32)] [("@f".toList, [.i32], .i32)] :=
    .funDecl h1 (Or.inl rfl) (by decide +kernel) (by simp) (.cons .int .nil) (.some .int)
  refine .funDef (order := [loopE, loopL, loopQ]) h2 (Or.inl rfl) (by decide +kernel) (by decide +kernel) ?_
  refine ⟨⟨loopE, loop_order⟩, .cons .int .nil, .some .int, by decide +kernel, by decide +kernel, ?_, ?_, fun _ => .i32, ?_, ?_, ?_⟩
  · intro n hn
    have : n ∈ ["%x".toList, "%i".toList, "%0".toList, "%c".toList, "%e".toList, "%l".toList, "%q".toList] := hn
    simp only [List.mem_cons, List.not_mem_nil, or_false] at this
    rcases this with rfl | rfl | rfl | rfl | rfl | rfl | rfl <;> exact Or.inr rfl
  · decide +kernel
  · intro q hq
    simp only [List.mem_cons, List.not_mem_nil, or_false] at hq
    subst hq
    exact .int
  · intro b hb q hq
    have : ∀ b ∈ [loopE, loopL, loopQ], ∀ q ∈ b.params, q.2 = .int := by decide +kernel
    rw [this b hb q hq]
    exact .int
  · intro j i b st hb hs
    have hx : ∀ {j i}, InScope [("%x".toList, .int)] [loopE, loopL, loopQ] j i "%x".toList := .arg List.mem_cons_self
    have hf : Flows [loopE, loopL, loopQ] loopE.name loopE.name := .refl
    match j, hb with
    | 0, hb =>
      cases hb
      match i, hs with
      | 0, hs =>
        cases hs
        exact StmtOk.def (.call (ts := [.i32]) (by simp [tyEnv]) (.cons (.sym (.inr ⟨hx, rfl⟩)) .nil)) (by simp)
      | 1, hs =>
        cases hs
        have h0 : InScope [("%x".toList, .int)] [loopE, loopL, loopQ] 0 1 "%0".toList :=
          .inst (j' := 0) (i' := 0) rfl rfl rfl .refl (.inr ⟨rfl, by decide⟩)
        exact .branch (ts := [.i32]) (fs := []) (.sym (.inr ⟨h0, rfl⟩)) ⟨loopL, by simp, rfl, .cons .int .nil⟩
          (.cons (.sym (.inr ⟨h0, rfl⟩)) .nil) ⟨loopQ, by simp, rfl, .nil⟩ .nil (fun h => absurd h (by decide +kernel))
      | n + 2, hs => cases hs
    | 1, hb =>
      cases hb
      match i, hs with
      | 0, hs =>
        cases hs
        exact StmtOk.def (.binary (.sym (.inr ⟨.param (j' := 0) rfl rfl List.mem_cons_self .refl, rfl⟩)) (.const .int)) (by simp)
      | 1, hs =>
        cases hs
        exact .store (.sym (.inr ⟨hx, rfl⟩)) (.inl List.mem_cons_self)
      | 2, hs =>
        cases hs
        exact .branch (ts := [.i32]) (fs := []) (.sym (.inr ⟨.inst (j' := 1) (i' := 0) rfl rfl rfl .refl (.inr ⟨rfl, by decide⟩), rfl⟩))
          ⟨loopL, by simp, rfl, .cons .int .nil⟩ (.cons (.const .int) .nil) ⟨loopQ, by simp, rfl, .nil⟩ .nil
          (fun h => absurd h (by decide +kernel))
      | n + 3, hs => cases hs
    | 2, hb =>
      cases hb
      match i, hs with
      | 0, hs =>
        cases hs
        exact .ret (by simp [tyEnv]) (.const .int)
      | n + 1, hs => cases hs
    | n + 3, hb => cases hb

/-- A case for C48. -/
example : ∃ p, Accepted someWorld loopText p ∧ ProgIs p loopItems :=
  C48_well_typed_accepted _ _ _ _ _ ⟨by decide, by decide⟩ loop_reads loop_typed (by decide)

end Koopa
