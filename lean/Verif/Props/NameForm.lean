import Verif.Lemmas.NameForm
import Verif.Props.FrontCases
/-!
C55: names in programs are `@` or `%` with at least one more character, and calls that are given
other names panic. The setters for the names of functions and blocks do not check.
-/
namespace Koopa
open Spec

/-- C55 for the calls: a call that is given a name and succeeds is given one of the right form. This
holds for all calls that set names except `FunctionData::set_name` and `BasicBlockData::set_name`. -/
theorem C55_bad_name_panics {op : Op} {n : Str} (h : GivesName op n) (hn : ¬ SigilName n) (p : Program) :
    p.step op = none := by
  cases hs : p.step op with
  | none => rfl
  | some p' => exact absurd (h.checked hs) hn

/-- C55 for values, without any condition on the setters: after any history the names of all values,
global or local, have the right form. -/
theorem C55_value_names {p : Program} (h : Reach (fun _ op => NamesGiven False op) p) :
    (∀ v x, GlobalVal p v x → ∀ n, x.name = some n → SigilName n) ∧
    (∀ f v x, LocalVal p f v x → ∀ n, x.name = some n → SigilName n) := by
  have : NameForm False p := by
    induction h with
    | init ids => exact NameForm.new ids
    | step _ ho hs ih => exact ih.step ho hs
  exact ⟨this.globals, fun f v x hx => by obtain ⟨fd, hf, hx⟩ := hx; exact this.locals f fd v x hf hx⟩

/-- C55 for all names, if the caller gives `FunctionData::set_name` and `BasicBlockData::set_name`
names of the right form. The claim for all histories is `C55_violated`. -/
theorem C55_all_names_partial {p : Program} (h : Reach (fun _ op => NamesGiven True op) p) :
    (∀ f fd, p.funcs.get? f = some fd → SigilName fd.name) ∧
    (∀ f b x, Block p f b x → ∀ n, x.name = some n → SigilName n) ∧
    (∀ v x, GlobalVal p v x → ∀ n, x.name = some n → SigilName n) ∧
    (∀ f v x, LocalVal p f v x → ∀ n, x.name = some n → SigilName n) := by
  have : NameForm True p := by
    induction h with
    | init ids => exact NameForm.new ids
    | step _ ho hs ih => exact ih.step ho hs
  exact ⟨this.funcs trivial, fun f b x hx => by obtain ⟨fd, hf, hx⟩ := hx; exact this.blocks trivial f fd b x hf hx,
    this.globals, fun f v x hx => by obtain ⟨fd, hf, hx⟩ := hx; exact this.locals f fd v x hf hx⟩

/-- C55 for texts: whatever text is accepted, all names in the program have the right form. -/
theorem C55_text_names {w : World} {input : Str} {p : Program} (h : Accepted w input p) :
    (∀ f fd, p.funcs.get? f = some fd → SigilName fd.name) ∧
    (∀ f b x, Block p f b x → ∀ n, x.name = some n → SigilName n) ∧
    (∀ v x, GlobalVal p v x → ∀ n, x.name = some n → SigilName n) ∧
    (∀ f v x, LocalVal p f v x → ∀ n, x.name = some n → SigilName n) := by
  obtain ⟨gs, hg, -⟩ := C47_program_is_text h
  exact C55_all_names_partial ((h.items hg).1.reach.mono (fun _ _ ho => ho.2.2.2.2))

/-- The claim for all histories is false: `set_name` of functions and of blocks takes any text, here
the empty one. -/
theorem C55_violated : ∃ p, Reach (fun _ op => NamesGiven False op) p ∧
    (∃ f fd, p.funcs.get? f = some fd ∧ ¬ SigilName fd.name) ∧
    ∃ f b x n, Block p f b x ∧ x.name = some n ∧ ¬ SigilName n := by
  let ops : List Op := [.newFuncDef ['@', 'f'] [] .unit, .newBb 1 (some ['%', 'b']), .setFuncName 1 [],
    .setBbName 1 1 (some [])]
  have h1 : ((Program.new Ids.init).run ops).map (fun p => match p.funcs.get? 1 with
      | some fd => decide (fd.name = []) && (match fd.dfg.bbs.get? 1 with
        | some x => decide (x.name = some [])
        | none => false)
      | none => false) = some true := by decide
  obtain ⟨p, hp, h1⟩ := Option.map_eq_some_iff.1 h1
  have hn : ¬ SigilName [] := by rintro ⟨_, _, h, -⟩; cases h
  refine ⟨p, Reach.run ops (.init _ (Nat.le_refl _) (Nat.le_refl _)) ?_ hp, ?_⟩
  · intro q op h
    simp only [ops, List.mem_cons, List.not_mem_nil, or_false] at h
    rcases h with h | h | h | h <;> subst h <;> simp [NamesGiven]
  · split at h1
    · rename_i fd hf
      rw [Bool.and_eq_true, decide_eq_true_eq] at h1
      obtain ⟨ha, hb⟩ := h1
      split at hb
      · rename_i x hx
        exact ⟨⟨1, fd, hf, by rw [ha]; exact hn⟩, 1, 1, x, [], ⟨fd, hf, hx⟩, of_decide_eq_true hb, hn⟩
      · cases hb
    · cases h1

/-- A case: a lone sigil is not a name, and a value cannot be called that. -/
example : ¬ SigilName ['%'] ∧ GivesName (.setLocalName 1 1 (some ['%'])) ['%'] :=
  ⟨by rintro ⟨_, _, h, _, h'⟩; cases h; exact h' rfl, .local ..⟩

/-- A case: a history that names a function, its parameter, a block and its parameter, and renames
all of them. -/
example : ∃ p, Reach (fun _ op => NamesGiven True op) p ∧ Reach (fun _ op => NamesGiven False op) p ∧
    ∃ f fd, p.funcs.get? f = some fd ∧ fd.name = ['@', 'g'] ∧ ∃ v x, fd.dfg.values.get? v = some x ∧
      x.name = some ['%', 'y'] := by
  let ops : List Op := [.newFuncDef ['@', 'f'] [(some ['%', 'x'], .i32)] .unit,
    .newBbParams 1 (some ['%', 'b']) [(some ['%', 'z'], .i32)], .setFuncName 1 ['@', 'g'],
    .setBbName 1 1 (some ['%', 'c']), .setLocalName 1 localStart (some ['%', 'y'])]
  have h1 : ((Program.new Ids.init).run ops).map (fun p => match p.funcs.get? 1 with
      | some fd => decide (fd.name = ['@', 'g']) && (match fd.dfg.values.get? localStart with
        | some x => decide (x.name = some ['%', 'y'])
        | none => false)
      | none => false) = some true := by decide
  obtain ⟨p, hp, h1⟩ := Option.map_eq_some_iff.1 h1
  have hr : Reach (fun _ op => NamesGiven True op) p := by
    refine Reach.run ops (.init _ (Nat.le_refl _) (Nat.le_refl _)) ?_ hp
    intro q op h
    simp only [ops, List.mem_cons, List.not_mem_nil, or_false] at h
    rcases h with h | h | h | h | h <;> subst h <;> try trivial
    · exact fun _ => ⟨'@', ['g'], rfl, .inr rfl, by simp⟩
    · intro _ s hs
      cases hs
      exact ⟨'%', ['c'], rfl, .inl rfl, by simp⟩
  refine ⟨p, hr, hr.mono (fun _ op ho => ?_), ?_⟩
  · unfold NamesGiven at ho ⊢
    split <;> first | exact ho | trivial | exact fun h => h.elim
  · split at h1
    · rename_i fd hf
      rw [Bool.and_eq_true, decide_eq_true_eq] at h1
      obtain ⟨ha, hb⟩ := h1
      split at hb
      · rename_i x hx
        exact ⟨1, fd, hf, ha, _, x, hx, of_decide_eq_true hb⟩
      · cases hb
    · cases h1

/-- A case for texts. -/
example : ∃ p, Accepted someWorld loopText p := loop_accepted

end Koopa
