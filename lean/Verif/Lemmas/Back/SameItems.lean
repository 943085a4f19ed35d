import Verif.Lemmas.Back.TreeOk
import Verif.Lemmas.Front.Search
import Verif.Lemmas.Front.Convert
import Verif.Lemmas.Lib.RawGenStep2
/-!
Reading the tree of a program back: the items of the program that is read stand at the same places.
-/
namespace Koopa
open Spec

/-- There is only one breadth-first order. -/
theorem Spec.BreadthFirst.unique {bbs o o' : List BlockAst} {e e' : BlockAst} (h : BreadthFirst bbs o e) (h' : BreadthFirst bbs o' e')
    (hend : ∀ b ∈ bbs, ∃ st, b.stmts.getLast? = some st ∧ endStmt st = true) : o = o' := by
  have key : ∀ b ∈ bbs, ∃ st, b.stmts.getLast? = some st ∧ (targetsOf st).isSome := by
    intro b hb
    obtain ⟨st, h1, h2⟩ := hend b hb
    refine ⟨st, h1, ?_⟩
    cases st <;> first | rfl | cases h2
  obtain ⟨s1, h1⟩ := blockList_run h (fun b hb => key b ((h.exact b).1 hb).1) (BS.new ⟨0, 0, 0, 0⟩)
  obtain ⟨s2, h2⟩ := blockList_run h' (fun b hb => key b ((h'.exact b).1 hb).1) (BS.new ⟨0, 0, 0, 0⟩)
  have := h1.run.symm.trans h2.run
  cases this; rfl

theorem all2_map_left {α β γ : Type} {R : β → γ → Prop} {g : α → β} : ∀ {as : List α} {cs : List γ}, All2 R (as.map g) cs → All2 (fun a c => R (g a) c) as cs
  | [], _, .nil => .nil
  | _ :: _, _, .cons h hs => .cons h (all2_map_left hs)

/-- The function at place `i` of the text. -/
def FunAt (p : Program) (vars : List (Str × Value)) (fns : List (Str × Func)) (i : Nat) (g : GlobalAst) : Prop :=
  ∃ n f fd, fns[i]? = some (n, f) ∧ p.funcs.get? f = some fd ∧
    ((∃ ps r, g = .funDecl n ps r ∧ DeclIs p f fd n ps r) ∨
      ∃ ps r bbs order t, g = .funDef n ps r bbs ∧
        FunIs p (fun n v => (n, v) ∈ vars) (fun n g => (n, g) ∈ fns.take (i + 1)) f fd n ps r bbs order t)

/-- The global variable of the text. -/
def GlobAt (p : Program) (g : GlobalAst) (q : Str × Value) : Prop := ∃ ty init, g = .globalDef q.1 ty init ∧ GlobalIs p q.2 q.1 ty init

def isGlobDef : GlobalAst → Bool
  | .globalDef _ _ _ => true
  | _ => false

theorem FunAt.grow {p : Program} {vars : List (Str × Value)} {fns : List (Str × Func)} {i : Nat} {g : GlobalAst} (h : FunAt p vars fns i g)
    (q : Str × Func) : FunAt p vars (fns ++ [q]) i g := by
  obtain ⟨n, f, fd, h1, h2, h3⟩ := h
  have hl := (List.getElem?_eq_some_iff.1 h1).1
  refine ⟨n, f, fd, by rw [List.getElem?_append_left hl]; exact h1, h2, ?_⟩
  rwa [List.take_append_of_le_length (by omega)]

theorem snoc_get {α β : Type} {as : List α} {bs : List β} (h : as.length = bs.length) (x : β) : (bs ++ [x])[as.length]? = some x := by
  rw [h, List.getElem?_append_right (Nat.le_refl _)]; simp

theorem append_snoc {α : Type} {a b c : List α} {x : α} (h : a ++ b = c ++ [x]) : (b = [] ∧ a = c ++ [x]) ∨ ∃ b', b = b' ++ [x] ∧ a ++ b' = c := by
  rcases List.eq_nil_or_concat b with rfl | ⟨b', y, rfl⟩
  · exact .inl ⟨rfl, by simpa using h⟩
  · rw [List.concat_eq_append, ← List.append_assoc] at h
    have := List.append_inj' h rfl
    exact .inr ⟨b', by rw [List.concat_eq_append, this.2], this.1⟩

theorem Spec.Items.split {p : Program} {gs : List GlobalAst} {vars : List (Str × Value)} {fns : List (Str × Func)} (h : Items p gs vars fns) :
    ∀ as bs, as ++ bs = gs → (∀ a ∈ as, isGlobDef a = true) → (∀ b ∈ bs, isGlobDef b = false) →
      All2 (GlobAt p) as vars ∧ bs.length = fns.length ∧ ∀ (i : Nat) b, bs[i]? = some b → FunAt p vars fns i b := by
  induction h with
  | nil =>
    intro as bs he _ _
    obtain ⟨rfl, rfl⟩ := List.append_eq_nil_iff.1 he
    exact ⟨.nil, rfl, by simp⟩
  | globalDef _ h1 h2 h3 ih =>
    intro as bs he ha hb
    rcases append_snoc he with ⟨rfl, rfl⟩ | ⟨b', rfl, -⟩
    · obtain ⟨a1, a2, a3⟩ := ih _ [] (by simp) (fun a h => ha a (List.mem_append_left _ h)) (by simp)
      exact ⟨Raw.All2.snoc a1 ⟨_, _, rfl, h3⟩, a2, by simp⟩
    · have := hb _ (List.mem_append_right _ (List.mem_singleton.2 rfl))
      cases this
  | funDecl _ h1 h2 h3 h4 ih =>
    intro as bs he ha hb
    rcases append_snoc he with ⟨rfl, rfl⟩ | ⟨b', rfl, he'⟩
    · have := ha _ (List.mem_append_right _ (List.mem_singleton.2 rfl))
      cases this
    · obtain ⟨a1, a2, a3⟩ := ih as b' he' ha (fun b h => hb b (List.mem_append_left _ h))
      refine ⟨a1, by simp [a2], fun i b hi => ?_⟩
      by_cases hl : i < b'.length
      · rw [List.getElem?_append_left hl] at hi
        exact (a3 i b hi).grow _
      · rw [List.getElem?_append_right (by omega)] at hi
        have : i = b'.length := by
          have := (List.getElem?_eq_some_iff.1 hi).1
          simp at this; omega
        subst this
        simp at hi; subst hi
        exact ⟨_, _, _, snoc_get a2 _, h3, .inl ⟨_, _, rfl, h4⟩⟩
  | funDef _ h1 h2 h3 h4 ih =>
    intro as bs he ha hb
    rcases append_snoc he with ⟨rfl, rfl⟩ | ⟨b', rfl, he'⟩
    · have := ha _ (List.mem_append_right _ (List.mem_singleton.2 rfl))
      cases this
    · obtain ⟨a1, a2, a3⟩ := ih as b' he' ha (fun b h => hb b (List.mem_append_left _ h))
      refine ⟨a1, by simp [a2], fun i b hi => ?_⟩
      by_cases hl : i < b'.length
      · rw [List.getElem?_append_left hl] at hi
        exact (a3 i b hi).grow _
      · rw [List.getElem?_append_right (by omega)] at hi
        have : i = b'.length := by
          have := (List.getElem?_eq_some_iff.1 hi).1
          simp at this; omega
        subst this
        simp at hi; subst hi
        refine ⟨_, _, _, snoc_get a2 _, h3, .inr ?_⟩
        rw [List.take_of_length_le (by simp [a2])]
        exact ⟨_, _, _, _, _, rfl, h4⟩

section
variable {p : Program} (hp : Printable p)
include hp

theorem globalAst_def (G : Nm) {v : Value} (hv : v ∈ p.instLayout) : ∃ x i y, GlobalVal p v x ∧ x.kind = .globalAlloc i ∧ GlobalVal p i y ∧
    x.ty = .ptr y.ty ∧ Expressible y.ty ∧ Constant p.values.get? i ∧
    globalAst p G v = .globalDef (G.glob v) (astOf y.ty) (elemAst p.values.get? (p.values.entries.length + 1) i) := by
  obtain ⟨x, i, y, h1, h2, h3, h4, h5⟩ := hp.insts v hv
  have h1' : p.values.get? v = some x := h1
  have h4' : p.values.get? i = some y := h4
  refine ⟨x, i, y, h1, h2, h4, ?_, h5, h3, ?_⟩
  · have := hp.typed.globals v x h1
    rw [h2] at this
    generalize x.ty = t at this
    cases this with
    | globalAlloc _ h6 =>
      obtain ⟨z, h7, h8⟩ := h6
      have h7 : p.values.get? i = some z := h7
      rw [h4'] at h7; cases h7; rw [h8]
  · unfold globalAst elemAst
    simp only [h1', h2, h4']

theorem funItem_def (M : Nm) {f : Func} (hf : f ∈ p.funcLayout) : ∃ before fd ts r, p.funcs.get? f = some fd ∧ PrintableFun p before f fd ts r ∧
    (∀ g ∈ before ++ [f], g ∈ p.funcLayout) ∧
    ((fd.dfg.bbs.isEmpty = true ∧ fd.layout.bbs = [] ∧ fd.params = [] ∧ funItem p f M = .funDecl (M.fn f) (ts.map astOf) (retAst r)) ∨
      (PrintableBody p before f fd ts r ∧ funItem p f M = .funDef (M.fn f) (paramsOf fd M fd.params) (retAst r) (orderOf fd M))) := by
  obtain ⟨i, hi⟩ := List.getElem?_of_mem hf
  obtain ⟨fd, ts, r, h1, h2⟩ := hp.funcs i f hi
  refine ⟨_, fd, ts, r, h1, h2, ?_, ?_⟩
  · intro g hg
    rcases List.mem_append.1 hg with h | h
    · exact List.mem_of_mem_take h
    · rw [List.mem_singleton] at h; subst h; exact hf
  · unfold funItem funAst
    simp only [h1, h2.ty]
    rcases h2.body with ⟨b1, b2, b3⟩ | hb
    · exact .inl ⟨b1, b2, b3, by rw [if_pos b1]⟩
    · exact .inr ⟨hb, by rw [if_neg (by simp [hb.hasBlocks])]; rfl⟩

/-- What the program read from the tree is. -/
theorem Spec.Items.ofTree {p' : Program} {G : Nm} {N : Func → Nm} {vars : List (Str × Value)} {fns : List (Str × Func)}
    (h : Items p' (globalTrees p G ++ funTrees p N) vars fns) :
    All2 (fun v q => GlobAt p' (globalAst p G v) q) p.instLayout vars ∧ p.funcLayout.length = fns.length ∧
      ∀ (i : Nat) f, p.funcLayout[i]? = some f → FunAt p' vars fns i (funItem p f (N f)) := by
  obtain ⟨h1, h2, h3⟩ := h.split _ _ rfl (by
    intro a ha
    obtain ⟨v, hv, rfl⟩ := List.mem_map.1 ha
    obtain ⟨_, _, _, -, -, -, -, -, -, e⟩ := globalAst_def hp G hv
    rw [e]; rfl) (by
    intro a ha
    obtain ⟨f, hf, rfl⟩ := List.mem_map.1 ha
    obtain ⟨_, _, _, _, -, -, -, ⟨-, -, -, e⟩ | ⟨-, e⟩⟩ := funItem_def hp (N f) hf <;> rw [e] <;> rfl)
  refine ⟨?_, by simpa [funTrees] using h2, fun i f hi => h3 i _ (by unfold funTrees; rw [List.getElem?_map, hi]; rfl)⟩
  exact all2_map_left h1

end

end Koopa
