import Verif.Model.History
/-!
C10: `parent_bb` agrees with the instruction lists of the blocks.
-/
namespace Koopa

/-- Specification: instruction `i` is listed in block `b`. -/
def Listed (l : Layout) (b : BB) (i : Value) : Prop := ∃ is, (b, is) ∈ l.bbs ∧ i ∈ is

/-- `parent_bb` is right for every instruction, and blocks and instructions are listed once. -/
structure ParentsRight (l : Layout) : Prop where
  parent : ∀ i b, l.parentBb i = some b ↔ Listed l b i
  none : ∀ i, l.parentBb i = none ↔ ∀ b, ¬ Listed l b i
  blocksOnce : (l.bbs.map (·.1)).Nodup
  instsOnce : ∀ b is, (b, is) ∈ l.bbs → is.Nodup
  oneBlock : ∀ i b b', Listed l b i → Listed l b' i → b = b'

/-- The invariant. -/
structure LInv (l : Layout) : Prop where
  keys : (l.bbs.map (·.1)).Nodup
  insts : ∀ b is, (b, is) ∈ l.bbs → is.Nodup
  parent : ∀ i b, l.instBb.get? i = some b ↔ Listed l b i

theorem lookup_eq_some_iff {l : List (BB × List Value)} (h : (l.map (·.1)).Nodup) {b : BB} {is : List Value} :
    Map.lookup l b = some is ↔ (b, is) ∈ l := by
  induction l with
  | nil => simp [Map.lookup]
  | cons a l ih =>
    obtain ⟨b', is'⟩ := a
    simp only [List.map_cons, List.nodup_cons] at h
    simp only [Map.lookup, List.mem_cons, Prod.mk.injEq]
    by_cases hb : b' = b
    · subst hb
      simp only [if_true, Option.some.injEq, true_and]
      constructor
      · intro h; exact .inl h.symm
      · rintro (h1 | h1)
        · exact h1.symm
        · exact absurd (List.mem_map.2 ⟨_, h1, rfl⟩) h.1
    · rw [if_neg hb, ih h.2]
      constructor
      · exact .inr
      · rintro (⟨h1, _⟩ | h1)
        · exact absurd h1.symm hb
        · exact h1

theorem lookup_eq_none_iff {l : List (BB × List Value)} {b : BB} :
    Map.lookup l b = none ↔ b ∉ l.map (·.1) := by
  induction l with
  | nil => simp [Map.lookup]
  | cons a l ih =>
    obtain ⟨b', is'⟩ := a
    simp only [Map.lookup, List.map_cons, List.mem_cons, not_or]
    by_cases hb : b' = b
    · subst hb; simp
    · rw [if_neg hb, ih]; simp [Ne.symm hb, eq_comm]

theorem setInsts_keys (b : BB) (is : List Value) (l : List (BB × List Value)) :
    (setInsts b is l).map (·.1) = l.map (·.1) := by
  induction l with
  | nil => rfl
  | cons a l ih =>
    obtain ⟨b', is'⟩ := a
    simp only [setInsts]; split <;> simp [ih]

theorem mem_setInsts {b : BB} {is : List Value} {l : List (BB × List Value)} (h : (l.map (·.1)).Nodup)
    {c : BB} {js : List Value} :
    (c, js) ∈ setInsts b is l ↔ (c ≠ b ∧ (c, js) ∈ l) ∨ (c = b ∧ js = is ∧ b ∈ l.map (·.1)) := by
  induction l with
  | nil => simp [setInsts]
  | cons a l ih =>
    obtain ⟨b', is'⟩ := a
    simp only [List.map_cons, List.nodup_cons] at h
    simp only [setInsts]
    by_cases hb : b' = b
    · subst hb
      simp only [if_true, List.mem_cons, Prod.mk.injEq, List.map_cons, true_or, and_true]
      constructor
      · rintro (⟨rfl, rfl⟩ | h1)
        · exact .inr ⟨rfl, rfl⟩
        · refine .inl ⟨?_, .inr h1⟩
          rintro rfl; exact h.1 (List.mem_map.2 ⟨_, h1, rfl⟩)
      · rintro (⟨h1, (⟨rfl, _⟩ | h2)⟩ | ⟨rfl, rfl⟩)
        · exact absurd rfl h1
        · exact .inr h2
        · exact .inl ⟨rfl, rfl⟩
    · rw [if_neg hb]
      simp only [List.mem_cons, Prod.mk.injEq, ih h.2, List.map_cons, Ne.symm hb, false_or]
      constructor
      · rintro (⟨rfl, rfl⟩ | ⟨h1, h2⟩ | h1)
        · exact .inl ⟨hb, .inl ⟨rfl, rfl⟩⟩
        · exact .inl ⟨h1, .inr h2⟩
        · exact .inr h1
      · rintro (⟨h1, (h2 | h2)⟩ | h1)
        · exact .inl h2
        · exact .inr (.inl ⟨h1, h2⟩)
        · exact .inr (.inr h1)

theorem mem_insertAt {α : Type} {i : Nat} {x y : α} {l : List α} : y ∈ insertAt i x l ↔ y = x ∨ y ∈ l := by
  unfold insertAt
  have : y ∈ l ↔ y ∈ l.take i ∨ y ∈ l.drop i := by
    rw [← List.mem_append, List.take_append_drop]
  rw [List.mem_append, List.mem_cons, this]
  constructor
  · rintro (h | h | h)
    · exact .inr (.inl h)
    · exact .inl h
    · exact .inr (.inr h)
  · rintro (h | h | h)
    · exact .inr (.inl h)
    · exact .inl h
    · exact .inr (.inr h)

theorem nodup_insertAt {α : Type} {i : Nat} {x : α} {l : List α} (h : l.Nodup) (hx : x ∉ l) :
    (insertAt i x l).Nodup := by
  unfold insertAt
  have hp : (l.take i ++ x :: l.drop i).Perm (x :: l) := by
    have := List.perm_middle (a := x) (l₁ := l.take i) (l₂ := l.drop i)
    rwa [List.take_append_drop] at this
  exact hp.nodup_iff.2 (List.nodup_cons.2 ⟨hx, h⟩)

theorem map_insertAt {α β : Type} (f : α → β) (i : Nat) (x : α) (l : List α) :
    (insertAt i x l).map f = insertAt i (f x) (l.map f) := by
  simp [insertAt, List.map_take, List.map_drop]

/-- Edits for which `parent_bb` stays right: an instruction is inserted only if it is in no other
block, and whole lists are dropped only when they hold no instruction. -/
def LayoutOp.Ok (l : Layout) : LayoutOp → Prop
  | .insertBb _ _ => True
  | .removeBb b => ∀ i, ¬ Listed l b i
  | .clearBbs => ∀ b i, ¬ Listed l b i
  | .insertInst b _ v => ∀ b', Listed l b' v → b' = b
  | .removeInst _ _ => True
  | .clearInsts b => ∀ i, ¬ Listed l b i

/-- Layouts reachable by edits satisfying `ok`. -/
inductive LReach (ok : Layout → LayoutOp → Prop) : Layout → Prop where
  | init : LReach ok Layout.new
  | step {l l' : Layout} {op : LayoutOp} : LReach ok l → ok l op → l.step op = some l' → LReach ok l'

theorem LInv.step {l l' : Layout} {op : LayoutOp} (hi : LInv l) (hok : op.Ok l) (h : l.step op = some l') :
    LInv l' := by
  cases op with
  | insertBb i b =>
    simp only [Layout.step, Layout.insertBb, Layout.insts?, Option.some.injEq] at h
    subst h
    split
    · rename_i hn
      rw [lookup_eq_none_iff] at hn
      refine ⟨?_, ?_, ?_⟩
      · show ((insertAt i (b, []) l.bbs).map (·.1)).Nodup
        rw [map_insertAt]; exact nodup_insertAt hi.keys hn
      · intro c is hm
        rcases mem_insertAt.1 hm with h | h
        · cases h; simp
        · exact hi.insts c is h
      · intro v c
        rw [hi.parent]
        constructor
        · rintro ⟨is, hm, hv⟩; exact ⟨is, mem_insertAt.2 (.inr hm), hv⟩
        · rintro ⟨is, hm, hv⟩
          rcases mem_insertAt.1 hm with h | h
          · cases h; cases hv
          · exact ⟨is, h, hv⟩
    · exact hi
  | removeBb b =>
    simp only [Layout.step, Layout.removeBb, Layout.insts?, Option.some.injEq] at h
    subst h
    split
    · have hm : ∀ c is, (c, is) ∈ l.bbs.filter (fun p => decide (p.1 ≠ b)) ↔ (c, is) ∈ l.bbs ∧ c ≠ b := by
        intro c is; rw [List.mem_filter]; simp
      refine ⟨?_, ?_, ?_⟩
      · exact hi.keys.sublist ((List.filter_sublist).map _)
      · intro c is h; exact hi.insts c is ((hm c is).1 h).1
      · intro v c
        rw [hi.parent]
        constructor
        · rintro ⟨is, h, hv⟩
          refine ⟨is, (hm c is).2 ⟨h, ?_⟩, hv⟩
          rintro rfl; exact hok v ⟨is, h, hv⟩
        · rintro ⟨is, h, hv⟩; exact ⟨is, ((hm c is).1 h).1, hv⟩
    · exact hi
  | clearBbs =>
    simp only [Layout.step, Layout.clearBbs, Option.some.injEq] at h
    subst h
    refine ⟨List.nodup_nil, fun b is h => (by cases h), fun v c => ?_⟩
    rw [hi.parent]
    constructor
    · intro h; exact absurd h (hok c v)
    · rintro ⟨is, h, _⟩; cases h
  | insertInst b i v =>
    simp only [Layout.step, Layout.insertInst, Layout.insts?, Option.map_eq_some_iff] at h
    obtain ⟨⟨l1, fl⟩, h, rfl⟩ := h
    split at h
    · cases h
    · rename_i is his
      rw [lookup_eq_some_iff hi.keys] at his
      split at h
      · cases h; exact hi
      · rename_i hv
        simp only [Option.some.injEq, Prod.mk.injEq] at h
        obtain ⟨rfl, _⟩ := h
        have hm : ∀ c js, (c, js) ∈ setInsts b (insertAt i v is) l.bbs ↔
            (c ≠ b ∧ (c, js) ∈ l.bbs) ∨ (c = b ∧ js = insertAt i v is) := by
          intro c js
          rw [mem_setInsts hi.keys]
          have : b ∈ l.bbs.map (·.1) := List.mem_map.2 ⟨_, his, rfl⟩
          simp [this]
        have hnl : ∀ c, ¬ Listed l c v := by
          intro c hc
          have := hok c hc; subst this
          obtain ⟨js, hj, hvj⟩ := hc
          have : js = is := by
            have h1 := (lookup_eq_some_iff hi.keys).2 hj
            have h2 := (lookup_eq_some_iff hi.keys).2 his
            rw [h1] at h2; exact Option.some.inj h2
          subst this; exact hv hvj
        have huniq : ∀ js, (b, js) ∈ l.bbs → js = is := by
          intro js hj
          have h1 := (lookup_eq_some_iff hi.keys).2 hj
          have h2 := (lookup_eq_some_iff hi.keys).2 his
          rw [h1] at h2; exact Option.some.inj h2
        refine ⟨?_, ?_, ?_⟩
        · show ((setInsts b (insertAt i v is) l.bbs).map (·.1)).Nodup
          rw [setInsts_keys]; exact hi.keys
        · intro c js h
          rcases (hm c js).1 h with ⟨_, h⟩ | ⟨_, rfl⟩
          · exact hi.insts c js h
          · exact nodup_insertAt (hi.insts b is his) hv
        · intro w c
          show (l.instBb.insert v b).get? w = some c ↔ _
          rw [Map.get?_insert]
          by_cases hw : w = v
          · subst hw
            rw [if_pos rfl, Option.some.injEq]
            constructor
            · rintro rfl; exact ⟨_, (hm b _).2 (.inr ⟨rfl, rfl⟩), mem_insertAt.2 (.inl rfl)⟩
            · rintro ⟨js, hj, hvj⟩
              rcases (hm c js).1 hj with ⟨_, h⟩ | ⟨rfl, _⟩
              · exact absurd ⟨js, h, hvj⟩ (hnl c)
              · rfl
          · rw [if_neg hw, hi.parent]
            constructor
            · rintro ⟨js, hj, hvj⟩
              by_cases hc : c = b
              · subst hc
                have := huniq js hj; subst this
                exact ⟨_, (hm c _).2 (.inr ⟨rfl, rfl⟩), mem_insertAt.2 (.inr hvj)⟩
              · exact ⟨js, (hm c js).2 (.inl ⟨hc, hj⟩), hvj⟩
            · rintro ⟨js, hj, hvj⟩
              rcases (hm c js).1 hj with ⟨_, h⟩ | ⟨rfl, rfl⟩
              · exact ⟨js, h, hvj⟩
              · rcases mem_insertAt.1 hvj with h | h
                · exact absurd h hw
                · exact ⟨is, his, h⟩
  | removeInst b v =>
    simp only [Layout.step, Layout.removeInst, Layout.insts?, Option.map_eq_some_iff] at h
    obtain ⟨⟨l1, fl⟩, h, rfl⟩ := h
    split at h
    · cases h
    · rename_i is his
      rw [lookup_eq_some_iff hi.keys] at his
      split at h
      · rename_i hv
        simp only [Option.some.injEq, Prod.mk.injEq] at h
        obtain ⟨rfl, _⟩ := h
        have hm : ∀ c js, (c, js) ∈ setInsts b (is.filter (fun x => decide (x ≠ v))) l.bbs ↔
            (c ≠ b ∧ (c, js) ∈ l.bbs) ∨ (c = b ∧ js = is.filter (fun x => decide (x ≠ v))) := by
          intro c js
          rw [mem_setInsts hi.keys]
          have : b ∈ l.bbs.map (·.1) := List.mem_map.2 ⟨_, his, rfl⟩
          simp [this]
        have huniq : ∀ js, (b, js) ∈ l.bbs → js = is := by
          intro js hj
          have h1 := (lookup_eq_some_iff hi.keys).2 hj
          have h2 := (lookup_eq_some_iff hi.keys).2 his
          rw [h1] at h2; exact Option.some.inj h2
        have hvb : ∀ c, Listed l c v → c = b := by
          intro c hc
          have h1 := (hi.parent v c).2 hc
          have h2 := (hi.parent v b).2 ⟨is, his, hv⟩
          rw [h1] at h2; exact Option.some.inj h2
        refine ⟨?_, ?_, ?_⟩
        · show ((setInsts b _ l.bbs).map (·.1)).Nodup
          rw [setInsts_keys]; exact hi.keys
        · intro c js h
          rcases (hm c js).1 h with ⟨_, h⟩ | ⟨_, rfl⟩
          · exact hi.insts c js h
          · exact (hi.insts b is his).filter _
        · intro w c
          show (l.instBb.erase v).get? w = some c ↔ _
          rw [Map.get?_erase]
          by_cases hw : w = v
          · subst hw
            rw [if_pos rfl]
            constructor
            · intro h; cases h
            · rintro ⟨js, hj, hvj⟩
              rcases (hm c js).1 hj with ⟨hc, h⟩ | ⟨rfl, rfl⟩
              · exact absurd (hvb c ⟨js, h, hvj⟩) hc
              · simp at hvj
          · rw [if_neg hw, hi.parent]
            constructor
            · rintro ⟨js, hj, hvj⟩
              by_cases hc : c = b
              · subst hc
                have := huniq js hj; subst this
                exact ⟨_, (hm c _).2 (.inr ⟨rfl, rfl⟩), by simp [hvj, hw]⟩
              · exact ⟨js, (hm c js).2 (.inl ⟨hc, hj⟩), hvj⟩
            · rintro ⟨js, hj, hvj⟩
              rcases (hm c js).1 hj with ⟨_, h⟩ | ⟨rfl, rfl⟩
              · exact ⟨js, h, hvj⟩
              · exact ⟨is, his, (List.mem_filter.1 hvj).1⟩
      · cases h; exact hi
  | clearInsts b =>
    simp only [Layout.step, Layout.clearInsts, Layout.insts?] at h
    split at h
    · cases h
    · rename_i is his
      rw [lookup_eq_some_iff hi.keys] at his
      cases h
      have hm : ∀ c js, (c, js) ∈ setInsts b [] l.bbs ↔
          (c ≠ b ∧ (c, js) ∈ l.bbs) ∨ (c = b ∧ js = []) := by
        intro c js
        rw [mem_setInsts hi.keys]
        have : b ∈ l.bbs.map (·.1) := List.mem_map.2 ⟨_, his, rfl⟩
        simp [this]
      refine ⟨?_, ?_, ?_⟩
      · show ((setInsts b _ l.bbs).map (·.1)).Nodup
        rw [setInsts_keys]; exact hi.keys
      · intro c js h
        rcases (hm c js).1 h with ⟨_, h⟩ | ⟨_, rfl⟩
        · exact hi.insts c js h
        · exact List.nodup_nil
      · intro w c
        show l.instBb.get? w = some c ↔ _
        rw [hi.parent]
        constructor
        · rintro ⟨js, hj, hvj⟩
          by_cases hc : c = b
          · subst hc; exact absurd ⟨js, hj, hvj⟩ (hok w)
          · exact ⟨js, (hm c js).2 (.inl ⟨hc, hj⟩), hvj⟩
        · rintro ⟨js, hj, hvj⟩
          rcases (hm c js).1 hj with ⟨_, h⟩ | ⟨rfl, rfl⟩
          · exact ⟨js, h, hvj⟩
          · cases hvj

/-- C10, for histories within `LayoutOp.Ok`. The unrestricted statement is false: see the three
theorems below. -/
theorem C10_parent_partial {l : Layout} (r : LReach (fun l op => op.Ok l) l) : ParentsRight l := by
  have hi : LInv l := by
    induction r with
    | init =>
      refine ⟨List.nodup_nil, fun b is h => (by cases h), fun i b => ⟨fun h => (by cases h), ?_⟩⟩
      rintro ⟨is, h, _⟩; cases h
    | step _ hok hs ih => exact ih.step hok hs
  refine ⟨hi.parent, fun i => ?_, hi.keys, hi.insts, fun i b b' h h' => ?_⟩
  · constructor
    · intro h b hb
      have := (hi.parent i b).2 hb
      rw [show l.instBb.get? i = none from h] at this; cases this
    · intro h
      show l.instBb.get? i = none
      cases hb : l.instBb.get? i with
      | none => rfl
      | some b => exact absurd ((hi.parent i b).1 hb) (h b)
  · have h1 := (hi.parent i b).2 h
    rw [(hi.parent i b').2 h'] at h1; exact (Option.some.inj h1).symm

/-- A sequence of layout edits. -/
def Layout.run (l : Layout) : List LayoutOp → Option Layout
  | [] => some l
  | op :: ops => match l.step op with
    | some l' => l'.run ops
    | none => none

theorem LReach.run {ok : Layout → LayoutOp → Prop} : ∀ (ops : List LayoutOp) {l l' : Layout},
    LReach ok l → (∀ q, ∀ op ∈ ops, ok q op) → l.run ops = some l' → LReach ok l'
  | [], l, l', r, _, h => by cases h; exact r
  | op :: ops, l, l', r, hok, h => by
    simp only [Layout.run] at h
    split at h
    · rename_i q hq
      exact LReach.run ops (.step r (hok l op (by simp)) hq) (fun q o ho => hok q o (by simp [ho])) h
    · cases h

/-- A history within the restriction: blocks 1 and 2, instructions 7, 8 in block 1 and 9 in block 2,
then 7 moved to block 2. -/
example : ∃ l, LReach (fun l op => op.Ok l) l ∧ l.bbs = [(1, [8]), (2, [7, 9])] ∧
    l.parentBb 7 = some 2 ∧ l.parentBb 10 = none := by
  let l1 : Layout := ⟨[(1, [7, 8]), (2, [9])], ⟨[(9, 2), (8, 1), (7, 1)]⟩⟩
  have hr : LReach (fun l op => op.Ok l) l1 := by
    have e : Layout.new.step (.insertBb 0 1) = some ⟨[(1, [])], .empty⟩ := rfl
    have r1 := LReach.step (ok := fun l op => op.Ok l) (op := .insertBb 0 1) .init trivial e
    have r2 := LReach.step (op := .insertBb 1 2) r1 trivial rfl
    have r3 := LReach.step (op := .insertInst 1 0 7) r2 (by
      rintro b ⟨is, h, hv⟩; simp [Layout.insertBb, Layout.insts?, insertAt, Map.lookup] at h
      rcases h with ⟨rfl, rfl⟩ | ⟨rfl, rfl⟩ <;> cases hv) rfl
    have r4 := LReach.step (op := .insertInst 1 1 8) r3 (by
      rintro b ⟨is, h, hv⟩; simp [Layout.insertBb, Layout.insts?, insertAt, Map.lookup, setInsts] at h
      rcases h with ⟨rfl, rfl⟩ | ⟨rfl, rfl⟩ <;> simp at hv) rfl
    have r5 := LReach.step (op := .insertInst 2 0 9) r4 (by
      rintro b ⟨is, h, hv⟩; simp [Layout.insertBb, Layout.insts?, insertAt, Map.lookup, setInsts] at h
      rcases h with ⟨rfl, rfl⟩ | ⟨rfl, rfl⟩ <;> simp at hv) rfl
    exact r5
  have r6 := LReach.step (op := .removeInst 1 7) hr trivial rfl
  have r7 := LReach.step (op := .insertInst 2 0 7) r6 (by
      rintro b ⟨is, h, hv⟩; simp [l1, setInsts] at h
      rcases h with ⟨rfl, rfl⟩ | ⟨rfl, rfl⟩ <;> simp at hv) rfl
  exact ⟨_, r7, rfl, rfl, rfl⟩

/-- Removing a block that still holds an instruction leaves the parent of the instruction behind. -/
theorem C10_violated_by_remove : ∃ l, LReach (fun _ _ => True) l ∧ ¬ ParentsRight l := by
  let ops : List LayoutOp := [.insertBb 0 1, .insertInst 1 0 7, .removeBb 1]
  refine ⟨⟨[], ⟨[(7, 1)]⟩⟩, LReach.run ops .init (fun _ _ _ => trivial) rfl, fun h => ?_⟩
  obtain ⟨is, hm, _⟩ := (h.parent 7 1).1 rfl
  cases hm

/-- So does clearing the instruction list of a block. -/
theorem C10_violated_by_clear : ∃ l, LReach (fun _ _ => True) l ∧ ¬ ParentsRight l := by
  let ops : List LayoutOp := [.insertBb 0 1, .insertInst 1 0 7, .clearInsts 1]
  refine ⟨⟨[(1, [])], ⟨[(7, 1)]⟩⟩, LReach.run ops .init (fun _ _ _ => trivial) rfl, fun h => ?_⟩
  obtain ⟨is, hm, hv⟩ := (h.parent 7 1).1 rfl
  simp at hm; subst hm; cases hv

/-- Inserting an instruction into two blocks and removing it from one leaves it without parent
although it is listed in the other. -/
theorem C10_violated_by_double_insert : ∃ l, LReach (fun _ _ => True) l ∧ ¬ ParentsRight l := by
  let ops : List LayoutOp := [.insertBb 0 1, .insertBb 1 2, .insertInst 1 0 7, .insertInst 2 0 7,
    .removeInst 1 7]
  refine ⟨⟨[(1, []), (2, [7])], ⟨[]⟩⟩, LReach.run ops .init (fun _ _ _ => trivial) rfl, fun h => ?_⟩
  have := (h.parent 7 2).2 ⟨[7], by simp, by simp⟩
  cases this

end Koopa
