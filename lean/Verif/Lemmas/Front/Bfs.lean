import Verif.Lemmas.Front.Done
import Verif.Spec.Elab
/-!
The list of reachable blocks.
-/
namespace Koopa
open Spec

theorem mem_firsts {x : Str} : ∀ {l seen : List Str}, x ∈ firsts seen l ↔ x ∈ l ∧ x ∉ seen
  | [], seen => by simp [firsts]
  | a :: l, seen => by
    rw [firsts]
    by_cases ha : a ∈ seen
    · rw [if_pos ha, mem_firsts]
      constructor
      · rintro ⟨h1, h2⟩; exact ⟨by simp [h1], h2⟩
      · rintro ⟨h1, h2⟩
        rcases List.mem_cons.1 h1 with rfl | h1
        · exact absurd ha h2
        · exact ⟨h1, h2⟩
    · rw [if_neg ha, List.mem_cons, mem_firsts]
      constructor
      · rintro (rfl | ⟨h1, h2⟩)
        · exact ⟨by simp, ha⟩
        · exact ⟨by simp [h1], fun h => h2 (by simp [h])⟩
      · rintro ⟨h1, h2⟩
        by_cases hx : x = a
        · exact .inl hx
        · refine .inr ⟨?_, by simp [hx, h2]⟩
          rcases List.mem_cons.1 h1 with rfl | h1
          · exact absurd rfl hx
          · exact h1

theorem firsts_nodup : ∀ (l seen : List Str), (firsts seen l).Nodup
  | [], seen => by simp [firsts]
  | a :: l, seen => by
    rw [firsts]
    split
    · exact firsts_nodup l seen
    · rw [List.nodup_cons]
      exact ⟨fun h => (mem_firsts.1 h).2 (by simp), firsts_nodup l _⟩

theorem targetsOf_eq {st : StmtAst} {ts : List Str} {b : BlockAst} (hl : b.stmts.getLast? = some st)
    (h : targetsOf st = some ts) : ts = successors b := by
  unfold successors
  rw [hl]
  cases st <;> simp [targetsOf] at h ⊢ <;> first | exact h.symm | exact h

theorem addTargets_clean {entry : Str} {m : Map Str BlockAst} : ∀ {ts q : List Str},
    addTargets entry m ts = (q, 0) → q = ts ∧ ∀ t ∈ ts, t ≠ entry ∧ ∃ b, m.get? t = some b
  | [], q, h => by simp only [addTargets, Prod.mk.injEq] at h; exact ⟨h.1.symm, by simp⟩
  | t :: ts, q, h => by
    rw [addTargets] at h
    rcases e : addTargets entry m ts with ⟨q', n⟩
    rw [e] at h
    simp only at h
    split at h
    · simp at h
    · rename_i hne
      split at h
      · rename_i hc
        simp only [Prod.mk.injEq] at h
        obtain ⟨rfl, rfl⟩ := h
        obtain ⟨rfl, h2⟩ := addTargets_clean e
        refine ⟨rfl, ?_⟩
        intro t' ht'
        rcases List.mem_cons.1 ht' with rfl | ht'
        · refine ⟨hne, ?_⟩
          unfold Map.contains at hc
          exact Option.isSome_iff_exists.1 hc
        · exact h2 t' ht'
      · simp at h

/-- A run of the loop that logs no error. -/
theorem bfs_clean {entry : Str} {m : Map Str BlockAst} (hm : ∀ k b, m.get? k = some b → b.name = k) :
    ∀ {fuel : Nat} {queue vis : List Str} {o : BfsOut}, bfs entry m fuel queue vis = some o → o.errs = 0 →
    o.blocks.map (·.name) = firsts vis (queue ++ o.blocks.flatMap successors) ∧
    (∀ b ∈ o.blocks, m.get? b.name = some b) ∧
    (∀ b ∈ o.blocks, ∀ t ∈ successors b, t ≠ entry ∧ ∃ b', m.get? t = some b') ∧
    (∀ P : Str → Prop, (∀ x ∈ queue, P x) →
      (∀ k b, m.get? k = some b → P k → ∀ t ∈ successors b, P t) → ∀ b ∈ o.blocks, P b.name)
  | n, [], vis, o, h, _ => by
    have : o = ⟨[], vis, 0⟩ := by
      cases n <;> simp only [bfs, Option.some.injEq] at h <;> exact h.symm
    subst this
    simp [firsts]
  | 0, _ :: _, vis, o, h, _ => by simp [bfs] at h
  | n + 1, name :: queue, vis, o, h, he => by
    rw [bfs] at h
    split at h
    · rename_i hv
      obtain ⟨h1, h2, h3, h4⟩ := bfs_clean hm h he
      refine ⟨?_, h2, h3, fun P hq => h4 P (fun x hx => hq x (by simp [hx]))⟩
      rw [List.cons_append, firsts, if_pos hv]
      exact h1
    · rename_i hv
      split at h
      · simp at h
      · rename_i block hb
        split at h
        · simp at h
        · rename_i last hl
          split at h
          · simp at h
          · rename_i ts ht
            rcases e : addTargets entry m ts with ⟨q, k⟩
            rw [e] at h
            simp only at h
            split at h
            · simp at h
            · rename_i o1 ho1
              simp only [Option.some.injEq] at h
              subst h
              simp only at he
              have he1 : o1.errs = 0 := by omega
              have hk : k = 0 := by omega
              subst hk
              obtain ⟨rfl, ht2⟩ := addTargets_clean e
              have hs := targetsOf_eq hl ht
              subst hs
              have hn := hm name block hb
              subst hn
              obtain ⟨h1, h2, h3, h4⟩ := bfs_clean hm ho1 he1
              refine ⟨?_, ?_, ?_, ?_⟩
              · simp only [List.map_cons, List.cons_append, List.flatMap_cons]
                rw [firsts, if_neg hv, h1, List.append_assoc]
              · intro b hb'
                rcases List.mem_cons.1 hb' with rfl | hb'
                · exact hb
                · exact h2 b hb'
              · intro b hb'
                rcases List.mem_cons.1 hb' with rfl | hb'
                · exact ht2
                · exact h3 b hb'
              · intro P hq hP b hb'
                rcases List.mem_cons.1 hb' with rfl | hb'
                · exact hq _ (by simp)
                · refine h4 P ?_ hP b hb'
                  intro x hx
                  rcases List.mem_append.1 hx with hx | hx
                  · exact hq x (by simp [hx])
                  · exact hP _ block hb (hq _ (by simp)) x hx

theorem blockMap_clean : ∀ {bs : List BlockAst} {m m' : Map Str BlockAst}, blockMap m bs = (m', 0) →
    (bs.map (·.name)).Nodup ∧ (∀ b ∈ bs, m.get? b.name = none) ∧
    ∀ k b, m'.get? k = some b ↔ (b ∈ bs ∧ b.name = k) ∨ m.get? k = some b
  | [], m, m', h => by
    simp only [blockMap, Prod.mk.injEq, and_true] at h
    subst h; simp
  | a :: bs, m, m', h => by
    rw [blockMap] at h
    rcases e : blockMap (m.insert a.name a) bs with ⟨m1, n⟩
    rw [e] at h
    simp only [Prod.mk.injEq] at h
    obtain ⟨rfl, h⟩ := h
    split at h
    · omega
    · rename_i hc
      subst h
      have hc : m.get? a.name = none := by simpa [Map.contains] using hc
      obtain ⟨h1, h2, h3⟩ := blockMap_clean e
      have hne : ∀ b ∈ bs, b.name ≠ a.name ∧ m.get? b.name = none := by
        intro b hb
        have := h2 b hb
        rw [Map.get?_insert] at this
        split at this
        · simp at this
        · exact ⟨‹_›, this⟩
      refine ⟨?_, ?_, ?_⟩
      · rw [List.map_cons, List.nodup_cons]
        refine ⟨?_, h1⟩
        intro hm
        obtain ⟨b, hb, he⟩ := List.mem_map.1 hm
        exact (hne b hb).1 he
      · intro b hb
        rcases List.mem_cons.1 hb with rfl | hb
        · exact hc
        · exact (hne b hb).2
      · intro k b
        rw [h3, Map.get?_insert]
        constructor
        · rintro (⟨h, rfl⟩ | h)
          · exact .inl ⟨by simp [h], rfl⟩
          · split at h
            · rename_i hk; cases h; exact .inl ⟨by simp, hk.symm⟩
            · exact .inr h
        · rintro (⟨h, rfl⟩ | h)
          · rcases List.mem_cons.1 h with rfl | h
            · right; simp
            · exact .inl ⟨h, rfl⟩
          · right
            rw [if_neg]
            · exact h
            · rintro rfl; rw [hc] at h; cases h

theorem Done.blockList {bbs order : List BlockAst} {s s' : BS} (h : Done (blockList bbs) s order s') :
    (∃ e, BreadthFirst bbs order e ∧ order.head? = some e ∧ (order.map (·.name)).Nodup) ∧
    ∃ w, s' = { s with warns := w } := by
  have hr := h.run
  have he := h.errs
  unfold Koopa.blockList at hr
  cases bbs with
  | nil => simp at hr
  | cons e bs =>
    simp only at hr
    rcases em : blockMap Map.empty (e :: bs) with ⟨m, dups⟩
    rw [em] at hr
    simp only at hr
    split at hr
    · simp at hr
    · rename_i o ho
      simp only [Option.some.injEq, Prod.mk.injEq, Except.ok.injEq] at hr
      obtain ⟨rfl, rfl⟩ := hr
      simp only at he
      have h1 : dups = 0 := by omega
      have h2 : o.errs = 0 := by omega
      subst h1
      obtain ⟨m1, -, m3⟩ := blockMap_clean em
      have hm : ∀ k b, m.get? k = some b ↔ b ∈ e :: bs ∧ b.name = k := by
        intro k b; rw [m3]; simp
      obtain ⟨b1, b2, b3, b4⟩ := bfs_clean (fun k b h => ((hm k b).1 h).2) ho h2
      have hmem : ∀ n, n ∈ o.blocks.map (·.name) ↔ n = e.name ∨ n ∈ o.blocks.flatMap successors := by
        intro n; rw [b1, mem_firsts]; simp
      have hin : ∀ b ∈ o.blocks, b ∈ e :: bs := fun b hb => ((hm _ _).1 (b2 b hb)).1
      have hnd : ∀ b b', b ∈ e :: bs → b' ∈ e :: bs → b.name = b'.name → b = b' := by
        intro b b' h1 h2 h3
        have x := (hm b.name b).2 ⟨h1, rfl⟩
        have y := (hm b.name b').2 ⟨h2, h3.symm⟩
        rw [x] at y; cases y; rfl
      have hback : ∀ n, n ∈ o.blocks.map (·.name) → ∀ b ∈ e :: bs, b.name = n → b ∈ o.blocks := by
        intro n hn b hb hbn
        obtain ⟨b', hb', he'⟩ := List.mem_map.1 hn
        rw [hnd b b' hb (hin b' hb') (by rw [hbn, he'])]
        exact hb'
      refine ⟨⟨e, ⟨rfl, m1, ?_, by simpa using b1, ?_⟩, ?_, by rw [b1]; exact firsts_nodup _ _⟩, _, by
        simp only [h2]; rfl⟩
      · intro b
        constructor
        · intro hb
          refine ⟨hin b hb, ?_⟩
          refine b4 (Flows (e :: bs) e.name) ?_ ?_ b hb
          · intro x hx; rw [List.mem_singleton] at hx; subst hx; exact .refl
          · intro k b hk hf t ht
            obtain ⟨h1, rfl⟩ := (hm k b).1 hk
            exact .step hf h1 ht
        · rintro ⟨hb, hf⟩
          have key : ∀ n, Flows (e :: bs) e.name n → n ∈ o.blocks.map (·.name) := by
            intro n hn
            generalize hx : e.name = x at hn
            induction hn with
            | refl => subst hx; exact (hmem _).2 (.inl rfl)
            | @step c b' _ hb' hc ih =>
              have := hback _ ih b' hb' rfl
              exact (hmem _).2 (.inr (List.mem_flatMap.2 ⟨b', this, hc⟩))
          exact hback _ (key _ hf) b hb rfl
      · intro b hb t ht
        refine ⟨(b3 b hb t ht).1, ?_⟩
        have := (hmem t).2 (.inr (List.mem_flatMap.2 ⟨b, hb, ht⟩))
        obtain ⟨b', h1, h2⟩ := List.mem_map.1 this
        exact ⟨b', h1, h2⟩
      · have : (o.blocks.map (·.name)).head? = some e.name := by
          rw [b1]; simp [firsts]
        cases hb : o.blocks with
        | nil => rw [hb] at this; simp at this
        | cons b l =>
          rw [hb] at this
          simp only [List.map_cons, List.head?_cons, Option.some.injEq] at this
          have := hnd b e (hin b (by rw [hb]; simp)) (by simp) this
          simp [this]

end Koopa
