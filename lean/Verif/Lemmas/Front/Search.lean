import Verif.Lemmas.Front.ElabFun
/-!
The searches of the generator end and find what there is: looking up symbols along predecessors, and
collecting blocks breadth first.
-/
namespace Koopa
open Spec

/-! ### Symbols -/

/-- Predecessors are blocks. -/
def PredsIn (m : Map Str BbInfo) : Prop := ∀ n i, m.get? n = some i → ∀ q ∈ i.preds, (m.get? q).isSome

/-- What a search that started with the visited blocks `vis` leaves: `vis'` are the visited blocks, and
if nothing was found, then the new ones define nothing and their predecessors were visited. -/
structure Searched (m : Map Str BbInfo) (sym : Str) (vis : List Str) (r : Option Value) (vis' : List Str) : Prop where
  nodup : vis'.Nodup
  inside : ∀ x ∈ vis', x ∈ m.keys
  more : ∀ x ∈ vis, x ∈ vis'
  closed : r = none → ∀ n ∈ vis', n ∉ vis → ∀ i, m.get? n = some i →
    i.localDefs.get? sym = none ∧ ∀ q ∈ i.preds, q ∈ vis'

theorem findLocal_total {m : Map Str BbInfo} {sym : Str} (hc : PredsIn m) : ∀ {fuel : Nat} {vis : List Str} {bb : Str},
    vis.Nodup → (∀ x ∈ vis, x ∈ m.keys) → bb ∈ m.keys → m.keys.length < fuel + vis.length →
    ∃ r vis', findLocal m sym fuel vis bb = some (r, vis') ∧ Searched m sym vis r vis' ∧ (r = none → bb ∈ vis')
  | 0, vis, bb, hn, hs, _, hf => by
    have := hn.length_le_of_subset (l₂ := m.keys) (fun x hx => hs x hx)
    omega
  | n + 1, vis, bb, hn, hs, hb, hf => by
    rw [findLocal]
    by_cases hv : bb ∈ vis
    · rw [if_pos hv]
      exact ⟨none, vis, rfl, ⟨hn, hs, fun _ h => h, fun _ x h1 h2 => absurd h1 h2⟩, fun _ => hv⟩
    · rw [if_neg hv]
      obtain ⟨i, hi⟩ := Option.isSome_iff_exists.1 (Map.mem_keys.1 hb)
      have hn1 : (bb :: vis).Nodup := List.nodup_cons.2 ⟨hv, hn⟩
      have hs1 : ∀ x ∈ bb :: vis, x ∈ m.keys := by
        intro x hx
        rcases List.mem_cons.1 hx with rfl | hx
        · exact hb
        · exact hs x hx
      simp only [hi]
      cases hd : i.localDefs.get? sym with
      | some v =>
        refine ⟨some v, _, rfl, ⟨hn1, hs1, fun x h => by simp [h], fun h => by cases h⟩, fun h => by cases h⟩
      | none =>
        simp only
        have key : ∀ (ps vis1 : List Str), (∀ q ∈ ps, q ∈ i.preds) → vis1.Nodup → (∀ x ∈ vis1, x ∈ m.keys) →
            m.keys.length < n + vis1.length →
            ∃ r vis', findPreds (findLocal m sym n) vis1 ps = some (r, vis') ∧ Searched m sym vis1 r vis' ∧
              (r = none → ∀ q ∈ ps, q ∈ vis') := by
          intro ps
          induction ps with
          | nil =>
            intro vis1 _ h1 h2 _
            exact ⟨none, vis1, rfl, ⟨h1, h2, fun _ h => h, fun _ x h1 h2 => absurd h1 h2⟩, fun _ q h => by simp at h⟩
          | cons q ps ih =>
            intro vis1 hq h1 h2 h3
            have hqk : q ∈ m.keys := Map.mem_keys.2 (hc bb i hi q (hq q (by simp)))
            obtain ⟨r, vis2, e1, s1, c1⟩ := findLocal_total hc h1 h2 hqk h3
            rw [findPreds, e1]
            cases r with
            | some v => exact ⟨some v, vis2, rfl, ⟨s1.nodup, s1.inside, s1.more, fun h => by cases h⟩, fun h => by cases h⟩
            | none =>
              have hl := h1.length_le_of_subset (l₂ := vis2) (fun x hx => s1.more x hx)
              obtain ⟨r, vis3, e2, s2, c2⟩ := ih vis2 (fun q' h' => hq q' (by simp [h'])) s1.nodup s1.inside (by omega)
              refine ⟨r, vis3, e2, ⟨s2.nodup, s2.inside, fun x hx => s2.more x (s1.more x hx), ?_⟩, ?_⟩
              · intro hr x hx hx1 j hj
                by_cases hx2 : x ∈ vis2
                · obtain ⟨a, b⟩ := s1.closed rfl x hx2 hx1 j hj
                  exact ⟨a, fun q hq => s2.more q (b q hq)⟩
                · exact s2.closed hr x hx hx2 j hj
              · intro hr q' hq'
                rcases List.mem_cons.1 hq' with rfl | hq'
                · exact s2.more _ (c1 rfl)
                · exact c2 hr q' hq'
        obtain ⟨r, vis', e, s, c⟩ := key i.preds (bb :: vis) (fun _ h => h) hn1 hs1 (by simp; omega)
        refine ⟨r, vis', e, ⟨s.nodup, s.inside, fun x hx => s.more x (by simp [hx]), ?_⟩, fun _ => s.more bb (by simp)⟩
        intro hr x hx hx1 j hj
        by_cases hxb : x = bb
        · subst hxb
          rw [hi] at hj; cases hj
          exact ⟨hd, c hr⟩
        · exact s.closed hr x hx (by simp [hxb, hx1]) j hj

/-- The search returns, and it finds the symbol if a block that is met defines it. -/
theorem findLocal_finds {m : Map Str BbInfo} {sym bb : Str} (hc : PredsIn m) (hb : (m.get? bb).isSome) :
    ∃ r vis, findLocal m sym (findFuel m) [] bb = some (r, vis) ∧
      (∀ n i v, Back m n bb → m.get? n = some i → i.localDefs.get? sym = some v → r.isSome) := by
  obtain ⟨r, vis, e, s, c⟩ := findLocal_total (sym := sym) hc (fuel := findFuel m) (vis := []) (bb := bb) (by simp) (by simp)
    (Map.mem_keys.2 hb) (by simp [findFuel, Map.keys])
  refine ⟨r, vis, e, ?_⟩
  intro n i v hB hi hd
  cases r with
  | some _ => rfl
  | none =>
    have : n ∈ vis := by
      have hbb := c rfl
      clear e c
      induction hB with
      | refl => exact hbb
      | @step n q n' j h1 h2 _ ih =>
        have hq := (s.closed rfl n hbb (by simp) j h1).2 q h2
        exact ih (hc n j h1 q h2) hi hq
    rw [(s.closed rfl n this (by simp) i hi).1] at hd
    cases hd

/-! ### Blocks -/

theorem blockMap_ok : ∀ {bs : List BlockAst} {m : Map Str BlockAst}, (bs.map (·.name)).Nodup →
    (∀ b ∈ bs, m.get? b.name = none) → ∃ m', blockMap m bs = (m', 0)
  | [], m, _, _ => ⟨m, rfl⟩
  | a :: bs, m, hn, hm => by
    rw [List.map_cons, List.nodup_cons] at hn
    obtain ⟨m', h⟩ := blockMap_ok (m := m.insert a.name a) hn.2 (by
      intro b hb
      rw [Map.get?_insert, if_neg]
      · exact hm b (by simp [hb])
      · intro he; exact hn.1 (List.mem_map.2 ⟨b, hb, he⟩))
    refine ⟨m', ?_⟩
    rw [blockMap, h]
    simp [Map.contains, hm a (by simp)]

theorem addTargets_ok {entry : Str} {m : Map Str BlockAst} : ∀ {ts : List Str},
    (∀ t ∈ ts, t ≠ entry ∧ (m.get? t).isSome) → addTargets entry m ts = (ts, 0)
  | [], _ => rfl
  | t :: ts, h => by
    obtain ⟨h1, h2⟩ := h t (by simp)
    rw [addTargets, addTargets_ok (fun t ht => h t (by simp [ht]))]
    simp [h1, Map.contains, h2]

theorem targetsOf_ok {b : BlockAst} {st : StmtAst} (hl : b.stmts.getLast? = some st) (ht : (targetsOf st).isSome) :
    targetsOf st = some (successors b) := by
  obtain ⟨ts, h⟩ := Option.isSome_iff_exists.1 ht
  rw [h, targetsOf_eq hl h]

theorem successors_length (b : BlockAst) : (successors b).length ≤ 2 := by
  unfold successors; split <;> simp

/-- The state of the loop when the blocks `done` were visited and the blocks `rest` follow. -/
structure BfsAt (m : Map Str BlockAst) (e : BlockAst) (done rest : List BlockAst) (queue vis : List Str) : Prop where
  seen : ∀ x, x ∈ vis ↔ x ∈ done.map (·.name)
  nodup : vis.Nodup
  names : rest.map (·.name) = firsts vis (queue ++ rest.flatMap successors)
  start : e.name ∈ vis ∨ e.name ∈ queue
  succ : ∀ b ∈ done, ∀ t ∈ successors b, t ∈ vis ∨ t ∈ queue

theorem bfs_run {m : Map Str BlockAst} {e : BlockAst} {order : List BlockAst}
    (hm : ∀ b ∈ order, m.get? b.name = some b)
    (hreach : ∀ P : Str → Prop, P e.name → (∀ b ∈ order, P b.name → ∀ t ∈ successors b, P t) → ∀ b ∈ order, P b.name)
    (ht : ∀ b ∈ order, ∀ t ∈ successors b, t ≠ e.name ∧ ∃ b' ∈ order, b'.name = t)
    (hend : ∀ b ∈ order, ∃ st, b.stmts.getLast? = some st ∧ (targetsOf st).isSome) :
    ∀ {fuel : Nat} {queue vis : List Str} {done rest : List BlockAst}, order = done ++ rest →
    BfsAt m e done rest queue vis → queue.length + 3 * m.keys.length ≤ fuel + 3 * vis.length →
    ∃ vis', bfs e.name m fuel queue vis = some ⟨rest, vis', 0⟩
  | fuel, [], vis, done, rest, ho, hA, hf => by
    have hall : ∀ b ∈ order, b.name ∈ vis := by
      refine hreach (· ∈ vis) ?_ ?_
      · rcases hA.start with h | h
        · exact h
        · simp at h
      · intro b hb hv t ht'
        obtain ⟨b', hb', he⟩ := List.mem_map.1 ((hA.seen _).1 hv)
        have h1 := hm b hb
        have h2 := hm b' (by rw [ho]; simp [hb'])
        rw [he, h1] at h2
        cases h2
        rcases hA.succ b hb' t ht' with h | h
        · exact h
        · simp at h
    cases rest with
    | nil =>
      refine ⟨vis, ?_⟩
      cases fuel <;> rfl
    | cons b rest =>
      have hb := hall b (by rw [ho]; simp)
      have : b.name ∈ firsts vis ([] ++ (b :: rest).flatMap successors) := by rw [← hA.names]; simp
      exact absurd hb (mem_firsts.1 this).2
  | 0, q :: queue, vis, done, rest, ho, hA, hf => by
    have := hA.nodup.length_le_of_subset (l₂ := m.keys) (by
      intro x hx
      obtain ⟨b, hb, rfl⟩ := List.mem_map.1 ((hA.seen x).1 hx)
      exact Map.mem_keys.2 (by rw [hm b (by rw [ho]; simp [hb])]; rfl))
    simp at hf; omega
  | fuel + 1, name :: queue, vis, done, rest, ho, hA, hf => by
    rw [bfs]
    by_cases hv : name ∈ vis
    · rw [if_pos hv]
      refine bfs_run hm hreach ht hend ho ⟨hA.seen, hA.nodup, ?_, ?_, ?_⟩ (by simp at hf; omega)
      · rw [hA.names, List.cons_append, firsts, if_pos hv]
      · rcases hA.start with h | h
        · exact .inl h
        · rcases List.mem_cons.1 h with h | h
          · rw [h]; exact .inl hv
          · exact .inr h
      · intro b hb t ht'
        rcases hA.succ b hb t ht' with h | h
        · exact .inl h
        · rcases List.mem_cons.1 h with h | h
          · rw [h]; exact .inl hv
          · exact .inr h
    · rw [if_neg hv]
      have hn := hA.names
      rw [List.cons_append, firsts, if_neg hv] at hn
      cases rest with
      | nil => simp at hn
      | cons b rest =>
        rw [List.map_cons, List.cons.injEq] at hn
        obtain ⟨rfl, hn⟩ := hn
        have hb : b ∈ order := by rw [ho]; simp
        obtain ⟨st, hl, hts⟩ := hend b hb
        simp only [hm b hb, hl, targetsOf_ok hl hts]
        rw [addTargets_ok (fun t ht' => by
          obtain ⟨h1, b', h2, rfl⟩ := ht b hb t ht'
          exact ⟨h1, by rw [hm b' h2]; rfl⟩)]
        have hsl := successors_length b
        have hA' : BfsAt m e (done ++ [b]) rest (queue ++ successors b) (b.name :: vis) := by
          refine ⟨?_, List.nodup_cons.2 ⟨hv, hA.nodup⟩, ?_, ?_, ?_⟩
          · intro x
            rw [List.mem_cons, hA.seen, List.map_append, List.mem_append, List.map_cons, List.map_nil, List.mem_singleton]
            exact Or.comm
          · rw [hn, List.flatMap_cons, List.append_assoc]
          · rcases hA.start with h | h
            · exact .inl (by simp [h])
            · rcases List.mem_cons.1 h with h | h
              · exact .inl (by simp [h])
              · exact .inr (by simp [h])
          · intro b' hb' t ht'
            rcases List.mem_append.1 hb' with h | h
            · rcases hA.succ b' h t ht' with h | h
              · exact .inl (by simp [h])
              · rcases List.mem_cons.1 h with h | h
                · exact .inl (by simp [h])
                · exact .inr (by simp [h])
            · rw [List.mem_singleton] at h
              subst h
              exact .inr (by simp [ht'])
        have hsub := hA'.nodup.length_le_of_subset (l₂ := m.keys) (by
          intro x hx
          obtain ⟨b', hb', rfl⟩ := List.mem_map.1 ((hA'.seen x).1 hx)
          exact Map.mem_keys.2 (by rw [hm b' (by rw [ho]; rcases List.mem_append.1 hb' with h | h <;> simp_all)]; rfl))
        obtain ⟨vis', hr⟩ := bfs_run (fuel := fuel) hm hreach ht hend (by rw [ho]; simp) hA' (by
          simp only [List.length_append, List.length_cons] at hf hsub ⊢
          omega)
        exact ⟨vis', by simp only [hr]⟩

/-- If a function has a breadth-first order of blocks that end properly, the generator finds it. -/
theorem blockList_run {bbs order : List BlockAst} {e : BlockAst} (h : BreadthFirst bbs order e)
    (hend : ∀ b ∈ order, ∃ st, b.stmts.getLast? = some st ∧ (targetsOf st).isSome) (s : BS) :
    ∃ s', Done (blockList bbs) s order s' := by
  cases bbs with
  | nil => have := h.first; simp at this
  | cons e' bs =>
    have he : e' = e := by simpa using h.first
    subst he
    obtain ⟨m, hm⟩ := blockMap_ok (m := .empty) h.names (by simp)
    obtain ⟨-, -, hm3⟩ := blockMap_clean hm
    have hget : ∀ b ∈ order, m.get? b.name = some b := fun b hb => (hm3 _ _).2 (.inl ⟨((h.exact b).1 hb).1, rfl⟩)
    have hreach : ∀ P : Str → Prop, P e'.name → (∀ b ∈ order, P b.name → ∀ t ∈ successors b, P t) → ∀ b ∈ order, P b.name := by
      intro P h0 hs b hb
      have key : ∀ n, Flows (e' :: bs) e'.name n → P n ∧ ∀ b' ∈ e' :: bs, b'.name = n → b' ∈ order := by
        intro n hn
        generalize hx : e'.name = x at hn
        induction hn with
        | refl =>
          subst hx
          refine ⟨h0, ?_⟩
          intro b' hb' hn
          exact (h.exact b').2 ⟨hb', by rw [hn]; exact .refl⟩
        | @step c b' hf hb' hc ih =>
          obtain ⟨h1, h2⟩ := ih
          have hbo := h2 b' hb' rfl
          refine ⟨hs b' hbo h1 c hc, ?_⟩
          intro b2 hb2 hn2
          exact (h.exact b2).2 ⟨hb2, by rw [hn2, hx]; exact .step hf hb' hc⟩
      exact (key _ ((h.exact b).1 hb).2).1
    obtain ⟨vis', hr⟩ := bfs_run hget hreach h.targets hend (fuel := bfsFuel m) (queue := [e'.name]) (vis := [])
      (done := []) (rest := order) rfl ⟨by simp, by simp, by simpa using h.breadth, by simp, by simp⟩ (by
        simp only [bfsFuel, Map.keys, List.length_map, List.length_cons, List.length_nil]; omega)
    refine ⟨?s', ⟨?h1, ?h2⟩⟩
    case s' => exact { s with errs := s.errs + 0 + 0, warns := s.warns + (m.keys.filter (fun k => !decide (k ∈ vis'))).length }
    · unfold blockList
      simp only [hm, hr]
    · rfl

end Koopa
