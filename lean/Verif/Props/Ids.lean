import Verif.Model.Idman
/-!
C06: handles are fresh and classified correctly.
-/
namespace Koopa

/-- Number of requests of a kind. -/
def requests (k : IdKind) (rs : List (Nat × IdKind)) : Nat := (rs.filter (fun r => decide (r.2 = k))).length

/-- Ids given out by one allocation function, in order. -/
def idsOf (k : IdKind) (gs : List Grant) : List (BitVec 32) :=
  (gs.filter (fun g => decide (g.kind = k))).map (·.id)

/-- First id of each allocation function, as documented. -/
def firstId : IdKind → Nat
  | .globalValue => 1
  | .localValue => 0x40000000
  | .bb => 1
  | .func => 1

/-- The counter of a kind. -/
def Counters.get (c : Counters) : IdKind → BitVec 32
  | .globalValue => c.globalValue
  | .localValue => c.localValue
  | .bb => c.bb
  | .func => c.func

theorem Counters.next_fst (c : Counters) (k : IdKind) : (c.next k).1 = c.get k := by cases k <;> rfl

theorem Counters.next_get (c : Counters) (k k' : IdKind) :
    (c.next k).2.get k' = if k' = k then c.get k + 1#32 else c.get k' := by
  cases k <;> cases k' <;> rfl

theorem idsOf_run (k : IdKind) : ∀ (rs : List (Nat × IdKind)) (c : Counters),
    idsOf k (c.run rs) = (List.range (requests k rs)).map (fun i => c.get k + BitVec.ofNat 32 i)
  | [], c => rfl
  | (t, k') :: rs, c => by
    have ih := idsOf_run k rs (c.next k').2
    unfold idsOf requests at *
    by_cases hk : k' = k
    · subst hk
      simp only [Counters.run, List.filter_cons, decide_true, if_true, List.map_cons, ih,
        List.length_cons, List.range_succ_eq_map, List.map_map, Counters.next_fst, Counters.next_get]
      congr 1
      · simp
      · apply List.map_congr_left
        intro i _
        simp only [Function.comp, Nat.succ_eq_add_one, BitVec.ofNat_add, BitVec.add_assoc]
        rw [BitVec.add_comm 1#32]
    · have hk' : ¬ k = k' := fun h => hk h.symm
      simp only [Counters.run, List.filter_cons, hk, decide_false, Bool.false_eq_true, if_false, ih,
        Counters.next_get, hk']

/-- C06, exact ids: whatever threads interleave in whatever order, the requests of one kind get
consecutive ids from the first one on, so the ids do not depend on the order in which threads ask. -/
theorem C06_ids_consecutive (rs : List (Nat × IdKind)) (k : IdKind)
    (hlim : firstId k + requests k rs ≤ 2 ^ 32) :
    (idsOf k (Counters.init.run rs)).map (·.toNat) = (List.range (requests k rs)).map (firstId k + ·) := by
  rw [idsOf_run, List.map_map]
  apply List.map_congr_left
  intro i hi
  have hi := List.mem_range.1 hi
  have : (Counters.init.get k).toNat = firstId k := by cases k <;> rfl
  simp only [Function.comp, BitVec.toNat_add, BitVec.toNat_ofNat, this]
  rw [Nat.mod_eq_of_lt (a := i) (by omega), Nat.mod_eq_of_lt (by omega)]

theorem mem_idsOf {gs : List Grant} {g : Grant} (h : g ∈ gs) : g.id ∈ idsOf g.kind gs := by
  unfold idsOf
  exact List.mem_map.2 ⟨g, List.mem_filter.2 ⟨h, by simp⟩, rfl⟩

theorem grant_range {rs : List (Nat × IdKind)} {g : Grant} (h : g ∈ Counters.init.run rs)
    (hlim : firstId g.kind + requests g.kind rs ≤ 2 ^ 32) :
    firstId g.kind ≤ g.id.toNat ∧ g.id.toNat < firstId g.kind + requests g.kind rs := by
  have h1 := List.mem_map_of_mem (f := (·.toNat)) (mem_idsOf h)
  rw [C06_ids_consecutive rs _ hlim] at h1
  obtain ⟨i, hi, he⟩ := List.mem_map.1 h1
  have := List.mem_range.1 hi
  constructor <;> omega

/-- Fewer than 2^30-1 global, 3*2^30 local and 2^32-1 block and function handles. -/
def WithinLimits (rs : List (Nat × IdKind)) : Prop :=
  requests .globalValue rs ≤ 2 ^ 30 - 1 ∧ requests .localValue rs ≤ 3 * 2 ^ 30 ∧
  requests .bb rs ≤ 2 ^ 32 - 1 ∧ requests .func rs ≤ 2 ^ 32 - 1

/-- The entity a handle is for: global and local values share the type `Value`. -/
def IdKind.sameEntity : IdKind → IdKind → Prop
  | .globalValue, k | .localValue, k => k = .globalValue ∨ k = .localValue
  | .bb, k => k = .bb
  | .func, k => k = .func

/-- C06: for every interleaving of requests within the limits, no two handles of the same type are
equal, none is zero (the type is `NonZeroU32`), and a value handle classifies itself as global
exactly if it was allocated for a global value. -/
theorem C06_handles_fresh (rs : List (Nat × IdKind)) (hl : WithinLimits rs) :
    (Counters.init.run rs).Pairwise (fun g g' => g.kind.sameEntity g'.kind → g.id ≠ g'.id) ∧
    ∀ g ∈ Counters.init.run rs, g.id ≠ 0#32 ∧
      (g.kind = .globalValue → isGlobalId g.id = true) ∧ (g.kind = .localValue → isGlobalId g.id = false) := by
  obtain ⟨h1, h2, h3, h4⟩ := hl
  have hlim : ∀ k, firstId k + requests k rs ≤ 2 ^ 32 := by
    intro k; cases k <;> simp only [firstId] <;> omega
  have hrange : ∀ g ∈ Counters.init.run rs, _ := fun g hg => grant_range hg (hlim g.kind)
  refine ⟨?_, ?_⟩
  · -- equal kinds: the list of ids of that kind has no duplicates
    have hnd : ∀ k, (idsOf k (Counters.init.run rs)).Nodup := by
      intro k
      have : ((idsOf k (Counters.init.run rs)).map (·.toNat)).Nodup := by
        rw [C06_ids_consecutive rs k (hlim k)]
        unfold List.Nodup
        rw [List.pairwise_map]
        exact List.nodup_range.imp (fun hne h => hne (by omega))
      exact (List.pairwise_map.1 this).imp (fun h e => h (by rw [e]))
    rw [List.pairwise_iff_forall_sublist]
    intro g g' hs hk he
    have hg := hrange g (hs.mem (by simp))
    have hg' := hrange g' (hs.mem (by simp))
    by_cases hkk : g.kind = g'.kind
    · have hsub : [g.id, g'.id].Sublist (idsOf g.kind (Counters.init.run rs)) := by
        have := (hs.filter (fun x => decide (x.kind = g.kind))).map (·.id)
        simpa [idsOf, hkk] using this
      have := (hnd g.kind).sublist hsub
      rw [he] at this
      simp at this
    · rw [he] at hg
      cases hgk : g.kind <;> cases hgk' : g'.kind <;> simp [IdKind.sameEntity, hgk, hgk', firstId] at hk hkk hg hg' <;> omega
  · intro g hg
    have hr := hrange g hg
    refine ⟨?_, ?_, ?_⟩
    · intro h
      rw [h] at hr
      cases hgk : g.kind <;> simp [hgk, firstId] at hr
    · intro hk
      rw [hk] at hr
      simp only [firstId] at hr
      simp only [isGlobalId, Bool.and_eq_true, decide_eq_true_eq, BitVec.le_def, BitVec.lt_def, ge_iff_le]
      exact ⟨hr.1, by simp; omega⟩
    · intro hk
      rw [hk] at hr
      simp only [firstId] at hr
      simp only [isGlobalId, Bool.and_eq_false_iff, decide_eq_false_iff_not, BitVec.lt_def]
      right
      simp; omega

/-- Two threads interleaving. -/
example : WithinLimits [(0, .globalValue), (1, .localValue), (0, .localValue), (1, .bb), (0, .globalValue)] ∧
    (Counters.init.run [(0, .globalValue), (1, .localValue), (0, .localValue), (1, .bb), (0, .globalValue)]).map
      (·.id.toNat) = [1, 0x40000000, 0x40000001, 1, 2] := by
  refine ⟨by refine ⟨?_, ?_, ?_, ?_⟩ <;> decide, by decide⟩

/-- The limit is needed: after 2^30-1 global handles the next one is classified as local and equals
the first local handle. -/
theorem C06_limit_needed : ∃ rs : List (Nat × IdKind), requests .globalValue rs = 2 ^ 30 ∧
    requests .localValue rs = 1 ∧ ∃ g ∈ Counters.init.run rs, ∃ g' ∈ Counters.init.run rs,
      g.kind = .globalValue ∧ g'.kind = .localValue ∧ g.id = g'.id ∧ isGlobalId g.id = false := by
  let rs : List (Nat × IdKind) := List.replicate (2 ^ 30) (0, .globalValue) ++ [(0, .localValue)]
  have hr : ∀ k, requests k rs = (if k = .globalValue then 2 ^ 30 else 0) + (if k = .localValue then 1 else 0) := by
    intro k
    simp only [requests, rs, List.filter_append, List.length_append]
    congr 1
    · by_cases hk : k = .globalValue
      · subst hk; rw [List.filter_replicate_of_pos (by simp), List.length_replicate, if_pos rfl]
      · rw [List.filter_replicate_of_neg (by simpa using fun h => hk h.symm), if_neg hk]; rfl
    · cases k <;> rfl
  have h1 : requests .globalValue rs = 2 ^ 30 := by rw [hr]; rfl
  have h2 : requests .localValue rs = 1 := by rw [hr]; rfl
  have key : ∀ k n, n < requests k rs → firstId k + requests k rs ≤ 2 ^ 32 →
      ∃ g ∈ Counters.init.run rs, g.kind = k ∧ g.id.toNat = firstId k + n := by
    intro k n hn hlim
    have h := C06_ids_consecutive rs k hlim
    have hm : firstId k + n ∈ (idsOf k (Counters.init.run rs)).map (·.toNat) := by
      rw [h]; exact List.mem_map.2 ⟨n, List.mem_range.2 hn, rfl⟩
    obtain ⟨i, hi, he⟩ := List.mem_map.1 hm
    unfold idsOf at hi
    obtain ⟨g, hg, rfl⟩ := List.mem_map.1 hi
    obtain ⟨hg, hk⟩ := List.mem_filter.1 hg
    exact ⟨g, hg, by simpa using hk, he⟩
  obtain ⟨g, hg, hgk, hgi⟩ := key .globalValue (2 ^ 30 - 1) (by rw [h1]; omega) (by rw [h1]; simp [firstId])
  obtain ⟨g', hg', hgk', hgi'⟩ := key .localValue 0 (by rw [h2]; omega) (by rw [h2]; simp [firstId])
  have he : g.id = g'.id := by
    apply BitVec.eq_of_toNat_eq
    rw [hgi, hgi']; simp [firstId]
  refine ⟨rs, h1, h2, g, hg, g', hg', hgk, hgk', he, ?_⟩
  simp only [isGlobalId, Bool.and_eq_false_iff, decide_eq_false_iff_not, BitVec.lt_def]
  right
  rw [hgi]; simp [firstId]

end Koopa
