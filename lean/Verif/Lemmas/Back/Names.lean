import Verif.Spec.Names
import Verif.Model.Back.Llvm
import Verif.Lemmas.Front.Digits
/-!
The name manager gives different names to different entities.
-/
namespace Koopa
open Spec

theorem showNat_inj {m n : Nat} (h : showNat m = showNat n) : m = n := by
  have h1 := parseDigits_showNat m
  rw [h, parseDigits_showNat n] at h1
  exact (Option.some.inj h1).symm

theorem underscore_showNat (k : Nat) : '_' ∉ showNat k := by
  intro h
  have := showNat_digit h
  revert this; decide

/-- The text of temporary `k` under one of the prefixes in use. -/
def TempNo (ks : List Prefix) (s : Str) (k : Nat) : Prop := ∃ p ∈ ks, s = p.tempName k

/-- Prefixes whose temporary names differ from each other and from names with a suffix. -/
structure Prefixes (ks : List Prefix) : Prop where
  inj : ∀ s k k', TempNo ks s k → TempNo ks s k' → k = k'
  suffix : ∀ n i k, ¬ TempNo ks (suffixed n i) k

theorem prefixes_koopa : Prefixes [.default] := by
  constructor
  · rintro s k k' ⟨p, hp, rfl⟩ ⟨p', hp', h⟩
    rw [List.mem_singleton] at hp hp'
    subst hp; subst hp'
    exact showNat_inj (List.cons.inj h).2
  · rintro n i k ⟨p, hp, h⟩
    rw [List.mem_singleton] at hp
    subst hp
    have hm : '_' ∈ suffixed n i := List.mem_append_right _ List.mem_cons_self
    rw [h] at hm
    simp only [Prefix.tempName, List.mem_cons, underscore_showNat, or_false] at hm
    revert hm; decide

theorem prefixes_llvm : Prefixes [BackLlvm.globalPrefix, BackLlvm.localPrefix] := by
  constructor
  · rintro s k k' ⟨p, hp, rfl⟩ ⟨p', hp', h⟩
    simp only [List.mem_cons, List.not_mem_nil, or_false] at hp hp'
    rcases hp with rfl | rfl <;> rcases hp' with rfl | rfl
    · exact showNat_inj (List.cons.inj (List.cons.inj h).2).2
    · exact absurd (List.cons.inj h).1 (by decide)
    · exact absurd (List.cons.inj h).1 (by decide)
    · exact showNat_inj (List.cons.inj (List.cons.inj h).2).2
  · rintro n i k ⟨p, hp, h⟩
    have hm : '_' ∈ suffixed n i := List.mem_append_right _ List.mem_cons_self
    rw [h] at hm
    simp only [List.mem_cons, List.not_mem_nil, or_false] at hp
    rcases hp with rfl | rfl
    · have : '_' ∈ '@' :: '$' :: showNat k := hm
      simp only [List.mem_cons, underscore_showNat, or_false] at this
      revert this; decide
    · have : '_' ∈ '%' :: '$' :: showNat k := hm
      simp only [List.mem_cons, underscore_showNat, or_false] at this
      revert this; decide

theorem suffixed_inj {n : Str} {i j : Nat} (h : suffixed n i = suffixed n j) : i = j :=
  showNat_inj (List.cons.inj (List.append_cancel_left h)).2

theorem pickSuffix_some (names : List Str) (name : Str) : ∀ (fuel id : Nat) (n : Str), pickSuffix names name fuel id = some n →
    ∃ k, id ≤ k ∧ n = suffixed name k ∧ n ∉ names ∧ ∀ j, id ≤ j → j < k → suffixed name j ∈ names
  | 0, _, _, h => by simp [pickSuffix] at h
  | f + 1, id, n, h => by
    rw [pickSuffix] at h
    split at h
    · rename_i hm
      obtain ⟨k, h1, h2, h3, h4⟩ := pickSuffix_some names name f (id + 1) n h
      refine ⟨k, by omega, h2, h3, fun j hj hk => ?_⟩
      rcases Nat.eq_or_lt_of_le hj with rfl | hj
      · exact hm
      · exact h4 j hj hk
    · rename_i hm
      cases h
      exact ⟨id, Nat.le_refl _, rfl, hm, fun j h1 h2 => by omega⟩

theorem pickSuffix_none (names : List Str) (name : Str) : ∀ (fuel id : Nat), pickSuffix names name fuel id = none →
    ∀ j, id ≤ j → j < id + fuel → suffixed name j ∈ names
  | 0, _, _ => fun j _ _ => by omega
  | f + 1, id, h => by
    rw [pickSuffix] at h
    split at h
    · rename_i hm
      intro j hj hk
      rcases Nat.eq_or_lt_of_le hj with rfl | hj
      · exact hm
      · exact pickSuffix_none names name f (id + 1) h j hj (by omega)
    · cases h

theorem pickSuffix_returns (names : List Str) (name : Str) : ∃ n, pickSuffix names name (names.length + 1) 0 = some n := by
  rcases h : pickSuffix names name (names.length + 1) 0 with _ | n
  · exfalso
    have h1 := pickSuffix_none names name _ _ h
    have h2 : ((List.range (names.length + 1)).map (suffixed name)).Nodup := by
      rw [List.Nodup, List.pairwise_map]
      exact List.nodup_range.imp (fun hne he => hne (suffixed_inj he))
    have h3 : (List.range (names.length + 1)).map (suffixed name) ⊆ names := by
      intro s hs
      obtain ⟨j, hj, rfl⟩ := List.mem_map.1 hs
      exact h1 j (Nat.zero_le _) (by have := List.mem_range.1 hj; omega)
    have := h2.length_le_of_subset h3
    simp at this
    omega
  · exact ⟨n, rfl⟩

/-- What `next_name` chooses for an entity with chosen name `c`, when the names in `ns` are in use. -/
def Chosen (pre : Prefix) (id : Nat) (ns : List Str) : Option Str → Str → Prop
  | none, n => n = pre.tempName id
  | some c, n => ∃ c', pre.name c = some c' ∧
      ((c' ∉ ns ∧ n = c') ∨ (c' ∈ ns ∧ ∃ k, n = suffixed c' k ∧ ∀ j, j < k → suffixed c' j ∈ ns))

/-- A chosen name that is not turned into a temporary name. -/
def FineName (ks : List Prefix) (c : Str) : Prop := ∀ pre ∈ ks, ∀ n, pre.name c = some n → ∀ k, ¬ TempNo ks n k

theorem pickName_returns (ns : List Str) (c : Str) : ∃ n, pickName ns c = some n := by
  unfold pickName
  split
  · exact pickSuffix_returns ns c
  · exact ⟨_, rfl⟩

theorem NM.nextName_spec {ks : List Prefix} (hks : Prefixes ks) {m m' : NM} {ns ns' : List Str} {name : Option Str} {n : Str}
    (hk : m.pre ∈ ks) (ht : ∀ s ∈ ns, ∀ k, TempNo ks s k → k < m.nextId) (hf : ∀ c, name = some c → FineName ks c)
    (h : m.nextName ns name = some (n, ns', m')) :
    Chosen m.pre m.nextId ns name n ∧ n ∉ ns ∧ ns' = setInsert n ns ∧
      (∃ i, m.nextId ≤ i ∧ m' = { m with nextId := i } ∧ ∀ k, TempNo ks n k → k < i) := by
  unfold NM.nextName at h
  split at h
  · cases h
    have h1 : TempNo ks (m.pre.tempName m.nextId) m.nextId := ⟨_, hk, rfl⟩
    refine ⟨rfl, fun hm => ?_, rfl, _, Nat.le_succ _, rfl, fun k hk' => ?_⟩
    · exact absurd (ht _ hm _ h1) (Nat.lt_irrefl _)
    · rw [hks.inj _ _ _ hk' h1]; exact Nat.lt_succ_self _
  · rename_i c
    split at h
    · cases h
    · rename_i c' hc
      split at h
      · cases h
      · rename_i n' hn
        cases h
        have hfine := hf c rfl m.pre hk c' hc
        unfold pickName at hn
        split at hn
        · rename_i hm
          obtain ⟨k, -, rfl, h3, h4⟩ := pickSuffix_some _ _ _ _ _ hn
          refine ⟨⟨c', hc, .inr ⟨hm, k, rfl, fun j hj => h4 j (Nat.zero_le _) hj⟩⟩, h3, rfl, _, Nat.le_refl _, rfl, fun k' h => ?_⟩
          exact absurd h (hks.suffix _ _ _)
        · rename_i hm
          cases hn
          exact ⟨⟨_, hc, .inl ⟨hm, rfl⟩⟩, hm, rfl, _, Nat.le_refl _, rfl, fun k' h => absurd h (hfine k')⟩

/-- The names currently assigned. Values and auxiliary values belong to a function. -/
def NM.names (m : NM) : Names where
  ent
    | .func f => m.funcs.get? f
    | .global v => m.globalVars.get? v
    | .value v => if m.inFunc then m.values.get? v else none
    | .temp v => if m.inFunc then m.temps.get? v else none
  bb b := m.bbs.get? b

/-- The invariant of the name manager. -/
structure NInv (ks : List Prefix) (m : NM) : Prop where
  pre : m.pre ∈ ks
  distinct : m.names.Distinct
  used : ∀ e s, m.names.ent e = some s → s ∈ m.globalNames
  only : ∀ s ∈ m.globalNames, (∃ e, m.names.ent e = some s) ∨ ∃ k, TempNo ks s k
  temps : ∀ s ∈ m.globalNames, ∀ k, TempNo ks s k → k < m.nextId
  bbUsed : ∀ b s, m.names.bb b = some s → s ∈ m.bbNames
  bbOnly : ∀ s ∈ m.bbNames, ∃ b, m.names.bb b = some s
  bbTemps : ∀ s ∈ m.bbNames, ∀ k, TempNo ks s k → k < m.nextId
  entries : ∀ v s, (v, s) ∈ m.values.entries → m.values.get? v = some s
  isTemp : ∀ v s, m.names.ent (.temp v) = some s → ∃ k, TempNo ks s k

/-- The entity got name `n` by a request with chosen name `c`. -/
structure NamedEnt (ks : List Prefix) (m m' : NM) (e : Ent) (c : Option Str) (n : Str) : Prop where
  fresh : m.names.ent e = none
  chosen : Chosen m.pre m.nextId m.globalNames c n
  unused : n ∉ m.globalNames
  next : m.nextId ≤ m'.nextId
  temp : ∀ k, TempNo ks n k → k < m'.nextId
  pre : m'.pre = m.pre
  scope : m'.inFunc = m.inFunc
  names : m'.globalNames = setInsert n m.globalNames
  bbNames : m'.bbNames = m.bbNames
  ent : ∀ e', m'.names.ent e' = if e' = e then some n else m.names.ent e'
  bb : m'.names.bb = m.names.bb
  entries : (∀ v s, (v, s) ∈ m.values.entries → m.values.get? v = some s) → ∀ v s, (v, s) ∈ m'.values.entries → m'.values.get? v = some s
  isTemp : ∀ v, e = .temp v → ∃ k, TempNo ks n k

theorem NamedEnt.inv {ks : List Prefix} {m m' : NM} {e : Ent} {c : Option Str} {n : Str} (h : NamedEnt ks m m' e c n) (hi : NInv ks m) :
    NInv ks m' := by
  refine ⟨h.pre ▸ hi.pre, ⟨?_, ?_⟩, ?_, ?_, ?_, ?_, ?_, ?_, h.entries hi.entries, ?_⟩
  · intro e1 e2 s h1 h2
    rw [h.ent] at h1 h2
    split at h1 <;> split at h2
    · rename_i a b; rw [a, b]
    · cases h1; exact absurd (hi.used _ _ h2) h.unused
    · cases h2; exact absurd (hi.used _ _ h1) h.unused
    · exact hi.distinct.ents _ _ _ h1 h2
  · rw [h.bb]; exact hi.distinct.bbs
  · intro e1 s h1
    rw [h.ent] at h1
    rw [h.names, mem_setInsert]
    split at h1
    · cases h1; exact .inl rfl
    · exact .inr (hi.used _ _ h1)
  · intro s hs
    rw [h.names, mem_setInsert] at hs
    rcases hs with rfl | hs
    · exact .inl ⟨e, by rw [h.ent, if_pos rfl]⟩
    · rcases hi.only s hs with ⟨e1, h1⟩ | h1
      · refine .inl ⟨e1, ?_⟩
        rw [h.ent, if_neg, h1]
        rintro rfl
        rw [h.fresh] at h1; cases h1
      · exact .inr h1
  · intro s hs k hk
    rw [h.names, mem_setInsert] at hs
    rcases hs with rfl | hs
    · exact h.temp k hk
    · exact Nat.lt_of_lt_of_le (hi.temps s hs k hk) h.next
  · intro b s hb
    rw [h.bb] at hb; rw [h.bbNames]; exact hi.bbUsed b s hb
  · intro s hs
    rw [h.bbNames] at hs; rw [h.bb]; exact hi.bbOnly s hs
  · intro s hs k hk
    rw [h.bbNames] at hs; exact Nat.lt_of_lt_of_le (hi.bbTemps s hs k hk) h.next
  · intro v s hv
    rw [h.ent] at hv
    split at hv
    · rename_i he; cases hv; exact h.isTemp v he.symm
    · exact hi.isTemp v s hv

/-- The block got name `n` by a request with chosen name `c`. -/
structure NamedBb (ks : List Prefix) (m m' : NM) (b : BB) (c : Option Str) (n : Str) : Prop where
  fresh : m.names.bb b = none
  chosen : Chosen m.pre m.nextId m.bbNames c n
  unused : n ∉ m.bbNames
  next : m.nextId ≤ m'.nextId
  temp : ∀ k, TempNo ks n k → k < m'.nextId
  pre : m'.pre = m.pre
  scope : m'.inFunc = m.inFunc
  names : m'.globalNames = m.globalNames
  bbNames : m'.bbNames = setInsert n m.bbNames
  ent : m'.names.ent = m.names.ent
  bb : ∀ b', m'.names.bb b' = if b' = b then some n else m.names.bb b'
  entries : m'.values = m.values

theorem NamedBb.inv {ks : List Prefix} {m m' : NM} {b : BB} {c : Option Str} {n : Str} (h : NamedBb ks m m' b c n) (hi : NInv ks m) :
    NInv ks m' := by
  refine ⟨h.pre ▸ hi.pre, ⟨?_, ?_⟩, ?_, ?_, ?_, ?_, ?_, ?_, by rw [h.entries]; exact hi.entries, by rw [h.ent]; exact hi.isTemp⟩
  · rw [h.ent]; exact hi.distinct.ents
  · intro e1 e2 s h1 h2
    rw [h.bb] at h1 h2
    split at h1 <;> split at h2
    · rename_i a b; rw [a, b]
    · cases h1; exact absurd (hi.bbUsed _ _ h2) h.unused
    · cases h2; exact absurd (hi.bbUsed _ _ h1) h.unused
    · exact hi.distinct.bbs _ _ _ h1 h2
  · rw [h.ent, h.names]; exact hi.used
  · rw [h.ent, h.names]; exact hi.only
  · intro s hs k hk
    rw [h.names] at hs; exact Nat.lt_of_lt_of_le (hi.temps s hs k hk) h.next
  · intro e1 s h1
    rw [h.bb] at h1
    rw [h.bbNames, mem_setInsert]
    split at h1
    · cases h1; exact .inl rfl
    · exact .inr (hi.bbUsed _ _ h1)
  · intro s hs
    rw [h.bbNames, mem_setInsert] at hs
    rcases hs with rfl | hs
    · exact ⟨b, by rw [h.bb, if_pos rfl]⟩
    · obtain ⟨e1, h1⟩ := hi.bbOnly s hs
      refine ⟨e1, ?_⟩
      rw [h.bb, if_neg, h1]
      rintro rfl
      rw [h.fresh] at h1; cases h1
  · intro s hs k hk
    rw [h.bbNames, mem_setInsert] at hs
    rcases hs with rfl | hs
    · exact h.temp k hk
    · exact Nat.lt_of_lt_of_le (hi.bbTemps s hs k hk) h.next

theorem Map.entries_insert {κ ν : Type} [DecidableEq κ] {mp : Map κ ν} (k : κ) (n : ν)
    (h : ∀ v s, (v, s) ∈ mp.entries → mp.get? v = some s) (v : κ) (s : ν) (hm : (v, s) ∈ (mp.insert k n).entries) :
    (mp.insert k n).get? v = some s := by
  rw [Map.get?_insert]
  rcases List.mem_cons.1 hm with h1 | h1
  · cases h1; rw [if_pos rfl]
  · have h2 := List.mem_filter.1 h1
    have h3 : v ≠ k := by simpa using h2.2
    rw [if_neg h3]; exact h v s h2.1

variable {ks : List Prefix} (hks : Prefixes ks) {m m' : NM} (hi : NInv ks m)
include hks hi

theorem NM.funcName_spec {f : Func} {c n : Str} (hf : FineName ks c) (h : m.funcName f c = some (n, m')) :
    (m.names.ent (.func f) = some n ∧ m' = m) ∨ NamedEnt ks m m' (.func f) (some c) n := by
  unfold NM.funcName at h
  split at h
  · cases h; exact .inl ⟨by assumption, rfl⟩
  · rename_i h0
    split at h
    · cases h
    · rename_i n' ns m2 h1
      cases h
      obtain ⟨h2, h3, h4, i, h5, rfl, h6⟩ := NM.nextName_spec hks hi.pre hi.temps (fun c' hc' => by cases hc'; exact hf) h1
      refine .inr ⟨h0, h2, h3, h5, h6, rfl, rfl, h4, rfl, fun e' => ?_, rfl, fun h => h, fun _ => nofun⟩
      cases e' with
      | func f' => by_cases hff : f' = f <;> simp [NM.names, Map.get?_insert, hff]
      | _ => simp [NM.names]

theorem NM.globalName_spec {v : Value} {c : Option Str} {n : Str} (hf : ∀ c', c = some c' → FineName ks c') (h : m.globalName v c = some (n, m')) :
    (m.names.ent (.global v) = some n ∧ m' = m) ∨ NamedEnt ks m m' (.global v) c n := by
  unfold NM.globalName at h
  split at h
  · cases h; exact .inl ⟨by assumption, rfl⟩
  · rename_i h0
    split at h
    · cases h
    · rename_i n' ns m2 h1
      cases h
      obtain ⟨h2, h3, h4, i, h5, rfl, h6⟩ := NM.nextName_spec hks hi.pre hi.temps hf h1
      refine .inr ⟨h0, h2, h3, h5, h6, rfl, rfl, h4, rfl, fun e' => ?_, rfl, fun h => h, fun _ => nofun⟩
      cases e' with
      | global f' => by_cases hff : f' = v <;> simp [NM.names, Map.get?_insert, hff]
      | _ => simp [NM.names]

theorem NM.valueName_spec {v : Value} {c : Option Str} {n : Str} (hin : m.inFunc = true) (hf : ∀ c', c = some c' → FineName ks c')
    (h : m.valueName v c = some (n, m')) :
    (m.names.ent (.value v) = some n ∧ m' = m) ∨ NamedEnt ks m m' (.value v) c n := by
  unfold NM.valueName at h
  split at h
  · rename_i h0
    cases h; exact .inl ⟨by simp only [NM.names, hin, if_true]; exact h0, rfl⟩
  · rename_i h0
    split at h
    · cases h
    · rename_i n' ns m2 h1
      cases h
      obtain ⟨h2, h3, h4, i, h5, rfl, h6⟩ := NM.nextName_spec hks hi.pre hi.temps hf h1
      refine .inr ⟨by simp only [NM.names, hin, if_true]; exact h0, h2, h3, h5, h6, rfl, rfl, h4, rfl, fun e' => ?_, rfl, Map.entries_insert _ _, fun _ => nofun⟩
      cases e' with
      | value f' => by_cases hff : f' = v <;> simp [NM.names, Map.get?_insert, hff, hin]
      | _ => simp [NM.names]

theorem NM.tempOf_spec {v : Value} {n : Str} (hin : m.inFunc = true) (h : m.tempOf v = some (n, m')) :
    (m.names.ent (.temp v) = some n ∧ m' = m) ∨ NamedEnt ks m m' (.temp v) none n := by
  unfold NM.tempOf at h
  split at h
  · rename_i h0
    cases h; exact .inl ⟨by simp only [NM.names, hin, if_true]; exact h0, rfl⟩
  · rename_i h0
    split at h
    · cases h
    · rename_i n' ns m2 h1
      cases h
      obtain ⟨h2, h3, h4, i, h5, rfl, h6⟩ := NM.nextName_spec hks hi.pre hi.temps (by simp) h1
      refine .inr ⟨by simp only [NM.names, hin, if_true]; exact h0, h2, h3, h5, h6, rfl, rfl, h4, rfl, fun e' => ?_, rfl, fun h => h, fun _ _ => ⟨m.nextId, m.pre, hi.pre, h2⟩⟩
      cases e' with
      | temp f' => by_cases hff : f' = v <;> simp [NM.names, Map.get?_insert, hff, hin]
      | _ => simp [NM.names]

theorem NM.bbName_spec {b : BB} {c : Option Str} {n : Str} (hf : ∀ c', c = some c' → FineName ks c') (h : m.bbName b c = some (n, m')) :
    (m.names.bb b = some n ∧ m' = m) ∨ NamedBb ks m m' b c n := by
  unfold NM.bbName at h
  split at h
  · cases h; exact .inl ⟨by assumption, rfl⟩
  · rename_i h0
    split at h
    · cases h
    · rename_i n' ns m2 h1
      cases h
      obtain ⟨h2, h3, h4, i, h5, rfl, h6⟩ := NM.nextName_spec hks hi.pre hi.bbTemps hf h1
      refine .inr ⟨h0, h2, h3, h5, h6, rfl, rfl, rfl, h4, rfl, fun e' => ?_, rfl⟩
      by_cases hff : e' = b <;> simp [NM.names, Map.get?_insert, hff]

omit hks hi

/-- Names that are assigned stay. -/
def NM.Le (m m' : NM) : Prop :=
  (∀ e s, m.names.ent e = some s → m'.names.ent e = some s) ∧ ∀ b s, m.names.bb b = some s → m'.names.bb b = some s

theorem NM.Le.refl (m : NM) : m.Le m := ⟨fun _ _ h => h, fun _ _ h => h⟩

theorem NM.Le.trans {m1 m2 m3 : NM} (h : m1.Le m2) (h' : m2.Le m3) : m1.Le m3 :=
  ⟨fun e s h1 => h'.1 e s (h.1 e s h1), fun e s h1 => h'.2 e s (h.2 e s h1)⟩

theorem NamedEnt.le {e : Ent} {c : Option Str} {n : Str} (h : NamedEnt ks m m' e c n) : m.Le m' := by
  refine ⟨fun e1 s h1 => ?_, fun b s hb => by rw [h.bb]; exact hb⟩
  rw [h.ent, if_neg, h1]
  rintro rfl
  rw [h.fresh] at h1; cases h1

theorem NamedBb.le {e : BB} {c : Option Str} {n : Str} (h : NamedBb ks m m' e c n) : m.Le m' := by
  refine ⟨fun b s hb => by rw [h.ent]; exact hb, fun e1 s h1 => ?_⟩
  rw [h.bb, if_neg, h1]
  rintro rfl
  rw [h.fresh] at h1; cases h1

/-- A piece that a visitor may write within a scope. -/
def Piece.Fine (ks : List Prefix) (inFunc : Bool) : Piece → Prop
  | .lit _ => True
  | .func _ c => FineName ks c
  | .bb _ c => ∀ c', c = some c' → FineName ks c'
  | .label _ c => ∀ c', c = some c' → FineName ks c'
  | .global _ c => ∀ c', c = some c' → FineName ks c'
  | .value _ c => inFunc = true ∧ ∀ c', c = some c' → FineName ks c'
  | .temp _ => inFunc = true
  | .setPrefix p => p ∈ ks
  | .enter => False
  | .exit => False

theorem Names.text_mono (h : m.Le m') {x : Piece} {s : Str} (hx : m.names.text x = some s) : m'.names.text x = some s := by
  cases x with
  | func f c => exact h.1 _ _ hx
  | bb b c => exact h.2 _ _ hx
  | label b c =>
    simp only [Names.text] at hx ⊢
    split at hx
    · rename_i hb; cases hx; rw [h.2 _ _ hb]
    · cases hx
  | global f c => exact h.1 _ _ hx
  | value f c => exact h.1 _ _ hx
  | temp f => exact h.1 _ _ hx
  | _ => exact hx

theorem Renders.mono (h : m.Le m') {ps : List Piece} {s : Str} (hr : Renders m.names ps s) : Renders m'.names ps s := by
  induction hr with
  | nil => exact .nil
  | cons h1 _ ih => exact .cons (Names.text_mono h h1) ih

theorem Piece.run_spec (hks : Prefixes ks) (hi : NInv ks m) {x : Piece} (hx : x.Fine ks m.inFunc) {s : Str} (h : x.run m = some (s, m')) :
    NInv ks m' ∧ m'.inFunc = m.inFunc ∧ m.Le m' ∧ m'.names.text x = some s := by
  cases x with
  | lit t => cases h; exact ⟨hi, rfl, .refl _, rfl⟩
  | func f c =>
    rcases NM.funcName_spec hks hi hx h with ⟨h1, rfl⟩ | h1
    · exact ⟨hi, rfl, .refl _, h1⟩
    · exact ⟨h1.inv hi, h1.scope, h1.le, by rw [Names.text, h1.ent, if_pos rfl]⟩
  | global f c =>
    rcases NM.globalName_spec hks hi hx h with ⟨h1, rfl⟩ | h1
    · exact ⟨hi, rfl, .refl _, h1⟩
    · exact ⟨h1.inv hi, h1.scope, h1.le, by rw [Names.text, h1.ent, if_pos rfl]⟩
  | value f c =>
    rcases NM.valueName_spec hks hi hx.1 hx.2 h with ⟨h1, rfl⟩ | h1
    · exact ⟨hi, rfl, .refl _, h1⟩
    · exact ⟨h1.inv hi, h1.scope, h1.le, by rw [Names.text, h1.ent, if_pos rfl]⟩
  | temp f =>
    rcases NM.tempOf_spec hks hi hx h with ⟨h1, rfl⟩ | h1
    · exact ⟨hi, rfl, .refl _, h1⟩
    · exact ⟨h1.inv hi, h1.scope, h1.le, by rw [Names.text, h1.ent, if_pos rfl]⟩
  | bb b c =>
    rcases NM.bbName_spec hks hi hx h with ⟨h1, rfl⟩ | h1
    · exact ⟨hi, rfl, .refl _, h1⟩
    · exact ⟨h1.inv hi, h1.scope, h1.le, by rw [Names.text, h1.bb, if_pos rfl]⟩
  | label b c =>
    simp only [Piece.run] at h
    split at h
    · cases h
    · cases h
    · rename_i hb
      cases h
      rcases NM.bbName_spec hks hi hx hb with ⟨h1, rfl⟩ | h1
      · exact ⟨hi, rfl, .refl _, by rw [Names.text, h1]⟩
      · exact ⟨h1.inv hi, h1.scope, h1.le, by rw [Names.text, h1.bb, if_pos rfl]⟩
  | setPrefix p =>
    cases h
    exact ⟨⟨hx, hi.distinct, hi.used, hi.only, hi.temps, hi.bbUsed, hi.bbOnly, hi.bbTemps, hi.entries, hi.isTemp⟩, rfl, .refl _, rfl⟩
  | enter => exact absurd hx id
  | exit => exact absurd hx id

/-- Within one scope every entity is written with one name, and the names differ. -/
theorem runPieces_spec (hks : Prefixes ks) : ∀ {ps : List Piece} {m m' : NM} {s : Str}, NInv ks m → (∀ x ∈ ps, x.Fine ks m.inFunc) →
    runPieces m ps = some (s, m') → NInv ks m' ∧ m'.inFunc = m.inFunc ∧ m.Le m' ∧ Renders m'.names ps s
  | [], m, m', s, hi, _, h => by cases h; exact ⟨hi, rfl, .refl _, .nil⟩
  | x :: xs, m, m', s, hi, hf, h => by
    rw [runPieces] at h
    split at h
    · cases h
    · rename_i s1 m1 h1
      obtain ⟨a1, a2, a3, a4⟩ := Piece.run_spec hks hi (hf x List.mem_cons_self) h1
      split at h
      · cases h
      · rename_i s2 m2 h2
        cases h
        obtain ⟨b1, b2, b3, b4⟩ := runPieces_spec hks a1 (fun y hy => by rw [a2]; exact hf y (List.mem_cons_of_mem _ hy)) h2
        exact ⟨b1, b2.trans a2, a3.trans b3, .cons (Names.text_mono b3 a4) b4⟩

theorem runPieces_append : ∀ (xs ys : List Piece) (m : NM), runPieces m (xs ++ ys) = (match runPieces m xs with
    | none => none
    | some (s, m1) => match runPieces m1 ys with
      | none => none
      | some (s', m2) => some (s ++ s', m2))
  | [], ys, m => by
    simp only [List.nil_append, runPieces]
    cases runPieces m ys <;> rfl
  | x :: xs, ys, m => by
    simp only [List.cons_append, runPieces]
    cases x.run m with
    | none => rfl
    | some r =>
      obtain ⟨s1, m1⟩ := r
      simp only [runPieces_append xs ys m1]
      cases runPieces m1 xs with
      | none => rfl
      | some r =>
        obtain ⟨s2, m2⟩ := r
        simp only []
        cases runPieces m2 ys with
        | none => rfl
        | some r => simp

/-- The names of functions and globals stay. -/
def NM.LeGlobal (m m' : NM) : Prop :=
  (∀ f s, m.names.ent (.func f) = some s → m'.names.ent (.func f) = some s) ∧
    ∀ f s, m.names.ent (.global f) = some s → m'.names.ent (.global f) = some s

theorem NM.Le.global (h : m.Le m') : m.LeGlobal m' := ⟨fun _ _ => h.1 _ _, fun _ _ => h.1 _ _⟩

theorem NM.LeGlobal.trans {m1 m2 m3 : NM} (h : m1.LeGlobal m2) (h' : m2.LeGlobal m3) : m1.LeGlobal m3 :=
  ⟨fun e s h1 => h'.1 e s (h.1 e s h1), fun e s h1 => h'.2 e s (h.2 e s h1)⟩

theorem NM.enter_spec (hi : NInv ks m) (h : m.enter = some m') : NInv ks m' ∧ m.inFunc = false ∧ m'.inFunc = true ∧ m.LeGlobal m' := by
  unfold NM.enter at h
  split at h
  · cases h
  · rename_i h0
    cases h
    have h1 : m.inFunc = false := by simpa using h0
    have hn : ({ m with inFunc := true, values := .empty, temps := .empty } : NM).names = m.names := by
      simp only [NM.names, h1]
      congr 1
    refine ⟨⟨hi.pre, by rw [hn]; exact hi.distinct, by rw [hn]; exact hi.used, by rw [hn]; exact hi.only, hi.temps, by rw [hn]; exact hi.bbUsed,
      by rw [hn]; exact hi.bbOnly, hi.bbTemps, (fun v s h => by cases h), by rw [hn]; exact hi.isTemp⟩, h1, rfl, ⟨fun _ _ h => h, fun _ _ h => h⟩⟩

theorem mem_foldl_setErase (xs : List Str) : ∀ (s : List Str) (y : Str), y ∈ xs.foldl (fun s n => setErase n s) s ↔ y ∈ s ∧ y ∉ xs := by
  induction xs with
  | nil => simp
  | cons x xs ih =>
    intro s y
    simp only [List.foldl_cons, ih, mem_setErase, List.mem_cons, not_or]
    exact ⟨fun ⟨⟨a, b⟩, c⟩ => ⟨b, a, c⟩, fun ⟨b, a, c⟩ => ⟨⟨a, b⟩, c⟩⟩

theorem NM.exit_spec (hi : NInv ks m) (h : m.exit = some m') : NInv ks m' ∧ m.inFunc = true ∧ m'.inFunc = false ∧ m.LeGlobal m' ∧ m'.LeGlobal m := by
  unfold NM.exit at h
  split at h
  · rename_i h1
    cases h
    refine ⟨⟨hi.pre, ⟨?_, ?_⟩, ?_, ?_, ?_, ?_, ?_, ?_, hi.entries, ?_⟩, h1, rfl, ⟨fun _ _ h => h, fun _ _ h => h⟩, ⟨fun _ _ h => h, fun _ _ h => h⟩⟩
    · intro e1 e2 s a1 a2
      cases e1 with
      | value => simp [NM.names] at a1
      | temp => simp [NM.names] at a1
      | func f =>
        cases e2 with
        | value => simp [NM.names] at a2
        | temp => simp [NM.names] at a2
        | func g => exact hi.distinct.ents (.func f) (.func g) s a1 a2
        | global g => exact hi.distinct.ents (.func f) (.global g) s a1 a2
      | global f =>
        cases e2 with
        | value => simp [NM.names] at a2
        | temp => simp [NM.names] at a2
        | func g => exact hi.distinct.ents (.global f) (.func g) s a1 a2
        | global g => exact hi.distinct.ents (.global f) (.global g) s a1 a2
    · intro b b' s a1; simp [NM.names] at a1
    · intro e s a1
      rw [mem_foldl_setErase]
      have key : ∀ e', m.names.ent e' = some s → (∀ v, e' ≠ .value v) → s ∈ m.globalNames ∧ s ∉ m.values.entries.map (·.2) := by
        intro e' a2 hne
        refine ⟨hi.used _ _ a2, fun hm => ?_⟩
        obtain ⟨⟨v, s'⟩, hv, rfl⟩ := List.mem_map.1 hm
        have : m.names.ent (.value v) = some s' := by simp only [NM.names, h1, if_true]; exact hi.entries _ _ hv
        exact hne v (hi.distinct.ents _ _ _ a2 this)
      cases e with
      | value => simp [NM.names] at a1
      | temp => simp [NM.names] at a1
      | func f => exact key (.func f) a1 (fun _ => nofun)
      | global f => exact key (.global f) a1 (fun _ => nofun)
    · intro s hs
      rw [mem_foldl_setErase] at hs
      rcases hi.only s hs.1 with ⟨e, he⟩ | h2
      · cases e with
        | func f => exact .inl ⟨.func f, he⟩
        | global f => exact .inl ⟨.global f, he⟩
        | value v =>
          simp only [NM.names, h1, if_true] at he
          exact absurd (List.mem_map.2 ⟨_, Map.mem_of_lookup he, rfl⟩) hs.2
        | temp v => exact .inr (hi.isTemp v s he)
      · exact .inr h2
    · intro s hs k hk
      rw [mem_foldl_setErase] at hs
      exact hi.temps s hs.1 k hk
    · intro b s hb; simp [NM.names] at hb
    · intro s hs; cases hs
    · intro s hs; cases hs
    · intro v s hv; simp [NM.names] at hv
  · cases h

end Koopa
