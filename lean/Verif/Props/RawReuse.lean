import Verif.Lemmas.Lib.RawReuse
import Verif.Model.Front.Builder
/-!
C35: building a second raw program with the same builder.
-/
namespace Koopa
open Spec Raw

/-- C35 fails: a builder that holds a value, as it does after nearly every call, panics on every program. -/
theorem C35_used_builder_panics {b : Raw.Builder} {v : Value} {r : Option RVal} (hv : b.vals.get? v = some r)
    (n : Nat) (p : Program) : buildRaw n b p = none := by
  unfold buildRaw
  split
  · rfl
  · rename_i s hs
    have hstep := (buildAll_step (fun i s s' h => build_step p n none i s s' (by simp) h) _ _ _ hs).1
    have h1 : s.b.vals.get? v = some r := hstep.vals v r hv
    have h2 : s.used.get? v = none := by rw [hstep.used v r hv]; rfl
    have h3 : v ∈ s.b.vals.keys := by rw [Map.mem_keys_iff, h1]; rfl
    rw [fillUsers_none h2 _ _ h3]

theorem buildAll_cached {p : Program} {n : Nat} {cur : Option FData} {s : BSt} : ∀ is : List Item,
    (∀ i ∈ is, s.Has i) → buildAll (Raw.build p (n + 1) cur) is s = some s
  | [], _ => rfl
  | i :: is, h => by
    have hi : Raw.build p (n + 1) cur i s = some s := by
      have := h i (by simp)
      cases i <;> unfold Raw.build <;> exact if_pos this
    unfold buildAll
    rw [hi]
    exact buildAll_cached is (fun j hj => h j (by simp [hj]))

theorem fillUsers_keeps {used : Map Value (List Value)} {v : Value} : ∀ (vs : List Value) (b b' : Raw.Builder),
    fillUsers used vs b = some b' → ((b'.vals.get? v).isSome ↔ (b.vals.get? v).isSome)
  | [], b, b', h => by simp only [fillUsers, Option.some.injEq] at h; subst h; exact Iff.rfl
  | w :: vs, b, b', h => by
    unfold fillUsers at h
    split at h
    · cases h
    · split at h
      · split at h
        · rename_i r hr
          rw [fillUsers_keeps vs _ _ h]
          simp only [Map.get?_insert]
          split
          · rename_i e; subst e; simp [hr]
          · exact Iff.rfl
        · cases h
      · cases h

/-- C35 fails: building the same program again finds every item in the tables, so that the first phase changes
nothing, and then panics while the users are filled in. -/
theorem C35_same_program_panics {n : Nat} {p : Program} {b : Raw.Builder} {r : RawProgram}
    (h : buildRaw n .new p = some (b, r)) (hv : b.vals.keys ≠ []) (m : Nat) :
    buildAll (Raw.build p (m + 1) none) (p.instLayout.map .val ++ p.funcLayout.map .func) ⟨b, .empty⟩ =
      some ⟨b, .empty⟩ ∧ fillUsers .empty b.vals.keys b = none := by
  unfold buildRaw at h
  split at h
  · cases h
  · rename_i s hs
    split at h
    · cases h
    · rename_i b' hb
      cases h
      obtain ⟨-, -, -, h3, h4, -, -⟩ := fillUsers_congr _ _ _ _ rfl hb
      obtain ⟨-, hh⟩ := buildAll_step (fun i s s' h => build_step p n none i s s' (by simp) h) _ _ _ hs
      refine ⟨buildAll_cached _ (fun i hi => ?_), ?_⟩
      · have := hh i hi
        cases i with
        | val v => exact (fillUsers_keeps _ _ _ hb).2 this
        | bb k => unfold BSt.Has; rw [h4]; exact this
        | func f => unfold BSt.Has; rw [h3]; exact this
      · obtain ⟨v, hv⟩ := List.exists_mem_of_ne_nil _ hv
        exact fillUsers_none rfl _ _ hv

/-- The part of C35 that holds: a builder without values whose functions and blocks are not those of the program
gives the result of a fresh builder, and the boxes of the program hold the same. Left out are builders that hold
a value: those panic, see `C35_used_builder_panics`. -/
theorem C35_reuse_partial {n : Nat} {p : Program} {b b0 : Raw.Builder} {r : RawProgram} (hv : b.vals.keys = [])
    (hf : ∀ f, p.funcs.get? f ≠ none → b.funcs.get? f = none)
    (hb : ∀ f fd k, p.funcs.get? f = some fd → fd.dfg.bbs.get? k ≠ none → b.bbs.get? k = none)
    (h : buildRaw n .new p = some (b0, r)) :
    ∃ b', buildRaw n b p = some (b', r) ∧ (∀ v, b'.vals.get? v = b0.vals.get? v) ∧
      (∀ f x, b0.funcs.get? f = some x → b'.funcs.get? f = some x) ∧
      (∀ k x, b0.bbs.get? k = some x → b'.bbs.get? k = some x) := by
  have he : b.vals = .empty := by
    cases hb : b.vals with
    | mk l =>
      rw [hb] at hv
      cases l with
      | nil => rfl
      | cons q l => simp [Map.keys] at hv
  unfold buildRaw at h ⊢
  split at h
  · cases h
  · rename_i s hs
    split at h
    · cases h
    · rename_i b1 hb1
      cases h
      obtain ⟨s', h1, ha⟩ := buildAll_agree (fun i s0 s s0' ha h => build_agree p n none i s0 s s0' (by simp) ha h)
        _ _ ⟨b, .empty⟩ _ (by
          refine ⟨he, rfl, fun f h => hf f h, ?_, fun f h => absurd rfl h, fun f h => absurd rfl h⟩
          rintro k ⟨f, fd, h1, h2⟩
          exact hb f fd k h1 h2) hs
      obtain ⟨b2, h2, h3, h4, h5, h6, h7⟩ := fillUsers_congr _ s.b s'.b _ ha.vals.symm hb1
      simp only [h1, ha.used, ha.vals, h2]
      refine ⟨b2, rfl, fun v => by rw [h3], fun f x hx => ?_, fun k x hx => ?_⟩
      · rw [h4] at hx; rw [h6, ha.funcs f (ha.ownF f (by rw [hx]; simp))]; exact hx
      · rw [h5] at hx; rw [h7, ha.bbs k (ha.ownB k (by rw [hx]; simp))]; exact hx

/-- `fun @f() { %e: ret }`, made with the API. -/
def retProgram (ids : Ids) : Option Program := do
  let p := Program.new ids
  let (p, f) ← p.newFuncDef "@f".toList [] .unit
  let (p, b) ← p.newBb f (some "%e".toList)
  let p ← p.pushBb f b
  let (p, v) ← p.newLocal f (.ret none)
  p.pushInst f b v

/-- A declaration only, made with the API. -/
def declProgram (ids : Ids) : Option Program := do
  let (p, _) ← (Program.new ids).newFuncDecl "@g".toList [.i32] .i32
  return p

/-- The builder holds a value after a successful first call. -/
def holdsValue (p : Option Program) : Bool := match p with
  | none => false
  | some p => match buildRaw 10 .new p with
    | none => false
    | some (b, _) => match b.vals.keys with
      | [] => false
      | _ => true

theorem retProgram_holds : holdsValue (retProgram Ids.init) = true := by decide +kernel

/-- A reachable case in which the builder panics on the second use. -/
example : ∃ p b r, retProgram Ids.init = some p ∧ buildRaw 10 .new p = some (b, r) ∧ b.vals.keys ≠ [] ∧
    ∀ n q, buildRaw n b q = none := by
  have h := retProgram_holds
  unfold holdsValue at h
  split at h
  · cases h
  · rename_i p hp
    split at h
    · cases h
    · rename_i b r hb
      split at h
      · cases h
      · rename_i hk
        refine ⟨p, b, r, hp, hb, hk, fun n q => ?_⟩
        obtain ⟨v, hv⟩ := List.exists_mem_of_ne_nil _ hk
        rw [Map.mem_keys_iff] at hv
        obtain ⟨x, hx⟩ := Option.isSome_iff_exists.1 hv
        exact C35_used_builder_panics hx n q

/-- A builder used on a declaration, then on a definition with other handles. -/
def reuseCase : Bool := match declProgram Ids.init with
  | none => false
  | some p => match buildRaw 10 .new p, retProgram p.ids with
    | some (b, _), some q => match buildRaw 10 .new q with
      | none => false
      | some _ => b.vals.keys.isEmpty && q.funcs.keys.all (fun f => !b.funcs.contains f) &&
          b.bbs.keys.isEmpty && !b.funcs.keys.isEmpty
    | _, _ => false

/-- A case of `C35_reuse_partial`. -/
example : reuseCase = true := by decide +kernel

end Koopa
