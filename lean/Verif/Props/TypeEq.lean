import Verif.Model.TypePool
/-!
C07: type equality is structural equality.
-/
namespace Koopa

/-- Specification: the handle `a` stands for the type `t` (its kind, with nested handles unfolded). -/
inductive Denotes (heap : List PKind) : TAddr → Ty → Prop where
  | i32 {a} : heap[a]? = some .int32 → Denotes heap a .i32
  | unit {a} : heap[a]? = some .unit → Denotes heap a .unit
  | array {a b n t} : heap[a]? = some (.array b n) → Denotes heap b t → Denotes heap a (.array t n)
  | ptr {a b t} : heap[a]? = some (.pointer b) → Denotes heap b t → Denotes heap a (.ptr t)
  | func {a ps r ts t} : heap[a]? = some (.function ps r) → ps.length = ts.length →
      (∀ (i : Nat) (h : i < ps.length) (h' : i < ts.length), Denotes heap ps[i] ts[i]) →
      Denotes heap r t → Denotes heap a (.func ts t)

/-- The pool maps each allocated kind to its address; kinds are distinct and refer to earlier
addresses only. -/
structure TInv (s : TPool) : Prop where
  pool : ∀ (k : PKind) (a : TAddr), s.pool.get? k = some a ↔ s.heap[a]? = some k
  wf : ∀ (a : TAddr) (k : PKind), s.heap[a]? = some k → ∀ b ∈ k.args, b < a

theorem TInv.init : TInv .init := by
  refine ⟨fun k a => ?_, fun a k h => ?_⟩
  · simp [TPool.init, Map.get?_empty]
  · simp [TPool.init] at h

theorem TInv.get {s : TPool} (hi : TInv s) {k : PKind} (hk : ∀ a ∈ k.args, a < s.heap.length) :
    TInv (s.get k).1 := by
  unfold TPool.get
  split
  · exact hi
  · rename_i hnone
    have hnot : ∀ a : TAddr, s.heap[a]? ≠ some k := by
      intro a h
      rw [(hi.pool k a).2 h] at hnone; cases hnone
    refine ⟨fun k' a => ?_, fun a k' h => ?_⟩
    · simp only [Map.get?_insert, List.getElem?_append]
      by_cases hk' : k' = k
      · subst hk'
        simp only [if_true, Option.some.injEq]
        constructor
        · intro h; rw [if_neg (by omega)]; simp [← h]
        · split
          · intro h; exact absurd h (hnot a)
          · intro h
            rw [List.getElem?_singleton] at h
            split at h
            · omega
            · cases h
      · rw [if_neg hk', hi.pool]
        split
        · rfl
        · rename_i h
          rw [List.getElem?_singleton, List.getElem?_eq_none (by omega)]
          constructor
          · intro h; cases h
          · split
            · intro h; exact absurd (Option.some.inj h).symm hk'
            · intro h; cases h
    · simp only [List.getElem?_append] at h
      split at h
      · exact hi.wf a k' h
      · rw [List.getElem?_singleton] at h
        split at h
        · cases h; intro b hb; have := hk b hb; omega
        · cases h

theorem TReach.inv {s : TPool} (r : TReach s) : TInv s := by
  induction r with
  | init => exact TInv.init
  | get k _ hk ih => exact ih.get hk

/-- Earlier handles keep their meaning. -/
theorem Denotes.mono {heap : List PKind} {k : PKind} {a : TAddr} {t : Ty} (h : Denotes heap a t) :
    Denotes (heap ++ [k]) a t := by
  have get : ∀ {a : TAddr} {k' : PKind}, heap[a]? = some k' → (heap ++ [k])[a]? = some k' := by
    intro a k' h
    have : a < heap.length := by
      rw [Nat.lt_iff_add_one_le, ← Nat.not_lt]
      intro hn; rw [List.getElem?_eq_none (by omega)] at h; cases h
    rw [List.getElem?_append_left this]; exact h
  induction h with
  | i32 h => exact .i32 (get h)
  | unit h => exact .unit (get h)
  | array h _ ih => exact .array (get h) ih
  | ptr h _ ih => exact .ptr (get h) ih
  | func h hl _ _ ih ihr => exact .func (get h) hl ih ihr

theorem TInv.exists {s : TPool} (hi : TInv s) : ∀ a, a < s.heap.length → ∃ t, Denotes s.heap a t := by
  intro a
  induction a using Nat.strongRecOn with
  | ind a ih =>
    intro ha
    have hk := List.getElem?_eq_getElem ha
    have hw := hi.wf a _ hk
    generalize s.heap[a] = k at hk hw
    cases k with
    | int32 => exact ⟨_, .i32 hk⟩
    | unit => exact ⟨_, .unit hk⟩
    | array b n =>
      have hb := hw b (by simp [PKind.args])
      obtain ⟨t, ht⟩ := ih b hb (by omega)
      exact ⟨_, .array hk ht⟩
    | pointer b =>
      have hb := hw b (by simp [PKind.args])
      obtain ⟨t, ht⟩ := ih b hb (by omega)
      exact ⟨_, .ptr hk ht⟩
    | function ps r =>
      have hb := hw r (by simp [PKind.args])
      obtain ⟨t, ht⟩ := ih r hb (by omega)
      have hps : ∀ (qs : List TAddr), (∀ q ∈ qs, q < a) →
          ∃ ts : List Ty, qs.length = ts.length ∧
            ∀ (i : Nat) (h : i < qs.length) (h' : i < ts.length), Denotes s.heap qs[i] ts[i] := by
        intro qs
        induction qs with
        | nil => intro _; exact ⟨[], rfl, fun i h => absurd h (by simp)⟩
        | cons q qs ihq =>
          intro hq
          obtain ⟨ts, hl, hts⟩ := ihq (fun x hx => hq x (by simp [hx]))
          have hqa := hq q (by simp)
          obtain ⟨t, ht⟩ := ih q hqa (by omega)
          refine ⟨t :: ts, by simp [hl], fun i h h' => ?_⟩
          cases i with
          | zero => exact ht
          | succ i => exact hts i (by simpa using h) (by simpa using h')
      obtain ⟨ts, hl, hts⟩ := hps ps (fun q hq => hw q (by simp [PKind.args, hq]))
      exact ⟨_, .func hk hl hts ht⟩

theorem Denotes.fun_ {heap : List PKind} {a : TAddr} {t : Ty} (h : Denotes heap a t) :
    ∀ u, Denotes heap a u → t = u := by
  induction h with
  | i32 h => intro u hu; cases hu <;> simp_all
  | unit h => intro u hu; cases hu <;> simp_all
  | array h _ ih =>
    intro u hu
    cases hu with
    | array h' hb => rw [h] at h'; cases h'; rw [ih _ hb]
    | _ => simp_all
  | ptr h _ ih =>
    intro u hu
    cases hu with
    | ptr h' hb => rw [h] at h'; cases h'; rw [ih _ hb]
    | _ => simp_all
  | func h hl hd hr ih ihr =>
    intro u hu
    cases hu with
    | func h' hl' hd' hr' =>
      rw [h] at h'; cases h'
      rw [ihr _ hr']
      congr 1
      apply List.ext_getElem (by omega)
      intro i h1 h2
      exact ih i (by omega) h1 _ (hd' i (by omega) h2)
    | _ => simp_all

theorem Denotes.inj {s : TPool} (hi : TInv s) {a : TAddr} {t : Ty} (h : Denotes s.heap a t) :
    ∀ b, Denotes s.heap b t → a = b := by
  have key : ∀ {a b : TAddr} {k : PKind}, s.heap[a]? = some k → s.heap[b]? = some k → a = b := by
    intro a b k ha hb
    rw [← hi.pool] at ha hb
    rw [ha] at hb; exact Option.some.inj hb
  induction h with
  | i32 h => intro b hb; cases hb with | i32 h' => exact key h h'
  | unit h => intro b hb; cases hb with | unit h' => exact key h h'
  | array h _ ih => intro b hb; cases hb with | array h' hb => rw [← ih _ hb] at h'; exact key h h'
  | ptr h _ ih => intro b hb; cases hb with | ptr h' hb => rw [← ih _ hb] at h'; exact key h h'
  | func h hl hd hr ih ihr =>
    intro b hb
    cases hb with
    | func h' hl' hd' hr' =>
      rename_i ps r ts t ps' r'
      rw [← ihr _ hr'] at h'
      have : ps = ps' := by
        apply List.ext_getElem (by omega)
        intro i h1 h2
        exact ih i h1 (by omega) _ (hd' i h2 (by omega))
      rw [← this] at h'
      exact key h h'

/-- C07: in every state of the pool reached by any sequence of constructions, every handle obtained
stands for exactly one structural type, and two handles are equal exactly if they stand for the same
structure. -/
theorem C07_type_equality_structural {s : TPool} (r : TReach s) :
    (∀ a, a < s.heap.length → ∃ t, Denotes s.heap a t ∧ ∀ u, Denotes s.heap a u → u = t) ∧
    (∀ a b t u, Denotes s.heap a t → Denotes s.heap b u → (a = b ↔ t = u)) := by
  have hi := r.inv
  refine ⟨fun a ha => ?_, fun a b t u ha hb => ⟨fun h => ?_, fun h => ?_⟩⟩
  · obtain ⟨t, ht⟩ := hi.exists a ha
    exact ⟨t, ht, fun u hu => hu.fun_ t ht⟩
  · subst h; exact ha.fun_ u hb
  · subst h; exact ha.inj hi b hb

theorem TInv.get_kind {s : TPool} (hi : TInv s) (k : PKind) :
    (s.get k).1.heap[(s.get k).2]? = some k ∧
    (∀ a t, Denotes s.heap a t → Denotes (s.get k).1.heap a t) := by
  unfold TPool.get
  split
  · rename_i a ha
    exact ⟨(hi.pool k a).1 ha, fun _ _ h => h⟩
  · exact ⟨by simp, fun _ _ h => h.mono⟩

/-- C07, constructors: each constructor returns a handle for the requested structure, and no
construction changes what earlier handles stand for. -/
theorem C07_constructors {s : TPool} (r : TReach s) :
    (∀ k a t, Denotes s.heap a t → Denotes (s.get k).1.heap a t) ∧
    Denotes (s.get .int32).1.heap (s.get .int32).2 .i32 ∧
    Denotes (s.get .unit).1.heap (s.get .unit).2 .unit ∧
    (∀ a t n, Denotes s.heap a t → (s.getArray a n = none ↔ n = 0) ∧
      ∀ s' b, s.getArray a n = some (s', b) → Denotes s'.heap b (.array t n)) ∧
    (∀ a t, Denotes s.heap a t → Denotes (s.get (.pointer a)).1.heap (s.get (.pointer a)).2 (.ptr t)) ∧
    (∀ as a ts t, as.length = ts.length →
      (∀ (i : Nat) (h : i < as.length) (h' : i < ts.length), Denotes s.heap as[i] ts[i]) → Denotes s.heap a t →
      Denotes (s.get (.function as a)).1.heap (s.get (.function as a)).2 (.func ts t)) := by
  have hi := r.inv
  refine ⟨fun k => (hi.get_kind k).2, .i32 (hi.get_kind _).1, .unit (hi.get_kind _).1, ?_, ?_, ?_⟩
  · intro a t n h
    unfold TPool.getArray
    refine ⟨by split <;> simp_all, fun s' b hs => ?_⟩
    split at hs
    · have := hi.get_kind (.array a n)
      rw [show s.get (.array a n) = (s', b) from Option.some.inj hs] at this
      exact .array this.1 (this.2 _ _ h)
    · cases hs
  · intro a t h
    exact .ptr (hi.get_kind _).1 ((hi.get_kind _).2 _ _ h)
  · intro as a ts t hl has h
    exact .func (hi.get_kind _).1 hl (fun i h h' => (hi.get_kind _).2 _ _ (has i h h')) ((hi.get_kind _).2 _ _ h)

/-- `i32`, then `[i32, 6]` twice and `[i32, 7]`: the second request for the same type finds the
first. -/
example : ∃ s : TPool, TReach s ∧ Denotes s.heap 1 (.array .i32 6) ∧ Denotes s.heap 2 (.array .i32 7) ∧
    (s.get (.array 0 6)).2 = 1 := by
  let s0 := (TPool.init.get .int32).1
  let s1 := (s0.get (.array 0 6)).1
  let s2 := (s1.get (.array 0 7)).1
  have h0 : s0.heap = [.int32] := by decide
  have h1 : s1.heap = [.int32, .array 0 6] := by decide
  have h2 : s2.heap = [.int32, .array 0 6, .array 0 7] := by decide
  refine ⟨s2, .get _ (.get _ (.get _ .init ?_) ?_) ?_, ?_, ?_, by decide⟩
  · intro a ha; cases ha
  · intro a ha; simp [PKind.args] at ha; subst ha; decide
  · intro a ha; simp [PKind.args] at ha; subst ha; decide
  · rw [h2]; exact .array (b := 0) rfl (.i32 rfl)
  · rw [h2]; exact .array (b := 0) rfl (.i32 rfl)

end Koopa
