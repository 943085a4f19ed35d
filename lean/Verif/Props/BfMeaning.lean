import Verif.Lemmas.Examples.BfWhole
import Verif.Props.Brainfuck
/-!
C49: a compiled Brainfuck text, interpreted, does what the text means.
-/
namespace Koopa
open Koopa.Spec Koopa.Bf Koopa.Interp

/-- The interpreter ends on the compiled program exactly as the text ends, whatever the world, and with every sufficiently
large bound on the recursion. -/
theorem C49_meaning {σ : Type} {lib : Lib σ} {io : BfIo σ} (hio : LibIo lib io) {ids : Ids} (hg : globalStart ≤ ids.nextGlobal)
    (hl : localStart ≤ ids.nextLocal) (hm : ids.nextGlobal + 2 ≤ localStart) {w : List Char} (hb : BracketsBalanced w) {p : Program}
    (hp : build ids w = some (some p)) {ord : List Func} (ho : Lists p ord) (chk : Bool) {depth : Nat} (hd : 0 < depth) (ptrSize : Nat)
    (v : σ) (r : BfResult σ) :
    (BfRuns io chk w v r ↔ ∃ fuel, interpret lib chk depth ptrSize fuel ord p v = outcome r) ∧
    (BfRuns io chk w v r → ∃ least, ∀ fuel, least ≤ fuel → interpret lib chk depth ptrSize fuel ord p v = outcome r) := by
  obtain ⟨env, ar, zero, hbu⟩ := built hg hl hm hb hp
  obtain ⟨rt, fd, o, is, fr, st, h1, rfl, h3, h4, h5, h6, h7⟩ := hbu.begins lib chk hd ptrSize ho v
  have fwd : BfRuns io rt.chk w v r → ∃ least, ∀ fuel, least ≤ fuel → interpret lib rt.chk depth ptrSize fuel ord p v = outcome r := by
    rintro ⟨m, s, h8, h9⟩
    obtain ⟨k, hk⟩ := forward h1 hio h3 h8 h9 h4
    refine ⟨k + 2, fun fuel hf => ?_⟩
    obtain ⟨n, rfl⟩ := Nat.exists_eq_add_of_le' hf
    exact h7 (n + k) r (hk n)
  refine ⟨⟨fun h => ?_, ?_⟩, fwd⟩
  · obtain ⟨k, hk⟩ := fwd h
    exact ⟨k, hk k (Nat.le_refl _)⟩
  · rintro ⟨fuel, hf⟩
    have h2 : ¬ fuel < 2 := fun hlt => outcome_ne_fuel (hf.symm.trans (h5 fuel hlt))
    obtain ⟨n, rfl⟩ : ∃ n, fuel = n + 2 := ⟨fuel - 2, by omega⟩
    obtain ⟨r', m, s', a, b, c⟩ := backward h1 hio h3 n _ rfl h4 (fun e => outcome_ne_fuel (hf.symm.trans (h6 n e)))
    rw [← outcome_inj ((h7 n r' c).symm.trans hf)]
    exact ⟨m, s', a, b⟩

/-- The interpreter runs for ever on the compiled program exactly if the text runs for ever. -/
theorem C49_forever {σ : Type} {lib : Lib σ} {io : BfIo σ} (hio : LibIo lib io) {ids : Ids} (hg : globalStart ≤ ids.nextGlobal)
    (hl : localStart ≤ ids.nextLocal) (hm : ids.nextGlobal + 2 ≤ localStart) {w : List Char} (hb : BracketsBalanced w) {p : Program}
    (hp : build ids w = some (some p)) {ord : List Func} (ho : Lists p ord) (chk : Bool) {depth : Nat} (hd : 0 < depth) (ptrSize : Nat)
    (v : σ) : BfForever io chk w v ↔ ∀ fuel, interpret lib chk depth ptrSize fuel ord p v = .fuel := by
  obtain ⟨env, ar, zero, hbu⟩ := built hg hl hm hb hp
  obtain ⟨rt, fd, o, is, fr, st, h1, rfl, h3, h4, h5, h6, h7⟩ := hbu.begins lib chk hd ptrSize ho v
  constructor
  · intro h fuel
    by_cases hlt : fuel < 2
    · exact h5 fuel hlt
    obtain ⟨n, rfl⟩ : ∃ n, fuel = n + 2 := ⟨fuel - 2, by omega⟩
    refine h6 n (Classical.byContradiction fun hn => ?_)
    obtain ⟨r', m, s', a, b, c⟩ := backward h1 hio h3 n _ rfl h4 hn
    obtain ⟨u, hu⟩ := h (m + 1)
    exact steps_stop a b hu
  · intro h m
    refine busy h1 hio h3 m h4 (fun n => Classical.byContradiction fun hn => ?_)
    obtain ⟨r', m, s', a, b, c⟩ := backward h1 hio h3 n _ rfl h4 hn
    exact outcome_ne_fuel ((h7 n r' c).symm.trans (h (n + 2)))

/-- A library that writes and reads characters and knows nothing else. -/
def libOf {σ : Type} (io : BfIo σ) : Lib σ where
  call n _ xs v :=
    if n = "@putchar".toList then
      match xs with
      | [.int c] => (io.put c v).map (fun q => (.int q.1, q.2))
      | _ => none
    else if n = "@getchar".toList then (io.get v).map (fun q => (.int q.1, q.2))
    else none
  load _ _ _ := .undef
  store _ _ _ _ := none
  callExt := by
    intro n t xs v x v' h
    split at h
    · split at h
      · obtain ⟨q, _, hq⟩ := Option.map_eq_some_iff.1 h
        cases hq; exact .int _
      · cases h
    · split at h
      · obtain ⟨q, _, hq⟩ := Option.map_eq_some_iff.1 h
        cases hq; exact .int _
      · cases h
  loadExt _ _ _ := .undef

theorem libOf_io {σ : Type} (io : BfIo σ) : LibIo (libOf io) io :=
  ⟨fun _ _ => rfl, fun _ => rfl⟩

theorem lists_keys (p : Program) : Lists p p.funcs.keys := by
  intro f
  show f ∈ p.funcs.entries.map (·.1) ↔ ∃ fd, Map.lookup p.funcs.entries f = some fd
  induction p.funcs.entries with
  | nil => simp [Map.lookup]
  | cons q l ih =>
    obtain ⟨g, gd⟩ := q
    rw [List.map_cons, List.mem_cons, ih, Map.lookup]
    by_cases e : g = f
    · simp [e]
    · rw [if_neg e]
      exact ⟨fun h => h.resolve_left (fun e' => e e'.symm), .inr⟩

/-- What a text means is never left open: a balanced text either runs for ever, or it ends, and with one result only. -/
theorem C49_meaning_total {σ : Type} (io : BfIo σ) {w : List Char} (hb : BracketsBalanced w) (chk : Bool) (v : σ) :
    (BfForever io chk w v ∧ ∀ r, ¬ BfRuns io chk w v r) ∨
    (¬ BfForever io chk w v ∧ ∃ r, BfRuns io chk w v r ∧ ∀ q, BfRuns io chk w v q → q = r) := by
  obtain ⟨p, hp, -⟩ := C41_balanced_partial (ids := bfIds) (by decide) (by decide) (by decide) hb
  have mean := C49_meaning (libOf_io io) (ids := bfIds) (by decide) (by decide) (by decide) hb hp (lists_keys p) chk Nat.one_pos 8 v
  have ever := C49_forever (libOf_io io) (ids := bfIds) (by decide) (by decide) (by decide) hb hp (lists_keys p) chk Nat.one_pos 8 v
  by_cases hf : BfForever io chk w v
  · refine .inl ⟨hf, fun r hr => ?_⟩
    obtain ⟨n, hn⟩ := (mean r).1.1 hr
    exact outcome_ne_fuel (hn.symm.trans (ever.1 hf n))
  · refine .inr ⟨hf, ?_⟩
    obtain ⟨env, ar, zero, hbu⟩ := built (ids := bfIds) (by decide) (by decide) (by decide) hb hp
    obtain ⟨rt, fd, o, is, fr, st, h1, rfl, h3, h4, h5, h6, h7⟩ := hbu.begins (libOf io) chk Nat.one_pos 8 (lists_keys p) v
    have : ∃ n, E (libOf io) rt n is fr st ≠ .fuel := by
      refine Classical.byContradiction fun hn => hf fun m => ?_
      exact busy h1 (libOf_io io) h3 m h4 (fun n => Classical.byContradiction fun h => hn ⟨n, h⟩)
    obtain ⟨n, hn⟩ := this
    obtain ⟨r, m, s', a, b, c⟩ := backward h1 (libOf_io io) h3 n _ rfl h4 hn
    refine ⟨r, ⟨m, s', a, b⟩, fun q hq => ?_⟩
    obtain ⟨k, hk⟩ := (mean q).2 hq
    obtain ⟨k', hk'⟩ := (mean r).2 ⟨m, s', a, b⟩
    exact outcome_inj ((hk (k + k') (by omega)).symm.trans (hk' (k + k') (by omega)))

/-- Characters are taken from a list, 0 at its end, and appended to another. -/
def listIo : BfIo (List I32 × List I32) where
  put c v := some (c, (v.1, v.2 ++ [c]))
  get v := match v.1 with
    | [] => some (0, v)
    | c :: cs => some (c, (cs, v.2))

/-- A text with a loop that copies its input: interpreting the compiled program copies the input. -/
example : ∃ p, build bfIds ",[.,]".toList = some (some p) ∧ ∃ least, ∀ fuel, least ≤ fuel →
    interpret (libOf listIo) true 1 8 fuel p.funcs.keys p ([5], []) = .done (0, ([], [5])) := by
  have hb : BracketsBalanced ",[.,]".toList := by
    refine ⟨fun n => ?_, by decide⟩
    by_cases h : n < 5
    · have : ∀ m < 5, (",[.,]".toList.take m).count ']' ≤ (",[.,]".toList.take m).count '[' := by decide
      exact this n h
    · rw [List.take_of_length_le (by rw [show ",[.,]".toList.length = 5 from rfl]; omega)]
      decide
  obtain ⟨p, hp, -⟩ := C41_balanced_partial (ids := bfIds) (by decide) (by decide) (by decide) hb
  refine ⟨p, hp, ?_⟩
  refine (C49_meaning (libOf_io listIo) (by decide) (by decide) (by decide) hb hp (lists_keys p) true Nat.one_pos 8 ([5], [])
    (.halted ([], [5]))).2 ⟨5, _, .step (.get rfl rfl) (.step (.enter rfl (by decide)) (.step (.put rfl rfl) (.step (.get rfl rfl)
      (.step (.leave rfl (by decide)) (.refl _))))), .halted rfl⟩

/-- A text that never ends: interpreting the compiled program never ends. -/
example : ∃ p, build bfIds "+[]".toList = some (some p) ∧ ∀ fuel, interpret (libOf listIo) true 1 8 fuel p.funcs.keys p ([], []) = .fuel := by
  have hb : BracketsBalanced "+[]".toList := by
    refine ⟨fun n => ?_, by decide⟩
    by_cases h : n < 3
    · have : ∀ m < 3, ("+[]".toList.take m).count ']' ≤ ("+[]".toList.take m).count '[' := by decide
      exact this n h
    · rw [List.take_of_length_le (by rw [show "+[]".toList.length = 3 from rfl]; omega)]
      decide
  obtain ⟨p, hp, -⟩ := C41_balanced_partial (ids := bfIds) (by decide) (by decide) (by decide) hb
  refine ⟨p, hp, (C49_forever (libOf_io listIo) (by decide) (by decide) (by decide) hb hp (lists_keys p) true Nat.one_pos 8 ([], [])).1 ?_⟩
  -- the loop
  have hm : BfMatch "+[]".toList 1 2 := ⟨by decide, rfl, rfl, fun n => by simp, rfl⟩
  have round : ∀ (m : Nat) (s : BfState (List I32 × List I32)), s.pos = 2 → s.cell.toInt ≠ 0 →
      ∃ s', BfSteps listIo true "+[]".toList m s s' := by
    intro m
    induction m with
    | zero => exact fun s _ _ => ⟨s, .refl s⟩
    | succ m ih =>
      intro s hs hc
      obtain ⟨s', h⟩ := ih { s with pos := 1 + 1 } rfl hc
      exact ⟨s', .step (.again hc (by rw [hs]; exact hm)) h⟩
  intro m
  match m with
  | 0 => exact ⟨_, .refl _⟩
  | 1 => exact ⟨_, .step (.inc (n := 1) rfl ⟨by decide, fun _ => by decide⟩) (.refl _)⟩
  | m + 2 =>
    obtain ⟨s', h⟩ := round m { (bfStart (([], []) : List I32 × List I32)).write 1 with pos := 2 } rfl (by decide)
    exact ⟨s', .step (.inc (n := 1) rfl ⟨by decide, fun _ => by decide⟩) (.step (.enter rfl (by decide)) h)⟩

end Koopa
