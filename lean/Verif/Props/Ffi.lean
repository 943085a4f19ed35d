import Verif.Model.Lib.Ffi
import Verif.Props.FrontCases
import Verif.Props.Names
/-!
C32, C33: the C interface.
-/
namespace Koopa
open Lib

/-! ### C33 -/

/-- The outcome of a parse function: either the call reports success, and the handle variable then holds the
address of a new program, which is the one the front end makes of the input; or the call reports the
given error, the front end returns no program, and neither handle variable nor heap have changed. -/
inductive ParseOutcome (s : St) (i : Input) (c : Code) (s' : St) : Prop where
  | ok (p : Program) : c = .success → generate s.world (latin1 i.bytes) i.fail = some (some p, s'.world) →
      s'.heap.progs.get? s'.slot = some p → s'.slot = s.heap.next → s'.heap.next = s.heap.next + 1 →
      (∀ a, a ≠ s'.slot → s'.heap.progs.get? a = s.heap.progs.get? a) → ParseOutcome s i c s'
  | bad : c = .invalidKoopaProgram → generate s.world (latin1 i.bytes) i.fail = some (none, s'.world) →
      s'.heap = s.heap → s'.slot = s.slot → ParseOutcome s i c s'

theorem finish_outcome {s s' : St} {i : Input} {c : Code} (h : finish s i = some (c, s')) : ParseOutcome s i c s' := by
  unfold finish at h
  split at h
  · cases h
  · rename_i w hg
    cases h
    exact .bad rfl hg rfl rfl
  · rename_i p w hg
    cases h
    exact .ok p rfl hg (Map.get?_insert_self ..) rfl rfl (fun a ha => Map.get?_insert_ne _ _ ha)

theorem finish_of_generate {p : Program} {w w' : World} {b : Nat} {hp : Heap} {bs : List UInt8} {t : Str} (ht : latin1 bs = t)
    (h : generate w t false = some (some p, w')) :
    finish ⟨w, hp, b⟩ ⟨bs, false⟩ = some (.success, ⟨w', ⟨hp.next + 1, hp.progs.insert hp.next p⟩, hp.next⟩) := by
  unfold finish
  simp only [ht, h]
  rfl

/-- C33: each parse function either fails before reading the input, with its own error and without any
effect, or its outcome is that of the front end on the bytes it reads; so the handle variable is written
exactly when success is returned. -/
theorem C33_parse_writes_iff_success (s s' : St) (c : Code) :
    (∀ fs path, parseFromFile fs path s = some (c, s') →
      (toStr path = none ∧ c = .invalidUtf8String ∧ s' = s) ∨
      (∃ t, toStr path = some t ∧ fs t = none ∧ c = .invalidFile ∧ s' = s) ∨
      ∃ t i, toStr path = some t ∧ fs t = some i ∧ ParseOutcome s i c s') ∧
    (∀ text, parseFromString text s = some (c, s') →
      (toStr text = none ∧ c = .invalidUtf8String ∧ s' = s) ∨
      (toStr text ≠ none ∧ ParseOutcome s ⟨text, false⟩ c s')) ∧
    (∀ i, parseFromStdin i s = some (c, s') → ParseOutcome s i c s') ∧
    (∀ i, parseFromRaw i s = some (c, s') → ParseOutcome s i c s') := by
  refine ⟨fun fs path h => ?_, fun text h => ?_, fun i h => finish_outcome h, fun i h => finish_outcome h⟩
  · unfold parseFromFile at h
    split at h
    · rename_i ht; cases h; exact .inl ⟨ht, rfl, rfl⟩
    · rename_i t ht
      split at h
      · rename_i hf; cases h; exact .inr (.inl ⟨t, ht, hf, rfl, rfl⟩)
      · rename_i i hf; exact .inr (.inr ⟨t, i, ht, hf, finish_outcome h⟩)
  · unfold parseFromString at h
    split at h
    · rename_i ht; cases h; exact .inl ⟨ht, rfl, rfl⟩
    · rename_i t ht
      exact .inr ⟨by rw [ht]; exact Option.some_ne_none _, finish_outcome h⟩

/-- The parse functions leave every program handed out before as it is. -/
theorem C33_old_handles_kept {s s' : St} {c : Code} {i : Input} (h : finish s i = some (c, s'))
    (hh : ∀ a p, s.heap.progs.get? a = some p → a < s.heap.next) :
    (∀ a p, s.heap.progs.get? a = some p → s'.heap.progs.get? a = some p) ∧
    ∀ a p, s'.heap.progs.get? a = some p → a < s'.heap.next := by
  cases finish_outcome h with
  | ok p h1 h2 h3 h4 h5 h6 =>
    refine ⟨fun a q hq => ?_, fun a q hq => ?_⟩
    · have := hh a q hq
      rw [h6 a (by omega)]; exact hq
    · by_cases ha : a = s'.slot
      · omega
      · rw [h6 a ha] at hq
        have := hh a q hq; omega
  | bad h1 h2 h3 h4 => rw [h3]; exact ⟨fun a p h => h, hh⟩

/-- The bytes of the loop text. -/
def loopBytes : List UInt8 := loopText.map (fun c => UInt8.ofNat c.toNat)

/-- A success case of C33, and a failing one. -/
example : ∃ s', finish ⟨someWorld, ⟨5, .empty⟩, 77⟩ ⟨loopBytes, false⟩ = some (.success, s') ∧ s'.slot = 5 := by
  have hb : latin1 loopBytes = loopText := by decide +kernel
  obtain ⟨p, h⟩ := loop_accepted
  obtain ⟨w', h, -⟩ := h.run
  exact ⟨_, finish_of_generate hb h, rfl⟩

example : ∃ s', finish ⟨someWorld, ⟨5, .empty⟩, 77⟩ ⟨[35], false⟩ = some (.invalidKoopaProgram, s') ∧ s'.slot = 77 := by
  have h : (match finish ⟨someWorld, ⟨5, .empty⟩, 77⟩ ⟨[35], false⟩ with
    | some (.invalidKoopaProgram, s') => decide (s'.slot = 77)
    | _ => false) = true := by decide +kernel
  split at h
  · exact ⟨_, by assumption, of_decide_eq_true h⟩
  · cases h

/-! ### C32 -/

/-- C32: what a dump to a string does, for either generator and whatever the generated text is. The length is
counted in bytes of the UTF-8 encoding. -/
theorem C32_dump_protocol (gen : NM → Program → Option (Str × NM)) (p : Program) (text : Str) (n : NM)
    (hg : gen NM.new p = some (text, n)) (buffer len : Nat) (m : Mem) :
    ∃ c len' m', dumpToString gen p buffer len m = some (c, len', m') ∧
      (0 ∈ utf8 text → c = .nullByteError ∧ len' = len ∧ m' = m) ∧
      (0 ∉ utf8 text → buffer = 0 → c = .success ∧ len' = (utf8 text).length ∧ m' = m) ∧
      (0 ∉ utf8 text → buffer ≠ 0 → len ≤ (utf8 text).length → c = .insufficientBufferLength ∧ len' = len ∧ m' = m) ∧
      (0 ∉ utf8 text → buffer ≠ 0 → (utf8 text).length + 1 ≤ len → c = .success ∧ len' = len ∧
        (∀ i b, (utf8 text)[i]? = some b → m' (buffer + i) = b) ∧ m' (buffer + (utf8 text).length) = 0 ∧
        (∀ a, a < buffer → m' a = m a) ∧ ∀ a, buffer + (utf8 text).length < a → m' a = m a) := by
  unfold dumpToString
  rw [hg]
  simp only [List.length_append, List.length_singleton]
  by_cases h0 : 0 ∈ utf8 text
  · rw [if_pos h0]
    exact ⟨_, _, _, rfl, fun _ => ⟨rfl, rfl, rfl⟩, fun h => absurd h0 h, fun h => absurd h0 h, fun h => absurd h0 h⟩
  · rw [if_neg h0]
    by_cases hb : buffer = 0
    · rw [if_pos hb]
      exact ⟨_, _, _, rfl, fun h => absurd h h0, fun _ _ => ⟨rfl, by omega, rfl⟩, fun _ h => absurd hb h, fun _ h => absurd hb h⟩
    · rw [if_neg hb]
      by_cases hl : len < (utf8 text).length + 1
      · rw [if_pos hl]
        exact ⟨_, _, _, rfl, fun h => absurd h h0, fun _ h => absurd h hb, fun _ _ _ => ⟨rfl, rfl, rfl⟩, fun _ _ h => by omega⟩
      · rw [if_neg hl]
        refine ⟨_, _, _, rfl, fun h => absurd h h0, fun _ h => absurd h hb, fun _ _ h => by omega, fun _ _ _ => ⟨rfl, rfl, ?_, ?_, ?_, ?_⟩⟩
        · intro i b hi
          have hlt := (List.getElem?_eq_some_iff.1 hi).1
          simp only [Mem.write, Nat.le_add_right, if_true, Nat.add_sub_cancel_left]
          rw [List.getElem?_append_left hlt, hi]
        · simp only [Mem.write, Nat.le_add_right, if_true, Nat.add_sub_cancel_left]
          rw [List.getElem?_append_right (Nat.le_refl _)]
          simp
        · intro a ha
          simp only [Mem.write]
          rw [if_neg (by omega)]
        · intro a ha
          simp only [Mem.write]
          rw [if_pos (by omega), List.getElem?_eq_none (by simp; omega)]

/-- The protocol: ask for the length with a null buffer, then dump into a buffer with one byte more. The second
call succeeds and leaves the text with a terminating NUL in the buffer. -/
theorem C32_two_calls {gen : NM → Program → Option (Str × NM)} {p : Program} {len0 len : Nat} {m m' : Mem}
    (h : dumpToString gen p 0 len0 m = some (.success, len, m')) {buffer : Nat} (hb : buffer ≠ 0) :
    m' = m ∧ ∃ text n m'', gen NM.new p = some (text, n) ∧ len = (utf8 text).length ∧
      dumpToString gen p buffer (len + 1) m = some (.success, len + 1, m'') ∧
      (∀ i b, (utf8 text)[i]? = some b → m'' (buffer + i) = b) ∧ m'' (buffer + len) = 0 := by
  rcases hg : gen NM.new p with _ | ⟨text, n⟩
  · unfold dumpToString at h; rw [hg] at h; cases h
  · obtain ⟨c, l, m1, h1, h2, h3, h4, h5⟩ := C32_dump_protocol gen p text n hg 0 len0 m
    rw [h] at h1
    cases h1
    have h0 : 0 ∉ utf8 text := fun h0 => by cases (h2 h0).1
    obtain ⟨-, hl, hm⟩ := h3 h0 rfl
    subst hl
    refine ⟨hm, text, n, ?_⟩
    obtain ⟨c, l, m2, h6, -, -, -, h7⟩ := C32_dump_protocol gen p text n hg buffer ((utf8 text).length + 1) m
    obtain ⟨hc, hl, h8, h9, -⟩ := h7 h0 hb (Nat.le_refl _)
    subst hc; subst hl
    exact ⟨m2, rfl, rfl, h6, h8, h9⟩

/-- The reported length is not enough for the second call. -/
theorem C32_reported_length_is_short {gen : NM → Program → Option (Str × NM)} {p : Program} {len0 len : Nat} {m m' : Mem}
    (h : dumpToString gen p 0 len0 m = some (.success, len, m')) {buffer : Nat} (hb : buffer ≠ 0) :
    dumpToString gen p buffer len m = some (.insufficientBufferLength, len, m) := by
  obtain ⟨-, text, n, -, hg, hl, -⟩ := C32_two_calls h hb
  have h0 : 0 ∉ utf8 text := by
    obtain ⟨c, l, m1, h1, h2, -⟩ := C32_dump_protocol gen p text n hg 0 len0 m
    rw [h] at h1
    cases h1
    exact fun h0 => by cases (h2 h0).1
  obtain ⟨c, l, m1, h1, -, -, h4, -⟩ := C32_dump_protocol gen p text n hg buffer len m
  obtain ⟨rfl, rfl, rfl⟩ := h4 h0 hb (by omega)
  exact h1

/-- A case for C32: the program of the names example. -/
example : ∃ p len m', (Program.new Ids.init).run (twoNames (some ['%', 'x']) none) = some p ∧
    dumpToString koopaGenerate p 0 0 (fun _ => 7) = some (.success, len, m') ∧ len = 57 := by
  obtain ⟨p, n, h1, h2⟩ := prints_iff (ops := twoNames (some ['%', 'x']) none)
    (s := "fun @f() {\n%x:\n  %x = alloc i32\n  %0 = alloc i32\n  ret\n}\n") (by decide +kernel)
  obtain ⟨c, l, m1, h3, h4, h5, -⟩ := C32_dump_protocol koopaGenerate p _ n h2 0 0 (fun _ => 7)
  have h6 : 0 ∉ utf8 "fun @f() {\n%x:\n  %x = alloc i32\n  %0 = alloc i32\n  ret\n}\n".toList := by decide +kernel
  obtain ⟨rfl, rfl, rfl⟩ := h5 h6 rfl
  exact ⟨p, _, _, h1, h3, by decide +kernel⟩

end Koopa
