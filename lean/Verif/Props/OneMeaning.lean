import Verif.Lemmas.Front.OneMeaning
import Verif.Lemmas.Same.Text
import Verif.Props.FrontCases
/-!
C54: a text means one program. The state that the driver starts in, that is the id counters and the numbers of earlier errors and
warnings, has no influence on what is read.
-/
namespace Koopa
open Spec Interp

/-- C54: if a text is accepted in two states of the process, then the two programs have the same globals, functions, blocks and
instructions at the same places, with the same types, operands and names. Only the handles may differ. -/
theorem C54_one_program (w w' : World) (input : Str) (p p' : Program) (h : Accepted w input p) (h' : Accepted w' input p') :
    SameText p p' ∧ SameNames p p' := by
  obtain ⟨gs, hgs, -⟩ := C47_program_is_text h
  obtain ⟨vars, fns, A⟩ := h.fromText hgs
  obtain ⟨vars', fns', A'⟩ := h'.fromText hgs
  obtain ⟨ts, -, hg⟩ := hgs
  exact one_meaning A A' (GProg.good hg)

/-- C54 for runs: functions at the same place have the same name and behave in the same way. -/
theorem C54_one_behaviour (w w' : World) (input : Str) (p p' : Program) (h : Accepted w input p) (h' : Accepted w' input p')
    (hs : ShortArrays p) : p'.funcLayout.length = p.funcLayout.length ∧ ∀ f f', SamePlace p p' f f' →
      (∃ fd fd', p.funcs.get? f = some fd ∧ p'.funcs.get? f' = some fd' ∧ fd'.name = fd.name) ∧ BehaveSame p p' f f' := by
  obtain ⟨gs, hgs, -⟩ := C47_program_is_text h
  obtain ⟨vars, fns, A⟩ := h.fromText hgs
  obtain ⟨vars', fns', A'⟩ := h'.fromText hgs
  obtain ⟨h1, h2⟩ := C54_one_program w w' input p p' h h'
  have hp := h.printable hs
  have hp' := h'.printable (h1.short hs (fun _ _ h => A'.isGlobal h) (fun _ _ _ h => A'.isLocal h))
  refine ⟨(all2_length h1.funcs).symm, fun f f' hff => ⟨?_, ?_⟩⟩
  · obtain ⟨i, a1, a2⟩ := id hff
    obtain ⟨_, b1, fd, fd', b2, b3, -⟩ := Raw.All2.get_left h1.funcs a1
    rw [a2] at b1; cases b1
    exact ⟨fd, fd', b2, b3, (h2.funcs f f' fd fd' hff b2 b3).symm⟩
  · exact (textMatch_ok hp hp' h1 (fun f f' fd fd' hff a1 a2 _ => h2.funcs f f' fd fd' hff a1 a2)).behaveSame hff

/-- Another state of the process. -/
def otherWorld : World := ⟨0, 7, ⟨40, localStart + 90, 20, 31⟩⟩

/-- The text is accepted in the state and the program passes the check. -/
def acceptsAt (w : World) (input : Str) (q : Program → Bool) : Bool :=
  match generate w input false with
  | some (some p, w') => decide (w'.ids.nextGlobal ≤ localStart) && q p
  | _ => false

theorem acceptsAt_iff {w : World} (hw : w.Ok) {input : Str} {q : Program → Bool} (h : acceptsAt w input q = true) :
    ∃ p, Accepted w input p ∧ q p = true := by
  unfold acceptsAt at h
  split at h
  · rename_i p w' hg
    rw [Bool.and_eq_true, decide_eq_true_eq] at h
    exact ⟨p, ⟨hw, w', hg, h.1⟩, h.2⟩
  · cases h

/-- A text in which `%x` is a parameter of the function and of a block. Walking back from the last block, the first block is met
first, so that the last block returns the parameter of the function. -/
def twoXText : Str := "fun @f(%x: i32): i32 {%e: br %x, %b(1), %c %b(%x: i32): jump %c %c: ret %x}".toList

/-- Block `j` of the only function ends with the return of the parameter of the function. -/
def returnsArg (p : Program) (j : Nat) : Bool :=
  match p.funcLayout with
  | [f] => match p.funcs.get? f with
    | some fd => match fd.layout.bbs[j]?, fd.params with
      | some (_, [u]), [a] => match fd.dfg.values.get? u with
        | some x => decide (x.kind = .ret (some a))
        | none => false
      | _, _ => false
    | none => false
  | _ => false


example : ∃ p p', Accepted someWorld twoXText p ∧ Accepted otherWorld twoXText p' ∧ returnsArg p 2 = true ∧ returnsArg p' 2 = true ∧
    p.funcLayout ≠ p'.funcLayout ∧ SameText p p' ∧ SameNames p p' := by
  obtain ⟨p, h, hq⟩ := acceptsWith_iff (input := twoXText) (q := fun p => returnsArg p 2 && decide (p.funcLayout = [3])) (by decide +kernel)
  obtain ⟨p', h', hq'⟩ := acceptsAt_iff (w := otherWorld) ⟨by decide, by decide⟩ (input := twoXText)
    (q := fun p => returnsArg p 2 && decide (p.funcLayout = [31])) (by decide +kernel)
  rw [Bool.and_eq_true, decide_eq_true_eq] at hq hq'
  exact ⟨p, p', h, h', hq.1, hq'.1, by rw [hq.2, hq'.2]; decide, C54_one_program _ _ _ _ _ h h'⟩

end Koopa
