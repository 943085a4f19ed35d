import Verif.Model.Examples.Interp
import Verif.Props.FrontCases
/-!
C40: passing block arguments in the interpreter.
-/
namespace Koopa
open Koopa.Spec Koopa.Interp

/-- `fr'` arises from `fr` by giving all parameters at once the values that their arguments have in `fr`. -/
def Spec.Simultaneous (value : Frame → Value → Option Val) (params args : List Value) (fr fr' : Frame) : Prop :=
  (∀ (i : Nat) q a, params[i]? = some q → args[i]? = some a → fr'.vals q = value fr a) ∧
  ∀ v, v ∉ params → fr'.vals v = fr.vals v

theorem evalValue_set {rt : Rt} {fr : Frame} {q a : Value} {x : Val} (h : a ≠ q) :
    evalValue rt (fr.set q x) a = evalValue rt fr a := by
  unfold evalValue Frame.set
  simp only [h, if_false]

theorem updateParams_spec {rt : Rt} : ∀ (ps as : List Value) {fr fr' : Frame},
    updateParams rt fr (ps.zip as) = some fr' → ps.Nodup →
    (∀ (i j : Nat) q, i < j → ps[i]? = some q → as[j]? ≠ some q) →
    Simultaneous (evalValue rt) ps as fr fr'
  | [], as, fr, fr', h, _, _ => by
    simp [updateParams] at h; subst h
    exact ⟨fun i q a hq => by simp at hq, fun v _ => rfl⟩
  | q :: ps, [], fr, fr', h, _, _ => by
    simp [updateParams] at h; subst h
    exact ⟨fun i q a _ ha => by simp at ha, fun v _ => rfl⟩
  | q :: ps, a :: as, fr, fr', h, hn, hc => by
    simp only [List.zip_cons_cons, updateParams] at h
    split at h
    · cases h
    · split at h
      · cases h
      · rename_i x hx
        obtain ⟨hq, hn⟩ := List.nodup_cons.1 hn
        have ih := updateParams_spec ps as h hn (fun i j r hij hi hj => by
          exact hc (i + 1) (j + 1) r (by omega) (by simpa using hi) (by simpa using hj))
        refine ⟨?_, ?_⟩
        · intro i r b hr hb
          cases i with
          | zero =>
            simp at hr hb; subst hr; subst hb
            rw [ih.2 q hq, hx]
            simp [Frame.set]
          | succ i =>
            simp at hr hb
            rw [ih.1 i r b hr hb]
            exact evalValue_set (fun e => hc 0 (i + 1) q (by omega) (by simp) (by simpa [← e] using hb))
        · intro v hv
          rw [List.mem_cons, not_or] at hv
          rw [ih.2 v hv.2]
          simp [Frame.set, hv.1]

/-- Missing for C40: arguments that are parameters of the same block at an earlier position; for these the
statement is false, see `C40_violated`.
Otherwise a transfer of control gives every parameter the value that its argument had before. -/
theorem C40_simultaneous_partial {rt : Rt} {fr fr' : Frame} {bb : BB} {b : BData}
    {args : List Value} (hb : fr.func.dfg.bbs.get? bb = some b) (h : passArgs rt fr bb args = some fr')
    (hn : b.params.Nodup) (hc : ∀ (i j : Nat) q, i < j → b.params[i]? = some q → args[j]? ≠ some q) :
    Simultaneous (evalValue rt) b.params args fr fr' := by
  unfold passArgs at h
  rw [hb] at h
  exact updateParams_spec _ _ h hn hc

/-- A function with one block of two parameters, for examples. -/
def twoParams : FData :=
  { ty := .func [] .i32, name := "@f".toList, params := [],
    dfg := { values := ⟨[(localStart, VData.new .i32 (.blockArgRef 0)), (localStart + 1, VData.new .i32 (.blockArgRef 1)),
               (localStart + 2, VData.new .i32 (.integer 7))]⟩,
             bbs := ⟨[(1, { name := none, params := [localStart, localStart + 1], usedBy := [] })]⟩ },
    layout := Layout.new }

/-- The hypotheses of `C40_simultaneous_partial` are met by passing the second parameter and a constant. -/
example : ∃ rt fr fr' b, fr.func.dfg.bbs.get? 1 = some b ∧ passArgs rt fr 1 [localStart + 1, localStart + 2] = some fr' ∧
    b.params.Nodup ∧ (∀ (i j : Nat) q, i < j → b.params[i]? = some q → [localStart + 1, localStart + 2][j]? ≠ some q) ∧
    fr.vals localStart ≠ fr'.vals localStart := by
  refine ⟨⟨Program.new Ids.init, fun _ => none, 1, 8, true⟩,
    ⟨twoParams, 0, fun w => if w = localStart then some (.int 3) else some (.int 4), []⟩, _, _, rfl, rfl, by decide, ?_, ?_⟩
  · intro i j q hij hi hj
    match i, j with
    | 0, 1 => simp [localStart] at hi hj; omega
    | 0, j + 2 => simp at hj
    | 1, j + 2 => simp at hj
    | i + 2, j => simp at hi
  · simp [Frame.set, localStart]

/-- An argument that is an earlier parameter of the same block gets the new value of that parameter: after
swapping two parameters by `b(y, x)` both have the old value of `y`. -/
theorem C40_swap {rt : Rt} {fr : Frame} {bb : BB} {b : BData} {x y : Value} {dx dy : VData}
    {vy : Val} (hb : fr.func.dfg.bbs.get? bb = some b) (hp : b.params = [x, y]) (hne : x ≠ y)
    (hx : isGlobal x = false ∧ fr.func.dfg.values.get? x = some dx ∧ dx.kind.isConst = false)
    (hy : isGlobal y = false ∧ fr.func.dfg.values.get? y = some dy ∧ dy.kind.isConst = false)
    (hvy : fr.vals y = some vy) :
    ∃ fr', passArgs rt fr bb [y, x] = some fr' ∧ fr'.vals x = some vy ∧ fr'.vals y = some vy := by
  refine ⟨(fr.set x vy).set y vy, ?_, ?_, ?_⟩
  · simp [passArgs, hb, hp, updateParams, evalValue, Frame.set, hx, hy, hvy]
  · simp [Frame.set, hne]
  · simp [Frame.set]

/-- A loop that swaps two parameters once. -/
def swapText : Str :=
  "fun @main(): i32 {%e: jump %b(1, 2, 1) %b(%x: i32, %y: i32, %n: i32): br %n, %c, %d %c: jump %b(%y, %x, 0) %d: ret %y}".toList

/-- No external functions. -/
def noLib : Lib Unit :=
  { call := fun _ _ _ _ => none, load := fun _ _ _ => .undef, store := fun _ _ _ _ => none,
    callExt := fun _ _ _ _ _ _ h => (by cases h), loadExt := fun _ _ _ => .undef }

/-- The interpreter ends with `n`. -/
def returnsCheck (n : I32) (p : Program) : Bool :=
  match interpret noLib true 10 8 10 p.funcs.keys p () with
  | .done (m, _) => m == n
  | _ => false

/-- C40 fails: in this program the swap passes `y = 2` and `x = 1`, so `y` becomes `1` and the result is `1`; the
interpreter returns `2`. -/
theorem C40_violated : ∃ p, Accepted someWorld swapText p ∧ ∃ w, interpret noLib true 10 8 10 p.funcs.keys p () = .done (2, w) := by
  obtain ⟨p, h, hq⟩ := acceptsWith_iff (input := swapText) (q := returnsCheck 2) (by decide +kernel)
  refine ⟨p, h, ?_⟩
  unfold returnsCheck at hq
  split at hq
  · rename_i m w hm
    exact ⟨w, by rw [hm, eq_of_beq hq]⟩
  · cases hq

end Koopa
