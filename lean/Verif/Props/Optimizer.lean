import Verif.Model.Examples.Opt
import Verif.Props.ParamFold
/-!
C64: the example optimizer.
-/
namespace Koopa
open Spec Interp

/-- The orders list what the maps and sets hold, and nothing twice. -/
structure Spec.OptOrders (o : Opt.Orders) : Prop where
  funcs : ∀ p f, f ∈ o.funcs p ↔ ∃ fd, p.funcs.get? f = some fd
  once : ∀ p, (o.funcs p).Nodup
  bbs : ∀ f p, (o.bbs f p).Nodup
  users : ∀ f l v, v ∈ o.users f l ↔ v ∈ l
  dce : ∀ f, (o.dce f).Ok f

theorem Opt.foldAll_passes {chk : Bool} {o : Opt.Orders} {n : Nat} (ho : OptOrders o) : ∀ {fs : List Func} {p0 p p' : Program}, FoldPasses chk p0 p →
    Opt.foldAll chk o n fs p = some p' → FoldPasses chk p0 p'
  | [], _, _, _, h0, h => by cases h; exact h0
  | f :: fs, p0, p, p', h0, h => by
    unfold Opt.foldAll at h
    split at h
    · cases h
    · rename_i p1 h1
      exact foldAll_passes ho (.step h0 (ho.bbs f) (ho.users f) h1) h

theorem Opt.dceAll_eliminates {o : Opt.Orders} {n : Nat} (ho : OptOrders o) : ∀ {fs : List Func} {st st' : Dce.St} {p p' : Program},
    Opt.dceAll o n fs st p = some (st', p') → Eliminates fs st p st' p'
  | [], _, _, _, _, h => by cases h; exact .nil
  | f :: fs, st, st', p, p', h => by
    unfold Opt.dceAll at h
    split at h
    · cases h
    · rename_i st1 p1 h1
      exact .cons (ho.dce f) h1 (dceAll_eliminates ho h)

theorem ConstFold.sane_of {p : Program} {f : Func} (hi : CInv p) (hF : ConstFold.Foldable p f) (hO : ConstFold.OnlyInsts p f) : Dce.Sane p f := by
  refine ⟨?_, ?_, ?_⟩
  · intro b n ps hb x hx t m k hk
    obtain ⟨_, _, i, e⟩ := hF.params b n ps hb x hx
    rw [hk] at e
    exact ⟨i, congrArg (·.2.2) (Option.some.inj e)⟩
  · rintro l b v hl ⟨is, hb, hv⟩
    exact hO l b is v hl hb hv
  · intro v t m c b b' ts fs hv
    obtain ⟨x, hx, e⟩ := view_l_iff.1 hv
    have := hi.wellTyped.locals f v x hx
    rw [show x.kind = .branch c b b' ts fs from congrArg (·.2.2) e] at this
    generalize x.ty = T at this
    cases this with
    | branch _ _ _ _ _ h => exact h

theorem ConstFold.CInv.dinv {p : Program} (h : CInv p) : DInv p := ⟨h.reach, h.max, fun g l hl => (h.lays g l hl).1⟩

theorem Spec.SameRuns.results {p p' : Program} {chk : Bool} (h : SameRuns p p' chk) : SameResults p p' chk :=
  fun σ lib depth ptrSize fuel ord w => ⟨(h σ lib depth ptrSize fuel ord w).1, (h σ lib depth ptrSize fuel ord w).2.2⟩

theorem Opt.optimize_spec {w : World} {input : Str} {p p' : Program} {chk : Bool} {o : Opt.Orders} {n : Nat} (ha : Accepted w input p) (ho : OptOrders o)
    (h : Opt.optimize chk o n p = some p') : ∃ p1, FoldPasses chk p p1 ∧ (∀ f fd, p1.funcs.get? f = some fd → Cleaned p1 p' f) ∧ SameRuns p p1 chk ∧
      SameResults p1 p' chk := by
  unfold Opt.optimize at h
  split at h
  · cases h
  · rename_i p1 h1
    obtain ⟨⟨st, p2⟩, h2, rfl⟩ := Option.map_eq_some_iff.1 h
    have hp := Opt.foldAll_passes ho .refl h1
    obtain ⟨k1, -, k3, k4, k5⟩ := ConstFold.FoldPasses_spec ha hp
    obtain ⟨e1, -, -, -, -, e2⟩ := Dce.eliminates_spec (Opt.dceAll_eliminates ho h2) (ho.once p1) (ConstFold.CInv.dinv k1)
      (fun g => ConstFold.sane_of k1 (k3 g) (k4 g)) (fun _ _ hu => by cases hu) rfl (fun _ _ _ hu => by cases hu)
    exact ⟨p1, hp, fun f fd hf => e1 f ((ho.funcs p1 f).2 ⟨fd, hf⟩), k5, e2 chk⟩

/-- C64: if a program from text ends with a result, then so does the program that the optimizer makes of it, with the same result; if it runs on, so does that program. -/
theorem C64_same_results {w : World} {input : Str} {p p' : Program} {chk : Bool} {o : Opt.Orders} {n : Nat} (ha : Accepted w input p) (ho : OptOrders o)
    (h : Opt.optimize chk o n p = some p') : SameResults p p' chk := by
  obtain ⟨p1, -, -, h1, h2⟩ := Opt.optimize_spec ha ho h
  exact h1.results.trans h2

/-- C64: of the folded program, exactly the needed instructions are left in every function. -/
theorem C64_cleaned {w : World} {input : Str} {p p' : Program} {chk : Bool} {o : Opt.Orders} {n : Nat} (ha : Accepted w input p) (ho : OptOrders o)
    (h : Opt.optimize chk o n p = some p') : ∃ p1, FoldPasses chk p p1 ∧ SameRuns p p1 chk ∧ ∀ f fd, p1.funcs.get? f = some fd → Cleaned p1 p' f := by
  obtain ⟨p1, h0, h1, h2, -⟩ := Opt.optimize_spec ha ho h
  exact ⟨p1, h0, h2, h1⟩

/-- Orders in which the model keeps things. -/
def plainOrders : Opt.Orders where
  funcs p := Dce.once p.funcs.keys
  values f q := ((q.funcs.get? f).map (·.dfg.values.keys)).getD []
  bbs f := blockOrder f
  users _ l := l
  dce f := keyOrders f

theorem plainOrders_ok : OptOrders plainOrders := by
  refine ⟨fun p f => ?_, fun p => Dce.once_nodup, fun f q => ?_, fun _ _ _ => Iff.rfl, fun f => keyOrders_ok f⟩
  · show f ∈ Dce.once p.funcs.keys ↔ _
    rw [Dce.mem_once, Map.mem_keys, Option.isSome_iff_exists]
  · show (blockOrder f q).Nodup
    unfold blockOrder
    dsimp only
    split
    · assumption
    · exact .nil

/-- Two functions. In the second one, folding gives `%a` a constant, and dead code elimination takes out `%b` with its arguments. -/
def optText : Str :=
  "fun @g(%y: i32): i32 {%e: %z = add 1, 2 ret %y} fun @main(): i32 {%e: %x = mul 2, 3 %d = alloc i32 %k = call @g(%x) br %k, %s, %t %s: jump %u(%x, 7) %t: jump %u(6, 8) %u(%a: i32, %b: i32): %c = mul %k, %a %q = add %c, %a ret %q}".toList

/-- The passes end; `n` instructions are listed before and `m` afterwards. -/
def optCheck (n m : Nat) (p : Program) : Bool :=
  match Opt.optimize true plainOrders 20 p with
  | some p' => (p.funcs.keys.flatMap (fun f => ((p.funcs.get? f).map (fun fd => fd.layout.bbs.flatMap (·.2))).getD [])).length == n &&
    (p'.funcs.keys.flatMap (fun f => ((p'.funcs.get? f).map (fun fd => fd.layout.bbs.flatMap (·.2))).getD [])).length == m
  | none => false

/-- The hypotheses are met: of eleven instructions, eight are left, and the result is `42` before and after. -/
example : ∃ p p', Accepted someWorld optText p ∧ OptOrders plainOrders ∧ Opt.optimize true plainOrders 20 p = some p' ∧ optCheck 11 8 p = true ∧
    ∃ w, interpret noLib true 10 8 20 p.funcs.keys p () = .done (42, w) := by
  obtain ⟨p, h, hq⟩ := acceptsWith_iff (input := optText) (q := fun p => optCheck 11 8 p && (match interpret noLib true 10 8 20 p.funcs.keys p () with
    | .done r => r.1 == 42 | _ => false)) (by decide +kernel)
  rw [Bool.and_eq_true] at hq
  obtain ⟨h1, h2⟩ := hq
  have h1' := h1
  unfold optCheck at h1
  split at h1
  · rename_i p' hp'
    refine ⟨p, p', h, plainOrders_ok, hp', h1', ?_⟩
    split at h2
    · rename_i r hr
      exact ⟨r.2, by rw [hr, ← eq_of_beq h2]⟩
    · cases h2
  · cases h1

end Koopa
