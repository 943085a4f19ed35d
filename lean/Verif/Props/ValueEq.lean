import Verif.Lemmas.Uses
import Verif.Model.History
/-!
C09: structural comparison of values.
-/
namespace Koopa
open Spec

/-- The instruction with all operands blanked out: operator, targets, callee, constants, indices and
the numbers of operands remain. -/
def shape : VKind → VKind
  | .aggregate es => .aggregate (es.map fun _ => 0)
  | .globalAlloc _ => .globalAlloc 0
  | .load _ => .load 0
  | .store _ _ => .store 0 0
  | .getPtr _ _ => .getPtr 0 0
  | .getElemPtr _ _ => .getElemPtr 0 0
  | .binary op _ _ => .binary op 0 0
  | .branch _ t f ta fa => .branch 0 t f (ta.map fun _ => 0) (fa.map fun _ => 0)
  | .jump t as => .jump t (as.map fun _ => 0)
  | .call f as => .call f (as.map fun _ => 0)
  | .ret v => .ret (v.map fun _ => 0)
  | k => k

/-- Specification: two values have the same type and shape, and so have their operands, all the way
down. -/
inductive Same (c : Ctx) : Value → Value → Prop where
  | mk {v w : Value} {x y : VData} : c.data v = some x → c.data w = some y → x.ty = y.ty →
      shape x.kind = shape y.kind →
      (∀ (i : Nat) (h : i < (operands x.kind).length) (h' : i < (operands y.kind).length),
        Same c (operands x.kind)[i] (operands y.kind)[i]) → Same c v w

/-- The data flow graph has no dangling operands and no cycles. -/
structure Acyclic (c : Ctx) (rank : Value → Nat) : Prop where
  closed : ∀ v x, c.data v = some x → ∀ u ∈ operands x.kind, ∃ y, c.data u = some y
  ranked : ∀ v x, c.data v = some x → ∀ u ∈ operands x.kind, rank u < rank v

theorem map_zero_eq_iff {l r : List Value} :
    l.map (fun _ => (0 : Nat)) = r.map (fun _ => 0) ↔ l.length = r.length := by
  constructor
  · intro h; simpa using congrArg List.length h
  · intro h
    rw [List.map_const', List.map_const', h]

theorem shape_length {k k' : VKind} (h : shape k = shape k') : (operands k).length = (operands k').length := by
  cases k <;> cases k' <;> simp_all [shape, operands, map_zero_eq_iff]
  case ret.ret v w => cases v <;> cases w <;> simp_all

theorem dataEqWith_eq (rec : Value → Value → Option Bool) (x y : VData) :
    dataEqWith rec x y = if x.ty = y.ty ∧ shape x.kind = shape y.kind then
      usesEq rec (operands x.kind) (operands y.kind) else some false := by
  obtain ⟨tx, nx, kx, ux⟩ := x
  obtain ⟨ty, ny, ky, uy⟩ := y
  unfold dataEqWith
  by_cases ht : tx = ty
  · subst ht
    rw [if_neg (fun h : tx ≠ tx => h rfl)]
    cases kx <;> cases ky <;> simp only [shape, operands, usesEq, reduceCtorEq, if_false, valueUses_eq, ne_eq,
      VKind.aggregate.injEq, VKind.integer.injEq, VKind.funcArgRef.injEq, VKind.blockArgRef.injEq,
      VKind.binary.injEq, VKind.branch.injEq, VKind.jump.injEq, VKind.call.injEq, VKind.ret.injEq,
      map_zero_eq_iff, and_true, true_and, if_true]
    case integer.integer l r => by_cases h : l = r <;> simp [h]
    case aggregate.aggregate l r => by_cases h : l.length = r.length <;> simp [h]
    case funcArgRef.funcArgRef l r => by_cases h : l = r <;> simp [h]
    case blockArgRef.blockArgRef l r => by_cases h : l = r <;> simp [h]
    case binary.binary l _ _ r _ _ => by_cases h : l = r <;> simp [h]
    case branch.branch a1 a2 a3 a4 a5 b1 b2 b3 b4 b5 =>
      by_cases h : a2 = b2 ∧ a3 = b3 ∧ a4.length = b4.length ∧ a5.length = b5.length
      · obtain ⟨rfl, rfl, h3, h4⟩ := h; simp [h3, h4]
      · rw [if_neg h, if_pos]
        rcases Decidable.em (a2 = b2) with h1 | h1
        · rcases Decidable.em (a3 = b3) with h2 | h2
          · rcases Decidable.em (a4.length = b4.length) with h3 | h3
            · exact .inr (.inr (.inr (fun h4 => h ⟨h1, h2, h3, h4⟩)))
            · exact .inr (.inr (.inl h3))
          · exact .inr (.inl h2)
        · exact .inl h1
    case jump.jump a1 a2 b1 b2 =>
      by_cases h1 : a1 = b1 <;> by_cases h2 : a2.length = b2.length <;> simp [h1, h2]
    case call.call a1 a2 b1 b2 =>
      by_cases h1 : a1 = b1 <;> by_cases h2 : a2.length = b2.length <;> simp [h1, h2]
    case ret.ret v w => cases v <;> cases w <;> simp [usesEq]
  · simp [ht]

/-- The loop over the operands, when every recursive comparison answers. -/
theorem usesEq_spec {rec : Value → Value → Option Bool} {P : Value → Value → Prop} :
    ∀ {l r : List Value}, l.length = r.length →
    (∀ a b, a ∈ l → b ∈ r → ∃ t, rec a b = some t ∧ (t = true ↔ P a b)) →
    ∃ t, usesEq rec l r = some t ∧
      (t = true ↔ ∀ (i : Nat) (h : i < l.length) (h' : i < r.length), P l[i] r[i])
  | [], [], _, _ => ⟨true, rfl, by simp⟩
  | a :: l, b :: r, hl, h => by
    obtain ⟨t, ht, hp⟩ := h a b (by simp) (by simp)
    obtain ⟨t', ht', hp'⟩ := usesEq_spec (l := l) (r := r) (by simpa using hl)
      (fun a b ha hb => h a b (by simp [ha]) (by simp [hb]))
    cases t with
    | false =>
      refine ⟨false, by simp [usesEq, ht], ?_⟩
      simp only [Bool.false_eq_true, false_iff]
      intro hall
      have := hp.2 (hall 0 (by simp) (by simp))
      cases this
    | true =>
      refine ⟨t', by simp [usesEq, ht, ht'], hp'.trans ⟨fun hall i h1 h2 => ?_, fun hall i h1 h2 => ?_⟩⟩
      · cases i with
        | zero => exact hp.1 rfl
        | succ i => exact hall i (by simpa using h1) (by simpa using h2)
      · exact hall (i + 1) (by simpa using h1) (by simpa using h2)
  | [], _ :: _, hl, _ => by simp at hl
  | _ :: _, [], hl, _ => by simp at hl

/-- C09, decision: on every acyclic graph the comparison of live values terminates (any sufficient
recursion bound gives the same answer) and decides structural sameness. -/
theorem C09_value_eq_decides {c : Ctx} {rank : Value → Nat} (ha : Acyclic c rank) :
    ∀ (fuel : Nat) (v w : Value), rank v < fuel → (c.data v).isSome → (c.data w).isSome →
      ∃ b, c.valueEq fuel v w = some b ∧ (b = true ↔ Same c v w)
  | 0, v, w, hf, _, _ => by omega
  | fuel + 1, v, w, hf, hv, hw => by
    obtain ⟨x, hx⟩ := Option.isSome_iff_exists.1 hv
    obtain ⟨y, hy⟩ := Option.isSome_iff_exists.1 hw
    simp only [Ctx.valueEq, hx, hy, dataEqWith_eq]
    by_cases hs : x.ty = y.ty ∧ shape x.kind = shape y.kind
    · rw [if_pos hs]
      obtain ⟨t, ht, hp⟩ := usesEq_spec (rec := c.valueEq fuel) (P := Same c) (shape_length hs.2)
        (fun a b hla hrb => by
          obtain ⟨xa, hxa⟩ := ha.closed v x hx a hla
          obtain ⟨yb, hyb⟩ := ha.closed w y hy b hrb
          have := ha.ranked v x hx a hla
          exact C09_value_eq_decides ha fuel a b (by omega) (by simp [hxa]) (by simp [hyb]))
      refine ⟨t, ht, hp.trans ⟨fun h => .mk hx hy hs.1 hs.2 h, fun h => ?_⟩⟩
      cases h with
      | mk h1 h2 _ _ h5 =>
        have := Option.some.inj (hx.symm.trans h1); subst this
        have := Option.some.inj (hy.symm.trans h2); subst this
        exact h5
    · rw [if_neg hs]
      refine ⟨false, rfl, ?_⟩
      simp only [Bool.false_eq_true, false_iff]
      intro h
      cases h with
      | mk h1 h2 h3 h4 _ =>
        have := Option.some.inj (hx.symm.trans h1); subst this
        have := Option.some.inj (hy.symm.trans h2); subst this
        exact hs ⟨h3, h4⟩

theorem Same.refl {c : Ctx} {rank : Value → Nat} (ha : Acyclic c rank) :
    ∀ (n : Nat) (v : Value), rank v < n → (c.data v).isSome → Same c v v
  | 0, v, h, _ => by omega
  | n + 1, v, h, hv => by
    obtain ⟨x, hx⟩ := Option.isSome_iff_exists.1 hv
    refine .mk hx hx rfl rfl (fun i h1 _ => ?_)
    have hm := List.getElem_mem h1
    obtain ⟨y, hy⟩ := ha.closed v x hx _ hm
    have := ha.ranked v x hx _ hm
    exact Same.refl ha n _ (by omega) (by simp [hy])

theorem Same.symm {c : Ctx} {v w : Value} (h : Same c v w) : Same c w v := by
  induction h with
  | mk h1 h2 h3 h4 _ ih => exact .mk h2 h1 h3.symm h4.symm (fun i a b => ih i b a)

theorem Same.trans {c : Ctx} {v w : Value} (h : Same c v w) : ∀ {u : Value}, Same c w u → Same c v u := by
  induction h with
  | mk h1 h2 h3 h4 _ ih =>
    intro u hu
    cases hu with
    | mk g1 g2 g3 g4 g5 =>
      have := Option.some.inj (h2.symm.trans g1); subst this
      exact .mk h1 g2 (h3.trans g3) (h4.trans g4)
        (fun i a b => ih i a (by rw [← shape_length h4]; exact a) (g5 i (by rw [← shape_length h4]; exact a) b))

theorem Same.live {c : Ctx} {v w : Value} (h : Same c v w) : (c.data v).isSome ∧ (c.data w).isSome := by
  cases h with | mk h1 h2 _ _ _ => simp [h1, h2]

/-- `value_eq(v, w)` returns `true`. -/
def Ctx.ReturnsTrue (c : Ctx) (v w : Value) : Prop := ∃ fuel, c.valueEq fuel v w = some true

/-- C09: on every acyclic graph `value_eq` is reflexive, symmetric and transitive, and values that
compare equal have the same type and shape, and so have their operands (`Same`). -/
theorem C09_value_eq_equivalence {c : Ctx} {rank : Value → Nat} (ha : Acyclic c rank) :
    (∀ v, (c.data v).isSome → c.ReturnsTrue v v) ∧
    (∀ v w, c.ReturnsTrue v w → c.ReturnsTrue w v) ∧
    (∀ u v w, c.ReturnsTrue u v → c.ReturnsTrue v w → c.ReturnsTrue u w) ∧
    (∀ v w, c.ReturnsTrue v w → Same c v w) := by
  -- the answer `true` at any bound means sameness
  have hsound : ∀ (fuel : Nat) (v w : Value), c.valueEq fuel v w = some true → Same c v w := by
    intro fuel
    induction fuel with
    | zero => intro v w h; cases h
    | succ fuel ih =>
      intro v w h
      simp only [Ctx.valueEq] at h
      split at h
      · rename_i x y hx hy
        rw [dataEqWith_eq] at h
        split at h
        · rename_i hs
          refine .mk hx hy hs.1 hs.2 ?_
          have hu : ∀ (l r : List Value), usesEq (c.valueEq fuel) l r = some true →
              ∀ (i : Nat) (h : i < l.length) (h' : i < r.length), Same c l[i] r[i] := by
            intro l
            induction l with
            | nil => intro r _ i h; simp at h
            | cons a l ihl =>
              intro r hr i h1 h2
              cases r with
              | nil => simp at h2
              | cons b r =>
                simp only [usesEq] at hr
                split at hr
                · rename_i hab
                  cases i with
                  | zero => exact ih a b hab
                  | succ i => exact ihl r hr i (by simpa using h1) (by simpa using h2)
                · cases hr
                · cases hr
          exact hu _ _ h
        · cases h
      · cases h
  have hcomplete : ∀ v w, Same c v w → c.ReturnsTrue v w := by
    intro v w h
    obtain ⟨b, hb, hs⟩ := C09_value_eq_decides ha (rank v + 1) v w (by omega) h.live.1 h.live.2
    rw [hs.2 h] at hb
    exact ⟨_, hb⟩
  have hs : ∀ v w, c.ReturnsTrue v w → Same c v w := fun v w h => by
    obtain ⟨f, hf⟩ := h; exact hsound f v w hf
  exact ⟨fun v hv => hcomplete v v (Same.refl ha _ v (Nat.lt_succ_self _) hv),
    fun v w h => hcomplete _ _ (hs _ _ h).symm,
    fun u v w h h' => hcomplete _ _ ((hs _ _ h).trans (hs _ _ h')), hs⟩

/-- Constants 1, 1, 2 and sums of the first with the third and of the second with the third. -/
def eqSample : Ctx :=
  { g := .empty
    d := { bbs := .empty, values := ⟨[(10, VData.new .i32 (.integer 1)), (11, VData.new .i32 (.integer 1)),
      (12, VData.new .i32 (.integer 2)), (13, VData.new .i32 (.binary .add 10 12)),
      (14, VData.new .i32 (.binary .add 11 12)), (15, VData.new .i32 (.binary .sub 11 12))]⟩ } }

/-- The hypotheses hold for the sample, where distinct values compare equal and others do not. -/
example : Acyclic eqSample id ∧ eqSample.valueEq 20 13 14 = some true ∧ eqSample.valueEq 20 14 15 = some false := by
  have hd : ∀ v x, eqSample.data v = some x → (v = 10 ∨ v = 11 ∨ v = 12) ∧ operands x.kind = [] ∨
      (v = 13 ∨ v = 14 ∨ v = 15) ∧ (operands x.kind = [10, 12] ∨ operands x.kind = [11, 12]) := by
    intro v x h
    simp only [Ctx.data, eqSample, Map.get?_empty] at h
    have hm := Map.mem_of_lookup h
    simp at hm
    rcases hm with ⟨rfl, rfl⟩ | ⟨rfl, rfl⟩ | ⟨rfl, rfl⟩ | ⟨rfl, rfl⟩ | ⟨rfl, rfl⟩ | ⟨rfl, rfl⟩ <;>
      simp [VData.new, operands]
  refine ⟨⟨fun v x h u hu => ?_, fun v x h u hu => ?_⟩, by decide, by decide⟩
  · rcases hd v x h with ⟨_, h1⟩ | ⟨_, h1 | h1⟩ <;> rw [h1] at hu <;> simp at hu
    · rcases hu with rfl | rfl <;> exact ⟨_, rfl⟩
    · rcases hu with rfl | rfl <;> exact ⟨_, rfl⟩
  · rcases hd v x h with ⟨_, h1⟩ | ⟨h0, h1 | h1⟩ <;> rw [h1] at hu <;> simp at hu <;> simp only [id] <;> omega

/-- Replacement can create a cycle, on which the comparison never returns (stack overflow): two sums
that are each other's operands. -/
theorem C09_diverges_on_cycle : ∃ p fd, Reach (fun _ _ => True) p ∧ p.funcs.get? 1 = some fd ∧
    ∀ fuel, (p.ctx fd).valueEq fuel 0x40000001 0x40000001 = none := by
  let ops : List Op := [ .newFuncDef ['@', 'f'] [] .unit, .newLocal 1 (.val (.integer 1)),
    .newLocal 1 (.binary .add 0x40000000 0x40000000), .newLocal 1 (.binary .add 0x40000001 0x40000000),
    .replaceLocal 1 0x40000001 (.binary .add 0x40000002 0x40000000) ]
  have h1 : (((Program.new Ids.init).run ops).bind fun p => (p.funcs.get? 1).map fun fd =>
    (((p.ctx fd).data 0x40000001).map (fun x => x.kind), ((p.ctx fd).data 0x40000002).map (fun x => x.kind))) =
    some (some (.binary .add 0x40000002 0x40000000), some (.binary .add 0x40000001 0x40000000)) := by decide
  obtain ⟨p, hp, h1⟩ := Option.bind_eq_some_iff.1 h1
  obtain ⟨fd, hf, h1⟩ := Option.map_eq_some_iff.1 h1
  simp only [Prod.mk.injEq, Option.map_eq_some_iff] at h1
  obtain ⟨⟨x, hx, hxk⟩, ⟨y, hy, hyk⟩⟩ := h1
  refine ⟨p, fd, Reach.run ops (.init _ (Nat.le_refl _) (Nat.le_refl _)) (fun _ _ _ => trivial) hp, hf, ?_⟩
  have key : ∀ fuel, (p.ctx fd).valueEq fuel 0x40000001 0x40000001 = none ∧
      (p.ctx fd).valueEq fuel 0x40000002 0x40000002 = none := by
    intro fuel
    induction fuel with
    | zero => exact ⟨rfl, rfl⟩
    | succ n ih =>
      constructor
      · simp only [Ctx.valueEq, hx, dataEqWith_eq, and_self, if_true, hxk, operands, usesEq, ih.2]
      · simp only [Ctx.valueEq, hy, dataEqWith_eq, and_self, if_true, hyk, operands, usesEq, ih.1]
  exact fun fuel => (key fuel).1

end Koopa
