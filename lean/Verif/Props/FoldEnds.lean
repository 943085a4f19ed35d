import Verif.Props.OptParams
/-!
C67: constant folding ends, and panics exactly at some operations.
-/
namespace Koopa
open Spec ConstFold

/-- The number is an `i32`. -/
def Spec.FitsI32 (x : Int) : Prop := -2147483648 ≤ x ∧ x ≤ 2147483647

/-- The operations on two constants that panic: in every build the quotient and the remainder of the least number by `-1`; with overflow checks
also results and shift amounts out of range. A division by zero does not panic. -/
def Spec.OpPanics (chk : Bool) (op : BinOp) (i j : I32) : Prop :=
  match op with
  | .add => chk = true ∧ ¬ FitsI32 (i.toInt + j.toInt)
  | .sub => chk = true ∧ ¬ FitsI32 (i.toInt - j.toInt)
  | .mul => chk = true ∧ ¬ FitsI32 (i.toInt * j.toInt)
  | .div | .mod => i.toInt = -2147483648 ∧ j.toInt = -1
  | .shl | .shr | .sar => chk = true ∧ (j.toInt < 0 ∨ 32 ≤ j.toInt)
  | _ => False

/-- Function `f` contains an operation at which constant folding panics: on an undefined operand, or on two constants. -/
def Spec.FoldStuck (chk : Bool) (p : Program) (f : Func) : Prop :=
  ∃ v x op a b y z, LocalVal p f v x ∧ x.kind = .binary op a b ∧ LocalVal p f a y ∧ LocalVal p f b z ∧
    (y.kind = .undef ∨ z.kind = .undef ∨ ∃ i j, y.kind = .integer i ∧ z.kind = .integer j ∧ OpPanics chk op i j)

theorem fits_iff (x : Int) : (BitVec.ofInt 32 x).toInt = x ↔ FitsI32 x := by
  rw [BitVec.toInt_ofInt]
  unfold FitsI32 Int.bmod
  dsimp only
  split <;> omega

theorem checked_none {chk : Bool} {x : Int} : Interp.checked chk x = none ↔ chk = true ∧ ¬ FitsI32 x := by
  unfold Interp.checked
  rw [← fits_iff]
  split
  · rename_i h; exact ⟨fun _ => h, fun _ => rfl⟩
  · rename_i h; exact ⟨fun e => (by cases e), fun e => absurd e h⟩

theorem shiftBy_none {chk : Bool} {j : I32} : Interp.shiftBy chk j = none ↔ chk = true ∧ (j.toInt < 0 ∨ 32 ≤ j.toInt) := by
  have hj : ¬ j.toNat < 32 ↔ (j.toInt < 0 ∨ 32 ≤ j.toInt) := by
    have := j.isLt
    rw [BitVec.toInt_eq_toNat_cond]
    split <;> omega
  unfold Interp.shiftBy
  rw [← hj]
  split
  · rename_i h; exact ⟨fun _ => h, fun _ => rfl⟩
  · rename_i h; exact ⟨fun e => (by cases e), fun e => absurd e h⟩

theorem toInt_fits (i : I32) : FitsI32 i.toInt := by
  rw [← fits_iff, BitVec.ofInt_toInt]

theorem tdiv_fits {i j : I32} (hj : j.toInt ≠ 0) : ¬ FitsI32 (i.toInt.tdiv j.toInt) ↔ i.toInt = -2147483648 ∧ j.toInt = -1 := by
  have h1 := toInt_fits i
  have h2 := toInt_fits j
  generalize i.toInt = x at *
  generalize j.toInt = y at *
  constructor
  · intro h
    by_cases hy : y = -1
    · subst hy
      refine ⟨?_, rfl⟩
      have : x.tdiv (-1) = -x := by rw [Int.tdiv_neg, Int.tdiv_one]
      rw [this] at h
      unfold FitsI32 at h h1
      omega
    · exfalso
      by_cases hy1 : y = 1
      · subst hy1; rw [Int.tdiv_one] at h; exact h h1
      apply h
      have ha : (x.tdiv y).natAbs = x.natAbs / y.natAbs := Int.natAbs_tdiv ..
      have hb : x.natAbs / y.natAbs ≤ x.natAbs / 2 := Nat.div_le_div_left (by omega) (by omega)
      unfold FitsI32 at h1 ⊢
      omega
  · rintro ⟨rfl, rfl⟩
    unfold FitsI32
    decide

theorem toInt_eq_iff {i : I32} {n : Int} (h : FitsI32 n) : i.toInt = n ↔ i = BitVec.ofInt 32 n := by
  constructor
  · intro e; rw [← e, BitVec.ofInt_toInt]
  · rintro rfl; exact (fits_iff n).2 h

/-- Folding two constants panics exactly at these operations. -/
theorem foldOp_none {chk : Bool} {op : BinOp} {i j : I32} : foldOp chk op i j = none ↔ OpPanics chk op i j := by
  have hmin : i.toInt = -2147483648 ↔ i = BitVec.intMin 32 := (toInt_eq_iff (by unfold FitsI32; omega)).trans (by
    have : BitVec.ofInt 32 (-2147483648) = BitVec.intMin 32 := by decide
    rw [this])
  have hone : j.toInt = -1 ↔ j = -1 := (toInt_eq_iff (by unfold FitsI32; omega)).trans (by
    have : BitVec.ofInt 32 (-1) = (-1 : I32) := by decide
    rw [this])
  have hzero : j.toInt = 0 ↔ j = 0 := (toInt_eq_iff (by unfold FitsI32; omega)).trans (by
    have : BitVec.ofInt 32 0 = (0 : I32) := by decide
    rw [this])
  have hdj : ¬ j ≠ 0 → ¬ (i.toInt = -2147483648 ∧ j.toInt = -1) := by
    intro h1 ⟨_, h2⟩
    have : j = 0 := Classical.not_not.1 h1
    rw [hzero.2 this] at h2; cases h2
  cases op <;> simp only [foldOp, OpPanics, Option.map_eq_none_iff, checked_none, shiftBy_none, reduceCtorEq]
  · split
    · rename_i h
      rw [Option.map_eq_none_iff, checked_none]
      exact (and_iff_right rfl).trans (tdiv_fits (fun e => h (hzero.1 e)))
    · rename_i h
      exact ⟨fun e => (by cases e), fun e => absurd e (hdj h)⟩
  · split
    · rename_i h
      rw [hmin, hone]
      split
      · rename_i h2; exact ⟨fun _ => h2, fun _ => rfl⟩
      · rename_i h2; exact ⟨fun e => (by cases e), fun e => absurd e h2⟩
    · rename_i h
      exact ⟨fun e => (by cases e), fun e => absurd e (hdj h)⟩

/-- What holds before every round: the operands of operations are values of the function, and operations are listed. -/
structure ConstFold.Steady (p : Program) (f : Func) : Prop where
  inv : CInv p
  proper : ParamsProper p f
  ops : ∀ v t m op a b, p.view.l f v = some (t, m, .binary op a b) → (∃ s, p.view.l f a = some s) ∧ ∃ s, p.view.l f b = some s
  listed : ∀ v t m op a b l, p.view.l f v = some (t, m, .binary op a b) → p.view.lay f = some l → ∃ bb, Listed l bb v

theorem Accepted.steady {w : World} {input : Str} {p : Program} (h : Accepted w input p) (f : Func) : Steady p f := by
  obtain ⟨gs, hg, -⟩ := C47_program_is_text h
  have hi := (h.items hg).1.cinv
  obtain ⟨vars, fns, A⟩ := h.fromText hg
  have hglob : ∀ v x op a b o, LocalVal p f v x → x.kind = .binary op a b → o ∈ operands x.kind → HasTy p f o .i32 → ∃ s, p.view.l f o = some s := by
    rintro v x op a b o hx hk ho ⟨z, hz | hz, ht⟩
    · exfalso
      have hnc := (h.whole f).globals v x.ty x.name x.kind (view_l_iff.2 ⟨x, hx, rfl⟩) o ho z.ty z.name z.kind (view_g_iff.2 ⟨z, hz, rfl⟩)
      rcases A.globalGood (A.usedGlobal hz) with hm | ⟨a, t, hc⟩
      · obtain ⟨z', i, hz', hk', -⟩ := h.tops.2 o hm
        have : z' = z := Option.some.inj (hz'.symm.trans hz)
        subst this
        have hT := hi.wellTyped.globals o z' hz
        rw [hk', ht] at hT
        cases hT
      · obtain ⟨t', k, ⟨z', hz', -, rfl⟩, hk', -⟩ := const_cases hc
        have : z' = z := Option.some.inj (hz'.symm.trans hz)
        subst this
        rw [hnc] at hk'; cases hk'
    · exact ⟨_, view_l_iff.2 ⟨z, hz, rfl⟩⟩
  refine ⟨hi, h.paramsProper f, ?_, ?_⟩
  · intro v t m op a b hv
    obtain ⟨x, hx, ex⟩ := view_l_iff.1 hv
    have hk : x.kind = .binary op a b := congrArg (·.2.2) ex
    have hT := hi.wellTyped.locals f v x hx
    have hty : HasTy p f a .i32 ∧ HasTy p f b .i32 := by
      rw [hk] at hT
      generalize x.ty = T at hT
      cases hT
      exact ⟨by assumption, by assumption⟩
    exact ⟨hglob v x op a b a hx hk (by rw [hk]; exact List.mem_cons_self ..) hty.1,
      hglob v x op a b b hx hk (by rw [hk]; exact List.mem_cons_of_mem _ (List.mem_cons_self ..)) hty.2⟩
  · intro v t m op a b l hv hl
    obtain ⟨x, ⟨fd, hf, hx⟩, ex⟩ := view_l_iff.1 hv
    have hk : x.kind = .binary op a b := congrArg (·.2.2) ex
    have hl' : l = fd.layout := by
      simp only [Program.view, hf, Option.map_some, Option.some.injEq] at hl
      exact hl.symm
    rcases A.localCases hf hx with ⟨i, e | e⟩ | ⟨bb, is, hb, hvi⟩ | e
    · rw [hk] at e; cases e
    · rw [hk] at e; cases e
    · exact ⟨bb, is, by rw [hl']; exact hb, hvi⟩
    · rw [hk] at e; cases e

/-- The replacements succeed. -/
theorem replaceAll_total {f : Func} : ∀ {ev : List (Value × Option I32 × BB)} {p : Program}, CInv p →
    (∀ v ans, Folded ev v ans → ∃ n k, p.view.l f v = some (.i32, n, k)) → ∃ p', replaceAll f ev p = some p'
  | [], p, _, _ => ⟨p, rfl⟩
  | (v, ans, bb) :: ev, p, hi, ht => by
    obtain ⟨n, k, he⟩ := ht v ans ⟨bb, by simp⟩
    obtain ⟨x, ⟨fd, hf, hx⟩, -⟩ := view_l_iff.1 he
    obtain ⟨data, hb, hk⟩ : ∃ data, (LocalInst.val (constOf ans)).build ((p.ctx fd).querier p.funcTys) = some data ∧ operands data.kind = [] ∧ targets data.kind = [] := by
      cases ans with
      | none => exact ⟨_, rfl, rfl, rfl⟩
      | some n => exact ⟨_, rfl, rfl, rfl⟩
    obtain ⟨c, hc⟩ := hi.inv.replace_total (data := data) hf hx (by rw [hk.1]; intro v hv; cases hv) (by rw [hk.2]; intro v hv; cases hv)
    have h1 : p.replaceLocal f v (.val (constOf ans)) = some (p.putCtx f fd c) := by
      simp only [Program.replaceLocal, Program.onDfg, hf, hb, hc, Option.bind_eq_bind, Option.bind_some]
    have hone : replaceAll f [(v, ans, bb)] p = some (p.putCtx f fd c) := by
      simp only [replaceAll, h1]
    have hr := replaceAll_spec hi (fun w a ⟨b, hm⟩ => ht w a ⟨b, by
      rcases List.mem_cons.1 hm with hm | hm
      · rw [hm]; simp
      · cases hm⟩) hone
    obtain ⟨p', hp'⟩ := replaceAll_total (ev := ev) hr.inv (fun w a ⟨b, hm⟩ => by
      by_cases hw : ∃ a', Folded [(v, ans, bb)] w a'
      · obtain ⟨a', hw⟩ := hw
        obtain ⟨a2, -, e⟩ := hr.folded w a' hw
        exact ⟨_, _, e⟩
      · rw [hr.other f w (fun _ a' h' => hw ⟨a', h'⟩)]
        exact ht w a ⟨b, by simp [hm]⟩)
    exact ⟨p', by simp only [replaceAll, h1]; exact hp'⟩

/-- Taking the instructions out of the layout succeeds. -/
theorem unlistAll_total {f : Func} : ∀ {ev : List (Value × Option I32 × BB)} {p : Program} {l : Layout}, CInv p → p.view.lay f = some l →
    (∀ v ans bb, (v, ans, bb) ∈ ev → bb ∈ l.bbs.map (·.1)) → ∃ p', unlistAll f ev p = some p'
  | [], p, _, _, _, _ => ⟨p, rfl⟩
  | (v, ans, bb) :: ev, p, l, hi, hl, hb => by
    obtain ⟨⟨bb', is⟩, hm, e⟩ := List.mem_map.1 (hb v ans bb (by simp))
    simp only at e
    subst e
    have hL := (hi.lays f l hl).1
    have his := hL.insts?_iff.2 hm
    obtain ⟨fd, hf, hfl⟩ := Option.map_eq_some_iff.1 (show (p.funcs.get? f).map _ = some l from hl)
    obtain ⟨⟨l1, ch⟩, h1, hkeys⟩ : ∃ r, l.removeInst bb' v = some r ∧ r.1.bbs.map (·.1) = l.bbs.map (·.1) := by
      unfold Layout.removeInst
      rw [his]
      dsimp only
      split
      · exact ⟨_, rfl, setInsts_keys ..⟩
      · exact ⟨_, rfl, rfl⟩
    have h2 : p.onLayout f (fun l => (l.removeInst bb' v).map (·.1)) = some { p with funcs := p.funcs.insert f { fd with layout := l1 } } := by
      unfold Program.onLayout
      subst hfl
      simp only [hf, h1, Option.bind_eq_bind, Option.bind_some, Option.map_some]
    have hi1 := hi.removeInst h2
    obtain ⟨l0, l2, e0, hs, hv⟩ := removeInst_view h2
    rw [hl] at e0; cases e0
    have hl2 : l2 = l1 := by
      unfold Layout.step at hs
      dsimp only at hs
      rw [h1] at hs
      cases hs; rfl
    subst hl2
    obtain ⟨p', hp'⟩ := unlistAll_total (ev := ev) (l := l2) hi1 (by rw [hv]; exact if_pos rfl) (fun w a b hm => by
      rw [show l2.bbs.map (·.1) = l.bbs.map (·.1) from hkeys]; exact hb w a b (by simp [hm]))
    exact ⟨p', by simp only [unlistAll, h2]; exact hp'⟩

theorem evaluated_none {chk : Bool} {fd : FData} : ∀ {vs : List Value}, evaluated chk fd vs = none ↔ ∃ v ∈ vs, foldValue chk fd v = none
  | [] => by simp [evaluated]
  | v :: vs => by
    unfold evaluated
    have ih := evaluated_none (chk := chk) (fd := fd) (vs := vs)
    split
    · rename_i h; exact ⟨fun _ => ⟨v, by simp, h⟩, fun _ => rfl⟩
    · rename_i h
      rw [ih]
      constructor
      · rintro ⟨w, hw, e⟩; exact ⟨w, by simp [hw], e⟩
      · rintro ⟨w, hw, e⟩
        rcases List.mem_cons.1 hw with rfl | hw
        · rw [h] at e; cases e
        · exact ⟨w, hw, e⟩
    · rename_i h
      rw [Option.map_eq_none_iff, ih]
      constructor
      · rintro ⟨w, hw, e⟩; exact ⟨w, by simp [hw], e⟩
      · rintro ⟨w, hw, e⟩
        rcases List.mem_cons.1 hw with rfl | hw
        · rw [h] at e; cases e
        · exact ⟨w, hw, e⟩

/-- One value panics exactly if it is a stuck operation. -/
theorem foldValue_none {chk : Bool} {p : Program} {f : Func} {fd : FData} (hS : Steady p f) (hf : p.funcs.get? f = some fd) (v : Value) :
    foldValue chk fd v = none ↔ ∃ x op a b y z, LocalVal p f v x ∧ x.kind = .binary op a b ∧ LocalVal p f a y ∧ LocalVal p f b z ∧
      (y.kind = .undef ∨ z.kind = .undef ∨ ∃ i j, y.kind = .integer i ∧ z.kind = .integer j ∧ OpPanics chk op i j) := by
  have hlay : p.view.lay f = some fd.layout := by simp [Program.view, hf]
  constructor
  · intro h
    unfold foldValue at h
    split at h
    · cases h
    · rename_i d hd
      split at h
      · rename_i op a b hk
        have hv : p.view.l f v = some (d.ty, d.name, .binary op a b) := by rw [← hk]; exact view_l_iff.2 ⟨d, ⟨fd, hf, hd⟩, rfl⟩
        obtain ⟨⟨s1, hs1⟩, s2, hs2⟩ := hS.ops v _ _ op a b hv
        obtain ⟨y, ⟨fd1, hf1, hy⟩, -⟩ := view_l_iff.1 hs1
        rw [hf] at hf1; cases hf1
        obtain ⟨z, ⟨fd2, hf2, hz⟩, -⟩ := view_l_iff.1 hs2
        rw [hf] at hf2; cases hf2
        refine ⟨d, op, a, b, y, z, ⟨fd, hf, hd⟩, hk, ⟨fd, hf, hy⟩, ⟨fd, hf, hz⟩, ?_⟩
        rw [hy, hz] at h
        dsimp only at h
        split at h
        · rename_i i j hi hj
          refine .inr (.inr ⟨i, j, hi, hj, ?_⟩)
          obtain ⟨bb, hb⟩ := hS.listed v _ _ op a b _ hv hlay
          have hp : fd.layout.parentBb v = some bb := ((hS.inv.lays f _ hlay).1.parent v bb).2 hb
          rw [hp] at h
          split at h
          · cases h
          · rename_i hno
            rw [← foldOp_none]
            cases he : foldOp chk op i j with
            | none => rfl
            | some ans => exact absurd rfl (hno ans bb he)
        · rename_i hu; exact .inl hu
        · rename_i _ hu _; exact .inr (.inl hu)
        · cases h
      · cases h
  · rintro ⟨x, op, a, b, y, z, hx, hk, hy, hz, h⟩
    unfold foldValue
    rw [local_get hf hx]
    dsimp only
    rw [hk]
    dsimp only
    rw [local_get hf hy, local_get hf hz]
    dsimp only
    rcases h with h | h | ⟨i, j, h1, h2, h3⟩
    · rw [h]
    · rw [h]
      split
      · rename_i e; cases e
      · rfl
      · rfl
      · rename_i h1 h2 h3; exact absurd rfl h2
    · rw [h1, h2]
      dsimp only
      rw [foldOp_none.2 h3]

/-- The number of instructions of `f`. -/
def Spec.instCount (p : Program) (f : Func) : Nat :=
  match p.funcs.get? f with
  | none => 0
  | some fd => (fd.layout.bbs.map (fun q => q.2.length)).sum

/-- Filtering makes the lists of instructions shorter. -/
theorem sum_filter_le (P : Value → Bool) : ∀ (L : List (BB × List Value)),
    ((L.map (fun q => (q.1, q.2.filter P))).map (fun q => q.2.length)).sum ≤ (L.map (fun q => q.2.length)).sum
  | [] => Nat.le_refl _
  | q :: L => by
    simp only [List.map_cons, List.sum_cons]
    exact Nat.add_le_add (List.length_filter_le ..) (sum_filter_le P L)

theorem sum_filter_lt (P : Value → Bool) : ∀ {L : List (BB × List Value)} {b : BB} {is : List Value} {v : Value}, (b, is) ∈ L → v ∈ is → P v = false →
    ((L.map (fun q => (q.1, q.2.filter P))).map (fun q => q.2.length)).sum < (L.map (fun q => q.2.length)).sum
  | q :: L, b, is, v, hm, hv, hP => by
    simp only [List.map_cons, List.sum_cons]
    rcases List.mem_cons.1 hm with rfl | hm
    · refine Nat.add_lt_add_of_lt_of_le ?_ (sum_filter_le P L)
      show (is.filter P).length < is.length
      refine Nat.lt_of_le_of_ne (List.length_filter_le ..) (fun e => ?_)
      rw [List.length_filter_eq_length_iff] at e
      rw [e v hv] at hP; cases hP
    · exact Nat.add_lt_add_of_le_of_lt (List.length_filter_le ..) (sum_filter_lt P hm hv hP)

/-- A round keeps what it needs, and takes instructions out if it says so. -/
theorem evalConst_steady {chk : Bool} {f : Func} {vs : List Value} {p p' : Program} {ch : Bool} (hS : Steady p f)
    (h : evalConst chk f vs p = some (p', ch)) : Steady p' f ∧ (ch = true → instCount p' f < instCount p f) ∧
      ∀ g, g ≠ f → p'.view.l g = p.view.l g ∧ p'.view.lay g = p.view.lay g := by
  have hlight := (evalConst_round hS.inv hS.proper h).light
  have hinv := (evalConst_round hS.inv hS.proper h).inv
  have hprop := (evalConst_round hS.inv hS.proper h).params
  unfold evalConst at h
  split at h
  · cases h
  · rename_i fd hf
    split at h
    · cases h
    · rename_i ev hev
      split at h
      · cases h
      · rename_i p1 h1
        simp only [Option.map_eq_some_iff, Prod.mk.injEq] at h
        obtain ⟨p2, h2, e, hch⟩ := h
        rw [e] at h2
        have hspec := evaluated_spec hev
        have hlayf : p.view.lay f = some fd.layout := by simp [Program.view, hf]
        have hr := replaceAll_spec hS.inv (fun v ans ⟨bb, hm⟩ => by
          obtain ⟨_, d, op, a, b, da, db, i, j, hd, hk, _⟩ := hspec v ans bb hm
          have hT := hS.inv.wellTyped.locals f v d ⟨fd, hf, hd⟩
          have ht : d.ty = .i32 := by
            rw [hk] at hT
            generalize d.ty = t at hT ⊢
            cases hT
            rfl
          exact ⟨d.name, d.kind, by rw [view_l_self hf, hd, ← ht]; rfl⟩) h1
        have hlay : p1.view.lay f = some fd.layout := by rw [hr.rest]; exact hlayf
        obtain ⟨l', hu⟩ := unlistAll_spec hr.inv hlay (fun v ans bb hm => by
          obtain ⟨_, d, op, a, b, da, db, i, j, _, _, _, _, _, _, _, hpb⟩ := hspec v ans bb hm
          exact .inl hpb) h2
        have hbb : l'.bbs = fd.layout.bbs.map (fun q => (q.1, q.2.filter (fun x => decide (x ∉ ev.map (·.1))))) := by
          obtain ⟨q, e1, e2⟩ := hu.bbs
          rw [e1, e2]
        have hl' : p'.view.lay f = some l' := by rw [hu.rest]; exact if_pos rfl
        have hvl : p'.view.l = p1.view.l := by rw [hu.rest]
        refine ⟨⟨hinv, hprop f hS.proper, ?_, ?_⟩, ?_, fun g hg => ⟨?_, ?_⟩⟩
        rotate_left 3
        · funext v
          rw [hvl, hr.other g v (fun e => absurd e hg)]
        · rw [hu.rest, hr.rest]; exact if_neg hg
        · have hlive : ∀ o, (∃ s, p.view.l f o = some s) → ∃ s, p'.view.l f o = some s := by
            rintro o ⟨s, hs⟩
            rcases hlight.l f o with e1 | ⟨_, _, _, _, _, ans, -, e1, -⟩
            · exact ⟨s, by rw [e1]; exact hs⟩
            · exact ⟨_, e1⟩
          intro v t m op a b hv
          rcases hlight.l f v with e1 | ⟨_, _, _, _, _, ans, -, e1, -⟩
          · rw [e1] at hv
            obtain ⟨h3, h4⟩ := hS.ops v t m op a b hv
            exact ⟨hlive a h3, hlive b h4⟩
          · rw [e1] at hv
            cases ans <;> cases hv
        · intro v t m op a b l hv hl
          rw [hl'] at hl; cases hl
          have hno : ∀ ans, ¬ Folded ev v ans := by
            intro ans hfo
            obtain ⟨ans', -, e1⟩ := hr.folded v ans hfo
            rw [hvl, e1] at hv
            cases ans' <;> cases hv
          rw [hvl, hr.other f v (fun _ => hno)] at hv
          obtain ⟨bb, is, hm, hvi⟩ := hS.listed v t m op a b _ hv hlayf
          refine ⟨bb, is.filter (fun x => decide (x ∉ ev.map (·.1))), ?_, List.mem_filter.2 ⟨hvi, ?_⟩⟩
          · rw [hbb]; exact List.mem_map.2 ⟨_, hm, rfl⟩
          · rw [decide_eq_true_eq]
            intro hm
            obtain ⟨⟨v', ans, bb'⟩, hm', rfl⟩ := List.mem_map.1 hm
            exact hno ans ⟨bb', hm'⟩
        · intro hc
          rw [hc] at hch
          obtain ⟨fd', hf', hfl⟩ := Option.map_eq_some_iff.1 (show (p'.funcs.get? f).map _ = some l' from hl')
          unfold instCount
          rw [hf, hf']
          dsimp only
          rw [show fd'.layout = l' from hfl, hbb]
          cases ev with
          | nil => cases hch
          | cons q ev =>
            obtain ⟨v, ans, bb⟩ := q
            obtain ⟨_, d, op, a, b, da, db, i, j, _, _, _, _, _, _, _, hpb⟩ := hspec v ans bb (by simp)
            obtain ⟨is, hm, hvi⟩ := ((hS.inv.lays f _ hlayf).1.parent v bb).1 hpb
            exact sum_filter_lt _ hm hvi (by simp)

/-- A round panics exactly if it meets a stuck operation. -/
theorem evalConst_none {chk : Bool} {f : Func} {vs : List Value} {p : Program} (hS : Steady p f) {fd : FData} (hf : p.funcs.get? f = some fd) :
    evalConst chk f vs p = none ↔ ∃ v ∈ vs, foldValue chk fd v = none := by
  rw [← evaluated_none]
  unfold evalConst
  rw [hf]
  dsimp only
  split
  · rename_i h; exact ⟨fun _ => h, fun _ => rfl⟩
  · rename_i ev hev
    refine ⟨fun h => ?_, fun h => (by rw [hev] at h; cases h)⟩
    exfalso
    have hspec := evaluated_spec hev
    have hlayf : p.view.lay f = some fd.layout := by simp [Program.view, hf]
    have ht : ∀ v ans, Folded ev v ans → ∃ n k, p.view.l f v = some (.i32, n, k) := by
      intro v ans ⟨bb, hm⟩
      obtain ⟨_, d, op, a, b, da, db, i, j, hd, hk, _⟩ := hspec v ans bb hm
      have hT := hS.inv.wellTyped.locals f v d ⟨fd, hf, hd⟩
      have ht : d.ty = .i32 := by
        rw [hk] at hT
        generalize d.ty = t at hT ⊢
        cases hT
        rfl
      exact ⟨d.name, d.kind, by rw [view_l_self hf, hd, ← ht]; rfl⟩
    obtain ⟨p1, h1⟩ := replaceAll_total hS.inv ht
    have hr := replaceAll_spec hS.inv ht h1
    obtain ⟨p2, h2⟩ := unlistAll_total (ev := ev) (l := fd.layout) hr.inv (by rw [hr.rest]; exact hlayf) (fun v ans bb hm => by
      obtain ⟨_, d, op, a, b, da, db, i, j, _, _, _, _, _, _, _, hpb⟩ := hspec v ans bb hm
      obtain ⟨is, hm, -⟩ := ((hS.inv.lays f _ hlayf).1.parent v bb).1 hpb
      exact List.mem_map.2 ⟨_, hm, rfl⟩)
    rw [h1] at h
    dsimp only at h
    rw [h2] at h
    cases h

/-- FoldRounds that each fold something. -/
inductive ConstFold.FoldRounds (chk : Bool) (f : Func) (ord : Order) : Program → Program → Prop where
  | refl {p : Program} : FoldRounds chk f ord p p
  | step {p q r : Program} : evalConst chk f (ord p) p = some (q, true) → FoldRounds chk f ord q r → FoldRounds chk f ord p r

/-- The order lists every value of `f`. -/
def ConstFold.ListsAll (ord : Order) (f : Func) : Prop := ∀ p v x, LocalVal p f v x → v ∈ ord p

theorem evalConst_stuck {chk : Bool} {f : Func} {ord : Order} {p : Program} (hS : Steady p f) (hf : ∃ fd, p.funcs.get? f = some fd) (ho : ListsAll ord f) :
    evalConst chk f (ord p) p = none ↔ FoldStuck chk p f := by
  obtain ⟨fd, hf⟩ := hf
  rw [evalConst_none hS hf]
  constructor
  · rintro ⟨v, -, h⟩
    exact ⟨v, (foldValue_none hS hf v).1 h⟩
  · rintro ⟨v, x, op, a, b, y, z, hx, h⟩
    exact ⟨v, ho p v x hx, (foldValue_none hS hf v).2 ⟨x, op, a, b, y, z, hx, h⟩⟩

theorem foldLoop_ends {chk : Bool} {f : Func} {ord : Order} (ho : ListsAll ord f) : ∀ {n : Nat} {p : Program}, Steady p f → (∃ fd, p.funcs.get? f = some fd) →
    instCount p f < n → (foldLoop chk f ord n p = none ↔ ∃ q, FoldRounds chk f ord p q ∧ FoldStuck chk q f)
  | 0, p, _, _, hn => absurd hn (Nat.not_lt_zero _)
  | n + 1, p, hS, hf, hn => by
    unfold foldLoop
    have hst := evalConst_stuck (chk := chk) hS hf ho
    split
    · rename_i h
      exact ⟨fun _ => ⟨p, .refl, hst.1 h⟩, fun _ => rfl⟩
    · rename_i p1 ch h
      obtain ⟨hS1, hlt, -⟩ := evalConst_steady hS h
      have hns : ¬ FoldStuck chk p f := fun e => by rw [hst.2 e] at h; cases h
      split
      · rename_i hc
        subst hc
        have hf1 : ∃ fd, p1.funcs.get? f = some fd := by
          obtain ⟨fd, hf⟩ := hf
          have h3 : p1.view.head f = p.view.head f := congrFun (evalConst_round hS.inv hS.proper h).light.head f
          simp only [Program.view, hf, Option.map_some] at h3
          obtain ⟨fd', h4, -⟩ := Option.map_eq_some_iff.1 h3
          exact ⟨fd', h4⟩
        rw [foldLoop_ends ho hS1 hf1 (by have := hlt rfl; omega)]
        constructor
        · rintro ⟨q, h1, h2⟩; exact ⟨q, .step h h1, h2⟩
        · rintro ⟨q, h1, h2⟩
          cases h1 with
          | refl => exact absurd h2 hns
          | step h3 h4 =>
            rw [h] at h3; cases h3
            exact ⟨q, h4, h2⟩
      · rename_i hc
        refine ⟨fun e => (by cases e), ?_⟩
        rintro ⟨q, h1, h2⟩
        cases h1 with
        | refl => exact absurd h2 hns
        | step h3 h4 => rw [h] at h3; cases h3; exact absurd rfl hc

theorem foldLoop_steady {chk : Bool} {f g : Func} {ord : Order} : ∀ {n : Nat} {p p' : Program}, Steady p f → Steady p g → foldLoop chk f ord n p = some p' →
    Steady p' g
  | 0, p, p', _, _, h => by cases h
  | n + 1, p, p', hS, hG, h => by
    unfold foldLoop at h
    split at h
    · cases h
    · rename_i p1 ch h1
      obtain ⟨hS1, -, ho⟩ := evalConst_steady hS h1
      have hG1 : Steady p1 g := by
        by_cases e : g = f
        · subst e; exact hS1
        · obtain ⟨e1, e2⟩ := ho g e
          refine ⟨hS1.inv, (evalConst_round hS.inv hS.proper h1).params g hG.proper, ?_, ?_⟩
          · rw [e1]; exact hG.ops
          · rw [e1, e2]; exact hG.listed
      split at h
      · exact foldLoop_steady hS1 hG1 h
      · cases h; exact hG1

/-- Folding the parameters keeps what the rounds need. -/
theorem ConstFold.Mid.steady {p q : Program} {f : Func} {fd : FData} {E : List (BB × Nat × VData)} (hi : CInv p) (hF : Foldable p f)
    (hf : p.funcs.get? f = some fd) (hS : Sound p f fd E) (hM : Mid p q f E) {g : Func} (hG : Steady p g) (hiq : CInv q) (hP : ParamsProper q g) : Steady q g := by
  have hlay : q.view.lay = p.view.lay := by rw [hM.rest]
  by_cases e : g = f
  · subst e
    have hback : ∀ v t m op a b, q.view.l g v = some (t, m, .binary op a b) → p.view.l g v = some (t, m, .binary op a b) := by
      intro v t m op a b hv
      by_cases hlt : p.ids.nextLocal ≤ v
      · obtain ⟨x, -, i, e⟩ := hM.copied v _ hlt hv
        cases e
      · by_cases hk : ∃ b nm ps i dc, (b, i, dc) ∈ E ∧ p.view.b g b = some (nm, ps) ∧ ps[i]? = some v
        · obtain ⟨b, nm, ps, i, dc, hE, hb, hx0⟩ := hk
          obtain ⟨ps', hb', hlen, hps⟩ := hM.blocks b nm ps hb
          rcases hps i v hx0 with ⟨e1, _⟩ | ⟨dc', z, e1, e2, e3, e4, e5, e6⟩
          · exact absurd hE (e1 dc)
          · obtain ⟨u0, du0, as0, a0, da0, k1, k2, k3, k4, k5, k6⟩ := hS.from_ b i dc' e1
            rw [e6, k6] at hv
            have : da0.kind = .binary op a _ := congrArg (·.2.2) (Option.some.inj hv)
            rw [this] at k5
            cases k5
        · rw [← hM.same v (by omega) (fun b nm ps i dc hE hb hx => hk ⟨b, nm, ps, i, dc, hE, hb, hx⟩)]
          exact hv
    have hlive : ∀ o, (∃ s, p.view.l g o = some s) → ∃ s, q.view.l g o = some s := by
      rintro o ⟨⟨t, n, k⟩, hs⟩
      obtain ⟨n', k', h1, -⟩ := hM.typesKept hi hF hf hS hs
      exact ⟨_, h1⟩
    refine ⟨hiq, hP, fun v t m op a b hv => ?_, fun v t m op a b l hv hl => ?_⟩
    · obtain ⟨h1, h2⟩ := hG.ops v t m op a b (hback v t m op a b hv)
      exact ⟨hlive a h1, hlive b h2⟩
    · exact hG.listed v t m op a b l (hback v t m op a b hv) (by rw [← hlay]; exact hl)
  · have hl : q.view.l g = p.view.l g := funext (fun v => hM.otherL g v e)
    refine ⟨hiq, hP, ?_, ?_⟩
    · rw [hl]; exact hG.ops
    · rw [hl, hlay]; exact hG.listed

theorem ConstFold.FoldPasses_steady {w : World} {input : Str} {p p' : Program} {chk : Bool} (ha : Accepted w input p) (h : FoldPasses chk p p') (g : Func) :
    Steady p' g := by
  induction h generalizing g with
  | refl => exact ha.steady g
  | @step _ p2 f _ _ _ _ _ h0 hb hus h ih =>
    obtain ⟨h1, h2, h3, -, -⟩ := FoldPasses_spec ha h0
    obtain ⟨j1, j2, -⟩ := FoldPasses_spec ha (.step h0 hb hus h)
    unfold runOn at h
    split at h
    · cases h
    · rename_i p1 hp1
      obtain ⟨k1, -, -, k4⟩ := foldLoop_spec h1 (h2 _) hp1
      have hF := k4.foldable (h3 f)
      obtain ⟨fd, E, hf, hS, hM, -, -⟩ := evalBbParams_mid k1 hF (hb p1) hus h
      exact hM.steady k1 hF hf hS (foldLoop_steady (ih f) (ih g) hp1) j1 (j2 g)

/-- C67: in an accepted program, of which any functions have been folded, the loop of constant folding takes at most as many rounds as the function has
instructions, and one more; it panics exactly if it comes to an operation on an undefined operand or to one that panics on its two constants. -/
theorem C67_fold_ends {w : World} {input : Str} {p0 p : Program} {f : Func} {fd : FData} {chk : Bool} {ord : Order} {n : Nat} (h : Accepted w input p0)
    (hp : FoldPasses chk p0 p) (hf : p.funcs.get? f = some fd) (ho : ListsAll ord f) (hn : instCount p f < n) :
    foldLoop chk f ord n p = none ↔ ∃ q, FoldRounds chk f ord p q ∧ FoldStuck chk q f :=
  foldLoop_ends ho (FoldPasses_steady h hp f) ⟨fd, hf⟩ hn

/-- The loop as such panics on no accepted program. -/
def FoldNeverPanics : Prop := ∀ (w : World) (input : Str) (p : Program) (f : Func) (fd : FData) (ord : Order) (n : Nat), Accepted w input p →
  p.funcs.get? f = some fd → ListsAll ord f → instCount p f < n → ∃ p', foldLoop false f ord n p = some p'

/-- No constant of `f` is undefined, and `f` does not divide. -/
def Spec.DividesNot (p : Program) (f : Func) : Prop :=
  ∀ v x, LocalVal p f v x → x.kind ≠ .undef ∧ ∀ op a b, x.kind = .binary op a b → op ≠ .div ∧ op ≠ .mod

theorem foldOp_value {chk : Bool} {op : BinOp} {i j : I32} {ans : Option I32} (h : foldOp chk op i j = some ans) (h1 : op ≠ .div) (h2 : op ≠ .mod) :
    ∃ n, ans = some n := by
  cases op <;> simp only [foldOp, Option.some.injEq, Option.map_eq_some_iff] at h <;>
    first
    | exact ⟨_, h.symm⟩
    | (obtain ⟨n, -, e⟩ := h; exact ⟨_, e.symm⟩)
    | exact absurd rfl h1
    | exact absurd rfl h2

theorem evalConst_dividesNot {chk : Bool} {f : Func} {vs : List Value} {p p' : Program} {ch : Bool} (hS : Steady p f) (hD : DividesNot p f)
    (h : evalConst chk f vs p = some (p', ch)) : DividesNot p' f := by
  unfold evalConst at h
  split at h
  · cases h
  · rename_i fd hf
    split at h
    · cases h
    · rename_i ev hev
      split at h
      · cases h
      · rename_i p1 h1
        simp only [Option.map_eq_some_iff, Prod.mk.injEq] at h
        obtain ⟨p2, h2, e, hch⟩ := h
        rw [e] at h2
        have hspec := evaluated_spec hev
        have hlayf : p.view.lay f = some fd.layout := by simp [Program.view, hf]
        have hr := replaceAll_spec hS.inv (fun v ans ⟨bb, hm⟩ => by
          obtain ⟨_, d, op, a, b, da, db, i, j, hd, hk, _⟩ := hspec v ans bb hm
          have hT := hS.inv.wellTyped.locals f v d ⟨fd, hf, hd⟩
          have ht : d.ty = .i32 := by
            rw [hk] at hT
            generalize d.ty = t at hT ⊢
            cases hT
            rfl
          exact ⟨d.name, d.kind, by rw [view_l_self hf, hd, ← ht]; rfl⟩) h1
        obtain ⟨l', hu⟩ := unlistAll_spec hr.inv (by rw [hr.rest]; exact hlayf) (fun v ans bb hm => by
          obtain ⟨_, d, op, a, b, da, db, i, j, _, _, _, _, _, _, _, hpb⟩ := hspec v ans bb hm
          exact .inl hpb) h2
        have hvl : p'.view.l = p1.view.l := by rw [hu.rest]
        intro v x hx
        have hv : p'.view.l f v = some x.shape := view_l_iff.2 ⟨x, hx, rfl⟩
        rw [hvl] at hv
        by_cases hfo : ∃ ans, Folded ev v ans
        · obtain ⟨ans, hfo⟩ := hfo
          obtain ⟨ans', ⟨bb, hm⟩, e1⟩ := hr.folded v ans hfo
          obtain ⟨_, d, op, a, b, da, db, i, j, hd, hk, _, _, _, _, hop, _⟩ := hspec v ans' bb hm
          obtain ⟨h3, h4⟩ := (hD v d ⟨fd, hf, hd⟩).2 op a b hk
          obtain ⟨n, rfl⟩ := foldOp_value hop h3 h4
          rw [e1] at hv
          have hk' : x.kind = .integer n := (congrArg (·.2.2) (Option.some.inj hv)).symm
          rw [hk']
          exact ⟨fun e => (by cases e), fun _ _ _ e => (by cases e)⟩
        · rw [hr.other f v (fun _ a h' => hfo ⟨a, h'⟩)] at hv
          obtain ⟨y, hy, e1⟩ := view_l_iff.1 hv
          have hk' : y.kind = x.kind := congrArg (·.2.2) e1
          rw [← hk']
          exact hD v y hy

/-- C67, without overflow checks: a function without undefined constants and without divisions is folded to the end. -/
theorem C67_fold_total_partial {w : World} {input : Str} {p0 p : Program} {f : Func} {fd : FData} {ord : Order} {n : Nat} (h : Accepted w input p0)
    (hp : FoldPasses false p0 p) (hf : p.funcs.get? f = some fd) (ho : ListsAll ord f) (hn : instCount p f < n) (hD : DividesNot p f) : ∃ p', foldLoop false f ord n p = some p' := by
  cases hl : foldLoop false f ord n p with
  | some p' => exact ⟨p', rfl⟩
  | none =>
    exfalso
    obtain ⟨q, hR, v, x, op, a, b, y, z, hx, hk, hy, hz, hs⟩ := (C67_fold_ends h hp hf ho hn).1 hl
    have hDq : DividesNot q f := by
      have hS := FoldPasses_steady h hp f
      clear hl hn hs hx hy hz hf hp h
      induction hR with
      | refl => exact hD
      | step h1 _ ih => exact ih (evalConst_dividesNot hS hD h1) (evalConst_steady hS h1).1
    rcases hs with hs | hs | ⟨i, j, -, -, hs⟩
    · exact (hDq a y hy).1 hs
    · exact (hDq b z hz).1 hs
    · obtain ⟨h1, h2⟩ := (hDq v x hx).2 op a b hk
      cases op <;> simp only [OpPanics, Bool.false_eq_true, false_and] at hs
      · exact h1 rfl
      · exact h2 rfl

/-- Folding the parameters panics at a block that has parameters and no users: it takes the constant that its users pass. -/
theorem evalBbParams_unused {f : Func} {n : Nat} {bs : List BB} {us : List Value → List Value} {p : Program} {fd : FData} {b : BB} {x : BData} (hus : us [] = [])
    (hf : p.funcs.get? f = some fd) (hb : b ∈ bs) (hx : fd.dfg.bbs.get? b = some x) (hu : x.usedBy = []) (hp : x.params ≠ []) :
    evalBbParams f n bs us p = none := by
  have hE : evalBbs (p.ctx fd) n fd us bs = none := by
    induction bs with
    | nil => cases hb
    | cons c bs ih =>
      unfold evalBbs
      rcases List.mem_cons.1 hb with rfl | hb
      · rw [hx]
        dsimp only
        have : evalParams (p.ctx fd) n fd b (us x.usedBy) (List.range x.params.length) = none := by
          rw [hu, hus]
          cases hps : x.params with
          | nil => exact absurd hps hp
          | cons v vs =>
            rw [List.length_cons, List.range_succ_eq_map]
            rfl
        rw [this]
      · split
        · exact ih hb
        · split
          · rfl
          · exact ih hb
          · rw [ih hb]; rfl
  unfold evalBbParams
  rw [hf]
  dsimp only
  rw [hE]

/-- The quotient is undefined, and then added to. -/
def quotientText : Str := "fun @main(): i32 {%e: %0 = div 1, 0 %1 = add %0, 1 ret %1}".toList

/-- The first function of the program is folded in `n` rounds, or not. -/
def foldCheck (done : Bool) (n : Nat) (p : Program) : Bool :=
  match p.funcs.keys with
  | [] => false
  | f :: _ => match p.funcs.get? f with
    | none => false
    | some _ => decide (instCount p f < n) && (foldLoop false f (plainOrders.values f) n p).isSome == done

theorem foldCheck_iff {done : Bool} {n : Nat} {p : Program} (h : foldCheck done n p = true) : ∃ f fd, p.funcs.get? f = some fd ∧ instCount p f < n ∧
    (foldLoop false f (plainOrders.values f) n p).isSome = done := by
  unfold foldCheck at h
  split at h
  · cases h
  · rename_i f _ _
    split at h
    · cases h
    · rename_i fd hf
      rw [Bool.and_eq_true, decide_eq_true_eq, beq_iff_eq] at h
      exact ⟨f, fd, hf, h.1, h.2⟩

theorem plain_listsAll (f : Func) : ListsAll (plainOrders.values f) f := by
  rintro p v x ⟨fd, hf, hx⟩
  show v ∈ ((p.funcs.get? f).map (·.dfg.values.keys)).getD []
  rw [hf]
  show v ∈ fd.dfg.values.keys
  rw [Map.mem_keys, hx]; rfl

/-- C67: without overflow checks the loop still panics, on a program that uses a quotient by zero. -/
theorem C67_violated : ¬ FoldNeverPanics := by
  intro hall
  obtain ⟨p, h, hq⟩ := acceptsWith_iff (input := quotientText) (q := foldCheck false 10) (by decide +kernel)
  obtain ⟨f, fd, hf, hn, hl⟩ := foldCheck_iff hq
  obtain ⟨p', hp'⟩ := hall _ _ _ f fd _ _ h hf (plain_listsAll f) hn
  rw [hp'] at hl; cases hl

/-- The entry has a parameter. -/
def entryText : Str := "fun @main(): i32 {%e(%x: i32): ret 0}".toList

/-- The first function of the program has a block with parameters that is not used. -/
def lonelyCheck (p : Program) : Bool :=
  match p.funcs.keys with
  | [] => false
  | f :: _ => match p.funcs.get? f with
    | none => false
    | some fd => fd.dfg.bbs.keys.any (fun b => match fd.dfg.bbs.get? b with
      | none => false
      | some x => x.usedBy.isEmpty && !x.params.isEmpty)

/-- C67: in some accepted program folding the parameters panics, whatever the orders and bounds. -/
theorem C67_params_panic : ∃ p f fd, Accepted someWorld entryText p ∧ p.funcs.get? f = some fd ∧ ∀ n bs us, (∀ b x, Block p f b x → b ∈ bs) → us [] = [] →
    evalBbParams f n bs us p = none := by
  obtain ⟨p, h, hq⟩ := acceptsWith_iff (input := entryText) (q := lonelyCheck) (by decide +kernel)
  unfold lonelyCheck at hq
  split at hq
  · cases hq
  · rename_i f _ _
    split at hq
    · cases hq
    · rename_i fd hf
      rw [List.any_eq_true] at hq
      obtain ⟨b, -, hb⟩ := hq
      split at hb
      · cases hb
      · rename_i x hx
        rw [Bool.and_eq_true] at hb
        refine ⟨p, f, fd, h, hf, fun n bs us hbs hus => evalBbParams_unused hus hf (hbs b x ⟨fd, hf, hx⟩) hx (List.isEmpty_iff.1 hb.1) (fun e => ?_)⟩
        rw [e] at hb; cases hb.2

/-- Operations on results of operations. -/
def plainFoldText : Str := "fun @main(%x: i32): i32 {%e: %0 = add 1, 2 %1 = mul %0, 4 %2 = shl %1, %x ret %2}".toList

/-- No value of the first function is undefined or a division. -/
def dividesNotCheck (p : Program) (f : Func) : Bool :=
  match p.funcs.get? f with
  | none => false
  | some fd => fd.dfg.values.keys.all (fun v => match fd.dfg.values.get? v with
    | none => true
    | some x => match x.kind with
      | .undef => false
      | .binary .div _ _ => false
      | .binary .mod _ _ => false
      | _ => true)

theorem dividesNotCheck_iff {p : Program} {f : Func} (h : dividesNotCheck p f = true) : DividesNot p f := by
  intro v x hx
  unfold dividesNotCheck at h
  split at h
  · cases h
  · rename_i fd hf
    rw [List.all_eq_true] at h
    have hv := local_get hf hx
    have := h v (by rw [Map.mem_keys, hv]; rfl)
    rw [hv] at this
    dsimp only at this
    refine ⟨fun e => ?_, fun op a b e => ⟨fun e1 => ?_, fun e1 => ?_⟩⟩
    · rw [e] at this; cases this
    · rw [e, e1] at this; cases this
    · rw [e, e1] at this; cases this

/-- The hypotheses of both theorems are met. -/
example : ∃ p f fd, Accepted someWorld plainFoldText p ∧ FoldPasses false p p ∧ p.funcs.get? f = some fd ∧ ListsAll (plainOrders.values f) f ∧ instCount p f < 10 ∧ DividesNot p f ∧
    0 < instCount p f := by
  obtain ⟨p, h, hq⟩ := acceptsWith_iff (input := plainFoldText) (q := fun p => match p.funcs.keys with
    | [] => false
    | f :: _ => (p.funcs.get? f).isSome && dividesNotCheck p f && decide (instCount p f = 4)) (by decide +kernel)
  split at hq
  · cases hq
  · rename_i f _ _
    simp only [Bool.and_eq_true, decide_eq_true_eq] at hq
    obtain ⟨⟨h1, h2⟩, h3⟩ := hq
    obtain ⟨fd, hf⟩ := Option.isSome_iff_exists.1 h1
    exact ⟨p, f, fd, h, .refl, hf, plain_listsAll f, by omega, dividesNotCheck_iff h2, by omega⟩

end Koopa
