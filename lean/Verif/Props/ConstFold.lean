import Verif.Lemmas.Examples.ConstFold
import Verif.Props.Interp
import Verif.Lemmas.Front.BuildTotal
/-!
C37: constant folding agrees with execution.
-/
namespace Koopa
open Spec Interp ConstFold

/-- `n` is a truth value. -/
def Spec.Truth (P : Prop) (n : I32) : Prop := (P ∧ n.toInt = 1) ∨ (¬ P ∧ n.toInt = 0)

/-- `n` is the integer `x` reduced to 32 bits in two's complement. -/
def Spec.Wraps (x : Int) (n : I32) : Prop := n.toInt = x.bmod (2 ^ 32)

/-- What the operators mean on 32-bit integers. Shift amounts are taken modulo 32. -/
def Spec.Means (op : BinOp) (l r n : I32) : Prop :=
  match op with
  | .notEq => Truth (l.toInt ≠ r.toInt) n
  | .eq => Truth (l.toInt = r.toInt) n
  | .gt => Truth (r.toInt < l.toInt) n
  | .lt => Truth (l.toInt < r.toInt) n
  | .ge => Truth (r.toInt ≤ l.toInt) n
  | .le => Truth (l.toInt ≤ r.toInt) n
  | .add => Wraps (l.toInt + r.toInt) n
  | .sub => Wraps (l.toInt - r.toInt) n
  | .mul => Wraps (l.toInt * r.toInt) n
  | .div => r.toInt ≠ 0 ∧ n.toInt = l.toInt.tdiv r.toInt
  | .mod => r.toInt ≠ 0 ∧ n.toInt = l.toInt.tmod r.toInt
  | .and => ∀ i, n.getLsbD i = (l.getLsbD i && r.getLsbD i)
  | .or => ∀ i, n.getLsbD i = (l.getLsbD i || r.getLsbD i)
  | .xor => ∀ i, n.getLsbD i = (l.getLsbD i ^^ r.getLsbD i)
  | .shl => n.toNat = l.toNat * 2 ^ (r.toNat % 32) % 2 ^ 32
  | .shr => n.toNat = l.toNat / 2 ^ (r.toNat % 32)
  | .sar => n.toInt = l.toInt / 2 ^ (r.toNat % 32)

theorem ofBool_truth {b : Bool} {P : Prop} (h : b = true ↔ P) : Truth P (ofBool b) := by
  cases b with
  | true => exact .inl ⟨h.1 rfl, rfl⟩
  | false => exact .inr ⟨fun hp => (by cases h.2 hp), rfl⟩

theorem checked_wraps {chk : Bool} {x : Int} {n : I32} (h : checked chk x = some n) : Wraps x n := by
  unfold checked at h
  split at h
  · cases h
  · cases h
    unfold Wraps
    rw [BitVec.toInt_ofInt]

theorem checked_exact {x : Int} {n : I32} (h : checked true x = some n) : n.toInt = x := by
  unfold checked at h
  split at h
  · cases h
  · rename_i hc
    cases h
    simpa using hc

theorem shiftBy_eq {chk : Bool} {r : I32} {k : Nat} (h : shiftBy chk r = some k) : k = r.toNat % 32 := by
  unfold shiftBy at h
  split at h
  · cases h
  · cases h; rfl

theorem toInt_zero_iff {r : I32} : r.toInt ≠ 0 ↔ r ≠ 0 := by
  constructor
  · rintro h rfl; exact h rfl
  · intro h e
    exact h (BitVec.eq_of_toInt_eq (by rw [e]; rfl))

theorem tmod_fits {l r : I32} (hr : r ≠ 0) : (BitVec.ofInt 32 (l.toInt.tmod r.toInt)).toInt = l.toInt.tmod r.toInt := by
  rw [BitVec.toInt_ofInt]
  have h1 : r.toInt.natAbs ≤ 2 ^ 31 := by
    have := BitVec.toInt_lt (x := r); have := BitVec.le_toInt (x := r)
    omega
  have h0 : r.toInt ≠ 0 := toInt_zero_iff.2 hr
  have h2 : (l.toInt.tmod r.toInt).natAbs < r.toInt.natAbs := by
    rw [Int.natAbs_tmod]
    exact Nat.mod_lt _ (by omega)
  refine Int.bmod_eq_of_le ?_ ?_ <;> omega

/-- C37, operators: the constant that folding computes is the one that the operator means, and the one that the
interpreter computes. Folding gives up (`undef`) only for a division by zero, which has no result. -/
theorem C37_operators (chk : Bool) (op : BinOp) (l r : I32) :
    (∀ n, foldOp chk op l r = some (some n) → Means op l r n ∧ evalOp chk op l r = some n) ∧
    (foldOp chk op l r = some none → (∀ n, ¬ Means op l r n) ∧ evalOp chk op l r = none) := by
  obtain ⟨h1, h2⟩ := foldOp_evalOp chk op l r
  refine ⟨fun n h => ⟨?_, h1 n h⟩, fun h => ⟨?_, h2 h⟩⟩
  · cases op <;> simp only [foldOp, Option.map_eq_some_iff, Option.some.injEq, gt_iff_lt, ge_iff_le] at h <;> simp only [Means]
    case notEq =>
      subst h
      exact ofBool_truth (by rw [bne_iff_ne, ne_eq, ne_eq, BitVec.toInt_inj])
    case eq =>
      subst h
      exact ofBool_truth (by rw [beq_iff_eq, BitVec.toInt_inj])
    case div =>
      split at h
      · rename_i hr
        simp only [Option.map_eq_some_iff, Option.some.injEq] at h
        obtain ⟨a, ha, rfl⟩ := h
        exact ⟨toInt_zero_iff.2 hr, checked_exact ha⟩
      · cases h
    case mod =>
      split at h
      · rename_i hr
        split at h
        · cases h
        · cases h
          exact ⟨toInt_zero_iff.2 hr, tmod_fits hr⟩
      · cases h
    case and => subst h; intro i; exact BitVec.getLsbD_and
    case or => subst h; intro i; exact BitVec.getLsbD_or
    case xor => subst h; intro i; exact BitVec.getLsbD_xor
    case shl =>
      obtain ⟨k, hk, rfl⟩ := h
      rw [shiftBy_eq hk, BitVec.toNat_shiftLeft, Nat.shiftLeft_eq]
    case shr =>
      obtain ⟨k, hk, rfl⟩ := h
      rw [shiftBy_eq hk, BitVec.toNat_ushiftRight, Nat.shiftRight_eq_div_pow]
    case sar =>
      obtain ⟨k, hk, rfl⟩ := h
      rw [shiftBy_eq hk, BitVec.toInt_sshiftRight, Int.shiftRight_eq_div_pow]
      rfl
    all_goals first
      | (subst h; exact ofBool_truth decide_eq_true_iff)
      | (obtain ⟨a, ha, rfl⟩ := h; exact checked_wraps ha)
  · cases op <;> simp only [foldOp, Option.map_eq_some_iff, Option.some.injEq, reduceCtorEq, and_false, exists_false] at h
    · split at h
      · simp at h
      · rename_i hr
        intro n hn
        exact (toInt_zero_iff.1 hn.1 : r ≠ 0) (by simpa using hr)
    · split at h
      · split at h <;> cases h
      · rename_i hr
        intro n hn
        exact (toInt_zero_iff.1 hn.1 : r ≠ 0) (by simpa using hr)

/-- Folding computes something for every operator: `7 op 3`. -/
example : ∀ op, ∃ n, foldOp true op 7 3 = some (some n) := by
  intro op; cases op <;> exact ⟨_, rfl⟩

/-- A division by zero is folded to `undef`. -/
example : foldOp true .div 7 0 = some none := rfl

/-- A run that ends with a result, or with an error, or that does not end within `fuel` blocks, does the same in
the other program. Nothing is said about runs that panic. -/
def Spec.SameRuns (p p' : Program) (chk : Bool) : Prop :=
  ∀ (σ : Type) (lib : Lib σ) (depth ptrSize fuel : Nat) (ord : List Func) (w : σ),
    (∀ r, interpret lib chk depth ptrSize fuel ord p w = .done r → interpret lib chk depth ptrSize fuel ord p' w = .done r) ∧
    (∀ e, interpret lib chk depth ptrSize fuel ord p w = .err e → interpret lib chk depth ptrSize fuel ord p' w = .err e) ∧
    (interpret lib chk depth ptrSize fuel ord p w = .fuel → interpret lib chk depth ptrSize fuel ord p' w = .fuel)

theorem Spec.SameRuns.refl {p : Program} {chk : Bool} : SameRuns p p chk :=
  fun _ _ _ _ _ _ _ => ⟨fun _ h => h, fun _ h => h, fun h => h⟩

theorem Spec.SameRuns.trans {p p' p'' : Program} {chk : Bool} (h : SameRuns p p' chk) (h' : SameRuns p' p'' chk) : SameRuns p p'' chk := by
  intro σ lib depth ptrSize fuel ord w
  obtain ⟨a, b, c⟩ := h σ lib depth ptrSize fuel ord w
  obtain ⟨a', b', c'⟩ := h' σ lib depth ptrSize fuel ord w
  exact ⟨fun r h => a' r (a r h), fun e h => b' e (b e h), fun h => c' (c h)⟩

theorem ConstFold.Round.sameRuns {chk : Bool} {f : Func} {p p' : Program} (h : Round chk f p p') : SameRuns p p' chk := by
  intro σ lib depth ptrSize fuel ord w
  have hs := interpret_sim (lib := lib) (chk := chk) (depth := depth) (ptrSize := ptrSize) (fuel := fuel) (ord := ord) (w := w)
    (D := NoAlloc) (strict := True) h.insts h.globals h.live (fun vars g fd hg => by
      obtain ⟨fd', h1, h2⟩ := h.sim ⟨p, vars, depth, ptrSize, chk⟩ ⟨p', vars, depth, ptrSize, chk⟩ rfl rfl g fd hg
      exact ⟨fd', h1, Interp.All, h2⟩)
  unfold Preserved at hs
  refine ⟨fun r e => ?_, fun x e => ?_, fun e => ?_⟩ <;> rw [e] at hs
  · obtain ⟨a, h1, h2⟩ := hs
    rw [h1, h2]
  · exact hs trivial
  · exact hs

theorem ConstFold.foldLoop_spec {chk : Bool} {f : Func} {ord : Order} : ∀ {n : Nat} {p p' : Program}, CInv p → ParamsProper p f →
    foldLoop chk f ord n p = some p' → CInv p' ∧ (∀ g, ParamsProper p g → ParamsProper p' g) ∧ SameRuns p p' chk ∧ Light p p'
  | 0, _, _, _, _, h => by cases h
  | n + 1, p, p', hi, hp, h => by
    unfold foldLoop at h
    split at h
    · cases h
    · rename_i p1 ch h1
      have hr := evalConst_round hi hp h1
      split at h
      · obtain ⟨a, b, c, d⟩ := foldLoop_spec hr.inv (hr.params f hp) h
        exact ⟨a, fun g hg => b g (hr.params g hg), hr.sameRuns.trans c, hr.light.trans d⟩
      · cases h
        exact ⟨hr.inv, hr.params, hr.sameRuns, hr.light⟩

/-- C37, functions: replacing instructions on constants in a function, as often as wanted and in any order, does not
change what the program does. -/
theorem C37_folding_preserves {chk : Bool} {f : Func} {ord : Order} {n : Nat} {p p' : Program} (hi : CInv p) (hp : ParamsProper p f)
    (h : foldLoop chk f ord n p = some p') : SameRuns p p' chk :=
  (foldLoop_spec hi hp h).2.2.1

/-- In a program from text the parameters are what they should be. -/
theorem Accepted.paramsProper {w : World} {input : Str} {p : Program} (h : Accepted w input p) (f : Func) : ParamsProper p f := by
  obtain ⟨gs, hg, -⟩ := C47_program_is_text h
  obtain ⟨hi, vars, fns, hI, -, hfns⟩ := h.items hg
  have hlu : ∀ v x y, LocalVal p f v x → LocalVal p f v y → x = y := by
    rintro v x y ⟨fd, h1, h2⟩ ⟨fd', h3, h4⟩
    rw [h1] at h3; cases h3; rw [h2] at h4; cases h4; rfl
  cases hf : p.funcs.get? f with
  | none =>
    refine ⟨fun t n ps hh => ?_, fun l b is v s t n ps hl => ?_⟩
    · simp [Program.view, hf] at hh
    · simp [Program.view, hf] at hl
  | some fd =>
    have hh : p.view.head f = some (fd.ty, fd.name, fd.params) := by simp [Program.view, hf]
    have hlay : p.view.lay f = some fd.layout := by simp [Program.view, hf]
    have h1 : f ∈ p.view.fns := by rw [hi.fns, hh]; rfl
    rw [hfns] at h1
    obtain ⟨⟨n, f'⟩, hm, rfl⟩ := List.mem_map.1 h1
    obtain ⟨fd', hf', h2⟩ := hI.func hm
    rw [hf] at hf'; cases hf'
    have from' : ∀ {K : Nat → VKind} {ps : List (Str × TyAst)} {vs : List Value}, ParamsFrom p f' K ps vs → (∀ i, IsParam (K i)) →
        ∀ v ∈ vs, ∀ s, p.view.l f' v = some s → IsParam s.2.2 := by
      intro K ps vs hP hK v hv s hs
      obtain ⟨i, hi⟩ := List.getElem?_of_mem hv
      obtain ⟨q, hq⟩ : ∃ q, ps[i]? = some q := ⟨_, List.getElem?_eq_getElem (by
        rw [← hP.1]; exact (List.getElem?_eq_some_iff.1 hi).1)⟩
      obtain ⟨x, hx, -, -, hk⟩ := hP.2 i q v hq hi
      obtain ⟨y, hy, rfl⟩ := view_l_iff.1 hs
      rw [hlu v y x hy hx]
      show IsParam x.kind
      rw [hk]; exact hK i
    rcases h2 with ⟨a, b, c, d⟩ | ⟨params, ret, bbs, order, r, gv, gf, hdef, hF⟩
    · refine ⟨fun t n ps h' v hv => ?_, fun l b is v s t n ps hl hb => ?_⟩
      · rw [hh] at h'; cases h'
        rw [d.hasParams] at hv; cases hv
      · rw [hlay] at hl; cases hl
        rw [d.noBlocks.1] at hb; cases hb
    · refine ⟨fun t n ps h' => ?_, fun l b is v s t n ps hl hb hv hs ht hbt => ?_⟩
      · rw [hh] at h'; cases h'
        exact from' hF.hasParams (fun i => .inl ⟨i, rfl⟩)
      · rw [hlay] at hl; cases hl
        obtain ⟨x, hx, rfl⟩ := view_l_iff.1 hs
        obtain ⟨blk, hblk, -, hS⟩ := hF.blocks.memL _ hb
        obtain ⟨st, hst, y, hy, -, hI'⟩ := hS.memL _ hv
        rw [hlu v y x hy hx] at hI'
        have ht : t ∈ targets x.kind := ht
        have : ∃ ln, (envOf p gv gf f' params fd.params fd.layout.bbs order r blk.name v).bb ln t := by
          generalize x.kind = K at hI' ht
          generalize x.ty = T at hI'
          cases hI' with
          | «def» h _ => cases h <;> cases ht
          | call h => cases h; cases ht
          | branch _ h1 _ _ h2 _ _ =>
            simp only [targets, List.mem_cons, List.not_mem_nil, or_false] at ht
            rcases ht with rfl | rfl
            · exact ⟨_, h1⟩
            · exact ⟨_, h2⟩
          | jump h1 _ _ =>
            simp only [targets, List.mem_cons, List.not_mem_nil, or_false] at ht
            subst ht
            exact ⟨_, h1⟩
          | _ => cases ht
        obtain ⟨ln, j, blk', is', ho, -, hl'⟩ := this
        obtain ⟨⟨z, hz, -, hP⟩, -⟩ := hF.blocks.get _ _ _ hl' ho
        obtain ⟨z', hz', -, rfl⟩ := view_b_iff.1 hbt
        have : z' = z := by
          obtain ⟨_, e1, e2⟩ := hz
          obtain ⟨_, e3, e4⟩ := hz'
          rw [e1] at e3; cases e3
          rw [e2] at e4; cases e4; rfl
        subst this
        exact from' hP (fun i => .inr ⟨i, rfl⟩)

/-- The folding of several functions, one after the other. -/
inductive Spec.Folds (chk : Bool) : Program → Program → Prop where
  | refl {p : Program} : Folds chk p p
  | step {p p' p'' : Program} {f : Func} {ord : Order} {n : Nat} : Folds chk p p' → foldLoop chk f ord n p' = some p'' → Folds chk p p''

/-- C37 for programs from text: folding any functions does not change what the program does. -/
theorem C37_accepted {w : World} {input : Str} {p p' : Program} {chk : Bool} (ha : Accepted w input p) (h : Folds chk p p') :
    SameRuns p p' chk := by
  have : CInv p' ∧ (∀ g, ParamsProper p' g) ∧ SameRuns p p' chk := by
    induction h with
    | refl =>
      obtain ⟨gs, hg, -⟩ := C47_program_is_text ha
      exact ⟨(ha.items hg).1.cinv, ha.paramsProper, .refl⟩
    | step _ h ih =>
      obtain ⟨a, b, c⟩ := ih
      obtain ⟨a', b', c', -⟩ := foldLoop_spec a (b _) h
      exact ⟨a', fun g => b' g (b g), c.trans c'⟩
  exact this.2.2

/-- A function with instructions on constants, in two blocks. -/
def foldText : Str :=
  "fun @main(): i32 {%e: %a = mul 6, 7 %b = sub %a, 2 jump %t %t: %c = add %b, %a ret %c}".toList

/-- Folding the first function of the program ends, and the listed instructions are gone. -/
def foldsCheck (n : Nat) (p : Program) : Bool :=
  match p.funcLayout with
  | f :: _ => match foldLoop true f (fun q => ((q.funcs.get? f).map (·.dfg.values.keys)).getD []) 10 p with
    | some p' => match p'.funcs.get? f with
      | some fd => (fd.layout.bbs.flatMap (·.2)).length == n
      | none => false
    | none => false
  | [] => false

/-- The hypotheses of `C37_accepted` are met: the three instructions on constants disappear, two are left, and
the result is still `82`. -/
example : ∃ p p', Accepted someWorld foldText p ∧ Folds true p p' ∧ (∃ f fd, p'.funcs.get? f = some fd ∧ (fd.layout.bbs.flatMap (·.2)).length = 2) ∧
    ∃ w, interpret noLib true 10 8 10 p.funcs.keys p () = .done (82, w) := by
  obtain ⟨p, h, hq⟩ := acceptsWith_iff (input := foldText) (q := fun p => foldsCheck 2 p && returnsCheck 82 p) (by decide +kernel)
  rw [Bool.and_eq_true] at hq
  obtain ⟨h1, h2⟩ := hq
  unfold foldsCheck at h1
  split at h1
  · rename_i f l hf
    split at h1
    · rename_i p' hp'
      split at h1
      · rename_i fd hfd
        refine ⟨p, p', h, .step .refl hp', ⟨f, fd, hfd, eq_of_beq h1⟩, ?_⟩
        unfold returnsCheck at h2
        split at h2
        · rename_i m w hm
          exact ⟨w, by rw [hm, eq_of_beq h2]⟩
        · cases h2
      · cases h1
    · cases h1
  · cases h1

end Koopa
