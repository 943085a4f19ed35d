import Verif.Spec.Machine
/-!
The parts of the machine that need no program: constants, memory and arithmetic agree with the functions of the
interpreter.
-/
namespace Koopa
open Koopa.Spec Koopa.Interp

theorem zeroInit_iff : ∀ {t : Ty} {x : Val}, zeroInit t = some x ↔ Zeroed t x
  | .i32, x => by
    constructor
    · intro h; cases h; exact .i32
    · intro h; cases h; rfl
  | .ptr t, x => by
    constructor
    · intro h; cases h; exact .ptr t
    · intro h; cases h; rfl
  | .unit, x => by
    constructor
    · intro h; cases h
    · intro h; cases h
  | .func ps t, x => by
    constructor
    · intro h; simp [zeroInit] at h
    · intro h; cases h
  | .array t n, x => by
    constructor
    · intro h
      rw [zeroInit] at h
      cases hx : zeroInit t with
      | none => rw [hx] at h; cases h
      | some y => rw [hx] at h; cases h; exact .array n (zeroInit_iff.1 hx)
    · intro h
      cases h with
      | array n h => rw [zeroInit, zeroInit_iff.2 h]; rfl

theorem collect_iff {α β : Type} {f : α → Option β} : ∀ {l : List α} {xs : List β},
    collect f l = some xs ↔ l.length = xs.length ∧ ∀ (i : Nat) a x, l[i]? = some a → xs[i]? = some x → f a = some x
  | [], xs => by
    constructor
    · intro h; cases h; exact ⟨rfl, by simp⟩
    · intro h
      cases xs with
      | nil => rfl
      | cons => simp at h
  | a :: l, [] => by
    constructor
    · intro h
      rw [collect] at h
      split at h
      · cases h
      · cases hc : collect f l <;> rw [hc] at h <;> cases h
    · intro h; simp at h
  | a :: l, x :: xs => by
    rw [collect]
    constructor
    · intro h
      split at h
      · cases h
      · rename_i b hb
        cases hc : collect f l with
        | none => rw [hc] at h; cases h
        | some ys =>
          rw [hc] at h; cases h
          have ih := collect_iff.1 hc
          refine ⟨by simp [ih.1], ?_⟩
          intro i a' x' ha hx
          cases i with
          | zero => simp at ha hx; subst ha hx; exact hb
          | succ i => exact ih.2 i a' x' (by simpa using ha) (by simpa using hx)
    · rintro ⟨hl, h⟩
      rw [h 0 a x rfl rfl]
      have : collect f l = some xs := collect_iff.2 ⟨by simpa using hl, fun i a' x' ha hx => h (i + 1) a' x' (by simpa using ha) (by simpa using hx)⟩
      rw [this]; rfl

theorem evalConst_integer {look : Value → Option VData} {n : Nat} {d : VData} {i : I32} (h : d.kind = .integer i) :
    evalConst look (n + 1) d = some (.int i) := by
  obtain ⟨t, m, k, u⟩ := d; cases h; rfl

theorem evalConst_zeroInit {look : Value → Option VData} {n : Nat} {d : VData} (h : d.kind = .zeroInit) :
    evalConst look (n + 1) d = zeroInit d.ty := by
  obtain ⟨t, m, k, u⟩ := d; cases h; rfl

theorem evalConst_undef {look : Value → Option VData} {n : Nat} {d : VData} (h : d.kind = .undef) :
    evalConst look (n + 1) d = some .undef := by
  obtain ⟨t, m, k, u⟩ := d; cases h; rfl

theorem evalConst_aggregate {look : Value → Option VData} {n : Nat} {d : VData} {es : List Value} (h : d.kind = .aggregate es) :
    evalConst look (n + 1) d = (collect (fun e => (look e).bind (evalConst look n)) es).map .array := by
  obtain ⟨t, m, k, u⟩ := d; cases h; rfl

theorem evalConst_isConst {look : Value → Option VData} {n : Nat} {d : VData} {x : Val} (h : evalConst look (n + 1) d = some x) :
    (∃ i, d.kind = .integer i) ∨ d.kind = .zeroInit ∨ d.kind = .undef ∨ ∃ es, d.kind = .aggregate es := by
  obtain ⟨t, m, k, u⟩ := d
  cases k <;> first
    | exact .inl ⟨_, rfl⟩
    | exact .inr (.inl rfl)
    | exact .inr (.inr (.inl rfl))
    | exact .inr (.inr (.inr ⟨_, rfl⟩))
    | cases h

theorem evalConst_sound {look : Value → Option VData} : ∀ {n : Nat} {d : VData} {x : Val},
    evalConst look n d = some x → ConstVal look d x
  | 0, d, x, h => by have e : (none : Option Val) = some x := h; cases e
  | n + 1, d, x, h => by
    rcases evalConst_isConst h with ⟨i, hk⟩ | hk | hk | ⟨es, hk⟩
    · rw [evalConst_integer hk] at h; cases h; exact .integer hk
    · rw [evalConst_zeroInit hk] at h; exact .zeroInit hk (zeroInit_iff.1 h)
    · rw [evalConst_undef hk] at h; cases h; exact .undef hk
    · rw [evalConst_aggregate hk] at h
      cases hc : collect (fun e => (look e).bind (evalConst look n)) es with
      | none => rw [hc] at h; cases h
      | some xs =>
        rw [hc] at h; cases h
        have hx := collect_iff.1 hc
        have hl : ∀ (i : Nat) e, es[i]? = some e → ∃ d x, look e = some d ∧ xs[i]? = some x ∧ evalConst look n d = some x := by
          intro i e he
          have hi : i < xs.length := by
            rw [← hx.1]; exact (List.getElem?_eq_some_iff.1 he).1
          have hxi : xs[i]? = some xs[i] := List.getElem?_eq_getElem hi
          have := hx.2 i e _ he hxi
          cases hd : look e with
          | none => rw [hd] at this; cases this
          | some d => rw [hd] at this; exact ⟨d, _, rfl, hxi, this⟩
        have hds : ∃ ds : List VData, es.map look = ds.map some := by
          clear hx hc hk
          have : ∀ e ∈ es, ∃ d, look e = some d := by
            intro e he
            obtain ⟨i, hi⟩ := List.getElem?_of_mem he
            obtain ⟨d, _, hd, _⟩ := hl i e hi
            exact ⟨d, hd⟩
          clear hl
          induction es with
          | nil => exact ⟨[], rfl⟩
          | cons e es ih =>
            obtain ⟨ds, hds⟩ := ih (fun e he => this e (by simp [he]))
            obtain ⟨d, hd⟩ := this e (by simp)
            exact ⟨d :: ds, by simp [hds, hd]⟩
        obtain ⟨ds, hds⟩ := hds
        have hlen : es.length = ds.length := by simpa using congrArg List.length hds
        refine .aggregate hk hds (by rw [← hlen, hx.1]) ?_
        intro i d y hd hy
        have hi : i < es.length := by rw [hlen]; exact (List.getElem?_eq_some_iff.1 hd).1
        obtain ⟨d', x', h1, h2, h3⟩ := hl i es[i] (List.getElem?_eq_getElem hi)
        have e1 : (es.map look)[i]? = some (some d') := by rw [List.getElem?_map, List.getElem?_eq_getElem hi]; simp [h1]
        rw [hds, List.getElem?_map, hd] at e1
        simp at e1; subst e1
        rw [hy] at h2; cases h2
        exact evalConst_sound h3

theorem bound_all (P : Nat → Nat → Prop) (hmono : ∀ i a b, a ≤ b → P i a → P i b) : ∀ (k : Nat), (∀ i, i < k → ∃ n, P i n) → ∃ n, ∀ i, i < k → P i n
  | 0, _ => ⟨0, fun i hi => by omega⟩
  | k + 1, h => by
    obtain ⟨n, hn⟩ := bound_all P hmono k (fun i hi => h i (by omega))
    obtain ⟨m, hm⟩ := h k (by omega)
    refine ⟨max n m, fun i hi => ?_⟩
    rcases Nat.lt_or_ge i k with hik | hik
    · exact hmono _ _ _ (by omega) (hn i hik)
    · have : i = k := by omega
      subst this; exact hmono _ _ _ (by omega) hm

theorem evalConst_complete {look : Value → Option VData} {d : VData} {x : Val} (h : ConstVal look d x) :
    ∃ n, ∀ m, n ≤ m → evalConst look m d = some x := by
  induction h with
  | integer hk => exact ⟨1, fun m hm => by obtain ⟨m, rfl⟩ : ∃ k, m = k + 1 := ⟨m - 1, by omega⟩; exact evalConst_integer hk⟩
  | zeroInit hk hz => exact ⟨1, fun m hm => by obtain ⟨m, rfl⟩ : ∃ k, m = k + 1 := ⟨m - 1, by omega⟩; rw [evalConst_zeroInit hk, zeroInit_iff.2 hz]⟩
  | undef hk => exact ⟨1, fun m hm => by obtain ⟨m, rfl⟩ : ∃ k, m = k + 1 := ⟨m - 1, by omega⟩; exact evalConst_undef hk⟩
  | @aggregate d es ds xs hk hds hlen _ ih =>
    obtain ⟨n, hn⟩ := bound_all (fun i n => ∀ e x, ds[i]? = some e → xs[i]? = some x → ∀ m, n ≤ m → evalConst look m e = some x)
      (fun i a b hab h e x he hx m hm => h e x he hx m (by omega)) ds.length (by
        intro i hi
        obtain ⟨n, hn⟩ := ih i ds[i] (xs[i]'(by omega)) (List.getElem?_eq_getElem hi) (List.getElem?_eq_getElem _)
        refine ⟨n, fun e x he hx m hm => ?_⟩
        rw [List.getElem?_eq_getElem hi] at he; cases he
        rw [List.getElem?_eq_getElem (by omega)] at hx; cases hx
        exact hn m hm)
    refine ⟨n + 1, fun m hm => ?_⟩
    obtain ⟨m, rfl⟩ : ∃ k, m = k + 1 := ⟨m - 1, by omega⟩
    have hlen' : es.length = ds.length := by simpa using congrArg List.length hds
    have : collect (fun e => (look e).bind (evalConst look m)) es = some xs := by
      refine collect_iff.2 ⟨by omega, fun i e x he hx => ?_⟩
      have hi : i < ds.length := by rw [← hlen']; exact (List.getElem?_eq_some_iff.1 he).1
      have e1 : (es.map look)[i]? = some (look e) := by rw [List.getElem?_map, he]; rfl
      rw [hds, List.getElem?_map, List.getElem?_eq_getElem hi] at e1
      simp at e1
      rw [← e1]
      exact hn i hi _ _ (List.getElem?_eq_getElem hi) hx m (by omega)
    rw [evalConst_aggregate hk, this]; rfl

theorem at_iff {y : Val} : ∀ {is : List Nat} {x : Val}, x.at is = some y ↔ Elem x is y
  | [], x => by
    constructor
    · intro h; simp [Val.at] at h; subst h; exact .here _
    · intro h; cases h; simp [Val.at]
  | i :: is, .array l => by
    rw [Val.at]
    constructor
    · intro h
      split at h
      · cases h
      · rename_i x hx; exact .inside hx (at_iff.1 h)
    · intro h
      cases h with
      | inside hx h => rw [hx]; exact at_iff.2 h
  | i :: is, .int _ | i :: is, .undef | i :: is, .ptr _ _ _ | i :: is, .unsafePtr _ => by
    constructor
    · intro h; simp [Val.at] at h
    · intro h; cases h

theorem put_iff {y : Val} : ∀ {is : List Nat} {x x' : Val}, Val.put y x is = some x' ↔ Replaced y x is x'
  | [], x, x' => by
    constructor
    · intro h; simp [Val.put] at h; subst h; exact .here _
    · intro h; cases h; simp [Val.put]
  | i :: is, .array l, x' => by
    rw [Val.put]
    constructor
    · intro h
      split at h
      · cases h
      · rename_i x hx
        cases hp : Val.put y x is with
        | none => rw [hp] at h; cases h
        | some z => rw [hp] at h; cases h; exact .inside hx (put_iff.1 hp)
    · intro h
      cases h with
      | inside hx h => rw [hx]; simp only []; rw [put_iff.2 h]; rfl
  | i :: is, .int _, x' | i :: is, .undef, x' | i :: is, .ptr _ _ _, x' | i :: is, .unsafePtr _, x' => by
    constructor
    · intro h; simp [Val.put] at h
    · intro h; cases h

theorem readMem_iff {m : Mem} {a : Obj × List Nat} {x : Val} : readMem m a = some x ↔ Stored m a x := by
  unfold readMem Stored
  cases m a.1 with
  | none => simp
  | some y => simp [at_iff]

theorem writeMem_iff {m m' : Mem} {a : Obj × List Nat} {x : Val} : writeMem m a x = some m' ↔ Storing m a x m' := by
  unfold writeMem Storing
  cases m a.1 with
  | none => simp
  | some y =>
    constructor
    · intro h
      cases hp : Val.put x y a.2 with
      | none => simp only [] at h; rw [hp] at h; cases h
      | some z =>
        simp only [] at h; rw [hp] at h; cases h
        exact ⟨y, z, rfl, put_iff.1 hp, by simp, fun o ho => by simp [ho]⟩
    · rintro ⟨y', z, h1, h2, h3, h4⟩
      cases h1
      simp only []; rw [put_iff.2 h2]
      simp only [Option.map_some, Option.some.injEq]
      funext o
      by_cases ho : o = a.1
      · subst ho; simp [h3]
      · simp [ho, h4 o ho]

theorem getPointer_moved {x y : Val} {i : Int} {size : Nat} : getPointer x i size = some (some y) ↔ Moved size i x y := by
  cases x with
  | ptr q k n =>
    simp only [getPointer]
    constructor
    · intro h
      split at h
      · rename_i hc
        cases h
        exact .ptr (by omega) (by omega)
      · cases h
    · intro h
      cases h with
      | ptr h1 h2 =>
        rename_i new
        have e : ((k : Int) + i).toNat = new := by omega
        rw [if_pos (by omega), e]
  | unsafePtr q =>
    constructor
    · intro h; cases h; exact .ext q
    · intro h; cases h; rfl
  | int | undef | array =>
    constructor
    · intro h; cases h
    · intro h; cases h

theorem getPointer_outside {x : Val} {i : Int} {size : Nat} : getPointer x i size = some none ↔ Outside i x := by
  cases x with
  | ptr q k n =>
    simp only [getPointer]
    constructor
    · intro h
      split at h
      · cases h
      · rename_i hc; exact .ptr hc
    · intro h
      cases h with
      | ptr h => rw [if_neg h]
  | unsafePtr q =>
    constructor
    · intro h; cases h
    · intro h; cases h
  | int | undef | array =>
    constructor
    · intro h; cases h
    · intro h; cases h

theorem truth_iff {q : Prop} [Decidable q] {n : I32} : ofBool (decide q) = n ↔ OneIf q n := by
  unfold ofBool OneIf
  by_cases h : q
  · simp only [h, decide_true, if_true, true_implies, not_true_eq_false, false_implies, and_true]
    exact eq_comm
  · simp only [h, decide_false, Bool.false_eq_true, if_false, false_implies, not_false_eq_true, true_implies, true_and]
    exact eq_comm

theorem bmod_toInt (n : I32) : n.toInt.bmod (2 ^ 32) = n.toInt := by
  rw [← BitVec.toInt_ofInt, BitVec.ofInt_toInt]

theorem checked_iff {chk : Bool} {x : Int} {n : I32} : checked chk x = some n ↔ InRange chk x n := by
  unfold checked InRange
  constructor
  · intro h
    split at h
    · cases h
    · rename_i hc
      cases h
      refine ⟨BitVec.toInt_ofInt _, fun hk => ?_⟩
      by_cases e : (BitVec.ofInt 32 x).toInt = x
      · exact e
      · exact absurd ⟨hk, e⟩ hc
  · rintro ⟨h1, h2⟩
    have e : BitVec.ofInt 32 x = n := by
      apply BitVec.eq_of_toInt_eq
      rw [BitVec.toInt_ofInt, h1]
    rw [e, if_neg]
    rintro ⟨hc, hn⟩
    exact hn (h2 hc)

theorem shiftBy_iff {chk : Bool} {r : I32} {k : Nat} : shiftBy chk r = some k ↔ Shift chk r k := by
  unfold shiftBy Shift
  constructor
  · intro h
    split at h
    · cases h
    · rename_i hc
      cases h
      refine ⟨rfl, fun hk => ?_⟩
      by_cases e : r.toNat < 32
      · exact e
      · exact absurd ⟨hk, e⟩ hc
  · rintro ⟨h1, h2⟩
    rw [if_neg (by rintro ⟨hc, hn⟩; exact hn (h2 hc)), h1]

theorem shift_iff {chk : Bool} {r n : I32} {g : Nat → I32} {Q : Nat → Prop} (h : ∀ k, g k = n ↔ Q k) :
    (shiftBy chk r).map g = some n ↔ ∃ k, Shift chk r k ∧ Q k := by
  simp only [Option.map_eq_some_iff, shiftBy_iff, h]

theorem toInt_ne_zero {r : I32} : r.toInt ≠ 0 ↔ r ≠ 0 := by
  constructor
  · intro h e; subst e; exact h rfl
  · intro h e; exact h (BitVec.eq_of_toInt_eq (by rw [e]; rfl))

theorem evalOp_iff {chk : Bool} {op : BinOp} {l r n : I32} : evalOp chk op l r = some n ↔ Arith chk op l r n := by
  cases op with
  | notEq =>
    simp only [evalOp, Arith, Option.some.injEq]
    rw [← truth_iff]
    have : (l != r) = decide (l.toInt ≠ r.toInt) := by
      rw [Bool.eq_iff_iff]; simp [BitVec.toInt_inj]
    rw [this]
  | eq =>
    simp only [evalOp, Arith, Option.some.injEq]
    rw [← truth_iff]
    have : (l == r) = decide (l.toInt = r.toInt) := by
      rw [Bool.eq_iff_iff]; simp [BitVec.toInt_inj]
    rw [this]
  | gt => simp only [evalOp, Arith, Option.some.injEq]; exact truth_iff
  | lt => simp only [evalOp, Arith, Option.some.injEq]; exact truth_iff
  | ge => simp only [evalOp, Arith, Option.some.injEq]; exact truth_iff
  | le => simp only [evalOp, Arith, Option.some.injEq]; exact truth_iff
  | add => exact checked_iff
  | sub => exact checked_iff
  | mul => exact checked_iff
  | div =>
    simp only [evalOp, Arith]
    constructor
    · intro h
      split at h
      · cases h
      · rename_i hr
        obtain ⟨_, h2⟩ := checked_iff.1 h
        exact ⟨toInt_ne_zero.2 hr, h2 rfl⟩
    · rintro ⟨h1, h2⟩
      rw [if_neg (toInt_ne_zero.1 h1)]
      exact checked_iff.2 ⟨by rw [← h2, bmod_toInt], fun _ => h2⟩
  | mod =>
    simp only [evalOp, Arith]
    have hmin : ∀ x : I32, x = BitVec.intMin 32 ↔ x.toInt = -2 ^ 31 := fun x => by
      rw [← BitVec.toInt_inj]; rfl
    have hm1 : ∀ x : I32, x = -1 ↔ x.toInt = -1 := fun x => by
      rw [← BitVec.toInt_inj]; rfl
    have hb : r ≠ 0 → (BitVec.ofInt 32 (l.toInt.tmod r.toInt)).toInt = l.toInt.tmod r.toInt := by
      intro hr
      rw [BitVec.toInt_ofInt]
      have h0 := toInt_ne_zero.2 hr
      have h1 := BitVec.toInt_lt (x := r)
      have h2 := BitVec.le_toInt r
      have h3 : (l.toInt.tmod r.toInt).natAbs < r.toInt.natAbs := by
        rw [Int.natAbs_tmod]; exact Nat.mod_lt _ (by omega)
      simp at h1 h2
      apply Int.bmod_eq_of_le
      · omega
      · omega
    constructor
    · intro h
      split at h
      · cases h
      · rename_i hc
        cases h
        rw [not_or] at hc
        refine ⟨toInt_ne_zero.2 hc.1, fun e => hc.2 ⟨(hmin _).2 e.1, (hm1 _).2 e.2⟩, hb hc.1⟩
    · rintro ⟨h1, h2, h3⟩
      have h1' := toInt_ne_zero.1 h1
      rw [if_neg]
      · rw [Option.some.injEq]; apply BitVec.eq_of_toInt_eq; rw [hb h1', h3]
      · rintro (e | e)
        · exact h1' e
        · exact h2 ⟨(hmin _).1 e.1, (hm1 _).1 e.2⟩
  | and =>
    simp only [evalOp, Arith, Option.some.injEq]
    constructor
    · intro h i _; rw [← h, BitVec.getLsbD_and]
    · intro h; apply BitVec.eq_of_getLsbD_eq; intro i hi; rw [h i hi, BitVec.getLsbD_and]
  | or =>
    simp only [evalOp, Arith, Option.some.injEq]
    constructor
    · intro h i _; rw [← h, BitVec.getLsbD_or]
    · intro h; apply BitVec.eq_of_getLsbD_eq; intro i hi; rw [h i hi, BitVec.getLsbD_or]
  | xor =>
    simp only [evalOp, Arith, Option.some.injEq]
    constructor
    · intro h i _; rw [← h, BitVec.getLsbD_xor]
    · intro h; apply BitVec.eq_of_getLsbD_eq; intro i hi; rw [h i hi, BitVec.getLsbD_xor]
  | shl =>
    refine shift_iff (fun k => ?_)
    rw [← BitVec.toNat_inj, BitVec.toNat_shiftLeft, Nat.shiftLeft_eq, eq_comm]
  | shr =>
    refine shift_iff (fun k => ?_)
    rw [← BitVec.toNat_inj, BitVec.toNat_ushiftRight, Nat.shiftRight_eq_div_pow, eq_comm]
  | sar =>
    refine shift_iff (fun k => ?_)
    rw [← BitVec.toInt_inj, BitVec.toInt_sshiftRight, Int.shiftRight_eq_div_pow, eq_comm]
    simp

theorem asBool_iff {x : Val} : x.asBool = true ↔ ∃ i : I32, x = .int i ∧ i.toInt ≠ 0 := by
  cases x with
  | int n => simp only [Val.asBool, bne_iff_ne, Val.int.injEq, exists_eq_left', toInt_ne_zero]
  | undef | array | ptr | unsafePtr => simp [Val.asBool]

theorem asBool_not_iff {x : Val} : ¬ x.asBool = true ↔ ∀ i : I32, x = .int i → i.toInt = 0 := by
  rw [asBool_iff]
  constructor
  · intro h i e
    by_cases hi : i.toInt = 0
    · exact hi
    · exact absurd ⟨i, e, hi⟩ h
  · rintro h ⟨i, e, hi⟩; exact hi (h i e)

end Koopa
