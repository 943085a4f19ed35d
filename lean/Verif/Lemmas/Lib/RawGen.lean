import Verif.Lemmas.Lib.RawTotal
/-!
The generator makes the instruction that a raw value describes.
-/
namespace Koopa
open Spec

/-- The typing rules do not depend on the handles. -/
theorem Spec.InstTy.map {H H' : Value → Ty → Prop} {P P' : BB → List Ty → Prop} {F F' : Func → Ty → Prop}
    {val : Value → Value} {blk : BB → BB} {fn : Func → Func} {k : VKind} {t : Ty} (h : InstTy H P F k t)
    (hv : ∀ v ∈ operands k, ∀ t, H v t → H' (val v) t) (hb : ∀ b ∈ targets k, ∀ ts, P b ts → P' (blk b) ts)
    (hf : ∀ g as, k = .call g as → ∀ t, F g t → F' (fn g) t)
    (hi : ∀ a ∈ targets k, ∀ b ∈ targets k, blk a = blk b → a = b) : InstTy H' P' F' (mapKind val blk fn k) t := by
  have all {as : List Value} {ts : List Ty} (ha : All2 H as ts) (hs : ∀ v ∈ as, ∀ t, H v t → H' (val v) t) :
      All2 H' (as.map val) ts := by
    induction ha with
    | nil => exact .nil
    | cons h _ ih => exact .cons (hs _ (by simp) _ h) (ih (fun v hv => hs v (by simp [hv])))
  cases h with
  | integer n => exact .integer n
  | zeroInit h => exact .zeroInit h
  | undef h => exact .undef h
  | @aggregate es t h1 h2 h3 =>
    have : InstTy H' P' F' (.aggregate (es.map val)) (.array t (es.map val).length) := by
      refine .aggregate (by simpa using h1) h2 (fun e he => ?_)
      obtain ⟨e, he', rfl⟩ := List.mem_map.1 he
      exact hv e he' _ (h3 e he')
    rwa [List.length_map] at this
  | funcArgRef h => exact .funcArgRef h
  | blockArgRef h => exact .blockArgRef h
  | alloc h => exact .alloc h
  | globalAlloc h h1 => exact .globalAlloc h (hv _ (by simp [operands]) _ h1)
  | load h => exact .load (hv _ (by simp [operands]) _ h)
  | store h h1 => exact .store (hv _ (by simp [operands]) _ h) (hv _ (by simp [operands]) _ h1)
  | getPtr h h1 => exact .getPtr (hv _ (by simp [operands]) _ h) (hv _ (by simp [operands]) _ h1)
  | getElemPtr h h1 => exact .getElemPtr (hv _ (by simp [operands]) _ h) (hv _ (by simp [operands]) _ h1)
  | binary h h1 => exact .binary (hv _ (by simp [operands]) _ h) (hv _ (by simp [operands]) _ h1)
  | branch h1 h2 h3 h4 h5 h6 =>
    refine .branch (hv _ (by simp [operands]) _ h1) (hb _ (by simp [targets]) _ h2) (hb _ (by simp [targets]) _ h3)
      (all h4 (fun v h => hv v (by simp [operands, h]))) (all h5 (fun v h => hv v (by simp [operands, h]))) (fun e => ?_)
    have := h6 (hi _ (by simp [targets]) _ (by simp [targets]) e)
    simp [this]
  | jump h1 h2 => exact .jump (hb _ (by simp [targets]) _ h1) (all h2 (fun v h => hv v (by simp [operands, h])))
  | call h1 h2 => exact .call (hf _ _ rfl _ h1) (all h2 (fun v h => hv v (by simp [operands, h])))
  | retNone => exact .retNone
  | ret h h1 => exact .ret h (hv _ (by simp [operands]) _ h1)

end Koopa

namespace Koopa.Raw
open Spec

/-- The builder method that makes a constant. -/
def valInst (t : Ty) : VKind → Option ValInst
  | .integer n => some (.integer n)
  | .zeroInit => some (.zeroInit t)
  | .undef => some (.undef t)
  | .aggregate es => some (.aggregate es)
  | .funcArgRef _ => none
  | .blockArgRef _ => none
  | .globalAlloc _ => none
  | .alloc => none
  | .load _ => none
  | .store _ _ => none
  | .getPtr _ _ => none
  | .getElemPtr _ _ => none
  | .binary _ _ _ => none
  | .branch _ _ _ _ _ => none
  | .jump _ _ => none
  | .call _ _ => none
  | .ret _ => none

/-- The builder method that makes an instruction. -/
def localInst (t : Ty) : VKind → Option LocalInst
  | .alloc => match t with
    | .ptr b => some (.alloc b)
    | _ => none
  | .load s => some (.load s)
  | .store v d => some (.store v d)
  | .getPtr s i => some (.getPtr s i)
  | .getElemPtr s i => some (.getElemPtr s i)
  | .binary op l r => some (.binary op l r)
  | .branch c t f ta fa => some (.branchWithArgs c t f ta fa)
  | .jump t as => some (.jumpWithArgs t as)
  | .call g as => some (.call g as)
  | .ret v => some (.ret v)
  | .integer n => some (.val (.integer n))
  | .zeroInit => some (.val (.zeroInit t))
  | .undef => some (.val (.undef t))
  | .aggregate es => some (.val (.aggregate es))
  | .funcArgRef _ => none
  | .blockArgRef _ => none
  | .globalAlloc _ => none

/-- The builder method that makes a global value. -/
def globalInst (t : Ty) : VKind → Option GlobalInst
  | .globalAlloc i => some (.globalAlloc i)
  | .integer n => some (.val (.integer n))
  | .zeroInit => some (.val (.zeroInit t))
  | .undef => some (.val (.undef t))
  | .aggregate es => some (.val (.aggregate es))
  | .funcArgRef _ => none
  | .blockArgRef _ => none
  | .alloc => none
  | .load _ => none
  | .store _ _ => none
  | .getPtr _ _ => none
  | .getElemPtr _ _ => none
  | .binary _ _ _ => none
  | .branch _ _ _ _ _ => none
  | .jump _ _ => none
  | .call _ _ => none
  | .ret _ => none

theorem isUnit_of {t : Ty} (h : t ≠ .unit) : (!t.isUnit) = true := by cases t <;> simp_all [Ty.isUnit]

theorem allConst_of {q : Querier} : ∀ {es : List Value}, (∀ e ∈ es, q.isConst e = some true) → allConst q es = some true
  | [], _ => rfl
  | e :: es, h => by
    simp only [allConst, h e (by simp), Option.bind_eq_bind, Option.bind_some, if_true]
    exact allConst_of (fun e he => h e (by simp [he]))

theorem windows_of {q : Querier} {t : Ty} : ∀ {es : List Value}, (∀ e ∈ es, q.valueType e = some t) →
    windowsSameType q es = some true
  | [], _ => rfl
  | [_], _ => rfl
  | a :: b :: es, h => by
    simp only [windowsSameType, h a (by simp), h b (by simp), Option.bind_eq_bind, Option.bind_some, if_true]
    exact windows_of (fun e he => h e (by simp [List.mem_cons.1 he]))

theorem checkArgTypes_of {q : Querier} {H : Value → Ty → Prop} (hH : ∀ v t, H v t → q.valueType v = some t) :
    ∀ {ps as : List Value} {ts : List Ty}, All2 H ps ts → All2 H as ts → checkArgTypes q ps as = some ()
  | _, _, _, .nil, .nil => rfl
  | _, _, _, .cons h1 h2, .cons h3 h4 => by
    simp only [checkArgTypes, hH _ _ h1, hH _ _ h3, Option.bind_eq_bind, Option.bind_some, Koopa.assert, decide_true, if_true]
    exact checkArgTypes_of hH h2 h4

theorem checkBb_of {q : Querier} {H : Value → Ty → Prop} (hH : ∀ v t, H v t → q.valueType v = some t)
    {ps as : List Value} {ts : List Ty} (h1 : All2 H ps ts) (h2 : All2 H as ts) : checkBbArgTypes q ps as = some () := by
  unfold checkBbArgTypes
  simp only [h1.length, h2.length, decide_true, Koopa.assert, if_true, Option.bind_eq_bind, Option.bind_some]
  exact checkArgTypes_of hH h1 h2

theorem checkCall_of {q : Querier} {H : Value → Ty → Prop} (hH : ∀ v t, H v t → q.valueType v = some t) :
    ∀ {as : List Value} {ts : List Ty}, All2 H as ts → checkCallArgs q ts as = some ()
  | _, _, .nil => rfl
  | _, _, .cons h3 h4 => by
    simp only [checkCallArgs, hH _ _ h3, Option.bind_eq_bind, Option.bind_some, Koopa.assert, decide_true, if_true]
    exact checkCall_of hH h4

section
variable {q : Querier} {H : Value → Ty → Prop} {P : BB → List Ty → Prop} {F : Func → Ty → Prop}

/-- The builder methods for constants accept well-typed constants. -/
theorem valInst_build (hH : ∀ v t, H v t → q.valueType v = some t) {k : VKind} {t : Ty} (hk : InstTy H P F k t)
    (hagg : ∀ es, k = .aggregate es → ∀ e ∈ es, q.isConst e = some true) {i : ValInst} (hi : valInst t k = some i) :
    i.notRaw ∧ i.build q = some (VData.new t k) := by
  cases hk <;> simp only [valInst, Option.some.injEq, reduceCtorEq] at hi <;> subst hi <;> refine ⟨trivial, ?_⟩
  case integer => rfl
  case zeroInit h => simp [ValInst.build, Koopa.assert, isUnit_of h]
  case undef h => simp [ValInst.build, Koopa.assert, isUnit_of h]
  case aggregate es t h1 h2 h3 =>
    cases es with
    | nil => exact absurd rfl h1
    | cons e es =>
      have ht := hH _ _ (h3 e (by simp))
      have := windows_of (q := q) (t := t) (fun e he => hH _ _ (h3 e he))
      have hc := allConst_of (hagg _ rfl)
      simp only [ValInst.build, hc, this, List.headD, ht, Option.bind_eq_bind, Option.bind_some, Koopa.assert, isUnit_of h2,
        List.isEmpty, Bool.not_false, if_true, Ty.getArray]
      simp

/-- The builder methods accept well-typed instructions. -/
theorem localInst_build (hH : ∀ v t, H v t → q.valueType v = some t)
    (hP : ∀ b ts, P b ts → ∃ ps, q.bbParams b = some ps ∧ All2 H ps ts) (hF : ∀ g t, F g t → q.funcType g = some t)
    {k : VKind} {t : Ty} (hk : InstTy H P F k t)
    (hagg : ∀ es, k = .aggregate es → ∀ e ∈ es, q.isConst e = some true) {i : LocalInst} (hi : localInst t k = some i) :
    i.notRaw ∧ i.build q = some (VData.new t k) := by
  cases hv : valInst t k with
  | some j =>
    have : i = .val j := by cases k <;> simp_all [localInst, valInst]
    subst this
    exact valInst_build hH hk hagg hv
  | none =>
    cases hk with
    | integer _ | zeroInit _ | undef _ | aggregate _ _ _ => simp [valInst] at hv
    | funcArgRef _ | blockArgRef _ | globalAlloc _ _ => simp [localInst, valInst] at hi
    | alloc h =>
      simp only [localInst, Option.some.injEq] at hi; subst hi
      exact ⟨trivial, by simp [LocalInst.build, Koopa.assert, isUnit_of h]⟩
    | load h =>
      simp only [localInst, Option.some.injEq] at hi; subst hi
      exact ⟨trivial, by simp [LocalInst.build, hH _ _ h]⟩
    | store h h1 =>
      simp only [localInst, Option.some.injEq] at hi; subst hi
      exact ⟨trivial, by simp [LocalInst.build, hH _ _ h, hH _ _ h1, Koopa.assert]⟩
    | getPtr h h1 =>
      simp only [localInst, Option.some.injEq] at hi; subst hi
      exact ⟨trivial, by simp [LocalInst.build, hH _ _ h, hH _ _ h1, Koopa.assert, Ty.isI32]⟩
    | getElemPtr h h1 =>
      simp only [localInst, Option.some.injEq] at hi; subst hi
      exact ⟨trivial, by simp [LocalInst.build, hH _ _ h, hH _ _ h1, Koopa.assert, Ty.isI32]⟩
    | binary h h1 =>
      simp only [localInst, Option.some.injEq] at hi; subst hi
      exact ⟨trivial, by simp [LocalInst.build, hH _ _ h, hH _ _ h1, Koopa.assert, Ty.isI32]⟩
    | @branch c t f ta fa ts fs h1 h2 h3 h4 h5 h6 =>
      simp only [localInst, Option.some.injEq] at hi; subst hi
      obtain ⟨tp, ht, ht'⟩ := hP _ _ h2
      obtain ⟨fp, hf, hf'⟩ := hP _ _ h3
      have hs : (decide (t ≠ f) || (ta.isEmpty && fa.isEmpty)) = true := by
        by_cases e : t = f
        · simp [h6 e]
        · simp [e]
      refine ⟨trivial, ?_⟩
      simp only [LocalInst.build, hH _ _ h1, ht, hf, Koopa.assert, Ty.isI32, hs, if_true, Option.bind_eq_bind, Option.bind_some,
        checkBb_of hH ht' h4, checkBb_of hH hf' h5]
    | jump h1 h2 =>
      simp only [localInst, Option.some.injEq] at hi; subst hi
      obtain ⟨tp, ht, ht'⟩ := hP _ _ h1
      refine ⟨trivial, ?_⟩
      simp only [LocalInst.build, ht, Option.bind_eq_bind, Option.bind_some, checkBb_of hH ht' h2]
    | call h1 h2 =>
      simp only [localInst, Option.some.injEq] at hi; subst hi
      refine ⟨trivial, ?_⟩
      simp [LocalInst.build, hF _ _ h1, checkCall_of hH h2, Koopa.assert, h2.length]
    | retNone =>
      simp only [localInst, Option.some.injEq] at hi; subst hi
      exact ⟨trivial, by simp [LocalInst.build]⟩
    | ret h h1 =>
      simp only [localInst, Option.some.injEq] at hi; subst hi
      exact ⟨trivial, by
        simp only [LocalInst.build, hH _ _ h1, Koopa.assert, isUnit_of h, Option.bind_eq_bind, Option.bind_some, if_true]⟩

theorem globalInst_build (hH : ∀ v t, H v t → q.valueType v = some t) {k : VKind} {t : Ty} (hk : InstTy H P F k t)
    (hagg : ∀ es, k = .aggregate es → ∀ e ∈ es, q.isConst e = some true) {i : GlobalInst} (hi : globalInst t k = some i) :
    i.notRaw ∧ i.build q = some (VData.new t k) := by
  cases hv : valInst t k with
  | some j =>
    have : i = .val j := by cases k <;> simp_all [globalInst, valInst]
    subst this
    exact valInst_build hH hk hagg hv
  | none =>
    cases hk with
    | globalAlloc h h1 =>
      simp only [globalInst, Option.some.injEq] at hi; subst hi
      exact ⟨trivial, by
        simp only [GlobalInst.build, hH _ _ h1, Koopa.assert, isUnit_of h, Option.bind_eq_bind, Option.bind_some, if_true]⟩
    | integer _ | zeroInit _ | undef _ | aggregate _ _ _ => simp [valInst] at hv
    | _ => simp [globalInst, valInst] at hi
end

/-! ### Running the generator -/

/-- Generating the items one after the other succeeds and yields the handles `g`. -/
inductive Runs (one : Item → Gen Nat) (g : Item → Nat) : List Item → GSt → GSt → Prop where
  | nil {s : GSt} : Runs one g [] s s
  | cons {i : Item} {is : List Item} {s s1 s2 : GSt} : one i s = some (.ok (g i, s1)) → Runs one g is s1 s2 →
      Runs one g (i :: is) s s2

theorem Runs.append {one : Item → Gen Nat} {g : Item → Nat} : ∀ {a b : List Item} {s s2 : GSt}, Runs one g (a ++ b) s s2 →
    ∃ s1, Runs one g a s s1 ∧ Runs one g b s1 s2
  | [], _, s, _, h => ⟨s, .nil, h⟩
  | _ :: _, _, _, _, .cons h h' => by
    obtain ⟨s1, h1, h2⟩ := Runs.append h'
    exact ⟨s1, .cons h h1, h2⟩

@[simp] theorem bind_def {α β : Type} (m : Gen α) (k : α → Gen β) (s : GSt) : (m >>= k) s = match m s with
    | none => none
    | some (.error e) => some (.error e)
    | some (.ok (a, s)) => k a s := rfl

@[simp] theorem pure_def {α : Type} (a : α) (s : GSt) : (pure a : Gen α) s = some (.ok (a, s)) := rfl
@[simp] theorem get_def (s : GSt) : Gen.get s = some (.ok (s, s)) := rfl
@[simp] theorem modify_def (f : GSt → GSt) (s : GSt) : Gen.modify f s = some (.ok ((), f s)) := rfl
@[simp] theorem need_some {α : Type} (a : α) : Gen.need (some a) = pure a := rfl

theorem each_vals {one : Item → Gen Nat} {g : Item → Nat} : ∀ {vs : List Value} {s s' : GSt},
    Runs one g (vs.map .val) s s' → Gen.each (fun v => one (.val v)) vs s = some (.ok (vs.map (fun v => g (.val v)), s'))
  | [], _, _, .nil => rfl
  | v :: vs, s, s', .cons h h' => by
    simp only [Gen.each, bind_def, h, each_vals h', pure_def, List.map_cons]

theorem each_bbs {one : Item → Gen Nat} {g : Item → Nat} : ∀ {vs : List BB} {s s' : GSt},
    Runs one g (vs.map .bb) s s' → Gen.each (fun v => one (.bb v)) vs s = some (.ok (vs.map (fun v => g (.bb v)), s'))
  | [], _, _, .nil => rfl
  | v :: vs, s, s', .cons h h' => by
    simp only [Gen.each, bind_def, h, each_bbs h', pure_def, List.map_cons]

theorem each_funcs {one : Item → Gen Nat} {g : Item → Nat} : ∀ {vs : List Func} {s s' : GSt},
    Runs one g (vs.map .func) s s' → Gen.each (fun v => one (.func v)) vs s = some (.ok (vs.map (fun v => g (.func v)), s'))
  | [], _, _, .nil => rfl
  | v :: vs, s, s', .cons h h' => by
    simp only [Gen.each, bind_def, h, each_funcs h', pure_def, List.map_cons]

/-- Reading a slice that was made from a list. -/
theorem read_of {kind : ItemKind} {l : List Nat} (h : Fits l) : (Slice.of kind l).read kind = pure l := by
  unfold Slice.read Slice.of
  rw [if_pos rfl]
  simp only
  rw [Nat.mod_eq_of_lt h, List.take_length]

/-- The value of kind `k` is made after what it refers to, in a function. -/
theorem genKind_local {one : Item → Gen Nat} {g : Item → Nat} {r : RVal} {k : VKind} {s s1 : GSt} {f : Func} {i : LocalInst}
    (hr : r.kind = .of k) (hf : KindFits k) (h : Runs one g (kindItems k) s s1) (hc : s1.cur = some f)
    (hi : localInst r.ty (mapKind (fun v => g (.val v)) (fun v => g (.bb v)) (fun v => g (.func v)) k) = some i) :
    genKind one r s = newLocal i s1 := by
  have hn : ∀ j : ValInst, newValue j s1 = newLocal (.val j) s1 := fun j => by simp only [newValue, bind_def, get_def, hc]
  unfold genKind
  rw [hr]
  cases k with
  | integer n | zeroInit | undef =>
    simp only [mapKind, localInst, Option.some.injEq] at hi; subst hi
    cases h; simp only [Kind.of, hn]
  | aggregate es =>
    simp only [mapKind, localInst, Option.some.injEq] at hi; subst hi
    simp only [Kind.of, bind_def, read_of (show Fits es from hf), pure_def, each_vals h, hn]
  | funcArgRef n | blockArgRef n | globalAlloc n => simp [mapKind, localInst, valInst] at hi
  | alloc =>
    cases h
    simp only [mapKind, localInst] at hi
    simp only [Kind.of]
    split at hi
    · rename_i he; cases hi; simp only [he]
    · cases hi
  | load a =>
    simp only [mapKind, localInst, Option.some.injEq] at hi; subst hi
    cases h with | cons h h' => cases h'; simp only [Kind.of, bind_def, h]
  | store a b | getPtr a b | getElemPtr a b | binary o a b =>
    simp only [mapKind, localInst, Option.some.injEq] at hi; subst hi
    cases h with | cons h h' => cases h' with | cons h1 h2 => cases h2; simp only [Kind.of, bind_def, h, h1]
  | branch c t e ta fa =>
    simp only [mapKind, localInst, Option.some.injEq] at hi; subst hi
    simp only [kindItems] at h
    obtain ⟨sb, h, hb⟩ := h.append
    obtain ⟨sa, h, ha⟩ := h.append
    cases h with | cons h h' => cases h' with | cons h1 h2 => cases h2 with | cons h2 h3 =>
      cases h3
      simp only [Kind.of, bind_def, h, h1, h2, read_of hf.1, read_of hf.2, pure_def, each_vals ha, each_vals hb]
  | jump t as =>
    simp only [mapKind, localInst, Option.some.injEq] at hi; subst hi
    cases h with | cons h h' =>
      simp only [Kind.of, bind_def, h, read_of (show Fits as from hf), pure_def, each_vals h']
  | call t as =>
    simp only [mapKind, localInst, Option.some.injEq] at hi; subst hi
    cases h with | cons h h' =>
      simp only [Kind.of, bind_def, h, read_of (show Fits as from hf), pure_def, each_vals h']
  | ret v =>
    simp only [mapKind, localInst, Option.some.injEq] at hi; subst hi
    cases v with
    | none => cases h; simp only [Kind.of, Option.map_none]
    | some v => cases h with | cons h h' => cases h'; simp only [Kind.of, bind_def, h, Option.map_some]

/-- The same among the globals. -/
theorem genKind_global {one : Item → Gen Nat} {g : Item → Nat} {r : RVal} {k : VKind} {s s1 : GSt} {i : GlobalInst}
    (hr : r.kind = .of k) (hf : KindFits k) (h : Runs one g (kindItems k) s s1) (hc : s1.cur = none)
    (hi : globalInst r.ty (mapKind (fun v => g (.val v)) (fun v => g (.bb v)) (fun v => g (.func v)) k) = some i) :
    genKind one r s = Gen.api (·.newGlobal i) s1 := by
  have hn : ∀ j : ValInst, newValue j s1 = Gen.api (·.newGlobal (.val j)) s1 := fun j => by
    simp only [newValue, bind_def, get_def, hc]
  unfold genKind
  rw [hr]
  cases k with
  | integer n | zeroInit | undef =>
    simp only [mapKind, globalInst, Option.some.injEq] at hi; subst hi
    cases h; simp only [Kind.of, hn]
  | aggregate es =>
    simp only [mapKind, globalInst, Option.some.injEq] at hi; subst hi
    simp only [Kind.of, bind_def, read_of (show Fits es from hf), pure_def, each_vals h, hn]
  | globalAlloc a =>
    simp only [mapKind, globalInst, Option.some.injEq] at hi; subst hi
    cases h with | cons h h' => cases h'; simp only [Kind.of, bind_def, h]
  | _ => simp [mapKind, globalInst, valInst] at hi

/-- New handles for an instruction depend only on the handles in it. -/
theorem mapKind_congr {val val' : Value → Value} {blk blk' : BB → BB} {fn fn' : Func → Func} {k : VKind}
    (h : ∀ i ∈ kindItems k, (∀ v, i = .val v → val v = val' v) ∧ (∀ b, i = .bb b → blk b = blk' b) ∧
      ∀ f, i = .func f → fn f = fn' f) : mapKind val blk fn k = mapKind val' blk' fn' k := by
  have hv {v : Value} (hi : Item.val v ∈ kindItems k) : val v = val' v := (h _ hi).1 v rfl
  have hb {b : BB} (hi : Item.bb b ∈ kindItems k) : blk b = blk' b := (h _ hi).2.1 b rfl
  have hf {b : Func} (hi : Item.func b ∈ kindItems k) : fn b = fn' b := (h _ hi).2.2 b rfl
  clear h
  cases k with
  | ret v => cases v <;> simp_all [mapKind, kindItems]
  | _ => simp_all [mapKind, kindItems]

end Koopa.Raw
