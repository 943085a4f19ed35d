import Verif.Lemmas.Examples.MachineStep
/-!
The machine as a function.
-/
namespace Koopa
open Koopa.Spec Koopa.Interp

/-- The conditions under which the parameters of blocks are assigned at once. -/
structure NoOverlap (p : Program) : Prop where
  distinct : DistinctParams p
  args : NoLateArgs p

/-- The conditions of `NoOverlap` for one transfer of control. -/
def Apart (ps as : List Value) : Prop := ps.Nodup ∧ ∀ (i j : Nat) q, i < j → ps[i]? = some q → as[j]? ≠ some q

theorem Apart.tail {q a : Value} {ps as : List Value} (h : Apart (q :: ps) (a :: as)) : Apart ps as :=
  ⟨(List.nodup_cons.1 h.1).2, fun i j r hij hi hj => h.2 (i + 1) (j + 1) r (by omega) (by simpa using hi) (by simpa using hj)⟩

theorem Apart.ne {q a : Value} {ps as : List Value} (h : Apart (q :: ps) (a :: as)) {r b : Value} (hm : (r, b) ∈ ps.zip as) : b ≠ q := by
  intro e
  obtain ⟨j, hj⟩ := List.getElem?_of_mem (List.of_mem_zip hm).2
  exact h.2 0 (j + 1) q (by omega) rfl (by simpa [← e] using hj)

theorem updateParams_iff {rt : Rt} : ∀ (ps as : List Value) {fr fr' : Frame}, Apart ps as →
    (updateParams rt fr (ps.zip as) = some fr' ↔
      (∀ q a, (q, a) ∈ ps.zip as → (∃ d, fr.func.dfg.values.get? q = some d) ∧ ∃ x, evalValue rt fr a = some x ∧ fr'.vals q = some x) ∧
      (∀ v, (∀ a, (v, a) ∉ ps.zip as) → fr'.vals v = fr.vals v) ∧ fr' = { fr with vals := fr'.vals })
  | [], as, fr, fr', _ => by
    simp only [List.zip_nil_left, updateParams, Option.some.injEq, List.not_mem_nil, false_implies, implies_true, true_and, not_false_eq_true, true_implies]
    constructor
    · intro h; subst h; exact ⟨fun _ => rfl, rfl⟩
    · rintro ⟨h1, h2⟩
      rw [h2, show fr'.vals = fr.vals from funext h1]
  | q :: ps, [], fr, fr', _ => by
    simp only [List.zip_nil_right, updateParams, Option.some.injEq, List.not_mem_nil, false_implies, implies_true, true_and, not_false_eq_true, true_implies]
    constructor
    · intro h; subst h; exact ⟨fun _ => rfl, rfl⟩
    · rintro ⟨h1, h2⟩
      rw [h2, show fr'.vals = fr.vals from funext h1]
  | q :: ps, a :: as, fr, fr', hap => by
    have hq : ∀ b, (q, b) ∉ ps.zip as := fun b hb => (List.nodup_cons.1 hap.1).1 (List.of_mem_zip hb).1
    rw [List.zip_cons_cons, updateParams]
    constructor
    · intro h
      split at h
      · cases h
      · rename_i dq hd
        split at h
        · cases h
        · rename_i x hx
          obtain ⟨h1, h2, h3⟩ := (updateParams_iff ps as hap.tail).1 h
          refine ⟨?_, ?_, h3⟩
          · intro r b hb
            rcases List.mem_cons.1 hb with e | hb
            · cases e
              exact ⟨⟨dq, hd⟩, x, hx, by rw [h2 q hq]; simp [Frame.set]⟩
            · obtain ⟨hl, y, hy, he⟩ := h1 r b hb
              rw [evalValue_set (hap.ne hb)] at hy
              exact ⟨hl, y, hy, he⟩
          · intro v hv
            rw [h2 v (fun b hb => hv b (List.mem_cons_of_mem _ hb))]
            have : v ≠ q := fun e => hv a (by rw [e]; exact List.mem_cons_self)
            simp [Frame.set, this]
    · rintro ⟨h1, h2, h3⟩
      obtain ⟨⟨dq, hd⟩, x, hx, he⟩ := h1 q a List.mem_cons_self
      rw [hd]; simp only []
      rw [hx]; simp only []
      refine (updateParams_iff ps as hap.tail).2 ⟨?_, ?_, h3⟩
      · intro r b hb
        obtain ⟨hl, y, hy, he⟩ := h1 r b (List.mem_cons_of_mem _ hb)
        rw [evalValue_set (hap.ne hb)]
        exact ⟨hl, y, hy, he⟩
      · intro v hv
        by_cases e : v = q
        · subst e; rw [he]; simp [Frame.set]
        · rw [h2 v (fun b hb => by
            rcases List.mem_cons.1 hb with e' | hb
            · cases e'; exact e rfl
            · exact hv b hb)]
          simp [Frame.set, e]

theorem bound_iff : ∀ (ps : List Value) (xs : List Val) {regs : Value → Option Val}, ps.Nodup →
    (Bound ps xs regs ↔ regs = bindParams (ps.zip xs))
  | [], xs, regs, _ => by
    unfold Bound
    simp only [List.zip_nil_left]
    constructor
    · rintro ⟨_, h⟩; funext q; exact h q (by simp)
    · intro h; subst h; exact ⟨by simp, fun q _ => rfl⟩
  | q :: ps, [], regs, _ => by
    unfold Bound
    simp only [List.zip_nil_right]
    constructor
    · rintro ⟨h1, h2⟩
      funext r
      by_cases hr : r ∈ q :: ps
      · obtain ⟨i, hi⟩ := List.getElem?_of_mem hr
        rw [h1 i r hi]; rfl
      · rw [h2 r hr]; rfl
    · intro h; subst h; exact ⟨fun i q _ => rfl, fun q _ => rfl⟩
  | q :: ps, x :: xs, regs, hn => by
    obtain ⟨hq, hn⟩ := List.nodup_cons.1 hn
    have ih := fun r => bound_iff ps xs (regs := r) hn
    constructor
    · rintro ⟨h1, h2⟩
      have hb : Bound ps xs (fun r => if r = q then none else regs r) := by
        refine ⟨fun i r hi => ?_, fun r hr => ?_⟩
        · have : r ≠ q := fun e => hq (e ▸ List.mem_of_getElem? hi)
          simp only [this, if_false]
          exact h1 (i + 1) r (by simpa using hi)
        · by_cases e : r = q
          · simp [e]
          · simp only [e, if_false]; exact h2 r (by simp [e, hr])
      have := (ih _).1 hb
      funext r
      by_cases e : r = q
      · subst e; rw [h1 0 r rfl]; simp [bindParams]
      · have := congrFun this r
        simp only [e, if_false] at this
        rw [this]; simp [bindParams, e]
    · intro h; subst h
      have hb := (ih _).2 rfl
      refine ⟨fun i r hi => ?_, fun r hr => ?_⟩
      · cases i with
        | zero => simp at hi; subst hi; simp [bindParams]
        | succ i =>
          have hi' : ps[i]? = some r := by simpa using hi
          have : r ≠ q := fun e => hq (e ▸ List.mem_of_getElem? hi')
          simp only [List.zip_cons_cons, bindParams, this, if_false]
          exact hb.1 i r hi'
      · rw [List.mem_cons, not_or] at hr
        simp only [List.zip_cons_cons, bindParams, hr.1, if_false]
        exact hb.2 r hr.2

/-- The machine with the frame of the interpreter. -/
def mk {σ : Type} (f : Func) (fr : Frame) (is : List Value) (stack : List Act) (st : St σ) : MState σ :=
  { acts := actOf f fr is :: stack, mem := st.mem, born := st.acts, world := st.world }

/-- Memory without the objects of an activation. -/
def clear (id : Nat) (m : Mem) : Mem := fun o => match o with
  | .loc a _ _ => if a = id then none else m o
  | _ => m o

theorem ended_iff {id : Nat} {m m' : Mem} : Ended id m m' ↔ m' = clear id m := by
  unfold Ended
  constructor
  · intro h; funext o; rw [h o]; cases o <;> rfl
  · intro h o; subst h; cases o <;> rfl

section
variable {σ : Type} (lib : Lib σ) (rt : Rt) (p : Program)

/-- Leaving a function. -/
def leaveF (id : Nat) (st : St σ) (stack : List Act) (x : Val) : Option (MState σ ⊕ MResult σ) :=
  match stack with
  | [] => match x with
    | .int n => some (.inr (.exit n st.world))
    | _ => some (.inr (.failed st.world))
  | c :: stack => match c.rest with
    | [] => none
    | u :: _ => some (.inl { acts := c.gets u x :: stack, mem := clear id st.mem, born := st.acts, world := st.world })

/-- Entering a block. -/
def enterB (f : Func) (fr : Frame) (st : St σ) (stack : List Act) (b : BB) (args : List Value) : Option (MState σ ⊕ MResult σ) :=
  match passArgs rt fr b args with
  | none => none
  | some fr' => match fr.func.layout.insts? b with
    | none => none
    | some is => some (.inl (mk f fr' is stack st))

/-- Calling a function. -/
def callF (f : Func) (fr : Frame) (st : St σ) (stack : List Act) (v : Value) (vs : List Value) (g : Func) (args : List Value) :
    Option (MState σ ⊕ MResult σ) :=
  match collect (evalValue rt fr) args with
  | none => none
  | some xs => match p.funcs.get? g with
    | none => none
    | some gd => match gd.ty with
      | .func ps _ =>
        if ps.length ≠ xs.length then none
        else match gd.layout.bbs with
          | [] => match lib.call gd.name gd.ty xs st.world with
            | none => some (.inr (.failed st.world))
            | some (x, w) => some (.inl (mk f (fr.set v x) vs stack { st with world := w }))
          | (_, is) :: _ => some (.inl (mk g { func := gd, act := st.acts, vals := bindParams (gd.params.zip xs), allocs := [] } is
              (actOf f fr (v :: vs) :: stack) { st with acts := st.acts + 1 }))
      | _ => none

/-- One instruction. -/
def stepK (f : Func) (fr : Frame) (st : St σ) (stack : List Act) (v : Value) (vs : List Value) (d : VData) :
    Option (MState σ ⊕ MResult σ) :=
  match d.kind with
  | .jump b args => enterB rt f fr st stack b args
  | .branch c b e bs es => match evalValue rt fr c with
    | none => none
    | some x => if x.asBool then enterB rt f fr st stack b bs else enterB rt f fr st stack e es
  | .ret none => leaveF fr.act st stack .undef
  | .ret (some r) => match evalValue rt fr r with
    | none => none
    | some x => leaveF fr.act st stack x
  | .call g args => callF lib rt p f fr st stack v vs g args
  | _ => match stepD lib rt fr st v d with
    | .done (fr', st') => some (.inl (mk f fr' vs stack st'))
    | .err w => some (.inr (.failed w))
    | _ => none

/-- One instruction of a machine. -/
def stepF (S : MState σ) : Option (MState σ ⊕ MResult σ) :=
  match S.acts with
  | [] => none
  | a :: stack => match a.rest with
    | [] => none
    | v :: vs => match p.funcs.get? a.fn with
      | none => none
      | some fd => match fd.dfg.values.get? v with
        | none => none
        | some d => stepK lib rt p a.fn { func := fd, act := a.id, vals := a.regs, allocs := a.made }
            { mem := S.mem, acts := S.born, world := S.world } stack v vs d

end

section
variable {σ : Type} {lib : Lib σ} {rt : Rt} {p : Program} {f : Func} {fr : Frame} {st : St σ} {stack : List Act} {v : Value} {vs : List Value}
  {d : VData}

theorem stepK_jump {b args} (h : d.kind = .jump b args) : stepK lib rt p f fr st stack v vs d = enterB rt f fr st stack b args := by
  obtain ⟨t, m, k, u⟩ := d; cases h; rfl
theorem stepK_branch {c b e bs es} (h : d.kind = .branch c b e bs es) : stepK lib rt p f fr st stack v vs d = match evalValue rt fr c with
    | none => none
    | some x => if x.asBool then enterB rt f fr st stack b bs else enterB rt f fr st stack e es := by
  obtain ⟨t, m, k, u⟩ := d; cases h; rfl
theorem stepK_unit (h : d.kind = .ret none) : stepK lib rt p f fr st stack v vs d = leaveF fr.act st stack .undef := by
  obtain ⟨t, m, k, u⟩ := d; cases h; rfl
theorem stepK_ret {r} (h : d.kind = .ret (some r)) : stepK lib rt p f fr st stack v vs d = match evalValue rt fr r with
    | none => none
    | some x => leaveF fr.act st stack x := by
  obtain ⟨t, m, k, u⟩ := d; cases h; rfl
theorem stepK_call {g args} (h : d.kind = .call g args) : stepK lib rt p f fr st stack v vs d = callF lib rt p f fr st stack v vs g args := by
  obtain ⟨t, m, k, u⟩ := d; cases h; rfl
theorem stepK_data (h : Data d.kind) : stepK lib rt p f fr st stack v vs d = match stepD lib rt fr st v d with
    | .done (fr', st') => some (.inl (mk f fr' vs stack st'))
    | .err w => some (.inr (.failed w))
    | _ => none := by
  obtain ⟨t, m, k, u⟩ := d; cases h <;> rfl

/-- The kinds of instructions. -/
theorem kind_cases (d : VData) : Data d.kind ∨ (∃ b as, d.kind = .jump b as) ∨ (∃ c b e bs es, d.kind = .branch c b e bs es) ∨
    d.kind = .ret none ∨ (∃ r, d.kind = .ret (some r)) ∨ (∃ g as, d.kind = .call g as) ∨
    ((∀ f fr st stack v vs, stepK lib rt p f fr st stack v vs d = none) ∧
      ∀ call go v vs fr st, fr.func.dfg.values.get? v = some d → evalInsts lib rt call go (v :: vs) fr st = .bad) := by
  obtain ⟨t, m, k, u⟩ := d
  have bad : ∀ (k : VKind), (∀ f fr (st : St σ) stack v vs, stepK lib rt p f fr st stack v vs ⟨t, m, k, u⟩ = none) →
      (∀ call go v vs fr (st : St σ), (match some (VData.mk t m k u) with
        | none => Out.bad
        | some d => match d.kind with
          | .alloc => (evalAlloc fr st v d).bind (fun (fr, st) => evalInsts lib rt call go vs fr st)
          | .load src => (evalLoad lib rt fr st v d src).bind (fun (fr, st) => evalInsts lib rt call go vs fr st)
          | .store value dest => (evalStore lib rt fr st value dest).bind (fun (fr, st) => evalInsts lib rt call go vs fr st)
          | .getPtr src index => (evalGetPtr rt fr st v d src index).bind (fun (fr, st) => evalInsts lib rt call go vs fr st)
          | .getElemPtr src index => (evalGetElemPtr rt fr st v d src index).bind (fun (fr, st) => evalInsts lib rt call go vs fr st)
          | .binary op lhs rhs => (evalBinary rt fr st v op lhs rhs).bind (fun (fr, st) => evalInsts lib rt call go vs fr st)
          | .call callee args => match collect (evalValue rt fr) args with
            | none => .bad
            | some xs => (call callee xs st).bind (fun (x, st) => evalInsts lib rt call go vs (fr.set v x) st)
          | .branch cond t f ts fs => match evalValue rt fr cond with
            | none => .bad
            | some c =>
              if c.asBool then (Out.unwrap (passArgs rt fr t ts)).bind (fun fr => go t fr st)
              else (Out.unwrap (passArgs rt fr f fs)).bind (fun fr => go f fr st)
          | .jump t args => (Out.unwrap (passArgs rt fr t args)).bind (fun fr => go t fr st)
          | .ret none => .done (.undef, st)
          | .ret (some r) => (Out.unwrap (evalValue rt fr r)).bind (fun x => .done (x, st))
          | _ => .bad : Out σ (Val × St σ)) = .bad) → _ := fun k h1 h2 =>
    show (∀ f fr (st : St σ) stack v vs, stepK lib rt p f fr st stack v vs ⟨t, m, k, u⟩ = none) ∧
      ∀ call go v vs fr (st : St σ), fr.func.dfg.values.get? v = some ⟨t, m, k, u⟩ → evalInsts lib rt call go (v :: vs) fr st = .bad from
    ⟨h1, fun call go v vs fr st hd => by
      have := h2 call go v vs fr st
      rw [← hd] at this
      exact this⟩
  cases k with
  | jump b as => exact .inr (.inl ⟨_, _, rfl⟩)
  | branch c b e bs es => exact .inr (.inr (.inl ⟨_, _, _, _, _, rfl⟩))
  | ret r =>
    cases r with
    | none => exact .inr (.inr (.inr (.inl rfl)))
    | some r => exact .inr (.inr (.inr (.inr (.inl ⟨_, rfl⟩))))
  | call g as => exact .inr (.inr (.inr (.inr (.inr (.inl ⟨_, _, rfl⟩)))))
  | alloc => exact .inl .alloc
  | load a => exact .inl (.load a)
  | store a b => exact .inl (.store a b)
  | getPtr a b => exact .inl (.getPtr a b)
  | getElemPtr a b => exact .inl (.getElemPtr a b)
  | binary o a b => exact .inl (.binary o a b)
  | _ => exact .inr (.inr (.inr (.inr (.inr (.inr (bad _ (fun _ _ _ _ _ _ => rfl) (fun _ _ _ _ _ _ => rfl)))))))

end

end Koopa
