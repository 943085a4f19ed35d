import Verif.Lemmas.Examples.MachineFun
/-!
The interpreter runs the machine.
-/
namespace Koopa
open Koopa.Spec Koopa.Interp

section
variable {σ : Type} {lib : Lib σ} {rt : Rt} {call : Func → List Val → St σ → Out σ (Val × St σ)}
  {go : BB → Frame → St σ → Out σ (Val × St σ)} {fr : Frame} {st : St σ} {v : Value} {vs : List Value} {d : VData}

/-- An instruction of the interpreter with known data. -/
def instOf (lib : Lib σ) (rt : Rt) (call : Func → List Val → St σ → Out σ (Val × St σ))
    (go : BB → Frame → St σ → Out σ (Val × St σ)) (v : Value) (vs : List Value) (fr : Frame) (st : St σ) (d : VData) : Out σ (Val × St σ) :=
  match d.kind with
  | .alloc => (evalAlloc fr st v d).bind (fun (fr, st) => evalInsts lib rt call go vs fr st)
  | .load src => (evalLoad lib rt fr st v d src).bind (fun (fr, st) => evalInsts lib rt call go vs fr st)
  | .store value dest => (evalStore lib rt fr st value dest).bind (fun (fr, st) => evalInsts lib rt call go vs fr st)
  | .getPtr src index => (evalGetPtr rt fr st v d src index).bind (fun (fr, st) => evalInsts lib rt call go vs fr st)
  | .getElemPtr src index => (evalGetElemPtr rt fr st v d src index).bind (fun (fr, st) => evalInsts lib rt call go vs fr st)
  | .binary op lhs rhs => (evalBinary rt fr st v op lhs rhs).bind (fun (fr, st) => evalInsts lib rt call go vs fr st)
  | .call callee args => match collect (evalValue rt fr) args with
    | none => .bad
    | some xs => (call callee xs st).bind (fun (x, st) => evalInsts lib rt call go vs (fr.set v x) st)
  | .branch cond t f ts fs => match evalValue rt fr cond with
    | none => .bad
    | some c =>
      if c.asBool then (Out.unwrap (passArgs rt fr t ts)).bind (fun fr => go t fr st)
      else (Out.unwrap (passArgs rt fr f fs)).bind (fun fr => go f fr st)
  | .jump t args => (Out.unwrap (passArgs rt fr t args)).bind (fun fr => go t fr st)
  | .ret none => .done (.undef, st)
  | .ret (some r) => (Out.unwrap (evalValue rt fr r)).bind (fun x => .done (x, st))
  | _ => .bad

theorem evalInsts_cons (hd : fr.func.dfg.values.get? v = some d) :
    evalInsts lib rt call go (v :: vs) fr st = instOf lib rt call go v vs fr st d := by
  have : evalInsts lib rt call go (v :: vs) fr st = match fr.func.dfg.values.get? v with
    | none => .bad
    | some d => instOf lib rt call go v vs fr st d := rfl
  rw [this, hd]

theorem evalInsts_none (hd : fr.func.dfg.values.get? v = none) : evalInsts lib rt call go (v :: vs) fr st = .bad := by
  have : evalInsts lib rt call go (v :: vs) fr st = match fr.func.dfg.values.get? v with
    | none => .bad
    | some d => instOf lib rt call go v vs fr st d := rfl
  rw [this, hd]

theorem instOf_data (hk : Data d.kind) : instOf lib rt call go v vs fr st d =
    (stepD lib rt fr st v d).bind (fun (fr, st) => evalInsts lib rt call go vs fr st) := by
  obtain ⟨t, m, k, u⟩ := d; cases hk <;> rfl
theorem instOf_jump {b args} (hk : d.kind = .jump b args) : instOf lib rt call go v vs fr st d =
    (Out.unwrap (passArgs rt fr b args)).bind (fun fr => go b fr st) := by
  obtain ⟨t, m, k, u⟩ := d; cases hk; rfl
theorem instOf_branch {c b e bs es} (hk : d.kind = .branch c b e bs es) : instOf lib rt call go v vs fr st d =
    match evalValue rt fr c with
    | none => .bad
    | some x =>
      if x.asBool then (Out.unwrap (passArgs rt fr b bs)).bind (fun fr => go b fr st)
      else (Out.unwrap (passArgs rt fr e es)).bind (fun fr => go e fr st) := by
  obtain ⟨t, m, k, u⟩ := d; cases hk; rfl
theorem instOf_unit (hk : d.kind = .ret none) : instOf lib rt call go v vs fr st d = .done (.undef, st) := by
  obtain ⟨t, m, k, u⟩ := d; cases hk; rfl
theorem instOf_ret {r} (hk : d.kind = .ret (some r)) : instOf lib rt call go v vs fr st d =
    (Out.unwrap (evalValue rt fr r)).bind (fun x => .done (x, st)) := by
  obtain ⟨t, m, k, u⟩ := d; cases hk; rfl
theorem instOf_call {g args} (hk : d.kind = .call g args) : instOf lib rt call go v vs fr st d =
    match collect (evalValue rt fr) args with
    | none => .bad
    | some xs => (call g xs st).bind (fun (x, st) => evalInsts lib rt call go vs (fr.set v x) st) := by
  obtain ⟨t, m, k, u⟩ := d; cases hk; rfl

end

theorem MSteps.trans {σ : Type} {p : Program} {lib : Lib σ} {chk : Bool} {n : Nat} {s t u : MState σ} {k l : Nat}
    (h : MSteps p lib chk n k s t) (h' : MSteps p lib chk n l t u) : MSteps p lib chk n (k + l) s u := by
  induction h with
  | refl => rw [Nat.zero_add]; exact h'
  | step h _ ih => rw [Nat.add_right_comm]; exact .step h (ih h')

section
variable {σ : Type} {lib : Lib σ} {rt : Rt} {p : Program}

/-- What the machine `S`, in a function `f` with `stack` below, does if the interpreter yields the outcome. -/
def Follows (lib : Lib σ) (rt : Rt) (p : Program) (n : Nat) (f : Func) (act : Nat) (func : FData) (stack : List Act) (S : MState σ) :
    Out σ (Val × St σ) → Prop
  | .done (x, st') => ∃ k fr' v vs d, MSteps p lib rt.chk rt.ptrSize k S (mk f fr' (v :: vs) stack st') ∧ fr'.func = func ∧ fr'.act = act ∧
      func.dfg.values.get? v = some d ∧ Returns p f fr'.vals d x
  | .err w => ∃ k T, MSteps p lib rt.chk rt.ptrSize k S T ∧ MStop p lib T (.failed w)
  | .bad => ∃ k T, MSteps p lib rt.chk rt.ptrSize k S T ∧ MStuck p lib rt.chk rt.ptrSize T
  | .fuel => ∃ k T, n ≤ k + 1 ∧ MSteps p lib rt.chk rt.ptrSize k S T

theorem Follows.step {n n' : Nat} {f : Func} {act : Nat} {func : FData} {stack : List Act} {S S' : MState σ} {o : Out σ (Val × St σ)}
    (hs : MNext p lib rt.chk rt.ptrSize S S') (h : Follows lib rt p n f act func stack S' o) (hn : n' ≤ n + 1) :
    Follows lib rt p n' f act func stack S o := by
  cases o with
  | done a =>
    obtain ⟨x, st'⟩ := a
    obtain ⟨k, fr', v, vs, d, h1, h2⟩ := h
    exact ⟨k + 1, fr', v, vs, d, .step hs h1, h2⟩
  | err w => obtain ⟨k, T, h1, h2⟩ := h; exact ⟨k + 1, T, .step hs h1, h2⟩
  | bad => obtain ⟨k, T, h1, h2⟩ := h; exact ⟨k + 1, T, .step hs h1, h2⟩
  | fuel => obtain ⟨k, T, h1, h2⟩ := h; exact ⟨k + 1, T, by omega, .step hs h2⟩

theorem Follows.steps {n : Nat} {f : Func} {act : Nat} {func : FData} {stack : List Act} {o : Out σ (Val × St σ)} {k : Nat} :
    ∀ {S S' : MState σ}, MSteps p lib rt.chk rt.ptrSize k S S' → Follows lib rt p n f act func stack S' o → Follows lib rt p n f act func stack S o := by
  induction k with
  | zero => intro S S' hs h; cases hs; exact h
  | succ k ih =>
    intro S S' hs h
    cases hs with
    | step h1 h2 => exact Follows.step h1 (ih h2 h) (by omega)

theorem updateParams_frame : ∀ (l : List (Value × Value)) {fr fr' : Frame}, updateParams rt fr l = some fr' →
    fr'.func = fr.func ∧ fr'.act = fr.act
  | [], fr, fr', h => by cases h; exact ⟨rfl, rfl⟩
  | (q, a) :: l, fr, fr', h => by
    rw [updateParams] at h
    split at h
    · cases h
    · split at h
      · cases h
      · have := updateParams_frame l h; exact this

theorem passArgs_frame {fr fr' : Frame} {b : BB} {args : List Value} (h : passArgs rt fr b args = some fr') :
    fr'.func = fr.func ∧ fr'.act = fr.act := by
  unfold passArgs at h
  split at h
  · cases h
  · exact updateParams_frame _ h

/-- Blocks follow. -/
def FollowsBb (lib : Lib σ) (rt : Rt) (p : Program) (n : Nat) : Prop :=
  ∀ f fr is stack (st : St σ) b, p.funcs.get? f = some fr.func → fr.func.layout.insts? b = some is →
    Follows lib rt p n f fr.act fr.func stack (mk f fr is stack st) (evalBb lib rt n b fr st)

theorem evalBb_none {n : Nat} {b : BB} {fr : Frame} {st : St σ} (h : fr.func.layout.insts? b = none) :
    evalBb lib rt (n + 1) b fr st = .bad := by
  rw [evalBb, h]

theorem enter_follows (hr : Agrees p rt) (hn : NoOverlap p) {n : Nat} (hA : FollowsBb lib rt p n)
    {f : Func} {fr : Frame} {st : St σ} {stack : List Act} {v : Value} {vs : List Value} {d : VData} {b : BB} {args : List Value}
    (hf : p.funcs.get? f = some fr.func) (hd : fr.func.dfg.values.get? v = some d)
    (hk : stepK lib rt p f fr st stack v vs d = enterB rt f fr st stack b args) :
    Follows lib rt p (n + 1) f fr.act fr.func stack (mk f fr (v :: vs) stack st)
      ((Out.unwrap (passArgs rt fr b args)).bind (fun fr => evalBb lib rt n b fr st)) := by
  unfold enterB at hk
  cases hp : passArgs rt fr b args with
  | none =>
    rw [hp] at hk
    exact ⟨0, _, .refl _, stuck_of_stepK hr hn hf hd hk⟩
  | some fr' =>
    obtain ⟨e1, e2⟩ := passArgs_frame hp
    rw [hp] at hk
    show Follows lib rt p (n + 1) f fr.act fr.func stack _ (evalBb lib rt n b fr' st)
    cases hi : fr.func.layout.insts? b with
    | none =>
      rw [hi] at hk
      cases n with
      | zero => exact ⟨0, _, by omega, .refl _⟩
      | succ n =>
        rw [evalBb_none (by rw [e1]; exact hi)]
        exact ⟨0, _, .refl _, stuck_of_stepK hr hn hf hd hk⟩
    | some is =>
      rw [hi] at hk
      have h1 : Leads p lib rt.chk rt.ptrSize _ _ := stepK_spec hr hn hf hd hk
      have h2 := hA f fr' is stack st b (by rw [e1]; exact hf) (by rw [e1]; exact hi)
      rw [e1, e2] at h2
      exact Follows.step h1 h2 (by omega)

theorem Follows.weaken {n m : Nat} {f : Func} {act : Nat} {func : FData} {stack : List Act} {S : MState σ} {o : Out σ (Val × St σ)}
    (h : Follows lib rt p n f act func stack S o) (hm : m ≤ n) : Follows lib rt p m f act func stack S o := by
  cases o with
  | fuel => obtain ⟨k, T, h1, h2⟩ := h; exact ⟨k, T, by omega, h2⟩
  | done _ | err _ | bad => exact h

theorem insts_first {l : Layout} {b : BB} {is : List Value} {bs : List (BB × List Value)} (h : l.bbs = (b, is) :: bs) : l.insts? b = some is := by
  unfold Layout.insts?
  rw [h]
  simp [Map.lookup]

theorem evalFunc_eq {go : BB → Frame → St σ → Out σ (Val × St σ)} {g : Func} {xs : List Val} {st : St σ} {gd : FData} {ps : List Ty} {t : Ty}
    (hg : p.funcs.get? g = some gd) (ht : gd.ty = .func ps t) (hl : ps.length = xs.length) :
    evalFunc lib p go g xs st = match gd.layout.bbs with
      | [] => match lib.call gd.name gd.ty xs st.world with
        | none => .err st.world
        | some (x, w) => .done (x, { st with world := w })
      | (entry, _) :: _ =>
        (go entry { func := gd, act := st.acts, vals := bindParams (gd.params.zip xs), allocs := [] }
          { st with acts := st.acts + 1 }).bind (fun (x, st') => .done (x, { st' with mem := clear st.acts st'.mem })) := by
  unfold evalFunc
  rw [hg]
  simp only [ht]
  rw [if_neg (by simpa using hl)]
  cases gd.layout.bbs <;> rfl

theorem evalFunc_bad {go : BB → Frame → St σ → Out σ (Val × St σ)} {g : Func} {xs : List Val} {st : St σ}
    (h : ∀ gd ps t, p.funcs.get? g = some gd → gd.ty = .func ps t → ps.length ≠ xs.length) : evalFunc lib p go g xs st = .bad := by
  unfold evalFunc
  split
  · rfl
  · rename_i gd hg
    split
    · rename_i ps t ht
      rw [if_pos (h gd ps t hg ht)]
    · rfl

theorem callF_bad {f : Func} {fr : Frame} {st : St σ} {stack : List Act} {v : Value} {vs : List Value} {g : Func} {args : List Value} {xs : List Val}
    (hx : collect (evalValue rt fr) args = some xs)
    (h : ∀ gd ps t, p.funcs.get? g = some gd → gd.ty = .func ps t → ps.length ≠ xs.length) : callF lib rt p f fr st stack v vs g args = none := by
  unfold callF
  rw [hx]
  simp only []
  split
  · rfl
  · rename_i gd hg
    split
    · rename_i ps t ht
      rw [if_pos (h gd ps t hg ht)]
    · rfl

theorem insts_follows (hr : Agrees p rt) (hn : NoOverlap p) {n : Nat} (hA : FollowsBb lib rt p n) :
    ∀ (is : List Value) {f : Func} {fr : Frame} {st : St σ} {stack : List Act}, p.funcs.get? f = some fr.func →
    Follows lib rt p (n + 1) f fr.act fr.func stack (mk f fr is stack st)
      (evalInsts lib rt (evalFunc lib p (evalBb lib rt n)) (evalBb lib rt n) is fr st)
  | [], f, fr, st, stack, hf => ⟨0, _, .refl _, stuck_of_no_data hf (fun v vs d h => by cases h)⟩
  | v :: vs, f, fr, st, stack, hf => by
    cases hd : fr.func.dfg.values.get? v with
    | none =>
      rw [evalInsts_none hd]
      exact ⟨0, _, .refl _, stuck_of_no_data hf (fun u us e h h' => by cases h; rw [hd] at h'; cases h')⟩
    | some d =>
      rw [evalInsts_cons hd]
      rcases kind_cases (lib := lib) (rt := rt) (p := p) d with hk | ⟨b, as, hk⟩ | ⟨c, b, e, bs, es, hk⟩ | hk | ⟨r, hk⟩ | ⟨g, as, hk⟩ | hk
      · rw [instOf_data hk]
        have hs := stepK_data (lib := lib) (rt := rt) (p := p) (f := f) (fr := fr) (st := st) (stack := stack) (v := v) (vs := vs) hk
        cases ho : stepD lib rt fr st v d with
        | done a =>
          obtain ⟨fr', st'⟩ := a
          rw [ho] at hs
          have h1 : Leads p lib rt.chk rt.ptrSize _ _ := stepK_spec hr hn hf hd hs
          obtain ⟨_, e1, e2, _⟩ := stepD_done (vs := vs) hr hf hk ho
          have h2 := insts_follows hr hn hA vs (f := f) (fr := fr') (st := st') (stack := stack) (by rw [e1]; exact hf)
          rw [e1, e2] at h2
          exact Follows.step h1 h2 (by omega)
        | err w =>
          rw [ho] at hs
          have h1 : Leads p lib rt.chk rt.ptrSize _ _ := stepK_spec hr hn hf hd hs
          exact ⟨0, _, .refl _, h1⟩
        | bad =>
          rw [ho] at hs
          exact ⟨0, _, .refl _, stuck_of_stepK hr hn hf hd hs⟩
        | fuel =>
          exfalso
          generalize e : d.kind = k at hk
          cases hk with
          | alloc => rw [stepD_alloc e] at ho; unfold evalAlloc at ho; repeat' split at ho
                     all_goals cases ho
          | load => rw [stepD_load e] at ho; unfold evalLoad at ho; repeat' split at ho
                    all_goals cases ho
          | store => rw [stepD_store e] at ho; unfold evalStore at ho; repeat' split at ho
                     all_goals cases ho
          | getPtr => rw [stepD_getPtr e] at ho; unfold evalGetPtr at ho; repeat' split at ho
                      all_goals cases ho
          | getElemPtr => rw [stepD_getElemPtr e] at ho; unfold evalGetElemPtr at ho; repeat' split at ho
                          all_goals cases ho
          | binary => rw [stepD_binary e] at ho; unfold evalBinary at ho; repeat' split at ho
                      all_goals cases ho
      · rw [instOf_jump hk]
        exact enter_follows hr hn hA hf hd (stepK_jump hk)
      · rw [instOf_branch hk]
        have hs := stepK_branch (lib := lib) (rt := rt) (p := p) (f := f) (fr := fr) (st := st) (stack := stack) (v := v) (vs := vs) hk
        cases hx : evalValue rt fr c with
        | none =>
          rw [hx] at hs
          exact ⟨0, _, .refl _, stuck_of_stepK hr hn hf hd hs⟩
        | some x =>
          rw [hx] at hs
          simp only [] at hs ⊢
          split
          · rename_i hb
            rw [if_pos hb] at hs
            exact enter_follows hr hn hA hf hd hs
          · rename_i hb
            rw [if_neg hb] at hs
            exact enter_follows hr hn hA hf hd hs
      · rw [instOf_unit hk]
        exact ⟨0, fr, v, vs, d, .refl _, rfl, rfl, hd, .unit hk⟩
      · rw [instOf_ret hk]
        have hs := stepK_ret (lib := lib) (rt := rt) (p := p) (f := f) (fr := fr) (st := st) (stack := stack) (v := v) (vs := vs) hk
        cases hx : evalValue rt fr r with
        | none =>
          rw [hx] at hs
          exact ⟨0, _, .refl _, stuck_of_stepK hr hn hf hd hs⟩
        | some x => exact ⟨0, fr, v, vs, d, .refl _, rfl, rfl, hd, .value hk ((operand_iff hr hf).1 hx)⟩
      · rw [instOf_call hk]
        have hs := stepK_call (lib := lib) (rt := rt) (p := p) (f := f) (fr := fr) (st := st) (stack := stack) (v := v) (vs := vs) hk
        cases hx : collect (evalValue rt fr) as with
        | none =>
          unfold callF at hs
          rw [hx] at hs
          exact ⟨0, _, .refl _, stuck_of_stepK hr hn hf hd hs⟩
        | some xs =>
          simp only []
          by_cases hc : ∃ gd ps t, p.funcs.get? g = some gd ∧ gd.ty = .func ps t ∧ ps.length = xs.length
          · obtain ⟨gd, ps, t, hg, ht, hl⟩ := hc
            rw [callF_eq hx hg ht hl] at hs
            rw [evalFunc_eq hg ht hl]
            cases hb : gd.layout.bbs with
            | nil =>
              rw [hb] at hs
              simp only [] at hs ⊢
              cases hlib : lib.call gd.name gd.ty xs st.world with
              | none =>
                rw [hlib] at hs
                have h1 : Leads p lib rt.chk rt.ptrSize _ _ := stepK_spec hr hn hf hd hs
                exact ⟨0, _, .refl _, h1⟩
              | some a =>
                obtain ⟨x, w⟩ := a
                rw [hlib] at hs
                have h1 : Leads p lib rt.chk rt.ptrSize _ _ := stepK_spec hr hn hf hd hs
                have h2 := insts_follows hr hn hA vs (f := f) (fr := fr.set v x) (st := { st with world := w }) (stack := stack) hf
                exact Follows.step h1 h2 (by omega)
            | cons bi bs =>
              obtain ⟨b, is⟩ := bi
              rw [hb] at hs
              simp only [] at hs ⊢
              have h1 : Leads p lib rt.chk rt.ptrSize _ _ := stepK_spec hr hn hf hd hs
              have h2 := hA g { func := gd, act := st.acts, vals := bindParams (gd.params.zip xs), allocs := [] } is
                (actOf f fr (v :: vs) :: stack) { st with acts := st.acts + 1 } b hg (insts_first hb)
              simp only [] at h2
              cases ho : evalBb lib rt n b { func := gd, act := st.acts, vals := bindParams (gd.params.zip xs), allocs := [] }
                  { st with acts := st.acts + 1 } with
              | done a =>
                obtain ⟨x, st'⟩ := a
                rw [ho] at h2
                obtain ⟨k, fr', u, us, e, h3, e1, e2, e3, e4⟩ := h2
                have h4 : MNext p lib rt.chk rt.ptrSize (mk g fr' (u :: us) (actOf f fr (v :: vs) :: stack) st')
                    (mk f (fr.set v x) vs stack { st' with mem := clear st.acts st'.mem }) := by
                  have := MNext.ret (lib := lib) (chk := rt.chk) (ptrSize := rt.ptrSize) (s := mk g fr' (u :: us) (actOf f fr (v :: vs) :: stack) st')
                    (m := clear st.acts st'.mem) (u := v) (mk_runs (by rw [e1]; exact hg) (by rw [e1]; exact e3)) e4 rfl
                    (ended_iff.2 (by rw [show (actOf g fr' (u :: us)).id = st.acts from e2]; rfl))
                  exact this
                have h5 := insts_follows hr hn hA vs (f := f) (fr := fr.set v x) (st := { st' with mem := clear st.acts st'.mem }) (stack := stack) hf
                exact Follows.step h1 (Follows.steps h3 (Follows.step h4 h5 (Nat.le_succ _))) (by omega)
              | err w => rw [ho] at h2; exact Follows.step (o := .err w) h1 h2 (Nat.le_refl _)
              | bad => rw [ho] at h2; exact Follows.step (o := .bad) h1 h2 (Nat.le_refl _)
              | fuel => rw [ho] at h2; exact Follows.step (o := .fuel) h1 h2 (Nat.le_refl _)
          · have hc' : ∀ gd ps t, p.funcs.get? g = some gd → gd.ty = .func ps t → ps.length ≠ xs.length :=
              fun gd ps t h1 h2 h3 => hc ⟨gd, ps, t, h1, h2, h3⟩
            rw [callF_bad hx hc'] at hs
            rw [evalFunc_bad hc']
            exact ⟨0, _, .refl _, stuck_of_stepK hr hn hf hd hs⟩
      · rw [← evalInsts_cons hd, hk.2 _ _ _ _ _ _ hd]
        exact ⟨0, _, .refl _, stuck_of_stepK hr hn hf hd (hk.1 _ _ _ _ _ _)⟩

theorem bb_follows (hr : Agrees p rt) (hn : NoOverlap p) : ∀ n, FollowsBb lib rt p n
  | 0 => fun f fr is stack st b hf hi => ⟨0, _, by omega, .refl _⟩
  | n + 1 => fun f fr is stack st b hf hi => by
    rw [evalBb, hi]
    simp only []
    rw [hr.prog]
    exact insts_follows hr hn (bb_follows hr hn n) is hf

end

end Koopa
