import Verif.Lemmas.Examples.MachineNext
/-!
The function of `MachineNext.lean` is the machine.
-/
namespace Koopa
open Koopa.Spec Koopa.Interp

section
variable {σ : Type} {lib : Lib σ} {rt : Rt} {p : Program} {f : Func} {fr : Frame} {st : St σ} {stack : List Act} {v : Value} {vs : List Value}
  {d : VData}

/-- A step or the end. -/
def Leads (p : Program) (lib : Lib σ) (chk : Bool) (n : Nat) (S : MState σ) : MState σ ⊕ MResult σ → Prop
  | .inl s' => MNext p lib chk n S s'
  | .inr r => MStop p lib S r

theorem runs_mk {a : Act} {stack' : List Act} {u : Value} {e : VData} (hf : p.funcs.get? f = some fr.func)
    (hd : fr.func.dfg.values.get? v = some d) (h : AtInst p (mk f fr (v :: vs) stack st) a stack' u e) :
    a = actOf f fr (v :: vs) ∧ stack' = stack ∧ u = v ∧ e = d := by
  obtain ⟨h1, h2, fd, h3, h4⟩ := h
  cases h1
  cases h2
  rw [show (actOf f fr (v :: vs)).fn = f from rfl, hf] at h3
  cases h3
  rw [hd] at h4; cases h4
  exact ⟨rfl, rfl, rfl, rfl⟩

theorem mk_runs (hf : p.funcs.get? f = some fr.func) (hd : fr.func.dfg.values.get? v = some d) :
    AtInst p (mk f fr (v :: vs) stack st) (actOf f fr (v :: vs)) stack v d := ⟨rfl, rfl, _, hf, hd⟩

theorem insts_listed {l : Layout} {b : BB} {is : List Value} (h : l.insts? b = some is) : b ∈ l.bbs.map (·.1) :=
  List.mem_map.2 ⟨(b, is), Map.mem_of_lookup h, rfl⟩

theorem NoOverlap.apart (h : NoOverlap p) {fd : FData} {bd : BData} (hf : p.funcs.get? f = some fd) (hd : fd.dfg.values.get? v = some d)
    {b : BB} {args is : List Value} (hp : Passes d.kind b args) (hi : fd.layout.insts? b = some is) (hb : fd.dfg.bbs.get? b = some bd) :
    Apart bd.params args :=
  ⟨(h.distinct f fd hf).2 b bd (insts_listed hi) hb, h.args f fd b bd v d args hf (insts_listed hi) hb hd hp⟩

theorem enterB_iff (hr : Agrees p rt) (hn : NoOverlap p) (hf : p.funcs.get? f = some fr.func) (hd : fr.func.dfg.values.get? v = some d)
    {b : BB} {args : List Value} (hp : Passes d.kind b args) {s : MState σ ⊕ MResult σ} :
    enterB rt f fr st stack b args = some s ↔ ∃ is regs, Enters p f fr.vals b args is regs ∧
      s = .inl { mk f fr vs stack st with acts := { actOf f fr (v :: vs) with rest := is, regs } :: stack } := by
  unfold enterB passArgs
  constructor
  · intro h
    cases hb : fr.func.dfg.bbs.get? b with
    | none => rw [hb] at h; cases h
    | some bd =>
      rw [hb] at h; simp only [] at h
      split at h
      · cases h
      · rename_i fr' hu
        split at h
        · cases h
        · rename_i is hi
          cases h
          obtain ⟨h1, h2, h3⟩ := (updateParams_iff _ _ (NoOverlap.apart hn hf hd hp hi hb)).1 hu
          refine ⟨is, fr'.vals, ⟨fr.func, bd, hf, hb, hi, ?_, h2⟩, ?_⟩
          · intro q a hm
            obtain ⟨e1, x, e2, e3⟩ := h1 q a hm
            exact ⟨e1, x, (operand_iff hr hf).1 e2, e3⟩
          · rw [h3]; rfl
  · rintro ⟨is, regs, ⟨fd, bd, e1, hb, hi, h1, h2⟩, rfl⟩
    rw [hf] at e1; cases e1
    rw [hb]; simp only []
    have hu := (updateParams_iff (rt := rt) (fr := fr) (fr' := { fr with vals := regs }) _ _ (NoOverlap.apart hn hf hd hp hi hb)).2 ⟨?_, h2, rfl⟩
    · rw [hu]; simp only [hi]; rfl
    · intro q a hm
      obtain ⟨e1, x, e2, e3⟩ := h1 q a hm
      exact ⟨e1, x, (operand_iff hr hf).2 e2, e3⟩

theorem callF_inv {g : Func} {args : List Value} {s : MState σ ⊕ MResult σ} (h : callF lib rt p f fr st stack v vs g args = some s) :
    ∃ xs gd ps t, collect (evalValue rt fr) args = some xs ∧ p.funcs.get? g = some gd ∧ gd.ty = .func ps t ∧ ps.length = xs.length ∧
      ((gd.layout.bbs = [] ∧ ((lib.call gd.name gd.ty xs st.world = none ∧ s = .inr (.failed st.world)) ∨
          ∃ x w, lib.call gd.name gd.ty xs st.world = some (x, w) ∧ s = .inl (mk f (fr.set v x) vs stack { st with world := w }))) ∨
        ∃ b is bs, gd.layout.bbs = (b, is) :: bs ∧
          s = .inl (mk g { func := gd, act := st.acts, vals := bindParams (gd.params.zip xs), allocs := [] } is
            (actOf f fr (v :: vs) :: stack) { st with acts := st.acts + 1 })) := by
  unfold callF at h
  split at h
  · cases h
  · rename_i xs hx
    split at h
    · cases h
    · rename_i gd hg
      split at h
      · rename_i ps t ht
        split at h
        · cases h
        · rename_i hl
          refine ⟨xs, gd, ps, t, hx, hg, ht, by simpa using hl, ?_⟩
          split at h
          · rename_i hb
            split at h
            · rename_i hc; cases h; exact .inl ⟨hb, .inl ⟨hc, rfl⟩⟩
            · rename_i x w hc; cases h; exact .inl ⟨hb, .inr ⟨x, w, hc, rfl⟩⟩
          · rename_i b is bs hb
            cases h; exact .inr ⟨b, is, bs, hb, rfl⟩
      · cases h

theorem callF_eq {g : Func} {args : List Value} {xs : List Val} {gd : FData} {ps : List Ty} {t : Ty} (hx : collect (evalValue rt fr) args = some xs)
    (hg : p.funcs.get? g = some gd) (ht : gd.ty = .func ps t) (hl : ps.length = xs.length) :
    callF lib rt p f fr st stack v vs g args = match gd.layout.bbs with
      | [] => match lib.call gd.name gd.ty xs st.world with
        | none => some (.inr (.failed st.world))
        | some (x, w) => some (.inl (mk f (fr.set v x) vs stack { st with world := w }))
      | (_, is) :: _ => some (.inl (mk g { func := gd, act := st.acts, vals := bindParams (gd.params.zip xs), allocs := [] } is
          (actOf f fr (v :: vs) :: stack) { st with acts := st.acts + 1 })) := by
  unfold callF
  rw [hx]; simp only []
  rw [hg]; simp only [ht]
  rw [if_neg (by simpa using hl)]
  cases gd.layout.bbs <;> rfl

theorem leaveF_returns (hr : Agrees p rt) (hf : p.funcs.get? f = some fr.func) {x : Val} (h : Returns p f fr.vals d x) :
    stepK lib rt p f fr st stack v vs d = leaveF fr.act st stack x := by
  cases h with
  | unit h => rw [stepK_unit h]
  | value h ho => rw [stepK_ret h, (operand_iff hr hf).2 ho]

theorem next_stepK (hr : Agrees p rt) (hn : NoOverlap p) (hf : p.funcs.get? f = some fr.func) (hd : fr.func.dfg.values.get? v = some d)
    {s' : MState σ} (h : MNext p lib rt.chk rt.ptrSize (mk f fr (v :: vs) stack st) s') :
    stepK lib rt p f fr st stack v vs d = some (.inl s') := by
  cases h with
  | does hrun hdo =>
    obtain ⟨rfl, rfl, rfl, rfl⟩ := runs_mk hf hd hrun
    obtain ⟨hk, fr', st', h1, h2, rfl, rfl, rfl⟩ := does_stepD hr hf hdo
    rw [stepK_data hk, h1]
    simp only [mk, h2]
  | goes hrun hgo hen =>
    obtain ⟨rfl, rfl, rfl, rfl⟩ := runs_mk hf hd hrun
    cases hgo with
    | jump hk =>
      rw [stepK_jump hk]
      exact (enterB_iff hr hn hf hd (hk ▸ .jump _ _)).2 ⟨_, _, hen, rfl⟩
    | branchTrue hk hc hi =>
      rw [stepK_branch hk, (operand_iff hr hf).2 hc]; simp only []
      rw [if_pos (asBool_iff.2 ⟨_, rfl, hi⟩)]
      exact (enterB_iff hr hn hf hd (hk ▸ .branchTrue _ _ _ _ _)).2 ⟨_, _, hen, rfl⟩
    | branchFalse hk hc hi =>
      rw [stepK_branch hk, (operand_iff hr hf).2 hc]; simp only []
      rw [if_neg (asBool_not_iff.2 hi)]
      exact (enterB_iff hr hn hf hd (hk ▸ .branchFalse _ _ _ _ _)).2 ⟨_, _, hen, rfl⟩
  | callExt hrun hc hb hl =>
    obtain ⟨rfl, rfl, rfl, rfl⟩ := runs_mk hf hd hrun
    obtain ⟨args, ps, t, hk, ho, hg, ht, hlen⟩ := hc
    rw [stepK_call hk, callF_eq ((operands_iff hr hf).2 ho) hg ht hlen, hb]; simp only []
    change lib.call _ _ _ st.world = _ at hl
    rw [hl]; rfl
  | call hrun hc hb hbd =>
    obtain ⟨rfl, rfl, rfl, rfl⟩ := runs_mk hf hd hrun
    obtain ⟨args, ps, t, hk, ho, hg, ht, hlen⟩ := hc
    rw [stepK_call hk, callF_eq ((operands_iff hr hf).2 ho) hg ht hlen, hb]
    rw [(bound_iff _ _ (hn.distinct _ _ hg).1).1 hbd]
    rfl
  | @ret a c stack' v' u d' x m hrun hret hu hm =>
    obtain ⟨rfl, rfl, rfl, rfl⟩ := runs_mk hf hd hrun
    rw [leaveF_returns hr hf hret]
    unfold leaveF
    simp only []
    cases hc : c.rest with
    | nil => rw [hc] at hu; cases hu
    | cons u' us =>
      rw [hc] at hu; cases hu
      rw [ended_iff.1 hm]; rfl

theorem stop_stepK (hr : Agrees p rt) (hf : p.funcs.get? f = some fr.func) (hd : fr.func.dfg.values.get? v = some d)
    {r : MResult σ} (h : MStop p lib (mk f fr (v :: vs) stack st) r) :
    stepK lib rt p f fr st stack v vs d = some (.inr r) := by
  cases h with
  | exit hrun hret =>
    obtain ⟨rfl, rfl, rfl, rfl⟩ := runs_mk hf hd hrun
    rw [leaveF_returns hr hf hret]; rfl
  | @noInt a v' d' x hrun hret hx =>
    obtain ⟨rfl, rfl, rfl, rfl⟩ := runs_mk hf hd hrun
    rw [leaveF_returns hr hf hret]
    cases x with
    | int n => exact absurd rfl (hx n)
    | undef | array | ptr | unsafePtr => rfl
  | fails hrun hfa =>
    obtain ⟨rfl, rfl, rfl, rfl⟩ := runs_mk hf hd hrun
    obtain ⟨hk, he⟩ := fails_stepD hr hf hfa
    rw [stepK_data hk, he]; rfl
  | refused hrun hc hb hl =>
    obtain ⟨rfl, rfl, rfl, rfl⟩ := runs_mk hf hd hrun
    obtain ⟨args, ps, t, hk, ho, hg, ht, hlen⟩ := hc
    rw [stepK_call hk, callF_eq ((operands_iff hr hf).2 ho) hg ht hlen, hb]; simp only []
    change lib.call _ _ _ st.world = _ at hl
    rw [hl]; rfl

theorem leaveF_next (hf : p.funcs.get? f = some fr.func) (hd : fr.func.dfg.values.get? v = some d) {x : Val} (h : Returns p f fr.vals d x)
    {s : MState σ ⊕ MResult σ} (hl : leaveF fr.act st stack x = some s) :
    Leads p lib rt.chk rt.ptrSize (mk f fr (v :: vs) stack st) s := by
  cases stack with
  | nil =>
    unfold leaveF at hl
    simp only [] at hl
    split at hl
    · cases hl; exact .exit (mk_runs hf hd) h
    · rename_i hx
      cases hl; exact .noInt (mk_runs hf hd) h (fun n e => hx n e)
  | cons c stack =>
    unfold leaveF at hl
    simp only [] at hl
    split at hl
    · cases hl
    · rename_i u us hu
      cases hl
      exact .ret (mk_runs hf hd) h (by rw [hu]; rfl) (ended_iff.2 rfl)

theorem enterB_next (hr : Agrees p rt) (hn : NoOverlap p) (hf : p.funcs.get? f = some fr.func) (hd : fr.func.dfg.values.get? v = some d)
    {b : BB} {args : List Value} (hp : Passes d.kind b args) (hg : Goes p f fr.vals d b args) {s : MState σ ⊕ MResult σ}
    (hl : enterB rt f fr st stack b args = some s) :
    Leads p lib rt.chk rt.ptrSize (mk f fr (v :: vs) stack st) s := by
  obtain ⟨is, regs, he, rfl⟩ := (enterB_iff (vs := vs) hr hn hf hd hp).1 hl
  exact .goes (mk_runs hf hd) hg he

theorem stepK_spec (hr : Agrees p rt) (hn : NoOverlap p) (hf : p.funcs.get? f = some fr.func) (hd : fr.func.dfg.values.get? v = some d)
    {s : MState σ ⊕ MResult σ} (h : stepK lib rt p f fr st stack v vs d = some s) :
    Leads p lib rt.chk rt.ptrSize (mk f fr (v :: vs) stack st) s := by
  rcases kind_cases (lib := lib) (rt := rt) (p := p) d with hk | ⟨b, as, hk⟩ | ⟨c, b, e, bs, es, hk⟩ | hk | ⟨r, hk⟩ | ⟨g, as, hk⟩ | hk
  · rw [stepK_data hk] at h
    split at h
    · rename_i fr' st' hs
      cases h
      obtain ⟨h1, _, _, h2⟩ := stepD_done (vs := vs) hr hf hk hs
      have := MNext.does (s := mk f fr (v :: vs) stack st) (mk_runs hf hd) h1
      simp only [mk] at this ⊢
      rw [h2]
      exact this
    · rename_i w hs
      cases h
      obtain ⟨h1, rfl⟩ := stepD_err (vs := vs) hr hf hk hs
      exact .fails (mk_runs hf hd) h1
    · cases h
  · rw [stepK_jump hk] at h
    exact enterB_next hr hn hf hd (hk ▸ .jump _ _) (.jump hk) h
  · rw [stepK_branch hk] at h
    split at h
    · cases h
    · rename_i x hx
      split at h
      · rename_i hb
        obtain ⟨i, rfl, hi⟩ := asBool_iff.1 hb
        exact enterB_next hr hn hf hd (hk ▸ .branchTrue _ _ _ _ _) (.branchTrue hk ((operand_iff hr hf).1 hx) hi) h
      · rename_i hb
        exact enterB_next hr hn hf hd (hk ▸ .branchFalse _ _ _ _ _) (.branchFalse hk ((operand_iff hr hf).1 hx) (asBool_not_iff.1 hb)) h
  · rw [stepK_unit hk] at h
    exact leaveF_next hf hd (.unit hk) h
  · rw [stepK_ret hk] at h
    split at h
    · cases h
    · rename_i x hx
      exact leaveF_next hf hd (.value hk ((operand_iff hr hf).1 hx)) h
  · rw [stepK_call hk] at h
    obtain ⟨xs, gd, ps, t, hx, hg, ht, hlen, h⟩ := callF_inv h
    have hc : Calls p f fr.vals d g gd xs := ⟨as, ps, t, hk, (operands_iff hr hf).1 hx, hg, ht, hlen⟩
    rcases h with ⟨hb, ⟨hl, rfl⟩ | ⟨x, w, hl, rfl⟩⟩ | ⟨b, is, bs, hb, rfl⟩
    · exact .refused (mk_runs hf hd) hc hb hl
    · exact .callExt (mk_runs hf hd) hc hb hl
    · exact .call (mk_runs hf hd) hc hb ((bound_iff _ _ (hn.distinct _ _ hg).1).2 rfl)
  · rw [hk.1] at h; cases h

/-- No instruction: the machine is stuck. -/
theorem stuck_of_stepK (hr : Agrees p rt) (hn : NoOverlap p) (hf : p.funcs.get? f = some fr.func) (hd : fr.func.dfg.values.get? v = some d)
    (h : stepK lib rt p f fr st stack v vs d = none) : MStuck p lib rt.chk rt.ptrSize (mk f fr (v :: vs) stack st) :=
  ⟨fun s' hs => (by rw [next_stepK hr hn hf hd hs] at h; cases h), fun r hs => (by rw [stop_stepK hr hf hd hs] at h; cases h)⟩

/-- There is no instruction with a known kind. -/
theorem stuck_of_no_data (hf : p.funcs.get? f = some fr.func) {is : List Value}
    (h : ∀ v vs d, is = v :: vs → fr.func.dfg.values.get? v ≠ some d) : MStuck p lib rt.chk rt.ptrSize (mk f fr is stack st) := by
  have no : ∀ a stack' v d, ¬ AtInst p (mk f fr is stack st) a stack' v d := by
    rintro a stack' v d ⟨h1, h2, fd, h3, h4⟩
    cases h1
    rw [show (actOf f fr is).fn = f from rfl, hf] at h3; cases h3
    cases is with
    | nil => cases h2
    | cons u us => cases h2; exact h _ _ _ rfl h4
  constructor
  · intro s' hs
    cases hs with
    | does h | goes h | callExt h | call h | ret h => exact no _ _ _ _ h
  · intro s' hs
    cases hs with
    | exit h | noInt h | fails h | refused h => exact no _ _ _ _ h

/-- Every running machine comes from a frame. -/
theorem runs_frame {S : MState σ} {a : Act} {stack : List Act} {v : Value} {d : VData} (h : AtInst p S a stack v d) :
    ∃ f fr vs st, S = mk f fr (v :: vs) stack st ∧ p.funcs.get? f = some fr.func ∧ fr.func.dfg.values.get? v = some d := by
  obtain ⟨acts, m, b, w⟩ := S
  obtain ⟨h1, h2, fd, h3, h4⟩ := h
  cases h1
  obtain ⟨f, is, regs, id, made⟩ := a
  cases is with
  | nil => cases h2
  | cons u us =>
    cases h2
    exact ⟨f, ⟨fd, id, regs, made⟩, us, ⟨m, b, w⟩, rfl, h3, h4⟩

theorem next_frame {S s' : MState σ} {chk : Bool} {n : Nat} (h : MNext p lib chk n S s') :
    ∃ f fr v vs stack d st, S = mk f fr (v :: vs) stack st ∧ p.funcs.get? f = some fr.func ∧ fr.func.dfg.values.get? v = some d := by
  cases h with
  | does h | goes h | callExt h | call h | ret h =>
    obtain ⟨f, fr, vs, st, h⟩ := runs_frame h; exact ⟨f, fr, _, vs, _, _, st, h⟩

theorem stop_frame {S : MState σ} {r : MResult σ} (h : MStop p lib S r) :
    ∃ f fr v vs stack d st, S = mk f fr (v :: vs) stack st ∧ p.funcs.get? f = some fr.func ∧ fr.func.dfg.values.get? v = some d := by
  cases h with
  | exit h | noInt h | fails h | refused h =>
    obtain ⟨f, fr, vs, st, h⟩ := runs_frame h; exact ⟨f, fr, _, vs, _, _, st, h⟩

theorem next_unique (hr : Agrees p rt) (hn : NoOverlap p) {S s t : MState σ} (h : MNext p lib rt.chk rt.ptrSize S s)
    (h' : MNext p lib rt.chk rt.ptrSize S t) : s = t := by
  obtain ⟨f, fr, v, vs, stack, d, st, rfl, hf, hd⟩ := next_frame h
  have := next_stepK hr hn hf hd h
  rw [next_stepK hr hn hf hd h'] at this
  cases this; rfl

theorem stop_unique (hr : Agrees p rt) {S : MState σ} {r r' : MResult σ} (h : MStop p lib S r) (h' : MStop p lib S r') : r = r' := by
  obtain ⟨f, fr, v, vs, stack, d, st, rfl, hf, hd⟩ := stop_frame h
  have := stop_stepK hr hf hd h
  rw [stop_stepK hr hf hd h'] at this
  cases this; rfl

theorem next_not_stop (hr : Agrees p rt) (hn : NoOverlap p) {S s : MState σ} {r : MResult σ} (h : MNext p lib rt.chk rt.ptrSize S s)
    (h' : MStop p lib S r) : False := by
  obtain ⟨f, fr, v, vs, stack, d, st, rfl, hf, hd⟩ := next_frame h
  have := next_stepK hr hn hf hd h
  rw [stop_stepK hr hf hd h'] at this
  cases this

end

end Koopa
