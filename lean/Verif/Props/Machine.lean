import Verif.Lemmas.Examples.MachineWhole
import Verif.Lemmas.Front.Convert
import Verif.Lemmas.Lib.RawGenStep
/-!
C50: the interpreter runs programs as the machine of `Spec/Machine.lean` does.
-/
namespace Koopa
open Koopa.Spec Koopa.Interp

/-- The bound on the nesting of constants is large enough for this program. -/
def DeepEnough (p : Program) (depth : Nat) : Prop :=
  (∀ f fd v d, p.funcs.get? f = some fd → fd.dfg.values.get? v = some d → ∀ x,
    evalConst fd.dfg.values.get? depth d = some x ↔ ConstVal fd.dfg.values.get? d x) ∧
  ∀ v d, p.values.get? v = some d → ∀ x, evalConst p.values.get? depth d = some x ↔ ConstVal p.values.get? d x

/-- `C50_machine_partial` for one bound on the nesting of constants. -/
theorem machine_at_depth {p : Program} {ord : List Func} {f : Func} (hp : DistinctParams p) (ha : NoLateArgs p) (hm : FirstMain p ord f)
    {depth : Nat} (hdep : DeepEnough p depth) {σ : Type} (lib : Lib σ) (chk : Bool) (ptrSize : Nat) (w : σ) :
    (∀ n w', (∃ fuel, interpret lib chk depth ptrSize fuel ord p w = .done (n, w')) ↔ MRuns p lib chk ptrSize f w (.exit n w')) ∧
    (∀ w', (∃ fuel, interpret lib chk depth ptrSize fuel ord p w = .err w') ↔ MRuns p lib chk ptrSize f w (.failed w')) ∧
    ((∃ fuel, interpret lib chk depth ptrSize fuel ord p w = .bad) ↔ MStucks p lib chk ptrSize f w) ∧
    ((∀ fuel, interpret lib chk depth ptrSize fuel ord p w = .fuel) ↔ MForever p lib chk ptrSize f w) := by
  have hn : NoOverlap p := ⟨hp, ha⟩
  rcases start_cases (chk := chk) (ps := ptrSize) lib w hn hm hdep with ⟨hno, hbad⟩ | ⟨rt, b, is, fd, fr, st, hr, rfl, rfl, hf, hfr, hi, hs, hint⟩
  · refine ⟨fun n w' => ⟨?_, ?_⟩, fun w' => ⟨?_, ?_⟩, ⟨?_, ?_⟩, ⟨?_, ?_⟩⟩
    · rintro ⟨fuel, h⟩; rw [hbad] at h; cases h
    · rintro ⟨s, _, _, h, _⟩; exact absurd h (hno s)
    · rintro ⟨fuel, h⟩; rw [hbad] at h; cases h
    · rintro ⟨s, _, _, h, _⟩; exact absurd h (hno s)
    · intro _; exact .inl hno
    · intro _; exact ⟨0, hbad 0⟩
    · intro h; have := h 0; rw [hbad] at this; cases this
    · rintro ⟨s, h, _⟩; exact absurd h (hno s)
  · have hst : MStart p f w (mk f fr is [] st) := (hs _).2 rfl
    have key := run_follows hn hr hf hfr hi hint
    -- a final state after `k` steps decides what the interpreter yields with enough fuel
    have fin : ∀ k T, MSteps p lib rt.chk rt.ptrSize k (mk f fr is [] st) T → Final lib rt p T →
        interpret lib rt.chk depth rt.ptrSize (k + 2) ord p w ≠ .fuel := by
      intro k T h1 h2 he
      have := key (k + 2)
      rw [he] at this
      obtain ⟨l, U, h3, h4⟩ := this
      have := final_le hr hn h1 h2 h4
      omega
    refine ⟨fun n w' => ⟨?_, ?_⟩, fun w' => ⟨?_, ?_⟩, ⟨?_, ?_⟩, ⟨?_, ?_⟩⟩
    · rintro ⟨fuel, h⟩
      have := key fuel
      rw [h] at this
      obtain ⟨k, T, h1, h2⟩ := this
      exact ⟨_, k, T, hst, h1, h2⟩
    · rintro ⟨s, k, T, h0, h1, h2⟩
      rw [(hs s).1 h0] at h1
      have hT := stop_final hr hn h2
      refine ⟨k + 2, ?_⟩
      have := key (k + 2)
      have hne := fin k T h1 hT
      cases ho : interpret lib rt.chk depth rt.ptrSize (k + 2) ord p w with
      | done r =>
        obtain ⟨n', w''⟩ := r
        rw [ho] at this
        obtain ⟨l, U, h3, h4⟩ := this
        rw [← final_unique hr hn h1 hT h3 (stop_final hr hn h4)] at h4
        cases stop_unique hr h2 h4
        rfl
      | err w'' =>
        rw [ho] at this
        obtain ⟨l, U, h3, h4⟩ := this
        rw [← final_unique hr hn h1 hT h3 (stop_final hr hn h4)] at h4
        cases stop_unique hr h2 h4
      | bad =>
        rw [ho] at this
        obtain ⟨l, U, h3, h4⟩ := this
        rw [← final_unique hr hn h1 hT h3 h4.1] at h4
        exact absurd h2 (h4.2 _)
      | fuel => exact absurd ho hne
    · rintro ⟨fuel, h⟩
      have := key fuel
      rw [h] at this
      obtain ⟨k, T, h1, h2⟩ := this
      exact ⟨_, k, T, hst, h1, h2⟩
    · rintro ⟨s, k, T, h0, h1, h2⟩
      rw [(hs s).1 h0] at h1
      have hT := stop_final hr hn h2
      refine ⟨k + 2, ?_⟩
      have := key (k + 2)
      have hne := fin k T h1 hT
      cases ho : interpret lib rt.chk depth rt.ptrSize (k + 2) ord p w with
      | done r =>
        obtain ⟨n', w''⟩ := r
        rw [ho] at this
        obtain ⟨l, U, h3, h4⟩ := this
        rw [← final_unique hr hn h1 hT h3 (stop_final hr hn h4)] at h4
        cases stop_unique hr h2 h4
      | err w'' =>
        rw [ho] at this
        obtain ⟨l, U, h3, h4⟩ := this
        rw [← final_unique hr hn h1 hT h3 (stop_final hr hn h4)] at h4
        cases stop_unique hr h2 h4
        rfl
      | bad =>
        rw [ho] at this
        obtain ⟨l, U, h3, h4⟩ := this
        rw [← final_unique hr hn h1 hT h3 h4.1] at h4
        exact absurd h2 (h4.2 _)
      | fuel => exact absurd ho hne
    · rintro ⟨fuel, h⟩
      have := key fuel
      rw [h] at this
      obtain ⟨k, T, h1, h2⟩ := this
      exact .inr ⟨_, k, T, hst, h1, h2⟩
    · rintro (h | ⟨s, k, T, h0, h1, h2⟩)
      · exact absurd hst (h _)
      · rw [(hs s).1 h0] at h1
        refine ⟨k + 2, ?_⟩
        have := key (k + 2)
        have hne := fin k T h1 h2.1
        cases ho : interpret lib rt.chk depth rt.ptrSize (k + 2) ord p w with
        | done r =>
          obtain ⟨n', w''⟩ := r
          rw [ho] at this
          obtain ⟨l, U, h3, h4⟩ := this
          rw [← final_unique hr hn h1 h2.1 h3 (stop_final hr hn h4)] at h4
          exact absurd h4 (h2.2 _)
        | err w'' =>
          rw [ho] at this
          obtain ⟨l, U, h3, h4⟩ := this
          rw [← final_unique hr hn h1 h2.1 h3 (stop_final hr hn h4)] at h4
          exact absurd h4 (h2.2 _)
        | bad => rfl
        | fuel => exact absurd ho hne
    · intro h
      refine ⟨_, hst, fun n => ?_⟩
      have := key (n + 1)
      rw [h] at this
      obtain ⟨k, T, h1, h2⟩ := this
      obtain ⟨j, rfl⟩ : ∃ j, k = n + j := ⟨k - n, by omega⟩
      obtain ⟨u, h3, _⟩ := MSteps.prefix h2
      exact ⟨u, h3⟩
    · rintro ⟨s, h0, h1⟩ fuel
      rw [(hs s).1 h0] at h1
      have no : ∀ k T, MSteps p lib rt.chk rt.ptrSize k (mk f fr is [] st) T → ¬ Final lib rt p T := by
        intro k T h2 h3
        obtain ⟨U, h4⟩ := h1 (k + 1)
        have := final_le hr hn h2 h3 h4
        omega
      have := key fuel
      cases ho : interpret lib rt.chk depth rt.ptrSize fuel ord p w with
      | done r =>
        obtain ⟨n', w''⟩ := r
        rw [ho] at this
        obtain ⟨l, U, h3, h4⟩ := this
        exact absurd (stop_final hr hn h4) (no l U h3)
      | err w'' =>
        rw [ho] at this
        obtain ⟨l, U, h3, h4⟩ := this
        exact absurd (stop_final hr hn h4) (no l U h3)
      | bad =>
        rw [ho] at this
        obtain ⟨l, U, h3, h4⟩ := this
        exact absurd h4.1 (no l U h3)
      | fuel => rfl

/-- Missing for C50: transfers of control that pass a parameter of the target block at a later position; for these the
interpreter does something else, see `C40_violated`.
Otherwise, with a bound on the nesting of constants that is large enough: the interpreter returns an integer if and only if the machine
exits with it, in the same world; it fails if and only if the machine fails, in the same world; it panics or has undefined behaviour if and only
if the machine cannot start or gets stuck; and no bound on the recursion is large enough if and only if the machine runs for ever. -/
theorem C50_machine_partial {p : Program} {ord : List Func} {f : Func} (hp : DistinctParams p) (ha : NoLateArgs p) (hm : FirstMain p ord f) :
    ∃ d0, ∀ depth, d0 ≤ depth → ∀ {σ : Type} (lib : Lib σ) (chk : Bool) (ptrSize : Nat) (w : σ),
      (∀ n w', (∃ fuel, interpret lib chk depth ptrSize fuel ord p w = .done (n, w')) ↔ MRuns p lib chk ptrSize f w (.exit n w')) ∧
      (∀ w', (∃ fuel, interpret lib chk depth ptrSize fuel ord p w = .err w') ↔ MRuns p lib chk ptrSize f w (.failed w')) ∧
      ((∃ fuel, interpret lib chk depth ptrSize fuel ord p w = .bad) ↔ MStucks p lib chk ptrSize f w) ∧
      ((∀ fuel, interpret lib chk depth ptrSize fuel ord p w = .fuel) ↔ MForever p lib chk ptrSize f w) := by
  obtain ⟨d0, hd0⟩ := depth_program p
  exact ⟨d0, fun depth hdep σ lib chk ptrSize w => machine_at_depth hp ha hm (hd0 depth hdep) lib chk ptrSize w⟩

/-- The conditions on parameters and arguments, decided. -/
def noOverlapCheck (p : Program) : Bool :=
  p.funcs.entries.all (fun (_, fd) => decide fd.params.Nodup && fd.dfg.bbs.entries.all (fun (b, bd) => decide bd.params.Nodup &&
    fd.dfg.values.entries.all (fun (_, d) =>
      let ok (args : List Value) : Bool := (List.range args.length).all (fun j => (List.range j).all (fun i =>
        !(bd.params[i]?.isSome && bd.params[i]? == args[j]?)))
      match d.kind with
      | .jump b' args => b' != b || ok args
      | .branch _ t e ts es => (t != b || ok ts) && (e != b || ok es)
      | _ => true)))

theorem noOverlapCheck_sound {p : Program} (h : noOverlapCheck p = true) : DistinctParams p ∧ NoLateArgs p := by
  unfold noOverlapCheck at h
  rw [List.all_eq_true] at h
  have key : ∀ f fd, p.funcs.get? f = some fd → fd.params.Nodup ∧ ∀ b bd, fd.dfg.bbs.get? b = some bd → bd.params.Nodup ∧
      ∀ v d args, fd.dfg.values.get? v = some d → Passes d.kind b args →
        ∀ (i j : Nat) q, i < j → bd.params[i]? = some q → args[j]? ≠ some q := by
    intro f fd hf
    have h1 := h (f, fd) (mem_of_get? hf)
    simp only [Bool.and_eq_true, decide_eq_true_eq, List.all_eq_true] at h1
    refine ⟨h1.1, fun b bd hb => ?_⟩
    have h2 := h1.2 (b, bd) (mem_of_get? hb)
    simp only [] at h2
    refine ⟨h2.1, fun v d args hv hp i j q hij hi hj => ?_⟩
    have h3 := h2.2 (v, d) (mem_of_get? hv)
    have no : ∀ {args : List Value}, args[j]? = some q → ((List.range args.length).all (fun j => (List.range j).all (fun i =>
          !(bd.params[i]?.isSome && bd.params[i]? == args[j]?))) = true) → False := by
      intro args hj h
      rw [List.all_eq_true] at h
      have h4 := h j (List.mem_range.2 (List.getElem?_eq_some_iff.1 hj).1)
      rw [List.all_eq_true] at h4
      have h5 := h4 i (List.mem_range.2 hij)
      rw [hi, hj] at h5
      simp at h5
    obtain ⟨t, nm, k, u⟩ := d
    simp only [] at hp
    cases hp with
    | jump b args =>
      simp only [bne_self_eq_false, Bool.false_or] at h3
      exact no hj h3
    | branchTrue c b e bs es =>
      simp only [bne_self_eq_false, Bool.false_or, Bool.and_eq_true] at h3
      exact no hj h3.1
    | branchFalse c t b bs es =>
      simp only [bne_self_eq_false, Bool.false_or, Bool.and_eq_true] at h3
      exact no hj h3.2
  exact ⟨fun f fd hf => ⟨(key f fd hf).1, fun b bd _ hb => ((key f fd hf).2 b bd hb).1⟩,
    fun f fd b bd v d args hf _ hb hd hp => ((key f fd hf).2 b bd hb).2 v d args hd hp⟩

theorem Accepted.distinctParams {w : World} {input : Str} {p : Program} (h : Accepted w input p) : DistinctParams p := by
  obtain ⟨gs, hg, -⟩ := C47_program_is_text h
  obtain ⟨vars, fns, A⟩ := h.fromText hg
  intro f fd hf
  constructor
  · obtain ⟨ts, r, _, _, _, _, hp⟩ := A.funcTy hf
    exact Raw.params_nodup (p := p) (f := f) (mk := .funcArgRef) (by intro a b e; cases e; rfl) (fun i v hv => by
      obtain ⟨x, hx, hk, _⟩ := hp i v hv; exact ⟨x, hx, hk⟩)
  · intro b bd hm hb
    obtain ⟨x, hx, hp⟩ := A.blockData hf hm
    rw [hb] at hx; cases hx
    exact Raw.params_nodup (p := p) (f := f) (mk := .blockArgRef) (by intro a b e; cases e; rfl) hp

/-- C50 for programs from text: only the condition on arguments remains. -/
theorem C50_accepted_partial {w0 : World} {input : Str} {p : Program} {ord : List Func} {f : Func} (h : Accepted w0 input p)
    (ha : NoLateArgs p) (hm : FirstMain p ord f) :
    ∃ d0, ∀ depth, d0 ≤ depth → ∀ {σ : Type} (lib : Lib σ) (chk : Bool) (ptrSize : Nat) (w : σ),
      (∀ n w', (∃ fuel, interpret lib chk depth ptrSize fuel ord p w = .done (n, w')) ↔ MRuns p lib chk ptrSize f w (.exit n w')) ∧
      (∀ w', (∃ fuel, interpret lib chk depth ptrSize fuel ord p w = .err w') ↔ MRuns p lib chk ptrSize f w (.failed w')) ∧
      ((∃ fuel, interpret lib chk depth ptrSize fuel ord p w = .bad) ↔ MStucks p lib chk ptrSize f w) ∧
      ((∀ fuel, interpret lib chk depth ptrSize fuel ord p w = .fuel) ↔ MForever p lib chk ptrSize f w) :=
  C50_machine_partial h.distinctParams ha hm

/-- A program with a global array, recursion, and block parameters. -/
def machineText : Str :=
  ("global @a = alloc [i32, 2], {1, 2} " ++
   "fun @f(@n: i32): i32 {%e: br @n, %t, %z %t: %m = sub @n, 1 %r = call @f(%m) %s = add %r, @n ret %s %z: ret 0} " ++
   "fun @main(): i32 {%e: %p = getelemptr @a, 1 %x = load %p jump %b(%x, 3) %b(%u: i32, %v: i32): %y = call @f(%v) %w = add %u, %y ret %w}").toList

theorem firstMain_of_find {p : Program} {ord : List Func} {f : Func} {fd : FData} (h : findMain p ord = some f) (hf : p.funcs.get? f = some fd)
    (hb : fd.layout.bbs ≠ []) : FirstMain p ord f := by
  unfold findMain at h
  rw [List.find?_eq_some_iff_append] at h
  obtain ⟨h1, a, b, rfl, h2⟩ := h
  rw [hf] at h1
  refine ⟨a, b, fd, rfl, hf, by simpa using h1, hb, fun g gd hg hgd e => ?_⟩
  have := h2 g hg
  rw [hgd] at this
  simp [e] at this

/-- The hypotheses of `C50_machine_partial`, and the result. -/
def machineCheck (p : Program) : Bool :=
  noOverlapCheck p && returnsCheck 8 p && (match findMain p p.funcs.keys with
    | none => false
    | some f => match p.funcs.get? f with
      | none => false
      | some fd => !fd.layout.bbs.isEmpty)

/-- The hypotheses of both theorems are met by a program that returns 8. -/
example : ∃ p f, Accepted someWorld machineText p ∧ DistinctParams p ∧ NoLateArgs p ∧ FirstMain p p.funcs.keys f ∧
    ∃ w, interpret noLib true 10 8 10 p.funcs.keys p () = .done (8, w) := by
  obtain ⟨p, h, hq⟩ := acceptsWith_iff (input := machineText) (q := machineCheck) (by decide +kernel)
  unfold machineCheck at hq
  rw [Bool.and_eq_true, Bool.and_eq_true] at hq
  obtain ⟨⟨h1, h2⟩, h3⟩ := hq
  split at h3
  · cases h3
  · rename_i f hm
    split at h3
    · cases h3
    · rename_i fd hf
      refine ⟨p, f, h, (noOverlapCheck_sound h1).1, (noOverlapCheck_sound h1).2, firstMain_of_find hm hf (fun e => by rw [e] at h3; cases h3), ?_⟩
      unfold returnsCheck at h2
      split at h2
      · rename_i m w hm
        exact ⟨w, by rw [hm, eq_of_beq h2]⟩
      · cases h2

end Koopa
