import Verif.Lemmas.Same.Run
/-!
Programs that match behave in the same way.
-/
namespace Koopa
open Spec Interp

variable {M : Match} {p p' : Program} {own : Nat → Option (Func × Func)} {σ : Type}

theorem stop_match (hM : M.Ok p p') {lib : Lib σ} (hl : Blind lib) {s s' : MState σ} (h : StMatch M own s s') {r : MResult σ} (hs : MStop p lib s r) : MStop p' lib s' r := by
  cases hs with
  | exit h1 h2 =>
    obtain ⟨a', stack', v', d', k1, k2, k3, k4, k5, k6⟩ := at_match hM h h1
    have hk := k6.resolve_left (fun hi => not_inert_returns h2 hi.1)
    obtain ⟨x', l1, l2⟩ := returns_match hM k2.regs hk h2
    cases shape_int l2
    cases k3
    rw [h.world]
    exact .exit k1 l1
  | noInt h1 h2 h3 =>
    obtain ⟨a', stack', v', d', k1, k2, k3, k4, k5, k6⟩ := at_match hM h h1
    have hk := k6.resolve_left (fun hi => not_inert_returns h2 hi.1)
    obtain ⟨x', l1, l2⟩ := returns_match hM k2.regs hk h2
    cases k3
    rw [h.world]
    exact .noInt k1 l1 (fun n e => by subst e; cases l2; exact h3 n rfl)
  | fails h1 h2 =>
    obtain ⟨a', stack', v', d', k1, k2, k3, k4, k5, k6⟩ := at_match hM h h1
    have hk := k6.resolve_left (fun hi => not_inert_fails h2 hi.1)
    have l1 := fails_match hM hl k2 k5 hk h.mem h2
    rw [h.world] at l1 ⊢
    exact .fails k1 l1
  | refused h1 h2 h3 h4 =>
    obtain ⟨a', stack', v', d', k1, k2, k3, k4, k5, k6⟩ := at_match hM h h1
    have hk := k6.resolve_left (fun hi => not_inert_calls h2 hi.1)
    obtain ⟨g', gd', xs', l1, l2, l3, l4⟩ := calls_match hM k2.regs hk h2
    obtain ⟨fd, fd', n1, n2, n3, n4, -⟩ := hM.funcs _ _ l2
    obtain ⟨-, -, -, -, -, e1, -⟩ := h2
    rw [n1] at e1; cases e1
    rw [l3] at n2; cases n2
    rcases n4 with ⟨o1, o2, o3⟩ | ⟨b, is, bs, b', is', bs', o1, -⟩
    · rw [h.world] at h4 ⊢
      refine .refused k1 l1 o2 ?_
      rw [← o3, ← n3, ← hl.call _ (ObjRel.oneToOne hM own) _ _ _ _ _ l4]
      exact h4
    · rw [h3] at o1; cases o1

theorem steps_match (hM : M.Ok p p') {lib : Lib σ} (hl : Blind lib) {chk : Bool} {ptrSize : Nat} {n : Nat} {s t : MState σ} (hn : MSteps p lib chk ptrSize n s t) :
    ∀ {own : Nat → Option (Func × Func)} {s' : MState σ}, StMatch M own s s' → ∃ own' t', MSteps p' lib chk ptrSize n s' t' ∧ StMatch M own' t t' := by
  induction hn with
  | refl s => intro own s' h; exact ⟨own, s', .refl _, h⟩
  | step h1 _ ih =>
    intro own s' h
    obtain ⟨own1, t1, a1, a2⟩ := next_match hM hl h h1
    obtain ⟨own2, t2, b1, b2⟩ := ih a2
    exact ⟨own2, t2, .step a1 b1, b2⟩

theorem start_match (hM : M.Ok p p') {f f' : Func} (hF : M.F f f') {w : σ} {s : MState σ} (h : MStart p f w s) :
    ∃ own s', MStart p' f' w s' ∧ StMatch M own s s' := by
  classical
  obtain ⟨h1, h2, ⟨fd, t, b, is, bs, regs, k1, k2, k3, k4, k5⟩, h3, h4⟩ := h
  obtain ⟨fd0, fd', n1, n2, n3, n4, n5⟩ := hM.funcs _ _ hF
  rw [k1] at n1; cases n1
  rcases n4 with ⟨o1, -⟩ | ⟨b1, is1, bs1, b', is', bs', o1, o2, o3⟩
  · rw [k3] at o1; cases o1
  rw [k3] at o1; cases o1
  let own : Nat → Option (Func × Func) := fun i => if i = 0 then some (f, f') else none
  let mem' : Mem := fun o' => if hq : ∃ v v', o' = .glob v' ∧ M.G v v' then s.mem (.glob (Classical.choose hq)) else none
  have hmem : ∀ v v', M.G v v' → mem' (.glob v') = s.mem (.glob v) := by
    intro v v' hv
    have hq : ∃ u u', Obj.glob v' = .glob u' ∧ M.G u u' := ⟨v, v', rfl, hv⟩
    show (if hq : ∃ u u', Obj.glob v' = .glob u' ∧ M.G u u' then s.mem (.glob (Classical.choose hq)) else none) = _
    rw [dif_pos hq]
    obtain ⟨u', e1, e2⟩ := Classical.choose_spec hq
    cases e1
    rw [hM.gOne.2 _ _ _ e2 hv]
  have hval : ∀ v v', M.G v v' → ∃ d' init' e' x, GlobalVal p' v' d' ∧ d'.kind = .globalAlloc init' ∧ GlobalVal p' init' e' ∧ ConstVal p'.values.get? e' x ∧
      s.mem (.glob v) = some x ∧ SameShape (ObjRel M own) x x := by
    intro v v' hv
    obtain ⟨-, -, q1, -, d, d', i, i', e, e', a1, a2, a3, a4, a5, a6, a7⟩ := hM.globals v v' hv
    obtain ⟨d0, i0, e0, x, c1, c2, c3, c4, c5⟩ := h1 v q1
    have c1' : p.values.get? v = some d0 := c1
    have a1' : p.values.get? v = some d := a1
    rw [a1'] at c1'; cases c1'
    rw [a3] at c2; cases c2
    have c3' : p.values.get? i = some e0 := c3
    have a5' : p.values.get? i = some e := a5
    rw [a5'] at c3'; cases c3'
    exact ⟨d', i', e', x, a2, a4, a6, (a7 x).1 c4, c5, const_shape c4⟩
  obtain ⟨regs', q1, q2⟩ := bound_match (own := own) hM n5 All2.nil k4
  refine ⟨own, ⟨[⟨f', is', regs', 0, []⟩], mem', 1, w⟩, ⟨fun v' hv' => ?_, fun o ho => ?_, ⟨fd', t, b', is', bs', regs', n2, by rw [← n3, k2], o2, q1, rfl⟩, rfl, rfl⟩, ?_⟩
  · obtain ⟨v, hv⟩ := hM.all' v' hv'
    obtain ⟨d', i', e', x, a1, a2, a3, a4, a5, -⟩ := hval v v' hv
    exact ⟨d', i', e', x, a1, a2, a3, a4, by simp only; rw [hmem v v' hv, a5]⟩
  · show (if hq : ∃ v v', o = .glob v' ∧ M.G v v' then s.mem (.glob (Classical.choose hq)) else none) = none
    rw [dif_neg]
    rintro ⟨v, v', rfl, hv⟩
    exact ho v' (hM.globals v v' hv).2.2.2.1 rfl
  · refine ⟨?_, fun o o' ho => ?_, h3, h4, ?_, ?_, ?_⟩
    · rw [k5]
      exact .cons ⟨hF, o3, q2, rfl, fun _ _ _ => rfl, rfl⟩ .nil
    · cases ho with
      | glob hg =>
        obtain ⟨-, -, -, x, -, -, -, -, a5, a6⟩ := hval _ _ hg
        simp only
        rw [hmem _ _ hg, a5]
        exact .some a6
      | loc =>
        simp only
        rw [h2 (.loc _ _ _) (fun _ _ e => by cases e)]
        show OptRel _ none (if hq : ∃ v v', Obj.loc _ _ _ = .glob v' ∧ M.G v v' then s.mem (.glob (Classical.choose hq)) else none)
        rw [dif_neg (by rintro ⟨_, _, e, -⟩; cases e)]
        exact .none
    · intro i hi
      rw [h3] at hi
      exact if_neg (by omega)
    · exact fun i v n _ => h2 _ (fun _ _ => nofun)
    · intro i v n _
      exact dif_neg (by rintro ⟨_, _, e, -⟩; cases e)

/-- Matching programs behave in the same way. -/
theorem runs_match (hM : M.Ok p p') {f f' : Func} (hF : M.F f f') {lib : Lib σ} (hl : Blind lib) {chk : Bool} {ptrSize : Nat} {w : σ} :
    (∀ r, MRuns p lib chk ptrSize f w r → MRuns p' lib chk ptrSize f' w r) ∧ (MForever p lib chk ptrSize f w → MForever p' lib chk ptrSize f' w) ∧
    (MStucks p lib chk ptrSize f w → MStucks p' lib chk ptrSize f' w) := by
  refine ⟨?_, ?_, ?_⟩
  · rintro r ⟨s, n, t, h1, h2, h3⟩
    obtain ⟨own, s', a1, a2⟩ := start_match hM hF h1
    obtain ⟨own', t', b1, b2⟩ := steps_match hM hl h2 a2
    exact ⟨s', n, t', a1, b1, stop_match hM hl b2 h3⟩
  · rintro ⟨s, h1, h2⟩
    obtain ⟨own, s', a1, a2⟩ := start_match hM hF h1
    refine ⟨s', a1, fun n => ?_⟩
    obtain ⟨t, ht⟩ := h2 n
    obtain ⟨own', t', b1, b2⟩ := steps_match hM hl ht a2
    exact ⟨t', b1⟩
  · rintro (h | ⟨s, n, t, h1, h2, h3, h4⟩)
    · refine .inl (fun s' hs' => ?_)
      obtain ⟨own, s, a1, -⟩ := start_match hM.flip (f := f') (f' := f) hF hs'
      exact h s a1
    · obtain ⟨own, s', a1, a2⟩ := start_match hM hF h1
      obtain ⟨own', t', b1, b2⟩ := steps_match hM hl h2 a2
      refine .inr ⟨s', n, t', a1, b1, fun u' hu => ?_, fun r hr => h4 r (stop_match hM.flip hl b2.flip hr)⟩
      obtain ⟨_, u, c1, -⟩ := next_match hM.flip hl b2.flip hu
      exact h3 u c1

theorem Match.Ok.behaveSame (hM : M.Ok p p') {f f' : Func} (hF : M.F f f') : BehaveSame p p' f f' := by
  intro σ lib hl chk ptrSize w
  obtain ⟨h1, h2, h3⟩ := runs_match hM hF hl (chk := chk) (ptrSize := ptrSize) (w := w)
  obtain ⟨k1, k2, k3⟩ := runs_match hM.flip (f := f') (f' := f) hF hl (chk := chk) (ptrSize := ptrSize) (w := w)
  exact ⟨fun r => ⟨h1 r, k1 r⟩, ⟨h2, k2⟩, ⟨h3, k3⟩⟩

end Koopa
