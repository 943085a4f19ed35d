import Verif.Spec.Ssa
import Verif.Lemmas.Back.LlvmBlocks
/-!
In the translated functions definitions come before uses if they do in the program.
-/
namespace Koopa
open Spec Spec.Ll

section
variable {p : Program} {M : Mod} {f : Func} {fd : FData} {N : Names} {F : Fn} {n : Nat} {ts : List Ty} {r : Ty}

theorem makes_defs {i : Inst} {m : Str} {t : LTy} (h : i.Makes m t) : m ∈ i.defs := by
  cases h <;> exact List.mem_singleton_self _

/-- Where an instruction comes from. -/
theorem insts_at : ∀ {vs : List Value} {xs : List Inst}, InstsOf p fd N vs xs → ∀ {A B : List Inst} {i : Inst}, xs = A ++ i :: B →
    ∃ pre u post d ys zs ws, vs = pre ++ u :: post ∧ fd.dfg.values.get? u = some d ∧ InstOf p fd N u d (ys ++ i :: zs) ∧
      InstsOf p fd N pre ws ∧ A = ws ++ ys := by
  intro vs xs h
  induction h with
  | nil => intro A B i h; simp at h
  | @cons v d vs xs ys h1 h2 h3 ih =>
    intro A B i h
    rcases List.append_eq_append_iff.1 h with ⟨as, e1, e2⟩ | ⟨cs, e1, e2⟩
    · obtain ⟨pre, u, post, d', ys', zs, ws, k1, k2, k3, k4, k5⟩ := ih e2
      exact ⟨v :: pre, u, post, d', ys', zs, xs ++ ws, by rw [k1]; rfl, k2, k3, .cons h1 h2 k4, by rw [e1, k5, List.append_assoc]⟩
    · cases cs with
      | nil =>
        obtain ⟨pre, u, post, d', ys', zs, ws, k1, k2, k3, k4, k5⟩ := ih (A := []) e2.symm
        refine ⟨v :: pre, u, post, d', ys', zs, xs ++ ws, by rw [k1]; rfl, k2, k3, .cons h1 h2 k4, ?_⟩
        rw [List.append_assoc, ← k5, e1]; simp
      | cons c cs =>
        cases e2
        exact ⟨[], v, vs, d, A, cs, [], rfl, h1, by rw [← e1]; exact h2, .nil, rfl⟩

/-- What an instruction uses: operands, or the condition computed just before. -/
theorem instOf_uses {v : Value} {d : VData} {xs : List Inst} (h : InstOf p fd N v d xs) : ∀ {ys zs : List Inst} {i : Inst}, xs = ys ++ i :: zs → ∀ m ∈ i.uses,
    m ∈ ys.flatMap Inst.defs ∨ ∃ x ∈ operands d.kind, ∃ o, OpdOf fd N x o ∧ m ∈ o.locs := by
  have one : ∀ {ys zs : List Inst} {a i : Inst}, [a] = ys ++ i :: zs → ys = [] ∧ i = a := by
    intro ys zs a i h
    cases ys with
    | nil => cases h; exact ⟨rfl, rfl⟩
    | cons y ys => simp at h
  have two : ∀ {ys zs : List Inst} {a b i : Inst}, [a, b] = ys ++ i :: zs → (ys = [] ∧ i = a) ∨ (ys = [a] ∧ i = b) := by
    intro ys zs a b i h
    cases ys with
    | nil => cases h; exact .inl ⟨rfl, rfl⟩
    | cons y ys =>
      injection h with h1 h2
      obtain ⟨rfl, rfl⟩ := one h2
      exact .inr ⟨by rw [h1], rfl⟩
  have args : ∀ {vs : List Value} {as : List (Ty × Opd)}, All2 (TOpdOf p fd N) vs as → ∀ m ∈ as.flatMap (fun a => a.2.locs), ∃ x ∈ vs, ∃ o, OpdOf fd N x o ∧ m ∈ o.locs := by
    intro vs as h m hm
    obtain ⟨a, a1, a2⟩ := List.mem_flatMap.1 hm
    obtain ⟨x, x1, x2⟩ := all2_mem' h a1
    exact ⟨x, x1, a.2, x2.2, a2⟩
  intro ys zs i e m hm
  cases h with
  | alloc a1 => obtain ⟨rfl, rfl⟩ := one e; cases hm
  | load a1 a2 a3 => obtain ⟨rfl, rfl⟩ := one e; exact .inr ⟨_, by rw [a1]; exact List.mem_singleton_self _, _, a3.2, hm⟩
  | store a1 a2 a3 =>
    obtain ⟨rfl, rfl⟩ := one e
    rcases List.mem_append.1 hm with hm | hm
    · exact .inr ⟨_, by rw [a1]; simp [operands], _, a2.2, hm⟩
    · exact .inr ⟨_, by rw [a1]; simp [operands], _, a3.2, hm⟩
  | getPtr a1 a2 a3 a4 a5 =>
    obtain ⟨rfl, rfl⟩ := one e
    simp only [Inst.uses, List.flatMap_cons, List.flatMap_nil, List.append_nil, List.mem_append] at hm
    rcases hm with hm | hm
    · exact .inr ⟨_, by rw [a1]; simp [operands], _, a4.2, hm⟩
    · exact .inr ⟨_, by rw [a1]; simp [operands], _, a5.2, hm⟩
  | getElemPtr a1 a2 a3 a4 a5 =>
    obtain ⟨rfl, rfl⟩ := one e
    simp only [Inst.uses, List.flatMap_cons, List.flatMap_nil, List.append_nil, List.mem_append, Opd.locs, List.nil_append] at hm
    rcases hm with hm | hm
    · exact .inr ⟨_, by rw [a1]; simp [operands], _, a4.2, hm⟩
    · exact .inr ⟨_, by rw [a1]; simp [operands], _, a5.2, hm⟩
  | arith a1 a2 a3 a4 a5 =>
    obtain ⟨rfl, rfl⟩ := one e
    rcases List.mem_append.1 hm with hm | hm
    · exact .inr ⟨_, by rw [a1]; simp [operands], _, a4, hm⟩
    · exact .inr ⟨_, by rw [a1]; simp [operands], _, a5, hm⟩
  | compare a1 a2 a3 a4 a5 a6 =>
    rcases two e with ⟨rfl, rfl⟩ | ⟨rfl, rfl⟩
    · rcases List.mem_append.1 hm with hm | hm
      · exact .inr ⟨_, by rw [a1]; simp [operands], _, a5, hm⟩
      · exact .inr ⟨_, by rw [a1]; simp [operands], _, a6, hm⟩
    · left
      simpa [Inst.uses, Opd.locs, Inst.defs] using hm
  | branch a1 a2 a3 a4 a5 =>
    rcases two e with ⟨rfl, rfl⟩ | ⟨rfl, rfl⟩
    · rcases List.mem_append.1 hm with hm | hm
      · exact .inr ⟨_, by rw [a1]; simp [operands], _, a3, hm⟩
      · cases hm
    · left
      simpa [Inst.uses, Opd.locs, Inst.defs] using hm
  | jump a1 => obtain ⟨rfl, rfl⟩ := one e; cases hm
  | call a1 a2 a3 a4 a5 => obtain ⟨rfl, rfl⟩ := one e; exact .inr (by rw [a1]; exact args a5 m hm)
  | callVoid a1 a2 a3 a4 => obtain ⟨rfl, rfl⟩ := one e; exact .inr (by rw [a1]; exact args a4 m hm)
  | retVoid a1 => obtain ⟨rfl, rfl⟩ := one e; cases hm
  | ret a1 a2 => obtain ⟨rfl, rfl⟩ := one e; exact .inr ⟨_, by rw [a1]; exact List.mem_singleton_self _, _, a2.2, hm⟩

variable (C : TCtx p M f fd N F n ts r)
include C

/-- Ways in the translated function are ways in the function. -/
theorem TCtx.avoids {c : BB} {l : Str} (hc : LabelOf N c l) {l' : Str} (h : F.Avoids (· = l) l') : ∀ {b : BB}, LabelOf N b l' → Avoids p f (· = c) b := by
  induction h with
  | @entry B Bs hB hn =>
    intro b hb
    have hF := C.fnOf.blks
    rw [hB] at hF
    generalize hl : fd.layout.bbs = qs at hF
    cases hF with
    | @cons q _ qs _ g1 g2 =>
      cases C.distinct.bbs _ _ _ g1.1 hb
      refine .entry C.get (by rw [hl]; rfl) (fun e => hn ?_)
      have g1 := g1.1
      rw [e, show N.bb c = _ from hc] at g1
      exact (List.cons.inj (Option.some.inj g1)).2.symm
  | @step B l' h1 h2 h3 hn ih =>
    intro b hb
    obtain ⟨a, is, k1, k2⟩ := C.block h2
    obtain ⟨t, d, t1, t2, -, -, t5⟩ := C.labels k1 k2
    obtain ⟨b', b1, b2⟩ := all2_mem' t5 h3
    cases C.distinct.bbs _ _ _ b2 hb
    refine .step (ih k2.1) ⟨fd, is, t, d, C.get, k1, t1, C.local t2, b1⟩ (fun e => hn ?_)
    subst e
    have hb : N.bb b = some ('%' :: l') := hb
    rw [show N.bb b = _ from hc] at hb
    exact (List.cons.inj (Option.some.inj hb)).2.symm

/-- What an instruction mentions is defined before it. -/
theorem TCtx.reaches (hU : UsesDominated p) {b : BB} {pre post : List Value} {u : Value} (hb : (b, pre ++ u :: post) ∈ fd.layout.bbs) {B : Blk}
    (hB : BlkOf p fd N (b, pre ++ u :: post) B) {d : VData} (hd : fd.dfg.values.get? u = some d) {x : Value} (hx : x ∈ operands d.kind) {o : Opd} (ho : OpdOf fd N x o)
    {m : Str} (hm : m ∈ o.locs) {before : List Inst} (hw : ∃ ws, InstsOf p fd N pre ws ∧ ∀ i ∈ ws, i ∈ before) : Reaches F B before m := by
  cases ho with
  | glob | cst => cases hm
  | @loc y _ o1 o2 o3 o4 =>
    cases List.mem_singleton.1 hm
    obtain ⟨j, hj⟩ := List.getElem?_of_mem hb
    obtain ⟨d', hd', W⟩ := C.body.insts j pre.length b _ u hj (by simp)
    rw [hd] at hd'; cases hd'
    have hv : Mentionable p f fd x := by
      rcases writable_operands W hx with h | h | h
      · exact .inl ⟨_, _, h⟩
      · exact mentionable_usable h
      · exact mentionable_constant h
    rcases hv with ⟨j', i', hv⟩ | ⟨z, z1, z2⟩
    · cases hv with
      | global h1 =>
        obtain ⟨z, -, -, h2, -⟩ := C.P.insts x h1
        rw [C.P.globalId x z h2] at o1; cases o1
      | arg h1 =>
        obtain ⟨q, h2, d', h3, h4, h5⟩ := all2_mem C.fnOf.params h1
        rw [o4] at h5; cases h5
        exact .param (List.mem_map.2 ⟨q, h2, rfl⟩)
      | param h1 h2 h3 h4 h5 =>
        rename_i j1 b0 c is0 is1 bd
        have h6 := List.mem_of_getElem? h2
        obtain ⟨B', b1, b2, ⟨bd', us, b3, hus, b4⟩, b5⟩ := all2_mem C.fnOf.blks h6
        rw [h3] at b3; cases b3
        obtain ⟨φ, g1, g2⟩ := phis_get' b4 x h4
        rw [o4] at g2; cases g2
        refine .phi b1 (List.mem_map.2 ⟨φ, g1, rfl⟩) (fun ha => ?_)
        exact hU.params f fd b _ u d x c _ C.get hb (by simp) hd hx (List.mem_map.2 ⟨_, h6, rfl⟩) h3 h4 (C.avoids b2 ha hB.1)
      | inst h1 h2 h3 h4 h5 =>
        have h6 := List.mem_of_getElem? h2
        rw [o2] at h4; cases h4
        rcases hU.insts f fd b pre u post d x _ _ C.get hb hd hx h6 (List.mem_of_getElem? h3) with h7 | ⟨h7, h8⟩
        · obtain ⟨ws, w1, w2⟩ := hw
          obtain ⟨d', ys, c1, c2, c3⟩ := insts_mem w1 h7
          rw [o2] at c1; cases c1
          obtain ⟨i, e1, e2⟩ := C.makes c2 o2 h5 o4
          exact .here (List.mem_flatMap.2 ⟨i, w2 i (c3 i e1), makes_defs e2⟩)
        · obtain ⟨B', b1, b2, -, b5⟩ := all2_mem C.fnOf.blks h6
          obtain ⟨d', ys, c1, c2, c3⟩ := insts_mem b5 (List.mem_of_getElem? h3)
          rw [o2] at c1; cases c1
          obtain ⟨i, e1, e2⟩ := C.makes c2 o2 h5 o4
          refine .inst b1 (List.mem_flatMap.2 ⟨i, c3 i e1, makes_defs e2⟩) (fun e => h7 ?_) (fun ha => h8 (C.avoids b2 ha hB.1))
          have b2 := b2
          rw [e] at b2
          exact C.distinct.bbs _ _ _ b2 hB.1
    · rw [o2] at z1; cases z1
      rw [o3] at z2; cases z2

omit C in
theorem phiArg_operand {b : BB} {k : Nat} {K : VKind} {a : Value} (h : BackLlvm.phiArg b k K = some a) : a ∈ operands K := by
  cases K with
  | branch c t f ta fa =>
    simp only [BackLlvm.phiArg] at h
    simp only [operands, List.mem_cons, List.mem_append]
    split at h
    · exact .inr (.inl (List.mem_of_getElem? h))
    · exact .inr (.inr (List.mem_of_getElem? h))
  | jump t as => exact List.mem_of_getElem? h
  | _ => cases h

theorem TCtx.ssa (hU : UsesDominated p) : F.Ssa := by
  refine ⟨fun B hB is i js e m hm => ?_, fun B hB φ hφ q hq B' hB' e m hm => ?_⟩
  · obtain ⟨b, vs, h1, h2⟩ := C.block hB
    obtain ⟨pre, u, post, d, ys, zs, ws, rfl, k2, k3, k4, rfl⟩ := insts_at h2.2.2 e
    rcases instOf_uses k3 rfl m hm with h | ⟨x, x1, o, x2, x3⟩
    · exact .here (by rw [List.flatMap_append]; exact List.mem_append_right _ h)
    · exact C.reaches hU h1 h2 k2 x1 x2 x3 ⟨ws, k4, fun i hi => List.mem_append_left _ hi⟩
  · obtain ⟨b, vs, h1, hl, ⟨bd, us, hbd, hus, hphis⟩, -⟩ := C.block hB
    obtain ⟨k, v, hk, d, hd, -, hty, hinc⟩ := phis_get hphis φ hφ
    obtain ⟨u, u1, d', a, c, u2, u3, u4, u5, u6⟩ := all2_mem' hinc hq
    obtain ⟨is', c1, c2⟩ := ((C.wf.parents f fd C.get).parent u c).1 u5
    obtain ⟨pre, post, rfl⟩ := List.append_of_mem c2
    obtain ⟨c', js, g1, g2⟩ := C.block hB'
    have hcc : c' = c := by
      have g3 := g2.1
      rw [e] at g3
      exact C.distinct.bbs _ _ _ g3 u6
    subst hcc
    cases keys_eq C.body.blocksOnce c1 g1
    obtain ⟨ws, zs, w1, w2, -⟩ := insts_split g2.2.2
    exact C.reaches hU g1 g2 u2 (phiArg_operand u3) u4 hm ⟨ws, w2, fun i hi => by rw [w1]; exact List.mem_append_left _ hi⟩

/-! ### The other way round -/

/-- Ways in the function are ways in the translated function. -/
theorem TCtx.avoids' {c : BB} {l : Str} (hc : LabelOf N c l) {b : BB} (h : Avoids p f (· = c) b) : ∀ {l' : Str}, LabelOf N b l' → F.Avoids (· = l) l' := by
  have lab : ∀ {b : BB} {l l' : Str}, LabelOf N b l → LabelOf N b l' → l = l' := by
    intro b l l' h h'
    have h : N.bb b = _ := h
    rw [show N.bb b = _ from h'] at h
    exact (List.cons.inj (Option.some.inj h)).2.symm
  induction h with
  | @entry fd' q hf hq hn =>
    intro l' hl'
    rw [C.get] at hf; cases hf
    have hF := C.fnOf.blks
    generalize hl : fd.layout.bbs = qs at hF hq
    generalize hk : F.blks = Bs at hF
    cases hF with
    | nil => cases hq
    | cons g1 g2 =>
      cases hq
      cases lab g1.1 hl'
      exact .entry hk (fun e => hn (C.distinct.bbs _ _ _ hl' (by rw [e]; exact hc)))
  | @step a b h1 h2 hn ih =>
    intro l' hl'
    obtain ⟨fd', is, u, x, e1, e2, e3, ⟨fd'', e4, e5⟩, e6⟩ := h2
    rw [C.get] at e1 e4; cases e1; cases e4
    obtain ⟨B, b1, b2⟩ := all2_mem C.fnOf.blks e2
    obtain ⟨t, d, t1, t2, t3, -, t5⟩ := C.labels e2 b2
    have hut : u = t := by
      obtain ⟨init, t', rfl, -, hm⟩ := C.body.ends a is e2
      have key : ∀ w z, w ∈ init ++ [t'] → fd.dfg.values.get? w = some z → terminator z.kind = true → w = t' := by
        intro w z hw hz ht
        rcases List.mem_append.1 hw with hw | hw
        · obtain ⟨z', g1, g2⟩ := hm w hw
          rw [hz] at g1; cases g1
          rw [ht] at g2; cases g2
        · exact List.mem_singleton.1 hw
      rw [key u x e3 e5 (targets_term e6), key t d t1 t2 t3]
    subst hut
    rw [e5] at t2; cases t2
    obtain ⟨l'', l1, l2⟩ := all2_mem t5 e6
    cases lab l2 hl'
    exact .step (ih b2.1) b1 l1 (fun e => hn (C.distinct.bbs _ _ _ hl' (by rw [e]; exact hc)))

omit C in
/-- The names that an instruction defines are those of one value. -/
theorem instOf_owner {v : Value} {d : VData} {xs : List Inst} (h : InstOf p fd N v d xs) {m : Str} (hm : m ∈ xs.flatMap Inst.defs) :
    N.ent (.value v) = some m ∧ terminator d.kind = false ∨ N.ent (.temp v) = some m := by
  cases h with
  | compare a1 a2 a3 a4 =>
    simp only [List.flatMap_cons, List.flatMap_nil, Inst.defs, List.mem_append, List.mem_singleton, List.append_nil] at hm
    rcases hm with rfl | rfl
    · exact .inr a4
    · exact .inl ⟨a3, by rw [a1]; rfl⟩
  | branch a1 a2 =>
    simp only [List.flatMap_cons, List.flatMap_nil, Inst.defs, List.mem_append, List.mem_singleton, List.append_nil, List.not_mem_nil, or_false] at hm
    subst hm; exact .inr a2
  | alloc a1 a2 a3 =>
    simp only [List.flatMap_cons, List.flatMap_nil, Inst.defs, List.mem_singleton, List.append_nil] at hm
    subst hm; exact .inl ⟨a3, by rw [a1]; rfl⟩
  | load a1 a2 | getPtr a1 a2 | getElemPtr a1 a2 =>
    simp only [List.flatMap_cons, List.flatMap_nil, Inst.defs, List.mem_singleton, List.append_nil] at hm
    subst hm; exact .inl ⟨a2, by rw [a1]; rfl⟩
  | arith a1 a2 a3 | call a1 a2 a3 =>
    simp only [List.flatMap_cons, List.flatMap_nil, Inst.defs, List.mem_singleton, List.append_nil] at hm
    subst hm; exact .inl ⟨a3, by rw [a1]; rfl⟩
  | store | jump | callVoid | retVoid | ret => simp [Inst.defs] at hm

theorem insts_owner {vs : List Value} {xs : List Inst} (h : InstsOf p fd N vs xs) {m : Str} (hm : m ∈ xs.flatMap Inst.defs) {x : Value}
    (hx : N.ent (.value x) = some m) : x ∈ vs ∧ ∃ d, fd.dfg.values.get? x = some d ∧ terminator d.kind = false := by
  obtain ⟨i, i1, i2⟩ := List.mem_flatMap.1 hm
  obtain ⟨v, d, ys, k1, k2, k3, k4, -⟩ := insts_mem' h i1
  rcases instOf_owner k3 (List.mem_flatMap.2 ⟨i, k4, i2⟩) with ⟨h1, h2⟩ | h1
  · cases C.distinct.ents _ _ _ hx h1
    exact ⟨k1, d, k2, h2⟩
  · cases C.distinct.ents _ _ _ hx h1

/-- Operands are used by the first translated instruction, or are passed to a block. -/
theorem TCtx.uses' {v : Value} {d : VData} (hd : fd.dfg.values.get? v = some d) {xs : List Inst} (h : InstOf p fd N v d xs) {x : Value} (hx : x ∈ operands d.kind) :
    (∃ i zs o, xs = i :: zs ∧ OpdOf fd N x o ∧ ∀ m ∈ o.locs, m ∈ i.uses) ∨ ∃ b k, b ∈ targets d.kind ∧ BackLlvm.phiArg b k d.kind = some x := by
  have T := C.instTy hd
  have args : ∀ {vs : List Value} {as : List (Ty × Opd)}, All2 (TOpdOf p fd N) vs as → x ∈ vs → ∃ o, OpdOf fd N x o ∧ ∀ m ∈ o.locs, m ∈ as.flatMap (fun a => a.2.locs) := by
    intro vs as h hx
    obtain ⟨a, a1, a2⟩ := all2_mem h hx
    exact ⟨a.2, a2.2, fun m hm => List.mem_flatMap.2 ⟨a, a1, hm⟩⟩
  cases h with
  | alloc a1 => rw [a1] at hx; cases hx
  | load a1 a2 a3 =>
    rw [a1] at hx
    cases List.mem_singleton.1 hx
    exact .inl ⟨_, _, _, rfl, a3.2, fun m hm => hm⟩
  | store a1 a2 a3 =>
    rw [a1] at hx
    rcases List.mem_cons.1 hx with rfl | hx
    · exact .inl ⟨_, _, _, rfl, a2.2, fun m hm => List.mem_append_left _ hm⟩
    · cases List.mem_singleton.1 hx
      exact .inl ⟨_, _, _, rfl, a3.2, fun m hm => List.mem_append_right _ hm⟩
  | getPtr a1 a2 a3 a4 a5 =>
    rw [a1] at hx
    rcases List.mem_cons.1 hx with rfl | hx
    · exact .inl ⟨_, _, _, rfl, a4.2, fun m hm => List.mem_append_left _ hm⟩
    · cases List.mem_singleton.1 hx
      exact .inl ⟨_, _, _, rfl, a5.2, fun m hm => List.mem_append_right _ (by simpa using hm)⟩
  | getElemPtr a1 a2 a3 a4 a5 =>
    rw [a1] at hx
    rcases List.mem_cons.1 hx with rfl | hx
    · exact .inl ⟨_, _, _, rfl, a4.2, fun m hm => List.mem_append_left _ hm⟩
    · cases List.mem_singleton.1 hx
      exact .inl ⟨_, _, _, rfl, a5.2, fun m hm => List.mem_append_right _ (by simpa [Opd.locs] using hm)⟩
  | arith a1 a2 a3 a4 a5 =>
    rw [a1] at hx
    rcases List.mem_cons.1 hx with rfl | hx
    · exact .inl ⟨_, _, _, rfl, a4, fun m hm => List.mem_append_left _ hm⟩
    · cases List.mem_singleton.1 hx
      exact .inl ⟨_, _, _, rfl, a5, fun m hm => List.mem_append_right _ hm⟩
  | compare a1 a2 a3 a4 a5 a6 =>
    rw [a1] at hx
    rcases List.mem_cons.1 hx with rfl | hx
    · exact .inl ⟨_, _, _, rfl, a5, fun m hm => List.mem_append_left _ hm⟩
    · cases List.mem_singleton.1 hx
      exact .inl ⟨_, _, _, rfl, a6, fun m hm => List.mem_append_right _ hm⟩
  | branch a1 a2 a3 a4 a5 =>
    rw [a1] at hx T
    rcases List.mem_cons.1 hx with rfl | hx
    · exact .inl ⟨_, _, _, rfl, a3, fun m hm => List.mem_append_left _ hm⟩
    · right
      rw [a1]
      generalize d.ty = t at T
      cases T with
      | branch t1 t2 t3 t4 t5 t6 =>
        rcases List.mem_append.1 hx with hx | hx
        · obtain ⟨k, hk⟩ := List.getElem?_of_mem hx
          exact ⟨_, k, List.mem_cons_self, by simp only [BackLlvm.phiArg, if_true]; exact hk⟩
        · obtain ⟨k, hk⟩ := List.getElem?_of_mem hx
          refine ⟨_, k, List.mem_cons_of_mem _ (List.mem_singleton_self _), ?_⟩
          simp only [BackLlvm.phiArg]
          rw [if_neg (fun e => by rw [(t6 e).2] at hx; cases hx)]
          exact hk
  | jump a1 a2 =>
    right
    rw [a1] at hx ⊢
    obtain ⟨k, hk⟩ := List.getElem?_of_mem hx
    exact ⟨_, k, List.mem_singleton_self _, hk⟩
  | call a1 a2 a3 a4 a5 =>
    rw [a1] at hx
    obtain ⟨o, o1, o2⟩ := args a5 hx
    exact .inl ⟨_, _, _, rfl, o1, o2⟩
  | callVoid a1 a2 a3 a4 =>
    rw [a1] at hx
    obtain ⟨o, o1, o2⟩ := args a4 hx
    exact .inl ⟨_, _, _, rfl, o1, o2⟩
  | retVoid a1 => rw [a1] at hx; cases hx
  | ret a1 a2 =>
    rw [a1] at hx
    cases List.mem_singleton.1 hx
    exact .inl ⟨_, _, _, rfl, a2.2, fun m hm => hm⟩

/-- The name of an operand is defined on every way to the instruction. -/
theorem TCtx.used (hS : F.Ssa) {b : BB} {pre post : List Value} {u : Value} (hb : (b, pre ++ u :: post) ∈ fd.layout.bbs) {d : VData}
    (hd : fd.dfg.values.get? u = some d) {x : Value} (hx : x ∈ operands d.kind) {y : VData} (hy : fd.dfg.values.get? x = some y) (hk : y.kind.isConst = false) :
    ∃ B before m ws, BlkOf p fd N (b, pre ++ u :: post) B ∧ N.ent (.value x) = some m ∧ Reaches F B before m ∧
      (InstsOf p fd N pre before ∨ before = B.insts ∧ InstsOf p fd N (pre ++ u :: post) ws ∧ before = ws ∧ terminator d.kind = true) := by
  have name : ∀ o, OpdOf fd N x o → ∃ m, o = .loc m ∧ N.ent (.value x) = some m := by
    intro o ho
    cases ho with
    | glob h => rw [C.P.localId f x y (C.local hy)] at h; cases h
    | cst h1 h2 h3 => rw [hy] at h2; cases h2; rw [hk] at h3; cases h3
    | loc h1 h2 h3 h4 => exact ⟨_, rfl, h4⟩
  obtain ⟨B, b1, b2⟩ := all2_mem C.fnOf.blks hb
  obtain ⟨xs, zs, e1, e2, e3⟩ := insts_split b2.2.2
  cases e3 with
  | cons g1 g2 g3 =>
    rw [hd] at g1; cases g1
    rcases C.uses' hd g2 hx with ⟨i, zs', o, rfl, o1, o2⟩ | ⟨c, k, c1, c2⟩
    · obtain ⟨m, rfl, hm⟩ := name o o1
      refine ⟨B, xs, m, [], b2, hm, hS.insts B b1 xs i _ (by rw [e1]; rfl) m (o2 m (List.mem_singleton_self _)), .inl e2⟩
    · obtain ⟨⟨c', is'⟩, k1, rfl⟩ := List.mem_map.1 (C.wf.laidOut f fd b _ u d c C.get hb (by simp) (C.local hd) c1)
      obtain ⟨B', b3, b4, ⟨bd, us, b5, hus, b6⟩, -⟩ := all2_mem C.fnOf.blks k1
      have hu : u ∈ us := hus.mem_iff.2 ((C.wf.blockUses f c' bd ⟨fd, C.get, b5⟩ u).2 ⟨d, C.local hd, c1⟩)
      obtain ⟨φ, f1, f2⟩ : ∃ φ ∈ B'.phis, ∃ v, PhiOf fd N c' us k v φ := by
        have hlt : k < bd.params.length := by
          have T := C.instTy hd
          have key : ∀ {as : List Value} {ts' : List Ty}, ParamTys p f c' ts' → All2 (HasTy p f) as ts' → as[k]? = some x → k < bd.params.length := by
            rintro as ts' ⟨bd', ⟨fd', e1, e2⟩, e3⟩ e4 e5
            rw [C.get] at e1; cases e1
            rw [b5] at e2; cases e2
            rw [all2_len e3, ← all2_len e4]
            exact (List.getElem?_eq_some_iff.1 e5).1
          revert c1 c2 T
          generalize d.kind = K
          generalize d.ty = t
          intro c1 c2 T
          cases T with
          | branch t1 t2 t3 t4 t5 t6 =>
            simp only [BackLlvm.phiArg] at c2
            split at c2
            · rename_i e; subst e; exact key t2 t4 c2
            · rename_i e
              simp only [targets, List.mem_cons, List.not_mem_nil, or_false] at c1
              rcases c1 with rfl | rfl
              · exact absurd rfl e
              · exact key t3 t5 c2
          | jump t1 t2 =>
            simp only [targets, List.mem_cons, List.not_mem_nil, or_false] at c1
            subst c1
            exact key t1 t2 c2
          | _ => cases c2
        have get : ∀ {i : Nat} {vs : List Value} {φs : List Phi}, PhisOf fd N c' us i vs φs → ∀ k, k < vs.length →
            ∃ φ ∈ φs, ∃ v, PhiOf fd N c' us (i + k) v φ := by
          intro i vs φs h
          induction h with
          | nil => intro k h; cases h
          | cons h1 h2 ih =>
            intro k hk
            cases k with
            | zero => exact ⟨_, List.mem_cons_self, _, h1⟩
            | succ k =>
              obtain ⟨φ, p1, v, p2⟩ := ih k (Nat.lt_of_succ_lt_succ hk)
              exact ⟨φ, List.mem_cons_of_mem _ p1, v, by rw [show ∀ i, i + (k + 1) = i + 1 + k by omega]; exact p2⟩
        obtain ⟨φ, p1, v, p2⟩ := get b6 k hlt
        rw [Nat.zero_add] at p2
        exact ⟨φ, p1, v, p2⟩
      obtain ⟨v, dv, -, -, -, hinc⟩ := f2
      obtain ⟨q, q1, d', a, c'', u2, u3, u4, u5, u6⟩ := all2_mem hinc hu
      rw [hd] at u2; cases u2
      rw [c2] at u3; cases u3
      have hpar := ((C.wf.parents f fd C.get).parent u b).2 ⟨_, hb, by simp⟩
      rw [u5] at hpar; cases hpar
      obtain ⟨m, e, hm⟩ := name _ u4
      have hlab : B.label = q.2 := by
        have := b2.1
        rw [show N.bb b = _ from u6] at this
        exact (List.cons.inj (Option.some.inj this)).2.symm
      exact ⟨B, B.insts, m, B.insts, b2, hm, hS.phis B' b3 φ f1 q q1 B b1 hlab m (by rw [e]; exact List.mem_singleton_self _),
        .inr ⟨rfl, b2.2.2, rfl, targets_term c1⟩⟩

/-- Instructions that can be written are no parameters or constants. -/
theorem TCtx.listed_kind {c : BB} {is : List Value} (hc : (c, is) ∈ fd.layout.bbs) {x : Value} (hx : x ∈ is) :
    ∃ y, fd.dfg.values.get? x = some y ∧ y.kind.isConst = false ∧ (∀ i, y.kind ≠ .funcArgRef i) ∧ ∀ i, y.kind ≠ .blockArgRef i := by
  obtain ⟨j, hj⟩ := List.getElem?_of_mem hc
  obtain ⟨i, hi⟩ := List.getElem?_of_mem hx
  obtain ⟨y, hy, W⟩ := C.body.insts j i c is x hj hi
  refine ⟨y, hy, (writable_kind W).1, ?_, ?_⟩ <;>
  · intro i e
    rw [e] at W
    cases W

theorem TCtx.param_owner {m : Str} (hm : m ∈ F.params.map (·.2)) {x : Value} (hx : N.ent (.value x) = some m) {y : VData} (hy : fd.dfg.values.get? x = some y) :
    ∃ i, y.kind = .funcArgRef i := by
  obtain ⟨q, q1, rfl⟩ := List.mem_map.1 hm
  obtain ⟨v, v1, d, v2, -, v3⟩ := all2_mem' C.fnOf.params q1
  cases C.distinct.ents _ _ _ hx v3
  obtain ⟨k, hk⟩ := List.getElem?_of_mem v1
  obtain ⟨z, h1, h2, -⟩ := C.body.params.2 k x hk
  rw [hy] at h1; cases h1
  exact ⟨k, h2⟩

theorem TCtx.phi_owner {B : Blk} {c : BB} {is : List Value} (hc : (c, is) ∈ fd.layout.bbs) (hB : BlkOf p fd N (c, is) B) {m : Str} (hm : m ∈ B.phis.map (·.name))
    {x : Value} (hx : N.ent (.value x) = some m) {y : VData} (hy : fd.dfg.values.get? x = some y) :
    (∃ i, y.kind = .blockArgRef i) ∧ ∃ bd, fd.dfg.bbs.get? c = some bd ∧ x ∈ bd.params := by
  obtain ⟨φ, f1, rfl⟩ := List.mem_map.1 hm
  obtain ⟨-, ⟨bd, us, b1, -, b2⟩, -⟩ := hB
  obtain ⟨k, v, h1, d, h2, h3, -⟩ := phis_get b2 φ f1
  cases C.distinct.ents _ _ _ hx h3
  obtain ⟨bd', e1, e2⟩ := C.body.blocks c is hc
  rw [b1] at e1; cases e1
  obtain ⟨z, z1, z2, -⟩ := e2 k x h1
  rw [hy] at z1; cases z1
  exact ⟨⟨k, z2⟩, bd, b1, List.mem_of_getElem? h1⟩

/-- If definitions come before uses in the translated function, then they do in the function. -/
theorem TCtx.dominated (hS : F.Ssa) :
    (∀ b pre u post x v c is, (b, pre ++ u :: post) ∈ fd.layout.bbs → fd.dfg.values.get? u = some x →
      v ∈ operands x.kind → (c, is) ∈ fd.layout.bbs → v ∈ is → v ∈ pre ∨ c ≠ b ∧ Dominates p f c b) ∧
    (∀ b is u x v c bd, (b, is) ∈ fd.layout.bbs → u ∈ is → fd.dfg.values.get? u = some x →
      v ∈ operands x.kind → c ∈ fd.layout.bbs.map (·.1) → fd.dfg.bbs.get? c = some bd → v ∈ bd.params → Dominates p f c b) := by
  have hPR := C.wf.parents f fd C.get
  constructor
  · intro b pre u post x v c is hb hu hv hc hvc
    obtain ⟨y, y1, y2, y3, y4⟩ := C.listed_kind hc hvc
    obtain ⟨B, before, m, ws, g1, g2, g3, g4⟩ := C.used hS hb hu hv y1 y2
    cases g3 with
    | param h => obtain ⟨i, e⟩ := C.param_owner h g2 y1; exact absurd e (y3 i)
    | phi h1 h2 _ =>
      obtain ⟨c', is', k1, k2⟩ := C.block h1
      obtain ⟨⟨i, e⟩, -⟩ := C.phi_owner k1 k2 h2 g2 y1
      exact absurd e (y4 i)
    | inst h1 h2 h3 h4 =>
      obtain ⟨c', is', k1, k2⟩ := C.block h1
      obtain ⟨k3, -⟩ := insts_owner C k2.2.2 h2 g2
      cases hPR.oneBlock v c c' ⟨is, hc, hvc⟩ ⟨is', k1, k3⟩
      refine .inr ⟨?_, fun ha => h4 (C.avoids' k2.1 ha g1.1)⟩
      rintro rfl
      have := k2.1
      rw [show N.bb c = _ from g1.1] at this
      exact h3 (List.cons.inj (Option.some.inj this)).2.symm
    | here h =>
      left
      rcases g4 with g4 | ⟨rfl, g5, rfl, g6⟩
      · exact (insts_owner C g4 h g2).1
      · obtain ⟨k1, y', k2, k3⟩ := insts_owner C g5 h g2
        rw [y1] at k2; cases k2
        obtain ⟨init, t, e, -, hm⟩ := C.body.ends b _ hb
        have hpost : post = [] := by
          cases post with
          | nil => rfl
          | cons q post =>
            exfalso
            have hui : u ∈ init := by
              have e' : (pre ++ u :: (q :: post)).dropLast = init := by rw [e]; simp
              rw [← e', List.dropLast_append_of_ne_nil (by simp), List.dropLast_cons_of_ne_nil (by simp)]
              simp
            obtain ⟨z, z1, z2⟩ := hm u hui
            rw [hu] at z1; cases z1
            rw [g6] at z2; cases z2
        subst hpost
        rcases List.mem_append.1 k1 with k1 | k1
        · exact k1
        · cases List.mem_singleton.1 k1
          rw [hu] at y1; cases y1
          rw [g6] at k3; cases k3
  · intro b is u x v c bd hb hui hu hv hc hbd hvb
    obtain ⟨pre, post, rfl⟩ := List.append_of_mem hui
    obtain ⟨⟨c', is'⟩, hc', rfl⟩ := List.mem_map.1 hc
    obtain ⟨bd', e1, e2⟩ := C.body.blocks c' is' hc'
    rw [hbd] at e1; cases e1
    obtain ⟨k, hk⟩ := List.getElem?_of_mem hvb
    obtain ⟨y, y1, y2, -⟩ := e2 k v hk
    obtain ⟨B, before, m, ws, g1, g2, g3, g4⟩ := C.used hS hb hu hv y1 (by rw [y2]; rfl)
    have no : ∀ {vs : List Value} {xs : List Inst} {b' : BB} {js : List Value}, InstsOf p fd N vs xs → m ∈ xs.flatMap Inst.defs → (b', js) ∈ fd.layout.bbs →
        (∀ w ∈ vs, w ∈ js) → False := by
      intro vs xs b' js h1 h2 h3 h4
      obtain ⟨k1, -⟩ := insts_owner C h1 h2 g2
      obtain ⟨z, z1, -, -, z4⟩ := C.listed_kind h3 (h4 v k1)
      rw [y1] at z1; cases z1
      exact z4 k y2
    cases g3 with
    | param h =>
      obtain ⟨i, e⟩ := C.param_owner h g2 y1
      rw [y2] at e; cases e
    | phi h1 h2 h3 =>
      obtain ⟨c'', is'', k1, k2⟩ := C.block h1
      obtain ⟨-, bd', d1, d2⟩ := C.phi_owner k1 k2 h2 g2 y1
      cases C.body.paramsOnce c' c'' _ bd' v hc (List.mem_map.2 ⟨_, k1, rfl⟩) hbd d1 hvb d2
      exact fun ha => h3 (C.avoids' k2.1 ha g1.1)
    | inst h1 h2 _ _ =>
      obtain ⟨c'', is'', k1, k2⟩ := C.block h1
      exact (no k2.2.2 h2 k1 (fun _ h => h)).elim
    | here h =>
      rcases g4 with g4 | ⟨rfl, g5, rfl, g6⟩
      · exact (no g4 h hb (fun w hw => List.mem_append_left _ hw)).elim
      · exact (no g5 h hb (fun _ h => h)).elim

end

/-! ### Modules -/

/-- In the translated module definitions come before uses exactly if they do in the program. -/
theorem module_ssa {p : Program} {G : Names} (hP : Printable p) (hr : LReady p) (hw : WellFormed p) (he : PlainEntries p)
    (ho : ∀ f fd b x, p.funcs.get? f = some fd → fd.dfg.bbs.get? b = some x → x.usedBy.Nodup) {Gs Fs : List Item}
    (hGs : All2 (GlobalItem p G) p.instLayout Gs)
    (hFs : All2 (fun f I => ∃ N, FNames p f G N ∧ NShape N ∧ FuncItem p N f I) p.funcLayout Fs) :
    (∀ F, .define F ∈ Gs ++ Fs → F.Ssa) ↔ UsesDominated p := by
  constructor
  · intro hS
    have key : ∀ {f fd q}, p.funcs.get? f = some fd → q ∈ fd.layout.bbs → ∃ M N F n ts r, TCtx p M f fd N F n ts r ∧ F.Ssa := by
      intro f fd q hf hq
      have hl := hr.listed f fd hf
      obtain ⟨I, i1, N, i2, -, i3⟩ := all2_mem hFs hl
      cases i3 with
      | declare a1 a2 =>
        rw [hf] at a1; cases a1
        rw [(hr.decl f fd hf).1 a2] at hq; cases hq
      | @define _ F a1 a2 a3 =>
        rw [hf] at a1; cases a1
        obtain ⟨n, ts, r, C⟩ := func_ctx hP hw he ho hGs hFs hl i2 hf a2 a3
        exact ⟨_, N, F, n, ts, r, C, hS F (List.mem_append_right _ i1)⟩
    constructor
    · intro f fd b pre u post x v c is hf hb
      obtain ⟨M, N, F, n, ts, r, C, h⟩ := key hf hb
      exact (C.dominated h).1 b pre u post x v c is hb
    · intro f fd b is u x v c bd hf hb
      obtain ⟨M, N, F, n, ts, r, C, h⟩ := key hf hb
      exact (C.dominated h).2 b is u x v c bd hb
  · intro hU F hF
    obtain ⟨f, fd, N, n, ts, r, C⟩ := module_ctx hP hw he ho hGs hFs hF
    exact C.ssa hU

end Koopa
