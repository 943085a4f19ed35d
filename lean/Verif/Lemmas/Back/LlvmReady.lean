import Verif.Lemmas.Back.LlvmWhole
import Verif.Lemmas.Back.Readable
/-!
What the LLVM generator needs to know holds of accepted programs.
-/
namespace Koopa
open Spec Spec.Ll

section
variable {p : Program} {gs : List GlobalAst} {vars : List (Str × Value)} {fns : List (Str × Func)} (A : FromText p gs vars fns)

include A in
theorem FromText.inFns {f : Func} {fd : FData} (hf : p.funcs.get? f = some fd) : f ∈ p.funcLayout := by
  show f ∈ p.view.fns
  rw [A.inv.fns]
  show ((p.funcs.get? f).map _).isSome
  rw [hf]; rfl

include A in
theorem FromText.named {f : Func} {fd : FData} (hf : p.funcs.get? f = some fd) : (fd.name, f) ∈ fns := by
  have h1 := A.inFns hf
  rw [show p.funcLayout = fns.map (·.2) from A.fns] at h1
  obtain ⟨⟨n, f'⟩, hm, rfl⟩ := List.mem_map.1 h1
  obtain ⟨fd', h2, h3⟩ := A.items.func' hm
  rw [hf] at h2; cases h2
  rcases h3 with ⟨_, _, h⟩ | ⟨_, _, _, _, _, _, _, -, h⟩
  · rw [h.hasName]; exact hm
  · rw [h.hasName]; exact hm

theorem const_not_var {k : VKind} (h : k.isConst = true) : k.isGlobalAlloc = false := by
  cases k <;> first | rfl | cases h

theorem const_no_result {k : VKind} (h : k.isConst = true) : llvmResult k = none := by
  cases k <;> first | rfl | cases h

include A in
theorem FromText.gvar {v : Value} {d : VData} (h : GVar p v d) : v ∈ p.instLayout := by
  rcases A.globalGood (A.usedGlobal h.1) with h1 | ⟨a, t, h1⟩
  · exact h1
  · obtain ⟨t', k, ⟨x, hx, -, rfl⟩, h2, -⟩ := const_cases h1
    have hx' : p.values.get? v = some x := hx
    have h0 : p.values.get? v = some d := h.1
    rw [h0] at hx'; cases hx'
    have := h.2
    rw [const_not_var h2] at this
    cases this

include A in
theorem FromText.gnamed {v : Value} {d : VData} {n : Str} (h : GVar p v d) (hn : d.name = some n) : (n, v) ∈ vars := by
  have h1 := A.gvar h
  rw [show p.instLayout = vars.map (·.2) from A.insts] at h1
  obtain ⟨⟨m, v'⟩, hm, rfl⟩ := List.mem_map.1 h1
  obtain ⟨_, _, _, x, i, y, t, hx, hnm, -⟩ := A.items.global hm
  have hx' : p.values.get? v' = some x := hx
  have h0 : p.values.get? v' = some d := h.1
  rw [h0] at hx'; cases hx'
  rw [hn, keptName] at hnm
  split at hnm
  · cases hnm
  · cases hnm; exact hm

theorem nodup_fst {α β : Type} : ∀ {l : List (α × β)} {a : α} {b c : β}, (l.map (·.1)).Nodup → (a, b) ∈ l → (a, c) ∈ l → b = c
  | [], _, _, _, _, h, _ => by cases h
  | (x, y) :: l, a, b, c, hn, h, h' => by
    simp only [List.map_cons, List.nodup_cons] at hn
    rcases List.mem_cons.1 h with h | h
    · cases h
      rcases List.mem_cons.1 h' with h' | h'
      · cases h'; rfl
      · exact absurd (List.mem_map.2 ⟨_, h', rfl⟩) hn.1
    · rcases List.mem_cons.1 h' with h' | h'
      · cases h'
        exact absurd (List.mem_map.2 ⟨_, h, rfl⟩) hn.1
      · exact nodup_fst hn.2 h h'

theorem Spec.Items.apart {p : Program} {gs : List GlobalAst} {vars : List (Str × Value)} {fns : List (Str × Func)} (h : Items p gs vars fns) :
    (vars.map (·.1)).Nodup ∧ (fns.map (·.1)).Nodup ∧ ∀ n ∈ vars.map (·.1), n ∉ fns.map (·.1) := by
  induction h with
  | nil => exact ⟨by simp, by simp, by simp⟩
  | globalDef _ h1 h2 _ ih =>
    obtain ⟨a, b, c⟩ := ih
    refine ⟨?_, b, ?_⟩
    · rw [List.map_append, List.nodup_append]
      refine ⟨a, by simp, ?_⟩
      rintro x hx y hy rfl
      simp only [List.map_cons, List.map_nil, List.mem_singleton] at hy
      subst hy; exact h1 hx
    · intro n hn
      rw [List.map_append, List.mem_append] at hn
      rcases hn with hn | hn
      · exact c n hn
      · simp only [List.map_cons, List.map_nil, List.mem_singleton] at hn
        subst hn; exact h2
  | funDecl _ h1 h2 _ _ ih =>
    obtain ⟨a, b, c⟩ := ih
    refine ⟨a, ?_, ?_⟩
    · rw [List.map_append, List.nodup_append]
      refine ⟨b, by simp, ?_⟩
      rintro x hx y hy rfl
      simp only [List.map_cons, List.map_nil, List.mem_singleton] at hy
      subst hy; exact h2 hx
    · intro n hn
      rw [List.map_append, List.mem_append]
      rintro (h | h)
      · exact c n hn h
      · simp only [List.map_cons, List.map_nil, List.mem_singleton] at h
        subst h; exact h1 hn
  | funDef _ h1 h2 _ _ ih =>
    obtain ⟨a, b, c⟩ := ih
    refine ⟨a, ?_, ?_⟩
    · rw [List.map_append, List.nodup_append]
      refine ⟨b, by simp, ?_⟩
      rintro x hx y hy rfl
      simp only [List.map_cons, List.map_nil, List.mem_singleton] at hy
      subst hy; exact h2 hx
    · intro n hn
      rw [List.map_append, List.mem_append]
      rintro (h | h)
      · exact c n hn h
      · simp only [List.map_cons, List.map_nil, List.mem_singleton] at h
        subst h; exact h1 hn

include A in
theorem FromText.llvmNames (hn : LlvmNamed p) : LlvmNames p := by
  obtain ⟨a1, a2, a3⟩ := A.items.apart
  refine ⟨hn.funcs, fun v d n h => hn.globals v d n h.1, hn.locals, hn.bbs, ?_, ?_, ?_⟩
  · intro f g fd gd hf hg he
    have h1 := A.named hf
    have h2 := A.named hg
    rw [he] at h1
    exact nodup_fst a2 h1 h2
  · intro v w d e n hv hw hd he
    exact nodup_fst a1 (A.gnamed hv hd) (A.gnamed hw he)
  · intro f fd v d hf hv hd
    exact a3 _ (List.mem_map.2 ⟨_, A.gnamed hv hd, rfl⟩) (List.mem_map.2 ⟨_, A.named hf, rfl⟩)

include A in
/-- What a local value is. -/
theorem FromText.localCases {f : Func} {fd : FData} (hf : p.funcs.get? f = some fd) {v : Value} {d : VData} (hd : fd.dfg.values.get? v = some d) :
    (∃ i, d.kind = .funcArgRef i ∨ d.kind = .blockArgRef i) ∨ (∃ b is, (b, is) ∈ fd.layout.bbs ∧ v ∈ is) ∨ d.kind.isConst = true := by
  have hl : LocalVal p f v d := ⟨fd, hf, hd⟩
  rcases (A.usedGood (A.usedLocal hl) f fd rfl hf).1 with ⟨y, i, h1, h2⟩ | h | ⟨a, t, h⟩
  · cases localVal_unique hl h1
    exact .inl ⟨i, h2⟩
  · exact .inr (.inl h)
  · exact .inr (.inr (A.constGood h hl).2)

/-- A laid-out instruction of a program that can be written. -/
theorem Spec.Printable.inst (hP : Printable p) {i : Nat} {f : Func} {fd : FData} (hi : p.funcLayout[i]? = some f) (hf : p.funcs.get? f = some fd)
    {b : BB} {is : List Value} {v : Value} {d : VData} (hb : (b, is) ∈ fd.layout.bbs) (hv : v ∈ is) (hd : fd.dfg.values.get? v = some d) :
    ∃ r j k, Writable (Visible p f fd j k) (Usable p f fd j k) (Constant fd.dfg.values.get?) (· ∈ p.funcLayout.take i ++ [f]) (HasTy p f) r d.kind d.ty := by
  obtain ⟨fd', ts, r, h1, h2⟩ := hP.funcs i f hi
  rw [hf] at h1; cases h1
  rcases h2.body with ⟨-, h3, -⟩ | h3
  · rw [h3] at hb; cases hb
  · obtain ⟨j, hj⟩ := List.getElem?_of_mem hb
    obtain ⟨k, hk⟩ := List.getElem?_of_mem hv
    obtain ⟨x, h4, h5⟩ := h3.insts j k b is v hj hk
    rw [hd] at h4; cases h4
    exact ⟨r, j, k, h5⟩

theorem writable_kind {V O I : Value → Prop} {F : Func → Prop} {H : Value → Ty → Prop} {r t : Ty} {k : VKind} (h : Writable V O I F H r k t) :
    k.isConst = false ∧ k.isGlobalAlloc = false ∧ ∀ es, k ≠ .aggregate es := by
  cases h <;> exact ⟨rfl, rfl, nofun⟩

theorem result_ty {V O I : Value → Prop} {F : Func → Prop} {H : Value → Ty → Prop} {r t : Ty} {k : VKind} (h : Writable V O I F H r k t)
    {H' : Value → Ty → Prop} {P : BB → List Ty → Prop} {F' : Func → Ty → Prop} (h' : InstTy H' P F' k t) {b : Bool} (hb : llvmResult k = some b) :
    t.isUnit = !b := by
  cases h with
  | load _ h =>
    cases Option.some.inj hb
    cases t <;> first | rfl | exact absurd rfl h
  | alloc => cases hb
  | binary => cases hb
  | call => cases hb
  | getPtr => cases Option.some.inj hb; cases h'; rfl
  | getElemPtr => cases Option.some.inj hb; cases h'; rfl
  | store => cases Option.some.inj hb; cases h'; rfl
  | branch => cases Option.some.inj hb; cases h'; rfl
  | jump => cases Option.some.inj hb; cases h'; rfl
  | retNone => cases Option.some.inj hb; cases h'; rfl
  | ret => cases Option.some.inj hb; cases h'; rfl

/-- The operands of an instruction that can be written. -/
theorem writable_operands {V O I : Value → Prop} {F : Func → Prop} {H : Value → Ty → Prop} {r t : Ty} {k : VKind} (h : Writable V O I F H r k t)
    {x : Value} (hx : x ∈ operands k) : V x ∨ O x ∨ I x := by
  cases h with
  | alloc => cases hx
  | load h1 _ => simp only [operands, List.mem_singleton] at hx; subst hx; exact .inl h1
  | store h1 h2 =>
    simp only [operands, List.mem_cons, List.not_mem_nil, or_false] at hx
    rcases hx with rfl | rfl
    · rcases h1 with h1 | h1
      · exact .inl h1
      · exact .inr (.inr h1)
    · exact .inl h2
  | getPtr h1 h2 | getElemPtr h1 h2 =>
    simp only [operands, List.mem_cons, List.not_mem_nil, or_false] at hx
    rcases hx with rfl | rfl
    · exact .inl h1
    · exact .inr (.inl h2)
  | binary h1 h2 =>
    simp only [operands, List.mem_cons, List.not_mem_nil, or_false] at hx
    rcases hx with rfl | rfl
    · exact .inr (.inl h1)
    · exact .inr (.inl h2)
  | branch h1 h2 h3 =>
    simp only [operands, List.mem_cons, List.mem_append] at hx
    rcases hx with rfl | hx | hx
    · exact .inr (.inl h1)
    · exact .inr (.inl (h2 _ hx))
    · exact .inr (.inl (h3 _ hx))
  | jump h1 => exact .inr (.inl (h1 _ hx))
  | call _ h1 => exact .inr (.inl (h1 _ hx))
  | retNone => cases hx
  | ret _ h1 _ => simp only [operands, List.mem_singleton] at hx; subst hx; exact .inr (.inl h1)

/-- Visible local values. -/
theorem visible_local (hP : Printable p) {f : Func} {fd : FData} (hf : p.funcs.get? f = some fd) (hfl : f ∈ p.funcLayout) {j i : Nat} {v : Value} {e : VData}
    (h : Visible p f fd j i v) (he : fd.dfg.values.get? v = some e) : e.ty ≠ .unit ∧ ∀ es, e.kind ≠ .aggregate es := by
  have hl : LocalVal p f v e := ⟨fd, hf, he⟩
  obtain ⟨n, hn⟩ := List.getElem?_of_mem hfl
  obtain ⟨fd', ts, r, h1, h2⟩ := hP.funcs n f hn
  rw [hf] at h1; cases h1
  have hty := hP.typed.locals f v e hl
  have arg : ∀ i, e.kind = .funcArgRef i ∨ e.kind = .blockArgRef i → e.ty ≠ .unit ∧ ∀ es, e.kind ≠ .aggregate es := by
    intro i hi
    rcases hi with hi | hi
    · rw [hi] at hty ⊢
      refine ⟨?_, nofun⟩
      generalize e.ty = t at hty
      cases hty; assumption
    · rw [hi] at hty ⊢
      refine ⟨?_, nofun⟩
      generalize e.ty = t at hty
      cases hty; assumption
  cases h with
  | global h1 =>
    obtain ⟨x, i, y, h3, -⟩ := hP.insts v h1
    have h4 := hP.globalId v x h3
    rw [hP.localId f v e hl] at h4; cases h4
  | arg h1 =>
    rcases h2.body with ⟨-, -, h3⟩ | h3
    · rw [h3] at h1; cases h1
    · obtain ⟨k, hk⟩ := List.getElem?_of_mem h1
      obtain ⟨x, h4, h5, -⟩ := h3.params.2 k v hk
      rw [he] at h4; cases h4
      exact arg k (.inl h5)
  | param h1 h3 h4 h5 h6 =>
    rcases h2.body with ⟨-, h7, -⟩ | h7
    · rw [h7] at h1; cases h1
    · obtain ⟨x, h8, h9⟩ := h7.blocks _ _ (List.mem_of_getElem? h3)
      rw [h4] at h8; cases h8
      obtain ⟨k, hk⟩ := List.getElem?_of_mem h5
      obtain ⟨y, h10, h11, -⟩ := h9 k v hk
      rw [he] at h10; cases h10
      exact arg k (.inr h11)
  | inst h1 h3 h4 h5 h6 =>
    rw [he] at h5; cases h5
    obtain ⟨r, j, k, hw⟩ := hP.inst hn hf (List.mem_of_getElem? h3) (List.mem_of_getElem? h4) he
    exact ⟨h6, (writable_kind hw).2.2⟩

theorem usable_local (hP : Printable p) {f : Func} {fd : FData} (hf : p.funcs.get? f = some fd) (hfl : f ∈ p.funcLayout) {j i : Nat} {v : Value} {e : VData}
    (h : Usable p f fd j i v) (he : fd.dfg.values.get? v = some e) : e.ty ≠ .unit ∧ ∀ es, e.kind ≠ .aggregate es := by
  have hty := hP.typed.locals f v e ⟨fd, hf, he⟩
  rcases h with h | ⟨x, h1, ⟨n, h2⟩ | h2⟩
  · exact visible_local hP hf hfl h he
  · rw [he] at h1; cases h1
    rw [h2] at hty ⊢
    refine ⟨?_, nofun⟩
    generalize e.ty = t at hty
    cases hty; nofun
  · rw [he] at h1; cases h1
    rw [h2] at hty ⊢
    refine ⟨?_, nofun⟩
    generalize e.ty = t at hty
    cases hty; assumption

theorem constant_local (hw : WellTyped p) {f : Func} {fd : FData} (hf : p.funcs.get? f = some fd) {v : Value} {e : VData}
    (h : Constant fd.dfg.values.get? v) (he : fd.dfg.values.get? v = some e) : e.ty ≠ .unit := by
  have hty := hw.locals f v e ⟨fd, hf, he⟩
  cases h with
  | int h1 h2 | undef h1 h2 | zero h1 h2 =>
    rw [he] at h1; cases h1
    rw [h2] at hty
    generalize e.ty = t at hty ⊢
    cases hty <;> first | assumption | nofun
  | agg h1 h2 h3 =>
    rw [he] at h1; cases h1
    rw [h2] at hty
    generalize e.ty = t at hty ⊢
    cases hty; nofun

include A in
theorem FromText.llvmOrder (hP : Printable p) : LlvmOrder p := by
  refine ⟨?_, ?_, ?_⟩
  · intro v d hv hk
    have h0 : p.values.get? v = some d := hv
    rcases A.globalGood (A.usedGlobal hv) with h1 | ⟨a, t, h1⟩
    · obtain ⟨x, i, h2, h3⟩ := A.listed h1
      have h2 : p.values.get? v = some x := h2
      rw [h0] at h2; cases h2
      exact ⟨by rw [h3]; rfl, h1⟩
    · obtain ⟨t', k, ⟨x, hx, -, rfl⟩, h2, -⟩ := const_cases h1
      have hx : p.values.get? v = some x := hx
      rw [h0] at hx; cases hx
      rw [hk] at h2; cases h2
  · intro f fd v d hf hd
    rcases A.localCases hf hd with ⟨i, h | h⟩ | ⟨b, is, h1, h2⟩ | h
    · rw [h]; rfl
    · rw [h]; rfl
    · obtain ⟨n, hn⟩ := List.getElem?_of_mem (A.inFns hf)
      obtain ⟨r, j, k, hw⟩ := hP.inst hn hf h1 h2 hd
      exact (writable_kind hw).2.1
    · exact const_not_var h
  · intro i f fd v d g as hi hf hd hk
    rcases A.localCases hf hd with ⟨j, h | h⟩ | ⟨b, is, h1, h2⟩ | h
    · rw [h] at hk; cases hk
    · rw [h] at hk; cases hk
    · obtain ⟨r, j, k, hw⟩ := hP.inst hi hf h1 h2 hd
      rw [hk] at hw
      generalize d.ty = t at hw
      cases hw with
      | call h3 _ => exact h3
    · rw [hk] at h; cases h

include A in
theorem FromText.llvmFn (hP : Printable p) (hw : WellFormed p) (he : PlainEntries p) {f : Func} {fd : FData} (hf : p.funcs.get? f = some fd) : LlvmFn p fd := by
  have ho := A.llvmOrder hP
  have hfl := A.inFns hf
  obtain ⟨n, hn⟩ := List.getElem?_of_mem hfl
  refine ⟨fun v d _ hv hk => (ho.globals v d hv hk).1, fun v d hd => ho.locals f fd v d hf hd, ?_, ?_, ?_⟩
  · intro v d x hd hb e es hx
    have usable : ∃ j k, Usable p f fd j k x := by
      rcases A.localCases hf hd with ⟨j, h | h⟩ | ⟨b, is, h1, h2⟩ | h
      · rw [h] at hb; cases hb
      · rw [h] at hb; cases hb
      · obtain ⟨r, j, k, hw⟩ := hP.inst hn hf h1 h2 hd
        refine ⟨j, k, ?_⟩
        generalize d.ty = t at hw
        generalize d.kind = kk at hw hb
        cases hb with
        | lhs => cases hw with | binary h _ => exact h
        | rhs => cases hw with | binary _ h => exact h
        | cond => cases hw with | branch h _ _ => exact h
        | jump ha => cases hw with | jump h => exact h _ ha
        | brTrue ha => cases hw with | branch _ h _ => exact h _ ha
        | brFalse ha => cases hw with | branch _ _ h => exact h _ ha
      · generalize d.kind = kk at h hb
        cases hb <;> cases h
    obtain ⟨j, k, hu⟩ := usable
    exact (usable_local hP hf hfl hu hx).2 es
  · intro v d b hd hk
    have hty := hP.typed.locals f v d ⟨fd, hf, hd⟩
    rcases A.localCases hf hd with ⟨j, h | h⟩ | ⟨b, is, h1, h2⟩ | h
    · rw [h] at hk; cases hk
    · rw [h] at hk; cases hk
    · obtain ⟨r, j, k, hw⟩ := hP.inst hn hf h1 h2 hd
      exact result_ty hw hty hk
    · rw [const_no_result h] at hk; cases hk
  · intro b is bd hb hbd hp
    obtain ⟨fd', ts, r, h1, h2⟩ := hP.funcs n f hn
    rw [hf] at h1; cases h1
    rcases h2.body with ⟨-, h3, -⟩ | h3
    · rw [h3] at hb; cases hb
    · obtain ⟨e, h4, -, h5⟩ := h3.order
      obtain ⟨h6, -⟩ := h5 b is hb
      have hne : b ≠ e := by
        rintro rfl
        cases hl : fd.layout.bbs with
        | nil => rw [hl] at hb; cases hb
        | cons q qs =>
          rw [hl] at h4
          simp only [List.map_cons, List.head?_cons, Option.some.injEq] at h4
          subst h4
          exact hp (he f fd q.1 q.2 qs bd hf hl hbd)
      cases h6 with
      | refl => exact absurd rfl hne
      | step _ h7 =>
        obtain ⟨fd', is', u, x, i1, i2, i3, i4, i5⟩ := h7
        have := (hw.blockUses f b bd ⟨fd, hf, hbd⟩ u).2 ⟨x, i4, i5⟩
        intro h8
        rw [h8] at this
        cases this

include A in
theorem FromText.lready (hP : Printable p) (hw : WellFormed p) (he : PlainEntries p) : LReady p := by
  refine ⟨hw, hP.globalId, hP.localId, fun f fd hf => A.inFns hf, ?_, ?_, ?_, he⟩
  · intro f fd hf
    constructor
    · intro h
      cases hl : fd.layout.bbs with
      | nil => rfl
      | cons q qs =>
        exfalso
        obtain ⟨x, hx, -⟩ := A.blockData hf (b := q.1) (by rw [hl]; simp)
        unfold Map.isEmpty at h
        rw [List.isEmpty_iff] at h
        rw [Map.get?, h] at hx
        cases hx
    · intro h
      refine Map.isEmpty_of_none (fun b x hb => ?_)
      have := A.blockListed hf ⟨fd, hf, hb⟩
      rw [h] at this; cases this
  · intro f fd ts r hf hne ht
    obtain ⟨ts', r', h1, -, -, h2, -⟩ := A.funcTy hf
    rw [ht] at h1; cases h1
    exact h2 hne
  · intro f fd b is v d x e hf hb hv hd hx hxe
    have hfl := A.inFns hf
    obtain ⟨n, hn⟩ := List.getElem?_of_mem hfl
    obtain ⟨r, j, k, hw⟩ := hP.inst hn hf hb hv hd
    rcases writable_operands hw hx with h | h | h
    · exact (visible_local hP hf hfl h hxe).1
    · exact (usable_local hP hf hfl h hxe).1
    · exact constant_local hP.typed hf h hxe

end

end Koopa
