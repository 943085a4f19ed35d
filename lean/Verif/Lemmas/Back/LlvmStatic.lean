import Verif.Lemmas.Back.LlvmReady
/-!
A condition on the program under which its runs are defined in LLVM.
-/
namespace Koopa
open Spec Interp

/-- Parameters of functions and blocks are parameters, and local values have handles of local values. -/
structure ArgRefs (p : Program) : Prop where
  isLocal : ∀ {f v x}, LocalVal p f v x → isGlobal v = false
  params : ∀ {g gd v}, p.funcs.get? g = some gd → v ∈ gd.params → ∃ y i, LocalVal p g v y ∧ y.kind = .funcArgRef i
  blocks : ∀ {f b bd v}, Block p f b bd → v ∈ bd.params → ∃ y i, LocalVal p f v y ∧ y.kind = .blockArgRef i

theorem FromText.argRefs {p : Program} {gs : List GlobalAst} {vars : List (Str × Value)} {fns : List (Str × Func)} (A : FromText p gs vars fns) : ArgRefs p := by
  refine ⟨fun h => A.isLocal h, fun {g gd v} hg hm => ?_, fun {f b bd v} hb hm => ?_⟩
  · obtain ⟨i, hi⟩ := List.getElem?_of_mem hm
    obtain ⟨ts, r', -, -, -, -, h⟩ := A.funcTy hg
    obtain ⟨y, h1, h2, -⟩ := h i v hi
    exact ⟨y, i, h1, h2⟩
  · obtain ⟨fd, h1, h2⟩ := hb
    obtain ⟨i, hi⟩ := List.getElem?_of_mem hm
    obtain ⟨y, hy, hp⟩ := A.blockData (b := b) h1 (A.blockListed h1 ⟨fd, h1, h2⟩)
    rw [h2] at hy; cases hy
    obtain ⟨z, hz, hzk⟩ := hp i v hi
    exact ⟨z, i, hz, hzk⟩

section
variable {p : Program} (A : ArgRefs p)
variable {σ : Type} {lib : Lib σ} {chk : Bool} {ptrSize : Nat}

/-- The results of arithmetic are integers. -/
def IntRegs (p : Program) (f : Func) (regs : Value → Option Val) : Prop :=
  ∀ v d op l r x, LocalVal p f v d → d.kind = .binary op l r → regs v = some x → ∃ n, x = .int n

structure IntState (p : Program) (s : MState σ) : Prop where
  regs : ∀ a ∈ s.acts, IntRegs p a.fn a.regs
  waits : ∀ a ∈ s.acts.tail, ∃ v d g args, a.rest.head? = some v ∧ LocalVal p a.fn v d ∧ d.kind = .call g args

theorem IntRegs.gets {a : Act} (h : IntRegs p a.fn a.regs) {v : Value} {d : VData} (hd : LocalVal p a.fn v d) {x : Val}
    (hx : ∀ op l r, d.kind = .binary op l r → ∃ n, x = .int n) : IntRegs p (a.gets v x).fn (a.gets v x).regs := by
  intro u e op l r y hu hk hy
  simp only [Act.gets] at hy hu
  split at hy
  · rename_i he
    subst he
    cases localVal_unique hd hu
    cases hy
    exact hx _ _ _ hk
  · exact h u e op l r y hu hk hy

include A in
theorem bound_int {g : Func} {gd : FData} (hg : p.funcs.get? g = some gd) {xs : List Val} {regs : Value → Option Val} (hb : Bound gd.params xs regs) :
    IntRegs p g regs := by
  intro v d op l r x hv hk hx
  by_cases hm : v ∈ gd.params
  · obtain ⟨y, i, h1, h2⟩ := A.params hg hm
    cases localVal_unique hv h1
    rw [h2] at hk; cases hk
  · rw [hb.2 v hm] at hx; cases hx

include A in
theorem enters_int {f : Func} {regs regs' : Value → Option Val} (h : IntRegs p f regs) {b : BB} {args is : List Value} (he : Enters p f regs b args is regs') :
    IntRegs p f regs' := by
  intro v d op l r x hv hk hx
  obtain ⟨fd, bd, h1, h2, h3, h4, h5⟩ := he
  by_cases hm : ∃ a, (v, a) ∈ bd.params.zip args
  · obtain ⟨a, ha⟩ := hm
    obtain ⟨z, i, hz, hzk⟩ := A.blocks ⟨fd, h1, h2⟩ (List.of_mem_zip ha).1
    cases localVal_unique hv hz
    rw [hzk] at hk; cases hk
  · rw [h5 v (fun a ha => hm ⟨a, ha⟩)] at hx
    exact h v d op l r x hv hk hx

include A in
theorem int_next {s s' : MState σ} (h : IntState p s) (hs : MNext p lib chk ptrSize s s') : IntState p s' := by
  obtain ⟨hr, hw⟩ := h
  cases hs with
  | @does a a' stack v d m w hat hdo =>
    obtain ⟨e1, e2, e3⟩ := hat
    rw [e1] at hr hw
    have ha := hr a List.mem_cons_self
    refine ⟨fun c hc => ?_, hw⟩
    rcases List.mem_cons.1 hc with rfl | hc
    · cases hdo with
      | store => exact ha
      | storeExt => exact ha
      | alloc hk => exact (ha.gets e3 (fun op l r h => by rw [hk] at h; cases h) : _)
      | load hk => exact ha.gets e3 (fun op l r h => by rw [hk] at h; cases h)
      | loadExt hk => exact ha.gets e3 (fun op l r h => by rw [hk] at h; cases h)
      | getPtr hk => exact ha.gets e3 (fun op l r h => by rw [hk] at h; cases h)
      | getElemPtr hk => exact ha.gets e3 (fun op l r h => by rw [hk] at h; cases h)
      | getElemPtrExt hk => exact ha.gets e3 (fun op l r h => by rw [hk] at h; cases h)
      | binary hk => exact ha.gets e3 (fun op l r h => ⟨_, rfl⟩)
    · exact hr c (List.mem_cons_of_mem _ hc)
  | @goes a stack v d b args is regs hat hg he =>
    obtain ⟨e1, e2, e3⟩ := hat
    rw [e1] at hr hw
    refine ⟨fun c hc => ?_, hw⟩
    rcases List.mem_cons.1 hc with rfl | hc
    · exact enters_int A (hr a List.mem_cons_self) he
    · exact hr c (List.mem_cons_of_mem _ hc)
  | @callExt a stack v d g gd xs x w hat hc hbb hlib =>
    obtain ⟨e1, e2, e3⟩ := hat
    rw [e1] at hr hw
    obtain ⟨args, ps, t, k1, -⟩ := hc
    refine ⟨fun c hc => ?_, hw⟩
    rcases List.mem_cons.1 hc with rfl | hc
    · exact (hr a List.mem_cons_self).gets e3 (fun op l r h => by rw [k1] at h; cases h)
    · exact hr c (List.mem_cons_of_mem _ hc)
  | @call a stack v d g gd xs b is bs regs hat hc hbb hbound =>
    obtain ⟨e1, e2, e3⟩ := hat
    rw [e1] at hr hw
    obtain ⟨args, ps, t, k1, k2, k3, -⟩ := hc
    refine ⟨fun c hc => ?_, fun c hc => ?_⟩
    · rcases List.mem_cons.1 hc with rfl | hc
      · exact bound_int A k3 hbound
      · exact hr c hc
    · rcases List.mem_cons.1 hc with rfl | hc
      · exact ⟨v, d, g, args, e2, e3, k1⟩
      · exact hw c hc
  | @ret a c stack v u d x m hat hret hu hm =>
    obtain ⟨e1, e2, e3⟩ := hat
    rw [e1] at hr hw
    obtain ⟨v', d', g, args, w1, w2, w3⟩ := hw c List.mem_cons_self
    rw [hu] at w1; cases w1
    refine ⟨fun q hq => ?_, fun q hq => hw q (List.mem_cons_of_mem _ hq)⟩
    rcases List.mem_cons.1 hq with rfl | hq
    · exact (hr c (by simp)).gets w2 (fun op l r h => by rw [w3] at h; cases h)
    · exact hr q (by simp [hq])

include A in
theorem int_steps {n : Nat} {s t : MState σ} (hs : MSteps p lib chk ptrSize n s t) : IntState p s → IntState p t := by
  induction hs with
  | refl => exact id
  | step h1 _ ih => exact fun h => ih (int_next A h h1)

theorem operand_const {f : Func} {regs : Value → Option Val} {v : Value} {x : Val} {d : VData} {n : I32} (hl : isGlobal v = false) (hd : LocalVal p f v d)
    (hk : d.kind = .integer n) (h : Operand p f regs v x) : x = .int n := by
  cases h with
  | global h1 => rw [hl] at h1; cases h1
  | const _ h2 h3 _ h5 =>
    obtain ⟨fd, e1, e2⟩ := hd
    rw [e1] at h2; cases h2
    rw [e2] at h3; cases h3
    cases h5 with
    | integer h => rw [hk] at h; cases h; rfl
    | zeroInit h => rw [hk] at h; cases h
    | undef h => rw [hk] at h; cases h
    | aggregate h => rw [hk] at h; cases h
  | reg _ h2 h3 =>
    cases localVal_unique hd h2
    rw [hk] at h3; cases h3

include A in
theorem ArgRefs.definedRun (hb : PlainBranches p) (f : Func) (w : σ) : DefinedRun p lib chk ptrSize f w := by
  intro s n t hs ht
  have h0 : IntState p s := by
    obtain ⟨-, -, ⟨fd, r, b, is, bs, regs, h1, h2, h3, h4, h5⟩, -⟩ := hs
    refine ⟨fun a ha => ?_, by rw [h5]; simp⟩
    rw [h5, List.mem_singleton] at ha
    subst ha
    exact bound_int A h1 h4
  have h1 := int_steps A ht h0
  refine ⟨?_, ?_⟩
  · intro a st v d c t' f' ta fa x hat hk ho
    obtain ⟨e1, e2, e3⟩ := hat
    obtain ⟨y, h2, ⟨n, h3⟩ | ⟨op, l, r, h3⟩⟩ := hb.branch _ v d _ _ _ _ _ e3 hk
    · exact ⟨n, operand_const (A.isLocal h2) h2 h3 ho⟩
    · cases ho with
      | global h => rw [A.isLocal h2] at h; cases h
      | const _ h4 h5 h6 =>
        cases localVal_unique h2 ⟨_, h4, h5⟩
        rw [h3] at h6; cases h6
      | reg _ h4 _ h5 => exact h1.regs a (by rw [e1]; simp) c y op l r x h2 h3 h5
  · intro a st v d op l r n hat hk hop ho
    obtain ⟨e1, e2, e3⟩ := hat
    obtain ⟨y, m, h2, h3, h4⟩ := hb.shift _ v d op l r e3 hk hop
    cases operand_const (A.isLocal h2) h2 h3 ho
    exact h4

end

end Koopa
