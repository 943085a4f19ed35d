import Verif.Lemmas.Examples.MachineBase
import Verif.Props.Interp
/-!
Instructions that do not transfer control: the machine and the interpreter agree.
-/
namespace Koopa
open Koopa.Spec Koopa.Interp

/-- What the runtime of the interpreter knows about the program. -/
structure Agrees (p : Program) (rt : Rt) : Prop where
  prog : rt.prog = p
  vars : ∀ v x, rt.vars v = some x ↔ v ∈ p.instLayout ∧ x = .ptr (some (.glob v, [])) 0 0
  consts : ∀ f fd v d, p.funcs.get? f = some fd → fd.dfg.values.get? v = some d → ∀ x,
    evalConst fd.dfg.values.get? rt.depth d = some x ↔ ConstVal fd.dfg.values.get? d x

theorem operand_iff {p : Program} {rt : Rt} (hr : Agrees p rt) {f : Func} {fr : Frame} (hf : p.funcs.get? f = some fr.func)
    {v : Value} {x : Val} : evalValue rt fr v = some x ↔ Operand p f fr.vals v x := by
  unfold evalValue
  constructor
  · intro h
    split at h
    · rename_i hg
      rw [hr.prog] at h
      split at h
      · cases h
      · rename_i d hd
        split at h
        · cases h
        · rename_i hc
          obtain ⟨hm, rfl⟩ := (hr.vars _ _).1 h
          exact .global hg hd (by simpa using hc) hm
    · rename_i hg
      split at h
      · cases h
      · rename_i d hd
        split at h
        · rename_i hc
          exact .const (by simpa using hg) hf hd hc ((hr.consts _ _ _ _ hf hd _).1 h)
        · rename_i hc
          exact .reg (by simpa using hg) ⟨_, hf, hd⟩ (by simpa using hc) h
  · intro h
    cases h with
    | global hg hd hc hm =>
      rw [if_pos hg, hr.prog]
      unfold GlobalVal at hd
      rw [hd]
      simp only [hc, Bool.false_eq_true, if_false]
      exact (hr.vars _ _).2 ⟨hm, rfl⟩
    | const hg hf' hd hc hx =>
      rw [hf] at hf'; cases hf'
      rw [if_neg (by simp [hg]), hd]
      simp only [hc, if_true]
      exact (hr.consts _ _ _ _ hf hd _).2 hx
    | reg hg hd hc hx =>
      obtain ⟨fd, h1, h2⟩ := hd
      rw [hf] at h1; cases h1
      rw [if_neg (by simp [hg]), h2]
      simp only [hc, Bool.false_eq_true, if_false]
      exact hx

theorem operands_iff {p : Program} {rt : Rt} (hr : Agrees p rt) {f : Func} {fr : Frame} (hf : p.funcs.get? f = some fr.func)
    {vs : List Value} {xs : List Val} : collect (evalValue rt fr) vs = some xs ↔ Operands p f fr.vals vs xs := by
  rw [collect_iff]
  unfold Operands
  simp only [operand_iff hr hf]

/-- The activation of a frame. -/
def actOf (f : Func) (fr : Frame) (is : List Value) : Act := ⟨f, is, fr.vals, fr.act, fr.allocs⟩

section
variable {σ : Type} (lib : Lib σ) (rt : Rt)

/-- An instruction that does not transfer control, in the interpreter. -/
def stepD (fr : Frame) (st : St σ) (v : Value) (d : VData) : Out σ (Frame × St σ) :=
  match d.kind with
  | .alloc => evalAlloc fr st v d
  | .load src => evalLoad lib rt fr st v d src
  | .store value dest => evalStore lib rt fr st value dest
  | .getPtr src index => evalGetPtr rt fr st v d src index
  | .getElemPtr src index => evalGetElemPtr rt fr st v d src index
  | .binary op lhs rhs => evalBinary rt fr st v op lhs rhs
  | _ => .bad

/-- Such an instruction. -/
inductive Data : VKind → Prop
  | alloc : Data .alloc
  | load (a) : Data (.load a)
  | store (a b) : Data (.store a b)
  | getPtr (a b) : Data (.getPtr a b)
  | getElemPtr (a b) : Data (.getElemPtr a b)
  | binary (o a b) : Data (.binary o a b)

end

section
variable {σ : Type} {lib : Lib σ} {rt : Rt} {fr : Frame} {st : St σ} {v : Value} {d : VData}

theorem stepD_alloc (h : d.kind = .alloc) : stepD lib rt fr st v d = evalAlloc fr st v d := by
  obtain ⟨t, m, k, u⟩ := d; cases h; rfl
theorem stepD_load {src} (h : d.kind = .load src) : stepD lib rt fr st v d = evalLoad lib rt fr st v d src := by
  obtain ⟨t, m, k, u⟩ := d; cases h; rfl
theorem stepD_store {a b} (h : d.kind = .store a b) : stepD lib rt fr st v d = evalStore lib rt fr st a b := by
  obtain ⟨t, m, k, u⟩ := d; cases h; rfl
theorem stepD_getPtr {a b} (h : d.kind = .getPtr a b) : stepD lib rt fr st v d = evalGetPtr rt fr st v d a b := by
  obtain ⟨t, m, k, u⟩ := d; cases h; rfl
theorem stepD_getElemPtr {a b} (h : d.kind = .getElemPtr a b) : stepD lib rt fr st v d = evalGetElemPtr rt fr st v d a b := by
  obtain ⟨t, m, k, u⟩ := d; cases h; rfl
theorem stepD_binary {o a b} (h : d.kind = .binary o a b) : stepD lib rt fr st v d = evalBinary rt fr st v o a b := by
  obtain ⟨t, m, k, u⟩ := d; cases h; rfl

theorem pointeeSize_iff {n : Nat} {t : Ty} {s : Nat} : pointeeSize n t = some s ↔ ∃ b, t = .ptr b ∧ b.size n = s := by
  cases t <;> simp [pointeeSize]

variable {p : Program} (hr : Agrees p rt) {f : Func} (hf : p.funcs.get? f = some fr.func)
include hr hf

theorem stepD_done {vs : List Value} {fr' : Frame} {st' : St σ} (hk : Data d.kind) (h : stepD lib rt fr st v d = .done (fr', st')) :
    Does p lib rt.chk rt.ptrSize (actOf f fr (v :: vs)) v d st.mem st.world (actOf f fr' vs) st'.mem st'.world ∧
      fr'.func = fr.func ∧ fr'.act = fr.act ∧ st'.acts = st.acts := by
  generalize e : d.kind = k at hk
  cases hk with
  | alloc =>
    rw [stepD_alloc e] at h
    unfold evalAlloc at h
    split at h
    · rename_i b hb
      split at h
      · cases h
      · rename_i x hx
        cases h
        exact ⟨.alloc e hb (zeroInit_iff.1 hx) (by simp [actOf]) (fun o ho => if_neg ho), rfl, rfl, rfl⟩
    · cases h
  | load src =>
    rw [stepD_load e] at h
    unfold evalLoad at h
    split at h
    · rename_i hx
      split at h
      · rename_i hm
        cases h
        exact ⟨.load e ((operand_iff hr hf).1 hx) (readMem_iff.1 hm), rfl, rfl, rfl⟩
      · cases h
    · rename_i hx
      cases h
      exact ⟨.loadExt e ((operand_iff hr hf).1 hx), rfl, rfl, rfl⟩
    · cases h
    · cases h
    · cases h
  | store a b =>
    rw [stepD_store e] at h
    unfold evalStore at h
    split at h
    · cases h
    · rename_i x hx
      split at h
      · rename_i hq
        split at h
        · rename_i m hm
          cases h
          exact ⟨.store e ((operand_iff hr hf).1 hx) ((operand_iff hr hf).1 hq) (writeMem_iff.1 hm), rfl, rfl, rfl⟩
        · cases h
      · cases h
      · rename_i hq
        split at h
        · cases h
        · rename_i dd hd
          split at h
          · cases h
          · split at h
            · cases h
            · rename_i hw
              cases h
              exact ⟨.storeExt e ((operand_iff hr hf).1 hx) ((operand_iff hr hf).1 hq) ⟨_, hf, hd⟩ hw, rfl, rfl, rfl⟩
      · cases h
  | getPtr a b =>
    rw [stepD_getPtr e] at h
    unfold evalGetPtr at h
    split at h
    · rename_i hi
      split at h
      · cases h
      · rename_i hs
        obtain ⟨t, ht, rfl⟩ := pointeeSize_iff.1 hs
        split at h
        · cases h
        · rename_i hx
          split at h
          · cases h
          · cases h
          · rename_i hg
            cases h
            exact ⟨.getPtr e ht ((operand_iff hr hf).1 hx) ((operand_iff hr hf).1 hi) (getPointer_moved.1 hg), rfl, rfl, rfl⟩
    · cases h
  | getElemPtr a b =>
    rw [stepD_getElemPtr e] at h
    unfold evalGetElemPtr at h
    split at h
    · rename_i hi
      split at h
      · cases h
      · rename_i hs
        obtain ⟨t, ht, rfl⟩ := pointeeSize_iff.1 hs
        split at h
        · rename_i hx
          split at h
          · rename_i hm
            split at h
            · cases h
            · cases h
            · rename_i hg
              cases h
              exact ⟨.getElemPtr e ht ((operand_iff hr hf).1 hx) ((operand_iff hr hf).1 hi) (readMem_iff.1 hm) (getPointer_moved.1 hg), rfl, rfl, rfl⟩
          · cases h
        · cases h
        · rename_i hx
          split at h
          · rename_i hg
            cases h
            exact ⟨.getElemPtrExt e ht ((operand_iff hr hf).1 hx) ((operand_iff hr hf).1 hi) (getPointer_moved.1 hg), rfl, rfl, rfl⟩
          · cases h
        · cases h
    · cases h
  | binary o a b =>
    rw [stepD_binary e] at h
    unfold evalBinary at h
    split at h
    · rename_i ha hb
      split at h
      · cases h
      · rename_i ho
        cases h
        exact ⟨.binary e ((operand_iff hr hf).1 ha) ((operand_iff hr hf).1 hb) (evalOp_iff.1 ho), rfl, rfl, rfl⟩
    · cases h

theorem stepD_err {vs : List Value} {w : σ} (hk : Data d.kind) (h : stepD lib rt fr st v d = .err w) :
    Fails p lib (actOf f fr (v :: vs)) d st.mem st.world ∧ w = st.world := by
  generalize e : d.kind = k at hk
  cases hk with
  | alloc =>
    rw [stepD_alloc e] at h
    unfold evalAlloc at h
    split at h
    · split at h <;> cases h
    · cases h
  | load src =>
    rw [stepD_load e] at h
    unfold evalLoad at h
    split at h
    · split at h <;> cases h
    · cases h
    · rename_i hx
      cases h
      exact ⟨.load e ((operand_iff hr hf).1 hx), rfl⟩
    · rename_i hx
      cases h
      exact ⟨.loadExt e ((operand_iff hr hf).1 hx), rfl⟩
    · cases h
  | store a b =>
    rw [stepD_store e] at h
    unfold evalStore at h
    split at h
    · cases h
    · rename_i x hx
      split at h
      · split at h <;> cases h
      · rename_i hq
        cases h
        exact ⟨.store e ((operand_iff hr hf).1 hx) ((operand_iff hr hf).1 hq), rfl⟩
      · rename_i hq
        split at h
        · cases h
        · rename_i dd hd
          split at h
          · cases h
            exact ⟨.storeExt e ((operand_iff hr hf).1 hx) ((operand_iff hr hf).1 hq) ⟨_, hf, hd⟩ (fun k hk => by cases hk), rfl⟩
          · split at h
            · rename_i hw
              cases h
              exact ⟨.storeExt e ((operand_iff hr hf).1 hx) ((operand_iff hr hf).1 hq) ⟨_, hf, hd⟩ (fun k hk => by cases hk; exact hw), rfl⟩
            · cases h
      · cases h
  | getPtr a b =>
    rw [stepD_getPtr e] at h
    unfold evalGetPtr at h
    split at h
    · rename_i hi
      split at h
      · cases h
      · rename_i hs
        obtain ⟨t, ht, rfl⟩ := pointeeSize_iff.1 hs
        split at h
        · cases h
        · rename_i hx
          split at h
          · cases h
          · rename_i hg
            cases h
            exact ⟨.getPtr e ht ((operand_iff hr hf).1 hx) ((operand_iff hr hf).1 hi) (getPointer_outside.1 hg), rfl⟩
          · cases h
    · cases h
  | getElemPtr a b =>
    rw [stepD_getElemPtr e] at h
    unfold evalGetElemPtr at h
    split at h
    · rename_i hi
      split at h
      · cases h
      · rename_i hs
        obtain ⟨t, ht, rfl⟩ := pointeeSize_iff.1 hs
        split at h
        · rename_i hx
          split at h
          · rename_i hm
            split at h
            · cases h
            · rename_i hg
              cases h
              exact ⟨.getElemPtr e ht ((operand_iff hr hf).1 hx) ((operand_iff hr hf).1 hi) (readMem_iff.1 hm) (getPointer_outside.1 hg), rfl⟩
            · cases h
          · cases h
        · rename_i hx
          cases h
          exact ⟨.getElemPtrNull e ht ((operand_iff hr hf).1 hx) ((operand_iff hr hf).1 hi), rfl⟩
        · split at h <;> cases h
        · cases h
    · cases h
  | binary o a b =>
    rw [stepD_binary e] at h
    unfold evalBinary at h
    split at h
    · split at h <;> cases h
    · cases h

theorem does_stepD {vs : List Value} {a' : Act} {m' : Mem} {w' : σ}
    (h : Does p lib rt.chk rt.ptrSize (actOf f fr (v :: vs)) v d st.mem st.world a' m' w') :
    Data d.kind ∧ ∃ fr' st', stepD lib rt fr st v d = .done (fr', st') ∧ st'.acts = st.acts ∧ a' = actOf f fr' vs ∧ m' = st'.mem ∧ w' = st'.world := by
  cases h with
  | alloc e ht hz hm ho =>
    refine ⟨e ▸ .alloc, ?_⟩
    rw [stepD_alloc e]
    unfold evalAlloc
    rw [ht]
    simp only [zeroInit_iff.2 hz]
    refine ⟨_, _, rfl, rfl, rfl, ?_, rfl⟩
    funext o
    by_cases h : o = Obj.loc fr.act v (fr.allocs.count v)
    · simp only [h, if_true]; exact hm
    · simp only [h, if_false]; exact ho o h
  | load e hx hm =>
    refine ⟨e ▸ .load _, ?_⟩
    rw [stepD_load e]
    unfold evalLoad
    rw [(operand_iff hr hf).2 hx]
    simp only [readMem_iff.2 hm]
    exact ⟨_, _, rfl, rfl, rfl, rfl, rfl⟩
  | loadExt e hx =>
    refine ⟨e ▸ .load _, ?_⟩
    rw [stepD_load e]
    unfold evalLoad
    rw [(operand_iff hr hf).2 hx]
    exact ⟨_, _, rfl, rfl, rfl, rfl, rfl⟩
  | store e hx hq hm =>
    refine ⟨e ▸ .store _ _, ?_⟩
    rw [stepD_store e]
    unfold evalStore
    rw [(operand_iff hr hf).2 hx, (operand_iff hr hf).2 hq]
    simp only [writeMem_iff.2 hm]
    exact ⟨_, _, rfl, rfl, rfl, rfl, rfl⟩
  | storeExt e hx hq hd hw =>
    obtain ⟨fd, h1, hd⟩ := hd
    rw [show (actOf f fr (v :: vs)).fn = f from rfl, hf] at h1; cases h1
    refine ⟨e ▸ .store _ _, ?_⟩
    rw [stepD_store e]
    unfold evalStore
    rw [(operand_iff hr hf).2 hx, (operand_iff hr hf).2 hq]
    simp only [hd, hw]
    exact ⟨_, _, rfl, rfl, rfl, rfl, rfl⟩
  | getPtr e ht hx hi hm =>
    refine ⟨e ▸ .getPtr _ _, ?_⟩
    rw [stepD_getPtr e]
    unfold evalGetPtr
    rw [(operand_iff hr hf).2 hx, (operand_iff hr hf).2 hi]
    simp only [pointeeSize_iff.2 ⟨_, ht, rfl⟩, getPointer_moved.2 hm]
    exact ⟨_, _, rfl, rfl, rfl, rfl, rfl⟩
  | getElemPtr e ht hx hi hs hm =>
    refine ⟨e ▸ .getElemPtr _ _, ?_⟩
    rw [stepD_getElemPtr e]
    unfold evalGetElemPtr
    rw [(operand_iff hr hf).2 hx, (operand_iff hr hf).2 hi]
    simp only [pointeeSize_iff.2 ⟨_, ht, rfl⟩, readMem_iff.2 hs, getPointer_moved.2 hm]
    exact ⟨_, _, rfl, rfl, rfl, rfl, rfl⟩
  | getElemPtrExt e ht hx hi hm =>
    refine ⟨e ▸ .getElemPtr _ _, ?_⟩
    rw [stepD_getElemPtr e]
    unfold evalGetElemPtr
    rw [(operand_iff hr hf).2 hx, (operand_iff hr hf).2 hi]
    simp only [pointeeSize_iff.2 ⟨_, ht, rfl⟩, getPointer_moved.2 hm]
    exact ⟨_, _, rfl, rfl, rfl, rfl, rfl⟩
  | binary e hx hy ho =>
    refine ⟨e ▸ .binary _ _ _, ?_⟩
    rw [stepD_binary e]
    unfold evalBinary
    rw [(operand_iff hr hf).2 hx, (operand_iff hr hf).2 hy]
    simp only [evalOp_iff.2 ho]
    exact ⟨_, _, rfl, rfl, rfl, rfl, rfl⟩

theorem fails_stepD {vs : List Value} (h : Fails p lib (actOf f fr (v :: vs)) d st.mem st.world) :
    Data d.kind ∧ stepD lib rt fr st v d = .err st.world := by
  cases h with
  | load e hx =>
    refine ⟨e ▸ .load _, ?_⟩
    rw [stepD_load e]
    unfold evalLoad
    rw [(operand_iff hr hf).2 hx]
  | loadExt e hx =>
    refine ⟨e ▸ .load _, ?_⟩
    rw [stepD_load e]
    unfold evalLoad
    rw [(operand_iff hr hf).2 hx]
  | store e hx hq =>
    refine ⟨e ▸ .store _ _, ?_⟩
    rw [stepD_store e]
    unfold evalStore
    rw [(operand_iff hr hf).2 hx, (operand_iff hr hf).2 hq]
  | @storeExt _ _ _ _ q e hx hq hd hw =>
    obtain ⟨fd, h1, hd⟩ := hd
    rw [show (actOf f fr (v :: vs)).fn = f from rfl, hf] at h1; cases h1
    refine ⟨e ▸ .store _ _, ?_⟩
    rw [stepD_store e]
    unfold evalStore
    rw [(operand_iff hr hf).2 hx, (operand_iff hr hf).2 hq]
    cases q with
    | none => simp only [hd]
    | some k => simp only [hd, hw k rfl]
  | getPtr e ht hx hi hm =>
    refine ⟨e ▸ .getPtr _ _, ?_⟩
    rw [stepD_getPtr e]
    unfold evalGetPtr
    rw [(operand_iff hr hf).2 hx, (operand_iff hr hf).2 hi]
    simp only [pointeeSize_iff.2 ⟨_, ht, rfl⟩, getPointer_outside.2 hm]
  | getElemPtr e ht hx hi hs hm =>
    refine ⟨e ▸ .getElemPtr _ _, ?_⟩
    rw [stepD_getElemPtr e]
    unfold evalGetElemPtr
    rw [(operand_iff hr hf).2 hx, (operand_iff hr hf).2 hi]
    simp only [pointeeSize_iff.2 ⟨_, ht, rfl⟩, readMem_iff.2 hs, getPointer_outside.2 hm]
  | getElemPtrNull e ht hx hi =>
    refine ⟨e ▸ .getElemPtr _ _, ?_⟩
    rw [stepD_getElemPtr e]
    unfold evalGetElemPtr
    rw [(operand_iff hr hf).2 hx, (operand_iff hr hf).2 hi]
    simp only [pointeeSize_iff.2 ⟨_, ht, rfl⟩]

end

end Koopa
