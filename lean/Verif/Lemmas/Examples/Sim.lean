import Verif.Model.Examples.Interp
import Verif.Spec.Uses
/-!
When two programs behave alike in the interpreter: the second may lack instructions whose results are not
needed or are constants in it, and block parameters that are not needed.
-/
namespace Koopa.Interp
open Koopa.Spec

/-- An object that belongs to one of the allocations `D`. -/
def DeadObj (D : Value → Prop) : Obj → Prop
  | .glob _ => False
  | .loc _ v _ => D v

/-- A value without pointers to objects of the allocations `D`. -/
inductive Clean (D : Value → Prop) : Val → Prop where
  | undef : Clean D .undef
  | int (n : I32) : Clean D (.int n)
  | array {l : List Val} : (∀ x ∈ l, Clean D x) → Clean D (.array l)
  | ptr {q : Option (Obj × List Nat)} (i n : Nat) : (∀ a, q = some a → ¬ DeadObj D a.1) → Clean D (.ptr q i n)
  | unsafePtr (q : Option Nat) : Clean D (.unsafePtr q)

theorem External.clean {D : Value → Prop} {x : Val} (h : External x) : Clean D x := by
  induction h with
  | undef => exact .undef
  | int n => exact .int n
  | array _ ih => exact .array ih
  | unsafePtr q => exact .unsafePtr q

section
variable {D : Value → Prop}

theorem Clean.elems {l : List Val} (h : Clean D (.array l)) : ∀ x ∈ l, Clean D x := by
  cases h with
  | array h => exact h

theorem Clean.target {q : Option (Obj × List Nat)} {i n : Nat} (h : Clean D (.ptr q i n)) {a : Obj × List Nat}
    (e : q = some a) : ¬ DeadObj D a.1 := by
  cases h with
  | ptr _ _ h => exact h a e

theorem zeroInit_clean : ∀ {t : Ty} {x : Val}, zeroInit t = some x → Clean D x
  | .i32, x, h => by cases h; exact .int _
  | .array b n, x, h => by
    simp only [zeroInit, Option.bind_eq_some_iff, Option.some.injEq] at h
    obtain ⟨y, hy, rfl⟩ := h
    refine .array (fun z hz => ?_)
    rw [List.mem_replicate] at hz
    rw [hz.2]
    exact zeroInit_clean hy
  | .ptr b, x, h => by cases h; exact .ptr 0 0 (fun a e => by cases e)
  | .unit, x, h => by cases h
  | .func _ _, x, h => by cases h

theorem Clean.at {is : List Nat} : ∀ {x y : Val}, Clean D x → x.at is = some y → Clean D y := by
  induction is with
  | nil => intro x y hx h; cases x <;> (simp only [Val.at, Option.some.injEq] at h; subst h; exact hx)
  | cons i is ih =>
    intro x y hx h
    cases x with
    | array l =>
      simp only [Val.at] at h
      split at h
      · cases h
      · rename_i z hz
        exact ih (hx.elems z (List.mem_of_getElem? hz)) h
    | _ => simp [Val.at] at h

theorem Clean.put {is : List Nat} {y : Val} (hy : Clean D y) : ∀ {x z : Val}, Clean D x → Val.put y x is = some z → Clean D z := by
  induction is with
  | nil => intro x z _ h; cases x <;> (simp only [Val.put, Option.some.injEq] at h; subst h; exact hy)
  | cons i is ih =>
    intro x z hx h
    cases x with
    | array l =>
      simp only [Val.put] at h
      split at h
      · cases h
      · rename_i w hw
        simp only [Option.map_eq_some_iff] at h
        obtain ⟨w', h1, rfl⟩ := h
        have := ih (hx.elems w (List.mem_of_getElem? hw)) h1
        refine .array (fun v hv => ?_)
        rcases List.mem_or_eq_of_mem_set hv with h | h
        · exact hx.elems v h
        · rw [h]; exact this
    | _ => simp [Val.put] at h

theorem collect_spec {α β : Type} {f g : α → Option β} {Q : β → Prop} : ∀ {as : List α} {bs : List β},
    (∀ a ∈ as, ∀ b, f a = some b → g a = some b ∧ Q b) → collect f as = some bs →
    collect g as = some bs ∧ ∀ b ∈ bs, Q b
  | [], bs, _, h => by cases h; exact ⟨rfl, by simp⟩
  | a :: as, bs, hf, h => by
    simp only [collect] at h ⊢
    split at h
    · cases h
    · rename_i b hb
      simp only [Option.map_eq_some_iff] at h
      obtain ⟨cs, hc, rfl⟩ := h
      obtain ⟨h1, h2⟩ := hf a (by simp) b hb
      obtain ⟨h3, h4⟩ := collect_spec (fun a ha => hf a (by simp [ha])) hc
      rw [h1]
      refine ⟨by simp [h3], fun c hc => ?_⟩
      rcases List.mem_cons.1 hc with rfl | hc
      · exact h2
      · exact h4 c hc

/-- The constants of one value map are constants of another. -/
def ConstsKept (look look' : Value → Option VData) : Prop :=
  ∀ e d, look e = some d → d.kind.isConst = true → ∃ d', look' e = some d' ∧ d'.ty = d.ty ∧ d'.kind = d.kind

theorem evalConst_kept {look look' : Value → Option VData} (hk : ConstsKept look look') : ∀ (n : Nat) {d d' : VData} {x : Val},
    d'.ty = d.ty → d'.kind = d.kind → evalConst look n d = some x → evalConst look' n d' = some x ∧ Clean D x
  | 0, d, d', x, _, _, h => by cases h
  | n + 1, d, d', x, ht, hkd, h => by
    obtain ⟨t, nm, k, u⟩ := d
    obtain ⟨t', nm', k', u'⟩ := d'
    cases ht; cases hkd
    cases k with
    | integer i => cases h; exact ⟨rfl, .int _⟩
    | zeroInit => exact ⟨h, zeroInit_clean (t := t) h⟩
    | undef => cases h; exact ⟨rfl, .undef⟩
    | aggregate es =>
      replace h : (collect (fun e => (look e).bind (evalConst look n)) es).map Val.array = some x := h
      show (collect (fun e => (look' e).bind (evalConst look' n)) es).map Val.array = some x ∧ _
      simp only [Option.map_eq_some_iff] at h
      obtain ⟨xs, hx, rfl⟩ := h
      have := collect_spec (g := fun e => (look' e).bind (evalConst look' n)) (Q := Clean D) (fun e _ b hb => by
        simp only [Option.bind_eq_some_iff] at hb
        obtain ⟨de, h1, h2⟩ := hb
        have hc : de.kind.isConst = true := by
          cases n with
          | zero => cases h2
          | succ n =>
            obtain ⟨t, nm, k, u⟩ := de
            cases k with
            | integer _ | zeroInit | undef | aggregate _ => rfl
            | _ => cases h2
        obtain ⟨de', g1, g2, g3⟩ := hk e de h1 hc
        have := evalConst_kept hk n g2 g3 h2
        exact ⟨by simp [g1, this.1], this.2⟩) hx
      refine ⟨?_, .array this.2⟩
      rw [this.1]; rfl
    | _ => cases h

/-! ### Memory -/

/-- The memories agree except on the objects of `D`, and no pointers to these are stored elsewhere. -/
def MemRel (D : Value → Prop) (m m' : Obj → Option Val) : Prop :=
  ∀ o, ¬ DeadObj D o → m' o = m o ∧ ∀ x, m o = some x → Clean D x

theorem MemRel.read {m m' : Obj → Option Val} (h : MemRel D m m') {a : Obj × List Nat} (ha : ¬ DeadObj D a.1) {x : Val}
    (hx : readMem m a = some x) : readMem m' a = some x ∧ Clean D x := by
  unfold readMem at hx ⊢
  rw [(h _ ha).1]
  refine ⟨hx, ?_⟩
  simp only [Option.bind_eq_some_iff] at hx
  obtain ⟨y, h1, h2⟩ := hx
  exact ((h _ ha).2 y h1).at h2

theorem MemRel.write {m m' m1 : Obj → Option Val} (h : MemRel D m m') {a : Obj × List Nat} (ha : ¬ DeadObj D a.1) {x : Val}
    (hx : Clean D x) (hw : writeMem m a x = some m1) : ∃ m1', writeMem m' a x = some m1' ∧ MemRel D m1 m1' := by
  unfold writeMem at hw ⊢
  rw [(h _ ha).1]
  split at hw
  · cases hw
  · rename_i y hy
    simp only [Option.map_eq_some_iff] at hw
    obtain ⟨z, hz, rfl⟩ := hw
    refine ⟨fun o => if o = a.1 then some z else m' o, by simp [hz], fun o ho => ?_⟩
    dsimp only
    split
    · exact ⟨rfl, fun x' e => by cases e; exact hx.put ((h _ ha).2 y hy) hz⟩
    · exact h o ho

theorem getPointer_clean {x y : Val} {i : Int} {n : Nat} (hx : Clean D x) (h : getPointer x i n = some (some y)) : Clean D y := by
  cases hx with
  | ptr j k hq =>
    simp only [getPointer] at h
    split at h
    · cases h
      refine .ptr _ _ (fun a e => ?_)
      simp only [Option.map_eq_some_iff] at e
      obtain ⟨b, hb, rfl⟩ := e
      exact hq b hb
    · cases h
  | unsafePtr q => simp only [getPointer] at h; cases h; exact .unsafePtr _
  | _ => simp [getPointer] at h

end

/-! ### The relation between the programs -/

/-- The parameters are the same in number and meaning, or dropped, or get the constant that they are in the second program. -/
inductive PassSim (rt rt' : Rt) (Kept : Value → Prop) (fd fd' : FData) : List (Value × Value) → List (Value × Value) → Prop where
  | nil : PassSim rt rt' Kept fd fd' [] []
  | keep {x a : Value} {l l' : List (Value × Value)} : Kept a →
      (∀ d, fd.dfg.values.get? x = some d → isGlobal x = false ∧ ∃ d', fd'.dfg.values.get? x = some d' ∧ d'.kind.isConst = d.kind.isConst) →
      PassSim rt rt' Kept fd fd' l l' → PassSim rt rt' Kept fd fd' ((x, a) :: l) ((x, a) :: l')
  | fold {x a y : Value} {l l' : List (Value × Value)} : Kept a → ¬ Kept y → (fd'.dfg.values.get? y).isSome →
      (∀ fr fr' v, fr.func = fd → fr'.func = fd' → evalValue rt fr a = some v → evalValue rt' fr' x = some v) →
      PassSim rt rt' Kept fd fd' l l' → PassSim rt rt' Kept fd fd' ((x, a) :: l) ((y, a) :: l')
  | drop {x a : Value} {l l' : List (Value × Value)} : ¬ Kept x →
      PassSim rt rt' Kept fd fd' l l' → PassSim rt rt' Kept fd fd' ((x, a) :: l) l'

/-- A transfer to block `t` with the arguments `args`, in the second function with `args'`. -/
def EdgeSim (rt rt' : Rt) (Kept : Value → Prop) (fd fd' : FData) (t : BB) (args args' : List Value) : Prop :=
  ∀ b, fd.dfg.bbs.get? t = some b → ∃ b', fd'.dfg.bbs.get? t = some b' ∧
    PassSim rt rt' Kept fd fd' (b.params.zip args) (b'.params.zip args')

/-- Corresponding kinds of an instruction that stays. -/
inductive KindSim (rt rt' : Rt) (Kept : Value → Prop) (fd fd' : FData) : VKind → VKind → Prop where
  | same {k : VKind} : targets k = [] → (∀ o ∈ operands k, Kept o) → KindSim rt rt' Kept fd fd' k k
  | branch {c : Value} {t f : BB} {ts fs ts' fs' : List Value} : Kept c → EdgeSim rt rt' Kept fd fd' t ts ts' →
      EdgeSim rt rt' Kept fd fd' f fs fs' → KindSim rt rt' Kept fd fd' (.branch c t f ts fs) (.branch c t f ts' fs')
  | jump {t : BB} {as as' : List Value} : EdgeSim rt rt' Kept fd fd' t as as' →
      KindSim rt rt' Kept fd fd' (.jump t as) (.jump t as')

/-- Instructions without effects. -/
def pureInst : VKind → Bool
  | .alloc | .load _ | .getPtr _ _ | .getElemPtr _ _ | .binary _ _ _ => true
  | _ => false

/-- Pure instructions that cannot end the run with an error. -/
def quietInst : VKind → Bool
  | .alloc | .binary _ _ _ => true
  | _ => false

/-- Corresponding lists of instructions. `strict`: errors have to be preserved. -/
inductive InstsSim (rt rt' : Rt) (D : Value → Prop) (strict : Prop) (Kept : Value → Prop) (fd fd' : FData) : List Value → List Value → Prop where
  | nil : InstsSim rt rt' D strict Kept fd fd' [] []
  | keep {v : Value} {l l' : List Value} :
      (∀ d, fd.dfg.values.get? v = some d → isGlobal v = false ∧ (d.kind = .alloc → ¬ D v) ∧
        ∃ d', fd'.dfg.values.get? v = some d' ∧ d'.ty = d.ty ∧ KindSim rt rt' Kept fd fd' d.kind d'.kind) →
      InstsSim rt rt' D strict Kept fd fd' l l' → InstsSim rt rt' D strict Kept fd fd' (v :: l) (v :: l')
  | dead {v : Value} {l l' : List Value} : ¬ Kept v → (∀ d, fd.dfg.values.get? v = some d →
        pureInst d.kind = true ∧ (d.kind = .alloc → D v) ∧ (strict → quietInst d.kind = true)) →
      InstsSim rt rt' D strict Kept fd fd' l l' → InstsSim rt rt' D strict Kept fd fd' (v :: l) l'
  | fold {v : Value} {l l' : List Value} : (∀ d, fd.dfg.values.get? v = some d → ∃ op a b, d.kind = .binary op a b ∧
        ∀ fr fr' i j n, fr.func = fd → fr'.func = fd' → evalValue rt fr a = some (.int i) → evalValue rt fr b = some (.int j) →
          evalOp rt.chk op i j = some n → evalValue rt' fr' v = some (.int n)) →
      InstsSim rt rt' D strict Kept fd fd' l l' → InstsSim rt rt' D strict Kept fd fd' (v :: l) l'

/-- Corresponding functions. `Kept` are the values that the second function still needs. -/
structure FuncSim (rt rt' : Rt) (D : Value → Prop) (strict : Prop) (Kept : Value → Prop) (fd fd' : FData) : Prop where
  ty : fd'.ty = fd.ty
  name : fd'.name = fd.name
  params : fd'.params = fd.params
  entry : fd'.layout.bbs.head?.map (·.1) = fd.layout.bbs.head?.map (·.1)
  consts : ConstsKept fd.dfg.values.get? fd'.dfg.values.get?
  types : ∀ v d, Kept v → fd.dfg.values.get? v = some d → ∃ d', fd'.dfg.values.get? v = some d' ∧ d'.ty = d.ty
  blocks : ∀ b is, fd.layout.insts? b = some is → ∃ is', fd'.layout.insts? b = some is' ∧
    InstsSim rt rt' D strict Kept fd fd' is is'
  bound : ∀ v d, v ∈ fd.params → Kept v → fd.dfg.values.get? v = some d →
    ∃ d', fd'.dfg.values.get? v = some d' ∧ d'.kind.isConst = d.kind.isConst

/-- Corresponding programs. -/
structure ProgSim (rt rt' : Rt) (D : Value → Prop) (strict : Prop) : Prop where
  vars : rt'.vars = rt.vars
  depth : rt'.depth = rt.depth
  ptrSize : rt'.ptrSize = rt.ptrSize
  chk : rt'.chk = rt.chk
  clean : ∀ v x, rt.vars v = some x → Clean D x
  globals : ∀ v, (rt'.prog.values.get? v).map (fun d => d.kind.isConst) = (rt.prog.values.get? v).map (fun d => d.kind.isConst)
  funcs : ∀ f fd, rt.prog.funcs.get? f = some fd → ∃ fd', rt'.prog.funcs.get? f = some fd' ∧
    ∃ Kept, FuncSim rt rt' D strict Kept fd fd'

/-- Corresponding frames: values that are needed and known in the first are the same in the second. -/
structure FrameRel (rt rt' : Rt) (D : Value → Prop) (strict : Prop) (Kept : Value → Prop) (fr fr' : Frame) : Prop where
  func : FuncSim rt rt' D strict Kept fr.func fr'.func
  act : fr'.act = fr.act
  allocs : ∀ v, ¬ D v → fr'.allocs.count v = fr.allocs.count v
  vals : ∀ v x, Kept v → evalValue rt fr v = some x → evalValue rt' fr' v = some x ∧ Clean D x

structure StRel {σ : Type} (D : Value → Prop) (st st' : St σ) : Prop where
  mem : MemRel D st.mem st'.mem
  acts : st'.acts = st.acts
  world : st'.world = st.world

/-- Corresponding outcomes: nothing is said after a panic, and about errors only if they have to be preserved. -/
def OutRel {σ α : Type} (strict : Prop) (R : α → α → Prop) : Out σ α → Out σ α → Prop
  | .done a, o => ∃ a', o = .done a' ∧ R a a'
  | .err w, o => strict → o = .err w
  | .bad, _ => True
  | .fuel, o => o = .fuel

theorem OutRel.bind {σ α β : Type} {strict : Prop} {R : α → α → Prop} {S : β → β → Prop} {o o' : Out σ α} {k k' : α → Out σ β}
    (h : OutRel strict R o o') (hk : ∀ a a', R a a' → OutRel strict S (k a) (k' a')) : OutRel strict S (o.bind k) (o'.bind k') := by
  cases o with
  | done a => obtain ⟨a', rfl, hr⟩ := h; exact hk a a' hr
  | err w => intro hs; rw [h hs]; rfl
  | bad => trivial
  | fuel => cases h; rfl

/-- Dropping the first step. -/
theorem OutRel.bindL {σ α β : Type} {strict : Prop} {S : β → β → Prop} {o : Out σ α} {k : α → Out σ β} {o' : Out σ β}
    (hd : ∀ a, o = .done a → OutRel strict S (k a) o') (he : ∀ w, o = .err w → ¬ strict) (hf : o ≠ .fuel) :
    OutRel strict S (o.bind k) o' := by
  cases o with
  | done a => exact hd a rfl
  | err w => intro hs; exact absurd hs (he w rfl)
  | bad => trivial
  | fuel => exact absurd rfl hf

theorem OutRel.unwrap {σ α : Type} {strict : Prop} {R : α → α → Prop} {o o' : Option α}
    (h : ∀ a, o = some a → ∃ a', o' = some a' ∧ R a a') : OutRel (σ := σ) strict R (Out.unwrap o) (Out.unwrap o') := by
  cases o with
  | none => trivial
  | some a => obtain ⟨a', e, hr⟩ := h a rfl; exact ⟨a', by rw [e]; rfl, hr⟩

section
variable {rt rt' : Rt} {D : Value → Prop} {strict : Prop} {Kept : Value → Prop}

theorem evalValue_set_ne {rt : Rt} {fr : Frame} {v w : Value} {x : Val} (h : w ≠ v) :
    evalValue rt (fr.set v x) w = evalValue rt fr w := by
  unfold evalValue Frame.set
  simp only [h, if_false]

theorem evalValue_set_self {rt : Rt} {fr : Frame} {v : Value} {x : Val} (hg : isGlobal v = false) :
    evalValue rt (fr.set v x) v = match fr.func.dfg.values.get? v with
      | none => none
      | some d => if d.kind.isConst then evalValue rt fr v else some x := by
  unfold evalValue Frame.set
  simp only [hg, Bool.false_eq_true, if_false, if_true]
  cases h : fr.func.dfg.values.get? v with
  | none => simp
  | some d => simp; split <;> simp_all

/-- Setting the same value in both frames. -/
theorem FrameRel.set {fr fr' : Frame} (h : FrameRel rt rt' D strict Kept fr fr') {v : Value} {x : Val} (hg : isGlobal v = false)
    (hd : ∀ d, fr.func.dfg.values.get? v = some d → ∃ d', fr'.func.dfg.values.get? v = some d' ∧ d'.kind.isConst = d.kind.isConst)
    (hx : Clean D x) : FrameRel rt rt' D strict Kept (fr.set v x) (fr'.set v x) where
  func := h.func
  act := h.act
  allocs := h.allocs
  vals w y hk hy := by
    by_cases hw : w = v
    · subst hw
      rw [evalValue_set_self hg] at hy ⊢
      cases hv : fr.func.dfg.values.get? w with
      | none => rw [hv] at hy; cases hy
      | some d =>
        rw [hv] at hy
        obtain ⟨d', e1, e2⟩ := hd d hv
        rw [e1]
        simp only [e2] at hy ⊢
        split at hy
        · rename_i hc; rw [if_pos hc]; exact h.vals w y hk hy
        · rename_i hc; rw [if_neg hc]; cases hy; exact ⟨rfl, hx⟩
    · rw [evalValue_set_ne hw] at hy ⊢
      exact h.vals w y hk hy

/-- Setting a value that is not needed, in the first frame. -/
theorem FrameRel.setL {fr fr' : Frame} (h : FrameRel rt rt' D strict Kept fr fr') {v : Value} {x : Val} (hv : ¬ Kept v) :
    FrameRel rt rt' D strict Kept (fr.set v x) fr' where
  func := h.func
  act := h.act
  allocs := h.allocs
  vals w y hk hy := by
    have hw : w ≠ v := fun e => hv (e ▸ hk)
    rw [evalValue_set_ne hw] at hy
    exact h.vals w y hk hy

/-- Setting a value that is not needed, in the second frame. -/
theorem FrameRel.setR {fr fr' : Frame} (h : FrameRel rt rt' D strict Kept fr fr') {v : Value} {x : Val} (hv : ¬ Kept v) :
    FrameRel rt rt' D strict Kept fr (fr'.set v x) where
  func := h.func
  act := h.act
  allocs := h.allocs
  vals w y hk hy := by
    have hw : w ≠ v := fun e => hv (e ▸ hk)
    rw [evalValue_set_ne hw]
    exact h.vals w y hk hy

/-- Setting a value in the first frame that is this constant in the second function. -/
theorem FrameRel.setFold {fr fr' : Frame} (h : FrameRel rt rt' D strict Kept fr fr') {v : Value} {x : Val} (hx : Clean D x)
    (hv : evalValue rt' fr' v = some x) : FrameRel rt rt' D strict Kept (fr.set v x) fr' where
  func := h.func
  act := h.act
  allocs := h.allocs
  vals w y hk hy := by
    by_cases hw : w = v
    · subst hw
      by_cases he : evalValue rt fr w = some y
      · exact h.vals w y hk he
      · have : y = x := by
          unfold evalValue Frame.set at hy
          unfold evalValue at he
          simp only [if_true] at hy
          split at hy
          · simp_all
          · split at hy
            · cases hy
            · split at hy
              · simp_all
              · cases hy; rfl
        subst this
        exact ⟨hv, hx⟩
    · rw [evalValue_set_ne hw] at hy
      exact h.vals w y hk hy

theorem updateParams_sim {l l' : List (Value × Value)} {fd fd' : FData} (hp : PassSim rt rt' Kept fd fd' l l') :
    ∀ {fr fr' fr1 : Frame}, fr.func = fd → fr'.func = fd' → FrameRel rt rt' D strict Kept fr fr' → updateParams rt fr l = some fr1 →
    ∃ fr1', updateParams rt' fr' l' = some fr1' ∧ FrameRel rt rt' D strict Kept fr1 fr1' := by
  induction hp with
  | nil => intro fr fr' fr1 _ _ h hu; cases hu; exact ⟨fr', rfl, h⟩
  | @keep x a l l' ka hd _ ih =>
    intro fr fr' fr1 e1 e2 h hu
    simp only [updateParams] at hu ⊢
    split at hu
    · cases hu
    · rename_i d hv
      split at hu
      · cases hu
      · rename_i v hev
        obtain ⟨hg, d', hd', hc⟩ := hd d (by rw [← e1]; exact hv)
        obtain ⟨g1, g2⟩ := h.vals a v ka hev
        rw [e2, hd', g1]
        exact ih (fr := fr.set x v) (fr' := fr'.set x v) e1 e2 (h.set hg (fun d0 h0 => by
          rw [hv] at h0; cases h0
          exact ⟨d', by rw [e2]; exact hd', hc⟩) g2) hu
  | @fold x a y l l' ka ky hy hv _ ih =>
    intro fr fr' fr1 e1 e2 h hu
    simp only [updateParams] at hu ⊢
    split at hu
    · cases hu
    · split at hu
      · cases hu
      · rename_i v hev
        obtain ⟨d', hd'⟩ := Option.isSome_iff_exists.1 hy
        obtain ⟨g1, g2⟩ := h.vals a v ka hev
        rw [e2, hd', g1]
        exact ih (fr := fr.set x v) (fr' := fr'.set y v) e1 e2 ((h.setFold g2 (hv fr fr' v e1 e2 hev)).setR ky) hu
  | @drop x a l l' kx _ ih =>
    intro fr fr' fr1 e1 e2 h hu
    simp only [updateParams] at hu
    split at hu
    · cases hu
    · split at hu
      · cases hu
      · rename_i v hev
        exact ih (fr := fr.set x v) (fr' := fr') e1 e2 (h.setL kx) hu

theorem passArgs_sim {fr fr' fr1 : Frame} {t : BB} {as as' : List Value} (he : EdgeSim rt rt' Kept fr.func fr'.func t as as')
    (h : FrameRel rt rt' D strict Kept fr fr') (hp : passArgs rt fr t as = some fr1) :
    ∃ fr1', passArgs rt' fr' t as' = some fr1' ∧ FrameRel rt rt' D strict Kept fr1 fr1' := by
  unfold passArgs at hp ⊢
  split at hp
  · cases hp
  · rename_i b hb
    obtain ⟨b', e1, e2⟩ := he b hb
    rw [e1]
    exact updateParams_sim e2 rfl rfl h hp

variable {σ : Type} {lib : Lib σ}

/-- Frame and state. -/
def ConfRel (rt rt' : Rt) (D : Value → Prop) (strict : Prop) (Kept : Value → Prop) (c c' : Frame × St σ) : Prop :=
  FrameRel rt rt' D strict Kept c.1 c'.1 ∧ StRel D c.2 c'.2

/-- Result and state. -/
def ResRel (D : Value → Prop) (c c' : Val × St σ) : Prop := c'.1 = c.1 ∧ Clean D c.1 ∧ StRel D c.2 c'.2

theorem evalAlloc_sim {fr fr' : Frame} {st st' : St σ} {v : Value} {d d' : VData} (h : FrameRel rt rt' D strict Kept fr fr')
    (hs : StRel D st st') (hg : isGlobal v = false) (hv : fr.func.dfg.values.get? v = some d)
    (hv' : fr'.func.dfg.values.get? v = some d') (ht : d'.ty = d.ty) (hc : d'.kind.isConst = d.kind.isConst) (hD : ¬ D v) :
    OutRel strict (ConfRel rt rt' D strict Kept) (evalAlloc fr st v d) (evalAlloc fr' st' v d') := by
  unfold evalAlloc
  rw [ht]
  split
  · split
    · trivial
    · rename_i x hx
      have eo : Obj.loc fr'.act v (fr'.allocs.count v) = Obj.loc fr.act v (fr.allocs.count v) := by
        rw [h.act, h.allocs v hD]
      rw [eo]
      refine ⟨_, rfl, ?_, ?_⟩
      · refine FrameRel.set (fr := { fr with allocs := v :: fr.allocs }) (fr' := { fr' with allocs := v :: fr'.allocs })
          ⟨h.func, h.act, ?_, h.vals⟩ hg (fun d0 h0 => ?_) (.ptr (q := some (Obj.loc fr.act v (fr.allocs.count v), [])) 0 0 (fun a e => by cases e; exact hD))
        · intro w hw
          show (v :: fr'.allocs).count w = (v :: fr.allocs).count w
          rw [List.count_cons, List.count_cons, h.allocs w hw]
        · have : some d0 = some d := h0.symm.trans hv
          cases this
          exact ⟨d', hv', hc⟩
      · refine ⟨fun o ho => ?_, hs.acts, hs.world⟩
        dsimp only
        split
        · exact ⟨rfl, fun y e => by cases e; exact zeroInit_clean hx⟩
        · exact hs.mem o ho
  · trivial

theorem evalLoad_sim {fr fr' : Frame} {st st' : St σ} {v src : Value} {d d' : VData} (h : FrameRel rt rt' D strict Kept fr fr')
    (hs : StRel D st st') (hg : isGlobal v = false) (hv : fr.func.dfg.values.get? v = some d)
    (hv' : fr'.func.dfg.values.get? v = some d') (ht : d'.ty = d.ty) (hc : d'.kind.isConst = d.kind.isConst) (ks : Kept src) :
    OutRel strict (ConfRel rt rt' D strict Kept) (evalLoad lib rt fr st v d src) (evalLoad lib rt' fr' st' v d' src) := by
  have hset : ∀ {x}, Clean D x → FrameRel rt rt' D strict Kept (fr.set v x) (fr'.set v x) := fun hx => h.set hg (fun d0 h0 => by
    have : some d0 = some d := h0.symm.trans hv
    cases this
    exact ⟨d', hv', hc⟩) hx
  unfold evalLoad
  rw [ht, hs.world]
  cases he : evalValue rt fr src with
  | none => trivial
  | some x =>
    obtain ⟨g1, g2⟩ := h.vals src x ks he
    rw [g1]
    cases x with
    | ptr q i n =>
      cases q with
      | none => exact fun _ => rfl
      | some a =>
        dsimp only
        cases hr : readMem st.mem a with
        | none => trivial
        | some x =>
          obtain ⟨r1, r2⟩ := hs.mem.read (g2.target rfl) hr
          rw [r1]
          exact ⟨_, rfl, hset r2, hs⟩
    | unsafePtr q =>
      cases q with
      | none => exact fun _ => rfl
      | some a => exact ⟨_, rfl, hset (lib.loadExt ..).clean, hs⟩
    | _ => trivial

theorem evalStore_sim {fr fr' : Frame} {st st' : St σ} {value dest : Value} (h : FrameRel rt rt' D strict Kept fr fr')
    (hs : StRel D st st') (kv : Kept value) (kd : Kept dest) :
    OutRel strict (ConfRel rt rt' D strict Kept) (evalStore lib rt fr st value dest) (evalStore lib rt' fr' st' value dest) := by
  unfold evalStore
  rw [hs.world]
  cases he : evalValue rt fr value with
  | none => trivial
  | some x =>
    obtain ⟨g1, g2⟩ := h.vals value x kv he
    rw [g1]
    dsimp only
    cases hd : evalValue rt fr dest with
    | none => trivial
    | some y =>
      obtain ⟨g3, g4⟩ := h.vals dest y kd hd
      rw [g3]
      cases y with
      | ptr q i n =>
        cases q with
        | none => exact fun _ => rfl
        | some a =>
          dsimp only
          cases hw : writeMem st.mem a x with
          | none => trivial
          | some m =>
            obtain ⟨m', w1, w2⟩ := hs.mem.write (g4.target rfl) g2 hw
            rw [w1]
            exact ⟨_, rfl, h, w2, hs.acts, rfl⟩
      | unsafePtr q =>
        dsimp only
        cases hv : fr.func.dfg.values.get? value with
        | none => trivial
        | some d =>
          obtain ⟨d', t1, t2⟩ := h.func.types value d kv hv
          rw [t1]
          cases q with
          | none => exact fun _ => rfl
          | some a =>
            dsimp only
            rw [t2]
            cases lib.store a d.ty x st.world with
            | none => exact fun _ => rfl
            | some w => exact ⟨_, rfl, h, hs.mem, hs.acts, rfl⟩
      | _ => trivial

theorem evalGetPtr_sim {fr fr' : Frame} {st st' : St σ} {v src index : Value} {d d' : VData} (h : FrameRel rt rt' D strict Kept fr fr')
    (hp : rt'.ptrSize = rt.ptrSize)
    (hs : StRel D st st') (hg : isGlobal v = false) (hv : fr.func.dfg.values.get? v = some d)
    (hv' : fr'.func.dfg.values.get? v = some d') (ht : d'.ty = d.ty) (hc : d'.kind.isConst = d.kind.isConst) (ks : Kept src)
    (ki : Kept index) :
    OutRel strict (ConfRel rt rt' D strict Kept) (evalGetPtr rt fr st v d src index) (evalGetPtr rt' fr' st' v d' src index) := by
  have hset : ∀ {x}, Clean D x → FrameRel rt rt' D strict Kept (fr.set v x) (fr'.set v x) := fun hx => h.set hg (fun d0 h0 => by
    have : some d0 = some d := h0.symm.trans hv
    cases this
    exact ⟨d', hv', hc⟩) hx
  unfold evalGetPtr
  rw [ht, hp, hs.world]
  cases hi : evalValue rt fr index with
  | none => trivial
  | some x =>
    obtain ⟨g1, -⟩ := h.vals index x ki hi
    rw [g1]
    cases x with
    | int i =>
      dsimp only
      split
      · trivial
      · rename_i size _
        cases he : evalValue rt fr src with
        | none => trivial
        | some y =>
          obtain ⟨g3, g4⟩ := h.vals src y ks he
          rw [g3]
          dsimp only
          cases hgp : getPointer y i.toInt size with
          | none => trivial
          | some o =>
            cases o with
            | none => exact fun _ => rfl
            | some z => exact ⟨_, rfl, hset (getPointer_clean g4 hgp), hs⟩
    | _ => trivial

theorem evalGetElemPtr_sim {fr fr' : Frame} {st st' : St σ} {v src index : Value} {d d' : VData} (h : FrameRel rt rt' D strict Kept fr fr')
    (hp : rt'.ptrSize = rt.ptrSize)
    (hs : StRel D st st') (hg : isGlobal v = false) (hv : fr.func.dfg.values.get? v = some d)
    (hv' : fr'.func.dfg.values.get? v = some d') (ht : d'.ty = d.ty) (hc : d'.kind.isConst = d.kind.isConst) (ks : Kept src)
    (ki : Kept index) :
    OutRel strict (ConfRel rt rt' D strict Kept) (evalGetElemPtr rt fr st v d src index) (evalGetElemPtr rt' fr' st' v d' src index) := by
  have hset : ∀ {x}, Clean D x → FrameRel rt rt' D strict Kept (fr.set v x) (fr'.set v x) := fun hx => h.set hg (fun d0 h0 => by
    have : some d0 = some d := h0.symm.trans hv
    cases this
    exact ⟨d', hv', hc⟩) hx
  unfold evalGetElemPtr
  rw [ht, hp, hs.world]
  cases hi : evalValue rt fr index with
  | none => trivial
  | some x =>
    obtain ⟨g1, -⟩ := h.vals index x ki hi
    rw [g1]
    cases x with
    | int i =>
      dsimp only
      split
      · trivial
      · rename_i size _
        cases he : evalValue rt fr src with
        | none => trivial
        | some y =>
          obtain ⟨g3, g4⟩ := h.vals src y ks he
          rw [g3]
          cases y with
          | ptr q j n =>
            cases q with
            | none => exact fun _ => rfl
            | some a =>
              dsimp only
              cases hr : readMem st.mem a with
              | none => trivial
              | some x =>
                obtain ⟨r1, r2⟩ := hs.mem.read (g4.target rfl) hr
                rw [r1]
                cases x with
                | array l =>
                  dsimp only
                  cases hgp : getPointer (.ptr (some (a.1, a.2 ++ [0])) 0 l.length) i.toInt size with
                  | none => trivial
                  | some o =>
                    cases o with
                    | none => exact fun _ => rfl
                    | some z =>
                      refine ⟨_, rfl, hset (getPointer_clean (.ptr _ _ (fun b e => ?_)) hgp), hs⟩
                      cases e
                      exact g4.target (a := a) rfl
                | _ => trivial
          | unsafePtr q =>
            dsimp only
            cases hgp : getPointer (.unsafePtr q) i.toInt size with
            | none => trivial
            | some o =>
              cases o with
              | none => trivial
              | some z => exact ⟨_, rfl, hset (getPointer_clean (.unsafePtr q) hgp), hs⟩
          | _ => trivial
    | _ => trivial

theorem evalBinary_sim {fr fr' : Frame} {st st' : St σ} {v l r : Value} {op : BinOp} {d d' : VData} (h : FrameRel rt rt' D strict Kept fr fr')
    (hp : rt'.chk = rt.chk)
    (hs : StRel D st st') (hg : isGlobal v = false) (hv : fr.func.dfg.values.get? v = some d)
    (hv' : fr'.func.dfg.values.get? v = some d') (hc : d'.kind.isConst = d.kind.isConst) (kl : Kept l) (kr : Kept r) :
    OutRel strict (ConfRel rt rt' D strict Kept) (evalBinary rt fr st v op l r) (evalBinary rt' fr' st' v op l r) := by
  unfold evalBinary
  rw [hp]
  cases hl : evalValue rt fr l with
  | none => trivial
  | some x =>
    cases x with
    | int i =>
      cases hr : evalValue rt fr r with
      | none => trivial
      | some y =>
        cases y with
        | int j =>
          rw [(h.vals l _ kl hl).1, (h.vals r _ kr hr).1]
          dsimp only
          split
          · trivial
          · exact ⟨_, rfl, h.set hg (fun d0 h0 => by
              have : some d0 = some d := h0.symm.trans hv
              cases this
              exact ⟨d', hv', hc⟩) (.int _), hs⟩
        | _ => trivial
    | _ => trivial

/-- Dropping an instruction whose result is not needed. -/
theorem dead_sim {fr fr' : Frame} {st st' : St σ} {v : Value} {d : VData} {o : Out σ (Frame × St σ)}
    {k : Frame × St σ → Out σ (Val × St σ)} {o' : Out σ (Val × St σ)} (h : FrameRel rt rt' D strict Kept fr fr') (hs : StRel D st st')
    (hk : ¬ Kept v)
    (ho : (∃ x, o = .done (fr.set v x, st)) ∨ (o = .bad) ∨ (∃ w, o = .err w ∧ ¬ strict) ∨ (D v ∧ o = evalAlloc fr st v d))
    (hrest : ∀ fr1 st1, FrameRel rt rt' D strict Kept fr1 fr' → StRel D st1 st' → fr1.func = fr.func → OutRel strict (ResRel D) (k (fr1, st1)) o') :
    OutRel strict (ResRel D) (o.bind k) o' := by
  rcases ho with ⟨x, rfl⟩ | rfl | ⟨w, rfl, hn⟩ | ⟨hD, rfl⟩
  · exact hrest _ _ (h.setL hk) hs rfl
  · trivial
  · exact fun hst => absurd hst hn
  · unfold evalAlloc
    split
    · split
      · trivial
      · rename_i x hx
        refine hrest _ _ (FrameRel.setL (fr := { fr with allocs := v :: fr.allocs }) ⟨h.func, h.act, fun w hw => ?_, h.vals⟩ hk)
          ⟨fun o ho => ?_, hs.acts, hs.world⟩ rfl
        · show _ = (v :: fr.allocs).count w
          rw [List.count_cons, h.allocs w hw, if_neg]
          · rfl
          · intro e; exact hw ((eq_of_beq e) ▸ hD)
        · dsimp only
          rw [if_neg]
          · exact hs.mem o ho
          · rintro rfl; exact ho hD
    · trivial

theorem evalInsts_sim (hP : ProgSim rt rt' D strict) {call call' : Func → List Val → St σ → Out σ (Val × St σ)}
    {go go' : BB → Frame → St σ → Out σ (Val × St σ)}
    (hcall : ∀ f xs st st', (∀ x ∈ xs, Clean D x) → StRel D st st' → OutRel strict (ResRel D) (call f xs st) (call' f xs st'))
    {fd fd' : FData}
    (hgo : ∀ b fr fr' st st', FrameRel rt rt' D strict Kept fr fr' → StRel D st st' → OutRel strict (ResRel D) (go b fr st) (go' b fr' st'))
    {is is' : List Value} (hi : InstsSim rt rt' D strict Kept fd fd' is is') :
    ∀ {fr fr' : Frame} {st st' : St σ}, fr.func = fd → fr'.func = fd' → FrameRel rt rt' D strict Kept fr fr' → StRel D st st' →
      OutRel strict (ResRel D) (evalInsts lib rt call go is fr st) (evalInsts lib rt' call' go' is' fr' st') := by
  induction hi with
  | nil => intros; trivial
  | @dead v l l' hk hd _ ih =>
    intro fr fr' st st' e1 e2 h hs
    subst e1; subst e2
    have hrest : ∀ fr1 (st1 : St σ), FrameRel rt rt' D strict Kept fr1 fr' → StRel D st1 st' → fr1.func = fr.func →
        OutRel strict (ResRel D) (evalInsts lib rt call go l fr1 st1) (evalInsts lib rt' call' go' l' fr' st') :=
      fun fr1 st1 a b c => ih c rfl a b
    generalize evalInsts lib rt' call' go' l' fr' st' = R at hrest ⊢
    unfold evalInsts
    cases hv : fr.func.dfg.values.get? v with
    | none => trivial
    | some d =>
      obtain ⟨h1, h2, h3⟩ := hd d hv
      dsimp only
      generalize hkk : d.kind = kk at h1 h2 h3
      cases kk with
      | alloc => exact dead_sim h hs hk (.inr (.inr (.inr ⟨h2 rfl, rfl⟩))) hrest
      | load src =>
        have hn : ¬ strict := fun s => by have := h3 s; cases this
        refine dead_sim (d := d) h hs hk ?_ hrest
        unfold evalLoad
        split
        · split
          · exact .inl ⟨_, rfl⟩
          · exact .inr (.inl rfl)
        · exact .inl ⟨_, rfl⟩
        · exact .inr (.inr (.inl ⟨_, rfl, hn⟩))
        · exact .inr (.inr (.inl ⟨_, rfl, hn⟩))
        · exact .inr (.inl rfl)
      | getPtr src index =>
        have hn : ¬ strict := fun s => by have := h3 s; cases this
        refine dead_sim (d := d) h hs hk ?_ hrest
        unfold evalGetPtr
        split
        · split
          · exact .inr (.inl rfl)
          · split
            · exact .inr (.inl rfl)
            · split
              · exact .inr (.inl rfl)
              · exact .inr (.inr (.inl ⟨_, rfl, hn⟩))
              · exact .inl ⟨_, rfl⟩
        · exact .inr (.inl rfl)
      | getElemPtr src index =>
        have hn : ¬ strict := fun s => by have := h3 s; cases this
        refine dead_sim (d := d) h hs hk ?_ hrest
        unfold evalGetElemPtr
        split
        · split
          · exact .inr (.inl rfl)
          · split
            · split
              · split
                · exact .inr (.inl rfl)
                · exact .inr (.inr (.inl ⟨_, rfl, hn⟩))
                · exact .inl ⟨_, rfl⟩
              · exact .inr (.inl rfl)
            · exact .inr (.inr (.inl ⟨_, rfl, hn⟩))
            · split
              · exact .inl ⟨_, rfl⟩
              · exact .inr (.inl rfl)
            · exact .inr (.inl rfl)
        · exact .inr (.inl rfl)
      | binary op a b =>
        refine dead_sim (d := d) h hs hk ?_ hrest
        unfold evalBinary
        split
        · split
          · exact .inr (.inl rfl)
          · exact .inl ⟨_, rfl⟩
        · exact .inr (.inl rfl)
      | _ => cases h1
  | @fold v l l' hd _ ih =>
    intro fr fr' st st' e1 e2 h hs
    subst e1; subst e2
    have hrest : ∀ fr1 (st1 : St σ), FrameRel rt rt' D strict Kept fr1 fr' → StRel D st1 st' → fr1.func = fr.func →
        OutRel strict (ResRel D) (evalInsts lib rt call go l fr1 st1) (evalInsts lib rt' call' go' l' fr' st') :=
      fun fr1 st1 a b c => ih c rfl a b
    generalize evalInsts lib rt' call' go' l' fr' st' = R at hrest ⊢
    unfold evalInsts
    cases hv : fr.func.dfg.values.get? v with
    | none => trivial
    | some d =>
      obtain ⟨op, a, b, hk, hf⟩ := hd d hv
      dsimp only
      rw [hk]
      dsimp only
      unfold evalBinary
      split
      · rename_i i j hl hr
        split
        · trivial
        · rename_i n hn
          exact hrest (fr.set v (.int n)) st (h.setFold (.int n) (hf fr fr' i j n rfl rfl hl hr hn)) hs rfl
      · trivial
  | @keep v l l' hd _ ih =>
    intro fr fr' st st' e1 e2 h hs
    subst e1; subst e2
    unfold evalInsts
    cases hv : fr.func.dfg.values.get? v with
    | none => trivial
    | some d =>
      obtain ⟨hg, hal, d', hv', ht, hkk⟩ := hd d hv
      rw [hv']
      dsimp only
      have hfun : ∀ c c' : Frame × St σ, ConfRel rt rt' D strict Kept c c' → c.1.func = fr.func → c'.1.func = fr'.func →
          OutRel strict (ResRel D) (evalInsts lib rt call go l c.1 c.2) (evalInsts lib rt' call' go' l' c'.1 c'.2) :=
        fun c c' hc a b => ih a b hc.1 hc.2
      have hbind : ∀ {o o' : Out σ (Frame × St σ)}, OutRel strict (ConfRel rt rt' D strict Kept) o o' →
          (∀ c, o = .done c → c.1.func = fr.func) → (∀ c, o' = .done c → c.1.func = fr'.func) →
          OutRel strict (ResRel D) (o.bind (fun x => evalInsts lib rt call go l x.1 x.2))
            (o'.bind (fun x => evalInsts lib rt' call' go' l' x.1 x.2)) := by
        intro o o' ho g1 g2
        cases o with
        | done c => obtain ⟨c', rfl, hc⟩ := ho; exact hfun c c' hc (g1 c rfl) (g2 c' rfl)
        | err w => intro s; rw [ho s]; rfl
        | bad => trivial
        | fuel => cases ho; rfl
      generalize hk : d.kind = k at hkk hal
      generalize hk' : d'.kind = k' at hkk
      cases hkk with
      | branch kc et ef =>
        dsimp only
        rename_i c t f ts fs ts' fs'
        cases hc : evalValue rt fr c with
        | none => trivial
        | some x =>
          rw [(h.vals c x kc hc).1]
          dsimp only
          split
          · exact (OutRel.unwrap (R := FrameRel rt rt' D strict Kept) (fun a ha => passArgs_sim et h ha)).bind (fun a a' r => hgo _ _ _ _ _ r hs)
          · exact (OutRel.unwrap (R := FrameRel rt rt' D strict Kept) (fun a ha => passArgs_sim ef h ha)).bind (fun a a' r => hgo _ _ _ _ _ r hs)
      | jump e =>
        exact (OutRel.unwrap (R := FrameRel rt rt' D strict Kept) (fun a ha => passArgs_sim e h ha)).bind (fun a a' r => hgo _ _ _ _ _ r hs)
      | same htg hop =>
        have hc : d'.kind.isConst = d.kind.isConst := by rw [hk, hk']
        cases k with
        | alloc =>
          refine hbind (evalAlloc_sim h hs hg hv hv' ht hc (hal rfl)) ?_ ?_ <;>
          · intro c e
            unfold evalAlloc at e
            repeat' (split at e)
            all_goals first | (cases e; done) | (cases e; rfl)
        | load src =>
          refine hbind (evalLoad_sim h hs hg hv hv' ht hc (hop _ (by simp [operands]))) ?_ ?_ <;>
          · intro c e
            unfold evalLoad at e
            repeat' (split at e)
            all_goals first | (cases e; done) | (cases e; rfl)
        | store a b =>
          refine hbind (evalStore_sim h hs (hop _ (by simp [operands])) (hop _ (by simp [operands]))) ?_ ?_ <;>
          · intro c e
            unfold evalStore at e
            repeat' (split at e)
            all_goals first | (cases e; done) | (cases e; rfl)
        | getPtr a b =>
          refine hbind (evalGetPtr_sim h hP.ptrSize hs hg hv hv' ht hc (hop _ (by simp [operands])) (hop _ (by simp [operands]))) ?_ ?_ <;>
          · intro c e
            unfold evalGetPtr at e
            repeat' (split at e)
            all_goals first | (cases e; done) | (cases e; rfl)
        | getElemPtr a b =>
          refine hbind (evalGetElemPtr_sim h hP.ptrSize hs hg hv hv' ht hc (hop _ (by simp [operands])) (hop _ (by simp [operands]))) ?_ ?_ <;>
          · intro c e
            unfold evalGetElemPtr at e
            repeat' (split at e)
            all_goals first | (cases e; done) | (cases e; rfl)
        | binary op a b =>
          refine hbind (evalBinary_sim h hP.chk hs hg hv hv' hc (hop _ (by simp [operands])) (hop _ (by simp [operands]))) ?_ ?_ <;>
          · intro c e
            unfold evalBinary at e
            repeat' (split at e)
            all_goals first | (cases e; done) | (cases e; rfl)
        | call callee args =>
          dsimp only
          cases hx : collect (evalValue rt fr) args with
          | none => trivial
          | some xs =>
            obtain ⟨c1, c2⟩ := collect_spec (as := args) (g := evalValue rt' fr') (Q := Clean D) (fun a ha b hb => h.vals a b (hop a ha) hb) hx
            rw [c1]
            refine (hcall callee xs st st' c2 hs).bind (fun a a' r => ?_)
            obtain ⟨x, s1⟩ := a
            obtain ⟨x', s1'⟩ := a'
            obtain ⟨r1, r2, r3⟩ := r
            cases r1
            refine ih (fr := fr.set v x) (fr' := fr'.set v x) rfl rfl (h.set hg (fun d0 h0 => ?_) r2) r3
            rw [hv] at h0; cases h0
            exact ⟨d', hv', hc⟩
        | ret r =>
          cases r with
          | none => exact ⟨_, rfl, rfl, .undef, hs⟩
          | some r =>
            refine (OutRel.unwrap (R := fun a a' => a' = a ∧ Clean D a) (fun a ha => ?_)).bind (fun a a' r => ⟨_, rfl, r.1, r.2, hs⟩)
            have := h.vals r a (hop _ (by simp [operands])) ha
            exact ⟨a, this.1, rfl, this.2⟩
        | branch => cases htg
        | jump => cases htg
        | _ => trivial

theorem bindParams_some : ∀ {l : List (Value × Val)} {w : Value} {x : Val}, bindParams l w = some x → ∃ v, v = w ∧ (v, x) ∈ l
  | [], w, x, h => by cases h
  | (v, y) :: l, w, x, h => by
    simp only [bindParams] at h
    split at h
    · rename_i e; cases h; exact ⟨v, e.symm, by simp⟩
    · obtain ⟨v', e, hm⟩ := bindParams_some h
      exact ⟨v', e, by simp [hm]⟩

theorem evalFunc_sim (hP : ProgSim rt rt' D strict) {go go' : BB → Frame → St σ → Out σ (Val × St σ)}
    (hgo : ∀ Kept b fr fr' st st', FrameRel rt rt' D strict Kept fr fr' → StRel D st st' → OutRel strict (ResRel D) (go b fr st) (go' b fr' st'))
    {f : Func} {xs : List Val} {st st' : St σ} (hx : ∀ x ∈ xs, Clean D x) (hs : StRel D st st') :
    OutRel strict (ResRel D) (evalFunc lib rt.prog go f xs st) (evalFunc lib rt'.prog go' f xs st') := by
  unfold evalFunc
  cases hf : rt.prog.funcs.get? f with
  | none => trivial
  | some fd =>
    obtain ⟨fd', hf', Kept, hF⟩ := hP.funcs f fd hf
    rw [hf']
    dsimp only
    rw [hF.ty]
    split
    · split
      · trivial
      · have hh := hF.entry
        cases hb : fd.layout.bbs with
        | nil =>
          have hb' : fd'.layout.bbs = [] := by
            rw [hb] at hh
            cases hq : fd'.layout.bbs with
            | nil => rfl
            | cons a l => rw [hq] at hh; simp at hh
          rw [hb']
          dsimp only
          rw [hF.name, hs.world]
          cases hl : lib.call fd.name fd.ty xs st.world with
          | none => exact fun _ => rfl
          | some r =>
            obtain ⟨x, w⟩ := r
            exact ⟨_, rfl, rfl, (lib.callExt _ _ _ _ _ _ hl).clean, hs.mem, hs.acts, rfl⟩
        | cons e l =>
          rw [hb] at hh
          cases hb' : fd'.layout.bbs with
          | nil => rw [hb'] at hh; simp at hh
          | cons e' l' =>
            rw [hb'] at hh
            obtain ⟨e, is⟩ := e
            obtain ⟨e', is'⟩ := e'
            simp at hh
            subst hh
            dsimp only
            have hfr : FrameRel rt rt' D strict Kept { func := fd, act := st.acts, vals := bindParams (fd.params.zip xs), allocs := [] }
                { func := fd', act := st'.acts, vals := bindParams (fd'.params.zip xs), allocs := [] } := by
              refine ⟨hF, hs.acts, fun _ _ => rfl, fun v x hk hv => ?_⟩
              unfold evalValue at hv ⊢
              split at hv
              · rename_i hg
                rw [if_pos hg]
                have hgl := hP.globals v
                split at hv
                · cases hv
                · rename_i d hd
                  rw [hd] at hgl
                  cases hd' : rt'.prog.values.get? v with
                  | none => rw [hd'] at hgl; cases hgl
                  | some d' =>
                    rw [hd'] at hgl
                    simp only [Option.map_some, Option.some.injEq] at hgl
                    dsimp only
                    rw [hgl]
                    split at hv
                    · cases hv
                    · rename_i hc
                      rw [if_neg hc, hP.vars]
                      exact ⟨hv, hP.clean v x hv⟩
              · rename_i hg
                rw [if_neg hg]
                dsimp only at hv ⊢
                split at hv
                · cases hv
                · rename_i d hd
                  split at hv
                  · rename_i hc
                    obtain ⟨d', q1, q2, q3⟩ := hF.consts v d hd hc
                    rw [q1]
                    dsimp only
                    rw [q3, if_pos hc, hP.depth]
                    exact evalConst_kept hF.consts _ q2 q3 hv
                  · rename_i hc
                    obtain ⟨w, e, hm⟩ := bindParams_some hv
                    subst e
                    obtain ⟨hm1, hm2⟩ := List.of_mem_zip hm
                    obtain ⟨d', q1, q2⟩ := hF.bound w d hm1 hk hd
                    rw [q1]
                    dsimp only
                    rw [q2, if_neg hc, hF.params]
                    exact ⟨hv, hx x hm2⟩
            refine (hgo Kept _ _ _ { st with acts := st.acts + 1 } { st' with acts := st'.acts + 1 } hfr ⟨hs.mem, congrArg (· + 1) hs.acts, hs.world⟩).bind (fun a a' r => ?_)
            obtain ⟨x, s1⟩ := a
            obtain ⟨x', s1'⟩ := a'
            obtain ⟨r1, r2, r3⟩ := r
            refine ⟨_, rfl, r1, r2, fun o ho => ?_, r3.acts, r3.world⟩
            have := r3.mem o ho
            cases o with
            | glob v => exact this
            | loc a v n =>
              dsimp only
              rw [hs.acts]
              split
              · exact ⟨rfl, fun x e => by cases e⟩
              · exact this
    · trivial

theorem evalBb_sim (hP : ProgSim rt rt' D strict) : ∀ (n : Nat) (Kept : Value → Prop) (b : BB) (fr fr' : Frame) (st st' : St σ),
    FrameRel rt rt' D strict Kept fr fr' → StRel D st st' → OutRel strict (ResRel D) (evalBb lib rt n b fr st) (evalBb lib rt' n b fr' st')
  | 0, _, _, _, _, _, _, _, _ => rfl
  | n + 1, Kept, b, fr, fr', st, st', h, hs => by
    unfold evalBb
    cases hi : fr.func.layout.insts? b with
    | none => trivial
    | some is =>
      obtain ⟨is', hi', hsim⟩ := h.func.blocks b is hi
      rw [hi']
      exact evalInsts_sim hP (call := evalFunc lib rt.prog (evalBb lib rt n)) (call' := evalFunc lib rt'.prog (evalBb lib rt' n))
        (fun f xs s s' hx hs => evalFunc_sim (xs := xs) hP (evalBb_sim hP n) hx hs) (evalBb_sim hP n Kept) hsim rfl rfl h hs

end

/-! ### Everything stays -/

/-- Every value is needed. -/
def All : Value → Prop := fun _ => True

/-- No allocation is dropped. -/
def NoAlloc : Value → Prop := fun _ => False

section
variable {rt rt' : Rt} {Kept : Value → Prop} {fd fd' : FData}

theorem PassSim.same {ps as : List Value} (ha : ∀ a ∈ as, Kept a)
    (hp : ∀ x ∈ ps, ∀ d, fd.dfg.values.get? x = some d → isGlobal x = false ∧ ∃ d', fd'.dfg.values.get? x = some d' ∧ d'.kind.isConst = d.kind.isConst) :
    PassSim rt rt' Kept fd fd' (ps.zip as) (ps.zip as) := by
  induction ps generalizing as with
  | nil => exact .nil
  | cons x ps ih =>
    cases as with
    | nil => exact .nil
    | cons a as =>
      exact .keep (ha a (by simp)) (hp x (by simp)) (ih (fun a h => ha a (by simp [h])) (fun x h => hp x (by simp [h])))

/-- An instruction that stays as it is. -/
theorem KindSim.of_same {k : VKind} (hk : ∀ o ∈ operands k, Kept o)
    (hb : ∀ t ∈ targets k, ∀ as, (∀ a ∈ as, a ∈ operands k) → EdgeSim rt rt' Kept fd fd' t as as) : KindSim rt rt' Kept fd fd' k k := by
  cases k with
  | branch c t f ts fs =>
    exact .branch (hk c (by simp [operands])) (hb t (by simp [targets]) ts (fun a h => by simp [operands, h]))
      (hb f (by simp [targets]) fs (fun a h => by simp [operands, h]))
  | jump t as => exact .jump (hb t (by simp [targets]) as (fun a h => h))
  | _ => exact .same rfl hk

end

/-- A function corresponds to itself. -/
theorem FuncSim.refl {rt rt' : Rt} {D : Value → Prop} {strict : Prop} {fd : FData}
    (hl : ∀ v, (fd.dfg.values.get? v).isSome → isGlobal v = false) (hD : ∀ v, (fd.dfg.values.get? v).isSome → ¬ D v) :
    FuncSim rt rt' D strict All fd fd where
  ty := rfl
  name := rfl
  params := rfl
  entry := rfl
  consts := fun e d h _ => ⟨d, h, rfl, rfl⟩
  types := fun v d _ h => ⟨d, h, rfl⟩
  bound := fun v d _ _ h => ⟨d, h, rfl⟩
  blocks b is h := by
    refine ⟨is, h, ?_⟩
    clear h
    induction is with
    | nil => exact .nil
    | cons v is ih =>
      refine .keep (fun d hd => ⟨hl v (by rw [hd]; rfl), fun _ => hD v (by rw [hd]; rfl), d, hd, rfl, ?_⟩) ih
      refine .of_same (fun _ _ => trivial) (fun t _ as _ b hb => ⟨b, hb, .same (fun _ _ => trivial) (fun x _ d hx => ?_)⟩)
      exact ⟨hl x (by rw [hx]; rfl), d, hx, rfl⟩

/-- The globals of corresponding programs. -/
theorem initGlobals_congr {p p' : Program} {depth : Nat} (hv : ∀ v, (p'.values.get? v).map (fun d => (d.ty, d.kind)) = (p.values.get? v).map (fun d => (d.ty, d.kind))) :
    ∀ (vs : List Value) (m : Obj → Option Val) (vars : Value → Option Val), initGlobals p' depth vs m vars = initGlobals p depth vs m vars := by
  have hlook : ∀ (n : Nat) (d d' : VData), d'.ty = d.ty → d'.kind = d.kind → evalConst p'.values.get? n d' = evalConst p.values.get? n d := by
    have one : ∀ (q q' : Program), (∀ v, (q'.values.get? v).map (fun d => (d.ty, d.kind)) = (q.values.get? v).map (fun d => (d.ty, d.kind))) →
        ConstsKept q.values.get? q'.values.get? := by
      intro q q' hq e d hd _
      have := hq e
      rw [hd] at this
      cases h' : q'.values.get? e with
      | none => rw [h'] at this; cases this
      | some d' =>
        rw [h'] at this
        simp only [Option.map_some, Option.some.injEq, Prod.mk.injEq] at this
        exact ⟨d', rfl, this.1, this.2⟩
    intro n d d' h1 h2
    cases hx : evalConst p.values.get? n d with
    | some x => exact (evalConst_kept (D := fun _ => False) (one p p' hv) n h1 h2 hx).1
    | none =>
      cases hy : evalConst p'.values.get? n d' with
      | none => rfl
      | some y =>
        have := (evalConst_kept (D := fun _ => False) (one p' p (fun v => (hv v).symm)) n h1.symm h2.symm hy).1
        rw [hx] at this; cases this
  intro vs
  induction vs with
  | nil => intros; rfl
  | cons v vs ih =>
    intro m vars
    unfold initGlobals
    have h1 := hv v
    cases hd : p.values.get? v with
    | none =>
      rw [hd] at h1
      cases hd' : p'.values.get? v with
      | none => rfl
      | some d' => rw [hd'] at h1; cases h1
    | some d =>
      rw [hd] at h1
      cases hd' : p'.values.get? v with
      | none => rw [hd'] at h1; cases h1
      | some d' =>
        rw [hd'] at h1
        simp only [Option.map_some, Option.some.injEq, Prod.mk.injEq] at h1
        dsimp only
        rw [h1.2]
        cases d.kind with
        | globalAlloc init =>
          dsimp only
          have h2 := hv init
          cases hi : p.values.get? init with
          | none =>
            rw [hi] at h2
            cases hi' : p'.values.get? init with
            | none => rfl
            | some d' => rw [hi'] at h2; cases h2
          | some i =>
            rw [hi] at h2
            cases hi' : p'.values.get? init with
            | none => rw [hi'] at h2; cases h2
            | some i' =>
              rw [hi'] at h2
              simp only [Option.map_some, Option.some.injEq, Prod.mk.injEq] at h2
              dsimp only
              rw [hlook depth i i' h2.1 h2.2]
              split
              · rfl
              · exact ih _ _
        | _ => rfl

theorem initGlobals_clean {p : Program} {depth : Nat} {D : Value → Prop} : ∀ (vs : List Value) {m m1 : Obj → Option Val} {vars vars1 : Value → Option Val},
    initGlobals p depth vs m vars = some (m1, vars1) → (∀ o x, m o = some x → Clean D x) → (∀ v x, vars v = some x → Clean D x) →
    (∀ o x, m1 o = some x → Clean D x) ∧ ∀ v x, vars1 v = some x → Clean D x
  | [], m, m1, vars, vars1, h, h1, h2 => by cases h; exact ⟨h1, h2⟩
  | v :: vs, m, m1, vars, vars1, h, h1, h2 => by
    unfold initGlobals at h
    split at h
    · cases h
    · rename_i d hd
      split at h
      · rename_i init _
        split at h
        · cases h
        · rename_i i _
          split at h
          · cases h
          · rename_i x hx
            refine initGlobals_clean vs h (fun o y hy => ?_) (fun w y hy => ?_)
            · split at hy
              · cases hy
                exact (evalConst_kept (look' := p.values.get?) (fun e d he _ => ⟨d, he, rfl, rfl⟩) depth rfl rfl hx).2
              · exact h1 o y hy
            · split at hy
              · cases hy; exact .ptr 0 0 (fun a e => by cases e; exact id)
              · exact h2 w y hy
      · cases h

/-- What a change of programs does to the result of a run. -/
def Preserved {σ : Type} (strict : Prop) (o o' : Out σ (I32 × σ)) : Prop := OutRel strict (fun a b => b = a) o o'

/-- Corresponding programs have the same results. -/
theorem interpret_sim {σ : Type} {lib : Lib σ} {chk : Bool} {depth ptrSize fuel : Nat} {ord : List Func} {p p' : Program} {w : σ}
    {D : Value → Prop} {strict : Prop} (hl : p'.instLayout = p.instLayout)
    (hv : ∀ v, (p'.values.get? v).map (fun d => (d.ty, d.kind)) = (p.values.get? v).map (fun d => (d.ty, d.kind)))
    (hn : ∀ f, (p'.funcs.get? f).isSome = (p.funcs.get? f).isSome)
    (hf : ∀ vars f fd, p.funcs.get? f = some fd → ∃ fd', p'.funcs.get? f = some fd' ∧
      ∃ Kept, FuncSim ⟨p, vars, depth, ptrSize, chk⟩ ⟨p', vars, depth, ptrSize, chk⟩ D strict Kept fd fd') :
    Preserved strict (interpret lib chk depth ptrSize fuel ord p w) (interpret lib chk depth ptrSize fuel ord p' w) := by
  unfold interpret Preserved
  rw [hl, initGlobals_congr hv]
  cases hi : initGlobals p depth p.instLayout (fun _ => none) (fun _ => none) with
  | none => trivial
  | some mv =>
    obtain ⟨m, vars⟩ := mv
    obtain ⟨c1, c2⟩ := initGlobals_clean (D := D) _ hi (fun _ _ e => by cases e) (fun _ _ e => by cases e)
    dsimp only
    have hm : findMain p' ord = findMain p ord := by
      unfold findMain
      congr 1
      funext f
      cases h : p.funcs.get? f with
      | none =>
        have := hn f
        rw [h] at this
        cases h' : p'.funcs.get? f with
        | none => rfl
        | some _ => rw [h'] at this; cases this
      | some fd =>
        obtain ⟨fd', e, K, hF⟩ := hf vars f fd h
        rw [e]
        dsimp only
        rw [hF.name]
    rw [hm]
    cases findMain p ord with
    | none => exact fun _ => rfl
    | some f =>
      dsimp only
      have hP : ProgSim ⟨p, vars, depth, ptrSize, chk⟩ ⟨p', vars, depth, ptrSize, chk⟩ D strict := by
        refine ⟨rfl, rfl, rfl, rfl, c2, fun v => ?_, hf vars⟩
        have := congrArg (Option.map (fun q : Ty × VKind => q.2.isConst)) (hv v)
        simpa [Option.map_map, Function.comp_def] using this
      refine (evalFunc_sim hP (evalBb_sim hP fuel) (fun x hx => by cases hx)
        (st := { mem := m, acts := 0, world := w }) (st' := { mem := m, acts := 0, world := w })
        ⟨fun o _ => ⟨rfl, c1 o⟩, rfl, rfl⟩).bind (fun a a' r => ?_)
      obtain ⟨x, s1⟩ := a
      obtain ⟨x', s1'⟩ := a'
      obtain ⟨r1, r2, r3⟩ := r
      cases r1
      cases x with
      | int n => exact ⟨_, rfl, congrArg (Prod.mk n) r3.world⟩
      | _ => intro _; dsimp only; rw [r3.world]

end Koopa.Interp
