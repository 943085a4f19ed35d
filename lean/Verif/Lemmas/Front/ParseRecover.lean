import Verif.Lemmas.Front.ParseSound
/-!
The parsers that recover from errors.
-/
namespace Koopa
open Spec

/-- The parser never leaves the good states and never goes back, whatever its fuel. -/
structure Mono {α : Type} (p : P α) : Prop where
  run : ∀ f s r s', PInv f s → p s = some (r, s') → PInv f s' ∧ s'.size ≤ s.size

theorem Mono.pure {α : Type} {a : α} : Mono (Pure.pure a : P α) := by
  constructor
  intro f s r s' hi h
  rw [P.pure_eq, Option.some.injEq, Prod.mk.injEq] at h
  obtain ⟨-, rfl⟩ := h
  exact ⟨hi, Nat.le_refl _⟩

theorem Mono.fail {α : Type} : Mono (P.fail : P α) := by
  constructor
  intro f s r s' hi h
  simp only [P.fail, Option.some.injEq, Prod.mk.injEq] at h
  obtain ⟨-, rfl⟩ := h
  exact ⟨hi, Nat.le_refl _⟩

theorem Mono.outOfFuel {α : Type} : Mono (P.outOfFuel : P α) := by
  constructor
  intro f s r s' hi h
  simp [P.outOfFuel] at h

theorem Mono.cur : Mono P.cur := by
  constructor
  intro f s r s' hi h
  simp only [P.cur, Option.some.injEq, Prod.mk.injEq] at h
  obtain ⟨-, rfl⟩ := h
  exact ⟨hi, Nat.le_refl _⟩

theorem Mono.next : Mono P.next := by
  constructor
  intro f s r s' hi h
  obtain ⟨r1, s1, h1, h2, h3, -⟩ := next_spec hi
  rw [h, Option.some.injEq, Prod.mk.injEq] at h1
  obtain ⟨-, rfl⟩ := h1
  exact ⟨h2, h3⟩

theorem Mono.bind {α β : Type} {p : P α} {k : α → P β} (hp : Mono p) (hk : ∀ a, Mono (k a)) :
    Mono (p >>= k) := by
  constructor
  intro f s r s' hi h
  rw [P.bind_eq] at h
  rcases e : p s with _ | ⟨r1, s1⟩
  · rw [e] at h; simp at h
  · rw [e] at h
    have h1 := hp.run f s r1 s1 hi e
    cases r1 with
    | ok a =>
      have h2 := (hk a).run f s1 r s' h1.1 h
      exact ⟨h2.1, by omega⟩
    | error x =>
      simp only [Option.some.injEq, Prod.mk.injEq] at h
      obtain ⟨-, rfl⟩ := h
      exact h1

/-- Solves `Mono` goals of straight-line parsers. -/
syntax "mono_step" : tactic
macro_rules | `(tactic| mono_step) => `(tactic| repeat' first
  | assumption
  | exact Mono.pure
  | exact Mono.fail
  | exact Mono.cur
  | exact Mono.next
  | exact Mono.outOfFuel
  | (refine Mono.bind ?_ ?_)
  | (intro _)
  | split)

theorem Mono.expect (k : TokKind) : Mono (P.expect k) := by unfold P.expect; mono_step
theorem Mono.readSym : Mono P.readSym := by unfold P.readSym; mono_step
theorem Mono.readInt : Mono P.readInt := by unfold P.readInt; mono_step
theorem Mono.readOp : Mono P.readOp := by unfold P.readOp; mono_step
theorem Mono.value : Mono P.value := by unfold P.value; mono_step

theorem Mono.listLoop {α : Type} {p : P α} (hp : Mono p) : ∀ n, Mono (P.listLoop p n)
  | 0 => Mono.outOfFuel
  | n + 1 => by
    have := Mono.listLoop hp n
    unfold P.listLoop; mono_step

theorem Mono.list {α : Type} {p : P α} (hp : Mono p) (n : Nat) : Mono (P.list p n) := by
  have h1 := Mono.expect (.other '(')
  have h2 := Mono.expect (.other ')')
  have h3 := Mono.listLoop hp n
  unfold P.list; mono_step

theorem Mono.optList {α : Type} {p : P α} (hp : Mono p) (n : Nat) : Mono (P.optList p n) := by
  have h1 := Mono.list hp n
  unfold P.optList; mono_step

theorem Mono.retType {p : P TyAst} (hp : Mono p) : Mono (P.retType p) := by
  unfold P.retType; mono_step

theorem Mono.type : ∀ n, Mono (P.type n)
  | 0 => Mono.outOfFuel
  | n + 1 => by
    have h := Mono.type n
    have h1 := Mono.list h n
    have h2 := Mono.retType h
    have h3 := Mono.expect
    have h4 := Mono.readInt
    unfold P.type
    mono_step
    all_goals exact h3 _

theorem Mono.init : ∀ n, Mono (P.init n)
  | 0 => Mono.outOfFuel
  | n + 1 => by
    have h := Mono.init n
    have h1 := Mono.listLoop h n
    have h3 := Mono.expect
    unfold P.init
    mono_step
    all_goals exact h3 _

theorem Mono.funCall (n : Nat) : Mono (P.funCall n) := by
  have h1 := Mono.readSym
  have h2 := Mono.list Mono.value n
  unfold P.funCall; mono_step

theorem Mono.expr (n : Nat) : Mono (P.expr n) := by
  have h1 := Mono.readSym
  have h2 := Mono.type n
  have h3 := Mono.expect
  have h4 := Mono.value
  have h5 := Mono.readOp
  have h6 := Mono.funCall n
  unfold P.expr P.memDecl P.load P.getPtr P.getElemPtr P.binary
  mono_step
  all_goals exact h3 _

theorem Mono.storeValue (n : Nat) : Mono (P.storeValue n) := by
  have h1 := Mono.init n
  unfold P.storeValue; mono_step

theorem Mono.param (n : Nat) : Mono (P.param n) := by
  have h1 := Mono.readSym
  have h2 := Mono.type n
  have h3 := Mono.expect (.other ':')
  unfold P.param; mono_step

/-- Whatever the outcome, short of a fatal error, something was consumed. -/
def Adv {α : Type} (p : P α) (s : PS) : Prop :=
  ∀ r s', p s = some (r, s') → r ≠ .error .fatal → s'.size < s.size

theorem Adv.next {f : Bool} {α : Type} {k : Unit → P α} {s : PS} (hi : PInv f s)
    (hne : s.cur.kind ≠ .eof) (hk : Mono (k ())) : Adv (P.next >>= k) s := by
  intro r s' h hr
  obtain ⟨r1, s1, h1, h2, h3, h4, -⟩ := next_spec hi
  rw [P.bind_eq, h1] at h
  cases r1 with
  | ok a =>
    have := hk.run f s1 r s' h2 h
    have := h4 hne (by simp)
    omega
  | error e =>
    simp only [Option.some.injEq, Prod.mk.injEq] at h
    obtain ⟨rfl, rfl⟩ := h
    refine h4 hne ?_
    intro h'
    simp only [Except.error.injEq] at h'
    subst h'
    exact hr rfl

theorem Adv.readSym {f : Bool} {α : Type} {k : Str → P α} {s : PS} {v : Str} (hi : PInv f s)
    (hv : s.cur.kind = .sym v) (hk : Mono (k v)) : Adv (P.readSym >>= k) s := by
  have e : (P.readSym >>= k) s = (P.next >>= fun _ => k v) s := by
    rw [P.bind_eq, P.bind_eq]
    unfold P.readSym
    rw [P.bind_cur, hv]
    simp only
    rw [P.bind_eq]
    rcases h : P.next s with _ | ⟨r1, s1⟩
    · rfl
    · cases r1 <;> rfl
  intro r s' h hr
  rw [e] at h
  exact Adv.next hi (by simp [hv]) hk r s' h hr

theorem adv_symbolDef {f : Bool} {n : Nat} {s : PS} {v : Str} (hi : PInv f s)
    (hv : s.cur.kind = .sym v) : Adv (P.symbolDef n) s := by
  have h1 := Mono.expect (.other '=')
  have h2 := Mono.expr n
  unfold P.symbolDef
  exact Adv.readSym hi hv (by mono_step)

theorem adv_store {f : Bool} {n : Nat} {s : PS} (hi : PInv f s) (hne : s.cur.kind ≠ .eof) :
    Adv (P.store n) s := by
  have h1 := Mono.expect (.other ',')
  have h2 := Mono.storeValue n
  have h3 := Mono.readSym
  unfold P.store
  exact Adv.next hi hne (by mono_step)

theorem adv_call {f : Bool} {n : Nat} {s : PS} (hi : PInv f s) (hne : s.cur.kind ≠ .eof) :
    Adv (P.funCall n) s := by
  have h1 := Mono.readSym
  have h2 := Mono.list Mono.value n
  unfold P.funCall
  exact Adv.next hi hne (by mono_step)

theorem adv_branch {f : Bool} {n : Nat} {s : PS} (hi : PInv f s) (hne : s.cur.kind ≠ .eof) :
    Adv (P.branch n) s := by
  have h1 := Mono.readSym
  have h2 := Mono.optList Mono.value n
  have h3 := Mono.expect (.other ',')
  have h4 := Mono.value
  unfold P.branch
  exact Adv.next hi hne (by mono_step)

theorem adv_jump {f : Bool} {n : Nat} {s : PS} (hi : PInv f s) (hne : s.cur.kind ≠ .eof) :
    Adv (P.jump n) s := by
  have h1 := Mono.readSym
  have h2 := Mono.optList Mono.value n
  unfold P.jump
  exact Adv.next hi hne (by mono_step)

theorem adv_ret {f : Bool} {s : PS} (hi : PInv f s) (hne : s.cur.kind ≠ .eof) :
    Adv P.ret s := by
  have h4 := Mono.value
  intro r s' h hr
  unfold P.ret at h
  rw [P.bind_cur] at h
  exact Adv.next hi hne (by mono_step) r s' h hr

theorem Adv.bind {f : Bool} {α β : Type} {p : P α} {k : α → P β} {s : PS} (hi : PInv f s)
    (hm : Mono p) (hp : Adv p s) (hk : ∀ a, Mono (k a)) : Adv (p >>= k) s := by
  intro r s' h hr
  rw [P.bind_eq] at h
  rcases e : p s with _ | ⟨r1, s1⟩
  · rw [e] at h; simp at h
  · rw [e] at h
    cases r1 with
    | ok a =>
      have h1 := hp _ _ e (by simp)
      have h2 := (hk a).run f s1 r s' (hm.run f s _ _ hi e).1 h
      omega
    | error x =>
      simp only [Option.some.injEq, Prod.mk.injEq] at h
      obtain ⟨rfl, rfl⟩ := h
      refine hp _ _ e ?_
      intro h'
      simp only [Except.error.injEq] at h'
      subst h'
      exact hr rfl

/-! ### Skipping tokens after an error -/

theorem skipTo_r {f : Bool} {stop : TokKind → Bool} (hstop : stop .eof = true) : ∀ n s, PInv f s →
    s.size < n →
    ∃ r s', P.skipTo stop n s = some (r, s') ∧ PInv f s' ∧ s'.size ≤ s.size ∧ s.errs ≤ s'.errs ∧
      match r with
      | .ok _ => stop s'.cur.kind = true
      | .error e => s.errs < s'.errs ∧ e = .fatal ∧ f = true := by
  intro n
  induction n with
  | zero => intro s _ h; omega
  | succ n ih =>
    intro s hi hs
    unfold P.skipTo
    split
    · rename_i h
      exact ⟨.ok (), s, rfl, hi, Nat.le_refl _, Nat.le_refl _, h⟩
    · rename_i hst
      have hne : s.cur.kind ≠ .eof := by intro h; rw [h] at hst; exact hst hstop
      obtain ⟨r1, s1, h1, h2, h3, h4, h5, h6⟩ := next_spec hi
      rw [h1]
      cases r1 with
      | ok a =>
        obtain ⟨r, s', k1, k2, k3, k4, k5⟩ := ih s1 h2 (by have := h4 hne (by simp); omega)
        have := h6 rfl
        refine ⟨r, s', k1, k2, by omega, by omega, ?_⟩
        cases r with
        | ok => exact k5
        | error => exact ⟨by have := k5.1; omega, k5.2⟩
      | error e =>
        have h7 := h5 e rfl
        cases e with
        | fatal => exact ⟨.error .fatal, s1, rfl, h2, h3, by omega, by omega, rfl, h7.2 rfl⟩
        | normal =>
          obtain ⟨r, s', k1, k2, k3, k4, k5⟩ := ih s1 h2 (by have := h4 hne (by simp); omega)
          refine ⟨r, s', k1, k2, by omega, by omega, ?_⟩
          cases r with
          | ok => exact k5
          | error => exact ⟨by have := k5.1; omega, k5.2⟩

/-- Recovery: either the parser succeeded, or errors were logged and the recovery returned. -/
theorem recover_r {f : Bool} {α : Type} {p q : P α} {s : PS} {Q R : α → PS → Prop}
    (hp : Runs f p s Q) (ha : Adv p s)
    (hq : ∀ s1, PInv f s1 → s1.size < s.size → s.errs < s1.errs → Runs f q s1 R) :
    Runs f (P.recover p q) s (fun a s' => Q a s' ∨ (s.errs < s'.errs ∧ s'.size < s.size ∧ R a s')) := by
  obtain ⟨r, s1, h1, h2, h3, h4, h5⟩ := hp
  unfold Runs P.recover
  rw [h1]
  cases r with
  | ok a => exact ⟨.ok a, s1, rfl, h2, h3, h4, .inl h5⟩
  | error e =>
    cases e with
    | fatal => exact ⟨.error .fatal, s1, rfl, h2, h3, h4, h5⟩
    | normal =>
      have hlt := ha _ _ h1 (by simp)
      obtain ⟨r, s2, k1, k2, k3, k4, k5⟩ := hq s1 h2 hlt h5.1
      refine ⟨r, s2, k1, k2, by omega, by omega, ?_⟩
      cases r with
      | ok a => exact .inr ⟨by have := h5.1; omega, by omega, k5⟩
      | error e => exact ⟨by have := k5.1; omega, k5.2⟩

/-! ### Statements -/

/-- Statements that may end a block. -/
def Spec.isTerm : StmtAst → Bool
  | .branch .. | .jump .. | .ret .. => true
  | _ => false

/-- Statements the parser inserted for rejected text. -/
def Spec.isErr : StmtAst → Bool
  | .error => true
  | _ => false

/-- What one round of the loop of `parse_block` returns. -/
def StmtOut (s : PS) (st : StmtAst) (exit : Bool) (s' : PS) : Prop :=
  s'.size < s.size ∧ (isErr st = false → isTerm st = exit) ∧ (s'.errs = s.errs → isErr st = false ∧
    ∃ ts, Eats s ts s' ∧ if exit then GTerm st ts s'.cur else GStmt st ts)

theorem GStmt_shape {st : StmtAst} {ts : List Token} (h : GStmt st ts) :
    isErr st = false ∧ isTerm st = false := by
  cases h <;> exact ⟨rfl, rfl⟩

theorem GTerm_shape {st : StmtAst} {ts : List Token} {a : Token} (h : GTerm st ts a) :
    isErr st = false ∧ isTerm st = true := by
  cases h <;> exact ⟨rfl, rfl⟩

theorem stmt_recover {f : Bool} {n : Nat} {s : PS} {p : P StmtAst} {exit : Bool} (hi : PInv f s)
    (hs : s.size ≤ n) (hm : Mono p)
    (hp : Parses f p s (fun st ts s' =>
      (if exit then GTerm st ts s'.cur else GStmt st ts) ∧ s'.size < s.size))
    (ha : Adv p s) :
    Runs f (P.recover (do let st ← p; return (st, exit)) (do
        P.skipTo (fun k => P.stmtStart k || P.stmtBreak k) n
        let t ← P.cur
        return (.error, exit || (!P.stmtStart t.kind && P.stmtBreak t.kind)))) s
      (fun r s' => StmtOut s r.1 r.2 s') := by
  refine Runs.mono (recover_r (R := fun r _ => isErr r.1 = true)
    (Q := fun r s' => StmtOut s r.1 r.2 s') ?_ (Adv.bind hi hm ha (fun _ => Mono.pure)) ?_) ?_
  · refine Runs.bind hp ?_
    rintro st s1 i1 hsz - ⟨ts, h1, h2, h3⟩
    refine Runs.pure i1 ⟨h3, ?_, ?_⟩
    · intro _
      cases exit with
      | true => exact (GTerm_shape h2).2
      | false => exact (GStmt_shape h2).2
    · intro _
      refine ⟨?_, ts, h1, h2⟩
      cases exit with
      | true => exact (GTerm_shape h2).1
      | false => exact (GStmt_shape h2).1
  · intro s1 i1 hlt _
    have hsk : Runs f (P.skipTo (fun k => P.stmtStart k || P.stmtBreak k) n) s1 (fun _ _ => True) := by
      obtain ⟨r, s2, k1, k2, k3, k4, k5⟩ := skipTo_r (f := f)
        (stop := fun k => P.stmtStart k || P.stmtBreak k) (by decide) n s1 i1 (by omega)
      refine ⟨r, s2, k1, k2, k3, k4, ?_⟩
      cases r with
      | ok => trivial
      | error e => exact ⟨k5.1, fun _ => k5.2.2⟩
    refine Runs.bind hsk ?_
    intro _ s2 i2 _ _ _
    refine Runs.bindCur ?_
    exact Runs.pure i2 rfl
  · rintro ⟨st, ex⟩ s' - - (h | ⟨h1, h2, h3⟩)
    · exact h
    · refine ⟨h2, ?_, ?_⟩
      · intro h
        have : isErr st = true := h3
        rw [h] at this; simp at this
      · intro h; omega

theorem Mono.skipTo {stop : TokKind → Bool} : ∀ n, Mono (P.skipTo stop n)
  | 0 => Mono.outOfFuel
  | n + 1 => by
    constructor
    intro f s r s' hi h
    unfold P.skipTo at h
    split at h
    · simp only [Option.some.injEq, Prod.mk.injEq] at h
      obtain ⟨-, rfl⟩ := h
      exact ⟨hi, Nat.le_refl _⟩
    · obtain ⟨r1, s1, h1, h2, h3, -⟩ := next_spec hi
      rw [h1] at h
      have key : P.skipTo stop n s1 = some (r, s') → PInv f s' ∧ s'.size ≤ s.size := by
        intro h
        have := (Mono.skipTo n).run f s1 r s' h2 h
        exact ⟨this.1, by omega⟩
      cases r1 with
      | ok => exact key h
      | error e =>
        cases e with
        | normal => exact key h
        | fatal =>
          simp only [Option.some.injEq, Prod.mk.injEq] at h
          obtain ⟨-, rfl⟩ := h
          exact ⟨h2, h3⟩

theorem Mono.symbolDef (n : Nat) : Mono (P.symbolDef n) := by
  have h1 := Mono.expect (.other '=')
  have h2 := Mono.expr n
  have h3 := Mono.readSym
  unfold P.symbolDef; mono_step

theorem Mono.store (n : Nat) : Mono (P.store n) := by
  have h1 := Mono.expect (.other ',')
  have h2 := Mono.storeValue n
  have h3 := Mono.readSym
  unfold P.store; mono_step

theorem Mono.branch (n : Nat) : Mono (P.branch n) := by
  have h1 := Mono.readSym
  have h2 := Mono.optList Mono.value n
  have h3 := Mono.expect (.other ',')
  have h4 := Mono.value
  unfold P.branch; mono_step

theorem Mono.jump (n : Nat) : Mono (P.jump n) := by
  have h1 := Mono.readSym
  have h2 := Mono.optList Mono.value n
  unfold P.jump; mono_step

theorem Mono.ret : Mono P.ret := by
  have h4 := Mono.value
  unfold P.ret; mono_step

theorem Mono.recover {α : Type} {p q : P α} (hp : Mono p) (hq : Mono q) : Mono (P.recover p q) := by
  constructor
  intro f s r s' hi h
  unfold P.recover at h
  rcases e : p s with _ | ⟨r1, s1⟩
  · rw [e] at h; simp at h
  · rw [e] at h
    have h1 := hp.run f s r1 s1 hi e
    cases r1 with
    | ok a =>
      simp only [Option.some.injEq, Prod.mk.injEq] at h
      obtain ⟨-, rfl⟩ := h
      exact h1
    | error x =>
      cases x with
      | normal =>
        have := hq.run f s1 r s' h1.1 h
        exact ⟨this.1, by omega⟩
      | fatal =>
        simp only [Option.some.injEq, Prod.mk.injEq] at h
        obtain ⟨-, rfl⟩ := h
        exact h1

theorem stmtAt_r {f : Bool} {n : Nat} {s : PS} {p : P StmtAst} {exit : Bool} (hi : PInv f s)
    (hs : s.size ≤ n) (h : P.stmtAt n s.cur.kind = some (exit, p)) :
    Mono p ∧ Adv p s ∧ Parses f p s (fun st ts s' =>
      (if exit then GTerm st ts s'.cur else GStmt st ts) ∧ s'.size < s.size) := by
  unfold P.stmtAt at h
  split at h
  all_goals first
    | (rename_i hk
       simp only [Option.some.injEq, Prod.mk.injEq] at h
       obtain ⟨rfl, rfl⟩ := h)
    | simp at h
  · exact ⟨Mono.symbolDef n, adv_symbolDef hi hk, symbolDef_p hi hs⟩
  · exact ⟨Mono.store n, adv_store hi (by simp [hk]), store_p hi hk hs⟩
  · refine ⟨Mono.bind (Mono.funCall n) (fun _ => Mono.pure),
      Adv.bind hi (Mono.funCall n) (adv_call hi (by simp [hk])) (fun _ => Mono.pure), ?_⟩
    refine (funCall_p hi hk hs).bind ?_
    rintro ⟨g, as⟩ ts s1 i1 - ⟨hG, hlt⟩
    exact Parses.pure i1 ⟨by simpa using GStmt.call hG, by omega⟩
  · exact ⟨Mono.branch n, adv_branch hi (by simp [hk]), branch_p hi hk hs⟩
  · exact ⟨Mono.jump n, adv_jump hi (by simp [hk]), jump_p hi hk hs⟩
  · exact ⟨Mono.ret, adv_ret hi (by simp [hk]), ret_p hi hk⟩

theorem stmt_r {f : Bool} {n : Nat} {s : PS} (hi : PInv f s) (hs : s.size ≤ n) :
    Runs f (P.stmt n) s (fun r s' => StmtOut s r.1 r.2 s') := by
  unfold P.stmt
  refine Runs.bindCur ?_
  rcases e : P.stmtAt n s.cur.kind with _ | ⟨exit, p⟩
  · exact Runs.fail hi
  · obtain ⟨h1, h2, h3⟩ := stmtAt_r hi hs e
    exact stmt_recover hi hs h1 h3 h2

/-- What the statements of a block look like: only the last one may be a terminator, and it is one
unless it was rejected. -/
def Spec.BodyShape : List StmtAst → Prop
  | [] => False
  | [st] => isErr st = true ∨ isTerm st = true
  | st :: sts => isTerm st = false ∧ BodyShape sts

/-- What `parse_block` returns for the statements. -/
def BodyOut (s : PS) (sts : List StmtAst) (s' : PS) : Prop :=
  s'.size < s.size ∧ BodyShape sts ∧
    (s'.errs = s.errs → (∀ st ∈ sts, isErr st = false) ∧ ∃ ts, Eats s ts s' ∧ GBody sts ts s'.cur)

theorem isTerm_err {st : StmtAst} (h : isErr st = true) : isTerm st = false := by
  cases st <;> simp_all [isErr, isTerm]

theorem stmtLoop_r {f : Bool} : ∀ n s, PInv f s → s.size < n →
    Runs f (P.stmtLoop n) s (BodyOut s) := by
  intro n
  induction n with
  | zero => intro s _ h; omega
  | succ n ih =>
    intro s hi hs
    unfold P.stmtLoop
    refine Runs.bind (stmt_r (n := n) hi (by omega)) ?_
    rintro ⟨st, exit⟩ s1 i1 hsz herr ⟨h1, h2, h3⟩
    simp only at h1 h2 h3 ⊢
    cases exit with
    | true =>
      refine Runs.pure i1 ⟨h1, ?_, ?_⟩
      · cases he : isErr st with
        | true => exact .inl he
        | false => exact .inr (h2 he)
      · intro he
        obtain ⟨h4, ts, h5, h6⟩ := h3 he
        exact ⟨by simpa using h4, ts, h5, .last h6⟩
    | false =>
      refine Runs.bind (ih s1 i1 (by omega)) ?_
      rintro sts s2 i2 hsz2 herr2 ⟨k1, k2, k3⟩
      refine Runs.pure i2 ⟨by omega, ?_, ?_⟩
      · cases sts with
        | nil => exact k2.elim
        | cons a as =>
          refine ⟨?_, k2⟩
          cases he : isErr st with
          | true => exact isTerm_err he
          | false => exact h2 he
      · intro he
        obtain ⟨h4, ts, h5, h6⟩ := h3 (by omega)
        obtain ⟨k4, ts', k5, k6⟩ := k3 (by omega)
        refine ⟨?_, ts ++ ts', h5.append k5, .cons h6 k6⟩
        intro x hx
        rcases List.mem_cons.1 hx with rfl | hx
        · exact h4
        · exact k4 x hx

/-- What `parse_block` returns. -/
def BlockOut (s : PS) (b : BlockAst) (s' : PS) : Prop :=
  s'.size < s.size ∧ BodyShape b.stmts ∧
    (s'.errs = s.errs → (∀ st ∈ b.stmts, isErr st = false) ∧ ∃ ts, Eats s ts s' ∧ GBlock b ts s'.cur)

theorem block_r {f : Bool} {n : Nat} {s : PS} (hi : PInv f s) (hs : s.size ≤ n) :
    Runs f (P.block n) s (BlockOut s) := by
  unfold P.block
  refine Runs.bind (readSym_p hi) ?_
  rintro nm s1 i1 - he1 ⟨_, e1, t, rfl, ht, hlt⟩
  refine Runs.bind (optList_p (param_p n) i1 (by omega)) ?_
  rintro ps s2 i2 hsz2 he2 ⟨ts, e2, ho⟩
  refine Runs.bind (expect_p i2 (by simp)) ?_
  rintro _ s3 i3 - he3 ⟨_, e3, t1, rfl, ht1, hlt3⟩
  refine Runs.bind (stmtLoop_r n s3 i3 (by omega)) ?_
  rintro sts s4 i4 hsz4 he4 ⟨h1, h2, h3⟩
  refine Runs.pure i4 ⟨by omega, h2, ?_⟩
  intro he
  have f1 := (e1.facts hi).2.2
  have f2 := (e2.facts i1).2.2
  have f3 := (e3.facts i2).2.2
  obtain ⟨h4, ts', h5, h6⟩ := h3 (by omega)
  refine ⟨h4, t :: (ts ++ t1 :: ts'), ?_, .mk ht ho ht1 h6⟩
  have := e1.append (e2.append (e3.append h5))
  simpa using this

/-- What the loop over the blocks of a function returns. -/
def BlocksOut (s : PS) (bs : List BlockAst) (s' : PS) : Prop :=
  (∀ b ∈ bs, BodyShape b.stmts) ∧ s'.cur.kind = .other '}' ∧
    (s'.errs = s.errs → (∀ b ∈ bs, ∀ st ∈ b.stmts, isErr st = false) ∧
      ∃ ts, Eats s ts s' ∧ GBlocks bs ts s'.cur)

/-- The token that follows is the next one to be consumed. -/
theorem Eats.head {s s' : PS} {ts : List Token} (h : Eats s ts s') :
    (ts ++ [s'.cur]).head? = some s.cur := by
  cases h <;> rfl

theorem blockLoop_r {f : Bool} : ∀ n s, PInv f s → s.size < n →
    Runs f (P.blockLoop n) s (BlocksOut s) := by
  intro n
  induction n with
  | zero => intro s _ h; omega
  | succ n ih =>
    intro s hi hs
    unfold P.blockLoop
    refine Runs.bindCur ?_
    split
    · rename_i hc
      exact Runs.pure hi ⟨by simp, hc, fun _ => ⟨by simp, [], .nil, .nil⟩⟩
    · refine Runs.bind (block_r (n := n) hi (by omega)) ?_
      rintro b s1 i1 hsz he1 ⟨h1, h2, h3⟩
      refine Runs.bind (ih s1 i1 (by omega)) ?_
      rintro bs s2 i2 hsz2 he2 ⟨k1, k2, k3⟩
      refine Runs.pure i2 ⟨?_, k2, ?_⟩
      · intro x hx
        rcases List.mem_cons.1 hx with rfl | hx
        · exact h2
        · exact k1 x hx
      · intro he
        obtain ⟨h4, ts, h5, h6⟩ := h3 (by omega)
        obtain ⟨k4, ts', k5, k6⟩ := k3 (by omega)
        refine ⟨?_, ts ++ ts', h5.append k5, .cons k5.head h6 k6⟩
        intro x hx
        rcases List.mem_cons.1 hx with rfl | hx
        · exact h4
        · exact k4 x hx

/-! ### Top level -/

/-- What the blocks of a top-level item look like. -/
def Spec.GlobalShape : GlobalAst → Prop
  | .funDef _ _ _ bs => bs ≠ [] ∧ ∀ b ∈ bs, BodyShape b.stmts
  | _ => True

/-- No part of the item was rejected. -/
def Spec.NoErr : GlobalAst → Prop
  | .funDef _ _ _ bs => ∀ b ∈ bs, ∀ st ∈ b.stmts, isErr st = false
  | .error => False
  | _ => True

/-- What `parse_next` returns. -/
def GlobalOut (s : PS) (g : GlobalAst) (s' : PS) : Prop :=
  s'.size < s.size ∧ GlobalShape g ∧ g ≠ .eof ∧
    (s'.errs = s.errs → NoErr g ∧ ∃ ts, Eats s ts s' ∧ GGlobal g ts)

theorem funDef_r {f : Bool} {n : Nat} {s : PS} (hi : PInv f s) (hk : s.cur.kind = .kw .fun)
    (hs : s.size ≤ n) : Runs f (P.funDef n) s (GlobalOut s) := by
  unfold P.funDef
  refine Runs.bind (next_p hi (by simp [hk])) ?_
  rintro _ s1 i1 - he1 ⟨_, e1, rfl, hlt1⟩
  refine Runs.bind (readSym_p i1) ?_
  rintro nm s2 i2 - he2 ⟨_, e2, t1, rfl, ht1, hlt2⟩
  refine Runs.bind (list_p (param_p n) i2 (by omega)) ?_
  rintro ps s3 i3 - he3 ⟨ts, e3, hP, hlt3⟩
  refine Runs.bind (retType_p (type_p n) i3 (by omega)) ?_
  rintro r s4 i4 hsz4 he4 ⟨tr, e4, hR⟩
  refine Runs.bind (expect_p i4 (by simp)) ?_
  rintro _ s5 i5 - he5 ⟨_, e5, t2, rfl, ht2, hlt5⟩
  refine Runs.bind (blockLoop_r n s5 i5 (by omega)) ?_
  rintro bs s6 i6 hsz6 he6 ⟨h1, h2, h3⟩
  refine Runs.bind (next_p i6 (by rw [h2]; simp)) ?_
  rintro _ s7 i7 - he7 ⟨_, e7, rfl, hlt7⟩
  split
  · exact Runs.fail i7
  · rename_i hne
    have hne' : bs ≠ [] := by intro h; subst h; exact hne rfl
    refine Runs.pure i7 ⟨by omega, ⟨hne', h1⟩, by simp, ?_⟩
    intro he
    obtain ⟨h4, tb, h5, h6⟩ := h3 (by omega)
    refine ⟨h4, s.cur :: t1 :: (ts ++ (tr ++ t2 :: (tb ++ [s6.cur]))), ?_,
      .funDef hk ht1 hP hR ht2 h6 hne' h2⟩
    have := e1.append (e2.append (e3.append (e4.append (e5.append (h5.append e7)))))
    simpa using this

theorem Mono.blockLoop : ∀ n, Mono (P.blockLoop n) := by
  have hst : ∀ n, Mono (P.stmt n) := by
    intro n
    unfold P.stmt
    refine Mono.bind Mono.cur ?_
    intro t
    rcases e : P.stmtAt n t.kind with _ | ⟨exit, p⟩
    · exact Mono.fail
    · have hp : Mono p := by
        unfold P.stmtAt at e
        split at e
        all_goals first
          | (simp only [Option.some.injEq, Prod.mk.injEq] at e; obtain ⟨-, rfl⟩ := e)
          | simp at e
        · exact Mono.symbolDef n
        · exact Mono.store n
        · exact Mono.bind (Mono.funCall n) (fun _ => Mono.pure)
        · exact Mono.branch n
        · exact Mono.jump n
        · exact Mono.ret
      exact Mono.recover (Mono.bind hp fun _ => Mono.pure)
        (Mono.bind (Mono.skipTo n) fun _ => Mono.bind Mono.cur fun _ => Mono.pure)
  have hsl : ∀ n, Mono (P.stmtLoop n) := by
    intro n
    induction n with
    | zero => exact Mono.outOfFuel
    | succ n ih =>
      have := hst n
      unfold P.stmtLoop; mono_step
  have hb : ∀ n, Mono (P.block n) := by
    intro n
    have h1 := Mono.readSym
    have h2 := Mono.optList (Mono.param n) n
    have h3 := Mono.expect (.other ':')
    have h4 := hsl n
    unfold P.block; mono_step
  intro n
  induction n with
  | zero => exact Mono.outOfFuel
  | succ n ih =>
    have := hb n
    unfold P.blockLoop; mono_step

theorem adv_funDef {f : Bool} {n : Nat} {s : PS} (hi : PInv f s) (hne : s.cur.kind ≠ .eof) :
    Adv (P.funDef n) s := by
  have h1 := Mono.readSym
  have h2 := Mono.list (Mono.param n) n
  have h3 := Mono.retType (Mono.type n)
  have h4 := Mono.expect (.other '{')
  have h5 := Mono.blockLoop n
  unfold P.funDef
  exact Adv.next hi hne (by mono_step)

theorem adv_globalDef {f : Bool} {n : Nat} {s : PS} (hi : PInv f s) (hne : s.cur.kind ≠ .eof) :
    Adv (P.globalDef n) s := by
  have h1 := Mono.readSym
  have h2 := Mono.type n
  have h3 := Mono.init n
  have h4 := Mono.expect
  unfold P.globalDef
  exact Adv.next hi hne (by mono_step; all_goals exact h4 _)

theorem adv_funDecl {f : Bool} {n : Nat} {s : PS} (hi : PInv f s) (hne : s.cur.kind ≠ .eof) :
    Adv (P.funDecl n) s := by
  have h1 := Mono.readSym
  have h2 := Mono.list (Mono.type n) n
  have h3 := Mono.retType (Mono.type n)
  unfold P.funDecl
  exact Adv.next hi hne (by mono_step)

theorem parses_global {f : Bool} {p : P GlobalAst} {s : PS}
    (h : Parses f p s (fun a ts s' => GGlobal a ts ∧ s'.size < s.size))
    (hnf : s.cur.kind ≠ .kw .fun) : Runs f p s (GlobalOut s) := by
  refine Runs.mono h ?_
  rintro g s' - - ⟨ts, h1, h2, h3⟩
  have hcur : ∀ t ts', ts = t :: ts' → s.cur = t := by
    rintro t ts' rfl
    exact (Eats.cons_inv h1).1
  cases h2 with
  | globalDef => exact ⟨h3, trivial, by simp, fun _ => ⟨trivial, _, h1, by constructor <;> assumption⟩⟩
  | funDef hk => exact absurd (by rw [hcur _ _ rfl]; exact hk) hnf
  | funDecl => exact ⟨h3, trivial, by simp, fun _ => ⟨trivial, _, h1, by constructor <;> assumption⟩⟩

theorem global_recover {f : Bool} {n : Nat} {s : PS} {p : P GlobalAst} (hs : s.size ≤ n)
    (hp : Runs f p s (GlobalOut s)) (ha : Adv p s) :
    Runs f (P.recover p (do P.skipTo P.globalStart n; return .error)) s (GlobalOut s) := by
  refine Runs.mono (recover_r (R := fun g _ => g = .error) hp ha ?_) ?_
  · intro s1 i1 hlt _
    obtain ⟨r, s2, k1, k2, k3, k4, k5⟩ := skipTo_r (f := f) (stop := P.globalStart) (by decide) n s1 i1
      (by omega)
    have hsk : Runs f (P.skipTo P.globalStart n) s1 (fun _ _ => True) := by
      refine ⟨r, s2, k1, k2, k3, k4, ?_⟩
      cases r with
      | ok => trivial
      | error e => exact ⟨k5.1, fun _ => k5.2.2⟩
    refine Runs.bind hsk ?_
    intro _ s2 i2 _ _ _
    exact Runs.pure i2 rfl
  · rintro g s' - - (h | ⟨h1, h2, rfl⟩)
    · exact h
    · exact ⟨h2, trivial, by simp, fun he => by omega⟩

/-- `parse_next`: at the end it reports the end and changes nothing; otherwise it consumes
something, or fails with an error. -/
theorem nextAst_r {f : Bool} {n : Nat} {s : PS} (hi : PInv f s) (hs : s.size ≤ n) :
    Runs f (P.nextAst n) s (fun g s' =>
      (g = .eof ∧ s' = s ∧ s.cur.kind = .eof) ∨ (s.cur.kind ≠ .eof ∧ GlobalOut s g s')) := by
  unfold P.nextAst
  refine Runs.bindCur ?_
  simp only
  split
  all_goals rename_i hk
  · exact ⟨.ok .eof, s, rfl, hi, Nat.le_refl _, Nat.le_refl _, .inl ⟨rfl, rfl, hk⟩⟩
  · refine Runs.mono (global_recover hs (parses_global (globalDef_p hi hk hs) (by simp [hk]))
      (adv_globalDef hi (by simp [hk]))) ?_
    intro g s' _ _ h; exact .inr ⟨by simp [hk], h⟩
  · refine Runs.mono (global_recover hs (funDef_r hi hk hs) (adv_funDef hi (by simp [hk]))) ?_
    intro g s' _ _ h; exact .inr ⟨by simp [hk], h⟩
  · refine Runs.mono (global_recover hs (parses_global (funDecl_p hi hk hs) (by simp [hk]))
      (adv_funDecl hi (by simp [hk]))) ?_
    intro g s' _ _ h; exact .inr ⟨by simp [hk], h⟩
  · exact Runs.fail hi

end Koopa
