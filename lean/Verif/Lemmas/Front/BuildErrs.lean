import Verif.Model.Front.Builder
/-!
The counter of errors while IR is built.
-/
namespace Koopa

theorem B.bind_eq {α β : Type} (m : B α) (k : α → B β) (s : BS) :
    (m >>= k) s = match m s with
      | none => none
      | some (.ok a, s) => k a s
      | some (.error e, s) => some (.error e, s) := rfl

theorem B.pure_eq {α : Type} (a : α) (s : BS) : (Pure.pure a : B α) s = some (.ok a, s) := rfl

/-- The counter never decreases, and it increases if an error is returned. -/
structure Logs {α : Type} (m : B α) : Prop where
  run : ∀ s r s', m s = some (r, s') → s.errs ≤ s'.errs ∧ (r = .error () → s.errs < s'.errs)

/-- The counter never decreases, and no error is returned. -/
structure Calm {α : Type} (m : B α) : Prop where
  run : ∀ s r s', m s = some (r, s') → s.errs ≤ s'.errs ∧ r ≠ .error ()

/-- The counter never decreases. -/
structure LogsW {α : Type} (m : B α) : Prop where
  run : ∀ s r s', m s = some (r, s') → s.errs ≤ s'.errs

theorem Calm.logs {α : Type} {m : B α} (h : Calm m) : Logs m :=
  ⟨fun s r s' e => ⟨(h.run s r s' e).1, fun h' => absurd h' (h.run s r s' e).2⟩⟩

theorem Logs.weak {α : Type} {m : B α} (h : Logs m) : LogsW m := ⟨fun s r s' e => (h.run s r s' e).1⟩

theorem Calm.pure {α : Type} {a : α} : Calm (Pure.pure a : B α) := by
  constructor
  intro s r s' h
  rw [B.pure_eq, Option.some.injEq, Prod.mk.injEq] at h
  obtain ⟨rfl, rfl⟩ := h
  exact ⟨Nat.le_refl _, by simp⟩

theorem Calm.logError : Calm B.logError := by
  constructor
  intro s r s' h
  simp only [B.logError, Option.some.injEq, Prod.mk.injEq] at h
  obtain ⟨rfl, rfl⟩ := h
  exact ⟨Nat.le_succ _, by simp⟩

theorem Calm.panic {α : Type} : Calm (B.panic : B α) := ⟨fun _ _ _ h => by simp [B.panic] at h⟩

theorem Calm.lift {α : Type} {o : Option α} : Calm (B.lift o) := by
  constructor
  intro s r s' h
  unfold B.lift at h
  cases o with
  | none => simp at h
  | some a =>
    simp only [Option.some.injEq, Prod.mk.injEq] at h
    obtain ⟨rfl, rfl⟩ := h
    exact ⟨Nat.le_refl _, by simp⟩

theorem Calm.get : Calm B.get := by
  constructor
  intro s r s' h
  simp only [B.get, Option.some.injEq, Prod.mk.injEq] at h
  obtain ⟨rfl, rfl⟩ := h
  exact ⟨Nat.le_refl _, by simp⟩

theorem Calm.modify {f : BS → BS} (hf : ∀ s, s.errs ≤ (f s).errs) : Calm (B.modify f) := by
  constructor
  intro s r s' h
  simp only [B.modify, Option.some.injEq, Prod.mk.injEq] at h
  obtain ⟨rfl, rfl⟩ := h
  exact ⟨hf _, by simp⟩

theorem Calm.api {α : Type} {op : Program → Option (Program × α)} : Calm (B.api op) := by
  constructor
  intro s r s' h
  unfold B.api at h
  split at h
  · simp at h
  · simp only [Option.some.injEq, Prod.mk.injEq] at h
    obtain ⟨rfl, rfl⟩ := h
    exact ⟨Nat.le_refl _, by simp⟩

theorem Calm.api' {op : Program → Option Program} : Calm (B.api' op) := by
  constructor
  intro s r s' h
  unfold B.api' at h
  split at h
  · simp at h
  · simp only [Option.some.injEq, Prod.mk.injEq] at h
    obtain ⟨rfl, rfl⟩ := h
    exact ⟨Nat.le_refl _, by simp⟩

theorem Calm.bind {α β : Type} {m : B α} {k : α → B β} (hm : Calm m) (hk : ∀ a, Calm (k a)) :
    Calm (m >>= k) := by
  constructor
  intro s r s' h
  rw [B.bind_eq] at h
  rcases e : m s with _ | ⟨r1, s1⟩
  · simp [e] at h
  · rw [e] at h
    have h1 := hm.run s r1 s1 e
    cases r1 with
    | ok a =>
      have h2 := (hk a).run s1 r s' h
      exact ⟨by omega, h2.2⟩
    | error x => exact absurd rfl h1.2

theorem Logs.bind {α β : Type} {m : B α} {k : α → B β} (hm : Logs m) (hk : ∀ a, Logs (k a)) :
    Logs (m >>= k) := by
  constructor
  intro s r s' h
  rw [B.bind_eq] at h
  rcases e : m s with _ | ⟨r1, s1⟩
  · simp [e] at h
  · rw [e] at h
    have h1 := hm.run s r1 s1 e
    cases r1 with
    | ok a =>
      have h2 := (hk a).run s1 r s' h
      exact ⟨by omega, fun h' => by have := h2.2 h'; omega⟩
    | error x =>
      simp only [Option.some.injEq, Prod.mk.injEq] at h
      obtain ⟨rfl, rfl⟩ := h
      exact ⟨h1.1, fun _ => h1.2 rfl⟩

theorem Logs.fail {α : Type} : Logs (B.fail : B α) := by
  constructor
  intro s r s' h
  simp only [B.fail, Option.some.injEq, Prod.mk.injEq] at h
  obtain ⟨rfl, rfl⟩ := h
  exact ⟨Nat.le_succ _, fun _ => Nat.lt_succ_self _⟩

theorem LogsW.throw {α : Type} : LogsW (B.throw : B α) := by
  constructor
  intro s r s' h
  simp only [B.throw, Option.some.injEq, Prod.mk.injEq] at h
  obtain ⟨rfl, rfl⟩ := h
  exact Nat.le_refl _

theorem Calm.attempt {α : Type} {m : B α} (hm : LogsW m) : Calm (B.attempt m) := by
  constructor
  intro s r s' h
  unfold B.attempt at h
  rcases e : m s with _ | ⟨r1, s1⟩
  · simp [e] at h
  · rw [e] at h
    have h1 := hm.run s r1 s1 e
    cases r1 with
    | ok a =>
      simp only [Option.some.injEq, Prod.mk.injEq] at h
      obtain ⟨rfl, rfl⟩ := h
      exact ⟨h1, by simp⟩
    | error x =>
      simp only [Option.some.injEq, Prod.mk.injEq] at h
      obtain ⟨rfl, rfl⟩ := h
      exact ⟨h1, by simp⟩

theorem Calm.each {α β : Type} {m : α → B β} (hm : ∀ a, Calm (m a)) : ∀ l, Calm (B.each m l)
  | [] => Calm.pure
  | a :: as => Calm.bind (hm a) (fun _ => Calm.bind (Calm.each hm as) (fun _ => Calm.pure))

/-- Solves goals about straight-line code. -/
syntax "logs_step" : tactic
macro_rules | `(tactic| logs_step) => `(tactic| repeat' first
  | assumption
  | exact Logs.fail
  | exact Calm.pure
  | exact Calm.logError
  | exact Calm.panic
  | exact Calm.lift
  | exact Calm.get
  | exact Calm.api
  | exact Calm.api'
  | exact Calm.modify (fun _ => Nat.le_refl _)
  | (refine Calm.bind ?_ ?_)
  | exact Calm.pure.logs
  | exact Calm.logError.logs
  | exact Calm.panic.logs
  | exact Calm.lift.logs
  | exact Calm.get.logs
  | exact Calm.api.logs
  | exact Calm.api'.logs
  | exact (Calm.modify (fun _ => Nat.le_refl _)).logs
  | (refine Logs.bind ?_ ?_)
  | (intro _)
  | split)

theorem logs_newVal {sc : Option Func} {i : ValInst} : Calm (newVal sc i) := by
  unfold newVal; logs_step

theorem logs_aggElemTy {t : Ty} {n : Nat} : Logs (aggElemTy t n) := by
  unfold aggElemTy; logs_step

mutual
theorem logs_genInit {sc : Option Func} (ty : Ty) : ∀ a, Logs (genInit sc ty a)
  | .undef => by unfold genInit; exact logs_newVal.logs
  | .zero => by unfold genInit; exact logs_newVal.logs
  | .int v => by
    unfold genInit
    split
    · exact logs_newVal.logs
    · exact Logs.fail
  | .agg es => by
    unfold genInit
    exact Logs.bind logs_aggElemTy (fun t => Logs.bind (logs_genInits t es) (fun _ => logs_newVal.logs))
  | .sym _ => by unfold genInit; exact Calm.panic.logs
theorem logs_genInits {sc : Option Func} (ty : Ty) : ∀ es, Logs (genInits sc ty es)
  | [] => by unfold genInits; exact Calm.pure.logs
  | e :: es => by
    unfold genInits
    exact Logs.bind (logs_genInit ty e) (fun _ => Logs.bind (logs_genInits ty es) (fun _ => Calm.pure.logs))
end

theorem logs_valueTy {f : Func} {v : Value} : Calm (valueTy f v) := by unfold valueTy; logs_step
theorem logs_bbParamsTy {f : Func} {v : BB} : Calm (bbParamsTy f v) := by unfold bbParamsTy; logs_step
theorem logs_genSymbol {bb sym : Str} : Logs (genSymbol bb sym) := by unfold genSymbol; logs_step
theorem logs_genValue {f : Func} {bb : Str} {t : Ty} {a : ValAst} : Logs (genValue f bb t a) := by
  have h1 := @logs_genSymbol
  have h2 := @logs_valueTy
  unfold genValue
  split
  · refine h1.bind fun _ => (h2.logs).bind fun _ => ?_
    logs_step
  · exact logs_genInit _ _
theorem logs_genBb {n : Str} : Logs (genBb n) := by unfold genBb; logs_step
theorem logs_genArgs {f : Func} {bb : Str} : ∀ as ts, Logs (genArgs f bb as ts)
  | [], _ => by unfold genArgs; exact Calm.pure.logs
  | _ :: _, [] => by unfold genArgs; exact Calm.pure.logs
  | a :: as, t :: ts => by
    unfold genArgs
    exact Logs.bind logs_genValue (fun _ => Logs.bind (logs_genArgs as ts) (fun _ => Calm.pure.logs))

/-- As `logs_step`, for the parts of instructions. -/
syntax "logs_inst" : tactic
macro_rules | `(tactic| logs_inst) => `(tactic| repeat' first
  | exact logs_genSymbol
  | exact logs_valueTy.logs
  | exact logs_bbParamsTy.logs
  | exact logs_genValue
  | exact logs_genBb
  | exact logs_genArgs _ _
  | exact Logs.fail
  | exact Calm.pure.logs
  | exact Calm.logError.logs
  | exact Calm.panic.logs
  | exact Calm.lift.logs
  | exact Calm.get.logs
  | exact Calm.api.logs
  | exact Calm.api'.logs
  | exact (Calm.modify (fun _ => Nat.le_refl _)).logs
  | (refine Logs.bind ?_ ?_)
  | (intro _)
  | split)

theorem logs_genInst {f : Func} {bb : Str} (e : ExprAst) : Logs (genInst f bb e) := by
  unfold genInst
  split
  · unfold genAlloc; logs_inst
  · unfold genLoad; logs_inst
  · unfold genGetPtr; logs_inst
  · unfold genGetElemPtr; logs_inst
  · unfold genBinary; logs_inst
  · unfold genCall; logs_inst

theorem logs_defineSym {n : Str} : Calm (defineSym n) := by unfold defineSym; logs_step
theorem logs_recordDef {bb n : Str} {v : Value} : Calm (recordDef bb n v) := by unfold recordDef; logs_step
theorem logs_nameLocal {f : Func} {v : Value} {n : Str} : Calm (nameLocal f v n) := by
  unfold nameLocal; logs_step

theorem logs_genDef {f : Func} {bb n : Str} {e : ExprAst} : Logs (genDef f bb n e) := by
  unfold genDef
  refine logs_defineSym.logs.bind fun _ => (logs_genInst e).bind fun _ => logs_valueTy.logs.bind fun _ => ?_
  split
  · exact Logs.fail
  · exact logs_nameLocal.logs.bind fun _ => logs_recordDef.logs.bind fun _ => Calm.pure.logs

/-- Only statements that the parser rejected return an error without logging it. -/
theorem logs_genStmt {f : Func} {bb : Str} {t : Ty} {st : StmtAst} (h : st ≠ .error) :
    Logs (genStmt f bb t st) := by
  unfold genStmt
  split
  · unfold genStore; logs_inst
  · unfold genBranch; logs_inst
  · unfold genJump; logs_inst
  · unfold genCall; logs_inst
  · unfold genReturn; logs_inst
  · exact absurd rfl h
  · exact logs_genDef

theorem logsW_genStmt {f : Func} {bb : Str} {t : Ty} {st : StmtAst} : LogsW (genStmt f bb t st) := by
  by_cases h : st = .error
  · subst h; exact LogsW.throw
  · exact (logs_genStmt h).weak

theorem logs_buildStmt {f : Func} {t : Ty} {bb : Str} {st : StmtAst} : Calm (buildStmt f t bb st) := by
  unfold buildStmt
  refine (Calm.attempt logsW_genStmt).bind fun _ => ?_
  logs_step

theorem logs_buildBlock {f : Func} {t : Ty} {b : BlockAst} : Calm (buildBlock f t b) := by
  unfold buildBlock
  exact (Calm.each (fun _ => logs_buildStmt) _).bind fun _ => Calm.pure

theorem logs_blockList {bs : List BlockAst} : Calm (blockList bs) := by
  constructor
  intro s r s' h
  unfold blockList at h
  split at h
  · simp at h
  · simp only at h
    split at h
    · simp at h
    · simp only [Option.some.injEq, Prod.mk.injEq] at h
      obtain ⟨rfl, rfl⟩ := h
      exact ⟨by simp only; omega, by simp⟩

theorem logs_defineParams : ∀ ps vs m, Calm (defineParams ps vs m)
  | [], _, _ => by unfold defineParams; exact Calm.pure
  | _ :: _, [], _ => by unfold defineParams; exact Calm.pure
  | (n, a) :: ps, v :: vs, m => by
    unfold defineParams
    exact logs_defineSym.bind fun _ => logs_defineParams ps vs _

theorem logs_initBb {f : Func} {b : BlockAst} : Calm (initBb f b) := by
  have h := @logs_defineParams
  unfold initBb
  refine Calm.lift.bind fun _ => Calm.api.bind fun _ => Calm.api'.bind fun _ => Calm.get.bind fun _ =>
    Calm.lift.bind fun _ => (h _ _ _).bind fun _ => Calm.modify (fun _ => Nat.le_refl _)

theorem logs_addPreds {b : BlockAst} : Calm (addPreds b) := by
  unfold addPreds
  split
  · exact Calm.panic
  · refine (Calm.each (fun t => ?_) _).bind fun _ => Calm.pure
    unfold addPred; logs_step

theorem logs_enterArgs {m : Map Str Value} {e : BlockAst} : Calm (enterArgs m e) := by
  unfold enterArgs; logs_step

theorem logs_initBbs {f : Func} {m : Map Str Value} {bs : List BlockAst} : Calm (initBbs f m bs) := by
  unfold initBbs
  refine Calm.bind (Calm.modify (fun _ => Nat.le_refl _)) fun _ =>
    (Calm.each (fun _ => logs_initBb) _).bind fun _ => ?_
  split
  · exact Calm.bind Calm.panic fun _ => (Calm.each (fun _ => logs_addPreds) _).bind fun _ => Calm.pure
  · exact Calm.bind logs_enterArgs fun _ => (Calm.each (fun _ => logs_addPreds) _).bind fun _ => Calm.pure

theorem logs_logErrors : ∀ n, Calm (logErrors n)
  | 0 => by unfold logErrors; exact Calm.pure
  | n + 1 => by unfold logErrors; exact Calm.logError.bind fun _ => logs_logErrors n

theorem logs_defineFunc {n : Str} {f : Func} : Calm (defineFunc n f) := by unfold defineFunc; logs_step
theorem logs_defineGlobal {n : Str} {v : Value} : Calm (defineGlobal n v) := by unfold defineGlobal; logs_step
theorem logs_nameGlobal {n : Str} {v : Value} : Calm (nameGlobal v n) := by unfold nameGlobal; logs_step

/-- Building on a tree never returns an error, but logs it. -/
theorem logs_buildOn (g : GlobalAst) : Calm (buildOn g) := by
  unfold buildOn
  split
  · unfold buildGlobalDef
    refine Calm.lift.bind fun _ => (Calm.attempt (logs_genInit _ _).weak).bind fun _ => ?_
    split
    · exact Calm.pure
    · exact Calm.api.bind fun _ => logs_nameGlobal.bind fun _ => logs_defineGlobal
  · unfold buildFunDef
    refine Calm.lift.bind fun _ => Calm.lift.bind fun _ => Calm.api.bind fun _ => Calm.get.bind fun _ =>
      Calm.lift.bind fun fd => ?_
    refine (logs_logErrors _).bind fun _ => logs_defineFunc.bind fun _ =>
      Calm.bind (Calm.modify (fun _ => Nat.le_refl _)) fun _ => logs_blockList.bind fun _ =>
      logs_initBbs.bind fun _ => (Calm.each (fun _ => logs_buildBlock) _).bind fun _ => Calm.pure
  · unfold buildFunDecl
    exact Calm.lift.bind fun _ => Calm.lift.bind fun _ => Calm.api.bind fun _ => logs_defineFunc
  · exact Calm.pure
  · exact Calm.pure

end Koopa
