import Verif.Lemmas.Front.BuildErrs
import Verif.Lemmas.Front.BuildInv
import Verif.Lemmas.Typing
/-!
The IR generator changes the program only by the calls listed here, whether or not it succeeds.
-/
namespace Koopa

/-- A reflexive and transitive relation that contains the calls the generator makes. -/
structure FrontRel (R : Program → Program → Prop) (N : Str → Prop := fun _ => True) : Prop where
  refl : ∀ p, R p p
  trans : ∀ p q r, R p q → R q r → R p r
  newLocal : ∀ p p' f i v, i.notRaw → p.newLocal f i = some (p', v) → R p p'
  newGlobal : ∀ p p' i v, i.notRaw → p.newGlobal i = some (p', v) → R p p'
  setLocalName : ∀ p p' f v n, (∀ s, n = some s → N s ∧ tempName s = some s) → p.setLocalName f v n = some p' → R p p'
  setGlobalName : ∀ p p' v n, (∀ s, n = some s → N s ∧ tempName s = some s) → p.setGlobalName v n = some p' → R p p'
  pushInst : ∀ p p' f b v, p.pushInst f b v = some p' → R p p'
  newBb : ∀ p p' f n ps b, (∀ s, n = some s → N s ∧ tempName s = some s) → (∀ q ∈ ps, ∀ s, q.1 = some s → N s ∧ tempName s = some s) → p.newBbWithParamNames f n ps = some (p', b) → R p p'
  pushBb : ∀ p p' f b, p.pushBb f b = some p' → R p p'
  newFuncDef : ∀ p p' n ps r f, N n → (∀ q ∈ ps, ∀ s, q.1 = some s → N s ∧ tempName s = some s) → p.newFuncDefWithParamNames n ps r = some (p', f) → R p p'
  newFuncDecl : ∀ p p' n ps r f, N n → p.newFuncDecl n ps r = some (p', f) → R p p'

/-- Whatever `m` returns, the program changed by `R`. -/
structure Steps {α : Type} (R : Program → Program → Prop) (m : B α) : Prop where
  run : ∀ s r s', m s = some (r, s') → R s.prog s'.prog

variable {R : Program → Program → Prop} {N : Str → Prop} (hR : FrontRel R N)
include hR

theorem Steps.pure {α : Type} {a : α} : Steps R (Pure.pure a : B α) := by
  constructor; intro s r s' h
  rw [B.pure_eq, Option.some.injEq, Prod.mk.injEq] at h
  rw [← h.2]; exact hR.refl _

theorem Steps.logError : Steps R B.logError := by
  constructor; intro s r s' h
  simp only [B.logError, Option.some.injEq, Prod.mk.injEq] at h
  rw [← h.2]; exact hR.refl _

theorem Steps.throw {α : Type} : Steps R (B.throw : B α) := by
  constructor; intro s r s' h
  simp only [B.throw, Option.some.injEq, Prod.mk.injEq] at h
  rw [← h.2]; exact hR.refl _

theorem Steps.fail {α : Type} : Steps R (B.fail : B α) := by
  constructor; intro s r s' h
  simp only [B.fail, Option.some.injEq, Prod.mk.injEq] at h
  rw [← h.2]; exact hR.refl _

omit hR in
theorem Steps.panic {α : Type} : Steps R (B.panic : B α) := ⟨fun _ _ _ h => by simp [B.panic] at h⟩

theorem Steps.lift {α : Type} {o : Option α} : Steps R (B.lift o) := by
  constructor; intro s r s' h
  unfold B.lift at h
  split at h
  · simp at h
  · simp only [Option.some.injEq, Prod.mk.injEq] at h
    rw [← h.2]; exact hR.refl _

theorem Steps.get : Steps R B.get := by
  constructor; intro s r s' h
  simp only [B.get, Option.some.injEq, Prod.mk.injEq] at h
  rw [← h.2]; exact hR.refl _

theorem Steps.modify {f : BS → BS} (hf : ∀ s, (f s).prog = s.prog) : Steps R (B.modify f) := by
  constructor; intro s r s' h
  simp only [B.modify, Option.some.injEq, Prod.mk.injEq] at h
  rw [← h.2, hf]; exact hR.refl _

omit hR in
theorem Steps.api {α : Type} {op : Program → Option (Program × α)} (h : ∀ p p' a, op p = some (p', a) → R p p') :
    Steps R (B.api op) := by
  constructor; intro s r s' h1
  unfold B.api at h1
  split at h1
  · simp at h1
  · rename_i p a hp
    simp only [Option.some.injEq, Prod.mk.injEq] at h1
    rw [← h1.2]; exact h _ _ _ hp

omit hR in
theorem Steps.api' {op : Program → Option Program} (h : ∀ p p', op p = some p' → R p p') :
    Steps R (B.api' op) := by
  constructor; intro s r s' h1
  unfold B.api' at h1
  split at h1
  · simp at h1
  · rename_i p hp
    simp only [Option.some.injEq, Prod.mk.injEq] at h1
    rw [← h1.2]; exact h _ _ hp

theorem Steps.bind {α β : Type} {m : B α} {k : α → B β} (hm : Steps R m) (hk : ∀ a, Steps R (k a)) :
    Steps R (m >>= k) := by
  constructor
  intro s r s' h
  rw [B.bind_eq] at h
  rcases e : m s with _ | ⟨r1, s1⟩
  · simp [e] at h
  · rw [e] at h
    have h1 := hm.run s r1 s1 e
    cases r1 with
    | ok a => exact hR.trans _ _ _ h1 ((hk a).run s1 r s' h)
    | error x =>
      simp only [Option.some.injEq, Prod.mk.injEq] at h
      rw [← h.2]; exact h1

omit hR in
theorem Steps.bind_lift {α β : Type} {o : Option α} {k : α → B β} (hk : ∀ a, o = some a → Steps R (k a)) :
    Steps R (B.lift o >>= k) := by
  constructor
  intro s r s' h
  rw [B.bind_eq] at h
  unfold B.lift at h
  cases o with
  | none => simp at h
  | some a => exact (hk a rfl).run s r s' h

omit hR in
theorem Steps.attempt {α : Type} {m : B α} (hm : Steps R m) : Steps R (B.attempt m) := by
  constructor
  intro s r s' h
  unfold B.attempt at h
  rcases e : m s with _ | ⟨r1, s1⟩
  · simp [e] at h
  · rw [e] at h
    have h1 := hm.run s r1 s1 e
    cases r1 <;>
    · simp only [Option.some.injEq, Prod.mk.injEq] at h
      rw [← h.2]; exact h1

theorem Steps.each {α β : Type} {m : α → B β} : ∀ l, (∀ a ∈ l, Steps R (m a)) → Steps R (B.each m l)
  | [], _ => Steps.pure hR
  | a :: as, hm => Steps.bind hR (hm a (List.mem_cons_self ..))
    (fun _ => Steps.bind hR (Steps.each as fun b hb => hm b (List.mem_cons_of_mem _ hb)) (fun _ => Steps.pure hR))

omit hR in
theorem tempName_some {n s : Str} (h : tempName n = some s) : n = s := by
  unfold tempName at h
  split at h
  · cases h
  · exact Option.some.inj h

omit hR in
/-- The names of parameters are those of the text. -/
theorem genParams_names : ∀ {ps : List (Str × TyAst)} {qs : List (Option Str × Ty)}, genParams ps = some qs →
    (∀ q ∈ ps, N q.1) → ∀ q ∈ qs, ∀ s, q.1 = some s → N s ∧ tempName s = some s
  | [], qs, h, _ => by rw [genParams, Option.some.injEq] at h; subst h; simp
  | (n, a) :: ps, qs, h, hn => by
    rw [genParams] at h
    split at h
    · cases h
    · split at h
      · cases h
      · rename_i t _ qs' h2
        rw [Option.some.injEq] at h; subst h
        intro q hq s hs
        rcases List.mem_cons.1 hq with rfl | hq
        · have e := tempName_some hs; subst e; exact ⟨hn (n, a) (List.mem_cons_self ..), hs⟩
        · exact genParams_names h2 (fun q hq => hn q (List.mem_cons_of_mem _ hq)) q hq s hs

omit hR in
/-- Solves goals about straight-line code. -/
syntax "steps" term : tactic
macro_rules | `(tactic| steps $h:term) => `(tactic| repeat' first
  | assumption
  | exact Steps.pure $h
  | exact Steps.logError $h
  | exact Steps.fail $h
  | exact Steps.throw $h
  | exact Steps.panic
  | exact Steps.lift $h
  | exact Steps.get $h
  | exact Steps.modify $h (fun _ => rfl)
  | exact Steps.api (fun _ _ _ => FrontRel.newLocal $h _ _ _ _ _ trivial)
  | exact Steps.api (fun _ _ _ => FrontRel.newGlobal $h _ _ _ _ trivial)
  | exact Steps.api' (fun _ _ => FrontRel.pushInst $h _ _ _ _ _)
  | exact Steps.api' (fun _ _ => FrontRel.pushBb $h _ _ _ _)
  | (refine Steps.attempt ?_)
  | (refine Steps.bind $h ?_ ?_)
  | (intro _)
  | split)

theorem steps_newVal {sc : Option Func} {i : ValInst} (hi : i.notRaw) : Steps R (newVal sc i) := by
  unfold newVal
  split
  · exact Steps.api (fun _ _ _ => hR.newGlobal _ _ (.val i) _ hi)
  · exact Steps.api (fun _ _ _ => hR.newLocal _ _ _ (.val i) _ hi)

theorem steps_aggElemTy {t : Ty} {n : Nat} : Steps R (aggElemTy t n) := by
  unfold aggElemTy; steps hR

mutual
theorem steps_genInit {sc : Option Func} (ty : Ty) : ∀ a, Steps R (genInit sc ty a)
  | .undef => by unfold genInit; exact steps_newVal hR trivial
  | .zero => by unfold genInit; exact steps_newVal hR trivial
  | .int v => by
    unfold genInit
    split
    · exact steps_newVal hR trivial
    · exact Steps.fail hR
  | .agg es => by
    unfold genInit
    exact Steps.bind hR (steps_aggElemTy hR) (fun t => Steps.bind hR (steps_genInits t es) (fun _ => steps_newVal hR trivial))
  | .sym _ => by unfold genInit; exact Steps.panic
theorem steps_genInits {sc : Option Func} (ty : Ty) : ∀ es, Steps R (genInits sc ty es)
  | [] => by unfold genInits; exact Steps.pure hR
  | e :: es => by
    unfold genInits
    exact Steps.bind hR (steps_genInit ty e) (fun _ => Steps.bind hR (steps_genInits ty es) (fun _ => Steps.pure hR))
end

theorem steps_valueTy {f : Func} {v : Value} : Steps R (valueTy f v) := by unfold valueTy; steps hR
theorem steps_bbParamsTy {f : Func} {v : BB} : Steps R (bbParamsTy f v) := by unfold bbParamsTy; steps hR
theorem steps_genSymbol {bb sym : Str} : Steps R (genSymbol bb sym) := by unfold genSymbol; steps hR
theorem steps_genValue {f : Func} {bb : Str} {t : Ty} {a : ValAst} : Steps R (genValue f bb t a) := by
  unfold genValue
  split
  · have h1 := @steps_genSymbol _ _ hR
    have h2 := @steps_valueTy _ _ hR
    exact h1.bind hR fun _ => h2.bind hR fun _ => by steps hR
  · exact steps_genInit hR _ _
theorem steps_genBb {n : Str} : Steps R (genBb n) := by unfold genBb; steps hR
theorem steps_genArgs {f : Func} {bb : Str} : ∀ as ts, Steps R (genArgs f bb as ts)
  | [], _ => by unfold genArgs; exact Steps.pure hR
  | _ :: _, [] => by unfold genArgs; exact Steps.pure hR
  | a :: as, t :: ts => by
    unfold genArgs
    exact Steps.bind hR (steps_genValue hR) (fun _ => Steps.bind hR (steps_genArgs as ts) (fun _ => Steps.pure hR))

omit hR in
/-- As `steps`, for the parts of instructions. -/
syntax "steps_inst" term : tactic
macro_rules | `(tactic| steps_inst $h:term) => `(tactic| repeat' first
  | exact steps_genSymbol $h
  | exact steps_valueTy $h
  | exact steps_bbParamsTy $h
  | exact steps_genValue $h
  | exact steps_genBb $h
  | exact steps_genArgs $h _ _
  | exact Steps.pure $h
  | exact Steps.logError $h
  | exact Steps.fail $h
  | exact Steps.throw $h
  | exact Steps.panic
  | exact Steps.lift $h
  | exact Steps.get $h
  | exact Steps.modify $h (fun _ => rfl)
  | exact Steps.api (fun _ _ _ => FrontRel.newLocal $h _ _ _ _ _ trivial)
  | (refine Steps.bind $h ?_ ?_)
  | (intro _)
  | split)

theorem steps_genInst {f : Func} {bb : Str} (e : ExprAst) : Steps R (genInst f bb e) := by
  unfold genInst
  split
  · unfold genAlloc; steps_inst hR
  · unfold genLoad; steps_inst hR
  · unfold genGetPtr; steps_inst hR
  · unfold genGetElemPtr; steps_inst hR
  · unfold genBinary; steps_inst hR
  · unfold genCall; steps_inst hR

theorem steps_defineSym {n : Str} : Steps R (defineSym n) := by unfold defineSym; steps hR
theorem steps_recordDef {bb n : Str} {v : Value} : Steps R (recordDef bb n v) := by unfold recordDef; steps hR
theorem steps_nameLocal {f : Func} {v : Value} {n : Str} (hn : N n) : Steps R (nameLocal f v n) := by
  unfold nameLocal
  split
  · exact Steps.pure hR
  · rename_i ht
    exact Steps.api' (fun _ _ => hR.setLocalName _ _ _ _ _ (fun s h => by cases h; exact ⟨hn, by rw [tempName, if_neg ht]⟩))

theorem steps_genDef {f : Func} {bb n : Str} {e : ExprAst} (hn : N n) : Steps R (genDef f bb n e) := by
  unfold genDef
  refine (steps_defineSym hR).bind hR fun _ => (steps_genInst hR e).bind hR fun _ => (steps_valueTy hR).bind hR fun _ => ?_
  split
  · exact Steps.fail hR
  · exact (steps_nameLocal hR hn).bind hR fun _ => (steps_recordDef hR).bind hR fun _ => Steps.pure hR

theorem steps_genStmt {f : Func} {bb : Str} {t : Ty} {st : StmtAst} (hn : ∀ n e, st = .def n e → N n) : Steps R (genStmt f bb t st) := by
  unfold genStmt
  split
  · unfold genStore; steps_inst hR
  · unfold genBranch; steps_inst hR
  · unfold genJump; steps_inst hR
  · unfold genCall; steps_inst hR
  · unfold genReturn; steps_inst hR
  · exact Steps.throw hR
  · exact steps_genDef hR (hn _ _ rfl)

theorem steps_buildStmt {f : Func} {t : Ty} {bb : Str} {st : StmtAst} (hn : ∀ n e, st = .def n e → N n) : Steps R (buildStmt f t bb st) := by
  unfold buildStmt
  refine (Steps.attempt (steps_genStmt hR hn)).bind hR fun _ => ?_
  steps hR

omit hR in
/-- The names a block defines. -/
def BlockNamed (N : Str → Prop) (b : BlockAst) : Prop :=
  N b.name ∧ (∀ q ∈ b.params, N q.1) ∧ ∀ n e, StmtAst.def n e ∈ b.stmts → N n

omit hR in
/-- The names an item defines. -/
def ItemNamed (N : Str → Prop) : GlobalAst → Prop
  | .globalDef n _ _ => N n
  | .funDef n ps _ bbs => N n ∧ (∀ q ∈ ps, N q.1) ∧ ∀ b ∈ bbs, BlockNamed N b
  | .funDecl n _ _ => N n
  | .eof => True
  | .error => True

theorem steps_buildBlock {f : Func} {t : Ty} {b : BlockAst} (hn : BlockNamed N b) : Steps R (buildBlock f t b) := by
  unfold buildBlock
  exact (Steps.each hR _ (fun _ hs => steps_buildStmt hR (fun n e he => hn.2.2 n e (he ▸ hs)))).bind hR fun _ => Steps.pure hR

omit hR in
theorem blockMap_mem : ∀ {bs : List BlockAst} {m : Map Str BlockAst} {k : Str} {b : BlockAst},
    (blockMap m bs).1.get? k = some b → b ∈ bs ∨ m.get? k = some b
  | [], m, k, b, h => .inr h
  | c :: bs, m, k, b, h => by
    rw [blockMap] at h
    simp only at h
    rcases blockMap_mem h with h | h
    · exact .inl (List.mem_cons_of_mem _ h)
    · rw [Map.get?_insert] at h
      split at h
      · rw [Option.some.injEq] at h; exact .inl (h ▸ List.mem_cons_self ..)
      · exact .inr h

omit hR in
theorem bfs_mem {e : Str} {m : Map Str BlockAst} : ∀ {n : Nat} {q vis : List Str} {o : BfsOut}, bfs e m n q vis = some o →
    ∀ b ∈ o.blocks, ∃ k, m.get? k = some b := by
  intro n
  induction n with
  | zero =>
    intro q vis o h
    cases q with
    | nil => simp only [bfs, Option.some.injEq] at h; subst h; simp
    | cons => simp [bfs] at h
  | succ n ih =>
    intro q vis o h
    cases q with
    | nil => simp only [bfs, Option.some.injEq] at h; subst h; simp
    | cons x q =>
      rw [bfs] at h
      split at h
      · exact ih h
      · split at h
        · cases h
        · rename_i blk hb
          split at h
          · cases h
          · split at h
            · cases h
            · simp only at h
              split at h
              · cases h
              · rename_i o' ho
                rw [Option.some.injEq] at h; subst h
                intro b hm
                rcases List.mem_cons.1 hm with rfl | hm
                · exact ⟨_, hb⟩
                · exact ih ho b hm

/-- The blocks that are kept are blocks of the function. -/
theorem steps_blockList {β : Type} {bs : List BlockAst} {k : List BlockAst → B β} (hk : ∀ o, (∀ b ∈ o, b ∈ bs) → Steps R (k o)) :
    Steps R (blockList bs >>= k) := by
  constructor
  intro s r s' h
  rw [B.bind_eq] at h
  cases bs with
  | nil => simp [blockList] at h
  | cons e bs =>
    rcases hb : bfs e.name (blockMap .empty (e :: bs)).1 (bfsFuel (blockMap .empty (e :: bs)).1) [e.name] [] with _ | o
    · simp only [blockList, hb] at h; cases h
    · simp only [blockList, hb] at h
      refine hR.trans _ _ _ ?_ ((hk o.blocks fun b hm => ?_).run _ r s' h)
      · exact hR.refl _
      · obtain ⟨k, hm⟩ := bfs_mem hb b hm
        rcases blockMap_mem hm with h | h
        · exact h
        · cases h

theorem steps_defineParams : ∀ ps vs m, Steps R (defineParams ps vs m)
  | [], _, _ => by unfold defineParams; exact Steps.pure hR
  | _ :: _, [], _ => by unfold defineParams; exact Steps.pure hR
  | (n, a) :: ps, v :: vs, m => by
    unfold defineParams
    exact (steps_defineSym hR).bind hR fun _ => steps_defineParams ps vs _

theorem steps_initBb {f : Func} {b : BlockAst} (hn : BlockNamed N b) : Steps R (initBb f b) := by
  unfold initBb
  have h := @steps_defineParams _ _ hR
  refine Steps.bind_lift fun _ hps => Steps.bind hR (Steps.api (fun _ _ _ => hR.newBb _ _ _ _ _ _
      (fun s h => (tempName_some h) ▸ ⟨hn.1, by have e := tempName_some h; subst e; exact h⟩) (genParams_names hps hn.2.1))) fun _ =>
    Steps.bind hR (Steps.api' (fun _ _ => hR.pushBb _ _ _ _)) fun _ => Steps.bind hR (Steps.get hR) fun _ =>
    Steps.bind hR (Steps.lift hR) fun _ => Steps.bind hR (h _ _ _) fun _ => Steps.modify hR (fun _ => rfl)

theorem steps_addPreds {b : BlockAst} : Steps R (addPreds b) := by
  unfold addPreds
  split
  · exact Steps.panic
  · refine (Steps.each hR _ (fun t _ => ?_)).bind hR fun _ => Steps.pure hR
    unfold addPred; steps hR

theorem steps_enterArgs {m : Map Str Value} {e : BlockAst} : Steps R (enterArgs m e) := by
  unfold enterArgs; steps hR

theorem steps_initBbs {f : Func} {m : Map Str Value} {bs : List BlockAst} (hn : ∀ b ∈ bs, BlockNamed N b) : Steps R (initBbs f m bs) := by
  unfold initBbs
  refine Steps.bind hR (Steps.modify hR (fun _ => rfl)) fun _ =>
    (Steps.each hR _ (fun b hb => steps_initBb hR (hn b hb))).bind hR fun _ => ?_
  split
  · exact Steps.bind hR Steps.panic fun _ => (Steps.each hR _ (fun _ _ => steps_addPreds hR)).bind hR fun _ => Steps.pure hR
  · exact Steps.bind hR (steps_enterArgs hR) fun _ => (Steps.each hR _ (fun _ _ => steps_addPreds hR)).bind hR fun _ => Steps.pure hR

theorem steps_logErrors : ∀ n, Steps R (logErrors n)
  | 0 => by unfold logErrors; exact Steps.pure hR
  | n + 1 => by unfold logErrors; exact (Steps.logError hR).bind hR fun _ => steps_logErrors n

theorem steps_defineFunc {n : Str} {f : Func} : Steps R (defineFunc n f) := by unfold defineFunc; steps hR
theorem steps_defineGlobal {n : Str} {v : Value} : Steps R (defineGlobal n v) := by unfold defineGlobal; steps hR
theorem steps_nameGlobal {n : Str} {v : Value} (hn : N n) : Steps R (nameGlobal v n) := by
  unfold nameGlobal
  split
  · exact Steps.pure hR
  · rename_i ht
    exact Steps.api' (fun _ _ => hR.setGlobalName _ _ _ _ (fun s h => by cases h; exact ⟨hn, by rw [tempName, if_neg ht]⟩))

/-- Building on a tree changes the program by `R`. -/
theorem steps_buildOn (g : GlobalAst) (hn : ItemNamed N g) : Steps R (buildOn g) := by
  unfold buildOn
  split
  · unfold buildGlobalDef
    refine (Steps.lift hR).bind hR fun _ => (Steps.attempt (steps_genInit hR _ _)).bind hR fun _ => ?_
    split
    · exact Steps.pure hR
    · exact (Steps.api (fun _ _ _ => hR.newGlobal _ _ (.globalAlloc _) _ trivial)).bind hR fun _ =>
        (steps_nameGlobal hR hn).bind hR fun _ => steps_defineGlobal hR
  · unfold buildFunDef
    refine (Steps.lift hR).bind hR fun _ => Steps.bind_lift fun _ hps =>
      (Steps.api (fun _ _ _ => hR.newFuncDef _ _ _ _ _ _ hn.1 (genParams_names hps hn.2.1))).bind hR fun _ => (Steps.get hR).bind hR fun _ =>
      (Steps.lift hR).bind hR fun fd => ?_
    refine (steps_logErrors hR _).bind hR fun _ => (steps_defineFunc hR).bind hR fun _ =>
      Steps.bind hR (Steps.modify hR (fun _ => rfl)) fun _ => steps_blockList hR fun o ho =>
      (steps_initBbs hR (fun b hb => hn.2.2 b (ho b hb))).bind hR fun _ =>
      (Steps.each hR _ (fun b hb => steps_buildBlock hR (hn.2.2 b (ho b hb)))).bind hR fun _ => Steps.pure hR
  · unfold buildFunDecl
    exact (Steps.lift hR).bind hR fun _ => (Steps.lift hR).bind hR fun _ =>
      (Steps.api (fun _ _ _ => hR.newFuncDecl _ _ _ _ _ _ hn)).bind hR fun _ => steps_defineFunc hR
  · exact Steps.pure hR
  · exact Steps.pure hR

omit hR

/-- Handles are never given back. -/
def IdsLe (p p' : Program) : Prop :=
  p.ids.nextGlobal ≤ p'.ids.nextGlobal ∧ p.ids.nextLocal ≤ p'.ids.nextLocal ∧ p.ids.nextBb ≤ p'.ids.nextBb ∧
    p.ids.nextFunc ≤ p'.ids.nextFunc

theorem idsLe_front : FrontRel IdsLe where
  refl p := ⟨Nat.le_refl _, Nat.le_refl _, Nat.le_refl _, Nat.le_refl _⟩
  trans p q r h h' := ⟨Nat.le_trans h.1 h'.1, Nat.le_trans h.2.1 h'.2.1, Nat.le_trans h.2.2.1 h'.2.2.1,
    Nat.le_trans h.2.2.2 h'.2.2.2⟩
  newLocal p p' f i v _ h := by
    obtain ⟨fd, data, -, -, hv, hw⟩ := newLocal_view h
    have hids : p'.ids = { p.ids with nextLocal := v + 1 } := congrArg View.ids hw
    unfold IdsLe; rw [hids]; simp only; omega
  newGlobal p p' i v _ h := by
    obtain ⟨data, -, hv, hw⟩ := newGlobal_view h
    have hids : p'.ids = { p.ids with nextGlobal := v + 1 } := congrArg View.ids hw
    unfold IdsLe; rw [hids]; simp only; omega
  setLocalName p p' f v n _ h := by
    obtain ⟨_, _, _, _, hw⟩ := setLocalName_view h
    have hids : p'.ids = p.ids := congrArg View.ids hw
    unfold IdsLe; rw [hids]; omega
  setGlobalName p p' v n _ h := by
    obtain ⟨_, _, _, _, hw⟩ := setGlobalName_view h
    have hids : p'.ids = p.ids := congrArg View.ids hw
    unfold IdsLe; rw [hids]; omega
  pushInst p p' f b v h := by
    unfold Program.pushInst Program.onLayout at h
    simp only [Option.bind_eq_bind, Option.bind_eq_some_iff, Option.some.injEq] at h
    obtain ⟨_, _, _, _, rfl⟩ := h
    unfold IdsLe; simp
  newBb p p' f n ps b _ _ h := by
    obtain ⟨-, hb, -, -, hw⟩ := newBbParams_view h
    have hids : p'.ids = { p.ids with nextLocal := p.ids.nextLocal + ps.length, nextBb := b + 1 } := congrArg View.ids hw
    unfold IdsLe; rw [hids]; simp only; omega
  pushBb p p' f b h := by
    unfold Program.pushBb Program.onLayout at h
    simp only [Option.bind_eq_bind, Option.bind_eq_some_iff, Option.some.injEq] at h
    obtain ⟨_, _, _, _, rfl⟩ := h
    unfold IdsLe; simp
  newFuncDef p p' n ps r f _ _ h := by
    obtain ⟨hf, -, -, hw⟩ := newFuncDef_view h
    have hids : p'.ids = { p.ids with nextLocal := p.ids.nextLocal + ps.length, nextFunc := f + 1 } := congrArg View.ids hw
    unfold IdsLe; rw [hids]; simp only; omega
  newFuncDecl p p' n ps r f _ h := by
    obtain ⟨hf, -, -, hw⟩ := newFuncDecl_view h
    have hids : p'.ids = { p.ids with nextFunc := f + 1 } := congrArg View.ids hw
    unfold IdsLe; rw [hids]; simp only; omega

end Koopa
