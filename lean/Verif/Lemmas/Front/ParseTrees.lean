import Verif.Lemmas.Front.NamesIn
import Verif.Lemmas.Front.BuildRel
import Verif.Spec.Typed
import Verif.Props.Parser
/-!
Trees that the parser yields for arbitrary texts: they do not depend on the errors counted so far, and the
names in them have the form of symbols.
-/
namespace Koopa
open Spec

/-! ### The count of errors -/

/-- The state with more errors. -/
def PS.more (s : PS) (n : Nat) : PS := { s with errs := s.errs + n }

/-- The parser does not look at the count of errors. -/
structure Indep {α : Type} (p : P α) : Prop where
  run : ∀ s n, p (s.more n) = (p s).map (fun x => (x.1, x.2.more n))

theorem Indep.pure {α : Type} {a : α} : Indep (Pure.pure a : P α) := ⟨fun _ _ => rfl⟩
theorem Indep.cur : Indep P.cur := ⟨fun _ _ => rfl⟩
theorem Indep.outOfFuel {α : Type} : Indep (P.outOfFuel : P α) := ⟨fun _ _ => rfl⟩
theorem Indep.fail {α : Type} : Indep (P.fail : P α) := ⟨fun s n => by simp [P.fail, PS.more]; omega⟩

theorem Indep.next : Indep P.next := by
  constructor
  intro s n
  unfold P.next
  simp only [PS.more]
  rcases s.lex.nextToken with _ | ⟨r, l⟩
  · rfl
  · cases r
    · simp; omega
    · rfl

theorem Indep.bind {α β : Type} {p : P α} {k : α → P β} (hp : Indep p) (hk : ∀ a, Indep (k a)) : Indep (p >>= k) := by
  constructor
  intro s n
  change P.bind p k (s.more n) = (P.bind p k s).map _
  unfold P.bind
  rw [hp.run]
  rcases p s with _ | ⟨r, s1⟩
  · rfl
  · cases r with
    | ok a => exact (hk a).run s1 n
    | error e => rfl

theorem Indep.recover {α : Type} {p q : P α} (hp : Indep p) (hq : Indep q) : Indep (P.recover p q) := by
  constructor
  intro s n
  unfold P.recover
  rw [hp.run]
  rcases p s with _ | ⟨r, s1⟩
  · rfl
  · cases r with
    | ok a => rfl
    | error e => cases e with
      | normal => exact hq.run s1 n
      | fatal => rfl

syntax "indep_step" : tactic
macro_rules | `(tactic| indep_step) => `(tactic| repeat' first
  | assumption
  | exact Indep.pure
  | exact Indep.cur
  | exact Indep.fail
  | exact Indep.next
  | (refine Indep.bind ?_ ?_)
  | (refine Indep.recover ?_ ?_)
  | (intro _)
  | split)

theorem Indep.expect {k : TokKind} : Indep (P.expect k) := by unfold P.expect; indep_step
theorem Indep.readSym : Indep P.readSym := by unfold P.readSym; indep_step
theorem Indep.readInt : Indep P.readInt := by unfold P.readInt; indep_step
theorem Indep.readOp : Indep P.readOp := by unfold P.readOp; indep_step

syntax "indep" : tactic
macro_rules | `(tactic| indep) => `(tactic| repeat' first
  | assumption
  | exact Indep.pure
  | exact Indep.cur
  | exact Indep.fail
  | exact Indep.next
  | exact Indep.expect
  | exact Indep.readSym
  | exact Indep.readInt
  | exact Indep.readOp
  | (refine Indep.bind ?_ ?_)
  | (refine Indep.recover ?_ ?_)
  | (intro _)
  | split)

theorem Indep.listLoop {α : Type} {p : P α} (h : Indep p) : ∀ n, Indep (P.listLoop p n)
  | 0 => .outOfFuel
  | n + 1 => by
    have := Indep.listLoop h n
    unfold P.listLoop; indep

theorem Indep.list {α : Type} {p : P α} (h : Indep p) {n : Nat} : Indep (P.list p n) := by
  have := Indep.listLoop h n
  unfold P.list; indep

theorem Indep.optList {α : Type} {p : P α} (h : Indep p) {n : Nat} : Indep (P.optList p n) := by
  have := Indep.list h (n := n)
  unfold P.optList; indep

theorem Indep.retType {p : P TyAst} (h : Indep p) : Indep (P.retType p) := by unfold P.retType; indep

theorem Indep.type : ∀ n, Indep (P.type n)
  | 0 => .outOfFuel
  | n + 1 => by
    have h := Indep.type n
    have h1 := Indep.list h (n := n)
    have h2 := Indep.retType h
    unfold P.type; indep

theorem Indep.value : Indep P.value := by unfold P.value; indep

theorem Indep.init : ∀ n, Indep (P.init n)
  | 0 => .outOfFuel
  | n + 1 => by
    have h := Indep.init n
    have h1 := Indep.listLoop h n
    unfold P.init; indep

theorem Indep.funCall {n : Nat} : Indep (P.funCall n) := by
  have := Indep.list Indep.value (n := n)
  unfold P.funCall; indep

theorem Indep.expr {n : Nat} : Indep (P.expr n) := by
  have h1 := Indep.type n
  have h2 := Indep.funCall (n := n)
  have h3 := Indep.value
  unfold P.expr P.memDecl P.load P.getPtr P.getElemPtr P.binary; indep

theorem Indep.symbolDef {n : Nat} : Indep (P.symbolDef n) := by
  have h1 := Indep.expr (n := n)
  unfold P.symbolDef; indep

theorem Indep.store {n : Nat} : Indep (P.store n) := by
  have h1 := Indep.init n
  have h2 : Indep (P.storeValue n) := by unfold P.storeValue; indep
  unfold P.store; indep

theorem Indep.branch {n : Nat} : Indep (P.branch n) := by
  have h0 := Indep.value
  have := Indep.optList h0 (n := n)
  unfold P.branch; indep

theorem Indep.jump {n : Nat} : Indep (P.jump n) := by
  have := Indep.optList Indep.value (n := n)
  unfold P.jump; indep

theorem Indep.ret : Indep P.ret := by
  have := Indep.value
  unfold P.ret; indep

theorem Indep.param {n : Nat} : Indep (P.param n) := by
  have := Indep.type n
  unfold P.param; indep

theorem Indep.skipTo {stop : TokKind → Bool} : ∀ n, Indep (P.skipTo stop n)
  | 0 => .outOfFuel
  | n + 1 => by
    have h := Indep.skipTo (stop := stop) n
    constructor
    intro s k
    unfold P.skipTo
    rw [show (s.more k).cur = s.cur from rfl]
    split
    · rfl
    · rw [Indep.next.run]
      rcases P.next s with _ | ⟨r, s1⟩
      · rfl
      · cases r with
        | ok a => exact h.run s1 k
        | error e => cases e with
          | normal => exact h.run s1 k
          | fatal => rfl

theorem Indep.stmt {n : Nat} : Indep (P.stmt n) := by
  unfold P.stmt
  refine Indep.bind .cur ?_
  intro t
  have h1 := Indep.symbolDef (n := n)
  have h2 := Indep.store (n := n)
  have h3 := Indep.funCall (n := n)
  have h4 := Indep.branch (n := n)
  have h5 := Indep.jump (n := n)
  have h7 := Indep.ret
  have h6 := Indep.skipTo (stop := fun k => P.stmtStart k || P.stmtBreak k) n
  generalize t.kind = k
  have key : ∀ (p : P StmtAst) (exit : Bool), Indep p →
      Indep (P.recover (do let st ← p; return (st, exit)) (do
        P.skipTo (fun k => P.stmtStart k || P.stmtBreak k) n
        let t ← P.cur
        return (.error, exit || (!P.stmtStart t.kind && P.stmtBreak t.kind)))) :=
    fun p exit h => .recover (.bind h fun _ => .pure) (.bind h6 fun _ => .bind .cur fun _ => .pure)
  cases k with
  | sym => exact key _ false h1
  | int => exact .fail
  | op => exact .fail
  | other => exact .fail
  | eof => exact .fail
  | kw k => cases k <;> first
    | exact .fail
    | exact key _ false h2
    | exact key _ false (.bind h3 fun _ => .pure)
    | exact key _ true h4
    | exact key _ true h5
    | exact key _ true h7

theorem Indep.stmtLoop : ∀ n, Indep (P.stmtLoop n)
  | 0 => .outOfFuel
  | n + 1 => by
    have h := Indep.stmtLoop n
    have h1 := Indep.stmt (n := n)
    unfold P.stmtLoop; indep

theorem Indep.block {n : Nat} : Indep (P.block n) := by
  have h1 := Indep.optList (Indep.param (n := n)) (n := n)
  have h2 := Indep.stmtLoop n
  unfold P.block; indep

theorem Indep.blockLoop : ∀ n, Indep (P.blockLoop n)
  | 0 => .outOfFuel
  | n + 1 => by
    have h := Indep.blockLoop n
    have h1 := Indep.block (n := n)
    unfold P.blockLoop; indep

theorem Indep.nextAst {n : Nat} : Indep (P.nextAst n) := by
  have h1 := Indep.skipTo (stop := P.globalStart) n
  have ht := Indep.type n
  have h2 : Indep (P.globalDef n) := by
    have h4 := Indep.init n
    unfold P.globalDef; indep
  have h5 : Indep (P.funDecl n) := by
    have h3 := Indep.list ht (n := n)
    have h4 := Indep.retType ht
    unfold P.funDecl; indep
  have h6 : Indep (P.funDef n) := by
    have h3 := Indep.list (Indep.param (n := n)) (n := n)
    have h4 := Indep.retType ht
    have h7 := Indep.blockLoop n
    unfold P.funDef; indep
  unfold P.nextAst
  simp only
  indep

/-- What `parse_next` yields and consumes does not depend on the count of errors. -/
theorem parseNext_errs {s s' : PS} {r : Except FErr GlobalAst} (h : s.parseNext = some (r, s')) (n : Nat) :
    ∃ m, ({ s with errs := n } : PS).parseNext = some (r, { s' with errs := m }) := by
  have hfu : ∀ m, PS.fuel { s with errs := m } = s.fuel := fun _ => rfl
  unfold PS.parseNext at h ⊢
  rw [hfu]
  by_cases hn : s.errs ≤ n
  · have := Indep.nextAst (n := s.fuel).run s (n - s.errs)
    rw [h] at this
    refine ⟨s'.errs + (n - s.errs), ?_⟩
    rw [show ({ s with errs := n } : PS) = s.more (n - s.errs) by unfold PS.more; congr; omega, this]
    rfl
  · have := Indep.nextAst (n := s.fuel).run { s with errs := n } (s.errs - n)
    rw [show ({ s with errs := n } : PS).more (s.errs - n) = s by
      unfold PS.more; show PS.mk s.lex s.cur (n + (s.errs - n)) = s; rw [show n + (s.errs - n) = s.errs by omega], h] at this
    rcases hp : P.nextAst s.fuel { s with errs := n } with _ | ⟨r1, s1⟩
    · rw [hp] at this; cases this
    · rw [hp] at this
      simp only [Option.map_some, Option.some.injEq, Prod.mk.injEq] at this
      obtain ⟨rfl, rfl⟩ := this
      exact ⟨s1.errs, rfl⟩

/-! ### Names -/

/-- The current token, if it is a symbol, has the form of a name. -/
def Cur (f : Bool) (s : PS) : Prop := (∃ b m, s.lex = Lex.at b f m) ∧ ∀ n, s.cur.kind = .sym n → nameOk n

/-- What the parser yields is as described. -/
structure Keeps {α : Type} (p : P α) (Q : α → Prop) : Prop where
  run : ∀ f s r s', Cur f s → p s = some (r, s') → Cur f s' ∧ ∀ a, r = .ok a → Q a

theorem Keeps.pure {α : Type} {a : α} {Q : α → Prop} (h : Q a) : Keeps (Pure.pure a : P α) Q := by
  constructor
  rintro f s r s' hc ⟨⟩
  exact ⟨hc, by rintro _ ⟨⟩; exact h⟩

theorem Keeps.outOfFuel {α : Type} {Q : α → Prop} : Keeps (P.outOfFuel : P α) Q := ⟨by rintro f s r s' hc ⟨⟩⟩

theorem Keeps.fail {α : Type} {Q : α → Prop} : Keeps (P.fail : P α) Q := by
  constructor
  rintro f s r s' hc ⟨⟩
  exact ⟨hc, by simp⟩

theorem Keeps.cur : Keeps P.cur (fun t => ∀ n, t.kind = .sym n → nameOk n) := by
  constructor
  rintro f s r s' hc ⟨⟩
  exact ⟨hc, by rintro _ ⟨⟩; exact hc.2⟩

theorem tokText_nameOk {n s : Str} (h : TokText (.sym n) s) : nameOk n := by
  cases h with
  | @sym tag s ht hs =>
    obtain ⟨⟨c, t, rfl, -⟩, -⟩ := hs
    exact ht
  | temp hs =>
    rcases hs with rfl | ⟨c, t, rfl, -, -⟩
    · exact .inr rfl
    · exact .inr rfl

theorem Keeps.next : Keeps P.next (fun _ => True) := by
  constructor
  rintro f s r s' ⟨⟨b, m, hl⟩, hc⟩ h
  unfold P.next at h
  obtain ⟨⟨r1, l⟩, h1, h2⟩ := nextToken_out b f m
  rw [hl, h1] at h
  cases r1 with
  | ok t =>
    simp only [Option.some.injEq, Prod.mk.injEq] at h
    obtain ⟨rfl, rfl⟩ := h
    refine ⟨?_, fun _ _ => trivial⟩
    rcases h2 with ⟨w, s0, b', -, -, h3, -, -, h4⟩ | ⟨h3, -, h4⟩
    · refine ⟨⟨_, _, h4⟩, ?_⟩
      intro n hn
      have hn : t.kind = .sym n := hn
      rw [hn] at h3
      exact tokText_nameOk h3
    · refine ⟨⟨_, _, h4⟩, ?_⟩
      intro n hn
      rw [h3] at hn
      cases hn
  | error e =>
    simp only [Option.some.injEq, Prod.mk.injEq] at h
    obtain ⟨rfl, rfl⟩ := h
    refine ⟨⟨?_, hc⟩, by simp⟩
    cases e with
    | normal => obtain ⟨s0, b', -, -, h3⟩ := h2; exact ⟨_, _, h3⟩
    | fatal => obtain ⟨-, s0, b', -, h3⟩ := h2; exact ⟨_, _, h3⟩

theorem Keeps.mono {α : Type} {p : P α} {Q Q' : α → Prop} (h : Keeps p Q) (hq : ∀ a, Q a → Q' a) : Keeps p Q' :=
  ⟨fun f s r s' hc hp => ⟨(h.run f s r s' hc hp).1, fun a ha => hq a ((h.run f s r s' hc hp).2 a ha)⟩⟩

theorem Keeps.bind {α β : Type} {p : P α} {k : α → P β} {Q : α → Prop} {Q' : β → Prop} (hp : Keeps p Q)
    (hk : ∀ a, Q a → Keeps (k a) Q') : Keeps (p >>= k) Q' := by
  constructor
  intro f s r s' hc h
  change P.bind p k s = some (r, s') at h
  unfold P.bind at h
  rcases e : p s with _ | ⟨r1, s1⟩
  · rw [e] at h; cases h
  · rw [e] at h
    obtain ⟨h1, h2⟩ := hp.run f s r1 s1 hc e
    cases r1 with
    | ok a => exact (hk a (h2 a rfl)).run f s1 r s' h1 h
    | error e => cases h; exact ⟨h1, by simp⟩

theorem Keeps.recover {α : Type} {p q : P α} {Q : α → Prop} (hp : Keeps p Q) (hq : Keeps q Q) : Keeps (P.recover p q) Q := by
  constructor
  intro f s r s' hc h
  unfold P.recover at h
  rcases e : p s with _ | ⟨r1, s1⟩
  · rw [e] at h; cases h
  · rw [e] at h
    obtain ⟨h1, h2⟩ := hp.run f s r1 s1 hc e
    cases r1 with
    | ok a => cases h; exact ⟨h1, h2⟩
    | error x => cases x with
      | normal => exact hq.run f s1 r s' h1 h
      | fatal => cases h; exact ⟨h1, by simp⟩

/-- Nothing is said about what the parser yields. -/
abbrev Goes {α : Type} (p : P α) : Prop := Keeps p (fun _ => True)

theorem Keeps.goes {α : Type} {p : P α} {Q : α → Prop} (h : Keeps p Q) : Goes p := h.mono fun _ _ => trivial

theorem goes_bind {α β : Type} {p : P α} {k : α → P β} (hp : Goes p) (hk : ∀ a, Goes (k a)) : Goes (p >>= k) :=
  Keeps.bind hp (fun a _ => hk a)

theorem Keeps.readSym : Keeps P.readSym nameOk := by
  unfold P.readSym
  refine Keeps.cur.bind ?_
  intro t ht
  split
  · rename_i n hn
    exact Keeps.next.bind fun _ _ => .pure (ht n hn)
  · exact .fail

syntax "goes_step" : tactic
macro_rules | `(tactic| goes_step) => `(tactic| repeat' first
  | assumption
  | exact Keeps.pure trivial
  | exact Keeps.cur.goes
  | exact Keeps.fail
  | exact Keeps.next
  | exact Keeps.readSym.goes
  | (refine goes_bind ?_ ?_)
  | (refine Keeps.recover ?_ ?_)
  | (intro _)
  | split)

theorem Goes.expect {k : TokKind} : Goes (P.expect k) := by unfold P.expect; goes_step
theorem Goes.readInt : Goes P.readInt := by unfold P.readInt; goes_step
theorem Goes.readOp : Goes P.readOp := by unfold P.readOp; goes_step

syntax "goes" : tactic
macro_rules | `(tactic| goes) => `(tactic| repeat' first
  | assumption
  | exact Keeps.pure trivial
  | exact Keeps.cur.goes
  | exact Keeps.fail
  | exact Keeps.next
  | exact Keeps.readSym.goes
  | exact Goes.expect
  | exact Goes.readInt
  | exact Goes.readOp
  | (refine goes_bind ?_ ?_)
  | (refine Keeps.recover ?_ ?_)
  | (intro _)
  | split)

theorem Keeps.listLoop {α : Type} {p : P α} {Q : α → Prop} (h : Keeps p Q) : ∀ n, Keeps (P.listLoop p n) (fun as => ∀ a ∈ as, Q a)
  | 0 => .outOfFuel
  | n + 1 => by
    unfold P.listLoop
    refine h.bind fun a ha => Keeps.cur.bind fun t _ => ?_
    split
    · refine Keeps.next.bind fun _ _ => (Keeps.listLoop h n).bind fun as has => .pure ?_
      intro x hx
      rcases List.mem_cons.1 hx with rfl | hx
      · exact ha
      · exact has x hx
    · exact .pure (by simpa using ha)

theorem Keeps.list {α : Type} {p : P α} {Q : α → Prop} (h : Keeps p Q) {n : Nat} : Keeps (P.list p n) (fun as => ∀ a ∈ as, Q a) := by
  unfold P.list
  refine Goes.expect.bind fun _ _ => Keeps.cur.bind fun t _ => ?_
  split
  · exact Goes.expect.bind fun _ _ => .pure (by simp)
  · exact (Keeps.listLoop h n).bind fun as has => Goes.expect.bind fun _ _ => .pure has

theorem Keeps.optList {α : Type} {p : P α} {Q : α → Prop} (h : Keeps p Q) {n : Nat} : Keeps (P.optList p n) (fun as => ∀ a ∈ as, Q a) := by
  unfold P.optList
  refine Keeps.cur.bind fun t _ => ?_
  split
  · exact h.list
  · exact .pure (by simp)

theorem Goes.retType {p : P TyAst} (h : Goes p) : Goes (P.retType p) := by unfold P.retType; goes

theorem Goes.type : ∀ n, Goes (P.type n)
  | 0 => .outOfFuel
  | n + 1 => by
    have h := Goes.type n
    have h1 := (Keeps.list h (n := n)).goes
    have h2 := Goes.retType h
    unfold P.type; goes

theorem Goes.value : Goes P.value := by unfold P.value; goes

theorem Goes.init : ∀ n, Goes (P.init n)
  | 0 => .outOfFuel
  | n + 1 => by
    have h := Goes.init n
    have h1 := (Keeps.listLoop h n).goes
    unfold P.init; goes

theorem Goes.funCall {n : Nat} : Goes (P.funCall n) := by
  have := (Keeps.list Goes.value (n := n)).goes
  unfold P.funCall; goes

theorem Goes.expr {n : Nat} : Goes (P.expr n) := by
  have h1 := Goes.type n
  have h2 := Goes.funCall (n := n)
  have h3 := Goes.value
  unfold P.expr P.memDecl P.load P.getPtr P.getElemPtr P.binary; goes

/-- The name a statement defines. -/
def StmtNamed (N : Str → Prop) (st : StmtAst) : Prop := ∀ n e, st = .def n e → N n

theorem Keeps.symbolDef {n : Nat} : Keeps (P.symbolDef n) (StmtNamed nameOk) := by
  unfold P.symbolDef
  refine Keeps.readSym.bind fun x hx => Goes.expect.bind fun _ _ => Goes.expr.bind fun e _ => .pure ?_
  rintro n e ⟨⟩
  exact hx

theorem Keeps.store {n : Nat} : Keeps (P.store n) (StmtNamed nameOk) := by
  have h1 := Goes.init n
  have h2 : Goes (P.storeValue n) := by unfold P.storeValue; goes
  unfold P.store
  exact Keeps.next.bind fun _ _ => h2.bind fun _ _ => Goes.expect.bind fun _ _ => Keeps.readSym.bind fun _ _ => .pure (by rintro n e ⟨⟩)

theorem Keeps.branch {n : Nat} : Keeps (P.branch n) (StmtNamed nameOk) := by
  have h := (Keeps.optList Goes.value (n := n)).goes
  unfold P.branch
  exact Keeps.next.bind fun _ _ => Goes.value.bind fun _ _ => Goes.expect.bind fun _ _ => Keeps.readSym.bind fun _ _ =>
    h.bind fun _ _ => Goes.expect.bind fun _ _ => Keeps.readSym.bind fun _ _ => h.bind fun _ _ => .pure (by rintro n e ⟨⟩)

theorem Keeps.jump {n : Nat} : Keeps (P.jump n) (StmtNamed nameOk) := by
  have h := (Keeps.optList Goes.value (n := n)).goes
  unfold P.jump
  exact Keeps.next.bind fun _ _ => Keeps.readSym.bind fun _ _ => h.bind fun _ _ => .pure (by rintro n e ⟨⟩)

theorem Keeps.ret : Keeps P.ret (StmtNamed nameOk) := by
  unfold P.ret
  refine Keeps.cur.bind fun _ _ => Keeps.next.bind fun _ _ => Keeps.cur.bind fun _ _ => ?_
  split
  · exact Goes.value.bind fun _ _ => .pure (by rintro n e ⟨⟩)
  · exact .pure (by rintro n e ⟨⟩)

theorem Keeps.param {n : Nat} : Keeps (P.param n) (fun q => nameOk q.1) := by
  unfold P.param
  exact Keeps.readSym.bind fun _ h => Goes.expect.bind fun _ _ => (Goes.type n).bind fun _ _ => .pure h

theorem Goes.skipTo {stop : TokKind → Bool} : ∀ n, Goes (P.skipTo stop n)
  | 0 => .outOfFuel
  | n + 1 => by
    have h := Goes.skipTo (stop := stop) n
    constructor
    intro f s r s' hc hs
    unfold P.skipTo at hs
    split at hs
    · cases hs; exact ⟨hc, by simp⟩
    · rcases e : P.next s with _ | ⟨r1, s1⟩
      · rw [e] at hs; cases hs
      · rw [e] at hs
        have h1 := (Keeps.next.run f s r1 s1 hc e).1
        cases r1 with
        | ok a => exact h.run f s1 r s' h1 hs
        | error x => cases x with
          | normal => exact h.run f s1 r s' h1 hs
          | fatal => cases hs; exact ⟨h1, by simp⟩

theorem Keeps.stmt {n : Nat} : Keeps (P.stmt n) (fun x => StmtNamed nameOk x.1) := by
  unfold P.stmt
  refine Keeps.cur.bind ?_
  intro t _
  have h6 := Goes.skipTo (stop := fun k => P.stmtStart k || P.stmtBreak k) n
  generalize t.kind = k
  have key : ∀ (p : P StmtAst) (exit : Bool), Keeps p (StmtNamed nameOk) →
      Keeps (P.recover (do let st ← p; return (st, exit)) (do
        P.skipTo (fun k => P.stmtStart k || P.stmtBreak k) n
        let t ← P.cur
        return (.error, exit || (!P.stmtStart t.kind && P.stmtBreak t.kind)))) (fun x => StmtNamed nameOk x.1) :=
    fun p exit h => .recover (h.bind fun _ hs => .pure hs) (h6.bind fun _ _ => Keeps.cur.bind fun _ _ => .pure (by rintro n e ⟨⟩))
  cases k with
  | sym => exact key _ false .symbolDef
  | int => exact .fail
  | op => exact .fail
  | other => exact .fail
  | eof => exact .fail
  | kw k => cases k <;> first
    | exact .fail
    | exact key _ false .store
    | exact key _ false (Goes.funCall.bind fun _ _ => .pure (by rintro n e ⟨⟩))
    | exact key _ true .branch
    | exact key _ true .jump
    | exact key _ true .ret

theorem Keeps.stmtLoop : ∀ n, Keeps (P.stmtLoop n) (fun sts => ∀ st ∈ sts, StmtNamed nameOk st)
  | 0 => .outOfFuel
  | n + 1 => by
    unfold P.stmtLoop
    refine Keeps.stmt.bind ?_
    rintro ⟨st, exit⟩ hs
    simp only
    split
    · exact .pure (by simpa using hs)
    · refine (Keeps.stmtLoop n).bind fun sts hss => .pure ?_
      intro x hx
      rcases List.mem_cons.1 hx with rfl | hx
      · exact hs
      · exact hss x hx

theorem Keeps.block {n : Nat} : Keeps (P.block n) (BlockNamed nameOk) := by
  unfold P.block
  refine Keeps.readSym.bind fun _ h1 => (Keeps.optList Keeps.param).bind fun _ h2 => Goes.expect.bind fun _ _ =>
    (Keeps.stmtLoop n).bind fun _ h3 => .pure ⟨h1, h2, ?_⟩
  intro n e hm
  exact h3 _ hm n e rfl

theorem Keeps.blockLoop : ∀ n, Keeps (P.blockLoop n) (fun bs => ∀ b ∈ bs, BlockNamed nameOk b)
  | 0 => .outOfFuel
  | n + 1 => by
    unfold P.blockLoop
    refine Keeps.cur.bind fun t _ => ?_
    split
    · exact .pure (by simp)
    · refine Keeps.block.bind fun b hb => (Keeps.blockLoop n).bind fun bs hbs => .pure ?_
      intro x hx
      rcases List.mem_cons.1 hx with rfl | hx
      · exact hb
      · exact hbs x hx

theorem Keeps.nextAst {n : Nat} : Keeps (P.nextAst n) (ItemNamed nameOk) := by
  have h1 : Keeps (P.skipTo P.globalStart n >>= fun _ => Pure.pure GlobalAst.error) (ItemNamed nameOk) :=
    (Goes.skipTo n).bind fun _ _ => .pure trivial
  have ht := Goes.type n
  have h2 : Keeps (P.globalDef n) (ItemNamed nameOk) := by
    unfold P.globalDef
    exact Keeps.next.bind fun _ _ => Keeps.readSym.bind fun _ h => Goes.expect.bind fun _ _ => Goes.expect.bind fun _ _ =>
      ht.bind fun _ _ => Goes.expect.bind fun _ _ => (Goes.init n).bind fun _ _ => .pure h
  have h3 : Keeps (P.funDecl n) (ItemNamed nameOk) := by
    unfold P.funDecl
    exact Keeps.next.bind fun _ _ => Keeps.readSym.bind fun _ h => (Keeps.list ht).bind fun _ _ =>
      ht.retType.bind fun _ _ => .pure h
  have h4 : Keeps (P.funDef n) (ItemNamed nameOk) := by
    unfold P.funDef
    refine Keeps.next.bind fun _ _ => Keeps.readSym.bind fun _ h => (Keeps.list Keeps.param).bind fun _ hp =>
      ht.retType.bind fun _ _ => Goes.expect.bind fun _ _ => (Keeps.blockLoop n).bind fun _ hb => Keeps.next.bind fun _ _ => ?_
    split
    · exact .fail
    · exact .pure ⟨h, hp, hb⟩
  unfold P.nextAst
  simp only
  refine Keeps.cur.bind fun t _ => ?_
  split
  · exact .recover (.pure trivial) h1
  · exact .recover h2 h1
  · exact .recover h4 h1
  · exact .recover h3 h1
  · exact .fail

theorem PS.new_cur {input : Str} {fail : Bool} {n : Nat} {s : PS} (h : PS.new (Lex.new input fail) n = some (.ok (), s)) : Cur fail s :=
  (Keeps.next.run fail _ _ _ ⟨⟨_, _, Lex.new_eq ..⟩, by simp⟩ (PS.new_other.1 h)).1

/-- Names in trees have the form of symbols, even if errors were reported. -/
theorem ParseReach.cur {input : Str} {fail : Bool} {s : PS} (h : ParseReach input fail s) : Cur fail s := by
  induction h with
  | new h => exact PS.new_cur h
  | step _ hs ih => exact (Keeps.nextAst.run fail _ _ _ ih hs).1
  | count _ ih => exact ih

theorem ParseReach.named {input : Str} {fail : Bool} {s s' : PS} {g : GlobalAst} (h : ParseReach input fail s)
    (hs : s.parseNext = some (.ok g, s')) : ItemNamed nameOk g :=
  (Keeps.nextAst.run fail _ _ _ h.cur hs).2 g rfl

end Koopa
