import Verif.Model.Front.Parser
/-!
More fuel does not change what a parser returns.
-/
namespace Koopa

/-- Whatever `p` returns, `q` returns too. -/
structure PLe {α : Type} (p q : P α) : Prop where
  run : ∀ s x, p s = some x → q s = some x

theorem PLe.refl {α : Type} {p : P α} : PLe p p := ⟨fun _ _ h => h⟩

theorem PLe.fuel {α : Type} {p : P α} : PLe P.outOfFuel p := ⟨fun _ _ h => by simp [P.outOfFuel] at h⟩

theorem PLe.trans {α : Type} {p q r : P α} (h : PLe p q) (h' : PLe q r) : PLe p r :=
  ⟨fun s x hx => h'.run s x (h.run s x hx)⟩

theorem PLe.bind {α β : Type} {p q : P α} {k k' : α → P β} (hp : PLe p q) (hk : ∀ a, PLe (k a) (k' a)) :
    PLe (p >>= k) (q >>= k') := by
  constructor
  intro s x h
  change P.bind p k s = some x at h
  change P.bind q k' s = some x
  unfold P.bind at h ⊢
  rcases e : p s with _ | ⟨r, s1⟩
  · rw [e] at h; simp at h
  · rw [e] at h
    rw [hp.run _ _ e]
    cases r with
    | ok a => exact (hk a).run _ _ h
    | error e => exact h

theorem PLe.recover {α : Type} {p q p' q' : P α} (hp : PLe p q) (hp' : PLe p' q') :
    PLe (P.recover p p') (P.recover q q') := by
  constructor
  intro s x h
  unfold P.recover at h ⊢
  rcases e : p s with _ | ⟨r, s1⟩
  · rw [e] at h; simp at h
  · rw [e] at h
    rw [hp.run _ _ e]
    cases r with
    | ok a => exact h
    | error e2 => cases e2 with
      | normal => exact hp'.run _ _ h
      | fatal => exact h

/-- Solves `PLe` goals of two instances of a straight-line parser. -/
syntax "ple_step" : tactic
macro_rules | `(tactic| ple_step) => `(tactic| repeat' first
  | assumption
  | exact PLe.refl
  | (refine PLe.bind ?_ ?_)
  | (refine PLe.recover ?_ ?_)
  | (intro _)
  | split)

theorem PLe.listLoop {α : Type} {p q : P α} (h : PLe p q) :
    ∀ n m, n ≤ m → PLe (P.listLoop p n) (P.listLoop q m)
  | 0, _, _ => PLe.fuel
  | n + 1, 0, h => absurd h (by omega)
  | n + 1, m + 1, hm => by
    have := PLe.listLoop h n m (by omega)
    unfold P.listLoop; ple_step

theorem PLe.list {α : Type} {p q : P α} (h : PLe p q) {n m : Nat} (hm : n ≤ m) :
    PLe (P.list p n) (P.list q m) := by
  have := PLe.listLoop h n m hm
  unfold P.list; ple_step

theorem PLe.optList {α : Type} {p q : P α} (h : PLe p q) {n m : Nat} (hm : n ≤ m) :
    PLe (P.optList p n) (P.optList q m) := by
  have := PLe.list h hm
  unfold P.optList; ple_step

theorem PLe.retType {p q : P TyAst} (h : PLe p q) : PLe (P.retType p) (P.retType q) := by
  unfold P.retType; ple_step

theorem PLe.type : ∀ n m, n ≤ m → PLe (P.type n) (P.type m)
  | 0, _, _ => PLe.fuel
  | n + 1, 0, h => absurd h (by omega)
  | n + 1, m + 1, hm => by
    have h := PLe.type n m (by omega)
    have h1 := PLe.list h (n := n) (m := m) (by omega)
    have h2 := PLe.retType h
    unfold P.type; ple_step

theorem PLe.init : ∀ n m, n ≤ m → PLe (P.init n) (P.init m)
  | 0, _, _ => PLe.fuel
  | n + 1, 0, h => absurd h (by omega)
  | n + 1, m + 1, hm => by
    have h := PLe.init n m (by omega)
    have h1 := PLe.listLoop h n m (by omega)
    unfold P.init; ple_step

section
variable {n m : Nat} (hm : n ≤ m)
include hm

theorem PLe.funCall : PLe (P.funCall n) (P.funCall m) := by
  have := PLe.list (PLe.refl (p := P.value)) hm
  unfold P.funCall; ple_step

theorem PLe.expr : PLe (P.expr n) (P.expr m) := by
  have h1 := PLe.type n m hm
  have h2 := PLe.funCall hm
  unfold P.expr P.memDecl; ple_step

theorem PLe.symbolDef : PLe (P.symbolDef n) (P.symbolDef m) := by
  have h1 := PLe.expr hm
  unfold P.symbolDef; ple_step

theorem PLe.store : PLe (P.store n) (P.store m) := by
  have h1 := PLe.init n m hm
  have h2 : PLe (P.storeValue n) (P.storeValue m) := by unfold P.storeValue; ple_step
  unfold P.store; ple_step

theorem PLe.branch : PLe (P.branch n) (P.branch m) := by
  have := PLe.optList (PLe.refl (p := P.value)) hm
  unfold P.branch; ple_step

theorem PLe.jump : PLe (P.jump n) (P.jump m) := by
  have := PLe.optList (PLe.refl (p := P.value)) hm
  unfold P.jump; ple_step

theorem PLe.param : PLe (P.param n) (P.param m) := by
  have := PLe.type n m hm
  unfold P.param; ple_step
end

theorem PLe.skipTo {stop : TokKind → Bool} : ∀ n m, n ≤ m → PLe (P.skipTo stop n) (P.skipTo stop m)
  | 0, _, _ => PLe.fuel
  | n + 1, 0, h => absurd h (by omega)
  | n + 1, m + 1, hm => by
    have h := PLe.skipTo (stop := stop) n m (by omega)
    constructor
    intro s x hx
    unfold P.skipTo at hx ⊢
    split
    · rename_i h; simpa [h] using hx
    · rename_i h
      rw [if_neg h] at hx
      rcases e : P.next s with _ | ⟨r, s1⟩
      · rw [e] at hx; simp at hx
      · rw [e] at hx
        cases r with
        | ok a => exact PLe.run ‹_› _ _ hx
        | error e2 => cases e2 with
          | normal => exact PLe.run ‹_› _ _ hx
          | fatal => exact hx

theorem PLe.stmt {n m : Nat} (hm : n ≤ m) : PLe (P.stmt n) (P.stmt m) := by
  unfold P.stmt
  refine PLe.bind PLe.refl ?_
  intro t
  have h1 := PLe.symbolDef hm
  have h2 := PLe.store hm
  have h3 := PLe.funCall hm
  have h4 := PLe.branch hm
  have h5 := PLe.jump hm
  have h6 := PLe.skipTo (stop := fun k => P.stmtStart k || P.stmtBreak k) n m hm
  generalize t.kind = k
  have key : ∀ (p q : P StmtAst) (exit : Bool), PLe p q →
      PLe (P.recover (do let st ← p; return (st, exit)) (do
        P.skipTo (fun k => P.stmtStart k || P.stmtBreak k) n
        let t ← P.cur
        return (.error, exit || (!P.stmtStart t.kind && P.stmtBreak t.kind))))
      (P.recover (do let st ← q; return (st, exit)) (do
        P.skipTo (fun k => P.stmtStart k || P.stmtBreak k) m
        let t ← P.cur
        return (.error, exit || (!P.stmtStart t.kind && P.stmtBreak t.kind)))) :=
    fun p q exit h => PLe.recover (PLe.bind h fun _ => PLe.refl) (PLe.bind h6 fun _ => PLe.refl)
  have kcall : PLe (do let (f, args) ← P.funCall n; return StmtAst.call f args)
      (do let (f, args) ← P.funCall m; return StmtAst.call f args) :=
    PLe.bind h3 fun _ => PLe.refl
  cases k with
  | sym => exact key _ _ false h1
  | int => exact PLe.refl
  | op => exact PLe.refl
  | other => exact PLe.refl
  | eof => exact PLe.refl
  | kw k => cases k <;> first
    | exact PLe.refl
    | exact key _ _ false h2
    | exact key _ _ false kcall
    | exact key _ _ true h4
    | exact key _ _ true h5
    | exact key _ _ true PLe.refl

theorem PLe.stmtLoop : ∀ n m, n ≤ m → PLe (P.stmtLoop n) (P.stmtLoop m)
  | 0, _, _ => PLe.fuel
  | n + 1, 0, h => absurd h (by omega)
  | n + 1, m + 1, hm => by
    have h := PLe.stmtLoop n m (by omega)
    have h1 := PLe.stmt (n := n) (m := m) (by omega)
    unfold P.stmtLoop; ple_step

theorem PLe.block {n m : Nat} (hm : n ≤ m) : PLe (P.block n) (P.block m) := by
  have h1 := PLe.optList (PLe.param hm) hm
  have h2 := PLe.stmtLoop n m hm
  unfold P.block; ple_step

theorem PLe.blockLoop : ∀ n m, n ≤ m → PLe (P.blockLoop n) (P.blockLoop m)
  | 0, _, _ => PLe.fuel
  | n + 1, 0, h => absurd h (by omega)
  | n + 1, m + 1, hm => by
    have h := PLe.blockLoop n m (by omega)
    have h1 := PLe.block (n := n) (m := m) (by omega)
    unfold P.blockLoop; ple_step

theorem PLe.nextAst {n m : Nat} (hm : n ≤ m) : PLe (P.nextAst n) (P.nextAst m) := by
  have h1 := PLe.skipTo (stop := P.globalStart) n m hm
  have h2 : PLe (P.globalDef n) (P.globalDef m) := by
    have h3 := PLe.type n m hm
    have h4 := PLe.init n m hm
    unfold P.globalDef; ple_step
  have h5 : PLe (P.funDecl n) (P.funDecl m) := by
    have h3 := PLe.list (PLe.type n m hm) hm
    have h4 := PLe.retType (PLe.type n m hm)
    unfold P.funDecl; ple_step
  have h6 : PLe (P.funDef n) (P.funDef m) := by
    have h3 := PLe.list (PLe.param hm) hm
    have h4 := PLe.retType (PLe.type n m hm)
    have h7 := PLe.blockLoop n m hm
    unfold P.funDef; ple_step
  unfold P.nextAst
  simp only
  ple_step

end Koopa
