import Verif.Model.Opt.Pass
import Verif.Util.Show
/-!
C36: the pass manager.
-/
namespace Koopa

/-- What a pass was called on: the number of the pass, and the function for function passes. -/
abbrev Event := Nat × Option Func

/-- The pass, made to write down its calls. -/
def Pass.logged {σ : Type} (i : Nat) : Pass σ → Pass (σ × List Event)
  | .module run => .module (fun s p => (run s.1 p).map (fun r => ((r.1, s.2 ++ [(i, none)]), r.2)))
  | .function run => .function (fun s f e fd => (run s.1 f e fd).map (fun r => ((r.1, s.2 ++ [(i, some f)]), r.2)))

/-- The passes, numbered in the order of registration. -/
def loggedFrom {σ : Type} : Nat → List (Pass σ) → List (Pass (σ × List Event))
  | _, [] => []
  | i, x :: xs => x.logged i :: loggedFrom (i + 1) xs

/-- Iteration over a hash map: every key once, in some order. -/
def Enumerates (ord : Program → List Func) : Prop :=
  ∀ p : Program, (ord p).Nodup ∧ ∀ f, f ∈ ord p ↔ (p.funcs.get? f).isSome

/-- What a run of passes number `i`, `i + 1`, … on a program has to look like: the calls `log`, the final state and the
final program. A module pass is called once. A function pass is called on each function of the program once
(`fs`), finds the function as it was before the pass, and what it makes of it is the function after the
pass. -/
inductive RunsAs {σ : Type} : Nat → List (Pass σ) → σ → Program → List Event → σ → Program → Prop where
  | done {i : Nat} {s : σ} {p : Program} : RunsAs i [] s p [] s p
  | module {i : Nat} {run : σ → Program → Option (σ × Program)} {xs : List (Pass σ)} {s s1 s2 : σ} {p p1 p2 : Program} {log : List Event} :
      run s p = some (s1, p1) → RunsAs (i + 1) xs s1 p1 log s2 p2 →
      RunsAs i (.module run :: xs) s p ((i, none) :: log) s2 p2
  | function {i : Nat} {run : σ → Func → PassEnv → FData → Option (σ × PassEnv × FData)} {xs : List (Pass σ)} {s s1 s2 : σ} {p p1 p2 : Program}
      {fs : List Func} {log : List Event} :
      fs.Nodup → (∀ f, f ∈ fs ↔ (p.funcs.get? f).isSome) →
      (∀ f fd, p.funcs.get? f = some fd → ∃ st e st' e' fd', run st f e fd = some (st', e', fd') ∧ p1.funcs.get? f = some fd') →
      (∀ f, p.funcs.get? f = none → p1.funcs.get? f = none) →
      p1.funcLayout = p.funcLayout → p1.instLayout = p.instLayout → p1.funcTys = p.funcTys →
      RunsAs (i + 1) xs s1 p1 log s2 p2 →
      RunsAs i (.function run :: xs) s p (fs.map (fun f => (i, some f)) ++ log) s2 p2

theorem runOnAll_spec {σ : Type} {run : σ → Func → PassEnv → FData → Option (σ × PassEnv × FData)} {i : Nat} :
    ∀ (fs : List Func) {s s' : σ × List Event} {p p' : Program}, fs.Nodup →
      p.runOnAll (fun s f e fd => (run s.1 f e fd).map (fun r => ((r.1, s.2 ++ [(i, some f)]), r.2))) fs s = some (s', p') →
      s'.2 = s.2 ++ fs.map (fun f => (i, some f)) ∧
      (∀ f ∈ fs, ∀ fd, p.funcs.get? f = some fd → ∃ st e st' e' fd', run st f e fd = some (st', e', fd') ∧ p'.funcs.get? f = some fd') ∧
      (∀ f, f ∉ fs → p'.funcs.get? f = p.funcs.get? f) ∧
      p'.funcLayout = p.funcLayout ∧ p'.instLayout = p.instLayout ∧ p'.funcTys = p.funcTys
  | [], s, s', p, p', _, h => by
    cases h
    exact ⟨by simp, by simp, fun _ _ => rfl, rfl, rfl, rfl⟩
  | f :: fs, s, s', p, p', hn, h => by
    rw [List.nodup_cons] at hn
    rw [Program.runOnAll] at h
    split at h
    · cases h
    · rename_i s1 p1 h1
      unfold Program.runOn at h1
      split at h1
      · cases h1
      · rename_i fd hf
        split at h1
        · cases h1
        · rename_i st e fd' hr
          cases h1
          obtain ⟨⟨r1, r2, r3⟩, hr2, he⟩ := Option.map_eq_some_iff.1 hr
          cases he
          obtain ⟨a1, a2, a3, a4, a5, a6⟩ := runOnAll_spec fs hn.2 h
          have hget : ∀ g, ((p.funcs.insert f fd').get? g) = if g = f then some fd' else p.funcs.get? g := fun g => Map.get?_insert ..
          refine ⟨by simp [a1], ?_, ?_, a4, a5, a6⟩
          · intro g hg gd hgd
            rcases List.mem_cons.1 hg with rfl | hg
            · rw [hf] at hgd; cases hgd
              refine ⟨_, _, _, _, _, hr2, ?_⟩
              rw [a3 g hn.1]
              exact Map.get?_insert_self ..
            · have hgf : g ≠ f := fun e => hn.1 (e ▸ hg)
              exact a2 g hg gd (by rw [show (Program.funcs _) = p.funcs.insert f fd' from rfl, hget, if_neg hgf]; exact hgd)
          · intro g hg
            rw [List.mem_cons, not_or] at hg
            rw [a3 g hg.2]
            exact (hget g).trans (if_neg hg.1)

theorem runPassList_spec {σ : Type} {ord : Program → List Func} (ho : Enumerates ord) :
    ∀ (xs : List (Pass σ)) (i : Nat) {s s' : σ × List Event} {p p' : Program},
      runPassList ord (loggedFrom i xs) s p = some (s', p') → ∃ log, s'.2 = s.2 ++ log ∧ RunsAs i xs s.1 p log s'.1 p'
  | [], i, s, s', p, p', h => by
    cases h
    exact ⟨[], by simp, .done⟩
  | .module run :: xs, i, s, s', p, p', h => by
    rw [loggedFrom, runPassList] at h
    split at h
    · cases h
    · rename_i s1 p1 h1
      obtain ⟨⟨t, q⟩, hr, he⟩ := Option.map_eq_some_iff.1 h1
      cases he
      obtain ⟨log, h2, h3⟩ := runPassList_spec ho xs (i + 1) h
      exact ⟨(i, none) :: log, by simp [h2], .module hr h3⟩
  | .function run :: xs, i, s, s', p, p', h => by
    rw [loggedFrom, runPassList] at h
    split at h
    · cases h
    · rename_i s1 p1 h1
      obtain ⟨a1, a2, a3, a4, a5, a6⟩ := runOnAll_spec (run := run) (i := i) (ord p) (ho p).1 h1
      obtain ⟨log, h2, h3⟩ := runPassList_spec ho xs (i + 1) h
      refine ⟨(ord p).map (fun f => (i, some f)) ++ log, by rw [h2, a1, List.append_assoc], ?_⟩
      refine .function (ho p).1 (ho p).2 (fun f fd hf => a2 f (((ho p).2 f).2 (by rw [hf]; rfl)) fd hf) (fun f hf => ?_) a4 a5 a6 h3
      rw [a3 f (fun hm => by
        have := ((ho p).2 f).1 hm
        rw [hf] at this; cases this)]
      exact hf

/-- The pass manager that got the passes one by one. -/
def registered {σ : Type} (xs : List (Pass σ)) : PassManager σ := xs.foldl PassManager.register PassManager.new

theorem registered_passes {σ : Type} (xs : List (Pass σ)) : (registered xs).passes = xs := by
  have : ∀ (m : PassManager σ), (xs.foldl PassManager.register m).passes = m.passes ++ xs := by
    induction xs with
    | nil => intro m; simp
    | cons x xs ih => intro m; rw [List.foldl_cons, ih]; simp [PassManager.register]
  simpa [registered, PassManager.new] using this PassManager.new

/-- C36: running a pass manager calls the registered passes one after the other in the order of registration, each
module pass once and each function pass once on every function that the program then has. -/
theorem C36_passes_in_order {σ : Type} {ord : Program → List Func} (ho : Enumerates ord) (xs : List (Pass σ)) {s : σ} {p p' : Program}
    {s' : σ × List Event} (h : (registered (loggedFrom 0 xs)).runPasses ord (s, []) p = some (s', p')) :
    RunsAs 0 xs s p s'.2 s'.1 p' := by
  unfold PassManager.runPasses at h
  rw [registered_passes] at h
  obtain ⟨log, h1, h2⟩ := runPassList_spec ho xs 0 h
  rw [h1]
  exact h2

/-- Writing down the calls does not change what is computed. -/
theorem logged_runOn {σ : Type} {ord : Program → List Func} {x : Pass σ} {i : Nat} {s : σ} {l : List Event} {p : Program} :
    ((x.logged i).runOn ord (s, l) p).map (fun r => (r.1.1, r.2)) = x.runOn ord s p := by
  cases x with
  | module run =>
    simp only [Pass.logged, Pass.runOn, Option.map_map]
    cases run s p <;> rfl
  | function run =>
    simp only [Pass.logged, Pass.runOn]
    generalize ord p = fs
    induction fs generalizing s l p with
    | nil => rfl
    | cons f fs ih =>
      rw [Program.runOnAll, Program.runOnAll]
      unfold Program.runOn
      cases p.funcs.get? f with
      | none => rfl
      | some fd =>
        simp only
        cases run s f ⟨p.values, p.ids⟩ fd with
        | none => rfl
        | some r => exact ih

/-- The run with written down calls exists exactly if the run does, with the same result. -/
theorem C36_log_is_faithful {σ : Type} {ord : Program → List Func} (xs : List (Pass σ)) {s : σ} {p : Program} :
    (registered xs).runPasses ord s p =
      ((registered (loggedFrom 0 xs)).runPasses ord (s, []) p).map (fun r => (r.1.1, r.2)) := by
  unfold PassManager.runPasses
  rw [registered_passes, registered_passes]
  generalize ([] : List Event) = l
  generalize 0 = i
  induction xs generalizing s p l i with
  | nil => rfl
  | cons x xs ih =>
    rw [loggedFrom, runPassList, runPassList, ← logged_runOn (i := i) (l := l)]
    cases (x.logged i).runOn ord (s, l) p with
    | none => rfl
    | some r => exact ih (s := r.1.1) (p := r.2) r.1.2 (i + 1)

/-- Every registered pass number is called, in ascending order, and a function pass never twice on one function. -/
theorem C36_calls_sorted {σ : Type} {i : Nat} {xs : List (Pass σ)} {s s' : σ} {p p' : Program} {log : List Event}
    (h : RunsAs i xs s p log s' p') : log.Nodup ∧ log.Pairwise (fun a b => a.1 ≤ b.1) ∧ (∀ e ∈ log, i ≤ e.1 ∧ e.1 < i + xs.length) ∧
      ∀ j run, xs[j]? = some (.module run) → (i + j, none) ∈ log := by
  induction h with
  | done => exact ⟨List.nodup_nil, .nil, by simp, by simp⟩
  | @module i _ xs _ _ _ _ _ _ log _ _ ih =>
    obtain ⟨a1, a2, a3, a4⟩ := ih
    refine ⟨List.nodup_cons.2 ⟨fun hm => ?_, a1⟩, List.pairwise_cons.2 ⟨fun e he => ?_, a2⟩, fun e he => ?_, fun j run hj => ?_⟩
    · have := (a3 _ hm).1; simp at this; omega
    · have := (a3 e he).1; simp; omega
    · rcases List.mem_cons.1 he with rfl | he
      · simp
      · have := a3 e he; simp only [List.length_cons]; omega
    · cases j with
      | zero => exact List.mem_cons_self
      | succ j =>
        have := a4 j run (by simpa using hj)
        rw [show i + (j + 1) = i + 1 + j by omega]
        exact List.mem_cons_of_mem _ this
  | @function i _ xs _ _ _ _ _ _ fs log hn _ _ _ _ _ _ _ ih =>
    obtain ⟨a1, a2, a3, a4⟩ := ih
    refine ⟨List.nodup_append.2 ⟨?_, a1, ?_⟩, List.pairwise_append.2 ⟨?_, a2, ?_⟩, fun e he => ?_, fun j run hj => ?_⟩
    · rw [List.Nodup, List.pairwise_map]
      exact hn.imp (fun h e => h (by simpa using e))
    · intro e he e' he' heq
      obtain ⟨f, -, rfl⟩ := List.mem_map.1 he
      subst heq
      have := (a3 _ he').1; simp at this; omega
    · rw [List.pairwise_map]
      exact hn.imp (fun _ => Nat.le_refl _)
    · intro e he e' he'
      obtain ⟨f, -, rfl⟩ := List.mem_map.1 he
      have := (a3 _ he').1; simp; omega
    · rcases List.mem_append.1 he with he | he
      · obtain ⟨f, -, rfl⟩ := List.mem_map.1 he
        simp
      · have := a3 e he; simp only [List.length_cons]; omega
    · cases j with
      | zero => cases hj
      | succ j =>
        have := a4 j run (by simpa using hj)
        rw [show i + (j + 1) = i + 1 + j by omega]
        exact List.mem_append_right _ this

/-- A case: two functions; the first pass renames every function by appending its number of calls so far, the second
removes the layout of functions. -/
def twoFuncs : Program :=
  { Program.new Ids.init with
    funcs := ((Map.empty.insert 1 ⟨.func [] .unit, ['@', 'f'], [], Dfg.new, ⟨[], .empty⟩⟩).insert 2 ⟨.func [] .unit, ['@', 'g'], [], Dfg.new, ⟨[], .empty⟩⟩)
    funcLayout := [1, 2] }

def samplePasses : List (Pass Nat) :=
  [.function (fun n _ e fd => some (n + 1, e, { fd with name := fd.name ++ showNat n })), .module (fun n p => some (n, { p with funcLayout := [] })),
   .function (fun n _ e fd => some (n + 1, e, { fd with name := 'x' :: fd.name }))]

/-- An iteration order. -/
def someOrder (p : Program) : List Func := p.funcs.keys.foldr setInsert []

theorem someOrder_enumerates : Enumerates someOrder := fun p => by
  have h : ∀ l : List Func, (l.foldr setInsert []).Nodup ∧ ∀ f, f ∈ l.foldr setInsert [] ↔ f ∈ l := by
    intro l
    induction l with
    | nil => exact ⟨List.nodup_nil, fun _ => Iff.rfl⟩
    | cons a l ih => exact ⟨nodup_setInsert ih.1, fun f => by rw [List.foldr_cons, mem_setInsert, ih.2]; simp⟩
  exact ⟨(h _).1, fun f => ((h _).2 f).trans (Map.mem_keys_iff ..)⟩

example : (match (registered (loggedFrom 0 samplePasses)).runPasses someOrder (0, []) twoFuncs with
    | none => false
    | some (s, p) => s == (4, [(0, some 2), (0, some 1), (1, none), (2, some 1), (2, some 2)]) && p.funcLayout == [] &&
      (p.funcs.get? 1).map (·.name) == some "x@f1".toList && (p.funcs.get? 2).map (·.name) == some "x@g0".toList) = true := by
  decide +kernel

end Koopa
