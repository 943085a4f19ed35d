import Verif.Model.Ir
/-!
Model of koopa/src/opt/pass.rs and koopa/src/opt/passman.rs. `none` is a panic of a pass.

A pass is an arbitrary function; `σ` is everything outside the program that passes can read and write, in
particular their own fields. A function pass reaches, besides the data of its function, the global
values (through the weak reference of the data flow graph) and the id counters.
-/
namespace Koopa

/-- What a function pass can change besides its function. -/
structure PassEnv where
  values : Map Value VData
  ids : Ids

/-- pass.rs:13-34 `Pass`, `ModulePass`, `FunctionPass`. -/
inductive Pass (σ : Type) where
  | module (run : σ → Program → Option (σ × Program))
  | function (run : σ → Func → PassEnv → FData → Option (σ × PassEnv × FData))

/-- The loop body of passman.rs:33-35 for one function. -/
def Program.runOn {σ : Type} (run : σ → Func → PassEnv → FData → Option (σ × PassEnv × FData)) (f : Func) (s : σ) (p : Program) :
    Option (σ × Program) :=
  match p.funcs.get? f with
  | none => none
  | some fd => match run s f ⟨p.values, p.ids⟩ fd with
    | none => none
    | some (s, e, fd) => some (s, { p with values := e.values, ids := e.ids, funcs := p.funcs.insert f fd })

/-- passman.rs:33-35: the loop over the functions, in the order `fs`. -/
def Program.runOnAll {σ : Type} (run : σ → Func → PassEnv → FData → Option (σ × PassEnv × FData)) : List Func → σ → Program → Option (σ × Program)
  | [], s, p => some (s, p)
  | f :: fs, s, p => match p.runOn run f s with
    | none => none
    | some (s, p) => p.runOnAll run fs s

/-- passman.rs:29-38: one pass. `ord` is the iteration order of the map of functions. -/
def Pass.runOn {σ : Type} (ord : Program → List Func) (s : σ) (p : Program) : Pass σ → Option (σ × Program)
  | .module run => run s p
  | .function run => p.runOnAll run (ord p) s

/-- passman.rs:11-13 `PassManager`. -/
structure PassManager (σ : Type) where
  passes : List (Pass σ)

/-- passman.rs:17-19 `new`. -/
def PassManager.new {σ : Type} : PassManager σ := ⟨[]⟩

/-- passman.rs:22-24 `register`. -/
def PassManager.register {σ : Type} (m : PassManager σ) (x : Pass σ) : PassManager σ := ⟨m.passes ++ [x]⟩

/-- passman.rs:42-46 `from`. -/
def PassManager.ofList {σ : Type} (xs : List (Pass σ)) : PassManager σ := ⟨xs⟩

/-- passman.rs:27-39 `run_passes`: the loop over the passes. -/
def runPassList {σ : Type} (ord : Program → List Func) : List (Pass σ) → σ → Program → Option (σ × Program)
  | [], s, p => some (s, p)
  | x :: xs, s, p => match x.runOn ord s p with
    | none => none
    | some (s, p) => runPassList ord xs s p

/-- passman.rs:27-39 `run_passes`. -/
def PassManager.runPasses {σ : Type} (ord : Program → List Func) (m : PassManager σ) (s : σ) (p : Program) : Option (σ × Program) :=
  runPassList ord m.passes s p

end Koopa
