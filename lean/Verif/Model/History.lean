import Verif.Model.Program
/-!
The mutating methods of the IR API as one operation type, and the states reachable through them.
-/
namespace Koopa

/-- Edits of a function's layout (layout.rs). -/
inductive LayoutOp where
  | insertBb (pos : Nat) (b : BB)
  | removeBb (b : BB)
  | clearBbs
  | insertInst (b : BB) (pos : Nat) (v : Value)
  | removeInst (b : BB) (v : Value)
  | clearInsts (b : BB)
deriving Repr

/-- Effect of a layout edit; `none` is a panic (`bb_mut` on an absent block). -/
def Layout.step (l : Layout) : LayoutOp → Option Layout
  | .insertBb i b => some (l.insertBb i b).1
  | .removeBb b => some (l.removeBb b).1
  | .clearBbs => some l.clearBbs
  | .insertInst b i v => (l.insertInst b i v).map (·.1)
  | .removeInst b v => (l.removeInst b v).map (·.1)
  | .clearInsts b => l.clearInsts b

/-- One call of a mutating API method. -/
inductive Op where
  | newGlobal (i : GlobalInst)
  | removeGlobal (v : Value)
  | setGlobalName (v : Value) (name : Option Str)
  | newFuncDef (name : Str) (params : List (Option Str × Ty)) (ret : Ty)
  | newFuncDecl (name : Str) (params : List Ty) (ret : Ty)
  | removeFunc (f : Func)
  | setFuncName (f : Func) (name : Str)
  | newLocal (f : Func) (i : LocalInst)
  | replaceLocal (f : Func) (v : Value) (i : LocalInst)
  | updateLocal (f : Func) (v : Value) (fn : VData → VData)
  | removeLocal (f : Func) (v : Value)
  | setLocalName (f : Func) (v : Value) (name : Option Str)
  | newBb (f : Func) (name : Option Str)
  | newBbParams (f : Func) (name : Option Str) (params : List (Option Str × Ty))
  | removeBb (f : Func) (b : BB)
  | setBbName (f : Func) (b : BB) (name : Option Str)
  | setBbParams (f : Func) (b : BB) (params : List Value)
  | layout (f : Func) (op : LayoutOp)

/-- The program after the call; `none` is a panic. -/
def Program.step (p : Program) : Op → Option Program
  | .newGlobal i => (p.newGlobal i).map (·.1)
  | .removeGlobal v => (p.removeGlobal v).map (·.1)
  | .setGlobalName v n => p.setGlobalName v n
  | .newFuncDef n ps r => (p.newFuncDefWithParamNames n ps r).map (·.1)
  | .newFuncDecl n ps r => (p.newFuncDecl n ps r).map (·.1)
  | .removeFunc f => (p.removeFunc f).map (·.1)
  | .setFuncName f n => p.setFuncName f n
  | .newLocal f i => (p.newLocal f i).map (·.1)
  | .replaceLocal f v i => p.replaceLocal f v i
  | .updateLocal f v fn => p.updateLocal f v fn
  | .removeLocal f v => p.removeLocal f v
  | .setLocalName f v n => p.setLocalName f v n
  | .newBb f n => (p.newBb f n).map (·.1)
  | .newBbParams f n ps => (p.newBbWithParamNames f n ps).map (·.1)
  | .removeBb f b => p.removeBb f b
  | .setBbName f b n => p.setBbName f b n
  | .setBbParams f b ps => p.setBbParams f b ps
  | .layout f op => p.onLayout f (·.step op)

/-- States reachable from an empty program by successful calls that satisfy `ok`. The counters
start anywhere at or above their initial values, so other programs may exist in the process. -/
inductive Reach (ok : Program → Op → Prop) : Program → Prop where
  | init (ids : Ids) (hg : globalStart ≤ ids.nextGlobal) (hl : localStart ≤ ids.nextLocal) :
      Reach ok (Program.new ids)
  | step {p p' : Program} {op : Op} : Reach ok p → ok p op → p.step op = some p' → Reach ok p'

/-- A sequence of calls. -/
def Program.run (p : Program) : List Op → Option Program
  | [] => some p
  | op :: ops => match p.step op with
    | some p' => p'.run ops
    | none => none

/-- Running a list of calls that satisfy `ok` stays within the reachable states. -/
theorem Reach.run {ok : Program → Op → Prop} : ∀ (ops : List Op) {p p' : Program}, Reach ok p →
    (∀ q, ∀ op ∈ ops, ok q op) → p.run ops = some p' → Reach ok p'
  | [], p, p', r, _, h => by cases h; exact r
  | op :: ops, p, p', r, hok, h => by
    simp only [Program.run] at h
    split at h
    · rename_i q hq
      exact Reach.run ops (.step r (hok p op (by simp)) hq) (fun q o ho => hok q o (by simp [ho])) h
    · cases h

theorem Reach.mono {ok ok' : Program → Op → Prop} (h : ∀ p op, ok p op → ok' p op) {p : Program}
    (r : Reach ok p) : Reach ok' p := by
  induction r with
  | init ids hg hl => exact .init ids hg hl
  | step _ ho hs ih => exact .step ih (h _ _ ho) hs

end Koopa
