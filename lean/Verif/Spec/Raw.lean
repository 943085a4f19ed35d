import Verif.Spec.Typing
/-!
When two programs are the same up to the handles, and the programs that have a raw representation.
-/
namespace Koopa.Spec

/-- New handles for the handles of a program. -/
structure Renaming where
  glob : Value → Value
  fn : Func → Func
  loc : Func → Value → Value
  blk : Func → BB → BB

/-- The new handle of a value that function `f` mentions. -/
def Renaming.val (ρ : Renaming) (f : Func) (v : Value) : Value := if isGlobal v then ρ.glob v else ρ.loc f v

/-- An instruction with new handles for values, blocks and functions. -/
def mapKind (val : Value → Value) (blk : BB → BB) (fn : Func → Func) : VKind → VKind
  | .integer n => .integer n
  | .zeroInit => .zeroInit
  | .undef => .undef
  | .aggregate es => .aggregate (es.map val)
  | .funcArgRef i => .funcArgRef i
  | .blockArgRef i => .blockArgRef i
  | .alloc => .alloc
  | .globalAlloc i => .globalAlloc (val i)
  | .load s => .load (val s)
  | .store v d => .store (val v) (val d)
  | .getPtr s i => .getPtr (val s) (val i)
  | .getElemPtr s i => .getElemPtr (val s) (val i)
  | .binary op l r => .binary op (val l) (val r)
  | .branch c t f ta fa => .branch (val c) (blk t) (blk f) (ta.map val) (fa.map val)
  | .jump t as => .jump (blk t) (as.map val)
  | .call g as => .call (fn g) (as.map val)
  | .ret v => .ret (v.map val)

/-- The values of a program that matter: listed global variables and their initial values (`none`), and in each
function the parameters, the listed instructions and what they mention. -/
inductive Used (p : Program) : Option Func → Value → Prop where
  | listed {v : Value} : v ∈ p.instLayout → Used p none v
  | init {u v : Value} {x : VData} : Used p none u → GlobalVal p u x → v ∈ operands x.kind → Used p none v
  | arg {f : Func} {fd : FData} {v : Value} : p.funcs.get? f = some fd → v ∈ fd.params → Used p (some f) v
  | param {f : Func} {fd : FData} {b : BB} {x : BData} {v : Value} : p.funcs.get? f = some fd →
      b ∈ fd.layout.bbs.map (·.1) → fd.dfg.bbs.get? b = some x → v ∈ x.params → Used p (some f) v
  | inst {f : Func} {fd : FData} {b : BB} {is : List Value} {v : Value} : p.funcs.get? f = some fd →
      (b, is) ∈ fd.layout.bbs → v ∈ is → Used p (some f) v
  | operand {f : Func} {u v : Value} {x y : VData} : Used p (some f) u → LocalVal p f u x → v ∈ operands x.kind →
      LocalVal p f v y → Used p (some f) v

/-- The value with data `y` is the one with data `x`, with new handles. -/
def SameVal (val : Value → Value) (blk : BB → BB) (fn : Func → Func) (x y : VData) : Prop :=
  y.ty = x.ty ∧ y.name = x.name ∧ y.kind = mapKind val blk fn x.kind

/-- Function `fd'` of program `p'` is function `f` of program `p`, with new handles. Blocks may be listed in another order, except
that the entry stays the entry. -/
structure SameFunc (ρ : Renaming) (p p' : Program) (f : Func) (fd fd' : FData) : Prop where
  name : fd'.name = fd.name
  ty : fd'.ty = fd.ty
  params : fd'.params = fd.params.map (ρ.loc f)
  blocks : fd'.layout.bbs.Perm (fd.layout.bbs.map (fun q => (ρ.blk f q.1, q.2.map (ρ.val f))))
  entry : fd'.layout.bbs.head? = (fd.layout.bbs.map (fun q => (ρ.blk f q.1, q.2.map (ρ.val f)))).head?
  values : ∀ v x, LocalVal p f v x → Used p (some f) v →
    ∃ y, LocalVal p' (ρ.fn f) (ρ.loc f v) y ∧ SameVal (ρ.val f) (ρ.blk f) ρ.fn x y
  onlyValues : ∀ w y, LocalVal p' (ρ.fn f) w y → ∃ v, Used p (some f) v ∧ ρ.loc f v = w
  injValues : ∀ v w, Used p (some f) v → Used p (some f) w → ρ.loc f v = ρ.loc f w → v = w
  data : ∀ b x, b ∈ fd.layout.bbs.map (·.1) → fd.dfg.bbs.get? b = some x →
    ∃ y, fd'.dfg.bbs.get? (ρ.blk f b) = some y ∧ y.name = x.name ∧ y.params = x.params.map (ρ.loc f)
  onlyBlocks : ∀ b y, fd'.dfg.bbs.get? b = some y → b ∈ fd'.layout.bbs.map (·.1)
  injBlocks : ∀ a b, a ∈ fd.layout.bbs.map (·.1) → b ∈ fd.layout.bbs.map (·.1) → ρ.blk f a = ρ.blk f b → a = b

/-- Program `p'` is program `p` with new handles: the same global variables, functions, blocks and instructions
and nothing else. Functions and blocks may be listed in another order. -/
structure SameProgram (ρ : Renaming) (p p' : Program) : Prop where
  insts : p'.instLayout = p.instLayout.map ρ.glob
  funcs : p'.funcLayout.Perm (p.funcLayout.map ρ.fn)
  globals : ∀ v x, GlobalVal p v x → Used p none v →
    ∃ y, GlobalVal p' (ρ.glob v) y ∧ SameVal ρ.glob id id x y
  onlyGlobals : ∀ w y, GlobalVal p' w y → ∃ v, Used p none v ∧ ρ.glob v = w
  injGlobals : ∀ v w, Used p none v → Used p none w → ρ.glob v = ρ.glob w → v = w
  func : ∀ f fd, p.funcs.get? f = some fd → ∃ fd', p'.funcs.get? (ρ.fn f) = some fd' ∧ SameFunc ρ p p' f fd fd'
  onlyFuncs : ∀ g, (p'.funcs.get? g).isSome → ∃ f, (p.funcs.get? f).isSome ∧ ρ.fn f = g
  injFuncs : ∀ f g, (p.funcs.get? f).isSome → (p.funcs.get? g).isSome → ρ.fn f = ρ.fn g → f = g

/-- Block `b` of function `f` mentions `v`: an instruction of the block, its operands, and so on. -/
inductive Mentions (p : Program) (f : Func) (b : BB) : Value → Prop where
  | inst {fd : FData} {is : List Value} {v : Value} : p.funcs.get? f = some fd → (b, is) ∈ fd.layout.bbs → v ∈ is →
      Mentions p f b v
  | operand {u v : Value} {x y : VData} : Mentions p f b u → LocalVal p f u x → v ∈ operands x.kind → LocalVal p f v y →
      Mentions p f b v

/-- An instruction of block `a` transfers control to block `b`. -/
def Edge (p : Program) (f : Func) (a b : BB) : Prop :=
  ∃ fd is u x, p.funcs.get? f = some fd ∧ (a, is) ∈ fd.layout.bbs ∧ u ∈ is ∧ LocalVal p f u x ∧ b ∈ targets x.kind

/-- Control can get to the block from the entry of the function without entering a block for which `P` holds. -/
inductive Avoids (p : Program) (f : Func) (P : BB → Prop) : BB → Prop where
  | entry {fd : FData} {e : BB × List Value} : p.funcs.get? f = some fd → fd.layout.bbs.head? = some e → ¬ P e.1 →
      Avoids p f P e.1
  | step {a b : BB} : Avoids p f P a → Edge p f a b → ¬ P b → Avoids p f P b

/-- Every way from the entry to block `b` passes block `c`. -/
def Dominates (p : Program) (f : Func) (c b : BB) : Prop := ¬ Avoids p f (· = c) b

/-- A name that fits into a C string. -/
def CName (n : Str) : Prop := '\x00' ∉ n

/-- A list that fits into a slice. -/
def Fits (l : List Nat) : Prop := l.length < 2 ^ 32

/-- A name that the IR accepts and that fits into a C string. -/
def GoodName (n : Option Str) : Prop :=
  ∀ s, n = some s → (∃ c r, s = c :: r ∧ (c = '%' ∨ c = '@') ∧ r ≠ []) ∧ CName s

/-- The lists in an instruction fit into slices. -/
def KindFits : VKind → Prop
  | .aggregate es => Fits es
  | .branch _ _ _ ta fa => Fits ta ∧ Fits fa
  | .jump _ as => Fits as
  | .call _ as => Fits as
  | _ => True

/-- Programs that can be converted: well typed; handles belong to one thing; what is used is listed and
what is listed is used; operands do not form cycles and do not transfer control; parameters stand where their data
says, and are mentioned only where they are defined on every way; blocks are reachable; constants are built from
constants; definitions have blocks; names and lists fit into the raw form. -/
structure Convertible (p : Program) : Prop where
  typed : WellTyped p
  globalId : ∀ v x, GlobalVal p v x → isGlobal v = true
  localId : ∀ f v x, LocalVal p f v x → isGlobal v = false
  localOwner : ∀ f f' v x x', LocalVal p f v x → LocalVal p f' v x' → f = f'
  blockOwner : ∀ f f' b x x', Block p f b x → Block p f' b x' → f = f'
  -- globals
  instsNodup : p.instLayout.Nodup
  insts : ∀ v ∈ p.instLayout, ∃ x i, GlobalVal p v x ∧ x.kind = .globalAlloc i
  globalKind : ∀ v x, Used p none v → GlobalVal p v x → (∃ n, x.kind = .integer n) ∨ x.kind = .zeroInit ∨ x.kind = .undef ∨
    (∃ es, x.kind = .aggregate es) ∨ (∃ i, x.kind = .globalAlloc i)
  initConst : ∀ u v x y, Used p none u → GlobalVal p u x → v ∈ operands x.kind → GlobalVal p v y → y.kind.isConst = true
  -- functions
  funcs : ∀ f, f ∈ p.funcLayout ↔ (p.funcs.get? f).isSome
  funcsNodup : p.funcLayout.Nodup
  funcTy : ∀ f fd, p.funcs.get? f = some fd → ∃ ts r, fd.ty = .func ts r ∧ (∀ t ∈ ts, t ≠ .unit) ∧
    (fd.layout.bbs = [] → fd.params = []) ∧ (fd.layout.bbs ≠ [] → fd.params.length = ts.length) ∧
    ∀ i v, fd.params[i]? = some v → ∃ x, LocalVal p f v x ∧ x.kind = .funcArgRef i ∧ ts[i]? = some x.ty
  blocksNodup : ∀ f fd, p.funcs.get? f = some fd → (fd.layout.bbs.map (·.1)).Nodup
  instsOnce : ∀ f fd, p.funcs.get? f = some fd → (fd.layout.bbs.flatMap (·.2)).Nodup
  blockData : ∀ f fd b, p.funcs.get? f = some fd → b ∈ fd.layout.bbs.map (·.1) → ∃ x, fd.dfg.bbs.get? b = some x ∧
    ∀ i v, x.params[i]? = some v → ∃ y, LocalVal p f v y ∧ y.kind = .blockArgRef i
  paramsOnce : ∀ f fd b b' x x' v, p.funcs.get? f = some fd → fd.dfg.bbs.get? b = some x → fd.dfg.bbs.get? b' = some x' →
    b ∈ fd.layout.bbs.map (·.1) → b' ∈ fd.layout.bbs.map (·.1) → v ∈ x.params → v ∈ x'.params → b = b'
  instData : ∀ f fd b is v, p.funcs.get? f = some fd → (b, is) ∈ fd.layout.bbs → v ∈ is → ∃ x, LocalVal p f v x
  -- values
  argRef : ∀ f fd v x i, p.funcs.get? f = some fd → Used p (some f) v → LocalVal p f v x → x.kind = .funcArgRef i → v ∈ fd.params
  blockRef : ∀ f fd v x i, p.funcs.get? f = some fd → Used p (some f) v → LocalVal p f v x → x.kind = .blockArgRef i →
    ∃ b y, b ∈ fd.layout.bbs.map (·.1) ∧ fd.dfg.bbs.get? b = some y ∧ v ∈ y.params
  dominated : ∀ f fd b v c x, p.funcs.get? f = some fd → Mentions p f b v → c ∈ fd.layout.bbs.map (·.1) →
    fd.dfg.bbs.get? c = some x → v ∈ x.params → Dominates p f c b
  reachable : ∀ f fd b, p.funcs.get? f = some fd → b ∈ fd.layout.bbs.map (·.1) → Avoids p f (fun _ => False) b
  noGlobalAlloc : ∀ f v x i, Used p (some f) v → LocalVal p f v x → x.kind ≠ .globalAlloc i
  globalOps : ∀ f u v x y, Used p (some f) u → LocalVal p f u x → v ∈ operands x.kind → GlobalVal p v y → Used p none v
  targets : ∀ f fd u x b, p.funcs.get? f = some fd → Used p (some f) u → LocalVal p f u x → b ∈ Spec.targets x.kind →
    b ∈ fd.layout.bbs.map (·.1)
  noFlow : ∀ f u v x y, Used p (some f) u → LocalVal p f u x → v ∈ operands x.kind → LocalVal p f v y →
    Spec.targets y.kind = []
  aggConst : ∀ f u v x es y, Used p (some f) u → LocalVal p f u x → x.kind = .aggregate es → v ∈ es →
    (GlobalVal p v y ∨ LocalVal p f v y) → y.kind.isConst = true
  acyclic : ∃ rank : Value → Nat, (∀ f u v x, LocalVal p f u x → Used p (some f) u → v ∈ operands x.kind → rank v < rank u) ∧
    ∀ u v x, GlobalVal p u x → Used p none u → v ∈ operands x.kind → rank v < rank u
  users : ∀ f v x u, LocalVal p f v x → Used p (some f) v → u ∈ x.usedBy → Used p (some f) u
  globalUsers : ∀ v x u, GlobalVal p v x → Used p none v → u ∈ x.usedBy → Used p none u ∨ ∃ f, Used p (some f) u
  blockUsers : ∀ f fd b x u, p.funcs.get? f = some fd → b ∈ fd.layout.bbs.map (·.1) → fd.dfg.bbs.get? b = some x → u ∈ x.usedBy →
    Used p (some f) u
  -- limits of the raw form
  names : ∀ f v x, LocalVal p f v x → Used p (some f) v → GoodName x.name
  globalNames : ∀ v x, GlobalVal p v x → Used p none v → GoodName x.name
  blockNames : ∀ f fd b x, p.funcs.get? f = some fd → b ∈ fd.layout.bbs.map (·.1) → fd.dfg.bbs.get? b = some x → GoodName x.name
  funcNames : ∀ f fd, p.funcs.get? f = some fd → GoodName (some fd.name)
  fits : ∀ f v x, LocalVal p f v x → Used p (some f) v → KindFits x.kind
  globalFits : ∀ v x, GlobalVal p v x → Used p none v → KindFits x.kind
  layoutFits : Fits p.instLayout ∧ Fits p.funcLayout
  funcFits : ∀ f fd, p.funcs.get? f = some fd → Fits fd.params ∧ Fits (fd.layout.bbs.map (·.1)) ∧ ∀ b is, (b, is) ∈ fd.layout.bbs → Fits is
  blockFits : ∀ f fd b x, p.funcs.get? f = some fd → b ∈ fd.layout.bbs.map (·.1) → fd.dfg.bbs.get? b = some x → Fits x.params

/-- Parameters of blocks are mentioned only in blocks that control reaches through the block of the parameter. -/
def Dominated (p : Program) : Prop :=
  ∀ f fd b v c x, p.funcs.get? f = some fd → Mentions p f b v → c ∈ fd.layout.bbs.map (·.1) →
    fd.dfg.bbs.get? c = some x → v ∈ x.params → Dominates p f c b

/-- All names are accepted by the IR and fit into C strings. -/
structure NamesFit (p : Program) : Prop where
  locals : ∀ f v x, LocalVal p f v x → GoodName x.name
  globals : ∀ v x, GlobalVal p v x → GoodName x.name
  blocks : ∀ f b x, Block p f b x → GoodName x.name
  funcs : ∀ f fd, p.funcs.get? f = some fd → GoodName (some fd.name)

/-- All lists fit into slices. -/
structure ListsFit (p : Program) : Prop where
  locals : ∀ f v x, LocalVal p f v x → KindFits x.kind
  globals : ∀ v x, GlobalVal p v x → KindFits x.kind
  layout : Fits p.instLayout ∧ Fits p.funcLayout
  funcs : ∀ f fd, p.funcs.get? f = some fd → Fits fd.params ∧ Fits (fd.layout.bbs.map (·.1)) ∧ ∀ b is, (b, is) ∈ fd.layout.bbs → Fits is
  blocks : ∀ f b x, Block p f b x → Fits x.params

end Koopa.Spec
