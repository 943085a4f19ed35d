import Verif.Spec.LlvmText
/-!
The rules that LLVM checks before it accepts a module: types, ends of blocks, phi nodes, and that definitions come before
uses. Written from the language reference, without the generator. That names are not defined twice is `WellNamed`.
-/
namespace Koopa.Spec.Ll
open Koopa

/-- The type of a local value: `i1` or a type of Koopa. -/
inductive LTy where
  | i1
  | of (t : Ty)

/-! ### Types -/

/-- The types that values have in LLVM: `void` is none of them, and is only the result of functions. A function type stands for a pointer to a
function, as in `TyW`. -/
inductive TyOk : Ty → Prop
  | i32 : TyOk .i32
  | array {t : Ty} {n : Nat} : TyOk t → TyOk (.array t n)
  | ptr {t : Ty} : TyOk t → TyOk (.ptr t)
  | proc {ts : List Ty} : (∀ t ∈ ts, TyOk t) → TyOk (.func ts .unit)
  | func {ts : List Ty} {r : Ty} : (∀ t ∈ ts, TyOk t) → TyOk r → TyOk (.func ts r)

/-- The constant is one of type `t`. -/
inductive CstTy : Ty → Cst → Prop
  | int (n : I32) : CstTy .i32 (.int n)
  | zero {t : Ty} : TyOk t → CstTy t .zero
  | undef {t : Ty} : TyOk t → CstTy t .undef
  | array {t : Ty} {es : List (Ty × Cst)} : (∀ e ∈ es, e.1 = t) → (∀ e ∈ es, CstTy t e.2) → CstTy (.array t es.length) (.array es)

/-- The instruction defines a name of this type. -/
inductive Inst.Makes : Inst → Str → LTy → Prop
  | alloca (x : Str) (t : Ty) : Makes (.alloca x t) x (.of (.ptr t))
  | load (x : Str) (t : Ty) (s : Ty × Opd) : Makes (.load x t s) x (.of t)
  | gep (x : Str) (t : Ty) (s i : Ty × Opd) : Makes (.gep x t s [i]) x (.of (.ptr t))
  | gepElem (x : Str) (t : Ty) (n : Nat) (s j i : Ty × Opd) : Makes (.gep x (.array t n) s [j, i]) x (.of (.ptr t))
  | arith (x : Str) (op : Arith) (a b : Opd) : Makes (.arith x op a b) x (.of .i32)
  | icmp (x : Str) (c : Cond) (a b : Opd) : Makes (.icmp x c a b) x .i1
  | zext (x : Str) (a : Opd) : Makes (.zext x a) x (.of .i32)
  | call (x : Str) (t : Ty) (f : Str) (as : List (Ty × Opd)) : Makes (.call (some x) t f as) x (.of t)

/-- The local name has this type in the function. -/
inductive LocTy (F : Fn) (n : Str) : LTy → Prop
  | param {t : Ty} : (t, n) ∈ F.params → LocTy F n (.of t)
  | phi {b : Blk} {φ : Phi} : b ∈ F.blks → φ ∈ b.phis → φ.name = n → LocTy F n (.of φ.ty)
  | inst {b : Blk} {i : Inst} {t : LTy} : b ∈ F.blks → i ∈ b.insts → i.Makes n t → LocTy F n t

/-- The operand has this type. -/
inductive OpdTy (M : Mod) (F : Fn) : LTy → Opd → Prop
  | cst {t : Ty} {c : Cst} : CstTy t c → OpdTy M F (.of t) (.cst c)
  | loc {t : LTy} {n : Str} : LocTy F n t → OpdTy M F t (.loc n)
  | glob {t : Ty} {n : Str} {c : Cst} : .global n t c ∈ M → OpdTy M F (.of (.ptr t)) (.glob n)

/-- The function has parameters and a result of these types. -/
inductive HasSig (M : Mod) (f : Str) : List Ty → Ty → Prop
  | declare {r : Ty} {ts : List Ty} : .declare f r ts ∈ M → HasSig M f ts r
  | define {F : Fn} : .define F ∈ M → F.name = f → HasSig M f (F.params.map (·.1)) F.ret

/-- There is a block with this label. -/
def HasLabel (F : Fn) (l : Str) : Prop := ∃ b ∈ F.blks, b.label = l

/-- The types in an instruction fit together. -/
inductive InstOk (M : Mod) (F : Fn) : Inst → Prop
  | alloca {x : Str} {t : Ty} : TyOk t → InstOk M F (.alloca x t)
  | load {x : Str} {t : Ty} {o : Opd} : TyOk t → OpdTy M F (.of (.ptr t)) o → InstOk M F (.load x t (.ptr t, o))
  | store {t : Ty} {a b : Opd} : TyOk t → OpdTy M F (.of t) a → OpdTy M F (.of (.ptr t)) b → InstOk M F (.store (t, a) (.ptr t, b))
  | gep {x : Str} {t : Ty} {s i : Opd} : TyOk t → OpdTy M F (.of (.ptr t)) s → OpdTy M F (.of .i32) i → InstOk M F (.gep x t (.ptr t, s) [(.i32, i)])
  | gepElem {x : Str} {t : Ty} {n : Nat} {s j i : Opd} : TyOk (.array t n) → OpdTy M F (.of (.ptr (.array t n))) s → OpdTy M F (.of .i32) j → OpdTy M F (.of .i32) i →
      InstOk M F (.gep x (.array t n) (.ptr (.array t n), s) [(.i32, j), (.i32, i)])
  | arith {x : Str} {op : Arith} {a b : Opd} : OpdTy M F (.of .i32) a → OpdTy M F (.of .i32) b → InstOk M F (.arith x op a b)
  | icmp {x : Str} {c : Cond} {a b : Opd} : OpdTy M F (.of .i32) a → OpdTy M F (.of .i32) b → InstOk M F (.icmp x c a b)
  | zext {x : Str} {a : Opd} : OpdTy M F .i1 a → InstOk M F (.zext x a)
  | jump {l : Str} : HasLabel F l → InstOk M F (.jump l)
  | br {c : Opd} {l l' : Str} : OpdTy M F .i1 c → HasLabel F l → HasLabel F l' → InstOk M F (.br c l l')
  | call {x : Str} {t : Ty} {f : Str} {as : List (Ty × Opd)} : TyOk t → HasSig M f (as.map (·.1)) t → (∀ a ∈ as, OpdTy M F (.of a.1) a.2) →
      InstOk M F (.call (some x) t f as)
  | callVoid {f : Str} {as : List (Ty × Opd)} : HasSig M f (as.map (·.1)) .unit → (∀ a ∈ as, OpdTy M F (.of a.1) a.2) → InstOk M F (.call none .unit f as)
  | retVoid : F.ret = .unit → InstOk M F (.ret none)
  | ret {o : Opd} : TyOk F.ret → OpdTy M F (.of F.ret) o → InstOk M F (.ret (some (F.ret, o)))

/-! ### Blocks -/

/-- The instruction ends a block. -/
def Inst.isEnd : Inst → Bool
  | .jump _ | .br _ _ _ | .ret _ => true
  | _ => false

/-- The labels an instruction mentions, one for each way on. -/
def Inst.labels : Inst → List Str
  | .jump l => [l]
  | .br _ l l' => [l, l']
  | _ => []

/-- The labels where control may go from the block, one for each way. -/
def Blk.labels (b : Blk) : List Str := b.insts.flatMap Inst.labels

/-- The labels of the blocks from which control may come to label `l`, one for each way. -/
def Fn.preds (F : Fn) (l : Str) : List Str := F.blks.flatMap (fun b => (b.labels.filter (· = l)).map (fun _ => b.label))

/-- The phi node at the beginning of the block with label `l` names the value for each way to come here. -/
structure PhiOk (M : Mod) (F : Fn) (l : Str) (φ : Phi) : Prop where
  ty : TyOk φ.ty
  preds : (φ.inc.map (·.2)).Perm (F.preds l)
  once : (φ.inc.map (·.2)).Nodup
  values : ∀ q ∈ φ.inc, OpdTy M F (.of φ.ty) q.1

/-- The block is well formed. -/
structure BlkOk (M : Mod) (F : Fn) (b : Blk) : Prop where
  phis : ∀ φ ∈ b.phis, PhiOk M F b.label φ
  insts : ∀ i ∈ b.insts, InstOk M F i
  ends : ∃ is t, b.insts = is ++ [t] ∧ t.isEnd = true ∧ ∀ i ∈ is, i.isEnd = false

/-- The function is well formed: control never comes back to the first block. -/
structure FnOk (M : Mod) (F : Fn) : Prop where
  params : ∀ q ∈ F.params, TyOk q.1
  ret : F.ret = .unit ∨ TyOk F.ret
  entry : ∃ b bs, F.blks = b :: bs ∧ b.phis = [] ∧ F.preds b.label = []
  blks : ∀ b ∈ F.blks, BlkOk M F b

/-- The item is well formed. -/
inductive ItemOk (M : Mod) : Item → Prop
  | global {n : Str} {t : Ty} {c : Cst} : TyOk t → CstTy t c → ItemOk M (.global n t c)
  | declare {n : Str} {r : Ty} {ts : List Ty} : (∀ t ∈ ts, TyOk t) → r = .unit ∨ TyOk r → ItemOk M (.declare n r ts)
  | define {F : Fn} : FnOk M F → ItemOk M (.define F)

/-- The module is well typed. -/
def ModOk (M : Mod) : Prop := ∀ I ∈ M, ItemOk M I

/-! ### Definitions before uses -/

/-- The local names that operands mention. -/
def Opd.locs : Opd → List Str
  | .loc n => [n]
  | _ => []

/-- The local names that an instruction uses. -/
def Inst.uses : Inst → List Str
  | .load _ _ s => s.2.locs
  | .store a b => a.2.locs ++ b.2.locs
  | .gep _ _ s is => s.2.locs ++ is.flatMap (·.2.locs)
  | .arith _ _ a b | .icmp _ _ a b => a.locs ++ b.locs
  | .zext _ a => a.locs
  | .br c _ _ => c.locs
  | .call _ _ _ as => as.flatMap (·.2.locs)
  | .ret (some a) => a.2.locs
  | _ => []

/-- Control can go from the first block to the block with label `l` without being in a block for which `P` holds. -/
inductive Fn.Avoids (F : Fn) (P : Str → Prop) : Str → Prop
  | entry {b : Blk} {bs : List Blk} : F.blks = b :: bs → ¬ P b.label → Avoids F P b.label
  | step {b : Blk} {l : Str} : Avoids F P b.label → b ∈ F.blks → l ∈ b.labels → ¬ P l → Avoids F P l

/-- The block with label `l` is in every way from the first block to the block with label `l'`. -/
def Fn.Dom (F : Fn) (l l' : Str) : Prop := ¬ F.Avoids (· = l) l'

/-- The name is defined before the instruction that has the instructions `before` before it in its block. -/
inductive Reaches (F : Fn) (b : Blk) (before : List Inst) (n : Str) : Prop
  | param : n ∈ F.params.map (·.2) → Reaches F b before n
  | phi {c : Blk} : c ∈ F.blks → n ∈ c.phis.map (·.name) → F.Dom c.label b.label → Reaches F b before n
  | inst {c : Blk} : c ∈ F.blks → n ∈ c.insts.flatMap Inst.defs → c.label ≠ b.label → F.Dom c.label b.label → Reaches F b before n
  | here : n ∈ before.flatMap Inst.defs → Reaches F b before n

/-- Definitions come before uses; what a phi node uses is defined at the end of the block where control comes from. -/
structure Fn.Ssa (F : Fn) : Prop where
  insts : ∀ b ∈ F.blks, ∀ is i js, b.insts = is ++ i :: js → ∀ n ∈ i.uses, Reaches F b is n
  phis : ∀ b ∈ F.blks, ∀ φ ∈ b.phis, ∀ q ∈ φ.inc, ∀ c ∈ F.blks, c.label = q.2 → ∀ n ∈ q.1.locs, Reaches F c c.insts n

end Koopa.Spec.Ll
