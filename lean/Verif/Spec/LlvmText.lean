import Verif.Util.Show
/-!
The part of the LLVM assembly language that is needed here: words, syntax trees and the grammar. Written from the
language reference, without the generator.

Only the types of Koopa are needed; they stand for the LLVM types of the same shape (`unit` for `void`, a function type
for a pointer to a function). The type `i1` occurs in fixed places only.
-/
namespace Koopa.Spec.Ll
open Koopa

/-! ### Words -/

/-- A word, or a character that stands for itself; the end of a line is one. -/
inductive Tok where
  | word (s : Str)
  | sym (c : Char)
deriving DecidableEq, Repr

/-- The characters that stand for themselves. -/
def isSym (c : Char) : Bool := [',', '=', '(', ')', '[', ']', '{', '}', '*', ':', '\n'].contains c

/-- The word read so far. -/
def flush (w : Str) : List Tok := if w = [] then [] else [.word w]

/-- Cuts a text into words, at blanks and at the characters that stand for themselves; `w` is the word read so far. -/
def cut (w : Str) : Str → List Tok
  | [] => flush w
  | c :: s => if c = ' ' then flush w ++ cut [] s else if isSym c then flush w ++ .sym c :: cut [] s else cut (w ++ [c]) s

/-- The words of a text. -/
def words (s : Str) : List Tok := cut [] s

/-- A fixed word. -/
def kw (s : String) : Tok := .word s.toList

/-! ### Syntax trees -/

/-- Constants, without their type. -/
inductive Cst where
  | int (n : I32)
  | zero
  | undef
  | array (es : List (Ty × Cst))

/-- Operands. Names include the first character, `%` or `@`. -/
inductive Opd where
  | cst (c : Cst)
  | loc (n : Str)
  | glob (n : Str)

/-- Arithmetic instructions. -/
inductive Arith where
  | add | sub | mul | sdiv | srem | and | or | xor | shl | lshr | ashr
deriving DecidableEq

/-- Conditions of `icmp`. -/
inductive Cond where
  | ne | eq | sgt | slt | sge | sle
deriving DecidableEq

/-- Instructions. Arithmetic is on `i32`; `zext` extends `i1` to `i32`; labels have no `%`. -/
inductive Inst where
  | alloca (x : Str) (t : Ty)
  | load (x : Str) (t : Ty) (src : Ty × Opd)
  | store (val dest : Ty × Opd)
  | gep (x : Str) (t : Ty) (src : Ty × Opd) (index : List (Ty × Opd))
  | arith (x : Str) (op : Arith) (a b : Opd)
  | icmp (x : Str) (c : Cond) (a b : Opd)
  | zext (x : Str) (a : Opd)
  | jump (l : Str)
  | br (c : Opd) (l l' : Str)
  | call (x : Option Str) (t : Ty) (f : Str) (args : List (Ty × Opd))
  | ret (v : Option (Ty × Opd))

/-- A phi node: for each predecessor the value. -/
structure Phi where
  name : Str
  ty : Ty
  inc : List (Opd × Str)

/-- A basic block. -/
structure Blk where
  label : Str
  phis : List Phi
  insts : List Inst

/-- A function definition. -/
structure Fn where
  name : Str
  ret : Ty
  params : List (Ty × Str)
  blks : List Blk

/-- The items of a module. -/
inductive Item where
  | global (name : Str) (t : Ty) (c : Cst)
  | define (f : Fn)
  | declare (name : Str) (ret : Ty) (params : List Ty)

/-- A module. -/
abbrev Mod := List Item

/-! ### Grammar -/

/-- The characters of names. -/
def nameChar (c : Char) : Bool := c.isAlphanum || c == '$' || c == '_' || c == '.' || c == '-'

/-- A name that is not a number. -/
def Named (s : Str) : Prop := (∃ c t, s = c :: t ∧ c.isDigit = false) ∧ ∀ c ∈ s, nameChar c = true

/-- The name of a local value or, without the first character, a block. -/
def LocName (n : Str) : Prop := ∃ s, n = '%' :: s ∧ Named s

/-- The name of a global variable or a function. -/
def GlobName (n : Str) : Prop := ∃ s, n = '@' :: s ∧ Named s

/-- Things separated by commas. -/
inductive Commas {α : Type} (P : α → List Tok → Prop) : List α → List Tok → Prop
  | nil : Commas P [] []
  | one {a : α} {ts : List Tok} : P a ts → Commas P [a] ts
  | cons {a b : α} {l : List α} {ts us : List Tok} : P a ts → Commas P (b :: l) us → Commas P (a :: b :: l) (ts ++ .sym ',' :: us)

mutual
/-- Types. -/
inductive TyW : Ty → List Tok → Prop
  | i32 : TyW .i32 [kw "i32"]
  | void : TyW .unit [kw "void"]
  | array {t : Ty} {n : Nat} {ts : List Tok} : TyW t ts → TyW (.array t n) (.sym '[' :: .word (showNat n) :: kw "x" :: (ts ++ [.sym ']']))
  | ptr {t : Ty} {ts : List Tok} : TyW t ts → TyW (.ptr t) (ts ++ [.sym '*'])
  | func {ps : List Ty} {r : Ty} {ts us : List Tok} : TyW r ts → TysW ps us → TyW (.func ps r) (ts ++ .sym '(' :: (us ++ [.sym ')', .sym '*']))
/-- Types separated by commas. -/
inductive TysW : List Ty → List Tok → Prop
  | nil : TysW [] []
  | one {t : Ty} {ts : List Tok} : TyW t ts → TysW [t] ts
  | cons {t u : Ty} {l : List Ty} {ts us : List Tok} : TyW t ts → TysW (u :: l) us → TysW (t :: u :: l) (ts ++ .sym ',' :: us)
end

mutual
/-- Constants. The elements of an array are written with their types. -/
inductive CstW : Cst → List Tok → Prop
  | int (n : I32) : CstW (.int n) [.word (showInt n.toInt)]
  | zero : CstW .zero [kw "zeroinitializer"]
  | undef : CstW .undef [kw "undef"]
  | array {es : List (Ty × Cst)} {ts : List Tok} : CstsW es ts → CstW (.array es) (.sym '[' :: (ts ++ [.sym ']']))
/-- Constants with types, separated by commas. -/
inductive CstsW : List (Ty × Cst) → List Tok → Prop
  | nil : CstsW [] []
  | one {t : Ty} {c : Cst} {ts us : List Tok} : TyW t ts → CstW c us → CstsW [(t, c)] (ts ++ us)
  | cons {t : Ty} {c : Cst} {e : Ty × Cst} {l : List (Ty × Cst)} {ts us vs : List Tok} : TyW t ts → CstW c us → CstsW (e :: l) vs →
      CstsW ((t, c) :: e :: l) (ts ++ us ++ .sym ',' :: vs)
end

/-- Operands. -/
inductive OpdW : Opd → List Tok → Prop
  | cst {c : Cst} {ts : List Tok} : CstW c ts → OpdW (.cst c) ts
  | loc {n : Str} : LocName n → OpdW (.loc n) [.word n]
  | glob {n : Str} : GlobName n → OpdW (.glob n) [.word n]

/-- Operands with their type. -/
inductive TOpdW : Ty × Opd → List Tok → Prop
  | mk {t : Ty} {o : Opd} {ts us : List Tok} : TyW t ts → OpdW o us → TOpdW (t, o) (ts ++ us)

/-- The words of the arithmetic instructions. -/
def Arith.word : Arith → Tok
  | .add => kw "add"
  | .sub => kw "sub"
  | .mul => kw "mul"
  | .sdiv => kw "sdiv"
  | .srem => kw "srem"
  | .and => kw "and"
  | .or => kw "or"
  | .xor => kw "xor"
  | .shl => kw "shl"
  | .lshr => kw "lshr"
  | .ashr => kw "ashr"

/-- The words of the conditions. -/
def Cond.word : Cond → Tok
  | .ne => kw "ne"
  | .eq => kw "eq"
  | .sgt => kw "sgt"
  | .slt => kw "slt"
  | .sge => kw "sge"
  | .sle => kw "sle"

/-- Instructions. -/
inductive InstW : Inst → List Tok → Prop
  | alloca {x : Str} {t : Ty} {ts : List Tok} : LocName x → TyW t ts → InstW (.alloca x t) (.word x :: .sym '=' :: kw "alloca" :: ts)
  | load {x : Str} {t : Ty} {a : Ty × Opd} {ts us : List Tok} : LocName x → TyW t ts → TOpdW a us →
      InstW (.load x t a) (.word x :: .sym '=' :: kw "load" :: (ts ++ .sym ',' :: us))
  | store {a b : Ty × Opd} {ts us : List Tok} : TOpdW a ts → TOpdW b us → InstW (.store a b) (kw "store" :: (ts ++ .sym ',' :: us))
  | gep {x : Str} {t : Ty} {a i : Ty × Opd} {is : List (Ty × Opd)} {ts us vs : List Tok} : LocName x → TyW t ts → TOpdW a us →
      Commas TOpdW (i :: is) vs →
      InstW (.gep x t a (i :: is)) (.word x :: .sym '=' :: kw "getelementptr" :: kw "inbounds" :: (ts ++ .sym ',' :: (us ++ .sym ',' :: vs)))
  | arith {x : Str} {op : Arith} {a b : Opd} {ts us : List Tok} : LocName x → OpdW a ts → OpdW b us →
      InstW (.arith x op a b) (.word x :: .sym '=' :: op.word :: kw "i32" :: (ts ++ .sym ',' :: us))
  | icmp {x : Str} {c : Cond} {a b : Opd} {ts us : List Tok} : LocName x → OpdW a ts → OpdW b us →
      InstW (.icmp x c a b) (.word x :: .sym '=' :: kw "icmp" :: c.word :: kw "i32" :: (ts ++ .sym ',' :: us))
  | zext {x : Str} {a : Opd} {ts : List Tok} : LocName x → OpdW a ts →
      InstW (.zext x a) (.word x :: .sym '=' :: kw "zext" :: kw "i1" :: (ts ++ [kw "to", kw "i32"]))
  | jump {l : Str} : LocName ('%' :: l) → InstW (.jump l) [kw "br", kw "label", .word ('%' :: l)]
  | br {c : Opd} {l l' : Str} {ts : List Tok} : OpdW c ts → LocName ('%' :: l) → LocName ('%' :: l') →
      InstW (.br c l l') (kw "br" :: kw "i1" :: (ts ++ [.sym ',', kw "label", .word ('%' :: l), .sym ',', kw "label", .word ('%' :: l')]))
  | call {x : Str} {t : Ty} {f : Str} {as : List (Ty × Opd)} {ts us : List Tok} : LocName x → TyW t ts → GlobName f → Commas TOpdW as us →
      InstW (.call (some x) t f as) (.word x :: .sym '=' :: kw "call" :: (ts ++ .word f :: .sym '(' :: (us ++ [.sym ')'])))
  | callVoid {f : Str} {as : List (Ty × Opd)} {us : List Tok} : GlobName f → Commas TOpdW as us →
      InstW (.call none .unit f as) (kw "call" :: kw "void" :: .word f :: .sym '(' :: (us ++ [.sym ')']))
  | retVoid : InstW (.ret none) [kw "ret", kw "void"]
  | ret {a : Ty × Opd} {ts : List Tok} : TOpdW a ts → InstW (.ret (some a)) (kw "ret" :: ts)

/-- An incoming value of a phi node. -/
inductive IncW : Opd × Str → List Tok → Prop
  | mk {o : Opd} {l : Str} {ts : List Tok} : OpdW o ts → LocName ('%' :: l) → IncW (o, l) (.sym '[' :: (ts ++ [.sym ',', .word ('%' :: l), .sym ']']))

/-- Phi nodes have at least one predecessor. -/
inductive PhiW : Phi → List Tok → Prop
  | mk {x : Str} {t : Ty} {q : Opd × Str} {qs : List (Opd × Str)} {ts us : List Tok} : LocName x → TyW t ts → Commas IncW (q :: qs) us →
      PhiW ⟨x, t, q :: qs⟩ (.word x :: .sym '=' :: kw "phi" :: (ts ++ us))

/-- Lines. -/
inductive Lines {α : Type} (P : α → List Tok → Prop) : List α → List Tok → Prop
  | nil : Lines P [] []
  | cons {a : α} {l : List α} {ts us : List Tok} : P a ts → Lines P l us → Lines P (a :: l) (ts ++ .sym '\n' :: us)
  | blank {l : List α} {us : List Tok} : Lines P l us → Lines P l (.sym '\n' :: us)

/-- Basic blocks, each at its own line. -/
inductive BlkW : Blk → List Tok → Prop
  | mk {l : Str} {ps : List Phi} {is : List Inst} {ts us : List Tok} : LocName ('%' :: l) → Lines PhiW ps ts → Lines InstW is us →
      BlkW ⟨l, ps, is⟩ (.word l :: .sym ':' :: .sym '\n' :: (ts ++ us))

/-- Basic blocks. -/
inductive BlksW : List Blk → List Tok → Prop
  | nil : BlksW [] []
  | cons {b : Blk} {l : List Blk} {ts us : List Tok} : BlkW b ts → BlksW l us → BlksW (b :: l) (ts ++ us)

/-- Parameters of a definition. -/
inductive ParamW : Ty × Str → List Tok → Prop
  | mk {t : Ty} {n : Str} {ts : List Tok} : TyW t ts → LocName n → ParamW (t, n) (ts ++ [.word n])

/-- Items. -/
inductive ItemW : Item → List Tok → Prop
  | global {n : Str} {t : Ty} {c : Cst} {ts us : List Tok} : GlobName n → TyW t ts → CstW c us →
      ItemW (.global n t c) (.word n :: .sym '=' :: kw "global" :: (ts ++ us))
  | declare {n : Str} {r : Ty} {ps : List Ty} {ts us : List Tok} : GlobName n → TyW r ts → TysW ps us →
      ItemW (.declare n r ps) (kw "declare" :: (ts ++ .word n :: .sym '(' :: (us ++ [.sym ')'])))
  | define {n : Str} {r : Ty} {ps : List (Ty × Str)} {bs : List Blk} {ts us vs : List Tok} : GlobName n → TyW r ts → Commas ParamW ps us →
      BlksW bs vs →
      ItemW (.define ⟨n, r, ps, bs⟩) (kw "define" :: (ts ++ .word n :: .sym '(' :: (us ++ .sym ')' :: .sym '{' :: .sym '\n' :: (vs ++ [.sym '}']))))

/-- The text is that of the module. -/
def Written (M : Mod) (s : Str) : Prop := Lines ItemW M (words s)

/-! ### Names -/

/-- The names an instruction defines, none or one. -/
def Inst.defs : Inst → List Str
  | .alloca x _ | .load x _ _ | .gep x _ _ _ | .arith x _ _ _ | .icmp x _ _ _ | .zext x _ => [x]
  | .call (some x) _ _ _ => [x]
  | _ => []

/-- The local names a function defines: those of its parameters, phi nodes and instructions. -/
def Fn.defs (F : Fn) : List Str :=
  F.params.map (·.2) ++ (F.blks.flatMap (fun b => b.phis.map (·.name)) ++ F.blks.flatMap (fun b => b.insts.flatMap Inst.defs))

/-- The name an item defines. -/
def Item.name : Item → Str
  | .global n _ _ => n
  | .define F => F.name
  | .declare n _ _ => n

/-- No name is defined twice: no global name in a module, no local name and no label in a function. -/
structure WellNamed (M : Mod) : Prop where
  items : (M.map Item.name).Nodup
  locals : ∀ F, .define F ∈ M → F.defs.Nodup
  labels : ∀ F, .define F ∈ M → (F.blks.map (·.label)).Nodup

/-- No label of a function is also the name of one of its values; LLVM has one set of names for both. -/
def LabelsDiffer (M : Mod) : Prop := ∀ F, .define F ∈ M → ∀ b ∈ F.blks, '%' :: b.label ∉ F.defs

end Koopa.Spec.Ll
