import Verif.Model.Front.Ast
/-!
Grammar of the text form, written without the parser: which token sequences denote which syntax
trees. The grammar depends on lines in one place: a value belongs to `ret` if and only if it starts
in the same line.
-/
namespace Koopa.Spec

/-- One or more items separated by commas. -/
inductive Sep {α : Type} (D : α → List Token → Prop) : List α → List Token → Prop where
  | one {a : α} {ts : List Token} (h : D a ts) : Sep D [a] ts
  | cons {a : α} {as : List α} {ts ts' : List Token} {t : Token} (h : D a ts)
      (ht : t.kind = .other ',') (hs : Sep D as ts') : Sep D (a :: as) (ts ++ t :: ts')

/-- A list in parentheses. -/
inductive Paren {α : Type} (D : α → List Token → Prop) : List α → List Token → Prop where
  | empty {t t' : Token} (h : t.kind = .other '(') (h' : t'.kind = .other ')') : Paren D [] [t, t']
  | items {t t' : Token} {as : List α} {ts : List Token} (h : t.kind = .other '(') (hs : Sep D as ts)
      (h' : t'.kind = .other ')') : Paren D as (t :: (ts ++ [t']))

/-- A list in parentheses that may be left out. -/
inductive Opt {α : Type} (D : α → List Token → Prop) : List α → List Token → Prop where
  | none : Opt D [] []
  | list {as : List α} {ts : List Token} (h : Paren D as ts) : Opt D as ts

/-- Array lengths are literals taken modulo `2^64`. -/
def Len (i : Int) (n : Nat) : Prop := n < 2 ^ 64 ∧ ∃ k : Int, (n : Int) = i + k * 2 ^ 64

/-- Types. -/
inductive GTy : TyAst → List Token → Prop where
  | int {t : Token} (h : t.kind = .kw .i32) : GTy .int [t]
  | array {b : TyAst} {n : Nat} {i : Int} {ts : List Token} {t t1 t2 t3 : Token}
      (h : t.kind = .other '[') (hb : GTy b ts) (h1 : t1.kind = .other ',') (h2 : t2.kind = .int i)
      (hn : Len i n) (h3 : t3.kind = .other ']') : GTy (.array b n) (t :: (ts ++ [t1, t2, t3]))
  | pointer {b : TyAst} {ts : List Token} {t : Token} (h : t.kind = .other '*') (hb : GTy b ts) :
      GTy (.pointer b) (t :: ts)
  | func {ps : List TyAst} {ts : List Token} (h : Paren GTy ps ts) : GTy (.func ps none) ts
  | funcRet {ps : List TyAst} {r : TyAst} {ts tr : List Token} {t : Token} (h : Paren GTy ps ts)
      (ht : t.kind = .other ':') (hr : GTy r tr) : GTy (.func ps (some r)) (ts ++ t :: tr)

/-- The optional return type. -/
inductive GRet : Option TyAst → List Token → Prop where
  | none : GRet none []
  | some {r : TyAst} {ts : List Token} {t : Token} (ht : t.kind = .other ':') (hr : GTy r ts) :
      GRet (some r) (t :: ts)

/-- Values; literals are truncated to 32 bits. -/
inductive GVal : ValAst → List Token → Prop where
  | sym {t : Token} {s : Str} (h : t.kind = .sym s) : GVal (.sym s) [t]
  | int {t : Token} {i : Int} (h : t.kind = .int i) : GVal (.int (BitVec.ofInt 32 i)) [t]
  | undef {t : Token} (h : t.kind = .kw .undef) : GVal .undef [t]

/-- Initializers. -/
inductive GInit : ValAst → List Token → Prop where
  | int {t : Token} {i : Int} (h : t.kind = .int i) : GInit (.int (BitVec.ofInt 32 i)) [t]
  | undef {t : Token} (h : t.kind = .kw .undef) : GInit .undef [t]
  | zero {t : Token} (h : t.kind = .kw .zeroInit) : GInit .zero [t]
  | agg {es : List ValAst} {ts : List Token} {t t' : Token} (h : t.kind = .other '{')
      (hs : Sep GInit es ts) (h' : t'.kind = .other '}') : GInit (.agg es) (t :: (ts ++ [t']))

/-- Calls. -/
inductive GCall : Str × List ValAst → List Token → Prop where
  | mk {f : Str} {args : List ValAst} {t t1 : Token} {ts : List Token} (h : t.kind = .kw .call)
      (h1 : t1.kind = .sym f) (hs : Paren GVal args ts) : GCall (f, args) (t :: t1 :: ts)

/-- Right-hand sides of definitions. -/
inductive GExpr : ExprAst → List Token → Prop where
  | alloc {t : Token} {ty : TyAst} {ts : List Token} (h : t.kind = .kw .alloc) (ht : GTy ty ts) :
      GExpr (.alloc ty) (t :: ts)
  | load {t t1 : Token} {s : Str} (h : t.kind = .kw .load) (h1 : t1.kind = .sym s) :
      GExpr (.load s) [t, t1]
  | getPtr {t t1 t2 : Token} {s : Str} {v : ValAst} {ts : List Token} (h : t.kind = .kw .getPtr)
      (h1 : t1.kind = .sym s) (h2 : t2.kind = .other ',') (hv : GVal v ts) :
      GExpr (.getPtr s v) (t :: t1 :: t2 :: ts)
  | getElemPtr {t t1 t2 : Token} {s : Str} {v : ValAst} {ts : List Token}
      (h : t.kind = .kw .getElemPtr) (h1 : t1.kind = .sym s) (h2 : t2.kind = .other ',')
      (hv : GVal v ts) : GExpr (.getElemPtr s v) (t :: t1 :: t2 :: ts)
  | binary {t t1 : Token} {op : BinOp} {l r : ValAst} {ts ts' : List Token} (h : t.kind = .op op)
      (hl : GVal l ts) (h1 : t1.kind = .other ',') (hr : GVal r ts') :
      GExpr (.binary op l r) (t :: (ts ++ t1 :: ts'))
  | call {f : Str} {args : List ValAst} {ts : List Token} (h : GCall (f, args) ts) :
      GExpr (.call f args) ts

/-- Statements other than the last one of a block. -/
inductive GStmt : StmtAst → List Token → Prop where
  | def {t t1 : Token} {n : Str} {e : ExprAst} {ts : List Token} (h : t.kind = .sym n)
      (h1 : t1.kind = .other '=') (he : GExpr e ts) : GStmt (.def n e) (t :: t1 :: ts)
  | storeSym {t t1 t2 t3 : Token} {v s : Str} (h : t.kind = .kw .store) (h1 : t1.kind = .sym v)
      (h2 : t2.kind = .other ',') (h3 : t3.kind = .sym s) :
      GStmt (.store (.sym v) s) [t, t1, t2, t3]
  | storeInit {t t2 t3 : Token} {v : ValAst} {s : Str} {ts : List Token} (h : t.kind = .kw .store)
      (hv : GInit v ts) (h2 : t2.kind = .other ',') (h3 : t3.kind = .sym s) :
      GStmt (.store v s) (t :: (ts ++ [t2, t3]))
  | call {f : Str} {args : List ValAst} {ts : List Token} (h : GCall (f, args) ts) :
      GStmt (.call f args) ts

/-- Last statements of blocks; `after` is the token that follows. -/
inductive GTerm : StmtAst → List Token → (after : Token) → Prop where
  | branch {t t1 t2 t3 t4 after : Token} {c : ValAst} {tb fb : Str} {ta fa : List ValAst}
      {tc ts ts' : List Token} (h : t.kind = .kw .br) (hc : GVal c tc) (h1 : t1.kind = .other ',')
      (h2 : t2.kind = .sym tb) (hs : Opt GVal ta ts) (h3 : t3.kind = .other ',')
      (h4 : t4.kind = .sym fb) (hs' : Opt GVal fa ts') :
      GTerm (.branch c tb ta fb fa) (t :: (tc ++ t1 :: t2 :: (ts ++ t3 :: t4 :: ts'))) after
  | jump {t t1 after : Token} {b : Str} {as : List ValAst} {ts : List Token} (h : t.kind = .kw .jump)
      (h1 : t1.kind = .sym b) (hs : Opt GVal as ts) : GTerm (.jump b as) (t :: t1 :: ts) after
  | ret {t after : Token} (h : t.kind = .kw .ret) (hl : after.line ≠ t.line) :
      GTerm (.ret none) [t] after
  | retVal {t t1 after : Token} {v : ValAst} (h : t.kind = .kw .ret) (hl : t1.line = t.line)
      (hv : GVal v [t1]) : GTerm (.ret (some v)) [t, t1] after

/-- The statements of a block: any number of statements and one last statement. -/
inductive GBody : List StmtAst → List Token → (after : Token) → Prop where
  | last {st : StmtAst} {ts : List Token} {after : Token} (h : GTerm st ts after) : GBody [st] ts after
  | cons {st : StmtAst} {sts : List StmtAst} {ts ts' : List Token} {after : Token} (h : GStmt st ts)
      (hs : GBody sts ts' after) : GBody (st :: sts) (ts ++ ts') after

/-- Parameters. -/
inductive GParam : Str × TyAst → List Token → Prop where
  | mk {t t1 : Token} {n : Str} {ty : TyAst} {ts : List Token} (h : t.kind = .sym n)
      (h1 : t1.kind = .other ':') (ht : GTy ty ts) : GParam (n, ty) (t :: t1 :: ts)

/-- Blocks. -/
inductive GBlock : BlockAst → List Token → (after : Token) → Prop where
  | mk {t t1 after : Token} {n : Str} {ps : List (Str × TyAst)} {sts : List StmtAst}
      {ts ts' : List Token} (h : t.kind = .sym n) (hp : Opt GParam ps ts) (h1 : t1.kind = .other ':')
      (hs : GBody sts ts' after) : GBlock ⟨n, ps, sts⟩ (t :: (ts ++ t1 :: ts')) after

/-- The blocks of a function. -/
inductive GBlocks : List BlockAst → List Token → (after : Token) → Prop where
  | nil {after : Token} : GBlocks [] [] after
  | cons {b : BlockAst} {bs : List BlockAst} {ts ts' : List Token} {after t : Token}
      (ht : (ts' ++ [after]).head? = some t) (h : GBlock b ts t) (hs : GBlocks bs ts' after) :
      GBlocks (b :: bs) (ts ++ ts') after

/-- Top-level items. -/
inductive GGlobal : GlobalAst → List Token → Prop where
  | globalDef {t t1 t2 t3 t4 : Token} {n : Str} {ty : TyAst} {i : ValAst} {ts ts' : List Token}
      (h : t.kind = .kw .global) (h1 : t1.kind = .sym n) (h2 : t2.kind = .other '=')
      (h3 : t3.kind = .kw .alloc) (ht : GTy ty ts) (h4 : t4.kind = .other ',') (hi : GInit i ts') :
      GGlobal (.globalDef n ty i) (t :: t1 :: t2 :: t3 :: (ts ++ t4 :: ts'))
  | funDef {t t1 t2 t3 : Token} {n : Str} {ps : List (Str × TyAst)} {r : Option TyAst}
      {bs : List BlockAst} {ts tr tb : List Token} (h : t.kind = .kw .fun) (h1 : t1.kind = .sym n)
      (hp : Paren GParam ps ts) (hr : GRet r tr) (h2 : t2.kind = .other '{')
      (hb : GBlocks bs tb t3) (hne : bs ≠ []) (h3 : t3.kind = .other '}') :
      GGlobal (.funDef n ps r bs) (t :: t1 :: (ts ++ (tr ++ t2 :: (tb ++ [t3]))))
  | funDecl {t t1 : Token} {n : Str} {ps : List TyAst} {r : Option TyAst} {ts tr : List Token}
      (h : t.kind = .kw .decl) (h1 : t1.kind = .sym n) (hp : Paren GTy ps ts) (hr : GRet r tr) :
      GGlobal (.funDecl n ps r) (t :: t1 :: (ts ++ tr))

/-- Whole texts. -/
inductive GProg : List GlobalAst → List Token → Prop where
  | nil : GProg [] []
  | cons {g : GlobalAst} {gs : List GlobalAst} {ts ts' : List Token} (h : GGlobal g ts)
      (hs : GProg gs ts') : GProg (g :: gs) (ts ++ ts')

end Koopa.Spec
