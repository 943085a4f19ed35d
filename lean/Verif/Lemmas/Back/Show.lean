import Verif.Lemmas.Front.TypeText
import Verif.Lemmas.Front.Convert
/-!
The text of a syntax tree as the generator writes it, and that it is read as the tree.
-/
namespace Koopa
open Spec

/-- A part of a text: a fixed text, the name of a function, a block, or a value. `mark` stands for the
begin and the end of a function. -/
inductive TP where
  | lit (s : Str)
  | fn (s : Str)
  | bb (s : Str)
  | sym (s : Str)
  | mark
deriving DecidableEq, Repr

def TP.text : TP → Str
  | .lit s => s
  | .fn s => s
  | .bb s => s
  | .sym s => s
  | .mark => []

/-- The text of some parts. -/
def texts (l : List TP) : Str := l.flatMap TP.text

@[simp] theorem texts_nil : texts [] = [] := rfl
@[simp] theorem texts_cons (x : TP) (l : List TP) : texts (x :: l) = x.text ++ texts l := rfl
@[simp] theorem texts_append (l l' : List TP) : texts (l ++ l') = texts l ++ texts l' := by simp [texts]

def tt (s : String) : TP := .lit s.toList

def sepTP : List (List TP) → List TP
  | [] => []
  | [x] => x
  | x :: xs => x ++ tt ", " :: sepTP xs

mutual
def valTP : ValAst → List TP
  | .sym s => [.sym s]
  | .int n => [.lit (showInt n.toInt)]
  | .undef => [tt "undef"]
  | .zero => [tt "zeroinit"]
  | .agg es => tt "{" :: (sepTP (valTPs es) ++ [tt "}"])
def valTPs : List ValAst → List (List TP)
  | [] => []
  | e :: es => valTP e :: valTPs es
end

theorem valTPs_eq : ∀ es, valTPs es = es.map valTP
  | [] => rfl
  | e :: es => by rw [valTPs, valTPs_eq es]; rfl

/-- The text of a type. -/
def tyText (a : TyAst) : Str := match genType a with
  | some t => t.show
  | none => []

def tyTP (a : TyAst) : TP := .lit (tyText a)

def argsTP (as : List ValAst) : List TP := sepTP (as.map valTP)

def targetTP (n : Str) (as : List ValAst) : List TP :=
  .bb n :: (if as.isEmpty then [] else tt "(" :: (argsTP as ++ [tt ")"]))

def exprTP : ExprAst → List TP
  | .alloc a => [tt "alloc ", tyTP a]
  | .load s => tt "load " :: [.sym s]
  | .getPtr s i => tt "getptr " :: ([.sym s] ++ tt ", " :: valTP i)
  | .getElemPtr s i => tt "getelemptr " :: ([.sym s] ++ tt ", " :: valTP i)
  | .binary op l r => .lit (op.show ++ [' ']) :: (valTP l ++ tt ", " :: valTP r)
  | .call f as => tt "call " :: .fn f :: tt "(" :: (argsTP as ++ [tt ")"])

def stmtTP : StmtAst → List TP
  | .def n e => .sym n :: tt " = " :: exprTP e
  | .store v s => tt "store " :: (valTP v ++ tt ", " :: [.sym s])
  | .call f as => exprTP (.call f as)
  | .branch c t ta f fa => tt "br " :: (valTP c ++ tt ", " :: (targetTP t ta ++ tt ", " :: targetTP f fa))
  | .jump n as => tt "jump " :: targetTP n as
  | .ret none => [tt "ret"]
  | .ret (some v) => tt "ret" :: tt " " :: valTP v
  | .error => []

def lineTP (st : StmtAst) : List TP := stmtTP st ++ [tt "\n"]

def paramTP (q : Str × TyAst) : List TP := [.sym q.1, tt ": ", tyTP q.2]

def bodyTP (sts : List StmtAst) : List TP := (sts.map (fun st => tt "  " :: lineTP st)).flatten

def blockTP (b : BlockAst) : List TP :=
  .bb b.name :: ((if b.params.isEmpty then [] else tt "(" :: (sepTP (b.params.map paramTP) ++ [tt ")"])) ++
    tt ":\n" :: bodyTP b.stmts)

def blocksTP : List BlockAst → List TP
  | [] => []
  | [b] => blockTP b
  | b :: rest => blockTP b ++ tt "\n" :: blocksTP rest

def retTP : Option TyAst → List TP
  | none => []
  | some a => [tt ": ", tyTP a]

def funTP : GlobalAst → List TP
  | .funDecl n ps r => tt "decl" :: tt " " :: .fn n :: tt "(" :: (sepTP (ps.map (fun a => [tyTP a])) ++
      tt ")" :: (retTP r ++ [tt "\n"]))
  | .funDef n ps r bbs => tt "fun" :: tt " " :: .fn n :: tt "(" :: (sepTP (ps.map paramTP) ++
      tt ")" :: (retTP r ++ tt " {\n" :: (blocksTP bbs ++ [tt "}\n"])))
  | _ => []

def globalTP : GlobalAst → List TP
  | .globalDef n ty i => tt "global " :: .sym n :: tt " = alloc " :: tyTP ty :: tt ", " :: (valTP i ++ [tt "\n"])
  | _ => []

def funsTP : List GlobalAst → List TP
  | [] => []
  | [f] => .mark :: (funTP f ++ [.mark])
  | f :: rest => .mark :: (funTP f ++ .mark :: tt "\n" :: funsTP rest)

/-- The text of a program with these global variables and functions. -/
def progTP (gvs fns : List GlobalAst) : List TP :=
  (gvs.map globalTP).flatten ++ ((if gvs.isEmpty then [] else [tt "\n"]) ++ funsTP fns)

/-! ### Trees whose text can be read -/

/-- The name is a symbol. -/
def LexSym (s : Str) : Prop := TokText (.sym s) s

/-- The type can be written. -/
def LexTy (a : TyAst) : Prop := ∃ t, genType a = some t ∧ Expressible t

inductive LexVal : ValAst → Prop where
  | sym {s : Str} : LexSym s → LexVal (.sym s)
  | int {n : I32} : LexVal (.int n)
  | undef : LexVal .undef

inductive LexInit : ValAst → Prop where
  | int {n : I32} : LexInit (.int n)
  | undef : LexInit .undef
  | zero : LexInit .zero
  | agg {es : List ValAst} : es ≠ [] → (∀ e ∈ es, LexInit e) → LexInit (.agg es)

inductive LexExpr : ExprAst → Prop where
  | alloc {a : TyAst} : LexTy a → LexExpr (.alloc a)
  | load {s : Str} : LexSym s → LexExpr (.load s)
  | getPtr {s : Str} {a : ValAst} : LexSym s → LexVal a → LexExpr (.getPtr s a)
  | getElemPtr {s : Str} {a : ValAst} : LexSym s → LexVal a → LexExpr (.getElemPtr s a)
  | binary {op : BinOp} {l r : ValAst} : LexVal l → LexVal r → LexExpr (.binary op l r)
  | call {f : Str} {as : List ValAst} : LexSym f → (∀ a ∈ as, LexVal a) → LexExpr (.call f as)

inductive LexStmt : StmtAst → Prop where
  | def {n : Str} {e : ExprAst} : LexSym n → LexExpr e → LexStmt (.def n e)
  | storeSym {v s : Str} : LexSym v → LexSym s → LexStmt (.store (.sym v) s)
  | storeInit {a : ValAst} {s : Str} : LexInit a → LexSym s → LexStmt (.store a s)
  | call {f : Str} {as : List ValAst} : LexSym f → (∀ a ∈ as, LexVal a) → LexStmt (.call f as)

inductive LexTerm : StmtAst → Prop where
  | branch {c : ValAst} {t f : Str} {ta fa : List ValAst} : LexVal c → LexSym t → (∀ a ∈ ta, LexVal a) → LexSym f →
      (∀ a ∈ fa, LexVal a) → LexTerm (.branch c t ta f fa)
  | jump {t : Str} {as : List ValAst} : LexSym t → (∀ a ∈ as, LexVal a) → LexTerm (.jump t as)
  | retNone : LexTerm (.ret none)
  | ret {a : ValAst} : LexVal a → LexTerm (.ret (some a))

inductive LexBody : List StmtAst → Prop where
  | last {st : StmtAst} : LexTerm st → LexBody [st]
  | cons {st : StmtAst} {sts : List StmtAst} : LexStmt st → LexBody sts → LexBody (st :: sts)

structure LexBlock (b : BlockAst) : Prop where
  name : LexSym b.name
  params : ∀ q ∈ b.params, LexSym q.1 ∧ LexTy q.2
  body : LexBody b.stmts

inductive LexItem : GlobalAst → Prop where
  | funDecl {n : Str} {ps : List TyAst} {r : Option TyAst} : LexSym n → (∀ a ∈ ps, LexTy a) → (∀ a, r = some a → LexTy a) →
      LexItem (.funDecl n ps r)
  | funDef {n : Str} {ps : List (Str × TyAst)} {r : Option TyAst} {bbs : List BlockAst} : LexSym n →
      (∀ q ∈ ps, LexSym q.1 ∧ LexTy q.2) → (∀ a, r = some a → LexTy a) → bbs ≠ [] → (∀ b ∈ bbs, LexBlock b) →
      LexItem (.funDef n ps r bbs)

inductive LexGlobal : GlobalAst → Prop where
  | mk {n : Str} {ty : TyAst} {i : ValAst} : LexSym n → LexTy ty → LexInit i → LexGlobal (.globalDef n ty i)

/-! ### Reading the text -/

mutual
theorem TyIs.inj : ∀ {a b : TyAst} {t : Ty}, TyIs a t → TyIs b t → a = b
  | _, _, _, .int, .int => rfl
  | _, _, _, .array h _, .array h' _ => by rw [TyIs.inj h h']
  | _, _, _, .pointer h, .pointer h' => by rw [TyIs.inj h h']
  | _, _, _, .func h .none, .func h' .none => by rw [TyIs.injs h h']
  | _, _, _, .func h (.some hr), .func h' (.some hr') => by rw [TyIs.injs h h', TyIs.inj hr hr']
  | _, _, _, .func _ .none, .func _ (.some hr') => absurd rfl (TyIs_not_unit hr')
  | _, _, _, .func _ (.some hr), .func _ .none => absurd rfl (TyIs_not_unit hr)
theorem TyIs.injs : ∀ {as bs : List TyAst} {ts : List Ty}, All2 TyIs as ts → All2 TyIs bs ts → as = bs
  | _, _, _, .nil, .nil => rfl
  | _, _, _, .cons h hs, .cons h' hs' => by rw [TyIs.inj h h', TyIs.injs hs hs']
end

theorem says_ty {a : TyAst} (h : LexTy a) : Says GTy a (tyText a) := by
  obtain ⟨t, h1, h2⟩ := h
  obtain ⟨b, h3, h4⟩ := says_type h2
  have := TyIs.inj (genType_sound h1) (genType_sound h3)
  subst this
  unfold tyText
  rw [h1]
  exact h4


theorem LexSym.says {s : Str} (h : LexSym s) {m : Nat} {b : Str} {ts : List Token} (hb : Clean b) (ht : Toks b m ts) :
    Toks (s ++ b) m (⟨m, .sym s⟩ :: ts) := Toks.word h hb ht

theorem showInt_i32 (n : I32) : TokText (.int n.toInt) (showInt n.toInt) := by
  have := n.le_toInt
  have := n.toInt_lt
  exact tokText_showInt (by omega)

theorem says_val1 {a : ValAst} (h : LexVal a) {m : Nat} {b : Str} {ts : List Token} (hb : Clean b) (ht : Toks b m ts) :
    ∃ t : Token, t.line = m ∧ GVal a [t] ∧ Toks (texts (valTP a) ++ b) m (t :: ts) := by
  cases h with
  | sym h => exact ⟨⟨m, .sym _⟩, rfl, .sym rfl, by simpa [valTP, TP.text] using h.says hb ht⟩
  | @int n =>
    refine ⟨⟨m, .int n.toInt⟩, rfl, ?_, by simpa [valTP, TP.text] using Toks.word (showInt_i32 n) hb ht⟩
    have := GVal.int (t := ⟨m, .int n.toInt⟩) rfl
    rwa [BitVec.ofInt_toInt] at this
  | undef => exact ⟨⟨m, .kw .undef⟩, rfl, .undef rfl, by simpa [valTP, TP.text, tt] using Toks.word (s := "undef".toList) (.kw (by decide)) hb ht⟩

theorem says_val {a : ValAst} (h : LexVal a) : Says GVal a (texts (valTP a)) := by
  intro m b ts hb ht
  obtain ⟨t, _, h1, h2⟩ := says_val1 h hb ht
  exact ⟨[t], h1, h2⟩

theorem texts_sep_cons (x y : List TP) (l : List (List TP)) :
    texts (sepTP (x :: y :: l)) = texts x ++ ", ".toList ++ texts (sepTP (y :: l)) := by
  rw [sepTP]
  · simp [tt, TP.text]
  · simp

theorem says_sepTP {α : Type} {D : α → List Token → Prop} {g : α → List TP} {as : List α} (hn : as ≠ [])
    (h : ∀ a ∈ as, Says D a (texts (g a))) : ∀ m b us, Clean b → Toks b m us →
    ∃ vs, Sep D as vs ∧ Toks (texts (sepTP (as.map g)) ++ b) m (vs ++ us) := by
  refine says_sep (sh := texts) (ts := as.map g) (by simp) hn ?_ (fun l => texts (sepTP l)) (fun _ => rfl) texts_sep_cons
  intro i a t ha ht
  rw [List.getElem?_map, ha] at ht
  cases ht
  exact h a (List.mem_of_getElem? ha)

theorem says_parenTP {α : Type} {D : α → List Token → Prop} {g : α → List TP} {as : List α}
    (h : ∀ a ∈ as, Says D a (texts (g a))) (m : Nat) (b : Str) (us : List Token) (hu : Toks b m us) :
    ∃ vs, Paren D as vs ∧ Toks ('(' :: (texts (sepTP (as.map g)) ++ ')' :: b)) m (vs ++ us) := by
  refine says_paren (sh := texts) (ts := as.map g) (by simp) ?_ (fun l => texts (sepTP l)) rfl (fun _ => rfl) texts_sep_cons m b us hu
  intro i a t ha ht
  rw [List.getElem?_map, ha] at ht
  cases ht
  exact h a (List.mem_of_getElem? ha)

/-- A list in parentheses that is left out if it is empty. -/
theorem says_optTP {α : Type} {D : α → List Token → Prop} {g : α → List TP} {as : List α}
    (h : ∀ a ∈ as, Says D a (texts (g a))) (m : Nat) (b : Str) (us : List Token) (hu : Toks b m us) :
    ∃ vs, Opt D as vs ∧ Toks (texts (if as.isEmpty then [] else tt "(" :: (sepTP (as.map g) ++ [tt ")"])) ++ b) m (vs ++ us) := by
  cases as with
  | nil => exact ⟨[], .none, by simpa using hu⟩
  | cons a as =>
    obtain ⟨vs, h1, h2⟩ := says_parenTP h m b us hu
    exact ⟨vs, .list h1, by simpa [tt, TP.text] using h2⟩

theorem says_init {a : ValAst} (h : LexInit a) : Says GInit a (texts (valTP a)) := by
  induction h with
  | @int n =>
    intro m b ts hb ht
    refine ⟨[⟨m, .int n.toInt⟩], ?_, by simpa [valTP, TP.text] using Toks.word (showInt_i32 n) hb ht⟩
    have := GInit.int (t := ⟨m, .int n.toInt⟩) rfl
    rwa [BitVec.ofInt_toInt] at this
  | undef =>
    intro m b ts hb ht
    exact ⟨[⟨m, .kw .undef⟩], .undef rfl, by simpa [valTP, TP.text, tt] using Toks.word (s := "undef".toList) (.kw (by decide)) hb ht⟩
  | zero =>
    intro m b ts hb ht
    exact ⟨[⟨m, .kw .zeroInit⟩], .zero rfl, by simpa [valTP, TP.text, tt] using Toks.word (s := "zeroinit".toList) (.kw (by decide)) hb ht⟩
  | @agg es hn _ ih =>
    intro m b ts hb ht
    obtain ⟨vs, h1, h2⟩ := says_sepTP hn ih m ('}' :: b) _ (.cons (by decide)) (Toks.punct (by decide) ht)
    refine ⟨⟨m, .other '{'⟩ :: (vs ++ [⟨m, .other '}'⟩]), .agg rfl h1 rfl, ?_⟩
    have := Toks.punct (c := '{') (by decide) h2
    simpa [valTP, valTPs_eq, tt, TP.text] using this

theorem Clean.comma {b : Str} : Clean (',' :: b) := .cons (by decide)
theorem Clean.space {b : Str} : Clean (' ' :: b) := .cons (by decide)
theorem Clean.newline {b : Str} : Clean ('\n' :: b) := .cons (by decide)
theorem Clean.paren {b : Str} : Clean ('(' :: b) := .cons (by decide)

/-- A keyword and a space. -/
theorem Toks.kword {s : Str} {k : Kw} (hk : (s, k) ∈ keywords) {b : Str} {m : Nat} {ts : List Token} (h : Toks b m ts) :
    Toks (s ++ ' ' :: b) m (⟨m, .kw k⟩ :: ts) := Toks.word (.kw hk) .space (Toks.sp h)

theorem says_call {f : Str} {as : List ValAst} (hf : LexSym f) (ha : ∀ a ∈ as, LexVal a) :
    Says GCall (f, as) (texts (exprTP (.call f as))) := by
  intro m b ts hb ht
  obtain ⟨vs, h1, h2⟩ := says_parenTP (g := valTP) (fun a h => says_val (ha a h)) m b ts ht
  refine ⟨⟨m, .kw .call⟩ :: ⟨m, .sym f⟩ :: vs, .mk rfl rfl h1, ?_⟩
  have := Toks.kword (s := "call".toList) (k := .call) (by decide) (hf.says .paren h2)
  simpa [exprTP, argsTP, tt, TP.text] using this

theorem BinOp.show_mem (op : BinOp) : (op.show, op) ∈ binaryOps := by cases op <;> decide

theorem says_expr {e : ExprAst} (h : LexExpr e) : Says GExpr e (texts (exprTP e)) := by
  intro m b ts hb ht
  cases h with
  | alloc h =>
    obtain ⟨us, h1, h2⟩ := says_ty h m b ts hb ht
    refine ⟨⟨m, .kw .alloc⟩ :: us, .alloc rfl h1, ?_⟩
    simpa [exprTP, tt, TP.text, tyTP] using Toks.kword (s := "alloc".toList) (k := .alloc) (by decide) h2
  | load h =>
    refine ⟨[⟨m, .kw .load⟩, ⟨m, .sym _⟩], .load rfl rfl, ?_⟩
    simpa [exprTP, tt, TP.text] using Toks.kword (s := "load".toList) (k := .load) (by decide) (h.says hb ht)
  | getPtr h hv =>
    obtain ⟨us, h1, h2⟩ := says_val hv m b ts hb ht
    refine ⟨⟨m, .kw .getPtr⟩ :: ⟨m, .sym _⟩ :: ⟨m, .other ','⟩ :: us, .getPtr rfl rfl rfl h1, ?_⟩
    simpa [exprTP, tt, TP.text] using Toks.kword (s := "getptr".toList) (k := .getPtr) (by decide) (h.says .comma (Toks.punct (by decide) (Toks.sp h2)))
  | getElemPtr h hv =>
    obtain ⟨us, h1, h2⟩ := says_val hv m b ts hb ht
    refine ⟨⟨m, .kw .getElemPtr⟩ :: ⟨m, .sym _⟩ :: ⟨m, .other ','⟩ :: us, .getElemPtr rfl rfl rfl h1, ?_⟩
    simpa [exprTP, tt, TP.text] using Toks.kword (s := "getelemptr".toList) (k := .getElemPtr) (by decide) (h.says .comma (Toks.punct (by decide) (Toks.sp h2)))
  | @binary op l r hl hr =>
    obtain ⟨us, h1, h2⟩ := says_val hr m b ts hb ht
    obtain ⟨us', h3, h4⟩ := says_val hl m (',' :: ' ' :: (texts (valTP r) ++ b)) _ .comma (Toks.punct (by decide) (Toks.sp h2))
    refine ⟨⟨m, .op op⟩ :: (us' ++ ⟨m, .other ','⟩ :: us), .binary rfl h3 rfl h1, ?_⟩
    have := Toks.word (.op op.show_mem) .space (Toks.sp h4)
    simpa [exprTP, tt, TP.text] using this
  | call hf ha =>
    obtain ⟨us, h1, h2⟩ := says_call hf ha m b ts hb ht
    exact ⟨us, .call h1, h2⟩

/-- The text, which ends a line, is read as `a` if the token after it is in a later line. -/
def SaysLines {α : Type} (D : α → List Token → Token → Prop) (a : α) (s : Str) : Prop :=
  ∃ k, ∀ m b ts, Toks b (m + k) ts → ∃ us, (∀ after : Token, m + k ≤ after.line → D a us after) ∧ us ≠ [] ∧ Toks (s ++ b) m (us ++ ts)

theorem lines_stmt {st : StmtAst} (h : LexStmt st) : SaysLines (fun st ts _ => GStmt st ts) st (texts (lineTP st)) := by
  refine ⟨1, fun m b ts ht => ?_⟩
  have ht' := Toks.nl ht
  cases h with
  | «def» hn he =>
    obtain ⟨us, h1, h2⟩ := says_expr he m _ _ .newline ht'
    refine ⟨⟨m, .sym _⟩ :: ⟨m, .other '='⟩ :: us, fun _ _ => GStmt.def rfl rfl h1, by simp, ?_⟩
    simpa [lineTP, stmtTP, tt, TP.text] using hn.says .space (Toks.sp (Toks.punct (c := '=') (by decide) (Toks.sp h2)))
  | storeSym hv hs =>
    refine ⟨_, fun _ _ => .storeSym (t := ⟨m, .kw .store⟩) (t1 := ⟨m, .sym _⟩) (t2 := ⟨m, .other ','⟩) (t3 := ⟨m, .sym _⟩) rfl rfl rfl rfl, by simp, ?_⟩
    simpa [lineTP, stmtTP, valTP, tt, TP.text] using Toks.kword (s := "store".toList) (k := .store) (by decide)
      (hv.says .comma (Toks.punct (by decide) (Toks.sp (hs.says .newline ht'))))
  | @storeInit a s hi hs =>
    obtain ⟨us, h1, h2⟩ := says_init hi m (',' :: ' ' :: (s ++ '\n' :: b)) _ .comma (Toks.punct (by decide) (Toks.sp (hs.says .newline ht')))
    refine ⟨_, fun _ _ => .storeInit (t := ⟨m, .kw .store⟩) (t2 := ⟨m, .other ','⟩) (t3 := ⟨m, .sym _⟩) rfl h1 rfl rfl, by simp, ?_⟩
    simpa [lineTP, stmtTP, tt, TP.text] using Toks.kword (s := "store".toList) (k := .store) (by decide) h2
  | call hf ha =>
    obtain ⟨us, h1, h2⟩ := says_call hf ha m _ _ .newline ht'
    refine ⟨us, fun _ _ => .call h1, by cases h1; simp, ?_⟩
    simpa [lineTP, stmtTP, tt, TP.text] using h2

theorem says_target {n : Str} {as : List ValAst} (hn : LexSym n) (ha : ∀ a ∈ as, LexVal a) {m : Nat} {b : Str} {ts : List Token} (hb : Clean b)
    (ht : Toks b m ts) : ∃ us, Opt GVal as us ∧ Toks (texts (targetTP n as) ++ b) m (⟨m, .sym n⟩ :: (us ++ ts)) := by
  obtain ⟨us, h1, h2⟩ := says_optTP (g := valTP) (fun a h => says_val (ha a h)) m b ts ht
  refine ⟨us, h1, ?_⟩
  have := hn.says (b := texts (if as.isEmpty then [] else tt "(" :: (sepTP (as.map valTP) ++ [tt ")"])) ++ b) (by
    cases as with
    | nil => simpa using hb
    | cons a as => exact .paren) h2
  simpa [targetTP, argsTP, TP.text] using this

theorem lines_term {st : StmtAst} (h : LexTerm st) : SaysLines GTerm st (texts (lineTP st)) := by
  refine ⟨1, fun m b ts ht => ?_⟩
  have ht' := Toks.nl ht
  cases h with
  | @branch c t f ta fa hc ht1 hta hf hfa =>
    obtain ⟨us, h1, h2⟩ := says_target hf hfa .newline ht'
    obtain ⟨us', h3, h4⟩ := says_target ht1 hta .comma (Toks.punct (by decide) (Toks.sp h2))
    obtain ⟨us'', h5, h6⟩ := says_val hc m _ _ .comma (Toks.punct (by decide) (Toks.sp h4))
    refine ⟨_, fun _ _ => .branch (t := ⟨m, .kw .br⟩) (t1 := ⟨m, .other ','⟩) (t2 := ⟨m, .sym _⟩) (t3 := ⟨m, .other ','⟩) (t4 := ⟨m, .sym _⟩)
      rfl h5 rfl rfl h3 rfl rfl h1, by simp, ?_⟩
    simpa [lineTP, stmtTP, tt, TP.text] using Toks.kword (s := "br".toList) (k := .br) (by decide) h6
  | jump hn ha =>
    obtain ⟨us, h1, h2⟩ := says_target hn ha .newline ht'
    refine ⟨_, fun _ _ => .jump (t := ⟨m, .kw .jump⟩) (t1 := ⟨m, .sym _⟩) rfl rfl h1, by simp, ?_⟩
    simpa [lineTP, stmtTP, tt, TP.text] using Toks.kword (s := "jump".toList) (k := .jump) (by decide) h2
  | retNone =>
    refine ⟨_, fun after ha => .ret (t := ⟨m, .kw .ret⟩) rfl (by simp; omega), by simp, ?_⟩
    simpa [lineTP, stmtTP, tt, TP.text] using Toks.word (s := "ret".toList) (.kw (by decide)) .newline ht'
  | ret hv =>
    obtain ⟨t1, hl, h1, h2⟩ := says_val1 hv .newline ht'
    refine ⟨_, fun after ha => .retVal (t := ⟨m, .kw .ret⟩) (t1 := t1) rfl hl h1, by simp, ?_⟩
    simpa [lineTP, stmtTP, tt, TP.text] using Toks.kword (s := "ret".toList) (k := .ret) (by decide) h2

theorem Toks.head_line {b : Str} {m : Nat} {t : Token} {ts : List Token} (h : Toks b m (t :: ts)) : m ≤ t.line := by
  cases h with
  | tok _ _ _ hl _ => omega

theorem lines_body {sts : List StmtAst} (h : LexBody sts) : SaysLines GBody sts (texts (bodyTP sts)) := by
  induction h with
  | last h =>
    obtain ⟨k, hk⟩ := lines_term h
    refine ⟨k, fun m b ts ht => ?_⟩
    obtain ⟨us, h1, h2, h3⟩ := hk m b ts ht
    refine ⟨us, fun after ha => .last (h1 after ha), h2, ?_⟩
    simpa [bodyTP, tt, TP.text] using Toks.sp (Toks.sp h3)
  | @cons st sts h _ ih =>
    obtain ⟨k, hk⟩ := lines_stmt h
    obtain ⟨k', hk'⟩ := ih
    refine ⟨k + k', fun m b ts ht => ?_⟩
    obtain ⟨us, h1, h2, h3⟩ := hk' (m + k) b ts (by rwa [Nat.add_assoc])
    obtain ⟨us', h4, h5, h6⟩ := hk m _ _ h3
    refine ⟨us' ++ us, fun after ha => .cons (h4 ⟨m + k, .other 'x'⟩ (Nat.le_refl _)) (h1 after (by omega)), by simp [h2], ?_⟩
    simpa [bodyTP, tt, TP.text] using Toks.sp (Toks.sp h6)

theorem says_param {q : Str × TyAst} (h : LexSym q.1 ∧ LexTy q.2) : Says GParam q (texts (paramTP q)) := by
  intro m b ts hb ht
  obtain ⟨us, h1, h2⟩ := says_ty h.2 m b ts hb ht
  refine ⟨⟨m, .sym q.1⟩ :: ⟨m, .other ':'⟩ :: us, .mk rfl rfl h1, ?_⟩
  simpa [paramTP, tyTP, tt, TP.text] using h.1.says (.cons (by decide)) (Toks.punct (c := ':') (by decide) (Toks.sp h2))

theorem lines_block {bb : BlockAst} (h : LexBlock bb) : SaysLines GBlock bb (texts (blockTP bb)) := by
  obtain ⟨k, hk⟩ := lines_body h.body
  refine ⟨k + 1, fun m b ts ht => ?_⟩
  obtain ⟨us, h1, h2, h3⟩ := hk (m + 1) b ts (by rwa [Nat.add_assoc, Nat.add_comm 1])
  obtain ⟨us', h4, h5⟩ := says_optTP (g := paramTP) (fun q hq => says_param (h.params q hq)) m _ _
    (Toks.punct (c := ':') (by decide) (Toks.nl h3))
  refine ⟨⟨m, .sym bb.name⟩ :: (us' ++ ⟨m, .other ':'⟩ :: us), fun after ha => .mk rfl h4 rfl (h1 after (by omega)), by simp, ?_⟩
  have := h.name.says (b := texts (if bb.params.isEmpty then [] else tt "(" :: (sepTP (bb.params.map paramTP) ++ [tt ")"])) ++
      ':' :: '\n' :: (texts (bodyTP bb.stmts) ++ b)) (by
    cases bb.params with
    | nil => exact .cons (by decide)
    | cons a as => exact .paren) h5
  simpa [blockTP, tt, TP.text] using this

theorem blocksTP_cons (b c : BlockAst) (l : List BlockAst) : blocksTP (b :: c :: l) = blockTP b ++ tt "\n" :: blocksTP (c :: l) := by
  rw [blocksTP]; simp

theorem lines_blocks : ∀ {bbs : List BlockAst}, (∀ b ∈ bbs, LexBlock b) → bbs ≠ [] → ∃ k, ∀ m b ts (after : Token),
    Toks b (m + k) (after :: ts) → ∃ us, GBlocks bbs us after ∧ us ≠ [] ∧ Toks (texts (blocksTP bbs) ++ b) m (us ++ after :: ts)
  | [], _, hn => absurd rfl hn
  | [bb], h, _ => by
    obtain ⟨k, hk⟩ := lines_block (h bb List.mem_cons_self)
    refine ⟨k, fun m b ts after ht => ?_⟩
    obtain ⟨us, h1, h2, h3⟩ := hk m b _ ht
    have := GBlocks.cons (ts' := []) rfl (h1 after (Toks.head_line ht)) .nil
    exact ⟨us, by simpa using this, h2, h3⟩
  | bb :: c :: l, h, _ => by
    obtain ⟨k, hk⟩ := lines_block (h bb List.mem_cons_self)
    obtain ⟨k', hk'⟩ := lines_blocks (bbs := c :: l) (fun b hb => h b (List.mem_cons_of_mem _ hb)) (by simp)
    refine ⟨k + 1 + k', fun m b ts after ht => ?_⟩
    obtain ⟨us, h1, h2, h3⟩ := hk' (m + k + 1) b ts after (by simpa [Nat.add_assoc] using ht)
    obtain ⟨us', h4, h5, h6⟩ := hk m _ _ (Toks.nl h3)
    cases us with
    | nil => exact absurd rfl h2
    | cons u us =>
      have hl : m + k + 1 ≤ u.line := Toks.head_line h3
      refine ⟨us' ++ u :: us, .cons rfl (h4 u (by omega)) h1, by simp, ?_⟩
      rw [blocksTP_cons]
      simpa [tt, TP.text] using h6

theorem says_ret {r : Option TyAst} (h : ∀ a, r = some a → LexTy a) {m : Nat} {b : Str} {ts : List Token} (hb : Clean b)
    (ht : Toks b m ts) : ∃ us, GRet r us ∧ Toks (texts (retTP r) ++ b) m (us ++ ts) := by
  cases r with
  | none => exact ⟨[], .none, ht⟩
  | some a =>
    obtain ⟨us, h1, h2⟩ := says_ty (h a rfl) m b ts hb ht
    refine ⟨⟨m, .other ':'⟩ :: us, .some rfl h1, ?_⟩
    simpa [retTP, tyTP, tt, TP.text] using Toks.punct (c := ':') (by decide) (Toks.sp h2)

/-- The text, which ends a line, is read as the item. -/
def SaysItem (g : GlobalAst) (s : Str) : Prop :=
  ∃ k, ∀ m b ts, Toks b (m + k) ts → ∃ us, GGlobal g us ∧ Toks (s ++ b) m (us ++ ts)

theorem item_fun {g : GlobalAst} (h : LexItem g) : SaysItem g (texts (funTP g)) := by
  cases h with
  | @funDecl n ps r hn hp hr =>
    refine ⟨1, fun m b ts ht => ?_⟩
    obtain ⟨us, h1, h2⟩ := says_ret hr .newline (Toks.nl ht)
    obtain ⟨us', h3, h4⟩ := says_parenTP (D := GTy) (g := fun a => [tyTP a]) (as := ps)
      (fun a ha => by simpa [tyTP, TP.text] using says_ty (hp a ha)) m _ _ h2
    refine ⟨⟨m, .kw .decl⟩ :: ⟨m, .sym n⟩ :: (us' ++ us), .funDecl rfl rfl h3 h1, ?_⟩
    simpa [funTP, tt, TP.text] using Toks.kword (s := "decl".toList) (k := .decl) (by decide) (hn.says .paren h4)
  | @funDef n ps r bbs hn hp hr hne hb =>
    obtain ⟨k, hk⟩ := lines_blocks hb hne
    refine ⟨k + 2, fun m b ts ht => ?_⟩
    obtain ⟨us, h1, _, h2⟩ := hk (m + 1) ('}' :: '\n' :: b) ts ⟨m + 1 + k, .other '}'⟩
      (Toks.punct (by decide) (Toks.nl (by simpa [Nat.add_assoc, Nat.add_comm 1] using ht)))
    obtain ⟨us', h3, h4⟩ := says_ret hr .space (Toks.sp (Toks.punct (c := '{') (by decide) (Toks.nl h2)))
    obtain ⟨us'', h5, h6⟩ := says_parenTP (g := paramTP) (fun q hq => says_param (hp q hq)) m _ _ h4
    refine ⟨⟨m, .kw .fun⟩ :: ⟨m, .sym n⟩ :: (us'' ++ (us' ++ ⟨m, .other '{'⟩ :: (us ++ [⟨m + 1 + k, .other '}'⟩]))),
      .funDef rfl rfl h5 h3 rfl h1 hne rfl, ?_⟩
    simpa [funTP, tt, TP.text] using Toks.kword (s := "fun".toList) (k := .fun) (by decide) (hn.says .paren h6)

theorem item_global {g : GlobalAst} (h : LexGlobal g) : SaysItem g (texts (globalTP g)) := by
  cases h with
  | @mk n ty i hn ht hi =>
    refine ⟨1, fun m b ts htk => ?_⟩
    obtain ⟨us, h1, h2⟩ := says_init hi m _ _ .newline (Toks.nl htk)
    obtain ⟨us', h3, h4⟩ := says_ty ht m _ _ .comma (Toks.punct (c := ',') (by decide) (Toks.sp h2))
    refine ⟨⟨m, .kw .global⟩ :: ⟨m, .sym n⟩ :: ⟨m, .other '='⟩ :: ⟨m, .kw .alloc⟩ :: (us' ++ ⟨m, .other ','⟩ :: us),
      .globalDef rfl rfl rfl rfl h3 rfl h1, ?_⟩
    simpa [globalTP, tyTP, tt, TP.text] using Toks.kword (s := "global".toList) (k := .global) (by decide)
      (hn.says .space (Toks.sp (Toks.punct (c := '=') (by decide) (Toks.sp (Toks.kword (s := "alloc".toList) (k := .alloc) (by decide) h4)))))

/-- The text is read as the items. -/
def SaysProg (gs : List GlobalAst) (s : Str) : Prop := ∃ k, ∀ m b ts gs', Toks b (m + k) ts → GProg gs' ts →
  ∃ us, Toks (s ++ b) m us ∧ GProg (gs ++ gs') us

theorem SaysProg.nil : SaysProg [] [] := ⟨0, fun _ _ ts _ ht hg => ⟨ts, ht, hg⟩⟩

theorem SaysProg.line {gs : List GlobalAst} {s : Str} (h : SaysProg gs s) : SaysProg gs ('\n' :: s) := by
  obtain ⟨k, hk⟩ := h
  refine ⟨k + 1, fun m b ts gs' ht hg => ?_⟩
  obtain ⟨us, h1, h2⟩ := hk (m + 1) b ts gs' (by simpa [Nat.add_assoc, Nat.add_comm 1] using ht) hg
  exact ⟨us, Toks.nl h1, h2⟩

theorem SaysProg.cons {g : GlobalAst} {gs : List GlobalAst} {s s' : Str} (h : SaysItem g s) (h' : SaysProg gs s') : SaysProg (g :: gs) (s ++ s') := by
  obtain ⟨k, hk⟩ := h
  obtain ⟨k', hk'⟩ := h'
  refine ⟨k + k', fun m b ts gs' ht hg => ?_⟩
  obtain ⟨us, h1, h2⟩ := hk' (m + k) b ts gs' (by rwa [Nat.add_assoc]) hg
  obtain ⟨us', h3, h4⟩ := hk m _ _ h1
  exact ⟨us' ++ us, by simpa using h4, .cons h3 h2⟩

theorem funsTP_cons (f g : GlobalAst) (l : List GlobalAst) : funsTP (f :: g :: l) = .mark :: (funTP f ++ .mark :: tt "\n" :: funsTP (g :: l)) := by
  rw [funsTP]; simp

theorem prog_funs : ∀ {fs : List GlobalAst}, (∀ f ∈ fs, LexItem f) → SaysProg fs (texts (funsTP fs))
  | [], _ => .nil
  | [f], h => by
    have := SaysProg.cons (item_fun (h f List.mem_cons_self)) .nil
    simpa [funsTP, TP.text] using this
  | f :: g :: l, h => by
    have := SaysProg.cons (item_fun (h f List.mem_cons_self)) (prog_funs (fs := g :: l) (fun f hf => h f (List.mem_cons_of_mem _ hf))).line
    rw [funsTP_cons]
    simpa [TP.text, tt] using this

theorem prog_globals : ∀ {gs : List GlobalAst} {fs : List GlobalAst} {s : Str}, (∀ g ∈ gs, LexGlobal g) → SaysProg fs s →
    SaysProg (gs ++ fs) (texts (gs.map globalTP).flatten ++ s)
  | [], _, _, _, h => h
  | g :: gs, _, _, hg, h => by
    have := SaysProg.cons (item_global (hg g List.mem_cons_self)) (prog_globals (gs := gs) (fun f hf => hg f (List.mem_cons_of_mem _ hf)) h)
    simpa using this

/-- The text of the tree is read as the tree. -/
theorem reads_prog {gvs fns : List GlobalAst} (hg : ∀ g ∈ gvs, LexGlobal g) (hf : ∀ f ∈ fns, LexItem f) :
    Reads (texts (progTP gvs fns)) (gvs ++ fns) := by
  have h : SaysProg (gvs ++ fns) (texts (progTP gvs fns)) := by
    have hfs := prog_funs hf
    unfold progTP
    rw [texts_append]
    refine prog_globals hg ?_
    cases gvs with
    | nil => simpa using hfs
    | cons g gvs => simpa [tt, TP.text] using hfs.line
  obtain ⟨k, hk⟩ := h
  obtain ⟨us, h1, h2⟩ := hk 1 [] [] [] (.eof (.blank .nil)) .nil
  exact ⟨us, by simpa using h1, by simpa using h2⟩

end Koopa
