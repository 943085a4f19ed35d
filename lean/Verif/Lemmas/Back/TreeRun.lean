import Verif.Lemmas.Back.TreeText
import Verif.Props.Names
import Verif.Lemmas.Lib.RawGenStep
/-!
The name manager gives the tree of a program that can be written good names, and the text is that of the tree.
-/
namespace Koopa
open Spec

/-! ### Parts that are no marks -/

def TP.plain : TP → Bool
  | .mark => false
  | _ => true

theorem plain_tt (s : String) : (tt s).plain = true := rfl
theorem plain_lit (s : Str) : (TP.lit s).plain = true := rfl
theorem plain_fn (s : Str) : (TP.fn s).plain = true := rfl
theorem plain_bb (s : Str) : (TP.bb s).plain = true := rfl
theorem plain_sym (s : Str) : (TP.sym s).plain = true := rfl

theorem sepTP_plain : ∀ {l : List (List TP)}, (∀ x ∈ l, x.all TP.plain = true) → (sepTP l).all TP.plain = true
  | [], _ => rfl
  | [x], h => h x List.mem_cons_self
  | x :: y :: l, h => by
    rw [sepTP_cons, List.all_append, h x List.mem_cons_self, List.all_cons, sepTP_plain (fun z hz => h z (List.mem_cons_of_mem _ hz))]
    rfl

mutual
theorem valTP_plain : ∀ a : ValAst, (valTP a).all TP.plain = true
  | .sym _ => rfl
  | .int _ => rfl
  | .undef => rfl
  | .zero => rfl
  | .agg es => by
    rw [valTP, List.all_cons, List.all_append, sepTP_plain (valTPs_plain es)]; rfl
theorem valTPs_plain : ∀ (as : List ValAst), ∀ x ∈ valTPs as, x.all TP.plain = true
  | [], _, h => by cases h
  | a :: as, x, h => by
    rw [valTPs] at h
    rcases List.mem_cons.1 h with rfl | h
    · exact valTP_plain a
    · exact valTPs_plain as x h
end

theorem argsTP_plain (as : List ValAst) : (argsTP as).all TP.plain = true :=
  sepTP_plain (fun x hx => by obtain ⟨a, -, rfl⟩ := List.mem_map.1 hx; exact valTP_plain a)

theorem targetTP_plain (n : Str) (as : List ValAst) : (targetTP n as).all TP.plain = true := by
  unfold targetTP
  split
  · rfl
  · rw [List.all_cons, List.all_cons, List.all_append, argsTP_plain]; rfl

theorem exprTP_plain (e : ExprAst) : (exprTP e).all TP.plain = true := by
  cases e <;> simp [exprTP, valTP_plain, argsTP_plain, plain_lit, plain_fn, plain_bb, plain_sym, plain_tt, tyTP, -List.all_eq_true]

theorem lineTP_plain (st : StmtAst) : (lineTP st).all TP.plain = true := by
  unfold lineTP
  rw [List.all_append]
  have : (stmtTP st).all TP.plain = true := by
    cases st with
    | ret o => cases o <;> simp [stmtTP, valTP_plain, plain_tt, -List.all_eq_true]
    | _ => simp [stmtTP, exprTP_plain, valTP_plain, targetTP_plain, plain_lit, plain_fn, plain_bb, plain_sym, plain_tt, -List.all_eq_true]
  rw [this]; rfl

theorem paramsTP_plain (ps : List (Str × TyAst)) : (sepTP (ps.map paramTP)).all TP.plain = true :=
  sepTP_plain (fun x hx => by obtain ⟨a, -, rfl⟩ := List.mem_map.1 hx; rfl)

theorem bodyTP_plain (sts : List StmtAst) : (bodyTP sts).all TP.plain = true := by
  unfold bodyTP
  induction sts with
  | nil => rfl
  | cons st sts ih => simp [ih, lineTP_plain, plain_tt, -List.all_eq_true, -List.all_flatten]

theorem blockTP_plain (b : BlockAst) : (blockTP b).all TP.plain = true := by
  unfold blockTP
  rw [List.all_cons, List.all_append, List.all_cons, bodyTP_plain]
  split
  · rfl
  · rw [List.all_cons, List.all_append, paramsTP_plain]; rfl

theorem blocksTP_plain : ∀ bs : List BlockAst, (blocksTP bs).all TP.plain = true
  | [] => rfl
  | [b] => blockTP_plain b
  | b :: c :: bs => by
    rw [blocksTP_cons, List.all_append, List.all_cons, blockTP_plain, blocksTP_plain (c :: bs)]; rfl

theorem retTP_plain (r : Option TyAst) : (retTP r).all TP.plain = true := by cases r <;> rfl

theorem funTP_plain (g : GlobalAst) : (funTP g).all TP.plain = true := by
  cases g with
  | funDecl n ps r =>
    have : (sepTP (ps.map (fun a => [tyTP a]))).all TP.plain = true :=
      sepTP_plain (fun x hx => by obtain ⟨a, -, rfl⟩ := List.mem_map.1 hx; rfl)
    simp [funTP, this, retTP_plain, plain_lit, plain_fn, plain_bb, plain_sym, plain_tt, -List.all_eq_true]
  | funDef n ps r bbs => simp [funTP, paramsTP_plain, retTP_plain, blocksTP_plain, plain_lit, plain_fn, plain_bb, plain_sym, plain_tt, -List.all_eq_true]
  | _ => rfl

theorem globalTP_plain (g : GlobalAst) : (globalTP g).all TP.plain = true := by
  cases g with
  | globalDef n t i => simp [globalTP, valTP_plain, plain_lit, plain_fn, plain_bb, plain_sym, plain_tt, tyTP, -List.all_eq_true]
  | _ => rfl

/-! ### Names from the name manager -/

/-- Functions and globals named as in `G`, values and blocks as in `N`. -/
def nmOf (G N : Names) : Nm where
  glob v := (G.ent (.global v)).getD []
  fn f := (G.ent (.func f)).getD []
  val v := (N.ent (.value v)).getD []
  bb b := (N.bb b).getD []

/-- The part is a name of `N`. -/
def TP.named (P : Str → Prop) : TP → Prop
  | .fn s => P s
  | .bb s => P s
  | .sym s => P s
  | _ => True

/-- `s` is a name in `N`. -/
def Spec.Names.Has (N : Names) (s : Str) : Prop := (∃ e, N.ent e = some s) ∨ ∃ b, N.bb b = some s

theorem text_tp {G N : Names} (hw : N.Within G) {x : Piece} {s : Str} (h : N.text x = some s) (hp : (tpOf (nmOf G N) x).plain = true) :
    s = (tpOf (nmOf G N) x).text ∧ (tpOf (nmOf G N) x).named N.Has := by
  cases x with
  | lit t => cases h; exact ⟨rfl, trivial⟩
  | func f c =>
    have h : N.ent (.func f) = some s := h
    have e : (nmOf G N).fn f = s := by simp [nmOf, hw.1 f s h]
    rw [tpOf_func, e]; exact ⟨rfl, .inl ⟨_, h⟩⟩
  | global v c =>
    have h : N.ent (.global v) = some s := h
    have e : (nmOf G N).glob v = s := by simp [nmOf, hw.2 v s h]
    rw [tpOf_global, e]; exact ⟨rfl, .inl ⟨_, h⟩⟩
  | value v c =>
    have h : N.ent (.value v) = some s := h
    have e : (nmOf G N).val v = s := by simp [nmOf, h]
    rw [tpOf_value, e]; exact ⟨rfl, .inl ⟨_, h⟩⟩
  | bb b c =>
    have h : N.bb b = some s := h
    have e : (nmOf G N).bb b = s := by simp [nmOf, h]
    rw [tpOf_bb, e]; exact ⟨rfl, .inr ⟨_, h⟩⟩
  | _ => cases hp

theorem renders_tp {G N : Names} (hw : N.Within G) {ps : List Piece} {t : Str} (h : Renders N ps t) :
    (ps.map (tpOf (nmOf G N))).all TP.plain = true →
    t = texts (ps.map (tpOf (nmOf G N))) ∧ ∀ x ∈ ps.map (tpOf (nmOf G N)), x.named N.Has := by
  induction h with
  | nil => intro _; exact ⟨rfl, by simp⟩
  | cons h1 _ ih =>
    intro hp
    simp only [List.map_cons, List.all_cons, Bool.and_eq_true] at hp
    obtain ⟨h2, h3⟩ := ih hp.2
    obtain ⟨h4, h5⟩ := text_tp hw h1 hp.1
    refine ⟨by rw [List.map_cons, texts_cons, ← h4, ← h2], ?_⟩
    simp only [List.map_cons, List.mem_cons]
    rintro x (rfl | hx)
    · exact h5
    · exact h3 x hx

/-! ### Running -/

/-- Pieces that always get a name. -/
def Piece.easy : Piece → Bool
  | .lit _ => true
  | .func _ _ => true
  | .bb _ _ => true
  | .global _ _ => true
  | .value _ _ => true
  | _ => false

theorem plain_easy {M : Nm} {x : Piece} (h : (tpOf M x).plain = true) : x.easy = true := by
  cases x <;> first | rfl | cases h

theorem nextName_total {m : NM} (hm : m.pre = .default) (ns : List Str) (c : Option Str) : ∃ r, m.nextName ns c = some r := by
  unfold NM.nextName
  cases c with
  | none => exact ⟨_, rfl⟩
  | some c =>
    simp only [hm, Prefix.name]
    obtain ⟨n, hn⟩ := pickName_returns ns c
    rw [hn]; exact ⟨_, rfl⟩

theorem easy_runs {m : NM} (hm : m.pre = .default) {x : Piece} (hx : x.easy = true) : ∃ s m', x.run m = some (s, m') := by
  cases x with
  | lit s => exact ⟨_, _, rfl⟩
  | func f c =>
    obtain ⟨⟨n, ns, m2⟩, hr⟩ := nextName_total hm m.globalNames (some c)
    simp only [Piece.run, NM.funcName, hr]
    split <;> exact ⟨_, _, rfl⟩
  | bb f c =>
    obtain ⟨⟨n, ns, m2⟩, hr⟩ := nextName_total hm m.bbNames c
    simp only [Piece.run, NM.bbName, hr]
    split <;> exact ⟨_, _, rfl⟩
  | global f c =>
    obtain ⟨⟨n, ns, m2⟩, hr⟩ := nextName_total hm m.globalNames c
    simp only [Piece.run, NM.globalName, hr]
    split <;> exact ⟨_, _, rfl⟩
  | value f c =>
    obtain ⟨⟨n, ns, m2⟩, hr⟩ := nextName_total hm m.globalNames c
    simp only [Piece.run, NM.valueName, hr]
    split <;> exact ⟨_, _, rfl⟩
  | _ => cases hx

/-- All names are symbols that can be written. -/
def NM.Lex (m : NM) : Prop := ∀ s, m.names.Has s → LexSym s

theorem showNat_head {n : Nat} (h : n ≠ 0) : ∃ c t, showNat n = c :: t ∧ c ≠ '0' := by
  induction n using Nat.strongRecOn with
  | ind n ih =>
    unfold showNat
    rw [Nat.toDigits_eq_if (by decide)]
    split
    · rename_i hn
      refine ⟨_, [], rfl, fun he => ?_⟩
      have := congrArg Char.toNat he
      rw [digitChar_toNat hn] at this
      have h0 : ('0' : Char).toNat = 48 := rfl
      omega
    · obtain ⟨c, t, h1, h2⟩ := ih (n / 10) (by omega) (by omega)
      unfold showNat at h1
      rw [h1]
      exact ⟨c, _, rfl, h2⟩

theorem isNum_showNat {k : Nat} {x : Char} (hx : x ∈ showNat k) : isNum x = true := by
  have := showNat_digit hx
  simp only [isNum, isDigit, Bool.or_eq_true, Bool.and_eq_true, decide_eq_true_eq]
  exact .inl (.inl (.inl (.inl this)))

theorem showNat_temp (k : Nat) : TempNum (showNat k) := by
  by_cases h : k = 0
  · subst h; exact .inl rfl
  · obtain ⟨c, t, h1, h2⟩ := showNat_head h
    exact .inr ⟨c, t, h1, h2, fun x hx => isNum_showNat hx⟩

theorem PlainName.lex {n : Str} (h : PlainName n) : LexSym n := by
  obtain ⟨tag, s, rfl, ht, hs⟩ := h
  exact .sym ht hs

theorem PlainName.suffixed {n : Str} (h : PlainName n) (k : Nat) : PlainName (suffixed n k) := by
  obtain ⟨tag, s, rfl, ht, ⟨⟨c, t, rfl, hc⟩, hs⟩⟩ := h
  refine ⟨tag, (c :: t) ++ '_' :: showNat k, rfl, ht, ⟨c, t ++ '_' :: showNat k, rfl, hc⟩, ?_⟩
  intro x hx
  rcases List.mem_append.1 hx with hx | hx
  · exact hs x hx
  · rcases List.mem_cons.1 hx with rfl | hx
    · exact .inr rfl
    · exact .inl (by rw [isAlnum, isNum_showNat hx, Bool.or_true])

theorem PlainName.notTemp {n : Str} (h : PlainName n) : NotTemp n := by
  obtain ⟨tag, s, hn, ht, ⟨⟨c, t, hs', hc⟩, hs⟩⟩ := h
  intro k hk
  rw [hn] at hk
  obtain ⟨_, h2⟩ := List.cons.inj hk
  rw [hs'] at h2
  have := isNum_showNat (k := k) (x := c) (by rw [← h2]; simp)
  rw [this] at hc; cases hc

theorem PlainNames.ok {p : Program} (h : PlainNames p) : NamesOk PlainName p :=
  ⟨h.funcs, fun v d n h1 h2 => h.globals v d n h1 h2, fun f fd v d n h1 h2 h3 => h.locals f v d n ⟨fd, h1, h2⟩ h3,
    fun f fd v d n h1 h2 h3 => h.blocks f v d n ⟨fd, h1, h2⟩ h3⟩

/-- The chosen name of a piece, if any, is plain. -/
def Piece.PlainName : Piece → Prop
  | .func _ c => Spec.PlainName c
  | .bb _ c => ∀ c', c = some c' → Spec.PlainName c'
  | .global _ c => ∀ c', c = some c' → Spec.PlainName c'
  | .value _ c => ∀ c', c = some c' → Spec.PlainName c'
  | _ => True

theorem Chosen.lex {id : Nat} {ns : List Str} {c : Option Str} {n : Str} (h : Chosen .default id ns c n) (hc : ∀ c', c = some c' → Spec.PlainName c') :
    LexSym n := by
  cases c with
  | none => rw [show n = _ from h]; exact .temp (showNat_temp id)
  | some c =>
    obtain ⟨c', h1, h2⟩ := h
    cases h1
    rcases h2 with ⟨-, rfl⟩ | ⟨-, k, rfl, -⟩
    · exact PlainName.lex (hc _ rfl)
    · exact PlainName.lex (PlainName.suffixed (hc _ rfl) k)

theorem NInv.default {m : NM} (hi : NInv [.default] m) : m.pre = .default := List.mem_singleton.1 hi.pre

theorem NamedEnt.lex {m m' : NM} {e : Ent} {c : Option Str} {n : Str} (h : NamedEnt [.default] m m' e c n) (hi : NInv [.default] m)
    (hc : ∀ c', c = some c' → Spec.PlainName c') (hl : m.Lex) : m'.Lex := by
  have hn : LexSym n := by have := h.chosen; rw [hi.default] at this; exact Chosen.lex this hc
  rintro s (⟨e', he⟩ | ⟨b, hb⟩)
  · rw [h.ent] at he
    split at he
    · cases he; exact hn
    · exact hl s (.inl ⟨_, he⟩)
  · rw [h.bb] at hb; exact hl s (.inr ⟨_, hb⟩)

theorem NamedBb.lex {m m' : NM} {b : BB} {c : Option Str} {n : Str} (h : NamedBb [.default] m m' b c n) (hi : NInv [.default] m)
    (hc : ∀ c', c = some c' → Spec.PlainName c') (hl : m.Lex) : m'.Lex := by
  have hn : LexSym n := by have := h.chosen; rw [hi.default] at this; exact Chosen.lex this hc
  rintro s (⟨e', he⟩ | ⟨b', hb⟩)
  · rw [h.ent] at he; exact hl s (.inl ⟨_, he⟩)
  · rw [h.bb] at hb
    split at hb
    · cases hb; exact hn
    · exact hl s (.inr ⟨_, hb⟩)

theorem PlainName.fine {c : Str} (h : Spec.PlainName c) : FineName [.default] c := NotTemp.fine (PlainName.notTemp h)

theorem run_lex {m m' : NM} {x : Piece} {s : Str} (hi : NInv [.default] m) (he : x.easy = true) (hx : x.PlainName)
    (hf : x.Fine [.default] m.inFunc) (hl : m.Lex) (h : x.run m = some (s, m')) : m'.Lex := by
  cases x with
  | lit t => cases h; exact hl
  | func f c =>
    rcases NM.funcName_spec prefixes_koopa hi hf h with ⟨-, rfl⟩ | h1
    · exact hl
    · exact h1.lex hi (fun c' hc => by cases hc; exact hx) hl
  | global f c =>
    rcases NM.globalName_spec prefixes_koopa hi hf h with ⟨-, rfl⟩ | h1
    · exact hl
    · exact h1.lex hi hx hl
  | value f c =>
    rcases NM.valueName_spec prefixes_koopa hi hf.1 hf.2 h with ⟨-, rfl⟩ | h1
    · exact hl
    · exact h1.lex hi hx hl
  | bb f c =>
    rcases NM.bbName_spec prefixes_koopa hi hf h with ⟨-, rfl⟩ | h1
    · exact hl
    · exact h1.lex hi hx hl
  | _ => cases he

/-- Easy pieces with plain names are written. -/
theorem runPieces_easy : ∀ {ps : List Piece} {m : NM}, NInv [.default] m → (∀ x ∈ ps, x.easy = true ∧ x.PlainName ∧ x.Fine [.default] m.inFunc) →
    ∃ s m', runPieces m ps = some (s, m') ∧ (m.Lex → m'.Lex)
  | [], m, _, _ => ⟨[], m, rfl, id⟩
  | x :: xs, m, hi, h => by
    obtain ⟨h1, h2, h3⟩ := h x List.mem_cons_self
    obtain ⟨s1, m1, hr⟩ := easy_runs hi.default h1
    obtain ⟨a1, a2, -, -⟩ := Piece.run_spec prefixes_koopa hi h3 hr
    obtain ⟨s2, m2, hr2, hl2⟩ := runPieces_easy (ps := xs) a1 (fun y hy => by rw [a2]; exact h y (List.mem_cons_of_mem _ hy))
    refine ⟨s1 ++ s2, m2, by rw [runPieces, hr]; simp only [hr2], fun hl => hl2 (run_lex hi h1 h2 h3 hl hr)⟩

/-- The runs of the functions: the state at the end of each function with its text. -/
inductive FunRuns (g : Func → Option (List Piece)) : NM → List Func → List (NM × Str) → NM → Prop where
  | nil {m : NM} : FunRuns g m [] [] m
  | cons {m m0 m1 m2 m' : NM} {f : Func} {fs : List Func} {ps : List Piece} {t : Str} {l : List (NM × Str)} : g f = some ps → m.enter = some m0 →
      runPieces m0 ps = some (t, m1) → m1.exit = some m2 → FunRuns g m2 fs l m' → FunRuns g m (f :: fs) ((m1, t) :: l) m'

theorem funcsOf_cons (g : Func → Option (List Piece)) (f f' : Func) (fs : List Func) : funcsOf g (f :: f' :: fs) =
    match g f, funcsOf g (f' :: fs) with
    | some x, some y => some (.enter :: (x ++ .exit :: txt "\n" :: y))
    | _, _ => none := by
  rw [funcsOf]
  · rfl
  · simp

theorem scope_run {m m0 m1 m2 : NM} {ps rest : List Piece} {t : Str} (h1 : m.enter = some m0) (h2 : runPieces m0 ps = some (t, m1))
    (h3 : m1.exit = some m2) : runPieces m (.enter :: (ps ++ .exit :: rest)) = (runPieces m2 rest).map (fun r => (t ++ r.1, r.2)) := by
  rw [runPieces]
  simp only [Piece.run, h1, Option.map_some]
  rw [runPieces_append, h2]
  simp only [runPieces, Piece.run, h3, Option.map_some, List.nil_append]
  cases runPieces m2 rest <;> rfl

theorem FunRuns.run {g : Func → Option (List Piece)} : ∀ {fs : List Func} {m m' : NM} {l : List (NM × Str)}, FunRuns g m fs l m' →
    ∃ ps, funcsOf g fs = some ps ∧ runPieces m ps = some (joinLines (l.map (·.2)), m')
  | [], _, _, _, .nil => ⟨[], rfl, rfl⟩
  | [f], _, _, _, .cons h1 h2 h3 h4 .nil => by
    refine ⟨_, by rw [funcsOf, h1]; rfl, ?_⟩
    rw [scope_run h2 h3 h4]
    simp [runPieces, joinLines]
  | f :: f' :: fs, _, _, _, .cons h1 h2 h3 h4 h5 => by
    obtain ⟨ps, h6, h7⟩ := h5.run
    refine ⟨_, by rw [funcsOf_cons, h1, h6], ?_⟩
    rw [scope_run h2 h3 h4]
    simp only [runPieces, Piece.run, txt, h7]
    cases h5
    rfl

/-- What is known about the runs. `m0`: the state before, `m'`: the state after. -/
theorem FunRuns.spec {g : Func → Option (List Piece)} {fs : List Func} {m m' : NM} {l : List (NM × Str)} (h : FunRuns g m fs l m')
    (hg : ∀ f ∈ fs, ∀ ps, g f = some ps → ∀ x ∈ ps, x.Fine [.default] true) (hi : NInv [.default] m) :
    NInv [.default] m' ∧ m.LeGlobal m' ∧ All2 (fun f q => ∃ ps, g f = some ps ∧ NInv [.default] q.1 ∧ q.1.inFunc = true ∧ m.LeGlobal q.1 ∧
      q.1.LeGlobal m' ∧ Renders q.1.names ps q.2) fs l := by
  induction h with
  | nil => exact ⟨hi, ⟨fun _ _ h => h, fun _ _ h => h⟩, .nil⟩
  | @cons m m0 m1 m2 m' f fs ps t l h1 h2 h3 h4 _ ih =>
    obtain ⟨a1, a2, a3, a4⟩ := NM.enter_spec hi h2
    obtain ⟨b1, b2, b3, b4⟩ := runPieces_spec prefixes_koopa a1 (by rw [a3]; exact hg f List.mem_cons_self ps h1) h3
    obtain ⟨c1, c2, c3, c4, c5⟩ := NM.exit_spec b1 h4
    obtain ⟨d1, d2, d3⟩ := ih (fun f hf => hg f (List.mem_cons_of_mem _ hf)) c1
    have e1 : m.LeGlobal m1 := a4.trans b3.global
    refine ⟨d1, (e1.trans c4).trans d2, .cons ⟨ps, h1, b1, c2, e1, c4.trans d2, b4⟩ ?_⟩
    exact d3.imp (fun f _ q ⟨ps, x1, x2, x3, x4, x5, x6⟩ => ⟨ps, x1, x2, x3, (e1.trans c4).trans x4, x5, x6⟩)

theorem NM.enter_lex {m m' : NM} (h : m.enter = some m') (hl : m.Lex) : m'.Lex := by
  unfold NM.enter at h
  split at h
  · cases h
  · rename_i h0
    cases h
    have h1 : m.inFunc = false := by simpa using h0
    rintro s (⟨e, he⟩ | ⟨b, hb⟩)
    · refine hl s (.inl ⟨e, ?_⟩)
      cases e with
      | value v => cases he
      | temp v => cases he
      | _ => exact he
    · exact hl s (.inr ⟨b, hb⟩)

theorem NM.exit_lex {m m' : NM} (h : m.exit = some m') (hl : m.Lex) : m'.Lex := by
  unfold NM.exit at h
  split at h
  · rename_i h0
    cases h
    rintro s (⟨e, he⟩ | ⟨b, hb⟩)
    · cases e with
      | value v => cases he
      | temp v => cases he
      | func f => exact hl s (.inl ⟨.func f, he⟩)
      | global f => exact hl s (.inl ⟨.global f, he⟩)
    · cases hb
  · cases h

theorem funRuns_easy {g : Func → Option (List Piece)} : ∀ {fs : List Func} {m : NM}, NInv [.default] m → m.inFunc = false →
    (∀ f ∈ fs, ∃ ps, g f = some ps ∧ ∀ x ∈ ps, x.easy = true ∧ x.PlainName ∧ x.Fine [.default] true) →
    ∃ l m', FunRuns g m fs l m' ∧ (m.Lex → m'.Lex ∧ ∀ q ∈ l, q.1.Lex)
  | [], m, _, _, _ => ⟨[], m, .nil, fun h => ⟨h, by simp⟩⟩
  | f :: fs, m, hi, hn, hg => by
    obtain ⟨ps, h1, h2⟩ := hg f List.mem_cons_self
    obtain ⟨m0, h3⟩ : ∃ m0, m.enter = some m0 := by unfold NM.enter; rw [hn]; exact ⟨_, rfl⟩
    obtain ⟨a1, a2, a3, a4⟩ := NM.enter_spec hi h3
    obtain ⟨t, m1, h4, h5⟩ := runPieces_easy a1 (by rw [a3]; exact h2)
    obtain ⟨b1, b2, b3, b4⟩ := runPieces_spec prefixes_koopa a1 (by rw [a3]; exact fun x hx => (h2 x hx).2.2) h4
    obtain ⟨m2, h6⟩ : ∃ m2, m1.exit = some m2 := by unfold NM.exit; rw [b2, a3]; exact ⟨_, rfl⟩
    obtain ⟨c1, c2, c3, c4, c5⟩ := NM.exit_spec b1 h6
    obtain ⟨l, m', h7, h8⟩ := funRuns_easy c1 c3 (fun f hf => hg f (List.mem_cons_of_mem _ hf))
    refine ⟨_, _, .cons h1 h3 h4 h6 h7, fun hl => ?_⟩
    have l1 := h5 (NM.enter_lex h3 hl)
    obtain ⟨l2, l3⟩ := h8 (NM.exit_lex h6 l1)
    refine ⟨l2, fun q hq => ?_⟩
    rcases List.mem_cons.1 hq with rfl | hq
    · exact l1
    · exact l3 q hq

/-! ### Good names -/

/-- The values of a function that have names: parameters, parameters of blocks, and instructions with a result. -/
inductive HasName (fd : FData) (v : Value) : Prop where
  | arg : v ∈ fd.params → HasName fd v
  | param {b : BB} {is : List Value} {x : BData} : (b, is) ∈ fd.layout.bbs → fd.dfg.bbs.get? b = some x → v ∈ x.params → HasName fd v
  | inst {b : BB} {is : List Value} {x : VData} : (b, is) ∈ fd.layout.bbs → v ∈ is → fd.dfg.values.get? v = some x → x.ty ≠ .unit → HasName fd v

/-- Good names for global variables and functions. -/
structure GNmOk (p : Program) (M : Nm) : Prop where
  lexGlob : ∀ v ∈ p.instLayout, LexSym (M.glob v)
  lexFn : ∀ f ∈ p.funcLayout, LexSym (M.fn f)
  injGlob : ∀ v ∈ p.instLayout, ∀ v' ∈ p.instLayout, M.glob v = M.glob v' → v = v'
  injFn : ∀ f ∈ p.funcLayout, ∀ f' ∈ p.funcLayout, M.fn f = M.fn f' → f = f'
  apart : ∀ v ∈ p.instLayout, ∀ f ∈ p.funcLayout, M.glob v ≠ M.fn f

/-- Good names for the values and blocks of a function. -/
structure NmOk (p : Program) (fd : FData) (M : Nm) : Prop where
  lexVal : ∀ v, HasName fd v → LexSym (M.val v)
  lexBb : ∀ q ∈ fd.layout.bbs, LexSym (M.bb q.1)
  injVal : ∀ v v', HasName fd v → HasName fd v' → M.val v = M.val v' → v = v'
  injBb : ∀ q ∈ fd.layout.bbs, ∀ q' ∈ fd.layout.bbs, M.bb q.1 = M.bb q'.1 → q.1 = q'.1
  apart : ∀ v u, HasName fd v → u ∈ p.instLayout → M.val v ≠ M.glob u

theorem LexSym.ne_nil {s : Str} (h : LexSym s) : s ≠ [] := by
  rintro rfl
  cases h

/-- The symbols of the text of a function. -/
theorem param_in (fd : FData) (M : Nm) {vs : List Value} {v : Value} (h : v ∈ vs) : TP.sym (M.val v) ∈ sepTP ((vs.map (paramAst fd M)).map paramTP) := by
  induction vs with
  | nil => cases h
  | cons a vs ih =>
    cases vs with
    | nil =>
      rw [List.mem_singleton] at h; subst h
      simp [sepTP, paramTP, paramAst]
    | cons b vs =>
      simp only [List.map_cons, sepTP_cons] at ih ⊢
      rcases List.mem_cons.1 h with rfl | h
      · exact List.mem_append_left _ (by simp [paramTP, paramAst])
      · exact List.mem_append_right _ (List.mem_cons_of_mem _ (ih h))

theorem block_in : ∀ {bs : List BlockAst} {b : BlockAst} {x : TP}, b ∈ bs → x ∈ blockTP b → x ∈ blocksTP bs
  | [b'], b, x, h, hx => by
    rw [List.mem_singleton] at h; subst h; exact hx
  | b' :: c :: bs, b, x, h, hx => by
    rw [blocksTP_cons]
    rcases List.mem_cons.1 h with rfl | h
    · exact List.mem_append_left _ hx
    · exact List.mem_append_right _ (List.mem_cons_of_mem _ (block_in h hx))

theorem stmt_in {sts : List StmtAst} {st : StmtAst} {x : TP} (h : st ∈ sts) (hx : x ∈ stmtTP st) : x ∈ bodyTP sts := by
  unfold bodyTP
  rw [List.mem_flatten]
  exact ⟨_, List.mem_map.2 ⟨st, h, rfl⟩, List.mem_cons_of_mem _ (List.mem_append_left _ hx)⟩

section
variable {p : Program} (hp : Printable p) {before : List Func} {f : Func} {fd : FData} {ts : List Ty} {r : Ty}
  (hf : p.funcs.get? f = some fd)
include hp hf

theorem stmt_names (hb : PrintableBody p before f fd ts r) (M : Nm) {b : BB} {is : List Value} {v : Value} {x : VData} (hm : (b, is) ∈ fd.layout.bbs)
    (hv : v ∈ is) (hx : fd.dfg.values.get? v = some x) (hu : x.ty ≠ .unit) : ∃ e, stmtAst fd M v = .def (M.val v) e := by
  obtain ⟨j, hj⟩ := List.getElem?_of_mem hm
  obtain ⟨i, hi⟩ := List.getElem?_of_mem hv
  obtain ⟨x', h1, hw⟩ := hb.insts j i b is v hj hi
  rw [hx] at h1; cases h1
  have hT := hp.typed.locals f v x ⟨fd, hf, hx⟩
  unfold stmtAst
  simp only [hx]
  obtain ⟨ty, name, kind, usedBy⟩ := x
  simp only at hw hT hu ⊢
  cases hw with
  | alloc => exact ⟨_, rfl⟩
  | load => exact ⟨_, rfl⟩
  | store => cases hT; exact absurd rfl hu
  | getPtr => exact ⟨_, rfl⟩
  | getElemPtr => exact ⟨_, rfl⟩
  | binary => exact ⟨_, rfl⟩
  | branch => cases hT; exact absurd rfl hu
  | jump => cases hT; exact absurd rfl hu
  | call =>
    have hu' : ty.isUnit = false := by cases ty <;> first | rfl | exact absurd rfl hu
    exact ⟨_, by simp only [kindAst, hu']; rfl⟩
  | retNone => cases hT; exact absurd rfl hu
  | ret => cases hT; exact absurd rfl hu

theorem hasName_in {before : List Func} (hb : PrintableFun p before f fd ts r) (M : Nm) {v : Value} (hv : HasName fd v) : TP.sym (M.val v) ∈ funTP (funAst M f fd) := by
  unfold funAst
  simp only [hb.ty]
  rcases hb.body with ⟨h1, h2, h3⟩ | hbd
  · exfalso
    cases hv with
    | arg h => rw [h3] at h; cases h
    | param h => rw [h2] at h; cases h
    | inst h => rw [h2] at h; cases h
  · simp only [hbd.hasBlocks, Bool.false_eq_true, if_false, funTP, List.mem_cons, List.mem_append]
    have blk : ∀ {b is}, (b, is) ∈ fd.layout.bbs → TP.sym (M.val v) ∈ blockTP (blockAst fd M (b, is)) →
        TP.sym (M.val v) ∈ blocksTP (fd.layout.bbs.map (blockAst fd M)) := fun hm hx => block_in (List.mem_map.2 ⟨_, hm, rfl⟩) hx
    cases hv with
    | arg h => exact .inr (.inr (.inr (.inr (.inl (param_in fd M h)))))
    | @param b is x h h' hv =>
      refine .inr (.inr (.inr (.inr (.inr (.inr (.inr (.inr (.inl (blk h ?_)))))))))
      unfold blockTP blockAst
      simp only [h']
      have hne : (x.params.map (paramAst fd M)).isEmpty = false := by
        cases hq : x.params with
        | nil => rw [hq] at hv; cases hv
        | cons => rfl
      rw [hne]
      exact List.mem_cons_of_mem _ (List.mem_append_left _ (List.mem_cons_of_mem _ (List.mem_append_left _ (param_in fd M hv))))
    | inst h hv hx hu =>
      refine .inr (.inr (.inr (.inr (.inr (.inr (.inr (.inr (.inl (blk h ?_)))))))))
      obtain ⟨e, he⟩ := stmt_names hp hf hbd M h hv hx hu
      unfold blockTP blockAst
      refine List.mem_cons_of_mem _ (List.mem_append_right _ (List.mem_cons_of_mem _ (stmt_in (List.mem_map.2 ⟨_, hv, rfl⟩) ?_)))
      rw [he]
      exact List.mem_cons_self

omit hf in
theorem fn_in {before : List Func} (hb : PrintableFun p before f fd ts r) (M : Nm) : TP.fn (M.fn f) ∈ funTP (funAst M f fd) := by
  unfold funAst
  simp only [hb.ty]
  split <;> simp [funTP]

omit hf in
theorem bb_in {before : List Func} (hb : PrintableFun p before f fd ts r) (M : Nm) {q : BB × List Value} (hq : q ∈ fd.layout.bbs) :
    TP.bb (M.bb q.1) ∈ funTP (funAst M f fd) := by
  unfold funAst
  simp only [hb.ty]
  rcases hb.body with ⟨h1, h2, h3⟩ | hbd
  · rw [h2] at hq; cases hq
  · simp only [hbd.hasBlocks, Bool.false_eq_true, if_false, funTP, List.mem_cons, List.mem_append]
    exact .inr (.inr (.inr (.inr (.inr (.inr (.inr (.inr (.inl (block_in (List.mem_map.2 ⟨_, hq, rfl⟩) List.mem_cons_self)))))))))

end

/-! ### The whole text -/

def funItem (p : Program) (f : Func) (M : Nm) : GlobalAst :=
  match p.funcs.get? f with
  | none => .error
  | some fd => funAst M f fd

theorem Renders.append {N : Names} {ps qs : List Piece} {s t : Str} (h : Renders N ps s) (h' : Renders N qs t) : Renders N (ps ++ qs) (s ++ t) := by
  induction h with
  | nil => exact h'
  | cons h1 _ ih => rw [List.append_assoc]; exact .cons h1 ih

theorem piece_plain {ks : List Prefix} {p : Program} {f : Func} {fd : FData} (hn : NamesOk PlainName p) (hf : p.funcs.get? f = some fd) {x : Piece}
    (h : PieceOf ks p f fd x) : x.PlainName := by
  cases h with
  | func hg _ => exact hn.funcs _ _ hg
  | bb hb => exact fun c hc => hn.bbs _ _ _ _ _ hf hb hc
  | val hv hp =>
    rename_i v d
    have hc : ∀ c, d.name = some c → Spec.PlainName c := by
      rcases hv with hv | hv
      · exact fun c hc => hn.globals _ _ _ hv hc
      · exact fun c hc => hn.locals _ _ _ _ _ hf hv hc
    unfold namePiece at hp
    split at hp
    · cases hp
    · split at hp <;> cases hp
      · exact hc
      · exact hc
  | _ => trivial

theorem joinLines_texts {α : Type} (g : α → GlobalAst) : ∀ {as : List α} {ts : List Str}, All2 (fun a t => t = texts (funTP (g a))) as ts →
    joinLines ts = texts (funsTP (as.map g))
  | [], _, .nil => rfl
  | [a], _, .cons h .nil => by subst h; simp [joinLines, funsTP, TP.text]
  | a :: b :: as, _, .cons h (.cons h' hs) => by
    subst h
    have := joinLines_texts g (.cons h' hs)
    rw [List.map_cons] at this
    simp only [List.map_cons, funsTP_cons, texts_cons, texts_append, TP.text, joinLines, List.nil_append, this, tt]
    rfl

/-- Names for a program: `G` for global variables and functions, `N f` for the values and blocks of `f`. -/
structure Naming (p : Program) (G : Nm) (N : Func → Nm) : Prop where
  gok : GNmOk p G
  same : ∀ f, (N f).glob = G.glob ∧ (N f).fn = G.fn
  ok : ∀ f ∈ p.funcLayout, ∀ fd, p.funcs.get? f = some fd → NmOk p fd (N f)

/-- The syntax trees of the global variables. -/
def globalTrees (p : Program) (G : Nm) : List GlobalAst := p.instLayout.map (globalAst p G)

/-- The syntax trees of the functions. -/
def funTrees (p : Program) (N : Func → Nm) : List GlobalAst := p.funcLayout.map (fun f => funItem p f (N f))

/-- The run of the generator over the global variables, and the functions. -/
structure Printed (p : Program) (m0 : NM) (l : List (NM × Str)) (m' : NM) (gs : List (List Piece)) (s0 : Str) : Prop where
  pieces : allSome (BackKoopa.globalInst p) p.instLayout = some gs
  run : runPieces NM.new (gs.flatten ++ if p.instLayout.isEmpty then [] else [txt "\n"]) = some (s0, m0)
  funs : FunRuns (BackKoopa.func p) m0 p.funcLayout l m'

theorem Printed.text {p : Program} {m0 m' : NM} {l : List (NM × Str)} {gs : List (List Piece)} {s0 : Str} (h : Printed p m0 l m' gs s0) :
    koopaGenerate NM.new p = some (s0 ++ joinLines (l.map (·.2)), m') := by
  obtain ⟨fs, h1, h2⟩ := h.funs.run
  unfold koopaGenerate BackKoopa.visit
  rw [h.pieces, BackKoopa.funcs_eq, h1]
  simp only
  rw [← List.append_assoc, runPieces_append, h.run]
  simp only [h2]

theorem names_of : ∀ {fs : List Func} {l : List (NM × Str)}, fs.Nodup → fs.length = l.length →
    ∃ N : Func → Names, All2 (fun f q => N f = q.1.names) fs l
  | [], [], _, _ => ⟨fun _ => NM.new.names, .nil⟩
  | f :: fs, q :: l, hn, hl => by
    obtain ⟨N, h⟩ := names_of (List.nodup_cons.1 hn).2 (by simpa using hl)
    refine ⟨fun g => if g = f then q.1.names else N g, .cons (if_pos rfl) (h.imp (fun g hg q' h' => ?_))⟩
    show (if g = f then q.1.names else N g) = _
    rw [if_neg (by rintro rfl; exact (List.nodup_cons.1 hn).1 hg)]; exact h'

theorem getD_lex {o : Option Str} (h : LexSym (o.getD [])) : o = some (o.getD []) := by
  cases o with
  | none => exact absurd rfl h.ne_nil
  | some s => rfl

section
variable {p : Program} (hp : Printable p) (hn : PlainNames p)
include hp

theorem calls_in {i : Nat} {f : Func} (hi : p.funcLayout[i]? = some f) : ∀ g ∈ p.funcLayout.take i ++ [f], ∃ gd, p.funcs.get? g = some gd := by
  intro g hg
  have : g ∈ p.funcLayout := by
    rcases List.mem_append.1 hg with h | h
    · exact List.mem_of_mem_take h
    · rw [List.mem_singleton] at h; subst h; exact List.mem_of_getElem? hi
  obtain ⟨j, hj⟩ := List.getElem?_of_mem this
  obtain ⟨fd, ts, r, h1, -⟩ := hp.funcs j g hj
  exact ⟨fd, h1⟩

theorem func_writes {f : Func} (hf : f ∈ p.funcLayout) (M : Nm) : ∃ fd, p.funcs.get? f = some fd ∧
    Writes M (BackKoopa.func p f) (funTP (funAst M f fd)) := by
  obtain ⟨i, hi⟩ := List.getElem?_of_mem hf
  obtain ⟨fd, ts, r, h1, h2⟩ := hp.funcs i f hi
  exact ⟨fd, h1, fun_writes hp h1 M h2 (calls_in hp hi)⟩

theorem gpieces_plain {gs : List (List Piece)} (h : allSome (BackKoopa.globalInst p) p.instLayout = some gs) (M : Nm) :
    (gs.flatten ++ if p.instLayout.isEmpty then [] else [txt "\n"]).map (tpOf M) =
      ((globalTrees p M).map globalTP).flatten ++ if (globalTrees p M).isEmpty then [] else [tt "\n"] := by
  obtain ⟨pss, h1, h2⟩ := allSome_writes (M := M) (f := BackKoopa.globalInst p) (g := fun v => globalTP (globalAst p M v)) (as := p.instLayout)
    (fun v hv => global_writes hp _ hv)
  rw [h] at h1; cases h1
  have e : (globalTrees p M).isEmpty = p.instLayout.isEmpty := by unfold globalTrees; cases p.instLayout <;> rfl
  rw [List.map_append, e, List.map_flatten, h2]
  unfold globalTrees
  rw [List.map_map]
  congr 1
  split <;> rfl

include hn in
/-- The generator returns. -/
theorem runs : ∃ m0 l m' gs s0, Printed p m0 l m' gs s0 ∧ m0.Lex ∧ m'.Lex ∧ ∀ q ∈ l, q.1.Lex := by
  have hok := PlainNames.ok hn
  have hfine := hok.mono (fun _ h => PlainName.fine h)
  obtain ⟨gs, hgs, -⟩ := allSome_writes (M := nmOf NM.new.names NM.new.names) (f := BackKoopa.globalInst p)
    (g := fun v => globalTP (globalAst p (nmOf NM.new.names NM.new.names) v)) (as := p.instLayout) (fun v hv => global_writes hp _ hv)
  have hgp : ∀ x ∈ gs.flatten ++ (if p.instLayout.isEmpty then [] else [txt "\n"]), GlobalPiece p x := by
    intro x hx
    rcases List.mem_append.1 hx with hx | hx
    · obtain ⟨l, hl, hx⟩ := List.mem_flatten.1 hx
      obtain ⟨v, -, hv⟩ := allSome_mem hgs hl
      exact BackKoopa.globalInst_of hv x hx
    · split at hx
      · cases hx
      · rw [List.mem_singleton] at hx; exact .inl ⟨_, hx⟩
  have hnew : NInv [.default] NM.new := NInv.new (List.mem_singleton.2 rfl)
  have hlex : NM.new.Lex := by
    rintro s (⟨e, he⟩ | ⟨b, hb⟩)
    · cases e <;> cases he
    · cases hb
  obtain ⟨s0, m0, h1, h2⟩ := runPieces_easy hnew (fun x hx => by
    refine ⟨?_, ?_, hfine.fineGlobal (hgp x hx) _⟩
    · rcases hgp x hx with ⟨s, rfl⟩ | ⟨v, d, hv, rfl⟩ <;> rfl
    · rcases hgp x hx with ⟨s, rfl⟩ | ⟨v, d, hv, rfl⟩
      · trivial
      · exact fun c hc => hok.globals _ _ _ hv hc)
  obtain ⟨a1, a2, a3, a4⟩ := runPieces_spec prefixes_koopa hnew (fun x hx => hfine.fineGlobal (hgp x hx) _) h1
  obtain ⟨l, m', h3, h4⟩ := funRuns_easy (g := BackKoopa.func p) (fs := p.funcLayout) a1 a2 (fun f hf => by
    obtain ⟨fd, e1, ps, e2, e3⟩ := func_writes hp hf (nmOf NM.new.names NM.new.names)
    refine ⟨ps, e2, fun x hx => ?_⟩
    obtain ⟨fd', e4, e5⟩ := BackKoopa.func_of (ks := []) e2
    rw [e1] at e4; cases e4
    refine ⟨?_, piece_plain hok e1 (e5 x hx), hfine.fine (by simp) e1 (e5 x hx)⟩
    have := List.all_eq_true.1 (funTP_plain (funAst (nmOf NM.new.names NM.new.names) f fd)) (tpOf (nmOf NM.new.names NM.new.names) x)
      (by rw [← e3]; exact List.mem_map.2 ⟨x, hx, rfl⟩)
    exact plain_easy this)
  exact ⟨m0, l, m', gs, s0, ⟨hgs, h1, h3⟩, h2 hlex, (h4 (h2 hlex)).1, (h4 (h2 hlex)).2⟩

include hn in
/-- The names the generator gives are good, and it writes the text of the tree. -/
theorem Printed.naming {m0 m' : NM} {l : List (NM × Str)} {gs : List (List Piece)} {s0 : Str} (h : Printed p m0 l m' gs s0) (hl0 : m0.Lex)
    (hl : ∀ q ∈ l, q.1.Lex) : ∃ N : Func → Names, All2 (fun f q => N f = q.1.names) p.funcLayout l ∧
      Naming p (nmOf m'.names m'.names) (fun f => nmOf m'.names (N f)) ∧
      s0 ++ joinLines (l.map (·.2)) = texts (progTP (globalTrees p (nmOf m'.names m'.names)) (funTrees p (fun f => nmOf m'.names (N f)))) := by
  have hok := PlainNames.ok hn
  have hfine := hok.mono (fun _ h => PlainName.fine h)
  have hgp : ∀ x ∈ gs.flatten ++ (if p.instLayout.isEmpty then [] else [txt "\n"]), GlobalPiece p x := by
    intro x hx
    rcases List.mem_append.1 hx with hx | hx
    · obtain ⟨l, hl, hx⟩ := List.mem_flatten.1 hx
      obtain ⟨v, -, hv⟩ := allSome_mem h.pieces hl
      exact BackKoopa.globalInst_of hv x hx
    · split at hx
      · cases hx
      · rw [List.mem_singleton] at hx; exact .inl ⟨_, hx⟩
  obtain ⟨a1, a2, a3, a4⟩ := runPieces_spec prefixes_koopa (NInv.new (List.mem_singleton.2 rfl)) (fun x hx => hfine.fineGlobal (hgp x hx) _) h.run
  obtain ⟨b1, b2, b3⟩ := h.funs.spec (fun f hf ps hps x hx => by
    obtain ⟨fd', e4, e5⟩ := BackKoopa.func_of (ks := []) hps
    exact hfine.fine (by simp) e4 (e5 x hx)) a1
  obtain ⟨N, hN⟩ := names_of hp.funcsOnce b3.length
  have hgt := gpieces_plain hp h.pieces
  have hpl : ∀ M, ((gs.flatten ++ if p.instLayout.isEmpty then [] else [txt "\n"]).map (tpOf M)).all TP.plain = true := by
    intro M
    rw [hgt, List.all_append, List.all_eq_true.2]
    · split <;> rfl
    · intro x hx
      obtain ⟨l, hl, hx⟩ := List.mem_flatten.1 hx
      obtain ⟨g, hg, rfl⟩ := List.mem_map.1 hl
      exact List.all_eq_true.1 (globalTP_plain g) x hx
  have globN : ∀ v ∈ p.instLayout, ∃ s, m0.names.ent (.global v) = some s ∧ LexSym s := by
    intro v hv
    have c2 := (renders_tp (G := m0.names) (N := m0.names) ⟨fun _ _ h => h, fun _ _ h => h⟩ a4 (hpl _)).2
    rw [hgt] at c2
    have hx : LexSym ((nmOf m0.names m0.names).glob v) := by
      refine hl0 _ (c2 (.sym ((nmOf m0.names m0.names).glob v)) (List.mem_append_left _ (List.mem_flatten.2 ⟨_, List.mem_map.2 ⟨_, List.mem_map.2 ⟨v, hv, rfl⟩, rfl⟩, ?_⟩)))
      obtain ⟨x, i, y, h1, h2, h3, h4, h5⟩ := hp.insts v hv
      have h1' : p.values.get? v = some x := h1
      have h4' : p.values.get? i = some y := h4
      unfold globalAst
      simp only [h1', h2, h4', globalTP]
      exact List.mem_cons_of_mem _ List.mem_cons_self
    exact ⟨_, getD_lex hx, hx⟩
  have globM : ∀ {m : NM}, m0.LeGlobal m → ∀ v ∈ p.instLayout, m.names.ent (.global v) = some ((nmOf m'.names m'.names).glob v) := by
    intro m hm v hv
    obtain ⟨s, h1, h2⟩ := globN v hv
    have e : (nmOf m'.names m'.names).glob v = s := by show (m'.names.ent (.global v)).getD [] = s; rw [b2.2 v s h1]; rfl
    rw [e]; exact hm.2 v s h1
  have glob0 : ∀ v ∈ p.instLayout, LexSym ((nmOf m'.names m'.names).glob v) := by
    intro v hv
    obtain ⟨s, h1, h2⟩ := globN v hv
    have := globM (m := m0) ⟨fun _ _ h => h, fun _ _ h => h⟩ v hv
    rw [h1] at this; cases this; exact h2
  have fns : ∀ f ∈ p.funcLayout, ∃ m1 t fd, (m1, t) ∈ l ∧ N f = m1.names ∧ NInv [.default] m1 ∧ m0.LeGlobal m1 ∧ m1.LeGlobal m' ∧
      p.funcs.get? f = some fd ∧ t = texts (funTP (funAst (nmOf m'.names m1.names) f fd)) ∧
      ∀ x ∈ funTP (funAst (nmOf m'.names m1.names) f fd), x.named m1.names.Has := by
    intro f hf
    obtain ⟨i, hi⟩ := List.getElem?_of_mem hf
    obtain ⟨⟨m1, t⟩, hq, ps, e1, e2, e3, e4, e5, e6⟩ := Raw.All2.get_left b3 hi
    obtain ⟨q', hq', e7⟩ := Raw.All2.get_left hN hi
    rw [hq] at hq'; cases hq'
    obtain ⟨fd, e8, ps', e9, e10⟩ := func_writes hp hf (nmOf m'.names m1.names)
    rw [e1] at e9; cases e9
    obtain ⟨e11, e12⟩ := renders_tp (G := m'.names) (N := m1.names) e5 e6 (by rw [e10]; exact funTP_plain _)
    rw [e10] at e11 e12
    exact ⟨m1, t, fd, List.mem_of_getElem? hq, e7, e2, e4, e5, e8, e11, e12⟩
  have pf : ∀ f ∈ p.funcLayout, ∃ before fd ts r, p.funcs.get? f = some fd ∧ PrintableFun p before f fd ts r := by
    intro f hf
    obtain ⟨i, hi⟩ := List.getElem?_of_mem hf
    obtain ⟨fd, ts, r, h1, h2⟩ := hp.funcs i f hi
    exact ⟨_, fd, ts, r, h1, h2⟩
  have fnM : ∀ f ∈ p.funcLayout, LexSym ((nmOf m'.names m'.names).fn f) := by
    intro f hf
    obtain ⟨m1, t, fd, e1, e2, e3, e4, e5, e6, e7, e8⟩ := fns f hf
    obtain ⟨before, fd', ts, r, h1, h2⟩ := pf f hf
    rw [e6] at h1; cases h1
    exact hl _ e1 _ (e8 _ (fn_in hp h2 _))
  refine ⟨N, hN, ⟨⟨glob0, fnM, ?_, ?_, ?_⟩, fun f => ⟨rfl, rfl⟩, ?_⟩, ?_⟩
  · intro v hv v' hv' he
    have h1 := globM b2 v hv
    have h2 := globM b2 v' hv'
    rw [← he] at h2
    have := b1.distinct.ents _ _ _ h1 h2
    cases this; rfl
  · intro f hf f' hf' he
    have h1 := getD_lex (fnM f hf)
    have h2 := getD_lex (fnM f' hf')
    have he : (m'.names.ent (.func f)).getD [] = (m'.names.ent (.func f')).getD [] := he
    rw [← he] at h2
    have := b1.distinct.ents _ _ _ h1 h2
    cases this; rfl
  · intro v hv f hf he
    have h1 := globM b2 v hv
    have h2 := getD_lex (fnM f hf)
    have he : (nmOf m'.names m'.names).glob v = (m'.names.ent (.func f)).getD [] := he
    rw [← he] at h2
    have := b1.distinct.ents _ _ _ h1 h2
    cases this
  · intro f hf fd hfd
    obtain ⟨m1, t, fd', e1, e2, e3, e4, e5, e6, e7, e8⟩ := fns f hf
    rw [hfd] at e6; cases e6
    obtain ⟨before, fd', ts, r, h1, h2⟩ := pf f hf
    rw [hfd] at h1; cases h1
    show NmOk p fd (nmOf m'.names (N f))
    rw [e2]
    have vl : ∀ v, HasName fd v → LexSym ((nmOf m'.names m1.names).val v) := fun v hv => hl _ e1 _ (e8 _ (hasName_in hp hfd h2 _ hv))
    have bl : ∀ q ∈ fd.layout.bbs, LexSym ((nmOf m'.names m1.names).bb q.1) := fun q hq => hl _ e1 _ (e8 _ (bb_in hp h2 _ hq))
    refine ⟨vl, bl, ?_, ?_, ?_⟩
    · intro v v' hv hv' he
      have h1 := getD_lex (vl v hv)
      have h2 := getD_lex (vl v' hv')
      have he : (m1.names.ent (.value v)).getD [] = (m1.names.ent (.value v')).getD [] := he
      rw [← he] at h2
      have := e3.distinct.ents _ _ _ h1 h2
      cases this; rfl
    · intro q hq q' hq' he
      have h1 := getD_lex (bl q hq)
      have h2 := getD_lex (bl q' hq')
      have he : (m1.names.bb q.1).getD [] = (m1.names.bb q'.1).getD [] := he
      rw [← he] at h2
      exact e3.distinct.bbs _ _ _ h1 h2
    · intro v u hv hu he
      have h1 := getD_lex (vl v hv)
      have h2 := globM e4 u hu
      have he : (m1.names.ent (.value v)).getD [] = (nmOf m'.names m'.names).glob u := he
      rw [← he] at h2
      have := e3.distinct.ents _ _ _ h1 h2
      cases this
  · unfold progTP
    rw [← List.append_assoc, texts_append, texts_append]
    have hW : m0.names.Within m'.names := b2
    have c1 := (renders_tp (G := m'.names) (N := m0.names) hW a4 (hpl _)).1
    rw [hgt] at c1
    have hG : globalTrees p (nmOf m'.names m0.names) = globalTrees p (nmOf m'.names m'.names) := rfl
    rw [hG, texts_append] at c1
    rw [c1]
    congr 1
    unfold funTrees
    refine joinLines_texts (fun f => funItem p f (nmOf m'.names (N f))) ?_
    have : ∀ {fs : List Func} {l' : List (NM × Str)}, All2 (fun f q => q.2 = texts (funTP (funItem p f (nmOf m'.names (N f))))) fs l' →
        All2 (fun f t => t = texts (funTP (funItem p f (nmOf m'.names (N f))))) fs (l'.map (·.2)) := by
      intro fs l' h
      induction h with
      | nil => exact .nil
      | cons h _ ih => exact .cons h ih
    refine this ?_
    have key : ∀ {fs : List Func} {l' : List (NM × Str)}, All2 (fun f q => ∃ ps, BackKoopa.func p f = some ps ∧ NInv [.default] q.1 ∧ q.1.inFunc = true ∧ m0.LeGlobal q.1 ∧
      q.1.LeGlobal m' ∧ Renders q.1.names ps q.2) fs l' → All2 (fun f q => N f = q.1.names) fs l' → (∀ f ∈ fs, f ∈ p.funcLayout) → All2 (fun f q => q.2 = texts (funTP (funItem p f (nmOf m'.names (N f))))) fs l' := by
      intro fs l' h1
      induction h1 with
      | nil => intro _ _; exact .nil
      | cons h _ ih =>
        intro h2 h3
        cases h2 with
        | cons hN h2 =>
          refine .cons ?_ (ih h2 (fun f hf => h3 f (List.mem_cons_of_mem _ hf)))
          obtain ⟨ps, e1, e2, e3, e4, e5, e6⟩ := h
          rw [hN]
          obtain ⟨fd, e8, ps', e9, e10⟩ := func_writes hp (h3 _ List.mem_cons_self) (nmOf m'.names _)
          rw [e1] at e9; cases e9
          have e11 := (renders_tp e5 e6 (by rw [e10]; exact funTP_plain _)).1
          rw [e10] at e11
          unfold funItem
          rw [e8]; exact e11
    exact key b3 hN (fun f hf => hf)

end

end Koopa
