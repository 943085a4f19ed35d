import Verif.Lemmas.Back.LlvmWords
/-!
The texts that the LLVM generator writes are those of the translations.
-/
namespace Koopa
open Spec Spec.Ll

/-- Lists separated by `, ` that come from a list. -/
theorem words_list {N : Names} {α β : Type} {P : α → List Tok → Prop} {R : β → List Piece → Prop} {Q : β → α → Prop} :
    ∀ {vs : List β} {xs : List (List Piece)} {t : Str}, All2 R vs xs → Renders N (sepPieces xs) t →
      (∀ v x s, v ∈ vs → R v x → Renders N x s → ∃ a, Q v a ∧ P a (words s)) → ∃ as, All2 Q vs as ∧ Commas P as (words t)
  | _, _, t, .nil, h, _ => ⟨[], .nil, by rw [renders_nil h]; exact .nil⟩
  | _, _, t, .cons h1 .nil, h, hQ => by
    obtain ⟨a, h2, h3⟩ := hQ _ _ _ List.mem_cons_self h1 h
    exact ⟨[a], .cons h2 .nil, .one h3⟩
  | _, _, t, .cons h1 (.cons h2 h3), h, hQ => by
    rw [sepPieces] at h
    · obtain ⟨a, b, h4, h5, rfl⟩ := renders_append h
      obtain ⟨c, h6, rfl⟩ := renders_txt h5
      obtain ⟨x, h7, h8⟩ := hQ _ _ _ List.mem_cons_self h1 h4
      obtain ⟨xs, h9, h10⟩ := words_list (.cons h2 h3) h6 (fun v x s hv => hQ v x s (List.mem_cons_of_mem _ hv))
      cases h9 with
      | cons h11 h12 =>
        refine ⟨x :: _ :: _, .cons h7 (.cons h11 h12), ?_⟩
        rw [words_mid (by decide) (by decide) (by decide)]
        exact .cons h8 h10
    · intro h; cases h

theorem cstsW_of {cs : List (Ty × Cst)} {ts : List Tok} (h : Commas (fun (e : Ty × Cst) ts => ∃ us, CstW e.2 us ∧ ts = words (BackLlvm.ty e.1) ++ us) cs ts) :
    CstsW cs ts := by
  induction h with
  | nil => exact .nil
  | one h => obtain ⟨us, h1, rfl⟩ := h; exact .one (tyW _) h1
  | cons h _ ih => obtain ⟨us, h1, rfl⟩ := h; exact .cons (tyW _) h1 ih

theorem tysW_of {ts : List Ty} {us : List Tok} (h : Commas TyW ts us) : TysW ts us := by
  induction h with
  | nil => exact .nil
  | one h => exact .one h
  | cons h _ ih => exact .cons h ih

theorem words_ty_pre (t : Ty) (r : Str) : words (BackLlvm.ty t ++ " ".toList ++ r) = words (BackLlvm.ty t) ++ words r := by
  rw [List.append_assoc, words_mid (by decide) (by decide) (by decide)]; rfl

theorem constLit_words {N : Names} {get : Value → Option VData} {t : Ty} {k : VKind} {ps : List Piece} {s : Str}
    (h : BackLlvm.constLit true t k = some ps) (hr : Renders N ps s) :
    ∃ c us, CstOf get k c ∧ CstW c us ∧ words s = words (BackLlvm.ty t) ++ us := by
  cases k with
  | integer n =>
    cases h
    obtain ⟨a, b, h1, h2, rfl⟩ := renders_append hr
    rw [renders_ty h1, words_ty_pre]
    cases renders_one h2
    exact ⟨_, _, .int n, .int n, by rw [words_int]⟩
  | zeroInit =>
    cases h
    obtain ⟨a, b, h1, h2, rfl⟩ := renders_append hr
    rw [renders_ty h1, words_ty_pre]
    cases renders_one h2
    exact ⟨_, _, .zero, .zero, rfl⟩
  | undef =>
    cases h
    obtain ⟨a, b, h1, h2, rfl⟩ := renders_append hr
    rw [renders_ty h1, words_ty_pre]
    cases renders_one h2
    exact ⟨_, _, .undef, .undef, rfl⟩
  | _ => cases h

theorem elems_of {get : Value → Option VData} {es : List Value} {cs : List (Ty × Cst)}
    (h : All2 (fun e (c : Ty × Cst) => ∃ d, get e = some d ∧ c.1 = d.ty ∧ CstOf get d.kind c.2) es cs) :
    ∃ ds : List VData, es.map get = ds.map some ∧ cs.map (·.1) = ds.map (·.ty) ∧
      ∀ (i : Nat) d c, ds[i]? = some d → cs[i]? = some c → CstOf get d.kind c.2 := by
  induction h with
  | nil => exact ⟨[], rfl, rfl, fun i d c h => by simp at h⟩
  | cons h _ ih =>
    obtain ⟨ds, h1, h2, h3⟩ := ih
    obtain ⟨d, h4, h5, h6⟩ := h
    refine ⟨d :: ds, by simp [h4, h1], by simp [h5, h2], fun i x c hx hc => ?_⟩
    cases i with
    | zero => cases hx; cases hc; exact h6
    | succ i => exact h3 i x c hx hc

theorem constant_words {N : Names} {get : Value → Option VData} : ∀ (n : Nat) {t : Ty} {k : VKind} {ps : List Piece} {s : Str},
    BackLlvm.constant get true n t k = some ps → Renders N ps s →
    ∃ c us, CstOf get k c ∧ CstW c us ∧ words s = words (BackLlvm.ty t) ++ us
  | 0, t, k, ps, s, h, hr => constLit_words (by rw [BackLlvm.constant] at h; exact h) hr
  | n + 1, t, k, ps, s, h, hr => by
    by_cases hk : ∃ es, k = .aggregate es
    · obtain ⟨es, rfl⟩ := hk
      rw [BackLlvm.constant] at h
      split at h
      · cases h
      · rename_i qs hq
        cases h
        obtain ⟨a, b, h1, h2, rfl⟩ := renders_append hr
        rw [renders_ty h1, words_ty_pre]
        obtain ⟨c, h3, rfl⟩ := renders_txt h2
        obtain ⟨d, e, h4, h5, rfl⟩ := renders_append h3
        obtain ⟨cs, h6, h7⟩ := words_list (P := fun (e : Ty × Cst) ts => ∃ us, CstW e.2 us ∧ ts = words (BackLlvm.ty e.1) ++ us)
          (Q := fun e (c : Ty × Cst) => ∃ d, get e = some d ∧ c.1 = d.ty ∧ CstOf get d.kind c.2) (allSome_all2 hq) h4 (by
            intro v x s _ hx hs
            split at hx
            · cases hx
            · rename_i d hd
              obtain ⟨c, us, i1, i2, i3⟩ := constant_words n hx hs
              exact ⟨(d.ty, c), ⟨d, hd, rfl, i1⟩, us, i2, i3⟩)
        obtain ⟨ds, h8, h9, h10⟩ := elems_of h6
        refine ⟨_, _, .agg h8 h9 h10, .array (cstsW_of h7), ?_⟩
        cases renders_one h5
        rw [words_pre (by decide), words_post (by decide)]
        rfl
    · refine constLit_words (t := t) (ps := ps) ?_ hr
      rw [BackLlvm.constant] at h
      · exact h
      · exact fun es he => hk ⟨es, he⟩

/-- Operands that are written without their type. -/
inductive Bare : VKind → Value → Prop
  | lhs {op : BinOp} {l r : Value} : Bare (.binary op l r) l
  | rhs {op : BinOp} {l r : Value} : Bare (.binary op l r) r
  | cond {c : Value} {t f : BB} {ta fa : List Value} : Bare (.branch c t f ta fa) c
  | jump {b : BB} {as : List Value} {a : Value} : a ∈ as → Bare (.jump b as) a
  | brTrue {c : Value} {t f : BB} {ta fa : List Value} {a : Value} : a ∈ ta → Bare (.branch c t f ta fa) a
  | brFalse {c : Value} {t f : BB} {ta fa : List Value} {a : Value} : a ∈ fa → Bare (.branch c t f ta fa) a

/-- Whether an instruction has a result. -/
def llvmResult : VKind → Option Bool
  | .load _ | .getPtr _ _ | .getElemPtr _ _ => some true
  | .store _ _ | .branch _ _ _ _ _ | .jump _ _ | .ret _ => some false
  | _ => none

/-- What the generator needs to know about a function. -/
structure LlvmFn (p : Program) (fd : FData) : Prop where
  glob : ∀ v d, isGlobal v = true → p.values.get? v = some d → d.kind.isConst = false → d.kind.isGlobalAlloc = true
  loc : ∀ v d, fd.dfg.values.get? v = some d → d.kind.isGlobalAlloc = false
  bare : ∀ v d x, fd.dfg.values.get? v = some d → Bare d.kind x → ∀ e es, fd.dfg.values.get? x = some e → e.kind ≠ .aggregate es
  result : ∀ v d b, fd.dfg.values.get? v = some d → llvmResult d.kind = some b → d.ty.isUnit = !b
  users : ∀ b is bd, (b, is) ∈ fd.layout.bbs → fd.dfg.bbs.get? b = some bd → bd.params ≠ [] → bd.usedBy ≠ []

section
variable {p : Program} {fd : FData} {N : Names} (hN : NShape N) (hF : LlvmFn p fd)

theorem namePiece_eq {v : Value} {d : VData} {x : Piece} (h : namePiece v d = some x) :
    d.kind.isConst = false ∧ x = if d.kind.isGlobalAlloc then .global v d.name else .value v d.name := by
  unfold namePiece at h
  split at h
  · cases h
  · rename_i h1
    split at h
    · rename_i h2; cases h; exact ⟨by simpa using h1, by rw [if_pos h2]⟩
    · rename_i h2; cases h; exact ⟨by simpa using h1, by rw [if_neg h2]⟩

include hF in
theorem namePiece_local {v : Value} {d : VData} {x : Piece} (hd : fd.dfg.values.get? v = some d) (h : namePiece v d = some x) :
    d.kind.isConst = false ∧ x = .value v d.name := by
  obtain ⟨h1, rfl⟩ := namePiece_eq h
  exact ⟨h1, by rw [hF.loc v d hd]; rfl⟩

include hN hF in
theorem value_words {v : Value} {ps : List Piece} {s : Str} (h : BackLlvm.value p fd true v = some ps) (hr : Renders N ps s) :
    ∃ a, TOpdOf p fd N v a ∧ TOpdW a (words s) := by
  unfold BackLlvm.value at h
  split at h
  · rename_i hg
    split at h
    · cases h
    · rename_i d hd
      obtain ⟨x, h1, rfl⟩ := Option.map_eq_some_iff.1 h
      obtain ⟨h2, rfl⟩ := namePiece_eq h1
      rw [hF.glob v d hg hd h2] at hr
      obtain ⟨a, b, h3, h4, rfl⟩ := renders_append hr
      rw [renders_ty h3, words_ty_pre]
      have h5 : N.ent (.global v) = some b := renders_one h4
      rw [words_glob (hN.global v b h5)]
      refine ⟨(d.ty, .glob b), ⟨?_, .glob hg h5⟩, .mk (tyW _) (.glob (hN.global v b h5))⟩
      rw [BackLlvm.valueTy, if_pos hg, hd]; rfl
  · rename_i hg
    have hg : isGlobal v = false := by simpa using hg
    split at h
    · cases h
    · rename_i d hd
      have ht : BackLlvm.valueTy p fd v = some d.ty := by rw [BackLlvm.valueTy, if_neg (by rw [hg]; decide), hd]; rfl
      split at h
      · rename_i hc
        obtain ⟨c, us, h1, h2, h3⟩ := constant_words _ h hr
        rw [h3]
        exact ⟨(d.ty, .cst c), ⟨ht, .cst hg hd hc h1⟩, .mk (tyW _) (.cst h2)⟩
      · obtain ⟨x, h1, rfl⟩ := Option.map_eq_some_iff.1 h
        obtain ⟨h2, rfl⟩ := namePiece_local hF hd h1
        obtain ⟨a, b, h3, h4, rfl⟩ := renders_append hr
        rw [renders_ty h3, words_ty_pre]
        have h5 : N.ent (.value v) = some b := renders_one h4
        rw [words_loc (hN.value v b h5)]
        exact ⟨(d.ty, .loc b), ⟨ht, .loc hg hd h2 h5⟩, .mk (tyW _) (.loc (hN.value v b h5))⟩

include hN hF in
theorem value_bare {v : Value} {ps : List Piece} {s : Str} (h : BackLlvm.value p fd false v = some ps) (hr : Renders N ps s)
    (ha : ∀ e es, fd.dfg.values.get? v = some e → e.kind ≠ .aggregate es) : ∃ o, OpdOf fd N v o ∧ OpdW o (words s) := by
  unfold BackLlvm.value at h
  split at h
  · rename_i hg
    split at h
    · cases h
    · rename_i d hd
      obtain ⟨x, h1, rfl⟩ := Option.map_eq_some_iff.1 h
      obtain ⟨h2, rfl⟩ := namePiece_eq h1
      rw [hF.glob v d hg hd h2] at hr
      have h5 : N.ent (.global v) = some s := renders_one hr
      rw [words_glob (hN.global v s h5)]
      exact ⟨.glob s, .glob hg h5, .glob (hN.global v s h5)⟩
  · rename_i hg
    have hg : isGlobal v = false := by simpa using hg
    split at h
    · cases h
    · rename_i d hd
      split at h
      · rename_i hc
        rw [BackLlvm.constant] at h
        · cases hk : d.kind with
          | integer n =>
            rw [hk] at h; cases h
            cases renders_one hr
            exact ⟨.cst (.int n), .cst hg hd hc (by rw [hk]; exact .int n), .cst (by rw [words_int]; exact .int n)⟩
          | zeroInit =>
            rw [hk] at h; cases h
            cases renders_one hr
            exact ⟨.cst .zero, .cst hg hd hc (by rw [hk]; exact .zero), .cst .zero⟩
          | undef =>
            rw [hk] at h; cases h
            cases renders_one hr
            exact ⟨.cst .undef, .cst hg hd hc (by rw [hk]; exact .undef), .cst .undef⟩
          | aggregate es => exact absurd hk (ha d es hd)
          | _ => rw [hk] at h; cases h
        · exact fun es he => ha d es hd he
      · obtain ⟨x, h1, rfl⟩ := Option.map_eq_some_iff.1 h
        obtain ⟨h2, rfl⟩ := namePiece_local hF hd h1
        have h5 : N.ent (.value v) = some s := renders_one hr
        rw [words_loc (hN.value v s h5)]
        exact ⟨.loc s, .loc hg hd h2 h5, .loc (hN.value v s h5)⟩

/-- The line of an instruction with a result. -/
theorem words_defLine {n c : Str} (h : LocName n) :
    words (n ++ " = ".toList ++ (c ++ "\n".toList)) = (.word n :: .sym '=' :: words c) ++ [.sym '\n'] := by
  rw [List.append_assoc, words_mid (by decide) (by decide) (by decide), words_loc h, words_post (by decide)]
  rfl

/-- The line of an instruction without a result. -/
theorem words_line (c : Str) : words (c ++ "\n".toList) = words c ++ [.sym '\n'] := by
  rw [words_post (by decide)]; rfl

theorem one_line {α : Type} {P : α → List Tok → Prop} {a : α} {ts : List Tok} (h : P a ts) : Lines P [a] (ts ++ [.sym '\n']) := .cons h .nil

include hF in
theorem def_text {v : Value} {d : VData} {a : List Piece} {s : Str} (hd : fd.dfg.values.get? v = some d)
    (h : (if !BackLlvm.isBinary d.kind && !d.ty.isUnit then (namePiece v d).map (fun n => [n, txt " = "]) else some []) = some a)
    (hr : Renders N a s) (hb : BackLlvm.isBinary d.kind = false) :
    (d.ty.isUnit = false → ∃ n, N.ent (.value v) = some n ∧ s = n ++ " = ".toList) ∧ (d.ty.isUnit = true → s = []) := by
  rw [hb] at h
  refine ⟨fun hu => ?_, fun hu => ?_⟩
  · rw [hu] at h
    obtain ⟨x, h1, rfl⟩ := Option.map_eq_some_iff.1 h
    obtain ⟨h2, rfl⟩ := namePiece_local hF hd h1
    obtain ⟨n, b, h3, h4, rfl⟩ := renders_cons hr
    exact ⟨n, h3, by rw [← Option.some.inj (renders_one h4)]⟩
  · rw [hu] at h
    cases h
    exact renders_nil hr

theorem isUnit_iff {t : Ty} : t.isUnit = true ↔ t = .unit := by
  cases t <;> simp [Ty.isUnit]

theorem bbRef_text {b : BB} {x : Piece} {s : Str} (hb : BackLlvm.bbRef fd b = some x) (hx : N.text x = some s) : N.bb b = some s := by
  obtain ⟨d, -, rfl⟩ := Option.map_eq_some_iff.1 hb
  exact hx

include hN in
theorem label_of {b : BB} {s : Str} (h : N.bb b = some s) : ∃ l, s = '%' :: l ∧ LocName ('%' :: l) := by
  have := hN.bb b s h
  obtain ⟨l, rfl, hl⟩ := this
  exact ⟨l, rfl, l, rfl, hl⟩

theorem words_zero : words "0".toList = [.word (showInt (0 : I32).toInt)] := by decide

theorem opName_arith {op : BinOp} (h : BackLlvm.isCompare op = false) : ∃ o, arithOp op = some o ∧
    words (BackLlvm.opName op) = [o.word] := by
  cases op <;> first | exact absurd h (by decide) | exact ⟨_, rfl, by decide⟩

theorem opName_cond {op : BinOp} (h : BackLlvm.isCompare op = true) : ∃ c, condOp op = some c ∧
    words (BackLlvm.opName op) = [kw "icmp", c.word] := by
  cases op <;> first | exact absurd h (by decide) | exact ⟨_, rfl, by decide⟩

include hN hF in
theorem binary_words {v : Value} {d : VData} {ps : List Piece} {s : Str} {op : BinOp} {l r : Value} (hd : fd.dfg.values.get? v = some d)
    (hk : d.kind = .binary op l r) (h : BackLlvm.content p fd v d = some ps) (hr : Renders N ps s) :
    ∃ is, InstOf p fd N v d is ∧ Lines InstW is (words (s ++ "\n".toList)) := by
  unfold BackLlvm.content at h
  rw [hk] at h
  dsimp only at h
  split at h
  · rename_i n l' r' h1 h2 h3
    cases h
    obtain ⟨-, rfl⟩ := namePiece_local hF hd h1
    have hl : ∀ e es, fd.dfg.values.get? l = some e → e.kind ≠ .aggregate es := hF.bare v d l hd (by rw [hk]; exact .lhs)
    have hrr : ∀ e es, fd.dfg.values.get? r = some e → e.kind ≠ .aggregate es := hF.bare v d r hd (by rw [hk]; exact .rhs)
    obtain ⟨x, y, i1, i2, rfl⟩ := renders_cons hr
    obtain ⟨y1, i3, rfl⟩ := renders_txt i2
    obtain ⟨y2, i4, rfl⟩ := renders_lit i3
    obtain ⟨y3, i5, rfl⟩ := renders_txt i4
    obtain ⟨y4, y5, i6, i7, rfl⟩ := renders_append i5
    obtain ⟨y6, i8, rfl⟩ := renders_txt i7
    obtain ⟨y7, y8, i9, i10, rfl⟩ := renders_append i8
    obtain ⟨a, j1, j2⟩ := value_bare hN hF h2 i6 hl
    obtain ⟨b, j3, j4⟩ := value_bare hN hF h3 i9 hrr
    by_cases hc : BackLlvm.isCompare op = true
    · rw [if_pos hc] at i1 i10
      obtain ⟨c, k1, k2⟩ := opName_cond hc
      have hm : N.ent (.temp v) = some x := i1
      obtain ⟨z1, e1, rfl⟩ := renders_txt i10
      obtain ⟨nm, z2, e2, e3, rfl⟩ := renders_cons e1
      have hn : N.ent (.value v) = some nm := e2
      obtain ⟨z3, e4, rfl⟩ := renders_txt e3
      obtain ⟨tm, z4, e5, e6, rfl⟩ := renders_cons e4
      have hm' : N.ent (.temp v) = some tm := e5
      obtain rfl : x = tm := Option.some.inj (hm.symm.trans hm')
      cases renders_one e6
      refine ⟨_, .compare hk k1 hn hm j1 j3, ?_⟩
      have hw : words (x ++ (" = ".toList ++ (BackLlvm.opName op ++ (" i32 ".toList ++ (y4 ++ (", ".toList ++ (y7 ++ ("\n  ".toList ++
          (nm ++ (" = zext i1 ".toList ++ (x ++ " to i32".toList)))))))))) ++ "\n".toList) =
          (.word x :: .sym '=' :: kw "icmp" :: c.word :: kw "i32" :: (words y4 ++ .sym ',' :: words y7)) ++ .sym '\n' ::
          ((.word nm :: .sym '=' :: kw "zext" :: kw "i1" :: ([.word x] ++ [kw "to", kw "i32"])) ++ [.sym '\n']) := by
        rw [words_line, words_mid (by decide) (by decide) (by decide), words_mid (by decide) (by decide) (by decide),
          words_mid (by decide) (by decide) (by decide), words_mid (by decide) (by decide) (by decide),
          words_mid (by decide) (by decide) (by decide), words_post (by decide), words_loc (hN.temp v x hm), words_loc (hN.value v nm hn), k2]
        simp only [List.append_assoc, List.cons_append, List.nil_append]
        rfl
      rw [hw]
      exact .cons (.icmp (hN.temp v x hm) j2 j4) (one_line (.zext (hN.value v nm hn) (.loc (hN.temp v x hm))))
    · rw [if_neg hc] at i1 i10
      have hc : BackLlvm.isCompare op = false := by simpa using hc
      obtain ⟨o, k1, k2⟩ := opName_arith hc
      have hn : N.ent (.value v) = some x := i1
      rw [renders_nil i10]
      refine ⟨_, .arith hk k1 hn j1 j3, ?_⟩
      have hw : words (x ++ (" = ".toList ++ (BackLlvm.opName op ++ (" i32 ".toList ++ (y4 ++ (", ".toList ++ (y7 ++ [])))))) ++ "\n".toList) =
          (.word x :: .sym '=' :: o.word :: kw "i32" :: (words y4 ++ .sym ',' :: words y7)) ++ [.sym '\n'] := by
        rw [words_line, words_mid (by decide) (by decide) (by decide), words_mid (by decide) (by decide) (by decide),
          words_mid (by decide) (by decide) (by decide), words_loc (hN.value v x hn), k2, List.append_nil]
        rfl
      rw [hw]
      exact one_line (.arith (hN.value v x hn) j2 j4)
  · cases h

include hN hF in
/-- Instructions with a result, except the binary operations and calls. -/
theorem result_words {v : Value} {d : VData} {ps : List Piece} {s n : Str} (hd : fd.dfg.values.get? v = some d)
    (hk : d.kind = .alloc ∨ llvmResult d.kind = some true) (hn : N.ent (.value v) = some n)
    (h : BackLlvm.content p fd v d = some ps) (hr : Renders N ps s) :
    ∃ i, InstOf p fd N v d [i] ∧ InstW i (.word n :: .sym '=' :: words s) := by
  have ln := hN.value v n hn
  unfold BackLlvm.content at h
  cases e : d.kind with
  | alloc =>
    rw [e] at h
    dsimp only at h
    split at h
    · rename_i t ht
      cases h
      obtain ⟨y, i1, rfl⟩ := renders_txt hr
      obtain ⟨z, i2, rfl⟩ := renders_lit i1
      rw [renders_nil i2, List.append_nil, words_pre (by decide)]
      exact ⟨_, .alloc e ht hn, .alloca ln (tyW t)⟩
    · cases h
  | load src =>
    rw [e] at h
    obtain ⟨x, h1, rfl⟩ := Option.map_eq_some_iff.1 h
    obtain ⟨y, i1, rfl⟩ := renders_txt hr
    obtain ⟨z, i2, rfl⟩ := renders_lit i1
    obtain ⟨u, i3, rfl⟩ := renders_txt i2
    obtain ⟨a, j1, j2⟩ := value_words hN hF h1 i3
    rw [words_pre (by decide), words_mid (by decide) (by decide) (by decide)]
    exact ⟨_, .load e hn j1, .load ln (tyW d.ty) j2⟩
  | getPtr src idx =>
    rw [e] at h
    dsimp only at h
    split at h
    · rename_i t x y h1 h2 h3
      cases h
      obtain ⟨y, i1, rfl⟩ := renders_txt hr
      obtain ⟨z, i2, rfl⟩ := renders_lit i1
      obtain ⟨u, i3, rfl⟩ := renders_txt i2
      obtain ⟨u1, u2, i4, i5, rfl⟩ := renders_append i3
      obtain ⟨u3, i6, rfl⟩ := renders_txt i5
      obtain ⟨a, j1, j2⟩ := value_words hN hF h2 i4
      obtain ⟨b, j3, j4⟩ := value_words hN hF h3 i6
      rw [words_pre (by decide), words_mid (by decide) (by decide) (by decide), words_mid (by decide) (by decide) (by decide)]
      exact ⟨_, .getPtr e hn h1 j1 j3, .gep ln (tyW t) j2 (.one j4)⟩
    · cases h
  | getElemPtr src idx =>
    rw [e] at h
    dsimp only at h
    split at h
    · rename_i t x y h1 h2 h3
      cases h
      obtain ⟨y, i1, rfl⟩ := renders_txt hr
      obtain ⟨z, i2, rfl⟩ := renders_lit i1
      obtain ⟨u, i3, rfl⟩ := renders_txt i2
      obtain ⟨u1, u2, i4, i5, rfl⟩ := renders_append i3
      obtain ⟨u3, i6, rfl⟩ := renders_txt i5
      obtain ⟨a, j1, j2⟩ := value_words hN hF h2 i4
      obtain ⟨b, j3, j4⟩ := value_words hN hF h3 i6
      rw [words_pre (by decide), words_mid (by decide) (by decide) (by decide), words_mid (by decide) (by decide) (by decide)]
      have hz : TOpdW (.i32, .cst (.int 0)) ([kw "i32"] ++ words "0".toList) := .mk .i32 (.cst (by rw [words_zero]; exact .int 0))
      exact ⟨_, .getElemPtr e hn h1 j1 j3, .gep ln (tyW t) j2 (.cons hz (.one j4))⟩
    · cases h
  | _ => rw [e] at hk; rcases hk with hk | hk <;> cases hk

include hN hF in
theorem call_words {v : Value} {d : VData} {ps : List Piece} {s : Str} {g : Func} {args : List Value}
    (hk : d.kind = .call g args) (h : BackLlvm.content p fd v d = some ps) (hr : Renders N ps s) :
    ∃ f as us, N.ent (.func g) = some f ∧ GlobName f ∧ All2 (TOpdOf p fd N) args as ∧ Commas TOpdW as us ∧
      words s = kw "call" :: (words (BackLlvm.ty d.ty) ++ .word f :: .sym '(' :: (us ++ [.sym ')'])) := by
  unfold BackLlvm.content at h
  rw [hk] at h
  dsimp only at h
  split at h
  · cases h
  · rename_i gd hg
    obtain ⟨xs, h1, rfl⟩ := Option.map_eq_some_iff.1 h
    obtain ⟨y, i1, rfl⟩ := renders_txt hr
    obtain ⟨z, i2, rfl⟩ := renders_lit i1
    obtain ⟨u, i3, rfl⟩ := renders_txt i2
    obtain ⟨f, u2, i4, i5, rfl⟩ := renders_cons i3
    obtain ⟨u3, i6, rfl⟩ := renders_txt i5
    obtain ⟨u4, u5, i7, i8, rfl⟩ := renders_append i6
    cases renders_one i8
    have hf : N.ent (.func g) = some f := i4
    obtain ⟨as, j1, j2⟩ := words_list (P := TOpdW) (Q := TOpdOf p fd N) (allSome_all2 h1) i7 (fun v x s _ h h' => value_words hN hF h h')
    refine ⟨f, as, _, hf, hN.func g f hf, j1, j2, ?_⟩
    rw [words_pre (by decide), words_mid (by decide) (by decide) (by decide), words_mid (by decide) (by decide) (by decide),
      words_post (by decide), words_glob (hN.func g f hf)]
    rfl

include hN hF in
/-- Instructions without a result. -/
theorem plain_words {v : Value} {d : VData} {ps : List Piece} {s : Str} (hd : fd.dfg.values.get? v = some d)
    (hk : llvmResult d.kind = some false) (h : BackLlvm.content p fd v d = some ps) (hr : Renders N ps s) :
    ∃ is, InstOf p fd N v d is ∧ Lines InstW is (words (s ++ "\n".toList)) := by
  unfold BackLlvm.content at h
  rw [words_line]
  cases e : d.kind with
  | store x y =>
    rw [e] at h
    dsimp only at h
    split at h
    · rename_i x' y' h1 h2
      cases h
      obtain ⟨y, i1, rfl⟩ := renders_txt hr
      obtain ⟨u1, u2, i4, i5, rfl⟩ := renders_append i1
      obtain ⟨u3, i6, rfl⟩ := renders_txt i5
      obtain ⟨a, j1, j2⟩ := value_words hN hF h1 i4
      obtain ⟨b, j3, j4⟩ := value_words hN hF h2 i6
      rw [words_pre (by decide), words_mid (by decide) (by decide) (by decide)]
      exact ⟨_, .store e j1 j3, one_line (.store j2 j4)⟩
    · cases h
  | branch c t f ta fa =>
    rw [e] at h
    dsimp only at h
    split at h
    · rename_i c' t' f' h1 h2 h3
      cases h
      obtain ⟨x, y, i1, i2, rfl⟩ := renders_cons hr
      have hm : N.ent (.temp v) = some x := i1
      obtain ⟨y1, i3, rfl⟩ := renders_txt i2
      obtain ⟨y2, y3, i4, i5, rfl⟩ := renders_append i3
      obtain ⟨y4, i6, rfl⟩ := renders_txt i5
      obtain ⟨x', y5, i7, i8, rfl⟩ := renders_cons i6
      have hm' : N.ent (.temp v) = some x' := i7
      obtain rfl : x = x' := Option.some.inj (hm.symm.trans hm')
      obtain ⟨y6, i9, rfl⟩ := renders_txt i8
      obtain ⟨l1, y7, i10, i11, rfl⟩ := renders_cons i9
      obtain ⟨y8, i12, rfl⟩ := renders_txt i11
      have i13 := renders_one i12
      have b1 := bbRef_text h2 i10
      have b2 := bbRef_text h3 i13
      obtain ⟨l1, rfl, c1⟩ := label_of hN b1
      obtain ⟨l2, rfl, c2⟩ := label_of hN b2
      obtain ⟨o, j1, j2⟩ := value_bare hN hF h1 i4 (hF.bare v d c hd (by rw [e]; exact .cond))
      refine ⟨_, .branch e hm j1 b1 b2, ?_⟩
      have hw : words (x ++ (" = icmp ne i32 ".toList ++ (y2 ++ (", 0\n  br i1 ".toList ++ (x ++ (", label ".toList ++ ('%' :: l1 ++
          (", label ".toList ++ ('%' :: l2))))))))) = (.word x :: .sym '=' :: kw "icmp" :: kw "ne" :: kw "i32" ::
          (words y2 ++ .sym ',' :: words "0".toList)) ++ .sym '\n' :: (kw "br" :: kw "i1" :: ([.word x] ++ [.sym ',', kw "label", .word ('%' :: l1),
          .sym ',', kw "label", .word ('%' :: l2)])) := by
        rw [words_mid (by decide) (by decide) (by decide), words_mid (by decide) (by decide) (by decide), words_mid (by decide) (by decide) (by decide),
          words_mid (by decide) (by decide) (by decide), words_loc (hN.temp v x hm), words_loc c1, words_loc c2]
        have hz : words ", 0\n  br i1 ".toList = .sym ',' :: (words "0".toList ++ [.sym '\n', kw "br", kw "i1"]) := by decide
        rw [hz]
        simp only [List.append_assoc, List.cons_append, List.nil_append]
        rfl
      have hw2 : words (x ++ (" = icmp ne i32 ".toList ++ (y2 ++ (", 0\n  br i1 ".toList ++ (x ++ (", label ".toList ++ ('%' :: l1 ++
          (", label ".toList ++ ('%' :: l2))))))))) ++ [.sym '\n'] = _ := congrArg (· ++ [.sym '\n']) hw
      rw [hw2]
      rw [List.append_assoc]
      exact .cons (.icmp (c := .ne) (hN.temp v x hm) j2 (.cst (by rw [words_zero]; exact .int 0)))
        (one_line (.br (.loc (hN.temp v x hm)) c1 c2))
    · cases h
  | jump b as =>
    rw [e] at h
    obtain ⟨x, h1, rfl⟩ := Option.map_eq_some_iff.1 h
    obtain ⟨y, i1, rfl⟩ := renders_txt hr
    have b1 := bbRef_text h1 (renders_one i1)
    obtain ⟨l1, rfl, c1⟩ := label_of hN b1
    rw [words_pre (by decide), words_loc c1]
    exact ⟨_, .jump e b1, one_line (.jump c1)⟩
  | ret x =>
    rw [e] at h
    cases x with
    | none =>
      cases h
      obtain ⟨y, i1, rfl⟩ := renders_txt hr
      cases renders_one i1
      rw [words_pre (by decide)]
      exact ⟨_, .retVoid e, one_line .retVoid⟩
    | some x =>
      obtain ⟨x, h1, rfl⟩ := Option.map_eq_some_iff.1 h
      obtain ⟨y, i1, rfl⟩ := renders_txt hr
      obtain ⟨a, j1, j2⟩ := value_words hN hF h1 i1
      rw [words_pre (by decide)]
      exact ⟨_, .ret e j1, one_line (.ret j2)⟩
  | _ => rw [e] at hk; cases hk

include hN hF in
theorem inst_words {v : Value} {ps : List Piece} {s : Str} (h : BackLlvm.inst p fd v = some ps) (hr : Renders N ps s) :
    ∃ d is, fd.dfg.values.get? v = some d ∧ InstOf p fd N v d is ∧ Lines InstW is (words s) := by
  unfold BackLlvm.inst at h
  split at h
  · cases h
  · rename_i d hd
    split at h
    · rename_i a b ha hb
      cases h
      obtain ⟨sa, sc, i1, i2, rfl⟩ := renders_append hr
      obtain ⟨sb, s3, i3, i4, rfl⟩ := renders_append i2
      cases renders_one i4
      refine ⟨d, ?_⟩
      by_cases hbin : BackLlvm.isBinary d.kind = true
      · rw [hbin] at ha
        cases ha
        rw [renders_nil i1]
        cases hk : d.kind with
        | binary op l r =>
          obtain ⟨is, j1, j2⟩ := binary_words hN hF hd hk hb i3
          exact ⟨is, hd, j1, j2⟩
        | _ => rw [hk] at hbin; cases hbin
      · obtain ⟨t1, t2⟩ := def_text hF hd ha i1 (by simpa using hbin)
        by_cases h1 : d.kind = .alloc ∨ llvmResult d.kind = some true
        · have hu : d.ty.isUnit = false := by
            rcases h1 with h1 | h1
            · unfold BackLlvm.content at hb
              rw [h1] at hb
              dsimp only at hb
              split at hb
              · rename_i t ht; rw [ht]; rfl
              · cases hb
            · exact hF.result v d true hd h1
          obtain ⟨n, hn, rfl⟩ := t1 hu
          obtain ⟨i, j1, j2⟩ := result_words hN hF hd h1 hn hb i3
          rw [words_defLine (hN.value v n hn)]
          exact ⟨_, hd, j1, one_line j2⟩
        · by_cases h2 : llvmResult d.kind = some false
          · rw [t2 (hF.result v d false hd h2)]
            obtain ⟨is, j1, j2⟩ := plain_words hN hF hd h2 hb i3
            exact ⟨is, hd, j1, j2⟩
          · by_cases h3 : ∃ g args, d.kind = .call g args
            · obtain ⟨g, args, h3⟩ := h3
              obtain ⟨f, as, us, j1, j2, j3, j4, j5⟩ := call_words hN hF h3 hb i3
              by_cases hu : d.ty.isUnit = true
              · rw [t2 hu, List.nil_append, words_line, j5]
                rw [isUnit_iff] at hu
                refine ⟨_, hd, .callVoid h3 hu j1 j3, ?_⟩
                rw [hu]
                exact one_line (.callVoid j2 j4)
              · have hu' : d.ty.isUnit = false := Bool.eq_false_iff.2 hu
                obtain ⟨n, hn, rfl⟩ := t1 hu'
                rw [words_defLine (hN.value v n hn), j5]
                exact ⟨_, hd, .call h3 (fun h => hu (isUnit_iff.2 h)) hn j1 j3, one_line (.call (hN.value v n hn) (tyW _) j2 j4)⟩
            · exfalso
              unfold BackLlvm.content at hb
              cases hk : d.kind with
              | call g args => exact h3 ⟨g, args, hk⟩
              | alloc => exact h1 (.inl hk)
              | load => exact h1 (.inr (by rw [hk]; rfl))
              | getPtr => exact h1 (.inr (by rw [hk]; rfl))
              | getElemPtr => exact h1 (.inr (by rw [hk]; rfl))
              | store => exact h2 (by rw [hk]; rfl)
              | branch => exact h2 (by rw [hk]; rfl)
              | jump => exact h2 (by rw [hk]; rfl)
              | ret => exact h2 (by rw [hk]; rfl)
              | binary => exact hbin (by rw [hk]; rfl)
              | _ => rw [hk] at hb; cases hb
    · cases h

theorem ends_append {l : Str} (h : Ends l) (h0 : l ≠ []) (t : Str) : Ends (t ++ l) := by
  intro c hc
  rw [List.getLast?_append] at hc
  cases hl : l.getLast? with
  | none => exact absurd (List.getLast?_eq_none_iff.1 hl) h0
  | some x => rw [hl] at hc; exact h c (by rw [hl]; exact hc)

theorem ends_append_of {l : Str} (h : Ends l) {t : Str} (h' : Ends t) : Ends (t ++ l) := by
  cases l with
  | nil => rw [List.append_nil]; exact h'
  | cons x l => exact ends_append h (by simp) t

theorem inst_ends {v : Value} {ps : List Piece} {s : Str} (h : BackLlvm.inst p fd v = some ps) (hr : Renders N ps s) : Ends s := by
  unfold BackLlvm.inst at h
  split at h
  · cases h
  · split at h
    · cases h
      obtain ⟨sa, sc, i1, i2, rfl⟩ := renders_append hr
      obtain ⟨sb, s3, i3, i4, rfl⟩ := renders_append i2
      cases renders_one i4
      rw [← List.append_assoc]
      exact ends_append (by decide) (by decide) _
    · cases h

theorem lines_append {α : Type} {P : α → List Tok → Prop} {l l' : List α} {ts us : List Tok} (h : Lines P l ts) (h' : Lines P l' us) :
    Lines P (l ++ l') (ts ++ us) := by
  induction h with
  | nil => exact h'
  | cons h1 _ ih => rw [List.append_assoc]; exact .cons h1 ih
  | blank _ ih => exact .blank ih

include hN hF in
theorem insts_words : ∀ {vs : List Value} {qs : List (List Piece)} {s : Str}, All2 (fun v q => BackLlvm.inst p fd v = some q) vs qs →
    Renders N (qs.map (fun i => txt "  " :: i)).flatten s → Ends s ∧ ∃ is, InstsOf p fd N vs is ∧ Lines InstW is (words s)
  | _, _, s, .nil, hr => by
    rw [renders_nil hr]
    exact ⟨by decide, [], .nil, .nil⟩
  | _, _, s, .cons h1 h2, hr => by
    rw [List.map_cons, List.flatten_cons] at hr
    obtain ⟨a, b, i1, i2, rfl⟩ := renders_append hr
    obtain ⟨c, i3, rfl⟩ := renders_txt i1
    obtain ⟨e1, is, j1, j2⟩ := insts_words h2 i2
    obtain ⟨d, is', k1, k2, k3⟩ := inst_words hN hF h1 i3
    refine ⟨ends_append_of e1 (ends_append_of (inst_ends h1 i3) (by decide)), is' ++ is, .cons k1 k2 j1, ?_⟩
    rw [List.append_assoc, words_pre (by decide), words_pre (inst_ends h1 i3)]
    have hw : words "  ".toList = [] := by decide
    rw [hw, List.nil_append]
    exact lines_append k3 j2

include hN hF in
theorem incoming_words {b : BB} {i : Nat} {u : Value} {ps : List Piece} {s : Str} (h : BackLlvm.incoming p fd b i u = some ps) (hr : Renders N ps s) :
    ∃ q, IncOf fd N b i u q ∧ IncW q (words s) := by
  unfold BackLlvm.incoming at h
  split at h
  · cases h
  · rename_i d hd
    split at h
    · cases h
    · rename_i a ha
      split at h
      · rename_i x c hx hc
        obtain ⟨y, h1, rfl⟩ := Option.map_eq_some_iff.1 h
        obtain ⟨s1, i1, rfl⟩ := renders_txt hr
        obtain ⟨s2, s3, i2, i3, rfl⟩ := renders_append i1
        obtain ⟨s4, i4, rfl⟩ := renders_txt i3
        obtain ⟨s5, s6, i5, i6, rfl⟩ := renders_cons i4
        cases renders_one i6
        have b1 := bbRef_text h1 i5
        obtain ⟨l1, rfl, c1⟩ := label_of hN b1
        obtain ⟨o, j1, j2⟩ := value_bare hN hF hx i2 (hF.bare u d a hd (by
          unfold BackLlvm.phiArg at ha
          split at ha
          · rename_i hk
            rw [hk]
            split at ha
            · exact .brTrue (List.mem_of_getElem? ha)
            · exact .brFalse (List.mem_of_getElem? ha)
          · rename_i hk; rw [hk]; exact .jump (List.mem_of_getElem? ha)
          · cases ha))
        refine ⟨(o, l1), ⟨d, a, c, hd, ha, j1, hc, b1⟩, ?_⟩
        rw [words_pre (by decide), words_mid (by decide) (by decide) (by decide), words_post (by decide), words_loc c1]
        exact .mk j2 c1
      · cases h

include hN hF in
theorem phi_words {b : BB} {us : List Value} {i : Nat} {v : Value} {ps : List Piece} {s : Str} (hu : us ≠ []) (h : BackLlvm.phi p fd b us i v = some ps)
    (hr : Renders N ps s) : Ends s ∧ ∃ φ, PhiOf fd N b us i v φ ∧ Lines PhiW [φ] (words s) := by
  unfold BackLlvm.phi at h
  split at h
  · cases h
  · rename_i d hd
    split at h
    · rename_i x qs hx hq
      cases h
      obtain ⟨-, rfl⟩ := namePiece_local hF hd hx
      obtain ⟨s1, i1, rfl⟩ := renders_txt hr
      obtain ⟨n, s2, i2, i3, rfl⟩ := renders_cons i1
      have hn : N.ent (.value v) = some n := i2
      obtain ⟨s3, i4, rfl⟩ := renders_txt i3
      obtain ⟨s4, i5, rfl⟩ := renders_lit i4
      obtain ⟨s5, i6, rfl⟩ := renders_txt i5
      obtain ⟨s6, s7, i7, i8, rfl⟩ := renders_append i6
      cases renders_one i8
      obtain ⟨inc, j1, j2⟩ := words_list (P := IncW) (Q := IncOf fd N b i) (allSome_all2 hq) i7 (fun v x s _ h h' => incoming_words hN hF h h')
      refine ⟨?_, ⟨n, d.ty, inc⟩, ⟨d, hd, hn, rfl, j1⟩, ?_⟩
      · simp only [← List.append_assoc]
        exact ends_append (by decide) (by decide) _
      · have hw : words ("  ".toList ++ (n ++ (" = phi ".toList ++ (BackLlvm.ty d.ty ++ (" ".toList ++ (s6 ++ "\n".toList)))))) =
            (.word n :: .sym '=' :: kw "phi" :: (words (BackLlvm.ty d.ty) ++ words s6)) ++ [.sym '\n'] := by
          rw [words_pre (by decide), words_mid (by decide) (by decide) (by decide), words_mid (by decide) (by decide) (by decide), words_line,
            words_loc (hN.value v n hn)]
          simp only [List.append_assoc, List.cons_append, List.nil_append]
          rfl
        rw [hw]
        cases j1 with
        | nil => exact absurd rfl hu
        | cons _ _ => exact one_line (.mk (hN.value v n hn) (tyW _) j2)
    · cases h

include hN hF in
theorem phis_words {b : BB} {us : List Value} (hu : us ≠ []) : ∀ {i : Nat} {vs : List Value} {ps : List Piece} {s : Str},
    BackLlvm.phis p fd b us i vs = some ps → Renders N ps s → Ends s ∧ ∃ φs, PhisOf fd N b us i vs φs ∧ Lines PhiW φs (words s)
  | i, [], ps, s, h, hr => by
    cases h
    rw [renders_nil hr]
    exact ⟨by decide, [], .nil i, .nil⟩
  | i, v :: vs, ps, s, h, hr => by
    rw [BackLlvm.phis] at h
    split at h
    · rename_i x y hx hy
      cases h
      obtain ⟨a, b, i1, i2, rfl⟩ := renders_append hr
      obtain ⟨e1, φ, j1, j2⟩ := phi_words hN hF hu hx i1
      obtain ⟨e2, φs, j3, j4⟩ := phis_words hu hy i2
      refine ⟨ends_append_of e2 e1, φ :: φs, .cons j1 j3, ?_⟩
      rw [words_pre e1]
      exact lines_append j2 j4
    · cases h

include hN hF in
theorem bb_words {b : BB} {is : List Value} {ps : List Piece} {s : Str} (hb : (b, is) ∈ fd.layout.bbs) (h : BackLlvm.bb o p fd b is = some ps)
    (hr : Renders N ps s) : Ends s ∧ ∃ B, BlkOf p fd N (b, is) B ∧ BlkW B (words s) ∧ BlkW B (words s ++ [.sym '\n']) := by
  unfold BackLlvm.bb at h
  split at h
  · cases h
  · rename_i bd hbd
    split at h
    · rename_i x y hx hy
      cases h
      obtain ⟨l, s1, i1, i2, rfl⟩ := renders_cons hr
      obtain ⟨s2, i3, rfl⟩ := renders_txt i2
      obtain ⟨s3, s4, i4, i5, rfl⟩ := renders_append i3
      obtain ⟨e2, js, k1, k2⟩ := insts_words hN hF (allSome_all2 hy) i5
      have hl : N.bb b = some ('%' :: l) := by
        simp only [Names.text] at i1
        split at i1
        · rename_i c t ht
          cases i1
          obtain ⟨l', h1, -⟩ := label_of hN ht
          rw [ht, h1]
          cases h1
          rfl
        · cases i1
      obtain ⟨e1, φs, k3, k4⟩ : Ends s3 ∧ ∃ φs, PhisOf fd N b (o.iter b bd.usedBy) 0 bd.params φs ∧ Lines PhiW φs (words s3) := by
        by_cases hp : bd.params = []
        · rw [hp] at hx
          cases hx
          rw [renders_nil i4, hp]
          exact ⟨by decide, [], .nil 0, .nil⟩
        · exact phis_words hN hF (fun e => hF.users b is bd hb hbd hp (List.perm_nil.1 (e ▸ (o.perm b bd.usedBy).symm))) hx i4
      have ll := hN.bb b _ hl
      have hw : words (l ++ (":\n".toList ++ (s3 ++ s4))) = .word l :: .sym ':' :: .sym '\n' :: (words s3 ++ words s4) := by
        rw [words_mid (by decide) (by decide) (by decide), words_pre e1, words_label ll]
        rfl
      refine ⟨?_, ⟨l, φs, js⟩, ⟨hl, ⟨bd, _, hbd, o.perm b bd.usedBy, k3⟩, k1⟩, ?_, ?_⟩
      · exact ends_append (ends_append_of (ends_append_of e2 e1) (by decide)) (by simp) _
      · rw [hw]; exact .mk ll k4 k2
      · rw [hw, List.cons_append, List.cons_append, List.cons_append, List.append_assoc]
        exact .mk ll k4 (by simpa using lines_append k2 (.blank .nil))
    · cases h

include hN hF in
theorem blocks_words : ∀ {bs : List (BB × List Value)} {ps : List Piece} {s : Str}, (∀ q ∈ bs, q ∈ fd.layout.bbs) →
    BackLlvm.blocks o p fd bs = some ps → Renders N ps s → Ends s ∧ ∃ Bs, All2 (BlkOf p fd N) bs Bs ∧ BlksW Bs (words s)
  | [], ps, s, _, h, hr => by
    cases h
    rw [renders_nil hr]
    exact ⟨by decide, [], .nil, .nil⟩
  | [(b, is)], ps, s, hm, h, hr => by
    obtain ⟨e, B, h1, h2, -⟩ := bb_words hN hF (hm _ List.mem_cons_self) h hr
    refine ⟨e, [B], .cons h1 .nil, ?_⟩
    rw [← List.append_nil (words s)]
    exact .cons h2 .nil
  | (b, is) :: q :: bs, ps, s, hm, h, hr => by
    rw [BackLlvm.blocks] at h
    · split at h
      · rename_i x y hx hy
        cases h
        obtain ⟨s1, s2, i1, i2, rfl⟩ := renders_append hr
        obtain ⟨s3, i3, rfl⟩ := renders_txt i2
        obtain ⟨e, B, h1, -, h2⟩ := bb_words hN hF (hm _ List.mem_cons_self) hx i1
        obtain ⟨e', Bs, h3, h4⟩ := blocks_words (fun q hq => hm q (List.mem_cons_of_mem _ hq)) hy i3
        refine ⟨ends_append (ends_append_of e' (by decide)) (by simp) _, B :: Bs, .cons h1 h3, ?_⟩
        have hw : words (s1 ++ ("\n".toList ++ s3)) = (words s1 ++ [.sym '\n']) ++ words s3 := by
          rw [words_mid (by decide) (by decide) (by decide), List.append_assoc]; rfl
        rw [hw]
        exact .cons h2 h4
      · cases h
    · simp

include hN hF in
theorem param_words {v : Value} {ps : List Piece} {s : Str} (h : BackLlvm.param fd v = some ps) (hr : Renders N ps s) :
    ∃ q, ParamOf fd N v q ∧ ParamW q (words s) := by
  unfold BackLlvm.param at h
  split at h
  · cases h
  · rename_i d hd
    obtain ⟨x, h1, rfl⟩ := Option.map_eq_some_iff.1 h
    obtain ⟨-, rfl⟩ := namePiece_local hF hd h1
    obtain ⟨s1, i1, rfl⟩ := renders_lit hr
    obtain ⟨s2, i2, rfl⟩ := renders_txt i1
    have hn : N.ent (.value v) = some s2 := renders_one i2
    refine ⟨(d.ty, s2), ⟨d, hd, rfl, hn⟩, ?_⟩
    rw [words_mid (by decide) (by decide) (by decide), words_loc (hN.value v s2 hn)]
    exact .mk (tyW _) (hN.value v s2 hn)

theorem renders_setPrefix {q : Prefix} {xs : List Piece} {t : Str} (h : Renders N (.setPrefix q :: xs) t) : Renders N xs t := by
  obtain ⟨a, b, h1, h2, rfl⟩ := renders_cons h
  cases h1; exact h2

theorem tys_list : ∀ {ts : List Ty} {s : Str}, Renders N (sepPieces (ts.map (fun t => [.lit (BackLlvm.ty t)]))) s → TysW ts (words s) := by
  intro ts s h
  have h0 : ∀ ts : List Ty, All2 (fun t x => x = [Piece.lit (BackLlvm.ty t)]) ts (ts.map (fun t => [Piece.lit (BackLlvm.ty t)])) := by
    intro ts
    induction ts with
    | nil => exact .nil
    | cons t ts ih => exact .cons rfl ih
  obtain ⟨as, h1, h2⟩ := words_list (P := TyW) (Q := fun t a => a = t) (h0 ts) h (by
    intro v x s _ hx hs
    rw [hx] at hs
    cases renders_one hs
    exact ⟨v, rfl, tyW v⟩)
  have h3 : ∀ {ts as : List Ty}, All2 (fun t a => a = t) ts as → as = ts := by
    intro ts as h
    induction h with
    | nil => rfl
    | cons h _ ih => rw [h, ih]
  rw [← h3 h1]
  exact tysW_of h2

end

theorem func_words {p : Program} {N : Names} (hN : NShape N) {f : Func} (hF : ∀ fd, p.funcs.get? f = some fd → LlvmFn p fd) {ps : List Piece} {s : Str}
    (h : BackLlvm.func o p f = some ps) (hr : Renders N ps s) : Ends s ∧ ∃ I, FuncItem p N f I ∧ Lines ItemW [I] (words s) := by
  unfold BackLlvm.func at h
  split at h
  · cases h
  · rename_i fd hf
    split at h
    · rename_i ts r ht
      split at h
      · rename_i he
        cases h
        obtain ⟨s1, i1, rfl⟩ := renders_txt hr
        obtain ⟨s2, i2, rfl⟩ := renders_txt i1
        obtain ⟨s3, i3, rfl⟩ := renders_lit i2
        obtain ⟨s4, i4, rfl⟩ := renders_txt i3
        obtain ⟨n, s5, i5, i6, rfl⟩ := renders_cons i4
        obtain ⟨s6, i7, rfl⟩ := renders_txt i6
        obtain ⟨s7, s8, i8, i9, rfl⟩ := renders_append (renders_setPrefix i7)
        obtain ⟨s9, i10, rfl⟩ := renders_txt i9
        obtain ⟨s10, i11, rfl⟩ := renders_txt i10
        rw [renders_nil (renders_setPrefix i11)]
        have hn : N.ent (.func f) = some n := i5
        refine ⟨?_, _, .declare hf he ht hn, ?_⟩
        · rw [List.append_nil]
          simp only [← List.append_assoc]
          exact ends_append (by decide) (by decide) _
        · have hw : words ("declare".toList ++ (" ".toList ++ (BackLlvm.ty r ++ (" ".toList ++ (n ++ ("(".toList ++ (s7 ++ (")".toList ++ ("\n".toList ++ []))))))))) =
              (kw "declare" :: (words (BackLlvm.ty r) ++ .word n :: .sym '(' :: (words s7 ++ [.sym ')']))) ++ [.sym '\n'] := by
            rw [words_mid (by decide) (by decide) (by decide), words_mid (by decide) (by decide) (by decide), words_mid (by decide) (by decide) (by decide),
              words_mid (by decide) (by decide) (by decide), words_glob (hN.func f n hn)]
            simp only [List.append_assoc, List.cons_append, List.nil_append]
            rfl
          rw [hw]
          exact one_line (.declare (hN.func f n hn) (tyW r) (tys_list i8))
      · rename_i he
        split at h
        · rename_i xs bs hx hb
          cases h
          obtain ⟨s1, i1, rfl⟩ := renders_txt hr
          obtain ⟨s2, i2, rfl⟩ := renders_txt i1
          obtain ⟨s3, i3, rfl⟩ := renders_lit i2
          obtain ⟨s4, i4, rfl⟩ := renders_txt i3
          obtain ⟨n, s5, i5, i6, rfl⟩ := renders_cons i4
          obtain ⟨s6, i7, rfl⟩ := renders_txt i6
          obtain ⟨s7, s8, i8, i9, rfl⟩ := renders_append (renders_setPrefix i7)
          obtain ⟨s9, i10, rfl⟩ := renders_txt i9
          obtain ⟨s10, i11, rfl⟩ := renders_txt i10
          obtain ⟨s11, s12, i12, i13, rfl⟩ := renders_append i11
          obtain ⟨s13, i14, rfl⟩ := renders_txt i13
          rw [renders_nil (renders_setPrefix i14)]
          have hn : N.ent (.func f) = some n := i5
          obtain ⟨as, j1, j2⟩ := words_list (P := ParamW) (Q := ParamOf fd N) (allSome_all2 hx) i8 (fun v x s _ h h' => param_words hN (hF fd hf) h h')
          obtain ⟨e, Bs, k1, k2⟩ := blocks_words hN (hF fd hf) (fun _ h => h) hb i12
          refine ⟨?_, .define ⟨n, r, as, Bs⟩, .define hf (by simpa using he) ⟨hn, ⟨ts, ht⟩, j1, k1⟩, ?_⟩
          · rw [List.append_nil]
            simp only [← List.append_assoc]
            exact ends_append (by decide) (by decide) _
          · have hw : words ("define".toList ++ (" ".toList ++ (BackLlvm.ty r ++ (" ".toList ++ (n ++ ("(".toList ++ (s7 ++ (")".toList ++
                (" {\n".toList ++ (s11 ++ ("}\n".toList ++ []))))))))))) =
                (kw "define" :: (words (BackLlvm.ty r) ++ .word n :: .sym '(' :: (words s7 ++ .sym ')' :: .sym '{' :: .sym '\n' :: (words s11 ++ [.sym '}'])))) ++
                [.sym '\n'] := by
              rw [words_mid (by decide) (by decide) (by decide), words_mid (by decide) (by decide) (by decide), words_mid (by decide) (by decide) (by decide),
                words_mid (by decide) (by decide) (by decide), words_glob (hN.func f n hn), words_pre (by decide), words_pre e]
              simp only [List.append_assoc, List.cons_append, List.nil_append]
              rfl
            rw [hw]
            exact one_line (.define (hN.func f n hn) (tyW r) j2 k2)
        · cases h
    · cases h

theorem global_words {p : Program} {N : Names} (hN : NShape N) {v : Value} {ps : List Piece} {s : Str}
    (h : BackLlvm.globalInst p v = some ps) (hr : Renders N ps s) : Ends s ∧ ∃ I, GlobalItem p N v I ∧ Lines ItemW [I] (words s) := by
  unfold BackLlvm.globalInst at h
  split at h
  · cases h
  · rename_i d hd
    split at h
    · rename_i i hk
      split at h
      · cases h
      · rename_i x hx
        split at h
        · cases h
        · rename_i c hc
          cases h
          obtain ⟨n, s1, i1, i2, rfl⟩ := renders_cons hr
          have hn : N.ent (.global v) = some n := i1
          obtain ⟨s2, i3, rfl⟩ := renders_txt i2
          obtain ⟨s3, s4, i4, i5, rfl⟩ := renders_append i3
          cases renders_one i5
          obtain ⟨c, us, j1, j2, j3⟩ := constant_words _ hc i4
          refine ⟨?_, _, .mk hd hk hx hn j1, ?_⟩
          · simp only [← List.append_assoc]
            exact ends_append (by decide) (by decide) _
          · rw [words_mid (by decide) (by decide) (by decide), words_line, j3, words_glob (hN.global v n hn)]
            have := one_line (ItemW.global (hN.global v n hn) (tyW x.ty) j2)
            have hw : words " = global ".toList = [.sym '=', kw "global"] := by decide
            rw [hw]
            simpa using this
    · cases h

theorem globals_words {p : Program} {N : Names} (hN : NShape N) : ∀ {vs : List Value} {qs : List (List Piece)} {s : Str},
    All2 (fun v q => BackLlvm.globalInst p v = some q) vs qs → Renders N qs.flatten s → Ends s ∧ ∃ Is, All2 (GlobalItem p N) vs Is ∧ Lines ItemW Is (words s)
  | _, _, s, .nil, hr => by
    rw [renders_nil hr]
    exact ⟨by decide, [], .nil, .nil⟩
  | _, _, s, .cons h1 h2, hr => by
    rw [List.flatten_cons] at hr
    obtain ⟨a, b, i1, i2, rfl⟩ := renders_append hr
    obtain ⟨e1, I, j1, j2⟩ := global_words hN h1 i1
    obtain ⟨e2, Is, j3, j4⟩ := globals_words hN h2 i2
    refine ⟨ends_append_of e2 e1, I :: Is, .cons j1 j3, ?_⟩
    rw [words_pre e1]
    exact lines_append j2 j4

/-- The functions, each under its own names. -/
theorem funcs_words {p : Program} {R : Func → Names → Prop} : ∀ {fs : List Func} {ts : List Str},
    All2 (fun f t => ∃ ps N, BackLlvm.func o p f = some ps ∧ Renders N ps t ∧ NShape N ∧ R f N ∧ ∀ fd, p.funcs.get? f = some fd → LlvmFn p fd) fs ts →
    Ends (joinLines ts) ∧ ∃ Is, All2 (fun f I => ∃ N, R f N ∧ NShape N ∧ FuncItem p N f I) fs Is ∧ Lines ItemW Is (words (joinLines ts))
  | _, _, .nil => ⟨by decide, [], .nil, .nil⟩
  | _, _, .cons h .nil => by
    obtain ⟨ps, N, h1, h2, h3, h4, h5⟩ := h
    obtain ⟨e1, I, j1, j2⟩ := func_words h3 h5 h1 h2
    exact ⟨e1, [I], .cons ⟨N, h4, h3, j1⟩ .nil, j2⟩
  | _, _, .cons h (.cons h' hs) => by
    obtain ⟨ps, N, h1, h2, h3, h4, h5⟩ := h
    obtain ⟨e1, I, j1, j2⟩ := func_words h3 h5 h1 h2
    obtain ⟨e2, Is, j3, j4⟩ := funcs_words (.cons h' hs)
    rw [joinLines]
    · refine ⟨ends_append (ends_append_of e2 (t := "\n".toList) (by decide)) (by simp) _, I :: Is, .cons ⟨N, h4, h3, j1⟩ j3, ?_⟩
      have hw : ∀ t s : Str, words (t ++ '\n' :: s) = words t ++ .sym '\n' :: words s := fun t s =>
        words_mid (l := "\n".toList) (by decide) (by decide) (by decide) t s
      rw [hw]
      exact lines_append j2 (.blank j4)
    · intro h; cases h

end Koopa
