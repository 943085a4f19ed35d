import Verif.Spec.LlvmProg
import Verif.Lemmas.Back.LlvmLines
import Verif.Props.Names
/-!
The names that the LLVM generator chooses have the form of LLVM names, and functions keep theirs.
-/
namespace Koopa
open Spec Spec.Ll

/-- A global variable. -/
def GVar (p : Program) (v : Value) (d : VData) : Prop := GlobalVal p v d ∧ d.kind.isGlobalAlloc = true

/-- Names that can be written in the LLVM form. -/
structure LlvmNames (p : Program) : Prop where
  funcs : ∀ f fd, p.funcs.get? f = some fd → ∃ s, fd.name = '@' :: s ∧ AsciiIdent s ∧ s.length ≤ 512
  globals : ∀ v d n, GVar p v d → d.name = some n → AsciiName n ∧ n.length ≤ 513
  locals : ∀ f v d n, LocalVal p f v d → d.name = some n → AsciiName n
  bbs : ∀ f b d n, Block p f b d → d.name = some n → AsciiName n
  funcsApart : ∀ f g fd gd, p.funcs.get? f = some fd → p.funcs.get? g = some gd → fd.name = gd.name → f = g
  globalsApart : ∀ v w d e n, GVar p v d → GVar p w e → d.name = some n → e.name = some n → v = w
  apart : ∀ f fd v d, p.funcs.get? f = some fd → GVar p v d → d.name ≠ some fd.name

/-- The names of functions are the given ones, and those of globals that are not are different from all others. -/
structure NExact (p : Program) (N : Names) : Prop where
  func : ∀ f n, N.ent (.func f) = some n → ∃ fd, p.funcs.get? f = some fd ∧ fd.name = n
  global : ∀ v n, N.ent (.global v) = some n → (∃ d, GVar p v d ∧ d.name = some n) ∨ ∃ t, n = '@' :: '$' :: t

/-! ### Shapes -/

theorem Spec.AsciiIdent.named {s : Str} (h : AsciiIdent s) : Named s := by
  refine ⟨h.1, fun c hc => ?_⟩
  rcases h.2 c hc with h | h
  · simp [nameChar, h]
  · simp [nameChar, h]

theorem named_take {s : Str} (h : Named s) {n : Nat} (hn : 0 < n) : Named (s.take n) := by
  obtain ⟨⟨c, t, rfl, h1⟩, h2⟩ := h
  obtain ⟨m, rfl⟩ : ∃ m, n = m + 1 := ⟨n - 1, by omega⟩
  exact ⟨⟨c, t.take m, rfl, h1⟩, fun x hx => h2 x (List.mem_of_mem_take hx)⟩

theorem named_dollar {s : Str} (h : ∀ c ∈ s, nameChar c = true) : Named ('$' :: s) :=
  ⟨⟨'$', s, rfl, by decide⟩, fun c hc => by
    rcases List.mem_cons.1 hc with rfl | hc
    · decide
    · exact h c hc⟩

theorem nameChar_digit {c : Char} (h : 48 ≤ c.toNat ∧ c.toNat ≤ 57) : nameChar c = true := by
  have : c.isDigit = true := by
    simp only [Char.isDigit, Bool.and_eq_true, decide_eq_true_eq]
    exact ⟨h.1, h.2⟩
  simp [nameChar, Char.isAlphanum, this]

theorem named_suffix {s : Str} (h : Named s) (k : Nat) : Named (suffixed s k) := by
  obtain ⟨⟨c, t, rfl, h1⟩, h2⟩ := h
  refine ⟨⟨c, t ++ '_' :: showNat k, rfl, h1⟩, fun x hx => ?_⟩
  rcases List.mem_append.1 hx with hx | hx
  · exact h2 x hx
  · rcases List.mem_cons.1 hx with rfl | hx
    · decide
    · exact nameChar_digit (showNat_digit hx)

theorem named_temp (k : Nat) : Named ('$' :: showNat k) := named_dollar (fun _ hc => nameChar_digit (showNat_digit hc))

theorem ascii_size {c : Char} (h : nameChar c = true) : c.utf8Size = 1 := by
  have h1 : c.val ≤ 127 := by
    simp only [nameChar, Char.isAlphanum, Char.isAlpha, Char.isUpper, Char.isLower, Char.isDigit, Bool.or_eq_true, Bool.and_eq_true, decide_eq_true_eq, beq_iff_eq] at h
    rcases h with (((((⟨h, h'⟩ | ⟨h, h'⟩) | ⟨h, h'⟩) | rfl) | rfl) | rfl) | rfl
    · exact UInt32.le_trans h' (by decide)
    · exact UInt32.le_trans h' (by decide)
    · exact UInt32.le_trans h' (by decide)
    all_goals decide
  unfold Char.utf8Size
  simp only
  exact if_pos h1

theorem truncate_ascii : ∀ (n : Nat) (s : Str), (∀ c ∈ s, c.utf8Size = 1) → truncate n s = some (s.take n)
  | n, [], _ => by simp [truncate]
  | 0, _ :: _, _ => by simp [truncate]
  | n + 1, c :: s, h => by
    rw [truncate, h c List.mem_cons_self, if_pos (by omega), Nat.add_sub_cancel, truncate_ascii n s (fun x hx => h x (List.mem_cons_of_mem _ hx))]
    rfl

/-- The name a prefix gives to a name of the program. -/
theorem prefix_name {a : Char} (ha : a = '@' ∨ a = '%') {c n : Str} (hc : AsciiName c)
    (h : (Prefix.custom [a] [a, '$'] (some 513)).name c = some n) :
    (∃ s, c = '@' :: s ∧ AsciiIdent s ∧ n = a :: s.take 512) ∨ ∃ s, c = '%' :: s ∧ AsciiIdent s ∧ n = a :: '$' :: s.take 511 := by
  have hsz : a.utf8Size = 1 := by rcases ha with rfl | rfl <;> decide
  obtain ⟨x, s, rfl, hx, hs⟩ := hc
  have h1 : ∀ y ∈ s, y.utf8Size = 1 := fun y hy => ascii_size (hs.named.2 y hy)
  rcases hx with rfl | rfl
  · refine .inl ⟨s, rfl, hs, ?_⟩
    simp only [Prefix.name, List.singleton_append] at h
    rw [truncate_ascii _ _ (by
      intro y hy
      rcases List.mem_cons.1 hy with rfl | hy
      · exact hsz
      · exact h1 y hy)] at h
    exact (Option.some.inj h).symm
  · refine .inr ⟨s, rfl, hs, ?_⟩
    have h2 : ('%' : Char).utf8Size = 1 := by decide
    have h3 : (Prefix.custom [a] [a, '$'] (some 513)).name ('%' :: s) = truncate 513 ([a, '$'] ++ s) := by
      unfold Prefix.name
      simp [h2]
    rw [h3] at h
    rw [truncate_ascii _ _ (by
      intro y hy
      simp only [List.cons_append, List.nil_append, List.mem_cons] at hy
      rcases hy with rfl | rfl | hy
      · exact hsz
      · decide
      · exact h1 y hy)] at h
    exact (Option.some.inj h).symm

theorem chosen_named {a : Char} (ha : a = '@' ∨ a = '%') {id : Nat} {ns : List Str} {c : Option Str} {n : Str} (hc : ∀ x, c = some x → AsciiName x)
    (h : Chosen (Prefix.custom [a] [a, '$'] (some 513)) id ns c n) : ∃ s, n = a :: s ∧ Named s := by
  cases c with
  | none => exact ⟨_, h, named_temp id⟩
  | some x =>
    obtain ⟨c', h1, h2⟩ := h
    have h3 : ∃ s, c' = a :: s ∧ Named s := by
      rcases prefix_name ha (hc x rfl) h1 with ⟨s, -, hs, rfl⟩ | ⟨s, -, hs, rfl⟩
      · exact ⟨_, rfl, named_take hs.named (by decide)⟩
      · exact ⟨_, rfl, named_dollar (fun c hc => hs.named.2 c (List.mem_of_mem_take hc))⟩
    rcases h2 with ⟨-, rfl⟩ | ⟨-, k, rfl, -⟩
    · exact h3
    · obtain ⟨s, rfl, hs⟩ := h3
      exact ⟨_, rfl, named_suffix hs k⟩

/-- The prefixes of the LLVM generator. -/
abbrev llvmKs : List Prefix := [BackLlvm.globalPrefix, BackLlvm.localPrefix]

theorem tempNo_text {s : Str} {k : Nat} (h : TempNo llvmKs s k) : s = '@' :: '$' :: showNat k ∨ s = '%' :: '$' :: showNat k := by
  obtain ⟨q, hq, rfl⟩ := h
  simp only [List.mem_cons, List.not_mem_nil, or_false] at hq
  rcases hq with rfl | rfl
  · exact .inl rfl
  · exact .inr rfl

theorem Spec.AsciiName.llvmOk {c : Str} (h : AsciiName c) : LlvmOk c := by
  obtain ⟨x, s, rfl, -, ⟨y, t, rfl, hy⟩, hs⟩ := h
  rintro d rest (h1 | ⟨z, -, h1⟩) hd
  · cases h1
    rcases hs '$' List.mem_cons_self with h | h <;> revert h <;> decide
  · cases h1
    have : y.isDigit = true := by
      simp only [Char.isDigit, Bool.and_eq_true, decide_eq_true_eq]
      exact ⟨hd.1, hd.2⟩
    rw [this] at hy; cases hy

theorem Spec.AsciiName.fine {c : Str} (h : AsciiName c) : FineName llvmKs c := LlvmOk.fine h.llvmOk

/-- What holds of the name manager. -/
structure NGood (p : Program) (m : NM) : Prop where
  inv : NInv llvmKs m
  shape : NShape m.names
  exact : NExact p m.names

variable {p : Program}

theorem not_dollar {s : Str} (h : AsciiIdent s) : ∀ t, s ≠ '$' :: t := by
  rintro t rfl
  rcases h.2 '$' List.mem_cons_self with h | h <;> revert h <;> decide

/-- The name of a function is not in use when the function gets it. -/
theorem NGood.freshFunc (hp : LlvmNames p) {m : NM} (hm : NGood p m) {f : Func} {fd : FData} (hf : p.funcs.get? f = some fd)
    (h0 : m.names.ent (.func f) = none) : fd.name ∉ m.globalNames := by
  obtain ⟨s, hs, hi, -⟩ := hp.funcs f fd hf
  intro hin
  rcases hm.inv.only _ hin with ⟨e, he⟩ | ⟨k, hk⟩
  · cases e with
    | func g =>
      obtain ⟨gd, h1, h2⟩ := hm.exact.func g _ he
      rw [hp.funcsApart f g fd gd hf h1 h2.symm, he] at h0
      cases h0
    | global v =>
      rcases hm.exact.global v _ he with ⟨d, h1, h2⟩ | ⟨t, h1⟩
      · exact hp.apart f fd v d hf h1 h2
      · rw [hs] at h1
        exact not_dollar hi t (List.cons.inj h1).2
    | value v =>
      obtain ⟨t, h1, -⟩ := hm.shape.value v _ he
      rw [hs] at h1
      exact absurd (List.cons.inj h1).1 (by decide)
    | temp v =>
      obtain ⟨t, h1, -⟩ := hm.shape.temp v _ he
      rw [hs] at h1
      exact absurd (List.cons.inj h1).1 (by decide)
  · rcases tempNo_text hk with h | h
    · rw [hs] at h
      exact not_dollar hi _ (List.cons.inj h).2
    · rw [hs] at h
      exact absurd (List.cons.inj h).1 (by decide)

theorem NGood.freshGlobal (hp : LlvmNames p) {m : NM} (hm : NGood p m) {v : Value} {d : VData} {s : Str} (hv : GVar p v d)
    (hd : d.name = some ('@' :: s)) (hi : AsciiIdent s) (h0 : m.names.ent (.global v) = none) : ('@' :: s) ∉ m.globalNames := by
  intro hin
  rcases hm.inv.only _ hin with ⟨e, he⟩ | ⟨k, hk⟩
  · cases e with
    | func g =>
      obtain ⟨gd, h1, h2⟩ := hm.exact.func g _ he
      exact hp.apart g gd v d h1 hv (by rw [hd, h2])
    | global w =>
      rcases hm.exact.global w _ he with ⟨e, h1, h2⟩ | ⟨t, h1⟩
      · rw [hp.globalsApart v w d e _ hv h1 hd h2, he] at h0
        cases h0
      · exact not_dollar hi t (List.cons.inj h1).2
    | value v =>
      obtain ⟨t, h1, -⟩ := hm.shape.value v _ he
      exact absurd (List.cons.inj h1).1 (by decide)
    | temp v =>
      obtain ⟨t, h1, -⟩ := hm.shape.temp v _ he
      exact absurd (List.cons.inj h1).1 (by decide)
  · rcases tempNo_text hk with h | h
    · exact not_dollar hi _ (List.cons.inj h).2
    · exact absurd (List.cons.inj h).1 (by decide)

theorem take_all {s : Str} {n : Nat} (h : s.length ≤ n) : s.take n = s := List.take_of_length_le h

/-- A new name for an entity that keeps the properties. -/
theorem NamedEnt.good {m m' : NM} {e : Ent} {c : Option Str} {n : Str} (h : NamedEnt llvmKs m m' e c n) (hm : NGood p m)
    (hg : ∀ f, e = .func f → GlobName n ∧ ∃ fd, p.funcs.get? f = some fd ∧ fd.name = n)
    (hv : ∀ v, e = .global v → GlobName n ∧ ((∃ d, GVar p v d ∧ d.name = some n) ∨ ∃ t, n = '@' :: '$' :: t))
    (hl : (∃ v, e = .value v ∨ e = .temp v) → LocName n) : NGood p m' := by
  refine ⟨h.inv hm.inv, ⟨?_, ?_, ?_, ?_, ?_⟩, ⟨?_, ?_⟩⟩
  · intro f x hx
    rw [h.ent] at hx
    split at hx
    · rename_i he; cases hx; exact (hg f he.symm).1
    · exact hm.shape.func f x hx
  · intro f x hx
    rw [h.ent] at hx
    split at hx
    · rename_i he; cases hx; exact (hv f he.symm).1
    · exact hm.shape.global f x hx
  · intro f x hx
    rw [h.ent] at hx
    split at hx
    · rename_i he; cases hx; exact hl ⟨f, .inl he.symm⟩
    · exact hm.shape.value f x hx
  · intro f x hx
    rw [h.ent] at hx
    split at hx
    · rename_i he; cases hx; exact hl ⟨f, .inr he.symm⟩
    · exact hm.shape.temp f x hx
  · rw [h.bb]; exact hm.shape.bb
  · intro f x hx
    rw [h.ent] at hx
    split at hx
    · rename_i he; cases hx; exact (hg f he.symm).2
    · exact hm.exact.func f x hx
  · intro f x hx
    rw [h.ent] at hx
    split at hx
    · rename_i he; cases hx; exact (hv f he.symm).2
    · exact hm.exact.global f x hx

theorem NamedBb.good {m m' : NM} {b : BB} {c : Option Str} {n : Str} (h : NamedBb llvmKs m m' b c n) (hm : NGood p m) (hl : LocName n) : NGood p m' := by
  refine ⟨h.inv hm.inv, ⟨?_, ?_, ?_, ?_, ?_⟩, ⟨?_, ?_⟩⟩
  · rw [h.ent]; exact hm.shape.func
  · rw [h.ent]; exact hm.shape.global
  · rw [h.ent]; exact hm.shape.value
  · rw [h.ent]; exact hm.shape.temp
  · intro x y hx
    rw [h.bb] at hx
    split at hx
    · cases hx; exact hl
    · exact hm.shape.bb x y hx
  · rw [h.ent]; exact hm.exact.func
  · rw [h.ent]; exact hm.exact.global

/-- Pieces written with the prefix for globals. -/
inductive GPiece (p : Program) : Piece → Prop
  | lit (s : Str) : GPiece p (.lit s)
  | func {f : Func} {fd : FData} : p.funcs.get? f = some fd → GPiece p (.func f fd.name)
  | global {v : Value} {d : VData} : GVar p v d → GPiece p (.global v d.name)

theorem GPiece.fine (hp : LlvmNames p) {x : Piece} (h : GPiece p x) (b : Bool) : x.Fine llvmKs b := by
  cases h with
  | lit => trivial
  | func hf =>
    obtain ⟨s, h1, h2, -⟩ := hp.funcs _ _ hf
    exact AsciiName.fine ⟨_, _, h1, .inl rfl, h2⟩
  | global hv => exact fun c hc => (hp.globals _ _ _ hv hc).1.fine

theorem GPiece.run (hp : LlvmNames p) {x : Piece} (h : GPiece p x) {m m' : NM} (hm : NGood p m) (hpre : m.pre = BackLlvm.globalPrefix) {s : Str}
    (hr : x.run m = some (s, m')) : NGood p m' ∧ m'.pre = BackLlvm.globalPrefix ∧ m'.inFunc = m.inFunc ∧ m.Le m' ∧ m'.names.text x = some s := by
  obtain ⟨-, h2, h3, h4⟩ := Piece.run_spec prefixes_llvm hm.inv (h.fine hp _) hr
  refine (fun ⟨h5, h6⟩ => ⟨h5, h6, h2, h3, h4⟩ : NGood p m' ∧ m'.pre = BackLlvm.globalPrefix → _) ?_
  cases h with
  | lit => cases hr; exact ⟨hm, hpre⟩
  | @func f fd hf =>
    obtain ⟨t, n1, n2, n3⟩ := hp.funcs f fd hf
    have hA : AsciiName fd.name := ⟨_, _, n1, .inl rfl, n2⟩
    rcases NM.funcName_spec prefixes_llvm hm.inv hA.fine hr with ⟨-, rfl⟩ | h1
    · exact ⟨hm, hpre⟩
    · refine ⟨h1.good hm (fun g hg => ?_) (fun _ => nofun) (by rintro ⟨v, h | h⟩ <;> cases h), h1.pre.trans hpre⟩
      cases hg
      have hch := h1.chosen
      rw [hpre] at hch
      refine ⟨chosen_named (a := '@') (.inl rfl) (by rintro x ⟨⟩; exact hA) hch, fd, hf, ?_⟩
      obtain ⟨c', i1, i2⟩ := hch
      have i3 : c' = fd.name := by
        rcases prefix_name (a := '@') (.inl rfl) hA i1 with ⟨u, j1, -, j2⟩ | ⟨u, j1, -, -⟩
        · rw [j2, j1]
          rw [n1] at j1
          rw [← (List.cons.inj j1).2, take_all n3]
        · rw [n1] at j1
          exact absurd (List.cons.inj j1).1 (by decide)
      rw [i3] at i2
      rcases i2 with ⟨-, i2⟩ | ⟨i2, -⟩
      · exact i2.symm
      · exact absurd i2 (hm.freshFunc hp hf h1.fresh)
  | @global v d hv =>
    rcases NM.globalName_spec prefixes_llvm hm.inv (fun c hc => (hp.globals _ _ _ hv hc).1.fine) hr with ⟨-, rfl⟩ | h1
    · exact ⟨hm, hpre⟩
    · refine ⟨h1.good hm (fun _ => nofun) (fun g hg => ?_) (by rintro ⟨v, h | h⟩ <;> cases h), h1.pre.trans hpre⟩
      cases hg
      have hch := h1.chosen
      rw [hpre] at hch
      refine ⟨chosen_named (a := '@') (.inl rfl) (fun x hx => (hp.globals _ _ _ hv hx).1) hch, ?_⟩
      cases hd : d.name with
      | none =>
        rw [hd] at hch
        exact .inr ⟨_, hch⟩
      | some c =>
        rw [hd] at hch
        obtain ⟨hA, hlen⟩ := hp.globals _ _ _ hv hd
        obtain ⟨c', i1, i2⟩ := hch
        rcases prefix_name (a := '@') (.inl rfl) hA i1 with ⟨u, rfl, j1, j2⟩ | ⟨u, rfl, -, j2⟩
        · have hl : u.length ≤ 512 := by simpa using hlen
          rw [take_all hl] at j2
          rw [j2] at i2
          rcases i2 with ⟨-, i2⟩ | ⟨i2, -⟩
          · exact .inl ⟨d, hv, by rw [hd, i2]⟩
          · exact absurd i2 (hm.freshGlobal hp hv hd j1 h1.fresh)
        · rw [j2] at i2
          rcases i2 with ⟨-, i2⟩ | ⟨-, k, i2, -⟩
          · exact .inr ⟨_, i2⟩
          · exact .inr ⟨_, i2⟩

theorem GPiece.runs (hp : LlvmNames p) : ∀ {xs : List Piece} {m m' : NM} {s : Str}, (∀ x ∈ xs, GPiece p x) → NGood p m → m.pre = BackLlvm.globalPrefix →
    runPieces m xs = some (s, m') → NGood p m' ∧ m'.pre = BackLlvm.globalPrefix ∧ m'.inFunc = m.inFunc ∧ m.Le m' ∧ Renders m'.names xs s
  | [], m, m', s, _, hm, hpre, h => by cases h; exact ⟨hm, hpre, rfl, .refl _, .nil⟩
  | x :: xs, m, m', s, hx, hm, hpre, h => by
    rw [runPieces] at h
    split at h
    · cases h
    · rename_i s1 m1 h1
      obtain ⟨a1, a2, a3, a4, a5⟩ := (hx x List.mem_cons_self).run hp hm hpre h1
      split at h
      · cases h
      · rename_i s2 m2 h2
        cases h
        obtain ⟨b1, b2, b3, b4, b5⟩ := GPiece.runs hp (fun y hy => hx y (List.mem_cons_of_mem _ hy)) a1 a2 h2
        exact ⟨b1, b2, b3.trans a3, a4.trans b4, .cons (Names.text_mono b4 a5) b5⟩

/-- Pieces written with the prefix for locals; `m` has the names of the functions and globals. -/
inductive LPiece (m : NM) : Piece → Prop
  | lit (s : Str) : LPiece m (.lit s)
  | func {f : Func} {c n : Str} : m.names.ent (.func f) = some n → LPiece m (.func f c)
  | global {v : Value} {c : Option Str} {n : Str} : m.names.ent (.global v) = some n → LPiece m (.global v c)
  | value {v : Value} {c : Option Str} : (∀ x, c = some x → AsciiName x) → LPiece m (.value v c)
  | temp (v : Value) : LPiece m (.temp v)
  | bb {b : BB} {c : Option Str} : (∀ x, c = some x → AsciiName x) → LPiece m (.bb b c)
  | label {b : BB} {c : Option Str} : (∀ x, c = some x → AsciiName x) → LPiece m (.label b c)

theorem LPiece.mono {m m' : NM} (hl : m.Le m') {x : Piece} (h : LPiece m x) : LPiece m' x := by
  cases h with
  | lit => exact .lit _
  | func h => exact .func (hl.1 _ _ h)
  | global h => exact .global (hl.1 _ _ h)
  | value h => exact .value h
  | temp => exact .temp _
  | bb h => exact .bb h
  | label h => exact .label h

theorem bb_good {m m' : NM} {b : BB} {c : Option Str} {n : Str} (hm : NGood p m) (hpre : m.pre = BackLlvm.localPrefix) (hin : m.inFunc = true)
    (hc : ∀ x, c = some x → AsciiName x) (hr : m.bbName b c = some (n, m')) :
    NGood p m' ∧ m'.pre = BackLlvm.localPrefix ∧ m'.inFunc = true ∧ m.Le m' ∧ m'.names.bb b = some n := by
  rcases NM.bbName_spec prefixes_llvm hm.inv (fun x hx => (hc x hx).fine) hr with ⟨h0, rfl⟩ | h1
  · exact ⟨hm, hpre, hin, .refl _, h0⟩
  · have hch := h1.chosen
    rw [hpre] at hch
    exact ⟨h1.good hm (chosen_named (a := '%') (.inr rfl) hc hch), h1.pre.trans hpre, h1.scope.trans hin, h1.le, by rw [h1.bb, if_pos rfl]⟩

theorem LPiece.run {m : NM} {x : Piece} (h : LPiece m x) {m' : NM} (hm : NGood p m) (hpre : m.pre = BackLlvm.localPrefix)
    (hin : m.inFunc = true) {s : Str} (hr : x.run m = some (s, m')) :
    NGood p m' ∧ m'.pre = BackLlvm.localPrefix ∧ m'.inFunc = true ∧ m.Le m' ∧ m'.names.text x = some s := by
  cases h with
  | lit => cases hr; exact ⟨hm, hpre, hin, .refl _, rfl⟩
  | @func f c n h =>
    have h1 : m.funcs.get? f = some n := h
    have h2 : m.funcName f c = some (n, m) := by rw [NM.funcName, h1]
    rw [Piece.run, h2] at hr
    cases hr
    exact ⟨hm, hpre, hin, .refl _, h⟩
  | @global f c n h =>
    have h1 : m.globalVars.get? f = some n := h
    have h2 : m.globalName f c = some (n, m) := by rw [NM.globalName, h1]
    rw [Piece.run, h2] at hr
    cases hr
    exact ⟨hm, hpre, hin, .refl _, h⟩
  | value hc =>
    rcases NM.valueName_spec prefixes_llvm hm.inv hin (fun x hx => (hc x hx).fine) hr with ⟨h0, rfl⟩ | h1
    · exact ⟨hm, hpre, hin, .refl _, h0⟩
    · have hch := h1.chosen
      rw [hpre] at hch
      exact ⟨h1.good hm (fun _ => nofun) (fun _ => nofun) (fun _ => chosen_named (a := '%') (.inr rfl) hc hch), h1.pre.trans hpre, h1.scope.trans hin, h1.le,
        by rw [Names.text, h1.ent, if_pos rfl]⟩
  | temp =>
    rcases NM.tempOf_spec prefixes_llvm hm.inv hin hr with ⟨h0, rfl⟩ | h1
    · exact ⟨hm, hpre, hin, .refl _, h0⟩
    · have hch := h1.chosen
      rw [hpre] at hch
      exact ⟨h1.good hm (fun _ => nofun) (fun _ => nofun) (fun _ => chosen_named (a := '%') (.inr rfl) (fun x hx => by cases hx) hch), h1.pre.trans hpre, h1.scope.trans hin, h1.le,
        by rw [Names.text, h1.ent, if_pos rfl]⟩
  | bb hc => exact bb_good hm hpre hin hc hr
  | label hc =>
    simp only [Piece.run] at hr
    split at hr
    · cases hr
    · cases hr
    · rename_i hb
      cases hr
      obtain ⟨h1, h2, h3, h4, h5⟩ := bb_good hm hpre hin hc hb
      exact ⟨h1, h2, h3, h4, by rw [Names.text, h5]⟩

theorem LPiece.runs : ∀ {xs : List Piece} {m m' : NM} {s : Str}, (∀ x ∈ xs, LPiece m x) → NGood p m → m.pre = BackLlvm.localPrefix → m.inFunc = true →
    runPieces m xs = some (s, m') → NGood p m' ∧ m'.pre = BackLlvm.localPrefix ∧ m'.inFunc = true ∧ m.Le m' ∧ Renders m'.names xs s
  | [], m, m', s, _, hm, hpre, hin, h => by cases h; exact ⟨hm, hpre, hin, .refl _, .nil⟩
  | x :: xs, m, m', s, hx, hm, hpre, hin, h => by
    rw [runPieces] at h
    split at h
    · cases h
    · rename_i s1 m1 h1
      obtain ⟨a1, a2, a3, a4, a5⟩ := (hx x List.mem_cons_self).run hm hpre hin h1
      split at h
      · cases h
      · rename_i s2 m2 h2
        cases h
        obtain ⟨b1, b2, b3, b4, b5⟩ := LPiece.runs (fun y hy => (hx y (List.mem_cons_of_mem _ hy)).mono a4) a1 a2 a3 h2
        exact ⟨b1, b2, b3, a4.trans b4, .cons (Names.text_mono b4 a5) b5⟩

end Koopa
