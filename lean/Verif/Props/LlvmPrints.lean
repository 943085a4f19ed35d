import Verif.Lemmas.Back.LlvmCut
import Verif.Lemmas.Back.LlvmReady
import Verif.Props.LlvmValid
import Verif.Props.FrontCases
/-!
C57: the LLVM generator writes every accepted program.
-/
namespace Koopa
open Spec

/-- What the generator writes of a function can be written. -/
theorem Spec.NamesCut.piece {p : Program} (hc : NamesCut p) (hN : NameForm True p) {f : Func} {fd : FData} (hf : p.funcs.get? f = some fd) {x : Piece}
    (h : PieceOf [BackLlvm.globalPrefix, BackLlvm.localPrefix] p f fd x) : CutPiece x := by
  cases h with
  | lit s => trivial
  | func hg _ => exact ⟨hN.funcs trivial _ _ hg, hc.funcs _ _ hg⟩
  | bb hb => exact fun c h => ⟨hN.blocks trivial _ _ _ _ hf hb c h, hc.blocks f _ _ c ⟨fd, hf, hb⟩ h⟩
  | label hb => exact fun c h => ⟨hN.blocks trivial _ _ _ _ hf hb c h, hc.blocks f _ _ c ⟨fd, hf, hb⟩ h⟩
  | val hv hx =>
    rename_i v d
    have key : ∀ c, d.name = some c → LlvmGiven c := by
      intro c h
      rcases hv with hv | hv
      · exact ⟨hN.globals _ _ hv c h, hc.globals _ _ c hv h⟩
      · exact ⟨hN.locals _ _ _ _ hf hv c h, hc.locals f _ _ c ⟨fd, hf, hv⟩ h⟩
    unfold namePiece at hx
    split at hx
    · cases hx
    · split at hx <;> cases hx <;> exact key
  | temp v => trivial
  | setPrefix hq =>
    simp only [List.mem_cons, List.not_mem_nil, or_false] at hq
    show LlvmPre _
    exact hq

theorem Spec.NamesCut.globalPiece {p : Program} (hc : NamesCut p) (hN : NameForm True p) {x : Piece} (h : GlobalPiece p x) : CutPiece x := by
  rcases h with ⟨s, rfl⟩ | ⟨v, d, hv, rfl⟩
  · trivial
  · exact fun c h => ⟨hN.globals _ _ hv c h, hc.globals _ _ c hv h⟩

/-- Missing for C57: programs with a name that has a character across byte 513, for which the generator panics (`C57_violated`). All other programs
from text are written, whatever the order in which the users of blocks are visited. -/
theorem C57_llvm_prints_partial {w : World} {input : Str} {p : Program} (h : Accepted w input p) (hc : NamesCut p) (o : UserOrder) :
    ∃ s m, llvmGenerate o NM.new p = some (s, m) := by
  obtain ⟨gs, hr, -⟩ := C47_program_is_text h
  obtain ⟨vars, fns, A⟩ := h.fromText hr
  obtain ⟨ts, -, hg⟩ := hr
  have hw := C43_accepted_well_formed h
  have hN := A.inv.nameForm
  obtain ⟨gp, hgp⟩ := allSome_some (f := BackLlvm.globalInst p) (as := p.instLayout) (fun v hv => A.global_some hv)
  have h1 : ∀ x ∈ gp.flatten ++ (if p.instLayout.isEmpty then [] else [txt "\n"]), CutPiece x := by
    intro x hx
    rcases List.mem_append.1 hx with hx | hx
    · obtain ⟨l, hl, hx⟩ := List.mem_flatten.1 hx
      obtain ⟨v, -, hv⟩ := allSome_mem hgp hl
      exact hc.globalPiece hN (BackLlvm.globalInst_of hv x hx)
    · split at hx
      · cases hx
      · rw [List.mem_singleton] at hx; subst hx; trivial
  have hm : LGood ({ NM.new with pre := BackLlvm.globalPrefix }) := ⟨.inl rfl, fun b n hb => by cases hb⟩
  obtain ⟨s1, m1, r1, g1, i1⟩ := pieces_run hm h1
  obtain ⟨fp, hfp, s2, m2, r2⟩ := all_run (g := BackLlvm.func o p) (fs := p.funcLayout) (fun f hf => by
    obtain ⟨fd, hfd⟩ : ∃ fd, p.funcs.get? f = some fd := by
      have hf' : f ∈ p.view.fns := hf
      rw [A.inv.fns] at hf'
      change ((p.funcs.get? f).map _).isSome at hf'
      rw [Option.isSome_map] at hf'
      exact Option.isSome_iff_exists.1 hf'
    obtain ⟨ps, hps⟩ := A.func_some (GProg.good hg) o hfd hw
    refine ⟨ps, hps, ?_⟩
    obtain ⟨fd', h2, h3⟩ := BackLlvm.func_of hps
    exact fun x hx => hc.piece hN h2 (h3 x hx)) g1 i1
  rw [← BackLlvm.funcs_eq] at hfp
  refine ⟨s1 ++ s2, m2, ?_⟩
  simp only [llvmGenerate, BackLlvm.visit, hgp, hfp, runPieces, Piece.run]
  rw [← List.append_assoc, runPieces_append, r1]
  simp only [r2]
  rfl

/-! ### Names that are written with ASCII characters -/

theorem byteLen_ascii : ∀ {s : Str}, (∀ c ∈ s, c.toNat < 128) → byteLen s = s.length
  | [], _ => rfl
  | c :: s, h => by
    have h1 := byteLen_ascii (s := s) (fun d hd => h d (List.mem_cons_of_mem _ hd))
    have h2 : c.utf8Size = 1 := by
      have h3 := h c List.mem_cons_self
      unfold Char.utf8Size
      rw [if_pos]
      show c.val.toNat ≤ 127
      exact Nat.le_of_lt_succ h3
    simp only [byteLen, List.map_cons, List.sum_cons, List.length_cons] at h1 ⊢
    omega

/-- ASCII names can be shortened, however long they are. -/
theorem cuttable_ascii {n : Str} (h : ∀ c ∈ n, c.toNat < 128) : Cuttable n := by
  have key : ∀ (k : Nat) (s : Str), k ≤ 513 → (∀ c ∈ s, c.toNat < 128) → CutsAt k s := by
    intro k s hk hs
    by_cases hl : k + s.length ≤ 513
    · left; rw [byteLen_ascii hs]; exact hl
    · right
      refine ⟨s.take (513 - k), s.drop (513 - k), (List.take_append_drop _ _).symm, ?_⟩
      rw [byteLen_ascii (fun c hc => hs c (List.mem_of_mem_take hc)), List.length_take]
      omega
  constructor
  · rintro s rfl; exact key 1 s (by omega) (fun c hc => h c (List.mem_cons_of_mem _ hc))
  · rintro s rfl; exact key 2 s (by omega) (fun c hc => h c (List.mem_cons_of_mem _ hc))

/-- Every name in the program is part of the text (as C55). -/
theorem C55_names_in_text {w : World} {input : Str} {p : Program} (h : Accepted w input p) :
    (∀ f fd, p.funcs.get? f = some fd → fd.name <:+: input) ∧ (∀ v x n, GlobalVal p v x → x.name = some n → n <:+: input) ∧
    (∀ f v x n, LocalVal p f v x → x.name = some n → n <:+: input) ∧ ∀ f b x n, Block p f b x → x.name = some n → n <:+: input := by
  have hN := h.namesFrom
  refine ⟨?_, ?_, ?_, ?_⟩
  · intro f fd hf
    refine hN.head f fd.ty fd.name fd.params ?_
    show (p.funcs.get? f).map _ = _
    rw [hf]; rfl
  · intro v x s hx hs
    exact (hN.g v x.ty s x.kind (by rw [← hs]; exact view_g_iff.2 ⟨x, hx, rfl⟩)).1
  · intro f v x s hx hs
    exact (hN.l f v x.ty s x.kind (by rw [← hs]; exact view_l_iff.2 ⟨x, hx, rfl⟩)).1
  · intro f b x s hx hs
    exact (hN.b f b s x.params (by rw [← hs]; exact view_b_iff.2 ⟨x, hx, rfl, rfl⟩)).1

/-- Programs from ASCII texts are written. -/
theorem C57_ascii_partial {w : World} {input : Str} {p : Program} (h : Accepted w input p) (ha : ∀ c ∈ input, c.toNat < 128) (o : UserOrder) :
    ∃ s m, llvmGenerate o NM.new p = some (s, m) := by
  obtain ⟨h1, h2, h3, h4⟩ := C55_names_in_text h
  have key : ∀ {n : Str}, n <:+: input → Cuttable n := fun hn => cuttable_ascii (fun c hc => ha c (hn.subset hc))
  exact C57_llvm_prints_partial h ⟨fun f fd hf => key (h1 f fd hf), fun v x n hx hn => key (h2 v x n hx hn), fun f v x n hx hn => key (h3 f v x n hx hn),
    fun f b x n hx hn => key (h4 f b x n hx hn)⟩ o

theorem asciiName_lt {n : Str} (h : AsciiName n) : ∀ c ∈ n, c.toNat < 128 := by
  obtain ⟨c, s, rfl, hc, -, hs⟩ := h
  intro d hd
  rcases List.mem_cons.1 hd with rfl | hd
  · rcases hc with rfl | rfl <;> decide
  · rcases hs d hd with h | rfl
    · simp only [Char.isAlphanum, Char.isAlpha, Char.isUpper, Char.isLower, Char.isDigit, Bool.or_eq_true, Bool.and_eq_true, decide_eq_true_eq] at h
      show d.val.toNat < 128
      simp only [UInt32.le_iff_toNat_le] at h
      have e1 : (65 : UInt32).toNat = 65 := rfl
      have e2 : (90 : UInt32).toNat = 90 := rfl
      have e3 : (97 : UInt32).toNat = 97 := rfl
      have e4 : (122 : UInt32).toNat = 122 := rfl
      have e5 : (48 : UInt32).toNat = 48 := rfl
      have e6 : (57 : UInt32).toNat = 57 := rfl
      have e7 : 'A'.val.toNat = 65 := rfl
      have e8 : 'Z'.val.toNat = 90 := rfl
      have e9 : 'a'.val.toNat = 97 := rfl
      have e10 : 'z'.val.toNat = 122 := rfl
      have e11 : '0'.val.toNat = 48 := rfl
      have e12 : '9'.val.toNat = 57 := rfl
      omega
    · decide

theorem Spec.LlvmNamed.cut {p : Program} (h : LlvmNamed p) : NamesCut p := by
  refine ⟨fun f fd hf => ?_, fun v x n hx hn => cuttable_ascii (asciiName_lt (h.globals v x n hx hn).1),
    fun f v x n hx hn => cuttable_ascii (asciiName_lt (h.locals f v x n hx hn)), fun f b x n hx hn => cuttable_ascii (asciiName_lt (h.bbs f b x n hx hn))⟩
  obtain ⟨s, h1, h2, -⟩ := h.funcs f fd hf
  exact cuttable_ascii (asciiName_lt ⟨'@', s, h1, .inl rfl, h2⟩)

/-- From text to LLVM. Missing for C57: as in `C51_llvm_only_partial`. Otherwise the program is written, the text is that of exactly one module,
which LLVM accepts up to the order of definitions and uses, and the module does what the program does. -/
theorem C57_compiles_partial {w0 : World} {input : Str} {p : Program} (h : Accepted w0 input p) (hs : ShortArrays p) (hn : LlvmNamed p)
    (he : PlainEntries p) (o : UserOrder) :
    ∃ s m M, llvmGenerate o NM.new p = some (s, m) ∧ Ll.Written M s ∧ (∀ M', Ll.Written M' s → M' = M) ∧ Ll.WellNamed M ∧ Ll.ModOk M ∧
      ∀ {σ : Type} (lib : Interp.Lib σ), Blind lib → ∀ (chk : Bool) (ptrSize : Nat) f fd, p.funcs.get? f = some fd → fd.name = "@main".toList → ∀ w,
        (DefinedRun p lib chk ptrSize f w ∨ PlainBranches p) →
        (∀ n w', MRuns p lib chk ptrSize f w (.exit n w') → ∀ k u, Ll.LRuns M lib ptrSize Zeroed w k u ↔ k = n ∧ u = w') ∧
        (MForever p lib chk ptrSize f w → Ll.LForever M lib ptrSize Zeroed w ∧ Ll.LOnlyForever M lib ptrSize Zeroed w) := by
  obtain ⟨s, m, hg⟩ := C57_llvm_prints_partial h hn.cut o
  obtain ⟨M, h1, h2, h3, h4, -, -⟩ := C53_llvm_valid_partial h hs hn he hg
  refine ⟨s, m, M, hg, h1, h2, h3, h4, fun lib hl chk ptrSize f fd hf hname w hd => ?_⟩
  obtain ⟨h5, h6⟩ := C51_llvm_only_partial h hs hn he hg h1 lib hl chk ptrSize f fd hf hname w hd
  exact ⟨fun n w' hr => (h5 n w' hr).2, h6⟩

/-- A case for C57: a loop with a block parameter. -/
example : ∃ p, Accepted someWorld loopText p ∧ ∀ o, ∃ s m, llvmGenerate o NM.new p = some (s, m) := by
  obtain ⟨p, h⟩ := loop_accepted
  exact ⟨p, h, C57_ascii_partial h (by decide +kernel)⟩

/-- A name that can be shortened, decided. -/
def cutName : Str → Bool
  | '@' :: s => (truncate 512 s).isSome
  | '%' :: s => (truncate 511 s).isSome
  | _ => true

theorem cutName_iff {n : Str} (h : cutName n = true) : Cuttable n := by
  have key : ∀ (k l : Nat) (s : Str), k + l = 513 → (truncate l s).isSome → CutsAt k s := by
    intro k l s e h
    rcases truncate_some.1 (Option.isSome_iff_exists.1 h) with h | ⟨a, b, h1, h2⟩
    · left; omega
    · exact .inr ⟨a, b, h1, by omega⟩
  constructor
  · rintro s rfl; exact key 1 512 s rfl h
  · rintro s rfl; exact key 2 511 s rfl h

/-- The names can be shortened, decided. -/
def namesCut (p : Program) : Bool :=
  (p.values.entries.all fun e => e.2.name.all cutName) && p.funcs.entries.all fun e => cutName e.2.name &&
    (e.2.dfg.values.entries.all fun e => e.2.name.all cutName) && e.2.dfg.bbs.entries.all fun e => e.2.name.all cutName

theorem namesCut_iff {p : Program} (h : namesCut p = true) : NamesCut p := by
  unfold namesCut at h
  rw [Bool.and_eq_true, List.all_eq_true, List.all_eq_true] at h
  obtain ⟨h1, h2⟩ := h
  have key : ∀ f fd, p.funcs.get? f = some fd → cutName fd.name = true ∧ (∀ e ∈ fd.dfg.values.entries, e.2.name.all cutName = true) ∧
      ∀ e ∈ fd.dfg.bbs.entries, e.2.name.all cutName = true := by
    intro f fd hf
    have := h2 _ (mem_of_get? hf)
    simp only [Bool.and_eq_true, List.all_eq_true] at this
    exact ⟨this.1.1, this.1.2, this.2⟩
  have opt : ∀ {n : Option Str} {s : Str}, n.all cutName = true → n = some s → Cuttable s := by
    rintro n s h rfl; exact cutName_iff h
  refine ⟨fun f fd hf => cutName_iff (key f fd hf).1, fun v x n hx hn => opt (h1 _ (mem_of_get? hx)) hn, ?_, ?_⟩
  · rintro f v x n ⟨fd, hf, hx⟩ hn; exact opt ((key f fd hf).2.1 _ (mem_of_get? hx)) hn
  · rintro f b x n ⟨fd, hf, hx⟩ hn; exact opt ((key f fd hf).2.2 _ (mem_of_get? hx)) hn

/-- A case for C57: names with other characters, and a name that is cut behind one. -/
def accentText : Str := "decl @é() fun @".toList ++ List.replicate 510 'a' ++ "éa() {%e: call @é() ret\n}".toList

example : ∃ p, Accepted someWorld accentText p ∧ ∀ o, ∃ s m, llvmGenerate o NM.new p = some (s, m) := by
  obtain ⟨p, h, hq⟩ := acceptsWith_iff (input := accentText) (q := namesCut) (by decide +kernel)
  exact ⟨p, h, C57_llvm_prints_partial h (namesCut_iff hq)⟩

/-! ### A name that cannot be cut -/

/-- The LLVM generator writes every accepted program. -/
def LlvmWrites : Prop := ∀ o w input p, Accepted w input p → ∃ s m, llvmGenerate o NM.new p = some (s, m)

/-- Byte 513 of the name is the first of two bytes of a character. -/
def uncutText : Str := "decl @".toList ++ List.replicate 511 'a' ++ "é()".toList

theorem C57_violated : ¬ LlvmWrites := by
  intro hall
  obtain ⟨p, h, hq⟩ := acceptsWith_iff (input := uncutText) (q := fun p => (llvmGenerate .added NM.new p).isNone) (by decide +kernel)
  obtain ⟨s, m, hg⟩ := hall .added _ _ _ h
  rw [hg] at hq
  cases hq

/-! ### C58: the order in which users are visited -/

/-- At most one way leads to a block with parameters. -/
def SingleUsers (p : Program) : Prop := ∀ f b x, Block p f b x → x.params = [] ∨ x.usedBy.length ≤ 1

/-- Missing for C58: programs with a block that has parameters and is reached in several ways, whose text depends on the order (`C58_violated`).
The text of any other program does not. -/
theorem C58_one_text_partial {p : Program} (hu : SingleUsers p) (o o' : UserOrder) (m : NM) : llvmGenerate o m p = llvmGenerate o' m p := by
  have iter : ∀ (o : UserOrder) b (us : List Value), us.length ≤ 1 → o.iter b us = us := by
    intro o b us hl
    have h := o.perm b us
    match us, hl with
    | [], _ => exact List.perm_nil.1 h
    | [u], _ => exact List.perm_singleton.1 h
  have hbb : ∀ f fd, p.funcs.get? f = some fd → ∀ b is, BackLlvm.bb o p fd b is = BackLlvm.bb o' p fd b is := by
    intro f fd hf b is
    unfold BackLlvm.bb
    split
    · rfl
    · rename_i d hd
      rcases hu f b d ⟨fd, hf, hd⟩ with h | h
      · rw [h]; rfl
      · rw [iter o b _ h, iter o' b _ h]
  have hbs : ∀ f fd, p.funcs.get? f = some fd → ∀ bs, BackLlvm.blocks o p fd bs = BackLlvm.blocks o' p fd bs := by
    intro f fd hf bs
    induction bs with
    | nil => rfl
    | cons q bs ih =>
      cases bs with
      | nil => exact hbb f fd hf q.1 q.2
      | cons q' bs => simp only [BackLlvm.blocks, hbb f fd hf, ih]
  have hfs : ∀ f, BackLlvm.func o p f = BackLlvm.func o' p f := by
    intro f
    unfold BackLlvm.func
    split
    · rfl
    · rename_i fd hf
      simp only [hbs f fd hf]
  have hv : BackLlvm.visit o p = BackLlvm.visit o' p := by
    unfold BackLlvm.visit
    rw [BackLlvm.funcs_eq, BackLlvm.funcs_eq, show BackLlvm.func o p = BackLlvm.func o' p from funext hfs]
  simp only [llvmGenerate, hv]

/-- The texts for two orders are of modules that do the same. Missing: as in `C57_compiles_partial`. -/
theorem C58_orders_agree_partial {w0 : World} {input : Str} {p : Program} (h : Accepted w0 input p) (hs : ShortArrays p) (hn : LlvmNamed p)
    (he : PlainEntries p) (o o' : UserOrder) :
    ∃ s m M s' m' M', llvmGenerate o NM.new p = some (s, m) ∧ llvmGenerate o' NM.new p = some (s', m') ∧ Ll.Written M s ∧ Ll.Written M' s' ∧
      ∀ {σ : Type} (lib : Interp.Lib σ), Blind lib → ∀ (chk : Bool) (ptrSize : Nat) f fd, p.funcs.get? f = some fd → fd.name = "@main".toList → ∀ w,
        (DefinedRun p lib chk ptrSize f w ∨ PlainBranches p) → ((∃ n w', MRuns p lib chk ptrSize f w (.exit n w')) ∨ MForever p lib chk ptrSize f w) →
        ∀ k u, Ll.LRuns M lib ptrSize Zeroed w k u ↔ Ll.LRuns M' lib ptrSize Zeroed w k u := by
  obtain ⟨s, m, M, h1, h2, -, -, -, h3⟩ := C57_compiles_partial h hs hn he o
  obtain ⟨s', m', M', k1, k2, -, -, -, k3⟩ := C57_compiles_partial h hs hn he o'
  refine ⟨s, m, M, s', m', M', h1, k1, h2, k2, fun lib hl chk ptrSize f fd hf hname w hd hr k u => ?_⟩
  obtain ⟨a1, a2⟩ := h3 lib hl chk ptrSize f fd hf hname w hd
  obtain ⟨b1, b2⟩ := k3 lib hl chk ptrSize f fd hf hname w hd
  rcases hr with ⟨n, w', hr⟩ | hr
  · rw [a1 n w' hr, b1 n w' hr]
  · have none : ∀ {N : Ll.Mod}, Ll.LOnlyForever N lib ptrSize Zeroed w → ¬ Ll.LRuns N lib ptrSize Zeroed w k u := by
      rintro N hN ⟨s0, j, t, l1, l2, l3⟩
      obtain ⟨v, hv⟩ := hN s0 j t l1 l2
      exact absurd hv (stop_no_next l3)
    exact ⟨fun hx => absurd hx (none (a2 hr).2), fun hx => absurd hx (none (b2 hr).2)⟩

/-- The text does not depend on the order. -/
def LlvmOneText : Prop := ∀ o o' w input p, Accepted w input p → (llvmGenerate o NM.new p).map (·.1) = (llvmGenerate o' NM.new p).map (·.1)

theorem C58_violated : ¬ LlvmOneText := by
  intro hall
  obtain ⟨p, h, hq⟩ := acceptsWith_iff (input := loopText)
    (q := fun p => decide ((llvmGenerate .added NM.new p).map (·.1) ≠ (llvmGenerate .backwards NM.new p).map (·.1))) (by decide +kernel)
  exact of_decide_eq_true hq (hall _ _ _ _ _ h)

/-- A block with a parameter that is reached in one way. -/
def singleText : Str := "fun @f(): i32 {%e: br 1, %a(2), %b %a(%x: i32): ret %x %b: ret 0}".toList

/-- A case for `C58_one_text_partial`. -/
example : ∃ p, Accepted someWorld singleText p ∧ SingleUsers p ∧ (∃ f b x, Block p f b x ∧ x.params ≠ []) ∧ ∀ o o', llvmGenerate o NM.new p = llvmGenerate o' NM.new p := by
  obtain ⟨p, h, hq⟩ := acceptsWith_iff (input := singleText)
    (q := fun p => (p.funcs.entries.all fun e => e.2.dfg.bbs.entries.all fun b => b.2.params.isEmpty || decide (b.2.usedBy.length ≤ 1)) &&
      (p.funcs.entries.any fun e => (p.funcs.get? e.1).any fun fd => fd.dfg.bbs.entries.any fun b => (fd.dfg.bbs.get? b.1).any fun x => !x.params.isEmpty))
    (by decide +kernel)
  rw [Bool.and_eq_true] at hq
  have hu : SingleUsers p := by
    rintro f b x ⟨fd, hf, hb⟩
    have := List.all_eq_true.1 (List.all_eq_true.1 hq.1 _ (mem_of_get? hf)) _ (mem_of_get? hb)
    simpa using this
  refine ⟨p, h, hu, ?_, fun o o' => C58_one_text_partial hu o o' _⟩
  obtain ⟨e, -, he⟩ := List.any_eq_true.1 hq.2
  obtain ⟨fd, hf, he⟩ := (Option.any_eq_true _ _).1 he
  obtain ⟨b, -, hb⟩ := List.any_eq_true.1 he
  obtain ⟨x, hx, hb⟩ := (Option.any_eq_true _ _).1 hb
  exact ⟨e.1, b.1, x, ⟨fd, hf, hx⟩, by simpa using hb⟩

/-- A case for `C57_compiles_partial` and `C58_orders_agree_partial`. -/
example : ∃ p, Accepted someWorld llvmText p ∧ ShortArrays p ∧ LlvmNamed p ∧ PlainEntries p := by
  obtain ⟨p, h, hq⟩ := acceptsWith_iff (input := llvmText) (q := fun p => shortArrays p && llvmNamed p && plainEntries p) (by decide +kernel)
  simp only [Bool.and_eq_true] at hq
  exact ⟨p, h, shortArrays_iff hq.1.1, llvmNamed_iff hq.1.2, plainEntries_iff hq.2⟩

end Koopa
