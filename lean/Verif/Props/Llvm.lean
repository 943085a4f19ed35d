import Verif.Lemmas.Back.LlvmCore
import Verif.Props.Machine
import Verif.Props.RoundTrip
/-!
C51: the LLVM text generated for a program computes what the program does.
-/
namespace Koopa
open Koopa.Spec Koopa.Spec.Ll Koopa.Interp

/-- Missing for C51: programs with arrays of 2^63 or more elements, with names that LLVM cannot write, or with parameters of entry blocks
(see `C51_violated`); and runs in which LLVM leaves undefined what the program does. That the module can do nothing else is `C51_llvm_only_partial`.
Otherwise the generated text is that of exactly one LLVM module, and no name is defined twice in it. If the program exits, the module can run and end with the same exit code in the same world;
if the program runs for ever, the module can run for ever. Memory from `alloca` may be zero. -/
theorem C51_llvm_runs_partial {w0 : World} {input : Str} {p : Program} (h : Accepted w0 input p) (hs : ShortArrays p) (hn : LlvmNamed p)
    (he : PlainEntries p) {s : Str} {m : NM} (hg : llvmGenerate o NM.new p = some (s, m)) :
    ∃ M, Written M s ∧ (∀ M', Written M' s → M' = M) ∧ WellNamed M ∧ ∀ {σ : Type} (lib : Lib σ) (chk : Bool) (ptrSize : Nat) (fill : Ty → Val → Prop), (∀ t x, Zeroed t x → fill t x) →
      ∀ f fd, p.funcs.get? f = some fd → fd.name = "@main".toList → ∀ w, DefinedRun p lib chk ptrSize f w →
        (∀ n w', MRuns p lib chk ptrSize f w (.exit n w') → LRuns M lib ptrSize fill w n w') ∧
        (MForever p lib chk ptrSize f w → LForever M lib ptrSize fill w) := by
  obtain ⟨gs, hgs, -⟩ := C47_program_is_text h
  obtain ⟨vars, fns, A⟩ := h.fromText hgs
  have hP := h.printable hs
  have hw := C43_accepted_well_formed h
  exact LlvmCore.runs ⟨A.lready hP hw he, A.llvmNames hn, A.llvmOrder hP, fun f fd hf => A.llvmFn hP hw he hf, hP.modNodup⟩ hg

/-- The same for programs whose branches are on integers and results of arithmetic and whose shifts are by constants below 32: nothing remains to be known
about the runs. -/
theorem C51_llvm_plain_partial {w0 : World} {input : Str} {p : Program} (h : Accepted w0 input p) (hs : ShortArrays p) (hn : LlvmNamed p)
    (he : PlainEntries p) (hb : PlainBranches p) {s : Str} {m : NM} (hg : llvmGenerate o NM.new p = some (s, m)) :
    ∃ M, Written M s ∧ (∀ M', Written M' s → M' = M) ∧ WellNamed M ∧ ∀ {σ : Type} (lib : Lib σ) (chk : Bool) (ptrSize : Nat) (fill : Ty → Val → Prop), (∀ t x, Zeroed t x → fill t x) →
      ∀ f fd, p.funcs.get? f = some fd → fd.name = "@main".toList → ∀ w,
        (∀ n w', MRuns p lib chk ptrSize f w (.exit n w') → LRuns M lib ptrSize fill w n w') ∧
        (MForever p lib chk ptrSize f w → LForever M lib ptrSize fill w) := by
  obtain ⟨gs, hgs, -⟩ := C47_program_is_text h
  obtain ⟨vars, fns, A⟩ := h.fromText hgs
  obtain ⟨M, h1, h2, h3, h4⟩ := C51_llvm_runs_partial h hs hn he hg
  exact ⟨M, h1, h2, h3, fun lib chk ptrSize fill hfill f fd hf hname w => h4 lib chk ptrSize fill hfill f fd hf hname w (A.argRefs.definedRun hb f w)⟩

/-- Missing for C51: as in `C51_llvm_runs_partial`; and modules whose memory from `alloca` is not zero.
Otherwise the module can do nothing else, whatever objects its variables become: if the program exits, every run of the module ends, with the same exit
code in the same world; if the program runs for ever, every run of the module does. -/
theorem C51_llvm_only_partial {w0 : World} {input : Str} {p : Program} (h : Accepted w0 input p) (hs : ShortArrays p) (hn : LlvmNamed p)
    (he : PlainEntries p) {s : Str} {m : NM} (hg : llvmGenerate o NM.new p = some (s, m)) {M : Mod} (hW : Written M s) :
    ∀ {σ : Type} (lib : Lib σ), Blind lib → ∀ (chk : Bool) (ptrSize : Nat) f fd, p.funcs.get? f = some fd → fd.name = "@main".toList → ∀ w,
      (DefinedRun p lib chk ptrSize f w ∨ PlainBranches p) →
        (∀ n w', MRuns p lib chk ptrSize f w (.exit n w') → LOnlyExits M lib ptrSize Zeroed w n w' ∧
          ∀ k u, LRuns M lib ptrSize Zeroed w k u ↔ k = n ∧ u = w') ∧
        (MForever p lib chk ptrSize f w → LForever M lib ptrSize Zeroed w ∧ LOnlyForever M lib ptrSize Zeroed w) := by
  intro σ lib hl chk ptrSize f fd hf hname w hd
  have hd : DefinedRun p lib chk ptrSize f w := by
    rcases hd with hd | hb
    · exact hd
    · obtain ⟨gs, hgs, -⟩ := C47_program_is_text h
      obtain ⟨vars, fns, A⟩ := h.fromText hgs
      exact A.argRefs.definedRun hb f w
  obtain ⟨M', h1, h2, h3, h4⟩ := C51_llvm_runs_partial h hs hn he hg
  cases h2 M hW
  obtain ⟨h5, h6⟩ := h4 lib chk ptrSize Zeroed (fun _ _ h => h) f fd hf hname w hd
  exact ⟨fun n w' hr => only_one h3 hl (h5 n w' hr), fun hr => ⟨h6 hr, only_forever h3 hl (h6 hr)⟩⟩

/-- C31 for programs from text: a call is always to a function that has been written or is being written. Missing: programs with arrays of 2^63 or more
elements, and programs built in memory, for which the statement is false (`C31_violated`). -/
theorem C31_accepted_partial {w0 : World} {input : Str} {p : Program} (h : Accepted w0 input p) (hs : ShortArrays p) {s : Str} {m : NM}
    (hg : llvmGenerate o NM.new p = some (s, m)) : ∀ f ∈ p.funcLayout, ∃ n, m.names.ent (.func f) = some ('@' :: n) := by
  obtain ⟨gs, hgs, -⟩ := C47_program_is_text h
  obtain ⟨vars, fns, A⟩ := h.fromText hgs
  refine C31_functions_are_globals_partial (fun l1 f l2 fd v d g as hl hf hd hk => ?_) hg
  have := (A.llvmOrder (h.printable hs)).calls l1.length f fd v d g as (by rw [hl]; simp) hf hd hk
  rw [hl] at this
  simpa using this

/-! ### A program that meets the hypotheses -/

/-- ASCII names, decided. -/
def asciiIdent (s : Str) : Bool := (match s with
  | [] => false
  | c :: _ => !c.isDigit) && s.all (fun c => c.isAlphanum || c == '_')

theorem asciiIdent_iff {s : Str} (h : asciiIdent s = true) : AsciiIdent s := by
  unfold asciiIdent at h
  rw [Bool.and_eq_true, List.all_eq_true] at h
  obtain ⟨h1, h2⟩ := h
  refine ⟨?_, fun c hc => by have := h2 c hc; simpa using this⟩
  cases s with
  | nil => cases h1
  | cons c t => exact ⟨c, t, rfl, by simpa using h1⟩

def asciiName (n : Str) : Bool := match n with
  | [] => false
  | c :: s => (c == '@' || c == '%') && asciiIdent s

theorem asciiName_iff {n : Str} (h : asciiName n = true) : AsciiName n := by
  cases n with
  | nil => cases h
  | cons c s =>
    unfold asciiName at h
    rw [Bool.and_eq_true, Bool.or_eq_true, beq_iff_eq, beq_iff_eq] at h
    exact ⟨c, s, rfl, h.1, asciiIdent_iff h.2⟩

def okName (n : Option Str) (k : Nat) : Bool := match n with
  | none => true
  | some n => asciiName n && decide (n.length ≤ k)

theorem okName_iff {n : Option Str} {k : Nat} (h : okName n k = true) : ∀ m, n = some m → AsciiName m ∧ m.length ≤ k := by
  rintro m rfl
  unfold okName at h
  rw [Bool.and_eq_true, decide_eq_true_eq] at h
  exact ⟨asciiName_iff h.1, h.2⟩

/-- The names, decided. -/
def llvmNamed (p : Program) : Bool :=
  p.funcs.entries.all (fun e => (match e.2.name with
    | [] => false
    | c :: s => c == '@' && asciiIdent s && decide (s.length ≤ 512)) &&
    e.2.dfg.values.entries.all (fun v => okName v.2.name 513) && e.2.dfg.bbs.entries.all (fun b => okName b.2.name 513)) &&
  p.values.entries.all (fun v => okName v.2.name 513)

theorem llvmNamed_iff {p : Program} (h : llvmNamed p = true) : LlvmNamed p := by
  unfold llvmNamed at h
  rw [Bool.and_eq_true, List.all_eq_true, List.all_eq_true] at h
  obtain ⟨h1, h2⟩ := h
  have key : ∀ f fd, p.funcs.get? f = some fd → (∃ s, fd.name = '@' :: s ∧ AsciiIdent s ∧ s.length ≤ 512) ∧
      (∀ v d n, fd.dfg.values.get? v = some d → d.name = some n → AsciiName n) ∧ ∀ b d n, fd.dfg.bbs.get? b = some d → d.name = some n → AsciiName n := by
    intro f fd hf
    have h3 := h1 (f, fd) (mem_of_get? hf)
    simp only [Bool.and_eq_true, List.all_eq_true] at h3
    obtain ⟨⟨h4, h5⟩, h6⟩ := h3
    refine ⟨?_, fun v d n hv hn => (okName_iff (h5 (v, d) (mem_of_get? hv)) n hn).1, fun b d n hv hn => (okName_iff (h6 (b, d) (mem_of_get? hv)) n hn).1⟩
    cases e : fd.name with
    | nil => rw [e] at h4; cases h4
    | cons c s =>
      rw [e] at h4
      simp only [Bool.and_eq_true, beq_iff_eq, decide_eq_true_eq] at h4
      obtain ⟨⟨rfl, h7⟩, h8⟩ := h4
      exact ⟨s, rfl, asciiIdent_iff h7, h8⟩
  refine ⟨fun f fd hf => (key f fd hf).1, fun v d n hv hn => okName_iff (h2 (v, d) (mem_of_get? hv)) n hn, ?_, ?_⟩
  · rintro f v d n ⟨fd, hf, hv⟩ hn
    exact (key f fd hf).2.1 v d n hv hn
  · rintro f b d n ⟨fd, hf, hb⟩ hn
    exact (key f fd hf).2.2 b d n hb hn

/-- First blocks without parameters, decided. -/
def plainEntries (p : Program) : Bool :=
  p.funcs.entries.all (fun e => match e.2.layout.bbs with
    | [] => true
    | (b, _) :: _ => match e.2.dfg.bbs.get? b with
      | none => true
      | some bd => bd.params.isEmpty)

theorem plainEntries_iff {p : Program} (h : plainEntries p = true) : PlainEntries p := by
  unfold plainEntries at h
  rw [List.all_eq_true] at h
  intro f fd b is bs bd hf hb hbd
  have h1 := h (f, fd) (mem_of_get? hf)
  simp only [hb, hbd] at h1
  simpa using h1

/-- Branches and shifts, decided. -/
def plainBranches (p : Program) : Bool :=
  p.funcs.entries.all (fun e => e.2.dfg.values.entries.all (fun v => match v.2.kind with
    | .branch c _ _ _ _ => (match e.2.dfg.values.get? c with
      | some ⟨_, _, .integer _, _⟩ => true
      | some ⟨_, _, .binary _ _ _, _⟩ => true
      | _ => false)
    | .binary op _ r => if op = .shl ∨ op = .shr ∨ op = .sar then (match e.2.dfg.values.get? r with
      | some ⟨_, _, .integer n, _⟩ => decide (n.toNat < 32)
      | _ => false) else true
    | _ => true))

theorem plainBranches_iff {p : Program} (h : plainBranches p = true) : PlainBranches p := by
  unfold plainBranches at h
  rw [List.all_eq_true] at h
  constructor
  · rintro f v d c t e ta ea ⟨fd, hf, hv⟩ hk
    have h1 := h (f, fd) (mem_of_get? hf)
    rw [List.all_eq_true] at h1
    have h2 := h1 (v, d) (mem_of_get? hv)
    simp only [hk] at h2
    split at h2
    · rename_i hx; exact ⟨_, ⟨fd, hf, hx⟩, .inl ⟨_, rfl⟩⟩
    · rename_i hx; exact ⟨_, ⟨fd, hf, hx⟩, .inr ⟨_, _, _, rfl⟩⟩
    · cases h2
  · rintro f v d op l r ⟨fd, hf, hv⟩ hk ho
    have h1 := h (f, fd) (mem_of_get? hf)
    rw [List.all_eq_true] at h1
    have h2 := h1 (v, d) (mem_of_get? hv)
    simp only [hk, if_pos ho] at h2
    split at h2
    · rename_i hx; exact ⟨_, _, ⟨fd, hf, hx⟩, rfl, of_decide_eq_true h2⟩
    · cases h2

/-- A program with a global array, recursion, a comparison, a shift, and a loop with block parameters. -/
def llvmText : Str :=
  ("global @a = alloc [i32, 2], {1, 2} " ++
   "fun @f(@n: i32): i32 {%e: %c = ne @n, 0 br %c, %t, %z %t: %m = sub @n, 1 %r = call @f(%m) %s = add %r, @n ret %s %z: ret 0} " ++
   "fun @main(): i32 {%e: %p = getelemptr @a, 1 %x = load %p jump %b(%x, 3) %b(%u: i32, %v: i32): %y = call @f(%v) %w = add %u, %y " ++
   "%k = shl %w, 1 %o = lt %k, 17 br %o, %b(%k, 0), %q %q: ret %k}").toList

/-- All constants of the program have values within the bound, or none at all; decided. -/
def deepEnough (depth : Nat) (p : Program) : Bool :=
  let ok (look : Value → Option VData) (d : VData) : Bool := (evalConst look depth d).isSome || !d.kind.isConst
  p.funcs.entries.all (fun e => e.2.dfg.values.entries.all (fun v => ok e.2.dfg.values.get? v.2)) &&
  p.values.entries.all (fun v => ok p.values.get? v.2)

theorem deepEnough_iff {depth : Nat} {p : Program} (h : deepEnough depth p = true) : DeepEnough p depth := by
  have key : ∀ {look : Value → Option VData} {d : VData}, ((evalConst look depth d).isSome || !d.kind.isConst) = true →
      ∀ x, evalConst look depth d = some x ↔ ConstVal look d x := by
    intro look d h x
    refine ⟨evalConst_sound, fun hx => ?_⟩
    cases e : evalConst look depth d with
    | some y => rw [constVal_unique (evalConst_sound e) hx]
    | none =>
      rw [e] at h
      cases hx with
      | integer hk => rw [hk] at h; cases h
      | zeroInit hk _ => rw [hk] at h; cases h
      | undef hk => rw [hk] at h; cases h
      | aggregate hk _ _ _ => rw [hk] at h; cases h
  unfold deepEnough at h
  simp only [Bool.and_eq_true, List.all_eq_true] at h
  refine ⟨fun f fd v d hf hv => ?_, fun v d hv => key (h.2 (v, d) (mem_of_get? hv))⟩
  have := h.1 (f, fd) (mem_of_get? hf) (v, d) (mem_of_get? hv)
  exact key this

theorem noLib_blind : Blind noLib := ⟨fun _ _ _ _ _ _ _ _ => rfl, fun _ _ _ _ _ _ _ _ => rfl⟩

/-- The hypotheses of `C51_llvm_plain_partial`, and that the interpreter returns `n`. -/
def llvmCheck (n : I32) (p : Program) : Bool :=
  shortArrays p && llvmNamed p && plainEntries p && plainBranches p && noOverlapCheck p && deepEnough 100 p && (llvmGenerate .backwards NM.new p).isSome &&
  (match findMain p p.funcs.keys with
    | none => false
    | some f => match p.funcs.get? f with
      | none => false
      | some fd => !fd.layout.bbs.isEmpty) &&
  (match interpret noLib true 100 8 100 p.funcs.keys p () with
    | .done (m, _) => m == n
    | _ => false)

/-- The program of `llvmText` meets the hypotheses of the theorems; so its text in LLVM can run and end with 32, from the interpreter by C50 and C51,
and can do nothing else. -/
example : ∃ p s m, Accepted someWorld llvmText p ∧ ShortArrays p ∧ LlvmNamed p ∧ PlainEntries p ∧ PlainBranches p ∧
    llvmGenerate .backwards NM.new p = some (s, m) ∧
    ∃ M, Written M s ∧ (∀ M', Written M' s → M' = M) ∧ ∃ w, LRuns M noLib 8 Zeroed () 32 w ∧ LOnlyExits M noLib 8 Zeroed () 32 w := by
  obtain ⟨p, h, hq⟩ := acceptsWith_iff (input := llvmText) (q := llvmCheck 32) (by decide +kernel)
  unfold llvmCheck at hq
  simp only [Bool.and_eq_true] at hq
  obtain ⟨⟨⟨⟨⟨⟨⟨⟨h1, h2⟩, h3⟩, h4⟩, h5⟩, h6⟩, h7⟩, h8⟩, h9⟩ := hq
  obtain ⟨⟨s, m⟩, hg⟩ := Option.isSome_iff_exists.1 h7
  refine ⟨p, s, m, h, shortArrays_iff h1, llvmNamed_iff h2, plainEntries_iff h3, plainBranches_iff h4, hg, ?_⟩
  obtain ⟨M, hW, hU, -, hM⟩ := C51_llvm_plain_partial h (shortArrays_iff h1) (llvmNamed_iff h2) (plainEntries_iff h3) (plainBranches_iff h4) hg
  refine ⟨M, hW, hU, ?_⟩
  split at h8
  · cases h8
  · rename_i f hm
    split at h8
    · cases h8
    · rename_i fd hf
      have hfm := firstMain_of_find hm hf (fun e => by rw [e] at h8; cases h8)
      have hname : fd.name = "@main".toList := by
        unfold findMain at hm
        have := List.find?_some hm
        rw [hf] at this
        simpa using this
      split at h9
      · rename_i k w hk
        rw [eq_of_beq h9] at hk
        have hr : MRuns p noLib true 8 f () (.exit 32 w) := ((machine_at_depth (noOverlapCheck_sound h5).1 (noOverlapCheck_sound h5).2 hfm (deepEnough_iff h6) noLib true 8 ()).1 _ _).1 ⟨100, hk⟩
        exact ⟨w, (hM noLib true 8 Zeroed (fun _ _ h => h) f fd hf hname ()).1 _ _ hr,
          ((C51_llvm_only_partial h (shortArrays_iff h1) (llvmNamed_iff h2) (plainEntries_iff h3) hg hW noLib noLib_blind true 8 f fd hf hname ()
            (.inr (plainBranches_iff h4))).1 _ _ hr).1⟩
      · cases h9

/-! ### A program whose text is not LLVM -/

/-- Reads words; the state is 1 after `=`, and 2 after `= phi` until a `[`. The end of the line must not come in state 2. -/
def phiScan : Nat → List Tok → Option Nat
  | st, [] => some st
  | 2, t :: ts => if t = .sym '\n' then none else phiScan (if t = .sym '[' then 0 else 2) ts
  | 1, t :: ts => phiScan (if t = kw "phi" then 2 else if t = .sym '=' then 1 else 0) ts
  | _, t :: ts => phiScan (if t = .sym '=' then 1 else 0) ts

/-- No `=`, no end of line. -/
def Flat (ts : List Tok) : Prop := ∀ t ∈ ts, t ≠ .sym '=' ∧ t ≠ .sym '\n'

theorem phiScan_append : ∀ (ts us : List Tok) (st : Nat), phiScan st (ts ++ us) = (phiScan st ts).bind (fun st => phiScan st us) := by
  intro ts
  induction ts with
  | nil => intro us st; simp [phiScan]
  | cons t ts ih =>
    intro us st
    match st with
    | 0 => simp only [List.cons_append, phiScan]; exact ih us _
    | 1 => simp only [List.cons_append, phiScan]; exact ih us _
    | 2 =>
      simp only [List.cons_append, phiScan]
      split
      · rfl
      · exact ih us _
    | st + 3 => simp only [List.cons_append, phiScan]; exact ih us _

theorem phiScan_flat {ts : List Tok} (h : Flat ts) : phiScan 0 ts = some 0 := by
  induction ts with
  | nil => rfl
  | cons t ts ih =>
    have h1 := h t (List.mem_cons_self ..)
    simp only [phiScan, if_neg h1.1]
    exact ih (fun u hu => h u (List.mem_cons_of_mem _ hu))

theorem phiScan_bracket {ts : List Tok} (h : Flat ts) (hb : .sym '[' ∈ ts) : phiScan 2 ts = some 0 := by
  induction ts with
  | nil => cases hb
  | cons t ts ih =>
    have h1 := h t (List.mem_cons_self ..)
    have h2 : Flat ts := fun u hu => h u (List.mem_cons_of_mem _ hu)
    simp only [phiScan, if_neg h1.2]
    split
    · exact phiScan_flat h2
    · rename_i hne
      rcases List.mem_cons.1 hb with e | hb
      · exact absurd e.symm hne
      · exact ih h2 hb

theorem flat_nil : Flat [] := fun _ h => by cases h
theorem flat_word {s : Str} {ts : List Tok} (h : Flat ts) : Flat (.word s :: ts) := fun t ht => by
  rcases List.mem_cons.1 ht with rfl | ht
  · constructor <;> (intro e; cases e)
  · exact h t ht
theorem flat_sym {c : Char} {ts : List Tok} (h : Flat ts) (h1 : c ≠ '=') (h2 : c ≠ '\n') : Flat (.sym c :: ts) := fun t ht => by
  rcases List.mem_cons.1 ht with rfl | ht
  · exact ⟨fun e => h1 (Tok.sym.inj e), fun e => h2 (Tok.sym.inj e)⟩
  · exact h t ht
theorem flat_append {ts us : List Tok} (h : Flat ts) (h' : Flat us) : Flat (ts ++ us) := fun t ht => by
  rcases List.mem_append.1 ht with ht | ht
  · exact h t ht
  · exact h' t ht
theorem flat_comma {ts us : List Tok} (h : Flat ts) (h' : Flat us) : Flat (ts ++ .sym ',' :: us) :=
  flat_append h (flat_sym h' (by decide) (by decide))

mutual
theorem TyW_flat {t : Ty} {ts : List Tok} : TyW t ts → Flat ts
  | .i32 => flat_word flat_nil
  | .void => flat_word flat_nil
  | .array h => flat_sym (flat_word (flat_word (flat_append (TyW_flat h) (flat_sym flat_nil (by decide) (by decide))))) (by decide) (by decide)
  | .ptr h => flat_append (TyW_flat h) (flat_sym flat_nil (by decide) (by decide))
  | .func h h' => flat_append (TyW_flat h) (flat_sym (flat_append (TysW_flat h') (flat_sym (flat_sym flat_nil (by decide) (by decide)) (by decide) (by decide)))
      (by decide) (by decide))
theorem TysW_flat {l : List Ty} {ts : List Tok} : TysW l ts → Flat ts
  | .nil => flat_nil
  | .one h => TyW_flat h
  | .cons h h' => flat_comma (TyW_flat h) (TysW_flat h')
end

mutual
theorem CstW_flat {c : Cst} {ts : List Tok} : CstW c ts → Flat ts
  | .int _ => flat_word flat_nil
  | .zero => flat_word flat_nil
  | .undef => flat_word flat_nil
  | .array h => flat_sym (flat_append (CstsW_flat h) (flat_sym flat_nil (by decide) (by decide))) (by decide) (by decide)
theorem CstsW_flat {l : List (Ty × Cst)} {ts : List Tok} : CstsW l ts → Flat ts
  | .nil => flat_nil
  | .one h h' => flat_append (TyW_flat h) (CstW_flat h')
  | .cons h h' h'' => flat_comma (flat_append (TyW_flat h) (CstW_flat h')) (CstsW_flat h'')
end

theorem OpdW_flat {o : Opd} {ts : List Tok} (h : OpdW o ts) : Flat ts := by
  cases h with
  | cst h => exact CstW_flat h
  | loc _ => exact flat_word flat_nil
  | glob _ => exact flat_word flat_nil

theorem TOpdW_flat {o : Ty × Opd} {ts : List Tok} (h : TOpdW o ts) : Flat ts := by
  cases h with
  | mk h h' => exact flat_append (TyW_flat h) (OpdW_flat h')

theorem IncW_flat {o : Opd × Str} {ts : List Tok} (h : IncW o ts) : Flat ts ∧ .sym '[' ∈ ts := by
  cases h with
  | mk h h' =>
    exact ⟨flat_sym (flat_append (OpdW_flat h) (flat_sym (flat_word (flat_sym flat_nil (by decide) (by decide))) (by decide) (by decide))) (by decide) (by decide),
      List.mem_cons_self ..⟩

theorem ParamW_flat {o : Ty × Str} {ts : List Tok} (h : ParamW o ts) : Flat ts := by
  cases h with
  | mk h h' => exact flat_append (TyW_flat h) (flat_word flat_nil)

theorem commas_flat {α : Type} {P : α → List Tok → Prop} (hP : ∀ a ts, P a ts → Flat ts) {l : List α} {ts : List Tok} (h : Commas P l ts) : Flat ts := by
  induction h with
  | nil => exact flat_nil
  | one h => exact hP _ _ h
  | cons h _ ih => exact flat_comma (hP _ _ h) ih

theorem scan_def {x : Str} {t : Tok} {ts : List Tok} (h : Flat ts) (ht : t ≠ kw "phi") (ht' : t ≠ .sym '=') : phiScan 0 (.word x :: .sym '=' :: t :: ts) = some 0 := by
  simp only [phiScan, reduceCtorEq, if_false, if_true, if_neg ht, if_neg ht']
  exact phiScan_flat h

theorem kw_ne {a b : String} (h : a.toList ≠ b.toList) : kw a ≠ kw b := fun e => h (Tok.word.inj e)

theorem InstW_scan {i : Inst} {ts : List Tok} (h : InstW i ts) : phiScan 0 ts = some 0 := by
  cases h with
  | alloca _ h => exact scan_def (TyW_flat h) (by decide) (by decide)
  | load _ h h' => exact scan_def (flat_comma (TyW_flat h) (TOpdW_flat h')) (by decide) (by decide)
  | store h h' => exact phiScan_flat (flat_word (flat_comma (TOpdW_flat h) (TOpdW_flat h')))
  | gep _ h h' h'' =>
    exact scan_def (flat_word (flat_comma (TyW_flat h) (flat_comma (TOpdW_flat h') (commas_flat (fun _ _ => TOpdW_flat) h'')))) (by decide) (by decide)
  | @arith x op _ _ _ _ _ h h' =>
    exact scan_def (flat_word (flat_comma (OpdW_flat h) (OpdW_flat h'))) (by cases op <;> decide) (by cases op <;> decide)
  | @icmp x c _ _ _ _ _ h h' => exact scan_def (by cases c <;> exact flat_word (flat_word (flat_comma (OpdW_flat h) (OpdW_flat h')))) (by decide) (by decide)
  | zext _ h => exact scan_def (flat_word (flat_append (OpdW_flat h) (flat_word (flat_word flat_nil)))) (by decide) (by decide)
  | jump _ => exact phiScan_flat (flat_word (flat_word (flat_word flat_nil)))
  | br h _ _ =>
    exact phiScan_flat (flat_word (flat_word (flat_comma (OpdW_flat h) (flat_word (flat_word (flat_sym (flat_word (flat_word flat_nil)) (by decide) (by decide)))))))
  | call _ h _ h' =>
    exact scan_def (flat_append (TyW_flat h) (flat_word (flat_sym (flat_append (commas_flat (fun _ _ => TOpdW_flat) h') (flat_sym flat_nil (by decide) (by decide)))
      (by decide) (by decide)))) (by decide) (by decide)
  | callVoid _ h' =>
    exact phiScan_flat (flat_word (flat_word (flat_word (flat_sym (flat_append (commas_flat (fun _ _ => TOpdW_flat) h') (flat_sym flat_nil (by decide) (by decide)))
      (by decide) (by decide)))))
  | retVoid => exact phiScan_flat (flat_word (flat_word flat_nil))
  | ret h => exact phiScan_flat (flat_word (TOpdW_flat h))

theorem PhiW_scan {φ : Phi} {ts : List Tok} (h : PhiW φ ts) : phiScan 0 ts = some 0 := by
  cases h with
  | mk _ h h' =>
    simp only [phiScan, reduceCtorEq, if_false, if_true]
    refine phiScan_bracket (flat_append (TyW_flat h) (commas_flat (fun _ _ h => (IncW_flat h).1) h')) (List.mem_append_right _ ?_)
    cases h' with
    | one h => exact (IncW_flat h).2
    | cons h _ => exact List.mem_append_left _ (IncW_flat h).2

theorem lines_scan {α : Type} {P : α → List Tok → Prop} (hP : ∀ a ts, P a ts → phiScan 0 ts = some 0) {l : List α} {ts : List Tok} (h : Lines P l ts) :
    phiScan 0 ts = some 0 := by
  induction h with
  | nil => rfl
  | cons h _ ih =>
    rw [phiScan_append, hP _ _ h]
    simpa [phiScan] using ih
  | blank _ ih => simpa [phiScan] using ih

theorem BlksW_scan {l : List Blk} {ts : List Tok} (h : BlksW l ts) : phiScan 0 ts = some 0 := by
  induction h with
  | nil => rfl
  | cons h _ ih =>
    rw [phiScan_append]
    have : ∀ {b : Blk} {ts : List Tok}, BlkW b ts → phiScan 0 ts = some 0 := by
      intro b ts h
      cases h with
      | mk _ h h' =>
        simp only [phiScan, reduceCtorEq, if_false, Tok.sym.injEq, show (':' : Char) ≠ '=' by decide, show ('\n' : Char) ≠ '=' by decide]
        rw [phiScan_append, lines_scan (fun _ _ => PhiW_scan) h]
        exact lines_scan (fun _ _ => InstW_scan) h'
    rw [this h]
    exact ih

theorem ItemW_scan {i : Item} {ts : List Tok} (h : ItemW i ts) : phiScan 0 ts = some 0 := by
  cases h with
  | global _ h h' => exact scan_def (flat_append (TyW_flat h) (CstW_flat h')) (by decide) (by decide)
  | declare _ h h' =>
    exact phiScan_flat (flat_word (flat_append (TyW_flat h) (flat_word (flat_sym (flat_append (TysW_flat h') (flat_sym flat_nil (by decide) (by decide)))
      (by decide) (by decide)))))
  | define _ h h' h'' =>
    rw [show ∀ (a b c d : List Tok) x y z u v k, (x :: (a ++ y :: z :: (b ++ u :: v :: k :: (c ++ d)))) = (x :: (a ++ y :: z :: b)) ++ ([u, v, k] ++ (c ++ d)) by simp]
    have hf : ∀ {n : Str}, Flat (kw "define" :: (_ ++ .word n :: .sym '(' :: _)) := fun {n} =>
      flat_word (flat_append (TyW_flat h) (flat_word (flat_sym (commas_flat (fun _ _ => ParamW_flat) h') (by decide) (by decide))))
    rw [phiScan_append, phiScan_flat hf]
    simp only [Option.bind_some]
    rw [phiScan_append, show phiScan 0 [.sym ')', .sym '{', .sym '\n'] = some 0 by decide]
    simp only [Option.bind_some]
    rw [phiScan_append, BlksW_scan h'']
    decide

theorem written_scan {M : Mod} {s : Str} (h : Written M s) : phiScan 0 (words s) = some 0 := lines_scan (fun _ _ => ItemW_scan) h

/-- The generated text is always that of an LLVM module. -/
def LlvmTextWritten : Prop := ∀ o w input p s m, Accepted w input p → llvmGenerate o NM.new p = some (s, m) → ∃ M, Written M s

/-- The text generated for a program has a phi node without incoming values. -/
def emptyPhi (p : Program) : Bool := match llvmGenerate .added NM.new p with
  | some (s, _) => phiScan 0 (words s) == none
  | none => false

/-- C51 fails: the entry block of this program, which is accepted, has a parameter. The generated text has the line `%$x = phi i32` without any
incoming value, which is not LLVM. -/
theorem C51_violated : ¬ LlvmTextWritten := by
  intro hall
  obtain ⟨p, h, hq⟩ := acceptsWith_iff (input := "fun @main(): i32 {%e(%x: i32): ret 0}".toList) (q := emptyPhi) (by decide +kernel)
  unfold emptyPhi at hq
  split at hq
  · rename_i s m hg
    obtain ⟨M, hM⟩ := hall _ _ _ _ _ _ h hg
    rw [written_scan hM] at hq
    cases hq
  · cases hq

end Koopa
