import Verif.Lemmas.Back.LlvmShape
/-!
Where the local names of the LLVM generator come from.
-/
namespace Koopa
open Spec Spec.Ll

/-- The name was made from the name chosen in the program. -/
def FromName : Option Str → Str → Prop
  | none, n => ∃ k, TempNo llvmKs n k
  | some x, n => ∃ c, BackLlvm.localPrefix.name x = some c ∧ (n = c ∨ ∃ k, n = suffixed c k)

/-- Local names were made from the names requested, and no label is the same temporary name as a value. -/
structure NFrom (P : Value → Option Str → Prop) (Q : BB → Option Str → Prop) (N : Names) : Prop where
  value : ∀ v n, N.ent (.value v) = some n → ∃ c, P v c ∧ FromName c n
  temp : ∀ v n, N.ent (.temp v) = some n → ∃ k, TempNo llvmKs n k
  bb : ∀ b n, N.bb b = some n → ∃ c, Q b c ∧ FromName c n
  apart : ∀ e b n, N.ent e = some n → N.bb b = some n → ∀ k, ¬ TempNo llvmKs n k

/-- The names requested by a piece. -/
def Asks (P : Value → Option Str → Prop) (Q : BB → Option Str → Prop) : Piece → Prop
  | .value v c => P v c
  | .bb b c => Q b c
  | .label b c => Q b c
  | _ => True

theorem from_chosen {id : Nat} {ns : List Str} {c : Option Str} {n : Str} (h : Chosen BackLlvm.localPrefix id ns c n) : FromName c n := by
  cases c with
  | none => exact ⟨id, _, by simp, h⟩
  | some x =>
    obtain ⟨c', h1, h2⟩ := h
    refine ⟨c', h1, ?_⟩
    rcases h2 with ⟨-, h2⟩ | ⟨-, k, h2, -⟩
    · exact .inl h2
    · exact .inr ⟨k, h2⟩

/-- A temporary name that was chosen has the next number. -/
theorem chosen_temp {pre : Prefix} (hpre : pre ∈ llvmKs) {id : Nat} {ns : List Str} {c : Option Str} {n : Str} (hc : ∀ x, c = some x → AsciiName x)
    (h : Chosen pre id ns c n) {k : Nat} (hk : TempNo llvmKs n k) : k = id := by
  cases c with
  | none => exact prefixes_llvm.inj _ _ _ hk ⟨pre, hpre, h⟩
  | some x =>
    obtain ⟨c', h1, h2⟩ := h
    rcases h2 with ⟨-, rfl⟩ | ⟨-, j, rfl, -⟩
    · exact absurd hk ((hc x rfl).fine pre hpre _ h1 k)
    · exact absurd hk (prefixes_llvm.suffix _ _ _)

variable {P : Value → Option Str → Prop} {Q : BB → Option Str → Prop} {p : Program}

theorem NamedEnt.from {m m' : NM} {e : Ent} {c : Option Str} {n : Str} (h : NamedEnt llvmKs m m' e c n) (hi : NInv llvmKs m) (hm : NFrom P Q m.names)
    (hc : ∀ x, c = some x → AsciiName x) (hv : ∀ v, e = .value v → ∃ c, P v c ∧ FromName c n) : NFrom P Q m'.names := by
  refine ⟨?_, (h.inv hi).isTemp, ?_, ?_⟩
  · intro v x hx
    rw [h.ent] at hx
    split at hx
    · rename_i he; cases hx; exact hv v he.symm
    · exact hm.value v x hx
  · rw [h.bb]; exact hm.bb
  · intro e' b x hx hb k hk
    rw [h.bb] at hb
    rw [h.ent] at hx
    split at hx
    · cases hx
      have := chosen_temp hi.pre hc h.chosen hk
      have := hi.bbTemps _ (hi.bbUsed _ _ hb) k hk
      omega
    · exact hm.apart e' b x hx hb k hk

theorem NamedBb.from {m m' : NM} {b : BB} {c : Option Str} {n : Str} (h : NamedBb llvmKs m m' b c n) (hi : NInv llvmKs m) (hm : NFrom P Q m.names)
    (hc : ∀ x, c = some x → AsciiName x) (hv : ∃ c, Q b c ∧ FromName c n) : NFrom P Q m'.names := by
  refine ⟨?_, (h.inv hi).isTemp, ?_, ?_⟩
  · rw [h.ent]; exact hm.value
  · intro b x hx
    rw [h.bb] at hx
    split at hx
    · rename_i he; cases hx; subst he; exact hv
    · exact hm.bb b x hx
  · intro e' b x hx hb k hk
    rw [h.ent] at hx
    rw [h.bb] at hb
    split at hb
    · cases hb
      have := chosen_temp hi.pre hc h.chosen hk
      have := hi.temps _ (hi.used _ _ hx) k hk
      omega
    · exact hm.apart e' b x hx hb k hk

theorem bb_from {m m' : NM} {b : BB} {c : Option Str} {n : Str} (hm : NGood p m) (hpre : m.pre = BackLlvm.localPrefix) (hN : NFrom P Q m.names)
    (hq : Q b c) (hc : ∀ x, c = some x → AsciiName x) (hr : m.bbName b c = some (n, m')) : NFrom P Q m'.names := by
  rcases NM.bbName_spec prefixes_llvm hm.inv (fun x hx => (hc x hx).fine) hr with ⟨h0, rfl⟩ | h1
  · exact hN
  · have hch := h1.chosen
    rw [hpre] at hch
    exact h1.from hm.inv hN hc ⟨c, hq, from_chosen hch⟩

theorem LPiece.from {m : NM} {x : Piece} (h : LPiece m x) {m' : NM} (hm : NGood p m) (hpre : m.pre = BackLlvm.localPrefix)
    (hin : m.inFunc = true) (hN : NFrom P Q m.names) (ha : Asks P Q x) {s : Str} (hr : x.run m = some (s, m')) : NFrom P Q m'.names := by
  cases h with
  | lit => cases hr; exact hN
  | @func f c n h =>
    have h1 : m.funcs.get? f = some n := h
    have h2 : m.funcName f c = some (n, m) := by rw [NM.funcName, h1]
    rw [Piece.run, h2] at hr
    cases hr
    exact hN
  | @global f c n h =>
    have h1 : m.globalVars.get? f = some n := h
    have h2 : m.globalName f c = some (n, m) := by rw [NM.globalName, h1]
    rw [Piece.run, h2] at hr
    cases hr
    exact hN
  | value hc =>
    rcases NM.valueName_spec prefixes_llvm hm.inv hin (fun x hx => (hc x hx).fine) hr with ⟨h0, rfl⟩ | h1
    · exact hN
    · have hch := h1.chosen
      rw [hpre] at hch
      exact h1.from hm.inv hN hc (fun v hv => by cases hv; exact ⟨_, ha, from_chosen hch⟩)
  | temp =>
    rcases NM.tempOf_spec prefixes_llvm hm.inv hin hr with ⟨h0, rfl⟩ | h1
    · exact hN
    · exact h1.from hm.inv hN (fun x hx => by cases hx) (fun v hv => by cases hv)
  | bb hc => exact bb_from hm hpre hN ha hc hr
  | label hc =>
    simp only [Piece.run] at hr
    split at hr
    · cases hr
    · cases hr
    · rename_i hb
      cases hr
      exact bb_from hm hpre hN ha hc hb

theorem LPiece.froms : ∀ {xs : List Piece} {m m' : NM} {s : Str}, (∀ x ∈ xs, LPiece m x) → NGood p m → m.pre = BackLlvm.localPrefix → m.inFunc = true →
    NFrom P Q m.names → (∀ x ∈ xs, Asks P Q x) → runPieces m xs = some (s, m') → NFrom P Q m'.names
  | [], m, m', s, _, hm, hpre, hin, hN, _, h => by cases h; exact hN
  | x :: xs, m, m', s, hx, hm, hpre, hin, hN, ha, h => by
    rw [runPieces] at h
    split at h
    · cases h
    · rename_i s1 m1 h1
      obtain ⟨a1, a2, a3, a4, a5⟩ := (hx x List.mem_cons_self).run hm hpre hin h1
      have b1 := (hx x List.mem_cons_self).from hm hpre hin hN (ha x List.mem_cons_self) h1
      split at h
      · cases h
      · rename_i s2 m2 h2
        cases h
        exact LPiece.froms (fun y hy => (hx y (List.mem_cons_of_mem _ hy)).mono a4) a1 a2 a3 b1 (fun y hy => ha y (List.mem_cons_of_mem _ hy)) h2

/-- No local has a name. -/
structure NoLocals (m : NM) : Prop where
  values : ∀ v, m.values.get? v = none
  temps : ∀ v, m.temps.get? v = none
  bbs : ∀ b, m.bbs.get? b = none

theorem GPiece.noLocals : ∀ {xs : List Piece} {m m' : NM} {s : Str}, (∀ x ∈ xs, GPiece p x) → NoLocals m → runPieces m xs = some (s, m') → NoLocals m'
  | [], m, m', s, _, hm, h => by cases h; exact hm
  | x :: xs, m, m', s, hx, hm, h => by
    rw [runPieces] at h
    split at h
    · cases h
    · rename_i s1 m1 h1
      have key : NoLocals m1 := by
        have next : ∀ {m m' : NM} {ns ns' : List Str} {c : Option Str} {n : Str}, NoLocals m → m.nextName ns c = some (n, ns', m') → NoLocals m' := by
          intro m m' ns ns' c n hm h
          unfold NM.nextName at h
          split at h
          · cases h; exact ⟨hm.values, hm.temps, hm.bbs⟩
          · split at h
            · cases h
            · split at h
              · cases h
              · cases h; exact hm
        cases hx x List.mem_cons_self with
        | lit => cases h1; exact hm
        | func hf =>
          simp only [Piece.run, NM.funcName] at h1
          split at h1
          · cases h1; exact hm
          · split at h1
            · cases h1
            · rename_i hn
              have := next hm hn
              cases h1; exact ⟨this.values, this.temps, this.bbs⟩
        | global hf =>
          simp only [Piece.run, NM.globalName] at h1
          split at h1
          · cases h1; exact hm
          · split at h1
            · cases h1
            · rename_i hn
              have := next hm hn
              cases h1; exact ⟨this.values, this.temps, this.bbs⟩
      split at h
      · cases h
      · rename_i s2 m2 h2
        cases h
        exact GPiece.noLocals (fun y hy => hx y (List.mem_cons_of_mem _ hy)) key h2

theorem NoLocals.from {m : NM} (h : NoLocals m) : NFrom P Q m.names := by
  refine ⟨fun v n hn => ?_, fun v n hn => ?_, fun b n hn => ?_, fun e b n _ hn => ?_⟩
  · simp [NM.names, h.values] at hn
  · simp [NM.names, h.temps] at hn
  · simp [NM.names, h.bbs] at hn
  · simp [NM.names, h.bbs] at hn

/-- The names of the values of a function. -/
def ValueNamed (p : Program) (f : Func) (v : Value) (c : Option Str) : Prop := ∃ d, LocalVal p f v d ∧ d.name = c

/-- The names of the blocks of a function. -/
def LabelNamed (p : Program) (f : Func) (b : BB) (c : Option Str) : Prop := ∃ d, Block p f b d ∧ d.name = c

/-! ### Names that were made from different names differ -/

/-- The name in LLVM of a local. -/
def llvmLocal : Str → Str
  | '@' :: s => '%' :: s
  | _ :: s => '%' :: '$' :: s
  | [] => []

theorem from_local {x n : Str} (hx : AsciiName x) (hl : x.length ≤ 512) (h : FromName (some x) n) (hk : ∀ k, ¬ TempNo llvmKs n k) :
    n = llvmLocal x ∨ ∃ k, n = llvmLocal (suffixed x k) := by
  obtain ⟨c, h1, h2⟩ := h
  have h3 : c = llvmLocal x := by
    rcases prefix_name (a := '%') (.inr rfl) hx h1 with ⟨s, rfl, -, rfl⟩ | ⟨s, rfl, -, rfl⟩
    · rw [take_all (by simp at hl; omega)]; rfl
    · rw [take_all (by simp at hl; omega)]; rfl
  subst h3
  rcases h2 with h2 | ⟨k, h2⟩
  · exact .inl h2
  · refine .inr ⟨k, ?_⟩
    rw [h2]
    obtain ⟨a, s, rfl, ha, -⟩ := hx
    rcases ha with rfl | rfl <;> rfl

theorem llvmLocal_inj {a b : Char} (ha : a = '@' ∨ a = '%') (hb : b = '@' ∨ b = '%') {s t : Str} (hs : s.head? ≠ some '$') (ht : t.head? ≠ some '$')
    (h : llvmLocal (a :: s) = llvmLocal (b :: t)) : a :: s = b :: t := by
  rcases ha with rfl | rfl <;> rcases hb with rfl | rfl
  · exact congrArg _ (List.cons.inj h).2
  · have : s = '$' :: t := (List.cons.inj h).2
    rw [this] at hs; exact absurd rfl hs
  · have : '$' :: s = t := (List.cons.inj h).2
    rw [← this] at ht; exact absurd rfl ht
  · exact congrArg _ (List.cons.inj (List.cons.inj h).2).2

theorem suffixed_base {x y : Str} {i j : Nat} (h : suffixed x i = suffixed y j) : x = y := by
  have key : ∀ (d e : Str), '_' ∉ d → '_' ∉ e → ∀ (x y : Str), d ++ '_' :: x = e ++ '_' :: y → x = y := by
    intro d
    induction d with
    | nil =>
      intro e _ he x y h
      cases e with
      | nil => exact (List.cons.inj h).2
      | cons c e => exact absurd (List.mem_cons.2 (.inl (List.cons.inj h).1)) he
    | cons c d ih =>
      intro e hd he x y h
      cases e with
      | nil => exact absurd (List.mem_cons.2 (.inl (List.cons.inj h).1.symm)) hd
      | cons c' e => exact ih e (fun h => hd (List.mem_cons_of_mem _ h)) (fun h => he (List.mem_cons_of_mem _ h)) x y (List.cons.inj h).2
  have h1 := congrArg List.reverse h
  simp only [suffixed, List.reverse_append, List.reverse_cons, List.append_assoc, List.singleton_append] at h1
  have h2 := key _ _ (by simpa using underscore_showNat i) (by simpa using underscore_showNat j) _ _ h1
  simpa using h2

end Koopa
