import Verif.Lemmas.Same.Text
import Verif.Lemmas.Back.LlvmReady
/-!
The text form generator keeps the names of the functions of accepted programs.
-/
namespace Koopa
open Spec

/-- Functions and global variables have names of their own. -/
structure OwnNames (p : Program) : Prop where
  funcs : ∀ f g fd gd, p.funcs.get? f = some fd → p.funcs.get? g = some gd → fd.name = gd.name → f = g
  globals : ∀ v w d e n, GVar p v d → GVar p w e → d.name = some n → e.name = some n → v = w
  apart : ∀ f fd v d, p.funcs.get? f = some fd → GVar p v d → d.name ≠ some fd.name

theorem FromText.ownNames {p : Program} {gs : List GlobalAst} {vars : List (Str × Value)} {fns : List (Str × Func)} (A : FromText p gs vars fns) :
    OwnNames p := by
  obtain ⟨a1, a2, a3⟩ := A.items.apart
  refine ⟨?_, ?_, ?_⟩
  · intro f g fd gd hf hg he
    have h1 := A.named hf
    have h2 := A.named hg
    rw [he] at h1
    exact nodup_fst a2 h1 h2
  · intro v w d e n hv hw hd he
    exact nodup_fst a1 (A.gnamed hv hd) (A.gnamed hw he)
  · intro f fd v d hf hv hd
    exact a3 _ (List.mem_map.2 ⟨_, A.gnamed hv hd, rfl⟩) (List.mem_map.2 ⟨_, A.named hf, rfl⟩)

/-- The names given so far are the chosen ones, or temporary ones of global variables. -/
structure KeptSoFar (p : Program) (N : Names) : Prop where
  func : ∀ f n, N.ent (.func f) = some n → ∃ fd, p.funcs.get? f = some fd ∧ fd.name = n
  global : ∀ v n, N.ent (.global v) = some n → (∃ d, GVar p v d ∧ d.name = some n) ∨ ∃ k, TempNo [.default] n k

section
variable {p : Program} (ho : OwnNames p) (hn : PlainNames p) {m m' : NM} (hi : NInv [.default] m) (hk : KeptSoFar p m.names)

theorem plain_not_temp {n : Str} (h : PlainName n) (k : Nat) : ¬ TempNo [.default] n k :=
  PlainName.fine h _ List.mem_cons_self n rfl k

theorem pre_default (hi : NInv [.default] m) : m.pre = .default := List.mem_singleton.1 hi.pre

include ho hn hi hk in
theorem fresh_func (hv : ∀ v, m.names.ent (.value v) = none) {f : Func} {fd : FData} (hf : p.funcs.get? f = some fd)
    (h : m.names.ent (.func f) = none) : fd.name ∉ m.globalNames := by
  intro hm
  have ht := fun k => plain_not_temp (hn.funcs f fd hf) k
  rcases hi.only _ hm with ⟨e, he⟩ | ⟨k, hk'⟩
  · cases e with
    | func g =>
      obtain ⟨gd, h1, h2⟩ := hk.func g _ he
      cases ho.funcs g f gd fd h1 hf h2
      rw [h] at he; cases he
    | global v =>
      rcases hk.global v _ he with ⟨d, h1, h2⟩ | ⟨k, h1⟩
      · exact ho.apart f fd v d hf h1 h2
      · exact ht k h1
    | value v => rw [hv v] at he; cases he
    | temp v =>
      obtain ⟨k, h1⟩ := hi.isTemp v _ he
      exact ht k h1
  · exact ht k hk'

include ho hn hi hk in
theorem fresh_global (hv : ∀ v, m.names.ent (.value v) = none) {v : Value} {d : VData} {n : Str} (hd : GVar p v d) (hdn : d.name = some n)
    (h : m.names.ent (.global v) = none) : n ∉ m.globalNames := by
  intro hm
  have ht := fun k => plain_not_temp (hn.globals v d n hd.1 hdn) k
  rcases hi.only _ hm with ⟨e, he⟩ | ⟨k, hk'⟩
  · cases e with
    | func g =>
      obtain ⟨gd, h1, h2⟩ := hk.func g _ he
      exact ho.apart g gd v d h1 hd (by rw [hdn, h2])
    | global w =>
      rcases hk.global w _ he with ⟨e, h1, h2⟩ | ⟨k, h1⟩
      · cases ho.globals w v e d n h1 hd h2 hdn
        rw [h] at he; cases he
      · exact ht k h1
    | value v => rw [hv v] at he; cases he
    | temp v =>
      obtain ⟨k, h1⟩ := hi.isTemp v _ he
      exact ht k h1
  · exact ht k hk'

include ho hn hi hk in
/-- A function that is written when no values have names keeps its name. -/
theorem func_kept (hv : ∀ v, m.names.ent (.value v) = none) {f : Func} {fd : FData} (hf : p.funcs.get? f = some fd) {n : Str}
    (h : m.funcName f fd.name = some (n, m')) : KeptSoFar p m'.names ∧ m'.names.ent (.func f) = some fd.name ∧ NInv [.default] m' ∧ m.Le m' ∧
      m'.inFunc = m.inFunc := by
  rcases NM.funcName_spec prefixes_koopa hi (PlainName.fine (hn.funcs f fd hf)) h with ⟨h1, rfl⟩ | h1
  · obtain ⟨fd', h2, h3⟩ := hk.func f n h1
    rw [hf] at h2; cases h2
    exact ⟨hk, by rw [h1, h3], hi, .refl _, rfl⟩
  · have hfr := fresh_func ho hn hi hk hv hf h1.fresh
    have hc := h1.chosen
    rw [pre_default hi] at hc
    obtain ⟨c', e, hc⟩ := hc
    cases e
    have : n = fd.name := by
      rcases hc with ⟨-, h⟩ | ⟨h, -⟩
      · exact h
      · exact absurd h hfr
    subst this
    refine ⟨⟨fun g s hg => ?_, fun v s hg => ?_⟩, by rw [h1.ent, if_pos rfl], h1.inv hi, h1.le, h1.scope⟩
    · rw [h1.ent] at hg
      split at hg
      · rename_i he; cases he; cases hg; exact ⟨fd, hf, rfl⟩
      · exact hk.func g s hg
    · rw [h1.ent, if_neg (by simp)] at hg
      exact hk.global v s hg

include ho hn in
/-- The global variables. -/
theorem globals_kept : ∀ {ps : List Piece} {m m' : NM} {s : Str}, NInv [.default] m → KeptSoFar p m.names → m.inFunc = false →
    (∀ x ∈ ps, (∃ s, x = .lit s) ∨ ∃ v d, GVar p v d ∧ x = .global v d.name) → runPieces m ps = some (s, m') →
    NInv [.default] m' ∧ KeptSoFar p m'.names ∧ m'.inFunc = false
  | [], m, m', s, hi, hk, hf, _, h => by cases h; exact ⟨hi, hk, hf⟩
  | x :: xs, m, m', s, hi, hk, hf, hx, h => by
    rw [runPieces] at h
    split at h
    · cases h
    · rename_i s1 m1 h1
      split at h
      · cases h
      · rename_i s2 m2 h2
        cases h
        have key : NInv [.default] m1 ∧ KeptSoFar p m1.names ∧ m1.inFunc = false := by
          rcases hx x List.mem_cons_self with ⟨t, rfl⟩ | ⟨v, d, hd, rfl⟩
          · cases h1; exact ⟨hi, hk, hf⟩
          · rcases NM.globalName_spec prefixes_koopa hi (fun c hc => PlainName.fine (hn.globals v d c hd.1 hc)) h1 with ⟨-, rfl⟩ | h3
            · exact ⟨hi, hk, hf⟩
            · refine ⟨h3.inv hi, ⟨fun g s hg => ?_, fun w s hg => ?_⟩, h3.scope.trans hf⟩
              · rw [h3.ent, if_neg (by simp)] at hg
                exact hk.func g s hg
              · rw [h3.ent] at hg
                split at hg
                · rename_i he
                  cases he; cases hg
                  have hc := h3.chosen
                  rw [pre_default hi] at hc
                  cases hdn : d.name with
                  | none =>
                    rw [hdn] at hc
                    exact .inr ⟨m.nextId, .default, List.mem_cons_self, hc⟩
                  | some c =>
                    rw [hdn] at hc
                    obtain ⟨c', e, hc⟩ := hc
                    cases e
                    have hfr := fresh_global ho hn hi hk (fun v => by simp [NM.names, hf]) hd hdn h3.fresh
                    rcases hc with ⟨-, h⟩ | ⟨h, -⟩
                    · exact .inl ⟨d, hd, by rw [h, hdn]⟩
                    · exact absurd h hfr
                · exact hk.global w s hg
        exact globals_kept key.1 key.2.1 key.2.2 (fun y hy => hx y (List.mem_cons_of_mem _ hy)) h2

/-- A piece that gives no name to a function or a global variable. -/
def Piece.Quiet (m : NM) : Piece → Prop
  | .func g _ => ∃ n, m.names.ent (.func g) = some n
  | .global v _ => ∃ n, m.names.ent (.global v) = some n
  | _ => True

theorem Piece.Quiet.mono {x : Piece} (h : x.Quiet m) (hm : m.Le m') : x.Quiet m' := by
  cases x with
  | func g c => obtain ⟨n, hn⟩ := h; exact ⟨n, hm.1 _ _ hn⟩
  | global g c => obtain ⟨n, hn⟩ := h; exact ⟨n, hm.1 _ _ hn⟩
  | _ => trivial

theorem quiet_run {x : Piece} (hi : NInv [.default] m) (hx : x.Fine [.default] m.inFunc) (hq : x.Quiet m) {s : Str} (h : x.run m = some (s, m')) :
    (∀ f, m'.names.ent (.func f) = m.names.ent (.func f)) ∧ ∀ v, m'.names.ent (.global v) = m.names.ent (.global v) := by
  cases x with
  | lit => cases h; exact ⟨fun _ => rfl, fun _ => rfl⟩
  | setPrefix => cases h; exact ⟨fun _ => rfl, fun _ => rfl⟩
  | enter => exact absurd hx id
  | exit => exact absurd hx id
  | func g c =>
    obtain ⟨n, hn⟩ := hq
    rcases NM.funcName_spec prefixes_koopa hi hx h with ⟨-, rfl⟩ | h1
    · exact ⟨fun _ => rfl, fun _ => rfl⟩
    · rw [h1.fresh] at hn; cases hn
  | global g c =>
    obtain ⟨n, hn⟩ := hq
    rcases NM.globalName_spec prefixes_koopa hi hx h with ⟨-, rfl⟩ | h1
    · exact ⟨fun _ => rfl, fun _ => rfl⟩
    · rw [h1.fresh] at hn; cases hn
  | value v c =>
    rcases NM.valueName_spec prefixes_koopa hi hx.1 hx.2 h with ⟨-, rfl⟩ | h1
    · exact ⟨fun _ => rfl, fun _ => rfl⟩
    · exact ⟨fun _ => by rw [h1.ent, if_neg (by simp)], fun _ => by rw [h1.ent, if_neg (by simp)]⟩
  | temp v =>
    rcases NM.tempOf_spec prefixes_koopa hi hx h with ⟨-, rfl⟩ | h1
    · exact ⟨fun _ => rfl, fun _ => rfl⟩
    · exact ⟨fun _ => by rw [h1.ent, if_neg (by simp)], fun _ => by rw [h1.ent, if_neg (by simp)]⟩
  | bb b c =>
    rcases NM.bbName_spec prefixes_koopa hi hx h with ⟨-, rfl⟩ | h1
    · exact ⟨fun _ => rfl, fun _ => rfl⟩
    · exact ⟨fun _ => by rw [h1.ent], fun _ => by rw [h1.ent]⟩
  | label b c =>
    simp only [Piece.run] at h
    split at h
    · cases h
    · cases h
    · rename_i hb
      cases h
      rcases NM.bbName_spec prefixes_koopa hi hx hb with ⟨-, rfl⟩ | h1
      · exact ⟨fun _ => rfl, fun _ => rfl⟩
      · exact ⟨fun _ => by rw [h1.ent], fun _ => by rw [h1.ent]⟩

theorem quiet_runs : ∀ {ps : List Piece} {m m' : NM} {s : Str}, NInv [.default] m → (∀ x ∈ ps, x.Fine [.default] m.inFunc) → (∀ x ∈ ps, x.Quiet m) →
    runPieces m ps = some (s, m') →
    (∀ f, m'.names.ent (.func f) = m.names.ent (.func f)) ∧ ∀ v, m'.names.ent (.global v) = m.names.ent (.global v)
  | [], m, m', s, _, _, _, h => by cases h; exact ⟨fun _ => rfl, fun _ => rfl⟩
  | x :: xs, m, m', s, hi, hf, hq, h => by
    rw [runPieces] at h
    split at h
    · cases h
    · rename_i s1 m1 h1
      split at h
      · cases h
      · rename_i s2 m2 h2
        cases h
        obtain ⟨a1, a2, a3, a4⟩ := Piece.run_spec prefixes_koopa hi (hf x List.mem_cons_self) h1
        obtain ⟨b1, b2⟩ := quiet_run hi (hf x List.mem_cons_self) (hq x List.mem_cons_self) h1
        obtain ⟨c1, c2⟩ := quiet_runs a1 (by rw [a2]; exact fun y hy => hf y (List.mem_cons_of_mem _ hy))
          (fun y hy => (hq y (List.mem_cons_of_mem _ hy)).mono a3) h2
        exact ⟨fun f => (c1 f).trans (b1 f), fun v => (c2 v).trans (b2 v)⟩

/-- The function is the first thing with a name in its text. -/
theorem func_head {f : Func} {ps : List Piece} (h : BackKoopa.func p f = some ps) :
    ∃ fd w rest, p.funcs.get? f = some fd ∧ ps = txt w :: txt " " :: .func f fd.name :: rest := by
  unfold BackKoopa.func at h
  split at h
  · cases h
  · rename_i fd hf
    split at h
    · split at h
      · cases h; exact ⟨fd, _, _, hf, rfl⟩
      · split at h
        · cases h; exact ⟨fd, _, _, hf, rfl⟩
        · cases h
    · cases h

include ho hn in
/-- The functions. -/
theorem funs_kept (hl : LlvmOrder p) (hfine : NamesOk (FineName [.default]) p) :
    ∀ {fs before : List Func} {m m' : NM} {l : List (NM × Str)}, FunRuns (BackKoopa.func p) m fs l m' → p.funcLayout = before ++ fs →
      NInv [.default] m → KeptSoFar p m.names → (∀ g ∈ before, ∃ n, m.names.ent (.func g) = some n) →
      (∀ v ∈ p.instLayout, ∃ n, m.names.ent (.global v) = some n) →
      KeptSoFar p m'.names ∧ ∀ g ∈ p.funcLayout, ∃ n, m'.names.ent (.func g) = some n
  | [], before, m, m', l, h, hb, hi, hk, h1, h2 => by
    cases h
    rw [List.append_nil] at hb
    exact ⟨hk, by rw [hb]; exact h1⟩
  | f :: fs, before, m, m', l, h, hb, hi, hk, h1, h2 => by
    cases h with
    | @cons _ m0 m1 m2 _ _ _ ps t l' e1 e2 e3 e4 e5 =>
    obtain ⟨a1, a2, a3, a4⟩ := NM.enter_spec hi e2
    have hm0 : m0.names = m.names := by
      unfold NM.enter at e2
      rw [a2] at e2
      cases e2
      simp only [NM.names, a2]
      congr 1
    obtain ⟨fd, w, rest, hf, rfl⟩ := func_head e1
    obtain ⟨fd', hf', hps⟩ := BackKoopa.func_of (ks := []) e1
    rw [hf] at hf'; cases hf'
    have hpf : ∀ x ∈ txt w :: txt " " :: .func f fd.name :: rest, x.Fine [.default] m0.inFunc := by
      rw [a3]; exact fun x hx => hfine.fine (by simp) hf (hps x hx)
    -- the head
    simp only [runPieces, Piece.run, txt] at e3
    rcases h3 : m0.funcName f fd.name with _ | ⟨n, mf⟩
    · rw [h3] at e3; cases e3
    rw [h3] at e3
    simp only at e3
    rcases h4 : runPieces mf rest with _ | ⟨s4, m4⟩
    · rw [h4] at e3; cases e3
    rw [h4] at e3
    cases e3
    obtain ⟨b1, b2, b3, b4, b5⟩ := func_kept ho hn a1 (by rw [hm0]; exact hk) (fun v => by
      rw [hm0]; simp [NM.names, a2]) hf h3
    -- the rest
    have hq : ∀ x ∈ rest, x.Quiet mf := by
      intro x hx
      have hx' := hps x (by simp [hx])
      cases hx' with
      | lit => trivial
      | bb => trivial
      | label => trivial
      | temp => trivial
      | setPrefix => trivial
      | @func g gd h5 h6 =>
        have h7 : g ∈ before ++ [f] := by
          rcases h6 with rfl | ⟨v, d, as, h8, h9⟩
          · simp
          · have := hl.calls before.length f fd v d g as (by rw [hb]; simp) hf h8 h9
            rw [hb] at this
            simpa using this
        rcases List.mem_append.1 h7 with h7 | h7
        · obtain ⟨n, hn⟩ := h1 g h7
          exact ⟨n, b4.1 _ _ (by rw [hm0]; exact hn)⟩
        · rw [List.mem_singleton] at h7; subst h7; exact ⟨_, b2⟩
      | @val v d y h5 h6 =>
        obtain ⟨h7, rfl⟩ := namePiece_eq h6
        rcases h5 with h5 | h5
        · obtain ⟨h8, h9⟩ := hl.globals v d h5 h7
          rw [if_pos h8]
          obtain ⟨n, hn⟩ := h2 v h9
          exact ⟨n, b4.1 _ _ (by rw [hm0]; exact hn)⟩
        · rw [if_neg (by rw [hl.locals f fd v d hf h5]; decide)]
          trivial
    obtain ⟨c1, c2⟩ := quiet_runs b3 (by rw [b5]; exact fun x hx => hpf x (by simp [hx])) hq h4
    obtain ⟨d1, -, -, d4⟩ := runPieces_spec prefixes_koopa b3 (by rw [b5]; exact fun x hx => hpf x (by simp [hx])) h4
    obtain ⟨g1, g2, g3, g4, g5⟩ := NM.exit_spec d1 e4
    have toM2 : ∀ g n, mf.names.ent (.func g) = some n → m2.names.ent (.func g) = some n :=
      fun g n hg => g4.1 g n (by rw [c1]; exact hg)
    refine funs_kept hl hfine (before := before ++ [f]) e5 (by rw [hb]; simp) g1
      ⟨fun g s hg => ?_, fun v s hg => ?_⟩ (fun g hg => ?_) (fun v hv => ?_)
    · have := g5.1 g s hg
      rw [c1] at this
      exact b1.func g s this
    · have := g5.2 v s hg
      rw [c2] at this
      exact b1.global v s this
    · rcases List.mem_append.1 hg with hg | hg
      · obtain ⟨n, hn⟩ := h1 g hg
        exact ⟨n, toM2 g n (b4.1 _ _ (by rw [hm0]; exact hn))⟩
      · rw [List.mem_singleton] at hg; subst hg
        exact ⟨_, toM2 _ _ b2⟩
    · obtain ⟨n, hn⟩ := h2 v hv
      exact ⟨n, g4.2 v n (by rw [c2]; exact b4.1 _ _ (by rw [hm0]; exact hn))⟩

theorem renders_texts {N : Names} : ∀ {ps : List Piece} {s : Str}, Renders N ps s → ∀ x ∈ ps, ∃ t, N.text x = some t
  | _, _, .nil, _, h => by cases h
  | _, _, .cons h hs, x, hx => by
    rcases List.mem_cons.1 hx with rfl | hx
    · exact ⟨_, h⟩
    · exact renders_texts hs x hx

theorem globalInst_var {v : Value} {ps : List Piece} (h : BackKoopa.globalInst p v = some ps) :
    ∃ d, GVar p v d ∧ .global v d.name ∈ ps := by
  unfold BackKoopa.globalInst at h
  split at h
  · cases h
  · rename_i d hd
    split at h
    · rename_i hk
      split at h
      · cases h
      · split at h
        · cases h
        · cases h
          exact ⟨d, ⟨hd, by rw [hk]; rfl⟩, by simp⟩
    · cases h

theorem globalInst_quiet {v : Value} {ps : List Piece} (h : BackKoopa.globalInst p v = some ps) :
    ∀ x ∈ ps, (∃ s, x = .lit s) ∨ ∃ v d, GVar p v d ∧ x = .global v d.name := by
  unfold BackKoopa.globalInst at h
  split at h
  · cases h
  · rename_i d hd
    split at h
    · rename_i hk
      split at h
      · cases h
      · split at h
        · cases h
        · rename_i c hc
          cases h
          intro x hx
          simp only [List.mem_cons, List.mem_append, List.not_mem_nil, or_false] at hx
          rcases hx with rfl | rfl | rfl | rfl | rfl | hx | rfl
          · exact .inl ⟨_, rfl⟩
          · exact .inr ⟨v, d, ⟨hd, by rw [hk]; rfl⟩, rfl⟩
          · exact .inl ⟨_, rfl⟩
          · exact .inl ⟨_, rfl⟩
          · exact .inl ⟨_, rfl⟩
          · exact .inl (constPieces_lit _ _ _ hc x hx)
          · exact .inl ⟨_, rfl⟩
    · cases h

include ho hn in
/-- All functions keep their names. -/
theorem Printed.kept (hl : LlvmOrder p) {m0 : NM} {l : List (NM × Str)} {gs : List (List Piece)} {s0 : Str} (h : Printed p m0 l m' gs s0) :
    ∀ f ∈ p.funcLayout, ∃ fd, p.funcs.get? f = some fd ∧ m'.names.ent (.func f) = some fd.name := by
  have hok := PlainNames.ok hn
  have hfine := hok.mono (fun _ h => PlainName.fine h)
  have hgp : ∀ x ∈ gs.flatten ++ (if p.instLayout.isEmpty then [] else [txt "\n"]), (∃ s, x = .lit s) ∨ ∃ v d, GVar p v d ∧ x = .global v d.name := by
    intro x hx
    rcases List.mem_append.1 hx with hx | hx
    · obtain ⟨l, hl, hx⟩ := List.mem_flatten.1 hx
      obtain ⟨v, -, hv⟩ := allSome_mem h.pieces hl
      exact globalInst_quiet hv x hx
    · split at hx
      · cases hx
      · rw [List.mem_singleton] at hx; exact .inl ⟨_, hx⟩
  have hnew : NInv [.default] NM.new := NInv.new (List.mem_singleton.2 rfl)
  obtain ⟨a1, a2, a3⟩ := globals_kept ho hn hnew ⟨fun _ _ h => (by cases h), fun _ _ h => (by cases h)⟩ rfl hgp h.run
  have b : ∀ v ∈ p.instLayout, ∃ n, m0.names.ent (.global v) = some n := by
    intro v hv
    obtain ⟨-, -, -, hr⟩ := runPieces_spec prefixes_koopa hnew (fun x hx => by
      rcases hgp x hx with ⟨s, rfl⟩ | ⟨v, d, hd, rfl⟩
      · trivial
      · exact fun c hc => PlainName.fine (hn.globals v d c hd.1 hc)) h.run
    obtain ⟨i, hi⟩ := List.getElem?_of_mem hv
    obtain ⟨ps, hps, e⟩ := Raw.All2.get_left (allSome_all2 h.pieces) hi
    obtain ⟨d, -, hm⟩ := globalInst_var e
    exact renders_texts hr (.global v d.name) (List.mem_append_left _ (List.mem_flatten.2 ⟨ps, List.mem_of_getElem? hps, hm⟩))
  obtain ⟨c1, c2⟩ := funs_kept ho hn hl hfine h.funs (before := []) rfl a1 a2 (fun g hg => by cases hg) b
  intro f hf
  obtain ⟨n, h1⟩ := c2 f hf
  obtain ⟨fd, h2, h3⟩ := c1.func f n h1
  exact ⟨fd, h2, by rw [h1, h3]⟩

end

end Koopa
