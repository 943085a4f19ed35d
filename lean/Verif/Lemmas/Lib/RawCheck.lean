import Verif.Lemmas.Front.NamesIn
import Verif.Lemmas.Lib.RawFuel
/-!
Checks for concrete programs: a parameter of a block is mentioned only where the block dominates, and lists fit.
-/
namespace Koopa.Raw
open Spec

/-- The list with what its members need. -/
def closeUnder (next : Nat → List Nat) : Nat → List Nat → List Nat
  | 0, l => l
  | n + 1, l => closeUnder next n (l ++ (l.flatMap next).filter (fun v => !l.contains v))

def closedUnder (next : Nat → List Nat) (l : List Nat) : Bool := l.all fun u => (next u).all l.contains

/-- The live operands of a value. -/
def liveOps (fd : FData) (u : Value) : List Value :=
  match fd.dfg.values.get? u with
  | none => []
  | some x => (operands x.kind).filter fun v => (fd.dfg.values.get? v).isSome

/-- The blocks that instructions of the block name. -/
def succs (fd : FData) (a : BB) : List BB :=
  (fd.layout.bbs.filter (fun q => q.1 == a)).flatMap fun q => q.2.flatMap fun u =>
    match fd.dfg.values.get? u with
    | none => []
    | some x => Spec.targets x.kind

/-- The instructions and their operands do not include the parameters. -/
def freeOf (fd : FData) (is params : List Value) : Bool :=
  let l := closeUnder (liveOps fd) 8 is
  closedUnder (liveOps fd) l && is.all l.contains && params.all fun v => !l.contains v

def domBlock (fd : FData) (c : BB) (x : BData) : Bool :=
  let next := fun a => (succs fd a).filter (· != c)
  let start := ((fd.layout.bbs.head?.map (·.1)).toList).filter (· != c)
  let l := closeUnder next 8 start
  closedUnder next l && start.all l.contains && fd.layout.bbs.all fun q => !l.contains q.1 || freeOf fd q.2 x.params

def domCheck (p : Program) : Bool :=
  p.funcs.keys.all fun f => match p.funcs.get? f with
    | none => true
    | some fd => fd.dfg.bbs.keys.all fun c => match fd.dfg.bbs.get? c with
      | none => true
      | some x => domBlock fd c x

theorem closedUnder_mem {next : Nat → List Nat} {l : List Nat} (h : closedUnder next l = true) {u v : Nat} (hu : u ∈ l)
    (hv : v ∈ next u) : v ∈ l := by
  unfold closedUnder at h
  rw [List.all_eq_true] at h
  have := h u hu
  rw [List.all_eq_true] at this
  simpa using this v hv

theorem domCheck_sound {p : Program} (h : domCheck p = true) : Dominated p := by
  intro f fd b v c x hf hm hc hx hv ha
  unfold domCheck at h
  rw [List.all_eq_true] at h
  have h1 := h f ((Map.mem_keys_iff _ _).2 (by rw [hf]; rfl))
  rw [hf] at h1
  simp only [List.all_eq_true] at h1
  have h2 := h1 c ((Map.mem_keys_iff _ _).2 (by rw [hx]; rfl))
  rw [hx] at h2
  simp only at h2
  unfold domBlock at h2
  simp only [Bool.and_eq_true, List.all_eq_true, Bool.or_eq_true, Bool.not_eq_true'] at h2
  obtain ⟨⟨h3, h4⟩, h5⟩ := h2
  have hin : ∀ a, Avoids p f (· = c) a →
      a ∈ closeUnder (fun a => (succs fd a).filter (· != c)) 8 (((fd.layout.bbs.head?.map (·.1)).toList).filter (· != c)) := by
    intro a ha
    induction ha with
    | entry hf' he hn =>
      rw [hf] at hf'; cases hf'
      simpa using h4 _ (List.mem_filter.2 ⟨by rw [he]; simp, by simpa using hn⟩)
    | step _ hedge hn ih =>
      obtain ⟨fd', is, u, y, e1, e2, e3, ⟨fd2, e4, e4'⟩, e5⟩ := hedge
      rw [hf] at e1 e4; cases e1; cases e4
      refine closedUnder_mem h3 ih (List.mem_filter.2 ⟨?_, by simpa using hn⟩)
      unfold succs
      simp only [List.mem_flatMap, List.mem_filter]
      exact ⟨_, ⟨e2, by simp⟩, u, e3, by rw [e4']; exact e5⟩
  have hb := hin b ha
  have hmem : ∀ {v}, Mentions p f b v → ∃ is, (b, is) ∈ fd.layout.bbs ∧ v ∈ closeUnder (liveOps fd) 8 is := by
    intro v hm
    induction hm with
    | inst hf' hb' hv' =>
      rw [hf] at hf'; cases hf'
      refine ⟨_, hb', ?_⟩
      rcases h5 _ hb' with h6 | h6
      · simp only [List.contains_eq_mem, decide_eq_false_iff_not] at h6
        exact absurd hb h6
      · unfold freeOf at h6
        simp only [Bool.and_eq_true, List.all_eq_true] at h6
        simpa using h6.1.2 _ hv'
    | operand _ hu hop hl ih =>
      obtain ⟨is, i1, i2⟩ := ih
      refine ⟨is, i1, ?_⟩
      rcases h5 _ i1 with h6 | h6
      · simp only [List.contains_eq_mem, decide_eq_false_iff_not] at h6
        exact absurd hb h6
      · unfold freeOf at h6
        simp only [Bool.and_eq_true, List.all_eq_true] at h6
        refine closedUnder_mem h6.1.1 i2 ?_
        obtain ⟨fd1, a1, a2⟩ := hu
        obtain ⟨fd2, b1, b2⟩ := hl
        rw [hf] at a1 b1; cases a1; cases b1
        unfold liveOps
        rw [a2]
        exact List.mem_filter.2 ⟨hop, by rw [b2]; rfl⟩
  obtain ⟨is, i1, i2⟩ := hmem hm
  rcases h5 _ i1 with h6 | h6
  · simp only [List.contains_eq_mem, decide_eq_false_iff_not] at h6
    exact absurd hb h6
  · unfold freeOf at h6
    simp only [Bool.and_eq_true, List.all_eq_true] at h6
    have := h6.2 v hv
    simp at this
    exact this i2

def fits (l : List Nat) : Bool := decide (l.length < 2 ^ 32)

theorem fits_iff {l : List Nat} : fits l = true ↔ Fits l := by unfold fits Fits; exact decide_eq_true_iff

def kindFits : VKind → Bool
  | .aggregate es => fits es
  | .branch _ _ _ ta fa => fits ta && fits fa
  | .jump _ as => fits as
  | .call _ as => fits as
  | _ => true

theorem kindFits_sound {k : VKind} (h : kindFits k = true) : KindFits k := by
  cases k <;> first
    | exact trivial
    | exact fits_iff.1 h
    | (simp only [kindFits, Bool.and_eq_true, fits_iff] at h; exact h)

def fitsFunc (fd : FData) : Bool :=
  fits fd.params && fits (fd.layout.bbs.map (·.1)) && fd.layout.bbs.all (fun q => fits q.2) &&
    (fd.dfg.values.keys.all fun v => match fd.dfg.values.get? v with
      | none => true
      | some x => kindFits x.kind) &&
    fd.dfg.bbs.keys.all fun b => match fd.dfg.bbs.get? b with
      | none => true
      | some x => fits x.params

def fitsCheck (p : Program) : Bool :=
  fits p.instLayout && fits p.funcLayout && (p.values.keys.all fun v => match p.values.get? v with
    | none => true
    | some x => kindFits x.kind) &&
  p.funcs.keys.all fun f => match p.funcs.get? f with
    | none => true
    | some fd => fitsFunc fd

theorem fitsCheck_sound {p : Program} (h : fitsCheck p = true) : ListsFit p := by
  unfold fitsCheck at h
  simp only [Bool.and_eq_true, List.all_eq_true, fits_iff] at h
  obtain ⟨⟨⟨h1, h2⟩, h3⟩, h4⟩ := h
  have hfd : ∀ f fd, p.funcs.get? f = some fd → fitsFunc fd = true := by
    intro f fd hf
    have := h4 f ((Map.mem_keys_iff _ _).2 (by rw [hf]; rfl))
    rw [hf] at this
    exact this
  refine ⟨?_, ?_, ⟨h1, h2⟩, ?_, ?_⟩
  · intro f v x ⟨fd, hf, hx⟩
    have := hfd f fd hf
    unfold fitsFunc at this
    simp only [Bool.and_eq_true, List.all_eq_true] at this
    have := this.1.2 v ((Map.mem_keys_iff _ _).2 (by rw [hx]; rfl))
    rw [hx] at this
    exact kindFits_sound this
  · intro v x hx
    have hx' : p.values.get? v = some x := hx
    have := h3 v ((Map.mem_keys_iff _ _).2 (by rw [hx']; rfl))
    rw [hx'] at this
    exact kindFits_sound this
  · intro f fd hf
    have := hfd f fd hf
    unfold fitsFunc at this
    simp only [Bool.and_eq_true, List.all_eq_true, fits_iff] at this
    exact ⟨this.1.1.1.1, this.1.1.1.2, fun b is hb => this.1.1.2 _ hb⟩
  · intro f b x ⟨fd, hf, hx⟩
    have := hfd f fd hf
    unfold fitsFunc at this
    simp only [Bool.and_eq_true, List.all_eq_true] at this
    have := this.2 b ((Map.mem_keys_iff _ _).2 (by rw [hx]; rfl))
    rw [hx] at this
    exact fits_iff.1 this

end Koopa.Raw
