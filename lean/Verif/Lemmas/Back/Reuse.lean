import Verif.Spec.Reuse
import Verif.Lemmas.Back.Pieces
/-!
A used and a new name manager give the same names, if the names that are in use do not matter.
-/
namespace Koopa
open Spec

theorem pickSuffix_same {ns ns' : List Str} {c : Str} (h : ∀ i, suffixed c i ∈ ns ↔ suffixed c i ∈ ns') :
    ∀ {k k' i : Nat} {x y : Str}, pickSuffix ns c k i = some x → pickSuffix ns' c k' i = some y → x = y
  | 0, _, _, _, _, h1, _ => by cases h1
  | _ + 1, 0, _, _, _, _, h2 => by cases h2
  | k + 1, k' + 1, i, x, y, h1, h2 => by
    rw [pickSuffix] at h1 h2
    by_cases hm : suffixed c i ∈ ns
    · rw [if_pos hm] at h1
      rw [if_pos ((h i).1 hm)] at h2
      exact pickSuffix_same h h1 h2
    · rw [if_neg hm] at h1
      rw [if_neg (fun h' => hm ((h i).2 h'))] at h2
      cases h1; cases h2; rfl

theorem pickName_same {ns ns' : List Str} {c : Str} (h0 : c ∈ ns ↔ c ∈ ns') (h : ∀ i, suffixed c i ∈ ns ↔ suffixed c i ∈ ns') : pickName ns c = pickName ns' c := by
  obtain ⟨x, hx⟩ := pickName_returns ns c
  obtain ⟨y, hy⟩ := pickName_returns ns' c
  rw [hx, hy]
  unfold pickName at hx hy
  by_cases hm : c ∈ ns
  · rw [if_pos hm] at hx; rw [if_pos (h0.1 hm)] at hy
    rw [pickSuffix_same h hx hy]
  · rw [if_neg hm] at hx; rw [if_neg (fun h' => hm (h0.2 h'))] at hy
    cases hx; cases hy; rfl

/-- Names, functions and variables that matter. -/
structure Matter where
  name : Str → Prop
  func : Func → Prop
  var : Value → Prop

/-- Both managers agree on what matters. -/
structure AgreeOn (K : Matter) (a b : NM) : Prop where
  id : a.nextId = b.nextId
  inFunc : a.inFunc = b.inFunc
  pre : a.pre = .default ∧ b.pre = .default
  names : ∀ n, K.name n → (n ∈ a.globalNames ↔ n ∈ b.globalNames)
  bbNames : a.bbNames = b.bbNames
  bbs : a.bbs = b.bbs
  funcs : ∀ f, K.func f → a.funcs.get? f = b.funcs.get? f
  vars : ∀ v, K.var v → a.globalVars.get? v = b.globalVars.get? v
  values : a.inFunc = true → a.values = b.values ∧ a.temps = b.temps

/-- A chosen name that matters, with whatever is appended. -/
def Matter.chosen (K : Matter) (c : Str) : Prop := K.name c ∧ ∀ i, K.name (suffixed c i)

/-- A piece that asks for what matters; `i` tells if it is in a function. -/
def Asked (K : Matter) (i : Bool) : Piece → Prop
  | .lit _ => True
  | .func f c => K.func f ∧ K.chosen c
  | .bb _ _ => i = true
  | .label _ _ => i = true
  | .global v c => K.var v ∧ ∀ c', c = some c' → K.chosen c'
  | .value _ c => i = true ∧ ∀ c', c = some c' → K.chosen c'
  | .temp _ => i = true
  | .setPrefix _ => False
  | .enter => True
  | .exit => True

/-- Whether what comes next is in a function. -/
def nextScope (i : Bool) : Piece → Bool
  | .enter => true
  | .exit => false
  | _ => i

/-- All pieces ask for what matters. -/
def AllAsked (K : Matter) : Bool → List Piece → Prop
  | _, [] => True
  | i, x :: xs => Asked K i x ∧ AllAsked K (nextScope i x) xs

/-- Both runs panic, or both write the same and agree again. -/
def SameRun (K : Matter) (r1 r2 : Option (Str × NM)) : Prop :=
  (r1 = none ∧ r2 = none) ∨ ∃ s a b, r1 = some (s, a) ∧ r2 = some (s, b) ∧ AgreeOn K a b

theorem nextName_same {K : Matter} {a b : NM} (h : AgreeOn K a b) {ns ns' : List Str} {c : Option Str} (hn : ∀ n, K.name n → (n ∈ ns ↔ n ∈ ns'))
    (hc : ∀ c', c = some c' → K.chosen c') :
    ∃ n ns1 ns2 a' b', a.nextName ns c = some (n, ns1, a') ∧ b.nextName ns' c = some (n, ns2, b') ∧ (∀ n, K.name n → (n ∈ ns1 ↔ n ∈ ns2)) ∧
      (ns = ns' → ns1 = ns2) ∧ ∃ k, a' = { a with nextId := k } ∧ b' = { b with nextId := k } := by
  have key : ∀ n x, K.name x → (x ∈ setInsert n ns ↔ x ∈ setInsert n ns') := fun n x hx => by rw [mem_setInsert, mem_setInsert, hn x hx]
  unfold NM.nextName
  cases c with
  | none =>
    have e : a.pre.tempName a.nextId = b.pre.tempName b.nextId := by rw [h.pre.1, h.pre.2, h.id]
    refine ⟨a.pre.tempName a.nextId, setInsert (a.pre.tempName a.nextId) ns, setInsert (a.pre.tempName a.nextId) ns', _, { b with nextId := a.nextId + 1 }, rfl,
      by rw [e]; simp only [h.id], key _, ?_, a.nextId + 1, rfl, rfl⟩
    rintro rfl; rfl
  | some c =>
    obtain ⟨h1, h2⟩ := hc c rfl
    obtain ⟨n, e1⟩ := pickName_returns ns c
    have e2 := pickName_same (hn _ h1) (fun i => hn _ (h2 i))
    have ea : a.pre.name c = some c := by rw [h.pre.1]; rfl
    have eb : b.pre.name c = some c := by rw [h.pre.2]; rfl
    simp only [ea, eb, e1, ← e2]
    refine ⟨_, _, _, _, _, rfl, rfl, key _, ?_, a.nextId, rfl, by rw [h.id]⟩
    rintro rfl; rfl

theorem bbNextName_same {K : Matter} {a b : NM} (h : AgreeOn K a b) (ns : List Str) (c : Option Str) :
    ∃ n ns1 a' b', a.nextName ns c = some (n, ns1, a') ∧ b.nextName ns c = some (n, ns1, b') ∧ ∃ k, a' = { a with nextId := k } ∧ b' = { b with nextId := k } := by
  unfold NM.nextName
  cases c with
  | none =>
    have e : a.pre.tempName a.nextId = b.pre.tempName b.nextId := by rw [h.pre.1, h.pre.2, h.id]
    exact ⟨_, _, _, { b with nextId := a.nextId + 1 }, rfl, by rw [e]; simp only [h.id], a.nextId + 1, rfl, rfl⟩
  | some c =>
    obtain ⟨n, e1⟩ := pickName_returns ns c
    have ea : a.pre.name c = some c := by rw [h.pre.1]; rfl
    have eb : b.pre.name c = some c := by rw [h.pre.2]; rfl
    simp only [ea, eb, e1]
    exact ⟨_, _, _, _, rfl, rfl, a.nextId, rfl, by rw [h.id]⟩

theorem bbName_same {K : Matter} {a b : NM} (h : AgreeOn K a b) (v : BB) (c : Option Str) : SameRun K (a.bbName v c) (b.bbName v c) := by
  unfold NM.bbName
  rw [← h.bbs]
  split
  · exact .inr ⟨_, _, _, rfl, rfl, h⟩
  · obtain ⟨n, ns1, a', b', h1, h2, k, rfl, rfl⟩ := bbNextName_same h a.bbNames c
    rw [← h.bbNames]
    simp only [h1, h2]
    refine .inr ⟨_, _, _, rfl, rfl, { h with id := rfl, bbNames := rfl, bbs := by rw [h.bbs] }⟩

theorem foldl_erase {xs : List Str} : ∀ {s : List Str} {n : Str}, n ∈ xs.foldl (fun s n => setErase n s) s ↔ n ∈ s ∧ n ∉ xs := by
  induction xs with
  | nil => simp
  | cons x xs ih =>
    intro s n
    rw [List.foldl_cons, ih, mem_setErase, List.mem_cons, not_or]
    constructor
    · rintro ⟨⟨h1, h2⟩, h3⟩; exact ⟨by assumption, by assumption, h3⟩
    · rintro ⟨h1, h2, h3⟩; exact ⟨⟨by assumption, by assumption⟩, h3⟩

theorem piece_same {K : Matter} {a b : NM} (h : AgreeOn K a b) {x : Piece} (hx : Asked K a.inFunc x) : SameRun K (x.run a) (x.run b) := by
  cases x with
  | lit s => exact .inr ⟨_, _, _, rfl, rfl, h⟩
  | func f c =>
    simp only [Piece.run, NM.funcName]
    rw [← h.funcs f hx.1]
    split
    · exact .inr ⟨_, _, _, rfl, rfl, h⟩
    · obtain ⟨n, ns1, ns2, a', b', h1, h2, h3, -, k, rfl, rfl⟩ := nextName_same h h.names (c := some c) (fun c' e => by cases e; exact hx.2)
      simp only [h1, h2]
      refine .inr ⟨_, _, _, rfl, rfl, { h with id := rfl, names := h3, funcs := fun g hg => ?_ }⟩
      simp only [Map.get?_insert, h.funcs g hg]
  | bb v c => exact bbName_same h v c
  | label v c =>
    simp only [Piece.run]
    rcases bbName_same h v c with ⟨h1, h2⟩ | ⟨s, a', b', h1, h2, h3⟩
    · rw [h1, h2]; exact .inl ⟨rfl, rfl⟩
    · rw [h1, h2]
      cases s with
      | nil => exact .inl ⟨rfl, rfl⟩
      | cons c s => exact .inr ⟨_, _, _, rfl, rfl, h3⟩
  | global v c =>
    simp only [Piece.run, NM.globalName]
    rw [← h.vars v hx.1]
    split
    · exact .inr ⟨_, _, _, rfl, rfl, h⟩
    · obtain ⟨n, ns1, ns2, a', b', h1, h2, h3, -, k, rfl, rfl⟩ := nextName_same h h.names (c := c) hx.2
      simp only [h1, h2]
      refine .inr ⟨_, _, _, rfl, rfl, { h with id := rfl, names := h3, vars := fun g hg => ?_ }⟩
      simp only [Map.get?_insert, h.vars g hg]
  | value v c =>
    have hv := h.values hx.1
    simp only [Piece.run, NM.valueName]
    rw [← hv.1]
    split
    · exact .inr ⟨_, _, _, rfl, rfl, h⟩
    · obtain ⟨n, ns1, ns2, a', b', h1, h2, h3, -, k, rfl, rfl⟩ := nextName_same h h.names (c := c) hx.2
      simp only [h1, h2]
      exact .inr ⟨_, _, _, rfl, rfl, { h with id := rfl, names := h3, values := fun _ => ⟨by rw [hv.1], hv.2⟩ }⟩
  | temp v =>
    have hv := h.values hx
    simp only [Piece.run, NM.tempOf]
    rw [← hv.2]
    split
    · exact .inr ⟨_, _, _, rfl, rfl, h⟩
    · obtain ⟨n, ns1, ns2, a', b', h1, h2, h3, -, k, rfl, rfl⟩ := nextName_same h h.names (c := none) (fun c' e => by cases e)
      simp only [h1, h2]
      exact .inr ⟨_, _, _, rfl, rfl, { h with id := rfl, names := h3, values := fun _ => ⟨hv.1, by rw [hv.2]⟩ }⟩
  | setPrefix q => cases hx
  | enter =>
    simp only [Piece.run, NM.enter]
    rw [← h.inFunc]
    split
    · exact .inl ⟨rfl, rfl⟩
    · exact .inr ⟨_, _, _, rfl, rfl, { h with inFunc := rfl, values := fun _ => ⟨rfl, rfl⟩ }⟩
  | exit =>
    simp only [Piece.run, NM.exit]
    rw [← h.inFunc]
    split
    · rename_i hi
      refine .inr ⟨_, _, _, rfl, rfl, { h with inFunc := rfl, bbNames := rfl, bbs := rfl, values := fun h => (by cases h), names := fun n hn => ?_ }⟩
      simp only [foldl_erase, h.names n hn, (h.values hi).1]
    · exact .inl ⟨rfl, rfl⟩

theorem run_scope {m m' : NM} {x : Piece} {s : Str} (h : x.run m = some (s, m')) : m'.inFunc = nextScope m.inFunc x := by
  have nn : ∀ {m m' : NM} {ns ns' c n}, m.nextName ns c = some (n, ns', m') → m'.inFunc = m.inFunc := by
    intro m m' ns ns' c n h
    unfold NM.nextName at h
    split at h
    · cases h; rfl
    · split at h
      · cases h
      · split at h
        · cases h
        · cases h; rfl
  have bn : ∀ {m m' : NM} {b c n}, m.bbName b c = some (n, m') → m'.inFunc = m.inFunc := by
    intro m m' b c n h
    unfold NM.bbName at h
    split at h
    · cases h; rfl
    · split at h
      · cases h
      · rename_i h1; cases h; exact (nn h1 :)
  cases x with
  | lit s => cases h; rfl
  | func f c =>
    simp only [Piece.run, NM.funcName] at h
    split at h
    · cases h; rfl
    · split at h
      · cases h
      · rename_i h1; cases h; exact (nn h1 :)
  | bb b c => exact bn h
  | label b c =>
    simp only [Piece.run] at h
    split at h
    · cases h
    · cases h
    · rename_i h1
      cases h; exact (bn h1 :)
  | global v c =>
    simp only [Piece.run, NM.globalName] at h
    split at h
    · cases h; rfl
    · split at h
      · cases h
      · rename_i h1; cases h; exact (nn h1 :)
  | value v c =>
    simp only [Piece.run, NM.valueName] at h
    split at h
    · cases h; rfl
    · split at h
      · cases h
      · rename_i h1; cases h; exact (nn h1 :)
  | temp v =>
    simp only [Piece.run, NM.tempOf] at h
    split at h
    · cases h; rfl
    · split at h
      · cases h
      · rename_i h1; cases h; exact (nn h1 :)
  | setPrefix q => cases h; rfl
  | enter =>
    simp only [Piece.run, NM.enter] at h
    split at h
    · cases h
    · cases h; rfl
  | exit =>
    simp only [Piece.run, NM.exit] at h
    split at h
    · cases h; rfl
    · cases h

theorem pieces_same {K : Matter} : ∀ {ps : List Piece} {a b : NM}, AgreeOn K a b → AllAsked K a.inFunc ps → SameRun K (runPieces a ps) (runPieces b ps)
  | [], a, b, h, _ => .inr ⟨_, _, _, rfl, rfl, h⟩
  | x :: xs, a, b, h, hx => by
    rw [runPieces, runPieces]
    rcases piece_same h hx.1 with ⟨h1, h2⟩ | ⟨s, a', b', h1, h2, h3⟩
    · rw [h1, h2]; exact .inl ⟨rfl, rfl⟩
    · rw [h1, h2]
      rcases pieces_same h3 (by rw [run_scope h1]; exact hx.2) with ⟨h4, h5⟩ | ⟨t, a2, b2, h4, h5, h6⟩
      · simp only [h4, h5]; exact .inl ⟨rfl, rfl⟩
      · simp only [h4, h5]; exact .inr ⟨_, _, _, rfl, rfl, h6⟩

end Koopa
