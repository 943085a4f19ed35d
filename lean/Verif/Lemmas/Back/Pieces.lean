import Verif.Lemmas.Back.Names
import Verif.Lemmas.Typing
/-!
The pieces that the two generators write name the entities of the program.
-/
namespace Koopa
open Spec

/-- A piece that names an entity of the program, seen from function `f` with data `fd`. -/
inductive PieceOf (ks : List Prefix) (p : Program) (f : Func) (fd : FData) : Piece → Prop where
  | lit (s : Str) : PieceOf ks p f fd (.lit s)
  | func {g : Func} {gd : FData} : p.funcs.get? g = some gd →
      (g = f ∨ ∃ v d as, fd.dfg.values.get? v = some d ∧ d.kind = .call g as) → PieceOf ks p f fd (.func g gd.name)
  | bb {b : BB} {d : BData} : fd.dfg.bbs.get? b = some d → PieceOf ks p f fd (.bb b d.name)
  | label {b : BB} {d : BData} : fd.dfg.bbs.get? b = some d → PieceOf ks p f fd (.label b d.name)
  | val {v : Value} {d : VData} {x : Piece} : p.values.get? v = some d ∨ fd.dfg.values.get? v = some d → namePiece v d = some x → PieceOf ks p f fd x
  | temp (v : Value) : PieceOf ks p f fd (.temp v)
  | setPrefix {q : Prefix} : q ∈ ks → PieceOf ks p f fd (.setPrefix q)

theorem allSome_all2 {α β : Type} {f : α → Option β} : ∀ {as : List α} {bs : List β}, allSome f as = some bs → All2 (fun a b => f a = some b) as bs
  | [], bs, h => by cases h; exact .nil
  | a :: as, bs, h => by
    rw [allSome] at h
    split at h
    · cases h
    · rename_i b hb
      obtain ⟨bs', h1, rfl⟩ := Option.map_eq_some_iff.1 h
      exact .cons hb (allSome_all2 h1)

theorem allSome_mem {α β : Type} {f : α → Option β} {as : List α} {bs : List β} (h : allSome f as = some bs) {b : β} (hb : b ∈ bs) :
    ∃ a ∈ as, f a = some b := by
  have := allSome_all2 h
  clear h
  induction this with
  | nil => cases hb
  | cons h1 _ ih =>
    rcases List.mem_cons.1 hb with rfl | hb
    · exact ⟨_, List.mem_cons_self, h1⟩
    · obtain ⟨a, h2, h3⟩ := ih hb; exact ⟨a, List.mem_cons_of_mem _ h2, h3⟩

theorem mem_sepPieces : ∀ {xs : List (List Piece)} {y : Piece}, y ∈ sepPieces xs → y = txt ", " ∨ ∃ x ∈ xs, y ∈ x
  | [], _, h => by cases h
  | [x], y, h => .inr ⟨x, List.mem_cons_self, h⟩
  | x :: x' :: xs, y, h => by
    simp only [sepPieces, List.mem_append, List.mem_cons] at h
    rcases h with h | h | h
    · exact .inr ⟨x, List.mem_cons_self, h⟩
    · exact .inl h
    · rcases mem_sepPieces (xs := x' :: xs) h with h | ⟨z, h1, h2⟩
      · exact .inl h
      · exact .inr ⟨z, List.mem_cons_of_mem _ h1, h2⟩

variable {ks : List Prefix} {p : Program} {f : Func} {fd : FData}

theorem PieceOf.txt (s : String) : PieceOf ks p f fd (Koopa.txt s) := .lit _

theorem pieceOf_sep {xs : List (List Piece)} (h : ∀ x ∈ xs, ∀ y ∈ x, PieceOf ks p f fd y) : ∀ y ∈ sepPieces xs, PieceOf ks p f fd y := by
  intro y hy
  rcases mem_sepPieces hy with rfl | ⟨x, h1, h2⟩
  · exact .txt _
  · exact h x h1 y h2

theorem constLit_some {k : VKind} {ps : List Piece} (h : constLit k = some ps) : ∃ s, ps = [.lit s] := by
  cases k with
  | integer n => have h : some _ = some ps := h; cases h; exact ⟨_, rfl⟩
  | zeroInit => have h : some _ = some ps := h; cases h; exact ⟨_, rfl⟩
  | undef => have h : some _ = some ps := h; cases h; exact ⟨_, rfl⟩
  | _ => have h : none = some ps := h; cases h

theorem constPieces_succ {get : Value → Option VData} {n : Nat} {k : VKind} {ps : List Piece} (h : constPieces get (n + 1) k = some ps) :
    constLit k = some ps ∨ ∃ es qs, k = .aggregate es ∧ ps = txt "{" :: (sepPieces qs ++ [txt "}"]) ∧
      allSome (fun e => match get e with
        | none => none
        | some d => constPieces get n d.kind) es = some qs := by
  cases k with
  | aggregate es =>
    right
    simp only [constPieces] at h
    split at h
    · cases h
    · rename_i qs hq
      cases h
      exact ⟨es, qs, rfl, rfl, hq⟩
  | _ => exact .inl h

/-- Constants are written without names. -/
theorem constPieces_lit {get : Value → Option VData} : ∀ (fuel : Nat) (k : VKind) (ps : List Piece), constPieces get fuel k = some ps →
    ∀ x ∈ ps, ∃ s, x = .lit s := by
  intro fuel
  induction fuel with
  | zero =>
    intro k ps h x hx
    obtain ⟨s, rfl⟩ := constLit_some (k := k) h
    rw [List.mem_singleton] at hx; exact ⟨s, hx⟩
  | succ n ih =>
    intro k ps h x hx
    rcases constPieces_succ h with h | ⟨es, qs, rfl, rfl, hq⟩
    · obtain ⟨s, rfl⟩ := constLit_some (k := k) h
      rw [List.mem_singleton] at hx; exact ⟨s, hx⟩
    · simp only [List.mem_cons, List.mem_append, List.not_mem_nil, or_false] at hx
      rcases hx with rfl | hx | rfl
      · exact ⟨_, rfl⟩
      · rcases mem_sepPieces hx with rfl | ⟨y, hy, hxy⟩
        · exact ⟨_, rfl⟩
        · obtain ⟨e, he, h1⟩ := allSome_mem hq hy
          split at h1
          · cases h1
          · exact ih _ _ h1 x hxy
      · exact ⟨_, rfl⟩

theorem constPieces_of {get : Value → Option VData} (fuel : Nat) (k : VKind) (ps : List Piece) (h : constPieces get fuel k = some ps) :
    ∀ x ∈ ps, PieceOf ks p f fd x := by
  intro x hx
  obtain ⟨s, rfl⟩ := constPieces_lit _ _ _ h x hx
  exact .lit _

namespace BackKoopa

theorem value_of {v : Value} {ps : List Piece} (h : value p fd v = some ps) : ∀ x ∈ ps, PieceOf ks p f fd x := by
  unfold value at h
  split at h
  · split at h
    · cases h
    · rename_i d hd
      obtain ⟨y, h1, rfl⟩ := Option.map_eq_some_iff.1 h
      intro x hx
      rw [List.mem_singleton] at hx; subst hx
      exact .val (.inl hd) h1
  · split at h
    · cases h
    · rename_i d hd
      split at h
      · exact constPieces_of _ _ _ h
      · obtain ⟨y, h1, rfl⟩ := Option.map_eq_some_iff.1 h
        intro x hx
        rw [List.mem_singleton] at hx; subst hx
        exact .val (.inr hd) h1

theorem values_of {vs : List Value} {ps : List (List Piece)} (h : allSome (value p fd) vs = some ps) : ∀ y ∈ sepPieces ps, PieceOf ks p f fd y :=
  pieceOf_sep (fun _ hx => by obtain ⟨_, -, h1⟩ := allSome_mem h hx; exact value_of h1)

theorem target_of {b : BB} {args : List Value} {ps : List Piece} (h : target p fd b args = some ps) : ∀ x ∈ ps, PieceOf ks p f fd x := by
  unfold target at h
  split at h
  · cases h
  · rename_i d hd
    split at h
    · cases h
    · rename_i as ha
      cases h
      intro x hx
      rcases List.mem_cons.1 hx with rfl | hx
      · exact .bb hd
      · split at hx
        · cases hx
        · simp only [List.mem_cons, List.mem_append, List.not_mem_nil, or_false] at hx
          rcases hx with rfl | hx | rfl
          · exact .txt _
          · exact values_of ha x hx
          · exact .txt _

theorem content_of {v : Value} {d : VData} (hd : fd.dfg.values.get? v = some d) {ps : List Piece} (h : content p fd d.ty d.kind = some ps) : ∀ x ∈ ps, PieceOf ks p f fd x := by
  intro x hx
  unfold content at h
  split at h
  · split at h
    · cases h
      simp only [List.mem_cons, List.not_mem_nil, or_false] at hx
      rcases hx with rfl | rfl <;> exact .lit _
    · cases h
  · obtain ⟨y, h1, rfl⟩ := Option.map_eq_some_iff.1 h
    rcases List.mem_cons.1 hx with rfl | hx
    · exact .txt _
    · exact value_of h1 x hx
  iterate 4
    split at h
    · rename_i a b
      cases h
      simp only [List.mem_cons, List.mem_append] at hx
      rcases hx with rfl | hx | rfl | hx
      · exact .lit _
      · exact value_of a x hx
      · exact .lit _
      · exact value_of b x hx
    · cases h
  · split at h
    · rename_i a b c
      cases h
      simp only [List.mem_cons, List.mem_append] at hx
      rcases hx with rfl | hx | rfl | hx | rfl | hx
      · exact .lit _
      · exact value_of a x hx
      · exact .lit _
      · exact target_of b x hx
      · exact .lit _
      · exact target_of c x hx
    · cases h
  · obtain ⟨y, h1, rfl⟩ := Option.map_eq_some_iff.1 h
    rcases List.mem_cons.1 hx with rfl | hx
    · exact .txt _
    · exact target_of h1 x hx
  · split at h
    · cases h
    · rename_i gd hg
      obtain ⟨y, h1, rfl⟩ := Option.map_eq_some_iff.1 h
      simp only [List.mem_cons, List.mem_append, List.not_mem_nil, or_false] at hx
      rcases hx with rfl | rfl | rfl | hx | rfl
      · exact .lit _
      · exact .func hg (.inr ⟨_, _, _, hd, by assumption⟩)
      · exact .lit _
      · exact values_of h1 x hx
      · exact .lit _
  · cases h
    rw [List.mem_singleton] at hx; subst hx; exact .lit _
  · obtain ⟨y, h1, rfl⟩ := Option.map_eq_some_iff.1 h
    simp only [List.mem_cons] at hx
    rcases hx with rfl | rfl | hx
    · exact .lit _
    · exact .lit _
    · exact value_of h1 x hx
  · cases h

theorem inst_of {v : Value} {ps : List Piece} (h : inst p fd v = some ps) : ∀ x ∈ ps, PieceOf ks p f fd x := by
  unfold inst at h
  split at h
  · cases h
  · rename_i d hd
    split at h
    · rename_i a b ha hb
      cases h
      intro x hx
      simp only [List.mem_append, List.mem_singleton] at hx
      rcases hx with hx | hx | rfl
      · split at ha
        · cases ha; cases hx
        · obtain ⟨y, h1, rfl⟩ := Option.map_eq_some_iff.1 ha
          simp only [List.mem_cons, List.not_mem_nil, or_false] at hx
          rcases hx with rfl | rfl
          · exact .val (.inr hd) h1
          · exact .txt _
      · exact content_of hd hb x hx
      · exact .txt _
    · cases h

theorem param_of {v : Value} {ps : List Piece} (h : param fd v = some ps) : ∀ x ∈ ps, PieceOf ks p f fd x := by
  unfold param at h
  split at h
  · cases h
  · rename_i d hd
    obtain ⟨y, h1, rfl⟩ := Option.map_eq_some_iff.1 h
    intro x hx
    simp only [List.mem_cons, List.not_mem_nil, or_false] at hx
    rcases hx with rfl | rfl | rfl
    · exact .val (.inr hd) h1
    · exact .lit _
    · exact .lit _

theorem params_of {vs : List Value} {ps : List (List Piece)} (h : allSome (param fd) vs = some ps) : ∀ y ∈ sepPieces ps, PieceOf ks p f fd y :=
  pieceOf_sep (fun _ hx => by obtain ⟨_, -, h1⟩ := allSome_mem h hx; exact param_of h1)

theorem bb_of {b : BB} {is : List Value} {ps : List Piece} (h : bb p fd b is = some ps) : ∀ x ∈ ps, PieceOf ks p f fd x := by
  unfold bb at h
  split at h
  · cases h
  · rename_i d hd
    split at h
    · rename_i qs ls hq hl
      cases h
      intro x hx
      simp only [List.mem_append, List.mem_cons] at hx
      rcases hx with rfl | hx | rfl | hx
      · exact .bb hd
      · split at hx
        · cases hx
        · simp only [List.mem_cons, List.mem_append, List.not_mem_nil, or_false] at hx
          rcases hx with rfl | hx | rfl
          · exact .txt _
          · exact params_of hq x hx
          · exact .txt _
      · exact .txt _
      · obtain ⟨l, h1, h2⟩ := List.mem_flatten.1 hx
        obtain ⟨i, h3, rfl⟩ := List.mem_map.1 h1
        rcases List.mem_cons.1 h2 with rfl | h2
        · exact .txt _
        · obtain ⟨v, -, h4⟩ := allSome_mem hl h3
          exact inst_of h4 x h2
    · cases h

theorem blocks_of : ∀ {bs : List (BB × List Value)} {ps : List Piece}, blocks p fd bs = some ps → ∀ x ∈ ps, PieceOf ks p f fd x
  | [], ps, h => by cases h; intro x hx; cases hx
  | [(b, is)], ps, h => bb_of h
  | (b, is) :: y :: rest, ps, h => by
    rw [blocks] at h
    split at h
    · rename_i c d hc hd
      cases h
      intro x hx
      simp only [List.mem_append, List.mem_cons] at hx
      rcases hx with hx | rfl | hx
      · exact bb_of hc x hx
      · exact .txt _
      · exact blocks_of hd x hx
    · cases h
    · simp

theorem ret_of (r : Ty) : ∀ x ∈ ret r, PieceOf ks p f fd x := by
  intro x hx
  unfold ret at hx
  split at hx
  · cases hx
  · simp only [List.mem_cons, List.not_mem_nil, or_false] at hx
    rcases hx with rfl | rfl <;> exact .lit _

theorem func_of {ps : List Piece} (h : func p f = some ps) : ∃ fd, p.funcs.get? f = some fd ∧ ∀ x ∈ ps, PieceOf ks p f fd x := by
  unfold func at h
  split at h
  · cases h
  · rename_i fd hf
    refine ⟨fd, hf, ?_⟩
    split at h
    · split at h
      · cases h
        intro x hx
        simp only [List.mem_append, List.mem_cons, List.not_mem_nil, or_false] at hx
        rcases hx with rfl | rfl | rfl | rfl | hx | rfl | hx | rfl
        · exact .lit _
        · exact .lit _
        · exact .func hf (.inl rfl)
        · exact .lit _
        · refine pieceOf_sep (fun y hy => ?_) x hx
          obtain ⟨t, -, rfl⟩ := List.mem_map.1 hy
          intro z hz
          rw [List.mem_singleton] at hz; subst hz; exact .lit _
        · exact .lit _
        · exact ret_of _ x hx
        · exact .lit _
      · split at h
        · rename_i a b ha hb
          cases h
          intro x hx
          simp only [List.mem_append, List.mem_cons, List.not_mem_nil, or_false] at hx
          rcases hx with rfl | rfl | rfl | rfl | hx | rfl | hx | rfl | hx | rfl
          · exact .lit _
          · exact .lit _
          · exact .func hf (.inl rfl)
          · exact .lit _
          · exact params_of ha x hx
          · exact .lit _
          · exact ret_of _ x hx
          · exact .lit _
          · exact blocks_of hb x hx
          · exact .lit _
        · cases h
    · cases h

end BackKoopa

namespace BackLlvm

theorem tyPieces_of (w : Bool) (t : Ty) : ∀ x ∈ tyPieces w t, PieceOf ks p f fd x := by
  intro x hx
  unfold tyPieces at hx
  split at hx
  · simp only [List.mem_cons, List.not_mem_nil, or_false] at hx
    rcases hx with rfl | rfl <;> exact .lit _
  · cases hx

theorem constLit_some {w : Bool} {t : Ty} {k : VKind} {ps : List Piece} (h : constLit w t k = some ps) : ∃ s, ps = tyPieces w t ++ [.lit s] := by
  cases k with
  | integer n => have h : some _ = some ps := h; cases h; exact ⟨_, rfl⟩
  | zeroInit => have h : some _ = some ps := h; cases h; exact ⟨_, rfl⟩
  | undef => have h : some _ = some ps := h; cases h; exact ⟨_, rfl⟩
  | _ => have h : none = some ps := h; cases h

theorem constant_succ {get : Value → Option VData} {w : Bool} {n : Nat} {t : Ty} {k : VKind} {ps : List Piece} (h : constant get w (n + 1) t k = some ps) :
    constLit w t k = some ps ∨ ∃ es qs, k = .aggregate es ∧ ps = tyPieces w t ++ txt "[" :: (sepPieces qs ++ [txt "]"]) ∧
      allSome (fun e => match get e with
        | none => none
        | some d => constant get w n d.ty d.kind) es = some qs := by
  cases k with
  | aggregate es =>
    right
    simp only [constant] at h
    split at h
    · cases h
    · rename_i qs hq
      cases h
      exact ⟨es, qs, rfl, rfl, hq⟩
  | _ => exact .inl h

theorem tyPieces_lit (w : Bool) (t : Ty) : ∀ x ∈ tyPieces w t, ∃ s, x = .lit s := by
  intro x hx
  unfold tyPieces at hx
  split at hx
  · simp only [List.mem_cons, List.not_mem_nil, or_false] at hx
    rcases hx with rfl | rfl <;> exact ⟨_, rfl⟩
  · cases hx

/-- Constants are written without names. -/
theorem constant_lit {get : Value → Option VData} {w : Bool} : ∀ (fuel : Nat) (t : Ty) (k : VKind) (ps : List Piece), constant get w fuel t k = some ps →
    ∀ x ∈ ps, ∃ s, x = .lit s := by
  intro fuel
  induction fuel with
  | zero =>
    intro t k ps h x hx
    obtain ⟨s, rfl⟩ := constLit_some (t := t) (k := k) h
    rcases List.mem_append.1 hx with hx | hx
    · exact tyPieces_lit _ _ x hx
    · rw [List.mem_singleton] at hx; exact ⟨s, hx⟩
  | succ n ih =>
    intro t k ps h x hx
    rcases constant_succ h with h | ⟨es, qs, rfl, rfl, hq⟩
    · obtain ⟨s, rfl⟩ := constLit_some (t := t) (k := k) h
      rcases List.mem_append.1 hx with hx | hx
      · exact tyPieces_lit _ _ x hx
      · rw [List.mem_singleton] at hx; exact ⟨s, hx⟩
    · simp only [List.mem_cons, List.mem_append, List.not_mem_nil, or_false] at hx
      rcases hx with hx | rfl | hx | rfl
      · exact tyPieces_lit _ _ x hx
      · exact ⟨_, rfl⟩
      · rcases mem_sepPieces hx with rfl | ⟨y, hy, hxy⟩
        · exact ⟨_, rfl⟩
        · obtain ⟨e, he, h1⟩ := allSome_mem hq hy
          split at h1
          · cases h1
          · exact ih _ _ _ h1 x hxy
      · exact ⟨_, rfl⟩

theorem constant_of {get : Value → Option VData} {w : Bool} (fuel : Nat) (t : Ty) (k : VKind) (ps : List Piece) (h : constant get w fuel t k = some ps) :
    ∀ x ∈ ps, PieceOf ks p f fd x := by
  intro x hx
  obtain ⟨s, rfl⟩ := constant_lit _ _ _ _ h x hx
  exact .lit _

theorem value_of {w : Bool} {v : Value} {ps : List Piece} (h : value p fd w v = some ps) : ∀ x ∈ ps, PieceOf ks p f fd x := by
  unfold value at h
  split at h
  · split at h
    · cases h
    · rename_i d hd
      obtain ⟨y, h1, rfl⟩ := Option.map_eq_some_iff.1 h
      intro x hx
      rcases List.mem_append.1 hx with hx | hx
      · exact tyPieces_of _ _ x hx
      rw [List.mem_singleton] at hx; subst hx
      exact .val (.inl hd) h1
  · split at h
    · cases h
    · rename_i d hd
      split at h
      · exact constant_of _ _ _ _ h
      · obtain ⟨y, h1, rfl⟩ := Option.map_eq_some_iff.1 h
        intro x hx
        rcases List.mem_append.1 hx with hx | hx
        · exact tyPieces_of _ _ x hx
        rw [List.mem_singleton] at hx; subst hx
        exact .val (.inr hd) h1

theorem values_of {w : Bool} {vs : List Value} {ps : List (List Piece)} (h : allSome (value p fd w) vs = some ps) : ∀ y ∈ sepPieces ps, PieceOf ks p f fd y :=
  pieceOf_sep (fun _ hx => by obtain ⟨_, -, h1⟩ := allSome_mem h hx; exact value_of h1)

theorem bbRef_of {b : BB} {x : Piece} (h : bbRef fd b = some x) : PieceOf ks p f fd x := by
  obtain ⟨d, h1, rfl⟩ := Option.map_eq_some_iff.1 h
  exact .bb h1

theorem content_of {v : Value} {d : VData} (hd : fd.dfg.values.get? v = some d) {ps : List Piece} (h : content p fd v d = some ps) :
    ∀ x ∈ ps, PieceOf ks p f fd x := by
  intro x hx
  unfold content at h
  split at h
  · split at h
    · cases h
      simp only [List.mem_cons, List.not_mem_nil, or_false] at hx
      rcases hx with rfl | rfl <;> exact .lit _
    · cases h
  · obtain ⟨y, h1, rfl⟩ := Option.map_eq_some_iff.1 h
    simp only [List.mem_cons] at hx
    rcases hx with rfl | rfl | rfl | hx
    · exact .lit _
    · exact .lit _
    · exact .lit _
    · exact value_of h1 x hx
  · split at h
    · rename_i a b
      cases h
      simp only [List.mem_cons, List.mem_append] at hx
      rcases hx with rfl | hx | rfl | hx
      · exact .lit _
      · exact value_of a x hx
      · exact .lit _
      · exact value_of b x hx
    · cases h
  iterate 2
    split at h
    · rename_i a b
      cases h
      simp only [List.mem_cons, List.mem_append] at hx
      rcases hx with rfl | rfl | rfl | hx | rfl | hx
      · exact .lit _
      · exact .lit _
      · exact .lit _
      · exact value_of a x hx
      · exact .lit _
      · exact value_of b x hx
    · cases h
  · split at h
    · rename_i n l r hn hl hr
      cases h
      simp only [List.mem_cons, List.mem_append] at hx
      rcases hx with hx | rfl | rfl | rfl | hx | rfl | hx | hx
      · split at hx
        · subst hx; exact .temp _
        · subst hx; exact .val (.inr hd) hn
      · exact .lit _
      · exact .lit _
      · exact .lit _
      · exact value_of hl x hx
      · exact .lit _
      · exact value_of hr x hx
      · split at hx
        · simp only [List.mem_cons, List.not_mem_nil, or_false] at hx
          rcases hx with rfl | rfl | rfl | rfl | rfl
          · exact .lit _
          · exact .val (.inr hd) hn
          · exact .lit _
          · exact .temp _
          · exact .lit _
        · cases hx
    · cases h
  · split at h
    · rename_i c t f hc ht hf
      cases h
      simp only [List.mem_cons, List.mem_append, List.not_mem_nil, or_false] at hx
      rcases hx with rfl | rfl | hx | rfl | rfl | rfl | rfl | rfl | rfl
      · exact .temp _
      · exact .lit _
      · exact value_of hc x hx
      · exact .lit _
      · exact .temp _
      · exact .lit _
      · exact bbRef_of ht
      · exact .lit _
      · exact bbRef_of hf
    · cases h
  · obtain ⟨y, h1, rfl⟩ := Option.map_eq_some_iff.1 h
    simp only [List.mem_cons, List.not_mem_nil, or_false] at hx
    rcases hx with rfl | rfl
    · exact .txt _
    · exact bbRef_of h1
  · split at h
    · cases h
    · rename_i gd hg
      obtain ⟨y, h1, rfl⟩ := Option.map_eq_some_iff.1 h
      simp only [List.mem_cons, List.mem_append, List.not_mem_nil, or_false] at hx
      rcases hx with rfl | rfl | rfl | rfl | rfl | hx | rfl
      · exact .lit _
      · exact .lit _
      · exact .lit _
      · exact .func hg (.inr ⟨_, _, _, hd, by assumption⟩)
      · exact .lit _
      · exact values_of h1 x hx
      · exact .lit _
  · cases h
    simp only [List.mem_cons, List.not_mem_nil, or_false] at hx
    rcases hx with rfl | rfl <;> exact .lit _
  · obtain ⟨y, h1, rfl⟩ := Option.map_eq_some_iff.1 h
    simp only [List.mem_cons] at hx
    rcases hx with rfl | hx
    · exact .lit _
    · exact value_of h1 x hx
  · cases h

theorem inst_of {v : Value} {ps : List Piece} (h : inst p fd v = some ps) : ∀ x ∈ ps, PieceOf ks p f fd x := by
  unfold inst at h
  split at h
  · cases h
  · rename_i d hd
    split at h
    · rename_i a b ha hb
      cases h
      intro x hx
      simp only [List.mem_append, List.mem_singleton] at hx
      rcases hx with hx | hx | rfl
      · split at ha
        · obtain ⟨y, h1, rfl⟩ := Option.map_eq_some_iff.1 ha
          simp only [List.mem_cons, List.not_mem_nil, or_false] at hx
          rcases hx with rfl | rfl
          · exact .val (.inr hd) h1
          · exact .txt _
        · cases ha; cases hx
      · exact content_of hd hb x hx
      · exact .txt _
    · cases h

theorem incoming_of {b : BB} {i : Nat} {u : Value} {ps : List Piece} (h : incoming p fd b i u = some ps) : ∀ x ∈ ps, PieceOf ks p f fd x := by
  unfold incoming at h
  split at h
  · cases h
  · split at h
    · cases h
    · split at h
      · rename_i x c hx hc
        obtain ⟨y, h1, rfl⟩ := Option.map_eq_some_iff.1 h
        intro z hz
        simp only [List.mem_cons, List.mem_append, List.not_mem_nil, or_false] at hz
        rcases hz with rfl | hz | rfl | rfl | rfl
        · exact .lit _
        · exact value_of hx z hz
        · exact .lit _
        · exact bbRef_of h1
        · exact .lit _
      · cases h

theorem phi_of {b : BB} {us : List Value} {i : Nat} {v : Value} {ps : List Piece} (h : phi p fd b us i v = some ps) : ∀ x ∈ ps, PieceOf ks p f fd x := by
  unfold phi at h
  split at h
  · cases h
  · rename_i d hd
    split at h
    · rename_i n qs hn hq
      cases h
      intro x hx
      simp only [List.mem_cons, List.mem_append, List.not_mem_nil, or_false] at hx
      rcases hx with rfl | rfl | rfl | rfl | rfl | hx | rfl
      · exact .lit _
      · exact .val (.inr hd) hn
      · exact .lit _
      · exact .lit _
      · exact .lit _
      · exact pieceOf_sep (fun _ hy => by obtain ⟨_, -, h1⟩ := allSome_mem hq hy; exact incoming_of h1) x hx
      · exact .lit _
    · cases h

theorem phis_of {b : BB} {us : List Value} : ∀ {i : Nat} {vs : List Value} {ps : List Piece}, phis p fd b us i vs = some ps → ∀ x ∈ ps, PieceOf ks p f fd x
  | _, [], ps, h => by cases h; intro x hx; cases hx
  | i, v :: vs, ps, h => by
    rw [phis] at h
    split at h
    · rename_i a c ha hc
      cases h
      intro x hx
      rcases List.mem_append.1 hx with hx | hx
      · exact phi_of ha x hx
      · exact phis_of hc x hx
    · cases h

theorem bb_of {b : BB} {is : List Value} {ps : List Piece} (h : bb o p fd b is = some ps) : ∀ x ∈ ps, PieceOf ks p f fd x := by
  unfold bb at h
  split at h
  · cases h
  · rename_i d hd
    split at h
    · rename_i qs ls hq hl
      cases h
      intro x hx
      simp only [List.mem_append, List.mem_cons] at hx
      rcases hx with rfl | rfl | hx | hx
      · exact .label hd
      · exact .txt _
      · exact phis_of hq x hx
      · obtain ⟨l, h1, h2⟩ := List.mem_flatten.1 hx
        obtain ⟨i, h3, rfl⟩ := List.mem_map.1 h1
        rcases List.mem_cons.1 h2 with rfl | h2
        · exact .txt _
        · obtain ⟨v, -, h4⟩ := allSome_mem hl h3
          exact inst_of h4 x h2
    · cases h

theorem blocks_of : ∀ {bs : List (BB × List Value)} {ps : List Piece}, blocks o p fd bs = some ps → ∀ x ∈ ps, PieceOf ks p f fd x
  | [], ps, h => by cases h; intro x hx; cases hx
  | [(b, is)], ps, h => bb_of h
  | (b, is) :: y :: rest, ps, h => by
    rw [blocks] at h
    split at h
    · rename_i c d hc hd
      cases h
      intro x hx
      simp only [List.mem_append, List.mem_cons] at hx
      rcases hx with hx | rfl | hx
      · exact bb_of hc x hx
      · exact .txt _
      · exact blocks_of hd x hx
    · cases h
    · simp

theorem param_of {v : Value} {ps : List Piece} (h : param fd v = some ps) : ∀ x ∈ ps, PieceOf ks p f fd x := by
  unfold param at h
  split at h
  · cases h
  · rename_i d hd
    obtain ⟨y, h1, rfl⟩ := Option.map_eq_some_iff.1 h
    intro x hx
    simp only [List.mem_cons, List.not_mem_nil, or_false] at hx
    rcases hx with rfl | rfl | rfl
    · exact .lit _
    · exact .lit _
    · exact .val (.inr hd) h1

theorem params_of {vs : List Value} {ps : List (List Piece)} (h : allSome (param fd) vs = some ps) : ∀ y ∈ sepPieces ps, PieceOf ks p f fd y :=
  pieceOf_sep (fun _ hx => by obtain ⟨_, -, h1⟩ := allSome_mem h hx; exact param_of h1)

theorem func_of {ps : List Piece} (h : func o p f = some ps) : ∃ fd, p.funcs.get? f = some fd ∧ ∀ x ∈ ps, PieceOf [globalPrefix, localPrefix] p f fd x := by
  unfold func at h
  split at h
  · cases h
  · rename_i fd hf
    refine ⟨fd, hf, ?_⟩
    split at h
    · split at h
      · cases h
        intro x hx
        simp only [List.mem_append, List.mem_cons, List.not_mem_nil, or_false] at hx
        rcases hx with rfl | rfl | rfl | rfl | rfl | rfl | rfl | hx | rfl | rfl | rfl
        · exact .lit _
        · exact .lit _
        · exact .lit _
        · exact .lit _
        · exact .func hf (.inl rfl)
        · exact .lit _
        · exact .setPrefix (by simp)
        · refine pieceOf_sep (fun y hy => ?_) x hx
          obtain ⟨t, -, rfl⟩ := List.mem_map.1 hy
          intro z hz
          rw [List.mem_singleton] at hz; subst hz; exact .lit _
        · exact .lit _
        · exact .lit _
        · exact .setPrefix (by simp)
      · split at h
        · rename_i a b ha hb
          cases h
          intro x hx
          simp only [List.mem_append, List.mem_cons, List.not_mem_nil, or_false] at hx
          rcases hx with rfl | rfl | rfl | rfl | rfl | rfl | rfl | hx | rfl | rfl | hx | rfl | rfl
          · exact .lit _
          · exact .lit _
          · exact .lit _
          · exact .lit _
          · exact .func hf (.inl rfl)
          · exact .lit _
          · exact .setPrefix (by simp)
          · exact params_of ha x hx
          · exact .lit _
          · exact .lit _
          · exact blocks_of hb x hx
          · exact .lit _
          · exact .setPrefix (by simp)
        · cases h
    · cases h

end BackLlvm

/-- A piece that a generator writes for a global. -/
def GlobalPiece (p : Program) (x : Piece) : Prop :=
  (∃ s, x = .lit s) ∨ ∃ v d, p.values.get? v = some d ∧ x = .global v d.name

theorem BackKoopa.globalInst_of {v : Value} {ps : List Piece} (h : BackKoopa.globalInst p v = some ps) : ∀ x ∈ ps, GlobalPiece p x := by
  unfold BackKoopa.globalInst at h
  split at h
  · cases h
  · rename_i d hd
    split at h
    · split at h
      · cases h
      · split at h
        · cases h
        · rename_i c hc
          cases h
          intro x hx
          simp only [List.mem_cons, List.mem_append, List.not_mem_nil, or_false] at hx
          rcases hx with rfl | rfl | rfl | rfl | rfl | hx | rfl
          · exact .inl ⟨_, rfl⟩
          · exact .inr ⟨v, d, hd, rfl⟩
          · exact .inl ⟨_, rfl⟩
          · exact .inl ⟨_, rfl⟩
          · exact .inl ⟨_, rfl⟩
          · exact .inl (constPieces_lit _ _ _ hc x hx)
          · exact .inl ⟨_, rfl⟩
    · cases h

theorem BackLlvm.globalInst_of {v : Value} {ps : List Piece} (h : BackLlvm.globalInst p v = some ps) : ∀ x ∈ ps, GlobalPiece p x := by
  unfold BackLlvm.globalInst at h
  split at h
  · cases h
  · rename_i d hd
    split at h
    · split at h
      · cases h
      · split at h
        · cases h
        · rename_i c hc
          cases h
          intro x hx
          simp only [List.mem_cons, List.mem_append, List.not_mem_nil, or_false] at hx
          rcases hx with rfl | rfl | hx | rfl
          · exact .inr ⟨v, d, hd, rfl⟩
          · exact .inl ⟨_, rfl⟩
          · exact .inl (BackLlvm.constant_lit _ _ _ _ hc x hx)
          · exact .inl ⟨_, rfl⟩
    · cases h

/-- The functions, separated by empty lines, for either generator. -/
def funcsOf (g : Func → Option (List Piece)) : List Func → Option (List Piece)
  | [] => some []
  | [f] => (g f).map (fun x => .enter :: (x ++ [.exit]))
  | f :: rest => match g f, funcsOf g rest with
    | some x, some y => some (.enter :: (x ++ .exit :: txt "\n" :: y))
    | _, _ => none

theorem BackKoopa.funcs_eq (p : Program) : ∀ fs, BackKoopa.funcs p fs = funcsOf (BackKoopa.func p) fs
  | [] => rfl
  | [_] => rfl
  | f :: g :: fs => by simp only [BackKoopa.funcs, funcsOf, BackKoopa.funcs_eq p (g :: fs)]; rfl

theorem BackLlvm.funcs_eq (o : UserOrder) (p : Program) : ∀ fs, BackLlvm.funcs o p fs = funcsOf (BackLlvm.func o p) fs
  | [] => rfl
  | [_] => rfl
  | f :: g :: fs => by simp only [BackLlvm.funcs, funcsOf, BackLlvm.funcs_eq o p (g :: fs)]; rfl

/-- The texts of functions, separated by empty lines. -/
def joinLines : List Str → Str
  | [] => []
  | [t] => t
  | t :: ts => t ++ '\n' :: joinLines ts

/-- One function, from the state of the name manager before it. -/
theorem scope_spec {ks : List Prefix} (hks : Prefixes ks) {m m' : NM} (hi : NInv ks m) {ps rest : List Piece} (hf : ∀ x ∈ ps, x.Fine ks true)
    {s : Str} (h : runPieces m (.enter :: (ps ++ .exit :: rest)) = some (s, m')) :
    ∃ t s' m1 m2, s = t ++ s' ∧ Renders m1.names ps t ∧ NInv ks m1 ∧ m.LeGlobal m1 ∧ m1.LeGlobal m2 ∧ NInv ks m2 ∧ m2.inFunc = false ∧
      runPieces m2 rest = some (s', m') := by
  rw [runPieces] at h
  simp only [Piece.run] at h
  rcases he : m.enter with _ | m0
  · rw [he] at h; cases h
  rw [he] at h
  simp only [Option.map_some] at h
  obtain ⟨a1, a2, a3, a4⟩ := NM.enter_spec hi he
  rw [runPieces_append] at h
  rcases hr : runPieces m0 ps with _ | ⟨t, m1⟩
  · rw [hr] at h; cases h
  rw [hr] at h
  obtain ⟨b1, b2, b3, b4⟩ := runPieces_spec hks a1 (by rw [a3]; exact hf) hr
  simp only [runPieces, Piece.run] at h
  rcases hx : m1.exit with _ | m2
  · rw [hx] at h; cases h
  rw [hx] at h
  obtain ⟨c1, c2, c3, c4, c5⟩ := NM.exit_spec b1 hx
  simp only [Option.map_some, List.nil_append] at h
  rcases hq : runPieces m2 rest with _ | ⟨s', m3⟩
  · rw [hq] at h; cases h
  rw [hq] at h
  cases h
  exact ⟨t, s', m1, m2, rfl, b4, b1, a4.trans b3.global, c4, c1, c3, hq⟩

/-- The names of functions and globals in `N` are those in `G`. -/
def Spec.Names.Within (N G : Names) : Prop :=
  (∀ f s, N.ent (.func f) = some s → G.ent (.func f) = some s) ∧ ∀ v s, N.ent (.global v) = some s → G.ent (.global v) = some s

/-- The text of one function: every entity is written with one name, the names differ, and functions and
globals have the names in `G`. -/
def Spec.WellNamed (G : Names) (ps : List Piece) (t : Str) : Prop :=
  ∃ N : Names, Renders N ps t ∧ N.Distinct ∧ N.Within G

theorem funcsOf_spec {ks : List Prefix} (hks : Prefixes ks) {g : Func → Option (List Piece)} (hg : ∀ f ps, g f = some ps → ∀ x ∈ ps, x.Fine ks true) :
    ∀ (fs : List Func) {m m' : NM} {ps : List Piece} {s : Str}, NInv ks m → m.inFunc = false → funcsOf g fs = some ps → runPieces m ps = some (s, m') →
      NInv ks m' ∧ m'.inFunc = false ∧ m.LeGlobal m' ∧ ∃ ts, s = joinLines ts ∧ All2 (fun f t => ∃ ps, g f = some ps ∧ WellNamed m'.names ps t) fs ts
  | [], m, m', ps, s, hi, hn, h, hr => by
    cases h; cases hr
    exact ⟨hi, hn, ⟨fun _ _ h => h, fun _ _ h => h⟩, [], rfl, .nil⟩
  | [f], m, m', ps, s, hi, hn, h, hr => by
    simp only [funcsOf, Option.map_eq_some_iff] at h
    obtain ⟨x, hx, rfl⟩ := h
    obtain ⟨t, s', m1, m2, rfl, h1, h2, h3, h4, h5, h6, h7⟩ := scope_spec hks hi (hg f x hx) hr
    cases h7
    exact ⟨h5, h6, h3.trans h4, [t], by simp [joinLines], .cons ⟨x, hx, m1.names, h1, h2.distinct, h4⟩ .nil⟩
  | f :: f' :: fs, m, m', ps, s, hi, hn, h, hr => by
    rw [funcsOf] at h
    · split at h
      · rename_i x y hx hy
        cases h
        obtain ⟨t, s', m1, m2, rfl, h1, h2, h3, h4, h5, h6, h7⟩ := scope_spec hks hi (hg f x hx) hr
        simp only [runPieces, Piece.run, txt] at h7
        rcases hq : runPieces m2 y with _ | ⟨s2, m3⟩
        · rw [hq] at h7; cases h7
        rw [hq] at h7
        cases h7
        obtain ⟨a1, a2, a3, ts, rfl, a5⟩ := funcsOf_spec hks hg (f' :: fs) h5 h6 hy hq
        refine ⟨a1, a2, (h3.trans h4).trans a3, t :: ts, ?_, .cons ⟨x, hx, m1.names, h1, h2.distinct, h4.trans a3⟩ a5⟩
        cases a5 with
        | cons _ _ => rfl
      · cases h
    · simp

end Koopa
