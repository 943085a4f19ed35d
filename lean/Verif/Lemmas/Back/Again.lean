import Verif.Lemmas.Back.Place
import Verif.Lemmas.Back.Lock
import Verif.Lemmas.Back.Readable
/-!
Printing the program that is read from a printed text gives the text again.
-/
namespace Koopa
open Spec

/-! ### Names carried over to the second program -/

open Classical in
/-- The names of the second program: those of the related things of the first. -/
noncomputable def carried (T : Nat → Nat → Prop) (n : Nat → Str) (b : Nat) : Str := if h : ∃ a, T a b then n h.choose else []

theorem carried_eq {T : Nat → Nat → Prop} {n : Nat → Str} {a b : Nat} (h : T a b) (hu : ∀ a', T a' b → a' = a) : n a = carried T n b := by
  unfold carried
  have he : ∃ a, T a b := ⟨a, h⟩
  rw [dif_pos he, hu _ he.choose_spec]

theorem carried_some {T : Nat → Nat → Prop} {n : Nat → Str} {b : Nat} (h : carried T n b ≠ []) : ∃ a, T a b ∧ carried T n b = n a := by
  unfold carried at h ⊢
  split
  · rename_i he
    exact ⟨_, he.choose_spec, rfl⟩
  · rename_i he
    rw [dif_neg he] at h
    exact absurd rfl h

/-- Both have the same name. -/
def NameRel (n n' : Nat → Str) (a b : Nat) : Prop := n a = n' b ∧ n a ≠ []

theorem carried_biU {T : Nat → Nat → Prop} {n : Nat → Str} (hi : ∀ a b, n a = n b → n a ≠ [] → a = b)
    (hT : ∀ a b b', T a b → T a b' → b = b') : BiU (NameRel n (carried T n)) := by
  rintro a a' b b' ⟨h1, h2⟩ ⟨h3, h4⟩
  constructor
  · rintro rfl
    obtain ⟨c, c1, c2⟩ := carried_some (T := T) (n := n) (b := a') (h1 ▸ h2)
    obtain ⟨d, d1, d2⟩ := carried_some (T := T) (n := n) (b := b') (h3 ▸ h4)
    have : c = d := hi c d (by rw [← c2, ← d2, ← h1, ← h3]) (by rw [← c2, ← h1]; exact h2)
    subst this
    exact hT _ _ _ c1 d1
  · rintro rfl
    exact hi a b (h1.trans h3.symm) h2

theorem empty_biU (n : Nat → Str) : BiU (NameRel n (fun _ => [])) := by
  rintro a a' b b' ⟨h1, h2⟩
  exact absurd h1 h2

/-- The relations by names. -/
def relsOf (M M' : Nm) : Rels := ⟨NameRel M.glob M'.glob, NameRel M.fn M'.fn, NameRel M.val M'.val, NameRel M.bb M'.bb⟩

theorem getD_ne {o : Option Str} (h : o.getD [] ≠ []) : o = some (o.getD []) := by
  cases o with
  | none => exact absurd rfl h
  | some s => rfl

theorem nmOf_fn {G N : Names} (h : G.Distinct) : ∀ a b, (nmOf G N).fn a = (nmOf G N).fn b → (nmOf G N).fn a ≠ [] → a = b := by
  intro a b he hn
  have h1 := getD_ne hn
  have h2 := getD_ne (o := G.ent (.func b)) (fun e => hn (he.trans e))
  have he : (G.ent (.func a)).getD [] = (G.ent (.func b)).getD [] := he
  rw [← he] at h2
  have := h.ents _ _ _ h1 h2
  cases this; rfl

theorem nmOf_glob {G N : Names} (h : G.Distinct) : ∀ a b, (nmOf G N).glob a = (nmOf G N).glob b → (nmOf G N).glob a ≠ [] → a = b := by
  intro a b he hn
  have h1 := getD_ne hn
  have h2 := getD_ne (o := G.ent (.global b)) (fun e => hn (he.trans e))
  have he : (G.ent (.global a)).getD [] = (G.ent (.global b)).getD [] := he
  rw [← he] at h2
  have := h.ents _ _ _ h1 h2
  cases this; rfl

theorem nmOf_val {G N : Names} (h : N.Distinct) : ∀ a b, (nmOf G N).val a = (nmOf G N).val b → (nmOf G N).val a ≠ [] → a = b := by
  intro a b he hn
  have h1 := getD_ne hn
  have h2 := getD_ne (o := N.ent (.value b)) (fun e => hn (he.trans e))
  have he : (N.ent (.value a)).getD [] = (N.ent (.value b)).getD [] := he
  rw [← he] at h2
  have := h.ents _ _ _ h1 h2
  cases this; rfl

theorem nmOf_bb {G N : Names} (h : N.Distinct) : ∀ a b, (nmOf G N).bb a = (nmOf G N).bb b → (nmOf G N).bb a ≠ [] → a = b := by
  intro a b he hn
  have h1 := getD_ne hn
  have h2 := getD_ne (o := N.bb b) (fun e => hn (he.trans e))
  have he : (N.bb a).getD [] = (N.bb b).getD [] := he
  rw [← he] at h2
  exact h.bbs _ _ _ h1 h2

theorem inNm {m m' : NM} (h : m.LeGlobal m') : m.InNm (nmOf m'.names m.names) := by
  constructor
  · intro f s hs
    show s = (m'.names.ent (.func f)).getD []
    rw [h.1 f s hs]; rfl
  · intro v s hs
    show s = (m'.names.ent (.global v)).getD []
    rw [h.2 v s hs]; rfl
  · intro v s hs
    show s = (m.names.ent (.value v)).getD []
    rw [hs]; rfl
  · intro b s hs
    show s = (m.names.bb b).getD []
    rw [hs]; rfl

/-- The names chosen in the second program are those of the first. -/
structure KeptNm (N : Names) (M' : Nm) (x' : Piece) : Prop where
  fn : ∀ g c, x' = .func g c → M'.fn g ≠ [] → c = M'.fn g
  bb : ∀ b c, x' = .bb b c → M'.bb b ≠ [] → c = keptName (M'.bb b)
  glob : ∀ v c, x' = .global v c → M'.glob v ≠ [] → c = keptName (M'.glob v)
  val : ∀ v c, x' = .value v c → M'.val v ≠ [] → c = keptName (M'.val v)
  isGlob : ∀ v c, x' = .global v c → M'.glob v ≠ [] → ∃ u, N.ent (.global u) = some (M'.glob v)
  isVal : ∀ v c, x' = .value v c → M'.val v ≠ [] → ∃ u, N.ent (.value u) = some (M'.val v)

theorem prel_of {G N : Names} (hd : N.Distinct) (hw : N.Within G) {M' : Nm} {x x' : Piece} {s : Str} (ht : N.text x = some s)
    (hl : ∀ s, N.Has s → LexSym s) (he : x.easy = true) (h : tpOf (nmOf G N) x = tpOf M' x') (k : KeptNm N M' x') :
    PRel (nmOf G N) (relsOf (nmOf G N) M') x x' := by
  cases x with
  | lit t =>
    cases x' with
    | lit t' =>
      have h : TP.lit t = TP.lit t' := h
      cases h; exact .lit
    | _ => cases h
  | func f c =>
    have ht : N.ent (.func f) = some s := ht
    have e : (nmOf G N).fn f = s := by simp [nmOf, hw.1 f s ht]
    have hne : s ≠ [] := (hl s (.inl ⟨_, ht⟩)).ne_nil
    cases x' with
    | func g c' =>
      have h : (nmOf G N).fn f = M'.fn g := TP.fn.inj h
      rw [k.fn g c' rfl (by rw [← h, e]; exact hne), ← h]
      exact .func ⟨h, by rw [e]; exact hne⟩
    | _ => cases h
  | bb b c =>
    have ht : N.bb b = some s := ht
    have e : (nmOf G N).bb b = s := by simp [nmOf, ht]
    have hne : s ≠ [] := (hl s (.inr ⟨_, ht⟩)).ne_nil
    cases x' with
    | bb g c' =>
      have h : (nmOf G N).bb b = M'.bb g := TP.bb.inj h
      rw [k.bb g c' rfl (by rw [← h, e]; exact hne), ← h]
      exact .bb ⟨h, by rw [e]; exact hne⟩
    | _ => cases h
  | global v c =>
    have ht : N.ent (.global v) = some s := ht
    have e : (nmOf G N).glob v = s := by simp [nmOf, hw.2 v s ht]
    have hne : s ≠ [] := (hl s (.inl ⟨_, ht⟩)).ne_nil
    cases x' with
    | global g c' =>
      have h : (nmOf G N).glob v = M'.glob g := TP.sym.inj h
      rw [k.glob g c' rfl (by rw [← h, e]; exact hne), ← h]
      exact .global ⟨h, by rw [e]; exact hne⟩
    | value g c' =>
      have h : (nmOf G N).glob v = M'.val g := TP.sym.inj h
      obtain ⟨u, hu⟩ := k.isVal g c' rfl (by rw [← h, e]; exact hne)
      rw [← h, e] at hu
      cases hd.ents _ _ _ ht hu
    | _ => cases h
  | value v c =>
    have ht : N.ent (.value v) = some s := ht
    have e : (nmOf G N).val v = s := by simp [nmOf, ht]
    have hne : s ≠ [] := (hl s (.inl ⟨_, ht⟩)).ne_nil
    cases x' with
    | value g c' =>
      have h : (nmOf G N).val v = M'.val g := TP.sym.inj h
      rw [k.val g c' rfl (by rw [← h, e]; exact hne), ← h]
      exact .value ⟨h, by rw [e]; exact hne⟩
    | global g c' =>
      have h : (nmOf G N).val v = M'.glob g := TP.sym.inj h
      obtain ⟨u, hu⟩ := k.isGlob g c' rfl (by rw [← h, e]; exact hne)
      rw [← h, e] at hu
      cases hd.ents _ _ _ ht hu
    | _ => cases h
  | _ => cases he

theorem renders_mem {N : Names} {ps : List Piece} {t : Str} (h : Renders N ps t) : ∀ x ∈ ps, ∃ s, N.text x = some s := by
  induction h with
  | nil => intro _ h; cases h
  | cons h1 _ ih =>
    intro x hx
    rcases List.mem_cons.1 hx with rfl | hx
    · exact ⟨_, h1⟩
    · exact ih x hx

theorem rel_of {G N : Names} (hd : N.Distinct) (hw : N.Within G) (hl : ∀ s, N.Has s → LexSym s) {M' : Nm} {ps ps' : List Piece} {t : Str} (hr : Renders N ps t)
    (he : ∀ x ∈ ps, x.easy = true) (h : ps.map (tpOf (nmOf G N)) = ps'.map (tpOf M')) (hk : ∀ x' ∈ ps', KeptNm N M' x') :
    All2 (PRel (nmOf G N) (relsOf (nmOf G N) M')) ps ps' := by
  have hlen := congrArg List.length h
  rw [List.length_map, List.length_map] at hlen
  refine all2_of hlen (fun i x x' h1 h2 => ?_)
  obtain ⟨s, hs⟩ := renders_mem hr x (List.mem_of_getElem? h1)
  refine prel_of hd hw hs hl (he x (List.mem_of_getElem? h1)) ?_ (hk x' (List.mem_of_getElem? h2))
  have := congrArg (fun l => l[i]?) h
  simp only [List.getElem?_map, h1, h2, Option.map_some, Option.some.injEq] at this
  exact this

/-! ### The functions in step -/

theorem lock_funs {RG : Value → Value → Prop} {RF : Func → Func → Prop} {g g' : Func → Option (List Piece)} {M : Func → Nm} {m m' : NM} {fs : List Func} {l : List (NM × Str)}
    (h : FunRuns g m fs l m') : ∀ {fs' : List Func} {n : NM} {R : Rels}, R.g = RG → R.f = RF → Lock R m n → (∀ v v', m.bbs.get? v = n.bbs.get? v') → NInv [.default] m →
    All2 (fun f f' => ∃ ps ps' R', g f = some ps ∧ g' f' = some ps' ∧ R'.g = RG ∧ R'.f = RF ∧ R'.Ok ∧ All2 (PRel (M f) R') ps ps' ∧
      ∀ x ∈ ps, x.PlainName ∧ x.Fine [.default] true) fs fs' → All2 (fun f q => q.1.InNm (M f)) fs l →
    ∃ l' n', FunRuns g' n fs' l' n' ∧ l'.map (·.2) = l.map (·.2) := by
  induction h with
  | nil =>
    intro fs' n R _ _ _ _ _ h _
    cases h
    exact ⟨[], n, .nil, rfl⟩
  | @cons m m0 m1 m2 m' f fs ps t l h1 h2 h3 h4 _ ih =>
    intro fs' n R hg hf hl hb hi hR hN
    cases hR with
    | @cons _ f' _ fs' hR hRs =>
      cases hN with
      | cons hN hNs =>
        obtain ⟨qs, qs', R', e1, e2, e3, e4, e5, e6, e7⟩ := hR
        rw [h1] at e1; cases e1
        obtain ⟨n0, a1, a2⟩ := Lock.enter (R' := R') (e3.trans hg.symm) (e4.trans hf.symm) hl hb h2
        obtain ⟨b1, b2, b3, b4⟩ := NM.enter_spec hi h2
        obtain ⟨n1, c1, c2⟩ := Lock.run e5 a2 b1 e6 (by rw [b3]; exact e7) h3 hN
        obtain ⟨n2, d1, d2, d3⟩ := Lock.exit c2 h4
        obtain ⟨g1, -⟩ := runPieces_spec prefixes_koopa b1 (fun x hx => by rw [b3]; exact (e7 x hx).2) h3
        obtain ⟨k1, -⟩ := NM.exit_spec g1 h4
        obtain ⟨l', n', f1, f2⟩ := ih e3 e4 d2 d3 k1 hRs hNs
        exact ⟨(n1, t) :: l', n', .cons e2 a1 c1 d1 f1, by rw [List.map_cons, List.map_cons, f2]⟩

theorem nextName_bbs {m m1 : NM} {ns ns' : List Str} {c : Option Str} {n : Str} (h : m.nextName ns c = some (n, ns', m1)) : m1.bbs = m.bbs := by
  unfold NM.nextName at h
  split at h
  · cases h; rfl
  · split at h
    · cases h
    · split at h
      · cases h
      · cases h; rfl

/-- Writing global variables names no block. -/
theorem globals_bbs {p : Program} : ∀ {ps : List Piece} {m m1 : NM} {s : Str}, (∀ x ∈ ps, GlobalPiece p x) → runPieces m ps = some (s, m1) → m1.bbs = m.bbs
  | [], m, m1, s, _, h => by cases h; rfl
  | x :: ps, m, m1, s, hp, h => by
    rw [runPieces] at h
    split at h
    · cases h
    · rename_i s1 m2 h1
      have e : m2.bbs = m.bbs := by
        rcases hp x List.mem_cons_self with ⟨s, rfl⟩ | ⟨v, d, -, rfl⟩
        · cases h1; rfl
        · simp only [Piece.run, NM.globalName] at h1
          split at h1
          · cases h1; rfl
          · split at h1
            · cases h1
            · rename_i hn
              cases h1
              have e := nextName_bbs hn
              exact e
      split at h
      · cases h
      · rename_i h2
        cases h
        rw [globals_bbs (fun x hx => hp x (List.mem_cons_of_mem _ hx)) h2, e]

/-! ### The program that was read -/

def SameGlobal (p p' : Program) (v v' : Value) : Prop := ∃ k : Nat, p.instLayout[k]? = some v ∧ p'.instLayout[k]? = some v'

def SameLocal (p p' : Program) (fd fd' : FData) (v v' : Value) : Prop := ∃ a, At p p' fd fd' a v v' ∧ HasName fd v

/-- The names of the second program. -/
noncomputable def nmAgain (p p' : Program) (fd fd' : FData) (M : Nm) : Nm where
  glob := carried (SameGlobal p p') M.glob
  fn := carried (SamePlace p p') M.fn
  val := carried (SameLocal p p' fd fd') M.val
  bb := carried (SameBlock fd fd') M.bb

/-- The names of its global variables and functions. -/
noncomputable def gAgain (p p' : Program) (M : Nm) : Nm where
  glob := carried (SameGlobal p p') M.glob
  fn := carried (SamePlace p p') M.fn
  val := fun _ => []
  bb := fun _ => []

theorem sameGlobal_right {p p' : Program} (hp : p.instLayout.Nodup) : ∀ a b b', SameGlobal p p' a b → SameGlobal p p' a b' → b = b' := by
  rintro a b b' ⟨k, h1, h2⟩ ⟨k', h3, h4⟩
  have := nodup_index hp h1 h3
  subst this
  rw [h2] at h4; cases h4; rfl

theorem sameGlobal_left {p p' : Program} (hp : p'.instLayout.Nodup) : ∀ a a' b, SameGlobal p p' a b → SameGlobal p p' a' b → a' = a := by
  rintro a b b' ⟨k, h1, h2⟩ ⟨k', h3, h4⟩
  have := nodup_index hp h2 h4
  subst this
  rw [h1] at h3; cases h3; rfl

theorem samePlace_right {p p' : Program} (hp : p.funcLayout.Nodup) : ∀ a b b', SamePlace p p' a b → SamePlace p p' a b' → b = b' := by
  rintro a b b' ⟨k, h1, h2⟩ ⟨k', h3, h4⟩
  have := nodup_index hp h1 h3
  subst this
  rw [h2] at h4; cases h4; rfl

theorem samePlace_left {p p' : Program} (hp : p'.funcLayout.Nodup) : ∀ a a' b, SamePlace p p' a b → SamePlace p p' a' b → a' = a := by
  rintro a b b' ⟨k, h1, h2⟩ ⟨k', h3, h4⟩
  have := nodup_index hp h2 h4
  subst this
  rw [h1] at h3; cases h3; rfl

theorem sameBlock_right {fd fd' : FData} (hp : (fd.layout.bbs.map (·.1)).Nodup) : ∀ a b b', SameBlock fd fd' a b → SameBlock fd fd' a b' → b = b' := by
  rintro a b b' ⟨k, h1, h2⟩ ⟨k', h3, h4⟩
  have := nodup_index hp h1 h3
  subst this
  rw [h2] at h4; cases h4; rfl

theorem sameBlock_left {fd fd' : FData} (hp : (fd'.layout.bbs.map (·.1)).Nodup) : ∀ a a' b, SameBlock fd fd' a b → SameBlock fd fd' a' b → a' = a := by
  rintro a b b' ⟨k, h1, h2⟩ ⟨k', h3, h4⟩
  have := nodup_index hp h2 h4
  subst this
  rw [h1] at h3; cases h3; rfl

theorem sameLocal_right {p p' : Program} {fd fd' : FData} (hi : ∀ a b v, valueAt p fd a = some v → valueAt p fd b = some v → a = b) :
    ∀ a b b', SameLocal p p' fd fd' a b → SameLocal p p' fd fd' a b' → b = b' := by
  rintro v b b' ⟨k, ⟨h1, h2⟩, -⟩ ⟨k', ⟨h3, h4⟩, -⟩
  have := hi _ _ _ h1 h3
  subst this
  rw [h2] at h4; cases h4; rfl

theorem sameLocal_left {p p' : Program} {fd fd' : FData} (hi : ∀ a b v, valueAt p' fd' a = some v → valueAt p' fd' b = some v → a = b) :
    ∀ a a' b, SameLocal p p' fd fd' a b → SameLocal p p' fd fd' a' b → a' = a := by
  rintro v b b' ⟨k, ⟨h1, h2⟩, -⟩ ⟨k', ⟨h3, h4⟩, -⟩
  have := hi _ _ _ h2 h4
  subst this
  rw [h1] at h3; cases h3; rfl

theorem decl_hasName {fd : FData} (h1 : fd.layout.bbs = []) (h2 : fd.params = []) (v : Value) : ¬ HasName fd v := by
  intro h
  cases h with
  | arg h => rw [h2] at h; cases h
  | param h _ _ => rw [h1] at h; cases h
  | inst h _ _ _ => rw [h1] at h; cases h

/-- A listed function, with or without body. -/
theorem places_inj {p : Program} (hp : Printable p) {before : List Func} {f : Func} {fd : FData} {ts : List Ty} {r : Ty} (hf : p.funcs.get? f = some fd)
    (hb : PrintableFun p before f fd ts r) : ∀ a b v, valueAt p fd a = some v → valueAt p fd b = some v → a = b := by
  intro a b v h1 h2
  rcases hb.body with ⟨-, e1, e2⟩ | hb
  · have key : ∀ {a}, valueAt p fd a = some v → ∃ k, a = .global k := by
      intro a h
      cases a with
      | global k => exact ⟨k, rfl⟩
      | arg k =>
        have h : fd.params[k]? = some v := h
        rw [e2] at h; cases h
      | param j k =>
        obtain ⟨_, _, _, h, -⟩ := valueAt_param h
        rw [e1] at h; cases h
      | inst j k =>
        obtain ⟨_, _, h, -⟩ := valueAt_inst h
        rw [e1] at h; cases h
    obtain ⟨k, rfl⟩ := key h1
    obtain ⟨k', rfl⟩ := key h2
    rw [nodup_index hp.instsOnce h1 h2]
  · exact place_inj hp hf hb h1 h2

theorem blocks_nodup {p : Program} {before : List Func} {f : Func} {fd : FData} {ts : List Ty} {r : Ty}
    (hb : PrintableFun p before f fd ts r) : (fd.layout.bbs.map (·.1)).Nodup := by
  rcases hb.body with ⟨-, e1, e2⟩ | hb
  · rw [e1]; exact List.nodup_nil
  · exact hb.blocksOnce

/-- An instruction that has a name is a definition. -/
theorem named_stmt {p : Program} (hp : Printable p) {before : List Func} {f : Func} {fd : FData} {ts : List Ty} {r : Ty} (hf : p.funcs.get? f = some fd)
    (hb : PrintableBody p before f fd ts r) (M : Nm) {j i : Nat} {v : Value} (h : valueAt p fd (.inst j i) = some v) (hn : HasName fd v) :
    stmtName (stmtAst fd M v) = keptName (M.val v) := by
  obtain ⟨b, is, h1, h2⟩ := valueAt_inst h
  obtain ⟨x, h3, h4⟩ := hb.insts j i b is v h1 h2
  have hT := hp.typed.locals f v x ⟨fd, hf, h3⟩
  have hu : x.ty ≠ .unit := by
    cases hn with
    | arg hm =>
      obtain ⟨k, hk⟩ := List.getElem?_of_mem hm
      cases place_inj hp hf hb (a := .arg k) hk h
    | @param b' is' y h5 h6 h7 =>
      obtain ⟨j', hj'⟩ := List.getElem?_of_mem h5
      obtain ⟨k, hk⟩ := List.getElem?_of_mem h7
      cases place_inj hp hf hb (a := .param j' k) (by simp only [valueAt, hj', h6, hk]) h
    | inst _ _ h5 h6 => rw [h3] at h5; cases h5; exact h6
  unfold stmtAst
  rw [h3]
  obtain ⟨ty, name, kind, usedBy⟩ := x
  simp only at h4 hT hu ⊢
  cases h4 with
  | alloc => rfl
  | load => rfl
  | store => cases hT; exact absurd rfl hu
  | getPtr => rfl
  | getElemPtr => rfl
  | binary => rfl
  | branch => cases hT; exact absurd rfl hu
  | jump => cases hT; exact absurd rfl hu
  | call =>
    have hu' : ty.isUnit = false := by
      cases ty <;> first | rfl | exact absurd rfl hu
    simp only [kindAst, hu']; rfl
  | retNone => cases hT; exact absurd rfl hu
  | ret => cases hT; exact absurd rfl hu

/-- Array lengths are the same. -/
theorem Spec.SameText.short {p p' : Program} (h : SameText p p') (hs : ShortArrays p) (hg : ∀ v x, GlobalVal p' v x → isGlobal v = true)
    (hl : ∀ f v x, LocalVal p' f v x → isGlobal v = false) : ShortArrays p' := by
  constructor
  · intro v' hv' x' hx'
    obtain ⟨k, hk⟩ := List.getElem?_of_mem hv'
    obtain ⟨b, -⟩ := List.getElem?_eq_some_iff.1 hk
    rw [← h.globals.length] at b
    obtain ⟨x, y', i, i', h1, h2, h3, -⟩ := h.globals.get k _ _ (List.getElem?_eq_getElem b) hk
    unfold GlobalVal at h2 hx'
    rw [h2] at hx'; cases hx'
    rw [← h3]
    exact hs.globals _ (List.getElem_mem b) x h1
  · intro f' hf' fd' hfd'
    obtain ⟨k, hk⟩ := List.getElem?_of_mem hf'
    obtain ⟨b, -⟩ := List.getElem?_eq_some_iff.1 hk
    rw [← h.funcs.length] at b
    obtain ⟨fd, gd', h1, h2, h3⟩ := h.funcs.get k _ _ (List.getElem?_eq_getElem b) hk
    rw [hfd'] at h2; cases h2
    rw [← h3.ty]
    exact hs.funcs _ (List.getElem_mem b) fd h1
  · intro f' hf' fd' hfd' a v' x' hv' hx'
    obtain ⟨k, hk⟩ := List.getElem?_of_mem hf'
    obtain ⟨b, -⟩ := List.getElem?_eq_some_iff.1 hk
    rw [← h.funcs.length] at b
    obtain ⟨fd, gd', h1, h2, h3⟩ := h.funcs.get k _ _ (List.getElem?_eq_getElem b) hk
    rw [hfd'] at h2; cases h2
    have fin : ∀ {v}, valueAt p fd a = some v → SameTy fd fd' v v' → ShortTy x'.ty := by
      rintro v hv ⟨y, y', e1, e2, e3⟩
      rw [hx'] at e2; cases e2
      rw [← e3]
      exact hs.locals _ (List.getElem_mem b) fd h1 a v y hv e1
    cases a with
    | global i =>
      have hv' : p'.instLayout[i]? = some v' := hv'
      obtain ⟨b', -⟩ := List.getElem?_eq_some_iff.1 hv'
      rw [← h.globals.length] at b'
      obtain ⟨_, y', _, _, _, g2, _⟩ := h.globals.get i _ _ (List.getElem?_eq_getElem b') hv'
      have e1 := hg _ _ g2
      rw [hl f' v' x' ⟨fd', hfd', hx'⟩] at e1; cases e1
    | arg i =>
      have hv' : fd'.params[i]? = some v' := hv'
      obtain ⟨b', -⟩ := List.getElem?_eq_some_iff.1 hv'
      rw [← h3.params.length] at b'
      exact fin (v := fd.params[i]) (List.getElem?_eq_getElem b') (h3.params.get i _ _ (List.getElem?_eq_getElem b') hv')
    | param j i =>
      obtain ⟨c, is, y', e1, e2, e3⟩ := valueAt_param hv'
      obtain ⟨b', -⟩ := List.getElem?_eq_some_iff.1 e1
      rw [← h3.blocks.length] at b'
      obtain ⟨⟨y, y2, g1, g2, g3⟩, -⟩ := h3.blocks.get j _ _ (List.getElem?_eq_getElem b') e1
      have g2 : fd'.dfg.bbs.get? c = some y2 := g2
      rw [e2] at g2; cases g2
      obtain ⟨b2, -⟩ := List.getElem?_eq_some_iff.1 e3
      rw [← g3.length] at b2
      refine fin (v := y.params[i]) ?_ (g3.get i _ _ (List.getElem?_eq_getElem b2) e3)
      simp only [valueAt, List.getElem?_eq_getElem b', g1, List.getElem?_eq_getElem b2]
    | inst j i =>
      obtain ⟨c, is, e1, e2⟩ := valueAt_inst hv'
      obtain ⟨b', -⟩ := List.getElem?_eq_some_iff.1 e1
      rw [← h3.blocks.length] at b'
      obtain ⟨-, g3⟩ := h3.blocks.get j _ _ (List.getElem?_eq_getElem b') e1
      obtain ⟨b2, -⟩ := List.getElem?_eq_some_iff.1 e2
      have g3' := g3.length
      simp only at g3'
      rw [← g3'] at b2
      obtain ⟨y, y2, q1, q2, q3, -⟩ := g3.get i _ _ (List.getElem?_eq_getElem b2) e2
      refine fin (v := fd.layout.bbs[j].2[i]) ?_ ⟨y, y2, q1, q2, q3⟩
      simp only [valueAt, List.getElem?_eq_getElem b', List.getElem?_eq_getElem b2]

/-! ### The whole program -/

section
variable {p : Program} (hp : Printable p) (hn : PlainNames p)
  {m0 m' : NM} {l : List (NM × Str)} {gs : List (List Piece)} {s0 : Str} (h : Printed p m0 l m' gs s0) (hl0 : m0.Lex) (hl : ∀ q ∈ l, q.1.Lex)
  {N : Func → Names} (hN : All2 (fun f q => N f = q.1.names) p.funcLayout l)
  {p' : Program} (hp' : Printable p') {vars : List (Str × Value)} {fns : List (Str × Func)}
  (R : ReadBack p (nmOf m'.names m'.names) (fun f => nmOf m'.names (N f)) p' vars fns)

include R in
theorem read_global {G : Names} {v v' : Value} (hv : SameGlobal p p' v v') :
    ∃ x', GlobalVal p' v' x' ∧ x'.name = keptName ((nmOf m'.names G).glob v) := by
  obtain ⟨k, h1, h2⟩ := hv
  rw [show p'.instLayout = vars.map (·.2) from R.text.insts, List.getElem?_map] at h2
  obtain ⟨q, h3, rfl⟩ := Option.map_eq_some_iff.1 h2
  obtain ⟨e, x, x', i, i', g1, g2, g3, g4, g5, g6, g7⟩ := R.globals.get k v q h1 h3
  exact ⟨x', g2, by rw [g7, e]; rfl⟩

include R in
theorem read_func {G : Names} {f f' : Func} (hf : SamePlace p p' f f') : ∃ fd', p'.funcs.get? f' = some fd' ∧ fd'.name = (nmOf m'.names G).fn f := by
  obtain ⟨k, h1, h2⟩ := hf
  rw [show p'.funcLayout = fns.map (·.2) from R.text.fns, List.getElem?_map] at h2
  obtain ⟨fd, f2, fd', b1, b2, b3, b4, b5, b6⟩ := R.funs k f h1
  rw [b2] at h2; cases h2
  exact ⟨fd', b3, b5⟩

include hp R in
theorem read_local {i : Nat} {f f' : Func} {fd fd' : FData} (hi : p.funcLayout[i]? = some f) (hf : p.funcs.get? f = some fd)
    (hA : ReadsAs p (fun f => nmOf m'.names (N f)) p' vars fns i f fd f' fd') (hf' : p'.funcs.get? f' = some fd') :
    (∀ v v', SameLocal p p' fd fd' v v' → ∃ x', fd'.dfg.values.get? v' = some x' ∧ x'.name = keptName ((nmOf m'.names (N f)).val v)) ∧
    ∀ b b', SameBlock fd fd' b b' → ∃ x', fd'.dfg.bbs.get? b' = some x' ∧ x'.name = keptName ((nmOf m'.names (N f)).bb b) := by
  cases hA with
  | decl c1 c2 c3 c4 c5 =>
    refine ⟨fun v v' ⟨_, _, h⟩ => absurd h (decl_hasName c3 c4 v), fun b b' ⟨j, h1, h2⟩ => ?_⟩
    rw [c3] at h1; cases h1
  | @«def» ts r r' c1 c2 c3 hb F =>
    have A := R.text
    refine ⟨fun v v' ⟨a, ⟨h1, h2⟩, hv⟩ => ?_, fun b b' ⟨j, h1, h2⟩ => ?_⟩
    · cases a with
      | global k =>
        exfalso
        have e := (placed_global hp h1).1
        have loc : ∀ {x}, fd.dfg.values.get? v = some x → False := fun hx => by
          rw [hp.localId f v _ ⟨fd, hf, hx⟩] at e; cases e
        cases hv with
        | arg hm =>
          obtain ⟨k, hk⟩ := List.getElem?_of_mem hm
          obtain ⟨x, g, -⟩ := hb.params.2 k v hk
          exact loc g
        | @param b is x h5 h6 h7 =>
          obtain ⟨k, hk⟩ := List.getElem?_of_mem h7
          obtain ⟨y, g1, g2⟩ := hb.blocks b is h5
          rw [h6] at g1; cases g1
          obtain ⟨x, g, -⟩ := g2 k v hk
          exact loc g
        | inst _ _ h5 _ => exact loc h5
      | arg k =>
        obtain ⟨x', ⟨_, b1, b2⟩, b3, -⟩ := F.is.hasParams.2 k (paramAst fd _ v) v' (by
          unfold paramsOf; rw [List.getElem?_map, show fd.params[k]? = some v from h1]; rfl) h2
        rw [hf'] at b1; cases b1
        exact ⟨x', b2, b3⟩
      | param j k =>
        obtain ⟨b, is, y, e1, e2, e3⟩ := valueAt_param h1
        obtain ⟨b', is', y', d1, d2, d3⟩ := valueAt_param h2
        obtain ⟨q0, g1, ⟨z, ⟨_, g2, g3⟩, g4, g5⟩, -⟩ := lay_pair F d1
        rw [e1] at g1; cases g1
        rw [hf'] at g2; cases g2
        have g3 : fd'.dfg.bbs.get? b' = some z := g3
        rw [d2] at g3; cases g3
        obtain ⟨x', ⟨_, b1, b2⟩, b3, -⟩ := g5.2 k (paramAst fd _ v) v' (by
          unfold paramsOf paramsAt; simp only [e2, List.getElem?_map, e3]; rfl) d3
        rw [hf'] at b1; cases b1
        exact ⟨x', b2, b3⟩
      | inst j k =>
        obtain ⟨b, is, e1, e2⟩ := valueAt_inst h1
        obtain ⟨b', is', d1, d2⟩ := valueAt_inst h2
        obtain ⟨q0, g1, -, g2⟩ := lay_pair F d1
        rw [e1] at g1; cases g1
        obtain ⟨x', ⟨_, b1, b2⟩, b3, -⟩ := g2.get k v' v d2 e2
        rw [hf'] at b1; cases b1
        exact ⟨x', b2, by rw [b3]; exact named_stmt hp hf hb _ h1 hv⟩
    · rw [List.getElem?_map] at h1 h2
      obtain ⟨q, h3, rfl⟩ := Option.map_eq_some_iff.1 h1
      obtain ⟨q', h4, rfl⟩ := Option.map_eq_some_iff.1 h2
      obtain ⟨q0, g1, ⟨z, ⟨_, g2, g3⟩, g4, -⟩, -⟩ := lay_pair F h4
      rw [h3] at g1; cases g1
      rw [hf'] at g2; cases g2
      exact ⟨z, g3, g4⟩

theorem namePiece_value {v u : Value} {d : VData} {c : Option Str} (h : namePiece v d = some (.value u c)) : v = u ∧ d.name = c := by
  unfold namePiece at h
  split at h
  · cases h
  · split at h <;> cases h
    exact ⟨rfl, rfl⟩

theorem namePiece_global {v u : Value} {d : VData} {c : Option Str} (h : namePiece v d = some (.global u c)) : v = u ∧ d.name = c := by
  unfold namePiece at h
  split at h
  · cases h
  · split at h <;> cases h
    exact ⟨rfl, rfl⟩

include hp hn h hl0 in
/-- The global variables have names after the first part. -/
theorem Printed.globs : ∀ v ∈ p.instLayout, ∃ s, m0.names.ent (.global v) = some s := by
  intro v hv
  have hok := PlainNames.ok hn
  have hfine := hok.mono (fun _ h => PlainName.fine h)
  have hgp : ∀ x ∈ gs.flatten ++ (if p.instLayout.isEmpty then [] else [txt "\n"]), GlobalPiece p x := by
    intro x hx
    rcases List.mem_append.1 hx with hx | hx
    · obtain ⟨l, hl, hx⟩ := List.mem_flatten.1 hx
      obtain ⟨v, -, hv⟩ := allSome_mem h.pieces hl
      exact BackKoopa.globalInst_of hv x hx
    · split at hx
      · cases hx
      · rw [List.mem_singleton] at hx; exact .inl ⟨_, hx⟩
  obtain ⟨a1, a2, a3, a4⟩ := runPieces_spec prefixes_koopa (NInv.new (List.mem_singleton.2 rfl)) (fun x hx => hfine.fineGlobal (hgp x hx) _) h.run
  have hgt := gpieces_plain hp h.pieces
  have hpl : ∀ M, ((gs.flatten ++ if p.instLayout.isEmpty then [] else [txt "\n"]).map (tpOf M)).all TP.plain = true := by
    intro M
    rw [hgt, List.all_append, List.all_eq_true.2]
    · split <;> rfl
    · intro x hx
      obtain ⟨l, hl, hx⟩ := List.mem_flatten.1 hx
      obtain ⟨g, hg, rfl⟩ := List.mem_map.1 hl
      exact List.all_eq_true.1 (globalTP_plain g) x hx
  have c2 := (renders_tp (G := m0.names) (N := m0.names) ⟨fun _ _ h => h, fun _ _ h => h⟩ a4 (hpl _)).2
  rw [hgt] at c2
  have hx : LexSym ((nmOf m0.names m0.names).glob v) := by
    refine hl0 _ (c2 (.sym ((nmOf m0.names m0.names).glob v)) (List.mem_append_left _ (List.mem_flatten.2 ⟨_, List.mem_map.2 ⟨_, List.mem_map.2 ⟨v, hv, rfl⟩, rfl⟩, ?_⟩)))
    obtain ⟨x, i, y, h1, h2, h3, h4, h5⟩ := hp.insts v hv
    have h1' : p.values.get? v = some x := h1
    have h4' : p.values.get? i = some y := h4
    unfold globalAst
    simp only [h1', h2, h4', globalTP]
    exact List.mem_cons_of_mem _ List.mem_cons_self
  exact ⟨_, getD_lex hx⟩

include hp hn h hl0 hl hN hp' R in
/-- The program that was read is printed as the same text. -/
theorem ReadBack.again (hs : SameText p p') : ∃ m'', koopaGenerate NM.new p' = some (s0 ++ joinLines (l.map (·.2)), m'') := by
  have hok := PlainNames.ok hn
  have hfine := hok.mono (fun _ h => PlainName.fine h)
  have A := R.text
  have gpieces : ∀ {q : Program} {gs}, allSome (BackKoopa.globalInst q) q.instLayout = some gs →
      ∀ x ∈ gs.flatten ++ (if q.instLayout.isEmpty then [] else [txt "\n"]), GlobalPiece q x := by
    intro q gs h x hx
    rcases List.mem_append.1 hx with hx | hx
    · obtain ⟨l, hl, hx⟩ := List.mem_flatten.1 hx
      obtain ⟨v, -, hv⟩ := allSome_mem h hl
      exact BackKoopa.globalInst_of hv x hx
    · split at hx
      · cases hx
      · rw [List.mem_singleton] at hx; exact .inl ⟨_, hx⟩
  have hgp := gpieces h.pieces
  have hnew : NInv [.default] NM.new := NInv.new (List.mem_singleton.2 rfl)
  obtain ⟨a1, a2, a3, a4⟩ := runPieces_spec prefixes_koopa hnew (fun x hx => hfine.fineGlobal (hgp x hx) _) h.run
  obtain ⟨b1, b2, b3⟩ := h.funs.spec (fun f hf ps hps x hx => by
    obtain ⟨fd', e4, e5⟩ := BackKoopa.func_of (ks := []) hps
    exact hfine.fine (by simp) e4 (e5 x hx)) a1
  have globs := h.globs hp hn hl0
  have globM : ∀ {m : NM}, m0.LeGlobal m → ∀ v ∈ p.instLayout, m.names.ent (.global v) = some ((nmOf m'.names m'.names).glob v) := by
    intro m hm v hv
    obtain ⟨s, h1⟩ := globs v hv
    have e : (nmOf m'.names m'.names).glob v = s := by show (m'.names.ent (.global v)).getD [] = s; rw [b2.2 v s h1]; rfl
    rw [e]; exact hm.2 v s h1
  have okG : BiU (NameRel (nmOf m'.names m'.names).glob (carried (SameGlobal p p') (nmOf m'.names m'.names).glob)) :=
    carried_biU (nmOf_glob b1.distinct) (sameGlobal_right hp.instsOnce)
  have okF : BiU (NameRel (nmOf m'.names m'.names).fn (carried (SamePlace p p') (nmOf m'.names m'.names).fn)) :=
    carried_biU (nmOf_fn b1.distinct) (samePlace_right hp.funcsOnce)
  -- the global variables
  obtain ⟨gs', hgs', -⟩ := allSome_writes (M := gAgain p p' (nmOf m'.names m0.names)) (f := BackKoopa.globalInst p')
    (g := fun v => globalTP (globalAst p' (gAgain p p' (nmOf m'.names m0.names)) v)) (as := p'.instLayout) (fun v hv => global_writes hp' _ hv)
  have hgp' := gpieces hgs'
  have hrel0 : All2 (PRel (nmOf m'.names m0.names) (relsOf (nmOf m'.names m0.names) (gAgain p p' (nmOf m'.names m0.names))))
      (gs.flatten ++ if p.instLayout.isEmpty then [] else [txt "\n"]) (gs'.flatten ++ if p'.instLayout.isEmpty then [] else [txt "\n"]) := by
    refine rel_of a1.distinct b2 hl0 a4 (fun x hx => ?_) ?_ (fun x' hx' => ?_)
    · rcases hgp x hx with ⟨s, rfl⟩ | ⟨v, d, -, rfl⟩ <;> rfl
    · rw [gpieces_plain hp h.pieces, gpieces_plain hp' hgs']
      have : globalTrees p (nmOf m'.names m0.names) = globalTrees p' (gAgain p p' (nmOf m'.names m0.names)) := by
        unfold globalTrees
        refine map_eq_of (all2_of hs.globals.length (fun k v v' h1 h2 => ?_))
        obtain ⟨x, x', i, i', g1, g2, g3, g4, g5, g6⟩ := hs.globals.get k v v' h1 h2
        have hc : Constant p.values.get? i := by
          obtain ⟨y, i2, z, q1, q2, q3, -⟩ := hp.insts v (List.mem_of_getElem? h1)
          unfold GlobalVal at q1 g1
          rw [g1] at q1; cases q1
          rw [g4] at q2; cases q2
          exact q3
        exact globalAst_same g1 g2 g4 g5 hc g6 (carried_eq (T := SameGlobal p p') ⟨k, h1, h2⟩ (fun a ha => sameGlobal_left hp'.instsOnce _ _ _ ⟨k, h1, h2⟩ ha))
      rw [this]
    · rcases hgp' x' hx' with ⟨s, rfl⟩ | ⟨v', d, hd, rfl⟩
      · constructor <;> intro _ _ h <;> cases h
      · refine ⟨fun _ _ h => (by cases h), fun _ _ h => (by cases h), ?_, fun _ _ h => (by cases h), ?_, fun _ _ h => (by cases h)⟩
        · intro u c he hne
          cases he
          obtain ⟨v, hv, e⟩ := carried_some (T := SameGlobal p p') hne
          obtain ⟨x', g1, g2⟩ := read_global (G := m0.names) R hv
          unfold GlobalVal at g1
          rw [hd] at g1; cases g1
          rw [g2]
          exact congrArg keptName e.symm
        · intro u c he hne
          cases he
          obtain ⟨v, ⟨k, hv, hk⟩, e⟩ := carried_some (T := SameGlobal p p') hne
          refine ⟨v, (globM (m := m0) ⟨fun _ _ h => h, fun _ _ h => h⟩ v (List.mem_of_getElem? hv)).trans (congrArg some e.symm)⟩
  have hl00 : Lock (relsOf (nmOf m'.names m0.names) (gAgain p p' (nmOf m'.names m0.names))) NM.new NM.new :=
    ⟨rfl, rfl, rfl, rfl, rfl, rfl, fun _ _ _ => rfl, fun _ _ _ => rfl, fun _ _ _ => rfl, fun _ _ _ => rfl, rfl⟩
  obtain ⟨n0, c1, c2⟩ := Lock.run (R := relsOf (nmOf m'.names m0.names) (gAgain p p' (nmOf m'.names m0.names)))
    ⟨okG, okF, empty_biU _, empty_biU _⟩ hl00 hnew hrel0 (fun x hx => by
      refine ⟨?_, hfine.fineGlobal (hgp x hx) _⟩
      rcases hgp x hx with ⟨s, rfl⟩ | ⟨v, d, hv, rfl⟩
      · trivial
      · exact fun c hc => hok.globals _ _ _ hv hc) h.run (inNm b2)
  have hbbs : ∀ v v', m0.bbs.get? v = n0.bbs.get? v' := by
    intro v v'
    rw [globals_bbs hgp h.run, globals_bbs hgp' c1]
    rfl
  -- the functions
  have hrelF : All2 (fun f f' => ∃ ps ps' R', BackKoopa.func p f = some ps ∧ BackKoopa.func p' f' = some ps' ∧
      R'.g = NameRel (nmOf m'.names m'.names).glob (carried (SameGlobal p p') (nmOf m'.names m'.names).glob) ∧
      R'.f = NameRel (nmOf m'.names m'.names).fn (carried (SamePlace p p') (nmOf m'.names m'.names).fn) ∧ R'.Ok ∧
      All2 (PRel (nmOf m'.names (N f)) R') ps ps' ∧ ∀ x ∈ ps, x.PlainName ∧ x.Fine [.default] true) p.funcLayout p'.funcLayout := by
    refine all2_of hs.funcs.length (fun i f f' hi hi' => ?_)
    have hf := List.mem_of_getElem? hi
    have hf' := List.mem_of_getElem? hi'
    obtain ⟨⟨m1, t⟩, hq, ps, e1, e2, e3, e4, e5, e6⟩ := Raw.All2.get_left b3 hi
    obtain ⟨q', hq', e7⟩ := Raw.All2.get_left hN hi
    rw [hq] at hq'; cases hq'
    simp only at e2 e3 e4 e5 e6 e7
    obtain ⟨fd, fd', g1, g2, g3⟩ := hs.funcs.get i f f' hi hi'
    obtain ⟨_, ts, r, k1, k2⟩ := hp.funcs i f hi
    rw [g1] at k1; cases k1
    obtain ⟨_, ts', r', k3, k4⟩ := hp'.funcs i f' hi'
    rw [g2] at k3; cases k3
    have inj := places_inj hp g1 k2
    have inj' := places_inj hp' g2 k4
    obtain ⟨M', hM'⟩ : ∃ M', M' = nmAgain p p' fd fd' (nmOf m'.names m1.names) := ⟨_, rfl⟩
    have C : Carry p p' fd fd' (nmOf m'.names m1.names) M' := by
      subst hM'
      constructor
      · intro k v v' h1 h2
        exact carried_eq (T := SameGlobal p p') ⟨k, h1, h2⟩ (fun a ha => sameGlobal_left hp'.instsOnce _ _ _ ⟨k, h1, h2⟩ ha)
      · intro g g' hg
        exact carried_eq (T := SamePlace p p') hg (fun a ha => samePlace_left hp'.funcsOnce _ _ _ hg ha)
      · intro a v v' ha hv
        exact carried_eq (T := SameLocal p p' fd fd') ⟨a, ha, hv⟩ (fun u hu => sameLocal_left inj' _ _ _ ⟨a, ha, hv⟩ hu)
      · intro b b' hb
        exact carried_eq (T := SameBlock fd fd') hb (fun u hu => sameBlock_left (blocks_nodup k4) _ _ _ hb hu)
    have hfn : (nmOf m'.names m1.names).fn f = M'.fn f' := C.fn f f' ⟨i, hi, hi'⟩
    have tree : funAst (nmOf m'.names m1.names) f fd = funAst M' f' fd' := by
      rcases k2.body with ⟨d1, d2, d3⟩ | hb
      · unfold funAst
        rw [g3.ty, hfn, d1, ← g3.isDecl, d1]
        simp
      · rcases k4.body with ⟨d1, d2, d3⟩ | hb'
        · rw [← g3.isDecl, hb.hasBlocks] at d1; cases d1
        · exact fun_same hp g1 hb hp' g2 hb' C g3 hfn
    obtain ⟨_, o1, ps2, o2, o3⟩ := func_writes hp hf (nmOf m'.names m1.names)
    rw [g1] at o1; cases o1
    rw [e1] at o2; cases o2
    obtain ⟨_, o4, ps', o5, o6⟩ := func_writes hp' hf' M'
    rw [g2] at o4; cases o4
    have hpc : ∀ x ∈ ps, PieceOf [] p f fd x := by
      obtain ⟨_, e8, e9⟩ := BackKoopa.func_of (ks := []) e1
      rw [g1] at e8; cases e8
      exact e9
    have hpc' : ∀ x ∈ ps', PieceOf [] p' f' fd' x := by
      obtain ⟨_, e8, e9⟩ := BackKoopa.func_of (ks := []) o5
      rw [g2] at e8; cases e8
      exact e9
    obtain ⟨fd2, f2, fd2', r1, r2, r3, -, r5, r6⟩ := R.funs i f hi
    rw [g1] at r1; cases r1
    have : f2 = f' := by
      rw [show p'.funcLayout = fns.map (·.2) from A.fns, List.getElem?_map, r2] at hi'
      cases hi'; rfl
    subst this
    rw [g2] at r3; cases r3
    obtain ⟨locV, locB⟩ := read_local hp R hi g1 r6 g2
    rw [e7] at locV locB
    refine ⟨ps, ps', relsOf (nmOf m'.names m1.names) M', e1, o5, by subst hM'; rfl, by subst hM'; rfl, ?_, ?_, ?_⟩
    · subst hM'
      exact ⟨okG, okF, carried_biU (nmOf_val e2.distinct) (sameLocal_right inj),
        carried_biU (nmOf_bb e2.distinct) (sameBlock_right (blocks_nodup k2))⟩
    · show All2 (PRel (nmOf m'.names (N f)) _) ps ps'
      rw [e7]
      refine rel_of e2.distinct e5 (hl _ (List.mem_of_getElem? hq)) e6 (fun x hx => ?_) (by rw [o3, o6, tree]) (fun x' hx' => ?_)
      · exact plain_easy (List.all_eq_true.1 (funTP_plain (funAst (nmOf m'.names m1.names) f fd)) (tpOf (nmOf m'.names m1.names) x)
          (by rw [← o3]; exact List.mem_map.2 ⟨x, hx, rfl⟩))
      · subst hM'
        have hx := hpc' x' hx'
        constructor
        · intro g c he hne
          subst he
          obtain ⟨g0, q1, q2⟩ := carried_some (T := SamePlace p p') hne
          obtain ⟨gd', q3, q4⟩ := read_func (G := m1.names) R q1
          cases hx with
          | func hg _ =>
            rw [hg] at q3; cases q3
            rw [q4]; exact q2.symm
          | val _ hn =>
            unfold namePiece at hn
            split at hn
            · cases hn
            · split at hn <;> cases hn
        · intro b c he hne
          subst he
          obtain ⟨b0, q1, q2⟩ := carried_some (T := SameBlock fd fd') hne
          obtain ⟨x', q3, q4⟩ := locB b0 b q1
          cases hx with
          | bb hb =>
            rw [hb] at q3; cases q3
            rw [q4]; exact congrArg keptName q2.symm
          | val _ hn =>
            unfold namePiece at hn
            split at hn
            · cases hn
            · split at hn <;> cases hn
        · intro v c he hne
          subst he
          obtain ⟨v0, q1, q2⟩ := carried_some (T := SameGlobal p p') hne
          obtain ⟨x', q3, q4⟩ := read_global (G := m1.names) R q1
          cases hx with
          | val hv hn =>
            obtain ⟨rfl, rfl⟩ := namePiece_global hn
            rcases hv with hv | hv
            · unfold GlobalVal at q3
              rw [hv] at q3; cases q3
              rw [q4]; exact congrArg keptName q2.symm
            · have z1 := hp'.globalId _ _ q3
              rw [hp'.localId f2 _ _ ⟨fd', g2, hv⟩] at z1; cases z1
        · intro v c he hne
          subst he
          obtain ⟨v0, q1, q2⟩ := carried_some (T := SameLocal p p' fd fd') hne
          obtain ⟨x', q3, q4⟩ := locV v0 v q1
          cases hx with
          | val hv hn =>
            obtain ⟨rfl, rfl⟩ := namePiece_value hn
            rcases hv with hv | hv
            · have z1 := hp'.globalId _ _ hv
              rw [hp'.localId f2 _ _ ⟨fd', g2, q3⟩] at z1; cases z1
            · rw [hv] at q3; cases q3
              rw [q4]; exact congrArg keptName q2.symm
        · intro v c he hne
          obtain ⟨v0, ⟨k, q1, -⟩, q2⟩ := carried_some (T := SameGlobal p p') hne
          exact ⟨v0, (globM e4 v0 (List.mem_of_getElem? q1)).trans (congrArg some q2.symm)⟩
        · intro v c he hne
          obtain ⟨v0, -, q2⟩ := carried_some (T := SameLocal p p' fd fd') hne
          refine ⟨v0, ?_⟩
          have q3 : (m1.names.ent (.value v0)).getD [] ≠ [] := fun e => hne (q2.trans e)
          exact (getD_ne q3).trans (congrArg some q2.symm)
    · intro x hx
      exact ⟨piece_plain hok g1 (hpc x hx), hfine.fine (by simp) g1 (hpc x hx)⟩
  have hNm : All2 (fun f q => q.1.InNm (nmOf m'.names (N f))) p.funcLayout l := by
    refine all2_of b3.length (fun i f q hi hq => ?_)
    obtain ⟨ps, e1, e2, e3, e4, e5, e6⟩ := b3.get i f q hi hq
    rw [hN.get i f q hi hq]
    exact inNm e5
  obtain ⟨l', n', d1, d2⟩ := lock_funs (M := fun f => nmOf m'.names (N f)) h.funs
    (R := relsOf (nmOf m'.names m0.names) (gAgain p p' (nmOf m'.names m0.names))) rfl rfl c2 hbbs a1 hrelF hNm
  have P : Printed p' n0 l' n' gs' s0 := ⟨hgs', c1, d1⟩
  exact ⟨n', by rw [P.text, d2]⟩

end

end Koopa
