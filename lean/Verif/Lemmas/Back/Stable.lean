import Verif.Lemmas.Back.Pieces
/-!
Names once assigned stay, without any condition on the chosen names; and the names of functions are not
touched by pieces that name no further function.
-/
namespace Koopa
open Spec

theorem NM.nextName_same {m m' : NM} {ns ns' : List Str} {name : Option Str} {n : Str} (h : m.nextName ns name = some (n, ns', m')) :
    ∃ i, m' = { m with nextId := i } := by
  unfold NM.nextName at h
  split at h
  · cases h; exact ⟨_, rfl⟩
  · split at h
    · cases h
    · split at h
      · cases h
      · cases h; exact ⟨_, rfl⟩

/-- A piece that is written within a scope. -/
def Piece.InScope (inFunc : Bool) : Piece → Prop
  | .value _ _ => inFunc = true
  | .temp _ => inFunc = true
  | .enter => False
  | .exit => False
  | _ => True

theorem Map.get?_insert_fresh {κ ν : Type} [DecidableEq κ] {mp : Map κ ν} {k : κ} {n : ν} (h0 : mp.get? k = none) (k' : κ) (s : ν) (h : mp.get? k' = some s) :
    (mp.insert k n).get? k' = some s := by
  rw [Map.get?_insert, if_neg, h]
  rintro rfl; rw [h0] at h; cases h

theorem NM.bbName_stable {m m' : NM} {b : BB} {c : Option Str} {s : Str} (h : m.bbName b c = some (s, m')) :
    m'.inFunc = m.inFunc ∧ m.Le m' ∧ m'.names.bb b = some s := by
  unfold NM.bbName at h
  split at h
  · cases h; exact ⟨rfl, .refl _, by assumption⟩
  · rename_i h0
    split at h
    · cases h
    · rename_i h1
      obtain ⟨i, rfl⟩ := NM.nextName_same h1
      cases h
      exact ⟨rfl, ⟨fun _ _ h => h, Map.get?_insert_fresh h0⟩, Map.get?_insert_self _ _ _⟩

theorem Piece.run_stable {m m' : NM} {x : Piece} (hx : x.InScope m.inFunc) {s : Str} (h : x.run m = some (s, m')) :
    m'.inFunc = m.inFunc ∧ m.Le m' ∧ m'.names.text x = some s := by
  cases x with
  | lit t => cases h; exact ⟨rfl, .refl _, rfl⟩
  | func f c =>
    simp only [Piece.run, NM.funcName] at h
    split at h
    · rename_i h0; cases h; exact ⟨rfl, .refl _, h0⟩
    · rename_i h0
      split at h
      · cases h
      · rename_i h1
        obtain ⟨i, rfl⟩ := NM.nextName_same h1
        cases h
        refine ⟨rfl, ⟨fun e s he => ?_, fun _ _ h => h⟩, Map.get?_insert_self _ _ _⟩
        cases e with
        | func g => exact Map.get?_insert_fresh h0 g s he
        | _ => exact he
  | global f c =>
    simp only [Piece.run, NM.globalName] at h
    split at h
    · rename_i h0; cases h; exact ⟨rfl, .refl _, h0⟩
    · rename_i h0
      split at h
      · cases h
      · rename_i h1
        obtain ⟨i, rfl⟩ := NM.nextName_same h1
        cases h
        refine ⟨rfl, ⟨fun e s he => ?_, fun _ _ h => h⟩, Map.get?_insert_self _ _ _⟩
        cases e with
        | global g => exact Map.get?_insert_fresh h0 g s he
        | _ => exact he
  | value f c =>
    have hin : m.inFunc = true := hx
    simp only [Piece.run, NM.valueName] at h
    split at h
    · rename_i h0; cases h; exact ⟨rfl, .refl _, by simp only [Names.text, NM.names, hin, if_true]; exact h0⟩
    · rename_i h0
      split at h
      · cases h
      · rename_i h1
        obtain ⟨i, rfl⟩ := NM.nextName_same h1
        cases h
        refine ⟨rfl, ⟨fun e s he => ?_, fun _ _ h => h⟩, by simp only [Names.text, NM.names, hin, if_true]; exact Map.get?_insert_self _ _ _⟩
        cases e with
        | value g =>
          simp only [NM.names, hin, if_true] at he ⊢
          exact Map.get?_insert_fresh h0 g s he
        | _ => exact he
  | temp f =>
    have hin : m.inFunc = true := hx
    simp only [Piece.run, NM.tempOf] at h
    split at h
    · rename_i h0; cases h; exact ⟨rfl, .refl _, by simp only [Names.text, NM.names, hin, if_true]; exact h0⟩
    · rename_i h0
      split at h
      · cases h
      · rename_i h1
        obtain ⟨i, rfl⟩ := NM.nextName_same h1
        cases h
        refine ⟨rfl, ⟨fun e s he => ?_, fun _ _ h => h⟩, by simp only [Names.text, NM.names, hin, if_true]; exact Map.get?_insert_self _ _ _⟩
        cases e with
        | temp g =>
          simp only [NM.names, hin, if_true] at he ⊢
          exact Map.get?_insert_fresh h0 g s he
        | _ => exact he
  | bb b c => exact NM.bbName_stable h
  | label b c =>
    simp only [Piece.run] at h
    split at h
    · cases h
    · cases h
    · rename_i hb
      cases h
      obtain ⟨h1, h2, h3⟩ := NM.bbName_stable hb
      exact ⟨h1, h2, by rw [Names.text, h3]⟩
  | setPrefix p => cases h; exact ⟨rfl, .refl _, rfl⟩
  | enter => exact absurd hx id
  | exit => exact absurd hx id

theorem runPieces_stable : ∀ {ps : List Piece} {m m' : NM} {s : Str}, (∀ x ∈ ps, x.InScope m.inFunc) →
    runPieces m ps = some (s, m') → m'.inFunc = m.inFunc ∧ m.Le m' ∧ Renders m'.names ps s
  | [], m, m', s, _, h => by cases h; exact ⟨rfl, .refl _, .nil⟩
  | x :: xs, m, m', s, hf, h => by
    rw [runPieces] at h
    split at h
    · cases h
    · rename_i s1 m1 h1
      obtain ⟨a2, a3, a4⟩ := Piece.run_stable (hf x List.mem_cons_self) h1
      split at h
      · cases h
      · rename_i s2 m2 h2
        cases h
        obtain ⟨b2, b3, b4⟩ := runPieces_stable (fun y hy => by rw [a2]; exact hf y (List.mem_cons_of_mem _ hy)) h2
        exact ⟨b2.trans a2, a3.trans b3, .cons (Names.text_mono b3 a4) b4⟩

theorem PieceOf.inScope {ks : List Prefix} {p : Program} {f : Func} {fd : FData} {x : Piece} (h : PieceOf ks p f fd x) : x.InScope true := by
  cases h with
  | val _ hn =>
    unfold namePiece at hn
    split at hn
    · cases hn
    · split at hn <;> cases hn
      · exact trivial
      · exact rfl
  | temp => exact rfl
  | _ => exact trivial

/-! ### Names of functions -/

theorem Piece.run_funcs {m m' : NM} {x : Piece} {s : Str} (h : x.run m = some (s, m')) :
    (∀ g c, x = .func g c → m.funcs.get? g ≠ none) → m'.funcs = m.funcs := by
  intro hx
  cases x with
  | lit t => cases h; rfl
  | func f c =>
    simp only [Piece.run, NM.funcName] at h
    split at h
    · cases h; rfl
    · rename_i h0; exact absurd h0 (hx f c rfl)
  | global f c =>
    simp only [Piece.run, NM.globalName] at h
    split at h
    · cases h; rfl
    · split at h
      · cases h
      · rename_i h1
        obtain ⟨i, rfl⟩ := NM.nextName_same h1
        cases h; rfl
  | value f c =>
    simp only [Piece.run, NM.valueName] at h
    split at h
    · cases h; rfl
    · split at h
      · cases h
      · rename_i h1
        obtain ⟨i, rfl⟩ := NM.nextName_same h1
        cases h; rfl
  | temp f =>
    simp only [Piece.run, NM.tempOf] at h
    split at h
    · cases h; rfl
    · split at h
      · cases h
      · rename_i h1
        obtain ⟨i, rfl⟩ := NM.nextName_same h1
        cases h; rfl
  | bb b c =>
    simp only [Piece.run, NM.bbName] at h
    split at h
    · cases h; rfl
    · split at h
      · cases h
      · rename_i h1
        obtain ⟨i, rfl⟩ := NM.nextName_same h1
        cases h; rfl
  | label b c =>
    simp only [Piece.run] at h
    split at h
    · cases h
    · cases h
    · rename_i hb
      cases h
      simp only [NM.bbName] at hb
      split at hb
      · cases hb; rfl
      · split at hb
        · cases hb
        · rename_i h1
          obtain ⟨i, rfl⟩ := NM.nextName_same h1
          cases hb; rfl
  | setPrefix p => cases h; rfl
  | enter =>
    obtain ⟨a, h1, h2⟩ := Option.map_eq_some_iff.1 h
    cases h2
    unfold NM.enter at h1
    split at h1 <;> cases h1
    rfl
  | exit =>
    obtain ⟨a, h1, h2⟩ := Option.map_eq_some_iff.1 h
    cases h2
    unfold NM.exit at h1
    split at h1 <;> cases h1
    rfl

theorem runPieces_funcs : ∀ {ps : List Piece} {m m' : NM} {s : Str}, runPieces m ps = some (s, m') →
    (∀ g c, .func g c ∈ ps → m.funcs.get? g ≠ none) → m'.funcs = m.funcs
  | [], m, m', s, h, _ => by cases h; rfl
  | x :: xs, m, m', s, h, hx => by
    rw [runPieces] at h
    split at h
    · cases h
    · rename_i s1 m1 h1
      have e1 := Piece.run_funcs h1 (fun g c hg => hx g c (by rw [hg]; exact List.mem_cons_self))
      split at h
      · cases h
      · rename_i s2 m2 h2
        cases h
        rw [runPieces_funcs h2 (fun g c hg => by rw [e1]; exact hx g c (List.mem_cons_of_mem _ hg)), e1]

theorem Piece.run_pre {m m' : NM} {x : Piece} {s : Str} (h : x.run m = some (s, m')) : (∀ q, x ≠ .setPrefix q) → m'.pre = m.pre := by
  intro hx
  cases x with
  | setPrefix p => exact absurd rfl (hx p)
  | lit t => cases h; rfl
  | func f c =>
    simp only [Piece.run, NM.funcName] at h
    split at h
    · cases h; rfl
    · split at h
      · cases h
      · rename_i h1
        obtain ⟨i, rfl⟩ := NM.nextName_same h1
        cases h; rfl
  | global f c =>
    simp only [Piece.run, NM.globalName] at h
    split at h
    · cases h; rfl
    · split at h
      · cases h
      · rename_i h1
        obtain ⟨i, rfl⟩ := NM.nextName_same h1
        cases h; rfl
  | value f c =>
    simp only [Piece.run, NM.valueName] at h
    split at h
    · cases h; rfl
    · split at h
      · cases h
      · rename_i h1
        obtain ⟨i, rfl⟩ := NM.nextName_same h1
        cases h; rfl
  | temp f =>
    simp only [Piece.run, NM.tempOf] at h
    split at h
    · cases h; rfl
    · split at h
      · cases h
      · rename_i h1
        obtain ⟨i, rfl⟩ := NM.nextName_same h1
        cases h; rfl
  | bb b c =>
    simp only [Piece.run, NM.bbName] at h
    split at h
    · cases h; rfl
    · split at h
      · cases h
      · rename_i h1
        obtain ⟨i, rfl⟩ := NM.nextName_same h1
        cases h; rfl
  | label b c =>
    simp only [Piece.run] at h
    split at h
    · cases h
    · cases h
    · rename_i hb
      cases h
      simp only [NM.bbName] at hb
      split at hb
      · cases hb; rfl
      · split at hb
        · cases hb
        · rename_i h1
          obtain ⟨i, rfl⟩ := NM.nextName_same h1
          cases hb; rfl
  | enter =>
    obtain ⟨a, h1, h2⟩ := Option.map_eq_some_iff.1 h
    cases h2
    unfold NM.enter at h1
    split at h1 <;> cases h1
    rfl
  | exit =>
    obtain ⟨a, h1, h2⟩ := Option.map_eq_some_iff.1 h
    cases h2
    unfold NM.exit at h1
    split at h1 <;> cases h1
    rfl

/-! ### The names of functions in LLVM IR -/

/-- The name of a global in LLVM IR. -/
def IsAt (n : Str) : Prop := ∃ t, n = '@' :: t

theorem isAt_globalPrefix {c n : Str} (h : BackLlvm.globalPrefix.name c = some n) : IsAt n := by
  have key : ∀ t : Str, truncate 513 ('@' :: t) = some n → IsAt n := by
    intro t ht
    rw [truncate] at ht
    split at ht
    · obtain ⟨u, -, rfl⟩ := Option.map_eq_some_iff.1 ht
      exact ⟨u, rfl⟩
    · cases ht
  unfold Prefix.name BackLlvm.globalPrefix at h
  simp only at h
  split at h
  · cases h
  · rename_i name hname
    split at hname
    · cases hname; exact key _ h
    · cases hname
    · split at hname
      · cases hname; exact key _ h
      · cases hname

theorem isAt_funcName {m m' : NM} {f : Func} {c n : Str} (hp : m.pre = BackLlvm.globalPrefix) (ha : ∀ g n, m.funcs.get? g = some n → IsAt n)
    (h : m.funcName f c = some (n, m')) : m'.pre = m.pre ∧ (∀ g n, m'.funcs.get? g = some n → IsAt n) ∧ m'.funcs.get? f = some n ∧
      ∀ g, m.funcs.get? g ≠ none → m'.funcs.get? g ≠ none := by
  unfold NM.funcName at h
  split at h
  · cases h; exact ⟨rfl, ha, by assumption, fun _ h => h⟩
  · rename_i h0
    split at h
    · cases h
    · rename_i n' ns m2 h1
      cases h
      have hn : IsAt n ∧ ∃ i, m2 = { m with nextId := i } := by
        refine ⟨?_, NM.nextName_same h1⟩
        unfold NM.nextName at h1
        simp only at h1
        split at h1
        · cases h1
        · rename_i c' hc
          rw [hp] at hc
          have hat := isAt_globalPrefix hc
          split at h1
          · cases h1
          · rename_i n2 hn2
            cases h1
            unfold pickName at hn2
            split at hn2
            · obtain ⟨k, -, rfl, -, -⟩ := pickSuffix_some _ _ _ _ _ hn2
              obtain ⟨t, rfl⟩ := hat
              exact ⟨_, rfl⟩
            · cases hn2; exact hat
      obtain ⟨hat, i, rfl⟩ := hn
      refine ⟨rfl, fun g x hg => ?_, Map.get?_insert_self _ _ _, fun g hg => ?_⟩
      · rw [Map.get?_insert] at hg
        split at hg
        · cases hg; exact hat
        · exact ha g x hg
      · rw [Map.get?_insert]
        split
        · simp
        · exact hg

/-- How the text of a function begins and ends. -/
theorem BackLlvm.func_shape {p : Program} {f : Func} {ps : List Piece} (h : BackLlvm.func o p f = some ps) :
    ∃ a t name rest, ps = .lit a :: txt " " :: .lit t :: txt " " :: .func f name :: (rest ++ [.setPrefix BackLlvm.globalPrefix]) := by
  unfold BackLlvm.func at h
  split at h
  · cases h
  · split at h
    · split at h
      · cases h
        exact ⟨_, _, _, txt "(" :: .setPrefix BackLlvm.localPrefix :: (_ ++ [txt ")", txt "\n"]), by
          simp only [List.cons_append, List.append_assoc, List.nil_append]; rfl⟩
      · split at h
        · cases h
          exact ⟨_, _, _, txt "(" :: .setPrefix BackLlvm.localPrefix :: (_ ++ txt ")" :: txt " {\n" :: (_ ++ [txt "}\n"])), by
            simp only [List.cons_append, List.append_assoc, List.nil_append]; rfl⟩
        · cases h
    · cases h

/-- All functions named so far have names of globals. -/
structure AtInv (m : NM) : Prop where
  pre : m.pre = BackLlvm.globalPrefix
  names : ∀ g n, m.funcs.get? g = some n → IsAt n

theorem runPieces_lit (s : Str) (ps : List Piece) (m : NM) : runPieces m (.lit s :: ps) = (runPieces m ps).map (fun r => (s ++ r.1, r.2)) := by
  simp only [runPieces, Piece.run]
  cases runPieces m ps <;> rfl

theorem BackLlvm.func_at {p : Program} {f : Func} {ps : List Piece} (h : BackLlvm.func o p f = some ps) {m m' : NM} {s : Str} (ha : AtInv m)
    (hc : ∀ g c, .func g c ∈ ps → g = f ∨ m.funcs.get? g ≠ none) (hr : runPieces m ps = some (s, m')) :
    AtInv m' ∧ m'.funcs.get? f ≠ none ∧ ∀ g, m.funcs.get? g ≠ none → m'.funcs.get? g ≠ none := by
  obtain ⟨a, t, name, rest, rfl⟩ := BackLlvm.func_shape h
  rw [txt, runPieces_lit, runPieces_lit, runPieces_lit, runPieces_lit] at hr
  rw [runPieces] at hr
  simp only [Piece.run] at hr
  rcases h1 : m.funcName f name with _ | ⟨n, m1⟩
  · rw [h1] at hr; cases hr
  rw [h1] at hr
  simp only [runPieces_append] at hr
  obtain ⟨b1, b2, b3, b4⟩ := isAt_funcName ha.pre ha.names h1
  rcases h2 : runPieces m1 rest with _ | ⟨s2, m2⟩
  · rw [h2] at hr; cases hr
  rw [h2] at hr
  simp only [runPieces, Piece.run, Option.map_some, Option.some.injEq, Prod.mk.injEq] at hr
  obtain ⟨-, rfl⟩ := hr
  have e := runPieces_funcs h2 (fun g c hg => by
    rcases hc g c (by simp [hg]) with rfl | h3
    · rw [b3]; simp
    · exact b4 g h3)
  have e' : ({ m2 with pre := BackLlvm.globalPrefix } : NM).funcs = m1.funcs := e
  refine ⟨⟨rfl, ?_⟩, ?_, ?_⟩
  · rw [e']; exact b2
  · rw [e', b3]; simp
  · rw [e']; exact b4

theorem BackLlvm.funcs_at {p : Program} : ∀ (fs done : List Func) {m m' : NM} {ps : List Piece} {s : Str}, AtInv m →
    (∀ g ∈ done, m.funcs.get? g ≠ none) →
    (∀ l1 f l2, fs = l1 ++ f :: l2 → ∀ ps g c, BackLlvm.func o p f = some ps → .func g c ∈ ps → g ∈ done ∨ g ∈ l1 ∨ g = f) →
    funcsOf (BackLlvm.func o p) fs = some ps → runPieces m ps = some (s, m') →
      AtInv m' ∧ ∀ g, g ∈ done ∨ g ∈ fs → m'.funcs.get? g ≠ none
  | [], done, m, m', ps, s, ha, hd, hc, h, hr => by
    cases h; cases hr
    refine ⟨ha, fun g hg => hd g ?_⟩
    simpa using hg
  | f :: fs, done, m, m', ps, s, ha, hd, hc, h, hr => by
    have hstep : ∀ x rest s m', BackLlvm.func o p f = some x → runPieces m (.enter :: (x ++ .exit :: rest)) = some (s, m') →
        ∃ s' m2, AtInv m2 ∧ (∀ g, g ∈ done ++ [f] → m2.funcs.get? g ≠ none) ∧ runPieces m2 rest = some (s', m') := by
      intro x rest s m' hx hr
      rw [runPieces] at hr
      simp only [Piece.run] at hr
      rcases he : m.enter with _ | m0
      · rw [he] at hr; cases hr
      rw [he] at hr
      simp only [Option.map_some] at hr
      have hm0 : m0.funcs = m.funcs ∧ m0.pre = m.pre := by
        unfold NM.enter at he
        split at he <;> cases he
        exact ⟨rfl, rfl⟩
      rw [runPieces_append] at hr
      rcases hr1 : runPieces m0 x with _ | ⟨t, m1⟩
      · rw [hr1] at hr; cases hr
      rw [hr1] at hr
      simp only [runPieces, Piece.run] at hr
      obtain ⟨a1, a2, a3⟩ := BackLlvm.func_at hx ⟨hm0.2.trans ha.pre, by rw [hm0.1]; exact ha.names⟩ (fun g c hg => by
        rcases hc [] f fs rfl x g c hx hg with h1 | h1 | h1
        · rw [hm0.1]; exact .inr (hd g h1)
        · cases h1
        · exact .inl h1) hr1
      rcases hx2 : m1.exit with _ | m2
      · rw [hx2] at hr; cases hr
      rw [hx2] at hr
      have hm2 : m2.funcs = m1.funcs ∧ m2.pre = m1.pre := by
        unfold NM.exit at hx2
        split at hx2 <;> cases hx2
        exact ⟨rfl, rfl⟩
      simp only [Option.map_some] at hr
      rcases hq : runPieces m2 rest with _ | ⟨s', m3⟩
      · rw [hq] at hr; cases hr
      rw [hq] at hr
      cases hr
      refine ⟨s', m2, ⟨hm2.2.trans a1.pre, by rw [hm2.1]; exact a1.names⟩, fun g hg => ?_, hq⟩
      rw [hm2.1]
      rcases List.mem_append.1 hg with hg | hg
      · exact a3 g (by rw [hm0.1]; exact hd g hg)
      · rw [List.mem_singleton] at hg; subst hg; exact a2
    cases fs with
    | nil =>
      simp only [funcsOf, Option.map_eq_some_iff] at h
      obtain ⟨x, hx, rfl⟩ := h
      obtain ⟨s', m2, h1, h2, h3⟩ := hstep x [] s m' hx hr
      cases h3
      exact ⟨h1, fun g hg => h2 g (by simpa using hg)⟩
    | cons f' fs =>
      rw [funcsOf] at h
      · split at h
        · rename_i x y hx hy
          cases h
          obtain ⟨s', m2, h1, h2, h3⟩ := hstep x _ s m' hx hr
          rw [txt, runPieces_lit] at h3
          obtain ⟨⟨s2, m3⟩, h4, h5⟩ := Option.map_eq_some_iff.1 h3
          cases h5
          obtain ⟨c1, c2⟩ := BackLlvm.funcs_at (f' :: fs) (done ++ [f]) h1 h2 (fun l1 f2 l2 hl ps g c hps hg => by
            rcases hc (f :: l1) f2 l2 (by rw [hl]; rfl) ps g c hps hg with h | h | h
            · exact .inl (List.mem_append_left _ h)
            · rcases List.mem_cons.1 h with rfl | h
              · exact .inl (List.mem_append_right _ (List.mem_singleton.2 rfl))
              · exact .inr (.inl h)
            · exact .inr (.inr h)) hy h4
          refine ⟨c1, fun g hg => c2 g ?_⟩
          rcases hg with hg | hg
          · exact .inl (List.mem_append_left _ hg)
          · rcases List.mem_cons.1 hg with rfl | hg
            · exact .inl (List.mem_append_right _ (List.mem_singleton.2 rfl))
            · exact .inr hg
        · cases h
      · simp

end Koopa
