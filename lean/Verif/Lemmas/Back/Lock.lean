import Verif.Lemmas.Back.TreeRun
/-!
Two runs of the name manager in step: the second program has the names that the first run handed out.
-/
namespace Koopa
open Spec

/-- The relation is one-to-one. -/
def BiU (R : Nat → Nat → Prop) : Prop := ∀ a a' b b', R a a' → R b b' → (a = b ↔ a' = b')

/-- Relations between the entities of two programs: global variables, functions, values and blocks. -/
structure Rels where
  g : Value → Value → Prop
  f : Func → Func → Prop
  v : Value → Value → Prop
  b : BB → BB → Prop

structure Rels.Ok (R : Rels) : Prop where
  g : BiU R.g
  f : BiU R.f
  v : BiU R.v
  b : BiU R.b

/-- The states of both runs. -/
structure Lock (R : Rels) (m m' : NM) : Prop where
  next : m.nextId = m'.nextId
  scope : m.inFunc = m'.inFunc
  pre : m.pre = .default
  pre' : m'.pre = .default
  names : m.globalNames = m'.globalNames
  bbNames : m.bbNames = m'.bbNames
  g : ∀ v v', R.g v v' → m.globalVars.get? v = m'.globalVars.get? v'
  f : ∀ v v', R.f v v' → m.funcs.get? v = m'.funcs.get? v'
  v : ∀ v v', R.v v v' → m.values.get? v = m'.values.get? v'
  b : ∀ v v', R.b v v' → m.bbs.get? v = m'.bbs.get? v'
  ents : m.values.entries.map (·.2) = m'.values.entries.map (·.2)

/-- Corresponding pieces; the names of the second program are the names that the first run hands out. -/
inductive PRel (M : Nm) (R : Rels) : Piece → Piece → Prop where
  | lit {s : Str} : PRel M R (.lit s) (.lit s)
  | func {f f' : Func} {c : Str} : R.f f f' → PRel M R (.func f c) (.func f' (M.fn f))
  | bb {b b' : BB} {c : Option Str} : R.b b b' → PRel M R (.bb b c) (.bb b' (keptName (M.bb b)))
  | global {v v' : Value} {c : Option Str} : R.g v v' → PRel M R (.global v c) (.global v' (keptName (M.glob v)))
  | value {v v' : Value} {c : Option Str} : R.v v v' → PRel M R (.value v c) (.value v' (keptName (M.val v)))

theorem PlainName.kept {n : Str} (h : PlainName n) : keptName n = some n := by
  obtain ⟨tag, s, rfl, ht, ⟨⟨c, t, rfl, hc⟩, hs⟩⟩ := h
  have hcp : c ≠ '%' := by
    rintro rfl
    have := hs '%' List.mem_cons_self
    revert this; decide
  have : temporary (tag :: c :: t) = false := by
    unfold temporary
    simp [hc, hcp]
  unfold keptName
  rw [this]; rfl

theorem temp_kept (n : Nat) : keptName ('%' :: showNat n) = none := by
  have : temporary ('%' :: showNat n) = true := by
    unfold temporary
    rw [List.all_cons, Bool.and_eq_true]
    refine ⟨rfl, List.all_eq_true.2 (fun c hc => ?_)⟩
    rw [Bool.or_eq_true]
    exact .inr (isNum_showNat hc)
  unfold keptName
  rw [this]; rfl

theorem pickName_again {ns : List Str} {c n : Str} (h : pickName ns c = some n) (hc : PlainName c) : PlainName n ∧ pickName ns n = some n := by
  unfold pickName at h
  split at h
  · obtain ⟨k, -, rfl, h3, -⟩ := pickSuffix_some _ _ _ _ _ h
    refine ⟨PlainName.suffixed hc k, ?_⟩
    unfold pickName
    rw [if_neg h3]
  · rename_i h3
    cases h
    refine ⟨hc, ?_⟩
    unfold pickName
    rw [if_neg h3]

theorem nextName_again {m m1 m' : NM} (hp : m.pre = .default) (hp' : m'.pre = .default) (hn : m.nextId = m'.nextId) {ns ns' : List Str} {c : Option Str} {n : Str}
    (hc : ∀ c', c = some c' → PlainName c') (h : m.nextName ns c = some (n, ns', m1)) :
    m1 = { m with nextId := m1.nextId } ∧ m'.nextName ns (keptName n) = some (n, ns', { m' with nextId := m1.nextId }) := by
  unfold NM.nextName at h
  split at h
  · cases h
    refine ⟨rfl, ?_⟩
    rw [hp]
    simp only [Prefix.tempName, temp_kept, NM.nextName, hp', hn]
  · rename_i c
    rw [hp] at h
    simp only [Prefix.name] at h
    split at h
    · cases h
    · rename_i n' hk
      cases h
      obtain ⟨h1, h2⟩ := pickName_again hk (hc c rfl)
      refine ⟨rfl, ?_⟩
      have e : ({ m' with nextId := m.nextId } : NM) = m' := by rw [hn]
      rw [PlainName.kept h1, e]
      simp only [NM.nextName, hp', Prefix.name, h2]

theorem nextName_func {m m1 m' : NM} (hp : m.pre = .default) (hp' : m'.pre = .default) {ns ns' : List Str} {c : Str} {n : Str}
    (hc : PlainName c) (h : m.nextName ns (some c) = some (n, ns', m1)) :
    m1 = m ∧ m'.nextName ns (some n) = some (n, ns', m') := by
  simp only [NM.nextName, hp, Prefix.name] at h
  split at h
  · cases h
  · rename_i n' hk
    cases h
    obtain ⟨h1, h2⟩ := pickName_again hk hc
    refine ⟨rfl, ?_⟩
    simp only [NM.nextName, hp', Prefix.name, h2]

theorem Map.erase_fresh {κ ν : Type} [DecidableEq κ] {m : Map κ ν} {k : κ} (h : m.get? k = none) : (m.erase k).entries = m.entries := by
  obtain ⟨l⟩ := m
  show l.filter _ = l
  rw [List.filter_eq_self]
  intro q hq
  rw [decide_eq_true_eq]
  intro he
  induction l with
  | nil => cases hq
  | cons a l ih =>
    obtain ⟨k', v⟩ := a
    simp only [Map.get?, Map.lookup] at h
    split at h
    · cases h
    · rename_i hne
      rcases List.mem_cons.1 hq with rfl | hq
      · exact hne he
      · exact ih h hq

theorem insert_both {R : Nat → Nat → Prop} (hR : BiU R) {m m' : Map Nat Str} (h : ∀ v v', R v v' → m.get? v = m'.get? v') {a a' : Nat} (ha : R a a') (n : Str) :
    ∀ v v', R v v' → (m.insert a n).get? v = (m'.insert a' n).get? v' := by
  intro v v' hv
  rw [Map.get?_insert, Map.get?_insert]
  by_cases he : v = a
  · rw [if_pos he, if_pos ((hR _ _ _ _ hv ha).1 he)]
  · rw [if_neg he, if_neg (fun h => he ((hR _ _ _ _ hv ha).2 h)), h v v' hv]

/-- The step of both runs. -/
theorem Lock.step {M : Nm} {R : Rels} (hR : R.Ok) {m m1 m' : NM} (hl : Lock R m m') {x x' : Piece} (hx : PRel M R x x') (hpl : x.PlainName) {s : Str}
    (h : x.run m = some (s, m1))
    (hs : match x with | .func f _ => s = M.fn f | .bb b _ => s = M.bb b | .global v _ => s = M.glob v | .value v _ => s = M.val v | _ => True) :
    ∃ m1', x'.run m' = some (s, m1') ∧ Lock R m1 m1' := by
  cases hx with
  | lit => cases h; exact ⟨m', rfl, hl⟩
  | @func f f' c hr =>
    simp only at hs
    simp only [Piece.run, NM.funcName] at h ⊢
    rw [← hl.f f f' hr]
    split at h
    · rename_i n hn
      cases h
      exact ⟨m', by simp only [hn], hl⟩
    · rename_i hn
      split at h
      · cases h
      · rename_i n ns m2 hk
        cases h
        obtain ⟨rfl, h2⟩ := nextName_func hl.pre hl.pre' hpl hk
        rw [← hs]
        rw [hl.names] at h2
        simp only [hn, h2]
        exact ⟨_, rfl, hl.next, hl.scope, hl.pre, hl.pre', rfl, hl.bbNames, hl.g, insert_both hR.f hl.f hr _, hl.v, hl.b, hl.ents⟩
  | @bb f f' c hr =>
    simp only at hs
    simp only [Piece.run, NM.bbName] at h ⊢
    rw [← hl.b f f' hr]
    split at h
    · rename_i n hn
      cases h
      exact ⟨m', by simp only [hn], hl⟩
    · rename_i hn
      split at h
      · cases h
      · rename_i n ns m2 hk
        cases h
        obtain ⟨h1, h2⟩ := nextName_again hl.pre hl.pre' hl.next hpl hk
        rw [← hs]
        rw [hl.bbNames] at h2
        simp only [hn, h2]
        refine ⟨_, rfl, ?_⟩
        rw [h1]
        exact ⟨rfl, hl.scope, hl.pre, hl.pre', hl.names, rfl, hl.g, hl.f, hl.v, insert_both hR.b hl.b hr _, hl.ents⟩
  | @global f f' c hr =>
    simp only at hs
    simp only [Piece.run, NM.globalName] at h ⊢
    rw [← hl.g f f' hr]
    split at h
    · rename_i n hn
      cases h
      exact ⟨m', by simp only [hn], hl⟩
    · rename_i hn
      split at h
      · cases h
      · rename_i n ns m2 hk
        cases h
        obtain ⟨h1, h2⟩ := nextName_again hl.pre hl.pre' hl.next hpl hk
        rw [← hs]
        rw [hl.names] at h2
        simp only [hn, h2]
        refine ⟨_, rfl, ?_⟩
        rw [h1]
        exact ⟨rfl, hl.scope, hl.pre, hl.pre', rfl, hl.bbNames, insert_both hR.g hl.g hr _, hl.f, hl.v, hl.b, hl.ents⟩
  | @value f f' c hr =>
    simp only at hs
    simp only [Piece.run, NM.valueName] at h ⊢
    have e := hl.v f f' hr
    rw [← e]
    split at h
    · rename_i n hn
      cases h
      exact ⟨m', by simp only [hn], hl⟩
    · rename_i hn
      split at h
      · cases h
      · rename_i n ns m2 hk
        cases h
        obtain ⟨h1, h2⟩ := nextName_again hl.pre hl.pre' hl.next hpl hk
        rw [← hs]
        rw [hl.names] at h2
        simp only [hn, h2]
        refine ⟨_, rfl, ?_⟩
        rw [h1]
        refine ⟨rfl, hl.scope, hl.pre, hl.pre', rfl, hl.bbNames, hl.g, hl.f, insert_both hR.v hl.v hr _, hl.b, ?_⟩
        show List.map _ ((_, _) :: (m.values.erase f).entries) = List.map _ ((_, _) :: (m'.values.erase f').entries)
        rw [Map.erase_fresh hn, Map.erase_fresh (e ▸ hn), List.map_cons, List.map_cons, hl.ents]

/-- The names of the state are those of the naming. -/
structure NM.InNm (m : NM) (M : Nm) : Prop where
  fn : ∀ f s, m.names.ent (.func f) = some s → s = M.fn f
  glob : ∀ v s, m.names.ent (.global v) = some s → s = M.glob v
  val : ∀ v s, m.names.ent (.value v) = some s → s = M.val v
  bb : ∀ b s, m.names.bb b = some s → s = M.bb b

/-- Both runs of pieces in step. -/
theorem Lock.run {M : Nm} {R : Rels} (hR : R.Ok) : ∀ {ps ps' : List Piece} {m m1 m' : NM} {s : Str}, Lock R m m' → NInv [.default] m →
    All2 (PRel M R) ps ps' → (∀ x ∈ ps, x.PlainName ∧ x.Fine [.default] m.inFunc) → runPieces m ps = some (s, m1) → m1.InNm M →
    ∃ m1', runPieces m' ps' = some (s, m1') ∧ Lock R m1 m1'
  | [], _, m, m1, m', s, hl, _, .nil, _, h, _ => by cases h; exact ⟨m', rfl, hl⟩
  | x :: ps, _, m, m1, m', s, hl, hi, .cons (b := x') (bs := ps') hx hps, hp, h, hM => by
    rw [runPieces] at h
    split at h
    · cases h
    · rename_i s1 m2 h1
      obtain ⟨a1, a2, a3, a4⟩ := Piece.run_spec prefixes_koopa hi (hp x List.mem_cons_self).2 h1
      split at h
      · cases h
      · rename_i s2 m3 h2
        cases h
        have hp2 : ∀ y ∈ ps, y.PlainName ∧ y.Fine [.default] m2.inFunc := fun y hy => by rw [a2]; exact hp y (List.mem_cons_of_mem _ hy)
        obtain ⟨b1, b2, b3, b4⟩ := runPieces_spec prefixes_koopa a1 (fun y hy => (hp2 y hy).2) h2
        have a5 := Names.text_mono b3 a4
        obtain ⟨m2', c1, c2⟩ := hl.step hR hx (hp x List.mem_cons_self).1 h1 (by
          cases hx with
          | lit => trivial
          | func => exact hM.fn _ _ a5
          | bb => exact hM.bb _ _ a5
          | global => exact hM.glob _ _ a5
          | value => exact hM.val _ _ a5)
        obtain ⟨m3', d1, d2⟩ := Lock.run hR c2 a1 hps hp2 h2 hM
        refine ⟨m3', ?_, d2⟩
        rw [runPieces, c1]
        simp only [d1]

/-- The relations of another function. -/
theorem Lock.enter {R R' : Rels} (hg : R'.g = R.g) (hf : R'.f = R.f) {m m1 m' : NM} (hl : Lock R m m') (hb : ∀ v v', m.bbs.get? v = m'.bbs.get? v')
    (h : m.enter = some m1) : ∃ m1', m'.enter = some m1' ∧ Lock R' m1 m1' := by
  unfold NM.enter at h ⊢
  rw [← hl.scope]
  split at h
  · cases h
  · rename_i h0
    cases h
    rw [if_neg h0]
    exact ⟨_, rfl, hl.next, rfl, hl.pre, hl.pre', hl.names, hl.bbNames, by rw [hg]; exact hl.g, by rw [hf]; exact hl.f, fun _ _ _ => rfl,
      fun v v' _ => hb v v', rfl⟩

theorem Lock.exit {R : Rels} {m m1 m' : NM} (hl : Lock R m m') (h : m.exit = some m1) : ∃ m1', m'.exit = some m1' ∧ Lock R m1 m1' ∧
    ∀ v v', m1.bbs.get? v = m1'.bbs.get? v' := by
  unfold NM.exit at h ⊢
  rw [← hl.scope]
  split at h
  · rename_i h0
    cases h
    rw [if_pos h0]
    refine ⟨_, rfl, ⟨hl.next, rfl, hl.pre, hl.pre', ?_, rfl, hl.g, hl.f, hl.v, fun _ _ _ => rfl, hl.ents⟩, fun _ _ => rfl⟩
    show List.foldl _ _ _ = List.foldl _ _ _
    rw [hl.ents, hl.names]
  · cases h

end Koopa
