import Verif.Model.Lib.Raw
import Verif.Spec.Uses
/-!
What the builder of raw programs leaves in its boxes.
-/
namespace Koopa.Raw
open Spec

/-- The item has a box. -/
def BSt.Has (s : BSt) : Item → Prop
  | .val v => (s.b.vals.get? v).isSome
  | .bb b => (s.b.bbs.get? b).isSome
  | .func f => (s.b.funcs.get? f).isSome

/-- The handle `v` denotes a value with data `x`. -/
def ValOf (p : Program) (v : Value) (x : VData) : Prop :=
  (isGlobal v = true ∧ GlobalVal p v x) ∨ (isGlobal v = false ∧ ∃ f, LocalVal p f v x)

/-- The box of `v` is filled correctly. -/
def ValDone (p : Program) (s : BSt) (v : Value) (r : Option RVal) : Prop :=
  ∃ x n, ValOf p v x ∧ cstr x.name = some n ∧
    r = some { ty := x.ty, name := n, usedBy := .default, kind := .of x.kind } ∧
    s.used.get? v = some x.usedBy ∧ ∀ i ∈ kindItems x.kind, s.Has i

/-- The box of `b` is filled correctly. -/
def BlockDone (p : Program) (s : BSt) (b : BB) (r : Option RBlock) : Prop :=
  ∃ f fd x is n, p.funcs.get? f = some fd ∧ fd.dfg.bbs.get? b = some x ∧ fd.layout.insts? b = some is ∧
    cstr x.name = some n ∧
    r = some { name := n, params := .of .value x.params, usedBy := .of .value x.usedBy, insts := .of .value is } ∧
    (∀ v ∈ x.params, s.Has (.val v)) ∧ (∀ v ∈ x.usedBy, s.Has (.val v)) ∧ ∀ v ∈ is, s.Has (.val v)

/-- The box of `f` is filled correctly. -/
def FuncDone (p : Program) (s : BSt) (f : Func) (r : Option RFunc) : Prop :=
  ∃ fd n, p.funcs.get? f = some fd ∧ cstr (some fd.name) = some n ∧
    r = some { ty := fd.ty, name := n, params := .of .value fd.params,
               bbs := .of .basicBlock (fd.layout.bbs.map (·.1)) } ∧
    (∀ v ∈ fd.params, s.Has (.val v)) ∧ ∀ b ∈ fd.layout.bbs.map (·.1), s.Has (.bb b)

/-- What building does: boxes stay, and the boxes that are added are filled correctly. -/
structure BStep (p : Program) (s s' : BSt) : Prop where
  vals : ∀ v r, s.b.vals.get? v = some r → s'.b.vals.get? v = some r
  bbs : ∀ v r, s.b.bbs.get? v = some r → s'.b.bbs.get? v = some r
  funcs : ∀ v r, s.b.funcs.get? v = some r → s'.b.funcs.get? v = some r
  used : ∀ v r, s.b.vals.get? v = some r → s'.used.get? v = s.used.get? v
  newV : ∀ v r, s.b.vals.get? v = none → s'.b.vals.get? v = some r → ValDone p s' v r
  newB : ∀ b r, s.b.bbs.get? b = none → s'.b.bbs.get? b = some r → BlockDone p s' b r
  newF : ∀ f r, s.b.funcs.get? f = none → s'.b.funcs.get? f = some r → FuncDone p s' f r

theorem BStep.has {p : Program} {s s' : BSt} (h : BStep p s s') {i : Item} (hi : s.Has i) : s'.Has i := by
  cases i <;> simp only [BSt.Has, Option.isSome_iff_exists] at hi ⊢ <;> obtain ⟨r, hr⟩ := hi
  · exact ⟨r, h.vals _ _ hr⟩
  · exact ⟨r, h.bbs _ _ hr⟩
  · exact ⟨r, h.funcs _ _ hr⟩

theorem BStep.refl (p : Program) (s : BSt) : BStep p s s := by
  constructor <;> intros <;> simp_all

theorem ValDone.mono {p : Program} {s s' : BSt} {v : Value} {r : Option RVal} (h : ValDone p s v r)
    (hh : ∀ i, s.Has i → s'.Has i) (hu : s'.used.get? v = s.used.get? v) : ValDone p s' v r := by
  obtain ⟨x, n, h1, h2, h3, h4, h5⟩ := h
  exact ⟨x, n, h1, h2, h3, hu.trans h4, fun i hi => hh _ (h5 i hi)⟩

theorem BlockDone.mono {p : Program} {s s' : BSt} {b : BB} {r : Option RBlock} (h : BlockDone p s b r)
    (hh : ∀ i, s.Has i → s'.Has i) : BlockDone p s' b r := by
  obtain ⟨f, fd, x, is, n, h1, h2, h3, h4, h5, h6, h7, h8⟩ := h
  exact ⟨f, fd, x, is, n, h1, h2, h3, h4, h5, fun v hv => hh _ (h6 v hv), fun v hv => hh _ (h7 v hv),
    fun v hv => hh _ (h8 v hv)⟩

theorem FuncDone.mono {p : Program} {s s' : BSt} {f : Func} {r : Option RFunc} (h : FuncDone p s f r)
    (hh : ∀ i, s.Has i → s'.Has i) : FuncDone p s' f r := by
  obtain ⟨fd, n, h1, h2, h3, h4, h5⟩ := h
  exact ⟨fd, n, h1, h2, h3, fun v hv => hh _ (h4 v hv), fun v hv => hh _ (h5 v hv)⟩

theorem BStep.trans {p : Program} {a b c : BSt} (h : BStep p a b) (k : BStep p b c) : BStep p a c where
  vals v r hr := k.vals _ _ (h.vals v r hr)
  bbs v r hr := k.bbs _ _ (h.bbs v r hr)
  funcs v r hr := k.funcs _ _ (h.funcs v r hr)
  used v r hr := by rw [k.used _ _ (h.vals v r hr), h.used v r hr]
  newV v r hn hr := by
    cases hb : b.b.vals.get? v with
    | none => exact k.newV v r hb hr
    | some r' =>
      have := k.vals v r' hb
      rw [hr] at this; cases this
      exact (h.newV v r hn hb).mono (fun _ hi => k.has hi) (k.used _ _ hb)
  newB v r hn hr := by
    cases hb : b.b.bbs.get? v with
    | none => exact k.newB v r hb hr
    | some r' =>
      have := k.bbs v r' hb
      rw [hr] at this; cases this
      exact (h.newB v r hn hb).mono (fun _ hi => k.has hi)
  newF v r hn hr := by
    cases hb : b.b.funcs.get? v with
    | none => exact k.newF v r hb hr
    | some r' =>
      have := k.funcs v r' hb
      rw [hr] at this; cases this
      exact (h.newF v r hn hb).mono (fun _ hi => k.has hi)

theorem buildAll_step {p : Program} {one : Item → BSt → Option BSt}
    (ho : ∀ i s s', one i s = some s' → BStep p s s' ∧ s'.Has i) :
    ∀ (is : List Item) (s s' : BSt), buildAll one is s = some s' → BStep p s s' ∧ ∀ i ∈ is, s'.Has i
  | [], s, s', h => by simp only [buildAll, Option.some.injEq] at h; subst h; exact ⟨.refl .., by simp⟩
  | i :: is, s, s', h => by
    unfold buildAll at h
    split at h
    · cases h
    · rename_i s1 h1
      obtain ⟨a, b⟩ := ho i s s1 h1
      obtain ⟨c, d⟩ := buildAll_step ho is s1 s' h
      refine ⟨a.trans c, ?_⟩
      intro j hj
      rcases List.mem_cons.1 hj with rfl | hj
      · exact c.has b
      · exact d j hj

theorem valueData_of {p : Program} {cur : Option FData} {v : Value} {x : VData}
    (hc : ∀ fd, cur = some fd → ∃ f, p.funcs.get? f = some fd) (h : valueData p cur v = some x) :
    ValOf p v x := by
  unfold valueData at h
  split at h
  · rename_i hg; exact .inl ⟨hg, h⟩
  · rename_i hg
    simp only [Option.bind_eq_some_iff] at h
    obtain ⟨fd, rfl, h⟩ := h
    obtain ⟨f, hf⟩ := hc fd rfl
    exact .inr ⟨by simpa using hg, f, fd, hf, h⟩

theorem contains_iff {κ ν : Type} [DecidableEq κ] {m : Map κ ν} {k : κ} :
    m.contains k = true ↔ (m.get? k).isSome := Iff.rfl

/-- Building an item. -/
theorem build_step (p : Program) : ∀ (n : Nat) (cur : Option FData) (i : Item) (s s' : BSt),
    (∀ fd, cur = some fd → ∃ f, p.funcs.get? f = some fd) →
    build p n cur i s = some s' → BStep p s s' ∧ s'.Has i
  | 0, _, _, _, _, _, h => by simp [build] at h
  | n + 1, cur, .val v, s, s', hc, h => by
    unfold build at h
    split at h
    · rename_i hh
      cases h
      exact ⟨.refl .., hh⟩
    · rename_i hn
      have hn : s.b.vals.get? v = none := by simpa [Map.contains] using hn
      dsimp only at h
      split at h
      · cases h
      · rename_i x hx
        split at h
        · cases h
        · rename_i name hname
          split at h
          · cases h
          · rename_i s2 h2
            obtain ⟨k, hk⟩ := buildAll_step (fun i s s' h => build_step p n cur i s s' hc h) _ _ _ h2
            cases h
            have has : ∀ i, s2.Has i → BSt.Has
                { b := { s2.b with vals := s2.b.vals.insert v (some { ty := x.ty, name, usedBy := .default, kind := .of x.kind }) }
                  used := s2.used.insert v x.usedBy } i := by
              intro i hi
              cases i with
              | val w =>
                simp only [BSt.Has, Map.get?_insert] at hi ⊢
                split
                · rfl
                · exact hi
              | bb w => exact hi
              | func w => exact hi
            refine ⟨⟨?_, ?_, ?_, ?_, ?_, ?_, ?_⟩, ?_⟩
            · intro w r hr
              have hw : w ≠ v := by rintro rfl; rw [hn] at hr; cases hr
              rw [Map.get?_insert_ne _ _ hw]
              exact k.vals w r (by simp only [Map.get?_insert_ne _ _ hw]; exact hr)
            · intro w r hr; exact k.bbs w r hr
            · intro w r hr; exact k.funcs w r hr
            · intro w r hr
              have hw : w ≠ v := by rintro rfl; rw [hn] at hr; cases hr
              rw [Map.get?_insert_ne _ _ hw]
              exact k.used w r (by simp only [Map.get?_insert_ne _ _ hw]; exact hr)
            · intro w r hr hr'
              by_cases hw : w = v
              · subst hw
                rw [Map.get?_insert_self] at hr'
                cases hr'
                exact ⟨x, name, valueData_of hc hx, hname, rfl, Map.get?_insert_self .., fun i hi => has i (hk i hi)⟩
              · rw [Map.get?_insert_ne _ _ hw] at hr'
                exact (k.newV w r (by simp only [Map.get?_insert_ne _ _ hw]; exact hr) hr').mono has
                  (Map.get?_insert_ne _ _ hw)
            · intro w r hr hr'; exact (k.newB w r hr hr').mono has
            · intro w r hr hr'; exact (k.newF w r hr hr').mono has
            · simp [BSt.Has]
  | n + 1, cur, .bb b, s, s', hc, h => by
    unfold build at h
    split at h
    · rename_i hh
      cases h
      exact ⟨.refl .., hh⟩
    · rename_i hn
      have hn : s.b.bbs.get? b = none := by simpa [Map.contains] using hn
      dsimp only at h
      split at h
      · cases h
      · rename_i fd
        obtain ⟨f, hf⟩ := hc fd rfl
        split at h
        · cases h
        · rename_i x hx
          split at h
          · cases h
          · rename_i name hname
            split at h
            · cases h
            · rename_i s2 h2
              split at h
              · cases h
              · rename_i is his
                split at h
                · cases h
                · rename_i s3 h3
                  obtain ⟨k1, hk1⟩ := buildAll_step (fun i s s' h => build_step p n (some fd) i s s' hc h) _ _ _ h2
                  obtain ⟨k2, hk2⟩ := buildAll_step (fun i s s' h => build_step p n (some fd) i s s' hc h) _ _ _ h3
                  have k := k1.trans k2
                  cases h
                  have has : ∀ i, s3.Has i → BSt.Has { s3 with b := { s3.b with bbs := s3.b.bbs.insert b (some
                      { name, params := .of .value x.params, usedBy := .of .value x.usedBy, insts := .of .value is }) } } i := by
                    intro i hi
                    cases i with
                    | bb w =>
                      simp only [BSt.Has, Map.get?_insert] at hi ⊢
                      split
                      · rfl
                      · exact hi
                    | val w => exact hi
                    | func w => exact hi
                  refine ⟨⟨?_, ?_, ?_, ?_, ?_, ?_, ?_⟩, ?_⟩
                  · intro w r hr; exact k.vals w r hr
                  · intro w r hr
                    have hw : w ≠ b := by rintro rfl; rw [hn] at hr; cases hr
                    rw [Map.get?_insert_ne _ _ hw]
                    exact k.bbs w r (by simp only [Map.get?_insert_ne _ _ hw]; exact hr)
                  · intro w r hr; exact k.funcs w r hr
                  · intro w r hr; exact k.used w r hr
                  · intro w r hr hr'; exact (k.newV w r hr hr').mono has rfl
                  · intro w r hr hr'
                    by_cases hw : w = b
                    · subst hw
                      rw [Map.get?_insert_self] at hr'
                      cases hr'
                      refine ⟨f, fd, x, is, name, hf, hx, his, hname, rfl, fun v hv => ?_, fun v hv => ?_, fun v hv => ?_⟩
                      · exact has _ (k2.has (hk1 _ (by simp [hv])))
                      · exact has _ (k2.has (hk1 _ (by simp [hv])))
                      · exact has _ (hk2 _ (by simp [hv]))
                    · rw [Map.get?_insert_ne _ _ hw] at hr'
                      exact (k.newB w r (by simp only [Map.get?_insert_ne _ _ hw]; exact hr) hr').mono has
                  · intro w r hr hr'; exact (k.newF w r hr hr').mono has
                  · simp [BSt.Has]
  | n + 1, cur, .func f, s, s', hc, h => by
    unfold build at h
    split at h
    · rename_i hh
      cases h
      exact ⟨.refl .., hh⟩
    · rename_i hn
      have hn : s.b.funcs.get? f = none := by simpa [Map.contains] using hn
      dsimp only at h
      split at h
      · cases h
      · rename_i fd hf
        split at h
        · cases h
        · rename_i name hname
          split at h
          · cases h
          · rename_i s2 h2
            obtain ⟨k, hk⟩ := buildAll_step (fun i s s' h => build_step p n (some fd) i s s'
              (fun fd' e => by cases e; exact ⟨f, hf⟩) h) _ _ _ h2
            cases h
            have has : ∀ i, s2.Has i → BSt.Has { s2 with b := { s2.b with funcs := s2.b.funcs.insert f (some
                { ty := fd.ty, name, params := .of .value fd.params, bbs := .of .basicBlock (fd.layout.bbs.map (·.1)) }) } } i := by
              intro i hi
              cases i with
              | func w =>
                simp only [BSt.Has, Map.get?_insert] at hi ⊢
                split
                · rfl
                · exact hi
              | val w => exact hi
              | bb w => exact hi
            refine ⟨⟨?_, ?_, ?_, ?_, ?_, ?_, ?_⟩, ?_⟩
            · intro w r hr; exact k.vals w r hr
            · intro w r hr; exact k.bbs w r hr
            · intro w r hr
              have hw : w ≠ f := by rintro rfl; rw [hn] at hr; cases hr
              rw [Map.get?_insert_ne _ _ hw]
              exact k.funcs w r (by simp only [Map.get?_insert_ne _ _ hw]; exact hr)
            · intro w r hr; exact k.used w r hr
            · intro w r hr hr'; exact (k.newV w r hr hr').mono has rfl
            · intro w r hr hr'; exact (k.newB w r hr hr').mono has
            · intro w r hr hr'
              by_cases hw : w = f
              · subst hw
                rw [Map.get?_insert_self] at hr'
                cases hr'
                refine ⟨fd, name, hf, hname, rfl, fun v hv => ?_, fun v hv => ?_⟩
                · exact has _ (hk _ (by simp [hv]))
                · refine has _ (hk _ ?_)
                  obtain ⟨q, hq, rfl⟩ := List.mem_map.1 hv
                  exact List.mem_append_right _ (List.mem_map.2 ⟨q, hq, rfl⟩)
              · rw [Map.get?_insert_ne _ _ hw] at hr'
                exact (k.newF w r (by simp only [Map.get?_insert_ne _ _ hw]; exact hr) hr').mono has
            · simp [BSt.Has]

end Koopa.Raw
