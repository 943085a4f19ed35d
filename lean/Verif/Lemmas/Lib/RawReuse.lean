import Verif.Lemmas.Lib.RawBuild
/-!
Building with a builder that was used before.
-/
namespace Koopa.Raw
open Spec

theorem fillUsers_none {used : Map Value (List Value)} {v : Value} (hu : used.get? v = none) :
    ∀ (vs : List Value) (b : Builder), v ∈ vs → fillUsers used vs b = none
  | [], _, h => by simp at h
  | w :: vs, b, h => by
    unfold fillUsers
    split
    · rfl
    · rename_i us hus
      have hv : v ∈ vs := by
        rcases List.mem_cons.1 h with rfl | h
        · rw [hu] at hus; cases hus
        · exact h
      split
      · split
        · exact fillUsers_none hu vs _ hv
        · rfl
      · rfl

/-- The handle is a block of the program. -/
def IsBlock (p : Program) (k : BB) : Prop := ∃ f fd, p.funcs.get? f = some fd ∧ fd.dfg.bbs.get? k ≠ none

/-- Two states of builders that agree on the program. -/
structure Agree (p : Program) (s0 s : BSt) : Prop where
  vals : s.b.vals = s0.b.vals
  used : s.used = s0.used
  funcs : ∀ f, p.funcs.get? f ≠ none → s.b.funcs.get? f = s0.b.funcs.get? f
  bbs : ∀ k, IsBlock p k → s.b.bbs.get? k = s0.b.bbs.get? k
  ownF : ∀ f, s0.b.funcs.get? f ≠ none → p.funcs.get? f ≠ none
  ownB : ∀ k, s0.b.bbs.get? k ≠ none → IsBlock p k

theorem buildAll_agree {p : Program} {one : Item → BSt → Option BSt}
    (ho : ∀ i s0 s s0', Agree p s0 s → one i s0 = some s0' → ∃ s', one i s = some s' ∧ Agree p s0' s') :
    ∀ (is : List Item) (s0 s s0' : BSt), Agree p s0 s → buildAll one is s0 = some s0' →
      ∃ s', buildAll one is s = some s' ∧ Agree p s0' s'
  | [], s0, s, s0', ha, h => by simp only [buildAll, Option.some.injEq] at h; subst h; exact ⟨s, rfl, ha⟩
  | i :: is, s0, s, s0', ha, h => by
    unfold buildAll at h ⊢
    split at h
    · cases h
    · rename_i s1 h1
      obtain ⟨s2, h2, ha2⟩ := ho i s0 s s1 ha h1
      rw [h2]
      exact buildAll_agree ho is s1 s2 s0' ha2 h

theorem build_agree (p : Program) : ∀ (n : Nat) (cur : Option FData) (i : Item) (s0 s s0' : BSt),
    (∀ fd, cur = some fd → ∃ f, p.funcs.get? f = some fd) → Agree p s0 s →
    build p n cur i s0 = some s0' → ∃ s', build p n cur i s = some s' ∧ Agree p s0' s'
  | 0, _, _, _, _, _, _, _, h => by simp [build] at h
  | n + 1, cur, .val v, s0, s, s0', hc, ha, h => by
    unfold build at h ⊢
    rw [ha.vals]
    split at h
    · rename_i hh
      rw [if_pos hh]
      cases h
      exact ⟨_, rfl, ha⟩
    · rename_i hn
      rw [if_neg hn]
      dsimp only at h ⊢
      split at h
      · cases h
      · rename_i x hx
        split at h
        · cases h
        · rename_i name hname
          split at h
          · cases h
          · rename_i s2 h2
            obtain ⟨s3, h3, ha3⟩ := buildAll_agree (fun i s0 s s0' ha h => build_agree p n cur i s0 s s0' hc ha h)
              _ _ { s with b := { s.b with vals := s0.b.vals.insert v none } } _
              (by exact ⟨rfl, ha.used, ha.funcs, ha.bbs, ha.ownF, ha.ownB⟩) h2
            simp only [h3]
            cases h
            exact ⟨_, rfl, by rw [ha3.vals], by rw [ha3.used], ha3.funcs, ha3.bbs, ha3.ownF, ha3.ownB⟩
  | n + 1, cur, .bb b, s0, s, s0', hc, ha, h => by
    unfold build at h ⊢
    split at h
    · rename_i hh
      have : IsBlock p b := ha.ownB b (by intro e; simp [Map.contains, e] at hh)
      have e : s.b.bbs.contains b = true := by
        unfold Map.contains at hh ⊢; rw [ha.bbs b this]; exact hh
      rw [if_pos e]
      cases h
      exact ⟨_, rfl, ha⟩
    · rename_i hn
      dsimp only at h ⊢
      split at h
      · cases h
      · rename_i fd
        obtain ⟨f, hf⟩ := hc fd rfl
        split at h
        · cases h
        · rename_i x hx
          have hb : IsBlock p b := ⟨f, fd, hf, by simp [hx]⟩
          have e : ¬ s.b.bbs.contains b = true := by
            unfold Map.contains at hn ⊢; rw [ha.bbs b hb]; exact hn
          rw [if_neg e]
          split at h
          · cases h
          · rename_i name hname
            split at h
            · cases h
            · rename_i s2 h2
              split at h
              · cases h
              · rename_i is his
                split at h
                · cases h
                · rename_i s3 h3
                  have hs := (fun i s0 s s0' ha h => build_agree p n (some fd) i s0 s s0' hc ha h)
                  obtain ⟨t2, g2, ha2⟩ := buildAll_agree hs _ _
                    { s with b := { s.b with bbs := s.b.bbs.insert b none } } _
                    (by exact ⟨ha.vals, ha.used, ha.funcs,
                      fun k hk => by simp only [Map.get?_insert]; split; rfl; exact ha.bbs k hk, ha.ownF,
                      fun k hk => by
                        simp only [Map.get?_insert] at hk
                        split at hk
                        · rename_i e; subst e; exact hb
                        · exact ha.ownB k hk⟩) h2
                  obtain ⟨t3, g3, ha3⟩ := buildAll_agree hs _ _ _ _ ha2 h3
                  simp only [g2, g3]
                  cases h
                  exact ⟨_, rfl, ha3.vals, ha3.used, ha3.funcs,
                    fun k hk => by simp only [Map.get?_insert]; split; rfl; exact ha3.bbs k hk, ha3.ownF,
                    fun k hk => by
                        simp only [Map.get?_insert] at hk
                        split at hk
                        · rename_i e; subst e; exact hb
                        · exact ha3.ownB k hk⟩
  | n + 1, cur, .func f, s0, s, s0', hc, ha, h => by
    unfold build at h ⊢
    split at h
    · rename_i hh
      have hf : p.funcs.get? f ≠ none := ha.ownF f (by intro e; simp [Map.contains, e] at hh)
      have e : s.b.funcs.contains f = true := by
        unfold Map.contains at hh ⊢; rw [ha.funcs f hf]; exact hh
      rw [if_pos e]
      cases h
      exact ⟨_, rfl, ha⟩
    · rename_i hn
      dsimp only at h ⊢
      split at h
      · cases h
      · rename_i fd hf
        have hf' : p.funcs.get? f ≠ none := by simp [hf]
        have e : ¬ s.b.funcs.contains f = true := by
          unfold Map.contains at hn ⊢; rw [ha.funcs f hf']; exact hn
        rw [if_neg e]
        split at h
        · cases h
        · rename_i name hname
          split at h
          · cases h
          · rename_i s2 h2
            obtain ⟨t2, g2, ha2⟩ := buildAll_agree (fun i s0 s s0' ha h => build_agree p n (some fd) i s0 s s0'
                (fun fd' e => by cases e; exact ⟨f, hf⟩) ha h) _ _
              { s with b := { s.b with funcs := s.b.funcs.insert f none } } _
              (by exact ⟨ha.vals, ha.used,
                fun k hk => by simp only [Map.get?_insert]; split; rfl; exact ha.funcs k hk, ha.bbs,
                fun k hk => by
                  simp only [Map.get?_insert] at hk
                  split at hk
                  · rename_i e; subst e; exact hf'
                  · exact ha.ownF k hk, ha.ownB⟩) h2
            simp only [g2, hf, hname]
            cases h
            exact ⟨_, rfl, ha2.vals, ha2.used,
              fun k hk => by simp only [Map.get?_insert]; split; rfl; exact ha2.funcs k hk, ha2.bbs,
              fun k hk => by
                  simp only [Map.get?_insert] at hk
                  split at hk
                  · rename_i e; subst e; exact hf'
                  · exact ha2.ownF k hk, ha2.ownB⟩

/-- The users are filled in whatever the functions and blocks are. -/
theorem fillUsers_congr {used : Map Value (List Value)} : ∀ (vs : List Value) (a b a' : Builder),
    a.vals = b.vals → fillUsers used vs a = some a' →
    ∃ b', fillUsers used vs b = some b' ∧ b'.vals = a'.vals ∧ a'.funcs = a.funcs ∧ a'.bbs = a.bbs ∧
      b'.funcs = b.funcs ∧ b'.bbs = b.bbs
  | [], a, b, a', e, h => by
    simp only [fillUsers, Option.some.injEq] at h; subst h
    exact ⟨b, rfl, e.symm, rfl, rfl, rfl, rfl⟩
  | v :: vs, a, b, a', e, h => by
    unfold fillUsers at h ⊢
    split at h
    · cases h
    · rename_i us hus
      rw [← e]
      split at h
      · rename_i hall
        rw [if_pos hall]
        split at h
        · rename_i r hr
          obtain ⟨b', h1, h2, h3, h4, h5, h6⟩ := fillUsers_congr vs _
            { b with vals := a.vals.insert v (some { r with usedBy := .of .value us }) } _ (by exact rfl) h
          exact ⟨b', h1, h2, h3, h4, h5, h6⟩
        · cases h
      · cases h

end Koopa.Raw
