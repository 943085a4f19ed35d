import Verif.Lemmas.Lib.RawBuild
import Verif.Lemmas.Front.BuildTotal
import Verif.Spec.Raw
/-!
The builder of raw programs succeeds on convertible programs.
-/
namespace Koopa.Raw
open Spec

theorem mem_kindItems {k : VKind} {i : Item} (h : i ∈ kindItems k) :
    (∃ v, i = .val v ∧ v ∈ operands k) ∨ (∃ b, i = .bb b ∧ b ∈ targets k) ∨ ∃ g as, i = .func g ∧ k = .call g as := by
  cases k with
  | ret v => cases v <;> simp_all [kindItems, operands]
  | _ => simp_all [kindItems, operands, targets] <;> grind

theorem operand_mem {k : VKind} {v : Value} (h : v ∈ operands k) : Item.val v ∈ kindItems k := by
  cases k with
  | ret v => cases v <;> simp_all [kindItems, operands]
  | _ => simp_all [kindItems, operands]

theorem target_mem {k : VKind} {b : BB} (h : b ∈ targets k) : Item.bb b ∈ kindItems k := by
  cases k <;> simp_all [kindItems, targets]

section
variable {p : Program}

theorem _root_.Koopa.Spec.Convertible.liveG (hc : Convertible p) {v : Value} (h : Used p none v) : ∃ x, GlobalVal p v x := by
  generalize ho : (none : Option Func) = o at h
  induction h with
  | listed h => obtain ⟨x, _, h, _⟩ := hc.insts _ h; exact ⟨x, h⟩
  | init hu hx hv ih =>
    obtain ⟨t, y, hy, _⟩ := (hc.typed.globals _ _ hx).live.1 _ hv
    exact ⟨y, hy⟩
  | _ => cases ho

theorem _root_.Koopa.Spec.Convertible.liveL (hc : Convertible p) {f : Func} {v : Value} (h : Used p (some f) v) :
    ∃ x, LocalVal p f v x := by
  generalize ho : some f = o at h
  induction h with
  | listed h => cases ho
  | init hu hx hv ih => cases ho
  | arg hf hv =>
    cases ho
    obtain ⟨ts, r, -, -, -, -, h⟩ := hc.funcTy _ _ hf
    obtain ⟨i, hi⟩ := List.mem_iff_getElem?.1 hv
    obtain ⟨x, hx, _⟩ := h i _ hi
    exact ⟨x, hx⟩
  | param hf hb hx hv =>
    cases ho
    obtain ⟨y, hy, h⟩ := hc.blockData _ _ _ hf hb
    rw [hx] at hy; cases hy
    obtain ⟨i, hi⟩ := List.mem_iff_getElem?.1 hv
    obtain ⟨x, hx, _⟩ := h i _ hi
    exact ⟨x, hx⟩
  | inst hf hb hv => cases ho; exact hc.instData _ _ _ _ _ hf hb hv
  | operand _ _ _ hy => cases ho; exact ⟨_, hy⟩

/-- The operands of a used value are used. -/
theorem _root_.Koopa.Spec.Convertible.opUsed (hc : Convertible p) {f : Func} {u v : Value} {x : VData} (hu : Used p (some f) u)
    (hx : LocalVal p f u x) (hv : v ∈ operands x.kind) :
    (isGlobal v = true ∧ Used p none v) ∨ (isGlobal v = false ∧ Used p (some f) v) := by
  obtain ⟨t, y, hy | hy, _⟩ := (hc.typed.locals _ _ _ hx).live.1 _ hv
  · exact .inl ⟨hc.globalId _ _ hy, hc.globalOps _ _ _ _ _ hu hx hv hy⟩
  · exact .inr ⟨hc.localId _ _ _ hy, .operand hu hx hv hy⟩

theorem _root_.Koopa.Spec.Convertible.callLive (hc : Convertible p) {f : Func} {u : Value} {x : VData} {g : Func} {as : List Value}
    (hx : LocalVal p f u x) (hk : x.kind = .call g as) : (p.funcs.get? g).isSome := by
  have := hc.typed.locals _ _ _ hx
  rw [hk] at this
  cases this with
  | call hg _ => obtain ⟨fd, hf, _⟩ := hg; simp [hf]

/-- What the builder gets to see in function `cur`. -/
def Reached (p : Program) (cur : Option FData) : Item → Prop
  | .val v => (isGlobal v = true ∧ Used p none v) ∨
      (isGlobal v = false ∧ ∃ f fd, cur = some fd ∧ p.funcs.get? f = some fd ∧ Used p (some f) v)
  | .bb b => ∃ f fd, cur = some fd ∧ p.funcs.get? f = some fd ∧ b ∈ fd.layout.bbs.map (·.1)
  | .func f => (p.funcs.get? f).isSome

theorem valueData_reached (hc : Convertible p) {cur : Option FData} {v : Value} (h : Reached p cur (.val v)) :
    ∃ x, valueData p cur v = some x ∧ GoodName x.name ∧ ∀ i ∈ kindItems x.kind, Reached p cur i := by
  rcases h with ⟨hg, hu⟩ | ⟨hl, f, fd, rfl, hf, hu⟩
  · obtain ⟨x, hx⟩ := hc.liveG hu
    refine ⟨x, by rw [valueData, if_pos hg]; exact hx, hc.globalNames _ _ hx hu, fun i hi => ?_⟩
    rcases mem_kindItems hi with ⟨w, rfl, hw⟩ | ⟨b, rfl, hb⟩ | ⟨g, as, rfl, hk⟩
    · have := Used.init hu hx hw
      obtain ⟨y, hy⟩ := hc.liveG this
      exact .inl ⟨hc.globalId _ _ hy, this⟩
    · have := hc.globalKind _ _ hu hx
      rcases this with ⟨n, e⟩ | e | e | ⟨es, e⟩ | ⟨i, e⟩ <;> simp [e, targets] at hb
    · have := hc.globalKind _ _ hu hx
      rcases this with ⟨n, e⟩ | e | e | ⟨es, e⟩ | ⟨i, e⟩ <;> simp [e] at hk
  · obtain ⟨x, hx⟩ := hc.liveL hu
    have hx' := hx
    obtain ⟨fd', hf', hx'⟩ := hx'
    rw [hf] at hf'; cases hf'
    refine ⟨x, by rw [valueData, if_neg (by simp [hl])]; exact hx', hc.names _ _ _ hx hu, fun i hi => ?_⟩
    rcases mem_kindItems hi with ⟨w, rfl, hw⟩ | ⟨b, rfl, hb⟩ | ⟨g, as, rfl, hk⟩
    · rcases hc.opUsed hu hx hw with h | ⟨h, h'⟩
      · exact .inl h
      · exact .inr ⟨h, f, fd, rfl, hf, h'⟩
    · exact ⟨f, fd, rfl, hf, hc.targets _ _ _ _ _ hf hu hx hb⟩
    · exact hc.callLive hx hk

theorem cstr_good {n : Option Str} (h : GoodName n) : cstr n = some n := by
  cases n with
  | none => rfl
  | some s => exact if_neg (h s rfl).2

theorem valid_good {n : Option Str} (h : GoodName n) : validOptName n = true := by
  cases n with
  | none => rfl
  | some s =>
    obtain ⟨⟨c, r, rfl, hc, hr⟩, -⟩ := h s rfl
    cases r with
    | nil => exact absurd rfl hr
    | cons d r => rcases hc with rfl | rfl <;> rfl

/-- Everything there is to build. -/
def univ (p : Program) : List Item :=
  p.values.keys.map .val ++ p.funcs.keys.map .func ++
    p.funcs.entries.flatMap (fun q => q.2.dfg.values.keys.map .val ++ q.2.dfg.bbs.keys.map .bb)

theorem mem_univ (hc : Convertible p) {cur : Option FData} {i : Item} (h : Reached p cur i) : i ∈ univ p := by
  unfold univ
  simp only [List.mem_append, List.mem_map, List.mem_flatMap]
  cases i with
  | val v =>
    rcases h with ⟨_, hu⟩ | ⟨_, f, fd, rfl, hf, hu⟩
    · obtain ⟨x, hx⟩ := hc.liveG hu
      exact .inl (.inl ⟨v, by rw [Map.mem_keys_iff, show p.values.get? v = some x from hx]; rfl, rfl⟩)
    · obtain ⟨x, fd', hf', hx⟩ := hc.liveL hu
      exact .inr ⟨(f, fd'), Map.mem_of_lookup hf', .inl ⟨v, by rw [Map.mem_keys_iff, hx]; rfl, rfl⟩⟩
  | bb b =>
    obtain ⟨f, fd, rfl, hf, hb⟩ := h
    obtain ⟨x, hx, _⟩ := hc.blockData _ _ _ hf hb
    exact .inr ⟨(f, fd), Map.mem_of_lookup hf, .inr ⟨b, by rw [Map.mem_keys_iff, hx]; rfl, rfl⟩⟩
  | func f => exact .inl (.inr ⟨f, by rw [Map.mem_keys_iff]; exact h, rfl⟩)

/-- `BSt.Has` as a test. -/
def BSt.hasB (s : BSt) : Item → Bool
  | .val v => (s.b.vals.get? v).isSome
  | .bb b => (s.b.bbs.get? b).isSome
  | .func f => (s.b.funcs.get? f).isSome

theorem BSt.has_iff {s : BSt} {i : Item} : s.Has i ↔ s.hasB i = true := by cases i <;> exact Iff.rfl

/-- The number of things that are not built yet. -/
def pend (p : Program) (s : BSt) : Nat := (univ p).countP (fun i => !s.hasB i)

theorem pend_mono {s s' : BSt} (h : ∀ i, s.Has i → s'.Has i) : pend p s' ≤ pend p s := by
  unfold pend
  apply List.countP_mono_left
  intro i _ hi
  have := h i
  rw [BSt.has_iff, BSt.has_iff] at this
  cases hs : s.hasB i <;> simp_all

theorem countP_lt {α : Type} {P Q : α → Bool} {a : α} : ∀ {l : List α}, (∀ x ∈ l, P x = true → Q x = true) → a ∈ l →
    P a = false → Q a = true → l.countP P < l.countP Q
  | [], _, h, _, _ => by simp at h
  | x :: l, hi, ha, hp, hq => by
    rw [List.countP_cons, List.countP_cons]
    have hmono : l.countP P ≤ l.countP Q := List.countP_mono_left (fun y hy => hi y (by simp [hy]))
    rcases List.mem_cons.1 ha with rfl | ha
    · rw [hp, hq]; simp; omega
    · have := countP_lt (fun y hy => hi y (by simp [hy])) ha hp hq
      have hx := hi x (by simp)
      cases hpx : P x <;> cases hqx : Q x <;> simp_all <;> omega

theorem pend_lt {s s' : BSt} (h : ∀ i, s.Has i → s'.Has i) {i : Item} (hi : i ∈ univ p) (hn : ¬ s.Has i) (hs : s'.Has i) :
    pend p s' < pend p s := by
  unfold pend
  apply countP_lt (a := i) _ hi
  · rw [BSt.has_iff] at hs; simp [hs]
  · rw [BSt.has_iff] at hn; simpa using hn
  · intro j _ hj
    have := h j
    rw [BSt.has_iff, BSt.has_iff] at this
    cases hs : s.hasB j <;> simp_all

theorem buildAll_total {one : Item → BSt → Option BSt} {n : Nat}
    (hs : ∀ i s s', one i s = some s' → BStep p s s' ∧ s'.Has i) : ∀ (is : List Item) (s : BSt),
    (∀ i ∈ is, ∀ s, pend p s < n → ∃ s', one i s = some s') → pend p s < n → ∃ s', buildAll one is s = some s'
  | [], s, _, _ => ⟨s, rfl⟩
  | i :: is, s, ho, hp => by
    obtain ⟨s1, h1⟩ := ho i (by simp) s hp
    have hle := pend_mono (p := p) (fun j hj => (hs i s s1 h1).1.has (i := j) hj)
    obtain ⟨s2, h2⟩ := buildAll_total hs is s1 (fun j hj => ho j (by simp [hj])) (by omega)
    exact ⟨s2, by unfold buildAll; rw [h1]; exact h2⟩

theorem insts?_listed (hc : Convertible p) {f : Func} {fd : FData} (hf : p.funcs.get? f = some fd) {b : BB} {is : List Value} :
    fd.layout.insts? b = some is ↔ (b, is) ∈ fd.layout.bbs :=
  lookup_eq_some_iff (hc.blocksNodup f fd hf)

/-- Every item in sight is built. -/
theorem build_total (hc : Convertible p) : ∀ (n : Nat) (cur : Option FData) (i : Item) (s : BSt),
    (∀ fd, cur = some fd → ∃ f, p.funcs.get? f = some fd) → Reached p cur i → pend p s < n →
    ∃ s', build p n cur i s = some s'
  | 0, _, _, _, _, _, h => by omega
  | n + 1, cur, .val v, s, hcur, hr, hp => by
    unfold build
    by_cases hh : s.b.vals.contains v = true
    · rw [if_pos hh]; exact ⟨_, rfl⟩
    · rw [if_neg hh]
      obtain ⟨x, hx, hn, hk⟩ := valueData_reached hc hr
      simp only [hx, cstr_good hn]
      have hlt : pend p { s with b := { s.b with vals := s.b.vals.insert v none } } < pend p s := by
        apply pend_lt _ (mem_univ hc hr) hh
        · simp [BSt.Has]
        · intro i hi
          cases i with
          | val w => simp only [BSt.Has, Map.get?_insert] at hi ⊢; split <;> simp_all
          | bb w => exact hi
          | func w => exact hi
      obtain ⟨s2, h2⟩ := buildAll_total (n := n) (fun i s s' h => build_step p n cur i s s' hcur h) (kindItems x.kind)
        _ (fun i hi s hs => build_total hc n cur i s hcur (hk i hi) hs) (Nat.lt_of_lt_of_le hlt (Nat.le_of_lt_succ hp))
      rw [h2]
      exact ⟨_, rfl⟩
  | n + 1, cur, .bb b, s, hcur, hr, hp => by
    unfold build
    by_cases hh : s.b.bbs.contains b = true
    · rw [if_pos hh]; exact ⟨_, rfl⟩
    · rw [if_neg hh]
      have hu := mem_univ hc hr
      obtain ⟨f, fd, rfl, hf, hb⟩ := hr
      obtain ⟨x, hx, hps⟩ := hc.blockData _ _ _ hf hb
      obtain ⟨q, hq, rfl⟩ := List.mem_map.1 hb
      have his := (insts?_listed hc hf).2 hq
      simp only [hx, cstr_good (hc.blockNames _ _ _ _ hf hb hx), his]
      have hlt : pend p { s with b := { s.b with bbs := s.b.bbs.insert q.1 none } } < pend p s := by
        apply pend_lt _ hu hh
        · simp [BSt.Has]
        · intro i hi
          cases i with
          | bb w => simp only [BSt.Has, Map.get?_insert] at hi ⊢; split <;> simp_all
          | val w => exact hi
          | func w => exact hi
      have hL : ∀ v, Used p (some f) v → Reached p (some fd) (.val v) := fun v hv => by
        obtain ⟨y, hy⟩ := hc.liveL hv
        exact .inr ⟨hc.localId _ _ _ hy, f, fd, rfl, hf, hv⟩
      have hone := fun i s s' h => build_step p n (some fd) i s s' hcur h
      obtain ⟨s2, h2⟩ := buildAll_total (n := n) hone (x.params.map .val ++ x.usedBy.map .val)
        _ (fun i hi s hs => build_total hc n (some fd) i s hcur (by
          rcases List.mem_append.1 hi with hi | hi <;> obtain ⟨v, hv, rfl⟩ := List.mem_map.1 hi
          · exact hL _ (.param hf hb hx hv)
          · exact hL _ (hc.blockUsers _ _ _ _ _ hf hb hx hv)) hs) (Nat.lt_of_lt_of_le hlt (Nat.le_of_lt_succ hp))
      have hle := pend_mono (p := p) (fun j hj => (buildAll_step hone _ _ _ h2).1.has (i := j) hj)
      obtain ⟨s3, h3⟩ := buildAll_total (n := n) hone (q.2.map .val)
        s2 (fun i hi s hs => build_total hc n (some fd) i s hcur (by
          obtain ⟨v, hv, rfl⟩ := List.mem_map.1 hi
          exact hL _ (.inst hf hq hv)) hs) (by omega)
      simp only [h2, h3]
      exact ⟨_, rfl⟩
  | n + 1, cur, .func f, s, hcur, hr, hp => by
    unfold build
    by_cases hh : s.b.funcs.contains f = true
    · rw [if_pos hh]; exact ⟨_, rfl⟩
    · rw [if_neg hh]
      have hu := mem_univ hc (cur := cur) hr
      obtain ⟨fd, hf⟩ := Option.isSome_iff_exists.1 hr
      simp only [hf, cstr_good (hc.funcNames _ _ hf)]
      have hlt : pend p { s with b := { s.b with funcs := s.b.funcs.insert f none } } < pend p s := by
        apply pend_lt _ hu hh
        · simp [BSt.Has]
        · intro i hi
          cases i with
          | func w => simp only [BSt.Has, Map.get?_insert] at hi ⊢; split <;> simp_all
          | val w => exact hi
          | bb w => exact hi
      have hcur' : ∀ fd', some fd = some fd' → ∃ f, p.funcs.get? f = some fd' := fun fd' e => by cases e; exact ⟨f, hf⟩
      have hone := fun i s s' h => build_step p n (some fd) i s s' hcur' h
      obtain ⟨s2, h2⟩ := buildAll_total (n := n) hone (fd.params.map .val ++ fd.layout.bbs.map (fun q => .bb q.1))
        _ (fun i hi s hs => build_total hc n (some fd) i s hcur' (by
          rcases List.mem_append.1 hi with hi | hi <;> obtain ⟨v, hv, rfl⟩ := List.mem_map.1 hi
          · obtain ⟨y, hy⟩ := hc.liveL (.arg hf hv)
            exact .inr ⟨hc.localId _ _ _ hy, f, fd, rfl, hf, .arg hf hv⟩
          · exact ⟨f, fd, rfl, hf, List.mem_map.2 ⟨v, hv, rfl⟩⟩) hs) (Nat.lt_of_lt_of_le hlt (Nat.le_of_lt_succ hp))
      rw [h2]
      exact ⟨_, rfl⟩

/-- All values with boxes are used. -/
def AllUsed (p : Program) (s : BSt) : Prop :=
  ∀ v r, s.b.vals.get? v = some r → (isGlobal v = true ∧ Used p none v) ∨ ∃ f, Used p (some f) v

theorem buildAll_used {one : Item → BSt → Option BSt} : ∀ (is : List Item) (s s' : BSt),
    (∀ i ∈ is, ∀ s s', AllUsed p s → one i s = some s' → AllUsed p s') → AllUsed p s → buildAll one is s = some s' → AllUsed p s'
  | [], s, s', _, hs, h => by simp only [buildAll, Option.some.injEq] at h; subst h; exact hs
  | i :: is, s, s', ho, hs, h => by
    unfold buildAll at h
    split at h
    · cases h
    · rename_i s1 h1
      exact buildAll_used is s1 s' (fun j hj => ho j (by simp [hj])) (ho i (by simp) s s1 hs h1) h

theorem reached_used {cur : Option FData} {v : Value} (h : Reached p cur (.val v)) :
    (isGlobal v = true ∧ Used p none v) ∨ ∃ f, Used p (some f) v := by
  rcases h with h | ⟨_, f, _, _, _, h⟩
  · exact .inl h
  · exact .inr ⟨f, h⟩

theorem AllUsed.insert {s : BSt} {v : Value} {r : Option RVal} (h : AllUsed p s)
    (hv : (isGlobal v = true ∧ Used p none v) ∨ ∃ f, Used p (some f) v) {u : Map Value (List Value)} :
    AllUsed p { b := { s.b with vals := s.b.vals.insert v r }, used := u } := by
  intro w r' hw
  simp only [Map.get?_insert] at hw
  split at hw
  · rename_i e; rw [e]; exact hv
  · exact h w r' hw

theorem build_used (hc : Convertible p) : ∀ (n : Nat) (cur : Option FData) (i : Item) (s s' : BSt),
    Reached p cur i → AllUsed p s → build p n cur i s = some s' → AllUsed p s'
  | 0, _, _, _, _, _, _, h => by simp [build] at h
  | n + 1, cur, .val v, s, s', hr, hs, h => by
    unfold build at h
    split at h
    · cases h; exact hs
    · obtain ⟨x, hx, hn, hk⟩ := valueData_reached hc hr
      simp only [hx, cstr_good hn] at h
      split at h
      · cases h
      · rename_i s2 h2
        have := buildAll_used _ _ _ (fun i hi s s' => build_used hc n cur i s s' (hk i hi)) (hs.insert (reached_used hr)) h2
        cases h
        exact this.insert (reached_used hr)
  | n + 1, cur, .bb b, s, s', hr, hs, h => by
    unfold build at h
    split at h
    · cases h; exact hs
    · obtain ⟨f, fd, rfl, hf, hb⟩ := hr
      obtain ⟨x, hx, hps⟩ := hc.blockData _ _ _ hf hb
      obtain ⟨q, hq, rfl⟩ := List.mem_map.1 hb
      have his := (insts?_listed hc hf).2 hq
      simp only [hx, cstr_good (hc.blockNames _ _ _ _ hf hb hx), his] at h
      have hL : ∀ v, Used p (some f) v → Reached p (some fd) (.val v) := fun v hv => by
        obtain ⟨y, hy⟩ := hc.liveL hv
        exact .inr ⟨hc.localId _ _ _ hy, f, fd, rfl, hf, hv⟩
      split at h
      · cases h
      · rename_i s2 h2
        split at h
        · cases h
        · rename_i s3 h3
          have a2 := buildAll_used _ _ _ (fun i hi s s' => build_used hc n (some fd) i s s' (by
            rcases List.mem_append.1 hi with hi | hi <;> obtain ⟨v, hv, rfl⟩ := List.mem_map.1 hi
            · exact hL _ (.param hf hb hx hv)
            · exact hL _ (hc.blockUsers _ _ _ _ _ hf hb hx hv))) (by exact hs) h2
          have a3 := buildAll_used _ _ _ (fun i hi s s' => build_used hc n (some fd) i s s' (by
            obtain ⟨v, hv, rfl⟩ := List.mem_map.1 hi
            exact hL _ (.inst hf hq hv))) a2 h3
          cases h
          exact a3
  | n + 1, cur, .func f, s, s', hr, hs, h => by
    unfold build at h
    split at h
    · cases h; exact hs
    · obtain ⟨fd, hf⟩ := Option.isSome_iff_exists.1 hr
      simp only [hf, cstr_good (hc.funcNames _ _ hf)] at h
      split at h
      · cases h
      · rename_i s2 h2
        have a2 := buildAll_used _ _ _ (fun i hi s s' => build_used hc n (some fd) i s s' (by
          rcases List.mem_append.1 hi with hi | hi <;> obtain ⟨v, hv, rfl⟩ := List.mem_map.1 hi
          · obtain ⟨y, hy⟩ := hc.liveL (.arg hf hv)
            exact .inr ⟨hc.localId _ _ _ hy, f, fd, rfl, hf, .arg hf hv⟩
          · exact ⟨f, fd, rfl, hf, List.mem_map.2 ⟨v, hv, rfl⟩⟩)) (by exact hs) h2
        cases h
        exact a2

/-! ### The finished builder -/

/-- The boxes hold the program. -/
structure Holds (p : Program) (m : Builder) : Prop where
  globals : ∀ v x, Used p none v → GlobalVal p v x →
    ∃ us, m.vals.get? v = some (some { ty := x.ty, name := x.name, usedBy := us, kind := .of x.kind })
  locals : ∀ f v x, Used p (some f) v → LocalVal p f v x →
    ∃ us, m.vals.get? v = some (some { ty := x.ty, name := x.name, usedBy := us, kind := .of x.kind })
  blocks : ∀ f fd b is x, p.funcs.get? f = some fd → (b, is) ∈ fd.layout.bbs → fd.dfg.bbs.get? b = some x →
    m.bbs.get? b = some (some { name := x.name, params := .of .value x.params, usedBy := .of .value x.usedBy, insts := .of .value is })
  funcs : ∀ f fd, p.funcs.get? f = some fd →
    m.funcs.get? f = some (some { ty := fd.ty, name := some fd.name, params := .of .value fd.params,
                                  bbs := .of .basicBlock (fd.layout.bbs.map (·.1)) })

theorem cstr_eq {n m : Option Str} (h : cstr n = some m) : m = n := by
  cases n with
  | none => simpa [cstr] using h.symm
  | some s => unfold cstr at h; split at h <;> simp_all

theorem fillUsers_keep {used : Map Value (List Value)} : ∀ (vs : List Value) (b b' : Builder),
    fillUsers used vs b = some b' → b'.bbs = b.bbs ∧ b'.funcs = b.funcs ∧ ∀ v (r : RVal), b.vals.get? v = some (some r) →
      ∃ us, b'.vals.get? v = some (some { r with usedBy := us })
  | [], b, b', h => by
    simp only [fillUsers, Option.some.injEq] at h; subst h
    exact ⟨rfl, rfl, fun v r hr => ⟨r.usedBy, hr⟩⟩
  | w :: vs, b, b', h => by
    unfold fillUsers at h
    split at h
    · cases h
    · split at h
      · split at h
        · rename_i r0 hr0
          obtain ⟨h1, h2, h3⟩ := fillUsers_keep vs _ _ h
          refine ⟨h1, h2, fun v r hr => ?_⟩
          by_cases hv : v = w
          · subst hv
            rw [hr0] at hr; cases hr
            obtain ⟨us, h⟩ := h3 v _ (Map.get?_insert_self ..)
            exact ⟨us, h⟩
          · exact h3 v r (by simp only [Map.get?_insert_ne _ _ hv]; exact hr)
        · cases h
      · cases h

theorem fillUsers_total {used : Map Value (List Value)} : ∀ (vs : List Value) (b : Builder),
    (∀ v ∈ vs, ∃ us r, used.get? v = some us ∧ (∀ u ∈ us, (b.vals.get? u).isSome) ∧ b.vals.get? v = some (some r)) →
    ∃ b', fillUsers used vs b = some b'
  | [], b, _ => ⟨b, rfl⟩
  | v :: vs, b, h => by
    obtain ⟨us, r, h1, h2, h3⟩ := h v (by simp)
    unfold fillUsers
    simp only [h1, h3]
    rw [if_pos (by rw [List.all_eq_true]; exact h2)]
    apply fillUsers_total
    intro w hw
    obtain ⟨us', r', h4, h5, h6⟩ := h w (by simp [hw])
    have hs : ∀ u, (b.vals.get? u).isSome →
        ((b.vals.insert v (some { r with usedBy := .of .value us })).get? u).isSome := by
      intro u hu; rw [Map.get?_insert]; split <;> simp_all
    by_cases hv : w = v
    · exact ⟨us', _, h4, fun u hu => hs u (h5 u hu), by simp only [hv]; exact Map.get?_insert_self ..⟩
    · exact ⟨us', r', h4, fun u hu => hs u (h5 u hu), by simp only [Map.get?_insert_ne _ _ hv]; exact h6⟩

/-- The builder succeeds and its boxes hold the program. -/
theorem buildRaw_total (hc : Convertible p) : ∃ n m, buildRaw n .new p =
      some (m, { values := .of .value p.instLayout, funcs := .of .function p.funcLayout }) ∧ Holds p m := by
  let s0 : BSt := { b := .new, used := .empty }
  let N := pend p s0 + 1
  have hone := fun i s s' h => build_step p N none i s s' (by simp) h
  obtain ⟨s, hs⟩ := buildAll_total (p := p) (n := N) hone (p.instLayout.map .val ++ p.funcLayout.map .func) s0
    (fun i hi s hs => build_total hc N none i s (by simp) (by
      rcases List.mem_append.1 hi with hi | hi <;> obtain ⟨v, hv, rfl⟩ := List.mem_map.1 hi
      · obtain ⟨x, _, hx, _⟩ := hc.insts _ hv
        exact .inl ⟨hc.globalId _ _ hx, .listed hv⟩
      · exact (hc.funcs _).1 hv) hs) (Nat.lt_succ_self _)
  obtain ⟨k, hh⟩ := buildAll_step hone _ _ _ hs
  have dV : ∀ v r, s.b.vals.get? v = some r → ValDone p s v r := fun v r => k.newV v r rfl
  have dB : ∀ v r, s.b.bbs.get? v = some r → BlockDone p s v r := fun v r => k.newB v r rfl
  have dF : ∀ v r, s.b.funcs.get? v = some r → FuncDone p s v r := fun v r => k.newF v r rfl
  -- all functions and listed blocks have boxes
  have hF : ∀ f fd, p.funcs.get? f = some fd → s.b.funcs.get? f = some (some
        { ty := fd.ty, name := some fd.name, params := .of .value fd.params,
          bbs := .of .basicBlock (fd.layout.bbs.map (·.1)) }) ∧
      (∀ v ∈ fd.params, s.Has (.val v)) ∧ ∀ b ∈ fd.layout.bbs.map (·.1), s.Has (.bb b) := by
    intro f fd hf
    have := hh (.func f) (List.mem_append_right _ (List.mem_map.2 ⟨f, (hc.funcs f).2 (by simp [hf]), rfl⟩))
    obtain ⟨r, hr⟩ := Option.isSome_iff_exists.1 this
    obtain ⟨fd', n, h1, h2, h3, h4, h5⟩ := dF _ _ hr
    rw [hf] at h1; cases h1
    cases cstr_eq h2
    exact ⟨by rw [hr, h3], h4, h5⟩
  have hB : ∀ f fd b is x, p.funcs.get? f = some fd → (b, is) ∈ fd.layout.bbs → fd.dfg.bbs.get? b = some x →
      s.b.bbs.get? b = some (some { name := x.name, params := .of .value x.params, usedBy := .of .value x.usedBy, insts := .of .value is }) ∧
      (∀ v ∈ x.params, s.Has (.val v)) ∧ ∀ v ∈ is, s.Has (.val v) := by
    intro f fd b is x hf hb hx
    have := (hF f fd hf).2.2 b (List.mem_map.2 ⟨_, hb, rfl⟩)
    obtain ⟨r, hr⟩ := Option.isSome_iff_exists.1 this
    obtain ⟨f', fd', x', is', n, h1, h2, h3, h4, h5, h6, h7, h8⟩ := dB _ _ hr
    cases hc.blockOwner _ _ _ _ _ ⟨fd, hf, hx⟩ ⟨fd', h1, h2⟩
    rw [hf] at h1; cases h1
    rw [hx] at h2; cases h2
    rw [(insts?_listed hc hf).2 hb] at h3; cases h3
    cases cstr_eq h4
    exact ⟨by rw [hr, h5], h6, h8⟩
  -- the data of values with boxes
  have hG1 : ∀ v x, GlobalVal p v x → s.Has (.val v) → s.b.vals.get? v = some (some
        { ty := x.ty, name := x.name, usedBy := .default, kind := .of x.kind }) ∧ s.used.get? v = some x.usedBy ∧ ∀ i ∈ kindItems x.kind, s.Has i := by
    intro v x hx hv
    obtain ⟨r, hr⟩ := Option.isSome_iff_exists.1 hv
    obtain ⟨y, n, h1, h2, h3, h4, h5⟩ := dV _ _ hr
    cases cstr_eq h2
    have hg := hc.globalId _ _ hx
    rcases h1 with ⟨_, h1⟩ | ⟨h1, _⟩
    · cases hx.symm.trans h1
      exact ⟨by rw [hr, h3], h4, h5⟩
    · rw [hg] at h1; cases h1
  have hL1 : ∀ f v x, LocalVal p f v x → s.Has (.val v) → s.b.vals.get? v = some (some
        { ty := x.ty, name := x.name, usedBy := .default, kind := .of x.kind }) ∧ s.used.get? v = some x.usedBy ∧ ∀ i ∈ kindItems x.kind, s.Has i := by
    intro f v x hx hv
    obtain ⟨r, hr⟩ := Option.isSome_iff_exists.1 hv
    obtain ⟨y, n, h1, h2, h3, h4, h5⟩ := dV _ _ hr
    cases cstr_eq h2
    have hg := hc.localId _ _ _ hx
    rcases h1 with ⟨h1, _⟩ | ⟨_, f', h1⟩
    · rw [hg] at h1; cases h1
    · cases hc.localOwner _ _ _ _ _ hx h1
      obtain ⟨fd, hf, hx⟩ := hx
      obtain ⟨fd', hf', h1⟩ := h1
      rw [hf] at hf'; cases hf'
      rw [hx] at h1; cases h1
      exact ⟨by rw [hr, h3], h4, h5⟩
  -- all used values have boxes
  have hU : ∀ o v, Used p o v → s.Has (.val v) := by
    intro o v h
    induction h with
    | listed h => exact hh _ (List.mem_append_left _ (List.mem_map.2 ⟨_, h, rfl⟩))
    | init hu hx hv ih => exact (hG1 _ _ hx ih).2.2 _ (operand_mem hv)
    | arg hf hv => exact (hF _ _ hf).2.1 _ hv
    | param hf hb hx hv =>
      obtain ⟨q, hq, rfl⟩ := List.mem_map.1 hb
      exact (hB _ _ _ _ _ hf hq hx).2.1 _ hv
    | inst hf hb hv =>
      obtain ⟨x, hx, _⟩ := hc.blockData _ _ _ hf (List.mem_map.2 ⟨_, hb, rfl⟩)
      exact (hB _ _ _ _ _ hf hb hx).2.2 _ hv
    | operand hu hx hv hy ih => exact (hL1 _ _ _ hx ih).2.2 _ (operand_mem hv)
  -- all values with boxes are used
  have hused : ∀ v r, s.b.vals.get? v = some r → (isGlobal v = true ∧ Used p none v) ∨ ∃ f, Used p (some f) v := by
    refine buildAll_used _ _ _ (fun i hi s s' => build_used hc N none i s s' ?_) ?_ hs
    · rcases List.mem_append.1 hi with hi | hi <;> obtain ⟨v, hv, rfl⟩ := List.mem_map.1 hi
      · obtain ⟨x, _, hx, _⟩ := hc.insts _ hv
        exact .inl ⟨hc.globalId _ _ hx, .listed hv⟩
      · exact (hc.funcs _).1 hv
    · intro v r hr; cases hr
  have hfill : ∃ m, fillUsers s.used s.b.vals.keys s.b = some m := by
    apply fillUsers_total
    intro v hv
    rw [Map.mem_keys_iff] at hv
    obtain ⟨r, hr⟩ := Option.isSome_iff_exists.1 hv
    rcases hused v r hr with ⟨_, hu⟩ | ⟨f, hu⟩
    · obtain ⟨x, hx⟩ := hc.liveG hu
      obtain ⟨h1, h2, _⟩ := hG1 _ _ hx (hU _ _ hu)
      refine ⟨_, _, h2, fun u hu' => ?_, h1⟩
      rcases hc.globalUsers _ _ _ hx hu hu' with h | ⟨f, h⟩ <;> exact hU _ _ h
    · obtain ⟨x, hx⟩ := hc.liveL hu
      obtain ⟨h1, h2, _⟩ := hL1 _ _ _ hx (hU _ _ hu)
      exact ⟨_, _, h2, fun u hu' => hU _ _ (hc.users _ _ _ _ hx hu hu'), h1⟩
  obtain ⟨m, hm⟩ := hfill
  obtain ⟨k1, k2, k3⟩ := fillUsers_keep _ _ _ hm
  refine ⟨N, m, by unfold buildRaw; simp only [s0] at hs; rw [hs]; simp only [hm], ?_, ?_, ?_, ?_⟩
  · intro v x hu hx
    exact k3 _ _ (hG1 _ _ hx (hU _ _ hu)).1
  · intro f v x hu hx
    exact k3 _ _ (hL1 _ _ _ hx (hU _ _ hu)).1
  · intro f fd b is x hf hb hx
    rw [k1]; exact (hB _ _ _ _ _ hf hb hx).1
  · intro f fd hf
    rw [k2]; exact (hF _ _ hf).1

end

end Koopa.Raw
