import Verif.Lemmas.Examples.ConstFold
import Verif.Props.ValueEq
import Verif.Lemmas.Front.ElabFun
/-! The effect of folding block parameters. -/
namespace Koopa
open Spec

/-- The two handles are equal, or denote structurally equal values. -/
def Spec.SameOrEq (c : Ctx) (v w : Value) : Prop := v = w ∨ Same c v w

/-- The same type, the same operation and the same operands, all the way down. -/
def Spec.Alike (c : Ctx) (x y : VData) : Prop :=
  x.ty = y.ty ∧ shape x.kind = shape y.kind ∧ All2 (SameOrEq c) (operands x.kind) (operands y.kind)

theorem Spec.All2.of_eq_len {α β : Type} {R : α → β → Prop} : ∀ {as : List α} {bs : List β}, as.length = bs.length →
    (∀ (i : Nat) (h : i < as.length) (h' : i < bs.length), R as[i] bs[i]) → All2 R as bs
  | [], [], _, _ => .nil
  | a :: as, b :: bs, hl, h => .cons (h 0 (by simp) (by simp)) (of_eq_len (by simpa using hl)
      (fun i h1 h2 => h (i + 1) (by simpa using h1) (by simpa using h2)))
  | [], _ :: _, hl, _ => by simp at hl
  | _ :: _, [], hl, _ => by simp at hl

theorem Spec.All2.trans' {α : Type} {R : α → α → Prop} (ht : ∀ a b c, R a b → R b c → R a c) :
    ∀ {as bs cs : List α}, All2 R as bs → All2 R bs cs → All2 R as cs
  | _, _, _, .nil, .nil => .nil
  | _, _, _, .cons h1 h2, .cons h3 h4 => .cons (ht _ _ _ h1 h3) (trans' ht h2 h4)

theorem Spec.All2.refl' {α : Type} {R : α → α → Prop} (hr : ∀ a, R a a) : ∀ as : List α, All2 R as as
  | [] => .nil
  | a :: as => .cons (hr a) (refl' hr as)

theorem Spec.SameOrEq.trans {c : Ctx} {u v w : Value} (h : SameOrEq c u v) (h' : SameOrEq c v w) : SameOrEq c u w := by
  rcases h with rfl | h
  · exact h'
  · rcases h' with rfl | h'
    · exact .inr h
    · exact .inr (h.trans h')

theorem Spec.Alike.refl {c : Ctx} {x y : VData} (ht : x.ty = y.ty) (hk : x.kind = y.kind) : Alike c x y :=
  ⟨ht, by rw [hk], by rw [hk]; exact All2.refl' (fun _ => .inl rfl) _⟩

theorem Spec.Alike.trans {c : Ctx} {x y z : VData} (h : Alike c x y) (h' : Alike c y z) : Alike c x z :=
  ⟨h.1.trans h'.1, h.2.1.trans h'.2.1, All2.trans' (fun _ _ _ h h' => h.trans h') h.2.2 h'.2.2⟩

theorem usesEq_true {rec : Value → Value → Option Bool} : ∀ {l r : List Value}, usesEq rec l r = some true → l.length = r.length →
    All2 (fun a b => rec a b = some true) l r
  | [], [], _, _ => .nil
  | a :: l, b :: r, h, hl => by
    unfold usesEq at h
    split at h
    · rename_i e; exact .cons e (usesEq_true h (by simpa using hl))
    · cases h
    · cases h
  | [], _ :: _, _, hl => by simp at hl
  | _ :: _, [], _, hl => by simp at hl

theorem dataEqWith_true {rec : Value → Value → Option Bool} {x y : VData} (h : dataEqWith rec x y = some true) :
    x.ty = y.ty ∧ shape x.kind = shape y.kind ∧ All2 (fun a b => rec a b = some true) (operands x.kind) (operands y.kind) := by
  rw [dataEqWith_eq] at h
  split at h
  · rename_i e
    exact ⟨e.1, e.2, usesEq_true h (shape_length e.2)⟩
  · cases h

theorem valueEq_sound {c : Ctx} : ∀ {n : Nat} {v w : Value}, c.valueEq n v w = some true → Same c v w
  | 0, _, _, h => by cases h
  | n + 1, v, w, h => by
    unfold Ctx.valueEq at h
    split at h
    · rename_i x y hx hy
      obtain ⟨h1, h2, h3⟩ := dataEqWith_true h
      refine .mk hx hy h1 h2 (fun i hi hi' => ?_)
      exact valueEq_sound (h3.get i _ _ (List.getElem?_eq_getElem hi) (List.getElem?_eq_getElem hi'))
    · cases h

theorem dataEq_alike {c : Ctx} {n : Nat} {x y : VData} (h : dataEqWith (c.valueEq n) x y = some true) : Alike c x y := by
  obtain ⟨h1, h2, h3⟩ := dataEqWith_true h
  exact ⟨h1, h2, h3.mono (fun _ _ h => .inr (valueEq_sound h))⟩

theorem setBbParams_view {p p' : Program} {f : Func} {b : BB} {ps : List Value} (h : p.setBbParams f b ps = some p') :
    ∃ n ps0, p.view.b f b = some (n, ps0) ∧
      p'.view = { p.view with b := fun f' c => if f' = f ∧ c = b then some (n, ps) else p.view.b f' c } := by
  unfold Program.setBbParams Program.onDfg Ctx.setBbParams Ctx.modBb at h
  simp only [Option.bind_eq_bind, Option.bind_eq_some_iff, Option.some.injEq] at h
  obtain ⟨fd, hf, c, hc, rfl⟩ := h
  split at hc
  · rename_i x hx
    cases hc
    have hx : fd.dfg.bbs.get? b = some x := hx
    refine ⟨x.name, x.params, by rw [view_b_self hf, hx]; rfl, ?_⟩
    refine Eq.trans (view_putCtx (p := p) (c := { p.ctx fd with d := { fd.dfg with bbs := fd.dfg.bbs.insert b { x with params := ps } } }) hf rfl rfl rfl rfl rfl) ?_
    simp only [View.mk.injEq, true_and]
    refine ⟨rfl, ?_, ?_, rfl⟩
    · funext f' w
      by_cases hff : f' = f
      · subst hff; simp only [if_true, view_l_self hf]
      · simp [hff]
    · funext f' w
      by_cases hff : f' = f
      · subst hff
        simp only [if_true, true_and, view_b_self hf]
        show bshapeOf ((fd.dfg.bbs.insert b { x with params := ps }).get? w) = _
        rw [Map.get?_insert]
        split
        · rfl
        · rfl
      · simp [hff]
  · cases hc

/-- The transfers of control of an instruction, with the arguments. -/
def Spec.transfers : VKind → List (BB × List Value)
  | .branch _ t f ts fs => [(t, ts), (f, fs)]
  | .jump t as => [(t, as)]
  | _ => []

theorem transfers_targets {k : VKind} {b : BB} {as : List Value} (h : (b, as) ∈ transfers k) : b ∈ targets k ∧ ∀ a ∈ as, a ∈ operands k := by
  cases k with
  | branch c t f ts fs =>
    simp only [transfers, List.mem_cons, Prod.mk.injEq, List.not_mem_nil, or_false] at h
    rcases h with ⟨rfl, rfl⟩ | ⟨rfl, rfl⟩
    · exact ⟨by simp [targets], fun a ha => by simp [operands, ha]⟩
    · exact ⟨by simp [targets], fun a ha => by simp [operands, ha]⟩
  | jump t as =>
    simp only [transfers, List.mem_cons, Prod.mk.injEq, List.not_mem_nil, or_false] at h
    obtain ⟨rfl, rfl⟩ := h
    exact ⟨by simp [targets], fun a ha => ha⟩
  | _ => cases h

namespace ConstFold

/-- The arguments that a user of block `b` passes for parameter `i` are all the constant `d`. -/
theorem constArg_spec {c : Ctx} {n : Nat} {fd : FData} {b : BB} {i : Nat} : ∀ {us : List Value} {ans : Option VData} {d : VData},
    constArg c n fd b i us ans = some (some d) →
    (∀ u ∈ us, ∃ a da, argAt fd b i u = some a ∧ fd.dfg.values.get? a = some da ∧ da.kind.isConst = true ∧ Alike c da d) ∧
    (∀ x, ans = some x → Alike c x d) ∧
    (ans = none → ∃ u ∈ us, ∃ a da, argAt fd b i u = some a ∧ fd.dfg.values.get? a = some da ∧ d.shape = da.shape) ∧
    (∀ x, ans = some x → d = x ∨ ∃ u ∈ us, ∃ a da, argAt fd b i u = some a ∧ fd.dfg.values.get? a = some da ∧ d.shape = da.shape)
  | [], ans, d, h => by
    unfold constArg at h
    cases ans with
    | none => cases h
    | some x =>
      cases h
      exact ⟨fun u hu => (by cases hu), fun x e => (by cases e; exact .refl rfl rfl), fun e => (by cases e), fun x e => (by cases e; exact .inl rfl)⟩
  | u :: us, ans, d, h => by
    unfold constArg at h
    split at h
    · cases h
    · rename_i a ha
      split at h
      · cases h
      · rename_i da hda
        split at h
        · rename_i hc
          have main : (∀ x, ans = some x → Alike c x da) → constArg c n fd b i us (some da.clone) = some (some d) →
              (∀ u' ∈ u :: us, ∃ a da, argAt fd b i u' = some a ∧ fd.dfg.values.get? a = some da ∧ da.kind.isConst = true ∧ Alike c da d) ∧
              (∀ x, ans = some x → Alike c x d) ∧
              (ans = none → ∃ u' ∈ u :: us, ∃ a da, argAt fd b i u' = some a ∧ fd.dfg.values.get? a = some da ∧ d.shape = da.shape) ∧
              (∀ x, ans = some x → d = x ∨ ∃ u' ∈ u :: us, ∃ a da, argAt fd b i u' = some a ∧ fd.dfg.values.get? a = some da ∧ d.shape = da.shape) := by
            intro h0 h
            obtain ⟨h1, h2, _, h3⟩ := constArg_spec h
            have h2 : Alike c da d := Alike.trans (y := da.clone) (Alike.refl rfl rfl) (h2 _ rfl)
            have h4 : ∃ u' ∈ u :: us, ∃ a da, argAt fd b i u' = some a ∧ fd.dfg.values.get? a = some da ∧ d.shape = da.shape := by
              rcases h3 _ rfl with e | ⟨u', hu', r⟩
              · exact ⟨u, by simp, a, da, ha, hda, by rw [e]; rfl⟩
              · exact ⟨u', by simp [hu'], r⟩
            refine ⟨?_, fun x e => (h0 x e).trans h2, fun _ => h4, fun _ _ => .inr h4⟩
            intro u' hu'
            rcases List.mem_cons.1 hu' with rfl | hu'
            · exact ⟨a, da, ha, hda, hc, h2⟩
            · exact h1 u' hu'
          split at h
          · exact main (fun x e => by cases e) h
          · rename_i x
            split at h
            · cases h
            · rename_i he
              exact main (fun x' e => by cases e; exact dataEq_alike he) h
            · cases h
        · cases h

theorem evalParams_spec {c : Ctx} {n : Nat} {fd : FData} {b : BB} {users : List Value} : ∀ {is : List Nat} {ev : List (Nat × VData)},
    evalParams c n fd b users is = some ev → (∀ i d, (i, d) ∈ ev → i ∈ is ∧ constArg c n fd b i users none = some (some d)) ∧
      List.Sublist (ev.map (·.1)) is
  | [], ev, h => by cases h; exact ⟨fun i d hm => (by cases hm), .slnil⟩
  | j :: is, ev, h => by
    unfold evalParams at h
    split at h
    · cases h
    · obtain ⟨h1, h2⟩ := evalParams_spec h
      exact ⟨fun i d hm => ⟨by simp [(h1 i d hm).1], (h1 i d hm).2⟩, h2.cons _⟩
    · rename_i dj hj
      simp only [Option.map_eq_some_iff] at h
      obtain ⟨ev', h, rfl⟩ := h
      obtain ⟨h1, h2⟩ := evalParams_spec h
      refine ⟨fun i d hm => ?_, by simpa using h2⟩
      rcases List.mem_cons.1 hm with e | hm
      · cases e; exact ⟨by simp, hj⟩
      · exact ⟨by simp [(h1 i d hm).1], (h1 i d hm).2⟩

/-- All replacements, one after the other. -/
def flat (l : List (BB × List (Nat × VData))) : List (BB × Nat × VData) := l.flatMap (fun q => q.2.map (fun e => (q.1, e.1, e.2)))

theorem mem_flat {l : List (BB × List (Nat × VData))} {b : BB} {i : Nat} {d : VData} :
    (b, i, d) ∈ flat l ↔ ∃ ev, (b, ev) ∈ l ∧ (i, d) ∈ ev := by
  unfold flat
  simp only [List.mem_flatMap, List.mem_map, Prod.mk.injEq]
  constructor
  · rintro ⟨⟨b', ev⟩, hm, ⟨i', d'⟩, he, rfl, rfl, rfl⟩
    exact ⟨ev, hm, he⟩
  · rintro ⟨ev, hm, he⟩
    exact ⟨(b, ev), hm, (i, d), he, rfl, rfl, rfl⟩

theorem evalBbs_spec {c : Ctx} {n : Nat} {fd : FData} {us : List Value → List Value} : ∀ {bs : List BB} {l : List (BB × List (Nat × VData))},
    evalBbs c n fd us bs = some l → (∀ b ev, (b, ev) ∈ l → b ∈ bs ∧ ∃ x, fd.dfg.bbs.get? b = some x ∧
        evalParams c n fd b (us x.usedBy) (List.range x.params.length) = some ev) ∧ List.Sublist (l.map (·.1)) bs
  | [], l, h => by cases h; exact ⟨fun i d hm => (by cases hm), .slnil⟩
  | b :: bs, l, h => by
    unfold evalBbs at h
    split at h
    · obtain ⟨h1, h2⟩ := evalBbs_spec h
      exact ⟨fun i d hm => ⟨by simp [(h1 i d hm).1], (h1 i d hm).2⟩, h2.cons _⟩
    · rename_i x hx
      split at h
      · cases h
      · obtain ⟨h1, h2⟩ := evalBbs_spec h
        exact ⟨fun i d hm => ⟨by simp [(h1 i d hm).1], (h1 i d hm).2⟩, h2.cons _⟩
      · rename_i ev _ hev
        simp only [Option.map_eq_some_iff] at h
        obtain ⟨l', h, rfl⟩ := h
        obtain ⟨h1, h2⟩ := evalBbs_spec h
        refine ⟨fun b' ev' hm => ?_, by simpa using h2⟩
        rcases List.mem_cons.1 hm with e | hm
        · cases e; exact ⟨by simp, x, hx, hev⟩
        · exact ⟨by simp [(h1 b' ev' hm).1], (h1 b' ev' hm).2⟩

/-- The replacements as one list. -/
def replaceFlat (f : Func) : List (BB × Nat × VData) → Program → Option Program
  | [], p => some p
  | (b, i, d) :: l, p => match replaceParam f b i d p with
    | none => none
    | some p => replaceFlat f l p

theorem replaceFlat_append {f : Func} : ∀ {l l' : List (BB × Nat × VData)} {p : Program},
    replaceFlat f (l ++ l') p = (replaceFlat f l p).bind (replaceFlat f l')
  | [], l', p => rfl
  | (b, i, d) :: l, l', p => by
    simp only [List.cons_append, replaceFlat]
    split
    · rfl
    · exact replaceFlat_append

theorem replaceParams_flat {f : Func} {b : BB} : ∀ {ev : List (Nat × VData)} {p : Program},
    replaceParams f b ev p = replaceFlat f (ev.map (fun e => (b, e.1, e.2))) p
  | [], p => rfl
  | (i, d) :: ev, p => by
    simp only [List.map_cons, replaceFlat, replaceParams]
    cases replaceParam f b i d p with
    | none => rfl
    | some p => exact replaceParams_flat

theorem replaceBbs_flat {f : Func} : ∀ {l : List (BB × List (Nat × VData))} {p : Program}, replaceBbs f l p = replaceFlat f (flat l) p
  | [], p => rfl
  | (b, ev) :: l, p => by
    have : flat ((b, ev) :: l) = ev.map (fun e => (b, e.1, e.2)) ++ flat l := rfl
    rw [this, replaceFlat_append, ← replaceParams_flat]
    unfold replaceBbs
    cases replaceParams f b ev p with
    | none => rfl
    | some p => exact replaceBbs_flat

/-- What is needed of a function so that its block parameters can be folded: block parameters are values of that
kind, no two are the same handle, they are not listed as instructions, function parameters are none of them, and the elements of local
constants are local. -/
structure Foldable (p : Program) (f : Func) : Prop where
  params : ∀ b n ps, p.view.b f b = some (n, ps) → ∀ x ∈ ps, ∃ t m i, p.view.l f x = some (t, m, .blockArgRef i)
  once : ∀ b n ps, p.view.b f b = some (n, ps) → ∀ (i j : Nat) x, ps[i]? = some x → ps[j]? = some x → i = j
  apart : ∀ b b' n n' ps ps' x, p.view.b f b = some (n, ps) → p.view.b f b' = some (n', ps') → x ∈ ps → x ∈ ps' → b = b'
  listed : ∀ l b is v t m i, p.view.lay f = some l → (b, is) ∈ l.bbs → v ∈ is → p.view.l f v ≠ some (t, m, .blockArgRef i)
  args : ∀ t n ps, p.view.head f = some (t, n, ps) → ∀ v ∈ ps, ∃ t m k, p.view.l f v = some (t, m, k) ∧ ∀ i, k ≠ .blockArgRef i
  elems : ∀ v t m es, p.view.l f v = some (t, m, .aggregate es) → ∀ e ∈ es, (p.view.l f e).isSome

/-- The program `q` after the replacements `E`. -/
structure Mid (p q : Program) (f : Func) (E : List (BB × Nat × VData)) : Prop where
  rest : q.view = { p.view with l := q.view.l, b := q.view.b, ids := q.view.ids }
  otherL : ∀ g v, g ≠ f → q.view.l g v = p.view.l g v
  otherB : ∀ g b, g ≠ f → q.view.b g b = p.view.b g b
  next : p.ids.nextLocal ≤ q.ids.nextLocal
  blocks : ∀ b n ps, p.view.b f b = some (n, ps) → ∃ ps', q.view.b f b = some (n, ps') ∧ ps'.length = ps.length ∧
    ∀ i x, ps[i]? = some x → ((∀ d, (b, i, d) ∉ E) ∧ ps'[i]? = some x) ∨
      ∃ d y, (b, i, d) ∈ E ∧ ps'[i]? = some y ∧ p.ids.nextLocal ≤ y ∧ y < q.ids.nextLocal ∧ q.view.l f y = p.view.l f x ∧ q.view.l f x = some d.shape
  same : ∀ v, v < p.ids.nextLocal → (∀ b n ps i d, (b, i, d) ∈ E → p.view.b f b = some (n, ps) → ps[i]? ≠ some v) →
    q.view.l f v = p.view.l f v
  known : ∀ b, (q.view.b f b).isSome → (p.view.b f b).isSome
  copied : ∀ v s, p.ids.nextLocal ≤ v → q.view.l f v = some s → ∃ x, p.view.l f x = some s ∧ ∃ i, s.2.2 = .blockArgRef i
  apart : ∀ b b' n n' ps ps' (i j : Nat) y, q.view.b f b = some (n, ps) → q.view.b f b' = some (n', ps') → ps[i]? = some y → ps'[j]? = some y →
    p.ids.nextLocal ≤ y → b = b' ∧ i = j

theorem replaceParam_view {f : Func} {b : BB} {i : Nat} {d : VData} {q q' : Program} (h : replaceParam f b i d q = some q') :
    ∃ n ps x s, q.view.b f b = some (n, ps) ∧ ps[i]? = some x ∧ q.view.l f x = some s ∧
      q'.view = { q.view with
        l := fun g w => if g = f ∧ w = q.ids.nextLocal then some s else if g = f ∧ w = x then some d.shape else q.view.l g w
        b := fun g c => if g = f ∧ c = b then some (n, ps.set i q.ids.nextLocal) else q.view.b g c
        ids := { q.ids with nextLocal := q.ids.nextLocal + 1 } } := by
  unfold replaceParam at h
  simp only [Option.bind_eq_bind, Option.bind_eq_some_iff] at h
  obtain ⟨fd, hf, B, hB, x, hx, param, hparam, q1, h1, ⟨q2, w⟩, h2, fd2, hf2, B2, hB2, h3⟩ := h
  obtain ⟨fd', data, old, hf', hb, -, hv1⟩ := replaceLocal_view h1
  cases hb
  obtain ⟨fd1, data', hf1, hb', hw, hv2⟩ := newLocal_view h2
  cases hb'
  obtain ⟨n, ps0, hps0, hv3⟩ := setBbParams_view h3
  have hid1 : q1.ids = q.ids := congrArg View.ids hv1
  have hb2 : q2.view.b f b = some (B.name, B.params) := by
    rw [hv2, hv1]
    show q.view.b f b = _
    rw [view_b_self hf, hB]; rfl
  have e2 : q2.view.b f b = some (B2.name, B2.params) := by
    rw [view_b_self hf2, hB2]; rfl
  rw [hb2] at e2
  obtain ⟨en, eps⟩ : B.name = B2.name ∧ B.params = B2.params := by simpa using e2
  rw [hb2] at hps0
  obtain ⟨en', _⟩ : B.name = n ∧ B.params = ps0 := by simpa using hps0
  refine ⟨B.name, B.params, x, param.shape, by rw [view_b_self hf, hB]; rfl, hx, by rw [view_l_self hf, hparam]; rfl, ?_⟩
  rw [hv3, hv2, hv1]
  simp only [hid1] at hw ⊢
  subst hw
  rw [← en', ← eps]
  rfl

theorem Mid.step {f : Func} {b : BB} {i : Nat} {d : VData} {p q q' : Program} {E : List (BB × Nat × VData)} (hi : CInv p) (hF : Foldable p f)
    (hm : Mid p q f E) (hb : ∃ n ps x, p.view.b f b = some (n, ps) ∧ ps[i]? = some x) (hnew : ∀ d, (b, i, d) ∉ E)
    (h : replaceParam f b i d q = some q') : Mid p q' f (E ++ [(b, i, d)]) := by
  obtain ⟨n, ps, x, hb, hx⟩ := hb
  obtain ⟨n', ps', x', s, hq1, hq2, hq3, hv⟩ := replaceParam_view h
  obtain ⟨ps1, k1, k2, k3⟩ := hm.blocks b n ps hb
  rw [hq1] at k1
  obtain ⟨rfl, rfl⟩ : n' = n ∧ ps' = ps1 := by simpa using k1
  have hxx : x' = x := by
    rcases k3 i x hx with ⟨_, e⟩ | ⟨d', y, e, _⟩
    · rw [hq2] at e; cases e; rfl
    · exact absurd e (hnew d')
  subst hxx
  obtain ⟨t, m, j, hxl⟩ := hF.params b n' ps hb x' (List.mem_of_getElem? hx)
  have hxr := hi.lRange hxl
  have hsx : q.view.l f x' = p.view.l f x' := hm.same x' hxr.2 (fun b2 n2 ps2 i2 d2 he hb2 hx2 => by
    have := hF.apart b b2 n' n2 ps ps2 x' hb hb2 (List.mem_of_getElem? hx) (List.mem_of_getElem? hx2)
    subst this
    rw [hb] at hb2
    obtain ⟨rfl, rfl⟩ : n' = n2 ∧ ps = ps2 := by simpa using hb2
    have := hF.once b n' ps hb i i2 x' hx hx2
    subst this
    exact hnew d2 he)
  have hnx : q.ids.nextLocal ≠ x' := by have := hm.next; omega
  have hids : q'.ids.nextLocal = q.ids.nextLocal + 1 := congrArg (fun v : View => v.ids.nextLocal) hv
  have hl' : ∀ w, q'.view.l f w = if w = q.ids.nextLocal then some s else if w = x' then some d.shape else q.view.l f w := by
    intro w; rw [hv]; simp
  have hl2 : ∀ w, w < q.ids.nextLocal → w ≠ x' → q'.view.l f w = q.view.l f w := by
    intro w h1 h2
    rw [hl', if_neg (by omega), if_neg h2]
  have hbnd : ∀ c n ps (j : Nat) y, q.view.b f c = some (n, ps) → ps[j]? = some y → y < q.ids.nextLocal := by
    intro c n ps j y hc hy
    obtain ⟨⟨n0, ps0⟩, hc0⟩ := Option.isSome_iff_exists.1 (hm.known c (by rw [hc]; rfl))
    obtain ⟨ps1, j1, j2, j3⟩ := hm.blocks c n0 ps0 hc0
    rw [hc] at j1
    simp only [Option.some.injEq, Prod.mk.injEq] at j1
    obtain ⟨-, rfl⟩ := j1
    have hlt : j < ps0.length := by rw [← j2]; exact (List.getElem?_eq_some_iff.1 hy).1
    rcases j3 j _ (List.getElem?_eq_getElem hlt) with ⟨-, e2⟩ | ⟨_, y2, -, e2, -, e4, -⟩
    · obtain ⟨_, _, _, hyl⟩ := hF.params c n0 ps0 hc0 _ (List.getElem_mem hlt)
      rw [hy] at e2; cases e2
      have := hi.lRange hyl
      have := hm.next
      omega
    · rw [hy] at e2; cases e2; exact e4
  refine ⟨?_, ?_, ?_, by rw [hids]; have := hm.next; omega, ?_, ?_, ?_, ?_, ?_⟩
  · rw [hv, hm.rest]
  · intro g v hg; rw [← hm.otherL g v hg, hv]; simp [hg]
  · intro g c hg; rw [← hm.otherB g c hg, hv]; simp [hg]
  · intro c nc psc hc
    by_cases hcb : c = b
    · subst hcb
      rw [hb] at hc
      obtain ⟨rfl, rfl⟩ : n' = nc ∧ ps = psc := by simpa using hc
      refine ⟨ps'.set i q.ids.nextLocal, by rw [hv]; simp, by simpa using k2, ?_⟩
      intro j' y hy
      by_cases hij : j' = i
      · subst hij
        rw [hx] at hy; cases hy
        refine .inr ⟨d, q.ids.nextLocal, by simp, ?_, hm.next, by rw [hids]; omega, ?_, ?_⟩
        · rw [List.getElem?_set_self (by
            rw [k2]; exact (List.getElem?_eq_some_iff.1 hx).1)]
        · rw [hl', if_pos rfl, ← hq3, hsx]
        · rw [hl', if_neg (fun e => hnx e.symm), if_pos rfl]
      · rw [List.getElem?_set_ne (fun e => hij e.symm)]
        rcases k3 j' y hy with ⟨e1, e2⟩ | ⟨d2, y2, e1, e2, e3, e4, e5, e6⟩
        · refine .inl ⟨fun d2 => ?_, e2⟩
          simp only [List.mem_append, List.mem_singleton, Prod.mk.injEq, not_or]
          exact ⟨e1 d2, fun e => hij e.2.1⟩
        · have hyx : y ≠ x' := fun e => hij (hF.once c n' ps hb j' i x' (e ▸ hy) hx)
          obtain ⟨_, _, _, hyl⟩ := hF.params c n' ps hb y (List.mem_of_getElem? hy)
          have := hi.lRange hyl
          have := hm.next
          refine .inr ⟨d2, y2, by simp [e1], e2, e3, by rw [hids]; omega, ?_, ?_⟩
          · rw [hl2 y2 e4 (by omega), e5]
          · rw [hl2 y (by omega) hyx, e6]
    · obtain ⟨ps2, j1, j2, j3⟩ := hm.blocks c nc psc hc
      refine ⟨ps2, by rw [hv]; simp [hcb, j1], j2, ?_⟩
      intro j' y hy
      have hyx : y ≠ x' := fun e => hcb (hF.apart c b nc n' psc ps x' hc hb (e ▸ List.mem_of_getElem? hy) (List.mem_of_getElem? hx))
      obtain ⟨_, _, _, hyl⟩ := hF.params c nc psc hc y (List.mem_of_getElem? hy)
      have := hi.lRange hyl
      have := hm.next
      rcases j3 j' y hy with ⟨e1, e2⟩ | ⟨d2, y2, e1, e2, e3, e4, e5, e6⟩
      · refine .inl ⟨fun d2 => ?_, e2⟩
        simp only [List.mem_append, List.mem_singleton, Prod.mk.injEq, not_or]
        exact ⟨e1 d2, fun e => hcb e.1⟩
      · refine .inr ⟨d2, y2, by simp [e1], e2, e3, by rw [hids]; omega, ?_, ?_⟩
        · rw [hl2 y2 e4 (by omega), e5]
        · rw [hl2 y (by omega) hyx, e6]
  · intro v hv' hno
    have hvx : v ≠ x' := fun e => hno b n' ps i d (by simp) hb (e ▸ hx)
    have := hm.next
    rw [hl2 v (by omega) hvx]
    exact hm.same v hv' (fun b2 n2 ps2 i2 d2 he => hno b2 n2 ps2 i2 d2 (by simp [he]))
  · intro c hc
    by_cases hcb : c = b
    · subst hcb; rw [hb]; rfl
    · refine hm.known c ?_
      rw [hv] at hc
      simpa [hcb] using hc
  · intro v s0 hv' he
    rw [hl'] at he
    split at he
    · cases he
      refine ⟨x', by rw [← hsx, hq3], j, ?_⟩
      rw [← hsx, hq3] at hxl
      exact congrArg (·.2.2) (Option.some.inj hxl)
    · rw [if_neg (by omega)] at he
      exact hm.copied v s0 hv' he
  · -- the parameter at a place of a block, before
    have back : ∀ c n ps (j : Nat) y, q'.view.b f c = some (n, ps) → ps[j]? = some y →
        (y = q.ids.nextLocal ∧ c = b ∧ j = i) ∨ (y < q.ids.nextLocal ∧ ∃ n0 ps0, q.view.b f c = some (n0, ps0) ∧ ps0[j]? = some y) := by
      intro c n ps j y hc hy
      rw [hv] at hc
      simp only [true_and] at hc
      split at hc
      · rename_i hcb
        subst hcb
        simp only [Option.some.injEq, Prod.mk.injEq] at hc
        obtain ⟨-, rfl⟩ := hc
        by_cases hji : i = j
        · subst hji
          rw [List.getElem?_set_self (by rw [k2]; exact (List.getElem?_eq_some_iff.1 hx).1)] at hy
          cases hy
          exact .inl ⟨rfl, rfl, rfl⟩
        · rw [List.getElem?_set_ne hji] at hy
          exact .inr ⟨hbnd _ _ _ _ _ hq1 hy, _, _, hq1, hy⟩
      · exact .inr ⟨hbnd _ _ _ _ _ hc hy, _, _, hc, hy⟩
    intro c c' n1 n2 ps1 ps2 j j' y h1 h2 h3 h4 h5
    rcases back _ _ _ _ _ h1 h3 with ⟨e1, e2, e3⟩ | ⟨e1, _, _, e2, e3⟩
    · rcases back _ _ _ _ _ h2 h4 with ⟨g1, g2, g3⟩ | ⟨g1, -⟩
      · exact ⟨e2.trans g2.symm, e3.trans g3.symm⟩
      · omega
    · rcases back _ _ _ _ _ h2 h4 with ⟨g1, -⟩ | ⟨g1, _, _, g2, g3⟩
      · omega
      · exact hm.apart _ _ _ _ _ _ _ _ _ e2 g2 e3 g3 h5

theorem replaceFlat_mid {f : Func} {p : Program} (hi : CInv p) (hF : Foldable p f) : ∀ {E E0 : List (BB × Nat × VData)} {q q' : Program},
    Mid p q f E0 → ((E0 ++ E).map (fun e => (e.1, e.2.1))).Nodup →
    (∀ b i d, (b, i, d) ∈ E → ∃ n ps x, p.view.b f b = some (n, ps) ∧ ps[i]? = some x) →
    replaceFlat f E q = some q' → Mid p q' f (E0 ++ E)
  | [], E0, q, q', hm, _, _, h => by cases h; simpa using hm
  | (b, i, d) :: E, E0, q, q', hm, hn, hl, h => by
    unfold replaceFlat at h
    split at h
    · cases h
    · rename_i q1 h1
      have hnew : ∀ d, (b, i, d) ∉ E0 := by
        intro d' hd'
        rw [List.map_append, List.nodup_append] at hn
        exact hn.2.2 (b, i) (List.mem_map.2 ⟨_, hd', rfl⟩) (b, i) (by simp) rfl
      have hm1 := hm.step hi hF (hl b i d (by simp)) hnew h1
      have := replaceFlat_mid hi hF hm1 (by simpa using hn) (fun b i d hm => hl b i d (by simp [hm])) h
      simpa using this

/-- On a live handle of the function, the context finds the local data. -/
theorem ctx_local {p : Program} (hi : CInv p) {f : Func} {fd : FData} (hf : p.funcs.get? f = some fd) {v : Value} {d : VData}
    (h : fd.dfg.values.get? v = some d) : (p.ctx fd).data v = some d := by
  unfold Ctx.data
  split
  · rename_i x hx
    have h1 := hi.inv.gRange v x hx
    have h2 := hi.inv.lRange f v d ⟨fd, hf, h⟩
    have := hi.max
    omega
  · exact h

/-- Equal constants have equal values. -/
theorem alike_eval {p : Program} (hi : CInv p) {f : Func} {fd : FData} (hf : p.funcs.get? f = some fd)
    (he : ∀ v d es, fd.dfg.values.get? v = some d → d.kind = .aggregate es → ∀ e ∈ es, (fd.dfg.values.get? e).isSome) :
    ∀ (n : Nat) {x y : VData} {r : Interp.Val}, (∀ es, x.kind = .aggregate es → ∀ e ∈ es, (fd.dfg.values.get? e).isSome) →
      (∀ es, y.kind = .aggregate es → ∀ e ∈ es, (fd.dfg.values.get? e).isSome) → Alike (p.ctx fd) x y →
      Interp.evalConst fd.dfg.values.get? n x = some r → Interp.evalConst fd.dfg.values.get? n y = some r
  | 0, x, y, r, _, _, _, h => by cases h
  | n + 1, x, y, r, hx, hy, ha, h0 => by
    obtain ⟨tx, nx, kx, ux⟩ := x
    obtain ⟨ty, ny, ky, uy⟩ := y
    obtain ⟨h1, h2, h3⟩ := ha
    have h1 : tx = ty := h1
    subst h1
    replace h2 : shape kx = shape ky := h2
    replace h3 : All2 (SameOrEq (p.ctx fd)) (operands kx) (operands ky) := h3
    cases kx with
    | integer i => cases ky <;> first | (cases h2; done) | (cases h2; exact h0)
    | zeroInit => cases ky <;> first | (cases h2; done) | (cases h2; exact h0)
    | undef => cases ky <;> first | (cases h2; done) | (cases h2; exact h0)
    | aggregate es =>
      cases ky with
      | aggregate es' =>
        replace hx : ∀ e ∈ es, (fd.dfg.values.get? e).isSome := hx es rfl
        replace hy : ∀ e ∈ es', (fd.dfg.values.get? e).isSome := hy es' rfl
        replace h3 : All2 (SameOrEq (p.ctx fd)) es es' := h3
        have h : (Interp.collect (fun e => (fd.dfg.values.get? e).bind (Interp.evalConst fd.dfg.values.get? n)) es).map .array = some r := h0
        show (Interp.collect (fun e => (fd.dfg.values.get? e).bind (Interp.evalConst fd.dfg.values.get? n)) es').map .array = some r
        rw [Option.map_eq_some_iff] at h ⊢
        obtain ⟨rs, h, rfl⟩ := h
        refine ⟨rs, ?_, rfl⟩
        clear h1 h2 h0
        induction h3 generalizing rs with
        | nil => exact h
        | @cons a b as bs hab _ ih =>
          unfold Interp.collect at h ⊢
          split at h
          · cases h
          · rename_i r0 hr0
            rw [Option.map_eq_some_iff] at h
            obtain ⟨rs', h, rfl⟩ := h
            have hb : (fd.dfg.values.get? b).bind (Interp.evalConst fd.dfg.values.get? n) = some r0 := by
              rcases hab with rfl | hab
              · exact hr0
              · obtain ⟨da, hda⟩ := Option.isSome_iff_exists.1 (hx a (by simp))
                obtain ⟨db, hdb⟩ := Option.isSome_iff_exists.1 (hy b (by simp))
                rw [hda] at hr0
                rw [hdb]
                cases hab with
                | mk k1 k2 k3 k4 k5 =>
                  rw [ctx_local hi hf hda] at k1; cases k1
                  rw [ctx_local hi hf hdb] at k2; cases k2
                  exact alike_eval hi hf he n (fun es e => he a _ es hda e) (fun es e => he b _ es hdb e)
                    ⟨k3, k4, All2.of_eq_len (shape_length k4) (fun i h h' => .inr (k5 i h h'))⟩ hr0
            rw [hb]
            dsimp only
            rw [ih (fun e he => hx e (by simp [he])) (fun e he => hy e (by simp [he])) rs' h]
            rfl
      | _ => cases h2
    | _ => cases h0

/-- What the replacements of block parameters rest on. -/
structure Sound (p : Program) (f : Func) (fd : FData) (E : List (BB × Nat × VData)) : Prop where
  live : ∀ b i d, (b, i, d) ∈ E → ∃ n ps x, p.view.b f b = some (n, ps) ∧ ps[i]? = some x
  passed : ∀ b i d, (b, i, d) ∈ E → ∀ u du as, fd.dfg.values.get? u = some du → (b, as) ∈ transfers du.kind →
    ∃ a da, as[i]? = some a ∧ fd.dfg.values.get? a = some da ∧ da.kind.isConst = true ∧ Alike (p.ctx fd) da d
  from_ : ∀ b i d, (b, i, d) ∈ E → ∃ u du as a da, fd.dfg.values.get? u = some du ∧ (b, as) ∈ transfers du.kind ∧ as[i]? = some a ∧
    fd.dfg.values.get? a = some da ∧ da.kind.isConst = true ∧ d.shape = da.shape

theorem evalBbs_sound {p : Program} (hi : CInv p) {f : Func} {fd : FData} (hf : p.funcs.get? f = some fd) {n : Nat} {bs : List BB}
    {us : List Value → List Value} (hus : ∀ l v, v ∈ us l ↔ v ∈ l) {l : List (BB × List (Nat × VData))} (h : evalBbs (p.ctx fd) n fd us bs = some l) : Sound p f fd (flat l) := by
  obtain ⟨h1, -⟩ := evalBbs_spec h
  have key : ∀ b i d, (b, i, d) ∈ flat l → ∃ x, fd.dfg.bbs.get? b = some x ∧ i < x.params.length ∧
      constArg (p.ctx fd) n fd b i (us x.usedBy) none = some (some d) := by
    intro b i d hm
    obtain ⟨ev, hm, he⟩ := mem_flat.1 hm
    obtain ⟨-, x, hx, hev⟩ := h1 b ev hm
    obtain ⟨k1, k2⟩ := (evalParams_spec hev).1 i d he
    exact ⟨x, hx, List.mem_range.1 k1, k2⟩
  have targ : ∀ b x, fd.dfg.bbs.get? b = some x → ∀ u, u ∈ us x.usedBy ↔ Targets p f u b := fun b x hx u => (hus _ _).trans <|
    hi.inv.blockUses f b x ⟨fd, hf, hx⟩ u
  -- the argument of a user is the one on the edge
  have arg : ∀ b x i, fd.dfg.bbs.get? b = some x → i < x.params.length → ∀ u du, fd.dfg.values.get? u = some du →
      (∀ as, (b, as) ∈ transfers du.kind → argAt fd b i u = as[i]?) := by
    intro b x i hx hi' u du hu as he
    have hty := hi.wellTyped.locals f u du ⟨fd, hf, hu⟩
    unfold argAt
    rw [hu]
    dsimp only
    generalize du.ty = T at hty
    generalize du.kind = K at hty he
    cases hty with
    | branch h1 h2 h3 h4 h5 h6 =>
      rename_i c t f' ta fa ts fs
      simp only [transfers, List.mem_cons, Prod.mk.injEq, List.not_mem_nil, or_false] at he
      rcases he with ⟨rfl, rfl⟩ | ⟨rfl, rfl⟩
      · simp
      · dsimp only
        split
        · rename_i e
          exfalso
          obtain ⟨e1, e2⟩ := h6 e
          obtain ⟨y, ⟨fd', hf', hy⟩, hall⟩ := h3
          rw [hf] at hf'; cases hf'
          rw [hx] at hy; cases hy
          have l1 := hall.length
          have l2 := h5.length
          rw [e2] at l2
          simp at l2
          omega
        · rfl
    | jump _ _ =>
      simp only [transfers, List.mem_cons, Prod.mk.injEq, List.not_mem_nil, or_false] at he
      obtain ⟨rfl, rfl⟩ := he
      rfl
    | _ => cases he
  refine ⟨?_, ?_, ?_⟩
  · intro b i d hm
    obtain ⟨x, hx, hi', -⟩ := key b i d hm
    exact ⟨x.name, x.params, _, by rw [view_b_self hf, hx]; rfl, List.getElem?_eq_getElem hi'⟩
  · intro b i d hm u du as hu he
    obtain ⟨x, hx, hi', hc⟩ := key b i d hm
    obtain ⟨k1, -⟩ := constArg_spec hc
    obtain ⟨a, da, e1, e2⟩ := k1 u ((targ b x hx u).2 ⟨du, ⟨fd, hf, hu⟩, (transfers_targets he).1⟩)
    rw [arg b x i hx hi' u du hu as he] at e1
    exact ⟨a, da, e1, e2⟩
  · intro b i d hm
    obtain ⟨x, hx, hi', hc⟩ := key b i d hm
    obtain ⟨k1, -, k2, -⟩ := constArg_spec hc
    obtain ⟨u, hu, a, da, e1, e2, e3⟩ := k2 rfl
    obtain ⟨du, ⟨fd', hf', hdu⟩, ht⟩ := (targ b x hx u).1 hu
    rw [hf] at hf'; cases hf'
    have : ∃ as, (b, as) ∈ transfers du.kind := by
      generalize du.kind = K at ht
      cases K with
      | branch c t f ts fs =>
        simp only [targets, List.mem_cons, List.not_mem_nil, or_false] at ht
        rcases ht with rfl | rfl
        · exact ⟨ts, by simp [transfers]⟩
        · exact ⟨fs, by simp [transfers]⟩
      | jump t as =>
        simp only [targets, List.mem_cons, List.not_mem_nil, or_false] at ht
        subst ht
        exact ⟨as, by simp [transfers]⟩
      | _ => cases ht
    obtain ⟨as, he⟩ := this
    obtain ⟨a', da', f1, f2, f3, -⟩ := k1 u hu
    rw [e1] at f1; cases f1
    rw [e2] at f2; cases f2
    rw [arg b x i hx hi' u du hdu as he] at e1
    exact ⟨u, du, as, a, da, hdu, he, e1, e2, f3, e3⟩

theorem passSim_of_get {rt rt' : Interp.Rt} {Kept : Value → Prop} {fd fd' : FData} : ∀ {ps ps' as : List Value}, ps'.length = ps.length →
    (∀ (i : Nat) x a, ps[i]? = some x → as[i]? = some a → Kept a ∧ ∃ y, ps'[i]? = some y ∧
      ((y = x ∧ ∀ d, fd.dfg.values.get? x = some d → isGlobal x = false ∧ ∃ d', fd'.dfg.values.get? x = some d' ∧ d'.kind.isConst = d.kind.isConst) ∨
       (¬ Kept y ∧ (fd'.dfg.values.get? y).isSome ∧
        ∀ fr fr' v, fr.func = fd → fr'.func = fd' → Interp.evalValue rt fr a = some v → Interp.evalValue rt' fr' x = some v))) →
    Interp.PassSim rt rt' Kept fd fd' (ps.zip as) (ps'.zip as)
  | [], [], as, _, _ => by simp only [List.zip_nil_left]; exact .nil
  | x :: ps, y :: ps', [], _, _ => .nil
  | x :: ps, y :: ps', a :: as, hl, h => by
    obtain ⟨ha, y', hy, h0⟩ := h 0 x a rfl rfl
    cases hy
    have ih := passSim_of_get (rt := rt) (rt' := rt') (Kept := Kept) (fd := fd) (fd' := fd') (ps := ps) (ps' := ps') (as := as) (by simpa using hl)
      (fun i x a hx ha => h (i + 1) x a (by simpa using hx) (by simpa using ha))
    simp only [List.zip_cons_cons]
    rcases h0 with ⟨rfl, h0⟩ | ⟨h1, h2, h3⟩
    · exact .keep ha h0 ih
    · exact .fold ha h1 h2 h3 ih
  | [], _ :: _, _, hl, _ => by simp at hl
  | _ :: _, [], _, hl, _ => by simp at hl

theorem edge_typed {p : Program} (hw : WellTyped p) {f : Func} {u : Value} {du : VData} (hu : LocalVal p f u du) {b : BB} {as : List Value}
    (he : (b, as) ∈ transfers du.kind) : ∃ ts x, Block p f b x ∧ All2 (HasTy p f) x.params ts ∧ All2 (HasTy p f) as ts := by
  have hty := hw.locals f u du hu
  generalize du.ty = T at hty
  generalize du.kind = K at hty he
  cases hty with
  | branch h1 h2 h3 h4 h5 h6 =>
    simp only [transfers, List.mem_cons, Prod.mk.injEq, List.not_mem_nil, or_false] at he
    rcases he with ⟨rfl, rfl⟩ | ⟨rfl, rfl⟩
    · obtain ⟨x, k1, k2⟩ := h2; exact ⟨_, x, k1, k2, h4⟩
    · obtain ⟨x, k1, k2⟩ := h3; exact ⟨_, x, k1, k2, h5⟩
  | jump h1 h2 =>
    simp only [transfers, List.mem_cons, Prod.mk.injEq, List.not_mem_nil, or_false] at he
    obtain ⟨rfl, rfl⟩ := he
    obtain ⟨x, k1, k2⟩ := h1; exact ⟨_, x, k1, k2, h2⟩
  | _ => cases he

theorem hasTy_unique {p : Program} (hi : CInv p) {f : Func} {v : Value} {d : VData} {t : Ty} (hd : LocalVal p f v d) (h : HasTy p f v t) :
    t = d.ty := by
  obtain ⟨x, hx | hx, rfl⟩ := h
  · have h1 := hi.inv.gRange v x hx
    have h2 := hi.inv.lRange f v d hd
    have := hi.max
    omega
  · obtain ⟨_, e1, e2⟩ := hx
    obtain ⟨_, e3, e4⟩ := hd
    rw [e1] at e3; cases e3; rw [e2] at e4; cases e4; rfl

/-- The function after the replacements does the same. -/
theorem funcSim_params {p q : Program} (hi : CInv p) {f : Func} {fd : FData} (hF : Foldable p f) (hf : p.funcs.get? f = some fd)
    {E : List (BB × Nat × VData)} (hS : Sound p f fd E) (hM : Mid p q f E) (rt rt' : Interp.Rt) (hdep : rt'.depth = rt.depth) :
    ∃ fd', q.funcs.get? f = some fd' ∧
      Interp.FuncSim rt rt' Interp.NoAlloc True (fun v => (p.view.l f v).isSome ∨ isGlobal v = true) fd fd' := by
  have hhead : q.view.head f = p.view.head f := by rw [hM.rest]
  have hlay : q.view.lay f = p.view.lay f := by rw [hM.rest]
  simp only [Program.view, hf, Option.map_some] at hhead hlay
  obtain ⟨fd', hf', hh⟩ := Option.map_eq_some_iff.1 hhead
  rw [hf'] at hlay
  simp only [Option.map_some, Option.some.injEq] at hlay
  simp only [Prod.mk.injEq] at hh
  have hL : ∀ v, shapeOf (fd.dfg.values.get? v) = p.view.l f v := fun v => (view_l_self hf v).symm
  have hL' : ∀ v, shapeOf (fd'.dfg.values.get? v) = q.view.l f v := fun v => (view_l_self hf' v).symm
  have hlive : ∀ v d, fd.dfg.values.get? v = some d → v < p.ids.nextLocal ∧ localStart ≤ v := by
    intro v d hd
    have := hi.lRange (f := f) (v := v) (s := d.shape) (by rw [← hL, hd]; rfl)
    exact ⟨this.2, this.1⟩
  have hng : ∀ v d, fd.dfg.values.get? v = some d → isGlobal v = false := fun v d hd =>
    CInv.local_not_global hi hf (by rw [hd]; rfl)
  -- a value that is no block parameter stays
  have hsame : ∀ v d, fd.dfg.values.get? v = some d → (∀ i, d.kind ≠ .blockArgRef i) →
      ∃ d', fd'.dfg.values.get? v = some d' ∧ d'.ty = d.ty ∧ d'.kind = d.kind := by
    intro v d hd hk
    have h1 := hM.same v (hlive v d hd).1 (fun b n ps i d2 _ hb hx => by
      obtain ⟨t, m, j, e⟩ := hF.params b n ps hb v (List.mem_of_getElem? hx)
      rw [← hL, hd] at e
      unfold shapeOf at e
      simp only [Option.map_some, Option.some.injEq, Prod.mk.injEq] at e
      exact hk j e.2.2)
    rw [← hL, ← hL', hd] at h1
    obtain ⟨d', e1, e2, _, e3⟩ := shapeOf_some h1
    exact ⟨d', e1, e2, e3⟩
  have hconsts : Interp.ConstsKept fd.dfg.values.get? fd'.dfg.values.get? := by
    intro v d hd hc
    refine hsame v d hd (fun i e => ?_)
    rw [e] at hc; cases hc
  have helems : ∀ v d es, fd.dfg.values.get? v = some d → d.kind = .aggregate es → ∀ e ∈ es, (fd.dfg.values.get? e).isSome := by
    intro v d es hd hk e he
    have := hF.elems v d.ty d.name es (by rw [← hL, hd, ← hk]; rfl) e he
    rw [← hL] at this
    cases h : fd.dfg.values.get? e with
    | none => rw [h] at this; cases this
    | some _ => rfl
  have hkept : ∀ v d o, fd.dfg.values.get? v = some d → o ∈ operands d.kind → (p.view.l f o).isSome ∨ isGlobal o = true := by
    intro v d o hd ho
    rcases hi.inv.closedL f v o ⟨d, ⟨fd, hf, hd⟩, ho⟩ with ⟨x, hx⟩ | ⟨x, hx⟩
    · right
      have h1 := hi.inv.gRange o x hx
      have h2 := hi.max
      unfold isGlobal
      simp only [Bool.and_eq_true, decide_eq_true_eq]
      omega
    · left
      obtain ⟨fd2, e1, e2⟩ := hx
      rw [hf] at e1; cases e1
      rw [← hL, e2]; rfl
  -- an edge
  have hedge : ∀ v d t as, fd.dfg.values.get? v = some d → (t, as) ∈ transfers d.kind →
      Interp.EdgeSim rt rt' (fun v => (p.view.l f v).isSome ∨ isGlobal v = true) fd fd' t as as := by
    intro v d t as hd he x hx
    obtain ⟨ps', hb', hlen, hps⟩ := hM.blocks t x.name x.params (by rw [view_b_self hf, hx]; rfl)
    rw [view_b_self hf'] at hb'
    cases hx' : fd'.dfg.bbs.get? t with
    | none => rw [hx'] at hb'; cases hb'
    | some x' =>
      rw [hx'] at hb'
      unfold bshapeOf at hb'
      simp only [Option.map_some, Option.some.injEq, Prod.mk.injEq] at hb'
      refine ⟨x', rfl, ?_⟩
      rw [hb'.2]
      refine passSim_of_get hlen (fun i y a hy ha => ⟨hkept v d a hd ((transfers_targets he).2 a (List.mem_of_getElem? ha)), ?_⟩)
      obtain ⟨ty, m, j, hyl⟩ := hF.params t x.name x.params (by rw [view_b_self hf, hx]; rfl) y (List.mem_of_getElem? hy)
      rcases hps i y hy with ⟨e1, e2⟩ | ⟨dc, z, e1, e2, e3, e4, e5, e6⟩
      · refine ⟨y, e2, .inl ⟨rfl, fun dy hdy => ⟨hng y dy hdy, ?_⟩⟩⟩
        have h1 := hM.same y (hlive y dy hdy).1 (fun b n ps i2 d2 hE hb hx2 => by
          have := hF.apart t b x.name n x.params ps y (by rw [view_b_self hf, hx]; rfl) hb (List.mem_of_getElem? hy) (List.mem_of_getElem? hx2)
          subst this
          rw [view_b_self hf, hx] at hb
          unfold bshapeOf at hb
          simp only [Option.map_some, Option.some.injEq, Prod.mk.injEq] at hb
          rw [← hb.2] at hx2
          have := hF.once t x.name x.params (by rw [view_b_self hf, hx]; rfl) i i2 y hy hx2
          subst this
          exact e1 d2 hE)
        rw [← hL, ← hL', hdy] at h1
        obtain ⟨d', f1, _, _, f2⟩ := shapeOf_some h1
        exact ⟨d', f1, by rw [f2]⟩
      · refine ⟨z, e2, .inr ⟨?_, ?_, ?_⟩⟩
        · have hyr := hi.lRange hyl
          rintro (h1 | h1)
          · obtain ⟨s, hs⟩ := Option.isSome_iff_exists.1 h1
            have := hi.lRange hs
            omega
          · unfold isGlobal at h1
            simp only [Bool.and_eq_true, decide_eq_true_eq] at h1
            omega
        · rw [← hL', hyl] at e5
          cases hz : fd'.dfg.values.get? z with
          | none => rw [hz] at e5; cases e5
          | some _ => rfl
        · intro fr fr' r hfr hfr' hev
          obtain ⟨a', da, g1, g2, g3, g4⟩ := hS.passed t i dc e1 v d as hd he
          rw [ha] at g1; cases g1
          obtain ⟨u0, du0, as0, a0, da0, k1, k2, k3, k4, k5, k6⟩ := hS.from_ t i dc e1
          rw [← hL'] at e6
          obtain ⟨dy', m1, m2, m3, m4⟩ := shapeOf_some e6
          have hyn : isGlobal y = false := by
            cases hdy : fd.dfg.values.get? y with
            | none => rw [← hL, hdy] at hyl; cases hyl
            | some dy => exact hng y dy hdy
          have k6' : dc.kind = da0.kind := by
            unfold VData.shape at k6
            simp only [Prod.mk.injEq] at k6
            exact k6.2.2
          have hcy : dy'.kind.isConst = true := by rw [m4, k6']; exact k5
          unfold Interp.evalValue at hev ⊢
          rw [hng a da g2] at hev
          rw [hyn]
          simp only [Bool.false_eq_true, if_false] at hev ⊢
          rw [hfr, g2] at hev
          rw [hfr', m1, hdep]
          dsimp only at hev ⊢
          rw [if_pos g3] at hev
          rw [if_pos hcy]
          have h2 := alike_eval hi hf helems rt.depth (fun es e => helems a da es g2 e)
            (fun es e => helems a0 da0 es k4 (by rw [← k6']; exact e)) g4 hev
          exact (Interp.evalConst_kept (D := Interp.NoAlloc) hconsts rt.depth m2 m4 h2).1
  refine ⟨fd', hf', hh.1, hh.2.1, hh.2.2, by rw [hlay], hconsts, ?_, ?_, ?_⟩
  · intro v d _ hd
    by_cases hk : ∃ b n ps i dc, (b, i, dc) ∈ E ∧ p.view.b f b = some (n, ps) ∧ ps[i]? = some v
    · obtain ⟨b, n, ps, i, dc, hE, hb, hx⟩ := hk
      obtain ⟨ps', hb', hlen, hps⟩ := hM.blocks b n ps hb
      rcases hps i v hx with ⟨e1, _⟩ | ⟨dc', z, e1, e2, e3, e4, e5, e6⟩
      · exact absurd hE (e1 dc)
      · rw [← hL'] at e6
        obtain ⟨dy', m1, m2, m3, m4⟩ := shapeOf_some e6
        refine ⟨dy', m1, ?_⟩
        obtain ⟨u0, du0, as0, a0, da0, k1, k2, k3, k4, k5, k6⟩ := hS.from_ b i dc' e1
        obtain ⟨ts, x, ⟨fd2, hf2, hxb⟩, hx1, hx2⟩ := edge_typed hi.wellTyped ⟨fd, hf, k1⟩ k2
        rw [hf] at hf2; cases hf2
        rw [view_b_self hf, hxb] at hb
        unfold bshapeOf at hb
        simp only [Option.map_some, Option.some.injEq, Prod.mk.injEq] at hb
        rw [← hb.2] at hx
        obtain ⟨t, ht⟩ : ∃ t, ts[i]? = some t := ⟨_, List.getElem?_eq_getElem (by
          rw [← hx1.length]; exact (List.getElem?_eq_some_iff.1 hx).1)⟩
        have t1 := hasTy_unique hi ⟨fd, hf, hd⟩ (hx1.get i _ _ hx ht)
        have t2 := hasTy_unique hi ⟨fd, hf, k4⟩ (hx2.get i _ _ k3 ht)
        unfold VData.shape at k6
        simp only [Prod.mk.injEq] at k6
        rw [m2, k6.1, ← t2, t1]
    · have h1 := hM.same v (hlive v d hd).1 (fun b n ps i dc hE hb hx => hk ⟨b, n, ps, i, dc, hE, hb, hx⟩)
      rw [← hL, ← hL', hd] at h1
      obtain ⟨d', e1, e2, _, _⟩ := shapeOf_some h1
      exact ⟨d', e1, e2⟩
  · intro b is hb
    refine ⟨is, by rw [hlay]; exact hb, ?_⟩
    have hin : ∀ v ∈ is, ∃ js, (b, js) ∈ fd.layout.bbs ∧ v ∈ js := fun v hv => ⟨is, insts_mem hb, hv⟩
    clear hb
    induction is with
    | nil => exact .nil
    | cons v is ih =>
      refine .keep (fun d hd => ?_) (ih (fun w hw => hin w (List.mem_cons_of_mem _ hw)))
      obtain ⟨js, hjs, hvj⟩ := hin v (by simp)
      obtain ⟨d', e1, e2, e3⟩ := hsame v d hd (fun i e => hF.listed fd.layout b js v d.ty d.name i (by simp [Program.view, hf]) hjs hvj
        (by rw [← hL, hd, ← e]; rfl))
      refine ⟨hng v d hd, fun _ h => h, d', e1, e2, ?_⟩
      rw [e3]
      have ho := fun o => hkept v d o hd
      have hed := fun t as => hedge v d t as hd
      generalize d.kind = K at ho hed
      cases K with
      | branch c t f' ts fs =>
        exact .branch (ho c (by simp [operands])) (hed t ts (by simp [transfers])) (hed f' fs (by simp [transfers]))
      | jump t as => exact .jump (hed t as (by simp [transfers]))
      | _ => exact .same rfl ho
  · intro v d hv _ hd
    obtain ⟨d', e1, e2, e3⟩ := hsame v d hd (fun i e => by
      obtain ⟨t, m, k, h1, h2⟩ := hF.args fd.ty fd.name fd.params (by simp [Program.view, hf]) v hv
      rw [← hL, hd] at h1
      exact h2 i (by rw [← e]; exact (congrArg (·.2.2) (Option.some.inj h1)).symm))
    exact ⟨d', e1, by rw [e3]⟩

theorem replaceParam_reach {f : Func} {b : BB} {i : Nat} {d : VData} {q q' : Program} (hr : Reach (fun p op => op.Ok p ∧ op.NoRemoveFunc) q)
    (h : replaceParam f b i d q = some q') : Reach (fun p op => op.Ok p ∧ op.NoRemoveFunc) q' := by
  unfold replaceParam at h
  simp only [Option.bind_eq_bind, Option.bind_eq_some_iff] at h
  obtain ⟨fd, hf, B, hB, x, hx, param, hparam, q1, h1, ⟨q2, w⟩, h2, fd2, hf2, B2, hB2, h3⟩ := h
  refine .step (.step (.step hr (op := .replaceLocal f x (.val (.raw d))) ⟨trivial, trivial⟩ h1) (op := .newLocal f (.val (.raw param.clone))) ⟨rfl, trivial⟩ ?_)
    (op := .setBbParams f b (B2.params.set i w)) ⟨trivial, trivial⟩ h3
  simp [Program.step, h2]

theorem replaceFlat_reach {f : Func} : ∀ {E : List (BB × Nat × VData)} {q q' : Program}, Reach (fun p op => op.Ok p ∧ op.NoRemoveFunc) q →
    replaceFlat f E q = some q' → Reach (fun p op => op.Ok p ∧ op.NoRemoveFunc) q' ∧ q'.ids.nextGlobal = q.ids.nextGlobal
  | [], q, q', hr, h => by cases h; exact ⟨hr, rfl⟩
  | (b, i, d) :: E, q, q', hr, h => by
    unfold replaceFlat at h
    split at h
    · cases h
    · rename_i q1 h1
      obtain ⟨_, _, _, _, _, _, _, hv⟩ := replaceParam_view h1
      obtain ⟨a, e⟩ := replaceFlat_reach (replaceParam_reach hr h1) h
      exact ⟨a, e.trans (congrArg (fun v : View => v.ids.nextGlobal) hv)⟩

section
variable {p q : Program} {f : Func} {fd : FData} {E : List (BB × Nat × VData)}

/-- A value is still there, with its type. -/
theorem Mid.typesKept (hi : CInv p) (hF : Foldable p f) (hf : p.funcs.get? f = some fd) (hS : Sound p f fd E) (hM : Mid p q f E) {v : Value} {t : Ty}
    {n : Option Str} {k : VKind} (hv : p.view.l f v = some (t, n, k)) : ∃ n' k', q.view.l f v = some (t, n', k') ∧
      ((n' = n ∧ k' = k) ∨ (k'.isConst = true ∧ ∃ i, k = .blockArgRef i)) := by
  obtain ⟨fd2, hf2, hsim⟩ := funcSim_params hi hF hf hS hM ⟨p, fun _ => none, 0, 0, true⟩ ⟨p, fun _ => none, 0, 0, true⟩ rfl
  obtain ⟨x, ⟨fd3, hf3, hx3⟩, e⟩ := view_l_iff.1 hv
  rw [hf] at hf3; cases hf3
  obtain ⟨d', hd', ht⟩ := hsim.types v x (.inl (by rw [hv]; rfl)) hx3
  have hq : q.view.l f v = some (d'.ty, d'.name, d'.kind) := view_l_iff.2 ⟨d', ⟨fd2, hf2, hd'⟩, rfl⟩
  have et : d'.ty = t := ht.trans (congrArg (·.1) e)
  refine ⟨d'.name, d'.kind, by rw [hq, et], ?_⟩
  by_cases hk : ∃ b nm ps i dc, (b, i, dc) ∈ E ∧ p.view.b f b = some (nm, ps) ∧ ps[i]? = some v
  · obtain ⟨b, nm, ps, i, dc, hE, hb, hx0⟩ := hk
    obtain ⟨ps', hb', hlen, hps⟩ := hM.blocks b nm ps hb
    rcases hps i v hx0 with ⟨e1, _⟩ | ⟨dc', z, e1, e2, e3, e4, e5, e6⟩
    · exact absurd hE (e1 dc)
    · right
      obtain ⟨u0, du0, as0, a0, da0, k1, k2, k3, k4, k5, k6⟩ := hS.from_ b i dc' e1
      rw [hq, k6] at e6
      obtain ⟨t', m, j, e7⟩ := hF.params b nm ps hb v (List.mem_of_getElem? hx0)
      rw [hv] at e7
      refine ⟨?_, j, congrArg (·.2.2) (Option.some.inj e7)⟩
      rw [show d'.kind = da0.kind from congrArg (·.2.2) (Option.some.inj e6)]
      exact k5
  · left
    have h1 := hM.same v (hi.lRange hv).2 (fun b nm ps i dc hE hb hx => hk ⟨b, nm, ps, i, dc, hE, hb, hx⟩)
    rw [hv, hq] at h1
    exact (Prod.mk.inj (Prod.mk.inj (Option.some.inj h1)).2)

/-- What a value is now, some value was before. -/
theorem Mid.kindsKept (hf : p.funcs.get? f = some fd) (hS : Sound p f fd E) (hM : Mid p q f E) {v : Value} {t : Ty}
    {n : Option Str} {k : VKind} (hv : q.view.l f v = some (t, n, k)) : ∃ w, p.view.l f w = some (t, n, k) := by
  by_cases hlt : p.ids.nextLocal ≤ v
  · obtain ⟨x, hx, -⟩ := hM.copied v _ hlt hv
    exact ⟨x, hx⟩
  · by_cases hk : ∃ b nm ps i dc, (b, i, dc) ∈ E ∧ p.view.b f b = some (nm, ps) ∧ ps[i]? = some v
    · obtain ⟨b, nm, ps, i, dc, hE, hb, hx0⟩ := hk
      obtain ⟨ps', hb', hlen, hps⟩ := hM.blocks b nm ps hb
      rcases hps i v hx0 with ⟨e1, _⟩ | ⟨dc', z, e1, e2, e3, e4, e5, e6⟩
      · exact absurd hE (e1 dc)
      · obtain ⟨u0, du0, as0, a0, da0, k1, k2, k3, k4, k5, k6⟩ := hS.from_ b i dc' e1
        refine ⟨a0, ?_⟩
        rw [← hv, e6, k6]
        exact view_l_iff.2 ⟨da0, ⟨fd, hf, k4⟩, rfl⟩
    · have h1 := hM.same v (by omega) (fun b nm ps i dc hE hb hx => hk ⟨b, nm, ps, i, dc, hE, hb, hx⟩)
      exact ⟨v, by rw [← h1]; exact hv⟩

/-- A parameter of a block is a block parameter, and has the type of the one that was in its place. -/
theorem Mid.paramsKept (hi : CInv p) (hF : Foldable p f) (hM : Mid p q f E) {b : BB} {n : Option Str} {ps : List Value} (hb : p.view.b f b = some (n, ps)) :
    ∃ ps', q.view.b f b = some (n, ps') ∧ ps'.length = ps.length ∧ ∀ (i : Nat) x, ps[i]? = some x → ∃ x' t m j, ps'[i]? = some x' ∧
      p.view.l f x = some (t, m, .blockArgRef j) ∧ q.view.l f x' = some (t, m, .blockArgRef j) ∧ (x' = x ∨ p.ids.nextLocal ≤ x') := by
  obtain ⟨ps', hb', hlen, hps⟩ := hM.blocks b n ps hb
  refine ⟨ps', hb', hlen, fun i x hx => ?_⟩
  obtain ⟨t, m, j, e⟩ := hF.params b n ps hb x (List.mem_of_getElem? hx)
  rcases hps i x hx with ⟨e1, e2⟩ | ⟨dc', z, e1, e2, e3, e4, e5, e6⟩
  · refine ⟨x, t, m, j, e2, e, ?_, .inl rfl⟩
    rw [hM.same x (hi.lRange e).2 (fun b2 n2 ps2 i2 d2 he hb2 hx2 => ?_)]
    · exact e
    · have := hF.apart b b2 n n2 ps ps2 x hb hb2 (List.mem_of_getElem? hx) (List.mem_of_getElem? hx2)
      subst this
      rw [hb] at hb2
      simp only [Option.some.injEq, Prod.mk.injEq] at hb2
      obtain ⟨-, rfl⟩ := hb2
      have := hF.once b n ps hb i i2 x hx hx2
      subst this
      exact e1 d2 he
  · exact ⟨z, t, m, j, e2, e, by rw [e5]; exact e, .inr e3⟩

theorem Mid.cinv (hi : CInv p) (hF : Foldable p f) (hf : p.funcs.get? f = some fd) (hS : Sound p f fd E) (hM : Mid p q f E)
    (hr : Reach (fun p op => op.Ok p ∧ op.NoRemoveFunc) q) (hg : q.ids.nextGlobal = p.ids.nextGlobal) : CInv q := by
  have hG : ∀ v, q.view.g v = p.view.g v := fun v => by rw [hM.rest]
  have hH : ∀ v, q.view.head v = p.view.head v := fun v => by rw [hM.rest]
  have hTy : ∀ g v t, HasTy p g v t → HasTy q g v t := by
    rintro g v t ⟨x, hx | hx, rfl⟩
    · have := hG v
      rw [view_g_iff.2 ⟨x, hx, rfl⟩] at this
      obtain ⟨y, hy, e⟩ := view_g_iff.1 this
      exact ⟨y, .inl hy, congrArg (·.1) e⟩
    · have hv : p.view.l g v = some (x.ty, x.name, x.kind) := view_l_iff.2 ⟨x, hx, rfl⟩
      by_cases h : g = f
      · subst h
        obtain ⟨n', k', e, -⟩ := hM.typesKept hi hF hf hS hv
        obtain ⟨y, hy, e⟩ := view_l_iff.1 e
        exact ⟨y, .inr hy, congrArg (·.1) e⟩
      · rw [← hM.otherL g v h] at hv
        obtain ⟨y, hy, e⟩ := view_l_iff.1 hv
        exact ⟨y, .inr hy, congrArg (·.1) e⟩
  have hP : ∀ g b ts, ParamTys p g b ts → ParamTys q g b ts := by
    rintro g b ts ⟨B, hB, ha⟩
    have hv := view_b_iff.2 ⟨B, hB, rfl, rfl⟩
    by_cases h : g = f
    · subst h
      obtain ⟨ps', e1, e2, e3⟩ := hM.paramsKept hi hF hv
      obtain ⟨B', hB', -, e⟩ := view_b_iff.1 e1
      refine ⟨B', hB', ?_⟩
      rw [e]
      refine All2.of_get (by rw [e2, ha.length]) (fun i a t h1 h2 => ?_)
      have hlt : i < B.params.length := by rw [← e2]; exact (List.getElem?_eq_some_iff.1 h1).1
      obtain ⟨x', t', m, j, k1, k2, k3, -⟩ := e3 i _ (List.getElem?_eq_getElem hlt)
      rw [h1] at k1; cases k1
      obtain ⟨y, hy, ey⟩ := view_l_iff.1 k3
      obtain ⟨z, hz, ez⟩ := view_l_iff.1 k2
      have := hasTy_unique hi hz (ha.get i _ t (List.getElem?_eq_getElem hlt) h2)
      refine ⟨y, .inr hy, ?_⟩
      rw [show y.ty = t' from congrArg (·.1) ey, this]
      exact (congrArg (·.1) ez).symm
    · rw [← hM.otherB g b h] at hv
      obtain ⟨B', hB', -, e⟩ := view_b_iff.1 hv
      exact ⟨B', hB', by rw [e]; exact ha.mono (hTy g)⟩
  have hFn : ∀ g t, FuncTy p g t → FuncTy q g t := by
    rintro g t ⟨gd, hgd, rfl⟩
    have := hH g
    simp only [Program.view, hgd, Option.map_some] at this
    obtain ⟨gd', h1, h2⟩ := Option.map_eq_some_iff.1 this
    exact ⟨gd', h1, congrArg (·.1) h2⟩
  refine ⟨hr, by rw [hg]; exact hi.max, ?_, ⟨?_, ?_⟩⟩
  · intro g l hl
    have hl' : p.view.lay g = some l := by rw [← hl, hM.rest]
    obtain ⟨h1, h2⟩ := hi.lays g l hl'
    refine ⟨h1, fun b is hb => ⟨?_, fun v hv => ?_⟩⟩
    · obtain ⟨⟨n, ps⟩, e⟩ := Option.isSome_iff_exists.1 (h2 b is hb).1
      by_cases h : g = f
      · subst h
        obtain ⟨ps', e1, -⟩ := hM.paramsKept hi hF e
        rw [e1]; rfl
      · rw [hM.otherB g b h, e]; rfl
    · obtain ⟨⟨t, n, k⟩, e⟩ := Option.isSome_iff_exists.1 ((h2 b is hb).2 v hv)
      by_cases h : g = f
      · subst h
        obtain ⟨_, _, e1, -⟩ := hM.typesKept hi hF hf hS e
        rw [e1]; rfl
      · rw [hM.otherL g v h, e]; rfl
  · intro g v x hx
    have hv : q.view.l g v = some (x.ty, x.name, x.kind) := view_l_iff.2 ⟨x, hx, rfl⟩
    obtain ⟨w, hw⟩ : ∃ w, p.view.l g w = some (x.ty, x.name, x.kind) := by
      by_cases h : g = f
      · subst h; exact hM.kindsKept hf hS hv
      · exact ⟨v, by rw [← hM.otherL g v h]; exact hv⟩
    obtain ⟨y, hy, e⟩ := view_l_iff.1 hw
    have := hi.wellTyped.locals g w y hy
    rw [show y.kind = x.kind from congrArg (·.2.2) e, show y.ty = x.ty from congrArg (·.1) e] at this
    exact this.mono (fun v _ t => hTy g v t) (fun b _ ts => hP g b ts) (fun h _ t => hFn h t)
  · intro v x hx
    have := hG v
    rw [view_g_iff.2 ⟨x, hx, rfl⟩] at this
    obtain ⟨y, hy, e⟩ := view_g_iff.1 this.symm
    have := hi.wellTyped.globals v y hy
    rw [show y.kind = x.kind from congrArg (·.2.2) e, show y.ty = x.ty from congrArg (·.1) e] at this
    refine this.mono (fun w _ t ht => ?_) (fun _ _ _ h => h) (fun _ _ _ h => h)
    obtain ⟨z, hz, rfl⟩ := ht
    have := hG w
    rw [view_g_iff.2 ⟨z, hz, rfl⟩] at this
    obtain ⟨z', hz', e⟩ := view_g_iff.1 this
    exact ⟨z', hz', congrArg (·.1) e⟩

theorem Mid.foldable (hi : CInv p) (hF : Foldable p f) (hf : p.funcs.get? f = some fd) (hS : Sound p f fd E) (hM : Mid p q f E) {g : Func}
    (hG : Foldable p g) : Foldable q g := by
  have hH : q.view.head = p.view.head := by rw [hM.rest]
  have hL : q.view.lay = p.view.lay := by rw [hM.rest]
  by_cases h : g = f
  · subst h
    have hpar : ∀ {b n ps} {i : Nat} {y}, q.view.b g b = some (n, ps) → ps[i]? = some y → ∃ ps0 x t m j, p.view.b g b = some (n, ps0) ∧ ps0[i]? = some x ∧
        q.view.l g y = some (t, m, .blockArgRef j) ∧ ((y = x ∧ y < p.ids.nextLocal) ∨ p.ids.nextLocal ≤ y) := by
      intro b n ps i y hb hy
      obtain ⟨⟨n0, ps0⟩, hb0⟩ := Option.isSome_iff_exists.1 (hM.known b (by rw [hb]; rfl))
      obtain ⟨ps', e1, e2, e3⟩ := hM.paramsKept hi hF hb0
      rw [hb] at e1
      simp only [Option.some.injEq, Prod.mk.injEq] at e1
      obtain ⟨rfl, rfl⟩ := e1
      have hlt : i < ps0.length := by rw [← e2]; exact (List.getElem?_eq_some_iff.1 hy).1
      obtain ⟨x', t, m, j, k1, k2, k3, k4⟩ := e3 i _ (List.getElem?_eq_getElem hlt)
      rw [hy] at k1; cases k1
      refine ⟨ps0, _, t, m, j, hb0, List.getElem?_eq_getElem hlt, k3, ?_⟩
      rcases k4 with k4 | k4
      · exact .inl ⟨k4, by rw [k4]; exact (hi.lRange k2).2⟩
      · exact .inr k4
    have hback : ∀ {v t m i}, (p.view.l g v).isSome → q.view.l g v = some (t, m, .blockArgRef i) → p.view.l g v = some (t, m, .blockArgRef i) := by
      intro v t m i hv e
      obtain ⟨⟨t0, n0, k0⟩, e0⟩ := Option.isSome_iff_exists.1 hv
      obtain ⟨n', k', e1, e2⟩ := hM.typesKept hi hF hf hS e0
      rw [e] at e1
      simp only [Option.some.injEq, Prod.mk.injEq] at e1
      obtain ⟨rfl, rfl, rfl⟩ := e1
      rcases e2 with ⟨rfl, rfl⟩ | ⟨e2, -⟩
      · exact e0
      · cases e2
    refine ⟨?_, ?_, ?_, ?_, ?_, ?_⟩
    · intro b n ps hb x hx
      obtain ⟨i, hi'⟩ := List.getElem?_of_mem hx
      obtain ⟨_, _, t, m, j, -, -, e, -⟩ := hpar hb hi'
      exact ⟨t, m, j, e⟩
    · intro b n ps hb i j y hx hy
      obtain ⟨ps0, x, _, _, _, h1, h2, -, h3⟩ := hpar hb hx
      obtain ⟨ps1, x', _, _, _, h4, h5, -, h6⟩ := hpar hb hy
      rw [h1] at h4; cases h4
      rcases h3 with ⟨rfl, h3⟩ | h3
      · rcases h6 with ⟨rfl, h6⟩ | h6
        · exact hF.once b n ps0 h1 i j _ h2 h5
        · omega
      · exact (hM.apart b b n n ps ps i j y hb hb hx hy h3).2
    · intro b b' n n' ps ps' y hb hb' hx hy
      obtain ⟨i, hx⟩ := List.getElem?_of_mem hx
      obtain ⟨j, hy⟩ := List.getElem?_of_mem hy
      obtain ⟨ps0, x, _, _, _, h1, h2, -, h3⟩ := hpar hb hx
      obtain ⟨ps1, x', _, _, _, h4, h5, -, h6⟩ := hpar hb' hy
      rcases h3 with ⟨rfl, h3⟩ | h3
      · rcases h6 with ⟨rfl, h6⟩ | h6
        · exact hF.apart b b' n n' ps0 ps1 _ h1 h4 (List.mem_of_getElem? h2) (List.mem_of_getElem? h5)
        · omega
      · exact (hM.apart b b' n n' ps ps' i j y hb hb' hx hy h3).1
    · intro l b is v t m i hl hb hv e
      rw [hL] at hl
      exact hF.listed l b is v t m i hl hb hv (hback (((hi.lays g l hl).2 b is hb).2 v hv) e)
    · rw [hH]
      intro t n ps hh v hv
      obtain ⟨t', m, k, e, hk⟩ := hF.args t n ps hh v hv
      obtain ⟨n', k', e1, e2⟩ := hM.typesKept hi hF hf hS e
      rcases e2 with ⟨rfl, rfl⟩ | ⟨-, i, rfl⟩
      · exact ⟨_, _, _, e1, hk⟩
      · exact absurd rfl (hk i)
    · intro v t m es hv e he
      obtain ⟨w, hw⟩ := hM.kindsKept hf hS hv
      obtain ⟨⟨t0, n0, k0⟩, e0⟩ := Option.isSome_iff_exists.1 (hF.elems w t m es hw e he)
      obtain ⟨_, _, e1, -⟩ := hM.typesKept hi hF hf hS e0
      rw [e1]; rfl
  · have e1 : q.view.l g = p.view.l g := funext (fun v => hM.otherL g v h)
    have e2 : q.view.b g = p.view.b g := funext (fun b => hM.otherB g b h)
    refine ⟨?_, ?_, ?_, ?_, ?_, ?_⟩
    · rw [e1, e2]; exact hG.params
    · rw [e2]; exact hG.once
    · rw [e2]; exact hG.apart
    · rw [e1, hL]; exact hG.listed
    · rw [e1, hH]; exact hG.args
    · rw [e1]; exact hG.elems

theorem Mid.proper (hi : CInv p) (hF : Foldable p f) (hf : p.funcs.get? f = some fd) (hS : Sound p f fd E) (hM : Mid p q f E) {g : Func}
    (hG : Foldable p g) (hP : ParamsProper p g) : ParamsProper q g := by
  have hq := hM.foldable hi hF hf hS hG
  have hH : q.view.head = p.view.head := by rw [hM.rest]
  refine ⟨?_, ?_⟩
  · rw [hH]
    intro t n ps hh v hv s hs
    obtain ⟨t', m, k, e, hk⟩ := hG.args t n ps hh v hv
    have h1 := hP.1 t n ps hh v hv _ e
    by_cases h : g = f
    · subst h
      obtain ⟨n', k', e1, e2⟩ := hM.typesKept hi hF hf hS e
      rw [hs] at e1; cases e1
      rcases e2 with ⟨rfl, rfl⟩ | ⟨-, i, rfl⟩
      · exact h1
      · exact absurd rfl (hk i)
    · rw [hM.otherL g v h, e] at hs
      cases hs; exact h1
  · intro l b is v s t n ps _ _ _ _ _ hb x hx s' hs'
    obtain ⟨_, _, i, e⟩ := hq.params t n ps hb x hx
    rw [e] at hs'; cases hs'
    exact .inr ⟨i, rfl⟩

end

end ConstFold
end Koopa
