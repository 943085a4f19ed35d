import Verif.Props.DceSweep
import Verif.Props.ParamFold
/-!
C68: taking out unused block parameters does not panic.
-/
namespace Koopa
open Spec Dce ConstFold

namespace Dce

theorem unusedParams_total {fd : FData} : ∀ {ps : List Value} {n : Nat}, (∀ x ∈ ps, (fd.dfg.values.get? x).isSome) → ∃ m, unusedParams fd n ps = some m
  | [], _, _ => ⟨_, rfl⟩
  | x :: ps, n, h => by
    obtain ⟨d, hd⟩ := Option.isSome_iff_exists.1 (h x (by simp))
    obtain ⟨m, hm⟩ := unusedParams_total (ps := ps) (n := n + 1) (fun y hy => h y (by simp [hy]))
    unfold unusedParams
    rw [hd]
    dsimp only
    rw [hm]
    exact ⟨_, rfl⟩

theorem unusedBbs_total {fd : FData} (h : ∀ b x, fd.dfg.bbs.get? b = some x → ∀ v ∈ x.params, (fd.dfg.values.get? v).isSome) :
    ∀ bs : List BB, ∃ l, unusedBbs fd bs = some l
  | [] => ⟨_, rfl⟩
  | b :: bs => by
    obtain ⟨l, hl⟩ := unusedBbs_total h bs
    unfold unusedBbs
    cases hb : fd.dfg.bbs.get? b with
    | none => exact ⟨l, hl⟩
    | some x =>
      obtain ⟨m, hm⟩ := unusedParams_total (n := 0) (h b x hb)
      dsimp only
      rw [hm]
      dsimp only
      rw [hl]
      exact ⟨_, rfl⟩

theorem unusedParams_sublist {fd : FData} : ∀ {ps : List Value} {n : Nat} {m : List (Nat × Value)}, unusedParams fd n ps = some m →
    (m.map (·.2)).Sublist ps
  | [], _, _, h => by cases h; exact .slnil
  | x :: ps, n, m, h => by
    unfold unusedParams at h
    split at h
    · cases h
    · simp only [Option.map_eq_some_iff] at h
      obtain ⟨m', h, rfl⟩ := h
      have := unusedParams_sublist h
      split
      · exact this.cons_cons _
      · exact this.cons _

/-- Values without operands and targets that nothing uses can be removed. -/
theorem removeFree_total {f : Func} : ∀ {vs : List Value} {p : Program}, DInv p → vs.Nodup →
    (∀ v ∈ vs, ∃ t n k, p.view.l f v = some (t, n, k) ∧ operands k = [] ∧ targets k = []) →
    (∀ v ∈ vs, ∀ u, ¬ LocalUse p f u v) → ∃ p', removeAll f vs p = some p'
  | [], p, _, _, _, _ => ⟨p, rfl⟩
  | v :: vs, p, hi, hn, ht, hu => by
    rw [List.nodup_cons] at hn
    obtain ⟨t, n, k, he, hk1, hk2⟩ := ht v (by simp)
    obtain ⟨x, ⟨fd, hf, hx⟩, ex⟩ := view_l_iff.1 he
    have hk : x.kind = k := congrArg (·.2.2) ex
    have hub : x.usedBy = [] := by
      cases hc : x.usedBy with
      | nil => rfl
      | cons u l => exact absurd ((hi.inv.localUses f v x ⟨fd, hf, hx⟩ u).1 (by rw [hc]; simp)) (hu v (by simp) u)
    obtain ⟨p1, h1⟩ : ∃ p1, p.removeLocal f v = some p1 := by
      have hx' : (p.ctx fd).d.values.get? v = some x := hx
      have h1 : x.kind.valueUses = [] := by rw [valueUses_eq, hk, hk1]
      have h2 : x.kind.bbUses = [] := by rw [bbUses_eq, hk, hk2]
      unfold Program.removeLocal Program.onDfg Ctx.removeValue
      simp only [hf, hx', hub, h1, h2, Option.bind_eq_bind, Option.bind_some, guard, if_true]
      exact ⟨_, rfl⟩
    have hi1 := hi.removeLocal h1
    obtain ⟨_, _, _, hv⟩ := removeLocal_view h1
    obtain ⟨p', hp'⟩ := removeFree_total (vs := vs) hi1 hn.2 (fun w hw => by
      rw [hv]
      dsimp only
      rw [if_neg (fun e : f = f ∧ w = v => hn.1 (e.2 ▸ hw))]
      exact ht w (by simp [hw])) (fun w hw u hlu => by
      obtain ⟨y, hy, ho⟩ := hlu
      have hyv : p1.view.l f u = some y.shape := view_l_iff.2 ⟨y, hy, rfl⟩
      rw [hv] at hyv
      dsimp only at hyv
      split at hyv
      · cases hyv
      · obtain ⟨z, hz, ez⟩ := view_l_iff.1 hyv
        have hzk : z.kind = y.kind := congrArg (·.2.2) ez
        exact hu w (by simp [hw]) u ⟨z, hz, by rw [hzk]; exact ho⟩)
    exact ⟨p', by simp only [removeAll, h1]; exact hp'⟩

/-- A use is seen in the view. -/
theorem use_of_sub {p q : Program} {f : Func} {u v : Value} (h : ∀ s, q.view.l f u = some s → p.view.l f u = some s)
    (hu : LocalUse q f u v) : LocalUse p f u v := by
  obtain ⟨y, hy, ho⟩ := hu
  obtain ⟨z, hz, ez⟩ := view_l_iff.1 (h _ (view_l_iff.2 ⟨y, hy, rfl⟩))
  have hzk : z.kind = y.kind := congrArg (·.2.2) ez
  exact ⟨z, hz, by rw [hzk]; exact ho⟩

theorem dropAllParams_total {f : Func} {o : Orders} (hF : o.Fair) : ∀ {l : List (BB × List (Nat × Value))} {p : Program}, DInv p →
    (∀ b m, (b, m) ∈ l → (p.view.b f b).isSome) → (gone l).Nodup →
    (∀ v ∈ gone l, ∃ t n k, p.view.l f v = some (t, n, k) ∧ operands k = [] ∧ targets k = []) →
    (∀ v ∈ gone l, ∀ u, ¬ LocalUse p f u v) → ∃ p', dropAllParams f o l p = some p'
  | [], p, _, _, _, _, _ => ⟨p, rfl⟩
  | (b, m) :: l, p, hi, hb, hn, hk, hu => by
    have hg : gone ((b, m) :: l) = m.map (·.2) ++ gone l := by simp [gone]
    rw [hg] at hn hk hu
    obtain ⟨hn1, hn2, hn3⟩ := List.nodup_append.1 hn
    obtain ⟨s, hs⟩ := Option.isSome_iff_exists.1 (hb b m (by simp))
    obtain ⟨fd, x, hf, hx⟩ : ∃ fd x, p.funcs.get? f = some fd ∧ fd.dfg.bbs.get? b = some x := by
      cases hf : p.funcs.get? f with
      | none => simp [Program.view, hf] at hs; cases hs
      | some fd =>
        rw [view_b_self hf] at hs
        obtain ⟨x, hx, -⟩ := Option.map_eq_some_iff.1 hs
        exact ⟨fd, x, rfl, hx⟩
    obtain ⟨p1, h1⟩ : ∃ p1, p.setBbParams f b (dropAt (m.map (·.1)) 0 x.params) = some p1 := by
      have hx' : (p.ctx fd).d.bbs.get? b = some x := hx
      unfold Program.setBbParams Program.onDfg Ctx.setBbParams Ctx.modBb
      simp only [hf, hx', Option.bind_eq_bind, Option.bind_some]
      exact ⟨_, rfl⟩
    have i1 := hi.setBbParams h1
    obtain ⟨_, _, -, hv1⟩ := setBbParams_view h1
    have hl1 : p1.view.l = p.view.l := by rw [hv1]
    have hp := (hF.map p1 m).map (·.2)
    obtain ⟨p2, h2⟩ := removeFree_total (vs := (o.map p1 m).map (·.2)) i1 (hp.nodup_iff.2 hn1)
      (fun v hv => by rw [hl1]; exact hk v (by simp [hp.mem_iff.1 hv]))
      (fun v hv u hlu => hu v (List.mem_append.2 (.inl (hp.mem_iff.1 hv))) u (use_of_sub (fun s e => by rw [← hl1]; exact e) hlu))
    have hd : dropParams f o b m p = some p2 := by
      unfold dropParams
      simp only [hf, hx, h1, h2, Option.bind_eq_bind, Option.bind_some]
    obtain ⟨i2, hv⟩ := dropParams_spec hF hi hd
    obtain ⟨p', hp'⟩ := dropAllParams_total hF (l := l) i2 (fun c m' hm => by
      have := hb c m' (by simp [hm])
      rw [hv]
      dsimp only
      split
      · rw [hs]; rfl
      · exact this) hn2 (fun v hv' => by
      rw [hv]
      dsimp only
      rw [if_neg (fun e : f = f ∧ v ∈ m.map (·.2) => hn3 v e.2 v hv' rfl)]
      exact hk v (List.mem_append.2 (.inr hv'))) (fun v hv' u hlu => hu v (List.mem_append.2 (.inr hv')) u (use_of_sub (fun s e => by
      rw [hv] at e
      dsimp only at e
      split at e
      · cases e
      · exact e) hlu))
    exact ⟨p', by simp only [dropAllParams, hd]; exact hp'⟩

/-- Branches and jumps mention local values only. -/
def ArgsLocal (p : Program) (f : Func) : Prop :=
  ∀ u t n k, p.view.l f u = some (t, n, k) → targets k ≠ [] → ∀ a ∈ operands k, (p.view.l f a).isSome

theorem dropArgs_total {b : BB} {is : List Nat} {k : VKind} (h : targets k ≠ []) : ∃ k' kept, dropArgs b is k = some (k', kept) := by
  cases k <;> first | exact absurd rfl h | skip
  · unfold dropArgs; dsimp only; split <;> exact ⟨_, _, rfl⟩
  · exact ⟨_, _, rfl⟩

theorem cleanArgs_total {f : Func} {u : Value} : ∀ {vs : List Value} {p : Program}, DInv p → (∀ v ∈ vs, LocalUse p f u v ∧ (p.view.l f v).isSome) →
    ∃ p', cleanArgs f vs p = some p'
  | [], p, _, _ => ⟨p, rfl⟩
  | v :: vs, p, hi, h => by
    obtain ⟨h1, h2⟩ := h v (by simp)
    obtain ⟨s, hs⟩ := Option.isSome_iff_exists.1 h2
    obtain ⟨d, ⟨fd, hf, hd⟩, -⟩ := view_l_iff.1 hs
    have hu := (hi.inv.localUses f v d ⟨fd, hf, hd⟩ u).2 h1
    have he : d.usedBy.isEmpty = false := by
      cases hc : d.usedBy with
      | nil => rw [hc] at hu; cases hu
      | cons _ _ => rfl
    obtain ⟨p', hp'⟩ := cleanArgs_total (vs := vs) hi (fun w hw => h w (by simp [hw]))
    refine ⟨p', ?_⟩
    unfold cleanArgs
    simp only [hf, Option.bind_some, hd, he, Bool.false_eq_true, if_false]
    exact hp'

theorem updateUser_total {f : Func} {o : Orders} (hF : o.Fair) {b : BB} {is : List Nat} {u : Value} {p : Program} (hi : DInv p) (hA : ArgsLocal p f)
    (hu : ∃ t n k, p.view.l f u = some (t, n, k) ∧ targets k ≠ []) : ∃ p', updateUser f o b is u p = some p' := by
  obtain ⟨t, n, k, he, hk⟩ := hu
  obtain ⟨d, ⟨fd, hf, hd⟩, ed⟩ := view_l_iff.1 he
  have hdk : d.kind = k := congrArg (·.2.2) ed
  obtain ⟨k', kept, hdr⟩ := dropArgs_total (b := b) (is := is) hk
  have hops : ∀ v ∈ operands k', v ∈ operands k := by
    have := operands_dropB (b := b) (is := is) (k := k)
    unfold dropB at this
    rw [hdr] at this
    exact this
  obtain ⟨htg, hkept⟩ := dropArgs_spec hdr
  obtain ⟨o1, o2⟩ := hi.inv.opsLive hf hd
  rw [hdk] at o1 o2
  obtain ⟨c, hc⟩ := hi.inv.replace_total (data := { d.clone with kind := k' }) hf hd (fun v hv => o1 v (hops v hv)) (fun v hv => o2 v (by rw [← htg]; exact hv))
  have h1 : p.replaceLocal f u (.val (.raw { d.clone with kind := k' })) = some (p.putCtx f fd c) := by
    simp only [Program.replaceLocal, Program.onDfg, hf, Option.bind_eq_bind, Option.bind_some]
    show (Option.bind (some _) _) = _
    simp only [Option.bind_some, hc]
  generalize p.putCtx f fd c = p1 at h1
  have i1 := hi.replaceLocal h1
  obtain ⟨fd', data, old, hf', hb', ho, hv⟩ := replaceLocal_view h1
  have hdata : data.kind = k' := by cases hb'; rfl
  have hself : p1.view.l f u = some data.shape := by rw [hv]; exact if_pos ⟨rfl, rfl⟩
  obtain ⟨x, hx, hs⟩ := view_l_iff.1 hself
  have hxk : x.kind = k' := (congrArg (·.2.2) hs).trans hdata
  obtain ⟨p', h2⟩ := cleanArgs_total (u := u) (vs := o.set p1 kept) i1 (fun v hv' => by
    have hm := hkept v ((hF.set _ _ _).1 hv')
    refine ⟨⟨x, hx, by rw [hxk]; exact hm⟩, ?_⟩
    rw [hv]
    dsimp only
    split
    · rfl
    · exact hA u t n k he hk v (hops v hm))
  refine ⟨p', ?_⟩
  unfold updateUser
  simp only [hf, hd, hdk, hdr, Option.bind_eq_bind, Option.bind_some, h1, h2]

theorem onKind_args {p q : Program} {f : Func} {b : BB} {is : List Nat} {P : Value → Prop} [DecidablePred P]
    (hv : ∀ v, q.view.l f v = if P v then (p.view.l f v).map (onKind (dropB b is)) else p.view.l f v) (hA : ArgsLocal p f) : ArgsLocal q f := by
  have some' : ∀ a, (p.view.l f a).isSome → (q.view.l f a).isSome := by
    intro a h
    rw [hv]
    split
    · simpa using h
    · exact h
  have tg : ∀ k, targets (dropB b is k) = targets k := by
    intro k
    unfold dropB
    split
    · rename_i r hr
      exact (dropArgs_spec (kept := r.2) (k' := r.1) hr).1
    · rfl
  intro u t n k he hk a ha
  rw [hv] at he
  split at he
  · obtain ⟨⟨t', n', k0⟩, e1, e2⟩ := Option.map_eq_some_iff.1 he
    cases e2
    exact some' a (hA u _ _ k0 e1 (by rw [← tg k0]; exact hk) a (operands_dropB a ha))
  · exact some' a (hA u _ _ _ he hk a ha)

theorem updateUsers_total {f : Func} {o : Orders} (hF : o.Fair) {b : BB} {is : List Nat} : ∀ {us : List Value} {p : Program}, DInv p → us.Nodup → ArgsLocal p f →
    (∀ u ∈ us, ∃ t n k, p.view.l f u = some (t, n, k) ∧ targets k ≠ []) → ∃ p', updateUsers f o b is us p = some p'
  | [], p, _, _, _, _ => ⟨p, rfl⟩
  | u :: us, p, hi, hn, hA, hu => by
    rw [List.nodup_cons] at hn
    obtain ⟨p1, h1⟩ := updateUser_total (b := b) (is := is) hF hi hA (hu u (by simp))
    have h1' : updateUsers f o b is [u] p = some p1 := by simp only [updateUsers, h1]
    obtain ⟨i1, hv⟩ := updateUsers_spec hF hi (by simp) h1'
    obtain ⟨p', hp'⟩ := updateUsers_total hF (b := b) (is := is) (us := us) i1 hn.2
      (onKind_args (p := p) (b := b) (is := is) (P := fun v => f = f ∧ v ∈ [u]) (fun v => by rw [hv]) hA) (fun w hw => by
        rw [hv]
        dsimp only
        rw [if_neg (fun e : f = f ∧ w ∈ [u] => hn.1 (by rw [← List.mem_singleton.1 e.2]; exact hw))]
        exact hu w (by simp [hw]))
    exact ⟨p', by simp only [updateUsers, h1]; exact hp'⟩

theorem updateAll_total {f : Func} {o : Orders} (hF : o.Fair) : ∀ {l : List (BB × List (Nat × Value))} {p : Program}, DInv p → ArgsLocal p f →
    (∀ b m, (b, m) ∈ l → (p.view.b f b).isSome) → ∃ p', updateAll f o l p = some p'
  | [], p, _, _, _ => ⟨p, rfl⟩
  | (b, m) :: l, p, hi, hA, hb => by
    obtain ⟨s, hs⟩ := Option.isSome_iff_exists.1 (hb b m (by simp))
    obtain ⟨fd, x, hf, hx⟩ : ∃ fd x, p.funcs.get? f = some fd ∧ fd.dfg.bbs.get? b = some x := by
      cases hf : p.funcs.get? f with
      | none => simp [Program.view, hf] at hs; cases hs
      | some fd =>
        rw [view_b_self hf] at hs
        obtain ⟨x, hx, -⟩ := Option.map_eq_some_iff.1 hs
        exact ⟨fd, x, rfl, hx⟩
    obtain ⟨p1, h1⟩ := updateUsers_total hF (b := b) (is := m.map (·.1)) (us := o.set p x.usedBy) hi (hF.once _ _) hA (fun u hu => by
      obtain ⟨d, hd, ht⟩ := (hi.inv.blockUses f b x ⟨fd, hf, hx⟩ u).1 ((hF.set _ _ _).1 hu)
      exact ⟨d.ty, d.name, d.kind, view_l_iff.2 ⟨d, hd, rfl⟩, fun e => by rw [e] at ht; cases ht⟩)
    obtain ⟨i1, hv⟩ := updateUsers_spec hF hi (hF.once _ _) h1
    obtain ⟨p', hp'⟩ := updateAll_total hF (l := l) i1
      (onKind_args (p := p) (b := b) (is := m.map (·.1)) (P := fun v => f = f ∧ v ∈ o.set p x.usedBy) (fun v => by rw [hv]) hA) (fun c m' hm => by
        rw [hv]
        exact hb c m' (by simp [hm]))
    refine ⟨p', ?_⟩
    unfold updateAll
    simp only [hf, Option.bind_some, hx, h1]
    exact hp'

theorem nodup_of_once {l : List Value} (h : ∀ (i j : Nat) x, l[i]? = some x → l[j]? = some x → i = j) : l.Nodup := by
  unfold List.Nodup
  rw [List.pairwise_iff_getElem]
  intro i j hi hj hlt e
  have := h i j l[j] (by rw [← e]; exact List.getElem?_eq_getElem hi) (List.getElem?_eq_getElem hj)
  omega

theorem optBbParams_total {f : Func} {o : Orders} (hF : o.Fair) {p : Program} {fd : FData} (hi : DInv p) (hf : p.funcs.get? f = some fd)
    (hparams : ∀ b n ps, p.view.b f b = some (n, ps) → ∀ x ∈ ps, ∃ t m i, p.view.l f x = some (t, m, .blockArgRef i))
    (honce : ∀ b n ps, p.view.b f b = some (n, ps) → ∀ (i j : Nat) x, ps[i]? = some x → ps[j]? = some x → i = j)
    (hapart : ∀ b b' n n' ps ps' x, p.view.b f b = some (n, ps) → p.view.b f b' = some (n', ps') → x ∈ ps → x ∈ ps' → b = b')
    (hA : ArgsLocal p f) {bs : List BB} (hbs : bs.Nodup) : ∃ r, optBbParams f o bs p = some r := by
  have hB : ∀ b x, fd.dfg.bbs.get? b = some x → p.view.b f b = some (x.name, x.params) := fun b x hx => view_b_iff.2 ⟨x, ⟨fd, hf, hx⟩, rfl, rfl⟩
  obtain ⟨l, hl⟩ := unusedBbs_total (fd := fd) (fun b x hx v hv => by
    obtain ⟨t, m, i, e⟩ := hparams b _ _ (hB b x hx) v hv
    obtain ⟨d, hd, -⟩ := view_l_iff.1 e
    rw [get_localVal hf hd]; rfl) bs
  obtain ⟨hsub, hmem, -⟩ := unusedBbs_spec hl
  have hkeys : (l.map (·.1)).Nodup := hsub.nodup hbs
  have hgone : ∀ v ∈ gone l, ∃ b x d, fd.dfg.bbs.get? b = some x ∧ v ∈ x.params ∧ fd.dfg.values.get? v = some d ∧ d.usedBy = [] := by
    intro v hv
    simp only [gone, List.mem_flatMap, List.mem_map] at hv
    obtain ⟨⟨b, m⟩, hm, ⟨i, w⟩, hw, e⟩ := hv
    simp only at e
    subst e
    obtain ⟨x, hx, hu⟩ := hmem b m hm
    obtain ⟨j, -, hj, d, hd, hub⟩ := ((unusedParams_spec hu).2 i w).1 hw
    exact ⟨b, x, d, hx, List.mem_of_getElem? hj, hd, hub⟩
  have hnouse : ∀ v ∈ gone l, ∀ u, ¬ LocalUse p f u v := by
    intro v hv u hlu
    obtain ⟨b, x, d, hx, hvx, hd, hub⟩ := hgone v hv
    have := (hi.inv.localUses f v d ⟨fd, hf, hd⟩ u).2 hlu
    rw [hub] at this; cases this
  have hnod : (gone l).Nodup := by
    refine List.pairwise_flatMap.2 ⟨fun q hq => ?_, ?_⟩
    · obtain ⟨x, hx, hu⟩ := hmem q.1 q.2 hq
      exact (unusedParams_sublist hu).nodup (nodup_of_once (honce q.1 _ _ (hB _ _ hx)))
    · refine List.Pairwise.imp_of_mem (fun {a b} ha hb hne x hx y hy e => ?_) (List.pairwise_map.1 hkeys)
      subst e
      obtain ⟨xa, hxa, hua⟩ := hmem a.1 a.2 ha
      obtain ⟨xb, hxb, hub⟩ := hmem b.1 b.2 hb
      exact hne (hapart _ _ _ _ _ _ x (hB _ _ hxa) (hB _ _ hxb) ((unusedParams_sublist hua).subset hx) ((unusedParams_sublist hub).subset hy))
  obtain ⟨p1, h1⟩ := dropAllParams_total hF (l := l) hi (fun b m hm => by
    obtain ⟨x, hx, -⟩ := hmem b m hm
    rw [hB b x hx]; rfl) hnod (fun v hv => by
    obtain ⟨b, x, d, hx, hvx, -, -⟩ := hgone v hv
    obtain ⟨t, m, i, e⟩ := hparams b _ _ (hB b x hx) v hvx
    exact ⟨t, m, _, e, rfl, rfl⟩) hnouse
  obtain ⟨i1, hv⟩ := dropAllParams_spec hF hi hkeys h1
  obtain ⟨p2, h2⟩ := updateAll_total hF (l := l) i1 (fun u t n k he hk a ha => by
    rw [hv] at he ⊢
    dsimp only at he ⊢
    split at he
    · cases he
    · obtain ⟨d, hd, ed⟩ := view_l_iff.1 he
      have hdk : d.kind = k := congrArg (·.2.2) ed
      rw [if_neg (fun e : f = f ∧ a ∈ gone l => hnouse a e.2 u ⟨d, hd, by rw [hdk]; exact ha⟩)]
      exact hA u t n k he hk a ha) (fun b m hm => by
    obtain ⟨x, hx, -⟩ := hmem b m hm
    rw [hv]
    dsimp only
    rw [if_pos rfl, hB b x hx]; rfl)
  exact ⟨_, by unfold optBbParams; rw [hf]; dsimp only; rw [hl]; dsimp only; rw [h1]; dsimp only; rw [h2]; rfl⟩

end Dce

/-- C68: a round on a function does not panic if no needed instruction mentions a global. -/
theorem C68_round_partial {w : World} {input : Str} {p0 p : Program} {fs : List Func} {st : St} (ha : Accepted w input p0) (hfs : fs.Nodup)
    (h : Eliminates fs .new p0 st p) {f : Func} {fd : FData} (hf : p.funcs.get? f = some fd) (hnf : f ∉ fs) {o : Dce.Orders} (ho : o.Ok f)
    {n : Nat} (hn : (o.values p).length + fd.dfg.values.keys.length < n)
    (hno : ∀ v u y, Spec.Needed p f v → LocalUse p f v u → ¬ GlobalVal p u y) : ∃ r, round f n o st p = some r := by
  obtain ⟨st', ⟨p', c⟩, h1, h2⟩ := C68_mark_sweep_partial ha hfs h hf hnf (ho.values p) hn hno
  obtain ⟨gs, hg, -⟩ := C47_program_is_text ha
  obtain ⟨hD, hS, hT, hw⟩ := eliminates_inv h (ha.items hg).1.dinv ha.sane (fun _ _ hu => by cases hu) rfl
  obtain ⟨-, hag, -⟩ := dce_accepted ha hfs h
  have hagf := hag f hnf
  have hFo := ha.foldable f
  obtain ⟨l, l', ds, hlay, hds, -, hsw⟩ := sweep_spec hD h2
  have hlv : ∀ v s, p'.view.l f v = some s → p.view.l f v = some s := by
    intro v s e
    rw [hsw.rest] at e
    dsimp only at e
    split at e
    · cases e
    · exact e
  have hbv : ∀ b, p'.view.b f b = p0.view.b f b := by
    intro b
    rw [hsw.rest]
    exact congrFun hagf.b b
  obtain ⟨fd', hf'⟩ : ∃ fd', p'.funcs.get? f = some fd' := by
    have : p'.view.lay f = some l' := by rw [hsw.rest]; exact if_pos rfl
    obtain ⟨fd', hf', -⟩ := Option.map_eq_some_iff.1 (show (p'.funcs.get? f).map _ = some l' from this)
    exact ⟨fd', hf'⟩
  obtain ⟨r, hr⟩ := optBbParams_total ho.fair (bs := o.bbs p') hsw.inv hf' (fun b n ps e x hx => by
    rw [hbv] at e
    obtain ⟨t, m, i, ex⟩ := hFo.params b n ps e x hx
    refine ⟨t, m, i, ?_⟩
    have hx' : p.view.l f x = some (t, m, .blockArgRef i) := by rw [hagf.l]; exact ex
    rw [hsw.rest]
    dsimp only
    rw [if_neg (fun e' : f = f ∧ x ∈ ds => by
      obtain ⟨⟨bb, is, hb, hm⟩, -⟩ := (hds x).1 e'.2
      exact hFo.listed l bb is x t m i (by rw [← hagf.lay]; exact hlay) hb hm ex)]
    exact hx') (fun b n ps e => hFo.once b n ps (by rw [← hbv]; exact e))
    (fun b b' n n' ps ps' x e e' => hFo.apart b b' n n' ps ps' x (by rw [← hbv]; exact e) (by rw [← hbv]; exact e'))
    (fun u t n k he hk a ha' => by
      obtain ⟨d, hd, ed⟩ := view_l_iff.1 he
      have hdk : d.kind = k := congrArg (·.2.2) ed
      obtain ⟨d0, hd0, ed0⟩ := view_l_iff.1 (hlv u _ he)
      have hdk0 : d0.kind = k := congrArg (·.2.2) ed0
      have hne : Spec.Needed p f u := .effect hd0 (by
        rw [hdk0]
        cases k <;> first | exact absurd rfl hk | rfl)
      rcases hsw.inv.inv.closedL f u a ⟨d, hd, by rw [hdk]; exact ha'⟩ with ⟨y, hy⟩ | ⟨y, hy⟩
      · have : p'.view.g a = some y.shape := view_g_iff.2 ⟨y, hy, rfl⟩
        rw [hsw.rest] at this
        obtain ⟨z, hz, -⟩ := view_g_iff.1 this
        exact absurd hz (hno u a z hne ⟨d0, hd0, by rw [hdk0]; exact ha'⟩)
      · rw [view_l_iff.2 ⟨y, hy, rfl⟩]; rfl) (ho.once p')
  exact ⟨_, by unfold round; rw [hf]; dsimp only; rw [h1]; dsimp only; rw [h2]; dsimp only; rw [hr]; rfl⟩

/-- A block with a parameter that nothing uses, and a dead instruction. -/
def roundText : Str := "fun @main(): i32 {%e: %d = sub 6, 2 jump %b(1) %b(%x: i32): %c = add 1, 2 ret %c}".toList

/-- There are no globals, and a round changes the first function. -/
def roundCheck (p : Program) : Bool :=
  match p.funcLayout with
  | f :: _ => match p.funcs.get? f with
    | some fd => p.values.keys.isEmpty && decide (((keyOrders f).values p).length + fd.dfg.values.keys.length < 100) &&
      (match unusedBbs fd ((keyOrders f).bbs p) with | some l => !l.isEmpty | none => false)
    | none => false
  | [] => false

/-- The hypotheses are met by a function with an unused block parameter. -/
example : ∃ p f fd, Accepted someWorld roundText p ∧ Eliminates [] .new p .new p ∧ p.funcs.get? f = some fd ∧ (keyOrders f).Ok f ∧
    ((keyOrders f).values p).length + fd.dfg.values.keys.length < 100 ∧ (∀ v u y, Spec.Needed p f v → LocalUse p f v u → ¬ GlobalVal p u y) ∧
    ∃ l, unusedBbs fd ((keyOrders f).bbs p) = some l ∧ l ≠ [] := by
  obtain ⟨p, h, hq⟩ := acceptsWith_iff (input := roundText) (q := roundCheck) (by decide +kernel)
  unfold roundCheck at hq
  split at hq
  · rename_i f l hf
    split at hq
    · rename_i fd hfd
      simp only [Bool.and_eq_true, decide_eq_true_eq, List.isEmpty_iff] at hq
      obtain ⟨⟨h1, h2⟩, h3⟩ := hq
      refine ⟨p, f, fd, h, .nil, hfd, keyOrders_ok f, h2, fun v u y _ _ hy => ?_, ?_⟩
      · have : u ∈ p.values.keys := by rw [Map.mem_keys, show p.values.get? u = some y from hy]; rfl
        rw [h1] at this; cases this
      · split at h3
        · rename_i l' hl'
          refine ⟨l', hl', fun e => ?_⟩
          rw [e] at h3; cases h3
        · cases h3
    · cases hq
  · cases hq

end Koopa
