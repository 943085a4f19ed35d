import Verif.Lemmas.Front.ElabProg
import Verif.Lemmas.Front.BuildTotal
/-!
What holds of every program the IR generator makes, whether or not the text is accepted: handles are handed
out in order, operands are older than their users, and parameters stand where their data says.
-/
namespace Koopa
open Spec

/-- The facts. -/
structure Tidy (p : Program) : Prop where
  lr : ∀ g u s, p.view.l g u = some s → u < p.ids.nextLocal ∧ g < p.ids.nextFunc
  gr : ∀ u s, p.view.g u = some s → u < p.ids.nextGlobal
  br : ∀ g b n ps, p.view.b g b = some (n, ps) → b < p.ids.nextBb ∧ g < p.ids.nextFunc ∧ ∀ v ∈ ps, v < p.ids.nextLocal
  hr : ∀ g q, p.view.head g = some q → g < p.ids.nextFunc
  lop : ∀ g u t n k, p.view.l g u = some (t, n, k) → ∀ v ∈ operands k, v < u ∨ (p.view.g v).isSome
  gop : ∀ u t n k, p.view.g u = some (t, n, k) → ∀ v ∈ operands k, v < u
  arg : ∀ g u t n i, p.view.l g u = some (t, n, .funcArgRef i) → ∃ ft fn ps, p.view.head g = some (ft, fn, ps) ∧ u ∈ ps
  blk : ∀ g u t n i, p.view.l g u = some (t, n, .blockArgRef i) → ∃ b bn ps, p.view.b g b = some (bn, ps) ∧ u ∈ ps
  once : ∀ g b b' n n' ps ps' v, p.view.b g b = some (n, ps) → p.view.b g b' = some (n', ps') → v ∈ ps → v ∈ ps' → b = b'
  own : ∀ g g' b q q', p.view.b g b = some q → p.view.b g' b = some q' → g = g'
  noAlloc : ∀ g u t n i, p.view.l g u ≠ some (t, n, .globalAlloc i)
  keys : ∀ g l, p.view.lay g = some l → (l.bbs.map (·.1)).Nodup

/-- Nothing is lost; only names may change. -/
structure Grown (p p' : Program) : Prop where
  l : ∀ g u t n k, p.view.l g u = some (t, n, k) → ∃ n', p'.view.l g u = some (t, n', k)
  g : ∀ u t n k, p.view.g u = some (t, n, k) → ∃ n', p'.view.g u = some (t, n', k)
  insts : ∀ u ∈ p.view.insts, u ∈ p'.view.insts
  lay : ∀ g l b is u, p.view.lay g = some l → (b, is) ∈ l.bbs → u ∈ is →
    ∃ l' is', p'.view.lay g = some l' ∧ (b, is') ∈ l'.bbs ∧ u ∈ is'

theorem Grown.refl (p : Program) : Grown p p :=
  ⟨fun _ _ _ _ _ h => ⟨_, h⟩, fun _ _ _ _ h => ⟨_, h⟩, fun _ h => h, fun _ _ _ _ _ h h' h'' => ⟨_, _, h, h', h''⟩⟩

theorem Grown.trans {a b c : Program} (h : Grown a b) (h' : Grown b c) : Grown a c := by
  refine ⟨fun g u t n k hu => ?_, fun u t n k hu => ?_, fun u hu => h'.insts u (h.insts u hu), fun g l b is u h1 h2 h3 => ?_⟩
  · obtain ⟨n', h1⟩ := h.l g u t n k hu; exact h'.l g u t n' k h1
  · obtain ⟨n', h1⟩ := h.g u t n k hu; exact h'.g u t n' k h1
  · obtain ⟨l1, is1, h1, h2, h3⟩ := h.lay g l b is u h1 h2 h3; exact h'.lay g l1 b is1 u h1 h2 h3

theorem lay_head {p : Program} {g : Func} {l : Layout} (h : p.view.lay g = some l) : ∃ q, p.view.head g = some q := by
  unfold Program.view at h ⊢
  simp only [Option.map_eq_some_iff] at h ⊢
  obtain ⟨fd, hf, _⟩ := h
  exact ⟨_, fd, hf, rfl⟩

theorem LocalInst.build_live {q : Querier} {i : LocalInst} {d : VData} (hr : i.notRaw) (h : i.build q = some d) :
    (∀ v ∈ operands d.kind, (q.valueType v).isSome) ∧ (∀ n, d.kind ≠ .funcArgRef n) ∧ (∀ n, d.kind ≠ .blockArgRef n) ∧
      ∀ n, d.kind ≠ .globalAlloc n := by
  have h1 := LocalInst.build_ty (H := fun v t => q.valueType v = some t) (P := fun _ _ => True) (F := fun _ _ => True)
    (fun _ _ h => h) (fun _ _ _ _ _ => trivial) (fun _ _ _ => trivial) hr h
  refine ⟨fun v hv => ?_, ?_⟩
  · obtain ⟨t, ht⟩ := h1.live.1 v hv; rw [ht]; rfl
  · have h2 := (LocalInst.build_kind hr h).1
    rw [h2]
    cases i with
    | val j => cases j <;> first | exact hr.elim | exact ⟨by simp [LocalInst.toKind, ValInst.toKind], by simp [LocalInst.toKind, ValInst.toKind], by simp [LocalInst.toKind, ValInst.toKind]⟩
    | _ => exact ⟨by simp [LocalInst.toKind], by simp [LocalInst.toKind], by simp [LocalInst.toKind]⟩

theorem mem_paramHandles {n k : Nat} {v : Value} : v ∈ paramHandles n k ↔ n ≤ v ∧ v < n + k := by
  simp [paramHandles, List.mem_range'_1]

theorem paramSig_some {k : Nat → VKind} {next i : Nat} {ps : List (Option Str × Ty)} {w : Value} {s : Sig}
    (h : paramSig k next i ps w = some s) : next ≤ w ∧ w < next + ps.length ∧ ∃ j, s.2.2 = k j := by
  unfold paramSig at h
  split at h
  · cases h
  · obtain ⟨q, hq, rfl⟩ := Option.map_eq_some_iff.1 h
    have := (List.getElem?_eq_some_iff.1 hq).1
    exact ⟨by omega, by omega, _, rfl⟩

/-- What one step of the generator keeps. -/
def TidyStep (p p' : Program) : Prop := Tidy p → Tidy p' ∧ Grown p p'

theorem tidy_newLocal {p p' : Program} {f : Func} {i : LocalInst} {v : Value} (hr : i.notRaw)
    (h : p.newLocal f i = some (p', v)) : TidyStep p p' := by
  intro hp
  obtain ⟨fd, data, hf, hb, rfl, hv⟩ := newLocal_view h
  have hids : p'.ids = { p.ids with nextLocal := p.ids.nextLocal + 1 } := congrArg View.ids hv
  rw [querier_view hf] at hb
  obtain ⟨hop, ha, hbl, hga⟩ := LocalInst.build_live hr hb
  have hhd : ∃ q, p.view.head f = some q := ⟨_, by unfold Program.view; simp only [hf]; rfl⟩
  obtain ⟨q, hq⟩ := hhd
  have hl : ∀ g u s, p'.view.l g u = some s → (g = f ∧ u = p.ids.nextLocal ∧ s = data.shape) ∨ p.view.l g u = some s := by
    intro g u s hs
    rw [hv] at hs
    simp only at hs
    split at hs
    · rename_i hc; cases hs; exact .inl ⟨hc.1, hc.2, rfl⟩
    · exact .inr hs
  have hkeep : ∀ g u s, p.view.l g u = some s → p'.view.l g u = some s := by
    intro g u s hs
    rw [hv]; simp only
    rw [if_neg]
    · exact hs
    · rintro ⟨rfl, rfl⟩; have := (hp.lr _ _ _ hs).1; omega
  have eg : p'.view.g = p.view.g := by rw [hv]
  have eb : p'.view.b = p.view.b := by rw [hv]
  have eh : p'.view.head = p.view.head := by rw [hv]
  have el : p'.view.lay = p.view.lay := by rw [hv]
  have ei : p'.view.insts = p.view.insts := by rw [hv]
  refine ⟨⟨?_, ?_, ?_, ?_, ?_, ?_, ?_, ?_, ?_, ?_, ?_, ?_⟩, ⟨?_, ?_, ?_, ?_⟩⟩
  · intro g u s hs
    rw [hids]
    rcases hl g u s hs with ⟨rfl, rfl, _⟩ | hs
    · exact ⟨Nat.lt_succ_self _, hp.hr _ _ hq⟩
    · have := hp.lr _ _ _ hs; exact ⟨Nat.lt_succ_of_lt this.1, this.2⟩
  · rw [eg, hids]; exact hp.gr
  · rw [eb, hids]
    intro g b n ps hb
    obtain ⟨h1, h2, h3⟩ := hp.br g b n ps hb
    exact ⟨h1, h2, fun v hv => Nat.lt_succ_of_lt (h3 v hv)⟩
  · rw [eh, hids]; exact hp.hr
  · intro g u t n k hs w hw
    rw [eg]
    rcases hl g u _ hs with ⟨rfl, rfl, e⟩ | hs
    · cases e
      have := hop w hw
      simp only [Option.isSome_map] at this
      unfold View.val at this
      cases hgw : p.view.g w with
      | some _ => exact .inr rfl
      | none =>
        rw [hgw] at this
        obtain ⟨s, hs⟩ := Option.isSome_iff_exists.1 (by simpa using this : (p.view.l g w).isSome)
        exact .inl (hp.lr _ _ _ hs).1
    · exact hp.lop g u t n k hs w hw
  · rw [eg]; exact hp.gop
  · intro g u t n j hs
    rw [eh]
    rcases hl g u _ hs with ⟨rfl, rfl, e⟩ | hs
    · exact absurd (congrArg (fun x : Sig => x.2.2) e).symm (ha j)
    · exact hp.arg g u t n j hs
  · intro g u t n j hs
    rw [eb]
    rcases hl g u _ hs with ⟨rfl, rfl, e⟩ | hs
    · exact absurd (congrArg (fun x : Sig => x.2.2) e).symm (hbl j)
    · exact hp.blk g u t n j hs
  · rw [eb]; exact hp.once
  · rw [eb]; exact hp.own
  · intro g u t n j hs
    rcases hl g u _ hs with ⟨rfl, rfl, e⟩ | hs
    · exact absurd (congrArg (fun x : Sig => x.2.2) e).symm (hga j)
    · exact hp.noAlloc g u t n j hs
  · rw [el]; exact hp.keys
  · intro g u t n k hs; exact ⟨n, hkeep _ _ _ hs⟩
  · rw [eg]; intro u t n k hs; exact ⟨n, hs⟩
  · rw [ei]; exact fun _ h => h
  · rw [el]; exact fun _ _ _ _ _ h h' h'' => ⟨_, _, h, h', h''⟩

theorem GlobalInst.build_live {p : Program} {i : GlobalInst} {d : VData} (hr : i.notRaw) (h : i.build (globalQuerier p.values) = some d) :
    ∀ v ∈ operands d.kind, (p.view.g v).isSome := by
  intro v hv
  obtain ⟨t, x, hx, _⟩ := (GlobalInst.build_typed hr h).live.1 v hv
  have := view_g_iff.2 ⟨x, hx, rfl⟩
  rw [this]; rfl

theorem tidy_newGlobal {p p' : Program} {i : GlobalInst} {v : Value} (hr : i.notRaw)
    (h : p.newGlobal i = some (p', v)) : TidyStep p p' := by
  intro hp
  obtain ⟨data, hb, rfl, hv⟩ := newGlobal_view h
  have hids : p'.ids = { p.ids with nextGlobal := p.ids.nextGlobal + 1 } := congrArg View.ids hv
  have hop := GlobalInst.build_live hr hb
  have hg : ∀ u s, p'.view.g u = some s → (u = p.ids.nextGlobal ∧ s = data.shape) ∨ p.view.g u = some s := by
    intro u s hs
    rw [hv] at hs
    simp only at hs
    split at hs
    · rename_i hc; cases hs; exact .inl ⟨hc, rfl⟩
    · exact .inr hs
  have hkeep : ∀ u s, p.view.g u = some s → p'.view.g u = some s := by
    intro u s hs
    rw [hv]; simp only
    rw [if_neg]
    · exact hs
    · rintro rfl; have := hp.gr _ _ hs; omega
  have el : p'.view.l = p.view.l := by rw [hv]
  have eb : p'.view.b = p.view.b := by rw [hv]
  have eh : p'.view.head = p.view.head := by rw [hv]
  have ela : p'.view.lay = p.view.lay := by rw [hv]
  refine ⟨⟨?_, ?_, ?_, ?_, ?_, ?_, ?_, ?_, ?_, ?_, ?_, ?_⟩, ⟨?_, ?_, ?_, ?_⟩⟩
  · rw [el, hids]; exact hp.lr
  · intro u s hs
    rw [hids]
    rcases hg u s hs with ⟨rfl, _⟩ | hs
    · exact Nat.lt_succ_self _
    · exact Nat.lt_succ_of_lt (hp.gr _ _ hs)
  · rw [eb, hids]; exact hp.br
  · rw [eh, hids]; exact hp.hr
  · rw [el]
    intro g u t n k hs w hw
    rcases hp.lop g u t n k hs w hw with h1 | h1
    · exact .inl h1
    · obtain ⟨s, hs⟩ := Option.isSome_iff_exists.1 h1
      rw [hkeep _ _ hs]; exact .inr rfl
  · intro u t n k hs w hw
    rcases hg u _ hs with ⟨rfl, e⟩ | hs
    · cases e
      obtain ⟨s, hs⟩ := Option.isSome_iff_exists.1 (hop w hw)
      exact hp.gr _ _ hs
    · exact hp.gop u t n k hs w hw
  · rw [el, eh]; exact hp.arg
  · rw [el, eb]; exact hp.blk
  · rw [eb]; exact hp.once
  · rw [eb]; exact hp.own
  · rw [el]; exact hp.noAlloc
  · rw [ela]; exact hp.keys
  · rw [el]; intro g u t n k hs; exact ⟨n, hs⟩
  · intro u t n k hs; exact ⟨n, hkeep _ _ hs⟩
  · intro u hu; rw [hv]; simp only; split
    · exact List.mem_append_left _ hu
    · exact hu
  · rw [ela]; exact fun _ _ _ _ _ h h' h'' => ⟨_, _, h, h', h''⟩

theorem tidy_setLocalName {p p' : Program} {f : Func} {v : Value} {n : Option Str} (h : p.setLocalName f v n = some p') :
    TidyStep p p' := by
  intro hp
  obtain ⟨t0, n0, k0, h0, hv⟩ := setLocalName_view h
  have hids : p'.ids = p.ids := congrArg View.ids hv
  have hl : ∀ g u t m k, p'.view.l g u = some (t, m, k) → ∃ m', p.view.l g u = some (t, m', k) := by
    intro g u t m k hs
    rw [hv] at hs
    simp only at hs
    split at hs
    · rename_i hc; cases hs; rw [hc.1, hc.2]; exact ⟨_, h0⟩
    · exact ⟨_, hs⟩
  have eg : p'.view.g = p.view.g := by rw [hv]
  have eb : p'.view.b = p.view.b := by rw [hv]
  have eh : p'.view.head = p.view.head := by rw [hv]
  have el : p'.view.lay = p.view.lay := by rw [hv]
  have ei : p'.view.insts = p.view.insts := by rw [hv]
  refine ⟨⟨?_, ?_, ?_, ?_, ?_, ?_, ?_, ?_, ?_, ?_, ?_, ?_⟩, ⟨?_, ?_, ?_, ?_⟩⟩
  · rintro g u ⟨t, m, k⟩ hs
    rw [hids]
    obtain ⟨m', hs⟩ := hl g u t m k hs
    exact hp.lr _ _ _ hs
  · rw [eg, hids]; exact hp.gr
  · rw [eb, hids]; exact hp.br
  · rw [eh, hids]; exact hp.hr
  · intro g u t m k hs
    rw [eg]
    obtain ⟨m', hs⟩ := hl g u t m k hs
    exact hp.lop g u t m' k hs
  · rw [eg]; exact hp.gop
  · intro g u t m k hs
    rw [eh]
    obtain ⟨m', hs⟩ := hl g u t m _ hs
    exact hp.arg g u t m' k hs
  · intro g u t m k hs
    rw [eb]
    obtain ⟨m', hs⟩ := hl g u t m _ hs
    exact hp.blk g u t m' k hs
  · rw [eb]; exact hp.once
  · rw [eb]; exact hp.own
  · intro g u t m k hs
    obtain ⟨m', hs⟩ := hl g u t m _ hs
    exact hp.noAlloc g u t m' k hs
  · rw [el]; exact hp.keys
  · intro g u t m k hs
    rw [hv]; simp only
    split
    · rename_i hc; rw [hc.1, hc.2, h0] at hs; cases hs; exact ⟨_, rfl⟩
    · exact ⟨_, hs⟩
  · rw [eg]; intro u t n k hs; exact ⟨n, hs⟩
  · rw [ei]; exact fun _ h => h
  · rw [el]; exact fun _ _ _ _ _ h h' h'' => ⟨_, _, h, h', h''⟩

theorem tidy_setGlobalName {p p' : Program} {v : Value} {n : Option Str} (h : p.setGlobalName v n = some p') :
    TidyStep p p' := by
  intro hp
  obtain ⟨t0, n0, k0, h0, hv⟩ := setGlobalName_view h
  have hids : p'.ids = p.ids := congrArg View.ids hv
  have hg : ∀ u t m k, p'.view.g u = some (t, m, k) → ∃ m', p.view.g u = some (t, m', k) := by
    intro u t m k hs
    rw [hv] at hs
    simp only at hs
    split at hs
    · rename_i hc; cases hs; rw [hc]; exact ⟨_, h0⟩
    · exact ⟨_, hs⟩
  have hg' : ∀ u t m k, p.view.g u = some (t, m, k) → ∃ m', p'.view.g u = some (t, m', k) := by
    intro u t m k hs
    rw [hv]; simp only
    split
    · rename_i hc; rw [hc, h0] at hs; cases hs; exact ⟨_, rfl⟩
    · exact ⟨_, hs⟩
  have el : p'.view.l = p.view.l := by rw [hv]
  have eb : p'.view.b = p.view.b := by rw [hv]
  have eh : p'.view.head = p.view.head := by rw [hv]
  have ela : p'.view.lay = p.view.lay := by rw [hv]
  have ei : p'.view.insts = p.view.insts := by rw [hv]
  refine ⟨⟨?_, ?_, ?_, ?_, ?_, ?_, ?_, ?_, ?_, ?_, ?_, ?_⟩, ⟨?_, ?_, ?_, ?_⟩⟩
  · rw [el, hids]; exact hp.lr
  · rintro u ⟨t, m, k⟩ hs
    rw [hids]
    obtain ⟨m', hs⟩ := hg u t m k hs
    exact hp.gr _ _ hs
  · rw [eb, hids]; exact hp.br
  · rw [eh, hids]; exact hp.hr
  · rw [el]
    intro g u t m k hs w hw
    rcases hp.lop g u t m k hs w hw with h1 | h1
    · exact .inl h1
    · obtain ⟨⟨t, m, k⟩, hs⟩ := Option.isSome_iff_exists.1 h1
      obtain ⟨m', hs⟩ := hg' _ _ _ _ hs
      rw [hs]; exact .inr rfl
  · intro u t m k hs
    obtain ⟨m', hs⟩ := hg u t m k hs
    exact hp.gop _ _ _ _ hs
  · rw [el, eh]; exact hp.arg
  · rw [el, eb]; exact hp.blk
  · rw [eb]; exact hp.once
  · rw [eb]; exact hp.own
  · rw [el]; exact hp.noAlloc
  · rw [ela]; exact hp.keys
  · rw [el]; intro g u t n k hs; exact ⟨n, hs⟩
  · exact hg'
  · rw [ei]; exact fun _ h => h
  · rw [ela]; exact fun _ _ _ _ _ h h' h'' => ⟨_, _, h, h', h''⟩

/-- Only the layout changes. -/
theorem tidy_layout {p p' : Program} {f : Func} {l0 l1 : Layout} (h0 : p.view.lay f = some l0)
    (hv : p'.view = { p.view with lay := fun f' => if f' = f then some l1 else p.view.lay f' })
    (hk : (l0.bbs.map (·.1)).Nodup → (l1.bbs.map (·.1)).Nodup)
    (hm : (l0.bbs.map (·.1)).Nodup → ∀ b is u, (b, is) ∈ l0.bbs → u ∈ is → ∃ is', (b, is') ∈ l1.bbs ∧ u ∈ is') : TidyStep p p' := by
  intro hp
  have hids : p'.ids = p.ids := congrArg View.ids hv
  have el : p'.view.l = p.view.l := by rw [hv]
  have eg : p'.view.g = p.view.g := by rw [hv]
  have eb : p'.view.b = p.view.b := by rw [hv]
  have eh : p'.view.head = p.view.head := by rw [hv]
  have ei : p'.view.insts = p.view.insts := by rw [hv]
  refine ⟨⟨?_, ?_, ?_, ?_, ?_, ?_, ?_, ?_, ?_, ?_, ?_, ?_⟩, ⟨?_, ?_, ?_, ?_⟩⟩
  · rw [el, hids]; exact hp.lr
  · rw [eg, hids]; exact hp.gr
  · rw [eb, hids]; exact hp.br
  · rw [eh, hids]; exact hp.hr
  · rw [el, eg]; exact hp.lop
  · rw [eg]; exact hp.gop
  · rw [el, eh]; exact hp.arg
  · rw [el, eb]; exact hp.blk
  · rw [eb]; exact hp.once
  · rw [eb]; exact hp.own
  · rw [el]; exact hp.noAlloc
  · intro g l hg
    rw [hv] at hg; simp only at hg
    split at hg
    · cases hg; exact hk (hp.keys _ _ h0)
    · exact hp.keys _ _ hg
  · rw [el]; intro g u t n k hs; exact ⟨n, hs⟩
  · rw [eg]; intro u t n k hs; exact ⟨n, hs⟩
  · rw [ei]; exact fun _ h => h
  · intro g l b is u h1 h2 h3
    rw [hv]; simp only
    split
    · rename_i he
      rw [he, h0] at h1; cases h1
      obtain ⟨is', h4, h5⟩ := hm (hp.keys _ _ h0) b is u h2 h3
      exact ⟨_, is', rfl, h4, h5⟩
    · exact ⟨l, is, h1, h2, h3⟩

theorem tidy_pushBb {p p' : Program} {f : Func} {b : BB} (h : p.pushBb f b = some p') : TidyStep p p' := by
  obtain ⟨l, h0, hn, hv⟩ := pushBb_view h
  refine tidy_layout h0 hv ?_ ?_
  · intro hk
    show ((l.bbs ++ [(b, ([] : List Value))]).map (fun x => x.1)).Nodup
    rw [List.map_append, List.nodup_append]
    refine ⟨hk, by simp, ?_⟩
    rintro x hx y hy rfl
    simp at hy
    subst hy
    exact hn hx
  · intro _ b' is u h1 h2
    exact ⟨is, List.mem_append_left _ h1, h2⟩

theorem tidy_pushInst {p p' : Program} {f : Func} {b : BB} {v : Value} (h : p.pushInst f b v = some p') : TidyStep p p' := by
  obtain ⟨l, is, h0, hi, hn, hv⟩ := pushInst_view h
  refine tidy_layout h0 hv ?_ ?_
  · intro hk
    show ((setInsts b (is ++ [v]) l.bbs).map (fun x => x.1)).Nodup
    rw [setInsts_keys]; exact hk
  · intro hk b' js u h1 h2
    by_cases e : b' = b
    · subst e
      have : js = is := by
        have := (lookup_eq_some_iff hk).2 h1
        rw [show Map.lookup l.bbs b' = some is from hi] at this
        cases this; rfl
      subst this
      exact ⟨js ++ [v], (mem_setInsts hk).2 (.inr ⟨rfl, rfl, List.mem_map.2 ⟨(b', js), h1, rfl⟩⟩), List.mem_append_left _ h2⟩
    · exact ⟨js, (mem_setInsts hk).2 (.inl ⟨e, h1⟩), h2⟩

theorem tidy_newBb {p p' : Program} {f : Func} {n : Option Str} {ps : List (Option Str × Ty)} {b : BB}
    (h : p.newBbWithParamNames f n ps = some (p', b)) : TidyStep p p' := by
  intro hp
  obtain ⟨⟨fd, hf⟩, rfl, -, -, hv⟩ := newBbParams_view h
  have hids : p'.ids = { p.ids with nextLocal := p.ids.nextLocal + ps.length, nextBb := p.ids.nextBb + 1 } :=
    congrArg View.ids hv
  have hf : f < p.ids.nextFunc := hp.hr f _ (by unfold Program.view; simp only [hf]; rfl)
  have hl : ∀ g u s, p'.view.l g u = some s → (g = f ∧ (p.ids.nextLocal ≤ u ∧ u < p.ids.nextLocal + ps.length) ∧ ∃ j, s.2.2 = .blockArgRef j) ∨
      p.view.l g u = some s := by
    intro g u s hs
    rw [hv] at hs
    simp only at hs
    split at hs
    · rename_i hc; subst hc
      rcases hw : paramSig VKind.blockArgRef p.ids.nextLocal 0 ps u with _ | s'
      · rw [hw] at hs; exact .inr (by simpa using hs)
      · rw [hw] at hs
        simp only [Option.some_or, Option.some.injEq] at hs
        subst hs
        obtain ⟨h1, h2, h3⟩ := paramSig_some hw
        exact .inl ⟨rfl, ⟨h1, h2⟩, h3⟩
    · exact .inr hs
  have hkeep : ∀ g u s, p.view.l g u = some s → p'.view.l g u = some s := by
    intro g u s hs
    rw [hv]; simp only
    split
    · rename_i hc; subst hc
      have : paramSig VKind.blockArgRef p.ids.nextLocal 0 ps u = none := by
        simp [paramSig, (hp.lr _ _ _ hs).1]
      rw [this]; simpa using hs
    · exact hs
  have hb : ∀ g b m qs, p'.view.b g b = some (m, qs) → (g = f ∧ b = p.ids.nextBb ∧ qs = paramHandles p.ids.nextLocal ps.length) ∨
      p.view.b g b = some (m, qs) := by
    intro g b m qs hs
    rw [hv] at hs
    simp only at hs
    split at hs
    · rename_i hc; cases hs; exact .inl ⟨hc.1, hc.2, rfl⟩
    · exact .inr hs
  have hbk : ∀ g b q, p.view.b g b = some q → p'.view.b g b = some q := by
    rintro g b ⟨m, qs⟩ hs
    rw [hv]; simp only
    rw [if_neg]
    · exact hs
    · rintro ⟨rfl, rfl⟩; have := (hp.br _ _ _ _ hs).1; omega
  have eg : p'.view.g = p.view.g := by rw [hv]
  have eh : p'.view.head = p.view.head := by rw [hv]
  have el : p'.view.lay = p.view.lay := by rw [hv]
  have ei : p'.view.insts = p.view.insts := by rw [hv]
  refine ⟨⟨?_, ?_, ?_, ?_, ?_, ?_, ?_, ?_, ?_, ?_, ?_, ?_⟩, ⟨?_, ?_, ?_, ?_⟩⟩
  · intro g u s hs
    rw [hids]
    rcases hl g u s hs with ⟨rfl, ⟨_, h1⟩, _⟩ | hs
    · exact ⟨h1, hf⟩
    · have := hp.lr _ _ _ hs; exact ⟨by simp only; omega, this.2⟩
  · rw [eg, hids]; exact hp.gr
  · intro g b m qs hs
    rw [hids]
    rcases hb g b m qs hs with ⟨rfl, rfl, rfl⟩ | hs
    · exact ⟨Nat.lt_succ_self _, hf, fun v hv => (mem_paramHandles.1 hv).2⟩
    · obtain ⟨h1, h2, h3⟩ := hp.br _ _ _ _ hs
      exact ⟨Nat.lt_succ_of_lt h1, h2, fun v hv => Nat.lt_of_lt_of_le (h3 v hv) (Nat.le_add_right _ _)⟩
  · rw [eh, hids]; exact hp.hr
  · intro g u t n k hs w hw
    rw [eg]
    rcases hl g u _ hs with ⟨rfl, _, j, hj⟩ | hs
    · simp only at hj; subst hj; simp [operands] at hw
    · exact hp.lop g u t n k hs w hw
  · rw [eg]; exact hp.gop
  · intro g u t n j hs
    rw [eh]
    rcases hl g u _ hs with ⟨rfl, _, i, hi⟩ | hs
    · simp at hi
    · exact hp.arg g u t n j hs
  · intro g u t m j hs
    rcases hl g u _ hs with ⟨rfl, h1, _⟩ | hs
    · exact ⟨p.ids.nextBb, n, _, by rw [hv]; simp, mem_paramHandles.2 h1⟩
    · obtain ⟨b, bn, qs, h1, h2⟩ := hp.blk g u t m j hs
      exact ⟨b, bn, qs, hbk _ _ _ h1, h2⟩
  · intro g b b' m m' qs qs' v h1 h2 h3 h4
    rcases hb _ _ _ _ h1 with ⟨rfl, rfl, rfl⟩ | h1
    · rcases hb _ _ _ _ h2 with ⟨_, rfl, _⟩ | h2
      · rfl
      · have := (hp.br _ _ _ _ h2).2.2 v h4
        have := (mem_paramHandles.1 h3).1; omega
    · rcases hb _ _ _ _ h2 with ⟨rfl, rfl, rfl⟩ | h2
      · have := (hp.br _ _ _ _ h1).2.2 v h3
        have := (mem_paramHandles.1 h4).1; omega
      · exact hp.once _ _ _ _ _ _ _ _ h1 h2 h3 h4
  · rintro g g' b ⟨m, qs⟩ ⟨m', qs'⟩ h1 h2
    rcases hb _ _ _ _ h1 with ⟨rfl, rfl, rfl⟩ | h1
    · rcases hb _ _ _ _ h2 with ⟨rfl, _, _⟩ | h2
      · rfl
      · have := (hp.br _ _ _ _ h2).1; omega
    · rcases hb _ _ _ _ h2 with ⟨rfl, rfl, rfl⟩ | h2
      · have := (hp.br _ _ _ _ h1).1; omega
      · exact hp.own _ _ _ _ _ h1 h2
  · intro g u t n j hs
    rcases hl g u _ hs with ⟨rfl, _, i, hi⟩ | hs
    · simp at hi
    · exact hp.noAlloc g u t n j hs
  · rw [el]; exact hp.keys
  · intro g u t n k hs; exact ⟨n, hkeep _ _ _ hs⟩
  · rw [eg]; intro u t n k hs; exact ⟨n, hs⟩
  · rw [ei]; exact fun _ h => h
  · rw [el]; exact fun _ _ _ _ _ h h' h'' => ⟨_, _, h, h', h''⟩

/-- A new function, with parameters `ps`. -/
theorem tidy_newFunc {p p' : Program} {ps : List (Option Str × Ty)} {q : Ty × Str}
    (hg : p'.view.g = p.view.g) (hin : p'.view.insts = p.view.insts)
    (hl : ∀ g u, p'.view.l g u = if g = p.ids.nextFunc then paramSig VKind.funcArgRef p.ids.nextLocal 0 ps u else p.view.l g u)
    (hb : ∀ g u, p'.view.b g u = if g = p.ids.nextFunc then none else p.view.b g u)
    (hh : ∀ g, p'.view.head g = if g = p.ids.nextFunc then some (q.1, q.2, paramHandles p.ids.nextLocal ps.length) else p.view.head g)
    (hy : ∀ g, p'.view.lay g = if g = p.ids.nextFunc then some Layout.new else p.view.lay g)
    (hids : p'.ids = { p.ids with nextLocal := p.ids.nextLocal + ps.length, nextFunc := p.ids.nextFunc + 1 }) : TidyStep p p' := by
  intro hp
  have hl1 : ∀ g u s, p'.view.l g u = some s → (g = p.ids.nextFunc ∧ (p.ids.nextLocal ≤ u ∧ u < p.ids.nextLocal + ps.length) ∧
      ∃ j, s.2.2 = .funcArgRef j) ∨ p.view.l g u = some s := by
    intro g u s hs
    rw [hl] at hs
    split at hs
    · rename_i hc
      obtain ⟨h1, h2, h3⟩ := paramSig_some hs
      exact .inl ⟨hc, ⟨h1, h2⟩, h3⟩
    · exact .inr hs
  have hkeep : ∀ g u s, p.view.l g u = some s → p'.view.l g u = some s := by
    intro g u s hs
    rw [hl, if_neg]
    · exact hs
    · rintro rfl; have := (hp.lr _ _ _ hs).2; omega
  have hb1 : ∀ g u s, p'.view.b g u = some s → p.view.b g u = some s := by
    intro g u s hs
    rw [hb] at hs; split at hs
    · cases hs
    · exact hs
  have hbk : ∀ g u s, p.view.b g u = some s → p'.view.b g u = some s := by
    rintro g u ⟨m, qs⟩ hs
    rw [hb, if_neg]
    · exact hs
    · rintro rfl; have := (hp.br _ _ _ _ hs).2.1; omega
  have hhk : ∀ g s, p.view.head g = some s → p'.view.head g = some s := by
    intro g s hs
    rw [hh, if_neg]
    · exact hs
    · rintro rfl; have := hp.hr _ _ hs; omega
  refine ⟨⟨?_, ?_, ?_, ?_, ?_, ?_, ?_, ?_, ?_, ?_, ?_, ?_⟩, ⟨?_, ?_, ?_, ?_⟩⟩
  · intro g u s hs
    rw [hids]
    rcases hl1 g u s hs with ⟨rfl, ⟨_, h1⟩, _⟩ | hs
    · exact ⟨h1, Nat.lt_succ_self _⟩
    · have := hp.lr _ _ _ hs; exact ⟨by simp only; omega, by simp only; omega⟩
  · rw [hg, hids]; exact hp.gr
  · intro g b m qs hs
    rw [hids]
    obtain ⟨h1, h2, h3⟩ := hp.br _ _ _ _ (hb1 _ _ _ hs)
    exact ⟨h1, Nat.lt_succ_of_lt h2, fun v hv => Nat.lt_of_lt_of_le (h3 v hv) (Nat.le_add_right _ _)⟩
  · intro g s hs
    rw [hids]
    rw [hh] at hs
    split at hs
    · rename_i hc; rw [hc]; exact Nat.lt_succ_self _
    · exact Nat.lt_succ_of_lt (hp.hr _ _ hs)
  · intro g u t n k hs w hw
    rw [hg]
    rcases hl1 g u _ hs with ⟨rfl, _, j, hj⟩ | hs
    · simp only at hj; subst hj; simp [operands] at hw
    · exact hp.lop g u t n k hs w hw
  · rw [hg]; exact hp.gop
  · intro g u t n j hs
    rcases hl1 g u _ hs with ⟨rfl, h1, _⟩ | hs
    · exact ⟨_, _, _, by rw [hh, if_pos rfl], mem_paramHandles.2 h1⟩
    · obtain ⟨ft, fn, qs, h1, h2⟩ := hp.arg g u t n j hs
      exact ⟨ft, fn, qs, hhk _ _ h1, h2⟩
  · intro g u t m j hs
    rcases hl1 g u _ hs with ⟨rfl, h1, i, hi⟩ | hs
    · simp at hi
    · obtain ⟨b, bn, qs, h1, h2⟩ := hp.blk g u t m j hs
      exact ⟨b, bn, qs, hbk _ _ _ h1, h2⟩
  · intro g b b' m m' qs qs' v h1 h2 h3 h4
    exact hp.once _ _ _ _ _ _ _ _ (hb1 _ _ _ h1) (hb1 _ _ _ h2) h3 h4
  · intro g g' b q q' h1 h2
    exact hp.own _ _ _ _ _ (hb1 _ _ _ h1) (hb1 _ _ _ h2)
  · intro g u t n j hs
    rcases hl1 g u _ hs with ⟨rfl, _, i, hi⟩ | hs
    · simp at hi
    · exact hp.noAlloc g u t n j hs
  · intro g l hs
    rw [hy] at hs
    split at hs
    · cases hs; simp [Layout.new]
    · exact hp.keys _ _ hs
  · intro g u t n k hs; exact ⟨n, hkeep _ _ _ hs⟩
  · rw [hg]; intro u t n k hs; exact ⟨n, hs⟩
  · rw [hin]; exact fun _ h => h
  · intro g l b is u h1 h2 h3
    refine ⟨l, is, ?_, h2, h3⟩
    rw [hy, if_neg]
    · exact h1
    · rintro rfl
      obtain ⟨q, hq⟩ := lay_head h1
      have := hp.hr _ _ hq; omega

theorem tidy_newFuncDef {p p' : Program} {n : Str} {ps : List (Option Str × Ty)} {r : Ty} {f : Func}
    (h : p.newFuncDefWithParamNames n ps r = some (p', f)) : TidyStep p p' := by
  obtain ⟨rfl, -, -, hv⟩ := newFuncDef_view h
  exact tidy_newFunc (ps := ps) (q := (_, _)) (by rw [hv]) (by rw [hv]) (by intro g u; rw [hv]) (by intro g u; rw [hv]) (by intro g; rw [hv])
    (by intro g; rw [hv]) (congrArg View.ids hv)

theorem tidy_front : FrontRel TidyStep where
  refl p hp := ⟨hp, .refl p⟩
  trans p q r h h' hp := by
    obtain ⟨h1, h2⟩ := h hp
    obtain ⟨h3, h4⟩ := h' h1
    exact ⟨h3, h2.trans h4⟩
  newLocal p p' f i v hr h := tidy_newLocal hr h
  newGlobal p p' i v hr h := tidy_newGlobal hr h
  setLocalName p p' f v n _ h := tidy_setLocalName h
  setGlobalName p p' v n _ h := tidy_setGlobalName h
  pushInst p p' f b v h := tidy_pushInst h
  newBb p p' f n ps b _ _ h := tidy_newBb h
  pushBb p p' f b h := tidy_pushBb h
  newFuncDef p p' n ps r f _ _ h := tidy_newFuncDef h
  newFuncDecl p p' n ps r f _ h := by
    obtain ⟨rfl, -, -, hv⟩ := newFuncDecl_view h
    refine tidy_newFunc (ps := []) (q := (.func ps r, n)) (by rw [hv]) (by rw [hv]) ?_ (by intro g u; rw [hv]) ?_
      (by intro g; rw [hv]) (congrArg View.ids hv)
    · intro g u; rw [hv]; simp only
      congr 1
      unfold paramSig; split <;> rfl
    · intro g; rw [hv]; rfl

theorem tidy_new (ids : Ids) : Tidy (Program.new ids) := by
  constructor <;> intros <;> simp_all [Program.view, Program.new, Map.empty, Map.get?, Map.lookup, shapeOf, bshapeOf]

end Koopa
