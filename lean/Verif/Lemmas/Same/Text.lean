import Verif.Lemmas.Same.Whole
import Verif.Lemmas.Back.Again
import Verif.Props.LayoutParent
/-!
A program that was printed and read back matches the printed one.
-/
namespace Koopa
open Spec Interp

variable {p p' : Program}

/-- The values at the same places. -/
def textMatch (p p' : Program) : Match where
  G := SameGlobal p p'
  F := SamePlace p p'
  V := fun f f' v v' => SamePlace p p' f f' ∧ ∃ fd fd' a, p.funcs.get? f = some fd ∧ p'.funcs.get? f' = some fd' ∧ valueAt p fd a = some v ∧ valueAt p' fd' a = some v' ∧
    ∀ k, a ≠ .global k
  B := fun f f' b b' => SamePlace p p' f f' ∧ ∃ fd fd', p.funcs.get? f = some fd ∧ p'.funcs.get? f' = some fd' ∧ SameBlock fd fd' b b'

theorem sameConst_val {get get' : Value → Option VData} {v v' : Value} (h : SameConst get get' v v') : ∀ {d d' : VData}, get v = some d → get' v' = some d' →
    d.kind.isConst = true ∧ d'.kind.isConst = true ∧ d.ty = d'.ty ∧ ∀ x, ConstVal get d x ↔ ConstVal get' d' x := by
  induction h with
  | @leaf v v' y y' h1 h2 h3 h4 h5 h6 =>
    intro d d' hd hd'
    rw [h1] at hd; cases hd
    rw [h2] at hd'; cases hd'
    refine ⟨h5, by rw [← h4]; exact h5, h3, fun x => ⟨fun h => ?_, fun h => ?_⟩⟩
    · cases h with
      | integer k => exact .integer (by rw [← h4]; exact k)
      | zeroInit k z => exact .zeroInit (by rw [← h4]; exact k) (by rw [← h3]; exact z)
      | undef k => exact .undef (by rw [← h4]; exact k)
      | @aggregate _ es ds xs k k1 k2 k3 =>
        rw [k] at h6
        cases (show es = [] from h6)
        have e1 : ds = [] := by cases ds with | nil => rfl | cons => cases k1
        subst e1
        exact .aggregate (ds := []) (by rw [← h4]; exact k) rfl k2 (fun i e x he => by simp at he)
    · cases h with
      | integer k => exact .integer (by rw [h4]; exact k)
      | zeroInit k z => exact .zeroInit (by rw [h4]; exact k) (by rw [h3]; exact z)
      | undef k => exact .undef (by rw [h4]; exact k)
      | @aggregate _ es ds xs k k1 k2 k3 =>
        rw [h4, k] at h6
        cases (show es = [] from h6)
        have e1 : ds = [] := by cases ds with | nil => rfl | cons => cases k1
        subst e1
        exact .aggregate (ds := []) (by rw [h4]; exact k) rfl k2 (fun i e x he => by simp at he)
  | @agg v v' y y' es es' h1 h2 h3 h4 h5 h6 h7 ih =>
    intro d d' hd hd'
    rw [h1] at hd; cases hd
    rw [h2] at hd'; cases hd'
    have key : ∀ {get get' : Value → Option VData} {y y' : VData} {es es' : List Value}, y.kind = .aggregate es → y'.kind = .aggregate es' → es.length = es'.length →
        (∀ (i : Nat) e e', es[i]? = some e → es'[i]? = some e' → ∃ d d', get e = some d ∧ get' e' = some d' ∧ ∀ x, ConstVal get d x → ConstVal get' d' x) →
        ∀ x, ConstVal get y x → ConstVal get' y' x := by
      intro get get' y y' es es' h4 h5 h6 h7 x h
      cases h with
      | integer k => rw [h4] at k; cases k
      | zeroInit k => rw [h4] at k; cases k
      | undef k => rw [h4] at k; cases k
      | @aggregate _ es0 ds xs k k1 k2 k3 =>
        rw [h4] at k; cases k
        have hlen : es.length = ds.length := by have := congrArg List.length k1; simpa using this
        have hget : ∀ (i : Nat) e', es'[i]? = some e' → ∃ e d d', es[i]? = some e ∧ ds[i]? = some d ∧ get e = some d ∧ get' e' = some d' ∧ ∀ x, ConstVal get d x → ConstVal get' d' x := by
          intro i e' he'
          have hi : i < es.length := by rw [h6]; exact (List.getElem?_eq_some_iff.1 he').1
          have e1 := List.getElem?_eq_getElem hi
          obtain ⟨d, d', a1, a2, a3⟩ := h7 i _ _ e1 he'
          have e2 := congrArg (·[i]?) k1
          simp only [List.getElem?_map, e1, Option.map_some] at e2
          have hi2 : i < ds.length := by rw [← hlen]; exact hi
          rw [List.getElem?_eq_getElem hi2] at e2
          simp only [Option.map_some, Option.some.injEq] at e2
          rw [a1] at e2
          simp only [Option.some.injEq] at e2
          exact ⟨_, d, d', e1, by rw [List.getElem?_eq_getElem hi2, e2], a1, a2, a3⟩
        have hall : ∃ ds' : List VData, es'.map get' = ds'.map some := by
          have : ∀ l : List Value, (∀ e ∈ l, ∃ d, get' e = some d) → ∃ ds' : List VData, l.map get' = ds'.map some := by
            intro l
            induction l with
            | nil => exact fun _ => ⟨[], rfl⟩
            | cons a l ihl =>
              intro hl
              obtain ⟨d, hd⟩ := hl a List.mem_cons_self
              obtain ⟨ds', hds⟩ := ihl (fun e he => hl e (List.mem_cons_of_mem _ he))
              exact ⟨d :: ds', by simp [hd, hds]⟩
          refine this es' (fun e' he' => ?_)
          obtain ⟨i, hi, e1⟩ := List.getElem_of_mem he'
          obtain ⟨e, d, d', -, -, -, a2, -⟩ := hget i e' (by rw [List.getElem?_eq_getElem hi, e1])
          exact ⟨d', a2⟩
        obtain ⟨ds', hds⟩ := hall
        have hlen' : es'.length = ds'.length := by have := congrArg List.length hds; simpa using this
        refine .aggregate h5 hds (by rw [← hlen', ← h6, hlen, k2]) (fun i d' x hd' hx => ?_)
        have hi : i < es'.length := by rw [hlen']; exact (List.getElem?_eq_some_iff.1 hd').1
        obtain ⟨e, d, d1, a1, a2, a3, a4, a5⟩ := hget i _ (List.getElem?_eq_getElem hi)
        have e2 := congrArg (·[i]?) hds
        simp only [List.getElem?_map, List.getElem?_eq_getElem hi, Option.map_some, hd', Option.some.injEq] at e2
        rw [a4] at e2; cases e2
        exact a5 x (k3 i d x a2 hx)
    have hex : ∀ (i : Nat) e e', es[i]? = some e → es'[i]? = some e' → ∃ d d', get e = some d ∧ get' e' = some d' := by
      intro i e e' he he'
      cases h7 i e e' he he' with
      | leaf a b => exact ⟨_, _, a, b⟩
      | agg a b => exact ⟨_, _, a, b⟩
    refine ⟨by rw [h4]; rfl, by rw [h5]; rfl, h3, fun x => ⟨key h4 h5 h6 (fun i e e' he he' => ?_) x, key h5 h4 h6.symm (fun i e' e he' he => ?_) x⟩⟩
    · obtain ⟨d, d', a1, a2⟩ := hex i e e' he he'
      exact ⟨d, d', a1, a2, fun x => ((ih i e e' he he' a1 a2).2.2.2 x).1⟩
    · obtain ⟨d, d', a1, a2⟩ := hex i e e' he he'
      exact ⟨d', d, a2, a1, fun x => ((ih i e e' he he' a1 a2).2.2.2 x).2⟩

theorem sameConst_data {get get' : Value → Option VData} {v v' : Value} (h : SameConst get get' v v') : ∃ d d', get v = some d ∧ get' v' = some d' := by
  cases h with
  | leaf a b => exact ⟨_, _, a, b⟩
  | agg a b => exact ⟨_, _, a, b⟩

theorem sameKind_notConst {V : Value → Value → Prop} {B : BB → BB → Prop} {F : Func → Func → Prop} {k k' : VKind} (h : SameKind V B F k k') :
    k.isConst = false ∧ k'.isConst = false := by
  cases h <;> exact ⟨rfl, rfl⟩

/-- The functions that stand at the same place. -/
theorem Spec.SameText.fun (h : SameText p p') {f f' : Func} (hf : SamePlace p p' f f') : ∃ fd fd', p.funcs.get? f = some fd ∧ p'.funcs.get? f' = some fd' ∧ SameFun p p' fd fd' := by
  obtain ⟨i, h1, h2⟩ := hf
  obtain ⟨g', h3, h4⟩ := (all2_at h.funcs i).get h1
  rw [h2] at h3; cases h3
  exact h4

theorem Spec.Printable.listed (hp : Printable p) {i : Nat} {f : Func} {fd : FData} (h : p.funcLayout[i]? = some f) (hf : p.funcs.get? f = some fd) :
    ∃ ts r, PrintableFun p (p.funcLayout.take i) f fd ts r := by
  obtain ⟨fd0, ts, r, h1, h2⟩ := hp.funcs i f h
  rw [hf] at h1; cases h1
  exact ⟨ts, r, h2⟩

/-- The kind of a value at a place. -/
theorem placed_kind (hp : Printable p) {before : List Func} {f : Func} {fd : FData} {ts : List Ty} {r : Ty} (hF : PrintableFun p before f fd ts r) {a : Place} {v : Value}
    (h : valueAt p fd a = some v) (ha : ∀ k, a ≠ .global k) : ∃ x, fd.dfg.values.get? v = some x ∧
      ((∃ i, a = .arg i ∧ x.kind = .funcArgRef i) ∨ (∃ j i, a = .param j i ∧ x.kind = .blockArgRef i) ∨ ∃ j i, a = .inst j i) := by
  rcases hF.body with ⟨-, e1, e2⟩ | hb
  · cases a with
    | global k => exact absurd rfl (ha k)
    | arg k =>
      have h : fd.params[k]? = some v := h
      rw [e2] at h; cases h
    | param j k =>
      obtain ⟨_, _, _, h, -⟩ := valueAt_param h
      rw [e1] at h; cases h
    | inst j k =>
      obtain ⟨_, _, h, -⟩ := valueAt_inst h
      rw [e1] at h; cases h
  · cases a with
    | global k => exact absurd rfl (ha k)
    | arg k =>
      obtain ⟨x, h1, h2, -⟩ := hb.params.2 k v h
      exact ⟨x, h1, .inl ⟨k, rfl, h2⟩⟩
    | param j k =>
      obtain ⟨b, is, x, h1, h2, h3⟩ := valueAt_param h
      obtain ⟨x0, k1, k2⟩ := hb.blocks b is (List.mem_of_getElem? h1)
      rw [h2] at k1; cases k1
      obtain ⟨y, k3, k4, -⟩ := k2 k v h3
      exact ⟨y, k3, .inr (.inl ⟨j, k, rfl, k4⟩)⟩
    | inst j k =>
      obtain ⟨b, is, h1, h2⟩ := valueAt_inst h
      obtain ⟨x, h3, -⟩ := hb.insts j k b is v h1 h2
      exact ⟨x, h3, .inr (.inr ⟨j, k, rfl⟩)⟩

theorem textMatch_ok (hp : Printable p) (hp' : Printable p') (h : SameText p p')
    (hn : ∀ f f' fd fd', SamePlace p p' f f' → p.funcs.get? f = some fd → p'.funcs.get? f' = some fd' → fd.layout.bbs = [] → fd.name = fd'.name) :
    (textMatch p p').Ok p p' where
  gOne := ⟨sameGlobal_right hp.instsOnce, fun a b c h1 h2 => (sameGlobal_left hp'.instsOnce _ _ _ h1 h2).symm⟩
  vOne := by
    intro f f'
    constructor
    · rintro v b b' ⟨⟨i, i1, i2⟩, fd, fd', a, h1, h2, h3, h4, -⟩ ⟨-, fd1, fd1', a', k1, k2, k3, k4, -⟩
      rw [h1] at k1; cases k1
      rw [h2] at k2; cases k2
      obtain ⟨ts, r, hF⟩ := hp.listed i1 h1
      cases places_inj hp h1 hF _ _ _ h3 k3
      rw [h4] at k4; cases k4; rfl
    · rintro v b b' ⟨⟨i, i1, i2⟩, fd, fd', a, h1, h2, h3, h4, -⟩ ⟨-, fd1, fd1', a', k1, k2, k3, k4, -⟩
      rw [h1] at k1; cases k1
      rw [h2] at k2; cases k2
      obtain ⟨ts, r, hF⟩ := hp'.listed i2 h2
      cases places_inj hp' h2 hF _ _ _ h4 k4
      rw [h3] at k3; cases k3; rfl
  globals := by
    rintro v v' ⟨k, h1, h2⟩
    obtain ⟨w', h3, x, x', i, i', h4, h5, h6, h7, h8, h9⟩ := (all2_at h.globals k).get h1
    rw [h2] at h3; cases h3
    obtain ⟨e, e', a1, a2⟩ := sameConst_data h9
    exact ⟨hp.globalId v x h4, hp'.globalId v' x' h5, List.mem_of_getElem? h1, List.mem_of_getElem? h2, x, x', i, i', e, e', h4, h5, h7, h8, a1, a2,
      (sameConst_val h9 a1 a2).2.2.2⟩
  apart := by
    rintro v v' ⟨k, h1, h2⟩
    obtain ⟨w', h3, x, x', i, i', h4, h5, h6, h7, h8, h9⟩ := (all2_at h.globals k).get h1
    rw [h2] at h3; cases h3
    refine ⟨fun f y hy => ?_, fun f y hy => ?_⟩
    · have := hp.localId f v y hy
      rw [hp.globalId v x h4] at this; cases this
    · have := hp'.localId f v' y hy
      rw [hp'.globalId v' x' h5] at this; cases this
  all := fun v hv => by
    obtain ⟨i, hi, e⟩ := List.getElem_of_mem hv
    obtain ⟨v', h1, -⟩ := (all2_at h.globals i).get (by rw [List.getElem?_eq_getElem hi, e])
    exact ⟨v', i, by rw [List.getElem?_eq_getElem hi, e], h1⟩
  all' := fun v hv => by
    obtain ⟨i, hi, e⟩ := List.getElem_of_mem hv
    obtain ⟨v', h1, -⟩ := (all2_at (all2_flip h.globals) i).get (by rw [List.getElem?_eq_getElem hi, e])
    exact ⟨v', i, h1, by rw [List.getElem?_eq_getElem hi, e]⟩
  funcs := by
    intro f f' hf
    obtain ⟨fd, fd', h1, h2, h3⟩ := h.fun hf
    refine ⟨fd, fd', h1, h2, h3.ty, ?_, ?_⟩
    · have hb := h3.blocks
      have hnm := hn f f' fd fd' hf h1 h2
      generalize e1 : fd.layout.bbs = bs at hb hnm
      generalize e2 : fd'.layout.bbs = bs' at hb
      cases hb with
      | nil => exact .inl ⟨rfl, rfl, hnm rfl⟩
      | @cons q q' _ _ k1 k2 =>
        refine .inr ⟨q.1, q.2, _, q'.1, q'.2, _, rfl, rfl, ?_⟩
        obtain ⟨-, k3⟩ := k1
        refine all2_of (all2_length k3) (fun i v v' hv hv' => ⟨hf, fd, fd', .inst 0 i, h1, h2, ?_, ?_, fun _ => nofun⟩)
        · simp [valueAt, e1, hv]
        · simp [valueAt, e2, hv']
    · refine all2_of (all2_length h3.params) (fun i v v' hv hv' => ⟨hf, fd, fd', .arg i, h1, h2, hv, hv', fun _ => nofun⟩)
  blocks := by
    rintro f f' b b' ⟨hf, fd, fd', h1, h2, j, h3, h4⟩
    obtain ⟨fd0, fd0', k1, k2, k3⟩ := h.fun hf
    rw [h1] at k1; cases k1
    rw [h2] at k2; cases k2
    obtain ⟨i0, i1, i2⟩ := hf
    obtain ⟨ts, r, hF⟩ := hp.listed i1 h1
    obtain ⟨ts', r', hF'⟩ := hp'.listed i2 h2
    rw [List.getElem?_map, Option.map_eq_some_iff] at h3 h4
    obtain ⟨⟨c, is⟩, a1, rfl⟩ := h3
    obtain ⟨⟨c', is'⟩, a2, rfl⟩ := h4
    obtain ⟨q', a3, ⟨x, x', a4, a5, a6⟩, a7⟩ := (all2_at k3.blocks j).get a1
    rw [a2] at a3; cases a3
    refine ⟨fd, fd', x, x', is, is', h1, h2, a4, a5, (lookup_eq_some_iff (blocks_nodup hF)).2 (List.mem_of_getElem? a1),
      (lookup_eq_some_iff (blocks_nodup hF')).2 (List.mem_of_getElem? a2), ?_, ?_⟩
    · refine all2_of (all2_length a6) (fun i v v' hv hv' => ⟨⟨i0, i1, i2⟩, fd, fd', .param j i, h1, h2, ?_, ?_, fun _ => nofun⟩)
      · simp only at a4; simp [valueAt, a1, a4, hv]
      · simp only at a5; simp [valueAt, a2, a5, hv']
    · refine all2_of (all2_length a7) (fun i v v' hv hv' => ⟨⟨i0, i1, i2⟩, fd, fd', .inst j i, h1, h2, ?_, ?_, fun _ => nofun⟩)
      · simp [valueAt, a1, hv]
      · simp [valueAt, a2, hv']
  values := by
    rintro f f' v v' ⟨hf, fd, fd', a, h1, h2, h3, h4, h5⟩
    obtain ⟨fd0, fd0', k1, k2, k3⟩ := h.fun hf
    rw [h1] at k1; cases k1
    rw [h2] at k2; cases k2
    obtain ⟨i0, i1, i2⟩ := hf
    obtain ⟨ts, r, hF⟩ := hp.listed i1 h1
    obtain ⟨ts', r', hF'⟩ := hp'.listed i2 h2
    obtain ⟨x, b1, b2⟩ := placed_kind hp hF h3 h5
    obtain ⟨x', c1, c2⟩ := placed_kind hp' hF' h4 h5
    refine ⟨hp.localId f v x ⟨fd, h1, b1⟩, hp'.localId f' v' x' ⟨fd', h2, c1⟩, x, x', ⟨fd, h1, b1⟩, ⟨fd', h2, c1⟩, ?_⟩
    rcases b2 with ⟨i, rfl, b2⟩ | ⟨j, i, rfl, b2⟩ | ⟨j, i, rfl⟩
    · obtain ⟨w', d1, y, y', d2, d3, d4⟩ := (all2_at k3.params i).get h3
      rw [show fd'.params[i]? = some v' from h4] at d1; cases d1
      rw [b1] at d2; cases d2
      rw [c1] at d3; cases d3
      rcases c2 with ⟨i, e, c2⟩ | ⟨j, i, e, c2⟩ | ⟨j, i, e⟩
      · exact ⟨d4, by rw [b2]; rfl, by rw [c2]; rfl, .inl ⟨by rw [b2]; trivial, by rw [c2]; trivial⟩⟩
      · cases e
      · cases e
    · obtain ⟨b, is, bd, d1, d2, d3⟩ := valueAt_param h3
      obtain ⟨b', is', bd', e1, e2, e3⟩ := valueAt_param h4
      obtain ⟨q', g1, ⟨z, z', g2, g3, g4⟩, -⟩ := (all2_at k3.blocks j).get d1
      rw [e1] at g1; cases g1
      simp only at g2 g3
      rw [d2] at g2; cases g2
      rw [e2] at g3; cases g3
      obtain ⟨w', g5, y, y', g6, g7, g8⟩ := (all2_at g4 i).get d3
      rw [e3] at g5; cases g5
      rw [b1] at g6; cases g6
      rw [c1] at g7; cases g7
      rcases c2 with ⟨i, e, c2⟩ | ⟨j, i, e, c2⟩ | ⟨j, i, e⟩
      · cases e
      · exact ⟨g8, by rw [b2]; rfl, by rw [c2]; rfl, .inl ⟨by rw [b2]; trivial, by rw [c2]; trivial⟩⟩
      · cases e
    · obtain ⟨b, is, d1, d2⟩ := valueAt_inst h3
      obtain ⟨b', is', e1, e2⟩ := valueAt_inst h4
      obtain ⟨q', g1, -, g2⟩ := (all2_at k3.blocks j).get d1
      rw [e1] at g1; cases g1
      obtain ⟨w', g3, y, y', g4, g5, g6, g7⟩ := (all2_at g2 i).get d2
      simp only at g3
      rw [e2] at g3; cases g3
      rw [b1] at g4; cases g4
      rw [c1] at g5; cases g5
      obtain ⟨g8, g9⟩ := sameKind_notConst g7
      refine ⟨g6, g8, g9, .inr ?_⟩
      refine SameKind.mono (fun u u' hu => ?_) (fun b b' hb => ⟨⟨i0, i1, i2⟩, fd, fd', h1, h2, hb⟩) g7
      rcases hu with ⟨a, m1, m2⟩ | hu
      · by_cases hg : ∃ k, a = .global k
        · obtain ⟨k, rfl⟩ := hg
          exact .global ⟨k, m1, m2⟩
        · exact .reg ⟨⟨i0, i1, i2⟩, fd, fd', a, h1, h2, m1, m2, fun k e => hg ⟨k, e⟩⟩
      · obtain ⟨d, d', m1, m2⟩ := sameConst_data hu
        obtain ⟨m3, m4, m5, m6⟩ := sameConst_val hu m1 m2
        exact .const (hp.localId f u d ⟨fd, h1, m1⟩) (hp'.localId f' u' d' ⟨fd', h2, m2⟩) h1 h2 m1 m2 m3 m4 m5 m6

end Koopa
