import Verif.Lemmas.Examples.Dce
import Verif.Spec.Dce
import Verif.Props.ConstFold
/-! A round of dead code elimination. -/
namespace Koopa
open Spec Interp

/-- A run that ends with a result, or that does not end within `fuel` blocks, does the same in the other program.
Nothing is said about runs that end with an error or panic: the instruction at fault may be dead. -/
def Spec.SameResults (p p' : Program) (chk : Bool) : Prop :=
  ∀ (σ : Type) (lib : Lib σ) (depth ptrSize fuel : Nat) (ord : List Func) (w : σ),
    (∀ r, interpret lib chk depth ptrSize fuel ord p w = .done r → interpret lib chk depth ptrSize fuel ord p' w = .done r) ∧
    (interpret lib chk depth ptrSize fuel ord p w = .fuel → interpret lib chk depth ptrSize fuel ord p' w = .fuel)

theorem Spec.SameResults.refl {p : Program} {chk : Bool} : SameResults p p chk :=
  fun _ _ _ _ _ _ _ => ⟨fun _ h => h, fun h => h⟩

theorem Spec.SameResults.trans {p p' p'' : Program} {chk : Bool} (h : SameResults p p' chk) (h' : SameResults p' p'' chk) :
    SameResults p p'' chk := by
  intro σ lib depth ptrSize fuel ord w
  obtain ⟨a, b⟩ := h σ lib depth ptrSize fuel ord w
  obtain ⟨a', b'⟩ := h' σ lib depth ptrSize fuel ord w
  exact ⟨fun r h => a' r (a r h), fun h => b' (b h)⟩

/-- Programs with the same globals and function heads, in which functions correspond. -/
theorem sameResults_of {p p' : Program} {chk : Bool} {D : Value → Prop} {strict : Prop} (hg : p'.view.g = p.view.g) (hh : p'.view.head = p.view.head)
    (hi : p'.view.insts = p.view.insts) (hf : ∀ rt rt' : Rt, rt'.depth = rt.depth → ∀ f fd fd', p.funcs.get? f = some fd → p'.funcs.get? f = some fd' →
      fd'.ty = fd.ty → fd'.name = fd.name → fd'.params = fd.params → ∃ Kept, FuncSim rt rt' D strict Kept fd fd') : SameResults p p' chk := by
  intro σ lib depth ptrSize fuel ord w
  have hs := interpret_sim (lib := lib) (chk := chk) (depth := depth) (ptrSize := ptrSize) (fuel := fuel) (ord := ord) (p := p) (p' := p') (w := w)
    (D := D) (strict := strict) hi (fun v => by
      have : shapeOf (p'.values.get? v) = shapeOf (p.values.get? v) := congrFun hg v
      unfold shapeOf at this
      cases e1 : p'.values.get? v <;> cases e2 : p.values.get? v <;> rw [e1, e2] at this <;> simp_all) (fun g => by
      have := congrFun hh g
      simp only [Program.view] at this
      cases e1 : p'.funcs.get? g <;> cases e2 : p.funcs.get? g <;> rw [e1, e2] at this <;> simp_all) (fun vars g fg hg => by
      have hh := congrFun hh g
      simp only [Program.view, hg] at hh
      cases hg' : p'.funcs.get? g with
      | none => rw [hg'] at hh; cases hh
      | some fg' =>
        rw [hg'] at hh
        simp only [Option.map_some, Option.some.injEq, Prod.mk.injEq] at hh
        exact ⟨fg', rfl, hf ⟨p, vars, depth, ptrSize, chk⟩ ⟨p', vars, depth, ptrSize, chk⟩ rfl g fg fg' hg hg' hh.1 hh.2.1 hh.2.2⟩)
  unfold Preserved at hs
  refine ⟨fun r e => ?_, fun e => ?_⟩ <;> rw [e] at hs
  · obtain ⟨a, h1, h2⟩ := hs
    rw [h1, h2]
  · exact hs

/-- Operands of live local values are live. -/
theorem DInv.closedAt {p : Program} (hi : DInv p) {f : Func} {fd : FData} (hf : p.funcs.get? f = some fd) {v : Value} {d : VData}
    (hd : fd.dfg.values.get? v = some d) {o : Value} (ho : o ∈ operands d.kind) : (fd.dfg.values.get? o).isSome ∨ isGlobal o = true := by
  rcases hi.inv.closedL f v o ⟨d, ⟨fd, hf, hd⟩, ho⟩ with ⟨x, hx⟩ | ⟨x, fd', h1, h2⟩
  case inr =>
    rw [hf] at h1; cases h1
    exact .inl (by rw [h2]; rfl)
  · right
    have h1 := hi.inv.gRange o x hx
    unfold isGlobal
    have := hi.max
    simp only [Bool.and_eq_true, decide_eq_true_eq]
    omega

namespace Dce

theorem isLocalInst_iff {k : VKind} : k.isLocalInst = (effectful k || computes k) := by cases k <;> rfl
theorem isCritical_eq {k : VKind} : isCritical k = effectful k := by cases k <;> rfl

theorem Swept.same {p p' : Program} {f : Func} {ds : List Value} {l l' : Layout} {chk : Bool} (hi : DInv p) (hS : Sane p f) (h : Swept p p' f ds l l')
    (hl : p.view.lay f = some l) (hds : ∀ v ∈ ds, ∃ t n k, p.view.l f v = some (t, n, k) ∧ computes k = true) : SameResults p p' chk := by
  refine sameResults_of (D := fun v => v ∈ ds) (strict := False) (by rw [h.rest]) (by rw [h.rest]) (by rw [h.rest]) ?_
  rintro rt rt' - g fd fd' hf hf' hty hname hps
  have hll : p'.view.l g = fun v => if g = f ∧ v ∈ ds then none else p.view.l g v := by rw [h.rest]
  have hlb : p'.view.b g = p.view.b g := by rw [h.rest]
  have hla : p'.view.lay g = if g = f then some l' else p.view.lay g := by rw [h.rest]
  have hng : ∀ v, (fd.dfg.values.get? v).isSome → isGlobal v = false := fun v hv => hi.local_not_global (f := g) (by
    rw [view_l_self hf]; unfold shapeOf; simpa using hv)
  have hblocks : ∀ b, bshapeOf (fd'.dfg.bbs.get? b) = bshapeOf (fd.dfg.bbs.get? b) := fun b => by
    rw [← view_b_self hf, ← view_b_self hf', hlb]
  have hcl : ∀ v d, fd'.dfg.values.get? v = some d → ∀ o ∈ operands d.kind, (fd'.dfg.values.get? o).isSome ∨ isGlobal o = true :=
    fun v d hd o ho => h.inv.closedAt hf' hd ho
  have hlay : p.view.lay g = some fd.layout := by simp [Program.view, hf]
  have hlay' : p'.view.lay g = some fd'.layout := by simp [Program.view, hf']
  by_cases e : g = f
  · subst e
    refine ⟨_, funcSim_removed (ds := ds) hty hname hps ?_ ?_ ?_ hblocks ?_ (fun _ _ _ => Iff.rfl) hng ?_ ?_ hcl⟩
    · rw [if_pos rfl, hlay'] at hla
      rw [hl] at hlay
      cases hla; cases hlay
      exact h.bbs
    · intro v hv
      rw [← view_l_self hf, ← view_l_self hf', hll]
      simp [hv]
    · intro v hv
      have := congrFun hll v
      rw [view_l_self hf', if_pos ⟨rfl, hv⟩] at this
      cases e : fd'.dfg.values.get? v with
      | none => rfl
      | some d => rw [e] at this; cases this
    · intro v hv d hd
      obtain ⟨t, n, k, h1, h2⟩ := hds v hv
      rw [view_l_self hf, hd] at h1
      cases h1
      revert h2
      cases d.kind <;> exact id
    · intro v hv
      obtain ⟨t, n, k, h1, h2⟩ := hds v hv
      exact hi.local_not_global (f := g) (by rw [h1]; rfl)
    · intro t x hx y hy _ hyd
      obtain ⟨t', n, k, h1, h2⟩ := hds y hyd
      obtain ⟨i, rfl⟩ := hS.params t x.name x.params (by rw [view_b_self hf, hx]; rfl) y hy _ _ _ h1
      cases h2
  · have hgl : p'.view.lay g = p.view.lay g := by rw [hla, if_neg e]
    rw [hlay, hlay'] at hgl
    refine ⟨_, funcSim_removed (ds := []) hty hname hps ?_ (fun v _ => ?_) (fun v hv => by cases hv) hblocks (fun v hv => by cases hv) ?_ hng
      (fun v hv => by cases hv) (fun _ _ _ _ _ _ h => by cases h) hcl⟩
    · rw [Option.some.inj hgl]
      refine Eq.symm (Eq.trans (List.map_congr_left (g := id) (fun q hq => ?_)) (List.map_id _))
      simp only [List.not_mem_nil, not_false_eq_true, decide_true, List.filter_eq_self.2 (fun _ _ => rfl), id]
    · rw [← view_l_self hf, ← view_l_self hf', hll]
      simp [e]
    · intro v d hd
      simp only [List.not_mem_nil, iff_false]
      intro hv
      obtain ⟨t, n, k, h1, h2⟩ := hds v hv
      obtain ⟨x, hx, -⟩ := view_l_iff.1 h1
      exact e (hi.inv.lDisj g f v d x ⟨fd, hf, hd⟩ hx)

theorem Dropped.same {p p' : Program} {f : Func} {l : List (BB × List (Nat × Value))} {chk : Bool} (hi : DInv p) (hS : Sane p f) (h : Dropped p p' f l) :
    SameResults p p' chk := by
  refine sameResults_of (D := NoAlloc) (strict := True) (by rw [h.rest]) (by rw [h.rest]) (by rw [h.rest]) ?_
  rintro rt rt' hdep g fd fd' hf hf' hty hname hps
  have hll : p'.view.l g = fun v => if g = f then (if v ∈ gone l then none else (p.view.l g v).map (onKind (drops l))) else p.view.l g v := by rw [h.rest]
  have hlb : p'.view.b g = fun c => if g = f then (p.view.b f c).map (fun q => (q.1, dropAt (pos l c) 0 q.2)) else p.view.b g c := by rw [h.rest]
  have hla : p'.view.lay g = p.view.lay g := by rw [h.rest]
  have hng : ∀ v, (fd.dfg.values.get? v).isSome → isGlobal v = false := fun v hv => hi.local_not_global (f := g) (by
    rw [view_l_self hf]; unfold shapeOf; simpa using hv)
  have hlay : p.view.lay g = some fd.layout := by simp [Program.view, hf]
  have hlay' : p'.view.lay g = some fd'.layout := by simp [Program.view, hf']
  rw [hlay, hlay'] at hla
  have hla := Option.some.inj hla
  by_cases e : g = f
  · subst e
    have hpar : ∀ v ∈ gone l, ∀ t n k, p.view.l g v = some (t, n, k) → ∃ i, k = .blockArgRef i := by
      intro v hv t n k hk
      obtain ⟨-, b, m, ps, h1, h2⟩ := h.param v hv
      exact hS.params b m ps h1 v h2 t n k hk
    refine ⟨_, funcSim_dropped (l := l) h.keys hty hname hps (by rw [hla]) ?_ ?_ ?_ ?_ hng ?_ ?_ ?_ ?_ (fun v d hd o ho => h.inv.closedAt hf' hd ho)⟩
    · intro v hv
      rw [← view_l_self hf, ← view_l_self hf', hll]
      simp [hv]
    · intro v hv
      have := congrFun hll v
      rw [view_l_self hf', if_pos rfl, if_pos hv] at this
      cases e : fd'.dfg.values.get? v with
      | none => rfl
      | some d => rw [e] at this; cases this
    · intro b
      rw [← view_b_self hf, ← view_b_self hf', hlb]
      simp
    · intro b x hx i y hy
      exact h.gone_iff b x.name x.params (by rw [view_b_self hf, hx]; rfl) i y hy
    · intro v hv
      exact hi.local_not_global (h.param v hv).1
    · intro v hv d hd
      exact hpar v hv d.ty d.name d.kind (by rw [view_l_self hf, hd]; rfl)
    · intro b is hb v hv hg
      obtain ⟨t, n, k, h1, h2⟩ := hS.listed _ b v hlay ⟨is, hb, hv⟩
      obtain ⟨i, rfl⟩ := hpar v hg t n k h1
      cases h2
    · intro v d hd c b b' ts fs hk he
      exact hS.arms v d.ty d.name c b b' ts fs (by rw [view_l_self hf, hd, ← hk]; rfl) he
  · refine ⟨Interp.All, ConstFold.funcSim_folded (fs := []) hdep hty hname hps ?_ (fun v _ => ?_) (fun v hv => by cases hv) (fun b => ?_)
      (fun _ _ h => by cases h) (fun _ _ _ _ _ _ _ _ _ _ _ _ _ h => by cases h) hng⟩
    · rw [hla]
      refine Eq.symm (Eq.trans (List.map_congr_left (g := id) (fun q hq => ?_)) (List.map_id _))
      simp only [List.not_mem_nil, not_false_eq_true, decide_true, List.filter_eq_self.2 (fun _ _ => rfl), id]
    · rw [← view_l_self hf, ← view_l_self hf', hll]
      simp only [if_neg e]
    · rw [← view_b_self hf, ← view_b_self hf', hlb]
      simp only [if_neg e]

/-! ### What stays as it is -/

theorem Swept.sane {p p' : Program} {f : Func} {ds : List Value} {l l' : Layout} (h : Swept p p' f ds l l') (hl : p.view.lay f = some l) {g : Func}
    (hS : Sane p g) : Sane p' g := by
  have hll : ∀ v, p'.view.l g v = if g = f ∧ v ∈ ds then none else p.view.l g v := fun v => by rw [h.rest]
  have hlb : p'.view.b g = p.view.b g := by rw [h.rest]
  have hla : p'.view.lay g = if g = f then some l' else p.view.lay g := by rw [h.rest]
  have back : ∀ {v s}, p'.view.l g v = some s → p.view.l g v = some s := by
    intro v s hv
    rw [hll] at hv
    split at hv
    · cases hv
    · exact hv
  refine ⟨fun b n ps hb x hx t m k hk => hS.params b n ps (by rw [← hlb]; exact hb) x hx t m k (back hk), ?_,
    fun v t m c b b' ts fs hv => hS.arms v t m c b b' ts fs (back hv)⟩
  intro k b v hk hv
  rw [hla] at hk
  split at hk
  · rename_i e
    subst e
    cases hk
    obtain ⟨is, h1, h2⟩ := hv
    rw [h.bbs] at h1
    obtain ⟨⟨b0, is0⟩, h3, h4⟩ := List.mem_map.1 h1
    simp only [Prod.mk.injEq] at h4
    obtain ⟨rfl, rfl⟩ := h4
    obtain ⟨h5, h6⟩ := List.mem_filter.1 h2
    obtain ⟨t, m, k, h7, h8⟩ := hS.listed l b0 v hl ⟨is0, h3, h5⟩
    refine ⟨t, m, k, ?_, h8⟩
    rw [hll, if_neg (fun e => by simp [e.2] at h6)]
    exact h7
  · rename_i e
    obtain ⟨t, m, k', h7, h8⟩ := hS.listed k b v hk hv
    refine ⟨t, m, k', ?_, h8⟩
    rw [hll, if_neg (fun e' => e e'.1)]
    exact h7

theorem trimmed_drops {l : List (BB × List (Nat × Value))} (hk : (l.map (·.1)).Nodup) {k : VKind}
    (ha : ∀ c b b' ts fs, k = .branch c b b' ts fs → b = b' → ts = [] ∧ fs = []) : Trimmed k (drops l k) := by
  cases k with
  | branch c t f ts fs =>
    rw [drops_branch hk (ha c t f ts fs rfl)]
    exact .branch dropAt_sublist dropAt_sublist
  | jump t as =>
    rw [drops_jump hk]
    exact .jump dropAt_sublist
  | _ => rw [drops_other rfl]; exact .same _

theorem Dropped.back {p p' : Program} {f : Func} {l : List (BB × List (Nat × Value))} (h : Dropped p p' f l) (hS : Sane p f) {v : Value} {t : Ty}
    {n : Option Str} {k : VKind} (hv : p'.view.l f v = some (t, n, k)) :
    ∃ k0, p.view.l f v = some (t, n, k0) ∧ k = drops l k0 ∧ Trimmed k0 k ∧ v ∉ gone l := by
  have hll : p'.view.l f v = if v ∈ gone l then none else (p.view.l f v).map (onKind (drops l)) := by rw [h.rest]; simp
  rw [hll] at hv
  split at hv
  · cases hv
  · rename_i hg
    obtain ⟨⟨t0, n0, k0⟩, h1, h2⟩ := Option.map_eq_some_iff.1 hv
    simp only [onKind, Prod.mk.injEq] at h2
    obtain ⟨rfl, rfl, rfl⟩ := h2
    exact ⟨k0, h1, rfl, trimmed_drops h.keys (fun c b b' ts fs e => by subst e; exact hS.arms v t0 n0 c b b' ts fs h1), hg⟩

theorem Dropped.sane {p p' : Program} {f : Func} {l : List (BB × List (Nat × Value))} (h : Dropped p p' f l) (hSf : Sane p f) {g : Func}
    (hS : Sane p g) : Sane p' g := by
  by_cases e : g = f
  · subst e
    have hlb : ∀ c, p'.view.b g c = (p.view.b g c).map (fun q => (q.1, dropAt (pos l c) 0 q.2)) := fun c => by rw [h.rest]; simp
    have hla : p'.view.lay g = p.view.lay g := by rw [h.rest]
    refine ⟨?_, ?_, ?_⟩
    · intro b n ps hb x hx t m k hk
      rw [hlb] at hb
      obtain ⟨⟨n0, ps0⟩, h1, h2⟩ := Option.map_eq_some_iff.1 hb
      simp only [Prod.mk.injEq] at h2
      obtain ⟨rfl, rfl⟩ := h2
      obtain ⟨k0, h3, rfl, -, -⟩ := h.back hS hk
      obtain ⟨i, rfl⟩ := hS.params b n0 ps0 h1 x (dropAt_sublist.subset hx) t m k0 h3
      exact ⟨i, drops_other rfl⟩
    · intro k b v hk hv
      rw [hla] at hk
      obtain ⟨t, m, k', h7, h8⟩ := hS.listed k b v hk hv
      refine ⟨t, m, drops l k', ?_, by rw [shape_kind_drops.1]; exact h8⟩
      have hll : p'.view.l g v = if v ∈ gone l then none else (p.view.l g v).map (onKind (drops l)) := by rw [h.rest]; simp
      rw [hll, if_neg, h7]
      · rfl
      · intro hg
        obtain ⟨-, b', n, ps, h1, h2⟩ := h.param v hg
        obtain ⟨i, rfl⟩ := hS.params b' n ps h1 v h2 t m k' h7
        cases h8
    · intro v t m c b b' ts fs hv
      obtain ⟨k0, h3, -, h4, -⟩ := h.back hS hv
      cases h4 with
      | same => exact hS.arms v t m c b b' ts fs h3
      | branch h5 h6 =>
        intro e
        obtain ⟨rfl, rfl⟩ := hS.arms v t m c b b' _ _ h3 e
        exact ⟨List.sublist_nil.1 h5, List.sublist_nil.1 h6⟩
  · have hll : p'.view.l g = p.view.l g := by rw [h.rest]; simp [e]
    have hlb : p'.view.b g = p.view.b g := by rw [h.rest]; simp [e]
    have hla : p'.view.lay g = p.view.lay g := by rw [h.rest]
    refine ⟨?_, ?_, ?_⟩
    · rw [hlb, hll]; exact hS.params
    · rw [hla, hll]; exact hS.listed
    · rw [hll]; exact hS.arms

/-! ### Rounds -/

/-- Instructions that live ones mention are live. -/
def Stable (p : Program) (g : Func) (live : List Value) : Prop :=
  ∀ u ∈ live, ∀ t n k, p.view.l g u = some (t, n, k) → ∀ o ∈ operands k, ∀ t' n' k', p.view.l g o = some (t', n', k') → k'.isLocalInst = true → o ∈ live

/-- The orders list the values and the blocks of `f`, the blocks without repetition, and go through sets and maps. -/
structure Orders.Ok (f : Func) (o : Orders) : Prop where
  values : ∀ p v x, LocalVal p f v x → v ∈ o.values p
  bbs : ∀ p b x, Block p f b x → b ∈ o.bbs p
  once : ∀ p, (o.bbs p).Nodup
  fair : o.Fair

theorem Stable.closedAt {p : Program} {f : Func} {fd : FData} {live : List Value} (hf : p.funcs.get? f = some fd) (h : Stable p f live) :
    ∀ v ∈ live, ClosedAt fd live v := by
  intro v hv d hd o ho e he hl
  exact h v hv d.ty d.name d.kind (by rw [view_l_self hf, hd]; rfl) o ho e.ty e.name e.kind (by rw [view_l_self hf, he]; rfl) hl

theorem get_of_view {p : Program} {f : Func} {fd : FData} (hf : p.funcs.get? f = some fd) {v : Value} {s : Sig} (h : p.view.l f v = some s) :
    ∃ d, fd.dfg.values.get? v = some d ∧ d.shape = s := by
  rw [view_l_self hf] at h
  unfold shapeOf at h
  exact Option.map_eq_some_iff.1 h

theorem Stable.of_closedAt {p : Program} {f : Func} {fd : FData} {live : List Value} (hf : p.funcs.get? f = some fd)
    (h : ∀ v ∈ live, ClosedAt fd live v) : Stable p f live := by
  intro v hv t n k hk o ho t' n' k' hk' hl
  obtain ⟨d, hd, e⟩ := get_of_view hf hk
  cases e
  obtain ⟨d', hd', e⟩ := get_of_view hf hk'
  cases e
  exact h v hv d hd o ho d' hd' hl

theorem needed_iff {p : Program} {f : Func} {fd : FData} (hf : p.funcs.get? f = some fd) {v : Value} : Needed fd v ↔ Spec.Needed p f v := by
  constructor
  · intro h
    induction h with
    | critical hd hc => exact .effect ⟨fd, hf, hd⟩ (by rw [← isCritical_eq]; exact hc)
    | operand _ hd ho he hl ih => exact .operand ih ⟨_, ⟨fd, hf, hd⟩, ho⟩ ⟨fd, hf, he⟩ (by rw [← isLocalInst_iff]; exact hl)
  · intro h
    have key : ∀ {v x}, LocalVal p f v x → fd.dfg.values.get? v = some x := by
      rintro v x ⟨fd', h1, h2⟩
      rw [hf] at h1; cases h1
      exact h2
    induction h with
    | effect hx hc => exact .critical (key hx) (by rw [isCritical_eq]; exact hc)
    | operand _ hu hx hl ih =>
      obtain ⟨y, hy, ho⟩ := hu
      exact .operand ih (key hy) ho (key hx) (by rw [isLocalInst_iff]; exact hl)

theorem needed_live {p : Program} {f : Func} {v : Value} (h : Spec.Needed p f v) : ∃ x, LocalVal p f v x := by
  cases h with
  | effect h => exact ⟨_, h⟩
  | operand _ _ h => exact ⟨_, h⟩

/-- What one round does. -/
structure Round (f : Func) (live live' : List Value) (p p' : Program) : Prop where
  inv : DInv p'
  sane : ∀ g, Sane p' g
  stable : ∀ g, Stable p' g live'
  grows : ∀ v ∈ live, v ∈ live'
  needed : ∀ v, Spec.Needed p f v → v ∈ live'
  only : ∀ v ∈ live', v ∈ live ∨ Spec.Needed p f v
  lay : ∃ l l', p.view.lay f = some l ∧ p'.view.lay f = some l' ∧ l'.bbs = l.bbs.map (fun q => (q.1, q.2.filter (fun v => decide (v ∈ live'))))
  others : ∀ g, g ≠ f → p'.view.lay g = p.view.lay g ∧ p'.view.l g = p.view.l g ∧ p'.view.b g = p.view.b g
  rest : p'.view.head = p.view.head ∧ p'.view.g = p.view.g ∧ p'.view.insts = p.view.insts ∧ p'.view.fns = p.view.fns
  vals : ∀ v t n k, p'.view.l f v = some (t, n, k) → ∃ k0, p.view.l f v = some (t, n, k0) ∧ Trimmed k0 k
  gone : ∀ v t n k, p.view.l f v = some (t, n, k) → p'.view.l f v = none → (computes k = true ∧ v ∉ live') ∨ ∃ i, k = .blockArgRef i
  blocks : ∀ b n ps, p.view.b f b = some (n, ps) → ∃ ps', p'.view.b f b = some (n, ps') ∧ ps'.Sublist ps ∧ ∀ x ∈ ps, x ∈ ps' ∨ p'.view.l f x = none
  noBlock : ∀ b, p.view.b f b = none → p'.view.b f b = none
  same : ∀ chk, SameResults p p' chk

theorem round_spec {f : Func} {n : Nat} {o : Orders} {st st' : St} {p p' : Program} {c : Bool} (hi : DInv p) (hS : ∀ g, Sane p g)
    (hT : ∀ g, Stable p g st.liveset) (hw : st.worklist = []) (ho : o.Ok f) (h : round f n o st p = some (st', p', c)) :
    Round f st.liveset st'.liveset p p' ∧ st'.worklist = [] ∧
      (c = false → ∀ b x, Block p' f b x → ∀ v ∈ x.params, ∃ u, LocalUse p' f u v) := by
  unfold round at h
  split at h
  · cases h
  · rename_i fd hf
    split at h
    · cases h
    · rename_i st1 hm
      split at h
      · cases h
      · rename_i p1 c1 h1
        simp only [Option.map_eq_some_iff, Prod.mk.injEq] at h
        obtain ⟨⟨p2, c2⟩, h2, rfl, rfl, rfl⟩ := h
        obtain ⟨w1, M⟩ := mark_spec ((hT f).closedAt hf) hw (fun v hv => by
          obtain ⟨x, hx⟩ := Option.isSome_iff_exists.1 hv
          exact ho.values p v x ⟨fd, hf, hx⟩) hm
        obtain ⟨l, l', ds, e1, e2, e3, S⟩ := sweep_spec hi h1
        obtain ⟨gl, f1, D⟩ := optBbParams_spec ho.fair S.inv (ho.once p1) (fun b hb => by
          obtain ⟨⟨nm, ps⟩, hb⟩ := Option.isSome_iff_exists.1 hb
          obtain ⟨x, hx, -⟩ := view_b_iff.1 hb
          exact ho.bbs p1 b x hx) h2
        have hS1 : ∀ g, Sane p1 g := fun g => S.sane e1 (hS g)
        have hds : ∀ v ∈ ds, ∃ t n k, p.view.l f v = some (t, n, k) ∧ computes k = true := by
          intro v hv
          obtain ⟨⟨b, hb⟩, hn⟩ := (e2 v).1 hv
          obtain ⟨t, n, k, h3, h4⟩ := (hS f).listed l b v e1 hb
          refine ⟨t, n, k, h3, ?_⟩
          rw [isLocalInst_iff, Bool.or_eq_true] at h4
          rcases h4 with h4 | h4
          · obtain ⟨d, hd, e⟩ := get_of_view hf h3
            cases e
            exact absurd (M.crit v d hd (by rw [isCritical_eq]; exact h4)) hn
          · exact h4
        have hSt : Stable p f st1.liveset := .of_closedAt hf M.closed
        have hl1 : ∀ g v, p1.view.l g v = if g = f ∧ v ∈ ds then none else p.view.l g v := fun g v => by rw [S.rest]
        have hl2 : ∀ g, g ≠ f → p2.view.l g = p1.view.l g := fun g e => by rw [D.rest]; simp [e]
        have hb1 : p1.view.b = p.view.b := by rw [S.rest]
        have hvals : ∀ v t n k, p2.view.l f v = some (t, n, k) → ∃ k0, p.view.l f v = some (t, n, k0) ∧ Trimmed k0 k := by
          intro v t n k hv
          obtain ⟨k0, h3, -, h4, -⟩ := D.back (hS1 f) hv
          rw [hl1] at h3
          split at h3
          · cases h3
          · exact ⟨k0, h3, h4⟩
        refine ⟨⟨D.inv, fun g => D.sane (hS1 f) (hS1 g), ?_, M.kept, fun v hv => M.needed ((needed_iff hf).2 hv), fun v hv => ?_, ?_, ?_, ?_, hvals, ?_, ?_, ?_,
          fun chk => (S.same hi (hS f) e1 hds).trans (D.same S.inv (hS1 f))⟩, w1, ?_⟩
        · intro g
          by_cases e : g = f
          · subst e
            intro u hu t n k hk o ho t' n' k' hk' hl
            obtain ⟨k0, h3, h4⟩ := hvals u t n k hk
            obtain ⟨k1, h5, h6⟩ := hvals o t' n' k' hk'
            refine hSt u hu t n k0 h3 o (h4.operands o ho) t' n' k1 h5 ?_
            rw [isLocalInst_iff] at hl ⊢
            rw [← h6.effectful, ← h6.computes]; exact hl
          · have hlg : p2.view.l g = p.view.l g := by
              rw [hl2 g e]
              funext v
              rw [hl1, if_neg (fun e' => e e'.1)]
            intro u hu t n k hk o ho t' n' k' hk' hl
            rw [hlg] at hk hk'
            refine M.kept o (hT g u ?_ t n k hk o ho t' n' k' hk' hl)
            rcases M.only u hu with h3 | h3
            · exact h3
            · obtain ⟨x, hx⟩ := needed_live ((needed_iff hf).1 h3)
              obtain ⟨y, hy, -⟩ := view_l_iff.1 hk
              exact absurd (hi.inv.lDisj g f u y x hy hx) e
        · exact (M.only v hv).imp id (needed_iff hf).1
        · refine ⟨l, l', e1, by rw [D.rest, S.rest]; simp, ?_⟩
          rw [S.bbs]
          refine List.map_congr_left (fun q hq => ?_)
          rw [Prod.mk.injEq]
          refine ⟨rfl, List.filter_congr (fun x hx => ?_)⟩
          have : (x ∉ ds) ↔ x ∈ st1.liveset := by
            rw [e2]
            constructor
            · intro h3
              exact Classical.byContradiction (fun h4 => h3 ⟨⟨q.1, q.2, hq, hx⟩, h4⟩)
            · exact fun h3 h4 => h4.2 h3
          simp only [this]
        · intro g e
          refine ⟨by rw [D.rest, S.rest]; simp [e], ?_, by rw [D.rest, hb1]; simp [e]⟩
          rw [hl2 g e]
          funext v
          rw [hl1, if_neg (fun e' => e e'.1)]
        · rw [D.rest, S.rest]
          exact ⟨rfl, rfl, rfl, rfl⟩
        · intro v t n k hv hn
          by_cases hd : v ∈ ds
          · obtain ⟨t', n', k', h3, h4⟩ := hds v hd
            rw [hv] at h3; cases h3
            exact .inl ⟨h4, ((e2 v).1 hd).2⟩
          · have h3 : p1.view.l f v = some (t, n, k) := by rw [hl1, if_neg (fun e => hd e.2)]; exact hv
            have h4 : p2.view.l f v = if v ∈ Dce.gone gl then none else (p1.view.l f v).map (onKind (drops gl)) := by rw [D.rest]; simp
            rw [hn, h3] at h4
            split at h4
            · rename_i hg
              obtain ⟨-, b, nm, ps, h5, h6⟩ := D.param v hg
              exact .inr ((hS1 f).params b nm ps h5 v h6 t n k h3)
            · cases h4
        · intro b nm ps hb
          rw [← hb1] at hb
          refine ⟨dropAt (pos gl b) 0 ps, by rw [D.rest]; simp [hb], dropAt_sublist, fun x hx => ?_⟩
          obtain ⟨i, hi'⟩ := List.getElem?_of_mem hx
          by_cases hp : i ∈ pos gl b
          · refine .inr ?_
            have hg := (D.gone_iff b nm ps hb i x hi').1 hp
            rw [D.rest]; simp [hg]
          · exact .inl (mem_dropAt hi' (by simpa using hp))
        · intro b hb
          rw [D.rest]
          simp [hb1, hb]
        · intro hc b x hx v hv
          simp only [Bool.or_eq_false_iff] at hc
          have hgl := f1 hc.2
          subst hgl
          have h4 : p2.view.b f b = some (x.name, x.params) := view_b_iff.2 ⟨x, hx, rfl, rfl⟩
          have h5 : p1.view.b f b = some (x.name, x.params) := by
            rw [D.rest] at h4
            simp only [if_true, pos, dropAt_nil] at h4
            cases h6 : p1.view.b f b with
            | none => rw [h6] at h4; cases h4
            | some q => obtain ⟨q1, q2⟩ := q; rw [h6] at h4; simpa using h4
          obtain ⟨u, y, hy, hu⟩ := D.used b _ _ h5 v hv (by simp [Dce.gone])
          have h6 : p1.view.l f u = some y.shape := view_l_iff.2 ⟨y, hy, rfl⟩
          have h7 : p2.view.l f u = some y.shape := by
            rw [D.rest]
            simp [Dce.gone, h6, onKind, drops]
          obtain ⟨y', hy', he⟩ := view_l_iff.1 h7
          refine ⟨u, y', hy', ?_⟩
          rw [show y'.kind = y.kind from congrArg (·.2.2) he]
          exact hu

theorem Round.needed_back {f : Func} {live live' : List Value} {p p' : Program} (h : Round f live live' p p') {v : Value}
    (hv : Spec.Needed p' f v) : Spec.Needed p f v := by
  have back : ∀ {v x}, LocalVal p' f v x → ∃ y, LocalVal p f v y ∧ Trimmed y.kind x.kind := by
    intro v x hx
    obtain ⟨k0, h1, h2⟩ := h.vals v x.ty x.name x.kind (view_l_iff.2 ⟨x, hx, rfl⟩)
    obtain ⟨y, hy, e⟩ := view_l_iff.1 h1
    exact ⟨y, hy, by rw [show y.kind = k0 from congrArg (·.2.2) e]; exact h2⟩
  induction hv with
  | effect hx hc =>
    obtain ⟨y, hy, ht⟩ := back hx
    exact .effect hy (by rw [← ht.effectful]; exact hc)
  | operand _ hu hx hl ih =>
    obtain ⟨z, hz, ho⟩ := hu
    obtain ⟨z', hz', ht⟩ := back hz
    obtain ⟨y, hy, ht'⟩ := back hx
    exact .operand ih ⟨z', hz', ht.operands _ ho⟩ hy (by rw [← ht'.effectful, ← ht'.computes]; exact hl)

theorem Round.trans {f : Func} {l0 l1 l2 : List Value} {p p1 p2 : Program} (h : Round f l0 l1 p p1) (h' : Round f l1 l2 p1 p2) : Round f l0 l2 p p2 := by
  have hsub : ∀ v ∈ l2, v ∈ l1 := fun v hv => (h'.only v hv).elim id (fun hn => h.needed v (h.needed_back hn))
  refine ⟨h'.inv, h'.sane, h'.stable, fun v hv => h'.grows v (h.grows v hv), fun v hv => h'.grows v (h.needed v hv),
    fun v hv => h.only v (hsub v hv), ?_, ?_, ?_, ?_, ?_, ?_, fun b hb => h'.noBlock b (h.noBlock b hb), fun chk => (h.same chk).trans (h'.same chk)⟩
  · obtain ⟨a, b, e1, e2, e3⟩ := h.lay
    obtain ⟨b', c, e4, e5, e6⟩ := h'.lay
    rw [e2] at e4; cases e4
    refine ⟨a, c, e1, e5, ?_⟩
    rw [e6, e3, List.map_map]
    refine List.map_congr_left (fun q _ => ?_)
    simp only [Function.comp, Prod.mk.injEq, true_and, List.filter_filter]
    refine List.filter_congr (fun x _ => ?_)
    by_cases hx : x ∈ l2
    · simp [hx, hsub x hx]
    · simp [hx]
  · intro g e
    obtain ⟨a1, a2, a3⟩ := h.others g e
    obtain ⟨b1, b2, b3⟩ := h'.others g e
    exact ⟨b1.trans a1, b2.trans a2, b3.trans a3⟩
  · obtain ⟨a1, a2, a3, a4⟩ := h.rest
    obtain ⟨b1, b2, b3, b4⟩ := h'.rest
    exact ⟨b1.trans a1, b2.trans a2, b3.trans a3, b4.trans a4⟩
  · intro v t n k hv
    obtain ⟨k1, h1, h2⟩ := h'.vals v t n k hv
    obtain ⟨k0, h3, h4⟩ := h.vals v t n k1 h1
    exact ⟨k0, h3, h4.trans h2⟩
  · intro v t n k hv hn
    cases h1 : p1.view.l f v with
    | none => exact (h.gone v t n k hv h1).imp (fun q => ⟨q.1, fun e => q.2 (hsub v e)⟩) id
    | some s =>
      obtain ⟨t1, n1, k1⟩ := s
      obtain ⟨k0, h3, h4⟩ := h.vals v t1 n1 k1 h1
      rw [hv] at h3; cases h3
      rcases h'.gone v t n k1 h1 hn with ⟨h5, h6⟩ | ⟨i, rfl⟩
      · exact .inl ⟨by rw [← h4.computes]; exact h5, h6⟩
      · cases h4
        exact .inr ⟨i, rfl⟩
  · intro b n ps hb
    obtain ⟨ps1, h1, h2, h3⟩ := h.blocks b n ps hb
    obtain ⟨ps2, h4, h5, h6⟩ := h'.blocks b n ps1 h1
    refine ⟨ps2, h4, h5.trans h2, fun x hx => ?_⟩
    rcases h3 x hx with h7 | h7
    · exact h6 x h7
    · refine .inr ?_
      cases h8 : p2.view.l f x with
      | none => rfl
      | some s =>
        obtain ⟨t, n, k⟩ := s
        obtain ⟨k0, h9, -⟩ := h'.vals x t n k h8
        rw [h7] at h9; cases h9

theorem runOn_spec {f : Func} {n : Nat} {o : Orders} : ∀ {k : Nat} {st st' : St} {p p' : Program}, DInv p → (∀ g, Sane p g) →
    (∀ g, Stable p g st.liveset) → st.worklist = [] → o.Ok f → runOn f n o k st p = some (st', p') →
    Round f st.liveset st'.liveset p p' ∧ st'.worklist = [] ∧ ∀ b x, Block p' f b x → ∀ v ∈ x.params, ∃ u, LocalUse p' f u v
  | 0, _, _, _, _, _, _, _, _, _, h => by cases h
  | k + 1, st, st', p, p', hi, hS, hT, hw, ho, h => by
    unfold runOn at h
    split at h
    · cases h
    · rename_i st1 p1 c h1
      obtain ⟨R, w, u⟩ := round_spec hi hS hT hw ho h1
      split at h
      · obtain ⟨R', w', u'⟩ := runOn_spec R.inv R.sane R.stable w ho h
        exact ⟨R.trans R', w', u'⟩
      · rename_i hc
        cases h
        exact ⟨R, w, u (by simpa using hc)⟩

end Dce
end Koopa
