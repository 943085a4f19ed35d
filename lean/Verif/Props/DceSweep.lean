import Verif.Props.DceEnds
import Verif.Props.FoldEnds
/-!
C68: sweeping after marking does not panic.
-/
namespace Koopa
open Spec Dce

namespace Dce

theorem unlist_total {f : Func} : ∀ {ev : List (BB × Value)} {p : Program} {l : Layout}, DInv p → p.view.lay f = some l →
    (∀ bb v, (bb, v) ∈ ev → bb ∈ l.bbs.map (·.1)) → ∃ p', unlist f ev p = some p'
  | [], p, _, _, _, _ => ⟨p, rfl⟩
  | (bb, v) :: ev, p, l, hi, hl, hb => by
    obtain ⟨⟨bb', is⟩, hm, e⟩ := List.mem_map.1 (hb bb v (by simp))
    simp only at e
    subst e
    have hL := hi.lays f l hl
    have his := hL.insts?_iff.2 hm
    obtain ⟨fd, hf, hfl⟩ := Option.map_eq_some_iff.1 (show (p.funcs.get? f).map _ = some l from hl)
    obtain ⟨⟨l1, ch⟩, h1, hkeys⟩ : ∃ r, l.removeInst bb' v = some r ∧ r.1.bbs.map (·.1) = l.bbs.map (·.1) := by
      unfold Layout.removeInst
      rw [his]
      dsimp only
      split
      · exact ⟨_, rfl, setInsts_keys ..⟩
      · exact ⟨_, rfl, rfl⟩
    have h2 : p.onLayout f (fun l => (l.removeInst bb' v).map (·.1)) = some { p with funcs := p.funcs.insert f { fd with layout := l1 } } := by
      unfold Program.onLayout
      subst hfl
      simp only [hf, h1, Option.bind_eq_bind, Option.bind_some, Option.map_some]
    have hi1 := hi.removeInst h2
    obtain ⟨l0, l2, e0, hs, hv⟩ := removeInst_view h2
    rw [hl] at e0; cases e0
    have hl2 : l2 = l1 := by
      unfold Layout.step at hs
      dsimp only at hs
      rw [h1] at hs
      cases hs; rfl
    subst hl2
    obtain ⟨p', hp'⟩ := unlist_total (ev := ev) (l := l2) hi1 (by rw [hv]; exact if_pos rfl) (fun b w hm => by
      rw [show l2.bbs.map (·.1) = l.bbs.map (·.1) from hkeys]; exact hb b w (by simp [hm]))
    exact ⟨p', by simp only [unlist, h2]; exact hp'⟩

theorem undefAll_total {f : Func} : ∀ {vs : List Value} {p : Program}, DInv p → (∀ v ∈ vs, ∃ t n k, p.view.l f v = some (t, n, k) ∧ t ≠ .unit) →
    ∃ p', undefAll f vs p = some p' ∧ ∀ v ∈ vs, ∃ t n, p'.view.l f v = some (t, n, .undef)
  | [], p, _, _ => ⟨p, rfl, (fun _ h => by cases h)⟩
  | v :: vs, p, hi, ht => by
    obtain ⟨t, n, k, he, hu⟩ := ht v (by simp)
    obtain ⟨x, ⟨fd, hf, hx⟩, ex⟩ := view_l_iff.1 he
    have hxt : x.ty = t := congrArg (·.1) ex
    have hb : (LocalInst.val (.undef x.ty)).build ((p.ctx fd).querier p.funcTys) = some (VData.new x.ty .undef) := by
      rw [hxt]
      cases t <;> first | rfl | exact absurd rfl hu
    obtain ⟨c, hc⟩ := hi.inv.replace_total (data := VData.new x.ty .undef) hf hx (by intro v hv; cases hv) (by intro v hv; cases hv)
    have h1 : p.replaceLocal f v (.val (.undef x.ty)) = some (p.putCtx f fd c) := by
      simp only [Program.replaceLocal, Program.onDfg, hf, hb, hc, Option.bind_eq_bind, Option.bind_some]
    generalize p.putCtx f fd c = p1 at h1
    have hi1 := hi.replaceLocal h1
    obtain ⟨fd', data, _, hf', hb', -, hv⟩ := replaceLocal_view h1
    rw [hf] at hf'; cases hf'
    rw [hb] at hb'; cases hb'
    have hself : p1.view.l f v = some (t, none, .undef) := by
      rw [hv, ← hxt]; exact if_pos ⟨rfl, rfl⟩
    obtain ⟨p', hp', hall⟩ := undefAll_total (vs := vs) hi1 (fun w hw => by
      by_cases e : w = v
      · subst e; exact ⟨_, _, _, hself, hu⟩
      · rw [hv]
        dsimp only
        rw [if_neg (fun h => e h.2)]
        exact ht w (by simp [hw]))
    refine ⟨p', ?_, fun w hw => ?_⟩
    · unfold undefAll
      simp only [hf, Option.bind_some, hx, h1]
      exact hp'
    · by_cases hm : w ∈ vs
      · exact hall w hm
      · rcases List.mem_cons.1 hw with rfl | h
        · obtain ⟨-, -, o⟩ := undefAll_spec hi1 hp'
          rw [o f w (fun e => hm e.2)]
          exact ⟨_, _, hself⟩
        · exact absurd h hm

theorem removeAll_total {f : Func} : ∀ {vs : List Value} {p : Program}, DInv p → vs.Nodup → (∀ v ∈ vs, ∃ t n, p.view.l f v = some (t, n, .undef)) →
    (∀ v ∈ vs, ∀ u, ¬ LocalUse p f u v) → ∃ p', removeAll f vs p = some p'
  | [], p, _, _, _, _ => ⟨p, rfl⟩
  | v :: vs, p, hi, hn, ht, hu => by
    rw [List.nodup_cons] at hn
    obtain ⟨t, n, he⟩ := ht v (by simp)
    obtain ⟨x, ⟨fd, hf, hx⟩, ex⟩ := view_l_iff.1 he
    have hk : x.kind = .undef := congrArg (·.2.2) ex
    have hub : x.usedBy = [] := by
      cases hc : x.usedBy with
      | nil => rfl
      | cons u l => exact absurd ((hi.inv.localUses f v x ⟨fd, hf, hx⟩ u).1 (by rw [hc]; simp)) (hu v (by simp) u)
    obtain ⟨p1, h1⟩ : ∃ p1, p.removeLocal f v = some p1 := by
      have hx' : (p.ctx fd).d.values.get? v = some x := hx
      have h1 : x.kind.valueUses = [] := by rw [hk]; rfl
      have h2 : x.kind.bbUses = [] := by rw [hk]; rfl
      unfold Program.removeLocal Program.onDfg Ctx.removeValue
      simp only [hf, hx', hub, h1, h2, Option.bind_eq_bind, Option.bind_some, guard, if_true]
      exact ⟨_, rfl⟩
    have hi1 := hi.removeLocal h1
    obtain ⟨_, _, _, hv⟩ := removeLocal_view h1
    obtain ⟨p', hp'⟩ := removeAll_total (vs := vs) hi1 hn.2 (fun w hw => by
      rw [hv]
      dsimp only
      rw [if_neg (fun e : f = f ∧ w = v => hn.1 (e.2 ▸ hw))]
      exact ht w (by simp [hw])) (fun w hw u hlu => by
      obtain ⟨y, hy, ho⟩ := hlu
      have hyv : p1.view.l f u = some y.shape := view_l_iff.2 ⟨y, hy, rfl⟩
      rw [hv] at hyv
      dsimp only at hyv
      split at hyv
      · cases hyv
      · obtain ⟨z, hz, ez⟩ := view_l_iff.1 hyv
        have hzk : z.kind = y.kind := congrArg (·.2.2) ez
        exact hu w (by simp [hw]) u ⟨z, hz, by rw [hzk]; exact ho⟩)
    exact ⟨p', by simp only [removeAll, h1]; exact hp'⟩

theorem deadInsts_nodup {live : List Value} {l : Layout} (hL : LInv l) : ((deadInsts live l).map (·.2)).Nodup := by
  unfold deadInsts
  rw [List.map_flatMap]
  refine List.pairwise_flatMap.2 ⟨fun q hq => ?_, ?_⟩
  · rw [List.map_map]
    have : ((fun x : BB × Value => x.2) ∘ fun v => (q.1, v)) = id := rfl
    rw [this, List.map_id]
    exact (hL.insts q.1 q.2 hq).filter _
  · refine List.Pairwise.imp_of_mem (fun {a b} ha hb hne x hx y hy e => ?_) (List.pairwise_map.1 hL.keys)
    subst e
    simp only [List.map_map, List.mem_map, List.mem_filter, Function.comp] at hx hy
    obtain ⟨_, ⟨hx, -⟩, rfl⟩ := hx
    obtain ⟨_, ⟨hy, -⟩, e⟩ := hy
    subst e
    have h1 := (hL.parent _ a.1).2 ⟨a.2, ha, hx⟩
    have h2 := (hL.parent _ b.1).2 ⟨b.2, hb, hy⟩
    rw [h1] at h2
    exact hne (Option.some.inj h2)

theorem eliminates_inv {fs : List Func} {st st' : St} {p p' : Program} (h : Eliminates fs st p st' p') (hi : DInv p)
    (hS : ∀ g, Sane p g) (hT : ∀ g, Stable p g st.liveset) (hw : st.worklist = []) :
    DInv p' ∧ (∀ g, Sane p' g) ∧ (∀ g, Stable p' g st'.liveset) ∧ st'.worklist = [] := by
  induction h with
  | nil => exact ⟨hi, hS, hT, hw⟩
  | @cons f fs n k o st st1 st2 p p1 p2 ho h1 _ ih =>
    obtain ⟨R, w1, u1⟩ := runOn_spec hi hS hT hw ho h1
    exact ih R.inv R.sane R.stable w1

end Dce

/-- In a program from text an instruction without effects has a value. -/
theorem Accepted.computed_ty {w : World} {input : Str} {p : Program} (h : Accepted w input p) {f : Func} {fd : FData} (hf : p.funcs.get? f = some fd)
    {b : BB} {v : Value} (hv : Listed fd.layout b v) {x : VData} (hx : LocalVal p f v x) (hc : computes x.kind = true) : x.ty ≠ .unit := by
  obtain ⟨gs, hg, -⟩ := C47_program_is_text h
  obtain ⟨hi, vars, fns, hI, -, hfns⟩ := h.items hg
  have hh : p.view.head f = some (fd.ty, fd.name, fd.params) := by simp [Program.view, hf]
  have h1 : f ∈ p.view.fns := by rw [hi.fns, hh]; rfl
  rw [hfns] at h1
  obtain ⟨⟨n, f'⟩, hm, rfl⟩ := List.mem_map.1 h1
  obtain ⟨fd', hf', h2⟩ := hI.func hm
  rw [hf] at hf'; cases hf'
  obtain ⟨is, hb, hvi⟩ := hv
  rcases h2 with ⟨a, b, c, d⟩ | ⟨params, ret, bbs, order, r, gv, gf, hdef, hF⟩
  · rw [d.noBlocks.1] at hb; cases hb
  · obtain ⟨blk, hblk, -, hS⟩ := hF.blocks.memL _ hb
    obtain ⟨st, hst, y, hy, -, hI'⟩ := hS.memL _ hvi
    have e := get_localVal hf hy
    rw [get_localVal hf hx] at e
    cases e
    generalize x.kind = K at hI' hc
    generalize x.ty = T at hI'
    cases hI' with
    | «def» _ hne => exact hne
    | call h => cases h; cases hc
    | _ => cases hc

/-- C68: after marking, taking out what is not marked does not panic. -/
theorem C68_sweep_ends {w : World} {input : Str} {p0 p : Program} {fs : List Func} {st st1 : St} (ha : Accepted w input p0) (hfs : fs.Nodup)
    (h : Eliminates fs .new p0 st p) {f : Func} {fd : FData} (hf : p.funcs.get? f = some fd) (hnf : f ∉ fs) {vs : List Value}
    (hvs : ∀ v x, LocalVal p f v x → v ∈ vs) {n : Nat} (hm : mark fd n vs st = some st1) : ∃ r, sweep f st1 p = some r := by
  obtain ⟨gs, hg, -⟩ := C47_program_is_text ha
  obtain ⟨vars, fns, A⟩ := ha.fromText hg
  obtain ⟨hD, hS, hT, hw⟩ := eliminates_inv h (ha.items hg).1.dinv ha.sane (fun _ _ hu => by cases hu) rfl
  obtain ⟨-, hag, -⟩ := dce_accepted ha hfs h
  have hagf := hag f hnf
  obtain ⟨-, M⟩ := mark_spec ((hT f).closedAt hf) hw (fun v hv => by
    obtain ⟨x, hx⟩ := Option.isSome_iff_exists.1 hv
    exact hvs v x ⟨fd, hf, hx⟩) hm
  have hlay : p.view.lay f = some fd.layout := by simp [Program.view, hf]
  have hL := hD.lays f _ hlay
  -- what is taken out
  have hds : ∀ v, v ∈ (deadInsts st1.liveset fd.layout).map (·.2) ↔ (∃ b, Listed fd.layout b v) ∧ v ∉ st1.liveset := by
    intro v
    simp only [List.mem_map, Prod.exists, exists_eq_right]
    exact ⟨fun ⟨b, hb⟩ => ⟨⟨b, (mem_deadInsts.1 hb).1⟩, (mem_deadInsts.1 hb).2⟩, fun ⟨⟨b, hb⟩, hn⟩ => ⟨b, mem_deadInsts.2 ⟨hb, hn⟩⟩⟩
  obtain ⟨p1, h1⟩ := unlist_total (ev := deadInsts st1.liveset fd.layout) hD hlay (fun b v hm => by
    obtain ⟨⟨is, hb, -⟩, -⟩ := mem_deadInsts.1 hm
    exact List.mem_map.2 ⟨_, hb, rfl⟩)
  obtain ⟨l', hu⟩ := unlist_spec hD hlay (fun b v hm => .inl ((hL.parent v b).2 (mem_deadInsts.1 hm).1)) h1
  have hl1 : p1.view.l = p.view.l := by rw [hu.rest]
  obtain ⟨p2, h2, hundef⟩ := undefAll_total (f := f) (vs := (deadInsts st1.liveset fd.layout).map (·.2)) hu.inv (fun v hv => by
    obtain ⟨⟨b, hb⟩, hn⟩ := (hds v).1 hv
    obtain ⟨t, m, k, e, hk⟩ := (hS f).listed _ b v hlay hb
    obtain ⟨x, hx, ex⟩ := view_l_iff.1 e
    have hxk : x.kind = k := congrArg (·.2.2) ex
    have hxt : x.ty = t := congrArg (·.1) ex
    refine ⟨t, m, k, by rw [hl1]; exact e, ?_⟩
    rw [← hxt]
    obtain ⟨x0, ⟨fd0, hf0, hx0⟩, e1, -, e2⟩ := hagf.symm.localVal hx
    have hlaid : fd0.layout = fd.layout := by
      have := hagf.lay
      simp only [Program.view, hf, hf0, Option.map_some, Option.some.injEq] at this
      exact this.symm
    rw [← e1]
    refine ha.computed_ty hf0 (by rw [hlaid]; exact hb) ⟨fd0, hf0, hx0⟩ ?_
    rw [e2]
    have hc : isCritical x.kind = false := by
      cases hc : isCritical x.kind with
      | false => rfl
      | true => exact absurd (M.crit v x (get_localVal hf hx) hc) hn
    rw [← hxk] at hk
    cases hk' : x.kind <;> rw [hk'] at hk hc <;> first | rfl | (cases hk; done) | (cases hc; done))
  obtain ⟨i2, -, o2⟩ := undefAll_spec hu.inv h2
  obtain ⟨p3, h3⟩ := removeAll_total i2 (deadInsts_nodup hL) hundef (fun v hv u hlu => by
    obtain ⟨y, hy, ho⟩ := hlu
    have hyv : p2.view.l f u = some y.shape := view_l_iff.2 ⟨y, hy, rfl⟩
    by_cases hud : u ∈ (deadInsts st1.liveset fd.layout).map (·.2)
    · obtain ⟨t, m, e⟩ := hundef u hud
      rw [e] at hyv
      have : y.kind = .undef := (congrArg (·.2.2) (Option.some.inj hyv)).symm
      rw [this] at ho; cases ho
    · rw [o2 f u (fun e => hud e.2), hl1] at hyv
      obtain ⟨⟨b, hb⟩, hn⟩ := (hds v).1 hv
      obtain ⟨t, m, k, ev, hk⟩ := (hS f).listed _ b v hlay hb
      obtain ⟨x, hx, ex⟩ := view_l_iff.1 ev
      have hxk : x.kind = k := congrArg (·.2.2) ex
      obtain ⟨z, hz, ez⟩ := view_l_iff.1 hyv
      have hzk : z.kind = y.kind := congrArg (·.2.2) ez
      -- the user in the program from text
      obtain ⟨z0, hz0, -, -, hz0k⟩ := hagf.symm.localVal hz
      obtain ⟨fd0, hf0, hz0g⟩ := hz0
      rcases A.localCases hf0 hz0g with ⟨i, e | e⟩ | ⟨bb, is, hb, hvi⟩ | e
      · rw [← hzk, ← hz0k, e] at ho; cases ho
      · rw [← hzk, ← hz0k, e] at ho; cases ho
      · have hlaid : fd0.layout = fd.layout := by
          have := hagf.lay
          simp only [Program.view, hf, hf0, Option.map_some, Option.some.injEq] at this
          exact this.symm
        rw [hlaid] at hb
        have hul : u ∈ st1.liveset := Classical.byContradiction fun hnu => hud ((hds u).2 ⟨⟨bb, is, hb, hvi⟩, hnu⟩)
        exact hn (M.closed u hul z (get_localVal hf hz) v (by rw [hzk]; exact ho) x (get_localVal hf hx) (by rw [hxk]; exact hk))
      · -- a constant
        have hconst : z0.kind.isConst = true := e
        obtain ⟨es, hes⟩ : ∃ es, z0.kind = .aggregate es := by
          rw [← hzk, ← hz0k] at ho
          cases hk0 : z0.kind <;> rw [hk0] at hconst ho <;> first | (cases hconst; done) | (cases ho; done) | exact ⟨_, rfl⟩
        rw [← hzk, ← hz0k, hes] at ho
        obtain ⟨t', m', k', e1, e2⟩ := (ha.whole f).elems u z0.ty z0.name es (by rw [← hes]; exact view_l_iff.2 ⟨z0, ⟨fd0, hf0, hz0g⟩, rfl⟩) v ho
        have : p.view.l f v = some (t', m', k') := by rw [hagf.l]; exact e1
        rw [ev] at this
        have : k = k' := congrArg (·.2.2) (Option.some.inj this)
        rw [← this] at e2
        cases k <;> first | (cases hk; done) | (cases e2; done))
  exact ⟨_, by unfold sweep; rw [hf]; dsimp only; rw [h1]; dsimp only; rw [h2]; dsimp only; rw [h3]; rfl⟩

/-- C68: marking and sweeping a function end if no needed instruction mentions a global. -/
theorem C68_mark_sweep_partial {w : World} {input : Str} {p0 p : Program} {fs : List Func} {st : St} (ha : Accepted w input p0) (hfs : fs.Nodup)
    (h : Eliminates fs .new p0 st p) {f : Func} {fd : FData} (hf : p.funcs.get? f = some fd) (hnf : f ∉ fs) {vs : List Value}
    (hvs : ∀ v x, LocalVal p f v x → v ∈ vs) {n : Nat} (hn : vs.length + fd.dfg.values.keys.length < n)
    (hno : ∀ v u y, Spec.Needed p f v → LocalUse p f v u → ¬ GlobalVal p u y) : ∃ st' r, mark fd n vs st = some st' ∧ sweep f st' p = some r := by
  obtain ⟨st', h1⟩ := C68_mark_ends_partial ha hfs h hf hnf hvs hn hno
  obtain ⟨r, h2⟩ := C68_sweep_ends ha hfs h hf hnf hvs h1
  exact ⟨st', r, h1, h2⟩

/-- Two dead instructions, of which one uses the other. -/
def sweepText : Str := "fun @main(): i32 {%e: %a = mul 6, 7 %d = sub %a, 2 %z = alloc [i32, 3] %l = load %z %c = add 1, 2 ret %c}".toList

/-- Marking leaves an instruction of the first function. -/
def sweepsCheck (p : Program) : Bool :=
  match p.funcLayout with
  | f :: _ => match p.funcs.get? f with
    | some fd => match mark fd 100 fd.dfg.values.keys .new with
      | some st => !(deadInsts st.liveset fd.layout).isEmpty
      | none => false
    | none => false
  | [] => false

/-- The hypotheses are met by a function with dead instructions. -/
example : ∃ p f fd st, Accepted someWorld sweepText p ∧ Eliminates [] .new p .new p ∧ p.funcs.get? f = some fd ∧
    (∀ v x, LocalVal p f v x → v ∈ fd.dfg.values.keys) ∧ mark fd 100 fd.dfg.values.keys .new = some st ∧ deadInsts st.liveset fd.layout ≠ [] := by
  obtain ⟨p, h, hq⟩ := acceptsWith_iff (input := sweepText) (q := sweepsCheck) (by decide +kernel)
  unfold sweepsCheck at hq
  split at hq
  · rename_i f l hf
    split at hq
    · rename_i fd hfd
      split at hq
      · rename_i st hst
        refine ⟨p, f, fd, st, h, .nil, hfd, fun v x hx => by rw [Map.mem_keys, get_localVal hfd hx]; rfl, hst, fun e => ?_⟩
        rw [e] at hq; cases hq
      · cases hq
    · cases hq
  · cases hq

end Koopa
