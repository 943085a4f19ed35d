import Verif.Lemmas.Lib.RawGenGlob
import Verif.Props.Edits
import Verif.Lemmas.Front.ElabDriver
/-!
The round trip through the raw representation.
-/
namespace Koopa.Raw
open Spec

section
variable {p : Program} {g0 : Nat}

theorem bounded {α : Type} (f : α → Nat) : ∀ (l : List α), ∃ R, ∀ a ∈ l, f a ≤ R
  | [] => ⟨0, by simp⟩
  | a :: l => by
    obtain ⟨R, h⟩ := bounded f l
    refine ⟨max (f a) R, fun b hb => ?_⟩
    rcases List.mem_cons.1 hb with rfl | hb
    · exact Nat.le_max_left _ _
    · exact Nat.le_trans (h b hb) (Nat.le_max_right _ _)

theorem rank_bound (hc : Convertible p) (rank : Value → Nat) : ∃ R, ∀ o v, Used p o v → rank v ≤ R := by
  obtain ⟨R, h⟩ := bounded (fun i : Item => match i with | .val v => rank v | _ => 0) (univ p)
  refine ⟨R, fun o v hu => ?_⟩
  cases o with
  | none =>
    obtain ⟨x, hx⟩ := hc.liveG hu
    exact h (.val v) (mem_univ hc (cur := none) (.inl ⟨hc.globalId _ _ hx, hu⟩))
  | some f =>
    obtain ⟨x, hx⟩ := hc.liveL hu
    obtain ⟨fd, hf, hx'⟩ := hx
    exact h (.val v) (mem_univ hc (cur := some fd) (.inr ⟨hc.localId _ _ _ ⟨fd, hf, hx'⟩, f, fd, rfl, hf, hu⟩))

/-- Functions are generated one after the other. -/
theorem func_runs {rank : Value → Nat} {R n : Nat} {one : Item → Gen Nat} (hg : Good p g0 rank R n one) :
    ∀ (fs : List Func) (s : GSt), GInv p g0 s → GlobsDone p s → (∀ f ∈ fs, (p.funcs.get? f).isSome) →
      cnt p s * (R + 2) + 1 ≤ n → ∃ s', Runs one (s'.h 0) (fs.map .func) s s' ∧ GInv p g0 s' ∧ GStep p s s' ∧
        ∀ f ∈ fs, (s'.fv f).isSome
  | [], s, hi, _, _, _ => ⟨s, .nil, hi, GStepX.refl _ s, by simp⟩
  | f :: fs, s, hi, hd, hl, hn => by
    obtain ⟨w, s1, h1, h2, h3, h4, -⟩ := hg (.func f) s hi hd (hl f (by simp)) hn
    obtain ⟨s2, e1, e2, e3, e4⟩ := func_runs hg fs s1 h2 (hd.mono h3.le) (fun g hg => hl g (by simp [hg]))
      (Nat.le_trans (Nat.add_le_add_right (Nat.mul_le_mul_right _ (cnt_mono h3.le)) _) hn)
    have hw : s1.item 0 (.func f) = some w := h4 0 (.inr ⟨f, rfl⟩)
    refine ⟨s2, .cons ?_ e1, e2, h3.trans e3, ?_⟩
    · rw [GSt.h_eq (e3.le.item hw)]; exact h1
    · intro g hg
      rcases List.mem_cons.1 hg with rfl | hg
      · have := e3.le.item hw
        show (s2.item 0 (.func g)).isSome
        rw [this]; rfl
      · exact e4 g hg

/-- Everything is generated. -/
structure Done (p : Program) (s : GSt) : Prop where
  globs : ∀ v, Used p none v → (s.gv v).isSome
  funcs : ∀ f, (p.funcs.get? f).isSome → (s.fv f).isSome
  blocks : ∀ f fd b is, p.funcs.get? f = some fd → (b, is) ∈ fd.layout.bbs → ∃ js, s.Ins f b js ∧
    All2 (fun v w => s.lv f v = some w) is js
  insts : s.prog.view.insts = p.instLayout.map (fun v => s.h 0 (.val v))

theorem GInv.start (ids : Ids) (hg : globalStart ≤ ids.nextGlobal) (hl : localStart ≤ ids.nextLocal) (hm : ids.nextGlobal ≤ localStart) :
    GInv p ids.nextGlobal { prog := .new ids, values := .empty, funcs := .empty, cur := none } where
  fin := FInv.new ids hg hl hm
  cur := fun f h => by cases h
  count := ⟨[], List.nodup_nil, by simp, rfl⟩
  globs := fun v w h => by cases h
  onlyGlobs := fun w q h => by cases h
  injGlobs := fun v v' w h => by cases h
  funcs := fun f i h => by cases h
  onlyFuncs := fun g q h => by cases h
  injFuncs := fun f f' i i' h => by cases h

/-- The generator succeeds on what the builder made from a convertible program. -/
theorem genProgram_total (hc : Convertible p) {m : Builder} (hm : Holds p m) {ids : Ids} (hg : globalStart ≤ ids.nextGlobal)
    (hl : localStart ≤ ids.nextLocal) (hroom : ids.nextGlobal + p.values.keys.length ≤ localStart) :
    ∃ n s, genProgram m n { values := .of .value p.instLayout, funcs := .of .function p.funcLayout }
        { prog := .new ids, values := .empty, funcs := .empty, cur := none } = some (.ok ((), s)) ∧
      GInv p ids.nextGlobal s ∧ Done p s := by
  obtain ⟨rank, hr1, hr2⟩ := hc.acyclic
  obtain ⟨R, hR⟩ := rank_bound hc rank
  have hi0 : GInv p ids.nextGlobal { prog := .new ids, values := .empty, funcs := .empty, cur := none } :=
    GInv.start ids hg hl (by omega)
  generalize hs0 : ({ prog := .new ids, values := .empty, funcs := .empty, cur := none } : GSt) = s0 at hi0
  have hs0v : s0.values = .empty := by rw [← hs0]
  have hs0f : s0.funcs = .empty := by rw [← hs0]
  have hs0c : s0.cur = none := by rw [← hs0]
  have hs0i : s0.prog.view.insts = [] := by rw [← hs0]; rfl
  generalize hn : cnt p s0 * (R + 2) + 2 + R = n
  have hgv0 : ∀ v, s0.gv v = none := fun v => by unfold GSt.gv; rw [hs0v]; rfl
  obtain ⟨s1, a1, a2, a3, a4, a5⟩ := glob_phase hc (g0 := ids.nextGlobal) (rank := rank) (one := gen m n)
    (fun v s h1 h2 h3 => gen_glob hc hm hroom hr2 n v s h1 h2 (.listed h3) (by
      have := hR none v (.listed h3); omega))
    p.instLayout s0 hi0 hs0c (fun v hv => ⟨hv, hgv0 v⟩) hc.instsNodup
  have hdone : GlobsDone p s1 := by
    intro v hv
    generalize ho : (none : Option Func) = o at hv
    induction hv with
    | listed h => exact a4 _ h
    | init hu hx hv ih =>
      obtain ⟨w, hw⟩ := Option.isSome_iff_exists.1 (ih ho)
      obtain ⟨_, y, k, hy, hk, _⟩ := a2.globs _ _ hw
      cases GlobalVal.unique hx hy
      have := hk.1 _ (operand_mem hv)
      obtain ⟨hgl, _⟩ := initUsed hc (ho ▸ hu) hx hv
      rw [show s1.item 0 (.val _) = s1.rv 0 _ from rfl, GSt.rv, if_pos hgl] at this
      exact this
    | _ => cases ho
  obtain ⟨s2, b1, b2, b3, b4⟩ := func_runs (gen_good (g0 := ids.nextGlobal) hc hm ⟨hr1, fun f v h => hR _ _ h⟩ n) p.funcLayout s1 a2 hdone
    (fun f hf => (hc.funcs f).1 hf) (by
      have := Nat.mul_le_mul_right (R + 2) (cnt_mono (p := p) a3.le)
      omega)
  have hs1f : s1.funcs = .empty := a3.funcs.trans hs0f
  have hfv1 : ∀ f, s1.fv f = none := fun f => by unfold GSt.fv; rw [hs1f]; rfl
  have hbv1 : ∀ f b, s1.bv f b = none := fun f b => by unfold GSt.bv; rw [hs1f]; rfl
  have hfun : ∀ f, (p.funcs.get? f).isSome → (s2.fv f).isSome := fun f hf => b4 f ((hc.funcs f).2 hf)
  refine ⟨n, s2, ?_, b2, hdone.mono b3.le, hfun, ?_, ?_⟩
  · simp only [genProgram, bind_def, read_of hc.layoutFits.1, read_of hc.layoutFits.2, pure_def, each_vals a1, each_funcs b1]
  · intro f fd b is hf hb
    have hb' : b ∈ fd.layout.bbs.map (·.1) := List.mem_map.2 ⟨_, hb, rfl⟩
    have := b3.newFun f fd (hfv1 f) (hfun f (by rw [hf]; rfl)) hf b hb'
    obtain ⟨w, hw⟩ := Option.isSome_iff_exists.1 this
    obtain ⟨fd', is', js, c1, c2, c3, c4⟩ := b3.newBlk f b w (hbv1 f b) hw
    rw [hf] at c1; cases c1
    cases listed_same hc hf hb c2
    exact ⟨js, c3, c4⟩
  · rw [b3.insts, a5, hs0i, List.nil_append]
    apply List.map_congr_left
    intro v hv
    obtain ⟨w, hw⟩ := Option.isSome_iff_exists.1 (a4 v hv)
    obtain ⟨x, _, hx, _⟩ := hc.insts v hv
    have hw' : s1.item 0 (.val v) = some w := by
      show s1.rv 0 v = _
      rw [GSt.rv, if_pos (hc.globalId _ _ hx)]; exact hw
    rw [GSt.h_eq hw', GSt.h_eq (b3.le.item hw')]

/-- The new handles. -/
def GSt.ren (s : GSt) : Renaming where
  glob v := (s.gv v).getD 0
  fn f := (s.fv f).getD 0
  loc f v := (s.lv f v).getD 0
  blk f b := (s.bv f b).getD 0

theorem GSt.ren_val (s : GSt) (f : Func) (v : Value) : s.ren.val f v = s.h f (.val v) := by
  show (if isGlobal v then _ else _) = (s.rv f v).getD 0
  rw [GSt.rv]
  split <;> rfl

theorem All2.map_eq {α β : Type} {R : α → β → Prop} {g : α → β} {as : List α} {bs : List β} (h : All2 R as bs)
    (hg : ∀ a ∈ as, ∀ b, R a b → g a = b) : bs = as.map g := by
  induction h with
  | nil => rfl
  | cons h _ ih => rw [List.map_cons, hg _ (by simp) _ h, ih (fun a ha => hg a (by simp [ha]))]

/-- All used values are generated. -/
theorem Done.locals (hc : Convertible p) {s : GSt} (hi : GInv p g0 s) (hd : Done p s) {f : Func} {v : Value}
    (h : Used p (some f) v) : (s.lv f v).isSome := by
  have hinfo : ∀ {fd}, p.funcs.get? f = some fd → ∃ i, s.funcs.get? f = some i ∧ FuncInv p s f i fd := by
    intro fd hf
    obtain ⟨w, hw⟩ := Option.isSome_iff_exists.1 (hd.funcs f (by rw [hf]; rfl))
    obtain ⟨i, hi', _⟩ := Option.map_eq_some_iff.1 (show (s.funcs.get? f).map (·.func) = some w from hw)
    obtain ⟨fd', h1, h2⟩ := hi.funcs f i hi'
    rw [hf] at h1; cases h1
    exact ⟨i, hi', h2⟩
  generalize ho : some f = o at h
  induction h with
  | listed _ | init _ _ _ _ => cases ho
  | arg hf hv =>
    cases ho
    obtain ⟨i, hi', hfi⟩ := hinfo hf
    obtain ⟨ws, _, h⟩ := hfi.head
    obtain ⟨w, _, hw⟩ := h.memL _ hv
    rw [GSt.lv_eq hi', hw]; rfl
  | param hf hb hx hv =>
    cases ho
    obtain ⟨i, hi', hfi⟩ := hinfo hf
    obtain ⟨⟨b, is⟩, hbm, rfl⟩ := List.mem_map.1 hb
    obtain ⟨js, ⟨i', w, l, c1, c2, c3, c4⟩, _⟩ := hd.blocks _ _ _ _ hf hbm
    rw [hi'] at c1; cases c1
    obtain ⟨_, x', ws, e1, _, e2⟩ := hfi.blks _ w c2
    rw [hx] at e1; cases e1
    obtain ⟨w, _, hw⟩ := e2.memL _ hv
    rw [GSt.lv_eq hi', hw]; rfl
  | inst hf hb hv =>
    cases ho
    obtain ⟨js, _, h⟩ := hd.blocks _ _ _ _ hf hb
    obtain ⟨w, _, hw⟩ := h.memL _ hv
    rw [hw]; rfl
  | operand hu hx hv hy ih =>
    cases ho
    obtain ⟨w, hw⟩ := Option.isSome_iff_exists.1 (ih rfl)
    have ⟨fd, hf, _⟩ := hx
    obtain ⟨i, hi', hfi⟩ := hinfo hf
    rw [GSt.lv_eq hi'] at hw
    obtain ⟨_, x', k, hx', hk, _⟩ := hfi.vals _ _ hw
    cases LocalVal.unique hx hx'
    have := hk.1 _ (operand_mem hv)
    rw [show s.item f (.val _) = s.rv f _ from rfl, GSt.rv, if_neg (by simp [hc.localId _ _ _ hy])] at this
    exact this

theorem same_program (hc : Convertible p) {s : GSt} (hi : GInv p g0 s) (hd : Done p s) : SameProgram s.ren p s.prog := by
  have hlay := C42_program_layouts (hi.fin.reach.mono (fun _ _ _ => trivial))
  have hgl : ∀ {v w}, s.gv v = some w → s.ren.glob v = w := fun h => by show (s.gv _).getD 0 = _; rw [h]; rfl
  have hlo : ∀ {f v w}, s.lv f v = some w → s.ren.loc f v = w := fun h => by show (s.lv _ _).getD 0 = _; rw [h]; rfl
  have hbl : ∀ {f b w}, s.bv f b = some w → s.ren.blk f b = w := fun h => by show (s.bv _ _).getD 0 = _; rw [h]; rfl
  have hfn : ∀ {f w}, s.fv f = some w → s.ren.fn f = w := fun h => by show (s.fv _).getD 0 = _; rw [h]; rfl
  have hinfo : ∀ {f fd}, p.funcs.get? f = some fd → ∃ i, s.funcs.get? f = some i ∧ FuncInv p s f i fd ∧ s.ren.fn f = i.func := by
    intro f fd hf
    obtain ⟨w, hw⟩ := Option.isSome_iff_exists.1 (hd.funcs f (by rw [hf]; rfl))
    obtain ⟨i, hi', rfl⟩ := Option.map_eq_some_iff.1 (show (s.funcs.get? f).map (·.func) = some w from hw)
    obtain ⟨fd', h1, h2⟩ := hi.funcs f i hi'
    rw [hf] at h1; cases h1
    exact ⟨i, hi', h2, hfn hw⟩
  have hinjF : ∀ f g, (p.funcs.get? f).isSome → (p.funcs.get? g).isSome → s.ren.fn f = s.ren.fn g → f = g := by
    intro f g h h' he
    obtain ⟨fd, hf⟩ := Option.isSome_iff_exists.1 h
    obtain ⟨gd, hg⟩ := Option.isSome_iff_exists.1 h'
    obtain ⟨i, h1, _, h2⟩ := hinfo hf
    obtain ⟨j, h3, _, h4⟩ := hinfo hg
    rw [h2, h4] at he
    exact hi.injFuncs _ _ _ _ h1 h3 he
  have honlyF : ∀ g, (s.prog.funcs.get? g).isSome → ∃ f, (p.funcs.get? f).isSome ∧ s.ren.fn f = g := by
    intro g hg
    obtain ⟨gd, hg⟩ := Option.isSome_iff_exists.1 hg
    obtain ⟨f, i, h1, h2⟩ := hi.onlyFuncs g _ (view_head_iff.2 ⟨gd, hg, rfl, rfl, rfl⟩)
    obtain ⟨fd, h3, _⟩ := hi.funcs f i h1
    exact ⟨f, by rw [h3]; rfl, (hfn (GSt.fv_eq h1)).trans h2⟩
  refine ⟨?_, ?_, ?_, ?_, ?_, ?_, honlyF, hinjF⟩
  · show s.prog.view.insts = _
    rw [hd.insts]
    apply List.map_congr_left
    intro v hv
    obtain ⟨x, _, hx, _⟩ := hc.insts v hv
    show (s.rv 0 v).getD 0 = (s.gv v).getD 0
    rw [GSt.rv, if_pos (hc.globalId _ _ hx)]
  · have hnd : s.prog.funcLayout.Nodup := hlay.2.1.imp (fun h => Nat.ne_of_lt h)
    have hnd' : (p.funcLayout.map s.ren.fn).Nodup := by
      rw [List.Nodup, List.pairwise_map]
      refine List.Pairwise.imp_of_mem ?_ hc.funcsNodup
      intro a b ha hb hne he
      exact hne (hinjF a b ((hc.funcs a).1 ha) ((hc.funcs b).1 hb) he)
    rw [List.perm_ext_iff_of_nodup hnd hnd']
    intro g
    rw [hlay.1 g, List.mem_map]
    constructor
    · rintro ⟨gd, hg⟩
      obtain ⟨f, h1, h2⟩ := honlyF g (by rw [hg]; rfl)
      exact ⟨f, (hc.funcs f).2 h1, h2⟩
    · rintro ⟨f, hf, rfl⟩
      obtain ⟨fd, hfd⟩ := Option.isSome_iff_exists.1 ((hc.funcs f).1 hf)
      obtain ⟨i, h1, h2, h3⟩ := hinfo hfd
      obtain ⟨ws, h4, _⟩ := h2.head
      obtain ⟨gd, h5, _⟩ := view_head_iff.1 h4
      exact ⟨gd, by rw [h3]; exact h5⟩
  · intro v x hx hu
    obtain ⟨w, hw⟩ := Option.isSome_iff_exists.1 (hd.globs v hu)
    obtain ⟨_, x', k, hx', hk, hs⟩ := hi.globs v w hw
    cases GlobalVal.unique hx hx'
    obtain ⟨y, hy, hsh⟩ := view_g_iff.1 hs
    rw [hgl hw]
    simp only [VData.shape, Prod.mk.injEq] at hsh
    refine ⟨y, hy, hsh.1, hsh.2.1, ?_⟩
    rw [hsh.2.2, hk.2]
    apply mapKind_congr
    intro i hi'
    obtain ⟨u, rfl, hu'⟩ := globalItems hc hu hx hi'
    refine ⟨fun v e => ?_, fun b e => (by cases e), fun b e => (by cases e)⟩
    cases e
    have := (initUsed hc hu hx hu').1
    show (s.rv 0 u).getD 0 = (s.gv u).getD 0
    rw [GSt.rv, if_pos this]
  · intro w y hy
    obtain ⟨v, hv⟩ := hi.onlyGlobs w _ (view_g_iff.2 ⟨y, hy, rfl⟩)
    exact ⟨v, (hi.globs v w hv).1, hgl hv⟩
  · intro v w hv hw he
    obtain ⟨a, ha⟩ := Option.isSome_iff_exists.1 (hd.globs v hv)
    obtain ⟨b, hb⟩ := Option.isSome_iff_exists.1 (hd.globs w hw)
    rw [hgl ha, hgl hb] at he
    subst he
    exact hi.injGlobs _ _ _ ha hb
  · intro f fd hf
    obtain ⟨i, hfi1, hfi, hfe⟩ := hinfo hf
    obtain ⟨ws, hh, hws⟩ := hfi.head
    obtain ⟨fd', hfd', hhe⟩ := view_head_iff.1 hh
    obtain ⟨l, hl, hl1, hl2, hl3⟩ := hfi.lay
    have hl' : l = fd'.layout := by
      have : s.prog.view.lay i.func = (s.prog.funcs.get? i.func).map (·.layout) := rfl
      rw [this, hfd'] at hl
      exact (Option.some.inj hl).symm
    subst hl'
    have hlays := (hi.fin.lays _ _ hl).1.keys
    have hval : ∀ {u w}, i.values.get? u = some w → s.ren.loc f u = w := fun h => hlo (by rw [GSt.lv_eq hfi1]; exact h)
    have hblk : ∀ {b w}, i.bbs.get? b = some w → s.ren.blk f b = w := fun h => hbl (by rw [GSt.bv_eq hfi1]; exact h)
    have hmarked : ∀ {b is}, (b, is) ∈ fd.layout.bbs → ∃ w, i.bbs.get? b = some w ∧ (w, is.map (s.ren.val f)) ∈ fd'.layout.bbs := by
      intro b is hb
      obtain ⟨js, ⟨i', w, l, c1, c2, c3, c4⟩, h⟩ := hd.blocks _ _ _ _ hf hb
      rw [hfi1] at c1; cases c1
      rw [hl] at c3; cases c3
      have : js = is.map (s.ren.val f) := All2.map_eq h (by
        intro v hv w hw
        obtain ⟨x, hx⟩ := hc.instData _ _ _ _ _ hf hb hv
        show (if isGlobal v then _ else _) = _
        rw [if_neg (by simp [hc.localId _ _ _ hx])]
        exact hlo hw)
      rw [← this]
      exact ⟨w, c2, c4⟩
    have hinjB : ∀ a b, a ∈ fd.layout.bbs.map (·.1) → b ∈ fd.layout.bbs.map (·.1) → s.ren.blk f a = s.ren.blk f b → a = b := by
      intro a b ha hb he
      obtain ⟨⟨a, is⟩, ha', rfl⟩ := List.mem_map.1 ha
      obtain ⟨⟨b, js⟩, hb', rfl⟩ := List.mem_map.1 hb
      obtain ⟨w, h1, _⟩ := hmarked ha'
      obtain ⟨w', h2, _⟩ := hmarked hb'
      dsimp only at he
      rw [hblk h1, hblk h2] at he
      subst he
      exact hfi.injBlks _ _ _ h1 h2
    refine ⟨fd', by rw [hfe]; exact hfd', ?_⟩
    refine ⟨hhe.2.1.trans rfl, hhe.1, ?_, ?_, ?_, ?_, ?_, ?_, ?_, ?_, hinjB⟩
    · rw [hhe.2.2]
      exact All2.map_eq hws (fun v _ w h => hval h)
    · have hk1 : ((fd.layout.bbs.map (fun q => (s.ren.blk f q.1, q.2.map (s.ren.val f)))).map (·.1)).Nodup := by
        rw [List.map_map, List.Nodup, List.pairwise_map]
        have := hc.blocksNodup _ _ hf
        rw [List.Nodup, List.pairwise_map] at this
        refine List.Pairwise.imp_of_mem ?_ this
        intro a b ha hb hne he
        exact hne (hinjB _ _ (List.mem_map.2 ⟨_, ha, rfl⟩) (List.mem_map.2 ⟨_, hb, rfl⟩) he)
      have nodup_of_keys : ∀ {l : List (BB × List Value)}, (l.map (·.1)).Nodup → l.Nodup := by
        intro l h
        rw [List.Nodup, List.pairwise_map] at h
        exact h.imp (fun h e => h (by rw [e]))
      rw [List.perm_ext_iff_of_nodup (nodup_of_keys hlays) (nodup_of_keys hk1)]
      have hsub : ∀ q ∈ fd.layout.bbs.map (fun q => (s.ren.blk f q.1, q.2.map (s.ren.val f))), q ∈ fd'.layout.bbs := by
        intro q hq
        obtain ⟨⟨b, is⟩, hb, rfl⟩ := List.mem_map.1 hq
        obtain ⟨w, h1, h2⟩ := hmarked hb
        dsimp only
        rw [hblk h1]; exact h2
      rintro ⟨w, js⟩
      refine ⟨fun hw => ?_, hsub _⟩
      obtain ⟨b, hb⟩ := hl2 w (List.mem_map.2 ⟨_, hw, rfl⟩)
      obtain ⟨⟨b, is⟩, hbm, rfl⟩ := List.mem_map.1 (hfi.blks b w hb).1
      obtain ⟨w', h1, h2⟩ := hmarked hbm
      dsimp only at hb
      rw [hb] at h1; cases h1
      have e1 := (lookup_eq_some_iff hlays).2 hw
      have e2 := (lookup_eq_some_iff hlays).2 h2
      rw [e1] at e2; cases e2
      exact List.mem_map.2 ⟨_, hbm, by dsimp only; rw [hblk hb]⟩
    · cases hb : fd'.layout.bbs with
      | nil =>
        cases hb0 : fd.layout.bbs with
        | nil => rfl
        | cons q rest =>
          obtain ⟨w, _, h2⟩ := hmarked (b := q.1) (is := q.2) (by rw [hb0]; simp)
          rw [hb] at h2; cases h2
      | cons q rest =>
        obtain ⟨e, h1, h2⟩ := hl3 q.1 (by rw [hb]; rfl)
        rw [List.head?_map] at h1
        obtain ⟨⟨e', is⟩, h3, rfl⟩ := Option.map_eq_some_iff.1 h1
        have hem := List.mem_of_head? h3
        obtain ⟨w, h4, h5⟩ := hmarked hem
        dsimp only at h2
        rw [h2] at h4; cases h4
        rw [List.head?_map, h3]
        simp only [List.head?_cons, Option.map_some]
        rw [hblk h2]
        have hq : (q.1, q.2) ∈ fd'.layout.bbs := by rw [hb]; simp
        have e1 := (lookup_eq_some_iff hlays).2 hq
        have e2 := (lookup_eq_some_iff hlays).2 h5
        rw [e1] at e2
        rw [← Option.some.inj e2]
    · intro v x hx hu
      obtain ⟨w, hw⟩ := Option.isSome_iff_exists.1 (hd.locals hc hi hu)
      have hw' := hw
      rw [GSt.lv_eq hfi1] at hw'
      obtain ⟨_, x', k, hx', hk, hs⟩ := hfi.vals v w hw'
      cases LocalVal.unique hx hx'
      obtain ⟨y, hy, hsh⟩ := view_l_iff.1 hs
      rw [hlo hw, hfe]
      simp only [VData.shape, Prod.mk.injEq] at hsh
      refine ⟨y, hy, hsh.1, hsh.2.1, ?_⟩
      rw [hsh.2.2, hk.2]
      apply mapKind_congr
      intro i hi'
      exact ⟨fun v _ => (s.ren_val f v).symm, fun b _ => rfl, fun g _ => rfl⟩
    · intro w y hy
      rw [hfe] at hy
      obtain ⟨v, hv⟩ := hfi.onlyVals w _ (view_l_iff.2 ⟨y, hy, rfl⟩)
      exact ⟨v, (hfi.vals v w hv).1, hval hv⟩
    · intro v w hv hw he
      obtain ⟨a, ha⟩ := Option.isSome_iff_exists.1 (hd.locals hc hi hv)
      obtain ⟨b, hb⟩ := Option.isSome_iff_exists.1 (hd.locals hc hi hw)
      rw [hlo ha, hlo hb] at he
      subst he
      rw [GSt.lv_eq hfi1] at ha hb
      exact hfi.injVals _ _ _ ha hb
    · intro b x hb hx
      obtain ⟨⟨b, is⟩, hbm, rfl⟩ := List.mem_map.1 hb
      obtain ⟨w, h1, _⟩ := hmarked hbm
      obtain ⟨_, x', ws, e1, e2, e3⟩ := hfi.blks _ w h1
      rw [hx] at e1; cases e1
      obtain ⟨y, ⟨gd, hgd, hy⟩, hsh⟩ := view_b_iff.1 e2
      rw [hfd'] at hgd; cases hgd
      rw [hblk h1]
      refine ⟨y, hy, hsh.1, ?_⟩
      rw [hsh.2]
      exact All2.map_eq e3 (fun v _ w h => hval h)
    · intro w y hy
      obtain ⟨b, hb⟩ := hfi.onlyBlks w _ (view_b_iff.2 ⟨y, ⟨fd', hfd', hy⟩, rfl, rfl⟩)
      obtain ⟨js, is, n, h, _⟩ := hl1 b w hb
      exact List.mem_map.2 ⟨_, h, rfl⟩

end

end Koopa.Raw
