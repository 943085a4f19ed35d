import Verif.Lemmas.Lib.RawGenStep2
/-!
The generator succeeds on raw programs that were built from convertible programs.
-/
namespace Koopa.Raw
open Spec

section
variable {p : Program} {g0 : Nat}

/-- What a part of the generator does, except to the blocks for which `X` holds. -/
structure GStepX (p : Program) (X : Func → BB → Prop) (s s' : GSt) : Prop where
  le : Le s s'
  cur : s'.cur = s.cur
  ins : ∀ f b js, s.Ins f b js → ¬ X f b → s'.Ins f b js
  newBlk : ∀ f b w, s.bv f b = none → s'.bv f b = some w → ∃ fd is js, p.funcs.get? f = some fd ∧ (b, is) ∈ fd.layout.bbs ∧
    s'.Ins f b js ∧ All2 (fun v w => s'.lv f v = some w) is js
  newFun : ∀ f fd, s.fv f = none → (s'.fv f).isSome → p.funcs.get? f = some fd → ∀ b ∈ fd.layout.bbs.map (·.1), (s'.bv f b).isSome
  frame : ∀ h i, s.funcs.get? h = some i → s.cur ≠ some h → s'.funcs.get? h = some i
  values : s'.values = s.values
  insts : s'.prog.view.insts = s.prog.view.insts

/-- What a part of the generator does: finished blocks are complete, unfinished blocks of others are not touched. -/
abbrev GStep (p : Program) := GStepX p (fun _ _ => False)

theorem GStepX.refl (X : Func → BB → Prop) (s : GSt) : GStepX p X s s :=
  ⟨Le.refl s, rfl, fun _ _ _ h _ => h, fun _ _ _ h h' => (by rw [h] at h'; cases h'), fun _ _ h h' => (by rw [h] at h'; cases h'),
    fun _ _ h _ => h, rfl, rfl⟩

theorem GStepX.weaken {X : Func → BB → Prop} {s s' : GSt} (h : GStep p s s') : GStepX p X s s' :=
  ⟨h.le, h.cur, fun f b js hi _ => h.ins f b js hi (fun h => h), h.newBlk, h.newFun, h.frame, h.values, h.insts⟩

theorem GStepX.trans {X : Func → BB → Prop} {a b c : GSt} (hX : ∀ f b, X f b → ∃ w, True ∧ a.bv f b = some w) (h : GStepX p X a b)
    (h' : GStepX p X b c) : GStepX p X a c := by
  refine ⟨h.le.trans h'.le, h'.cur.trans h.cur, fun f d js hi hx => h'.ins f d js (h.ins f d js hi hx) hx, ?_, ?_, ?_,
    h'.values.trans h.values, h'.insts.trans h.insts⟩
  · intro f d w hn hs
    cases hb : b.bv f d with
    | none => exact h'.newBlk f d w hb hs
    | some w' =>
      obtain ⟨fd, is, js, h1, h2, h3, h4⟩ := h.newBlk f d w' hn hb
      refine ⟨fd, is, js, h1, h2, h'.ins _ _ _ h3 ?_, h4.imp (fun _ _ _ h => h'.le.lv _ _ _ h)⟩
      intro hx
      obtain ⟨w, _, hw⟩ := hX _ _ hx
      rw [hn] at hw; cases hw
  · intro f fd hn hs hf d hd
    cases hb : b.fv f with
    | none => exact h'.newFun f fd hb hs hf d hd
    | some w' =>
      have := h.newFun f fd hn (by rw [hb]; rfl) hf d hd
      obtain ⟨w, hw⟩ := Option.isSome_iff_exists.1 this
      rw [h'.le.bv _ _ _ hw]; rfl
  · intro g i hg hc
    exact h'.frame g i (h.frame g i hg hc) (by rw [h.cur]; exact hc)

theorem GStep.trans {a b c : GSt} (h : GStep p a b) (h' : GStep p b c) : GStep p a c :=
  GStepX.trans (fun _ _ h => h.elim) h h'

/-! ### What is left to do -/

/-- All functions and blocks. -/
def marks (p : Program) : List (Func × Option BB) :=
  p.funcs.entries.flatMap (fun q => (q.1, none) :: q.2.layout.bbs.map (fun b => (q.1, some b.1)))

def GSt.marked (s : GSt) : Func × Option BB → Bool
  | (f, none) => (s.fv f).isSome
  | (f, some b) => (s.bv f b).isSome

/-- The number of functions and blocks that are not generated. -/
def cnt (p : Program) (s : GSt) : Nat := (marks p).countP (fun q => !s.marked q)

theorem mem_marks {f : Func} {fd : FData} (hf : p.funcs.get? f = some fd) :
    (f, none) ∈ marks p ∧ ∀ b ∈ fd.layout.bbs.map (·.1), (f, some b) ∈ marks p := by
  have hm := Map.mem_of_lookup hf
  refine ⟨List.mem_flatMap.2 ⟨_, hm, by simp⟩, fun b hb => List.mem_flatMap.2 ⟨_, hm, ?_⟩⟩
  obtain ⟨q, hq, rfl⟩ := List.mem_map.1 hb
  exact List.mem_cons_of_mem _ (List.mem_map.2 ⟨q, hq, rfl⟩)

theorem Le.marked {s s' : GSt} (h : Le s s') {q : Func × Option BB} (hq : s.marked q = true) : s'.marked q = true := by
  obtain ⟨f, _ | b⟩ := q
  · obtain ⟨w, hw⟩ := Option.isSome_iff_exists.1 (show (s.fv f).isSome from hq)
    show (s'.fv f).isSome; rw [h.fv _ _ hw]; rfl
  · obtain ⟨w, hw⟩ := Option.isSome_iff_exists.1 (show (s.bv f b).isSome from hq)
    show (s'.bv f b).isSome; rw [h.bv _ _ _ hw]; rfl

theorem cnt_mono {s s' : GSt} (h : Le s s') : cnt p s' ≤ cnt p s := by
  apply List.countP_mono_left
  intro q _ hq
  cases hm : s.marked q with
  | false => rfl
  | true => rw [h.marked hm] at hq; cases hq

theorem cnt_lt {s s' : GSt} (h : Le s s') {q : Func × Option BB} (hq : q ∈ marks p) (h1 : s.marked q = false) (h2 : s'.marked q = true) :
    cnt p s' < cnt p s := by
  refine countP_lt (fun x _ hx => ?_) hq (by simp [h2]) (by simp [h1])
  cases hm : s.marked x with
  | false => rfl
  | true => rw [h.marked hm] at hx; cases hx

/-! ### Domination -/

theorem dom_step {f : Func} {a b c : BB} (he : Edge p f a b) (h : Dominates p f c b) : c = b ∨ Dominates p f c a := by
  by_cases hc : c = b
  · exact .inl hc
  · exact .inr (fun ha => h (.step ha he (fun e => hc e.symm)))

theorem dom_entry {f : Func} {fd : FData} (hf : p.funcs.get? f = some fd) {e : BB} (he : (fd.layout.bbs.map (·.1)).head? = some e)
    (b : BB) : Dominates p f e b := by
  intro h
  induction h with
  | entry hf' he' hn =>
    rw [hf] at hf'; cases hf'
    rw [List.head?_map, he'] at he
    exact hn (Option.some.inj he)
  | step _ _ _ ih => exact ih

theorem dom_self_entry {f : Func} {fd : FData} (hf : p.funcs.get? f = some fd) {e c : BB} (he : (fd.layout.bbs.map (·.1)).head? = some e)
    (h : Dominates p f c e) : c = e := by
  by_cases hc : c = e
  · exact hc
  · rw [List.head?_map] at he
    obtain ⟨q, hq, rfl⟩ := Option.map_eq_some_iff.1 he
    exact absurd (.entry hf hq (fun e => hc e.symm)) h

/-! ### What the generator is called on and what it does -/

def DomOk (p : Program) (s : GSt) (f : Func) (b : BB) : Prop :=
  ∀ fd c, p.funcs.get? f = some fd → c ∈ fd.layout.bbs.map (·.1) → Dominates p f c b → (s.bv f c).isSome

def Pre (p : Program) (s : GSt) : Item → Prop
  | .val v => ∃ f, s.cur = some f ∧ ((isGlobal v = true ∧ Used p none v) ∨
      (isGlobal v = false ∧ ∃ b, Mentions p f b v ∧ DomOk p s f b))
  | .bb b => ∃ f fd, s.cur = some f ∧ p.funcs.get? f = some fd ∧ b ∈ fd.layout.bbs.map (·.1) ∧
      ∀ c ∈ fd.layout.bbs.map (·.1), Dominates p f c b → c = b ∨ (s.bv f c).isSome
  | .func g => (p.funcs.get? g).isSome

theorem Le.bvSome {s s' : GSt} (h : Le s s') {f : Func} {b : BB} (hb : (s.bv f b).isSome) : (s'.bv f b).isSome :=
  h.itemSome (i := .bb b) hb

theorem Pre.mono {s s' : GSt} (hle : Le s s') (hcur : s'.cur = s.cur) {i : Item} (h : Pre p s i) : Pre p s' i := by
  cases i with
  | val v =>
    obtain ⟨f, hf, h⟩ := h
    refine ⟨f, hcur.trans hf, ?_⟩
    rcases h with h | ⟨h, b, hm, hd⟩
    · exact .inl h
    · exact .inr ⟨h, b, hm, fun fd c h1 h2 h3 => hle.bvSome (hd fd c h1 h2 h3)⟩
  | bb b =>
    obtain ⟨f, fd, h1, h2, h3, h4⟩ := h
    exact ⟨f, fd, hcur.trans h1, h2, h3, fun c hc hd => (h4 c hc hd).imp id hle.bvSome⟩
  | func g => exact h

/-- The value does not transfer control. -/
def FlowFree (p : Program) (f : Func) (u : Value) : Prop := ∀ x, LocalVal p f u x → Spec.targets x.kind = []

/-- The value is listed in a block that is not generated yet. -/
def InNew (p : Program) (s : GSt) (f : Func) (u : Value) : Prop :=
  ∃ fd b is, p.funcs.get? f = some fd ∧ (b, is) ∈ fd.layout.bbs ∧ u ∈ is ∧ s.bv f b = none

theorem InNew.mono {s s' : GSt} (hle : Le s s') {f : Func} {u : Value} (h : InNew p s' f u) : InNew p s f u := by
  obtain ⟨fd, b, is, h1, h2, h3, h4⟩ := h
  refine ⟨fd, b, is, h1, h2, h3, ?_⟩
  cases hb : s.bv f b with
  | none => rfl
  | some w => rw [hle.bv _ _ _ hb] at h4; cases h4

/-- Which values of the current function may get generated on the way to `item`. -/
def May (p : Program) (rank : Value → Nat) (s : GSt) (f : Func) (item : Item) (u : Value) : Prop :=
  (∀ g, item ≠ .func g) ∧ (item = .val u ∨ FlowFree p f u ∨ InNew p s f u) ∧
    ∀ v, item = .val v → FlowFree p f v → rank u ≤ rank v

def Post (p : Program) (rank : Value → Nat) (s s' : GSt) (item : Item) : Prop :=
  ∀ f u w, s.cur = some f → s.lv f u = none → s'.lv f u = some w → May p rank s f item u

/-- The depth of recursion that an item needs. -/
def need (p : Program) (rank : Value → Nat) (R : Nat) (s : GSt) (item : Item) : Nat :=
  cnt p s * (R + 2) + match item with
    | .val v => 2 + rank v
    | _ => 1

def GlobsDone (p : Program) (s : GSt) : Prop := ∀ v, Used p none v → (s.gv v).isSome

def Outcome (p : Program) (g0 : Nat) (rank : Value → Nat) (one : Item → Gen Nat) (item : Item) (s : GSt) : Prop :=
  ∃ w s', one item s = some (.ok (w, s')) ∧ GInv p g0 s' ∧ GStep p s s' ∧
    (∀ f, (s.cur = some f ∨ ∃ g, item = .func g) → s'.item f item = some w) ∧ Post p rank s s' item

def Good (p : Program) (g0 : Nat) (rank : Value → Nat) (R n : Nat) (one : Item → Gen Nat) : Prop :=
  ∀ item s, GInv p g0 s → GlobsDone p s → Pre p s item → need p rank R s item ≤ n → Outcome p g0 rank one item s

theorem GlobsDone.mono {s s' : GSt} (h : GlobsDone p s) (hle : Le s s') : GlobsDone p s' := by
  intro v hv
  obtain ⟨w, hw⟩ := Option.isSome_iff_exists.1 (h v hv)
  rw [hle.gv _ _ hw]; rfl

theorem need_mono {rank : Value → Nat} {R : Nat} {s s' : GSt} (hle : Le s s') (i : Item) : need p rank R s' i ≤ need p rank R s i := by
  unfold need
  exact Nat.add_le_add_right (Nat.mul_le_mul_right _ (cnt_mono hle)) _

/-- Generating a list of items. -/
theorem Good.runs {rank : Value → Nat} {R n : Nat} {one : Item → Gen Nat} (hg : Good p g0 rank R n one) {f : Func} :
    ∀ (is : List Item) (s : GSt), GInv p g0 s → GlobsDone p s → s.cur = some f → (∀ i ∈ is, Pre p s i) →
      (∀ i ∈ is, need p rank R s i ≤ n) → ∃ s', Runs one (s'.h f) is s s' ∧ GInv p g0 s' ∧ GStep p s s' ∧
        (∀ i ∈ is, (s'.item f i).isSome) ∧
        ∀ u w, s.lv f u = none → s'.lv f u = some w → ∃ i ∈ is, May p rank s f i u
  | [], s, hi, _, _, _, _ => ⟨s, .nil, hi, GStepX.refl _ s, by simp, fun u w h h' => by rw [h] at h'; cases h'⟩
  | i :: is, s, hi, hd, hcur, hpre, hneed => by
    obtain ⟨w, s1, h1, h2, h3, h4, h5⟩ := hg i s hi hd (hpre i (by simp)) (hneed i (by simp))
    obtain ⟨s2, e1, e2, e3, e4, e5⟩ := hg.runs is s1 h2 (hd.mono h3.le) (h3.cur.trans hcur)
      (fun j hj => (hpre j (by simp [hj])).mono h3.le h3.cur)
      (fun j hj => Nat.le_trans (need_mono h3.le j) (hneed j (by simp [hj])))
    have hw := h4 f (.inl hcur)
    refine ⟨s2, .cons ?_ e1, e2, h3.trans e3, ?_, ?_⟩
    · rw [GSt.h_eq (e3.le.item hw)]; exact h1
    · intro j hj
      rcases List.mem_cons.1 hj with rfl | hj
      · rw [e3.le.item hw]; rfl
      · exact e4 j hj
    · intro u w hn hs
      cases hm : s1.lv f u with
      | some w' => exact ⟨i, by simp, h5 f u w' hcur hn hm⟩
      | none =>
        obtain ⟨j, hj, a1, a2, a3⟩ := e5 u w hm hs
        exact ⟨j, by simp [hj], a1, a2.imp id (Or.imp id (InNew.mono h3.le)), a3⟩

/-! ### Values -/

theorem mentions_used {f : Func} {b : BB} {v : Value} (h : Mentions p f b v) : Used p (some f) v := by
  induction h with
  | inst h1 h2 h3 => exact .inst h1 h2 h3
  | operand _ h1 h2 h3 ih => exact .operand ih h1 h2 h3

theorem mentions_listed (hc : Convertible p) {f : Func} {b : BB} {v : Value} {x : VData} (h : Mentions p f b v) (hx : LocalVal p f v x)
    (ht : Spec.targets x.kind ≠ []) : ∃ fd is, p.funcs.get? f = some fd ∧ (b, is) ∈ fd.layout.bbs ∧ v ∈ is := by
  cases h with
  | inst h1 h2 h3 => exact ⟨_, _, h1, h2, h3⟩
  | operand h1 h2 h3 h4 =>
    cases LocalVal.unique h4 hx
    exact absurd (hc.noFlow _ _ _ _ _ (mentions_used h1) h2 h3 h4) ht

/-- The values that a function mentions have ranks below a bound. -/
structure Ranked (p : Program) (rank : Value → Nat) (R : Nat) : Prop where
  local_ : ∀ f u v x, LocalVal p f u x → Used p (some f) u → v ∈ operands x.kind → rank v < rank u
  bound : ∀ f v, Used p (some f) v → rank v ≤ R

theorem findVal_global {s : GSt} {v w : Value} (h : s.gv v = some w) : findVal v s = some (.ok (some w, s)) := by
  have : s.values.get? v = some w := h
  simp only [findVal, bind_def, get_def, this, pure_def]

theorem findVal_local {s : GSt} {v : Value} {f : Func} {i : FuncInfo} (h : s.gv v = none) (hcur : s.cur = some f)
    (hf : s.funcs.get? f = some i) : findVal v s = some (.ok (i.values.get? v, s)) := by
  have : s.values.get? v = none := h
  simp only [findVal, bind_def, get_def, this, hcur, curInfo_run hcur hf, pure_def]

theorem deref_run {α : Type} {m : Map Nat (Option α)} {a : Nat} {x : α} (h : m.get? a = some (some x)) : deref m a = pure x := by
  simp only [deref, h, Option.bind_some, id, need_some]

theorem GInv.gv_none (hc : Convertible p) {s : GSt} (hi : GInv p g0 s) {v : Value} (h : isGlobal v = false) : s.gv v = none := by
  cases hg : s.gv v with
  | none => rfl
  | some w => have := hi.global_id hc hg; simp [h] at this

theorem gen_val (hc : Convertible p) {m : Builder} (hm : Holds p m) {rank : Value → Nat} {R : Nat} (hr : Ranked p rank R) {n : Nat}
    (ih : Good p g0 rank R n (gen m n)) {v : Value} {s : GSt} (hi : GInv p g0 s) (hd : GlobsDone p s) (hpre : Pre p s (.val v))
    (hneed : need p rank R s (.val v) ≤ n + 1) : Outcome p g0 rank (gen m (n + 1)) (.val v) s := by
  obtain ⟨f, hcur, hpre⟩ := hpre
  obtain ⟨i, hf⟩ := Option.isSome_iff_exists.1 (hi.cur f hcur)
  obtain ⟨fd, hfd, hfi⟩ := hi.funcs f i hf
  have same : ∀ w, findVal v s = some (.ok (some w, s)) → s.rv f v = some w → Outcome p g0 rank (gen m (n + 1)) (.val v) s := by
    intro w h1 h2
    refine ⟨w, s, by simp only [gen, bind_def, h1, pure_def], hi, GStepX.refl _ s, ?_, ?_⟩
    · rintro g (hg | ⟨_, hg⟩)
      · rw [hcur] at hg; cases hg; exact h2
      · cases hg
    · intro f u w _ h h'; rw [h] at h'; cases h'
  rcases hpre with ⟨hgl, hu⟩ | ⟨hlo, b, hmen, hdom⟩
  · obtain ⟨w, hw⟩ := Option.isSome_iff_exists.1 (hd v hu)
    exact same w (findVal_global hw) (by rw [GSt.rv, if_pos hgl]; exact hw)
  · have hgn := hi.gv_none hc hlo
    have hfind := findVal_local hgn hcur hf
    have hrv : s.rv f v = i.values.get? v := by rw [GSt.rv, if_neg (by simp [hlo]), GSt.lv_eq hf]
    cases hval : i.values.get? v with
    | some w => exact same w (by rw [hfind, hval]) (by rw [hrv, hval])
    | none =>
      have hu := mentions_used hmen
      obtain ⟨x, hx⟩ := hc.liveL hu
      obtain ⟨us, hbox⟩ := hm.locals f v x hu hx
      have ha1 : ∀ k, x.kind ≠ .funcArgRef k := by
        intro k hk
        have := hc.argRef _ _ _ _ _ hfd hu hx hk
        obtain ⟨ws, _, hws⟩ := hfi.head
        obtain ⟨w, _, hw⟩ := hws.memL v this
        rw [hval] at hw; cases hw
      have ha2 : ∀ k, x.kind ≠ .blockArgRef k := by
        intro k hk
        obtain ⟨c, y, h1, h2, h3⟩ := hc.blockRef _ _ _ _ _ hfd hu hx hk
        have := hdom fd c hfd h1 (hc.dominated _ _ _ _ _ _ hfd hmen h1 h2 h3)
        obtain ⟨w, hw⟩ := Option.isSome_iff_exists.1 this
        rw [GSt.bv_eq hf] at hw
        obtain ⟨_, y', ws, e1, _, e2⟩ := hfi.blks c w hw
        rw [h2] at e1; cases e1
        obtain ⟨w, _, hw⟩ := e2.memL v h3
        rw [hval] at hw; cases hw
      have hkpre : ∀ j ∈ kindItems x.kind, Pre p s j := by
        intro j hj
        rcases mem_kindItems hj with ⟨u, rfl, ho⟩ | ⟨t, rfl, ht⟩ | ⟨g, as, rfl, hk⟩
        · refine ⟨f, hcur, ?_⟩
          rcases hc.opUsed hu hx ho with h | ⟨h, h'⟩
          · exact .inl h
          · obtain ⟨y, hy⟩ := hc.liveL h'
            exact .inr ⟨h, b, .operand hmen hx ho hy, hdom⟩
        · refine ⟨f, fd, hcur, hfd, hc.targets _ _ _ _ _ hfd hu hx ht, ?_⟩
          intro c hcm hcd
          obtain ⟨fd', is, e1, e2, e3⟩ := mentions_listed hc hmen hx (by intro h; rw [h] at ht; cases ht)
          rcases dom_step ⟨fd', is, v, x, e1, e2, e3, hx, ht⟩ hcd with h | h
          · exact .inl h
          · exact .inr (hdom fd c hfd hcm h)
        · exact hc.callLive hx hk
      have hkneed : ∀ j ∈ kindItems x.kind, need p rank R s j ≤ n := by
        intro j hj
        rcases mem_kindItems hj with ⟨u, rfl, ho⟩ | ⟨t, rfl, ht⟩ | ⟨g, as, rfl, hk⟩
        · have := hr.local_ _ _ _ _ hx hu ho
          unfold need at hneed ⊢
          simp only at hneed ⊢
          omega
        · unfold need at hneed ⊢
          simp only at hneed ⊢
          omega
        · unfold need at hneed ⊢
          simp only at hneed ⊢
          omega
      obtain ⟨s1, r1, r2, r3, r4, r5⟩ := ih.runs (kindItems x.kind) s hi hd hcur hkpre hkneed
      have hcur1 := r3.cur.trans hcur
      obtain ⟨i1, hf1⟩ := Option.isSome_iff_exists.1 (r2.cur f hcur1)
      have hlv : s.lv f v = none := by rw [GSt.lv_eq hf]; exact hval
      have hval1 : i1.values.get? v = none := by
        cases hv1 : i1.values.get? v with
        | none => rfl
        | some w =>
          rw [← GSt.lv_eq hf1] at hv1
          obtain ⟨j, hj, m1, m2, m3⟩ := r5 v w hlv hv1
          rcases mem_kindItems hj with ⟨u, rfl, ho⟩ | ⟨t, rfl, ht⟩ | ⟨g, as, rfl, hk⟩
          · have hff : FlowFree p f u := by
              intro y hy
              exact hc.noFlow _ _ _ _ _ hu hx ho hy
            have h1 := m3 u rfl hff
            have h2 := hr.local_ _ _ _ _ hx hu ho
            omega
          · have ht' : Spec.targets x.kind ≠ [] := by intro h; rw [h] at ht; cases ht
            rcases m2 with h | h | h
            · cases h
            · exact absurd (h x hx) ht'
            · obtain ⟨fd1, is, e1, e2, e3⟩ := mentions_listed hc hmen hx ht'
              obtain ⟨fd2, c, is', e4, e5, e6, e7⟩ := h
              rw [e1] at e4; cases e4
              obtain ⟨rfl, rfl⟩ := listed_once hc e1 e2 e5 e3 e6
              have := hdom fd1 b e1 (List.mem_map.2 ⟨_, e2, rfl⟩) (by
                intro h
                generalize hP : (fun x => x = b) = P at h
                cases h with
                | entry _ _ hn => subst hP; exact hn rfl
                | step _ _ hn => subst hP; exact hn rfl)
              rw [e7] at this; cases this
          · exact absurd rfl (m1 g)
      obtain ⟨j, s1', s2, w, h1, h2, h3, p2, rfl, h5, h6, h7, h8⟩ := r2.addLocal hc hcur1 hf1 hfd hval1 hu hx r4 ha1 ha2
      have hk := genKind_local (one := gen m n) (g := s1.h f) (s := s) (r := { ty := x.ty, name := x.name, usedBy := us, kind := .of x.kind })
        rfl (hc.fits _ _ _ hx hu) r1 hcur1 h1
      have hself : (s1.upd f p2 { i1 with values := i1.values.insert v w }).lv f v = some w := by
        rw [GSt.lv_eq (GSt.upd_self ..)]; simp
      have hstep : GStep p s1 (s1.upd f p2 { i1 with values := i1.values.insert v w }) := by
        have hbv : ∀ g c, (s1.upd f p2 { i1 with values := i1.values.insert v w }).bv g c = s1.bv g c := by
          intro g c
          by_cases e : g = f
          · subst e; rw [GSt.bv_eq (GSt.upd_self ..), GSt.bv_eq hf1]
          · unfold GSt.bv; rw [GSt.upd_ne _ _ e]
        have hfv : ∀ g, (s1.upd f p2 { i1 with values := i1.values.insert v w }).fv g = s1.fv g := by
          intro g
          by_cases e : g = f
          · subst e; rw [GSt.fv_eq (GSt.upd_self ..), GSt.fv_eq hf1]
          · unfold GSt.fv; rw [GSt.upd_ne _ _ e]
        refine ⟨h6, rfl, ?_, ?_, ?_, ?_, rfl, h8⟩
        · rintro g c js ⟨i', w', l, a1, a2, a3, a4⟩ _
          by_cases e : g = f
          · subst e
            rw [hf1] at a1; cases a1
            exact ⟨_, w', l, GSt.upd_self .., a2, by show p2.view.lay i1.func = _; rw [h7]; exact a3, a4⟩
          · exact ⟨i', w', l, by rw [GSt.upd_ne _ _ e]; exact a1, a2, by show p2.view.lay i'.func = _; rw [h7]; exact a3, a4⟩
        · intro g c w' a1 a2
          rw [hbv, a1] at a2; cases a2
        · intro g gd a1 a2
          rw [hfv, a1] at a2; cases a2
        · intro g i' a1 a2
          rw [GSt.upd_ne _ _ (by rintro rfl; exact a2 hcur1)]; exact a1
      refine ⟨w, _, ?_, h5, r3.trans hstep, ?_, ?_⟩
      · simp only [gen, bind_def, hfind, hval, deref_run hbox, pure_def, hk, h2, h3]
      · rintro g (hg | ⟨_, hg⟩)
        · rw [hcur] at hg; cases hg
          show GSt.rv _ f v = _
          rw [GSt.rv, if_neg (by simp [hlo])]; exact hself
        · cases hg
      · intro g u w' hg hun hus
        rw [hcur] at hg; cases hg
        cases hm1 : s1.lv f u with
        | none =>
          have : u = v := by
            rw [GSt.lv_eq (GSt.upd_self ..)] at hus
            simp only [Map.get?_insert] at hus
            split at hus
            · assumption
            · rw [← GSt.lv_eq hf1, hm1] at hus; cases hus
          subst this
          exact ⟨fun g h => (by cases h), .inl rfl, fun v' h _ => (by cases h; exact Nat.le_refl _)⟩
        | some w1 =>
          obtain ⟨j, hj, m1, m2, m3⟩ := r5 u w1 hun hm1
          refine ⟨fun g h => (by cases h), ?_, ?_⟩
          · rcases mem_kindItems hj with ⟨o, rfl, ho⟩ | ⟨t, rfl, ht⟩ | ⟨g, as, rfl, hk⟩
            · rcases m2 with h | h
              · cases h
                exact .inr (.inl (fun y hy => hc.noFlow _ _ _ _ _ hu hx ho hy))
              · exact .inr h
            · rcases m2 with h | h
              · cases h
              · exact .inr h
            · exact absurd rfl (m1 g)
          · intro v' h hff
            cases h
            rcases mem_kindItems hj with ⟨o, rfl, ho⟩ | ⟨t, rfl, ht⟩ | ⟨g, as, rfl, hk⟩
            · have h1 := m3 o rfl (fun y hy => hc.noFlow _ _ _ _ _ hu hx ho hy)
              have h2 := hr.local_ _ _ _ _ hx hu ho
              omega
            · rw [hff x hx] at ht; cases ht
            · exact absurd rfl (m1 g)

end

end Koopa.Raw
