import Verif.Spec.Brainfuck
import Verif.Lemmas.Examples.Brainfuck
/-!
The Brainfuck compiler: the instructions of the finished program, command by command.
-/
namespace Koopa.Bf
open Koopa Koopa.Spec

/-- The bytes that are commands. -/
def isCmd (c : Char) : Bool := c = '>' ∨ c = '<' ∨ c = '+' ∨ c = '-' ∨ c = '[' ∨ c = ']' ∨ c = '.' ∨ c = ','

/-- The instructions `is` of the finished program `p`, up to the end of their block, carry out the text; `loops` are the
open loops. -/
inductive Compiled (env : Env) (zero : Value) (p : Program) : List Value → List (BB × BB) → List Char → Prop
  | nil {j e r} : Has p env.main j .unit (.jump e []) → code env.main p e = some [r] → Has p env.main r .unit (.ret (some zero)) →
      Compiled env zero p [j] [] []
  | move {c i vs is loops w} : c = '>' ∧ i = 1 ∨ c = '<' ∧ i = -1 → PtrOp p env.main env.ptr i vs →
      Compiled env zero p is loops w → Compiled env zero p (vs ++ is) loops (c :: w)
  | data {c i vs is loops w} : c = '+' ∧ i = 1 ∨ c = '-' ∧ i = -1 → DataOp p env.main env.ptr i vs →
      Compiled env zero p is loops w → Compiled env zero p (vs ++ is) loops (c :: w)
  | put {vs is loops w} : PutOp p env.main env.putchar env.ptr vs →
      Compiled env zero p is loops w → Compiled env zero p (vs ++ is) loops ('.' :: w)
  | get {vs is loops w} : GetOp p env.main env.getchar env.ptr vs →
      Compiled env zero p is loops w → Compiled env zero p (vs ++ is) loops (',' :: w)
  | start {j cond done body vs is loops w} : Has p env.main j .unit (.jump cond []) → code env.main p cond = some vs →
      CondOp p env.main env.ptr body done vs → code env.main p body = some is →
      Compiled env zero p is ((cond, done) :: loops) w → Compiled env zero p [j] loops ('[' :: w)
  | finish {j cond done is loops w} : Has p env.main j .unit (.jump cond []) → code env.main p done = some is →
      Compiled env zero p is loops w → Compiled env zero p [j] ((cond, done) :: loops) (']' :: w)
  | other {c is loops w} : isCmd c = false → Compiled env zero p is loops w → Compiled env zero p is loops (c :: w)

/-- What one byte of the input does to the program. -/
inductive Emits (env : Env) (st st' : St) : Char → Prop
  | move {c i vs} : c = '>' ∧ i = 1 ∨ c = '<' ∧ i = -1 → st'.loops = st.loops → st'.bb = st.bb →
      Writes env.main st.prog st'.prog st.bb vs → PtrOp st'.prog env.main env.ptr i vs → Emits env st st' c
  | data {c i vs} : c = '+' ∧ i = 1 ∨ c = '-' ∧ i = -1 → st'.loops = st.loops → st'.bb = st.bb →
      Writes env.main st.prog st'.prog st.bb vs → DataOp st'.prog env.main env.ptr i vs → Emits env st st' c
  | put {vs} : st'.loops = st.loops → st'.bb = st.bb →
      Writes env.main st.prog st'.prog st.bb vs → PutOp st'.prog env.main env.putchar env.ptr vs → Emits env st st' '.'
  | get {vs} : st'.loops = st.loops → st'.bb = st.bb →
      Writes env.main st.prog st'.prog st.bb vs → GetOp st'.prog env.main env.getchar env.ptr vs → Emits env st st' ','
  | start {j cond done vs} : st'.loops = (cond, done) :: st.loops → Grows env.main st.prog st'.prog st.bb →
      code env.main st.prog st'.bb = none → code env.main st'.prog st'.bb = some [] →
      code env.main st'.prog st.bb = (code env.main st.prog st.bb).map (· ++ [j]) → Has st'.prog env.main j .unit (.jump cond []) →
      cond ≠ st'.bb → code env.main st'.prog cond = some vs → CondOp st'.prog env.main env.ptr st'.bb done vs → Emits env st st' '['
  | finish {j q} : st.loops = q :: st'.loops → Grows env.main st.prog st'.prog st.bb → st'.bb = q.2 →
      code env.main st.prog st'.bb = none → code env.main st'.prog st'.bb = some [] →
      code env.main st'.prog st.bb = (code env.main st.prog st.bb).map (· ++ [j]) → Has st'.prog env.main j .unit (.jump q.1 []) →
      Emits env st st' ']'
  | other {c} : isCmd c = false → st' = st → Emits env st st' c

theorem At.emits {env : Env} {st st' : St} {zero : Value} (h : At env st zero) {c : Char} (hs : Bf.step env st c = some (some st')) :
    At env st' zero ∧ Emits env st st' c := by
  unfold Bf.step at hs
  by_cases e1 : c = '>'
  · subst e1
    obtain ⟨s, h1, h2, h3, h4, vs, h5, h6⟩ := h.ptrOp 1
    rw [if_pos rfl, h1] at hs; cases hs
    exact ⟨h3, .move (.inl ⟨rfl, rfl⟩) h2 h4 h5 h6⟩
  rw [if_neg e1] at hs
  by_cases e2 : c = '<'
  · subst e2
    obtain ⟨s, h1, h2, h3, h4, vs, h5, h6⟩ := h.ptrOp (-1)
    rw [if_pos rfl, h1] at hs; cases hs
    exact ⟨h3, .move (.inr ⟨rfl, rfl⟩) h2 h4 h5 h6⟩
  rw [if_neg e2] at hs
  by_cases e3 : c = '+'
  · subst e3
    obtain ⟨s, h1, h2, h3, h4, vs, h5, h6⟩ := h.dataOp 1
    rw [if_pos rfl, h1] at hs; cases hs
    exact ⟨h3, .data (.inl ⟨rfl, rfl⟩) h2 h4 h5 h6⟩
  rw [if_neg e3] at hs
  by_cases e4 : c = '-'
  · subst e4
    obtain ⟨s, h1, h2, h3, h4, vs, h5, h6⟩ := h.dataOp (-1)
    rw [if_pos rfl, h1] at hs; cases hs
    exact ⟨h3, .data (.inr ⟨rfl, rfl⟩) h2 h4 h5 h6⟩
  rw [if_neg e4] at hs
  by_cases e5 : c = '['
  · subst e5
    obtain ⟨s, cond, done, h1, h2, h3, h4, h5, h6, ⟨j, h7, h8⟩, h9, vs, h10, h11⟩ := h.start
    rw [if_pos rfl, h1] at hs; cases hs
    exact ⟨h3, .start h2 h4 h5 h6 h7 h8 h9 h10 h11⟩
  rw [if_neg e5] at hs
  by_cases e6 : c = ']'
  · subst e6
    rw [if_pos rfl] at hs
    rcases h.finish with ⟨h1, h2⟩ | ⟨s, q, h1, h2, h3, h4, h5, h6, h7, j, h8, h9⟩
    · rw [h2] at hs; cases hs
    · rw [h1] at hs; cases hs
      exact ⟨h3, .finish h2 h4 h5 h6 h7 h8 h9⟩
  rw [if_neg e6] at hs
  by_cases e7 : c = '.'
  · subst e7
    obtain ⟨s, h1, h2, h3, h4, vs, h5, h6⟩ := h.put
    rw [if_pos rfl, h1] at hs; cases hs
    exact ⟨h3, .put h2 h4 h5 h6⟩
  rw [if_neg e7] at hs
  by_cases e8 : c = ','
  · subst e8
    obtain ⟨s, h1, h2, h3, h4, vs, h5, h6⟩ := h.get
    rw [if_pos rfl, h1] at hs; cases hs
    exact ⟨h3, .get h2 h4 h5 h6⟩
  rw [if_neg e8] at hs
  cases hs
  exact ⟨h, .other (by simp [isCmd, e1, e2, e3, e4, e5, e6, e7, e8]) rfl⟩

theorem Grows.trans {f : Func} {p p1 p2 : Program} {bb b1 : BB} (h : Grows f p p1 bb) (h' : Grows f p1 p2 b1)
    (hb : b1 = bb ∨ Bf.code f p b1 = none) : Grows f p p2 bb := by
  obtain ⟨ks, hk⟩ := h.keys
  obtain ⟨ks', hk'⟩ := h'.keys
  refine ⟨h.ext.trans h'.ext, h'.g.trans h.g, h'.insts.trans h.insts, h'.head.trans h.head, ⟨ks ++ ks', ?_⟩, ?_⟩
  · rw [hk', hk]; simp [Option.map_map, Function.comp_def]
  · intro b hne hs
    have e := h.code b hne hs
    rw [← e]
    refine h'.code b ?_ (by rw [e]; exact hs)
    rintro rfl
    rcases hb with rfl | hb
    · exact hne rfl
    · rw [hb] at hs; cases hs

theorem Emits.grows {env : Env} {st st' : St} {c : Char} (h : Emits env st st' c) :
    Grows env.main st.prog st'.prog st.bb ∧ (st'.bb = st.bb ∨ code env.main st.prog st'.bb = none) := by
  cases h with
  | move _ _ h2 h3 _ => exact ⟨h3.grows, .inl h2⟩
  | data _ _ h2 h3 _ => exact ⟨h3.grows, .inl h2⟩
  | put _ h2 h3 _ => exact ⟨h3.grows, .inl h2⟩
  | get _ h2 h3 _ => exact ⟨h3.grows, .inl h2⟩
  | start _ h2 h3 => exact ⟨h2, .inr h3⟩
  | finish _ h2 _ h3 => exact ⟨h2, .inr h3⟩
  | other _ h2 =>
    subst h2
    exact ⟨⟨.refl _, rfl, rfl, rfl, ⟨[], by simp⟩, fun _ _ _ => rfl⟩, .inl rfl⟩

/-- From a state of the compiler to the finished program, all loops being closed. -/
theorem At.compiled {env : Env} {zero : Value} {p : Program} : ∀ (w : List Char) {st st' : St} {js : List Value}, At env st zero →
    Bf.loop env st w = some (some st') → Bf.leave env zero st' = some p → st'.loops = [] → code env.main st.prog st.bb = some js →
    Grows env.main st.prog p st.bb ∧ ∃ is, code env.main p st.bb = some (js ++ is) ∧ Compiled env zero p is st.loops w := by
  intro w
  induction w with
  | nil =>
    intro st st' js h hl hv hn hc
    cases hl
    obtain ⟨q, l, h1, _, h3, j, e, r, h4, h5, h6, h7⟩ := h.leave
    rw [h1] at hv; cases hv
    refine ⟨h3, [j], by rw [h4, hc]; rfl, ?_⟩
    rw [hn]
    exact .nil h5 h6 h7
  | cons c w ih =>
    intro st st' js h hl hv hn hc
    unfold Bf.loop at hl
    split at hl
    · cases hl
    · cases hl
    · rename_i st1 hs
      obtain ⟨h1, h2⟩ := h.emits hs
      have hg := h2.grows
      cases h2 with
      | move ha hb hd hw ho =>
        obtain ⟨h3, is, h4, h5⟩ := ih h1 hl hv hn (js := js ++ _) (by rw [hw.code, if_pos hd, hd, hc]; rfl)
        refine ⟨hg.1.trans h3 hg.2, _, by rw [← hd, h4, List.append_assoc], ?_⟩
        rw [← hb]
        exact .move ha (ho.ext h3.ext) h5
      | data ha hb hd hw ho =>
        obtain ⟨h3, is, h4, h5⟩ := ih h1 hl hv hn (js := js ++ _) (by rw [hw.code, if_pos hd, hd, hc]; rfl)
        refine ⟨hg.1.trans h3 hg.2, _, by rw [← hd, h4, List.append_assoc], ?_⟩
        rw [← hb]
        exact .data ha (ho.ext h3.ext) h5
      | put hb hd hw ho =>
        obtain ⟨h3, is, h4, h5⟩ := ih h1 hl hv hn (js := js ++ _) (by rw [hw.code, if_pos hd, hd, hc]; rfl)
        refine ⟨hg.1.trans h3 hg.2, _, by rw [← hd, h4, List.append_assoc], ?_⟩
        rw [← hb]
        exact .put (ho.ext h3.ext) h5
      | get hb hd hw ho =>
        obtain ⟨h3, is, h4, h5⟩ := ih h1 hl hv hn (js := js ++ _) (by rw [hw.code, if_pos hd, hd, hc]; rfl)
        refine ⟨hg.1.trans h3 hg.2, _, by rw [← hd, h4, List.append_assoc], ?_⟩
        rw [← hb]
        exact .get (ho.ext h3.ext) h5
      | start ha hb hd he hf hj hcb hcd ho =>
        obtain ⟨h3, is, h4, h5⟩ := ih h1 hl hv hn he
        have hne : st.bb ≠ st1.bb := fun e => by rw [← e, hc] at hd; cases hd
        rw [hc] at hf
        refine ⟨hg.1.trans h3 hg.2, _, (h3.code _ hne (by rw [hf]; rfl)).trans hf, ?_⟩
        rw [ha] at h5
        exact .start (hj.ext h3.ext) ((h3.code _ hcb (by rw [hcd]; rfl)).trans hcd) (ho.ext h3.ext) h4 h5
      | finish ha hb hq hd he hf hj =>
        obtain ⟨h3, is, h4, h5⟩ := ih h1 hl hv hn he
        have hne : st.bb ≠ st1.bb := fun e => by rw [← e, hc] at hd; cases hd
        rw [hc] at hf
        refine ⟨hg.1.trans h3 hg.2, _, (h3.code _ hne (by rw [hf]; rfl)).trans hf, ?_⟩
        rw [ha]
        exact .finish (hj.ext h3.ext) (by rw [hq] at h4; exact h4) h5
      | other ha hb =>
        subst hb
        obtain ⟨h3, is, h4, h5⟩ := ih h1 hl hv hn hc
        exact ⟨h3, is, h4, .other ha h5⟩

/-- The finished program. -/
structure Built (env : Env) (arr zero : Value) (p : Program) (w : List Char) : Prop where
  fi : FInv p
  noBlocks : ∀ g l', g ≠ env.main → p.view.lay g = some l' → l'.bbs = []
  noParams : ∀ b is, code env.main p b = some is → ∃ n, p.view.b env.main b = some (n, [])
  data : ∃ init n, p.view.g arr = some (.ptr (.array .i32 65536), n, .globalAlloc init) ∧
    p.view.g init = some (.array .i32 65536, none, .zeroInit)
  insts : p.view.insts = [arr]
  main : p.view.head env.main = some (.func [] .i32, "@main".toList, [])
  putchar : p.view.head env.putchar = some (.func [.i32] .i32, "@putchar".toList, [])
  getchar : p.view.head env.getchar = some (.func [] .i32, "@getchar".toList, [])
  only : ∀ f t ps, p.view.head f = some (t, "@main".toList, ps) → f = env.main
  ptr : Has p env.main env.ptr (.ptr (.ptr .i32)) .alloc
  const : Has p env.main zero .i32 (.integer 0)
  entry : ∃ entry bb ks a b j is, keys env.main p = some (entry :: ks) ∧ code env.main p entry = some [env.ptr, a, b, j] ∧
    Has p env.main a (.ptr .i32) (.getElemPtr arr zero) ∧ Has p env.main b .unit (.store a env.ptr) ∧
    Has p env.main j .unit (.jump bb []) ∧ code env.main p bb = some is ∧ Compiled env zero p is [] w

theorem built {ids : Ids} (hg : globalStart ≤ ids.nextGlobal) (hl : localStart ≤ ids.nextLocal)
    (hm : ids.nextGlobal + 2 ≤ localStart) {w : List Char} {p : Program} (hb : BracketsBalanced w)
    (hp : build ids w = some (some p)) : ∃ env arr zero, Built env arr zero p w := by
  obtain ⟨env, p0, l0, e0, i0, t0, b0, ⟨init, n, g0, g1⟩, n0, m0, pu0, ge0, o0⟩ := prelude_inv hg hl hm
  obtain ⟨ptr, zero, st, e1, hl1, a1, g2, n2, y2, c2, d2, z2, entry, a, b, j, k2, ne, c3, d3, d4, d5⟩ := enter_at i0 t0 b0
  unfold Bf.build at hp
  simp only [e0, e1, Option.bind_eq_bind, Option.bind_some] at hp
  rcases a1.loop w with ⟨h1, h2⟩ | ⟨h1, st', h2, h3, h4⟩
  · rw [h2] at hp; cases hp
  rw [h2] at hp
  simp only [Option.bind_some, Option.map_eq_some_iff] at hp
  obtain ⟨q, hq, hqp⟩ := hp
  cases hqp
  have hn : st'.loops = [] := by
    have := hb.2
    rw [hl1] at h4
    cases hs : st'.loops with
    | nil => rfl
    | cons q loops => rw [hs] at h4; simp at h4; omega
  obtain ⟨q', l, h5, h6, _⟩ := h3.leave
  rw [hq] at h5; cases h5
  obtain ⟨h7, is, h8, h9⟩ := At.compiled w a1 h2 hq hn c2
  rw [hl1] at h9
  obtain ⟨ks, hk⟩ := h7.keys
  refine ⟨_, env.ptr, zero, h6.fi, h6.others, ?_, ⟨init, n, by rw [h7.g, g2]; exact g0, by rw [h7.g, g2]; exact g1⟩,
    by rw [h7.insts, n2]; exact n0, by rw [h7.head, y2]; exact m0, by rw [h7.head, y2]; exact pu0, by rw [h7.head, y2]; exact ge0, ?_,
    d2.ext h7.ext, z2.ext h7.ext, entry, st.bb, [st.bb] ++ ks, a, b, j, is, ?_, ?_, d3.ext h7.ext, d4.ext h7.ext, d5.ext h7.ext, h8, h9⟩
  · intro b is hb
    refine h6.laid b ?_
    rw [← Classical.not_not (a := b ∈ _), ← code_none h6, hb]
    exact fun e => by cases e
  · intro f t ps hf
    rw [h7.head, y2] at hf
    exact o0 f t ps hf
  · rw [hk]
    show Option.map _ (keys env.main st.prog) = _
    rw [k2]; rfl
  · refine (h7.code entry ne ?_).trans c3
    show (code env.main st.prog entry).isSome
    rw [c3]; rfl

end Koopa.Bf
