import Verif.Lemmas.Examples.BfSimple
import Verif.Lemmas.Examples.BfCode
import Verif.Lemmas.Back.LlvmCore
import Verif.Props.Brainfuck
import Verif.Props.LlvmPrints
/-!
The LLVM generator on the programs of the Brainfuck compiler.
-/
namespace Koopa.Bf
open Koopa Koopa.Spec Koopa.Spec.Ll Koopa.Interp

/-- The finished program, with everything that is known of it. -/
structure Whole (m pu ge : Func) (arr init : Value) (p : Program) : Prop where
  simple : Simple m pu ge arr init p.view
  fi : FInv p
  ends : BlocksEnd p
  targets : TargetsListed p
  insts : p.instLayout = [arr]
  others : ∀ g l', g ≠ m → p.view.lay g = some l' → l'.bbs = []
  main : ∃ fd, p.funcs.get? m = some fd ∧ fd.layout.bbs ≠ []
  data : (∃ x, GlobalVal p arr x) ∧ ∃ x, GlobalVal p init x
  decls : (∃ fd, p.funcs.get? pu = some fd) ∧ ∃ fd, p.funcs.get? ge = some fd

theorem whole {ids : Ids} (hg : globalStart ≤ ids.nextGlobal) (hl : localStart ≤ ids.nextLocal) (hm : ids.nextGlobal + 2 ≤ localStart)
    {w : List Char} {p : Program} (hb : BracketsBalanced w) (hp : build ids w = some (some p)) : ∃ m pu ge arr init, Whole m pu ge arr init p := by
  obtain ⟨m, pu, ge, arr, init, hs⟩ := simple_build hl hp
  obtain ⟨env, arr', zero, B⟩ := built hg hl hm hb hp
  obtain ⟨p', h1, h2, h3⟩ := C41_balanced_partial hg hl hm hb
  rw [hp] at h1; cases h1
  have em : env.main = m := by
    rcases hs.head _ _ B.main with ⟨-, e⟩ | ⟨-, e⟩ | ⟨e, -⟩
    · exact absurd (congrArg (fun q => q.2.1) e) (by decide)
    · exact absurd (congrArg (fun q => q.2.1) e) (by decide)
    · exact e
  have ep : env.putchar = pu := by
    rcases hs.head _ _ B.putchar with ⟨e, -⟩ | ⟨-, e⟩ | ⟨-, e⟩
    · exact e
    · exact absurd (congrArg (fun q => q.2.1) e) (by decide)
    · exact absurd (congrArg (fun q => q.2.1) e) (by decide)
  have eg : env.getchar = ge := by
    rcases hs.head _ _ B.getchar with ⟨-, e⟩ | ⟨e, -⟩ | ⟨-, e⟩
    · exact absurd (congrArg (fun q => q.2.1) e) (by decide)
    · exact e
    · exact absurd (congrArg (fun q => q.2.1) e) (by decide)
  have fn : ∀ {f s}, p.view.head f = some s → ∃ fd, p.funcs.get? f = some fd := by
    intro f s h
    change (p.funcs.get? f).map _ = _ at h
    obtain ⟨fd, hfd, -⟩ := Option.map_eq_some_iff.1 h
    exact ⟨fd, hfd⟩
  obtain ⟨init', n, d1, d2⟩ := B.data
  obtain ⟨e1, e2⟩ : arr' = arr ∧ init' = init := by
    rcases hs.g _ _ d1 with ⟨-, e⟩ | ⟨e1, e⟩
    · cases e
    · cases e; exact ⟨e1, rfl⟩
  subst em; subst ep; subst eg; subst e1; subst e2
  refine ⟨env.main, env.putchar, env.getchar, arr', init', hs, B.fi, h2, h3, B.insts, B.noBlocks, ?_, ?_, fn B.putchar, fn B.getchar⟩
  · obtain ⟨fd, hfd⟩ := fn B.main
    refine ⟨fd, hfd, ?_⟩
    obtain ⟨entry, bb, ks, a, b, j, is, hk, -⟩ := B.entry
    have : p.view.lay env.main = some fd.layout := by show (p.funcs.get? _).map _ = _; rw [hfd]; rfl
    unfold keys at hk
    rw [this] at hk
    intro hn
    rw [Option.map_some, hn] at hk
    cases hk
  · obtain ⟨x, hx, -⟩ := view_g_iff.1 d1
    obtain ⟨y, hy, -⟩ := view_g_iff.1 d2
    exact ⟨⟨x, hx⟩, y, hy⟩

variable {m pu ge : Func} {arr init : Value} {p : Program}

/-! ### What there is -/

theorem Whole.loc (h : Whole m pu ge arr init p) {f : Func} {v : Value} {x : VData} (hx : LocalVal p f v x) :
    f = m ∧ isGlobal v = false ∧ (x.name = none ∨ x.name = some "%ptr".toList) ∧ OkSig p.view m pu ge arr x.ty x.kind :=
  h.simple.l f v x.ty x.name x.kind (view_l_iff.2 ⟨x, hx, rfl⟩)

theorem Whole.blk (h : Whole m pu ge arr init p) {f : Func} {b : BB} {x : BData} (hx : Block p f b x) : f = m ∧ x.params = [] ∧ x.name ∈ bbNames :=
  h.simple.b f b x.name x.params (view_b_iff.2 ⟨x, hx, rfl, rfl⟩)

theorem Whole.glb (h : Whole m pu ge arr init p) {v : Value} {x : VData} (hx : GlobalVal p v x) :
    v = init ∧ x.ty = .array .i32 65536 ∧ x.name = none ∧ x.kind = .zeroInit ∨
    v = arr ∧ x.ty = .ptr (.array .i32 65536) ∧ x.name = some "@data_arr".toList ∧ x.kind = .globalAlloc init := by
  rcases h.simple.g v x.shape (view_g_iff.2 ⟨x, hx, rfl⟩) with ⟨e, e'⟩ | ⟨e, e'⟩
  · simp only [VData.shape, Prod.mk.injEq] at e'; exact .inl ⟨e, e'⟩
  · simp only [VData.shape, Prod.mk.injEq] at e'; exact .inr ⟨e, e'⟩

theorem Whole.fn (h : Whole m pu ge arr init p) {f : Func} {fd : FData} (hf : p.funcs.get? f = some fd) :
    fd.params = [] ∧ (f = pu ∧ fd.ty = .func [.i32] .i32 ∧ fd.name = "@putchar".toList ∨ f = ge ∧ fd.ty = .func [] .i32 ∧ fd.name = "@getchar".toList ∨
      f = m ∧ fd.ty = .func [] .i32 ∧ fd.name = "@main".toList) := by
  have : p.view.head f = some (fd.ty, fd.name, fd.params) := by show (p.funcs.get? f).map _ = _; rw [hf]; rfl
  rcases h.simple.head _ _ this with ⟨e, e'⟩ | ⟨e, e'⟩ | ⟨e, e'⟩ <;> simp only [Prod.mk.injEq] at e'
  · exact ⟨e'.2.2, .inl ⟨e, e'.1, e'.2.1⟩⟩
  · exact ⟨e'.2.2, .inr (.inl ⟨e, e'.1, e'.2.1⟩)⟩
  · exact ⟨e'.2.2, .inr (.inr ⟨e, e'.1, e'.2.1⟩)⟩

theorem Whole.isGlobal (h : Whole m pu ge arr init p) {v : Value} {x : VData} (hx : GlobalVal p v x) : Koopa.isGlobal v = true := by
  have h1 := h.fi.inv.gRange v x hx
  have h2 := h.fi.max
  unfold Koopa.isGlobal
  simp only [Bool.and_eq_true, decide_eq_true_eq]
  omega

theorem lay_of {f : Func} {fd : FData} (hf : p.funcs.get? f = some fd) : p.view.lay f = some fd.layout := by
  show (p.funcs.get? f).map _ = _; rw [hf]; rfl

theorem Whole.wf (h : Whole m pu ge arr init p) : WellFormed p := by
  have hi := h.fi
  have te : ∀ {k : VKind}, terminator k = true ↔ Spec.Ends k := by
    intro k
    constructor
    · intro hk
      cases k <;> simp only [terminator, Bool.false_eq_true] at hk
      · exact .branch ..
      · exact .jump ..
      · exact .ret _
    · intro hk; cases hk <;> rfl
  refine ⟨C01_value_uses_exact_partial (hi.reach.mono (fun _ _ ho => ⟨ho.1, ho.2.2.1⟩)) hi.max,
    C02_block_uses_exact_partial (hi.reach.mono (fun _ _ ho => ho.2.2.2.1)),
    (C03_no_dangling_operands_partial (hi.reach.mono (fun _ _ ho => ho.1)) hi.max).1, hi.wellTyped,
    fun f fd hf => (hi.lays f _ (lay_of hf)).1.parentsRight, ?_, ?_, ?_⟩
  · intro f fd b is hf hb
    obtain ⟨h1, h2⟩ := (hi.lays f _ (lay_of hf)).2 b is hb
    obtain ⟨⟨n, ps⟩, h3⟩ := Option.isSome_iff_exists.1 h1
    obtain ⟨x, hx, -⟩ := view_b_iff.1 h3
    refine ⟨⟨x, hx⟩, fun v hv => ?_⟩
    obtain ⟨s, h4⟩ := Option.isSome_iff_exists.1 (h2 v hv)
    obtain ⟨y, hy, -⟩ := view_l_iff.1 h4
    exact ⟨y, hy⟩
  · intro f fd b is hf hb
    obtain ⟨js, v, h1, ⟨x, h2, h3⟩, h4⟩ := h.ends f fd hf b is hb
    refine ⟨js, v, h1, ⟨x, h2, te.2 h3⟩, fun u hu => ?_⟩
    obtain ⟨y, h5, h6⟩ := h4 u hu
    exact ⟨y, h5, by rw [← Bool.not_eq_true, te]; exact h6⟩
  · intro f fd b is v x c hf hb hv hx hc
    exact h.targets f fd hf b is hb v hv x hx c hc

theorem Whole.noBlocks (h : Whole m pu ge arr init p) {f : Func} {fd : FData} (hf : p.funcs.get? f = some fd) (hb : fd.layout.bbs ≠ []) : f = m := by
  by_cases e : f = m
  · exact e
  · exact absurd (h.others f _ e (lay_of hf)) hb

theorem Whole.solid (h : Whole m pu ge arr init p) {f : Func} {v : Value} {t : Ty} (hv : HasTy p f v t) : t = .unit ∨ Solid t := by
  obtain ⟨x, hx | hx, rfl⟩ := hv
  · rcases h.glb hx with ⟨-, e, -⟩ | ⟨-, e, -⟩ <;> rw [e]
    · exact .inr (.array .i32)
    · exact .inr (.ptr (.array .i32))
  · obtain ⟨-, -, -, ho⟩ := h.loc hx
    revert ho
    generalize x.ty = t
    generalize x.kind = k
    intro ho
    cases ho with
    | integer => exact .inr .i32
    | alloc h => exact .inr (.ptr h)
    | load h => exact .inr h
    | getPtr h => exact .inr h
    | getElemPtr h => exact .inr h
    | binary => exact .inr .i32
    | call => exact .inr .i32
    | store => exact .inl rfl
    | branch => exact .inl rfl
    | jump => exact .inl rfl
    | ret => exact .inl rfl

theorem solid_unit : ¬ Solid .unit := nofun

theorem Whole.one (h : Whole m pu ge arr init p) {f : Func} {v : Value} {x : VData} (hx : LocalVal p f v x) {t : Ty} (ht : HasTy p f v t) : x.ty = t := by
  obtain ⟨y, hy | hy, rfl⟩ := ht
  · have h1 := h.isGlobal hy
    rw [(h.loc hx).2.1] at h1; cases h1
  · obtain ⟨fd, a, b⟩ := hx
    obtain ⟨fd', a', b'⟩ := hy
    rw [a] at a'; cases a'
    rw [b] at b'; cases b'; rfl

theorem Whole.nonUnit (h : Whole m pu ge arr init p) {f : Func} {v x : Value} {d e : VData} (hd : LocalVal p f v d) (hx : x ∈ operands d.kind)
    (he : LocalVal p f x e) : e.ty ≠ .unit := by
  have hT := h.fi.wellTyped.locals f v d hd
  obtain ⟨-, -, -, ho⟩ := h.loc hd
  have one : ∀ {t}, HasTy p f x t → e.ty = t := fun ht => h.one he ht
  revert hT ho hx
  generalize d.kind = k
  generalize d.ty = t
  intro hx hT ho
  cases ho with
  | integer | alloc => cases hx
  | load _ _ =>
    cases hT with
    | load h1 => cases List.mem_singleton.1 hx; rw [one h1]; nofun
  | store _ _ =>
    cases hT with
    | @store _ _ t h1 h2 =>
      simp only [operands, List.mem_cons, List.not_mem_nil, or_false] at hx
      rcases hx with rfl | rfl
      · rw [one h1]
        rintro rfl
        exact solid_unit (solid_ptr (h.solid h2))
      · rw [one h2]; nofun
  | getPtr _ _ _ =>
    cases hT with
    | getPtr h1 h2 =>
      simp only [operands, List.mem_cons, List.not_mem_nil, or_false] at hx
      rcases hx with rfl | rfl
      · rw [one h1]; nofun
      · rw [one h2]; nofun
  | getElemPtr _ _ =>
    cases hT with
    | getElemPtr h1 h2 =>
      simp only [operands, List.mem_cons, List.not_mem_nil, or_false] at hx
      rcases hx with rfl | rfl
      · rw [one h1]; nofun
      · rw [one h2]; nofun
  | binary _ _ _ =>
    cases hT with
    | binary h1 h2 =>
      simp only [operands, List.mem_cons, List.not_mem_nil, or_false] at hx
      rcases hx with rfl | rfl
      · rw [one h1]; nofun
      · rw [one h2]; nofun
  | branch _ _ =>
    cases hT with
    | branch h1 =>
      simp only [operands, List.append_nil, List.mem_cons, List.not_mem_nil, or_false] at hx
      subst hx; rw [one h1]; nofun
  | jump => cases hx
  | @call g as hg _ =>
    cases hT with
    | call h1 h2 =>
      obtain ⟨gd, h3, h4⟩ := h1
      have key : ∀ {as ts}, All2 (HasTy p f) as ts → (∀ t ∈ ts, t = Ty.i32) → x ∈ as → e.ty = .i32 := by
        intro as ts ha
        induction ha with
        | nil => intro _ hx; cases hx
        | cons h5 _ ih =>
          intro ht hx
          rcases List.mem_cons.1 hx with rfl | hx
          · rw [one h5]; exact ht _ List.mem_cons_self
          · exact ih (fun t h => ht t (List.mem_cons_of_mem _ h)) hx
      rw [key h2 ?_ hx]
      · nofun
      · rcases h.fn h3 with ⟨-, ⟨-, e, -⟩ | ⟨-, e, -⟩ | ⟨-, e, -⟩⟩ <;> rw [e] at h4 <;> cases h4 <;> simp
  | ret _ hk =>
    cases List.mem_singleton.1 hx
    cases hT with
    | ret h1 h2 => rw [one h2]; exact h1

theorem Whole.decl (h : Whole m pu ge arr init p) {f : Func} {fd : FData} (hf : p.funcs.get? f = some fd) :
    fd.dfg.bbs.isEmpty = true ↔ fd.layout.bbs = [] := by
  constructor
  · intro he
    cases hb : fd.layout.bbs with
    | nil => rfl
    | cons q bs =>
      exfalso
      obtain ⟨⟨x, fd', h1, h2⟩, -⟩ := h.wf.live f fd q.1 q.2 hf (by rw [hb]; exact List.mem_cons_self)
      rw [hf] at h1; cases h1
      rw [Map.isEmpty_eq_false_of_get? h2] at he
      cases he
  · intro he
    refine Map.isEmpty_of_none (fun b x hb => ?_)
    obtain ⟨e, -⟩ := h.blk ⟨fd, hf, hb⟩
    subst e
    obtain ⟨fd', h1, h2⟩ := h.main
    rw [hf] at h1; cases h1
    exact h2 he

theorem Whole.ready (h : Whole m pu ge arr init p) : LReady p := by
  refine ⟨h.wf, fun v x hx => h.isGlobal hx, fun f v x hx => (h.loc hx).2.1, ?_, fun f fd hf => h.decl hf, ?_, ?_, ?_⟩
  · intro f fd hf
    rw [show p.funcLayout = [pu, ge, m] from h.simple.fns]
    rcases (h.fn hf).2 with ⟨e, -⟩ | ⟨e, -⟩ | ⟨e, -⟩ <;> simp [e]
  · intro f fd ts r hf hb ht
    have e := h.noBlocks hf hb
    obtain ⟨a1, a2, a3, a4⟩ := h.simple.apart
    rcases h.fn hf with ⟨hp, ⟨e', -⟩ | ⟨e', -⟩ | ⟨-, e', -⟩⟩
    · exact absurd (e'.symm.trans e) a2
    · exact absurd (e'.symm.trans e) a3
    · rw [e'] at ht; cases ht; rw [hp]; rfl
  · intro f fd b is v d x e hf _ _ hd hx he
    exact h.nonUnit (f := f) ⟨fd, hf, hd⟩ hx ⟨fd, hf, he⟩
  · intro f fd b is bs bd hf _ hb
    exact (h.blk ⟨fd, hf, hb⟩).2.1

theorem ptr_ascii : AsciiName "%ptr".toList := ⟨'%', "ptr".toList, rfl, .inr rfl, ⟨'p', "tr".toList, rfl, rfl⟩, by decide⟩

theorem bbNames_ascii {n : Str} (h : some n ∈ bbNames) : AsciiName n := by
  simp only [bbNames, List.mem_cons, Option.some.injEq, List.not_mem_nil, or_false, reduceCtorEq, false_or] at h
  rcases h with rfl | rfl | rfl | rfl | rfl
  · exact ⟨'%', "entry".toList, rfl, .inr rfl, ⟨'e', "ntry".toList, rfl, rfl⟩, by decide⟩
  · exact ⟨'%', "end".toList, rfl, .inr rfl, ⟨'e', "nd".toList, rfl, rfl⟩, by decide⟩
  · exact ⟨'%', "while_cond".toList, rfl, .inr rfl, ⟨'w', "hile_cond".toList, rfl, rfl⟩, by decide⟩
  · exact ⟨'%', "while_body".toList, rfl, .inr rfl, ⟨'w', "hile_body".toList, rfl, rfl⟩, by decide⟩
  · exact ⟨'%', "while_end".toList, rfl, .inr rfl, ⟨'w', "hile_end".toList, rfl, rfl⟩, by decide⟩

theorem Whole.named (h : Whole m pu ge arr init p) : LlvmNamed p := by
  refine ⟨?_, ?_, ?_, ?_⟩
  · intro f fd hf
    rcases (h.fn hf).2 with ⟨-, -, e⟩ | ⟨-, -, e⟩ | ⟨-, -, e⟩
    · exact ⟨"putchar".toList, e, ⟨⟨'p', "utchar".toList, rfl, rfl⟩, by decide⟩, by decide⟩
    · exact ⟨"getchar".toList, e, ⟨⟨'g', "etchar".toList, rfl, rfl⟩, by decide⟩, by decide⟩
    · exact ⟨"main".toList, e, ⟨⟨'m', "ain".toList, rfl, rfl⟩, by decide⟩, by decide⟩
  · intro v d n hd hn
    rcases h.glb hd with ⟨-, -, e, -⟩ | ⟨-, -, e, -⟩ <;> rw [e] at hn <;> cases hn
    exact ⟨⟨'@', "data_arr".toList, rfl, .inl rfl, ⟨'d', "ata_arr".toList, rfl, rfl⟩, by decide⟩, by decide⟩
  · intro f v d n hd hn
    rcases (h.loc hd).2.2.1 with e | e <;> rw [e] at hn <;> cases hn
    exact ptr_ascii
  · intro f b d n hd hn
    have := (h.blk hd).2.2
    rw [hn] at this
    exact bbNames_ascii this

theorem Whole.names (h : Whole m pu ge arr init p) : LlvmNames p := by
  have hn := h.named
  refine ⟨hn.funcs, fun v d n hd => hn.globals v d n hd.1, hn.locals, hn.bbs, ?_, ?_, ?_⟩
  · intro f g fd gd hf hg e
    rcases (h.fn hf).2 with ⟨a, -, b⟩ | ⟨a, -, b⟩ | ⟨a, -, b⟩ <;> rcases (h.fn hg).2 with ⟨c, -, d⟩ | ⟨c, -, d⟩ | ⟨c, -, d⟩ <;>
      first
      | exact a.trans c.symm
      | (rw [b, d] at e; exact absurd e (by decide))
  · intro v w d e n hd he _ _
    have k : ∀ {v d}, GVar p v d → v = arr := by
      intro v d hd
      rcases h.glb hd.1 with ⟨-, -, -, e⟩ | ⟨e, -⟩
      · have := hd.2; rw [e] at this; cases this
      · exact e
    rw [k hd, k he]
  · intro f fd v d hf hd e
    rcases h.glb hd.1 with ⟨-, -, e', -⟩ | ⟨-, -, e', -⟩
    · rw [e'] at e; cases e
    · rw [e', Option.some.injEq] at e
      rcases (h.fn hf).2 with ⟨-, -, b⟩ | ⟨-, -, b⟩ | ⟨-, -, b⟩ <;> rw [b] at e <;> exact absurd e (by decide)

theorem OkSig.notGlobal {V : View} {t : Ty} {k : VKind} (h : OkSig V m pu ge arr t k) : k.isGlobalAlloc = false := by cases h <;> rfl

theorem OkSig.notAggregate {V : View} {t : Ty} {k : VKind} (h : OkSig V m pu ge arr t k) (es : List Value) : k ≠ .aggregate es := by cases h <;> nofun

theorem Whole.order (h : Whole m pu ge arr init p) : LlvmOrder p := by
  obtain ⟨a1, a2, a3, a4⟩ := h.simple.apart
  refine ⟨?_, fun f fd v d hf hd => (h.loc ⟨fd, hf, hd⟩).2.2.2.notGlobal, ?_⟩
  · intro v d hd hc
    rcases h.glb hd with ⟨-, -, -, e⟩ | ⟨e', -, -, e⟩
    · rw [e] at hc; cases hc
    · rw [e, h.insts, e']; exact ⟨rfl, List.mem_singleton.2 rfl⟩
  · intro i f fd v d g as hi hf hd hk
    obtain ⟨rfl, -, -, ho⟩ := h.loc ⟨fd, hf, hd⟩
    generalize d.ty = t at ho
    rw [hk] at ho
    have hfl : p.funcLayout = [pu, ge, f] := h.simple.fns
    rw [hfl] at hi ⊢
    cases ho with
    | call hg _ =>
      match i, hi with
      | 0, hi => cases hi; exact absurd rfl a2
      | 1, hi => cases hi; exact absurd rfl a3
      | 2, hi => rcases hg with rfl | rfl <;> simp

theorem Whole.llvmFn (h : Whole m pu ge arr init p) {f : Func} {fd : FData} (hf : p.funcs.get? f = some fd) : LlvmFn p fd := by
  refine ⟨?_, fun v d hd => (h.loc ⟨fd, hf, hd⟩).2.2.2.notGlobal, fun v d x _ _ e es he => (h.loc ⟨fd, hf, he⟩).2.2.2.notAggregate es, ?_, ?_⟩
  · intro v d _ hd hc
    exact (h.order.globals v d hd hc).1
  · intro v d b hd hb
    obtain ⟨-, -, -, ho⟩ := h.loc ⟨fd, hf, hd⟩
    revert ho hb
    generalize d.ty = t
    generalize d.kind = k
    intro hb ho
    have key : ∀ {t}, Solid t → t.isUnit = false := by intro t ht; cases ht <;> rfl
    cases ho <;> cases hb <;> first | rfl | (apply key; assumption)
  · intro b is bd _ hb hp
    exact absurd (h.blk ⟨fd, hf, hb⟩).2.1 hp

theorem flat_nodup {l : Layout} (hl : LInv l) : (l.bbs.flatMap (·.2)).Nodup := by
  have key : ∀ bs : List (BB × List Value), (∀ q ∈ bs, q ∈ l.bbs) → (bs.map (·.1)).Nodup → (bs.flatMap (·.2)).Nodup := by
    intro bs
    induction bs with
    | nil => intro _ _; exact List.nodup_nil
    | cons q bs ih =>
      intro hs hn
      rw [List.map_cons, List.nodup_cons] at hn
      rw [List.flatMap_cons]
      refine List.nodup_append.2 ⟨hl.insts q.1 q.2 (hs q List.mem_cons_self), ih (fun r hr => hs r (List.mem_cons_of_mem _ hr)) hn.2, ?_⟩
      intro a ha b hb e
      subst e
      obtain ⟨r, hr, hb⟩ := List.mem_flatMap.1 hb
      have h1 := (hl.parent a q.1).2 ⟨q.2, hs q List.mem_cons_self, ha⟩
      have h2 := (hl.parent a r.1).2 ⟨r.2, hs r (List.mem_cons_of_mem _ hr), hb⟩
      rw [h1] at h2
      exact hn.1 (List.mem_map.2 ⟨r, hr, (Option.some.inj h2).symm⟩)
  exact key l.bbs (fun _ h => h) hl.keys

theorem Whole.modNodup (h : Whole m pu ge arr init p) : ModNodup p := by
  obtain ⟨a1, a2, a3, a4⟩ := h.simple.apart
  refine ⟨by rw [h.insts]; simp, ?_, ?_⟩
  · rw [show p.funcLayout = [pu, ge, m] from h.simple.fns]
    simp [a1, a2, a3]
  · intro f fd _ hf _
    have hl := (h.fi.lays f _ (lay_of hf)).1
    have e : fd.layout.bbs.flatMap (blockParams fd) = [] := by
      rw [List.flatMap_eq_nil_iff]
      intro q _
      unfold blockParams
      split
      · rename_i bd hb; exact (h.blk ⟨fd, hf, hb⟩).2.1
      · rfl
    rw [(h.fn hf).1, e]
    exact ⟨flat_nodup hl, hl.keys⟩

theorem Whole.core (h : Whole m pu ge arr init p) : LlvmCore p := ⟨h.ready, h.names, h.order, fun _ _ hf => h.llvmFn hf, h.modNodup⟩

theorem Whole.argRefs (h : Whole m pu ge arr init p) : ArgRefs p := by
  refine ⟨fun hx => (h.loc hx).2.1, fun hg hm => ?_, fun hb hm => ?_⟩
  · rw [(h.fn hg).1] at hm; cases hm
  · rw [(h.blk hb).2.1] at hm; cases hm

theorem Whole.plain (h : Whole m pu ge arr init p) : PlainBranches p := by
  constructor
  · intro f v d c t e ta ea hd hk
    obtain ⟨rfl, -, -, ho⟩ := h.loc hd
    generalize d.ty = t at ho
    rw [hk] at ho
    cases ho with
    | branch _ hb =>
      obtain ⟨x, hx, e⟩ := kindAt_iff.1 hb
      exact ⟨x, hx, .inr ⟨_, _, _, e⟩⟩
  · intro f v d op l r hd hk hop
    obtain ⟨rfl, -, -, ho⟩ := h.loc hd
    generalize d.ty = t at ho
    rw [hk] at ho
    cases ho with
    | binary ho =>
      rcases ho with rfl | rfl <;> rcases hop with e | e | e <;> cases e

theorem Whole.distinct (h : Whole m pu ge arr init p) : DistinctParams p := by
  intro f fd hf
  rw [(h.fn hf).1]
  refine ⟨List.nodup_nil, fun b bd _ hb => ?_⟩
  rw [(h.blk ⟨fd, hf, hb⟩).2.1]; exact List.nodup_nil

theorem Whole.noLate (h : Whole m pu ge arr init p) : NoLateArgs p := by
  intro f fd b bd v d args hf _ hb _ _ i j q _ hq
  rw [(h.blk ⟨fd, hf, hb⟩).2.1] at hq
  cases hq

/-! ### The generator writes the program -/

theorem Whole.says (h : Whole m pu ge arr init p) {f : Func} {fd : FData} (hf : p.funcs.get? f = some fd) {v : Value} {t : Ty} (hv : HasTy p f v t)
    (hk : ∀ x, GlobalVal p v x → v = arr) : Sayable p fd v := by
  obtain ⟨x, hx | hx, -⟩ := hv
  · have e := hk x hx
    rcases h.glb hx with ⟨e', -⟩ | ⟨-, -, -, e'⟩
    · exact absurd (e'.symm.trans e) h.simple.apart.2.2.2
    · exact says_global (h.isGlobal hx) hx (by rw [e']; rfl)
  · obtain ⟨-, h1, -, ho⟩ := h.loc hx
    have hx' := local_get hf hx
    cases hc : x.kind.isConst with
    | false => exact says_local h1 hx' hc
    | true =>
      revert ho
      generalize x.ty = t
      generalize hk : x.kind = k
      rw [hk] at hc
      intro ho
      cases ho with
      | integer => exact says_const h1 (.int hx' hk)
      | _ => cases hc

theorem all2_mem' {α β : Type} {R : α → β → Prop} {as : List α} {bs : List β} (h : All2 R as bs) : ∀ a ∈ as, ∃ b, R a b := by
  induction h with
  | nil => intro a ha; cases ha
  | cons h1 _ ih =>
    intro a ha
    rcases List.mem_cons.1 ha with rfl | ha
    · exact ⟨_, h1⟩
    · exact ih a ha

theorem Whole.inst_some (h : Whole m pu ge arr init p) {f : Func} {fd : FData} (hf : p.funcs.get? f = some fd) {b : BB} {is : List Value}
    (hb : (b, is) ∈ fd.layout.bbs) {v : Value} (hv : v ∈ is) : ∃ ps, BackLlvm.inst p fd v = some ps := by
  obtain ⟨k, k1, k2⟩ := h.simple.lay f _ b is v (lay_of hf) hb hv
  obtain ⟨d, hd, rfl⟩ := kindAt_iff.1 k1
  have hT := h.fi.wellTyped.locals f v d hd
  obtain ⟨-, -, -, ho⟩ := h.loc hd
  have hl : listedKind d.kind = true := by
    revert ho k2
    generalize d.kind = k
    generalize d.ty = t
    intro k2 ho
    cases ho <;> first | rfl | exact absurd rfl (k2 _)
  have gl : ∀ {x y}, Koopa.isGlobal x = false → GlobalVal p x y → x = arr := by
    intro x y e hy
    rw [h.isGlobal hy] at e; cases e
  have hs : ∀ x ∈ operands d.kind, Sayable p fd x := by
    have say : ∀ {x t}, HasTy p f x t → Koopa.isGlobal x = false → Sayable p fd x := fun h1 h2 => h.says hf h1 (fun _ hy => gl h2 hy)
    intro x hx
    revert hT ho hx
    generalize d.kind = k
    generalize d.ty = t
    intro hT ho hx
    cases ho with
    | integer | alloc => cases hx
    | load _ l1 =>
      cases hT with
      | load h1 => cases List.mem_singleton.1 hx; exact say h1 l1
    | store l1 l2 =>
      cases hT with
      | store h1 h2 =>
        simp only [operands, List.mem_cons, List.not_mem_nil, or_false] at hx
        rcases hx with rfl | rfl
        · exact say h1 l1
        · exact say h2 l2
    | getPtr _ l1 l2 =>
      cases hT with
      | getPtr h1 h2 =>
        simp only [operands, List.mem_cons, List.not_mem_nil, or_false] at hx
        rcases hx with rfl | rfl
        · exact say h1 l1
        · exact say h2 l2
    | getElemPtr _ l2 =>
      cases hT with
      | getElemPtr h1 h2 =>
        simp only [operands, List.mem_cons, List.not_mem_nil, or_false] at hx
        rcases hx with rfl | rfl
        · exact h.says hf h1 (fun _ _ => rfl)
        · exact say h2 l2
    | binary _ l1 l2 =>
      cases hT with
      | binary h1 h2 =>
        simp only [operands, List.mem_cons, List.not_mem_nil, or_false] at hx
        rcases hx with rfl | rfl
        · exact say h1 l1
        · exact say h2 l2
    | branch l1 _ =>
      cases hT with
      | branch h1 =>
        simp only [operands, List.append_nil, List.mem_cons, List.not_mem_nil, or_false] at hx
        subst hx; exact say h1 l1
    | jump => cases hx
    | call _ l1 =>
      cases hT with
      | call _ h2 =>
        obtain ⟨t, ht⟩ := all2_mem' h2 x hx
        exact say ht (l1 x hx)
    | ret l1 _ =>
      cases hT with
      | ret _ h2 => cases List.mem_singleton.1 hx; exact say h2 l1
  obtain ⟨ps, hps⟩ := content_some hf (fun _ _ hx => h.isGlobal hx) (fun _ _ hx => (h.loc hx).2.1) (v := v) hT hl hs
  obtain ⟨n, hn⟩ := namePiece_some (v := v) (listedKind_const hl)
  unfold BackLlvm.inst
  simp only [local_get hf hd, hps, hn, Option.map_some]
  split
  · exact ⟨_, rfl⟩
  · rename_i hno
    exfalso
    split at hno
    · exact hno _ _ rfl rfl
    · exact hno _ _ rfl rfl

theorem Whole.bb_some (h : Whole m pu ge arr init p) (o : UserOrder) {f : Func} {fd : FData} (hf : p.funcs.get? f = some fd) {b : BB} {is : List Value}
    (hm : (b, is) ∈ fd.layout.bbs) : ∃ ps, BackLlvm.bb o p fd b is = some ps := by
  obtain ⟨⟨bd, fd', h1, h2⟩, -⟩ := h.wf.live f fd b is hf hm
  rw [hf] at h1; cases h1
  obtain ⟨qs, hqs⟩ : ∃ qs, allSome (BackLlvm.inst p fd) is = some qs := allSome_some (fun v hv => h.inst_some hf hm hv)
  unfold BackLlvm.bb
  rw [h2]
  simp only [(h.blk ⟨fd, hf, h2⟩).2.1, BackLlvm.phis, hqs]
  exact ⟨_, rfl⟩

theorem Whole.blocks_some (h : Whole m pu ge arr init p) (o : UserOrder) {f : Func} {fd : FData} (hf : p.funcs.get? f = some fd) :
    ∀ (qs : List (BB × List Value)), (∀ q ∈ qs, q ∈ fd.layout.bbs) → ∃ ps, BackLlvm.blocks o p fd qs = some ps
  | [], _ => ⟨[], rfl⟩
  | [(b, is)], hq => h.bb_some o hf (hq _ List.mem_cons_self)
  | (b, is) :: q :: qs, hq => by
    obtain ⟨x, hx⟩ := h.bb_some o hf (hq _ List.mem_cons_self)
    obtain ⟨y, hy⟩ := Whole.blocks_some h o hf (q :: qs) (fun q h => hq q (List.mem_cons_of_mem _ h))
    rw [BackLlvm.blocks]
    · simp only [hx, hy]; exact ⟨_, rfl⟩
    · simp

theorem Whole.func_some (h : Whole m pu ge arr init p) (o : UserOrder) {f : Func} {fd : FData} (hf : p.funcs.get? f = some fd) :
    ∃ ps, BackLlvm.func o p f = some ps := by
  obtain ⟨bs, hbs⟩ := h.blocks_some o hf fd.layout.bbs (fun _ h => h)
  obtain ⟨ts, r, ht⟩ : ∃ ts r, fd.ty = .func ts r := by
    rcases (h.fn hf).2 with ⟨-, e, -⟩ | ⟨-, e, -⟩ | ⟨-, e, -⟩ <;> exact ⟨_, _, e⟩
  unfold BackLlvm.func
  simp only [hf, ht, (h.fn hf).1, allSome, hbs]
  split <;> exact ⟨_, rfl⟩

theorem Whole.global_some (h : Whole m pu ge arr init p) {v : Value} (hv : v ∈ p.instLayout) : ∃ ps, BackLlvm.globalInst p v = some ps := by
  rw [h.insts, List.mem_singleton] at hv
  subst hv
  obtain ⟨⟨x, hx⟩, y, hy⟩ := h.data
  have e1 : x.kind = .globalAlloc init := by
    rcases h.glb hx with ⟨e, -⟩ | ⟨-, -, -, e⟩
    · exact absurd e.symm h.simple.apart.2.2.2
    · exact e
  have e2 : y.kind = .zeroInit := by
    rcases h.glb hy with ⟨-, -, -, e⟩ | ⟨e, -⟩
    · exact e
    · exact absurd e h.simple.apart.2.2.2
  obtain ⟨z, h1, -, ps, h2⟩ := const_llvm (.zero hy e2) true
  unfold BackLlvm.globalInst
  simp only [show p.values.get? _ = some x from hx, e1, h1, h2]
  exact ⟨_, rfl⟩

theorem Whole.written (h : Whole m pu ge arr init p) (o : UserOrder) : ∃ s n, llvmGenerate o NM.new p = some (s, n) := by
  have hc := h.named.cut
  have hN := h.fi.nameForm
  obtain ⟨gp, hgp⟩ := allSome_some (f := BackLlvm.globalInst p) (as := p.instLayout) (fun v hv => h.global_some hv)
  have h1 : ∀ x ∈ gp.flatten ++ (if p.instLayout.isEmpty then [] else [txt "\n"]), CutPiece x := by
    intro x hx
    rcases List.mem_append.1 hx with hx | hx
    · obtain ⟨l, hl, hx⟩ := List.mem_flatten.1 hx
      obtain ⟨v, -, hv⟩ := allSome_mem hgp hl
      exact hc.globalPiece hN (BackLlvm.globalInst_of hv x hx)
    · split at hx
      · cases hx
      · rw [List.mem_singleton] at hx; subst hx; trivial
  have hm : LGood ({ NM.new with pre := BackLlvm.globalPrefix }) := ⟨.inl rfl, fun b n hb => by cases hb⟩
  obtain ⟨s1, m1, r1, g1, i1⟩ := pieces_run hm h1
  obtain ⟨fp, hfp, s2, m2, r2⟩ := all_run (g := BackLlvm.func o p) (fs := p.funcLayout) (fun f hf => by
    obtain ⟨fd, hfd⟩ : ∃ fd, p.funcs.get? f = some fd := by
      rw [show p.funcLayout = [pu, ge, m] from h.simple.fns] at hf
      simp only [List.mem_cons, List.not_mem_nil, or_false] at hf
      rcases hf with rfl | rfl | rfl
      · exact h.decls.1
      · exact h.decls.2
      · obtain ⟨fd, hfd, -⟩ := h.main; exact ⟨fd, hfd⟩
    obtain ⟨ps, hps⟩ := h.func_some o hfd
    refine ⟨ps, hps, ?_⟩
    obtain ⟨fd', h2, h3⟩ := BackLlvm.func_of hps
    exact fun x hx => hc.piece hN h2 (h3 x hx)) g1 i1
  rw [← BackLlvm.funcs_eq] at hfp
  refine ⟨s1 ++ s2, m2, ?_⟩
  simp only [llvmGenerate, BackLlvm.visit, hgp, hfp, runPieces, Piece.run]
  rw [← List.append_assoc, runPieces_append, r1]
  simp only [r2]
  rfl

end Koopa.Bf
