import Verif.Lemmas.Back.TreeRun
import Verif.Lemmas.Back.LlvmPrints
/-!
The text form generator returns for every program in which everything that is mentioned exists.
-/
namespace Koopa
open Spec

/-- The operand exists; a global one is no constant, a local one may be a constant built from constants. -/
def Spec.Present (p : Program) (fd : FData) (v : Value) : Prop :=
  (isGlobal v = true ∧ ∃ x, p.values.get? v = some x ∧ x.kind.isConst = false) ∨
    (isGlobal v = false ∧ ∃ x, fd.dfg.values.get? v = some x ∧ (x.kind.isConst = true → Constant fd.dfg.values.get? v))

/-- The listed instruction exists, and so does what it mentions. -/
structure Spec.InstPresent (p : Program) (fd : FData) (v : Value) (x : VData) : Prop where
  here : fd.dfg.values.get? v = some x
  inst : x.kind.isLocalInst = true
  alloc : x.kind = .alloc → ∃ t, x.ty = .ptr t
  operands : ∀ o ∈ operands x.kind, Present p fd o
  targets : ∀ b ∈ targets x.kind, ∃ y, fd.dfg.bbs.get? b = some y
  callee : ∀ g args, x.kind = .call g args → ∃ gd, p.funcs.get? g = some gd

/-- The parameter exists. -/
def Spec.ParamPresent (fd : FData) (v : Value) : Prop := ∃ x, fd.dfg.values.get? v = some x ∧ x.kind.isConst = false

structure Spec.FunPresent (p : Program) (fd : FData) : Prop where
  ty : ∃ ts r, fd.ty = .func ts r
  params : ∀ v ∈ fd.params, ParamPresent fd v
  blocks : ∀ b is, (b, is) ∈ fd.layout.bbs → ∃ x, fd.dfg.bbs.get? b = some x ∧ (∀ v ∈ x.params, ParamPresent fd v) ∧ ∀ v ∈ is, ∃ y, InstPresent p fd v y

/-- Everything that the listed parts of the program mention exists. -/
structure Spec.AllPresent (p : Program) : Prop where
  globals : ∀ v ∈ p.instLayout, ∃ x i, p.values.get? v = some x ∧ x.kind = .globalAlloc i ∧ Constant p.values.get? i
  funcs : ∀ f ∈ p.funcLayout, ∃ fd, p.funcs.get? f = some fd ∧ FunPresent p fd

/-- Something is written, in easy pieces. -/
def Easily (o : Option (List Piece)) : Prop := ∃ ps, o = some ps ∧ ∀ x ∈ ps, x.easy = true

theorem allSome_easy {α : Type} {f : α → Option (List Piece)} : ∀ {as : List α}, (∀ a ∈ as, Easily (f a)) →
    ∃ pss, allSome f as = some pss ∧ ∀ ps ∈ pss, ∀ x ∈ ps, x.easy = true
  | [], _ => ⟨[], rfl, fun _ h => by cases h⟩
  | a :: as, h => by
    obtain ⟨b, hb, hb'⟩ := h a List.mem_cons_self
    obtain ⟨bs, hbs, hbs'⟩ := allSome_easy (f := f) (as := as) (fun a ha => h a (List.mem_cons_of_mem _ ha))
    refine ⟨b :: bs, by rw [allSome, hb]; simp only [hbs]; rfl, fun ps hps => ?_⟩
    rcases List.mem_cons.1 hps with rfl | hps
    · exact hb'
    · exact hbs' ps hps

theorem sep_easy : ∀ {pss : List (List Piece)}, (∀ ps ∈ pss, ∀ x ∈ ps, x.easy = true) → ∀ x ∈ sepPieces pss, x.easy = true
  | [], _ => fun _ h => by cases h
  | [ps], h => h ps List.mem_cons_self
  | ps :: qs :: pss, h => by
    intro x hx
    rw [sepPieces] at hx
    · rcases List.mem_append.1 hx with hx | hx
      · exact h ps List.mem_cons_self x hx
      · rcases List.mem_cons.1 hx with rfl | hx
        · rfl
        · exact sep_easy (fun ps hps => h ps (List.mem_cons_of_mem _ hps)) x hx
    · simp

theorem const_easy {get : Value → Option VData} : ∀ {n : Nat} {k : VKind} {ps : List Piece}, constPieces get n k = some ps → ∀ x ∈ ps, x.easy = true := by
  intro n k ps h x hx
  obtain ⟨s, rfl⟩ := constPieces_lit n k ps h x hx
  rfl

theorem constant_pieces {mp : Map Value VData} {v : Value} {x : VData} (h : Constant mp.get? v) (hx : mp.get? v = some x) :
    ∃ ps, constPieces mp.get? (mp.entries.length + 1) x.kind = some ps := by
  have := h.fuel
  unfold elemPieces at this
  rw [hx] at this
  exact Option.isSome_iff_exists.1 this

theorem name_easy {v : Value} {x : VData} (h : x.kind.isConst = false) : ∃ n, namePiece v x = some n ∧ n.easy = true := by
  unfold namePiece
  rw [h]
  by_cases hk : x.kind.isGlobalAlloc = true <;> simp [hk, Piece.easy]

theorem Spec.Present.pieces {p : Program} {fd : FData} {v : Value} (h : Present p fd v) : Easily (BackKoopa.value p fd v) := by
  unfold BackKoopa.value
  rcases h with ⟨h1, x, h2, h3⟩ | ⟨h1, x, h2, h3⟩
  · obtain ⟨n, hn, he⟩ := name_easy (v := v) h3
    simp only [h1, if_true, h2, hn]
    exact ⟨_, rfl, by simpa using he⟩
  · simp only [h1, h2]
    cases hk : x.kind.isConst with
    | true =>
      obtain ⟨ps, hps⟩ := constant_pieces (h3 hk) h2
      exact ⟨ps, by simpa using hps, const_easy hps⟩
    | false =>
      obtain ⟨n, hn, he⟩ := name_easy (v := v) hk
      exact ⟨[n], by simp [hn], by simpa using he⟩

theorem Spec.ParamPresent.pieces {fd : FData} {v : Value} (h : ParamPresent fd v) : Easily (BackKoopa.param fd v) := by
  obtain ⟨x, h1, h2⟩ := h
  obtain ⟨n, hn, he⟩ := name_easy (v := v) h2
  unfold BackKoopa.param
  simp only [h1, hn]
  refine ⟨_, rfl, fun y hy => ?_⟩
  simp only [List.mem_cons, List.not_mem_nil, or_false] at hy
  rcases hy with rfl | rfl | rfl
  · exact he
  · rfl
  · rfl

/-- Lists of easy pieces. -/
macro "easily" : tactic => `(tactic| (intro x hx; simp only [List.mem_cons, List.mem_append, List.not_mem_nil, or_false] at hx; grind [Piece.easy, txt]))

theorem target_easy {p : Program} {fd : FData} {b : BB} {as : List Value} (hb : ∃ y, fd.dfg.bbs.get? b = some y) (has : ∀ a ∈ as, Present p fd a) :
    Easily (BackKoopa.target p fd b as) := by
  obtain ⟨y, hy⟩ := hb
  obtain ⟨bs, hbs, he⟩ := allSome_easy (f := BackKoopa.value p fd) (fun a ha => (has a ha).pieces)
  have he := sep_easy he
  unfold BackKoopa.target
  simp only [hy, hbs]
  refine ⟨_, rfl, ?_⟩
  by_cases h0 : as.isEmpty = true
  · simp only [h0, if_true]; easily
  · simp only [h0]; intro x hx; simp at hx; grind [Piece.easy, txt]

theorem Spec.InstPresent.pieces {p : Program} {fd : FData} {v : Value} {x : VData} (h : InstPresent p fd v x) : Easily (BackKoopa.inst p fd v) := by
  have hc : x.kind.isConst = false := by
    have := h.inst
    cases hk : x.kind <;> rw [hk] at this <;> first | rfl | cases this
  have hcont : Easily (BackKoopa.content p fd x.ty x.kind) := by
    have hi := h.inst
    have ho := h.operands
    have ht := h.targets
    have hg := h.callee
    have ha := h.alloc
    cases hk : x.kind <;> rw [hk] at hi ho ht hg ha <;> try (cases hi; done)
    case alloc =>
      obtain ⟨t, e⟩ := ha rfl
      simp only [BackKoopa.content, e]
      exact ⟨_, rfl, by easily⟩
    case load s =>
      obtain ⟨a, e, l⟩ := (ho s (by simp [Spec.operands])).pieces
      simp only [BackKoopa.content, e]
      exact ⟨_, rfl, by easily⟩
    case store s d =>
      obtain ⟨a, e, l⟩ := (ho s (by simp [Spec.operands])).pieces
      obtain ⟨a', e', l'⟩ := (ho d (by simp [Spec.operands])).pieces
      simp only [BackKoopa.content, e, e']
      exact ⟨_, rfl, by easily⟩
    case getPtr s d =>
      obtain ⟨a, e, l⟩ := (ho s (by simp [Spec.operands])).pieces
      obtain ⟨a', e', l'⟩ := (ho d (by simp [Spec.operands])).pieces
      simp only [BackKoopa.content, e, e']
      exact ⟨_, rfl, by easily⟩
    case getElemPtr s d =>
      obtain ⟨a, e, l⟩ := (ho s (by simp [Spec.operands])).pieces
      obtain ⟨a', e', l'⟩ := (ho d (by simp [Spec.operands])).pieces
      simp only [BackKoopa.content, e, e']
      exact ⟨_, rfl, by easily⟩
    case binary op s d =>
      obtain ⟨a, e, l⟩ := (ho s (by simp [Spec.operands])).pieces
      obtain ⟨a', e', l'⟩ := (ho d (by simp [Spec.operands])).pieces
      simp only [BackKoopa.content, e, e']
      exact ⟨_, rfl, by easily⟩
    case branch c t f ts fs =>
      obtain ⟨a, e, l⟩ := (ho c (by simp [Spec.operands])).pieces
      obtain ⟨a1, e1, l1⟩ := target_easy (p := p) (ht t (by simp [Spec.targets])) (as := ts) (fun a ha => ho a (by simp [Spec.operands, ha]))
      obtain ⟨a2, e2, l2⟩ := target_easy (p := p) (ht f (by simp [Spec.targets])) (as := fs) (fun a ha => ho a (by simp [Spec.operands, ha]))
      simp only [BackKoopa.content, e, e1, e2]
      exact ⟨_, rfl, by easily⟩
    case jump t ts =>
      obtain ⟨a1, e1, l1⟩ := target_easy (p := p) (ht t (by simp [Spec.targets])) (as := ts) (fun a ha => ho a (by simp [Spec.operands, ha]))
      simp only [BackKoopa.content, e1]
      exact ⟨_, rfl, by easily⟩
    case call g as =>
      obtain ⟨gd, hgd⟩ := hg g as rfl
      obtain ⟨bs, hbs, l⟩ := allSome_easy (f := BackKoopa.value p fd) (as := as) (fun a ha => (ho a (by simp [Spec.operands, ha])).pieces)
      have l := sep_easy l
      simp only [BackKoopa.content, hgd, hbs]
      exact ⟨_, rfl, by easily⟩
    case ret o =>
      cases o with
      | none => exact ⟨_, rfl, by easily⟩
      | some s =>
        obtain ⟨a, e, l⟩ := (ho s (by simp [Spec.operands])).pieces
        simp only [BackKoopa.content, e]
        exact ⟨_, rfl, by easily⟩
  obtain ⟨ps, hps, l⟩ := hcont
  obtain ⟨n, hn, l'⟩ := name_easy (v := v) hc
  unfold BackKoopa.inst
  simp only [h.here, hps, hn]
  by_cases hu : x.ty.isUnit = true
  · simp only [hu, if_true]
    exact ⟨_, rfl, by easily⟩
  · simp only [hu]
    exact ⟨_, rfl, by intro x hx; simp at hx; grind [Piece.easy, txt]⟩

theorem Spec.FunPresent.pieces {p : Program} {f : Func} {fd : FData} (hf : p.funcs.get? f = some fd) (h : FunPresent p fd) : Easily (BackKoopa.func p f) := by
  obtain ⟨ts, r, ht⟩ := h.ty
  unfold BackKoopa.func
  simp only [hf, ht]
  obtain ⟨qs, hqs, lq⟩ := allSome_easy (f := BackKoopa.param fd) (fun v hv => (h.params v hv).pieces)
  have lq := sep_easy lq
  have hb : ∀ L : List (BB × List Value), (∀ b is, (b, is) ∈ L → Easily (BackKoopa.bb p fd b is)) → Easily (BackKoopa.blocks p fd L) := by
    intro L
    induction L with
    | nil => intro _; exact ⟨_, rfl, fun _ h => by cases h⟩
    | cons q L ih =>
      intro hL
      obtain ⟨b, is⟩ := q
      obtain ⟨x, hx, lx⟩ := hL b is (by simp)
      obtain ⟨y, hy, ly⟩ := ih (fun b is hm => hL b is (by simp [hm]))
      cases L with
      | nil => exact ⟨x, by rw [BackKoopa.blocks]; exact hx, lx⟩
      | cons q' L =>
        refine ⟨x ++ txt "\n" :: y, ?_, by easily⟩
        rw [BackKoopa.blocks]
        · rw [hx, hy]
        · simp
  obtain ⟨bs, hbs, lb⟩ := hb fd.layout.bbs (fun b is hm => by
    obtain ⟨x, h1, h2, h3⟩ := h.blocks b is hm
    obtain ⟨ps, hps, lp⟩ := allSome_easy (f := BackKoopa.param fd) (fun v hv => (h2 v hv).pieces)
    obtain ⟨is', his, li⟩ := allSome_easy (f := BackKoopa.inst p fd) (fun v hv => by obtain ⟨y, hy⟩ := h3 v hv; exact hy.pieces)
    have lp := sep_easy lp
    unfold BackKoopa.bb
    simp only [h1, hps, his]
    refine ⟨_, rfl, ?_⟩
    have li' : ∀ x ∈ (is'.map (fun i => txt "  " :: i)).flatten, x.easy = true := by
      intro x hx
      simp only [List.mem_flatten, List.mem_map] at hx
      obtain ⟨_, ⟨i, hi, rfl⟩, hx⟩ := hx
      rcases List.mem_cons.1 hx with rfl | hx
      · rfl
      · exact li i hi x hx
    by_cases h0 : x.params.isEmpty = true
    · simp only [h0, if_true]; easily
    · simp only [h0]
      intro x hx
      simp only [Bool.false_eq_true, if_false, List.mem_cons, List.mem_append, List.not_mem_nil, or_false] at hx
      grind [Piece.easy, txt])
  have lr : ∀ x ∈ BackKoopa.ret r, x.easy = true := by
    unfold BackKoopa.ret
    split
    · exact fun _ h => by cases h
    · easily
  by_cases he : fd.dfg.bbs.isEmpty = true
  · simp only [he, if_true]
    have lt : ∀ x ∈ sepPieces (ts.map (fun t => [Piece.lit t.show])), x.easy = true := by
      refine sep_easy ?_
      intro ps hps x hx
      simp only [List.mem_map] at hps
      obtain ⟨t, -, rfl⟩ := hps
      simp only [List.mem_singleton] at hx
      subst hx; rfl
    exact ⟨_, rfl, by easily⟩
  · simp only [he, hqs, hbs]
    exact ⟨_, rfl, by easily⟩

/-- Easy pieces leave the scope and the prefix alone. -/
theorem easy_kept {m m' : NM} {x : Piece} {s : Str} (hx : x.easy = true) (h : x.run m = some (s, m')) : m'.pre = m.pre ∧ m'.inFunc = m.inFunc := by
  have key : ∀ {ns : List Str} {c : Option Str} {n : Str} {ns' : List Str} {m2 : NM}, m.nextName ns c = some (n, ns', m2) → m2.pre = m.pre ∧ m2.inFunc = m.inFunc := by
    intro ns c n ns' m2 e
    unfold NM.nextName at e
    split at e
    · cases e; exact ⟨rfl, rfl⟩
    · split at e
      · cases e
      · split at e
        · cases e
        · cases e; exact ⟨rfl, rfl⟩
  cases x with
  | lit s => cases h; exact ⟨rfl, rfl⟩
  | func f c =>
    simp only [Piece.run, NM.funcName] at h
    split at h
    · cases h; exact ⟨rfl, rfl⟩
    · split at h
      · cases h
      · rename_i e; cases h; exact ⟨(key e).1, (key e).2⟩
  | bb f c =>
    simp only [Piece.run, NM.bbName] at h
    split at h
    · cases h; exact ⟨rfl, rfl⟩
    · split at h
      · cases h
      · rename_i e; cases h; exact ⟨(key e).1, (key e).2⟩
  | global f c =>
    simp only [Piece.run, NM.globalName] at h
    split at h
    · cases h; exact ⟨rfl, rfl⟩
    · split at h
      · cases h
      · rename_i e; cases h; exact ⟨(key e).1, (key e).2⟩
  | value f c =>
    simp only [Piece.run, NM.valueName] at h
    split at h
    · cases h; exact ⟨rfl, rfl⟩
    · split at h
      · cases h
      · rename_i e; cases h; exact ⟨(key e).1, (key e).2⟩
  | _ => cases hx

theorem run_easy : ∀ {ps : List Piece} {m : NM}, m.pre = .default → (∀ x ∈ ps, x.easy = true) →
    ∃ s m', runPieces m ps = some (s, m') ∧ m'.pre = .default ∧ m'.inFunc = m.inFunc
  | [], m, hm, _ => ⟨_, m, rfl, hm, rfl⟩
  | x :: xs, m, hm, h => by
    obtain ⟨s, m1, h1⟩ := easy_runs hm (h x List.mem_cons_self)
    obtain ⟨e1, e2⟩ := easy_kept (h x List.mem_cons_self) h1
    obtain ⟨s', m2, h2, h3, h4⟩ := run_easy (m := m1) (e1.trans hm) (fun x hx => h x (List.mem_cons_of_mem _ hx))
    exact ⟨_, _, by rw [runPieces, h1]; simp only [h2]; rfl, h3, h4.trans e2⟩

theorem run_funcs {p : Program} : ∀ {fs : List Func} {m : NM} {ps : List Piece}, m.pre = .default → m.inFunc = false →
    (∀ f ∈ fs, ∀ ps, BackKoopa.func p f = some ps → ∀ x ∈ ps, x.easy = true) → BackKoopa.funcs p fs = some ps →
    ∃ s m', runPieces m ps = some (s, m') := by
  have scope : ∀ {m : NM} {xs rest : List Piece}, m.pre = .default → m.inFunc = false → (∀ x ∈ xs, x.easy = true) →
      ∃ m2 : NM, m2.pre = .default ∧ m2.inFunc = false ∧ ((∃ s m', runPieces m2 rest = some (s, m')) → ∃ s m', runPieces m (.enter :: (xs ++ .exit :: rest)) = some (s, m')) := by
    intro m xs rest h1 h2 h3
    obtain ⟨m0, e0⟩ : ∃ m0, m.enter = some m0 := by unfold NM.enter; rw [h2]; exact ⟨_, rfl⟩
    have e0' : m0.pre = m.pre ∧ m0.inFunc = true := by
      unfold NM.enter at e0; rw [h2] at e0; cases e0; exact ⟨rfl, rfl⟩
    obtain ⟨t, m1, r1, r2, r3⟩ := run_easy (m := m0) (e0'.1.trans h1) h3
    obtain ⟨m2, e2⟩ : ∃ m2, m1.exit = some m2 := by unfold NM.exit; rw [r3, e0'.2]; exact ⟨_, rfl⟩
    have e2' : m2.pre = m1.pre ∧ m2.inFunc = false := by
      unfold NM.exit at e2; rw [r3, e0'.2] at e2; cases e2; exact ⟨rfl, rfl⟩
    refine ⟨m2, e2'.1.trans r2, e2'.2, ?_⟩
    rintro ⟨s, m', hr⟩
    exact ⟨_, _, by rw [scope_run e0 r1 e2, hr]; rfl⟩
  intro fs
  induction fs with
  | nil => intro m ps _ _ _ h; cases h; exact ⟨_, _, rfl⟩
  | cons f fs ih =>
    intro m ps h1 h2 h3 h
    cases fs with
    | nil =>
      simp only [BackKoopa.funcs, Option.map_eq_some_iff] at h
      obtain ⟨x, hx, rfl⟩ := h
      obtain ⟨m2, -, -, h6⟩ := scope (rest := []) h1 h2 (h3 f (by simp) x hx)
      exact h6 ⟨_, _, rfl⟩
    | cons f' fs =>
      rw [BackKoopa.funcs] at h
      · split at h
        · rename_i x y hx hy
          cases h
          obtain ⟨m2, h4, h5, h6⟩ := scope (rest := txt "\n" :: y) h1 h2 (h3 f (by simp) x hx)
          refine h6 ?_
          obtain ⟨s, m', hr⟩ := ih h4 h5 (fun f hf => h3 f (by simp [hf])) hy
          exact ⟨_, _, by rw [runPieces]; simp only [txt, Piece.run, hr]; rfl⟩
        · cases h
      · simp

/-- The generator returns. -/
theorem Spec.AllPresent.written {p : Program} (h : AllPresent p) {m : NM} (hm : m.pre = .default) (hs : m.inFunc = false) :
    ∃ s m', koopaGenerate m p = some (s, m') := by
  obtain ⟨gs, hgs⟩ := allSome_some (f := BackKoopa.globalInst p) (as := p.instLayout) (fun v hv => by
    obtain ⟨x, i, h1, h2, h3⟩ := h.globals v hv
    obtain ⟨y, hy⟩ : ∃ y, p.values.get? i = some y := by cases h3 <;> exact ⟨_, by assumption⟩
    obtain ⟨c, hc⟩ := constant_pieces h3 hy
    unfold BackKoopa.globalInst
    simp only [h1, h2, hy, hc]
    exact ⟨_, rfl⟩)
  have hf : ∀ fs : List Func, (∀ f ∈ fs, ∃ ps, BackKoopa.func p f = some ps) → ∃ ps, BackKoopa.funcs p fs = some ps := by
    intro fs
    induction fs with
    | nil => intro _; exact ⟨_, rfl⟩
    | cons f fs ih =>
      intro hL
      obtain ⟨x, hx⟩ := hL f (by simp)
      obtain ⟨y, hy⟩ := ih (fun f hf => hL f (by simp [hf]))
      cases fs with
      | nil => exact ⟨_, by rw [BackKoopa.funcs, hx]; rfl⟩
      | cons f' fs =>
        refine ⟨.enter :: (x ++ .exit :: txt "\n" :: y), ?_⟩
        rw [BackKoopa.funcs]
        · rw [hx, hy]
        · simp
  obtain ⟨ps, hps⟩ := hf p.funcLayout (fun f hf => by
    obtain ⟨fd, h1, h2⟩ := h.funcs f hf
    obtain ⟨ps, h3, -⟩ := h2.pieces h1
    exact ⟨ps, h3⟩)
  have hgp : ∀ x ∈ gs.flatten ++ (if p.instLayout.isEmpty then [] else [txt "\n"]), x.easy = true := by
    intro x hx
    rcases List.mem_append.1 hx with hx | hx
    · obtain ⟨l, hl, hx⟩ := List.mem_flatten.1 hx
      obtain ⟨v, -, hv⟩ := allSome_mem hgs hl
      rcases BackKoopa.globalInst_of hv x hx with ⟨s, rfl⟩ | ⟨_, _, _, rfl⟩ <;> rfl
    · split at hx
      · cases hx
      · rw [List.mem_singleton] at hx; subst hx; rfl
  obtain ⟨s0, m0, r1, r2, r3⟩ := run_easy hm hgp
  obtain ⟨s1, m1, r4⟩ := run_funcs (m := m0) r2 (r3.trans hs) (fun f hf ps hps x hx => by
    obtain ⟨fd, h1, h2⟩ := h.funcs f hf
    obtain ⟨ps', h3, h4⟩ := h2.pieces h1
    rw [hps] at h3; cases h3
    exact h4 x hx) hps
  refine ⟨s0 ++ s1, m1, ?_⟩
  unfold koopaGenerate BackKoopa.visit
  simp only [hgs, hps]
  rw [← List.append_assoc, runPieces_append, r1]
  simp only [r4]

end Koopa
