import Verif.Lemmas.Back.LlvmApart
/-!
The LLVM text of a program is that of its translation.
-/
namespace Koopa
open Spec Spec.Ll

/-- Functions and globals are written before they are used. -/
structure LlvmOrder (p : Program) : Prop where
  globals : ∀ v d, GlobalVal p v d → d.kind.isConst = false → d.kind.isGlobalAlloc = true ∧ v ∈ p.instLayout
  locals : ∀ f fd v d, p.funcs.get? f = some fd → fd.dfg.values.get? v = some d → d.kind.isGlobalAlloc = false
  calls : ∀ (i : Nat) f fd v d g as, p.funcLayout[i]? = some f → p.funcs.get? f = some fd → fd.dfg.values.get? v = some d →
    d.kind = .call g as → g ∈ p.funcLayout.take i ++ [f]

theorem NGood.setPrefix {p : Program} {m : NM} (h : NGood p m) {q : Prefix} (hq : q ∈ llvmKs) : NGood p { m with pre := q } :=
  ⟨⟨hq, h.inv.distinct, h.inv.used, h.inv.only, h.inv.temps, h.inv.bbUsed, h.inv.bbOnly, h.inv.bbTemps, h.inv.entries, h.inv.isTemp⟩, h.shape, h.exact⟩

theorem NGood.new (p : Program) : NGood p { NM.new with pre := BackLlvm.globalPrefix } := by
  have h0 : NInv llvmKs { NM.new with pre := BackLlvm.globalPrefix } := NInv.new List.mem_cons_self
  exact ⟨h0, ⟨fun _ _ h => (by cases h), fun _ _ h => (by cases h), fun _ _ h => (by cases h), fun _ _ h => (by cases h), fun _ _ h => (by cases h)⟩,
    ⟨fun _ _ h => (by cases h), fun _ _ h => (by cases h)⟩⟩

theorem NGood.enter {p : Program} {m m' : NM} (hm : NGood p m) (h : m.enter = some m') :
    NGood p m' ∧ m'.inFunc = true ∧ m'.pre = m.pre ∧ m.LeGlobal m' := by
  obtain ⟨h1, h2, h3, h4⟩ := NM.enter_spec hm.inv h
  have h5 : m'.names = m.names ∧ m'.pre = m.pre := by
    unfold NM.enter at h
    rw [h2] at h
    cases h
    simp only [NM.names, h2]
    refine ⟨?_, trivial⟩
    congr 1
  exact ⟨⟨h1, by rw [h5.1]; exact hm.shape, by rw [h5.1]; exact hm.exact⟩, h3, h5.2, h4⟩

theorem NGood.exit {p : Program} {m m' : NM} (hm : NGood p m) (h : m.exit = some m') :
    NGood p m' ∧ m'.inFunc = false ∧ m'.pre = m.pre ∧ m.LeGlobal m' ∧ m'.LeGlobal m := by
  obtain ⟨h1, h2, h3, h4, h5⟩ := NM.exit_spec hm.inv h
  have h6 : m'.pre = m.pre ∧ ∀ b, m'.names.bb b = none := by
    unfold NM.exit at h
    rw [h2] at h
    cases h
    exact ⟨rfl, fun _ => rfl⟩
  refine ⟨⟨h1, ⟨fun f n hn => hm.shape.func f n (h5.1 f n hn), fun f n hn => hm.shape.global f n (h5.2 f n hn), fun v n hn => ?_, fun v n hn => ?_,
    fun b n hn => ?_⟩, ⟨fun f n hn => hm.exact.func f n (h5.1 f n hn), fun f n hn => hm.exact.global f n (h5.2 f n hn)⟩⟩, h3, h6.1, h4, h5⟩
  · simp [NM.names, h3] at hn
  · simp [NM.names, h3] at hn
  · rw [h6.2] at hn; cases hn

theorem renders_join {N : Names} {xs ys : List Piece} {s t : Str} (h : Renders N xs s) (h' : Renders N ys t) : Renders N (xs ++ ys) (s ++ t) := by
  induction h with
  | nil => exact h'
  | cons h _ ih => rw [List.append_assoc]; exact .cons h ih

variable {p : Program}

/-- The parts of the text of a function. -/
theorem func_parts {f : Func} {ps : List Piece} (h : BackLlvm.func o p f = some ps) :
    ∃ fd hd body, p.funcs.get? f = some fd ∧ ps = hd ++ .setPrefix BackLlvm.localPrefix :: (body ++ [.setPrefix BackLlvm.globalPrefix]) ∧
      (∀ x ∈ hd, GPiece p x) ∧ .func f fd.name ∈ hd ∧ ∀ x ∈ body, PieceOf [] p f fd x := by
  unfold BackLlvm.func at h
  split at h
  · cases h
  · rename_i fd hf
    have hh : ∀ (w : String) (r : Ty), (∀ x ∈ [txt w, txt " ", .lit (BackLlvm.ty r), txt " ", .func f fd.name, txt "("], GPiece p x) ∧
        .func f fd.name ∈ [txt w, txt " ", .lit (BackLlvm.ty r), txt " ", .func f fd.name, txt "("] := by
      intro w r
      refine ⟨fun x hx => ?_, by simp⟩
      simp only [List.mem_cons, List.not_mem_nil, or_false] at hx
      rcases hx with rfl | rfl | rfl | rfl | rfl | rfl
      · exact .lit _
      · exact .lit _
      · exact .lit _
      · exact .lit _
      · exact .func hf
      · exact .lit _
    split at h
    · rename_i ts r ht
      split at h
      · cases h
        refine ⟨fd, [txt "declare", txt " ", .lit (BackLlvm.ty r), txt " ", .func f fd.name, txt "("],
          sepPieces (ts.map (fun t => [.lit (BackLlvm.ty t)])) ++ [txt ")", txt "\n"], hf, ?_, (hh _ _).1, (hh _ _).2, ?_⟩
        · simp
        · intro x hx
          simp only [List.mem_append, List.mem_cons, List.not_mem_nil, or_false] at hx
          rcases hx with hx | rfl | rfl
          · refine pieceOf_sep (fun y hy => ?_) x hx
            obtain ⟨t, -, rfl⟩ := List.mem_map.1 hy
            intro z hz
            rw [List.mem_singleton] at hz; subst hz; exact .lit _
          · exact .lit _
          · exact .lit _
      · split at h
        · rename_i a b ha hb
          cases h
          refine ⟨fd, [txt "define", txt " ", .lit (BackLlvm.ty r), txt " ", .func f fd.name, txt "("],
            sepPieces a ++ txt ")" :: txt " {\n" :: (b ++ [txt "}\n"]), hf, ?_, (hh _ _).1, (hh _ _).2, ?_⟩
          · simp
          · intro x hx
            simp only [List.mem_append, List.mem_cons, List.not_mem_nil, or_false] at hx
            rcases hx with hx | rfl | rfl | hx | rfl
            · exact BackLlvm.params_of ha x hx
            · exact .lit _
            · exact .lit _
            · exact BackLlvm.blocks_of hb x hx
            · exact .lit _
        · cases h
    · cases h

/-- The pieces of a body, when functions and globals have names. -/
theorem PieceOf.local (hp : LlvmNames p) (ho : LlvmOrder p) {before rest : List Func} {f : Func} {fd : FData} (hl : p.funcLayout = before ++ f :: rest)
    (hf : p.funcs.get? f = some fd) {m : NM} (hm : ∀ g ∈ before ++ [f], ∃ n, m.names.ent (.func g) = some n)
    (hg : ∀ v ∈ p.instLayout, ∃ n, m.names.ent (.global v) = some n) {x : Piece} (hx : PieceOf [] p f fd x) : LPiece m x := by
  cases hx with
  | lit => exact .lit _
  | @func g gd h1 h2 =>
    have h3 : g ∈ before ++ [f] := by
      rcases h2 with rfl | ⟨v, d, as, h3, h4⟩
      · simp
      · have := ho.calls before.length f fd v d g as (by rw [hl]; simp) hf h3 h4
        rw [hl] at this
        simpa using this
    obtain ⟨n, hn⟩ := hm g h3
    exact .func hn
  | bb h1 => exact .bb (fun y hy => hp.bbs f _ _ y ⟨fd, hf, h1⟩ hy)
  | label h1 => exact .label (fun y hy => hp.bbs f _ _ y ⟨fd, hf, h1⟩ hy)
  | @val v d x h1 h2 =>
    obtain ⟨h3, rfl⟩ := namePiece_eq h2
    rcases h1 with h1 | h1
    · obtain ⟨h4, h5⟩ := ho.globals v d h1 h3
      rw [if_pos h4]
      obtain ⟨n, hn⟩ := hg v h5
      exact .global hn
    · have h4 := ho.locals f fd v d hf h1
      rw [if_neg (by rw [h4]; decide)]
      exact .value (fun y hy => hp.locals f v d y ⟨fd, hf, h1⟩ hy)
  | temp => exact .temp _
  | setPrefix h => cases h

/-- The state of the name manager between functions. -/
structure Between (p : Program) (before : List Func) (m : NM) : Prop where
  good : NGood p m
  pre : m.pre = BackLlvm.globalPrefix
  out : m.inFunc = false
  funcs : ∀ g ∈ before, ∃ n, m.names.ent (.func g) = some n
  globals : ∀ v ∈ p.instLayout, ∃ n, m.names.ent (.global v) = some n
  bbs : ∀ b, m.bbs.get? b = none

/-- What a piece of a body asks for. -/
theorem PieceOf.asks (ho : LlvmOrder p) {f : Func} {fd : FData} (hf : p.funcs.get? f = some fd) {x : Piece} (hx : PieceOf [] p f fd x) :
    Asks (ValueNamed p f) (LabelNamed p f) x := by
  cases hx with
  | lit => trivial
  | func _ _ => trivial
  | bb h1 => exact ⟨_, ⟨fd, hf, h1⟩, rfl⟩
  | label h1 => exact ⟨_, ⟨fd, hf, h1⟩, rfl⟩
  | @val v d x h1 h2 =>
    obtain ⟨h3, rfl⟩ := namePiece_eq h2
    rcases h1 with h1 | h1
    · obtain ⟨h4, h5⟩ := ho.globals v d h1 h3
      rw [if_pos h4]
      trivial
    · have h4 := ho.locals f fd v d hf h1
      rw [if_neg (by rw [h4]; decide)]
      exact ⟨d, ⟨fd, hf, h1⟩, rfl⟩
  | temp => trivial
  | setPrefix h => cases h

/-- One function. -/
theorem func_run (hp : LlvmNames p) (ho : LlvmOrder p) {before rest : List Func} {f : Func} (hl : p.funcLayout = before ++ f :: rest) {m m' : NM}
    (hm : Between p before m) {ps more : List Piece} {s : Str} (hf : BackLlvm.func o p f = some ps)
    (h : runPieces m (.enter :: (ps ++ .exit :: more)) = some (s, m')) :
    ∃ t s' m1 m2, s = t ++ s' ∧ Renders m1.names ps t ∧ (NGood p m1 ∧ NFrom (ValueNamed p f) (LabelNamed p f) m1.names) ∧ m.LeGlobal m1 ∧ m1.LeGlobal m2 ∧ Between p (before ++ [f]) m2 ∧
      runPieces m2 more = some (s', m') := by
  obtain ⟨fd, hd, body, hfd, rfl, b1, b2, b3⟩ := func_parts hf
  rw [runPieces] at h
  simp only [Piece.run] at h
  rcases he : m.enter with _ | m0
  · rw [he] at h; cases h
  rw [he] at h
  simp only [Option.map_some] at h
  obtain ⟨c1, c2, c3, c4⟩ := hm.good.enter he
  rw [List.append_assoc, List.cons_append, runPieces_append] at h
  rcases h1 : runPieces m0 hd with _ | ⟨t1, m1⟩
  · rw [h1] at h; cases h
  rw [h1] at h
  simp only at h
  obtain ⟨d1, d2, d3, d4, d5⟩ := GPiece.runs hp b1 c1 (c3.trans hm.pre) h1
  rw [runPieces] at h
  simp only [Piece.run] at h
  have e1 := d1.setPrefix (q := BackLlvm.localPrefix) (by simp)
  have e2 : ∀ g ∈ before ++ [f], ∃ n, m1.names.ent (.func g) = some n := by
    intro g hg
    rcases List.mem_append.1 hg with hg | hg
    · obtain ⟨n, hn⟩ := hm.funcs g hg
      exact ⟨n, d4.1 _ _ (c4.1 g n hn)⟩
    · rw [List.mem_singleton] at hg
      subst hg
      have : ∀ (ps : List Piece) (s : Str), Renders m1.names ps s → ∀ x ∈ ps, ∃ t, m1.names.text x = some t := by
        intro ps s hr
        induction hr with
        | nil => intro x hx; cases hx
        | cons h _ ih =>
          intro x hx
          rcases List.mem_cons.1 hx with rfl | hx
          · exact ⟨_, h⟩
          · exact ih x hx
      exact this _ _ d5 _ b2
  have e3 : ∀ v ∈ p.instLayout, ∃ n, m1.names.ent (.global v) = some n := by
    intro v hv
    obtain ⟨n, hn⟩ := hm.globals v hv
    exact ⟨n, d4.1 _ _ (c4.2 v n hn)⟩
  rw [List.append_assoc, List.singleton_append, runPieces_append] at h
  rcases h2 : runPieces { m1 with pre := BackLlvm.localPrefix } body with _ | ⟨t2, m2⟩
  · rw [h2] at h; cases h
  rw [h2] at h
  simp only [runPieces, Piece.run] at h
  obtain ⟨g1, g2, g3, g4, g5⟩ := LPiece.runs (fun x hx => (b3 x hx).local hp ho hl hfd (m := { m1 with pre := BackLlvm.localPrefix }) e2 e3) e1 rfl (d3.trans c2) h2
  have f1 : NoLocals m0 := by
    unfold NM.enter at he
    rw [hm.out] at he
    cases he
    exact ⟨fun _ => rfl, fun _ => rfl, hm.bbs⟩
  have f2 : NFrom (ValueNamed p f) (LabelNamed p f) { m1 with pre := BackLlvm.localPrefix }.names := (GPiece.noLocals b1 f1 h1).from
  have f3 := LPiece.froms (fun x hx => (b3 x hx).local hp ho hl hfd (m := { m1 with pre := BackLlvm.localPrefix }) e2 e3) e1 rfl (d3.trans c2) f2
    (fun x hx => (b3 x hx).asks ho hfd) h2
  rcases h3 : NM.exit { m2 with pre := BackLlvm.globalPrefix } with _ | m4
  · rw [h3] at h; cases h
  rw [h3] at h
  simp only [Option.map_some] at h
  have g6 := g1.setPrefix (q := BackLlvm.globalPrefix) (by simp)
  obtain ⟨i1, i2, i3, i4, i5⟩ := g6.exit h3
  rcases h4 : runPieces m4 more with _ | ⟨s', m5⟩
  · rw [h4] at h; cases h
  rw [h4] at h
  simp only [List.nil_append] at h
  cases h
  have k1 : m1.Le { m2 with pre := BackLlvm.globalPrefix } := g4
  have k2 : m1.LeGlobal m4 := k1.global.trans i4
  refine ⟨t1 ++ (t2 ++ []), s', { m2 with pre := BackLlvm.globalPrefix }, m4, by simp, ?_, ⟨g6, f3⟩, c4.trans (d4.global.trans k1.global), i4,
    ⟨i1, i3, i2, fun g hg => ?_, fun v hv => ?_, fun b => ?_⟩, h4⟩
  · refine renders_join (Renders.mono k1 d5) ?_
    exact .cons (s := []) rfl (renders_join g5 (.cons (s := []) rfl .nil))
  · obtain ⟨n, hn⟩ := e2 g hg
    exact ⟨n, k2.1 g n hn⟩
  · obtain ⟨n, hn⟩ := e3 v hv
    exact ⟨n, k2.2 v n hn⟩
  · unfold NM.exit at h3
    rw [if_pos g3] at h3
    cases h3
    rfl

theorem globalInst_pieces {v : Value} {ps : List Piece} (h : BackLlvm.globalInst p v = some ps) : ∀ x ∈ ps, GPiece p x := by
  unfold BackLlvm.globalInst at h
  split at h
  · cases h
  · rename_i d hd
    split at h
    · rename_i hk
      split at h
      · cases h
      · split at h
        · cases h
        · rename_i c hc
          cases h
          intro x hx
          simp only [List.mem_cons, List.mem_append, List.not_mem_nil, or_false] at hx
          rcases hx with rfl | rfl | hx | rfl
          · exact .global ⟨hd, by rw [hk]; rfl⟩
          · exact .lit _
          · obtain ⟨s, rfl⟩ := BackLlvm.constant_lit _ _ _ _ hc x hx
            exact .lit _
          · exact .lit _
    · cases h

/-- What is known of the names used in one function: `G` are the names at the end. -/
structure FNames (p : Program) (f : Func) (G N : Names) : Prop where
  distinct : N.Distinct
  within : N.Within G
  exact : NExact p N
  globals : ∀ v ∈ p.instLayout, ∃ n, N.ent (.global v) = some n
  locals : NFrom (ValueNamed p f) (LabelNamed p f) N

theorem funcs_run (hp : LlvmNames p) (ho : LlvmOrder p) : ∀ (fs before : List Func) {m m' : NM} {ps : List Piece} {s : Str}, p.funcLayout = before ++ fs →
    Between p before m → funcsOf (BackLlvm.func o p) fs = some ps → runPieces m ps = some (s, m') →
    m.LeGlobal m' ∧ Between p p.funcLayout m' ∧ ∃ ts, s = joinLines ts ∧
      All2 (fun f t => ∃ ps N, BackLlvm.func o p f = some ps ∧ Renders N ps t ∧ NShape N ∧ FNames p f m'.names N) fs ts
  | [], before, m, m', ps, s, hl, hm, h, hr => by
    cases h; cases hr
    rw [List.append_nil] at hl
    rw [hl]
    exact ⟨⟨fun _ _ h => h, fun _ _ h => h⟩, hm, [], rfl, .nil⟩
  | [f], before, m, m', ps, s, hl, hm, h, hr => by
    simp only [funcsOf, Option.map_eq_some_iff] at h
    obtain ⟨x, hx, rfl⟩ := h
    obtain ⟨t, s', m1, m2, rfl, h1, h2, h3, h4, h5, h6⟩ := func_run hp ho hl hm hx hr
    cases h6
    rw [← hl] at h5
    exact ⟨h3.trans h4, h5, [t], by simp [joinLines], .cons ⟨x, m1.names, hx, h1, h2.1.shape, h2.1.inv.distinct, h4, h2.1.exact, fun v hv => by
      obtain ⟨n, hn⟩ := hm.globals v hv
      exact ⟨n, h3.2 v n hn⟩, h2.2⟩ .nil⟩
  | f :: f' :: fs, before, m, m', ps, s, hl, hm, h, hr => by
    rw [funcsOf] at h
    · split at h
      · rename_i x y hx hy
        cases h
        obtain ⟨t, s', m1, m2, rfl, h1, h2, h3, h4, h5, h6⟩ := func_run hp ho hl hm hx hr
        simp only [runPieces, Piece.run, txt] at h6
        rcases hq : runPieces m2 y with _ | ⟨s2, m3⟩
        · rw [hq] at h6; cases h6
        rw [hq] at h6
        cases h6
        obtain ⟨a1, a2, ts, rfl, a3⟩ := funcs_run hp ho (f' :: fs) (before ++ [f]) (by rw [hl]; simp) h5 hy hq
        refine ⟨(h3.trans h4).trans a1, a2, t :: ts, ?_, .cons ⟨x, m1.names, hx, h1, h2.1.shape, h2.1.inv.distinct, h4.trans a1, h2.1.exact, fun v hv => by
          obtain ⟨n, hn⟩ := hm.globals v hv
          exact ⟨n, h3.2 v n hn⟩, h2.2⟩ a3⟩
        cases a3 with
        | cons _ _ => rfl
      · cases h
    · simp

theorem globals_named {N : Names} : ∀ {vs : List Value} {Is : List Item}, All2 (GlobalItem p N) vs Is → ∀ v ∈ vs, ∃ n, N.ent (.global v) = some n
  | _, _, .nil, _, h => by cases h
  | _, _, .cons h hs, v, hv => by
    rcases List.mem_cons.1 hv with rfl | hv
    · cases h with
      | mk _ _ _ h1 _ => exact ⟨_, h1⟩
    · exact globals_named hs v hv

/-- The text is that of the translation of the program. `G`: the names of functions and globals. -/
theorem llvm_words (hp : LlvmNames p) (ho : LlvmOrder p) (hF : ∀ f fd, p.funcs.get? f = some fd → LlvmFn p fd) {s : Str} {m : NM}
    (h : llvmGenerate o NM.new p = some (s, m)) :
    ∃ (G : Names) (Gs Fs : List Item), G.Distinct ∧ Written (Gs ++ Fs) s ∧ All2 (GlobalItem p G) p.instLayout Gs ∧
      All2 (fun f I => ∃ N, FNames p f G N ∧ NShape N ∧ FuncItem p N f I) p.funcLayout Fs := by
  unfold llvmGenerate at h
  split at h
  · cases h
  · rename_i ps hps
    unfold BackLlvm.visit at hps
    split at hps
    · rename_i gs fs hgs hfs
      cases hps
      rw [runPieces] at h
      simp only [Piece.run] at h
      rcases h1 : runPieces { NM.new with pre := BackLlvm.globalPrefix } (gs.flatten ++ ((if p.instLayout.isEmpty then [] else [txt "\n"]) ++ fs)) with _ | ⟨s1, m1⟩
      · rw [h1] at h; cases h
      rw [h1] at h
      cases h
      rw [runPieces_append] at h1
      rcases h2 : runPieces { NM.new with pre := BackLlvm.globalPrefix } gs.flatten with _ | ⟨s2, m2⟩
      · rw [h2] at h1; cases h1
      rw [h2] at h1
      simp only at h1
      obtain ⟨a1, a2, a3, a4, a5⟩ := GPiece.runs hp (fun x hx => by
        obtain ⟨l, hl, hx⟩ := List.mem_flatten.1 hx
        obtain ⟨v, -, hv⟩ := allSome_mem hgs hl
        exact globalInst_pieces hv x hx) (NGood.new p) rfl h2
      obtain ⟨e1, Gs, b1, b2⟩ := globals_words a1.shape (allSome_all2 hgs) a5
      have b3 := globals_named b1
      have b4 : ∀ b, m2.bbs.get? b = none := (GPiece.noLocals (p := p) (m := { NM.new with pre := BackLlvm.globalPrefix }) (fun x hx => by
        obtain ⟨l, hl, hx⟩ := List.mem_flatten.1 hx
        obtain ⟨v, -, hv⟩ := allSome_mem hgs hl
        exact globalInst_pieces hv x hx) ⟨fun _ => rfl, fun _ => rfl, fun _ => rfl⟩ h2).bbs
      -- the empty line
      have key : ∃ nl s3, (nl = [] ∨ nl = ['\n']) ∧ runPieces m2 fs = some (s3, m) ∧ s1 = s2 ++ (nl ++ s3) := by
        cases hc : p.instLayout.isEmpty with
        | true =>
          rw [hc] at h1
          simp only [if_true, List.nil_append] at h1
          rcases h3 : runPieces m2 fs with _ | ⟨s3, m3⟩
          · rw [h3] at h1; cases h1
          rw [h3] at h1
          cases h1
          exact ⟨[], s3, .inl rfl, rfl, by simp⟩
        | false =>
          rw [hc] at h1
          simp only [Bool.false_eq_true, if_false, List.cons_append, List.nil_append, runPieces, Piece.run, txt] at h1
          rcases h3 : runPieces m2 fs with _ | ⟨s3, m3⟩
          · rw [h3] at h1; cases h1
          rw [h3] at h1
          cases h1
          exact ⟨['\n'], s3, .inr rfl, rfl, by simp⟩
      obtain ⟨nl, s3, hnl, h3, rfl⟩ := key
      rw [List.nil_append]
      rw [BackLlvm.funcs_eq] at hfs
      obtain ⟨c1, c2, ts, rfl, c3⟩ := funcs_run hp ho p.funcLayout [] rfl ⟨a1, a2, a3, fun g hg => (by cases hg), b3, b4⟩ hfs h3
      have c4 : All2 (fun f t => ∃ ps N, BackLlvm.func o p f = some ps ∧ Renders N ps t ∧ NShape N ∧ FNames p f m.names N ∧
          ∀ fd, p.funcs.get? f = some fd → LlvmFn p fd) p.funcLayout ts := by
        exact c3.imp (fun f t _ ⟨ps, N, i1, i2, i3, i4⟩ => ⟨ps, N, i1, i2, i3, i4, hF f⟩)
      obtain ⟨e2, Fs, d1, d2⟩ := funcs_words (R := fun f N => FNames p f m.names N) c4
      refine ⟨m.names, Gs, Fs, c2.good.inv.distinct, ?_, ?_, d1⟩
      · unfold Written
        rw [words_pre e1]
        refine lines_append b2 ?_
        rcases hnl with rfl | rfl
        · exact d2
        · rw [words_pre (by decide)]
          exact .blank d2
      · refine b1.imp (fun v I _ hI => ?_)
        cases hI with
        | mk i1 i2 i3 i4 i5 => exact .mk i1 i2 i3 (c1.2 _ _ i4) i5
    · cases hps

end Koopa
