import Verif.Lemmas.Back.Stable
import Verif.Props.Uses
/-!
C25, C26, C29, C31: the names that the generators write.
-/
namespace Koopa
open Spec

/-- All chosen names of a program satisfy `ok`. -/
structure NamesOk (ok : Str → Prop) (p : Program) : Prop where
  funcs : ∀ f fd, p.funcs.get? f = some fd → ok fd.name
  globals : ∀ v d n, p.values.get? v = some d → d.name = some n → ok n
  locals : ∀ f fd v d n, p.funcs.get? f = some fd → fd.dfg.values.get? v = some d → d.name = some n → ok n
  bbs : ∀ f fd b d n, p.funcs.get? f = some fd → fd.dfg.bbs.get? b = some d → d.name = some n → ok n

theorem NamesOk.fine {ks : List Prefix} {p : Program} (hn : NamesOk (FineName ks) p) {ks' : List Prefix} (hks : ∀ q ∈ ks', q ∈ ks) {f : Func} {fd : FData}
    (hf : p.funcs.get? f = some fd) {x : Piece} (h : PieceOf ks' p f fd x) : x.Fine ks true := by
  cases h with
  | lit => trivial
  | func hg _ => exact hn.funcs _ _ hg
  | bb hb => exact fun c hc => hn.bbs _ _ _ _ _ hf hb hc
  | label hb => exact fun c hc => hn.bbs _ _ _ _ _ hf hb hc
  | temp => exact rfl
  | setPrefix hq => exact hks _ hq
  | val hv hp =>
    rename_i v d
    have hc : ∀ c, d.name = some c → FineName ks c := by
      rcases hv with hv | hv
      · exact fun c hc => hn.globals _ _ _ hv hc
      · exact fun c hc => hn.locals _ _ _ _ _ hf hv hc
    unfold namePiece at hp
    split at hp
    · cases hp
    · split at hp <;> cases hp
      · exact hc
      · exact ⟨rfl, hc⟩

theorem NamesOk.fineGlobal {ks : List Prefix} {p : Program} (hn : NamesOk (FineName ks) p) {x : Piece} (h : GlobalPiece p x) (b : Bool) : x.Fine ks b := by
  rcases h with ⟨s, rfl⟩ | ⟨v, d, hv, rfl⟩
  · trivial
  · exact fun c hc => hn.globals _ _ _ hv hc

theorem NInv.new {ks : List Prefix} {q : Prefix} (hq : q ∈ ks) : NInv ks { NM.new with pre := q } := by
  have h : ∀ e, ({ NM.new with pre := q } : NM).names.ent e = none := by intro e; cases e <;> rfl
  constructor
  · exact hq
  · exact ⟨fun e e' s h1 => (by rw [h] at h1; cases h1), fun b b' s h1 => by cases h1⟩
  · intro e s h1; rw [h] at h1; cases h1
  · intro s hs; cases hs
  · intro s hs; cases hs
  · intro b s h1; cases h1
  · intro s hs; cases hs
  · intro s hs; cases hs
  · intro v s hs; cases hs
  · intro v s h1; rw [h] at h1; cases h1

/-- The whole text of a program, for either generator: the globals and then the functions. -/
theorem text_spec {ks : List Prefix} (hks : Prefixes ks) {p : Program} (hn : NamesOk (FineName ks) p) {g : Func → Option (List Piece)}
    (hg : ∀ f ps, g f = some ps → ∃ fd, p.funcs.get? f = some fd ∧ ∃ ks', (∀ q ∈ ks', q ∈ ks) ∧ ∀ x ∈ ps, PieceOf ks' p f fd x)
    {gs fs : List Piece} (hgs : ∀ x ∈ gs, GlobalPiece p x) (hfs : funcsOf g p.funcLayout = some fs) {m m' : NM} (hi : NInv ks m) (hm : m.inFunc = false)
    {s : Str} (h : runPieces m (gs ++ fs) = some (s, m')) :
    ∃ (g0 : Str) (ts : List Str), s = g0 ++ joinLines ts ∧ m'.names.Distinct ∧ WellNamed m'.names gs g0 ∧
      All2 (fun f t => ∃ ps, g f = some ps ∧ WellNamed m'.names ps t) p.funcLayout ts := by
  rw [runPieces_append] at h
  rcases h1 : runPieces m gs with _ | ⟨s1, m1⟩
  · rw [h1] at h; cases h
  rw [h1] at h
  simp only at h
  rcases h2 : runPieces m1 fs with _ | ⟨s2, m2⟩
  · rw [h2] at h; cases h
  rw [h2] at h
  cases h
  obtain ⟨a1, a2, a3, a4⟩ := runPieces_spec hks hi (fun x hx => hn.fineGlobal (hgs x hx) _) h1
  obtain ⟨b1, b2, b3, ts, rfl, b5⟩ := funcsOf_spec hks (fun f ps hf x hx => by
    obtain ⟨fd, h3, ks', h4, h5⟩ := hg f ps hf
    exact hn.fine h4 h3 (h5 x hx)) _ a1 (a2.trans hm) hfs h2
  exact ⟨s1, ts, rfl, b1.distinct, ⟨m1.names, a4, a1.distinct, b3⟩, b5⟩

/-! ### C25 -/

/-- The name is not `%` followed by a number. -/
def NotTemp (c : Str) : Prop := ∀ k, c ≠ '%' :: showNat k

theorem NotTemp.fine {c : Str} (h : NotTemp c) : FineName [.default] c := by
  rintro pre hp n hn k ⟨q, hq, rfl⟩
  rw [List.mem_singleton] at hp hq
  subst hp; subst hq
  cases hn
  exact h k rfl

theorem NamesOk.mono {P Q : Str → Prop} {p : Program} (h : NamesOk P p) (hpq : ∀ c, P c → Q c) : NamesOk Q p :=
  ⟨fun _ _ h1 => hpq _ (h.funcs _ _ h1), fun _ _ _ h1 h2 => hpq _ (h.globals _ _ _ h1 h2),
    fun _ _ _ _ _ h1 h2 h3 => hpq _ (h.locals _ _ _ _ _ h1 h2 h3), fun _ _ _ _ _ h1 h2 h3 => hpq _ (h.bbs _ _ _ _ _ h1 h2 h3)⟩

/-- C25 for programs whose chosen names are not `%` followed by a number (see `C25_violated` for the others):
in the text of each function every entity is written with one name, no two values, globals or functions
have the same name, and no two blocks have; functions and globals have the same name everywhere. -/
theorem C25_printed_names_unique_partial {p : Program} {s : Str} {m : NM} (hn : NamesOk NotTemp p) (h : koopaGenerate NM.new p = some (s, m)) :
    ∃ (G : Names) (g0 : Str) (ts : List Str) (gs : List (List Piece)), s = g0 ++ joinLines ts ∧ G.Distinct ∧
      allSome (BackKoopa.globalInst p) p.instLayout = some gs ∧
      WellNamed G (gs.flatten ++ if p.instLayout.isEmpty then [] else [txt "\n"]) g0 ∧
      All2 (fun f t => ∃ ps, BackKoopa.func p f = some ps ∧ WellNamed G ps t) p.funcLayout ts := by
  unfold koopaGenerate at h
  split at h
  · cases h
  · rename_i ps hv
    unfold BackKoopa.visit at hv
    split at hv
    · rename_i gs fs hgs hfs
      cases hv
      rw [BackKoopa.funcs_eq] at hfs
      rw [← List.append_assoc] at h
      obtain ⟨g0, ts, h1, h2, h3, h4⟩ := text_spec prefixes_koopa (hn.mono (fun _ => NotTemp.fine)) (g := BackKoopa.func p)
        (fun f ps hf => by
          obtain ⟨fd, h1, h2⟩ := BackKoopa.func_of (ks := []) hf
          exact ⟨fd, h1, [], by simp, h2⟩)
        (by
          intro x hx
          rcases List.mem_append.1 hx with hx | hx
          · obtain ⟨l, hl, hx⟩ := List.mem_flatten.1 hx
            obtain ⟨v, -, hv⟩ := allSome_mem hgs hl
            exact BackKoopa.globalInst_of hv x hx
          · split at hx
            · cases hx
            · rw [List.mem_singleton] at hx; exact .inl ⟨_, hx⟩) hfs (NInv.new (List.mem_singleton.2 rfl)) rfl h
      exact ⟨m.names, g0, ts, gs, h1, h2, hgs, h3, h4⟩
    · cases hv

/-- Two values named `%x`, one unnamed value, and a block named like the values. -/
def twoNames (a b : Option Str) : List Op :=
  [ .newFuncDef ['@', 'f'] [] .unit, .newBb 1 (some ['%', 'x']),
    .newLocal 1 (.alloc .i32), .setLocalName 1 0x40000000 a,
    .newLocal 1 (.alloc .i32), .setLocalName 1 0x40000001 b,
    .newLocal 1 (.ret none),
    .layout 1 (.insertBb 0 1), .layout 1 (.insertInst 1 0 0x40000000), .layout 1 (.insertInst 1 1 0x40000001),
    .layout 1 (.insertInst 1 2 0x40000002) ]

/-- The program built by the calls is printed as `s`. -/
def prints (ops : List Op) (s : String) : Bool :=
  match (Program.new Ids.init).run ops with
  | none => false
  | some p => match koopaGenerate NM.new p with
    | none => false
    | some (t, _) => decide (t = s.toList)

theorem prints_iff {ops : List Op} {s : String} (h : prints ops s = true) :
    ∃ p m, (Program.new Ids.init).run ops = some p ∧ koopaGenerate NM.new p = some (s.toList, m) := by
  unfold prints at h
  split at h
  · cases h
  · rename_i p hp
    split at h
    · cases h
    · rename_i t m hg
      exact ⟨p, m, hp, by rw [← of_decide_eq_true h]; exact hg⟩

/-- A program to which C25 applies. -/
example : prints (twoNames (some ['%', 'x']) none) "fun @f() {\n%x:\n  %x = alloc i32\n  %0 = alloc i32\n  ret\n}\n" = true := by
  decide +kernel

/-- C25 in full, for a program with one function: when the function is printed, the names differ. -/
def PrintedNamesDiffer : Prop :=
  ∀ (p : Program) (f : Func) (ps : List Piece) (s : Str) (m : NM), AnyReach p → p.instLayout = [] → p.funcLayout = [f] →
    BackKoopa.func p f = some ps → runPieces NM.new (.enter :: ps) = some (s, m) → m.names.Distinct

/-- The names under which two values are printed. -/
def printedNames (ops : List Op) (f : Func) (u v : Value) : Option (Str × Str × Str) :=
  match (Program.new Ids.init).run ops with
  | none => none
  | some p => if p.instLayout = [] ∧ p.funcLayout = [f] then
      match BackKoopa.func p f with
      | none => none
      | some ps => match runPieces NM.new (.enter :: ps) with
        | none => none
        | some (t, m) => match m.names.ent (.value u), m.names.ent (.value v) with
          | some x, some y => some (t, x, y)
          | _, _ => none
    else none

/-- C25 fails: a value that is named `%0` and an unnamed one are both printed as `%0`, because temporary
names are not compared with the names in use (generator.rs:152-157). -/
theorem C25_violated : ¬ PrintedNamesDiffer := by
  intro hall
  have h : printedNames (twoNames (some ['%', '0']) none) 1 0x40000000 0x40000001 =
      some ("fun @f() {\n%x:\n  %0 = alloc i32\n  %0 = alloc i32\n  ret\n}\n".toList, ['%', '0'], ['%', '0']) := by decide +kernel
  unfold printedNames at h
  split at h
  · cases h
  · rename_i p hp
    split at h
    · rename_i hl
      split at h
      · cases h
      · rename_i ps hps
        split at h
        · cases h
        · rename_i t m hm
          split at h
          · rename_i x y hx hy
            cases h
            have := (hall p 1 ps _ m (anyReach_run _ hp) hl.1 hl.2 hps hm).ents _ _ _ hx hy
            revert this; decide
          · cases h
    · cases h

/-! ### C26 -/

/-- The pieces name the same entity. -/
def Piece.Same (x y : Piece) : Prop :=
  (∃ f c c', x = .func f c ∧ y = .func f c') ∨ (∃ b c c', x = .bb b c ∧ y = .bb b c') ∨ (∃ v c c', x = .global v c ∧ y = .global v c') ∨
    ∃ v c c', x = .value v c ∧ y = .value v c'

/-- C26, first part: within one scope the name of an entity does not change, whatever is written in between. -/
theorem C26_names_stable {m m1 m2 m3 : NM} {x y : Piece} {ps : List Piece} {s s' t : Str} (hs : x.Same y) (hx : x.InScope m.inFunc)
    (hp : ∀ z ∈ ps, z.InScope m.inFunc) (h1 : x.run m = some (s, m1)) (h2 : runPieces m1 ps = some (t, m2)) (h3 : y.run m2 = some (s', m3)) :
    s' = s ∧ m3 = m2 := by
  obtain ⟨a1, a2, a3⟩ := Piece.run_stable hx h1
  obtain ⟨b1, b2, -⟩ := runPieces_stable (by rw [a1]; exact hp) h2
  have h4 := Names.text_mono b2 a3
  rcases hs with ⟨f, c, c', rfl, rfl⟩ | ⟨f, c, c', rfl, rfl⟩ | ⟨f, c, c', rfl, rfl⟩ | ⟨f, c, c', rfl, rfl⟩
  · have h5 : m2.funcs.get? f = some s := h4
    simp only [Piece.run, NM.funcName, h5] at h3
    cases h3; exact ⟨rfl, rfl⟩
  · have h5 : m2.bbs.get? f = some s := h4
    simp only [Piece.run, NM.bbName, h5] at h3
    cases h3; exact ⟨rfl, rfl⟩
  · have h5 : m2.globalVars.get? f = some s := h4
    simp only [Piece.run, NM.globalName, h5] at h3
    cases h3; exact ⟨rfl, rfl⟩
  · have h5 : m2.values.get? f = some s := by
      have hin : m2.inFunc = true := by rw [b1, a1]; exact hx
      simpa only [Names.text, NM.names, hin, if_true] using h4
    simp only [Piece.run, NM.valueName, h5] at h3
    cases h3; exact ⟨rfl, rfl⟩

/-- A case for it: an unnamed value is asked for twice, and other values in between. -/
example : ∃ m1 m2 m3 t, (Piece.value 7 none).run { NM.new with inFunc := true } = some (['%', '0'], m1) ∧
    runPieces m1 [.value 8 none, .func 1 ['@', 'f']] = some (t, m2) ∧ (Piece.value 7 none).run m2 = some (['%', '0'], m3) :=
  ⟨_, _, _, _, rfl, rfl, rfl⟩

/-- The states of a name manager of the text form generator: requests whose chosen names are not `%` and a
number, scopes entered and left. -/
inductive NMReach : NM → Prop where
  | new : NMReach NM.new
  | step {m m' : NM} {x : Piece} {s : Str} : NMReach m → x.Fine [.default] m.inFunc → x.run m = some (s, m') → NMReach m'
  | enter {m m' : NM} : NMReach m → m.enter = some m' → NMReach m'
  | exit {m m' : NM} : NMReach m → m.exit = some m' → NMReach m'

theorem NMReach.inv {m : NM} (h : NMReach m) : NInv [.default] m := by
  induction h with
  | new => exact NInv.new (List.mem_singleton.2 rfl)
  | step _ h1 h2 ih => exact (Piece.run_spec prefixes_koopa ih h1 h2).1
  | enter _ h1 ih => exact (NM.enter_spec ih h1).1
  | exit _ h1 ih => exact (NM.exit_spec ih h1).1

/-- `n` is the name for chosen name `c` when the names in use are given by `used`: `c` itself if it is free,
otherwise `c` with the first suffix that is free. -/
def Honours (used : Str → Prop) (c n : Str) : Prop :=
  (¬ used c ∧ n = c) ∨ (used c ∧ ∃ k, n = suffixed c k ∧ ¬ used n ∧ ∀ j, j < k → used (suffixed c j))

theorem NInv.used_iff {m : NM} (hi : NInv [.default] m) {s : Str} (hs : ∀ k, ¬ TempNo [.default] s k) : s ∈ m.globalNames ↔ ∃ e, m.names.ent e = some s := by
  refine ⟨fun h => ?_, fun ⟨e, he⟩ => hi.used e s he⟩
  rcases hi.only s h with h | ⟨k, h⟩
  · exact h
  · exact absurd h (hs k)

theorem NamedEnt.honours {m m' : NM} {e : Ent} {c n : Str} (hc : NotTemp c) (hi : NInv [.default] m) (h : NamedEnt [.default] m m' e (some c) n) :
    Honours (fun s => ∃ e, m.names.ent e = some s) c n := by
  obtain ⟨c', h1, h2⟩ := h.chosen
  have hp := List.mem_singleton.1 hi.pre
  rw [hp] at h1
  cases h1
  have hct : ∀ k, ¬ TempNo [.default] c k := hc.fine .default (List.mem_singleton.2 rfl) c rfl
  rcases h2 with ⟨h2, rfl⟩ | ⟨h2, k, rfl, h3⟩
  · exact .inl ⟨fun h => h2 ((hi.used_iff hct).2 h), rfl⟩
  · have hst : ∀ j k, ¬ TempNo [.default] (suffixed c j) k := fun j k => prefixes_koopa.suffix c j k
    refine .inr ⟨(hi.used_iff hct).1 h2, k, rfl, fun hu => h.unused ((hi.used_iff (hst k)).2 hu), fun j hj => (hi.used_iff (hst j)).1 (h3 j hj)⟩

theorem NamedBb.honours {m m' : NM} {e : BB} {c n : Str} (hi : NInv [.default] m) (h : NamedBb [.default] m m' e (some c) n) :
    Honours (fun s => ∃ e, m.names.bb e = some s) c n := by
  obtain ⟨c', h1, h2⟩ := h.chosen
  have hp := List.mem_singleton.1 hi.pre
  rw [hp] at h1
  cases h1
  have hu : ∀ s, s ∈ m.bbNames ↔ ∃ e, m.names.bb e = some s := fun s => ⟨hi.bbOnly s, fun ⟨b, hb⟩ => hi.bbUsed b s hb⟩
  rcases h2 with ⟨h2, rfl⟩ | ⟨h2, k, rfl, h3⟩
  · exact .inl ⟨fun h => h2 ((hu _).2 h), rfl⟩
  · exact .inr ⟨(hu _).1 h2, k, rfl, fun h' => h.unused ((hu _).2 h'), fun j hj => (hu _).1 (h3 j hj)⟩

/-- C26, second part: an entity with a chosen name that is asked for the first time gets exactly this name
if no function, global or value in scope has it, and otherwise the name with the first free suffix.
The full statement says that the first entity with the chosen name gets it; `C26_violated` shows that the
name may already be in use because of a suffix. Chosen names `%` and a number are excluded. -/
theorem C26_chosen_names_partial {m m' : NM} {x : Piece} {c n : Str} (hm : NMReach m) (hc : NotTemp c) (h : x.run m = some (n, m')) :
    (∀ f, x = .func f c → m.names.ent (.func f) = none → Honours (fun s => ∃ e, m.names.ent e = some s) c n) ∧
    (∀ v, x = .global v (some c) → m.names.ent (.global v) = none → Honours (fun s => ∃ e, m.names.ent e = some s) c n) ∧
    (∀ v, x = .value v (some c) → m.inFunc = true → m.names.ent (.value v) = none → Honours (fun s => ∃ e, m.names.ent e = some s) c n) ∧
    (∀ b, x = .bb b (some c) → m.names.bb b = none → Honours (fun s => ∃ e, m.names.bb e = some s) c n) := by
  have hi := hm.inv
  have hf : ∀ c', some c = some c' → FineName [.default] c' := fun c' h => by cases h; exact hc.fine
  refine ⟨fun f hx h0 => ?_, fun f hx h0 => ?_, fun f hx hin h0 => ?_, fun f hx h0 => ?_⟩ <;> subst hx
  · rcases NM.funcName_spec prefixes_koopa hi hc.fine h with ⟨h1, -⟩ | h1
    · rw [h0] at h1; cases h1
    · exact h1.honours hc hi
  · rcases NM.globalName_spec prefixes_koopa hi hf h with ⟨h1, -⟩ | h1
    · rw [h0] at h1; cases h1
    · exact h1.honours hc hi
  · rcases NM.valueName_spec prefixes_koopa hi hin hf h with ⟨h1, -⟩ | h1
    · rw [h0] at h1; cases h1
    · exact h1.honours hc hi
  · rcases NM.bbName_spec prefixes_koopa hi hf h with ⟨h1, -⟩ | h1
    · rw [h0] at h1; cases h1
    · exact h1.honours hi

/-- C26 in full: the first value asked for among those with a chosen name gets exactly this name. -/
def FirstKeepsName : Prop :=
  ∀ (ps : List Piece) (v : Value) (c s n : Str) (m m' : NM), (∀ x ∈ ps, ∃ u d, x = Piece.value u (some d) ∧ d ≠ c) →
    runPieces { NM.new with inFunc := true } ps = some (s, m) → (Piece.value v (some c)).run m = some (n, m') → n = c

/-- C26 fails: after two values with name `%x` the first value with name `%x_0` becomes `%x_0_0`. -/
theorem C26_violated : ¬ FirstKeepsName := by
  intro hall
  have := hall [.value 1 (some ['%', 'x']), .value 2 (some ['%', 'x'])] 3 ['%', 'x', '_', '0'] _ _ _ _
    (by
      intro x hx
      simp only [List.mem_cons, List.not_mem_nil, or_false] at hx
      rcases hx with rfl | rfl
      · exact ⟨1, _, rfl, by decide⟩
      · exact ⟨2, _, rfl, by decide⟩) rfl rfl
  revert this
  decide

/-- Cases for C26: the first value gets its name, the second a suffix. -/
example : ∃ m m' m'', NMReach m ∧ (Piece.value 1 (some ['%', 'x'])).run m = some (['%', 'x'], m') ∧ NMReach m' ∧
    (Piece.value 2 (some ['%', 'x'])).run m' = some (['%', 'x', '_', '0'], m'') := by
  have h1 : NMReach { NM.new with inFunc := true, values := .empty, temps := .empty } := .enter .new rfl
  have hx : NotTemp ['%', 'x'] := by
    intro k h
    have h2 := (List.cons.inj h).2
    have := showNat_digit (n := k) (c := 'x') (by rw [← h2]; exact List.mem_cons_self)
    revert this; decide
  have hf : (Piece.value 1 (some ['%', 'x'])).Fine [.default] true := ⟨rfl, fun c hc => by cases hc; exact hx.fine⟩
  exact ⟨_, _, _, h1, rfl, .step h1 hf rfl, rfl⟩

/-! ### C29 -/

/-- The name does not become a temporary name of the LLVM generator: after `%` or `@$` no digit follows. -/
def LlvmOk (c : Str) : Prop :=
  ∀ d rest, c = '@' :: '$' :: d :: rest ∨ (∃ x, x ≠ '@' ∧ c = x :: d :: rest) → ¬ (48 ≤ d.toNat ∧ d.toNat ≤ 57)

theorem truncate_prefix : ∀ {n : Nat} {s t : Str}, truncate n s = some t → t <+: s
  | _, [], t, h => by cases h; exact List.prefix_refl _
  | 0, _ :: _, t, h => by cases h; exact List.nil_prefix
  | n + 1, c :: s, t, h => by
    rw [truncate] at h
    split at h
    · obtain ⟨u, h1, rfl⟩ := Option.map_eq_some_iff.1 h
      exact List.cons_prefix_cons.2 ⟨rfl, truncate_prefix h1⟩
    · cases h

theorem LlvmOk.fine {c : Str} (h : LlvmOk c) : FineName [BackLlvm.globalPrefix, BackLlvm.localPrefix] c := by
  have key : ∀ (x a : Char) (ha : a = '@' ∨ a = '%') (n : Str) (k : Nat),
      (Prefix.custom [a] [a, '$'] (some 513)).name c = some n → n ≠ x :: '$' :: showNat k := by
    intro x a ha n k hn he
    subst he
    obtain ⟨d, ds, hd⟩ : ∃ d ds, showNat k = d :: ds := by
      rcases hs : showNat k with _ | ⟨d, ds⟩
      · exact absurd hs (showNat_ne_nil k)
      · exact ⟨d, ds, rfl⟩
    have hdig := showNat_digit (n := k) (by rw [hd]; exact List.mem_cons_self)
    rw [hd] at hn
    unfold Prefix.name at hn
    simp only at hn
    split at hn
    · cases hn
    · rename_i name hname
      have hpre := truncate_prefix hn
      split at hname
      · rename_i r
        cases hname
        have h1 := (List.cons_prefix_cons.1 hpre).2
        obtain ⟨rest, hr⟩ := h1
        have h2 : r = '$' :: d :: (ds ++ rest) := by simpa using hr.symm
        have := h d _ (.inl (by rw [h2]))
        exact this hdig
      · cases hname
      · rename_i ch r hch
        split at hname
        · cases hname
          have h1 := (List.cons_prefix_cons.1 (List.cons_prefix_cons.1 hpre).2).2
          obtain ⟨rest, hr⟩ := h1
          have h2 : r = d :: (ds ++ rest) := by simpa using hr.symm
          have := h d _ (.inr ⟨ch, hch, by rw [h2]⟩)
          exact this hdig
        · cases hname
  intro pre hp n hn k ⟨q, hq, he⟩
  simp only [List.mem_cons, List.not_mem_nil, or_false] at hp hq
  have he' : n = '@' :: '$' :: showNat k ∨ n = '%' :: '$' :: showNat k := by
    rcases hq with rfl | rfl
    · exact .inl he
    · exact .inr he
  rcases hp with rfl | rfl
  · rcases he' with he | he
    · exact key _ '@' (.inl rfl) n k hn he
    · exact key _ '@' (.inl rfl) n k hn he
  · rcases he' with he | he
    · exact key _ '%' (.inr rfl) n k hn he
    · exact key _ '%' (.inr rfl) n k hn he

/-- C29 and the part of C31 on calls, for chosen names without a digit after `%` or `@$`: in the text of each
function every entity has one name, no two values, globals or functions have the same name, and no two labels
have; functions and globals have the same name everywhere. Missing for C29: that a label and a value differ, see
`C29_violated`. -/
theorem C29_llvm_names_partial {p : Program} {s : Str} {m : NM} (hn : NamesOk LlvmOk p) (h : llvmGenerate o NM.new p = some (s, m)) :
    ∃ (g0 : Str) (ts : List Str) (gs : List (List Piece)), s = g0 ++ joinLines ts ∧ m.names.Distinct ∧
      allSome (BackLlvm.globalInst p) p.instLayout = some gs ∧
      WellNamed m.names (gs.flatten ++ if p.instLayout.isEmpty then [] else [txt "\n"]) g0 ∧
      All2 (fun f t => ∃ ps, BackLlvm.func o p f = some ps ∧ WellNamed m.names ps t) p.funcLayout ts := by
  unfold llvmGenerate at h
  split at h
  · cases h
  · rename_i ps hv
    unfold BackLlvm.visit at hv
    split at hv
    · rename_i gs fs hgs hfs
      cases hv
      rw [BackLlvm.funcs_eq] at hfs
      rw [← List.append_assoc] at h
      simp only [runPieces, Piece.run] at h
      have hr : runPieces { NM.new with pre := BackLlvm.globalPrefix }
          ((gs.flatten ++ if p.instLayout.isEmpty then [] else [txt "\n"]) ++ fs) = some (s, m) := by
        split at h
        · cases h
        · rename_i heq; cases h; exact heq
      obtain ⟨g0, ts, h1, h2, h3, h4⟩ := text_spec prefixes_llvm (hn.mono (fun _ => LlvmOk.fine)) (g := BackLlvm.func o p)
        (fun f ps hf => by
          obtain ⟨fd, h1, h2⟩ := BackLlvm.func_of hf
          exact ⟨fd, h1, _, fun q hq => hq, h2⟩)
        (by
          intro x hx
          rcases List.mem_append.1 hx with hx | hx
          · obtain ⟨l, hl, hx⟩ := List.mem_flatten.1 hx
            obtain ⟨v, -, hv⟩ := allSome_mem hgs hl
            exact BackLlvm.globalInst_of hv x hx
          · split at hx
            · cases hx
            · rw [List.mem_singleton] at hx; exact .inl ⟨_, hx⟩) hfs (NInv.new List.mem_cons_self) rfl hr
      exact ⟨g0, ts, gs, h1, h2, hgs, h3, h4⟩
    · cases hv

/-- C29 in full, for a program with one function. -/
def LlvmNamesDiffer : Prop :=
  ∀ (o : UserOrder) (p : Program) (f : Func) (ps : List Piece) (s : Str) (m : NM), AnyReach p → p.instLayout = [] → p.funcLayout = [f] →
    BackLlvm.func o p f = some ps → runPieces { NM.new with pre := BackLlvm.globalPrefix } (.enter :: ps) = some (s, m) →
      m.names.Distinct ∧ ∀ v b n, m.names.ent (.value v) = some n → m.names.bb b ≠ some n

/-- The text of the only function, the name of a value and the name of a block. -/
def llvmNames (ops : List Op) (f : Func) (v : Value) (b : BB) : Option (Str × Str × Str) :=
  match (Program.new Ids.init).run ops with
  | none => none
  | some p => if p.instLayout = [] ∧ p.funcLayout = [f] then
      match BackLlvm.func .added p f with
      | none => none
      | some ps => match runPieces { NM.new with pre := BackLlvm.globalPrefix } (.enter :: ps) with
        | none => none
        | some (t, m) => match m.names.ent (.value v), m.names.bb b with
          | some x, some y => some (t, x, y)
          | _, _ => none
    else none

/-- C29 fails: a value and a block that are both named `%x` are emitted as `%$x`, because the names of values and
of blocks are kept apart (generator.rs:24-25), while LLVM has one set of local names. -/
theorem C29_violated : ¬ LlvmNamesDiffer := by
  intro hall
  have h : llvmNames (twoNames (some ['%', 'x']) none) 1 0x40000000 1 =
      some ("define void @f() {\n$x:\n  %$x = alloca i32\n  %$0 = alloca i32\n  ret void\n}\n".toList, ['%', '$', 'x'], ['%', '$', 'x']) := by
    decide +kernel
  unfold llvmNames at h
  split at h
  · cases h
  · rename_i p hp
    split at h
    · rename_i hl
      split at h
      · cases h
      · rename_i ps hps
        split at h
        · cases h
        · rename_i t m hm
          split at h
          · rename_i x y hx hy
            cases h
            exact (hall _ p 1 ps _ m (anyReach_run _ hp) hl.1 hl.2 hps hm).2 _ _ _ hx hy
          · cases h
    · cases h

/-! ### C31 -/

theorem runPieces_pre : ∀ {ps : List Piece} {m m' : NM} {s : Str}, runPieces m ps = some (s, m') → (∀ q, .setPrefix q ∉ ps) → m'.pre = m.pre
  | [], m, m', s, h, _ => by cases h; rfl
  | x :: xs, m, m', s, h, hx => by
    rw [runPieces] at h
    split at h
    · cases h
    · rename_i s1 m1 h1
      have e1 := Piece.run_pre h1 (fun q hq => hx q (by rw [hq]; exact List.mem_cons_self))
      split at h
      · cases h
      · rename_i s2 m2 h2
        cases h
        rw [runPieces_pre h2 (fun q hq => hx q (List.mem_cons_of_mem _ hq)), e1]

theorem funcsOf_stable {g : Func → Option (List Piece)} (hg : ∀ f ps, g f = some ps → ∀ x ∈ ps, x.InScope true) :
    ∀ (fs : List Func) {m m' : NM} {ps : List Piece} {s : Str}, funcsOf g fs = some ps → runPieces m ps = some (s, m') →
      m.LeGlobal m' ∧ ∃ ts, s = joinLines ts ∧ All2 (fun f t => ∃ ps N, g f = some ps ∧ Renders N ps t ∧ N.Within m'.names) fs ts := by
  have hscope : ∀ {m m' : NM} {x rest : List Piece} {s : Str}, (∀ y ∈ x, y.InScope true) → runPieces m (.enter :: (x ++ .exit :: rest)) = some (s, m') →
      ∃ t s' m1 m2, s = t ++ s' ∧ Renders m1.names x t ∧ m.LeGlobal m1 ∧ m1.LeGlobal m2 ∧ runPieces m2 rest = some (s', m') := by
    intro m m' x rest s hx hr
    rw [runPieces] at hr
    simp only [Piece.run] at hr
    rcases he : m.enter with _ | m0
    · rw [he] at hr; cases hr
    rw [he] at hr
    simp only [Option.map_some] at hr
    have hm0 : m.LeGlobal m0 ∧ m0.inFunc = true := by
      unfold NM.enter at he
      split at he <;> cases he
      exact ⟨⟨fun _ _ h => h, fun _ _ h => h⟩, rfl⟩
    rw [runPieces_append] at hr
    rcases hr1 : runPieces m0 x with _ | ⟨t, m1⟩
    · rw [hr1] at hr; cases hr
    rw [hr1] at hr
    simp only [runPieces, Piece.run] at hr
    obtain ⟨-, a2, a3⟩ := runPieces_stable (by rw [hm0.2]; exact hx) hr1
    rcases hx2 : m1.exit with _ | m2
    · rw [hx2] at hr; cases hr
    rw [hx2] at hr
    have hm2 : m1.LeGlobal m2 := by
      unfold NM.exit at hx2
      split at hx2 <;> cases hx2
      exact ⟨fun _ _ h => h, fun _ _ h => h⟩
    simp only [Option.map_some] at hr
    rcases hq : runPieces m2 rest with _ | ⟨s', m3⟩
    · rw [hq] at hr; cases hr
    rw [hq] at hr
    cases hr
    exact ⟨t, s', m1, m2, rfl, a3, hm0.1.trans a2.global, hm2, hq⟩
  intro fs
  induction fs with
  | nil =>
    intro m m' ps s h hr
    cases h; cases hr
    exact ⟨⟨fun _ _ h => h, fun _ _ h => h⟩, [], rfl, .nil⟩
  | cons f fs ih =>
    intro m m' ps s h hr
    cases fs with
    | nil =>
      simp only [funcsOf, Option.map_eq_some_iff] at h
      obtain ⟨x, hx, rfl⟩ := h
      obtain ⟨t, s', m1, m2, rfl, h1, h3, h4, h7⟩ := hscope (hg f x hx) hr
      cases h7
      exact ⟨h3.trans h4, [t], by simp [joinLines], .cons ⟨x, m1.names, hx, h1, h4⟩ .nil⟩
    | cons f' fs =>
      rw [funcsOf] at h
      · split at h
        · rename_i x y hx hy
          cases h
          obtain ⟨t, s', m1, m2, rfl, h1, h3, h4, h7⟩ := hscope (hg f x hx) hr
          rw [txt, runPieces_lit] at h7
          obtain ⟨⟨s2, m3⟩, h8, h9⟩ := Option.map_eq_some_iff.1 h7
          cases h9
          obtain ⟨a3, ts, rfl, a5⟩ := ih hy h8
          refine ⟨(h3.trans h4).trans a3, t :: ts, ?_, .cons ⟨x, m1.names, hx, h1, h4.trans a3⟩ a5⟩
          cases a5 with
          | cons _ _ => rfl
        · cases h
      · simp

/-- C31, second part: every function is written with one name, in its definition and in all calls, whatever
the order of the functions. -/
theorem C31_calls_use_defined_name {p : Program} {s : Str} {m : NM} (h : llvmGenerate o NM.new p = some (s, m)) :
    ∃ (g0 : Str) (ts : List Str), s = g0 ++ joinLines ts ∧
      All2 (fun f t => ∃ ps N, BackLlvm.func o p f = some ps ∧ Renders N ps t ∧
        ∀ g n, N.ent (.func g) = some n → m.names.ent (.func g) = some n) p.funcLayout ts := by
  unfold llvmGenerate at h
  split at h
  · cases h
  · rename_i ps hv
    unfold BackLlvm.visit at hv
    split at hv
    · rename_i gs fs hgs hfs
      cases hv
      rw [BackLlvm.funcs_eq] at hfs
      rw [← List.append_assoc, ← List.cons_append, runPieces_append] at h
      rcases h1 : runPieces NM.new (.setPrefix BackLlvm.globalPrefix :: (gs.flatten ++ if p.instLayout.isEmpty then [] else [txt "\n"])) with _ | ⟨s1, m1⟩
      · rw [h1] at h; cases h
      rw [h1] at h
      simp only at h
      rcases h2 : runPieces m1 fs with _ | ⟨s2, m2⟩
      · rw [h2] at h; cases h
      rw [h2] at h
      cases h
      obtain ⟨-, ts, rfl, h4⟩ := funcsOf_stable (fun f ps hf x hx => by
        obtain ⟨fd, -, h5⟩ := BackLlvm.func_of hf
        exact (h5 x hx).inScope) _ hfs h2
      exact ⟨s1, ts, rfl, h4.imp (fun _ _ _ ⟨ps, N, a, b, c⟩ => ⟨ps, N, a, b, c.1⟩)⟩
    · cases hv

/-- C31, first part, for programs in which a function calls only itself and functions before it: every function
is emitted under a name starting with `@`. Without the condition this fails, see `C31_violated`. -/
theorem C31_functions_are_globals_partial {p : Program} {s : Str} {m : NM}
    (hcall : ∀ l1 f l2 fd v d g as, p.funcLayout = l1 ++ f :: l2 → p.funcs.get? f = some fd → fd.dfg.values.get? v = some d →
      d.kind = .call g as → g ∈ l1 ∨ g = f)
    (h : llvmGenerate o NM.new p = some (s, m)) : ∀ f ∈ p.funcLayout, ∃ n, m.names.ent (.func f) = some ('@' :: n) := by
  unfold llvmGenerate at h
  split at h
  · cases h
  · rename_i ps hv
    unfold BackLlvm.visit at hv
    split at hv
    · rename_i gs fs hgs hfs
      cases hv
      rw [BackLlvm.funcs_eq] at hfs
      rw [runPieces] at h
      simp only [Piece.run] at h
      rw [← List.append_assoc, runPieces_append] at h
      rcases h1 : runPieces { NM.new with pre := BackLlvm.globalPrefix } (gs.flatten ++ if p.instLayout.isEmpty then [] else [txt "\n"]) with _ | ⟨s1, m1⟩
      · rw [h1] at h; cases h
      rw [h1] at h
      simp only at h
      rcases h2 : runPieces m1 fs with _ | ⟨s2, m2⟩
      · rw [h2] at h; cases h
      rw [h2] at h
      cases h
      have hgp : ∀ x ∈ (gs.flatten ++ if p.instLayout.isEmpty then [] else [txt "\n"]), GlobalPiece p x := by
        intro x hx
        rcases List.mem_append.1 hx with hx | hx
        · obtain ⟨l, hl, hx⟩ := List.mem_flatten.1 hx
          obtain ⟨v, -, hv⟩ := allSome_mem hgs hl
          exact BackLlvm.globalInst_of hv x hx
        · split at hx
          · cases hx
          · rw [List.mem_singleton] at hx; exact .inl ⟨_, hx⟩
      have hpre := runPieces_pre h1 (fun q hq => by rcases hgp _ hq with ⟨s, h⟩ | ⟨v, d, -, h⟩ <;> cases h)
      have hfun := runPieces_funcs h1 (fun g c hq => by rcases hgp _ hq with ⟨s, h⟩ | ⟨v, d, -, h⟩ <;> cases h)
      obtain ⟨a1, a2⟩ := BackLlvm.funcs_at p.funcLayout [] ⟨hpre, fun g n hg => by rw [hfun] at hg; cases hg⟩ (by simp)
        (fun l1 f l2 hl ps g c hps hg => by
          obtain ⟨fd, h3, h4⟩ := BackLlvm.func_of hps
          have h5 := h4 _ hg
          cases h5 with
          | func _ h6 =>
            rcases h6 with rfl | ⟨v, d, as, h7, h8⟩
            · exact .inr (.inr rfl)
            · exact .inr (hcall l1 f l2 fd v d g as hl h3 h7 h8)
          | val _ hp =>
            unfold namePiece at hp
            split at hp
            · cases hp
            · split at hp <;> cases hp) hfs h2
      intro f hf
      rcases hn : m.funcs.get? f with _ | n
      · exact absurd hn (a2 f (.inr hf))
      · obtain ⟨t, rfl⟩ := a1.names f n hn
        exact ⟨t, hn⟩
    · cases hv

/-- Function `@f` calls function `g`. -/
def callOps (g : Func) : List Op :=
  [ .newFuncDef ['@', 'f'] [] .unit, .newFuncDecl ['@', 'g'] [] .unit, .newFuncDef ['@', 'h'] [] .unit, .newBb 3 none, .newLocal 3 (.call 2 []),
    .newLocal 3 (.ret none), .layout 3 (.insertBb 0 1), .layout 3 (.insertInst 1 0 0x40000000), .layout 3 (.insertInst 1 1 0x40000001),
    .newBb 1 none, .newLocal 1 (.call g []), .newLocal 1 (.ret none), .layout 1 (.insertBb 0 2), .layout 1 (.insertInst 2 0 0x40000002),
    .layout 1 (.insertInst 2 1 0x40000003) ]

/-- The program built by the calls is emitted as `s`, and function `g` has name `n`. -/
def emits (ops : List Op) (s : String) (g : Func) (n : String) : Bool :=
  match (Program.new Ids.init).run ops with
  | none => false
  | some p => match llvmGenerate .added NM.new p with
    | none => false
    | some (t, m) => decide (t = s.toList) && decide (m.names.ent (.func g) = some n.toList) && decide (g ∈ p.funcLayout)

/-- C31 in full. -/
def FunctionsAreGlobals : Prop :=
  ∀ o p s m, AnyReach p → llvmGenerate o NM.new p = some (s, m) → ∀ f ∈ p.funcLayout, ∃ n, m.names.ent (.func f) = some ('@' :: n)

/-- C31 fails: a function that is called before its own text is emitted gets a name with `%`, because the prefix for
locals is set while the calling function is visited (llvm.rs:115). -/
theorem C31_violated : ¬ FunctionsAreGlobals := by
  intro hall
  have h : emits (callOps 2) "define void @f() {\n$0:\n  call void %g()\n  ret void\n}\n\ndeclare void %g()\n\ndefine void @h() {\n$1:\n  call void %g()\n  ret void\n}\n" 2 "%g" = true := by
    decide +kernel
  unfold emits at h
  split at h
  · cases h
  · rename_i p hp
    split at h
    · cases h
    · rename_i t m hm
      simp only [Bool.and_eq_true, decide_eq_true_eq] at h
      obtain ⟨n, hn⟩ := hall _ p t m (anyReach_run _ hp) hm 2 h.2
      rw [h.1.2] at hn
      revert hn
      simp

/-- A case in which all functions are emitted as globals: `@f` calls itself and `@h` calls `@g`. -/
example : emits (callOps 1) "define void @f() {\n$0:\n  call void @f()\n  ret void\n}\n\ndeclare void @g()\n\ndefine void @h() {\n$1:\n  call void @g()\n  ret void\n}\n" 2 "@g" = true := by
  decide +kernel

/-! ### Cases for the conditions on names -/

/-- The second character is neither a digit nor `$`. -/
def plainName : Str → Bool
  | _ :: d :: _ => !decide (48 ≤ d.toNat ∧ d.toNat ≤ 57) && d != '$'
  | _ => false

theorem plainName.notTemp {c : Str} (h : plainName c = true) : NotTemp c := by
  intro k hc
  subst hc
  rcases hs : showNat k with _ | ⟨d, ds⟩
  · exact showNat_ne_nil k hs
  · rw [hs] at h
    have hd := showNat_digit (n := k) (c := d) (by rw [hs]; exact List.mem_cons_self)
    simp [plainName, hd] at h

theorem plainName.llvmOk {c : Str} (h : plainName c = true) : LlvmOk c := by
  rintro d rest (rfl | ⟨x, -, rfl⟩)
  · simp [plainName] at h
  · simp only [plainName, Bool.and_eq_true, Bool.not_eq_true', decide_eq_false_iff_not] at h
    exact h.1

/-- All names of the program pass the check. -/
def plainNames (p : Program) : Bool :=
  p.values.entries.all (fun e => e.2.name.all plainName) &&
    p.funcs.entries.all (fun e => plainName e.2.name && e.2.dfg.values.entries.all (fun e => e.2.name.all plainName) &&
      e.2.dfg.bbs.entries.all (fun e => e.2.name.all plainName))

theorem plainNames.ok {p : Program} (h : plainNames p = true) : NamesOk (fun c => plainName c = true) p := by
  unfold plainNames at h
  simp only [Bool.and_eq_true, List.all_eq_true] at h
  obtain ⟨h1, h2⟩ := h
  refine ⟨fun f fd hf => (h2 _ (Map.mem_of_lookup hf)).1.1, fun v d n hv hn => ?_, fun f fd v d n hf hv hn => ?_, fun f fd v d n hf hv hn => ?_⟩
  · have := h1 _ (Map.mem_of_lookup hv)
    simpa [hn] using this
  · have := (h2 _ (Map.mem_of_lookup hf)).1.2 _ (Map.mem_of_lookup hv)
    simpa [hn] using this
  · have := (h2 _ (Map.mem_of_lookup hf)).2 _ (Map.mem_of_lookup hv)
    simpa [hn] using this

/-- A case for C25 and C29: the program with two values and a block named `%x`, and one unnamed value. -/
example : ∃ p, AnyReach p ∧ NamesOk NotTemp p ∧ NamesOk LlvmOk p ∧ (∃ s m, koopaGenerate NM.new p = some (s, m)) ∧
    ∃ s m, llvmGenerate .added NM.new p = some (s, m) := by
  have h : (match (Program.new Ids.init).run (twoNames (some ['%', 'x']) (some ['%', 'x'])) with
    | some p => plainNames p && (koopaGenerate NM.new p).isSome && (llvmGenerate .added NM.new p).isSome
    | none => false) = true := by decide +kernel
  split at h
  · rename_i p hp
    simp only [Bool.and_eq_true, Option.isSome_iff_exists, Prod.exists] at h
    exact ⟨p, anyReach_run _ hp, (plainNames.ok h.1.1).mono (fun _ => plainName.notTemp), (plainNames.ok h.1.1).mono (fun _ => plainName.llvmOk), h.1.2, h.2⟩
  · cases h

end Koopa
