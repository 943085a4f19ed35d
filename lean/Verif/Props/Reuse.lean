import Verif.Lemmas.Back.Reuse
import Verif.Lemmas.Back.TreeRun
import Verif.Model.Back.Writer
import Verif.Props.OneMeaning
import Verif.Props.FrontCases
/-!
C59: writers that fail. C60: generators that are used again.
-/
namespace Koopa
open Spec Lib

/-! ### C59 -/

/-- The writer takes `n` bytes. -/
def Takes (room : Option Nat) (n : Nat) : Prop := ∀ r, room = some r → n ≤ r

theorem takesBytes_iff {room : Option Nat} {n : Nat} : takesBytes room n = true ↔ Takes room n := by
  cases room with
  | none => exact ⟨fun _ r h => (by cases h), fun _ => rfl⟩
  | some r =>
    simp only [takesBytes, decide_eq_true_eq]
    exact ⟨fun h r' e => (by cases e; exact h), fun h => h r rfl⟩

theorem utf8_append (s t : Str) : utf8 (s ++ t) = utf8 s ++ utf8 t := by simp [utf8]

theorem writePieces_spec : ∀ {ps : List Piece} {m n : NM} {s : Str}, runPieces m ps = some (s, n) → ∀ room,
    (Takes room (utf8 s).length → writePieces room m ps = some (true, utf8 s, n)) ∧
    (∀ r, room = some r → r < (utf8 s).length → ∃ m', writePieces room m ps = some (false, (utf8 s).take r, m'))
  | [], m, n, s, h, room => by
    cases h
    exact ⟨fun _ => rfl, fun r _ hr => absurd hr (Nat.not_lt_zero _)⟩
  | x :: xs, m, n, s, h, room => by
    rw [runPieces] at h
    split at h
    · cases h
    · rename_i s1 m1 h1
      split at h
      · cases h
      · rename_i s2 m2 h2
        cases h
        have ih := writePieces_spec h2
        simp only [writePieces, h1, utf8_append, List.length_append]
        constructor
        · intro ht
          have ht1 : takesBytes room (utf8 s1).length = true := takesBytes_iff.2 (fun r hr => by have := ht r hr; omega)
          rw [if_pos ht1, (ih (room.map (· - (utf8 s1).length))).1 (fun r hr => by
            obtain ⟨r', hr', rfl⟩ := Option.map_eq_some_iff.1 hr
            have := ht r' hr'
            omega)]
        · rintro r rfl hr
          by_cases h3 : (utf8 s1).length ≤ r
          · rw [if_pos (takesBytes_iff.2 (fun r' e => by cases e; exact h3))]
            obtain ⟨m', h4⟩ := (ih (some (r - (utf8 s1).length))).2 _ rfl (by omega)
            rw [Option.map_some, h4]
            exact ⟨m', by rw [List.take_append, List.take_of_length_le h3]⟩
          · have h4 : ¬ takesBytes (some r) (utf8 s1).length = true := fun h => h3 (takesBytes_iff.1 h r rfl)
            rw [if_neg h4]
            exact ⟨m1, by rw [List.take_append_of_le_length (by omega)]; rfl⟩

/-- C59: a dump to a file reports success exactly if the whole text was written, and else that it was not, leaving the beginning of the text; for either
generator. Bad paths and files that cannot be created are reported before anything is written. -/
theorem C59_dump_to_file {V : VisitorOf} {p : Program} {ps : List Piece} {text : Str} {n : NM} (hV : V p = some ps)
    (hg : runPieces NM.new ps = some (text, n)) (create : String → Option (Option Nat)) (path : List UInt8) :
    ∃ c bs, dumpFile V create p path = some (c, bs) ∧
      (c = .success ↔ ∃ t room, toStr path = some t ∧ create t = some room ∧ Takes room (utf8 text).length) ∧
      (c = .success → bs = utf8 text) ∧
      (c = .ioError ↔ ∃ t r, toStr path = some t ∧ create t = some (some r) ∧ r < (utf8 text).length) ∧
      (c = .ioError → bs <+: utf8 text ∧ bs ≠ utf8 text) ∧
      (c = .invalidUtf8String ↔ toStr path = none) ∧ (c = .invalidFile ↔ ∃ t, toStr path = some t ∧ create t = none) ∧
      (c = .invalidUtf8String ∨ c = .invalidFile → bs = []) := by
  unfold dumpFile generateOn
  split
  · rename_i h1
    refine ⟨_, _, rfl, ?_⟩
    simp [h1]
  · rename_i t h1
    split
    · rename_i h2
      refine ⟨_, _, rfl, ?_⟩
      simp [h1, h2]
    · rename_i room h2
      simp only [hV]
      obtain ⟨k1, k2⟩ := writePieces_spec hg room
      by_cases ht : Takes room (utf8 text).length
      · rw [k1 ht]
        refine ⟨_, _, rfl, ?_⟩
        have hn : ∀ r, room = some r → ¬ r < (utf8 text).length := fun r hr => by have := ht r hr; omega
        refine ⟨⟨fun _ => ⟨t, room, h1, h2, ht⟩, fun _ => rfl⟩, fun _ => rfl, ⟨fun h => (by simp at h), ?_⟩, fun h => (by simp at h), by simp [h1], by simp [h1, h2], fun h => (by simp at h)⟩
        rintro ⟨t', r, h3, h4, h5⟩
        rw [h1] at h3; cases h3
        rw [h2] at h4; cases h4
        exact absurd h5 (hn r rfl)
      · obtain ⟨r, rfl, hr⟩ : ∃ r, room = some r ∧ r < (utf8 text).length := by
          cases room with
          | none => exact absurd (fun r h => by cases h) ht
          | some r => exact ⟨r, rfl, by
              by_cases h : r < (utf8 text).length
              · exact h
              · exact absurd (fun r' e => by cases e; omega) ht⟩
        obtain ⟨m', h3⟩ := k2 r rfl hr
        rw [h3]
        refine ⟨_, _, rfl, ⟨fun h => (by simp at h), ?_⟩, fun h => (by simp at h), ⟨fun _ => ⟨t, r, h1, h2, hr⟩, fun _ => rfl⟩, fun _ => ⟨List.take_prefix _ _, fun h => ?_⟩,
          by simp [h1], by simp [h1, h2], fun h => (by simp at h)⟩
        · rintro ⟨t', room', h4, h5, h6⟩
          rw [h1] at h4; cases h4
          rw [h2] at h5; cases h5
          exact absurd h6 ht
        · have := congrArg List.length h
          rw [List.length_take] at this
          omega

/-- C59 for the standard output and raw files. -/
theorem C59_dump_to_raw {V : VisitorOf} {p : Program} {ps : List Piece} {text : Str} {n : NM} (hV : V p = some ps)
    (hg : runPieces NM.new ps = some (text, n)) (room : Option Nat) :
    ∃ c bs, dumpRaw V room p = some (c, bs) ∧ (c = .success ∨ c = .ioError) ∧ (c = .success ↔ Takes room (utf8 text).length) ∧
      (c = .success → bs = utf8 text) ∧ (c = .ioError → bs <+: utf8 text ∧ bs ≠ utf8 text) := by
  unfold dumpRaw generateOn
  simp only [hV]
  obtain ⟨k1, k2⟩ := writePieces_spec hg room
  by_cases ht : Takes room (utf8 text).length
  · rw [k1 ht]
    exact ⟨_, _, rfl, .inl rfl, ⟨fun _ => ht, fun _ => rfl⟩, fun _ => rfl, fun h => (by simp at h)⟩
  · obtain ⟨r, rfl, hr⟩ : ∃ r, room = some r ∧ r < (utf8 text).length := by
      cases room with
      | none => exact absurd (fun r h => by cases h) ht
      | some r => exact ⟨r, rfl, by
          by_cases h : r < (utf8 text).length
          · exact h
          · exact absurd (fun r' e => by cases e; omega) ht⟩
    obtain ⟨m', h3⟩ := k2 r rfl hr
    rw [h3]
    refine ⟨_, _, rfl, .inr rfl, ⟨fun h => (by simp at h), fun h => absurd h ht⟩, fun h => (by simp at h), fun _ => ⟨List.take_prefix _ _, fun h => ?_⟩⟩
    have := congrArg List.length h
    rw [List.length_take] at this
    omega

/-! ### C60 -/

/-- What a program asks for. -/
def progMatter (p : Program) : Matter where
  name n := ∃ c, NameIn p c ∧ (n = c ∨ ∃ i, n = suffixed c i)
  func f := ∃ fd, p.funcs.get? f = some fd
  var v := (∃ x, GlobalVal p v x) ∨ ∃ f x, LocalVal p f v x

theorem Spec.NameIn.chosen {p : Program} {c : Str} (h : NameIn p c) : (progMatter p).chosen c := ⟨⟨c, h, .inl rfl⟩, fun i => ⟨c, h, .inr ⟨i, rfl⟩⟩⟩

theorem allAsked_app {K : Matter} {i : Bool} {ys : List Piece} (h2 : AllAsked K i ys) : ∀ {xs : List Piece}, (∀ x ∈ xs, Asked K i x ∧ nextScope i x = i) → AllAsked K i (xs ++ ys)
  | [], _ => h2
  | x :: xs, h => by
    obtain ⟨h3, h4⟩ := h x List.mem_cons_self
    refine ⟨h3, ?_⟩
    rw [h4]
    exact allAsked_app h2 (fun y hy => h y (List.mem_cons_of_mem _ hy))

theorem PieceOf.asked {p : Program} {f : Func} {fd : FData} (hf : p.funcs.get? f = some fd) {x : Piece} (h : PieceOf [] p f fd x) :
    Asked (progMatter p) true x ∧ nextScope true x = true := by
  cases h with
  | lit s => exact ⟨trivial, rfl⟩
  | func hg _ => exact ⟨⟨⟨_, hg⟩, (NameIn.func hg).chosen⟩, rfl⟩
  | bb hb => exact ⟨rfl, rfl⟩
  | label hb => exact ⟨rfl, rfl⟩
  | @val v d _ hv hx =>
    have key : ∀ c, d.name = some c → (progMatter p).chosen c := by
      intro c h
      rcases hv with hv | hv
      · exact (NameIn.global hv h).chosen
      · exact (NameIn.local ⟨fd, hf, hv⟩ h).chosen
    unfold namePiece at hx
    split at hx
    · cases hx
    · split at hx <;> cases hx
      · refine ⟨⟨?_, key⟩, rfl⟩
        rcases hv with hv | hv
        · exact .inl ⟨_, hv⟩
        · exact .inr ⟨f, _, fd, hf, hv⟩
      · exact ⟨⟨rfl, key⟩, rfl⟩
  | temp v => exact ⟨rfl, rfl⟩
  | setPrefix hq => cases hq

theorem GlobalPiece.asked {p : Program} {x : Piece} (h : GlobalPiece p x) : Asked (progMatter p) false x ∧ nextScope false x = false := by
  rcases h with ⟨s, rfl⟩ | ⟨v, d, hv, rfl⟩
  · exact ⟨trivial, rfl⟩
  · exact ⟨⟨.inl ⟨_, hv⟩, fun c h => (NameIn.global hv h).chosen⟩, rfl⟩

theorem funcs_asked {p : Program} : ∀ {fs : List Func} {ps : List Piece}, funcsOf (BackKoopa.func p) fs = some ps →
    AllAsked (progMatter p) false ps ∧ ps.foldl nextScope false = false
  | [], ps, h => by cases h; exact ⟨trivial, rfl⟩
  | [f], ps, h => by
    obtain ⟨x, hx, rfl⟩ := Option.map_eq_some_iff.1 h
    obtain ⟨fd, hf, h1⟩ := BackKoopa.func_of (ks := []) hx
    refine ⟨⟨trivial, allAsked_app (K := progMatter p) (i := true) (ys := [.exit]) ⟨trivial, trivial⟩ (fun y hy => (h1 y hy).asked hf)⟩, ?_⟩
    simp [List.foldl_append, nextScope]
  | f :: f' :: fs, ps, h => by
    rw [funcsOf_cons] at h
    split at h
    · rename_i x y hx hy
      cases h
      obtain ⟨fd, hf, h1⟩ := BackKoopa.func_of (ks := []) hx
      obtain ⟨h2, h3⟩ := funcs_asked hy
      refine ⟨⟨trivial, allAsked_app (K := progMatter p) (i := true) (ys := .exit :: txt "\n" :: y) ⟨trivial, trivial, h2⟩ (fun y hy => (h1 y hy).asked hf)⟩, ?_⟩
      simpa [List.foldl_append, nextScope, txt] using h3
    · cases h

theorem foldl_scope {i : Bool} : ∀ {xs : List Piece}, (∀ x ∈ xs, nextScope i x = i) → xs.foldl nextScope i = i
  | [], _ => rfl
  | x :: xs, h => by rw [List.foldl_cons, h x List.mem_cons_self]; exact foldl_scope (fun y hy => h y (List.mem_cons_of_mem _ hy))

theorem visit_asked {p : Program} {ps : List Piece} (h : BackKoopa.visit p = some ps) : AllAsked (progMatter p) false ps ∧ ps.foldl nextScope false = false := by
  unfold BackKoopa.visit at h
  split at h
  · rename_i gs fs hgs hfs
    cases h
    rw [BackKoopa.funcs_eq] at hfs
    obtain ⟨h2, h3⟩ := funcs_asked hfs
    rw [← List.append_assoc]
    have key : ∀ x ∈ gs.flatten ++ (if p.instLayout.isEmpty then [] else [txt "\n"]), Asked (progMatter p) false x ∧ nextScope false x = false := by
      intro x hx
      refine GlobalPiece.asked (p := p) ?_
      rcases List.mem_append.1 hx with hx | hx
      · obtain ⟨l, hl, hx⟩ := List.mem_flatten.1 hx
        obtain ⟨v, -, hv⟩ := allSome_mem hgs hl
        exact BackKoopa.globalInst_of hv x hx
      · split at hx
        · cases hx
        · rw [List.mem_singleton] at hx; exact .inl ⟨_, hx⟩
    refine ⟨allAsked_app h2 key, ?_⟩
    rw [List.foldl_append, foldl_scope (fun x hx => (key x hx).2), h3]
  · cases h

/-- Missing for C60: programs whose names are in use from programs written before (`C60_violated`), and generators whose writer has failed
(`C60_failed_panics`). Otherwise a used generator writes what a new one would that counts temporary names from the same number. -/
theorem C60_reuse_partial {m : NM} {p : Program} (hi : Idle m) (hu : Unknown m p) (hc : NoClash m p) :
    (koopaGenerate m p).map (·.1) = (koopaGenerate (freshFrom m.nextId) p).map (·.1) := by
  unfold koopaGenerate
  split
  · rfl
  · rename_i ps hps
    obtain ⟨h1, -⟩ := visit_asked hps
    have hA : AgreeOn (progMatter p) m (freshFrom m.nextId) := by
      refine ⟨rfl, hi.global, ⟨hi.plain, rfl⟩, ?_, hi.noLabels, hi.noBlocks, ?_, ?_, fun h => ?_⟩
      · rintro n ⟨c, h2, h3⟩
        obtain ⟨h4, h5⟩ := hc c h2
        refine ⟨fun h => ?_, fun h => by cases h⟩
        rcases h3 with rfl | ⟨i, rfl⟩
        · exact absurd h h4
        · exact absurd h (h5 i)
      · rintro f ⟨fd, hf⟩; rw [hu.funcs f fd hf]; rfl
      · rintro v (⟨x, hx⟩ | ⟨f, x, hx⟩)
        · rw [hu.globals v x hx]; rfl
        · rw [hu.locals f v x hx]; rfl
      · rw [hi.global] at h; cases h
    rcases pieces_same hA (by rw [hi.global]; exact h1) with ⟨h2, h3⟩ | ⟨s, a, b, h2, h3, -⟩
    · rw [h2, h3]
    · rw [h2, h3]; rfl

/-- Between two programs: what holds while pieces are written. -/
def Settled (m : NM) : Prop := m.pre = .default ∧ (m.inFunc = false → m.bbNames = [] ∧ m.bbs = .empty)

theorem piece_settled {K : Matter} {m m' : NM} {x : Piece} {s : Str} (hm : Settled m) (hx : Asked K m.inFunc x) (h : x.run m = some (s, m')) : Settled m' := by
  have nn : ∀ {m m' : NM} {ns ns' c n}, m.nextName ns c = some (n, ns', m') → m'.inFunc = m.inFunc ∧ m'.pre = m.pre ∧ m'.bbNames = m.bbNames ∧ m'.bbs = m.bbs := by
    intro m m' ns ns' c n h
    unfold NM.nextName at h
    split at h
    · cases h; exact ⟨rfl, rfl, rfl, rfl⟩
    · split at h
      · cases h
      · split at h
        · cases h
        · cases h; exact ⟨rfl, rfl, rfl, rfl⟩
  have keep : ∀ {m' : NM}, m'.inFunc = m.inFunc ∧ m'.pre = m.pre ∧ m'.bbNames = m.bbNames ∧ m'.bbs = m.bbs → Settled m' := by
    rintro m' ⟨h1, h2, h3, h4⟩
    unfold Settled
    rw [h1, h2, h3, h4]; exact hm
  have bn : ∀ {b c n m'}, m.inFunc = true → m.bbName b c = some (n, m') → Settled m' := by
    intro b c n m' hi h
    unfold NM.bbName at h
    split at h
    · cases h; exact hm
    · split at h
      · cases h
      · rename_i h1
        cases h
        have := nn h1
        exact ⟨this.2.1.trans hm.1, fun h => by rw [show _ = _ from this.1, hi] at h; cases h⟩
  cases x with
  | lit s => cases h; exact hm
  | func f c =>
    simp only [Piece.run, NM.funcName] at h
    split at h
    · cases h; exact hm
    · split at h
      · cases h
      · rename_i h1; cases h; exact keep (nn h1 :)
  | bb b c => exact bn hx h
  | label b c =>
    simp only [Piece.run] at h
    split at h
    · cases h
    · cases h
    · rename_i h1
      cases h; exact bn hx h1
  | global v c =>
    simp only [Piece.run, NM.globalName] at h
    split at h
    · cases h; exact hm
    · split at h
      · cases h
      · rename_i h1; cases h; exact keep (nn h1 :)
  | value v c =>
    simp only [Piece.run, NM.valueName] at h
    split at h
    · cases h; exact hm
    · split at h
      · cases h
      · rename_i h1; cases h; exact keep (nn h1 :)
  | temp v =>
    simp only [Piece.run, NM.tempOf] at h
    split at h
    · cases h; exact hm
    · split at h
      · cases h
      · rename_i h1; cases h; exact keep (nn h1 :)
  | setPrefix q => cases hx
  | enter =>
    simp only [Piece.run, NM.enter] at h
    split at h
    · cases h
    · cases h; exact ⟨hm.1, fun h => by cases h⟩
  | exit =>
    simp only [Piece.run, NM.exit] at h
    split at h
    · cases h; exact ⟨hm.1, fun _ => ⟨rfl, rfl⟩⟩
    · cases h

theorem pieces_settled {K : Matter} : ∀ {ps : List Piece} {m m' : NM} {s : Str}, Settled m → AllAsked K m.inFunc ps → runPieces m ps = some (s, m') →
    Settled m' ∧ m'.inFunc = ps.foldl nextScope m.inFunc
  | [], m, m', s, hm, _, h => by cases h; exact ⟨hm, rfl⟩
  | x :: xs, m, m', s, hm, hx, h => by
    rw [runPieces] at h
    split at h
    · cases h
    · rename_i s1 m1 h1
      split at h
      · cases h
      · rename_i s2 m2 h2
        cases h
        have e := run_scope h1
        obtain ⟨h3, h4⟩ := pieces_settled (piece_settled hm hx.1 h1) (by rw [e]; exact hx.2) h2
        exact ⟨h3, by rw [h4, List.foldl_cons, e]⟩

/-- After a program is written the generator is ready for the next. -/
theorem C60_idle_again {m m' : NM} {p : Program} {s : Str} (hi : Idle m) (h : koopaGenerate m p = some (s, m')) : Idle m' := by
  unfold koopaGenerate at h
  split at h
  · cases h
  · rename_i ps hps
    obtain ⟨h1, h2⟩ := visit_asked hps
    obtain ⟨h3, h4⟩ := pieces_settled ⟨hi.plain, fun _ => ⟨hi.noLabels, hi.noBlocks⟩⟩ (by rw [hi.global]; exact h1) h
    rw [hi.global, h2] at h4
    exact ⟨h4, h3.1, (h3.2 h4).1, (h3.2 h4).2⟩

theorem C60_idle_new : Idle NM.new := ⟨rfl, rfl, rfl, rfl⟩

/-- Nothing is written, not even an error, by a generator that is still in a function: it panics. -/
theorem C60_in_function_panics {m : NM} {p : Program} (hm : m.inFunc = true) (hp : p.funcLayout ≠ []) : koopaGenerate m p = none := by
  unfold koopaGenerate
  split
  · rfl
  · rename_i ps hps
    unfold BackKoopa.visit at hps
    split at hps
    · rename_i gs fs hgs hfs
      cases hps
      rw [BackKoopa.funcs_eq] at hfs
      obtain ⟨f, l, hl⟩ : ∃ f l, p.funcLayout = f :: l := by
        cases h : p.funcLayout with
        | nil => exact absurd h hp
        | cons f l => exact ⟨f, l, rfl⟩
      have hstart : ∃ r, fs = .enter :: r := by
        rw [hl] at hfs
        cases l with
        | nil => obtain ⟨x, -, rfl⟩ := Option.map_eq_some_iff.1 hfs; exact ⟨_, rfl⟩
        | cons g l =>
          rw [funcsOf_cons] at hfs
          split at hfs
          · cases hfs; exact ⟨_, rfl⟩
          · cases hfs
      obtain ⟨r, rfl⟩ := hstart
      have key : ∀ x ∈ gs.flatten ++ (if p.instLayout.isEmpty then [] else [txt "\n"]), nextScope true x = true := by
        intro x hx
        have hx : GlobalPiece p x := by
          rcases List.mem_append.1 hx with hx | hx
          · obtain ⟨l, hl, hx⟩ := List.mem_flatten.1 hx
            obtain ⟨v, -, hv⟩ := allSome_mem hgs hl
            exact BackKoopa.globalInst_of hv x hx
          · split at hx
            · cases hx
            · rw [List.mem_singleton] at hx; exact .inl ⟨_, hx⟩
        rcases hx with ⟨s, rfl⟩ | ⟨v, d, -, rfl⟩ <;> rfl
      rw [← List.append_assoc]
      generalize gs.flatten ++ (if p.instLayout.isEmpty then [] else [txt "\n"]) = xs at key ⊢
      induction xs generalizing m with
      | nil => simp [runPieces, Piece.run, NM.enter, hm]
      | cons x xs ih =>
        rw [List.cons_append, runPieces]
        split
        · rfl
        · rename_i s m1 h1
          have := run_scope h1
          rw [hm, key x List.mem_cons_self] at this
          rw [ih this (fun y hy => key y (List.mem_cons_of_mem _ hy))]
    · cases hps

/-- Two programs, one after the other. -/
def bothAccepted (t t' : Str) (q : Program → Program → Bool) : Bool :=
  acceptsAt someWorld t (fun p => acceptsAt otherWorld t' (q p))

theorem bothAccepted_iff {t t' : Str} {q : Program → Program → Bool} (h : bothAccepted t t' q = true) :
    ∃ p p', Accepted someWorld t p ∧ Accepted otherWorld t' p' ∧ q p p' = true := by
  obtain ⟨p, h1, h2⟩ := acceptsAt_iff ⟨by decide, by decide⟩ h
  obtain ⟨p', h3, h4⟩ := acceptsAt_iff ⟨by decide, by decide⟩ h2
  exact ⟨p, p', h1, h3, h4⟩

/-- What a generator writes for the second program after the first, and a new generator. -/
def reuseCheck (t t' : Str) : Program → Program → Bool := fun p p' =>
  match koopaGenerate NM.new p with
  | some (_, m) => (koopaGenerate m p').map (·.1) == some t && (koopaGenerate NM.new p').map (·.1) == some t'
  | none => false

/-- C60 in full, that the text depends on the program only, does not hold: names of programs written before stay in use. -/
theorem C60_violated : ¬ ∀ (m : NM) (p p' : Program) (s : Str), (∃ w t, Accepted w t p) → (∃ w t, Accepted w t p') →
    koopaGenerate NM.new p = some (s, m) → (koopaGenerate m p').map (·.1) = (koopaGenerate NM.new p').map (·.1) := by
  intro h
  obtain ⟨p, p', h1, h2, h3⟩ := bothAccepted_iff (t := "decl @f(i32)".toList) (t' := "decl @f()".toList)
    (q := reuseCheck "decl @f_0()\n".toList "decl @f()\n".toList) (by decide +kernel)
  unfold reuseCheck at h3
  split at h3
  · rename_i s m hs
    rw [Bool.and_eq_true, beq_iff_eq, beq_iff_eq] at h3
    have := h m p p' s ⟨_, _, h1⟩ ⟨_, _, h2⟩ hs
    rw [h3.1, h3.2] at this
    exact absurd this (by decide)
  · cases h3

/-- After a write has failed in a function, the generator panics on every program with a function. -/
theorem C60_failed_panics : ∃ p bs m, (∃ w t, Accepted w t p) ∧ generateOn BackKoopa.visit (some 50) NM.new p = some (false, bs, m) ∧
    ∀ p', p'.funcLayout ≠ [] → koopaGenerate m p' = none := by
  obtain ⟨p, h, hq⟩ := acceptsAt_iff (w := someWorld) ⟨by decide, by decide⟩ (input := loopText)
    (q := fun p => match generateOn BackKoopa.visit (some 50) NM.new p with
      | some (false, _, m) => m.inFunc
      | _ => false) (by decide +kernel)
  split at hq
  · rename_i bs m e
    exact ⟨p, bs, m, ⟨_, _, h⟩, e, fun p' => C60_in_function_panics hq⟩
  · cases hq

/-- The hypotheses of `C60_reuse_partial` on the entries. -/
def unusedCheck (m : NM) (p : Program) : Bool :=
  let names := p.funcs.entries.flatMap (fun x => x.2.name :: x.2.dfg.values.entries.filterMap (·.2.name)) ++ p.values.entries.filterMap (·.2.name)
  p.funcs.entries.all (fun x => (m.funcs.get? x.1).isNone && x.2.dfg.values.entries.all (fun y => (m.globalVars.get? y.1).isNone)) &&
    p.values.entries.all (fun x => (m.globalVars.get? x.1).isNone) && names.all (fun c => m.globalNames.all (fun n => !c.isPrefixOf n))

theorem unusedCheck_sound {m : NM} {p : Program} (h : unusedCheck m p = true) : Unknown m p ∧ NoClash m p := by
  simp only [unusedCheck, Bool.and_eq_true, List.all_eq_true, Option.isNone_iff_eq_none, Bool.not_eq_true'] at h
  obtain ⟨⟨h1, h2⟩, h3⟩ := h
  have hc : ∀ c, NameIn p c → ∀ n ∈ m.globalNames, c.isPrefixOf n = false := by
    intro c hc
    apply h3
    rw [List.mem_append, List.mem_flatMap]
    cases hc with
    | func hf => exact .inl ⟨_, Map.mem_of_lookup hf, List.mem_cons_self⟩
    | global hv hn => exact .inr (List.mem_filterMap.2 ⟨_, Map.mem_of_lookup hv, hn⟩)
    | «local» hv hn =>
      obtain ⟨fd, hf, hv⟩ := hv
      exact .inl ⟨_, Map.mem_of_lookup hf, List.mem_cons_of_mem _ (List.mem_filterMap.2 ⟨_, Map.mem_of_lookup hv, hn⟩)⟩
  refine ⟨⟨fun f fd hf => (h1 _ (Map.mem_of_lookup hf)).1, fun v x hv => h2 _ (Map.mem_of_lookup hv), ?_⟩, fun c h => ⟨fun hm => ?_, fun i hm => ?_⟩⟩
  · rintro f v x ⟨fd, hf, hv⟩
    exact (h1 _ (Map.mem_of_lookup hf)).2 _ (Map.mem_of_lookup hv)
  · have := hc c h _ hm
    rw [List.isPrefixOf_iff_prefix.2 (List.prefix_refl c)] at this
    cases this
  · have := hc c h _ hm
    rw [List.isPrefixOf_iff_prefix.2 (List.prefix_append c _)] at this
    cases this

/-- A program after another, with other names for its functions and globals, and a block parameter that is printed with a temporary name. -/
example : ∃ p p' s m, Accepted someWorld loopText p ∧ (∃ t, Accepted otherWorld t p') ∧ koopaGenerate NM.new p = some (s, m) ∧
    Idle m ∧ Unknown m p' ∧ NoClash m p' := by
  obtain ⟨p, p', h1, h2, h3⟩ := bothAccepted_iff (t := loopText) (t' := "global @h = alloc i32, 3 fun @k(@x: i32): i32 {%entry: %y = add @x, 1 ret %y}".toList)
    (q := fun p p' => match koopaGenerate NM.new p with
      | some (_, m) => unusedCheck m p'
      | none => false) (by decide +kernel)
  split at h3
  · rename_i s m hs
    exact ⟨p, p', s, m, h1, ⟨_, h2⟩, hs, C60_idle_again C60_idle_new hs, unusedCheck_sound h3⟩
  · cases h3

/-- C59 on an accepted program. -/
example : ∃ p ps text n, Accepted someWorld loopText p ∧ BackKoopa.visit p = some ps ∧ runPieces NM.new ps = some (text, n) ∧ 10 < (utf8 text).length := by
  obtain ⟨p, h, hq⟩ := acceptsAt_iff (w := someWorld) ⟨by decide, by decide⟩ (input := loopText)
    (q := fun p => match BackKoopa.visit p with
      | some ps => match runPieces NM.new ps with
        | some (text, _) => decide (10 < (utf8 text).length)
        | none => false
      | none => false) (by decide +kernel)
  split at hq
  · rename_i ps e
    split at hq
    · rename_i text n e'
      exact ⟨p, ps, text, n, h, e, e', of_decide_eq_true hq⟩
    · cases hq
  · cases hq

end Koopa
