import Verif.Props.OptText
/-!
C66: the indices of parameters under the example optimizer.
-/
namespace Koopa
open Spec ConstFold

/-- The parameters of functions and blocks carry their positions. -/
structure Spec.ParamsNumbered (p : Program) : Prop where
  funcs : ∀ f fd (i : Nat) v, p.funcs.get? f = some fd → fd.params[i]? = some v → ∃ x, LocalVal p f v x ∧ x.kind = .funcArgRef i
  blocks : ∀ f b x (i : Nat) v, Block p f b x → x.params[i]? = some v → ∃ y, LocalVal p f v y ∧ y.kind = .blockArgRef i

/-- The parameters of functions carry their positions; those of listed blocks carry numbers that grow from one to the next. -/
structure Spec.ParamsIncreasing (p : Program) : Prop where
  funcs : ∀ f fd (i : Nat) v, p.funcs.get? f = some fd → fd.params[i]? = some v → ∃ x, LocalVal p f v x ∧ x.kind = .funcArgRef i
  params : ∀ f fd b is x v, p.funcs.get? f = some fd → (b, is) ∈ fd.layout.bbs → Block p f b x → v ∈ x.params → ∃ y i, LocalVal p f v y ∧ y.kind = .blockArgRef i
  blocks : ∀ f fd b is x, p.funcs.get? f = some fd → (b, is) ∈ fd.layout.bbs → Block p f b x → x.params.Pairwise (fun v w =>
    ∀ y z i j, LocalVal p f v y → y.kind = .blockArgRef i → LocalVal p f w z → z.kind = .blockArgRef j → i < j)

/-- C66: in a program from text. -/
theorem C66_accepted {w : World} {input : Str} {p : Program} (h : Accepted w input p) : ParamsNumbered p := by
  obtain ⟨gs, hg, -⟩ := C47_program_is_text h
  obtain ⟨vars, fns, A⟩ := h.fromText hg
  refine ⟨fun f fd i v hf hv => ?_, fun f b x i v hb hv => ?_⟩
  · obtain ⟨ts, r, _, _, _, _, hp⟩ := A.funcTy hf
    obtain ⟨x, hx, hk, -⟩ := hp i v hv
    exact ⟨x, hx, hk⟩
  · obtain ⟨fd, hf, hx⟩ := hb
    obtain ⟨z, hz, hp⟩ := A.blockData hf (A.blockListed hf ⟨fd, hf, hx⟩)
    rw [hx] at hz; cases hz
    obtain ⟨d, hd, hk⟩ := hp i v hv
    exact ⟨d, hd, hk⟩

/-- The same, of the view. -/
theorem Spec.ParamsNumbered.iff {p : Program} : ParamsNumbered p ↔
    (∀ f t n ps (i : Nat) v, p.view.head f = some (t, n, ps) → ps[i]? = some v → ∃ t' m, p.view.l f v = some (t', m, .funcArgRef i)) ∧
    ∀ f b n ps (i : Nat) v, p.view.b f b = some (n, ps) → ps[i]? = some v → ∃ t m, p.view.l f v = some (t, m, .blockArgRef i) := by
  constructor
  · intro h
    refine ⟨fun f t n ps i v hh hv => ?_, fun f b n ps i v hb hv => ?_⟩
    · obtain ⟨fd, hf, ee⟩ := Option.map_eq_some_iff.1 (show (p.funcs.get? f).map _ = some (t, n, ps) from hh)
      simp only [Prod.mk.injEq] at ee
      obtain ⟨x, hx, hk⟩ := h.funcs f fd i v hf (by rw [ee.2.2]; exact hv)
      exact ⟨x.ty, x.name, by rw [← hk]; exact view_l_iff.2 ⟨x, hx, rfl⟩⟩
    · obtain ⟨x, hx, -, rfl⟩ := view_b_iff.1 hb
      obtain ⟨y, hy, hk⟩ := h.blocks f b x i v hx hv
      exact ⟨y.ty, y.name, by rw [← hk]; exact view_l_iff.2 ⟨y, hy, rfl⟩⟩
  · rintro ⟨h1, h2⟩
    refine ⟨fun f fd i v hf hv => ?_, fun f b x i v hb hv => ?_⟩
    · obtain ⟨t', m, e⟩ := h1 f fd.ty fd.name fd.params i v (by show (p.funcs.get? f).map _ = _; rw [hf]; rfl) hv
      obtain ⟨x, hx, ex⟩ := view_l_iff.1 e
      exact ⟨x, hx, congrArg (·.2.2) ex⟩
    · obtain ⟨t', m, e⟩ := h2 f b x.name x.params i v (view_b_iff.2 ⟨x, hb, rfl, rfl⟩) hv
      obtain ⟨y, hy, ey⟩ := view_l_iff.1 e
      exact ⟨y, hy, congrArg (·.2.2) ey⟩

theorem ConstFold.Light.numbered {p p' : Program} (h : Light p p') (hN : ParamsNumbered p) : ParamsNumbered p' := by
  rw [ParamsNumbered.iff] at hN ⊢
  refine ⟨fun f t n ps i v hh hv => ?_, fun f b n ps i v hb hv => ?_⟩
  · rw [h.head] at hh
    obtain ⟨t', m, e⟩ := hN.1 f t n ps i v hh hv
    rcases h.l f v with e1 | ⟨_, _, op, a, c, ans, e1, -⟩
    · exact ⟨t', m, by rw [e1]; exact e⟩
    · rw [e] at e1; cases e1
  · rw [h.b] at hb
    obtain ⟨t', m, e⟩ := hN.2 f b n ps i v hb hv
    rcases h.l f v with e1 | ⟨_, _, op, a, c, ans, e1, -⟩
    · exact ⟨t', m, by rw [e1]; exact e⟩
    · rw [e] at e1; cases e1

theorem ConstFold.Mid.numbered {p q : Program} {f : Func} {fd : FData} {E : List (BB × Nat × VData)} (hi : CInv p) (hF : Foldable p f)
    (hf : p.funcs.get? f = some fd) (hS : Sound p f fd E) (hM : Mid p q f E) (hN : ParamsNumbered p) : ParamsNumbered q := by
  rw [ParamsNumbered.iff] at hN ⊢
  refine ⟨fun g t n ps i v hh hv => ?_, fun g b n ps i v hb hv => ?_⟩
  · rw [show q.view.head = p.view.head by rw [hM.rest]] at hh
    obtain ⟨t', m, e⟩ := hN.1 g t n ps i v hh hv
    by_cases hg : g = f
    · subst hg
      obtain ⟨n', k', h1, h2⟩ := hM.typesKept hi hF hf hS e
      rcases h2 with ⟨rfl, rfl⟩ | ⟨-, j, h2⟩
      · exact ⟨t', n', h1⟩
      · cases h2
    · exact ⟨t', m, by rw [hM.otherL g v hg]; exact e⟩
  · by_cases hg : g = f
    · subst hg
      obtain ⟨⟨n0, ps0⟩, hb0⟩ := Option.isSome_iff_exists.1 (hM.known b (by rw [hb]; rfl))
      obtain ⟨ps', h1, h2, h3⟩ := hM.paramsKept hi hF hb0
      rw [hb] at h1
      simp only [Option.some.injEq, Prod.mk.injEq] at h1
      obtain ⟨rfl, rfl⟩ := h1
      obtain ⟨x, hx⟩ : ∃ x, ps0[i]? = some x :=
        ⟨_, List.getElem?_eq_getElem (by rw [← h2]; exact (List.getElem?_eq_some_iff.1 hv).1)⟩
      obtain ⟨x', t, m, j, h4, h5, h6, -⟩ := h3 i x hx
      rw [hv] at h4; cases h4
      obtain ⟨t', m', e⟩ := hN.2 g b n ps0 i x hb0 hx
      rw [h5] at e
      have : VKind.blockArgRef j = .blockArgRef i := congrArg (·.2.2) (Option.some.inj e)
      exact ⟨t, m, by rw [← this]; exact h6⟩
    · rw [hM.otherB g b hg] at hb
      obtain ⟨t', m, e⟩ := hN.2 g b n ps i v hb hv
      exact ⟨t', m, by rw [hM.otherL g v hg]; exact e⟩

/-- C66: constant folding puts new parameters in the place of old ones, with the right numbers. -/
theorem C66_folded {w : World} {input : Str} {p p' : Program} {chk : Bool} (ha : Accepted w input p) (h : FoldPasses chk p p') : ParamsNumbered p' := by
  induction h with
  | refl => exact C66_accepted ha
  | @step _ p2 f _ _ _ _ _ h0 hb hus h ih =>
    obtain ⟨h1, h2, h3, -, -⟩ := FoldPasses_spec ha h0
    unfold runOn at h
    split at h
    · cases h
    · rename_i p1 hp1
      obtain ⟨k1, -, -, k4⟩ := foldLoop_spec h1 (h2 _) hp1
      have hF := k4.foldable (h3 f)
      obtain ⟨fd, E, hf, hS, hM, -, -⟩ := evalBbParams_mid k1 hF (hb p1) hus h
      exact hM.numbered k1 hF hf hS (k4.numbered ih)

theorem blockAt_unique {p : Program} {f : Func} {b : BB} {x y : BData} (hx : Block p f b x) (hy : Block p f b y) : x = y := by
  obtain ⟨fd, h1, h2⟩ := hx
  obtain ⟨gd, h3, h4⟩ := hy
  rw [h1] at h3; cases h3
  rw [h2] at h4; cases h4; rfl

theorem Opt.optimize_remains {w : World} {input : Str} {p p' : Program} {chk : Bool} {o : Opt.Orders} {n : Nat} (ha : Accepted w input p)
    (ho : OptOrders o) (h : Opt.optimize chk o n p = some p') : ∃ p1, FoldPasses chk p p1 ∧ CInv p1 ∧ (∀ f, p1.funcs.get? f = none → p'.funcs.get? f = none) ∧
      ∀ f fd, p1.funcs.get? f = some fd → Cleaned p1 p' f ∧ Remains p1 p' f := by
  unfold Opt.optimize at h
  split at h
  · cases h
  · rename_i p1 h1
    obtain ⟨⟨st, p2⟩, h2, rfl⟩ := Option.map_eq_some_iff.1 h
    have hp := Opt.foldAll_passes ho .refl h1
    obtain ⟨k1, k2, k3, k4, -⟩ := ConstFold.FoldPasses_spec ha hp
    obtain ⟨e1, e2, e3, e4, e5, -⟩ := Dce.eliminates_spec (Opt.dceAll_eliminates ho h2) (ho.once p1) (ConstFold.CInv.dinv k1)
      (fun g => ConstFold.sane_of k1 (k3 g) (k4 g)) (fun _ _ hu => by cases hu) rfl (fun _ _ _ hu => by cases hu)
    refine ⟨p1, hp, k1, fun f hf => ?_, fun f fd hf => ⟨e1 f ((ho.funcs p1 f).2 ⟨fd, hf⟩), (e1 f ((ho.funcs p1 f).2 ⟨fd, hf⟩)).remains k1 (k3 f) (k4 f) e5⟩⟩
    have h3 := (e2 f (fun hm => by obtain ⟨fd, e⟩ := (ho.funcs p1 f).1 hm; rw [hf] at e; cases e)).head
    simp only [Program.view, hf, Option.map_none, Option.map_eq_none_iff] at h3
    exact h3

/-- C66: what is left of the parameters of a block keeps the numbers it had before, so that they still grow, but not always by one. The parameters of
functions keep their numbers. -/
theorem C66_optimized_partial {w : World} {input : Str} {p p' : Program} {chk : Bool} {o : Opt.Orders} {n : Nat} (ha : Accepted w input p)
    (ho : OptOrders o) (h : Opt.optimize chk o n p = some p') : ParamsIncreasing p' := by
  obtain ⟨p1, hp, hi, hno, hC⟩ := Opt.optimize_remains ha ho h
  have hN := C66_folded ha hp
  have hsome : ∀ {f fd'}, p'.funcs.get? f = some fd' → ∃ fd, p1.funcs.get? f = some fd := by
    intro f fd' hf
    cases e : p1.funcs.get? f with
    | none => rw [hno f e] at hf; cases hf
    | some fd => exact ⟨fd, rfl⟩
  have hblk : ∀ {f fd' b is x'}, p'.funcs.get? f = some fd' → (b, is) ∈ fd'.layout.bbs → Block p' f b x' →
      ∃ x, Block p1 f b x ∧ x'.params.Sublist x.params := by
    intro f fd' b is x' hf hb hx'
    obtain ⟨fd, hfd⟩ := hsome hf
    obtain ⟨h1, h2⟩ := hC f fd hfd
    obtain ⟨fd1, fd2, k1, k2, -, -, k3⟩ := h2.fn
    rw [hf] at k2; cases k2
    obtain ⟨is0, hm, -⟩ := k3 b is hb
    obtain ⟨s, hs⟩ := Option.isSome_iff_exists.1 ((hi.lays f fd1.layout (by show (p1.funcs.get? f).map _ = _; rw [k1]; rfl)).2 b is0 hm).1
    obtain ⟨x, hx, -⟩ := view_b_iff.1 (show p1.view.b f b = some (s.1, s.2) from hs)
    obtain ⟨x2, hx2, -, k4, -⟩ := h1.blocks b x hx
    cases blockAt_unique hx' hx2
    exact ⟨x, hx, k4⟩
  have hkind : ∀ {f v x x'}, LocalVal p1 f v x → LocalVal p' f v x' → IsParam x.kind → x'.kind = x.kind := by
    intro f v x x' hx hx' hk
    obtain ⟨fd, hf, hx0⟩ := hx
    obtain ⟨y, hy, -, ht⟩ := (hC f fd hf).2.kept v x' hx'
    cases localVal_unique ⟨fd, hf, hx0⟩ hy
    revert ht hk
    generalize x.kind = a
    generalize x'.kind = c
    intro hk ht
    cases ht with
    | same => rfl
    | branch => rcases hk with ⟨i, hk⟩ | ⟨i, hk⟩ <;> cases hk
    | jump => rcases hk with ⟨i, hk⟩ | ⟨i, hk⟩ <;> cases hk
  refine ⟨?_, ?_, ?_⟩
  · intro f fd' i v hf hv
    obtain ⟨fd, hfd⟩ := hsome hf
    have hR := (hC f fd hfd).2
    obtain ⟨fd1, fd2, k1, k2, -, k4, -⟩ := hR.fn
    rw [hf] at k2; cases k2
    rw [k4] at hv
    obtain ⟨x, hx, hk⟩ := hN.funcs f fd1 i v k1 hv
    obtain ⟨x', hx'⟩ := hR.stays v x hx (by rw [hk]; rfl) (fun j e => by rw [hk] at e; cases e)
    exact ⟨x', hx', by rw [hkind hx hx' (.inl ⟨i, hk⟩)]; exact hk⟩
  · intro f fd' b is x' v hf hb hx' hv
    obtain ⟨x, hx, hs⟩ := hblk hf hb hx'
    obtain ⟨fd, hfd⟩ := hsome hf
    obtain ⟨x2, hx2, hy⟩ := (hC f fd hfd).2.blocks b x hx
    cases blockAt_unique hx' hx2
    obtain ⟨-, y, hy⟩ := hy v hv
    obtain ⟨i, hi⟩ := List.getElem?_of_mem (hs.subset hv)
    obtain ⟨z, hz, hk⟩ := hN.blocks f b x i v hx hi
    exact ⟨y, i, hy, by rw [hkind hz hy (.inr ⟨i, hk⟩)]; exact hk⟩
  · intro f fd' b is x' hf hb hx'
    obtain ⟨x, hx, hs⟩ := hblk hf hb hx'
    refine List.Pairwise.sublist hs ?_
    rw [List.pairwise_iff_getElem]
    intro i j hi hj hij y z k l hy hyk hz hzk
    obtain ⟨y1, hy1, e1⟩ := hN.blocks f b x i _ hx (List.getElem?_eq_getElem hi)
    obtain ⟨z1, hz1, e2⟩ := hN.blocks f b x j _ hx (List.getElem?_eq_getElem hj)
    rw [hkind hy1 hy (.inr ⟨i, e1⟩), e1] at hyk
    rw [hkind hz1 hz (.inr ⟨j, e2⟩), e2] at hzk
    cases hyk; cases hzk
    exact hij

/-- C66 in full. -/
def Spec.OptimizedNumbered : Prop :=
  ∀ w input p p' chk o n, Accepted w input p → OptOrders o → Opt.optimize chk o n p = some p' → ParamsNumbered p'

/-- The first parameter of the block is not used. -/
def dropText : Str := "fun @main(%x: i32): i32 {%e: jump %u(%x, %x) %u(%a: i32, %b: i32): ret %b}".toList

/-- Some block starts with a parameter of a number other than zero. -/
def startsLate (p : Program) : Bool :=
  p.funcs.entries.any (fun q => match p.funcs.get? q.1 with
    | none => false
    | some fd => fd.dfg.bbs.entries.any (fun r => match fd.dfg.bbs.get? r.1 with
      | none => false
      | some x => match x.params[0]? with
        | none => false
        | some v => match fd.dfg.values.get? v with
          | none => false
          | some y => match y.kind with
            | .blockArgRef (_ + 1) => true
            | _ => false))

theorem startsLate_iff {p : Program} (h : startsLate p = true) : ¬ ParamsNumbered p := by
  intro hN
  unfold startsLate at h
  obtain ⟨q, -, h⟩ := List.any_eq_true.1 h
  split at h
  · cases h
  · rename_i fd hf
    obtain ⟨r, -, h⟩ := List.any_eq_true.1 h
    split at h
    · cases h
    · rename_i x hx
      split at h
      · cases h
      · rename_i v hv
        split at h
        · cases h
        · rename_i y hy
          split at h
          · rename_i k hk
            obtain ⟨z, hz, e⟩ := hN.blocks q.1 r.1 x 0 v ⟨fd, hf, hx⟩ hv
            cases localVal_unique ⟨fd, hf, hy⟩ hz
            rw [hk] at e; cases e
          · cases h

/-- C66 fails for the optimizer: dead code elimination takes the unused first parameter out, and the second one, now the first, is still argument
reference number 1 (dce.rs:101-112). -/
theorem C66_violated : ¬ OptimizedNumbered := by
  intro hall
  obtain ⟨p, h, hq⟩ := acceptsWith_iff (input := dropText)
    (q := fun p => match Opt.optimize true plainOrders 20 p with | some p' => startsLate p' | none => false) (by decide +kernel)
  split at hq
  · rename_i p' hp'
    exact startsLate_iff hq (hall _ _ _ _ _ _ _ h plainOrders_ok hp')
  · cases hq

/-- The hypotheses are met by a program with two functions, in which parameters are folded and taken out. -/
example : ∃ p p1 p', Accepted someWorld optText p ∧ FoldPasses true p p1 ∧ OptOrders plainOrders ∧ Opt.optimize true plainOrders 20 p = some p' := by
  obtain ⟨p, h, hq⟩ := acceptsWith_iff (input := optText) (q := optCheck 11 8) (by decide +kernel)
  unfold optCheck at hq
  split at hq
  · rename_i p' hp'
    obtain ⟨p1, h1, -⟩ := C64_cleaned h plainOrders_ok hp'
    exact ⟨p, p1, p', h, h1, plainOrders_ok, hp'⟩
  · cases hq

end Koopa
