import Verif.Lemmas.InvStep2
/-!
An invariant for block use lists and program layouts that needs no assumption about value use
lists: it holds for more histories than `Inv`.
-/
namespace Koopa
open Spec

/-- Kind of an optional value. -/
def kindOf (x : Option VData) : Option VKind := x.map (·.kind)

theorem modData_keep {c c' : Ctx} {v : Value} {f : VData → VData} (hk : ∀ x, (f x).kind = x.kind)
    (h : c.modData v f = some c') :
    (∀ w, kindOf (c'.g.get? w) = kindOf (c.g.get? w)) ∧
    (∀ w, kindOf (c'.d.values.get? w) = kindOf (c.d.values.get? w)) ∧ c'.d.bbs = c.d.bbs := by
  unfold Ctx.modData at h
  split at h
  · rename_i x hx
    cases h
    refine ⟨fun w => ?_, fun w => rfl, rfl⟩
    simp only [Map.get?_insert]
    by_cases hw : w = v
    · subst hw; simp [hx, kindOf, hk]
    · simp [hw]
  · split at h
    · rename_i x hx
      cases h
      refine ⟨fun w => rfl, fun w => ?_, rfl⟩
      simp only [Map.get?_insert]
      by_cases hw : w = v
      · subst hw; simp [hx, kindOf, hk]
      · simp [hw]
    · cases h

theorem addUses_keep {vs : List Value} {c c' : Ctx} {u : Value} (h : c.addUses u vs = some c') :
    (∀ w, kindOf (c'.g.get? w) = kindOf (c.g.get? w)) ∧
    (∀ w, kindOf (c'.d.values.get? w) = kindOf (c.d.values.get? w)) ∧ c'.d.bbs = c.d.bbs := by
  induction vs generalizing c with
  | nil => simp only [Ctx.addUses, Option.some.injEq] at h; subst h; simp
  | cons v vs ih =>
    simp only [Ctx.addUses] at h
    split at h
    · rename_i c1 h1
      obtain ⟨a1, a2, a3⟩ := modData_keep (f := VData.addUser u) (fun _ => rfl) h1
      obtain ⟨b1, b2, b3⟩ := ih h
      exact ⟨fun w => by rw [b1, a1], fun w => by rw [b2, a2], by rw [b3, a3]⟩
    · cases h

theorem delUses_keep {vs : List Value} {c c' : Ctx} {u : Value} (h : c.delUses u vs = some c') :
    (∀ w, kindOf (c'.g.get? w) = kindOf (c.g.get? w)) ∧
    (∀ w, kindOf (c'.d.values.get? w) = kindOf (c.d.values.get? w)) ∧ c'.d.bbs = c.d.bbs := by
  induction vs generalizing c with
  | nil => simp only [Ctx.delUses, Option.some.injEq] at h; subst h; simp
  | cons v vs ih =>
    simp only [Ctx.delUses] at h
    split at h
    · rename_i c1 h1
      obtain ⟨a1, a2, a3⟩ := modData_keep (f := VData.delUser u) (fun _ => rfl) h1
      obtain ⟨b1, b2, b3⟩ := ih h
      exact ⟨fun w => by rw [b1, a1], fun w => by rw [b2, a2], by rw [b3, a3]⟩
    · cases h

/-- `c'` results from `c` by changing the kind of local value `u` from `old` to `new`. -/
structure Ctx.KEdit (c c' : Ctx) (u : Value) (old new : Option VKind) : Prop where
  self : kindOf (c'.d.values.get? u) = new
  locals : ∀ w, w ≠ u → kindOf (c'.d.values.get? w) = kindOf (c.d.values.get? w)
  globals : ∀ w, kindOf (c'.g.get? w) = kindOf (c.g.get? w)
  bbs : ∀ b, c'.d.bbs.get? b =
    (c.d.bbs.get? b).map (BData.touch u (tgtsOf old) (tgtsOf new) b)
  liveBb : ∀ b ∈ tgtsOf new, (c.d.bbs.get? b).isSome

theorem newValueData_kedit {c c' : Ctx} {u : Value} {data : VData}
    (h : c.newValueData u data = some c') : c.KEdit c' u none (some data.kind) := by
  unfold Ctx.newValueData at h
  simp only [Option.bind_eq_bind, Option.bind_eq_some_iff, Option.some.injEq] at h
  obtain ⟨c1, h1, c2, h2, rfl⟩ := h
  rw [bbUses_eq] at h2
  obtain ⟨a1, a2, a3⟩ := addUses_keep h1
  obtain ⟨b1, b2, b3, b4⟩ := addBbUses_eq h2
  refine ⟨?_, ?_, ?_, ?_, ?_⟩
  · show kindOf ((c2.d.values.insert u data).get? u) = _
    rw [Map.get?_insert_self]; rfl
  · intro w hw
    show kindOf ((c2.d.values.insert u data).get? w) = _
    rw [Map.get?_insert_ne _ _ hw, b2, a2]
  · intro w
    show kindOf (c2.g.get? w) = _
    rw [b1, a1]
  · intro b
    show c2.d.bbs.get? b = _
    rw [b3, a3]; rfl
  · intro b hb
    have := b4 b hb
    rwa [a3] at this

theorem replace_kedit_core {c c1 c2 c3 c4 : Ctx} {u : Value} {old data : VData}
    {ops1 ops2 : List Value}
    (h1 : (c.eraseLocal u).delUses u ops1 = some c1)
    (h2 : c1.delBbUses u (targets old.kind) = some c2)
    (h3 : c2.addUses u ops2 = some c3)
    (h4 : c3.addBbUses u (targets data.kind) = some c4) :
    c.KEdit (c4.insertLocal u data) u (some old.kind) (some data.kind) := by
  obtain ⟨a1, a2, a3⟩ := delUses_keep h1
  obtain ⟨b1, b2, b3, b4⟩ := delBbUses_eq h2
  obtain ⟨e1, e2, e3⟩ := addUses_keep h3
  obtain ⟨f1, f2, f3, f4⟩ := addBbUses_eq h4
  have hgE : (c.eraseLocal u).g = c.g := rfl
  have hbE : (c.eraseLocal u).d.bbs = c.d.bbs := rfl
  have hvE : ∀ w, (c.eraseLocal u).d.values.get? w = if w = u then none else c.d.values.get? w :=
    fun w => Map.get?_erase ..
  refine ⟨?_, ?_, ?_, ?_, ?_⟩
  · show kindOf ((c4.d.values.insert u data).get? u) = _
    rw [Map.get?_insert_self]; rfl
  · intro w hw
    show kindOf ((c4.d.values.insert u data).get? w) = _
    rw [Map.get?_insert_ne _ _ hw, f2, e2, b2, a2, hvE, if_neg hw]
  · intro w
    show kindOf (c4.g.get? w) = _
    rw [f1, e1, b1, a1, hgE]
  · intro b
    show c4.d.bbs.get? b = _
    rw [f3, e3, b3, a3, hbE, Option.map_map]; rfl
  · intro b hb
    have := f4 b hb
    rw [e3, b3, a3, hbE] at this; simpa using this

theorem replaceValueWithData_kedit {c c' : Ctx} {u : Value} {data : VData}
    (h : c.replaceValueWithData u data = some c') :
    ∃ old, c.d.values.get? u = some old ∧ c.KEdit c' u (some old.kind) (some data.kind) := by
  unfold Ctx.replaceValueWithData at h
  simp only [Option.bind_eq_bind, Option.bind_eq_some_iff, Option.some.injEq] at h
  obtain ⟨old, ho, c1, h1, c2, h2, c3, h3, c4, h4, rfl⟩ := h
  rw [bbUses_eq] at h2 h4
  exact ⟨old, ho, replace_kedit_core (data := { data with usedBy := old.usedBy }) h1 h2 h3 h4⟩

theorem updateValue_kedit {c c' : Ctx} {u : Value} {f : VData → VData}
    (h : c.updateValue u f = some c') :
    ∃ old, c.d.values.get? u = some old ∧ c.KEdit c' u (some old.kind) (some (f old).kind) := by
  unfold Ctx.updateValue at h
  simp only [Option.bind_eq_bind, Option.bind_eq_some_iff, Option.some.injEq] at h
  obtain ⟨old, ho, c1, h1, c2, h2, c3, h3, c4, h4, rfl⟩ := h
  rw [bbUses_eq] at h2 h4
  exact ⟨old, ho, replace_kedit_core h1 h2 h3 h4⟩

theorem removeValue_kedit {c c' : Ctx} {u : Value} {data : VData}
    (h : c.removeValue u = some (c', data)) :
    c.d.values.get? u = some data ∧ c.KEdit c' u (some data.kind) none := by
  unfold Ctx.removeValue at h
  simp only [Option.bind_eq_bind, Option.bind_eq_some_iff, Option.some.injEq, guard,
    Prod.mk.injEq] at h
  obtain ⟨old, ho, _, _, c1, h1, c2, h2, rfl, rfl⟩ := h
  rw [bbUses_eq] at h2
  obtain ⟨a1, a2, a3⟩ := delUses_keep h1
  obtain ⟨b1, b2, b3, b4⟩ := delBbUses_eq h2
  have hvE : ∀ w, (c.eraseLocal u).d.values.get? w = if w = u then none else c.d.values.get? w :=
    fun w => Map.get?_erase ..
  refine ⟨ho, ?_, ?_, ?_, ?_, ?_⟩
  · rw [b2, a2, hvE]; simp [kindOf]
  · intro w hw
    rw [b2, a2, hvE, if_neg hw]
  · intro w
    rw [b1, a1]; rfl
  · intro b
    rw [b3, a3]; rfl
  · simp [tgtsOf]

/-! ### One graph -/

/-- Live value `u` of the graph transfers control to `b`. -/
def Dfg.Targets (d : Dfg) (u : Value) (b : BB) : Prop :=
  ∃ k, kindOf (d.values.get? u) = some k ∧ b ∈ targets k

/-- Block uses of one graph are exact, targets are live, ids are below the counters. -/
structure GInv (d : Dfg) (nextLocal nextBb : Nat) : Prop where
  lRange : ∀ v x, d.values.get? v = some x → v < nextLocal
  bRange : ∀ b x, d.bbs.get? b = some x → b < nextBb
  uses : ∀ b x, d.bbs.get? b = some x → ∀ u, u ∈ x.usedBy ↔ d.Targets u b
  closed : ∀ u b, d.Targets u b → ∃ x, d.bbs.get? b = some x
  once : ∀ b x, d.bbs.get? b = some x → x.usedBy.Nodup

theorem GInv.mono {d n m n' m'} (h : GInv d n m) (hn : n ≤ n') (hm : m ≤ m') : GInv d n' m' :=
  ⟨fun v x hx => Nat.lt_of_lt_of_le (h.lRange v x hx) hn,
   fun b x hx => Nat.lt_of_lt_of_le (h.bRange b x hx) hm, h.uses, h.closed, h.once⟩

theorem GInv.edit {c c' : Ctx} {u old new n n' m} (hi : GInv c.d n m) (he : c.KEdit c' u old new)
    (hold : old = kindOf (c.d.values.get? u)) (hu : u < n') (hn : n ≤ n') : GInv c'.d n' m := by
  have hT : ∀ w b, c'.d.Targets w b ↔ if w = u then b ∈ tgtsOf new else c.d.Targets w b := by
    intro w b
    unfold Dfg.Targets
    by_cases hw : w = u
    · subst hw; rw [he.self]; cases new <;> simp [tgtsOf]
    · rw [if_neg hw, he.locals w hw]
  have hTold : ∀ b, c.d.Targets u b ↔ b ∈ tgtsOf old := by
    intro b; subst hold; unfold Dfg.Targets
    cases kindOf (c.d.values.get? u) <;> simp [tgtsOf]
  refine ⟨?_, ?_, ?_, ?_, ?_⟩
  · intro v x hx
    by_cases hv : v = u
    · omega
    · have := he.locals v hv
      rw [hx] at this
      obtain ⟨y, hy, _⟩ := Option.map_eq_some_iff.1 this.symm
      have := hi.lRange v y hy; omega
  · intro b x hx
    rw [he.bbs, Option.map_eq_some_iff] at hx
    obtain ⟨y, hy, _⟩ := hx
    exact hi.bRange b y hy
  · intro b x hx w
    rw [he.bbs, Option.map_eq_some_iff] at hx
    obtain ⟨y, hy, rfl⟩ := hx
    rw [BData.mem_touch, hi.uses b y hy, hT]
    by_cases hw : w = u
    · subst hw; simp only [if_true, hTold]; grind
    · simp [hw]
  · intro w b h
    rw [hT] at h
    have hex : ∀ y, c.d.bbs.get? b = some y → ∃ x, c'.d.bbs.get? b = some x := by
      intro y hy; rw [he.bbs, hy]; exact ⟨_, rfl⟩
    by_cases hw : w = u
    · rw [if_pos hw] at h
      obtain ⟨x, hx⟩ := Option.isSome_iff_exists.1 (he.liveBb b h)
      exact hex x hx
    · rw [if_neg hw] at h
      obtain ⟨x, hx⟩ := hi.closed w b h
      exact hex x hx
  · intro b x hx
    rw [he.bbs, Option.map_eq_some_iff] at hx
    obtain ⟨y, hy, rfl⟩ := hx
    exact BData.nodup_touch _ _ _ _ _ (hi.once b y hy)

theorem GInv.newValue {c c' : Ctx} {v data n m} (hi : GInv c.d n m) (hv : n ≤ v)
    (h : c.newValueData v data = some c') : GInv c'.d (v + 1) m := by
  have hnone : c.d.values.get? v = none := by
    cases h : c.d.values.get? v with
    | none => rfl
    | some x => have := hi.lRange v x h; omega
  exact hi.edit (newValueData_kedit h) (by rw [hnone]; rfl) (Nat.lt_succ_self _) (by omega)

theorem GInv.newBbData {c : Ctx} {b data n m} (hi : GInv c.d n m) (hb : m ≤ b) (hd : data.usedBy = []) :
    GInv (c.newBbData b data).d n (b + 1) := by
  have hbb : ∀ b', (c.newBbData b data).d.bbs.get? b' = if b' = b then some data else c.d.bbs.get? b' :=
    fun b' => Map.get?_insert ..
  refine ⟨hi.lRange, ?_, ?_, ?_, ?_⟩
  · intro b' x hx
    rw [hbb] at hx
    by_cases h : b' = b
    · omega
    · rw [if_neg h] at hx; have := hi.bRange b' x hx; omega
  · intro b' x hx u
    rw [hbb] at hx
    by_cases h : b' = b
    · rw [if_pos h] at hx; cases hx
      rw [hd]
      simp only [List.not_mem_nil, false_iff]
      intro ht
      obtain ⟨y, hy⟩ := hi.closed u b' ht
      have := hi.bRange b' y hy; omega
    · rw [if_neg h] at hx; exact hi.uses b' x hx u
  · intro u b' ht
    obtain ⟨y, hy⟩ := hi.closed u b' ht
    rw [hbb]
    by_cases h : b' = b
    · exact ⟨data, by rw [if_pos h]⟩
    · exact ⟨y, by rw [if_neg h]; exact hy⟩
  · intro b' x hx
    rw [hbb] at hx
    by_cases h : b' = b
    · rw [if_pos h] at hx; cases hx
      rw [hd]; exact List.nodup_nil
    · rw [if_neg h] at hx; exact hi.once b' x hx

theorem GInv.blockParams {m : Nat} : ∀ (ps : List (Option Str × Ty)) (c : Ctx) (next i : Nat) (c' : Ctx)
    (hs : List Value), GInv c.d next m → c.blockParams next i ps = some (c', hs) →
    GInv c'.d (next + ps.length) m ∧ ∀ w, kindOf (c'.g.get? w) = kindOf (c.g.get? w)
  | [], c, next, i, c', hs, hi, h => by
    simp only [Ctx.blockParams, Option.some.injEq, Prod.mk.injEq] at h
    obtain ⟨rfl, _⟩ := h; exact ⟨hi, fun _ => rfl⟩
  | (n, ty) :: ps, c, next, i, c', hs, hi, h => by
    simp only [Ctx.blockParams, Option.bind_eq_bind, Option.bind_eq_some_iff, Option.some.injEq,
      Prod.mk.injEq] at h
    obtain ⟨data, hd, c1, h1, ⟨c2, hs'⟩, h2, rfl, rfl⟩ := h
    have := GInv.blockParams ps c1 (next + 1) (i + 1) c2 hs' (hi.newValue (Nat.le_refl _) h1) h2
    refine ⟨?_, fun w => ?_⟩
    · simpa [Nat.add_assoc, Nat.add_comm 1] using this.1
    · rw [this.2, (newValueData_kedit h1).globals]

theorem GInv.removeParams {n m : Nat} : ∀ (ps : List Value) (c c' : Ctx), GInv c.d n m →
    (∀ v ∈ ps, ∀ x, c.d.values.get? v = some x → targets x.kind = []) →
    c.removeParams ps = some c' → GInv c'.d n m ∧ c'.g = c.g
  | [], c, c', hi, _, h => by
    simp only [Ctx.removeParams, Option.some.injEq] at h; subst h; exact ⟨hi, rfl⟩
  | v :: ps, c, c', hi, hk, h => by
    simp only [Ctx.removeParams] at h
    split at h
    · rename_i x hx
      split at h
      · have hget : ∀ w, (c.eraseLocal v).d.values.get? w = if w = v then none else c.d.values.get? w :=
          fun w => Map.get?_erase ..
        have he : c.KEdit (c.eraseLocal v) v (some x.kind) none := by
          refine ⟨by rw [hget]; simp [kindOf], fun w hw => by rw [hget, if_neg hw], fun w => rfl, ?_, ?_⟩
          · intro b
            simp only [tgtsOf, Option.map_some, hk v (by simp) x hx, Option.getD_some, Option.map_none,
              Option.getD_none]
            show c.d.bbs.get? b = _
            cases c.d.bbs.get? b <;> simp [BData.touch]
          · simp [tgtsOf]
        have h1 := hi.edit he (by rw [hx]; rfl) (hi.lRange v x hx) (Nat.le_refl _)
        refine GInv.removeParams ps (c.eraseLocal v) c' h1 (fun w hw y hy => ?_) h
        rw [hget] at hy
        split at hy
        · cases hy
        · exact hk w (by simp [hw]) y hy
      · cases h
    · cases h

theorem removeParams_globals : ∀ (ps : List Value) (c c' : Ctx), c.removeParams ps = some c' → c'.g = c.g
  | [], c, c', h => by simp only [Ctx.removeParams, Option.some.injEq] at h; subst h; rfl
  | v :: ps, c, c', h => by
    simp only [Ctx.removeParams] at h
    split at h
    · split at h
      · rw [removeParams_globals ps _ c' h]; rfl
      · cases h
    · cases h

theorem blockParams_globals : ∀ (ps : List (Option Str × Ty)) (c : Ctx) (next i : Nat) (c' : Ctx)
    (hs : List Value), c.blockParams next i ps = some (c', hs) →
    ∀ w, kindOf (c'.g.get? w) = kindOf (c.g.get? w)
  | [], c, next, i, c', hs, h => by
    simp only [Ctx.blockParams, Option.some.injEq, Prod.mk.injEq] at h
    obtain ⟨rfl, _⟩ := h; exact fun _ => rfl
  | (n, ty) :: ps, c, next, i, c', hs, h => by
    simp only [Ctx.blockParams, Option.bind_eq_bind, Option.bind_eq_some_iff, Option.some.injEq,
      Prod.mk.injEq] at h
    obtain ⟨data, hd, c1, h1, ⟨c2, hs'⟩, h2, rfl, rfl⟩ := h
    intro w
    rw [blockParams_globals ps c1 (next + 1) (i + 1) c2 hs' h2, (newValueData_kedit h1).globals]

theorem removeBb_globals {c c' : Ctx} {b data} (h : c.removeBb b = some (c', data)) : c'.g = c.g := by
  unfold Ctx.removeBb at h
  simp only [Option.bind_eq_bind, Option.bind_eq_some_iff, Option.some.injEq, Prod.mk.injEq] at h
  obtain ⟨bd, _, _, _, c2, hc, rfl, _⟩ := h
  rw [removeParams_globals _ _ _ hc]

/-! ### The program -/

/-- Block uses of every function if `B`, and the two layouts of the program. -/
structure BInv (B : Prop) (p : Program) : Prop where
  graphs : B → ∀ f fd, p.funcs.get? f = some fd → GInv fd.dfg p.ids.nextLocal p.ids.nextBb
  fLayout : ∀ f, f ∈ p.funcLayout ↔ ∃ fd, p.funcs.get? f = some fd
  fSorted : p.funcLayout.Pairwise (· < ·)
  fRange : ∀ f ∈ p.funcLayout, f < p.ids.nextFunc
  fTys : ∀ f, p.funcTys.get? f = (p.funcs.get? f).map (·.ty)
  gRange : ∀ v x, p.values.get? v = some x → v < p.ids.nextGlobal
  iLayout : ∀ v, v ∈ p.instLayout ↔ ∃ k, kindOf (p.values.get? v) = some k ∧ k.isGlobalAlloc
  iSorted : p.instLayout.Pairwise (· < ·)

theorem BInv.iRange {B p} (hi : BInv B p) : ∀ v ∈ p.instLayout, v < p.ids.nextGlobal := by
  intro v hv
  obtain ⟨k, hk, _⟩ := (hi.iLayout v).1 hv
  obtain ⟨x, hx, _⟩ := Option.map_eq_some_iff.1 hk
  exact hi.gRange v x hx

/-- An operation that replaces the data of function `f`, keeping its type, and keeps the kinds of
globals. -/
theorem BInv.putFunc {B : Prop} {p p' : Program} {f : Func} {fd fd' : FData} (hi : BInv B p)
    (hf : p.funcs.get? f = some fd) (hfs : p'.funcs = p.funcs.insert f fd') (hty : fd'.ty = fd.ty)
    (hg : ∀ v, kindOf (p'.values.get? v) = kindOf (p.values.get? v))
    (hG : B → GInv fd'.dfg p'.ids.nextLocal p'.ids.nextBb)
    (h1 : p'.funcLayout = p.funcLayout) (h2 : p'.instLayout = p.instLayout)
    (h3 : p'.funcTys = p.funcTys)
    (i1 : p.ids.nextLocal ≤ p'.ids.nextLocal) (i2 : p.ids.nextBb ≤ p'.ids.nextBb)
    (i3 : p'.ids.nextFunc = p.ids.nextFunc) (i4 : p'.ids.nextGlobal = p.ids.nextGlobal) : BInv B p' := by
  have hget : ∀ f', p'.funcs.get? f' = if f' = f then some fd' else p.funcs.get? f' := by
    intro f'; rw [hfs, Map.get?_insert]
  refine ⟨?_, ?_, ?_, ?_, ?_, ?_, ?_, ?_⟩
  · intro hB f' fd1 h
    rw [hget] at h
    by_cases hff : f' = f
    · rw [if_pos hff] at h; cases h; exact hG hB
    · rw [if_neg hff] at h; exact (hi.graphs hB f' fd1 h).mono i1 i2
  · intro f'
    rw [h1, hi.fLayout, hget]
    by_cases hff : f' = f
    · subst hff; simp [hf]
    · simp [hff]
  · rw [h1]; exact hi.fSorted
  · rw [h1, i3]; exact hi.fRange
  · intro f'
    rw [h3, hi.fTys, hget]
    by_cases hff : f' = f
    · subst hff; simp [hf, hty]
    · simp [hff]
  · intro v x hx
    have := hg v
    rw [hx] at this
    obtain ⟨y, hy, _⟩ := Option.map_eq_some_iff.1 this.symm
    rw [i4]; exact hi.gRange v y hy
  · intro v; rw [h2, hi.iLayout]; simp only [hg]
  · rw [h2]; exact hi.iSorted

theorem GInv.sameKinds {d d' : Dfg} {n m} (hi : GInv d n m)
    (hv : ∀ v, kindOf (d'.values.get? v) = kindOf (d.values.get? v)) (hb : d'.bbs = d.bbs) :
    GInv d' n m := by
  have hT : ∀ u b, d'.Targets u b ↔ d.Targets u b := by intro u b; unfold Dfg.Targets; rw [hv]
  refine ⟨?_, by rw [hb]; exact hi.bRange, ?_, ?_, by rw [hb]; exact hi.once⟩
  · intro v x hx
    have := hv v
    rw [hx] at this
    obtain ⟨y, hy, _⟩ := Option.map_eq_some_iff.1 this.symm
    exact hi.lRange v y hy
  · intro b x hx u; rw [hb] at hx; rw [hT]; exact hi.uses b x hx u
  · intro u b h; rw [hb]; exact hi.closed u b ((hT u b).1 h)

theorem GInv.modBb {c c' : Ctx} {b g n m} (hi : GInv c.d n m) (hg : ∀ x, (BData.usedBy (g x)) = x.usedBy)
    (h : c.modBb b g = some c') : GInv c'.d n m := by
  obtain ⟨_, h2, h3, _⟩ := modBb_eq h
  have hT : ∀ u b, c'.d.Targets u b ↔ c.d.Targets u b := by intro u b; unfold Dfg.Targets; rw [h2]
  refine ⟨by rw [h2]; exact hi.lRange, ?_, ?_, ?_, ?_⟩
  · intro b' x hx
    rw [h3, Option.map_eq_some_iff] at hx
    obtain ⟨y, hy, _⟩ := hx
    exact hi.bRange b' y hy
  · intro b' x hx u
    rw [h3, Option.map_eq_some_iff] at hx
    obtain ⟨y, hy, rfl⟩ := hx
    rw [hT, ← hi.uses b' y hy]
    split
    · rw [hg]
    · rfl
  · intro u b' h
    obtain ⟨y, hy⟩ := hi.closed u b' ((hT ..).1 h)
    rw [h3, hy]; exact ⟨_, rfl⟩
  · intro b' x hx
    rw [h3, Option.map_eq_some_iff] at hx
    obtain ⟨y, hy, rfl⟩ := hx
    split
    · rw [hg]; exact hi.once b' y hy
    · exact hi.once b' y hy

theorem GInv.removeBb {c c' : Ctx} {b data n m} (hi : GInv c.d n m)
    (hk : ∀ x, c.d.bbs.get? b = some x → ∀ v ∈ x.params, ∀ y, c.d.values.get? v = some y →
      targets y.kind = [])
    (h : c.removeBb b = some (c', data)) : GInv c'.d n m ∧ c'.g = c.g := by
  unfold Ctx.removeBb at h
  simp only [Option.bind_eq_bind, Option.bind_eq_some_iff, Option.some.injEq, guard, Prod.mk.injEq] at h
  obtain ⟨bd, hb, _, hg, c2, hc, rfl, rfl⟩ := h
  have hu : bd.usedBy = [] := by
    by_cases hq : bd.usedBy = []
    · exact hq
    · rw [if_neg hq] at hg; cases hg
  refine GInv.removeParams bd.params { g := c.g, d := { values := c.d.values, bbs := c.d.bbs.erase b } } _ ?_ (fun v hv x hx => hk bd hb v hv x hx) hc
  refine ⟨hi.lRange, ?_, ?_, ?_, ?_⟩
  · intro b' x hx
    rw [Map.get?_erase] at hx
    split at hx
    · cases hx
    · exact hi.bRange b' x hx
  · intro b' x hx
    rw [Map.get?_erase] at hx
    split at hx
    · cases hx
    · exact hi.uses b' x hx
  · intro u b' h
    obtain ⟨y, hy⟩ := hi.closed u b' h
    rw [Map.get?_erase]
    by_cases hbb : b' = b
    · subst hbb
      have hyb : bd = y := Option.some.inj (hb.symm.trans hy)
      have := (hi.uses b' bd hb u).2 h
      rw [hu] at this; cases this
    · exact ⟨y, by rw [if_neg hbb]; exact hy⟩
  · intro b' x hx
    rw [Map.get?_erase] at hx
    split at hx
    · cases hx
    · exact hi.once b' x hx

theorem BInv.onDfg {B : Prop} {p p' : Program} {f op} (hi : BInv B p)
    (hop : ∀ fd c', p.funcs.get? f = some fd → op (p.ctx fd) = some c' →
      (B → GInv c'.d p.ids.nextLocal p.ids.nextBb) ∧ ∀ w, kindOf (c'.g.get? w) = kindOf (p.values.get? w))
    (h : p.onDfg f op = some p') : BInv B p' := by
  unfold Program.onDfg at h
  simp only [Option.bind_eq_bind, Option.bind_eq_some_iff, Option.some.injEq] at h
  obtain ⟨fd, hf, c, hc, rfl⟩ := h
  obtain ⟨hG, hg⟩ := hop fd c hf hc
  exact hi.putFunc (fd := fd) hf rfl rfl hg hG rfl rfl rfl (Nat.le_refl _) (Nat.le_refl _) rfl rfl

/-- The parameters of the block have no targets. -/
def ParamsNoTargets (p : Program) (f : Func) (b : BB) : Prop :=
  ∀ x, Block p f b x → ∀ v ∈ x.params, ∀ y, LocalVal p f v y → targets y.kind = []

/-- Restriction for block uses: a removed block has no parameter that became a branch or jump. -/
def Op.BlockOk (p : Program) : Op → Prop
  | .removeBb f b => ParamsNoTargets p f b
  | _ => True

theorem pairwise_append_one {l : List Nat} {x : Nat} (h : l.Pairwise (· < ·)) (hx : ∀ y ∈ l, y < x) :
    (l ++ [x]).Pairwise (· < ·) := by
  rw [List.pairwise_append]
  exact ⟨h, by simp, by simpa using hx⟩

theorem BInv.insertFunc {B : Prop} {p : Program} {fd : FData} {n : Nat} (hi : BInv B p)
    (hG : B → GInv fd.dfg (p.ids.nextLocal + n) p.ids.nextBb) :
    BInv B ({ p with ids := { p.ids with nextLocal := p.ids.nextLocal + n } }.insertFunc fd).1 := by
  have hnone : p.funcs.get? p.ids.nextFunc = none := by
    cases h : p.funcs.get? p.ids.nextFunc with
    | none => rfl
    | some fd =>
      have := hi.fRange _ ((hi.fLayout _).2 ⟨fd, h⟩); omega
  have hget : ∀ f', (p.funcs.insert p.ids.nextFunc fd).get? f' =
      if f' = p.ids.nextFunc then some fd else p.funcs.get? f' := fun f' => Map.get?_insert ..
  refine ⟨?_, ?_, ?_, ?_, ?_, hi.gRange, hi.iLayout, hi.iSorted⟩
  · intro hB f' fd1 h
    have h : (p.funcs.insert p.ids.nextFunc fd).get? f' = some fd1 := h
    rw [hget] at h
    by_cases hff : f' = p.ids.nextFunc
    · rw [if_pos hff] at h; cases h; exact hG hB
    · rw [if_neg hff] at h
      exact (hi.graphs hB f' fd1 h).mono (Nat.le_add_right _ _) (Nat.le_refl _)
  · intro f'
    show f' ∈ p.funcLayout ++ [p.ids.nextFunc] ↔ ∃ fd', (p.funcs.insert p.ids.nextFunc fd).get? f' = some fd'
    rw [hget, List.mem_append, hi.fLayout]
    by_cases hff : f' = p.ids.nextFunc
    · simp [hff]
    · simp [hff]
  · exact pairwise_append_one hi.fSorted hi.fRange
  · intro f' hf'
    have hf' : f' ∈ p.funcLayout ++ [p.ids.nextFunc] := hf'
    show f' < p.ids.nextFunc + 1
    rcases List.mem_append.1 hf' with h | h
    · have := hi.fRange f' h; omega
    · simp at h; omega
  · intro f'
    show (p.funcTys.insert p.ids.nextFunc fd.ty).get? f' = ((p.funcs.insert p.ids.nextFunc fd).get? f').map _
    rw [hget, Map.get?_insert, hi.fTys]
    split <;> rfl

theorem mem_erase_pairwise {l : List Nat} (h : l.Pairwise (· < ·)) {x y : Nat} :
    y ∈ l.erase x ↔ y ∈ l ∧ y ≠ x := by
  have hn : l.Nodup := h.imp (fun hab => Nat.ne_of_lt hab)
  rw [hn.mem_erase_iff]; exact and_comm

theorem BInv.step {B : Prop} {p op p'} (hi : BInv B p) (hok : B → Op.BlockOk p op)
    (h : p.step op = some p') : BInv B p' := by
  cases op <;> simp only [Program.step, Option.map_eq_some_iff] at h
  case newGlobal =>
    obtain ⟨⟨q, v⟩, h, rfl⟩ := h
    unfold Program.newGlobal Program.newGlobalData at h
    simp only [Option.bind_eq_bind, Option.bind_eq_some_iff, Option.some.injEq, Prod.mk.injEq] at h
    obtain ⟨data, hb, g, hg, rfl, _⟩ := h
    rw [valueUses_eq] at hg
    obtain ⟨a1, a2⟩ := addGlobalUses_eq hg
    have hnone : p.values.get? p.ids.nextGlobal = none := by
      cases h : p.values.get? p.ids.nextGlobal with
      | none => rfl
      | some x => have := hi.gRange _ x h; omega
    have hget : ∀ w, kindOf ((g.insert p.ids.nextGlobal data).get? w) =
        if w = p.ids.nextGlobal then some data.kind else kindOf (p.values.get? w) := by
      intro w
      rw [Map.get?_insert]
      by_cases hw : w = p.ids.nextGlobal
      · simp [hw, kindOf]
      · rw [if_neg hw, if_neg hw, a1]
        unfold kindOf
        rw [Option.map_map]; congr 1; funext x
        show (if w ∈ _ then _ else x).kind = x.kind
        split <;> rfl
    refine ⟨hi.graphs, hi.fLayout, hi.fSorted, hi.fRange, hi.fTys, ?_, ?_, ?_⟩
    · intro v x hx
      show v < p.ids.nextGlobal + 1
      have h := hget v
      have hx : (g.insert p.ids.nextGlobal data).get? v = some x := hx
      rw [hx] at h
      by_cases hv : v = p.ids.nextGlobal
      · omega
      · rw [if_neg hv] at h
        obtain ⟨y, hy, _⟩ := Option.map_eq_some_iff.1 h.symm
        have := hi.gRange v y hy; omega
    · intro v
      show v ∈ (if data.kind.isGlobalAlloc then p.instLayout ++ [p.ids.nextGlobal] else p.instLayout) ↔
        ∃ k, kindOf ((g.insert p.ids.nextGlobal data).get? v) = some k ∧ _
      rw [hget]
      have hnm : p.ids.nextGlobal ∉ p.instLayout := fun h => by
        have := hi.iRange _ h; omega
      by_cases hv : v = p.ids.nextGlobal
      · subst hv
        by_cases hd : data.kind.isGlobalAlloc <;> simp [hd, hnm]
      · by_cases hd : data.kind.isGlobalAlloc <;> simp [hd, hv, hi.iLayout]
    · show (if data.kind.isGlobalAlloc then p.instLayout ++ [p.ids.nextGlobal] else p.instLayout).Pairwise _
      split
      · exact pairwise_append_one hi.iSorted hi.iRange
      · exact hi.iSorted
  case removeGlobal v =>
    obtain ⟨⟨q, d⟩, h, rfl⟩ := h
    unfold Program.removeGlobal at h
    simp only [Option.bind_eq_bind, Option.bind_eq_some_iff, Option.some.injEq, Prod.mk.injEq] at h
    obtain ⟨data, hv, lay, hlay, _, hgd, g, hg, rfl, _⟩ := h
    rw [valueUses_eq] at hg
    obtain ⟨a1, a2⟩ := delGlobalUses_eq hg
    have hget : ∀ w, kindOf (g.get? w) = if w = v then none else kindOf (p.values.get? w) := by
      intro w
      rw [a1, Map.get?_erase]
      by_cases hw : w = v
      · simp [hw, kindOf]
      · rw [if_neg hw, if_neg hw]
        unfold kindOf
        rw [Option.map_map]; congr 1; funext x
        show (if w ∈ _ then _ else x).kind = x.kind
        split <;> rfl
    have hmem : ∀ w, w ∈ lay ↔ w ∈ p.instLayout ∧ w ≠ v := by
      intro w
      unfold Program.dropInst at hlay
      split at hlay
      · split at hlay
        · cases hlay; exact mem_erase_pairwise hi.iSorted
        · cases hlay
      · rename_i hk
        cases hlay
        constructor
        · intro h; refine ⟨h, ?_⟩
          rintro rfl
          obtain ⟨k, hk1, hk2⟩ := (hi.iLayout w).1 h
          rw [hv] at hk1; cases hk1; exact hk hk2
        · exact And.left
    have hsort : lay.Pairwise (· < ·) := by
      unfold Program.dropInst at hlay
      split at hlay
      · split at hlay
        · cases hlay; exact hi.iSorted.sublist List.erase_sublist
        · cases hlay
      · cases hlay; exact hi.iSorted
    refine ⟨hi.graphs, hi.fLayout, hi.fSorted, hi.fRange, hi.fTys, ?_, ?_, hsort⟩
    · intro w x hx
      have h := hget w
      have hx : g.get? w = some x := hx
      rw [hx] at h
      by_cases hw : w = v
      · rw [if_pos hw] at h; cases h
      · rw [if_neg hw] at h
        obtain ⟨y, hy, _⟩ := Option.map_eq_some_iff.1 h.symm
        exact hi.gRange w y hy
    · intro w
      show w ∈ lay ↔ ∃ k, kindOf (g.get? w) = some k ∧ _
      rw [hmem, hget, hi.iLayout]
      by_cases hw : w = v <;> simp [hw]
  case setGlobalName v n =>
    unfold Program.setGlobalName at h
    simp only [Option.bind_eq_bind, Option.bind_eq_some_iff, Option.some.injEq] at h
    obtain ⟨d, hd, d', hd', rfl⟩ := h
    have hk : d'.kind = d.kind := congrArg Prod.fst (VData.setName_sig hd')
    have hget : ∀ w, kindOf ((p.values.insert v d').get? w) = kindOf (p.values.get? w) := by
      intro w; rw [Map.get?_insert]
      by_cases hw : w = v
      · subst hw; simp [hd, kindOf, hk]
      · simp [hw]
    refine ⟨hi.graphs, hi.fLayout, hi.fSorted, hi.fRange, hi.fTys, ?_, ?_, hi.iSorted⟩
    · intro w x hx
      have h := hget w
      have hx : (p.values.insert v d').get? w = some x := hx
      rw [hx] at h
      obtain ⟨y, hy, _⟩ := Option.map_eq_some_iff.1 h.symm
      exact hi.gRange w y hy
    · intro w
      show w ∈ p.instLayout ↔ ∃ k, kindOf ((p.values.insert v d').get? w) = some k ∧ _
      rw [hget, hi.iLayout]
  case newFuncDef n ps r =>
    obtain ⟨⟨q, v⟩, h, rfl⟩ := h
    unfold Program.newFuncDefWithParamNames at h
    simp only [Option.bind_eq_bind, Option.bind_eq_some_iff, Option.some.injEq] at h
    obtain ⟨_, _, ⟨vs, hs⟩, hvs, h⟩ := h
    have := BInv.insertFunc (n := ps.length)
      (fd := ⟨.func (ps.map (·.2)) r, n, hs, { values := vs, bbs := .empty }, Layout.new⟩) hi ?_
    · rw [show q = _ from (congrArg Prod.fst h).symm]; exact this
    · intro _
      have hsp := funcParams_spec _ _ _ _ _ _ hvs
      have hT : ∀ u b, ¬ Dfg.Targets { values := vs, bbs := .empty } u b := by
        rintro u b ⟨k, hk, hb⟩
        obtain ⟨x, hx, rfl⟩ := Option.map_eq_some_iff.1 hk
        rcases hsp u x hx with h | ⟨_, _, ⟨j, hj⟩, _⟩
        · cases h
        · rw [hj] at hb; cases hb
      refine ⟨?_, fun b x hx => (by cases hx), fun b x hx => (by cases hx), fun u b h => absurd h (hT u b),
        fun b x hx => (by cases hx)⟩
      intro v x hx
      rcases hsp v x hx with h | ⟨_, h, _⟩
      · cases h
      · exact h
  case newFuncDecl n ps r =>
    obtain ⟨⟨q, v⟩, h, rfl⟩ := h
    unfold Program.newFuncDecl at h
    simp only [Option.bind_eq_bind, Option.bind_eq_some_iff, Option.some.injEq] at h
    obtain ⟨_, _, h⟩ := h
    have := BInv.insertFunc (n := 0) (fd := ⟨.func ps r, n, [], Dfg.new, Layout.new⟩) hi ?_
    · rw [show q = _ from (congrArg Prod.fst h).symm]; exact this
    · intro _
      refine ⟨fun v x hx => (by cases hx), fun b x hx => (by cases hx), fun b x hx => (by cases hx), ?_,
        fun b x hx => (by cases hx)⟩
      rintro u b ⟨k, hk, _⟩; cases hk
  case removeFunc f =>
    obtain ⟨⟨q, v⟩, h, rfl⟩ := h
    unfold Program.removeFunc at h
    split at h
    case isFalse => cases h
    simp only [Option.some.injEq, Prod.mk.injEq] at h
    obtain ⟨rfl, _⟩ := h
    have hget : ∀ f', (p.funcs.erase f).get? f' = if f' = f then none else p.funcs.get? f' :=
      fun f' => Map.get?_erase ..
    refine ⟨?_, ?_, hi.fSorted.sublist List.erase_sublist,
      fun f' h => hi.fRange f' (List.mem_of_mem_erase h), ?_, hi.gRange, hi.iLayout, hi.iSorted⟩
    · intro hB f' fd h
      have h : (p.funcs.erase f).get? f' = some fd := h
      rw [hget] at h
      split at h
      · cases h
      · exact hi.graphs hB f' fd h
    · intro f'
      show f' ∈ p.funcLayout.erase f ↔ ∃ fd, (p.funcs.erase f).get? f' = some fd
      rw [mem_erase_pairwise hi.fSorted, hget, hi.fLayout]
      by_cases hff : f' = f <;> simp [hff]
    · intro f'
      show (p.funcTys.erase f).get? f' = ((p.funcs.erase f).get? f').map _
      rw [hget, Map.get?_erase, hi.fTys]
      split <;> rfl
  case setFuncName f n =>
    unfold Program.setFuncName at h
    simp only [Option.bind_eq_bind, Option.bind_eq_some_iff, Option.some.injEq] at h
    obtain ⟨fd, hf, rfl⟩ := h
    exact hi.putFunc (fd := fd) hf rfl rfl (fun _ => rfl) (fun hB => hi.graphs hB f fd hf) rfl rfl rfl
      (Nat.le_refl _) (Nat.le_refl _) rfl rfl
  case newLocal f i =>
    obtain ⟨⟨q, v⟩, h, rfl⟩ := h
    unfold Program.newLocal Program.newLocalData Program.onDfg at h
    simp only [Option.bind_eq_bind, Option.bind_eq_some_iff, Option.some.injEq, Prod.mk.injEq] at h
    obtain ⟨fd0, hf0, data, hb, p1, ⟨fd, hf, c, hc, rfl⟩, rfl, _⟩ := h
    have hf : p.funcs.get? f = some fd := hf
    exact hi.putFunc (fd := fd) hf rfl rfl (newValueData_kedit hc).globals
      (fun hB => (hi.graphs hB f fd hf).newValue (c := p.ctx fd) (Nat.le_refl _) hc) rfl rfl rfl
      (Nat.le_succ _) (Nat.le_refl _) rfl rfl
  case replaceLocal f v i =>
    unfold Program.replaceLocal at h
    simp only [Option.bind_eq_bind, Option.bind_eq_some_iff] at h
    obtain ⟨fd0, _, data, _, h⟩ := h
    refine hi.onDfg (fun fd c hf hc => ?_) h
    obtain ⟨old, ho, he⟩ := replaceValueWithData_kedit hc
    exact ⟨fun hB => (hi.graphs hB f fd hf).edit (c := p.ctx fd) he (by rw [ho]; rfl) ((hi.graphs hB f fd hf).lRange v old ho)
      (Nat.le_refl _), he.globals⟩
  case updateLocal f v fn =>
    refine hi.onDfg (fun fd c hf hc => ?_) h
    obtain ⟨old, ho, he⟩ := updateValue_kedit hc
    exact ⟨fun hB => (hi.graphs hB f fd hf).edit (c := p.ctx fd) he (by rw [ho]; rfl) ((hi.graphs hB f fd hf).lRange v old ho)
      (Nat.le_refl _), he.globals⟩
  case removeLocal f v =>
    refine hi.onDfg (fun fd c hf hc => ?_) h
    simp only [Option.map_eq_some_iff] at hc
    obtain ⟨⟨c', d⟩, hc, rfl⟩ := hc
    obtain ⟨ho, he⟩ := removeValue_kedit hc
    exact ⟨fun hB => (hi.graphs hB f fd hf).edit (c := p.ctx fd) he (by rw [ho]; rfl) ((hi.graphs hB f fd hf).lRange v d ho)
      (Nat.le_refl _), he.globals⟩
  case setLocalName f v n =>
    refine hi.onDfg (fun fd c hf hc => ?_) h
    unfold Ctx.setValueName at hc
    simp only [Option.bind_eq_bind, Option.bind_eq_some_iff, Option.some.injEq] at hc
    obtain ⟨d, hd, d', hd', rfl⟩ := hc
    have hk : d'.kind = d.kind := congrArg Prod.fst (VData.setName_sig hd')
    refine ⟨fun hB => (hi.graphs hB f fd hf).sameKinds (fun w => ?_) rfl, fun w => rfl⟩
    show kindOf ((fd.dfg.values.insert v d').get? w) = _
    rw [Map.get?_insert]
    by_cases hw : w = v
    · subst hw
      have hd : fd.dfg.values.get? w = some d := hd
      simp [hd, kindOf, hk]
    · simp [hw]
  case newBb f n =>
    obtain ⟨⟨q, v⟩, h, rfl⟩ := h
    unfold Program.newBb Program.onDfg at h
    simp only [Option.bind_eq_bind, Option.bind_eq_some_iff, Option.some.injEq, Prod.mk.injEq] at h
    obtain ⟨_, _, p1, ⟨fd, hf, c, rfl, rfl⟩, rfl, _⟩ := h
    exact hi.putFunc (fd := fd) hf rfl rfl (fun _ => rfl)
      (fun hB => (hi.graphs hB f fd hf).newBbData (c := p.ctx fd) (Nat.le_refl _) rfl) rfl rfl rfl
      (Nat.le_refl _) (Nat.le_succ _) rfl rfl
  case newBbParams f n ps =>
    obtain ⟨⟨q, v⟩, h, rfl⟩ := h
    unfold Program.newBbWithParamNames at h
    simp only [Option.bind_eq_bind, Option.bind_eq_some_iff, Option.some.injEq, Prod.mk.injEq] at h
    obtain ⟨_, _, _, _, fd, hf, ⟨c, hs⟩, hc, rfl, _⟩ := h
    exact hi.putFunc (fd := fd) hf rfl rfl (blockParams_globals ps _ _ _ _ _ hc) (fun hB =>
      (GInv.blockParams ps (p.ctx fd) _ _ _ _ (hi.graphs hB f fd hf) hc).1.newBbData (c := c)
        (Nat.le_refl _) rfl) rfl rfl rfl
      (Nat.le_add_right _ _) (Nat.le_succ _) rfl rfl
  case removeBb f b =>
    refine hi.onDfg (fun fd c hf hc => ?_) h
    simp only [Option.map_eq_some_iff] at hc
    obtain ⟨⟨c', d⟩, hc, rfl⟩ := hc
    exact ⟨fun hB => ((hi.graphs hB f fd hf).removeBb (c := p.ctx fd)
      (fun x hx v hv y hy => hok hB x ⟨fd, hf, hx⟩ v hv y ⟨fd, hf, hy⟩) hc).1,
      fun w => by rw [removeBb_globals hc]; rfl⟩
  case setBbName f b n =>
    refine hi.onDfg (fun fd c hf hc => ?_) h
    refine ⟨fun hB => (hi.graphs hB f fd hf).modBb (c := p.ctx fd) (g := fun x => { x with name := n }) (fun _ => rfl) hc, fun w => ?_⟩
    rw [(modBb_eq hc).1]; rfl
  case setBbParams f b ps =>
    refine hi.onDfg (fun fd c hf hc => ?_) h
    refine ⟨fun hB => (hi.graphs hB f fd hf).modBb (c := p.ctx fd) (g := fun x => { x with params := ps }) (fun _ => rfl) hc, fun w => ?_⟩
    rw [(modBb_eq hc).1]; rfl
  case layout f op =>
    unfold Program.onLayout at h
    simp only [Option.bind_eq_bind, Option.bind_eq_some_iff, Option.some.injEq] at h
    obtain ⟨fd, hf, l, _, rfl⟩ := h
    exact hi.putFunc (fd := fd) hf rfl rfl (fun _ => rfl) (fun hB => hi.graphs hB f fd hf) rfl rfl rfl
      (Nat.le_refl _) (Nat.le_refl _) rfl rfl

theorem BInv.init (B : Prop) (ids : Ids) : BInv B (Program.new ids) := by
  refine ⟨fun _ f fd h => (by cases h), fun f => ?_, List.Pairwise.nil, fun f h => (by cases h), fun f => rfl,
    fun v x h => (by cases h), fun v => ?_, List.Pairwise.nil⟩
  · exact ⟨fun h => (by cases h), fun ⟨_, h⟩ => (by cases h)⟩
  · exact ⟨fun h => (by cases h), fun ⟨_, h, _⟩ => (by cases h)⟩

theorem Reach.binv {p : Program} (r : Reach Op.BlockOk p) : BInv True p := by
  induction r with
  | init ids _ _ => exact BInv.init _ ids
  | step _ hok hs ih => exact ih.step (fun _ => hok) hs

/-- The layout part needs no restriction on the history. -/
theorem Reach.linv {ok : Program → Op → Prop} {p : Program} (r : Reach ok p) : BInv False p := by
  induction r with
  | init ids _ _ => exact BInv.init _ ids
  | step _ _ hs ih => exact ih.step False.elim hs

end Koopa
