import Verif.Lemmas.Same.Text
import Verif.Spec.Raw
/-!
A program that was converted to the raw form and back matches the original.
-/
namespace Koopa
open Spec Interp

section
variable {get get' : Value → Option VData}

theorem look_list {P Q : VData → Val → Prop} : ∀ {es es' : List Value} {ds : List VData} {xs : List Val},
    All2 (fun e e' => ∀ d, get e = some d → ∃ d', get' e' = some d' ∧ ∀ z, P d z → Q d' z) es es' → es.map get = ds.map some → ds.length = xs.length →
    (∀ (i : Nat) e x, ds[i]? = some e → xs[i]? = some x → P e x) →
    ∃ ds' : List VData, es'.map get' = ds'.map some ∧ ds'.length = xs.length ∧ ∀ (i : Nat) e x, ds'[i]? = some e → xs[i]? = some x → Q e x
  | [], _, ds, xs, .nil, h, hl, _ => by
    cases ds with
    | nil => exact ⟨[], rfl, hl, fun i e x he => by simp at he⟩
    | cons => cases h
  | e :: es, _, ds, xs, .cons h1 hs, h, hl, hp => by
    cases ds with
    | nil => cases h
    | cons d ds =>
      cases xs with
      | nil => cases hl
      | cons x xs =>
        simp only [List.map_cons, List.cons.injEq] at h
        obtain ⟨d', h2, h3⟩ := h1 d h.1
        obtain ⟨ds', h4, h5, h6⟩ := look_list hs h.2 (by simpa using hl) (fun i e x he hx => hp (i + 1) e x (by simpa using he) (by simpa using hx))
        refine ⟨d' :: ds', by simp [h2, h4], by simp [h5], fun i e z he hz => ?_⟩
        cases i with
        | zero =>
          simp only [List.getElem?_cons_zero, Option.some.injEq] at he hz
          subst he; subst hz
          exact h3 _ (hp 0 d x rfl rfl)
        | succ i => exact h6 i e z (by simpa using he) (by simpa using hz)

theorem all2_to_map {α β : Type} {R : α → β → Prop} {f : α → β} : ∀ {as : List α}, (∀ a ∈ as, R a (f a)) → All2 R as (as.map f)
  | [], _ => .nil
  | a :: as, h => .cons (h a List.mem_cons_self) (all2_to_map (fun x hx => h x (List.mem_cons_of_mem _ hx)))

theorem all2_from_map {α β : Type} {R : β → α → Prop} {f : α → β} : ∀ {as : List α}, (∀ a ∈ as, R (f a) a) → All2 R (as.map f) as
  | [], _ => .nil
  | a :: as, h => .cons (h a List.mem_cons_self) (all2_from_map (fun x hx => h x (List.mem_cons_of_mem _ hx)))

variable {x y : VData} {vl : Value → Value} {bl : BB → BB} {fl : Func → Func}

theorem constVal_map (hty : y.ty = x.ty) (hk : y.kind = mapKind vl bl fl x.kind)
    (hes : ∀ e ∈ operands x.kind, ∀ d, get e = some d → ∃ d', get' (vl e) = some d' ∧ ∀ z, ConstVal get d z → ConstVal get' d' z)
    {z : Val} (h : ConstVal get x z) : ConstVal get' y z := by
  cases h with
  | integer k => exact .integer (by rw [hk, k]; rfl)
  | zeroInit k h => exact .zeroInit (by rw [hk, k]; rfl) (by rw [hty]; exact h)
  | undef k => exact .undef (by rw [hk, k]; rfl)
  | @aggregate _ es ds xs k k1 k2 k3 =>
    rw [k] at hes
    obtain ⟨ds', a1, a2, a3⟩ := look_list (all2_to_map (f := vl) hes) k1 k2 k3
    exact .aggregate (by rw [hk, k]; rfl) a1 a2 a3

theorem constVal_back (hty : y.ty = x.ty) (hk : y.kind = mapKind vl bl fl x.kind)
    (hes : ∀ e ∈ operands x.kind, ∀ d', get' (vl e) = some d' → ∃ d, get e = some d ∧ ∀ z, ConstVal get' d' z → ConstVal get d z)
    {z : Val} (h : ConstVal get' y z) : ConstVal get x z := by
  cases h with
  | integer k =>
    rw [hk] at k
    cases e : x.kind <;> rw [e] at k <;> cases k
    exact .integer e
  | zeroInit k h =>
    rw [hk] at k
    cases e : x.kind <;> rw [e] at k <;> cases k
    exact .zeroInit e (by rw [← hty]; exact h)
  | undef k =>
    rw [hk] at k
    cases e : x.kind <;> rw [e] at k <;> cases k
    exact .undef e
  | @aggregate _ es ds xs k k1 k2 k3 =>
    rw [hk] at k
    cases e : x.kind <;> rw [e] at k <;> cases k
    rw [e] at hes
    obtain ⟨ds', a1, a2, a3⟩ := look_list (all2_from_map (f := vl) hes) k1 k2 k3
    exact .aggregate e a1 a2 a3

end

theorem operand_typed {H : Value → Ty → Prop} {P : BB → List Ty → Prop} {F : Func → Ty → Prop} {k : VKind} {t : Ty} (h : InstTy H P F k t) {v : Value}
    (hv : v ∈ operands k) : ∃ t, H v t := by
  have all : ∀ {as : List Value} {ts : List Ty}, All2 H as ts → v ∈ as → ∃ t, H v t := by
    intro as ts h
    induction h with
    | nil => intro h; cases h
    | cons h1 _ ih =>
      intro hm
      rcases List.mem_cons.1 hm with rfl | hm
      · exact ⟨_, h1⟩
      · exact ih hm
  cases h with
  | aggregate _ _ h => exact ⟨_, h v hv⟩
  | globalAlloc _ h | load h | ret _ h => simp only [operands, List.mem_singleton] at hv; subst hv; exact ⟨_, h⟩
  | store h h' | getPtr h h' | getElemPtr h h' | binary h h' =>
    simp only [operands, List.mem_cons, List.not_mem_nil, or_false] at hv
    rcases hv with rfl | rfl
    · exact ⟨_, h⟩
    · exact ⟨_, h'⟩
  | branch h _ _ h1 h2 _ =>
    simp only [operands, List.mem_cons, List.mem_append] at hv
    rcases hv with rfl | hv | hv
    · exact ⟨_, h⟩
    · exact all h1 hv
    · exact all h2 hv
  | jump _ h => exact all h hv
  | call _ h => exact all h hv
  | _ => cases hv

section
variable {ρ : Renaming} {p p' : Program} (hc : Convertible p) (h : SameProgram ρ p p')
  (hg : ∀ v x, GlobalVal p' v x → isGlobal v = true) (hl : ∀ f v x, LocalVal p' f v x → isGlobal v = false)

theorem mapKind_const (a : Value → Value) (b : BB → BB) (c : Func → Func) (k : VKind) : (mapKind a b c k).isConst = k.isConst := by
  cases k <;> rfl

include hc in
/-- What the operands of a used local value are. -/
theorem operand_cases {f : Func} {u v : Value} {x : VData} (hu : Used p (some f) u) (hx : LocalVal p f u x) (hv : v ∈ operands x.kind) :
    (isGlobal v = true ∧ Used p none v ∧ ∃ y, GlobalVal p v y) ∨ (isGlobal v = false ∧ Used p (some f) v ∧ ∃ y, LocalVal p f v y) := by
  obtain ⟨t, y, hy, -⟩ := operand_typed (hc.typed.locals f u x hx) hv
  rcases hy with hy | hy
  · exact .inl ⟨hc.globalId v y hy, hc.globalOps f u v x y hu hx hv hy, y, hy⟩
  · exact .inr ⟨hc.localId f v y hy, .operand hu hx hv hy, y, hy⟩

include hc h hl in
/-- Constants of functions keep their values. -/
theorem raw_local_const {f : Func} {fd fd' : FData} (hf : p.funcs.get? f = some fd) (hf' : p'.funcs.get? (ρ.fn f) = some fd') (hs : SameFunc ρ p p' f fd fd')
    (hg : ∀ v x, GlobalVal p' v x → isGlobal v = true) :
    ∀ {v : Value} {x y : VData}, LocalVal p f v x → Used p (some f) v → LocalVal p' (ρ.fn f) (ρ.loc f v) y → ∀ z,
      ConstVal fd.dfg.values.get? x z ↔ ConstVal fd'.dfg.values.get? y z := by
  obtain ⟨rank, hr, -⟩ := hc.acyclic
  have key : ∀ (n : Nat) {v : Value} {x y : VData}, rank v < n → LocalVal p f v x → Used p (some f) v → LocalVal p' (ρ.fn f) (ρ.loc f v) y → ∀ z,
      ConstVal fd.dfg.values.get? x z ↔ ConstVal fd'.dfg.values.get? y z := by
    intro n
    induction n with
    | zero => intro v x y h; exact absurd h (Nat.not_lt_zero _)
    | succ n ih =>
      intro v x y hn hx hu hy z
      obtain ⟨y0, h1, h2, -, h3⟩ := hs.values v x hx hu
      cases localVal_unique h1 hy
      have loc : ∀ {w d}, fd.dfg.values.get? w = some d → LocalVal p f w d := fun hw => ⟨fd, hf, hw⟩
      have loc' : ∀ {w d}, fd'.dfg.values.get? w = some d → LocalVal p' (ρ.fn f) w d := fun hw => ⟨fd', hf', hw⟩
      have un : ∀ {w d}, LocalVal p f w d → fd.dfg.values.get? w = some d := by
        rintro w d ⟨fd0, e1, e2⟩; rw [hf] at e1; cases e1; exact e2
      have un' : ∀ {w d}, LocalVal p' (ρ.fn f) w d → fd'.dfg.values.get? w = some d := by
        rintro w d ⟨fd0, e1, e2⟩; rw [hf'] at e1; cases e1; exact e2
      constructor
      · refine constVal_map h2 h3 (fun e he d hd => ?_)
        have hrk := hr f v e x hx hu he
        have hloc := hc.localId f e d (loc hd)
        have hue : Used p (some f) e := .operand hu hx he (loc hd)
        obtain ⟨d', k1, -⟩ := hs.values e d (loc hd) hue
        have e1 : ρ.val f e = ρ.loc f e := by unfold Renaming.val; rw [hloc]; rfl
        rw [e1]
        exact ⟨d', un' k1, fun z => (ih (by omega) (loc hd) hue k1 z).1⟩
      · refine constVal_back h2 h3 (fun e he d' hd' => ?_)
        have hrk := hr f v e x hx hu he
        rcases operand_cases hc hu hx he with ⟨i1, i2, d, i3⟩ | ⟨i1, i2, d, i3⟩
        · exfalso
          obtain ⟨q, k1, -⟩ := h.globals e d i3 i2
          have e1 : ρ.val f e = ρ.glob e := by unfold Renaming.val; rw [i1]; rfl
          rw [e1] at hd'
          have := hl _ _ _ (loc' hd')
          rw [hg _ _ k1] at this; cases this
        · have e1 : ρ.val f e = ρ.loc f e := by unfold Renaming.val; rw [i1]; rfl
          rw [e1] at hd'
          exact ⟨d, un i3, fun z => (ih (by omega) i3 i2 (loc' hd') z).2⟩
  intro v x y hx hu hy
  exact key (rank v + 1) (Nat.lt_succ_self _) hx hu hy

include hc h in
/-- Constants among the globals keep their values. -/
theorem raw_global_const : ∀ {v : Value} {x y : VData}, GlobalVal p v x → Used p none v → GlobalVal p' (ρ.glob v) y → ∀ z,
      ConstVal p.values.get? x z ↔ ConstVal p'.values.get? y z := by
  obtain ⟨rank, -, hr⟩ := hc.acyclic
  have key : ∀ (n : Nat) {v : Value} {x y : VData}, rank v < n → GlobalVal p v x → Used p none v → GlobalVal p' (ρ.glob v) y → ∀ z,
      ConstVal p.values.get? x z ↔ ConstVal p'.values.get? y z := by
    intro n
    induction n with
    | zero => intro v x y h; exact absurd h (Nat.not_lt_zero _)
    | succ n ih =>
      intro v x y hn hx hu hy z
      obtain ⟨y0, h1, h2, -, h3⟩ := h.globals v x hx hu
      have e0 : y0 = y := Option.some.inj ((show p'.values.get? (ρ.glob v) = some y0 from h1).symm.trans hy)
      subst e0
      constructor
      · refine constVal_map h2 h3 (fun e he d hd => ?_)
        have hrk := hr v e x hx hu he
        have hue : Used p none e := .init hu hx he
        obtain ⟨d', k1, -⟩ := h.globals e d hd hue
        exact ⟨d', k1, fun z => (ih (by omega) hd hue k1 z).1⟩
      · refine constVal_back h2 h3 (fun e he d' hd' => ?_)
        have hrk := hr v e x hx hu he
        have hue : Used p none e := .init hu hx he
        obtain ⟨t, d, hd, -⟩ := operand_typed (hc.typed.globals v x hx) he
        exact ⟨d, hd, fun z => (ih (by omega) hd hue hd' z).2⟩
  intro v x y hx hu hy
  exact key (rank v + 1) (Nat.lt_succ_self _) hx hu hy

/-- New handles for old ones. -/
def rawMatch (ρ : Renaming) (p : Program) : Match where
  G := fun v v' => v ∈ p.instLayout ∧ v' = ρ.glob v
  F := fun f f' => (p.funcs.get? f).isSome ∧ f' = ρ.fn f
  V := fun f f' v v' => f' = ρ.fn f ∧ Used p (some f) v ∧ v' = ρ.loc f v ∧ ∃ x, LocalVal p f v x ∧ x.kind.isConst = false
  B := fun f f' b b' => f' = ρ.fn f ∧ b' = ρ.blk f b ∧ ∃ fd, p.funcs.get? f = some fd ∧ b ∈ fd.layout.bbs.map (·.1)

include hc h hg hl in
theorem rawMatch_operand {f : Func} {fd : FData} (hf : p.funcs.get? f = some fd) {u v : Value} {x : VData} (hu : Used p (some f) u) (hx : LocalVal p f u x)
    (hv : v ∈ operands x.kind) : OpMatch (rawMatch ρ p) p p' f (ρ.fn f) v (ρ.val f v) := by
  obtain ⟨fd', hf', hs⟩ := h.func f fd hf
  rcases operand_cases hc hu hx hv with ⟨i1, i2, d, i3⟩ | ⟨i1, i2, d, i3⟩
  · have e1 : ρ.val f v = ρ.glob v := by unfold Renaming.val; rw [i1]; rfl
    rw [e1]
    obtain ⟨d', k1, k2, -, k3⟩ := h.globals v d i3 i2
    by_cases hm : v ∈ p.instLayout
    · exact .global ⟨hm, rfl⟩
    · refine .dead (fun regs z ho => ?_) (fun regs z ho => ?_)
      · cases ho with
        | global _ _ _ h4 => exact hm h4
        | const h1 => rw [i1] at h1; cases h1
        | reg h1 => rw [i1] at h1; cases h1
      · cases ho with
        | global _ _ _ h4 =>
          rw [h.insts] at h4
          obtain ⟨w, hw, he⟩ := List.mem_map.1 h4
          have := h.injGlobals w v (.listed hw) i2 he
          subst this
          exact hm hw
        | const h1 => rw [hg _ _ k1] at h1; cases h1
        | reg h1 => rw [hg _ _ k1] at h1; cases h1
  · have e1 : ρ.val f v = ρ.loc f v := by unfold Renaming.val; rw [i1]; rfl
    rw [e1]
    cases hk : d.kind.isConst with
    | false => exact .reg ⟨rfl, i2, rfl, d, i3, hk⟩
    | true =>
      obtain ⟨d', k1, k2, -, k3⟩ := hs.values v d i3 i2
      obtain ⟨fd1, j1, j2⟩ := i3
      rw [hf] at j1; cases j1
      obtain ⟨fd2, j3, j4⟩ := k1
      rw [hf'] at j3; cases j3
      exact .const i1 (hl _ _ _ ⟨fd', hf', j4⟩) hf hf' j2 j4 hk (by rw [k3, mapKind_const]; exact hk) k2.symm
        (raw_local_const hc h hl hf hf' hs hg ⟨fd, hf, j2⟩ i2 ⟨fd', hf', j4⟩)

/-- Renamed instructions do the same to renamed operands. -/
theorem sameKind_map {V : Value → Value → Prop} {B : BB → BB → Prop} {F : Func → Func → Prop} {val : Value → Value} {blk : BB → BB} {fn : Func → Func} {k : VKind}
    (hv : ∀ v ∈ operands k, V v (val v)) (hb : ∀ b ∈ targets k, B b (blk b)) (hF : ∀ g as, k = .call g as → F g (fn g)) :
    Inert k ∧ Inert (mapKind val blk fn k) ∨ SameKind V B F k (mapKind val blk fn k) := by
  cases k with
  | integer | zeroInit | undef | aggregate | funcArgRef | blockArgRef | globalAlloc => exact .inl ⟨trivial, trivial⟩
  | alloc => exact .inr .alloc
  | load s => exact .inr (.load (hv _ (by simp [operands])))
  | store s d => exact .inr (.store (hv _ (by simp [operands])) (hv _ (by simp [operands])))
  | getPtr s d => exact .inr (.getPtr (hv _ (by simp [operands])) (hv _ (by simp [operands])))
  | getElemPtr s d => exact .inr (.getElemPtr (hv _ (by simp [operands])) (hv _ (by simp [operands])))
  | binary op s d => exact .inr (.binary (hv _ (by simp [operands])) (hv _ (by simp [operands])))
  | branch c t f ta fa =>
    exact .inr (.branch (hv _ (by simp [operands])) (hb _ (by simp [targets])) (hb _ (by simp [targets]))
      (all2_to_map (fun a ha => hv a (by simp [operands, ha]))) (all2_to_map (fun a ha => hv a (by simp [operands, ha]))))
  | jump t as => exact .inr (.jump (hb _ (by simp [targets])) (all2_to_map (fun a ha => hv a (by simp [operands, ha]))))
  | call g as => exact .inr (.call (hF g as rfl) (all2_to_map (fun a ha => hv a (by simp [operands, ha]))))
  | ret v =>
    cases v with
    | none => exact .inr .retNone
    | some v => exact .inr (.ret (hv _ (by simp [operands])))

include hc h hg hl in
theorem rawMatch_ok (hi : ∀ f fd b is v x, p.funcs.get? f = some fd → (b, is) ∈ fd.layout.bbs → v ∈ is → LocalVal p f v x → x.kind.isConst = false) :
    (rawMatch ρ p).Ok p p' := by
  have hval : ∀ {f v x}, LocalVal p f v x → ρ.val f v = ρ.loc f v := fun hx => by unfold Renaming.val; rw [hc.localId _ _ _ hx]; rfl
  -- the instructions of a block
  have insts : ∀ {f fd b is}, p.funcs.get? f = some fd → (b, is) ∈ fd.layout.bbs → All2 ((rawMatch ρ p).V f (ρ.fn f)) is (is.map (ρ.val f)) := by
    intro f fd b is hf hb
    refine all2_to_map (fun v hv => ?_)
    obtain ⟨x, hx⟩ := hc.instData f fd b is v hf hb hv
    exact ⟨rfl, .inst hf hb hv, hval hx, x, hx, hi f fd b is v x hf hb hv hx⟩
  constructor
  · refine ⟨?_, ?_⟩
    · rintro a b c ⟨-, rfl⟩ ⟨-, rfl⟩; rfl
    · rintro a b c ⟨h1, rfl⟩ ⟨h2, h3⟩
      exact h.injGlobals a b (.listed h1) (.listed h2) h3
  · intro f f'
    refine ⟨?_, ?_⟩
    · rintro a b c ⟨rfl, -, rfl, -⟩ ⟨-, -, rfl, -⟩; rfl
    · rintro a b c ⟨rfl, h1, rfl, x, hx, -⟩ ⟨-, h2, h3, -⟩
      obtain ⟨fd, hf, -⟩ := hx
      obtain ⟨fd', -, hs⟩ := h.func f fd hf
      exact hs.injValues a b h1 h2 h3
  · rintro v v' ⟨hv, rfl⟩
    obtain ⟨x, i, hx, hk⟩ := hc.insts v hv
    obtain ⟨x', k1, k2, -, k3⟩ := h.globals v x hx (.listed hv)
    obtain ⟨t, e, he, -⟩ := operand_typed (hc.typed.globals v x hx) (show i ∈ operands x.kind by rw [hk]; simp [operands])
    have hue : Used p none i := .init (.listed hv) hx (by rw [hk]; simp [operands])
    obtain ⟨e', k4, -⟩ := h.globals i e he hue
    refine ⟨hc.globalId v x hx, hg _ _ k1, hv, by rw [h.insts]; exact List.mem_map.2 ⟨v, hv, rfl⟩, x, x', i, ρ.glob i, e, e', hx, k1, hk, ?_, he, k4,
      raw_global_const hc h he hue k4⟩
    rw [k3, hk]; rfl
  · rintro v v' ⟨hv, rfl⟩
    obtain ⟨x, i, hx, hk⟩ := hc.insts v hv
    obtain ⟨x', k1, -⟩ := h.globals v x hx (.listed hv)
    refine ⟨fun f y hy => ?_, fun f y hy => ?_⟩
    · have := hc.localId f v y hy
      rw [hc.globalId v x hx] at this; cases this
    · have := hl f _ y hy
      rw [hg _ _ k1] at this; cases this
  · exact fun v hv => ⟨_, hv, rfl⟩
  · intro v' hv'
    rw [h.insts] at hv'
    obtain ⟨v, hv, rfl⟩ := List.mem_map.1 hv'
    exact ⟨v, hv, rfl⟩
  · rintro f f' ⟨hf, rfl⟩
    obtain ⟨fd, hf⟩ := Option.isSome_iff_exists.1 hf
    obtain ⟨fd', hf', hs⟩ := h.func f fd hf
    refine ⟨fd, fd', hf, hf', hs.ty.symm, ?_, ?_⟩
    · cases hb : fd.layout.bbs with
      | nil =>
        have := hs.blocks
        rw [hb] at this
        exact .inl ⟨rfl, this.eq_nil, hs.name.symm⟩
      | cons q bs =>
        have he := hs.entry
        rw [hb] at he
        cases hb' : fd'.layout.bbs with
        | nil => rw [hb'] at he; cases he
        | cons q' bs' =>
          rw [hb'] at he
          cases he
          exact .inr ⟨q.1, q.2, bs, _, _, bs', rfl, rfl, insts hf (by rw [hb]; exact List.mem_cons_self)⟩
    · rw [hs.params]
      refine all2_to_map (fun v hv => ?_)
      obtain ⟨ts, r, -, -, -, -, hp⟩ := hc.funcTy f fd hf
      obtain ⟨i, hi'⟩ := List.getElem?_of_mem hv
      obtain ⟨x, hx, hk, -⟩ := hp i v hi'
      exact ⟨rfl, .arg hf hv, rfl, x, hx, by rw [hk]; rfl⟩
  · rintro f f' b b' ⟨rfl, rfl, fd, hf, hb⟩
    obtain ⟨fd', hf', hs⟩ := h.func f fd hf
    obtain ⟨bd, hbd, hps⟩ := hc.blockData f fd b hf hb
    obtain ⟨bd', hbd', -, hpar⟩ := hs.data b bd hb hbd
    obtain ⟨⟨b0, is⟩, hmem, rfl⟩ := List.mem_map.1 hb
    have hnd' : (fd'.layout.bbs.map (·.1)).Nodup := by
      refine (hs.blocks.map (·.1)).nodup_iff.2 ?_
      rw [List.map_map, List.Nodup, List.pairwise_map]
      have := hc.blocksNodup _ _ hf
      rw [List.Nodup, List.pairwise_map] at this
      refine List.Pairwise.imp_of_mem ?_ this
      intro a b ha hb hne he
      exact hne (hs.injBlocks _ _ (List.mem_map.2 ⟨_, ha, rfl⟩) (List.mem_map.2 ⟨_, hb, rfl⟩) he)
    refine ⟨fd, fd', bd, bd', is, is.map (ρ.val f), hf, hf', hbd, hbd', (lookup_eq_some_iff (hc.blocksNodup f fd hf)).2 hmem,
      (lookup_eq_some_iff hnd').2 (hs.blocks.mem_iff.2 (List.mem_map.2 ⟨_, hmem, rfl⟩)), ?_, insts hf hmem⟩
    rw [hpar]
    refine all2_to_map (fun v hv => ?_)
    obtain ⟨i, hi'⟩ := List.getElem?_of_mem hv
    obtain ⟨x, hx, hk⟩ := hps i v hi'
    exact ⟨rfl, .param hf hb hbd hv, rfl, x, hx, by rw [hk]; rfl⟩
  · rintro f f' v v' ⟨rfl, hu, rfl, x, hx, hk⟩
    obtain ⟨fd, hf, hx'⟩ := hx
    have hx : LocalVal p f v x := ⟨fd, hf, hx'⟩
    obtain ⟨fd', hf', hs⟩ := h.func f fd hf
    obtain ⟨y, hy, h1, -, h3⟩ := hs.values v x hx hu
    refine ⟨hc.localId f v x hx, hl _ _ _ hy, x, y, hx, hy, h1.symm, hk, by rw [h3, mapKind_const]; exact hk, ?_⟩
    rw [h3]
    refine sameKind_map (fun u hu' => rawMatch_operand hc h hg hl hf hu hx hu')
      (fun b hb => ⟨rfl, rfl, fd, hf, hc.targets f fd v x b hf hu hx hb⟩) (fun g as he => ?_)
    have ht := hc.typed.locals f v x hx
    rw [he] at ht
    generalize x.ty = t at ht
    cases ht with
    | call hg' _ =>
      obtain ⟨gd, hgd, -⟩ := hg'
      exact ⟨by rw [hgd]; rfl, rfl⟩

end

end Koopa
