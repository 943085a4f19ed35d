import Verif.Spec.Behave
/-!
Programs that match in their values, blocks and functions behave in the same way: the relation of the states.
-/
namespace Koopa
open Spec Interp

/-- Which global variables, functions, values and blocks of functions correspond. -/
structure Match where
  G : Value → Value → Prop
  F : Func → Func → Prop
  V : Func → Func → Value → Value → Prop
  B : Func → Func → BB → BB → Prop

def Match.flip (M : Match) : Match := ⟨fun v v' => M.G v' v, fun f f' => M.F f' f, fun f f' v v' => M.V f' f v' v, fun f f' b b' => M.B f' f b' b⟩

/-- Operands that correspond. -/
inductive OpMatch (M : Match) (p p' : Program) (f f' : Func) (v v' : Value) : Prop
  | global : M.G v v' → OpMatch M p p' f f' v v'
  | const {fd fd' : FData} {d d' : VData} : isGlobal v = false → isGlobal v' = false → p.funcs.get? f = some fd → p'.funcs.get? f' = some fd' →
      fd.dfg.values.get? v = some d → fd'.dfg.values.get? v' = some d' → d.kind.isConst = true → d'.kind.isConst = true → d.ty = d'.ty →
      (∀ x, ConstVal fd.dfg.values.get? d x ↔ ConstVal fd'.dfg.values.get? d' x) → OpMatch M p p' f f' v v'
  | reg : M.V f f' v v' → OpMatch M p p' f f' v v'
  | dead : (∀ regs x, ¬ Operand p f regs v x) → (∀ regs x, ¬ Operand p' f' regs v' x) → OpMatch M p p' f f' v v'

/-- Instructions that do nothing. -/
def Inert : VKind → Prop
  | .integer _ | .zeroInit | .undef | .aggregate _ | .funcArgRef _ | .blockArgRef _ | .globalAlloc _ => True
  | _ => False

structure Match.Ok (M : Match) (p p' : Program) : Prop where
  gOne : OneToOne M.G
  vOne : ∀ f f', OneToOne (M.V f f')
  globals : ∀ v v', M.G v v' → isGlobal v = true ∧ isGlobal v' = true ∧ v ∈ p.instLayout ∧ v' ∈ p'.instLayout ∧
    ∃ d d' i i' e e', GlobalVal p v d ∧ GlobalVal p' v' d' ∧ d.kind = .globalAlloc i ∧ d'.kind = .globalAlloc i' ∧ GlobalVal p i e ∧ GlobalVal p' i' e' ∧
      ∀ x, ConstVal p.values.get? e x ↔ ConstVal p'.values.get? e' x
  apart : ∀ v v', M.G v v' → (∀ f x, ¬ LocalVal p f v x) ∧ ∀ f x, ¬ LocalVal p' f v' x
  all : ∀ v ∈ p.instLayout, ∃ v', M.G v v'
  all' : ∀ v' ∈ p'.instLayout, ∃ v, M.G v v'
  funcs : ∀ f f', M.F f f' → ∃ fd fd', p.funcs.get? f = some fd ∧ p'.funcs.get? f' = some fd' ∧ fd.ty = fd'.ty ∧
    (fd.layout.bbs = [] ∧ fd'.layout.bbs = [] ∧ fd.name = fd'.name ∨
      ∃ b is bs b' is' bs', fd.layout.bbs = (b, is) :: bs ∧ fd'.layout.bbs = (b', is') :: bs' ∧ All2 (M.V f f') is is') ∧
    All2 (M.V f f') fd.params fd'.params
  blocks : ∀ f f' b b', M.B f f' b b' → ∃ fd fd' bd bd' is is', p.funcs.get? f = some fd ∧ p'.funcs.get? f' = some fd' ∧
    fd.dfg.bbs.get? b = some bd ∧ fd'.dfg.bbs.get? b' = some bd' ∧ fd.layout.insts? b = some is ∧ fd'.layout.insts? b' = some is' ∧
    All2 (M.V f f') bd.params bd'.params ∧ All2 (M.V f f') is is'
  values : ∀ f f' v v', M.V f f' v v' → isGlobal v = false ∧ isGlobal v' = false ∧ ∃ d d', LocalVal p f v d ∧ LocalVal p' f' v' d' ∧ d.ty = d'.ty ∧
    d.kind.isConst = false ∧ d'.kind.isConst = false ∧
    ((Inert d.kind ∧ Inert d'.kind) ∨ SameKind (OpMatch M p p' f f') (M.B f f') M.F d.kind d'.kind)

theorem all2_flip {α β : Type} {R : α → β → Prop} : ∀ {as : List α} {bs : List β}, All2 R as bs → All2 (fun b a => R a b) bs as
  | _, _, .nil => .nil
  | _, _, .cons h hs => .cons h (all2_flip hs)

theorem all2_mono {α β : Type} {R S : α → β → Prop} (h : ∀ a b, R a b → S a b) : ∀ {as : List α} {bs : List β}, All2 R as bs → All2 S as bs
  | _, _, .nil => .nil
  | _, _, .cons h1 hs => .cons (h _ _ h1) (all2_mono h hs)

theorem OneToOne.flip {α β : Type} {R : α → β → Prop} (h : OneToOne R) : OneToOne (fun b a => R a b) :=
  ⟨fun _ _ _ h1 h2 => h.2 _ _ _ h1 h2, fun _ _ _ h1 h2 => h.1 _ _ _ h1 h2⟩

theorem OpMatch.flip {M : Match} {p p' : Program} {f f' : Func} {v v' : Value} (h : OpMatch M p p' f f' v v') : OpMatch M.flip p' p f' f v' v := by
  cases h with
  | global h => exact .global h
  | const h1 h2 h3 h4 h5 h6 h7 h8 h9 h10 => exact .const h2 h1 h4 h3 h6 h5 h8 h7 h9.symm (fun x => (h10 x).symm)
  | reg h => exact .reg h
  | dead h h' => exact .dead h' h

theorem SameKind.flip {V : Value → Value → Prop} {B : BB → BB → Prop} {F : Func → Func → Prop} {k k' : VKind} (h : SameKind V B F k k') :
    SameKind (fun v v' => V v' v) (fun b b' => B b' b) (fun f f' => F f' f) k' k := by
  cases h with
  | alloc => exact .alloc
  | load h => exact .load h
  | store h h' => exact .store h h'
  | getPtr h h' => exact .getPtr h h'
  | getElemPtr h h' => exact .getElemPtr h h'
  | binary h h' => exact .binary h h'
  | branch h1 h2 h3 h4 h5 => exact .branch h1 h2 h3 (all2_flip h4) (all2_flip h5)
  | jump h1 h2 => exact .jump h1 (all2_flip h2)
  | call h1 h2 => exact .call h1 (all2_flip h2)
  | retNone => exact .retNone
  | ret h => exact .ret h

theorem SameKind.mono {V W : Value → Value → Prop} (hv : ∀ v v', V v v' → W v v') {B C : BB → BB → Prop} (hb : ∀ b b', B b b' → C b b') {F : Func → Func → Prop} {k k' : VKind} (h : SameKind V B F k k') :
    SameKind W C F k k' := by
  cases h with
  | alloc => exact .alloc
  | load h => exact .load (hv _ _ h)
  | store h h' => exact .store (hv _ _ h) (hv _ _ h')
  | getPtr h h' => exact .getPtr (hv _ _ h) (hv _ _ h')
  | getElemPtr h h' => exact .getElemPtr (hv _ _ h) (hv _ _ h')
  | binary h h' => exact .binary (hv _ _ h) (hv _ _ h')
  | branch h1 h2 h3 h4 h5 => exact .branch (hv _ _ h1) (hb _ _ h2) (hb _ _ h3) (all2_mono hv h4) (all2_mono hv h5)
  | jump h1 h2 => exact .jump (hb _ _ h1) (all2_mono hv h2)
  | call h1 h2 => exact .call h1 (all2_mono hv h2)
  | retNone => exact .retNone
  | ret h => exact .ret (hv _ _ h)

theorem Match.Ok.flip {M : Match} {p p' : Program} (h : M.Ok p p') : M.flip.Ok p' p where
  gOne := OneToOne.flip h.gOne
  vOne := fun f f' => OneToOne.flip (h.vOne f' f)
  globals := fun v v' hv => by
    obtain ⟨h1, h2, h3, h4, d, d', i, i', e, e', k1, k2, k3, k4, k5, k6, k7⟩ := h.globals v' v hv
    exact ⟨h2, h1, h4, h3, d', d, i', i, e', e, k2, k1, k4, k3, k6, k5, fun x => (k7 x).symm⟩
  apart := fun v v' hv => ⟨(h.apart v' v hv).2, (h.apart v' v hv).1⟩
  all := h.all'
  all' := h.all
  funcs := fun f f' hf => by
    obtain ⟨fd, fd', h1, h2, h3, h4, h5⟩ := h.funcs f' f hf
    refine ⟨fd', fd, h2, h1, h3.symm, ?_, all2_flip h5⟩
    rcases h4 with ⟨a, b, c⟩ | ⟨b, is, bs, b', is', bs', k1, k2, k3⟩
    · exact .inl ⟨b, a, c.symm⟩
    · exact .inr ⟨b', is', bs', b, is, bs, k2, k1, all2_flip k3⟩
  blocks := fun f f' b b' hb => by
    obtain ⟨fd, fd', bd, bd', is, is', h1, h2, h3, h4, h5, h6, h7, h8⟩ := h.blocks f' f b' b hb
    exact ⟨fd', fd, bd', bd, is', is, h2, h1, h4, h3, h6, h5, all2_flip h7, all2_flip h8⟩
  values := fun f f' v v' hv => by
    obtain ⟨h1, h2, d, d', k1, k2, k3, k4, k5, k6⟩ := h.values f' f v' v hv
    refine ⟨h2, h1, d', d, k2, k1, k3.symm, k5, k4, ?_⟩
    rcases k6 with ⟨a, b⟩ | k6
    · exact .inl ⟨b, a⟩
    · exact .inr (SameKind.mono (fun _ _ h => OpMatch.flip h) (fun _ _ h => h) (SameKind.flip k6))

/-! ### The states -/

/-- Objects that correspond; `own`: the functions of the activations so far. -/
inductive ObjRel (M : Match) (own : Nat → Option (Func × Func)) : Obj → Obj → Prop
  | glob {v v' : Value} : M.G v v' → ObjRel M own (.glob v) (.glob v')
  | loc {i n : Nat} {f f' : Func} {v v' : Value} : own i = some (f, f') → M.V f f' v v' → ObjRel M own (.loc i v n) (.loc i v' n)

/-- Values that may be missing. -/
inductive OptRel {α β : Type} (R : α → β → Prop) : Option α → Option β → Prop
  | none : OptRel R none none
  | some {a : α} {b : β} : R a b → OptRel R (some a) (some b)

structure ActMatch (M : Match) (own : Nat → Option (Func × Func)) (a a' : Act) : Prop where
  fn : M.F a.fn a'.fn
  rest : All2 (M.V a.fn a'.fn) a.rest a'.rest
  regs : ∀ v v', M.V a.fn a'.fn v v' → OptRel (SameShape (ObjRel M own)) (a.regs v) (a'.regs v')
  id : a.id = a'.id
  made : ∀ v v', M.V a.fn a'.fn v v' → a.made.count v = a'.made.count v'
  own : own a.id = some (a.fn, a'.fn)

structure StMatch {σ : Type} (M : Match) (own : Nat → Option (Func × Func)) (s s' : MState σ) : Prop where
  acts : All2 (ActMatch M own) s.acts s'.acts
  mem : ∀ o o', ObjRel M own o o' → OptRel (SameShape (ObjRel M own)) (s.mem o) (s'.mem o')
  born : s.born = s'.born
  world : s.world = s'.world
  owned : ∀ i, s.born ≤ i → own i = none
  fresh : ∀ i v n, s.born ≤ i → s.mem (.loc i v n) = none
  fresh' : ∀ i v n, s.born ≤ i → s'.mem (.loc i v n) = none

theorem ObjRel.oneToOne {M : Match} {p p' : Program} (h : M.Ok p p') (own : Nat → Option (Func × Func)) : OneToOne (ObjRel M own) := by
  refine ⟨fun a b c h1 h2 => ?_, fun a b c h1 h2 => ?_⟩
  · cases h1 with
    | glob k1 => cases h2 with | glob k2 => rw [h.gOne.1 _ _ _ k1 k2]
    | loc k1 k2 => cases h2 with | loc k3 k4 => rw [k1] at k3; cases k3; rw [(h.vOne _ _).1 _ _ _ k2 k4]
  · cases h1 with
    | glob k1 => cases h2 with | glob k2 => rw [h.gOne.2 _ _ _ k1 k2]
    | loc k1 k2 => cases h2 with | loc k3 k4 => rw [k1] at k3; cases k3; rw [(h.vOne _ _).2 _ _ _ k2 k4]

theorem ObjRel.flip {M : Match} {own : Nat → Option (Func × Func)} {o o' : Obj} (h : ObjRel M own o o') :
    ObjRel M.flip (fun i => (own i).map (fun q => (q.2, q.1))) o' o := by
  cases h with
  | glob h => exact .glob h
  | loc h1 h2 => exact .loc (by simp only [h1]; rfl) h2

theorem ObjRel.unflip {M : Match} {own : Nat → Option (Func × Func)} {o o' : Obj} (h : ObjRel M.flip (fun i => (own i).map (fun q => (q.2, q.1))) o' o) :
    ObjRel M own o o' := by
  cases h with
  | glob h => exact .glob h
  | loc h1 h2 =>
    simp only [Option.map_eq_some_iff] at h1
    obtain ⟨⟨a, b⟩, h1, h3⟩ := h1
    cases h3
    exact .loc h1 h2

theorem SameShape.flip {R S : Obj → Obj → Prop} (h : ∀ o o', R o o' → S o' o) {x y : Val} (hx : SameShape R x y) : SameShape S y x := by
  induction hx with
  | undef => exact .undef
  | int n => exact .int n
  | array h1 _ ih => exact .array h1.symm (fun i a b ha hb => ih i b a hb ha)
  | null i n => exact .null i n
  | ptr path i n hr => exact .ptr path i n (h _ _ hr)
  | unsafePtr q => exact .unsafePtr q

theorem SameShape.mono {R S : Obj → Obj → Prop} (h : ∀ o o', R o o' → S o o') {x y : Val} (hx : SameShape R x y) : SameShape S x y := by
  induction hx with
  | undef => exact .undef
  | int n => exact .int n
  | array h1 _ ih => exact .array h1 ih
  | null i n => exact .null i n
  | ptr path i n hr => exact .ptr path i n (h _ _ hr)
  | unsafePtr q => exact .unsafePtr q

theorem OptRel.flip {α β : Type} {R : α → β → Prop} {S : β → α → Prop} (h : ∀ a b, R a b → S b a) {a : Option α} {b : Option β} (hx : OptRel R a b) : OptRel S b a := by
  cases hx with
  | none => exact .none
  | some hr => exact .some (h _ _ hr)

theorem OptRel.mono {α β : Type} {R S : α → β → Prop} (h : ∀ a b, R a b → S a b) {a : Option α} {b : Option β} (hx : OptRel R a b) : OptRel S a b := by
  cases hx with
  | none => exact .none
  | some hr => exact .some (h _ _ hr)

theorem OptRel.get {α β : Type} {R : α → β → Prop} {o : Option α} {b : Option β} (h : OptRel R o b) {a : α} (ha : o = Option.some a) : ∃ c, b = Option.some c ∧ R a c := by
  cases h with
  | none => cases ha
  | some hr => cases ha; exact ⟨_, rfl, hr⟩

theorem StMatch.flip {σ : Type} {M : Match} {own : Nat → Option (Func × Func)} {s s' : MState σ} (h : StMatch M own s s') :
    StMatch M.flip (fun i => (own i).map (fun q => (q.2, q.1))) s' s := by
  have hs : ∀ x y, SameShape (ObjRel M own) x y → SameShape (ObjRel M.flip (fun i => (own i).map (fun q => (q.2, q.1)))) y x :=
    fun x y hx => SameShape.flip (fun _ _ h => ObjRel.flip h) hx
  refine ⟨?_, ?_, h.born.symm, h.world.symm, ?_, fun i v n hi => h.fresh' i v n (by rw [h.born]; exact hi), fun i v n hi => h.fresh i v n (by rw [h.born]; exact hi)⟩
  · refine all2_mono (fun a a' ha => ?_) (all2_flip h.acts)
    exact ⟨ha.fn, all2_flip ha.rest, fun v v' hv => (ha.regs v' v hv).flip hs, ha.id.symm, fun v v' hv => (ha.made v' v hv).symm, by
      show (own a.id).map _ = _
      rw [← ha.id, ha.own]; rfl⟩
  · exact fun o o' ho => (h.mem o' o ho.unflip).flip hs
  · intro i hi
    show (own i).map _ = none
    rw [h.owned i (by rw [h.born]; exact hi)]; rfl

end Koopa
