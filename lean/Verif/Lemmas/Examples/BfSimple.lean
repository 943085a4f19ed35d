import Verif.Lemmas.Examples.Brainfuck
/-!
The Brainfuck compiler: everything that the program under construction consists of.
-/
namespace Koopa.Bf
open Koopa Koopa.Spec

/-- Types without unit and functions. -/
inductive Solid : Ty → Prop
  | i32 : Solid .i32
  | ptr {t : Ty} : Solid t → Solid (.ptr t)
  | array {t : Ty} {n : Nat} : Solid t → Solid (.array t n)

/-- Type and kind of a local value of the main function `m`; `arr` is the data array. -/
inductive OkSig (V : View) (m pu ge : Func) (arr : Value) : Ty → VKind → Prop
  | integer (n) : OkSig V m pu ge arr .i32 (.integer n)
  | alloc {t} : Solid t → OkSig V m pu ge arr (.ptr t) .alloc
  | load {t x} : Solid t → isGlobal x = false → OkSig V m pu ge arr t (.load x)
  | store {x y} : isGlobal x = false → isGlobal y = false → OkSig V m pu ge arr .unit (.store x y)
  | getPtr {t x y} : Solid t → isGlobal x = false → isGlobal y = false → OkSig V m pu ge arr t (.getPtr x y)
  | getElemPtr {t y} : Solid t → isGlobal y = false → OkSig V m pu ge arr t (.getElemPtr arr y)
  | binary {op x y} : op = .add ∨ op = .notEq → isGlobal x = false → isGlobal y = false → OkSig V m pu ge arr .i32 (.binary op x y)
  | branch {c a b op x y} : isGlobal c = false → kindAt V m c = some (.binary op x y) → OkSig V m pu ge arr .unit (.branch c a b [] [])
  | jump {b} : OkSig V m pu ge arr .unit (.jump b [])
  | call {g as} : g = pu ∨ g = ge → (∀ a ∈ as, isGlobal a = false) → OkSig V m pu ge arr .i32 (.call g as)
  | ret {x n} : isGlobal x = false → kindAt V m x = some (.integer n) → OkSig V m pu ge arr .unit (.ret (some x))

/-- Instructions that the compiler asks for. -/
inductive OkInst (V : View) (m pu ge : Func) (arr : Value) : LocalInst → Prop
  | integer (n) : OkInst V m pu ge arr (.val (.integer n))
  | alloc {t} : Solid t → OkInst V m pu ge arr (.alloc t)
  | load {x} : isGlobal x = false → OkInst V m pu ge arr (.load x)
  | store {x y} : isGlobal x = false → isGlobal y = false → OkInst V m pu ge arr (.store x y)
  | getPtr {x y} : isGlobal x = false → isGlobal y = false → OkInst V m pu ge arr (.getPtr x y)
  | getElemPtr {y} : isGlobal y = false → OkInst V m pu ge arr (.getElemPtr arr y)
  | binary {op x y} : op = .add ∨ op = .notEq → isGlobal x = false → isGlobal y = false → OkInst V m pu ge arr (.binary op x y)
  | branch {c a b op x y} : isGlobal c = false → kindAt V m c = some (.binary op x y) → OkInst V m pu ge arr (.branch c a b)
  | jump {b} : OkInst V m pu ge arr (.jump b)
  | call {g as} : g = pu ∨ g = ge → (∀ a ∈ as, isGlobal a = false) → OkInst V m pu ge arr (.call g as)
  | ret {x n} : isGlobal x = false → kindAt V m x = some (.integer n) → OkInst V m pu ge arr (.ret (some x))

/-- The value is no constant. -/
def NoConst (V : View) (f : Func) (v : Value) : Prop := ∃ k, kindAt V f v = some k ∧ ∀ n, k ≠ .integer n

/-- The names of blocks. -/
def bbNames : List (Option Str) :=
  [none, some "%entry".toList, some "%end".toList, some "%while_cond".toList, some "%while_body".toList, some "%while_end".toList]

/-- What the program consists of. -/
structure Simple (m pu ge : Func) (arr init : Value) (V : View) : Prop where
  next : localStart ≤ V.ids.nextLocal
  range : ∀ f v s, V.l f v = some s → v < V.ids.nextLocal
  l : ∀ f v t n k, V.l f v = some (t, n, k) → f = m ∧ isGlobal v = false ∧ (n = none ∨ n = some "%ptr".toList) ∧ OkSig V m pu ge arr t k
  b : ∀ f b n ps, V.b f b = some (n, ps) → f = m ∧ ps = [] ∧ n ∈ bbNames
  head : ∀ f s, V.head f = some s → f = pu ∧ s = (.func [.i32] .i32, "@putchar".toList, []) ∨ f = ge ∧ s = (.func [] .i32, "@getchar".toList, []) ∨
    f = m ∧ s = (.func [] .i32, "@main".toList, [])
  ft : ∀ f s, V.ft f = some s → ∃ ts, s = .func ts .i32
  fns : V.fns = [pu, ge, m]
  g : ∀ v s, V.g v = some s → v = init ∧ s = (.array .i32 65536, none, .zeroInit) ∨
    v = arr ∧ s = (.ptr (.array .i32 65536), some "@data_arr".toList, .globalAlloc init)
  apart : pu ≠ ge ∧ pu ≠ m ∧ ge ≠ m ∧ init ≠ arr
  lay : ∀ f l b is v, V.lay f = some l → (b, is) ∈ l.bbs → v ∈ is → NoConst V f v

variable {m pu ge : Func} {arr init : Value} {p p' : Program}

theorem OkSig.mono {V V' : View} (hv : ∀ v s, V.l m v = some s → ∃ s', V'.l m v = some s' ∧ s'.2.2 = s.2.2) {t : Ty} {k : VKind}
    (h : OkSig V m pu ge arr t k) : OkSig V' m pu ge arr t k := by
  have key : ∀ {x k}, kindAt V m x = some k → kindAt V' m x = some k := by
    intro x k h
    unfold kindAt at h ⊢
    obtain ⟨s, hs, rfl⟩ := Option.map_eq_some_iff.1 h
    obtain ⟨s', h1, h2⟩ := hv x s hs
    rw [h1, Option.map_some, h2]
  cases h with
  | integer n => exact .integer n
  | alloc h => exact .alloc h
  | load h h' => exact .load h h'
  | store h h' => exact .store h h'
  | getPtr h h' h'' => exact .getPtr h h' h''
  | getElemPtr h h' => exact .getElemPtr h h'
  | binary h h' h'' => exact .binary h h' h''
  | branch h h' => exact .branch h (key h')
  | jump => exact .jump
  | call h h' => exact .call h h'
  | ret h h' => exact .ret h (key h')

/-- Types of values. -/
theorem Simple.tyOk (h : Simple m pu ge arr init p.view) {f : Func} {v : Value} {t : Ty} (hv : (p.view.val f v).map (·.1) = some t) : t = .unit ∨ Solid t := by
  obtain ⟨⟨t', n, k⟩, hs, rfl⟩ := Option.map_eq_some_iff.1 hv
  unfold View.val at hs
  cases hg : p.view.g v with
  | some s =>
    rw [hg] at hs
    cases hs
    rcases h.g v _ hg with ⟨-, e⟩ | ⟨-, e⟩ <;> cases e
    · exact .inr (.array .i32)
    · exact .inr (.ptr (.array .i32))
  | none =>
    rw [hg] at hs
    have hs : p.view.l f v = some (t', n, k) := by simpa using hs
    obtain ⟨-, -, -, ho⟩ := h.l f v t' n k hs
    cases ho with
    | integer => exact .inr .i32
    | alloc h => exact .inr (.ptr h)
    | load h => exact .inr h
    | getPtr h => exact .inr h
    | getElemPtr h => exact .inr h
    | binary => exact .inr .i32
    | call => exact .inr .i32
    | store => exact .inl rfl
    | branch => exact .inl rfl
    | jump => exact .inl rfl
    | ret => exact .inl rfl

theorem solid_ptr {t : Ty} (h : Ty.ptr t = .unit ∨ Solid (.ptr t)) : Solid t := by
  rcases h with h | h
  · cases h
  · cases h; assumption

theorem solid_array {t : Ty} {n : Nat} (h : Solid (.array t n)) : Solid t := by
  cases h; assumption

/-- What a builder makes of an instruction that the compiler asks for. -/
theorem OkInst.sig (h : Simple m pu ge arr init p.view) {fd : FData} (hf : p.funcs.get? m = some fd) {i : LocalInst}
    (hi : OkInst p.view m pu ge arr i) {data : VData} (hb : i.build ((p.ctx fd).querier p.funcTys) = some data) :
    data.name = none ∧ OkSig p.view m pu ge arr data.ty data.kind ∧ (∀ n, i = .val (.integer n) → data.kind = .integer n) ∧
      (∀ op x y, i = .binary op x y → data.kind = .binary op x y) ∧ ((∀ n, i ≠ .val (.integer n)) → ∀ n, data.kind ≠ .integer n) := by
  rw [querier_view hf] at hb
  have ty : ∀ {v t}, (p.view.val m v).map (·.1) = some t → t = .unit ∨ Solid t := fun h' => h.tyOk h'
  cases hi with
  | integer n => cases hb; exact ⟨rfl, .integer n, fun n h => by cases h; rfl, nofun, fun h => absurd rfl (h n)⟩
  | alloc hs =>
    unfold LocalInst.build at hb
    simp only [Option.bind_eq_bind, Option.bind_eq_some_iff, Option.some.injEq] at hb
    obtain ⟨_, -, rfl⟩ := hb
    exact ⟨rfl, .alloc hs, nofun, nofun, nofun⟩
  | load hx =>
    unfold LocalInst.build at hb
    simp only [Option.bind_eq_bind, Option.bind_eq_some_iff] at hb
    obtain ⟨t, ht, hb⟩ := hb
    split at hb
    · cases hb; exact ⟨rfl, .load (solid_ptr (ty ht)) hx, nofun, nofun, nofun⟩
    · cases hb
  | store hx hy =>
    unfold LocalInst.build at hb
    simp only [Option.bind_eq_bind, Option.bind_eq_some_iff, Option.some.injEq] at hb
    obtain ⟨_, -, _, -, _, -, rfl⟩ := hb
    exact ⟨rfl, .store hx hy, nofun, nofun, nofun⟩
  | getPtr hx hy =>
    unfold LocalInst.build at hb
    simp only [Option.bind_eq_bind, Option.bind_eq_some_iff] at hb
    obtain ⟨t, ht, hb⟩ := hb
    split at hb
    · simp only [Option.bind_eq_some_iff, Option.some.injEq] at hb
      obtain ⟨_, -, _, -, rfl⟩ := hb
      exact ⟨rfl, .getPtr (.ptr (solid_ptr (ty ht))) hx hy, nofun, nofun, nofun⟩
    · cases hb
  | getElemPtr hy =>
    unfold LocalInst.build at hb
    simp only [Option.bind_eq_bind, Option.bind_eq_some_iff] at hb
    obtain ⟨_, -, _, -, t, ht, hb⟩ := hb
    split at hb
    · cases hb; exact ⟨rfl, .getElemPtr (.ptr (solid_array (solid_ptr (ty ht)))) hy, nofun, nofun, nofun⟩
    · cases hb
  | binary ho hx hy =>
    unfold LocalInst.build at hb
    simp only [Option.bind_eq_bind, Option.bind_eq_some_iff, Option.some.injEq] at hb
    obtain ⟨t, -, _, -, _, ha, rfl⟩ := hb
    have ht : t = .i32 := by
      unfold assert at ha
      split at ha
      · rename_i hc
        rw [Bool.and_eq_true] at hc
        have := hc.1
        unfold Ty.isI32 at this
        split at this
        · rfl
        · cases this
      · cases ha
    subst ht
    exact ⟨rfl, .binary ho hx hy, nofun, (fun op x y h => by cases h; rfl), nofun⟩
  | branch hc hk =>
    unfold LocalInst.build at hb
    simp only [Option.bind_eq_bind, Option.bind_eq_some_iff, Option.some.injEq] at hb
    obtain ⟨_, -, _, -, _, -, _, -, _, -, _, -, rfl⟩ := hb
    exact ⟨rfl, .branch hc hk, nofun, nofun, nofun⟩
  | jump =>
    unfold LocalInst.build at hb
    simp only [Option.bind_eq_bind, Option.bind_eq_some_iff, Option.some.injEq] at hb
    obtain ⟨_, -, _, -, rfl⟩ := hb
    exact ⟨rfl, .jump, nofun, nofun, nofun⟩
  | call hg ha =>
    unfold LocalInst.build at hb
    simp only [Option.bind_eq_bind, Option.bind_eq_some_iff] at hb
    obtain ⟨t, ht, hb⟩ := hb
    split at hb
    · simp only [Option.bind_eq_some_iff, Option.some.injEq] at hb
      obtain ⟨_, -, _, -, rfl⟩ := hb
      obtain ⟨ts, e⟩ := h.ft _ _ ht
      cases e
      exact ⟨rfl, .call hg ha, nofun, nofun, nofun⟩
    · cases hb
  | ret hx hk =>
    unfold LocalInst.build at hb
    simp only [Option.bind_eq_bind, Option.bind_eq_some_iff, Option.some.injEq] at hb
    obtain ⟨_, -, _, -, rfl⟩ := hb
    exact ⟨rfl, .ret hx hk, nofun, nofun, nofun⟩

theorem local_id {v : Value} (h : localStart ≤ v) : isGlobal v = false := by
  unfold isGlobal
  have : decide (v < localStart) = false := by simpa using h
  rw [this, Bool.and_false]

/-- Kinds stay. -/
def KeepsKinds (m : Func) (p p' : Program) : Prop := ∀ v k, kindAt p.view m v = some k → kindAt p'.view m v = some k

theorem KeepsKinds.trans {q : Program} (h : KeepsKinds m p p') (h' : KeepsKinds m p' q) : KeepsKinds m p q := fun v k hk => h' v k (h v k hk)

theorem Simple.newLocal (h : Simple m pu ge arr init p.view) {i : LocalInst} (hi : OkInst p.view m pu ge arr i) {v : Value}
    (e : p.newLocal m i = some (p', v)) : Simple m pu ge arr init p'.view ∧ KeepsKinds m p p' ∧ isGlobal v = false ∧
      (∀ n, i = .val (.integer n) → kindAt p'.view m v = some (.integer n)) ∧
      (∀ op x y, i = .binary op x y → kindAt p'.view m v = some (.binary op x y)) ∧ ((∀ n, i ≠ .val (.integer n)) → NoConst p'.view m v) := by
  obtain ⟨fd, data, hf, hb, hv, hview⟩ := newLocal_view e
  obtain ⟨d1, d2, d3, d4, d5⟩ := hi.sig h hf hb
  have hg : isGlobal v = false := by rw [hv]; exact local_id h.next
  have old : ∀ f w s, p.view.l f w = some s → w ≠ v := by
    intro f w s hs he
    have : w < p.ids.nextLocal := h.range f w s hs
    omega
  have keep : ∀ f w s, p.view.l f w = some s → p'.view.l f w = some s := by
    intro f w s hs
    rw [hview]
    simp only
    rw [if_neg (fun c => old f w s hs c.2)]; exact hs
  have new : p'.view.l m v = some data.shape := by rw [hview]; simp
  have mono : ∀ {t k}, OkSig p.view m pu ge arr t k → OkSig p'.view m pu ge arr t k := fun ho => ho.mono (fun w s hs => ⟨s, keep m w s hs, rfl⟩)
  have hn : (p.view.ids.nextLocal : Nat) = p.ids.nextLocal := rfl
  have hn' : p'.view.ids.nextLocal = v + 1 := by rw [hview]
  have kd : kindAt p'.view m v = some data.kind := by unfold kindAt; rw [new]; rfl
  have kk : ∀ f w k, kindAt p.view f w = some k → kindAt p'.view f w = some k := by
    intro f w k hk
    unfold kindAt at hk ⊢
    obtain ⟨s, hs, rfl⟩ := Option.map_eq_some_iff.1 hk
    rw [keep f w s hs]; rfl
  refine ⟨⟨?_, ?_, ?_, ?_, ?_, ?_, ?_, ?_, h.apart, ?_⟩, fun w k hk => kk m w k hk, hg, ?_, ?_, fun hn => ⟨_, kd, d5 hn⟩⟩
  · rw [hn']; have := h.next; omega
  · intro f w s hs
    rw [hn']
    rw [hview] at hs
    simp only at hs
    split at hs
    · rename_i hc; rw [hc.2]; exact Nat.lt_succ_self _
    · have := h.range f w s hs; omega
  · intro f w t n k hs
    rw [hview] at hs
    simp only at hs
    split at hs
    · rename_i hc
      obtain ⟨rfl, rfl⟩ := hc
      cases hs
      exact ⟨rfl, hg, .inl d1, mono d2⟩
    · obtain ⟨a, b, c, d⟩ := h.l f w t n k hs
      exact ⟨a, b, c, mono d⟩
  · rw [hview]; exact h.b
  · rw [hview]; exact h.head
  · rw [hview]; exact h.ft
  · rw [hview]; exact h.fns
  · rw [hview]; exact h.g
  · intro f l b is w h1 h2 h3
    rw [hview] at h1
    obtain ⟨k, k1, k2⟩ := h.lay f l b is w h1 h2 h3
    exact ⟨k, kk f w k k1, k2⟩
  · intro n hn; rw [kd, d3 n hn]
  · intro op x y hn; rw [kd, d4 op x y hn]

theorem Simple.sameL {V V' : View} (h : Simple m pu ge arr init V) (e1 : V'.ids.nextLocal = V.ids.nextLocal) (e2 : V'.l = V.l)
    (e3 : ∀ f b n ps, V'.b f b = some (n, ps) → f = m ∧ ps = [] ∧ n ∈ bbNames) (e4 : V'.head = V.head) (e5 : V'.ft = V.ft) (e6 : V'.fns = V.fns)
    (e7 : V'.g = V.g) (e8 : ∀ f l b is v, V'.lay f = some l → (b, is) ∈ l.bbs → v ∈ is →
      (∃ l0 is0, V.lay f = some l0 ∧ (b, is0) ∈ l0.bbs ∧ v ∈ is0) ∨ NoConst V f v) : Simple m pu ge arr init V' := by
  refine ⟨by rw [e1]; exact h.next, by rw [e1, e2]; exact h.range, ?_, e3, by rw [e4]; exact h.head, by rw [e5]; exact h.ft, by rw [e6]; exact h.fns,
    by rw [e7]; exact h.g, h.apart, ?_⟩
  rotate_left
  · intro f l b is v h1 h2 h3
    have key : NoConst V f v := by
      rcases e8 f l b is v h1 h2 h3 with ⟨l0, is0, k1, k2, k3⟩ | k
      · exact h.lay f l0 b is0 v k1 k2 k3
      · exact k
    unfold NoConst kindAt at key ⊢
    rw [e2]; exact key
  intro f v t n k hs
  rw [e2] at hs
  obtain ⟨a, b, c, d⟩ := h.l f v t n k hs
  exact ⟨a, b, c, d.mono (fun w s hs => ⟨s, by rw [e2]; exact hs, rfl⟩)⟩

theorem keepsKinds_of {m : Func} (e : p'.view.l = p.view.l) : KeepsKinds m p p' := by
  intro v k hk
  unfold kindAt at hk ⊢
  rw [e]; exact hk

theorem Simple.newBb (h : Simple m pu ge arr init p.view) {n : Option Str} (hn : n ∈ bbNames) {b : BB} (e : p.newBb m n = some (p', b)) :
    Simple m pu ge arr init p'.view ∧ KeepsKinds m p p' := by
  rw [newBb_eq] at e
  obtain ⟨-, -, -, -, hview⟩ := newBbParams_view e
  have hl : p'.view.l = p.view.l := by
    rw [hview]
    funext f' w
    simp only [paramSig_nil, Option.none_or]
    split
    · rename_i hc; rw [hc]
    · rfl
  refine ⟨h.sameL (by rw [hview]; rfl) hl ?_ (by rw [hview]) (by rw [hview]) (by rw [hview]) (by rw [hview])
    (fun f l b is v h1 h2 h3 => .inl ⟨l, is, by rw [hview] at h1; exact h1, h2, h3⟩), keepsKinds_of hl⟩
  intro f c n' ps hc
  rw [hview] at hc
  simp only at hc
  split at hc
  · rename_i hh
    cases hc
    exact ⟨hh.1, rfl, hn⟩
  · exact h.b f c n' ps hc

theorem Simple.pushBb (h : Simple m pu ge arr init p.view) {b : BB} (e : p.pushBb m b = some p') :
    Simple m pu ge arr init p'.view ∧ KeepsKinds m p p' := by
  obtain ⟨l, hlay, -, hview⟩ := pushBb_view e
  have hl : p'.view.l = p.view.l := by rw [hview]
  refine ⟨h.sameL (by rw [hview]) hl (by rw [hview]; exact h.b) (by rw [hview]) (by rw [hview]) (by rw [hview]) (by rw [hview]) ?_, keepsKinds_of hl⟩
  intro f l' c is v h1 h2 h3
  rw [hview] at h1
  simp only at h1
  split at h1
  · rename_i hf
    cases h1
    rcases List.mem_append.1 h2 with h2 | h2
    · exact .inl ⟨l, is, by rw [hf]; exact hlay, h2, h3⟩
    · cases List.mem_singleton.1 h2; cases h3
  · exact .inl ⟨l', is, h1, h2, h3⟩

theorem mem_setInsts_cases {b c : BB} {is js : List Value} : ∀ {l : List (BB × List Value)}, (c, js) ∈ setInsts b is l → (c, js) ∈ l ∨ c = b ∧ js = is
  | [], h => by cases h
  | (b', is') :: l, h => by
    rw [setInsts] at h
    split at h
    · rename_i hb
      rcases List.mem_cons.1 h with h | h
      · cases h; exact .inr ⟨hb, rfl⟩
      · exact .inl (List.mem_cons_of_mem _ h)
    · rcases List.mem_cons.1 h with h | h
      · cases h; exact .inl List.mem_cons_self
      · rcases mem_setInsts_cases h with h | h
        · exact .inl (List.mem_cons_of_mem _ h)
        · exact .inr h

theorem Simple.pushInst (h : Simple m pu ge arr init p.view) {b : BB} {v : Value} (hv : NoConst p.view m v) (e : p.pushInst m b v = some p') :
    Simple m pu ge arr init p'.view ∧ KeepsKinds m p p' := by
  obtain ⟨l, is, hlay, his, -, hview⟩ := pushInst_view e
  have hl : p'.view.l = p.view.l := by rw [hview]
  refine ⟨h.sameL (by rw [hview]) hl (by rw [hview]; exact h.b) (by rw [hview]) (by rw [hview]) (by rw [hview]) (by rw [hview]) ?_, keepsKinds_of hl⟩
  intro f l' c js w h1 h2 h3
  rw [hview] at h1
  simp only at h1
  split at h1
  · rename_i hf
    subst hf
    cases h1
    rcases mem_setInsts_cases h2 with h2 | ⟨rfl, rfl⟩
    · exact .inl ⟨l, js, hlay, h2, h3⟩
    · rcases List.mem_append.1 h3 with h3 | h3
      · exact .inl ⟨l, is, hlay, lookup_mem his, h3⟩
      · cases List.mem_singleton.1 h3
        exact .inr hv
  · exact .inl ⟨l', js, h1, h2, h3⟩

theorem Simple.setPtrName (h : Simple m pu ge arr init p.view) {v : Value} (e : p.setLocalName m v (some "%ptr".toList) = some p') :
    Simple m pu ge arr init p'.view ∧ KeepsKinds m p p' := by
  obtain ⟨t, n0, k, h0, hview⟩ := setLocalName_view e
  have keep : ∀ w s, p.view.l m w = some s → ∃ s', p'.view.l m w = some s' ∧ s'.2.2 = s.2.2 := by
    intro w s hs
    rw [hview]
    simp only [true_and]
    split
    · rename_i hc
      subst hc
      rw [h0] at hs; cases hs
      exact ⟨_, rfl, rfl⟩
    · exact ⟨s, hs, rfl⟩
  refine ⟨⟨by rw [hview]; exact h.next, ?_, ?_, by rw [hview]; exact h.b, by rw [hview]; exact h.head, by rw [hview]; exact h.ft, by rw [hview]; exact h.fns,
    by rw [hview]; exact h.g, h.apart, ?_⟩, ?_⟩
  · intro f w s hs
    have e2 : p'.view.ids = p.view.ids := by rw [hview]
    rw [e2]
    rw [hview] at hs
    simp only at hs
    split at hs
    · rename_i hc; rw [hc.2]; exact h.range m v _ h0
    · exact h.range f w s hs
  · intro f w t' n k' hs
    rw [hview] at hs
    simp only at hs
    split at hs
    · rename_i hc
      obtain ⟨rfl, rfl⟩ := hc
      cases hs
      obtain ⟨a, b, -, d⟩ := h.l f w _ _ _ h0
      exact ⟨a, b, .inr rfl, d.mono keep⟩
    · obtain ⟨a, b, c, d⟩ := h.l f w t' n k' hs
      exact ⟨a, b, c, d.mono keep⟩
  · intro f l b is w h1 h2 h3
    rw [hview] at h1
    obtain ⟨k, k1, k2⟩ := h.lay f l b is w h1 h2 h3
    have hf : f = m := by
      unfold kindAt at k1
      obtain ⟨s, hs, -⟩ := Option.map_eq_some_iff.1 k1
      exact (h.l f w s.1 s.2.1 s.2.2 hs).1
    subst hf
    refine ⟨k, ?_, k2⟩
    unfold kindAt at k1 ⊢
    obtain ⟨s, hs, rfl⟩ := Option.map_eq_some_iff.1 k1
    obtain ⟨s', h1, h2⟩ := keep w s hs
    rw [h1, Option.map_some, h2]
  · intro w k hk
    unfold kindAt at hk ⊢
    obtain ⟨s, hs, rfl⟩ := Option.map_eq_some_iff.1 hk
    obtain ⟨s', h1, h2⟩ := keep w s hs
    rw [h1, Option.map_some, h2]

theorem Simple.addNew (h : Simple m pu ge arr init p.view) {i : LocalInst} (hi : OkInst p.view m pu ge arr i) {bb : BB} {v : Value}
    (e : addNew m p bb i = some (p', v)) (hn : ∀ n, i ≠ .val (.integer n) := by nofun) : Simple m pu ge arr init p'.view ∧ KeepsKinds m p p' ∧ isGlobal v = false ∧
      ∀ op x y, i = .binary op x y → kindAt p'.view m v = some (.binary op x y) := by
  unfold Bf.addNew at e
  simp only [Option.bind_eq_bind, Option.bind_eq_some_iff, Option.some.injEq, Prod.mk.injEq] at e
  obtain ⟨⟨q, v'⟩, e1, q', e2, rfl, rfl⟩ := e
  obtain ⟨h1, k1, l1, -, b1, n1⟩ := h.newLocal hi e1
  obtain ⟨h2, k2⟩ := h1.pushInst (n1 hn) e2
  exact ⟨h2, k1.trans k2, l1, fun op x y hh => k2 _ _ (b1 op x y hh)⟩

theorem Simple.addBb (h : Simple m pu ge arr init p.view) {n : Option Str} (hn : n ∈ bbNames) {b : BB} (e : addBb m p n = some (p', b)) :
    Simple m pu ge arr init p'.view ∧ KeepsKinds m p p' := by
  unfold Bf.addBb at e
  simp only [Option.bind_eq_bind, Option.bind_eq_some_iff, Option.some.injEq, Prod.mk.injEq] at e
  obtain ⟨⟨q, b'⟩, e1, q', e2, rfl, rfl⟩ := e
  obtain ⟨h1, k1⟩ := h.newBb hn e1
  obtain ⟨h2, k2⟩ := h1.pushBb e2
  exact ⟨h2, k1.trans k2⟩

/-- The environment fits. -/
abbrev SimpleIn (env : Env) (arr init : Value) (p : Program) : Prop := Simple env.main env.putchar env.getchar arr init p.view

variable {env : Env} {st st' : St}

theorem SimpleIn.ptrOp (h : SimpleIn env arr init st.prog) (hp : isGlobal env.ptr = false) {i : I32} (e : ptrOp env st i = some st') :
    SimpleIn env arr init st'.prog ∧ KeepsKinds env.main st.prog st'.prog := by
  unfold Bf.ptrOp at e
  simp only [Option.bind_eq_bind, Option.bind_eq_some_iff, Option.some.injEq] at e
  obtain ⟨⟨p1, a⟩, e1, ⟨p2, b⟩, e2, ⟨p3, c⟩, e3, ⟨p4, d⟩, e4, rfl⟩ := e
  obtain ⟨h1, k1, l1, -⟩ := h.addNew (.load hp) e1
  obtain ⟨h2, k2, l2, -⟩ := h1.newLocal (.integer i) e2
  obtain ⟨h3, k3, l3, -⟩ := h2.addNew (.getPtr l1 l2) e3
  obtain ⟨h4, k4, -⟩ := h3.addNew (.store l3 hp) e4
  exact ⟨h4, ((k1.trans k2).trans k3).trans k4⟩

theorem SimpleIn.dataOp (h : SimpleIn env arr init st.prog) (hp : isGlobal env.ptr = false) {i : I32} (e : dataOp env st i = some st') :
    SimpleIn env arr init st'.prog ∧ KeepsKinds env.main st.prog st'.prog := by
  unfold Bf.dataOp at e
  simp only [Option.bind_eq_bind, Option.bind_eq_some_iff, Option.some.injEq] at e
  obtain ⟨⟨p1, a⟩, e1, ⟨p2, b⟩, e2, ⟨p3, c⟩, e3, ⟨p4, d⟩, e4, ⟨p5, x⟩, e5, rfl⟩ := e
  obtain ⟨h1, k1, l1, -⟩ := h.addNew (.load hp) e1
  obtain ⟨h2, k2, l2, -⟩ := h1.addNew (.load l1) e2
  obtain ⟨h3, k3, l3, -⟩ := h2.newLocal (.integer i) e3
  obtain ⟨h4, k4, l4, -⟩ := h3.addNew (.binary (.inl rfl) l2 l3) e4
  obtain ⟨h5, k5, -⟩ := h4.addNew (.store l4 l1) e5
  exact ⟨h5, (((k1.trans k2).trans k3).trans k4).trans k5⟩

theorem SimpleIn.start (h : SimpleIn env arr init st.prog) (hp : isGlobal env.ptr = false) (e : start env st = some st') :
    SimpleIn env arr init st'.prog ∧ KeepsKinds env.main st.prog st'.prog := by
  unfold Bf.start at e
  simp only [Option.bind_eq_bind, Option.bind_eq_some_iff, Option.some.injEq] at e
  obtain ⟨⟨p1, b1⟩, e1, ⟨p2, v2⟩, e2, ⟨p3, v3⟩, e3, ⟨p4, v4⟩, e4, ⟨p5, v5⟩, e5, ⟨p6, v6⟩, e6, ⟨p7, b7⟩, e7, ⟨p8, b8⟩, e8, ⟨p9, v9⟩, e9, p10, e10, rfl⟩ := e
  obtain ⟨h1, k1⟩ := h.addBb (by decide) e1
  obtain ⟨h2, k2, -⟩ := h1.addNew .jump e2
  obtain ⟨h3, k3, l3, -⟩ := h2.addNew (.load hp) e3
  obtain ⟨h4, k4, l4, -⟩ := h3.addNew (.load l3) e4
  obtain ⟨h5, k5, l5, -⟩ := h4.newLocal (.integer 0) e5
  obtain ⟨h6, k6, l6, c6⟩ := h5.addNew (.binary (.inr rfl) l4 l5) e6
  obtain ⟨h7, k7⟩ := h6.newBb (by decide) e7
  obtain ⟨h8, k8⟩ := h7.newBb (by decide) e8
  obtain ⟨h9, k9, -⟩ := h8.addNew (.branch l6 (k8 _ _ (k7 _ _ (c6 _ _ _ rfl)))) e9
  obtain ⟨h10, k10⟩ := h9.pushBb e10
  exact ⟨h10, k1.trans (k2.trans (k3.trans (k4.trans (k5.trans (k6.trans (k7.trans (k8.trans (k9.trans k10))))))))⟩

theorem SimpleIn.finish (h : SimpleIn env arr init st.prog) (e : finish env st = some (some st')) :
    SimpleIn env arr init st'.prog ∧ KeepsKinds env.main st.prog st'.prog := by
  unfold Bf.finish at e
  split at e
  · cases e
  · simp only [Option.bind_eq_bind, Option.bind_eq_some_iff, Option.some.injEq] at e
    obtain ⟨⟨p1, v1⟩, e1, p2, e2, rfl⟩ := e
    obtain ⟨h1, k1, -⟩ := h.addNew .jump e1
    obtain ⟨h2, k2⟩ := h1.pushBb e2
    exact ⟨h2, k1.trans k2⟩

theorem SimpleIn.put (h : SimpleIn env arr init st.prog) (hp : isGlobal env.ptr = false) (e : put env st = some st') :
    SimpleIn env arr init st'.prog ∧ KeepsKinds env.main st.prog st'.prog := by
  unfold Bf.put at e
  simp only [Option.bind_eq_bind, Option.bind_eq_some_iff, Option.some.injEq] at e
  obtain ⟨⟨p1, a⟩, e1, ⟨p2, b⟩, e2, ⟨p3, c⟩, e3, rfl⟩ := e
  obtain ⟨h1, k1, l1, -⟩ := h.addNew (.load hp) e1
  obtain ⟨h2, k2, l2, -⟩ := h1.addNew (.load l1) e2
  obtain ⟨h3, k3, -⟩ := h2.addNew (.call (.inl rfl) (by simpa using l2)) e3
  exact ⟨h3, (k1.trans k2).trans k3⟩

theorem SimpleIn.get (h : SimpleIn env arr init st.prog) (hp : isGlobal env.ptr = false) (e : Bf.get env st = some st') :
    SimpleIn env arr init st'.prog ∧ KeepsKinds env.main st.prog st'.prog := by
  unfold Bf.get at e
  simp only [Option.bind_eq_bind, Option.bind_eq_some_iff, Option.some.injEq] at e
  obtain ⟨⟨p1, a⟩, e1, ⟨p2, b⟩, e2, ⟨p3, c⟩, e3, rfl⟩ := e
  obtain ⟨h1, k1, l1, -⟩ := h.addNew (.call (.inr rfl) (by simp)) e1
  obtain ⟨h2, k2, l2, -⟩ := h1.addNew (.load hp) e2
  obtain ⟨h3, k3, -⟩ := h2.addNew (.store l1 l2) e3
  exact ⟨h3, (k1.trans k2).trans k3⟩

theorem SimpleIn.step (h : SimpleIn env arr init st.prog) (hp : isGlobal env.ptr = false) {c : Char} (e : step env st c = some (some st')) :
    SimpleIn env arr init st'.prog ∧ KeepsKinds env.main st.prog st'.prog := by
  unfold Bf.step at e
  have some_map : ∀ {o : Option St}, o.map some = some (some st') → o = some st' := by
    intro o ho
    cases o with
    | none => cases ho
    | some x => cases ho; rfl
  repeat' split at e
  · exact h.ptrOp hp (some_map e)
  · exact h.ptrOp hp (some_map e)
  · exact h.dataOp hp (some_map e)
  · exact h.dataOp hp (some_map e)
  · exact h.start hp (some_map e)
  · exact h.finish e
  · exact h.put hp (some_map e)
  · exact h.get hp (some_map e)
  · cases e; exact ⟨h, fun _ _ hk => hk⟩

theorem SimpleIn.loop (hp : isGlobal env.ptr = false) : ∀ (w : List Char) {st : St}, SimpleIn env arr init st.prog → Bf.loop env st w = some (some st') →
    SimpleIn env arr init st'.prog ∧ KeepsKinds env.main st.prog st'.prog
  | [], st, h, e => by cases e; exact ⟨h, fun _ _ hk => hk⟩
  | c :: w, st, h, e => by
    unfold Bf.loop at e
    split at e
    · cases e
    · cases e
    · rename_i st1 e1
      obtain ⟨h1, k1⟩ := h.step hp e1
      obtain ⟨h2, k2⟩ := SimpleIn.loop hp w h1 e
      exact ⟨h2, k1.trans k2⟩

theorem simple_enter {env' : Env} {zero : Value} (h : SimpleIn env env.ptr init p) (e : enter env p = some (env', zero, st)) :
    SimpleIn env' env.ptr init st.prog ∧ isGlobal env'.ptr = false ∧ isGlobal zero = false ∧ kindAt st.prog.view env'.main zero = some (.integer 0) ∧
      env'.main = env.main ∧ env'.putchar = env.putchar ∧ env'.getchar = env.getchar := by
  unfold Bf.enter at e
  simp only [Option.bind_eq_bind, Option.bind_eq_some_iff, Option.some.injEq, Prod.mk.injEq] at e
  obtain ⟨⟨p1, b1⟩, e1, ⟨p2, v2⟩, e2, p3, e3, p4, e4, ⟨p5, v5⟩, e5, ⟨p6, v6⟩, e6, ⟨p7, v7⟩, e7, ⟨p8, b8⟩, e8, ⟨p9, v9⟩, e9, rfl, rfl, rfl⟩ := e
  obtain ⟨h1, k1⟩ := h.addBb (by decide) e1
  obtain ⟨h2, k2, l2, -, -, n2⟩ := h1.newLocal (.alloc (.ptr .i32)) e2
  obtain ⟨h3, k3⟩ := h2.setPtrName e3
  obtain ⟨h4, k4⟩ := h3.pushInst (by obtain ⟨k, a, b⟩ := n2 nofun; exact ⟨k, k3 _ _ a, b⟩) e4
  obtain ⟨h5, k5, l5, c5, -⟩ := h4.newLocal (.integer 0) e5
  obtain ⟨h6, k6, l6, -⟩ := h5.addNew (.getElemPtr l5) e6
  obtain ⟨h7, k7, -⟩ := h6.addNew (.store l6 l2) e7
  obtain ⟨h8, k8⟩ := h7.addBb (by decide) e8
  obtain ⟨h9, k9, -⟩ := h8.addNew .jump e9
  exact ⟨h9, l2, l5, k9 _ _ (k8 _ _ (k7 _ _ (k6 _ _ (c5 _ rfl)))), rfl, rfl, rfl⟩

theorem SimpleIn.leave {zero : Value} (h : SimpleIn env arr init st.prog) (hz : isGlobal zero = false)
    (hk : kindAt st.prog.view env.main zero = some (.integer 0)) (e : leave env zero st = some p) : SimpleIn env arr init p := by
  unfold Bf.leave at e
  simp only [Option.bind_eq_bind, Option.bind_eq_some_iff, Option.some.injEq] at e
  obtain ⟨⟨p1, b1⟩, e1, ⟨p2, v2⟩, e2, ⟨p3, v3⟩, e3, rfl⟩ := e
  obtain ⟨h1, k1⟩ := h.addBb (by decide) e1
  obtain ⟨h2, k2, -⟩ := h1.addNew .jump e2
  exact (h2.addNew (.ret hz (k2 _ _ (k1 _ _ hk))) e3).1

theorem simple_prelude {ids : Ids} (hl : localStart ≤ ids.nextLocal) (e : prelude ids = some (env, p)) : ∃ init, SimpleIn env env.ptr init p := by
  unfold Bf.prelude at e
  simp only [Option.bind_eq_bind, Option.bind_eq_some_iff, Option.some.injEq, Prod.mk.injEq] at e
  obtain ⟨t, ht, ⟨p1, v1⟩, e1, ⟨p2, v2⟩, e2, p3, e3, ⟨p4, f4⟩, e4, ⟨p5, f5⟩, e5, ⟨p6, f6⟩, e6, rfl, rfl⟩ := e
  cases (show some (Ty.array .i32 65536) = some t from ht)
  obtain ⟨d1, b1, r1, w1⟩ := newGlobal_view e1
  cases (show some (VData.new (.array .i32 65536) .zeroInit) = some d1 from b1)
  obtain ⟨d2, b2, r2, w2⟩ := newGlobal_view e2
  have hg1 : p1.view.g v1 = some (.array .i32 65536, none, .zeroInit) := by rw [w1]; simp [VData.shape, VData.new]
  rw [globalQuerier_view] at b2
  have hd2 : d2 = VData.new (.ptr (.array .i32 65536)) (.globalAlloc v1) := by
    unfold GlobalInst.build at b2
    simp only [hg1, Option.map_some, Option.bind_eq_bind, Option.bind_some, Option.bind_eq_some_iff, Option.some.injEq] at b2
    obtain ⟨_, -, b2⟩ := b2
    first
    | exact b2.symm
    | (obtain ⟨_, -, b2⟩ := b2; exact b2.symm)
  subst hd2
  obtain ⟨t3, n3, k3, h3, w3⟩ := setGlobalName_view e3
  have hv12 : v1 ≠ v2 := by
    have : p1.ids.nextGlobal = v1 + 1 := congrArg (fun V : View => V.ids.nextGlobal) w1
    show (v1 : Nat) ≠ v2
    have h2 : (v2 : Nat) = p1.ids.nextGlobal := r2
    omega
  have hg2 : p2.view.g v2 = some (.ptr (.array .i32 65536), none, .globalAlloc v1) := by rw [w2]; simp [VData.shape, VData.new]
  rw [hg2] at h3; cases h3
  obtain ⟨r4, -, -, w4⟩ := newFuncDecl_view e4
  obtain ⟨r5, -, -, w5⟩ := newFuncDecl_view e5
  obtain ⟨r6, -, -, w6⟩ := newFuncDef_view (show p5.newFuncDefWithParamNames "@main".toList [] .i32 = some (p6, f6) from e6)
  have n4 : p4.ids.nextFunc = f4 + 1 := congrArg (fun V : View => V.ids.nextFunc) w4
  have n5 : p5.ids.nextFunc = f5 + 1 := congrArg (fun V : View => V.ids.nextFunc) w5
  have n45 : f4 ≠ f5 := by show (f4 : Nat) ≠ f5; have : (f5 : Nat) = p4.ids.nextFunc := r5; omega
  have n46 : f4 ≠ f6 := by
    show (f4 : Nat) ≠ f6
    have a : (f5 : Nat) = p4.ids.nextFunc := r5
    have b : (f6 : Nat) = p5.ids.nextFunc := r6
    omega
  have n56 : f5 ≠ f6 := by show (f5 : Nat) ≠ f6; have : (f6 : Nat) = p5.ids.nextFunc := r6; omega
  have V0 : (Program.new ids).view.l = (fun _ _ => none) := rfl
  have B0 : (Program.new ids).view.b = (fun _ _ => none) := rfl
  have H0 : (Program.new ids).view.head = (fun _ => none) := rfl
  have T0 : (Program.new ids).view.ft = (fun _ => none) := rfl
  have N0 : (Program.new ids).view.fns = [] := rfl
  have G0 : (Program.new ids).view.g = (fun _ => none) := rfl
  have L6 : ∀ f v, p6.view.l f v = none := by
    intro f v
    rw [w6]; simp only [paramSig_nil]; split; · rfl
    rw [w5]; simp only; split; · rfl
    rw [w4]; simp only; split; · rfl
    rw [w3, w2, w1, V0]
  have i6 : p6.view.ids.nextLocal = ids.nextLocal := by
    have a6 : p6.ids.nextLocal = p5.ids.nextLocal + 0 := congrArg (fun V : View => V.ids.nextLocal) w6
    have a5 : p5.ids.nextLocal = p4.ids.nextLocal := congrArg (fun V : View => V.ids.nextLocal) w5
    have a4 : p4.ids.nextLocal = p3.ids.nextLocal := congrArg (fun V : View => V.ids.nextLocal) w4
    have a3 : p3.ids.nextLocal = p2.ids.nextLocal := congrArg (fun V : View => V.ids.nextLocal) w3
    have a2 : p2.ids.nextLocal = p1.ids.nextLocal := congrArg (fun V : View => V.ids.nextLocal) w2
    have a1 : p1.ids.nextLocal = ids.nextLocal := congrArg (fun V : View => V.ids.nextLocal) w1
    show p6.ids.nextLocal = _
    omega
  refine ⟨v1, by rw [i6]; exact hl, ?_, ?_, ?_, ?_, ?_, ?_, ?_, ⟨n45, n46, n56, hv12⟩, ?_⟩
  · intro f v s hs; rw [L6] at hs; cases hs
  · intro f v t n k hs; rw [L6] at hs; cases hs
  · intro f b n ps hs
    have : p6.view.b f b = none := by
      rw [w6]; simp only; split; · rfl
      rw [w5]; simp only; split; · rfl
      rw [w4]; simp only; split; · rfl
      rw [w3, w2, w1, B0]
    rw [this] at hs; cases hs
  · intro f s hs
    rw [w6] at hs; simp only at hs
    split at hs
    · rename_i hc; cases hs; exact .inr (.inr ⟨hc, rfl⟩)
    rw [w5] at hs; simp only at hs
    split at hs
    · rename_i hc; cases hs; exact .inr (.inl ⟨hc, rfl⟩)
    rw [w4] at hs; simp only at hs
    split at hs
    · rename_i hc; cases hs; exact .inl ⟨hc, rfl⟩
    rw [w3, w2, w1, H0] at hs; cases hs
  · intro f s hs
    rw [w6] at hs; simp only at hs
    split at hs
    · cases hs; exact ⟨_, rfl⟩
    rw [w5] at hs; simp only at hs
    split at hs
    · cases hs; exact ⟨_, rfl⟩
    rw [w4] at hs; simp only at hs
    split at hs
    · cases hs; exact ⟨_, rfl⟩
    rw [w3, w2, w1, T0] at hs; cases hs
  · rw [w6, w5, w4, w3, w2, w1, N0]; rfl
  · intro v s hs
    rw [w6, w5, w4, w3] at hs; simp only at hs
    split at hs
    · rename_i hc; cases hs; exact .inr ⟨hc, rfl⟩
    · rename_i hc
      rw [w2] at hs; simp only at hs
      rw [if_neg hc, w1] at hs; simp only at hs
      split at hs
      · rename_i hc; cases hs; exact .inl ⟨hc, rfl⟩
      · rw [G0] at hs; cases hs
  · intro f l b is v h1 h2 h3
    rw [w6] at h1; simp only at h1
    split at h1
    · cases h1; cases h2
    rw [w5] at h1; simp only at h1
    split at h1
    · cases h1; cases h2
    rw [w4] at h1; simp only at h1
    split at h1
    · cases h1; cases h2
    rw [w3, w2, w1] at h1
    cases (show (none : Option Layout) = some l from h1)

/-- The finished program. -/
theorem simple_build {ids : Ids} (hl : localStart ≤ ids.nextLocal) {w : List Char} (hp : build ids w = some (some p)) :
    ∃ m pu ge arr init, Simple m pu ge arr init p.view := by
  unfold Bf.build at hp
  simp only [Option.bind_eq_bind, Option.bind_eq_some_iff] at hp
  obtain ⟨⟨env, p0⟩, e0, ⟨env', zero, st⟩, e1, o, e2, hp⟩ := hp
  obtain ⟨init, s0⟩ := simple_prelude hl e0
  obtain ⟨s1, l1, l2, k1, -⟩ := simple_enter s0 e1
  cases o with
  | none => cases hp
  | some st' =>
    simp only [Option.map_eq_some_iff, Option.some.injEq] at hp
    obtain ⟨q, e3, rfl⟩ := hp
    obtain ⟨s2, k2⟩ := SimpleIn.loop l1 w s1 e2
    exact ⟨_, _, _, _, _, s2.leave l2 (k2 _ _ k1) e3⟩

end Koopa.Bf
