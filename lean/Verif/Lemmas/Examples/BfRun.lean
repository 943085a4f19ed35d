import Verif.Model.Examples.Interp
import Verif.Lemmas.Examples.BfCode
/-!
The Brainfuck compiler: what the instructions of the finished program do when they are interpreted.
-/
namespace Koopa.Bf
open Koopa Koopa.Spec Koopa.Interp

/-- What is fixed while the finished program runs. -/
structure Runtime (env : Env) (arr zero : Value) (p : Program) (w : List Char) (rt : Rt) (fd : FData) : Prop where
  built : Built env arr zero p w
  prog : rt.prog = p
  fd : p.funcs.get? env.main = some fd
  depth : 0 < rt.depth
  vars : rt.vars arr = some (.ptr (some (.glob arr, [])) 0 0)

/-- Running the rest of a block. -/
def E {σ : Type} (lib : Lib σ) (rt : Rt) (n : Nat) (is : List Value) (fr : Frame) (st : Interp.St σ) : Out σ (Val × Interp.St σ) :=
  evalInsts lib rt (evalFunc lib rt.prog (evalBb lib rt n)) (evalBb lib rt n) is fr st

theorem evalConst_int {look : Value → Option VData} {m : Nat} {d : VData} {i : I32} (h : d.kind = .integer i) :
    evalConst look (m + 1) d = some (.int i) := by
  obtain ⟨t, n, k, u⟩ := d
  cases h
  rfl

section
variable {env : Env} {ar zero : Value} {p : Program} {w : List Char} {rt : Rt} {fd : FData} {σ : Type} {lib : Lib σ}

theorem Runtime.data (h : Runtime env ar zero p w rt fd) {v : Value} {t : Ty} {k : VKind} (hv : Has p env.main v t k) :
    ∃ d, fd.dfg.values.get? v = some d ∧ d.ty = t ∧ d.kind = k ∧ isGlobal v = false := by
  obtain ⟨n, hn⟩ := hv
  have hr := (h.built.fi.lRange hn).1
  obtain ⟨x, ⟨fd', hf, hx⟩, he⟩ := view_l_iff.1 hn
  rw [h.fd] at hf; cases hf
  cases he
  refine ⟨x, hx, rfl, rfl, ?_⟩
  unfold isGlobal
  rw [decide_eq_false (show ¬ v < localStart by omega), Bool.and_false]

theorem Runtime.const (h : Runtime env ar zero p w rt fd) {v : Value} {i : I32} (hv : Has p env.main v .i32 (.integer i))
    {fr : Frame} (hf : fr.func = fd) : evalValue rt fr v = some (.int i) := by
  obtain ⟨d, h1, h2, h3, h4⟩ := h.data hv
  obtain ⟨m, hm⟩ : ∃ m, rt.depth = m + 1 := ⟨rt.depth - 1, by have := h.depth; omega⟩
  have h5 : d.kind.isConst = true := by rw [h3]; rfl
  unfold evalValue
  rw [h4, hf, h1, hm]
  simp only [h5, if_true, Bool.false_eq_true, if_false]
  exact evalConst_int h3

theorem Runtime.inst (h : Runtime env ar zero p w rt fd) {v : Value} {t : Ty} {k : VKind} (hv : Has p env.main v t k) (hk : k.isConst = false)
    {fr : Frame} (hf : fr.func = fd) : evalValue rt fr v = fr.vals v := by
  obtain ⟨d, h1, h2, h3, h4⟩ := h.data hv
  have h5 : d.kind.isConst = false := by rw [h3]; exact hk
  unfold evalValue
  rw [h4, hf, h1]
  simp only [h5, Bool.false_eq_true, if_false]

theorem Runtime.arr (h : Runtime env ar zero p w rt fd) {fr : Frame} : evalValue rt fr ar = some (.ptr (some (.glob ar, [])) 0 0) := by
  obtain ⟨init, n, h1, h2⟩ := h.built.data
  have hr := (h.built.fi.gRange h1)
  have hm := h.built.fi.max
  obtain ⟨x, hx, he⟩ := view_g_iff.1 h1
  have hk : x.kind = .globalAlloc init := congrArg (fun s => s.2.2) he
  have h5 : x.kind.isConst = false := by rw [hk]; rfl
  have hg : isGlobal ar = true := by
    unfold isGlobal
    rw [decide_eq_true (show ar < localStart by omega), decide_eq_true (show ar ≥ globalStart from hr.1)]; rfl
  have hx' : p.values.get? ar = some x := hx
  unfold evalValue
  rw [hg, h.prog, hx']
  simp only [h5, if_true, Bool.false_eq_true, if_false, h.vars]

/-! ### Single instructions -/

theorem Runtime.load (h : Runtime env ar zero p w rt fd) {n : Nat} {is : List Value} {fr : Frame} {st : Interp.St σ} {v src : Value} {t : Ty}
    (hf : fr.func = fd) (hv : Has p env.main v t (.load src)) {a : Obj × List Nat} {i m : Nat} {x : Val}
    (hs : evalValue rt fr src = some (.ptr (some a) i m)) (hr : readMem st.mem a = some x) :
    E lib rt n (v :: is) fr st = E lib rt n is (fr.set v x) st := by
  obtain ⟨d, h1, h2, h3, h4⟩ := h.data hv
  unfold E
  rw [evalInsts]
  simp only [hf, h1, h3]
  unfold evalLoad
  simp only [hs, hr, Out.bind]

theorem Runtime.store (h : Runtime env ar zero p w rt fd) {n : Nat} {is : List Value} {fr : Frame} {st : Interp.St σ} {v x dst : Value} {t : Ty}
    (hf : fr.func = fd) (hv : Has p env.main v t (.store x dst)) {a : Obj × List Nat} {i m : Nat} {y : Val} {m' : Obj → Option Val}
    (hx : evalValue rt fr x = some y)
    (hs : evalValue rt fr dst = some (.ptr (some a) i m)) (hr : writeMem st.mem a y = some m') :
    E lib rt n (v :: is) fr st = E lib rt n is fr { st with mem := m' } := by
  obtain ⟨d, h1, h2, h3, h4⟩ := h.data hv
  unfold E
  rw [evalInsts]
  simp only [hf, h1, h3]
  unfold evalStore
  simp only [hx, hs, hr, Out.bind]

theorem Runtime.getPtr (h : Runtime env ar zero p w rt fd) {n : Nat} {is : List Value} {fr : Frame} {st : Interp.St σ} {v src index : Value} {t : Ty}
    (hf : fr.func = fd) (hv : Has p env.main v (.ptr t) (.getPtr src index)) {x : Val} {i : I32}
    (hx : evalValue rt fr src = some x) (hi : evalValue rt fr index = some (.int i)) :
    (∀ y, getPointer x i.toInt (t.size rt.ptrSize) = some (some y) → E lib rt n (v :: is) fr st = E lib rt n is (fr.set v y) st) ∧
    (getPointer x i.toInt (t.size rt.ptrSize) = some none → E lib rt n (v :: is) fr st = .err st.world) := by
  obtain ⟨d, h1, h2, h3, h4⟩ := h.data hv
  unfold E
  rw [evalInsts]
  simp only [hf, h1, h3]
  unfold evalGetPtr
  simp only [hx, hi, h2, pointeeSize]
  exact ⟨fun y hy => by simp only [hy, Out.bind], fun hy => by simp only [hy, Out.bind]⟩

theorem Runtime.getElemPtr (h : Runtime env ar zero p w rt fd) {n : Nat} {is : List Value} {fr : Frame} {st : Interp.St σ} {v src index : Value} {t : Ty}
    (hf : fr.func = fd) (hv : Has p env.main v (.ptr t) (.getElemPtr src index)) {i : I32} {a : Obj × List Nat} {k m : Nat} {l : List Val} {y : Val}
    (hx : evalValue rt fr src = some (.ptr (some a) k m)) (hi : evalValue rt fr index = some (.int i))
    (hr : readMem st.mem a = some (.array l))
    (hy : getPointer (.ptr (some (a.1, a.2 ++ [0])) 0 l.length) i.toInt (t.size rt.ptrSize) = some (some y)) :
    E lib rt n (v :: is) fr st = E lib rt n is (fr.set v y) st := by
  obtain ⟨d, h1, h2, h3, h4⟩ := h.data hv
  unfold E
  rw [evalInsts]
  simp only [hf, h1, h3]
  unfold evalGetElemPtr
  simp only [hx, hi, h2, pointeeSize, hr, hy, Out.bind]

theorem Runtime.binary (h : Runtime env ar zero p w rt fd) {n : Nat} {is : List Value} {fr : Frame} {st : Interp.St σ} {v a b : Value} {t : Ty} {op : BinOp}
    (hf : fr.func = fd) (hv : Has p env.main v t (.binary op a b)) {i j : I32}
    (hx : evalValue rt fr a = some (.int i)) (hy : evalValue rt fr b = some (.int j)) :
    (∀ k, evalOp rt.chk op i j = some k → E lib rt n (v :: is) fr st = E lib rt n is (fr.set v (.int k)) st) ∧
    (evalOp rt.chk op i j = none → E lib rt n (v :: is) fr st = .bad) := by
  obtain ⟨d, h1, h2, h3, h4⟩ := h.data hv
  unfold E
  rw [evalInsts]
  simp only [hf, h1, h3]
  unfold evalBinary
  simp only [hx, hy]
  exact ⟨fun y hy => by simp only [hy, Out.bind], fun hy => by simp only [hy, Out.bind]⟩

theorem Runtime.alloc (h : Runtime env ar zero p w rt fd) {n : Nat} {is : List Value} {fr : Frame} {st : Interp.St σ} {v : Value} {t : Ty} {x : Val}
    (hf : fr.func = fd) (hv : Has p env.main v (.ptr t) .alloc) (hz : zeroInit t = some x) :
    E lib rt n (v :: is) fr st = E lib rt n is
      ({ fr with allocs := v :: fr.allocs }.set v (.ptr (some (.loc fr.act v (fr.allocs.count v), [])) 0 0))
      { st with mem := fun o' => if o' = .loc fr.act v (fr.allocs.count v) then some x else st.mem o' } := by
  obtain ⟨d, h1, h2, h3, h4⟩ := h.data hv
  unfold E
  rw [evalInsts]
  simp only [hf, h1, h3]
  unfold evalAlloc
  simp only [h2, hz, Out.bind, hf]

/-- A call of a function without a body. -/
theorem Runtime.call (h : Runtime env ar zero p w rt fd) {n : Nat} {is : List Value} {fr : Frame} {st : Interp.St σ} {v : Value} {g : Func} {args : List Value}
    {t r : Ty} {ps : List Ty} {name : Str} {qs : List Value}
    (hf : fr.func = fd) (hv : Has p env.main v t (.call g args)) {xs : List Val}
    (hg : p.view.head g = some (.func ps r, name, qs)) (hne : g ≠ env.main)
    (hx : collect (evalValue rt fr) args = some xs) (hl : ps.length = xs.length) :
    (∀ x u, lib.call name (.func ps r) xs st.world = some (x, u) →
      E lib rt n (v :: is) fr st = E lib rt n is (fr.set v x) { st with world := u }) ∧
    (lib.call name (.func ps r) xs st.world = none → E lib rt n (v :: is) fr st = .err st.world) := by
  obtain ⟨d, h1, h2, h3, h4⟩ := h.data hv
  obtain ⟨gd, hgd, he⟩ := Option.map_eq_some_iff.1 (show (p.funcs.get? g).map _ = _ from hg)
  have e1 : gd.ty = .func ps r := congrArg (·.1) he
  have e2 : gd.name = name := congrArg (·.2.1) he
  have hb : gd.layout.bbs = [] := h.built.noBlocks g _ hne (by show (p.funcs.get? g).map _ = _; rw [hgd]; rfl)
  unfold E
  rw [evalInsts]
  simp only [hf, h1, h3, hx]
  unfold evalFunc
  simp only [h.prog, hgd]
  simp only [e1, e2, hl, ne_eq, not_true, if_false, hb]
  exact ⟨fun x u hy => by simp only [hy, Out.bind], fun hy => by simp only [hy, Out.bind]⟩

theorem Runtime.bb (h : Runtime env ar zero p w rt fd) {n : Nat} {b : BB} {is : List Value} {fr : Frame} {st : Interp.St σ}
    (hf : fr.func = fd) (hc : code env.main p b = some is) : evalBb lib rt (n + 1) b fr st = E lib rt n is fr st := by
  have : fd.layout.insts? b = some is := by
    unfold code at hc
    rw [show p.view.lay env.main = some fd.layout by show (p.funcs.get? _).map _ = _; rw [h.fd]; rfl] at hc
    exact hc
  rw [evalBb, hf, this]
  rfl

theorem Runtime.pass (h : Runtime env ar zero p w rt fd) {b : BB} {is : List Value} {fr : Frame}
    (hf : fr.func = fd) (hc : code env.main p b = some is) : passArgs rt fr b [] = some fr := by
  obtain ⟨n, hn⟩ := h.built.noParams b is hc
  obtain ⟨x, ⟨fd', h1, h2⟩, _, h3⟩ := view_b_iff.1 hn
  rw [h.fd] at h1; cases h1
  unfold passArgs
  rw [hf, h2]
  simp [updateParams]

theorem Runtime.jump (h : Runtime env ar zero p w rt fd) {n : Nat} {is js : List Value} {fr : Frame} {st : Interp.St σ} {v : Value} {t : Ty} {b : BB}
    (hf : fr.func = fd) (hv : Has p env.main v t (.jump b [])) (hc : code env.main p b = some is) :
    E lib rt 0 (v :: js) fr st = .fuel ∧ E lib rt (n + 1) (v :: js) fr st = E lib rt n is fr st := by
  obtain ⟨d, h1, h2, h3, h4⟩ := h.data hv
  have hp := h.pass hf hc
  constructor
  · unfold E
    rw [evalInsts]
    simp only [hf, h1, h3, hp, Out.unwrap, Out.bind, evalBb]
  · unfold E
    rw [evalInsts]
    simp only [hf, h1, h3, hp, Out.unwrap, Out.bind, h.bb hf hc]
    rfl

theorem Runtime.branch (h : Runtime env ar zero p w rt fd) {n : Nat} {is js ks : List Value} {fr : Frame} {st : Interp.St σ} {v c : Value} {t : Ty} {b d : BB} {i : I32}
    (hf : fr.func = fd) (hv : Has p env.main v t (.branch c b d [] [])) (hb : code env.main p b = some is) (hd : code env.main p d = some js)
    (hc : evalValue rt fr c = some (.int i)) :
    E lib rt 0 (v :: ks) fr st = .fuel ∧ E lib rt (n + 1) (v :: ks) fr st = E lib rt n (if i ≠ 0 then is else js) fr st := by
  obtain ⟨x, h1, h2, h3, h4⟩ := h.data hv
  have hp := h.pass hf hb
  have hq := h.pass hf hd
  have key : ∀ m, E lib rt m (v :: ks) fr st = if i ≠ 0 then evalBb lib rt m b fr st else evalBb lib rt m d fr st := by
    intro m
    unfold E
    rw [evalInsts]
    simp only [hf, h1, h3, hc, Val.asBool, hp, hq, Out.unwrap, Out.bind]
    by_cases e : i = 0
    · subst e; simp
    · simp [e]
  refine ⟨?_, ?_⟩
  · rw [key]; split <;> rfl
  · rw [key, h.bb hf hb, h.bb hf hd]; split <;> rfl

theorem Runtime.ret (h : Runtime env ar zero p w rt fd) {n : Nat} {ks : List Value} {fr : Frame} {st : Interp.St σ} {v x : Value} {t : Ty} {y : Val}
    (hf : fr.func = fd) (hv : Has p env.main v t (.ret (some x))) (hx : evalValue rt fr x = some y) :
    E lib rt n (v :: ks) fr st = .done (y, st) := by
  obtain ⟨d, h1, h2, h3, h4⟩ := h.data hv
  unfold E
  rw [evalInsts]
  simp only [hf, h1, h3, hx, Out.unwrap, Out.bind]

end

end Koopa.Bf
