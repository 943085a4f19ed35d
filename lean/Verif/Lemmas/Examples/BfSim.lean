import Verif.Lemmas.Examples.BfRun
import Verif.Lemmas.Examples.BfText
/-!
The Brainfuck compiler: the finished program, interpreted, does what the text means, command by command.
-/
namespace Koopa.Bf
open Koopa Koopa.Spec Koopa.Interp

/-- The library functions write and read characters. -/
structure LibIo {σ : Type} (lib : Lib σ) (io : BfIo σ) : Prop where
  put : ∀ n v, lib.call "@putchar".toList (.func [.i32] .i32) [.int n] v = (io.put n v).map (fun q => (.int q.1, q.2))
  get : ∀ v, lib.call "@getchar".toList (.func [] .i32) [] v = (io.get v).map (fun q => (.int q.1, q.2))

/-- The interpreter is in the state `s` of the machine; `o` is the object that holds the data pointer. -/
structure Holds {σ : Type} (env : Env) (ar : Value) (fd : FData) (o : Obj) (fr : Frame) (st : Interp.St σ) (s : BfState σ) : Prop where
  func : fr.func = fd
  ptr : fr.vals env.ptr = some (.ptr (some (o, [])) 0 0)
  cur : st.mem o = some (.ptr (some (.glob ar, [s.ptr])) s.ptr bfCells)
  range : s.ptr < bfCells
  tape : ∃ l, st.mem (.glob ar) = some (.array l) ∧ l.length = bfCells ∧ ∀ i, i < bfCells → l[i]? = some (.int (s.tape i))
  world : st.world = s.world

theorem Has.ne {p : Program} {f : Func} {v v' : Value} {t t' : Ty} {k k' : VKind} (h : Has p f v t k) (h' : Has p f v' t' k')
    (hk : k ≠ k' ∨ t ≠ t') : v ≠ v' := by
  rintro rfl
  obtain ⟨n, hn⟩ := h
  obtain ⟨m, hm⟩ := h'
  rw [hn] at hm
  cases hm
  simp at hk

theorem set_self {fr : Frame} {v : Value} {x : Val} : (fr.set v x).vals v = some x := by simp [Frame.set]

theorem set_ne {fr : Frame} {v u : Value} {x : Val} (h : u ≠ v) : (fr.set v x).vals u = fr.vals u := by simp [Frame.set, h]

theorem sum_iff {chk : Bool} {a i n : I32} : evalOp chk .add a i = some n ↔ BfSum chk a i.toInt n := by
  have h1 : (BitVec.ofInt 32 (a.toInt + i.toInt)).toInt = (a.toInt + i.toInt).bmod (2 ^ 32) := BitVec.toInt_ofInt _
  unfold evalOp BfSum
  simp only [checked]
  constructor
  · intro h
    split at h
    · cases h
    · rename_i hc
      cases h
      refine ⟨h1, fun hk => ?_⟩
      exact Classical.not_not.1 fun hx => hc ⟨hk, hx⟩
  · rintro ⟨h2, h3⟩
    have h4 : n = BitVec.ofInt 32 (a.toInt + i.toInt) := BitVec.eq_of_toInt_eq (h2.trans h1.symm)
    rw [if_neg, h4]
    rintro ⟨hk, hx⟩
    rw [← h4] at hx
    exact hx (h3 hk)

section
variable {env : Env} {ar zero : Value} {p : Program} {w : List Char} {rt : Rt} {fd : FData} {σ : Type} {lib : Lib σ} {io : BfIo σ}
variable {o : Obj} {fr : Frame} {st : Interp.St σ} {s : BfState σ}

theorem Holds.set (h : Holds env ar fd o fr st s) {v : Value} {x : Val} (hv : v ≠ env.ptr) : Holds env ar fd o (fr.set v x) st s :=
  ⟨h.func, by rw [set_ne hv.symm]; exact h.ptr, h.cur, h.range, h.tape, h.world⟩

/-- The position in the text does not matter here. -/
theorem Holds.pos (h : Holds env ar fd o fr st s) {i : Nat} : Holds env ar fd o fr st { s with pos := i } :=
  ⟨h.func, h.ptr, h.cur, h.range, h.tape, h.world⟩

theorem Holds.readCell (h : Holds env ar fd o fr st s) : readMem st.mem (.glob ar, [s.ptr]) = some (.int s.cell) := by
  obtain ⟨l, h1, h2, h3⟩ := h.tape
  unfold readMem
  simp only [h1, Option.bind_some, Val.at, h3 _ h.range]
  rfl

theorem Holds.writeCell (h : Holds env ar fd o fr st s) (ho : o ≠ .glob ar) (n : I32) :
    ∃ m, writeMem st.mem (.glob ar, [s.ptr]) (.int n) = some m ∧ Holds env ar fd o fr { st with mem := m } (s.write n) := by
  obtain ⟨l, h1, h2, h3⟩ := h.tape
  refine ⟨fun o => if o = .glob ar then some (.array (l.set s.ptr (.int n))) else st.mem o, ?_, h.func, h.ptr, ?_, h.range, ?_, h.world⟩
  · unfold writeMem
    simp only [h1, Val.put, h3 _ h.range, Option.map_some]
  · simp only [ho, if_false]; exact h.cur
  · refine ⟨l.set s.ptr (.int n), by simp, by simp [h2], fun i hi => ?_⟩
    rw [List.getElem?_set]
    by_cases e : s.ptr = i
    · subst e
      simp [h2, hi, BfState.write]
    · rw [if_neg e, h3 i hi]
      have e' : ¬ i = s.ptr := fun e' => e e'.symm
      simp [BfState.write, e']

theorem Holds.readPtr (h : Holds env ar fd o fr st s) :
    readMem st.mem (o, []) = some (.ptr (some (.glob ar, [s.ptr])) s.ptr bfCells) := by
  unfold readMem
  simp only [h.cur, Option.bind_some, Val.at]

theorem Holds.writePtr (h : Holds env ar fd o fr st s) (ho : o ≠ .glob ar) {i : Nat} (hi : i < bfCells) :
    ∃ m, writeMem st.mem (o, []) (.ptr (some (.glob ar, [i])) i bfCells) = some m ∧
      Holds env ar fd o fr { st with mem := m } { s with ptr := i } := by
  refine ⟨fun o' => if o' = o then some (.ptr (some (.glob ar, [i])) i bfCells) else st.mem o', ?_, h.func, h.ptr, ?_, hi, ?_, h.world⟩
  · unfold writeMem
    simp only [h.cur, Val.put, Option.map_some]
  · simp
  · obtain ⟨l, h1, h2, h3⟩ := h.tape
    exact ⟨l, by simp only [ho.symm, if_false]; exact h1, h2, h3⟩

/-- The data pointer, loaded. -/
theorem Holds.loadPtr (hr : Runtime env ar zero p w rt fd) (h : Holds env ar fd o fr st s) {a : Value} {t : Ty}
    (ha : Has p env.main a t (.load env.ptr)) :
    ∃ fr', (∀ n is, E lib rt n (a :: is) fr st = E lib rt n is fr' st) ∧ Holds env ar fd o fr' st s ∧
      evalValue rt fr' a = some (.ptr (some (.glob ar, [s.ptr])) s.ptr bfCells) := by
  have hs : evalValue rt fr env.ptr = some (.ptr (some (o, [])) 0 0) := by
    rw [hr.inst hr.built.ptr rfl h.func]; exact h.ptr
  have h1 := h.set (x := .ptr (some (.glob ar, [s.ptr])) s.ptr bfCells) (ha.ne hr.built.ptr (.inl (by simp)))
  refine ⟨_, fun n is => hr.load h.func ha hs h.readPtr, h1, ?_⟩
  rw [hr.inst ha rfl h1.func, set_self]

/-- The cell, loaded. -/
theorem Holds.loadCell (hr : Runtime env ar zero p w rt fd) (h : Holds env ar fd o fr st s) {a b : Value} {t t' : Ty}
    (ha : Has p env.main a t (.load env.ptr)) (hb : Has p env.main b t' (.load a)) :
    ∃ fr', (∀ n is, E lib rt n (a :: b :: is) fr st = E lib rt n is fr' st) ∧ Holds env ar fd o fr' st s ∧
      evalValue rt fr' b = some (.int s.cell) ∧
      evalValue rt fr' a = some (if a = b then .int s.cell else .ptr (some (.glob ar, [s.ptr])) s.ptr bfCells) := by
  obtain ⟨fr1, h1, h2, h3⟩ := h.loadPtr (lib := lib) hr ha
  refine ⟨fr1.set b (.int s.cell), fun n is => (h1 n _).trans (hr.load h2.func hb h3 h2.readCell), h2.set (hb.ne hr.built.ptr (.inl (by simp))), ?_, ?_⟩
  · rw [hr.inst hb rfl (fr := fr1.set b _) h2.func, set_self]
  · rw [hr.inst ha rfl (fr := fr1.set b _) h2.func]
    split
    · rename_i e; subst e; exact set_self
    · rename_i e
      rw [set_ne e, ← hr.inst ha rfl h2.func]; exact h3

theorem Holds.move (hr : Runtime env ar zero p w rt fd) (h : Holds env ar fd o fr st s) (ho : o ≠ .glob ar) {i : I32} {vs : List Value}
    (hv : PtrOp p env.main env.ptr i vs) :
    (∀ j : Nat, (s.ptr : Int) + i.toInt = j → j < bfCells → ∃ fr' st', (∀ n is, E lib rt n (vs ++ is) fr st = E lib rt n is fr' st') ∧
      Holds env ar fd o fr' st' { s with ptr := j }) ∧
    (¬ (0 ≤ (s.ptr : Int) + i.toInt ∧ (s.ptr : Int) + i.toInt < bfCells) → ∀ n is, E lib rt n (vs ++ is) fr st = .err s.world) := by
  obtain ⟨a, x, b, c, rfl, ha, hx, hb, hc⟩ := hv
  obtain ⟨fr1, h1, h2, h3⟩ := h.loadPtr (lib := lib) hr ha
  have hg := fun n is => hr.getPtr (lib := lib) (n := n) (is := is) (st := st) h2.func hb h3 (hr.const hx h2.func)
  constructor
  · intro j hj hlt
    have hy : getPointer (.ptr (some (.glob ar, [s.ptr])) s.ptr bfCells) i.toInt (Ty.i32.size rt.ptrSize) =
        some (some (.ptr (some (.glob ar, [j])) j bfCells)) := by
      unfold getPointer
      simp only [hj]
      rw [if_pos ⟨by omega, by omega⟩]
      simp
    have h4 : Holds env ar fd o (fr1.set b (.ptr (some (.glob ar, [j])) j bfCells)) st s := h2.set (hb.ne hr.built.ptr (.inl (by simp)))
    obtain ⟨m, h5, h6⟩ := h4.writePtr ho hlt
    have x1 : evalValue rt (fr1.set b (.ptr (some (.glob ar, [j])) j bfCells)) b = some (.ptr (some (.glob ar, [j])) j bfCells) := by
      rw [hr.inst hb rfl h4.func, set_self]
    have x2 : evalValue rt (fr1.set b (.ptr (some (.glob ar, [j])) j bfCells)) env.ptr = some (.ptr (some (o, [])) 0 0) := by
      rw [hr.inst hr.built.ptr rfl h4.func]; exact h4.ptr
    exact ⟨_, _, fun n is => (h1 n _).trans (((hg n _).1 _ hy).trans (hr.store h4.func hc x1 x2 h5)), h6⟩
  · intro hn n is
    refine (h1 n _).trans (((hg n _).2 ?_).trans (by rw [h.world]))
    unfold getPointer
    exact if_neg hn

theorem Holds.data (hr : Runtime env ar zero p w rt fd) (h : Holds env ar fd o fr st s) (ho : o ≠ .glob ar) {i : I32} {vs : List Value}
    (hv : DataOp p env.main env.ptr i vs) :
    (∀ k, BfSum rt.chk s.cell i.toInt k → ∃ fr' st', (∀ n is, E lib rt n (vs ++ is) fr st = E lib rt n is fr' st') ∧
      Holds env ar fd o fr' st' (s.write k)) ∧
    ((∀ k, ¬ BfSum rt.chk s.cell i.toInt k) → ∀ n is, E lib rt n (vs ++ is) fr st = .bad) := by
  obtain ⟨a, b, x, c, d, rfl, ha, hb, hx, hc, hd⟩ := hv
  obtain ⟨fr1, h1, h2, h3, h4⟩ := h.loadCell (lib := lib) hr ha hb
  rw [if_neg (ha.ne hb (.inr (by simp)))] at h4
  have hg := fun n is => hr.binary (lib := lib) (n := n) (is := is) (st := st) h2.func hc h3 (hr.const hx h2.func)
  constructor
  · intro k hk
    have h5 : Holds env ar fd o (fr1.set c (.int k)) st s := h2.set (hc.ne hr.built.ptr (.inl (by simp)))
    obtain ⟨m, h6, h7⟩ := h5.writeCell ho k
    have x1 : evalValue rt (fr1.set c (.int k)) c = some (.int k) := by rw [hr.inst hc rfl h5.func, set_self]
    have x2 : evalValue rt (fr1.set c (.int k)) a = some (.ptr (some (.glob ar, [s.ptr])) s.ptr bfCells) := by
      rw [hr.inst ha rfl h5.func, set_ne (ha.ne hc (.inl (by simp))), ← hr.inst ha rfl h2.func]; exact h4
    exact ⟨_, _, fun n is => (h1 n _).trans (((hg n _).1 k (sum_iff.2 hk)).trans (hr.store h5.func hd x1 x2 h6)), h7⟩
  · intro hn n is
    refine (h1 n _).trans ((hg n _).2 ?_)
    cases e : evalOp rt.chk .add s.cell i with
    | none => rfl
    | some k => exact absurd (sum_iff.1 e) (hn k)

theorem main_ne (hr : Runtime env ar zero p w rt fd) : env.putchar ≠ env.main ∧ env.getchar ≠ env.main := by
  constructor
  · intro e
    have h1 := hr.built.putchar
    rw [e, hr.built.main] at h1
    revert h1; decide
  · intro e
    have h1 := hr.built.getchar
    rw [e, hr.built.main] at h1
    revert h1; decide

theorem Holds.put (hr : Runtime env ar zero p w rt fd) (hl : LibIo lib io) (h : Holds env ar fd o fr st s) {vs : List Value}
    (hv : PutOp p env.main env.putchar env.ptr vs) :
    (∀ k v, io.put s.cell s.world = some (k, v) → ∃ fr' st', (∀ n is, E lib rt n (vs ++ is) fr st = E lib rt n is fr' st') ∧
      Holds env ar fd o fr' st' { s with world := v }) ∧
    (io.put s.cell s.world = none → ∀ n is, E lib rt n (vs ++ is) fr st = .err s.world) := by
  obtain ⟨a, b, c, rfl, ha, hb, hc⟩ := hv
  obtain ⟨fr1, h1, h2, h3, -⟩ := h.loadCell (lib := lib) hr ha hb
  have hg := fun n is => hr.call (lib := lib) (n := n) (is := is) (st := st) h2.func hc (xs := [.int s.cell]) hr.built.putchar (main_ne hr).1
    (by simp [collect, h3]) rfl
  constructor
  · intro k v hk
    refine ⟨fr1.set c (.int k), { st with world := v }, fun n is => (h1 n _).trans ((hg n _).1 _ v ?_), ?_⟩
    · rw [hl.put, h.world, hk]; rfl
    · have h4 := h2.set (x := .int k) (hc.ne hr.built.ptr (.inl (by simp)))
      exact ⟨h4.func, h4.ptr, h4.cur, h4.range, h4.tape, rfl⟩
  · intro hk n is
    refine (h1 n _).trans (((hg n _).2 ?_).trans (by rw [h.world]))
    rw [hl.put, h.world, hk]; rfl

theorem Holds.get (hr : Runtime env ar zero p w rt fd) (hl : LibIo lib io) (h : Holds env ar fd o fr st s) (ho : o ≠ .glob ar) {vs : List Value}
    (hv : GetOp p env.main env.getchar env.ptr vs) :
    (∀ k v, io.get s.world = some (k, v) → ∃ fr' st', (∀ n is, E lib rt n (vs ++ is) fr st = E lib rt n is fr' st') ∧
      Holds env ar fd o fr' st' { s.write k with world := v }) ∧
    (io.get s.world = none → ∀ n is, E lib rt n (vs ++ is) fr st = .err s.world) := by
  obtain ⟨a, b, c, rfl, ha, hb, hc⟩ := hv
  have hg := fun n is => hr.call (lib := lib) (n := n) (is := is) (st := st) h.func ha (xs := []) hr.built.getchar (main_ne hr).2
    (by simp [collect]) rfl
  constructor
  · intro k v hk
    have h1 : Holds env ar fd o (fr.set a (.int k)) { st with world := v } { s with world := v } := by
      have h4 := h.set (x := .int k) (ha.ne hr.built.ptr (.inl (by simp)))
      exact ⟨h4.func, h4.ptr, h4.cur, h4.range, h4.tape, rfl⟩
    have e1 : evalValue rt (fr.set a (.int k)) a = some (.int k) := by rw [hr.inst ha rfl h1.func, set_self]
    have hab : a ≠ b := ha.ne hb (.inl (by simp))
    have hs : evalValue rt (fr.set a (.int k)) env.ptr = some (.ptr (some (o, [])) 0 0) := by
      rw [hr.inst hr.built.ptr rfl h1.func]; exact h1.ptr
    have h2 := h1.set (x := .ptr (some (.glob ar, [s.ptr])) s.ptr bfCells) (hb.ne hr.built.ptr (.inl (by simp)))
    obtain ⟨m, h6, h7⟩ := h2.writeCell ho k
    have x1 : evalValue rt ((fr.set a (.int k)).set b (.ptr (some (.glob ar, [s.ptr])) s.ptr bfCells)) a = some (.int k) := by
      rw [hr.inst ha rfl h2.func, set_ne hab, set_self]
    have x2 : evalValue rt ((fr.set a (.int k)).set b (.ptr (some (.glob ar, [s.ptr])) s.ptr bfCells)) b =
        some (.ptr (some (.glob ar, [s.ptr])) s.ptr bfCells) := by rw [hr.inst hb rfl h2.func, set_self]
    refine ⟨_, _, fun n is => ((hg n _).1 _ v ?_).trans ((hr.load h1.func hb hs h1.readPtr).trans (hr.store h2.func hc x1 x2 h6)), h7⟩
    rw [hl.get, h.world, hk]; rfl
  · intro hk n is
    refine ((hg n _).2 ?_).trans (by rw [h.world])
    rw [hl.get, h.world, hk]; rfl

theorem Holds.cond (hr : Runtime env ar zero p w rt fd) (h : Holds env ar fd o fr st s) {body done : BB} {vs is js : List Value}
    (hv : CondOp p env.main env.ptr body done vs) (hb : code env.main p body = some is) (hd : code env.main p done = some js) :
    ∃ fr', Holds env ar fd o fr' st s ∧ E lib rt 0 vs fr st = .fuel ∧
      ∀ n, E lib rt (n + 1) vs fr st = E lib rt n (if s.cell.toInt ≠ 0 then is else js) fr' st := by
  obtain ⟨a, b, x, c, d, rfl, ha, hb', hx, hc, hd'⟩ := hv
  obtain ⟨fr1, h1, h2, h3, -⟩ := h.loadCell (lib := lib) hr ha hb'
  have hg := fun n is => (hr.binary (lib := lib) (n := n) (is := is) (st := st) h2.func hc h3 (hr.const hx h2.func)).1 _ rfl
  have h4 := h2.set (x := .int (ofBool (s.cell != 0))) (hc.ne hr.built.ptr (.inl (by simp)))
  have e1 : evalValue rt (fr1.set c (.int (ofBool (s.cell != 0)))) c = some (.int (ofBool (s.cell != 0))) := by
    rw [hr.inst hc rfl h4.func, set_self]
  have e2 : (ofBool (s.cell != 0) ≠ (0 : I32)) ↔ s.cell.toInt ≠ 0 := by
    have : s.cell.toInt = 0 ↔ s.cell = 0 := by
      constructor
      · intro e
        exact BitVec.eq_of_toInt_eq (by rw [e]; rfl)
      · intro e; rw [e]; rfl
    rw [show s.cell.toInt ≠ 0 ↔ s.cell ≠ 0 from not_congr this]
    by_cases e : s.cell = 0
    · simp [e, ofBool]
    · simp [e, ofBool]
  have hbr := fun n => hr.branch (lib := lib) (n := n) (ks := []) (st := st) h4.func hd' hb hd e1
  refine ⟨_, h4, (h1 _ _).trans ((hg _ _).trans (hbr 0).1), fun n => (h1 _ _).trans ((hg _ _).trans ((hbr n).2.trans ?_))⟩
  simp only [e2]

/-! ### Brackets and loops -/

theorem Compiled.split {is : List Value} {L : List (BB × BB)} {v : List Char} (h : Compiled env zero p is L v) :
    ∀ ls c d loops, L = ls ++ (c, d) :: loops → ∃ u v' is', v = u ++ ']' :: v' ∧ NoStrayFrom ls.length u ∧
      u.count ']' = ls.length + u.count '[' ∧ code env.main p d = some is' ∧ Compiled env zero p is' loops v' := by
  have keep : ∀ {c : Char} {v : List Char} {n : Nat} {d : BB} {loops}, c ≠ '[' → c ≠ ']' →
      (∃ u v' is', v = u ++ ']' :: v' ∧ NoStrayFrom n u ∧
        u.count ']' = n + u.count '[' ∧ code env.main p d = some is' ∧ Compiled env zero p is' loops v') →
      ∃ u v' is', c :: v = u ++ ']' :: v' ∧ NoStrayFrom n u ∧
        u.count ']' = n + u.count '[' ∧ code env.main p d = some is' ∧ Compiled env zero p is' loops v' := by
    rintro c v n d loops h1 h2 ⟨u, v', is', rfl, h3, h4, h5, h6⟩
    refine ⟨c :: u, v', is', rfl, ?_, by simp [h1, h2, h4], h5, h6⟩
    intro m
    cases m with
    | zero => simp
    | succ m => have := h3 m; simp [h1, h2, this]
  induction h with
  | nil => intro ls c d loops e; cases ls <;> cases e
  | move hc _ _ ih =>
    intro ls c d loops e
    exact keep (by rcases hc with ⟨rfl, _⟩ | ⟨rfl, _⟩ <;> decide) (by rcases hc with ⟨rfl, _⟩ | ⟨rfl, _⟩ <;> decide) (ih ls c d loops e)
  | data hc _ _ ih =>
    intro ls c d loops e
    exact keep (by rcases hc with ⟨rfl, _⟩ | ⟨rfl, _⟩ <;> decide) (by rcases hc with ⟨rfl, _⟩ | ⟨rfl, _⟩ <;> decide) (ih ls c d loops e)
  | put _ _ ih => intro ls c d loops e; exact keep (by decide) (by decide) (ih ls c d loops e)
  | get _ _ ih => intro ls c d loops e; exact keep (by decide) (by decide) (ih ls c d loops e)
  | other hc _ ih =>
    intro ls c d loops e
    exact keep (by rintro rfl; revert hc; decide) (by rintro rfl; revert hc; decide) (ih ls c d loops e)
  | start _ _ _ _ _ ih =>
    intro ls c d loops e
    obtain ⟨u, v', is', rfl, h3, h4, h5, h6⟩ := ih (_ :: ls) c d loops (by rw [e]; rfl)
    refine ⟨'[' :: u, v', is', rfl, ?_, by simp at h4 ⊢; omega, h5, h6⟩
    intro m
    cases m with
    | zero => simp
    | succ m => have := h3 m; simp at this ⊢; omega
  | finish _ hd hq ih =>
    intro ls c d loops e
    cases ls with
    | nil =>
      cases e
      exact ⟨[], _, _, rfl, fun n => by simp, rfl, hd, hq⟩
    | cons q ls =>
      obtain ⟨u, v', is', rfl, h3, h4, h5, h6⟩ := ih ls c d loops (List.cons.inj e).2
      refine ⟨']' :: u, v', is', rfl, ?_, by simp at h4 ⊢; omega, h5, h6⟩
      intro m
      cases m with
      | zero => simp
      | succ m => have := h3 m; simp at this ⊢; omega

/-- The positions of the brackets that are open at position `i`, innermost first. -/
def Opened (w : List Char) : Nat → List Nat → Prop
  | _, [] => True
  | i, j :: js => j < i ∧ w[j]? = some '[' ∧ BracketsBalanced (slice w (j + 1) i) ∧ Opened w j js

theorem Opened.over {w : List Char} {i k : Nat} {js : List Nat} (h : Opened w i js) (hk : i ≤ k) (hb : BracketsBalanced (slice w i k)) :
    Opened w k js := by
  cases js with
  | nil => trivial
  | cons j js =>
    obtain ⟨h1, h2, h3, h4⟩ := h
    refine ⟨by omega, h2, ?_, h4⟩
    rw [slice_append h1 hk]
    exact balanced_append h3 hb

theorem Opened.next {w : List Char} {i : Nat} {js : List Nat} (h : Opened w i js) {c : Char} (hc : w[i]? = some c) (h1 : c ≠ '[') (h2 : c ≠ ']') :
    Opened w (i + 1) js := h.over (by omega) (by rw [slice_one hc]; exact balanced_one h1 h2)

theorem Opened.skip {w : List Char} {i k : Nat} {js : List Nat} (h : Opened w i js) (hk : BfMatch w i k) : Opened w (k + 1) js := by
  obtain ⟨h1, h2, h3, h4⟩ := match_slice.1 hk
  refine h.over (by omega) ?_
  rw [slice_append (show i ≤ k by omega) (show k ≤ k + 1 by omega), slice_append (show i ≤ i + 1 by omega) h1, slice_one h2, slice_one h3]
  exact balanced_wrap h4

/-- The code of the open loops. -/
def Stack (env : Env) (zero : Value) (p : Program) (w : List Char) : List (BB × BB) → List Nat → Prop
  | [], [] => True
  | (cond, done) :: loops, j :: js =>
    (∃ vs body is, code env.main p cond = some vs ∧ CondOp p env.main env.ptr body done vs ∧ code env.main p body = some is ∧
      Compiled env zero p is ((cond, done) :: loops) (w.drop (j + 1))) ∧ Stack env zero p w loops js
  | _, _ => False

/-- The interpreter, about to run the instructions `is`, is in the state `s` of the machine. -/
def Rel (env : Env) (ar zero : Value) (p : Program) (w : List Char) (fd : FData) (o : Obj)
    (is : List Value) (fr : Frame) (st : Interp.St σ) (s : BfState σ) : Prop :=
  s.pos ≤ w.length ∧ Holds env ar fd o fr st s ∧
    ∃ loops js, Compiled env zero p is loops (w.drop s.pos) ∧ Stack env zero p w loops js ∧ Opened w s.pos js

/-- What the interpreter gives for a result of the machine. -/
def Gives (r : BfResult σ) (x : Out σ (Val × Interp.St σ)) : Prop :=
  match r with
  | .halted v => ∃ st', x = .done (.int 0, st') ∧ st'.world = v
  | .failed v => x = .err v
  | .crashed => x = .bad

/-- One command: the machine stops and so does the interpreter, or both go on. -/
theorem progress {is : List Value} (hr : Runtime env ar zero p w rt fd) (hl : LibIo lib io) (ho : o ≠ .glob ar)
    (h : Rel env ar zero p w fd o is fr st s) :
    (∃ r k, BfStop io rt.chk w s r ∧ (∀ n, Gives r (E lib rt (n + k) is fr st)) ∧ ∀ n, n < k → E lib rt n is fr st = .fuel) ∨
    ∃ s' is' fr' st' k, BfNext io rt.chk w s s' ∧ Rel env ar zero p w fd o is' fr' st' s' ∧
      (∀ n, E lib rt (n + k) is fr st = E lib rt n is' fr' st') ∧ (∀ n, n < k → E lib rt n is fr st = .fuel) ∧
      (s.pos < s'.pos ∨ 0 < k) := by
  obtain ⟨hp, hh, loops, js, hc, hs, hop⟩ := h
  generalize hw : w.drop s.pos = t at hc
  have inside : ∀ {c t'}, w.drop s.pos = c :: t' → w[s.pos]? = some c ∧ w.drop (s.pos + 1) = t' ∧ s.pos + 1 ≤ w.length := by
    intro c t' e
    obtain ⟨h1, h2⟩ := drop_cons_iff.1 e
    exact ⟨h1, h2, (List.getElem?_eq_some_iff.1 h1).1⟩
  cases hc with
  | nil h1 h2 h3 =>
    left
    have hlen : s.pos = w.length := by
      have := congrArg List.length hw
      simp at this; omega
    refine ⟨_, 1, .halted hlen, fun n => ?_, fun n hn => ?_⟩
    · rw [(hr.jump (n := n) hh.func h1 h2).2, hr.ret hh.func h3 (hr.const hr.built.const hh.func)]
      exact ⟨_, rfl, hh.world⟩
    · obtain rfl : n = 0 := by omega
      exact (hr.jump (n := 0) hh.func h1 h2).1
  | move hc hv hq =>
    obtain ⟨e1, e2, e3⟩ := inside hw
    have hm := hh.move (lib := lib) hr ho hv
    rcases hc with ⟨rfl, rfl⟩ | ⟨rfl, rfl⟩
    · by_cases hx : s.ptr + 1 < bfCells
      · obtain ⟨fr', st', h1, h2⟩ := hm.1 (s.ptr + 1) rfl hx
        exact .inr ⟨_, _, fr', st', 0, .right e1 hx, ⟨e3, h2.pos, loops, js, by rw [e2]; exact hq, hs, hop.next e1 (by decide) (by decide)⟩,
          fun n => h1 n _, fun n hn => absurd hn (by omega), .inl (Nat.lt_succ_self _)⟩
      · have hrg := hh.range
        have h1 := hm.2 (by
          rw [show (1 : I32).toInt = 1 from rfl]
          omega)
        exact .inl ⟨_, 0, .right e1 (by omega), fun n => h1 n _, fun n hn => absurd hn (by omega)⟩
    · by_cases hx : 0 < s.ptr
      · have hrg := hh.range
        obtain ⟨fr', st', h1, h2⟩ := hm.1 (s.ptr - 1) (by
          rw [show (-1 : I32).toInt = -1 from rfl]
          omega) (by omega)
        exact .inr ⟨_, _, fr', st', 0, .left e1 hx, ⟨e3, h2.pos, loops, js, by rw [e2]; exact hq, hs, hop.next e1 (by decide) (by decide)⟩,
          fun n => h1 n _, fun n hn => absurd hn (by omega), .inl (Nat.lt_succ_self _)⟩
      · have h1 := hm.2 (by
          rw [show (-1 : I32).toInt = -1 from rfl]
          omega)
        exact .inl ⟨_, 0, .left e1 (by omega), fun n => h1 n _, fun n hn => absurd hn (by omega)⟩
  | data hc hv hq =>
    obtain ⟨e1, e2, e3⟩ := inside hw
    have hm := hh.data (lib := lib) hr ho hv
    rcases hc with ⟨rfl, rfl⟩ | ⟨rfl, rfl⟩
    · by_cases hx : ∃ k, BfSum rt.chk s.cell 1 k
      · obtain ⟨k, hk⟩ := hx
        obtain ⟨fr', st', h1, h2⟩ := hm.1 k hk
        exact .inr ⟨_, _, fr', st', 0, .inc e1 hk, ⟨e3, h2, loops, js, by show Compiled _ _ _ _ _ (w.drop (s.pos + 1)); rw [e2]; exact hq, hs, hop.next e1 (by decide) (by decide)⟩,
          fun n => h1 n _, fun n hn => absurd hn (by omega), .inl (Nat.lt_succ_self _)⟩
      · have hx' : ∀ k, ¬ BfSum rt.chk s.cell 1 k := fun k hk => hx ⟨k, hk⟩
        have h1 := hm.2 hx'
        exact .inl ⟨_, 0, .inc e1 hx', fun n => h1 n _, fun n hn => absurd hn (by omega)⟩
    · by_cases hx : ∃ k, BfSum rt.chk s.cell (-1) k
      · obtain ⟨k, hk⟩ := hx
        obtain ⟨fr', st', h1, h2⟩ := hm.1 k hk
        exact .inr ⟨_, _, fr', st', 0, .dec e1 hk, ⟨e3, h2, loops, js, by show Compiled _ _ _ _ _ (w.drop (s.pos + 1)); rw [e2]; exact hq, hs, hop.next e1 (by decide) (by decide)⟩,
          fun n => h1 n _, fun n hn => absurd hn (by omega), .inl (Nat.lt_succ_self _)⟩
      · have hx' : ∀ k, ¬ BfSum rt.chk s.cell (-1) k := fun k hk => hx ⟨k, hk⟩
        have h1 := hm.2 hx'
        exact .inl ⟨_, 0, .dec e1 hx', fun n => h1 n _, fun n hn => absurd hn (by omega)⟩
  | put hv hq =>
    obtain ⟨e1, e2, e3⟩ := inside hw
    have hm := hh.put hr hl hv
    cases hx : io.put s.cell s.world with
    | none => exact .inl ⟨_, 0, .put e1 hx, fun n => hm.2 hx n _, fun n hn => absurd hn (by omega)⟩
    | some q =>
      obtain ⟨fr', st', h1, h2⟩ := hm.1 q.1 q.2 hx
      exact .inr ⟨_, _, fr', st', 0, .put e1 hx, ⟨e3, h2.pos, loops, js, by rw [e2]; exact hq, hs, hop.next e1 (by decide) (by decide)⟩,
        fun n => h1 n _, fun n hn => absurd hn (by omega), .inl (Nat.lt_succ_self _)⟩
  | get hv hq =>
    obtain ⟨e1, e2, e3⟩ := inside hw
    have hm := hh.get hr hl ho hv
    cases hx : io.get s.world with
    | none => exact .inl ⟨_, 0, .get e1 hx, fun n => hm.2 hx n _, fun n hn => absurd hn (by omega)⟩
    | some q =>
      obtain ⟨fr', st', h1, h2⟩ := hm.1 q.1 q.2 hx
      exact .inr ⟨_, _, fr', st', 0, .get e1 hx, ⟨e3, h2, loops, js, by show Compiled _ _ _ _ _ (w.drop (s.pos + 1)); rw [e2]; exact hq, hs, hop.next e1 (by decide) (by decide)⟩,
        fun n => h1 n _, fun n hn => absurd hn (by omega), .inl (Nat.lt_succ_self _)⟩
  | other hc hq =>
    obtain ⟨e1, e2, e3⟩ := inside hw
    rename_i c _
    have hn : c ∉ ['>', '<', '+', '-', '.', ',', '[', ']'] := by
      intro hm
      simp only [List.mem_cons, List.not_mem_nil, or_false] at hm
      rcases hm with rfl | rfl | rfl | rfl | rfl | rfl | rfl | rfl <;> revert hc <;> decide
    exact .inr ⟨_, is, fr, st, 0, .comment e1 hn, ⟨e3, hh.pos, loops, js, by rw [e2]; exact hq, hs,
      hop.next e1 (by rintro rfl; simp at hn) (by rintro rfl; simp at hn)⟩,
      fun n => rfl, fun n hn => absurd hn (by omega), .inl (Nat.lt_succ_self _)⟩
  | start h1 h2 h3 h4 hq =>
    obtain ⟨e1, e2, e3⟩ := inside hw
    rename_i j cond done body vs is' t'
    obtain ⟨u, v', is2, hu, hns, hcnt, hd, hq'⟩ := hq.split [] cond done loops rfl
    have hbal : BracketsBalanced u := balanced_iff.2 ⟨hns, by simpa using hcnt⟩
    obtain ⟨fr', h5, h6, h7⟩ := hh.cond (lib := lib) hr h3 h4 hd
    have hj := fun n => hr.jump (lib := lib) (n := n) (js := []) (st := st) hh.func h1 h2
    have hfuel : ∀ n, n < 2 → E lib rt n [j] fr st = .fuel := by
      intro n hn
      cases n with
      | zero => exact (hj 0).1
      | succ n =>
        obtain rfl : n = 0 := by omega
        exact (hj 0).2.trans h6
    right
    by_cases hx : s.cell.toInt = 0
    · obtain ⟨m1, m2⟩ := match_of_split e1 hbal (e2.trans hu)
      have hlt : s.pos + 1 + u.length + 1 ≤ w.length := (List.getElem?_eq_some_iff.1 m1.2.2.1).1
      refine ⟨_, is2, fr', st, 2, .skip hx m1, ⟨hlt, h5.pos, loops, js, by rw [m2]; exact hq', hs, hop.skip m1⟩, fun n => ?_, hfuel, .inr (by omega)⟩
      rw [(hj (n + 1)).2, h7, if_neg (by simp [hx])]
    · refine ⟨_, is', fr', st, 2, .enter e1 hx, ⟨e3, h5.pos, (cond, done) :: loops, s.pos :: js, by rw [e2]; exact hq,
        ⟨⟨vs, body, is', h2, h3, h4, by rw [e2]; exact hq⟩, hs⟩, ⟨Nat.lt_succ_self _, e1, by rw [slice_self]; exact balanced_nil, hop⟩⟩,
        fun n => ?_, hfuel, .inr (by omega)⟩
      rw [(hj (n + 1)).2, h7, if_pos hx]
  | finish h1 h2 hq =>
    obtain ⟨e1, e2, e3⟩ := inside hw
    rename_i j cond done is' loops' t'
    cases js with
    | nil => exact absurd hs (by simp [Stack])
    | cons i js =>
      obtain ⟨⟨vs, body, is2, h3, h4, h5, h6⟩, hs'⟩ := hs
      obtain ⟨o1, o2, o3, o4⟩ := hop
      have hm : BfMatch w i s.pos := match_slice.2 ⟨o1, o2, e1, o3⟩
      obtain ⟨fr', h7, h8, h9⟩ := hh.cond (lib := lib) hr h4 h5 h2
      have hj := fun n => hr.jump (lib := lib) (n := n) (js := []) (st := st) hh.func h1 h3
      have hfuel : ∀ n, n < 2 → E lib rt n [j] fr st = .fuel := by
        intro n hn
        cases n with
        | zero => exact (hj 0).1
        | succ n =>
          obtain rfl : n = 0 := by omega
          exact (hj 0).2.trans h8
      right
      by_cases hx : s.cell.toInt = 0
      · refine ⟨_, is', fr', st, 2, .leave e1 hx, ⟨e3, h7.pos, loops', js, by rw [e2]; exact hq, hs', o4.skip hm⟩, fun n => ?_, hfuel, .inr (by omega)⟩
        rw [(hj (n + 1)).2, h9, if_neg (by simp [hx])]
      · refine ⟨_, is2, fr', st, 2, .again hx hm, ⟨by show i + 1 ≤ _; omega, h7.pos, (cond, done) :: loops', i :: js, h6,
          ⟨⟨vs, body, is2, h3, h4, h5, h6⟩, hs'⟩, ⟨Nat.lt_succ_self _, o2, by rw [slice_self]; exact balanced_nil, o4⟩⟩,
          fun n => ?_, hfuel, .inr (by omega)⟩
        rw [(hj (n + 1)).2, h9, if_pos hx]

/-! ### Whole runs -/

/-- Whatever the machine comes to, the interpreter comes to. -/
theorem forward (hr : Runtime env ar zero p w rt fd) (hl : LibIo lib io) (ho : o ≠ .glob ar) {r : BfResult σ} {s' : BfState σ} {m : Nat}
    (hm : BfSteps io rt.chk w m s s') (hq : BfStop io rt.chk w s' r) : ∀ {is : List Value} {fr : Frame} {st : Interp.St σ},
    Rel env ar zero p w fd o is fr st s → ∃ k, ∀ n, Gives r (E lib rt (n + k) is fr st) := by
  induction hm with
  | refl s =>
    intro is fr st h
    rcases progress hr hl ho h with ⟨r', k, h1, h2, _⟩ | ⟨s', is', fr', st', k, h1, _⟩
    · rw [stop_unique hq h1]
      exact ⟨k, h2⟩
    · exact absurd h1 (fun h1 => stop_next hq h1)
  | step h1 _ ih =>
    intro is fr st h
    rcases progress hr hl ho h with ⟨r', k, h2, _, _⟩ | ⟨s', is', fr', st', k, h2, h3, h4, _⟩
    · exact absurd h1 (fun h1 => stop_next h2 h1)
    · obtain rfl := next_unique h1 h2
      obtain ⟨k', h5⟩ := ih hq h3
      refine ⟨k' + k, fun n => ?_⟩
      rw [← Nat.add_assoc, h4]
      exact h5 n

/-- If the interpreter does not run out of fuel, the machine stops with the same result. -/
theorem backward (hr : Runtime env ar zero p w rt fd) (hl : LibIo lib io) (ho : o ≠ .glob ar) : ∀ (n d : Nat) {is : List Value} {fr : Frame}
    {st : Interp.St σ} {s : BfState σ}, w.length - s.pos = d →
    Rel env ar zero p w fd o is fr st s → E lib rt n is fr st ≠ .fuel →
    ∃ r m s', BfSteps io rt.chk w m s s' ∧ BfStop io rt.chk w s' r ∧ Gives r (E lib rt n is fr st) := by
  intro n
  induction n using Nat.strongRecOn with
  | _ n ihn =>
    intro d
    induction d using Nat.strongRecOn with
    | _ d ihd =>
      intro is fr st s hd h hf
      rcases progress hr hl ho h with ⟨r, k, h1, h2, h3⟩ | ⟨s', is', fr', st', k, h1, h2, h3, h4, h5⟩
      · have hk : k ≤ n := Nat.le_of_not_lt fun hlt => hf (h3 n hlt)
        obtain ⟨m, rfl⟩ := Nat.exists_eq_add_of_le' hk
        exact ⟨r, 0, s, .refl s, h1, h2 m⟩
      · have hk : k ≤ n := Nat.le_of_not_lt fun hlt => hf (h4 n hlt)
        obtain ⟨m, rfl⟩ := Nat.exists_eq_add_of_le' hk
        rw [h3] at hf ⊢
        have hp := h2.1
        have : ∃ r m' s'', BfSteps io rt.chk w m' s' s'' ∧ BfStop io rt.chk w s'' r ∧ Gives r (E lib rt m is' fr' st') := by
          by_cases hk0 : k = 0
          · subst hk0
            refine ihd (w.length - s'.pos) (by omega) rfl h2 hf
          · exact ihn m (by omega) _ rfl h2 hf
        obtain ⟨r, m', s'', a, b, c⟩ := this
        exact ⟨r, m' + 1, s'', .step h1 a, b, c⟩

end

end Koopa.Bf
