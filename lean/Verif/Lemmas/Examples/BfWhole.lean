import Verif.Lemmas.Examples.BfSim
/-!
The Brainfuck compiler: the whole run of the finished program.
-/
namespace Koopa.Bf
open Koopa Koopa.Spec Koopa.Interp

/-- The iteration order of the map of functions lists exactly the functions. -/
def Lists (p : Program) (ord : List Func) : Prop := ∀ f, f ∈ ord ↔ ∃ fd, p.funcs.get? f = some fd

/-- What the interpreter gives for a result of the machine. -/
def outcome {σ : Type} : BfResult σ → Out σ (I32 × σ)
  | .halted v => .done (0, v)
  | .failed v => .err v
  | .crashed => .bad

theorem outcome_inj {σ : Type} {r q : BfResult σ} (h : (outcome r : Out σ (I32 × σ)) = outcome q) : r = q := by
  cases r <;> cases q <;> cases h <;> rfl

theorem outcome_ne_fuel {σ : Type} {r : BfResult σ} : outcome r ≠ .fuel := by
  cases r <;> exact fun h => by cases h

section
variable {env : Env} {ar zero : Value} {p : Program} {w : List Char} {σ : Type} {lib : Lib σ} {io : BfIo σ}

theorem Built.findMain (h : Built env ar zero p w) {ord : List Func} (ho : Lists p ord) : Interp.findMain p ord = some env.main := by
  unfold Interp.findMain
  obtain ⟨fd, hf, he⟩ := Option.map_eq_some_iff.1 (show (p.funcs.get? env.main).map _ = _ from h.main)
  have e2 : fd.name = "@main".toList := congrArg (·.2.1) he
  cases hr : ord.find? _ with
  | none =>
    have := List.find?_eq_none.1 hr env.main ((ho _).2 ⟨fd, hf⟩)
    simp [hf, e2] at this
  | some f =>
    have h1 := List.find?_some hr
    cases hg : p.funcs.get? f with
    | none => simp [hg] at h1
    | some gd =>
      simp only [hg, beq_iff_eq] at h1
      exact congrArg some (h.only f gd.ty gd.params (by show (p.funcs.get? f).map _ = _; rw [hg, ← h1]; rfl))

theorem evalConst_zero {look : Value → Option VData} {m : Nat} {d : VData} (h : d.kind = .zeroInit) :
    evalConst look (m + 1) d = Interp.zeroInit d.ty := by
  obtain ⟨t, n, k, u⟩ := d
  cases h
  rfl

theorem Built.initGlobals (h : Built env ar zero p w) {depth : Nat} (hd : 0 < depth) :
    ∃ m vars, Interp.initGlobals p depth p.instLayout (fun _ => none) (fun _ => none) = some (m, vars) ∧
      m (.glob ar) = some (.array (List.replicate bfCells (.int 0))) ∧ vars ar = some (.ptr (some (.glob ar, [])) 0 0) := by
  obtain ⟨init, n, h1, h2⟩ := h.data
  obtain ⟨x, hx, he⟩ := view_g_iff.1 h1
  obtain ⟨y, hy, he'⟩ := view_g_iff.1 h2
  have hk : x.kind = .globalAlloc init := congrArg (fun s => s.2.2) he
  have hk' : y.kind = .zeroInit := congrArg (fun s => s.2.2) he'
  have ht' : y.ty = .array .i32 65536 := congrArg (fun s => s.1) he'
  have hx' : p.values.get? ar = some x := hx
  have hy' : p.values.get? init = some y := hy
  obtain ⟨k, rfl⟩ : ∃ k, depth = k + 1 := ⟨depth - 1, by omega⟩
  have hz : evalConst p.values.get? (k + 1) y = some (.array (List.replicate bfCells (.int 0))) := by
    rw [evalConst_zero hk', ht']
    simp only [Interp.zeroInit, Option.bind_some]
    rfl
  rw [show p.instLayout = [ar] from h.insts]
  refine ⟨fun o => if o = .glob ar then some (.array (List.replicate bfCells (.int 0))) else none,
    fun v => if v = ar then some (.ptr (some (.glob ar, [])) 0 0) else none, ?_, by simp, by simp⟩
  rw [Interp.initGlobals]
  simp only [hx', hk, hy', hz, Interp.initGlobals]

/-- The beginning of the run: from the entry block to the first command. -/
theorem Built.begins (h : Built env ar zero p w) (lib : Lib σ) (chk : Bool) {depth : Nat} (hd : 0 < depth) (ptrSize : Nat)
    {ord : List Func} (ho : Lists p ord) (v : σ) :
    ∃ rt fd o is fr st, Runtime env ar zero p w rt fd ∧ rt.chk = chk ∧ o ≠ .glob ar ∧ Rel env ar zero p w fd o is fr st (bfStart v) ∧
      (∀ n, n < 2 → interpret lib chk depth ptrSize n ord p v = .fuel) ∧
      (∀ n, E lib rt n is fr st = .fuel → interpret lib chk depth ptrSize (n + 2) ord p v = .fuel) ∧
      (∀ n r, Gives r (E lib rt n is fr st) → interpret lib chk depth ptrSize (n + 2) ord p v = outcome r) := by
  obtain ⟨m, vars, g1, g2, g3⟩ := h.initGlobals hd
  obtain ⟨fd, hf, he⟩ := Option.map_eq_some_iff.1 (show (p.funcs.get? env.main).map _ = _ from h.main)
  have e1 : fd.ty = .func [] .i32 := congrArg (·.1) he
  obtain ⟨entry, bb, ks, a, b, j, is, hk, hc, ha, hb, hj, hc', hq⟩ := h.entry
  have hr : Runtime env ar zero p w { prog := p, vars, depth, ptrSize, chk } fd := ⟨h, rfl, hf, hd, g3⟩
  have hbs : ∃ is0 rest, fd.layout.bbs = (entry, is0) :: rest := by
    unfold keys at hk
    rw [show p.view.lay env.main = some fd.layout by show (p.funcs.get? _).map _ = _; rw [hf]; rfl] at hk
    cases hb' : fd.layout.bbs with
    | nil => rw [Option.map_some, hb'] at hk; simp at hk
    | cons q rest =>
      rw [Option.map_some, hb'] at hk
      simp only [List.map_cons, Option.some.injEq, List.cons.injEq] at hk
      exact ⟨q.2, rest, by rw [← hk.1]⟩
  obtain ⟨is0, rest, hbs⟩ := hbs
  -- the state after the entry block
  let fr0 : Frame := { func := fd, act := 0, vals := bindParams (fd.params.zip []), allocs := [] }
  let st0 : Interp.St σ := { mem := m, acts := 1, world := v }
  let o : Obj := .loc 0 env.ptr 0
  have ho' : o ≠ .glob ar := by simp [o]
  let fr1 : Frame := { fr0 with allocs := [env.ptr] }.set env.ptr (.ptr (some (o, [])) 0 0)
  let st1 : Interp.St σ := { st0 with mem := fun o' => if o' = o then some (.ptr none 0 0) else m o' }
  have s1 : ∀ n is, E lib { prog := p, vars, depth, ptrSize, chk } n (env.ptr :: is) fr0 st0 =
      E lib { prog := p, vars, depth, ptrSize, chk } n is fr1 st1 := fun n is => hr.alloc rfl h.ptr rfl
  have hpa : a ≠ env.ptr := ha.ne h.ptr (.inl (by simp))
  let y : Val := .ptr (some (.glob ar, [0])) 0 bfCells
  have s2 : ∀ n is, E lib { prog := p, vars, depth, ptrSize, chk } n (a :: is) fr1 st1 =
      E lib { prog := p, vars, depth, ptrSize, chk } n is (fr1.set a y) st1 := by
    intro n is
    refine hr.getElemPtr (l := List.replicate bfCells (.int 0)) rfl ha hr.arr (hr.const h.const rfl) ?_ ?_
    · unfold readMem
      have e : st1.mem (.glob ar) = some (.array (List.replicate bfCells (.int 0))) := by
        simp only [st1, if_neg ho'.symm, g2]
      simp only [e, Option.bind_some, Val.at]
    · unfold getPointer
      rw [List.length_replicate]
      simp only [show (0 : I32).toInt = 0 from rfl]
      rw [if_pos ⟨by simp, by simp [bfCells]⟩]
      rfl
  let st2 : Interp.St σ := { st1 with mem := fun o' => if o' = o then some y else st1.mem o' }
  have v1 : evalValue { prog := p, vars, depth, ptrSize, chk } (fr1.set a y) a = some y := by
    rw [hr.inst ha rfl (by rfl), set_self]
  have v2 : (fr1.set a y).vals env.ptr = some (.ptr (some (o, [])) 0 0) := by
    rw [set_ne hpa.symm]
    exact set_self
  have v3 : evalValue { prog := p, vars, depth, ptrSize, chk } (fr1.set a y) env.ptr = some (.ptr (some (o, [])) 0 0) := by
    rw [hr.inst h.ptr rfl (by rfl), v2]
  have v4 : writeMem st1.mem (o, []) y = some st2.mem := by
    have e : st1.mem o = some (.ptr none 0 0) := if_pos rfl
    unfold writeMem
    simp only [e, Val.put, Option.map_some]
    rfl
  have s3 : ∀ n is, E lib { prog := p, vars, depth, ptrSize, chk } n (b :: is) (fr1.set a y) st1 =
      E lib { prog := p, vars, depth, ptrSize, chk } n is (fr1.set a y) st2 := fun n is => hr.store (by rfl) hb v1 v3 v4
  have s4 := fun n => hr.jump (lib := lib) (n := n) (js := []) (st := st2) (fr := fr1.set a y) (by rfl) hj hc'
  have hblk : ∀ n, evalBb lib { prog := p, vars, depth, ptrSize, chk } (n + 1) entry fr0 st0 =
      E lib { prog := p, vars, depth, ptrSize, chk } n [j] (fr1.set a y) st2 := by
    intro n
    rw [hr.bb rfl hc, s1, s2, s3]
  have hint : ∀ n, interpret lib chk depth ptrSize n ord p v =
      ((evalBb lib { prog := p, vars, depth, ptrSize, chk } n entry fr0 st0).bind (fun (x, st') =>
              .done (x, { st' with mem := fun o => match o with
                | .loc a _ _ => if a = 0 then none else st'.mem o
                | _ => st'.mem o }))).bind
        (fun (x, st) => match x with
          | .int n => .done (n, st.world)
          | _ => .err st.world) := by
    intro n
    unfold interpret
    simp only [g1, h.findMain ho]
    unfold evalFunc
    simp only [hf, e1, hbs, List.length_nil, ne_eq, not_true, if_false]
    rfl
  have hrel : Rel env ar zero p w fd o is (fr1.set a y) st2 (bfStart v) := by
    refine ⟨Nat.zero_le _, ⟨rfl, v2, if_pos rfl, by simp [bfStart, bfCells], ?_, rfl⟩, [], [], hq, trivial, trivial⟩
    refine ⟨List.replicate bfCells (.int 0), ?_, List.length_replicate, fun i hi => ?_⟩
    · simp only [st2, st1, if_neg ho'.symm, g2]
    · rw [List.getElem?_replicate, if_pos hi]; rfl
  refine ⟨{ prog := p, vars, depth, ptrSize, chk }, fd, o, is, fr1.set a y, st2, hr, rfl, ho', hrel, ?_, ?_, ?_⟩
  · intro n hn
    rw [hint]
    cases n with
    | zero => rfl
    | succ n =>
      obtain rfl : n = 0 := by omega
      rw [hblk, (s4 0).1]; rfl
  · intro n hn
    rw [hint, hblk, (s4 n).2, hn]; rfl
  · intro n r hg
    rw [hint, hblk, (s4 n).2]
    cases r with
    | halted u =>
      obtain ⟨st', h1, h2⟩ := hg
      rw [h1, ← h2]; rfl
    | failed u => rw [show E lib _ n is _ st2 = .err u from hg]; rfl
    | crashed => rw [show E lib _ n is _ st2 = .bad from hg]; rfl

/-- As long as the interpreter is busy, so is the machine. -/
theorem busy {rt : Rt} {fd : FData} {o : Obj} (hr : Runtime env ar zero p w rt fd) (hl : LibIo lib io) (ho : o ≠ .glob ar) :
    ∀ (m : Nat) {is : List Value} {fr : Frame} {st : Interp.St σ} {s : BfState σ}, Rel env ar zero p w fd o is fr st s →
    (∀ n, E lib rt n is fr st = .fuel) → ∃ s', BfSteps io rt.chk w m s s' := by
  intro m
  induction m with
  | zero => intro is fr st s _ _; exact ⟨s, .refl s⟩
  | succ m ih =>
    intro is fr st s h hf
    rcases progress hr hl ho h with ⟨r, k, h1, h2, h3⟩ | ⟨s', is', fr', st', k, h1, h2, h3, h4, h5⟩
    · have := h2 0
      rw [hf] at this
      cases r with
      | halted u => obtain ⟨_, h, _⟩ := this; cases h
      | failed u => cases this
      | crashed => cases this
    · obtain ⟨s'', h6⟩ := ih h2 (fun n => by rw [← h3]; exact hf _)
      exact ⟨s'', .step h1 h6⟩

end

/-- A machine that stops does not go further. -/
theorem steps_stop {σ : Type} {io : BfIo σ} {chk : Bool} {w : List Char} {m : Nat} {s t : BfState σ} {r : BfResult σ}
    (h : BfSteps io chk w m s t) (hs : BfStop io chk w t r) : ∀ {u}, ¬ BfSteps io chk w (m + 1) s u := by
  induction h with
  | refl s => intro u h'; cases h' with | step h1 _ => exact stop_next hs h1
  | step h1 _ ih =>
    intro u h'
    cases h' with
    | step h2 h3 =>
      obtain rfl := next_unique h1 h2
      exact ih hs h3

end Koopa.Bf
