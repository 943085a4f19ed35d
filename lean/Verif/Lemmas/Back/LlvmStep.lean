import Verif.Lemmas.Back.LlvmSim
/-!
Every step of the program is one or two steps of its translation.
-/
namespace Koopa
open Spec Spec.Ll Interp

/-- The translations of all functions are in the module. -/
def InMod (p : Program) (M : Mod) (G : Names) : Prop := ∀ f ∈ p.funcLayout, ∃ N I, I ∈ M ∧ FNames p f G N ∧ FuncItem p N f I

section
variable {p : Program} {M : Mod} {G : Names} {fd : FData} {N : Names} {b : BB} {is : List Value} {a : Act} {la : LAct}
variable {σ : Type} {lib : Lib σ} {ptrSize : Nat} {fill : Ty → Val → Prop} {addr : Str → Option Obj}

theorem FNames.funcName (h : FNames p f G N) {g : Func} {gd : FData} (hg : p.funcs.get? g = some gd) {n : Str} (hn : N.ent (.func g) = some n) : n = gd.name := by
  obtain ⟨gd', h1, h2⟩ := h.exact.func g n hn
  rw [hg] at h1; cases h1; exact h2.symm

/-- Entering a function. -/
theorem entry_sim (hp : LReady p) (hM : InMod p M G) {g : Func} {gd : FData} (hg : p.funcs.get? g = some gd) {bs : List (BB × List Value)}
    (hl : gd.layout.bbs = (b, is) :: bs) {ts : List Ty} {r : Ty} (ht : gd.ty = .func ts r) {xs : List Val} (hlen : ts.length = xs.length) {regs : Value → Option Val}
    (hb : Bound gd.params xs regs) (id : Nat) :
    ∃ fn la', .define fn ∈ M ∧ fn.name = gd.name ∧ LEntry fn xs la' ∧ ActRel p M G ⟨g, is, regs, id, []⟩ la' := by
  obtain ⟨N, I, h1, h2, h3⟩ := hM g (hp.listed g gd hg)
  have hpl : gd.params.length = ts.length := hp.params g gd ts r hg (by rw [hl]; simp) ht
  cases h3 with
  | declare i1 i2 =>
    rw [hg] at i1; cases i1
    rw [(hp.decl g gd hg).1 i2] at hl
    cases hl
  | @define fd' F i1 i2 i3 =>
    rw [hg] at i1; cases i1
    have hblks := i3.blks
    rw [hl] at hblks
    cases hF : F.blks with
    | nil => rw [hF] at hblks; cases hblks
    | cons B Bs =>
      rw [hF] at hblks
      cases hblks with
      | cons hB hBs =>
        obtain ⟨j1, ⟨bd, us, j2, -, j3⟩, j4⟩ := hB
        have hph : B.phis = [] := by
          rw [hp.entry g gd b is bs bd hg hl j2] at j3
          generalize B.phis = φs at j3
          cases j3
          rfl
        classical
        let lregs : Str → Option Val := fun n => if hn : ∃ v, N.ent (.value v) = some n then regs hn.choose else none
        have hreg : ∀ v n, N.ent (.value v) = some n → lregs n = regs v := by
          intro v n hn
          have hex : ∃ v, N.ent (.value v) = some n := ⟨v, hn⟩
          simp only [lregs, dif_pos hex]
          rw [Ent.value.inj (h2.distinct.ents _ _ _ hex.choose_spec hn)]
        refine ⟨F, ⟨F, B.label, B.insts, lregs, []⟩, h1, h2.funcName hg i3.name, ⟨B, Bs, hF, hph, ⟨?_, ?_, ?_⟩, rfl, rfl, rfl, rfl⟩, gd, N, b, is,
          hg, h2, i3, h1, by rw [hl]; simp, ⟨[], rfl⟩, j1, j4, fun v d n _ _ hn => hreg v n hn, ?_⟩
        · rw [← all2_len i3.params, hpl, hlen]
        · intro i q hq
          obtain ⟨v, v1, d, -, -, v4⟩ := all2_get' i3.params i q hq
          rw [← hb.1 i v v1]
          exact hreg v _ v4
        · intro n hn
          simp only [lregs]
          split
          · rename_i hex
            refine hb.2 _ (fun hv => hn ?_)
            obtain ⟨q, q1, d, -, -, q4⟩ := all2_mem i3.params hv
            rw [hex.choose_spec] at q4
            exact List.mem_map.2 ⟨q, q1, (Option.some.inj q4).symm⟩
          · rfl
        · intro o
          simp

theorem SRel.dead_head {s : MState σ} {ls : LState σ} (h : SRel p M G s ls) {a a' : Act} {st : List Act} (hacts : s.acts = a :: st) (hid : a'.id = a.id) :
    ∀ o, o ∈ ls.dead → ∃ id v n, o = .loc id v n ∧ id < s.born ∧ ∀ c ∈ a' :: st, c.id ≠ id := by
  intro o ho
  obtain ⟨id, v, n, h1, h2, h3⟩ := h.dead o ho
  refine ⟨id, v, n, h1, h2, fun c hc => ?_⟩
  rw [hacts] at h3
  rcases List.mem_cons.1 hc with rfl | hc
  · rw [hid]; exact h3 a List.mem_cons_self
  · exact h3 c (List.mem_cons_of_mem _ hc)

theorem lsteps_one {s t : LState σ} (h : LNext M lib ptrSize fill s t) : LSteps M lib ptrSize fill 1 s t := .step h (.refl _)

theorem opdVals_of (hp : LReady p) (hA : AddrOk p G addr) (h : ActIn p M G fd N b is a la) {v : Value} {d : VData} (hvis : v ∈ is)
    (hdg : fd.dfg.values.get? v = some d) {args : List Value} {xs : List Val} {as : List (Ty × Opd)} (hsub : ∀ x ∈ args, x ∈ operands d.kind)
    (ho : Operands p a.fn a.regs args xs) (hT : All2 (TOpdOf p fd N) args as) : OpdVals addr la.regs as xs := by
  refine ⟨by rw [← all2_len hT, ho.1], fun i o x hi hx => ?_⟩
  obtain ⟨u, u1, u2⟩ := all2_get' hT i o hi
  exact opd_val h.func h.names hA h.regs (ho.2 i u x u1 hx) u2.2
    (fun e he => hp.nonUnit _ fd b is v d u e h.func h.blk hvis hdg (hsub u (List.mem_iff_getElem?.2 ⟨i, u1⟩)) he) u2.1

/-- The call instruction at the head of an activation. -/
theorem call_inst (h : ActIn p M G fd N b is a la) {v : Value} {d : VData} (hv : a.rest.head? = some v) (hd : LocalVal p a.fn v d) {g : Func} {args : List Value}
    (hk : d.kind = .call g args) : ∃ n t f as, la.rest.head? = some (.call n t f as) ∧ N.ent (.func g) = some f ∧ All2 (TOpdOf p fd N) args as ∧
      ∀ x, ActIn p M G fd N b is (a.gets v x) (la.back n x) := by
  obtain ⟨hdg, hvis, us, xs, ys, hrest, hlrest, hI, hIs⟩ := h.next hv hd
  cases hI with
  | call i1 i2 i3 i4 i5 =>
    rw [hk] at i1; cases i1
    rename_i as
    exact ⟨some _, _, _, as, by rw [hlrest]; rfl, i4, i5, fun x => h.gets hrest hlrest hIs i3 x⟩
  | callVoid i1 i2 i3 i4 =>
    rw [hk] at i1; cases i1
    refine ⟨_, _, _, _, by rw [hlrest]; rfl, i3, i4, fun x => ?_⟩
    refine h.move rfl rfl rfl ⟨[v], by rw [hrest]; simp [Act.gets, hrest]⟩ ?_ (h.regs.void hdg i2 x) h.objs
    simp only [Act.gets, LAct.back, hrest, hlrest, List.singleton_append, List.tail_cons]
    exact hIs
  | _ => simp_all

theorem wait_cons {a : Act} {la : LAct} (h : ActRel p M G a la) {v : Value} {d : VData} (hv : a.rest.head? = some v) (hd : LocalVal p a.fn v d) {g : Func} {args : List Value}
    (hk : d.kind = .call g args) : WaitRel p M G a la := ⟨h, v, d, g, args, hv, hd, hk⟩

/-- The value that is returned. -/
theorem returns_sim (hp : LReady p) (hA : AddrOk p G addr) (h : ActIn p M G fd N b is a la) {v : Value} {d : VData} (hv : a.rest.head? = some v)
    (hd : LocalVal p a.fn v d) {x : Val} (hr : Returns p a.fn a.regs d x) : ∃ i, la.rest.head? = some i ∧ LReturns addr la.regs i x := by
  obtain ⟨hdg, hvis, us, xs, ys, hrest, hlrest, hI, hIs⟩ := h.next hv hd
  cases hr with
  | unit hk =>
    cases hI with
    | retVoid => exact ⟨_, by rw [hlrest]; rfl, .void⟩
    | _ => simp_all
  | value hk h1 =>
    cases hI with
    | ret i1 i2 =>
      rw [hk] at i1; cases i1
      exact ⟨_, by rw [hlrest]; rfl, .value (opd_val h.func h.names hA h.regs h1 i2.2
        (fun e he => hp.nonUnit _ fd b is v d _ e h.func h.blk hvis hdg (by rw [hk]; simp [operands]) he) i2.1)⟩
    | _ => simp_all

theorem sim_step (hp : LReady p) (hM : InMod p M G) (hfill : ∀ t x, Zeroed t x → fill t x) {s s' : MState σ} {ls : LState σ} (h : SRel p M G s ls)
    {chk : Bool} (hb : LlvmDefined p s) (hs : MNext p lib chk ptrSize s s') : ∃ k ls', LSteps M lib ptrSize fill (k + 1) ls ls' ∧ SRel p M G s' ls' := by
  obtain ⟨a0, st0, la, lst, hacts, hlacts, hrel, hwait⟩ := h.acts
  have hA := h.addr
  cases hs with
  | @does a a' stack v d m w hat hdo =>
    have hat' := hat
    obtain ⟨e1, e2, e3⟩ := hat
    rw [hacts] at e1; cases e1
    obtain ⟨fd, N, b, is, hin⟩ := hrel
    have hm : s.mem (.loc a0.id v (a0.made.count v)) = none := by
      rw [← Classical.not_not (a := s.mem _ = none)]
      intro hne
      obtain ⟨c, c1, c2, c3⟩ := h.fresh _ _ _ hne
      rw [hacts] at c1
      rcases List.mem_cons.1 c1 with rfl | c1
      · omega
      · have := h.ids
        rw [hacts] at this
        simp only [List.map_cons, List.nodup_cons] at this
        exact this.1 (c2 ▸ List.mem_map.2 ⟨c, c1, rfl⟩)
    have hdd : .loc a0.id v (a0.made.count v) ∉ ls.dead := by
      intro hm
      obtain ⟨id, u, n, q1, -, q2⟩ := h.dead _ hm
      cases q1
      exact q2 a0 (by rw [hacts]; exact List.mem_cons_self) rfl
    obtain ⟨la', hin', hdo'⟩ := does_sim hp hfill hA hin e2 e3 hm hdd (fun op l r n => hb.shift a0 st0 v d op l r n hat') hdo
    have hkeep : a'.id = a0.id := by cases hdo <;> rfl
    have hrel' : SRel p M G { s with acts := a' :: st0, mem := m, world := w } { ls with acts := la' :: lst, mem := m, world := w } := by
      refine ⟨⟨a', st0, la', lst, rfl, rfl, ⟨fd, N, b, is, hin'⟩, hwait⟩, rfl, rfl, hA, ?_, ?_, ?_, h.dead_head hacts hkeep⟩
      · have hfr := h.fresh
        rw [hacts] at hfr
        cases hdo with
        | @alloc t x m' hk ht hz h1 h2 =>
          intro id u n hne
          by_cases ho : Obj.loc id u n = .loc a0.id v (a0.made.count v)
          · cases ho
            exact ⟨_, List.mem_cons_self, rfl, by simp⟩
          · simp only [] at hne
            rw [h2 _ ho] at hne
            obtain ⟨c, c1, c2, c3⟩ := hfr id u n hne
            rcases List.mem_cons.1 c1 with rfl | c1
            · exact ⟨_, List.mem_cons_self, c2, by simp only [List.count_cons]; omega⟩
            · exact ⟨c, List.mem_cons_of_mem _ c1, c2, c3⟩
        | store hk h1 h2 h3 =>
          obtain ⟨y, y', k1, k2, k3, k4⟩ := h3
          refine hfr.head rfl rfl (fun o ho => ?_)
          simp only []
          rw [k4 o (by rintro rfl; rw [k1] at ho; cases ho)]
          exact ho
        | _ => exact hfr.head rfl rfl (fun o ho => ho)
      · have := h.ids
        rw [hacts] at this
        simpa [hkeep] using this
      · intro c hc
        have hbn := h.born
        rw [hacts] at hbn
        rcases List.mem_cons.1 hc with rfl | hc
        · rw [hkeep]; exact hbn a0 List.mem_cons_self
        · exact hbn c (List.mem_cons_of_mem _ hc)
    rcases hdo' with ⟨i, i1, i2⟩ | ⟨i, la1, j, i1, i2, i3, i4⟩
    · rw [← h.mem, ← h.world] at i2
      exact ⟨0, _, lsteps_one (.does hlacts i1 i2), hrel'⟩
    · rw [← h.mem, ← h.world] at i2
      refine ⟨1, { ls with acts := la' :: lst, mem := m, world := w }, .step (.does hlacts i1 i2) (lsteps_one ?_), hrel'⟩
      have i5 : LDoes lib ptrSize fill ls.addr ls.dead la1 ls.mem ls.world j la' m w := by rw [h.mem, h.world]; exact i4
      exact LNext.does (s := { ls with acts := la1 :: lst, mem := ls.mem, world := ls.world }) rfl i3 i5
  | @goes a stack v d c args js regs hat hg he =>
    have hat' := hat
    obtain ⟨e1, e2, e3⟩ := hat
    rw [hacts] at e1; cases e1
    obtain ⟨fd, N, b, is, hin⟩ := hrel
    obtain ⟨hdg, hvis, us, xs, ys, hrest, hlrest, hI, hIs⟩ := hin.next e2 e3
    -- after the block has been entered
    have key : ∀ (lregs : Str → Option Val) (l : Str), RegsRel fd N a0.regs lregs → N.bb c = some ('%' :: l) →
        ∃ B lregs', LEnters ls.addr la.fn la.cur lregs l B lregs' ∧
          SRel p M G { s with acts := { a0 with rest := js, regs := regs } :: st0 } { ls with acts := { la with cur := l, rest := B, regs := lregs' } :: lst } := by
      intro lregs l hlr hl
      obtain ⟨B, lregs', b1, b2, b3, b4⟩ := enters_sim hp hA hin hlr hvis e3 hg he hl
      refine ⟨B.insts, lregs', b3, ⟨⟨_, _, _, _, rfl, rfl, ⟨fd, N, c, js, hin.func, hin.names, hin.fn, hin.inM, b2, ⟨[], rfl⟩, hl, b1.2.2, b4, hin.objs⟩, hwait⟩,
        h.mem, h.world, hA, ?_, ?_, ?_, h.dead_head hacts rfl⟩⟩
      · have hfr := h.fresh
        rw [hacts] at hfr
        exact hfr.head rfl rfl (fun o ho => ho)
      · have := h.ids
        rw [hacts] at this
        exact this
      · intro c hc
        have hbn := h.born
        rw [hacts] at hbn
        rcases List.mem_cons.1 hc with rfl | hc
        · exact hbn a0 List.mem_cons_self
        · exact hbn c (List.mem_cons_of_mem _ hc)
    -- the two steps of a branch
    have br : ∀ (q : Value) (t f : BB) (ta fa : List Value) (i : I32) (l : Str), d.kind = .branch q t f ta fa → Operand p a0.fn a0.regs q (.int i) →
        ((i.toInt ≠ 0 ∧ c = t) ∨ (i.toInt = 0 ∧ c = f)) → ∃ k ls', LSteps M lib ptrSize fill (k + 1) ls ls' ∧
          SRel p M G { s with acts := { a0 with rest := js, regs := regs } :: st0 } ls' := by
      intro q t f ta fa i l hk hq hi
      have hqt : HasTy p a0.fn q .i32 := by
        have hty := hp.wf.typed.locals _ v d e3
        rw [hk] at hty
        generalize d.ty = ty at hty
        cases hty with
        | branch j1 => exact j1
      cases hI with
      | @branch _ _ _ _ _ o mm l l' i1 i2 i3 i4 i5 =>
        rw [hk] at i1; cases i1
        have o1 := opd_val hin.func hin.names hA hin.regs hq i3 (fun e he => hp.nonUnit _ fd b is v d q e hin.func hin.blk hvis hdg (by rw [hk]; simp [operands]) he)
          (valueTy_of hp hin.func hqt)
        have hl2 : ∀ x, (la.gets mm x).rest = .br (.loc mm) l l' :: ys := by intro x; simp [LAct.gets, hlrest]
        have hrr := fun x => hin.regs.temp hin.names i2 x
        rcases hi with ⟨hi, rfl⟩ | ⟨hi, rfl⟩
        · obtain ⟨B, lregs', b1, b2⟩ := key _ l (hrr (.int 1)) i4
          refine ⟨1, _, .step (.does (a' := la.gets mm (.int 1)) hlacts (by rw [hlrest]; rfl) (.icmp o1 (.cst (.int _ 0)) ⟨fun _ => rfl, fun hn => absurd ?_ hn⟩)) (lsteps_one ?_), b2⟩
          · simpa [Cond.Holds] using hi
          · exact LNext.goes (a := la.gets mm (.int 1)) (s := { ls with acts := la.gets mm (.int 1) :: lst, mem := ls.mem, world := ls.world }) rfl (by rw [hl2]; rfl)
              (.brTrue (.loc (by simp [LAct.gets]))) b1
        · obtain ⟨B, lregs', b1, b2⟩ := key _ l' (hrr (.int 0)) i5
          refine ⟨1, _, .step (.does (a' := la.gets mm (.int 0)) hlacts (by rw [hlrest]; rfl) (.icmp o1 (.cst (.int _ 0)) ⟨fun hn => absurd hn ?_, fun _ => rfl⟩)) (lsteps_one ?_), b2⟩
          · simpa [Cond.Holds] using hi
          · exact LNext.goes (a := la.gets mm (.int 0)) (s := { ls with acts := la.gets mm (.int 0) :: lst, mem := ls.mem, world := ls.world }) rfl (by rw [hl2]; rfl)
              (.brFalse (.loc (by simp [LAct.gets]))) b1
      | _ => simp_all
    cases hg with
    | jump hk =>
      cases hI with
      | jump i1 i2 =>
        rw [hk] at i1; cases i1
        obtain ⟨B, lregs', b1, b2⟩ := key _ _ hin.regs i2
        exact ⟨0, _, lsteps_one (.goes hlacts (by rw [hlrest]; rfl) (.jump _) b1), b2⟩
      | _ => simp_all
    | branchTrue hk h1 h2 => exact br _ _ _ _ _ _ [] hk h1 (.inl ⟨h2, rfl⟩)
    | branchFalse hk h1 h2 =>
      obtain ⟨n, rfl⟩ := hb.branch a0 st0 v d _ _ _ _ _ _ hat' hk h1
      exact br _ _ _ _ _ _ [] hk h1 (.inr ⟨h2 n rfl, rfl⟩)
  | @callExt a stack v d g gd xs x w hat hc hbb hlib =>
    obtain ⟨e1, e2, e3⟩ := hat
    rw [hacts] at e1; cases e1
    obtain ⟨fd, N, b, is, hin⟩ := hrel
    obtain ⟨args, ps, t, k1, k2, k3, k4, k5⟩ := hc
    obtain ⟨n, t', f, as, c1, c2, c3, c4⟩ := call_inst hin e2 e3 k1
    obtain ⟨hdg, hvis, -⟩ := hin.next e2 e3
    have ho := opdVals_of hp hA hin hvis hdg (by rw [k1]; exact fun x hx => hx) k2 c3
    obtain ⟨N', I, m1, m2, m3⟩ := hM g (hp.listed g gd k3)
    have hf : f = gd.name := hin.names.funcName k3 c2
    subst hf
    refine ⟨0, _, lsteps_one (LNext.callExt (x := x) (w := w) (r := t) (ps := ps) hlacts c1 ho ?_ ?_), ⟨⟨_, _, _, _, rfl, rfl, ⟨fd, N, b, is, c4 x⟩, hwait⟩, h.mem, rfl, hA, ?_, ?_, ?_, h.dead_head hacts rfl⟩⟩
    · cases m3 with
      | declare j1 j2 j3 j4 =>
        rw [k3] at j1; cases j1
        rw [k4] at j3; cases j3
        rw [m2.funcName k3 j4] at m1
        exact m1
      | define j1 j2 j3 =>
        rw [k3] at j1; cases j1
        rw [(hp.decl g gd k3).2 hbb] at j2
        cases j2
    · rw [h.world, ← k4]; exact hlib
    · have hfr := h.fresh
      rw [hacts] at hfr
      exact hfr.head rfl rfl (fun o ho => ho)
    · have := h.ids
      rw [hacts] at this
      exact this
    · intro c hc
      have hbn := h.born
      rw [hacts] at hbn
      rcases List.mem_cons.1 hc with rfl | hc
      · exact hbn a0 List.mem_cons_self
      · exact hbn c (List.mem_cons_of_mem _ hc)
  | @call a stack v d g gd xs b' is' bs regs hat hc hbb hbound =>
    obtain ⟨e1, e2, e3⟩ := hat
    rw [hacts] at e1; cases e1
    have hrel0 := hrel
    obtain ⟨fd, N, b, is, hin⟩ := hrel
    obtain ⟨args, ps, t, k1, k2, k3, k4, k5⟩ := hc
    obtain ⟨n, t', f, as, c1, c2, c3, c4⟩ := call_inst hin e2 e3 k1
    obtain ⟨hdg, hvis, -⟩ := hin.next e2 e3
    have ho := opdVals_of hp hA hin hvis hdg (by rw [k1]; exact fun x hx => hx) k2 c3
    have hf : f = gd.name := hin.names.funcName k3 c2
    subst hf
    obtain ⟨fn, la', m1, m2, m3, m4⟩ := entry_sim hp hM k3 hbb k4 k5 hbound s.born
    rw [← m2] at c1
    refine ⟨0, _, lsteps_one (LNext.call hlacts c1 ho m1 m3), ⟨⟨_, _, _, _, rfl, rfl, m4, .cons (wait_cons hrel0 e2 e3 k1) hwait⟩, h.mem, h.world, hA, ?_, ?_, ?_, ?_⟩⟩
    · intro id u n hne
      obtain ⟨c, d1, d2, d3⟩ := h.fresh id u n hne
      rw [hacts] at d1
      exact ⟨c, List.mem_cons_of_mem _ d1, d2, d3⟩
    · have h1 := h.ids
      rw [hacts] at h1
      simp only [List.map_cons, List.nodup_cons] at h1 ⊢
      refine ⟨fun hm => ?_, h1⟩
      have hbn := h.born
      rw [hacts] at hbn
      rw [← List.map_cons (f := fun x : Act => x.id)] at hm
      obtain ⟨c, c1, c2⟩ := List.mem_map.1 hm
      have := hbn c c1
      omega
    · intro c hc
      have hbn := h.born
      rw [hacts] at hbn
      rcases List.mem_cons.1 hc with rfl | hc
      · exact Nat.lt_succ_self _
      · exact Nat.lt_succ_of_lt (hbn c hc)
    · intro o ho
      obtain ⟨id, v, n, q1, q2, q3⟩ := h.dead o ho
      refine ⟨id, v, n, q1, Nat.lt_succ_of_lt q2, fun c hc => ?_⟩
      rw [hacts] at q3
      rcases List.mem_cons.1 hc with rfl | hc
      · exact fun e => by simp only at e; omega
      · exact q3 c hc
  | @ret a c stack v u d x m hat hr hu hm =>
    obtain ⟨e1, e2, e3⟩ := hat
    rw [hacts] at e1; cases e1
    obtain ⟨fd, N, b, is, hin⟩ := hrel
    cases hwait with
    | @cons _ lc _ lst hw hws =>
      obtain ⟨⟨fd', N', b', is', hin'⟩, v', d', g, args, w1, w2, w3⟩ := hw
      rw [hu] at w1; cases w1
      obtain ⟨i, i1, i2⟩ := returns_sim hp hA hin e2 e3 hr
      obtain ⟨n, t', f, as, c1, c2, c3, c4⟩ := call_inst hin' hu w2 w3
      have hids := h.ids
      rw [hacts] at hids
      simp only [List.map_cons, List.nodup_cons] at hids
      have hfree : Freed la.objs ls.mem m := by
        rw [h.mem]
        constructor
        · intro o ho
          obtain ⟨v, n, rfl, -⟩ := (hin.objs o).1 ho
          rw [hm]; simp
        · intro o ho
          rw [hm]
          cases o with
          | glob v => rfl
          | loc id v n =>
            simp only
            split
            · rename_i he
              subst he
              rw [eq_comm, ← Classical.not_not (a := s.mem _ = none)]
              intro hne
              obtain ⟨q, q1, q2, q3⟩ := h.fresh _ _ _ hne
              rw [hacts] at q1
              rcases List.mem_cons.1 q1 with rfl | q1
              · exact ho ((hin.objs _).2 ⟨v, n, rfl, q3⟩)
              · apply hids.1
                rw [← List.map_cons (f := fun x : Act => x.id)]
                exact List.mem_map.2 ⟨q, q1, q2⟩
            · rfl
      refine ⟨0, _, lsteps_one (LNext.ret hlacts i1 i2 c1 hfree), ⟨⟨_, _, _, _, rfl, rfl, ⟨fd', N', b', is', c4 x⟩, hws⟩, rfl, h.world, hA, ?_, ?_, ?_, ?_⟩⟩
      · intro id v n hne
        simp only [] at hne
        rw [hm] at hne
        simp only at hne
        split at hne
        · exact absurd rfl hne
        · rename_i hid
          obtain ⟨q, q1, q2, q3⟩ := h.fresh _ _ _ hne
          rw [hacts] at q1
          rcases List.mem_cons.1 q1 with rfl | q1
          · exact absurd q2.symm hid
          · rcases List.mem_cons.1 q1 with rfl | q1
            · exact ⟨_, List.mem_cons_self, q2, q3⟩
            · exact ⟨q, List.mem_cons_of_mem _ q1, q2, q3⟩
      · exact List.nodup_cons.2 hids.2
      · intro q hq
        have hbn := h.born
        rw [hacts] at hbn
        rcases List.mem_cons.1 hq with rfl | hq
        · exact hbn c (by simp)
        · exact hbn q (by simp [hq])
      · intro o ho
        have hbn := h.born
        rcases List.mem_append.1 ho with ho | ho
        · obtain ⟨v, n, rfl, -⟩ := (hin.objs o).1 ho
          refine ⟨_, v, n, rfl, hbn a0 (by rw [hacts]; exact List.mem_cons_self), fun q hq e => hids.1 ?_⟩
          rw [← List.map_cons (f := fun x : Act => x.id)]
          refine List.mem_map.2 ?_
          rcases List.mem_cons.1 hq with rfl | hq
          · exact ⟨c, List.mem_cons_self, e⟩
          · exact ⟨q, List.mem_cons_of_mem _ hq, e⟩
        · obtain ⟨id, v, n, q1, q2, q3⟩ := h.dead o ho
          rw [hacts] at q3
          refine ⟨id, v, n, q1, q2, fun q hq => ?_⟩
          rcases List.mem_cons.1 hq with rfl | hq
          · exact q3 c (by simp)
          · exact q3 q (by simp [hq])

end

end Koopa
