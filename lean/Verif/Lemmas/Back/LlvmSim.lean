import Verif.Lemmas.Back.LlvmRun
import Verif.Spec.LlvmMachine
import Verif.Props.Elab
/-!
The translation runs as the program does.
-/
namespace Koopa
open Spec Spec.Ll Interp

/-- What the simulation needs to know of the program. -/
structure LReady (p : Program) : Prop where
  wf : WellFormed p
  globalId : ∀ v x, GlobalVal p v x → isGlobal v = true
  localId : ∀ f v x, LocalVal p f v x → isGlobal v = false
  listed : ∀ f fd, p.funcs.get? f = some fd → f ∈ p.funcLayout
  decl : ∀ f fd, p.funcs.get? f = some fd → (fd.dfg.bbs.isEmpty = true ↔ fd.layout.bbs = [])
  params : ∀ f fd ts r, p.funcs.get? f = some fd → fd.layout.bbs ≠ [] → fd.ty = .func ts r → fd.params.length = ts.length
  nonUnit : ∀ f fd b is v d x e, p.funcs.get? f = some fd → (b, is) ∈ fd.layout.bbs → v ∈ is → fd.dfg.values.get? v = some d →
    x ∈ operands d.kind → fd.dfg.values.get? x = some e → e.ty ≠ .unit
  entry : ∀ f fd b is bs bd, p.funcs.get? f = some fd → fd.layout.bbs = (b, is) :: bs → fd.dfg.bbs.get? b = some bd → bd.params = []

/-! ### Values -/

theorem map_some_inj {α : Type} : ∀ {l l' : List α}, l.map some = l'.map some → l = l'
  | [], [], _ => rfl
  | [], _ :: _, h => by cases h
  | _ :: _, [], h => by cases h
  | a :: l, b :: l', h => by
    simp only [List.map_cons, List.cons.injEq, Option.some.injEq] at h
    rw [h.1, map_some_inj h.2]

theorem cst_val {get : Value → Option VData} {d : VData} {x : Val} (h : ConstVal get d x) : ∀ {c : Cst}, CstOf get d.kind c → CstVal d.ty c x := by
  induction h with
  | integer hk => intro c hc; rw [hk] at hc; cases hc; exact .int _ _
  | zeroInit hk hz => intro c hc; rw [hk] at hc; cases hc; exact .zero hz
  | undef hk => intro c hc; rw [hk] at hc; cases hc; exact .undef _
  | @aggregate d es ds xs hk h1 h2 h3 ih =>
    intro c hc
    rw [hk] at hc
    cases hc with
    | @agg _ ds' cs i1 i2 i3 =>
      have : ds' = ds := map_some_inj (by rw [← i1, h1])
      subst this
      have hlen : cs.length = ds'.length := by simpa using congrArg List.length i2
      refine .array (by omega) (fun i e x he hx => ?_)
      have hi : i < ds'.length := by rw [← hlen]; exact (List.getElem?_eq_some_iff.1 he).1
      obtain ⟨dd, hdd⟩ : ∃ dd, ds'[i]? = some dd := ⟨_, List.getElem?_eq_getElem hi⟩
      have := ih i dd x hdd hx (i3 i dd e hdd he)
      have ht : e.1 = dd.ty := by
        have := congrArg (·[i]?) i2
        simp only [List.getElem?_map, he, hdd, Option.map_some, Option.some.injEq] at this
        exact this
      rw [ht]
      exact this

/-- The registers agree. -/
def RegsRel (fd : FData) (N : Names) (regs : Value → Option Val) (lregs : Str → Option Val) : Prop :=
  ∀ v d n, fd.dfg.values.get? v = some d → d.ty ≠ .unit → N.ent (.value v) = some n → lregs n = regs v

/-- The addresses of global variables. -/
def AddrOk (p : Program) (G : Names) (addr : Str → Option Obj) : Prop :=
  ∀ v n, v ∈ p.instLayout → G.ent (.global v) = some n → addr n = some (.glob v)

section
variable {p : Program} {G N : Names} {fd : FData} {f : Func} {addr : Str → Option Obj} {regs : Value → Option Val} {lregs : Str → Option Val}

theorem valueTy_of (hp : LReady p) (hf : p.funcs.get? f = some fd) {v : Value} {t : Ty} (h : HasTy p f v t) : BackLlvm.valueTy p fd v = some t := by
  obtain ⟨x, h1 | h1, rfl⟩ := h
  · unfold BackLlvm.valueTy
    rw [if_pos (hp.globalId v x h1), show p.values.get? v = some x from h1]; rfl
  · unfold BackLlvm.valueTy
    rw [if_neg (by rw [hp.localId f v x h1]; decide)]
    obtain ⟨fd', h2, h3⟩ := h1
    rw [hf] at h2; cases h2
    rw [h3]; rfl

theorem opd_val (hf : p.funcs.get? f = some fd) (hN : FNames p f G N) (ha : AddrOk p G addr) (hr : RegsRel fd N regs lregs)
    {v : Value} {x : Val} {o : Opd} {t : Ty} (h : Operand p f regs v x) (ho : OpdOf fd N v o)
    (hu : ∀ e, fd.dfg.values.get? v = some e → e.ty ≠ .unit) (ht : BackLlvm.valueTy p fd v = some t) : OpdVal addr lregs t o x := by
  cases h with
  | global h1 h2 h3 h4 =>
    cases ho with
    | glob i1 i2 => exact .glob (ha v _ h4 (hN.within.2 v _ i2))
    | cst i1 => rw [h1] at i1; cases i1
    | loc i1 => rw [h1] at i1; cases i1
  | const h1 h2 h3 h4 h5 =>
    rw [hf] at h2; cases h2
    cases ho with
    | glob i1 => rw [h1] at i1; cases i1
    | cst i1 i2 i3 i4 =>
      rw [h3] at i2; cases i2
      unfold BackLlvm.valueTy at ht
      rw [if_neg (by rw [h1]; decide), h3] at ht
      cases ht
      exact .cst (cst_val h5 i4)
    | loc i1 i2 i3 => rw [h3] at i2; cases i2; rw [h4] at i3; cases i3
  | reg h1 h2 h3 h4 =>
    obtain ⟨fd', j1, j2⟩ := h2
    rw [hf] at j1; cases j1
    cases ho with
    | glob i1 => rw [h1] at i1; cases i1
    | cst i1 i2 i3 => rw [j2] at i2; cases i2; rw [h3] at i3; cases i3
    | loc i1 i2 i3 i4 => exact .loc (by rw [hr v _ _ i2 (hu _ i2) i4, h4])

theorem RegsRel.gets (hN : FNames p f G N) (hr : RegsRel fd N regs lregs) {v : Value} {n : Str} (hn : N.ent (.value v) = some n) (x : Val) :
    RegsRel fd N (fun u => if u = v then some x else regs u) (fun u => if u = n then some x else lregs u) := by
  intro u d m hu ht hm
  simp only
  by_cases h : u = v
  · subst h
    rw [hn] at hm; cases hm
    simp
  · have : m ≠ n := by
      rintro rfl
      exact h (Ent.value.inj (hN.distinct.ents _ _ _ hm hn))
    rw [if_neg h, if_neg this]
    exact hr u d m hu ht hm

theorem RegsRel.temp (hN : FNames p f G N) (hr : RegsRel fd N regs lregs) {v : Value} {n : Str} (hn : N.ent (.temp v) = some n) (x : Val) :
    RegsRel fd N regs (fun u => if u = n then some x else lregs u) := by
  intro u d m hu ht hm
  simp only
  have : m ≠ n := by
    rintro rfl
    cases hN.distinct.ents _ _ _ hm hn
  rw [if_neg this]
  exact hr u d m hu ht hm

theorem RegsRel.void (hr : RegsRel fd N regs lregs) {v : Value} {d : VData} (hd : fd.dfg.values.get? v = some d) (hu : d.ty = .unit) (x : Val) :
    RegsRel fd N (fun u => if u = v then some x else regs u) lregs := by
  intro u e m h1 ht hm
  simp only
  have : u ≠ v := by
    rintro rfl
    rw [hd] at h1; cases h1
    exact ht hu
  rw [if_neg this]
  exact hr u e m h1 ht hm

end

/-! ### States -/

section
variable (p : Program) (M : Mod) (G : Names)

/-- The activations agree: `N` are the names used in the function, `(b, is)` is the current block. -/
structure ActIn (fd : FData) (N : Names) (b : BB) (is : List Value) (a : Act) (la : LAct) : Prop where
  func : p.funcs.get? a.fn = some fd
  names : FNames p a.fn G N
  fn : FnOf p fd N a.fn la.fn
  inM : .define la.fn ∈ M
  blk : (b, is) ∈ fd.layout.bbs
  part : ∃ pre, is = pre ++ a.rest
  cur : N.bb b = some ('%' :: la.cur)
  rest : InstsOf p fd N a.rest la.rest
  regs : RegsRel fd N a.regs la.regs
  objs : ∀ o, o ∈ la.objs ↔ ∃ v n, o = .loc a.id v n ∧ n < a.made.count v

/-- The activations agree. -/
def ActRel (a : Act) (la : LAct) : Prop := ∃ fd N b is, ActIn p M G fd N b is a la

/-- The activations agree and wait for a call to return. -/
def WaitRel (a : Act) (la : LAct) : Prop :=
  ActRel p M G a la ∧ ∃ v d g as, a.rest.head? = some v ∧ LocalVal p a.fn v d ∧ d.kind = .call g as

/-- The local objects in memory belong to the activations. -/
def Fresh (acts : List Act) (m : Mem) : Prop := ∀ id v n, m (.loc id v n) ≠ none → ∃ a ∈ acts, a.id = id ∧ n < a.made.count v

/-- The machines agree. -/
structure SRel {σ : Type} (s : MState σ) (ls : LState σ) : Prop where
  acts : ∃ a st la lst, s.acts = a :: st ∧ ls.acts = la :: lst ∧ ActRel p M G a la ∧ All2 (WaitRel p M G) st lst
  mem : ls.mem = s.mem
  world : ls.world = s.world
  addr : AddrOk p G ls.addr
  fresh : Fresh s.acts s.mem
  ids : (s.acts.map (·.id)).Nodup
  born : ∀ a ∈ s.acts, a.id < s.born
  dead : ∀ o, o ∈ ls.dead → ∃ id v n, o = .loc id v n ∧ id < s.born ∧ ∀ a ∈ s.acts, a.id ≠ id

end

section
variable {p : Program} {M : Mod} {G : Names} {fd : FData} {N : Names} {b : BB} {is : List Value} {a : Act} {la : LAct}

theorem Fresh.head {a a' : Act} {st : List Act} {m m' : Mem} (h : Fresh (a :: st) m) (hid : a'.id = a.id) (hm : a'.made = a.made)
    (hn : ∀ o, m o = none → m' o = none) : Fresh (a' :: st) m' := by
  intro id v n hne
  obtain ⟨c, hc, h1, h2⟩ := h id v n (fun h0 => hne (hn _ h0))
  rcases List.mem_cons.1 hc with rfl | hc
  · exact ⟨a', List.mem_cons_self, by rw [hid, h1], by rw [hm]; exact h2⟩
  · exact ⟨c, List.mem_cons_of_mem _ hc, h1, h2⟩

theorem insts_cons {v : Value} {us : List Value} {zs : List Inst} (h : InstsOf p fd N (v :: us) zs) :
    ∃ d xs ys, fd.dfg.values.get? v = some d ∧ zs = xs ++ ys ∧ InstOf p fd N v d xs ∧ InstsOf p fd N us ys := by
  cases h with
  | cons h1 h2 h3 => exact ⟨_, _, _, h1, rfl, h2, h3⟩

/-- The next instruction. -/
theorem ActIn.next (h : ActIn p M G fd N b is a la) {v : Value} (hv : a.rest.head? = some v) {d : VData} (hd : LocalVal p a.fn v d) :
    fd.dfg.values.get? v = some d ∧ v ∈ is ∧ ∃ us xs ys, a.rest = v :: us ∧ la.rest = xs ++ ys ∧ InstOf p fd N v d xs ∧
      InstsOf p fd N us ys := by
  have hr := h.rest
  obtain ⟨pre, hpre⟩ := h.part
  obtain ⟨fd', h1, h2⟩ := hd
  rw [h.func] at h1; cases h1
  cases hl : a.rest with
  | nil => rw [hl] at hv; cases hv
  | cons u us =>
    rw [hl] at hv hr hpre
    cases hv
    obtain ⟨d', xs, ys, i1, i2, i3, i4⟩ := insts_cons hr
    rw [h2] at i1; cases i1
    exact ⟨h2, by rw [hpre]; simp, us, xs, ys, rfl, i2, i3, i4⟩

theorem ActIn.move (h : ActIn p M G fd N b is a la) {a' : Act} {la' : LAct} (h1 : a'.fn = a.fn) (h2 : la'.fn = la.fn) (h3 : la'.cur = la.cur)
    (h4 : ∃ us, a.rest = us ++ a'.rest) (h5 : InstsOf p fd N a'.rest la'.rest) (h6 : RegsRel fd N a'.regs la'.regs)
    (h7 : ∀ o, o ∈ la'.objs ↔ ∃ v n, o = .loc a'.id v n ∧ n < a'.made.count v) : ActIn p M G fd N b is a' la' := by
  refine ⟨by rw [h1]; exact h.func, by rw [h1]; exact h.names, by rw [h1, h2]; exact h.fn, by rw [h2]; exact h.inM, h.blk, ?_, by rw [h3]; exact h.cur, h5, h6, h7⟩
  obtain ⟨pre, e1⟩ := h.part
  obtain ⟨us, e2⟩ := h4
  exact ⟨pre ++ us, by rw [e1, e2, List.append_assoc]⟩

theorem ActIn.gets (h : ActIn p M G fd N b is a la) {v : Value} {us : List Value} {i : Inst} {ys : List Inst} {n : Str} (hv : a.rest = v :: us)
    (hl : la.rest = i :: ys) (hy : InstsOf p fd N us ys) (hn : N.ent (.value v) = some n) (x : Val) :
    ActIn p M G fd N b is (a.gets v x) (la.gets n x) :=
  h.move rfl rfl rfl ⟨[v], by rw [hv]; simp [Act.gets, hv]⟩ (by simp only [Act.gets, LAct.gets, hv, hl, List.tail_cons]; exact hy)
    (h.regs.gets h.names hn x) h.objs

theorem ActIn.skip (h : ActIn p M G fd N b is a la) {v : Value} {us : List Value} {i : Inst} {ys : List Inst} (hv : a.rest = v :: us)
    (hl : la.rest = i :: ys) (hy : InstsOf p fd N us ys) :
    ActIn p M G fd N b is { a with rest := a.rest.tail } { la with rest := la.rest.tail } :=
  h.move rfl rfl rfl ⟨[v], by rw [hv]; simp⟩ (by simp only [hv, hl, List.tail_cons]; exact hy) h.regs h.objs

end

/-! ### Arithmetic -/

theorem arith_val {op : BinOp} {o : Ll.Arith} (ho : arithOp op = some o) {chk : Bool} {l r n : I32} (h : Spec.Arith chk op l r n)
    (hs : op = .shl ∨ op = .shr ∨ op = .sar → r.toNat < 32) : o.Val l r n := by
  have hshift : ∀ k, Shift chk r k → r.toNat < 32 → r.toNat < 32 ∧ k = r.toNat := by
    rintro k ⟨h1, -⟩ this
    exact ⟨this, by rw [h1, Nat.mod_eq_of_lt this]⟩
  cases op <;> simp only [arithOp, Option.some.injEq, reduceCtorEq] at ho <;> subst ho <;> simp only [Spec.Arith] at h <;> simp only [Ll.Arith.Val]
  · exact h.1
  · exact h.1
  · exact h.1
  · refine ⟨h.1, ?_, h.2⟩
    rintro ⟨h1, h2⟩
    have h3 := h.2
    rw [h1, h2] at h3
    have : n.toInt < 2 ^ 31 := by have := BitVec.toInt_lt (x := n); simpa using this
    rw [h3] at this
    revert this
    decide
  · exact h
  · exact h
  · exact h
  · exact h
  · obtain ⟨k, h1, h2⟩ := h
    obtain ⟨h3, rfl⟩ := hshift k h1 (hs (by simp))
    exact ⟨h3, h2⟩
  · obtain ⟨k, h1, h2⟩ := h
    obtain ⟨h3, rfl⟩ := hshift k h1 (hs (by simp))
    exact ⟨h3, h2⟩
  · obtain ⟨k, h1, h2⟩ := h
    obtain ⟨h3, rfl⟩ := hshift k h1 (hs (by simp))
    exact ⟨h3, h2⟩

theorem cond_val {op : BinOp} {c : Ll.Cond} (ho : condOp op = some c) {chk : Bool} {l r n : I32} (h : Spec.Arith chk op l r n) : OneIf (c.Holds l r) n := by
  cases op <;> simp only [condOp, Option.some.injEq, reduceCtorEq] at ho <;> subst ho <;> exact h

/-! ### Instructions that do not transfer control -/

section
variable {p : Program} {M : Mod} {G : Names} {fd : FData} {N : Names} {b : BB} {is : List Value} {a : Act} {la : LAct}
variable {σ : Type} {lib : Lib σ} {ptrSize : Nat} {fill : Ty → Val → Prop} {addr : Str → Option Obj} {dead : List Obj}

/-- One or two instructions that do not transfer control. -/
def LDoes12 (lib : Lib σ) (ptrSize : Nat) (fill : Ty → Val → Prop) (addr : Str → Option Obj) (dead : List Obj) (la : LAct) (m : Mem) (w : σ) (la' : LAct) (m' : Mem) (w' : σ) : Prop :=
  (∃ i, la.rest.head? = some i ∧ LDoes lib ptrSize fill addr dead la m w i la' m' w') ∨
    ∃ i la1 j, la.rest.head? = some i ∧ LDoes lib ptrSize fill addr dead la m w i la1 m w ∧ la1.rest.head? = some j ∧ LDoes lib ptrSize fill addr dead la1 m w j la' m' w'

theorem does_sim (hp : LReady p) (hfill : ∀ t x, Zeroed t x → fill t x) (hA : AddrOk p G addr) (h : ActIn p M G fd N b is a la) {v : Value} {d : VData}
    (hv : a.rest.head? = some v) (hd : LocalVal p a.fn v d) {m m' : Mem} {w w' : σ} {a' : Act} (hm : m (.loc a.id v (a.made.count v)) = none)
    (hdead : .loc a.id v (a.made.count v) ∉ dead)
    {chk : Bool} (hsh : ∀ op l r n, d.kind = .binary op l r → op = .shl ∨ op = .shr ∨ op = .sar → Operand p a.fn a.regs r (.int n) → n.toNat < 32)
    (hdo : Does p lib chk ptrSize a v d m w a' m' w') :
    ∃ la', ActIn p M G fd N b is a' la' ∧ LDoes12 lib ptrSize fill addr dead la m w la' m' w' := by
  obtain ⟨hdg, hvis, us, xs, ys, hrest, hlrest, hI, hIs⟩ := h.next hv hd
  have hu : ∀ x ∈ operands d.kind, ∀ e, fd.dfg.values.get? x = some e → e.ty ≠ .unit :=
    fun x hx e he => hp.nonUnit _ fd b is v d x e h.func h.blk hvis hdg hx he
  have hty := hp.wf.typed.locals _ v d hd
  have hop : ∀ x o t y, x ∈ operands d.kind → Operand p a.fn a.regs x y → OpdOf fd N x o → BackLlvm.valueTy p fd x = some t → OpdVal addr la.regs t o y :=
    fun x o t y hx h1 h2 h3 => opd_val h.func h.names hA h.regs h1 h2 (hu x hx) h3
  have one : ∀ {i : Inst} {la' : LAct}, la.rest = i :: ys → LDoes lib ptrSize fill addr dead la m w i la' m' w' → LDoes12 lib ptrSize fill addr dead la m w la' m' w' :=
    fun h1 h2 => .inl ⟨_, by rw [h1]; rfl, h2⟩
  cases hdo with
  | @alloc t x m' hk ht hz h1 h2 =>
    cases hI with
    | @alloc t' n i1 i2 i3 =>
      rw [ht] at i2; cases i2
      refine ⟨{ la.gets n (.ptr (some (.loc a.id v (a.made.count v), [])) 0 0) with objs := .loc a.id v (a.made.count v) :: la.objs }, ?_,
        one hlrest (.alloca hm hdead (hfill _ _ hz) h1 h2)⟩
      have h3 := h.gets hrest hlrest hIs i3 (.ptr (some (.loc a.id v (a.made.count v), [])) 0 0)
      refine h3.move rfl rfl rfl ⟨[], rfl⟩ h3.rest h3.regs ?_
      intro o
      simp only [List.mem_cons, h.objs o, Act.gets]
      constructor
      · rintro (rfl | ⟨u, k, rfl, hk⟩)
        · exact ⟨v, _, rfl, by simp⟩
        · exact ⟨u, k, rfl, by rw [List.count_cons]; omega⟩
      · rintro ⟨u, k, rfl, hk⟩
        rw [List.count_cons] at hk
        by_cases he : v = u
        · subst he
          simp only [beq_self_eq_true, if_true] at hk
          by_cases h4 : k = a.made.count v
          · exact .inl (by rw [h4])
          · exact .inr ⟨v, k, rfl, by omega⟩
        · rw [if_neg (by simpa using he)] at hk
          exact .inr ⟨u, k, rfl, hk⟩
    | _ => simp_all
  | load hk h1 h2 =>
    cases hI with
    | load i1 i2 i3 =>
      rw [hk] at i1; cases i1
      exact ⟨_, h.gets hrest hlrest hIs i2 _, one hlrest (.load (hop _ _ _ _ (by rw [hk]; simp [operands]) h1 i3.2 i3.1) h2)⟩
    | _ => simp_all
  | loadExt hk h1 =>
    cases hI with
    | load i1 i2 i3 =>
      rw [hk] at i1; cases i1
      exact ⟨_, h.gets hrest hlrest hIs i2 _, one hlrest (.loadExt (hop _ _ _ _ (by rw [hk]; simp [operands]) h1 i3.2 i3.1))⟩
    | _ => simp_all
  | store hk h1 h2 h3 =>
    cases hI with
    | store i1 i2 i3 =>
      rw [hk] at i1; cases i1
      exact ⟨_, h.skip hrest hlrest hIs, one hlrest (.store (hop _ _ _ _ (by rw [hk]; simp [operands]) h1 i2.2 i2.1)
        (hop _ _ _ _ (by rw [hk]; simp [operands]) h2 i3.2 i3.1) h3)⟩
    | _ => simp_all
  | storeExt hk h1 h2 h3 h4 =>
    cases hI with
    | store i1 i2 i3 =>
      rw [hk] at i1; cases i1
      have h5 := valueTy_of hp h.func ⟨_, .inr h3, rfl⟩
      rw [i2.1] at h5
      rw [← Option.some.inj h5] at h4
      exact ⟨_, h.skip hrest hlrest hIs, one hlrest (.storeExt (hop _ _ _ _ (by rw [hk]; simp [operands]) h1 i2.2 i2.1)
        (hop _ _ _ _ (by rw [hk]; simp [operands]) h2 i3.2 i3.1) h4)⟩
    | _ => simp_all
  | getPtr hk ht h1 h2 h3 =>
    cases hI with
    | getPtr i1 i2 i3 i4 i5 =>
      rw [hk] at i1; cases i1
      rw [hk, ht] at hty
      cases hty with
      | getPtr j1 j2 =>
        have h5 := valueTy_of hp h.func j1
        rw [i3] at h5
        cases h5
        exact ⟨_, h.gets hrest hlrest hIs i2 _, one hlrest (.gep (hop _ _ _ _ (by rw [hk]; simp [operands]) h1 i4.2 i4.1)
          (hop _ _ _ _ (by rw [hk]; simp [operands]) h2 i5.2 i5.1) h3)⟩
    | _ => simp_all
  | getElemPtr hk ht h1 h2 h3 h4 =>
    cases hI with
    | getElemPtr i1 i2 i3 i4 i5 =>
      rw [hk] at i1; cases i1
      rw [hk, ht] at hty
      cases hty with
      | getElemPtr j1 j2 =>
        have h5 := valueTy_of hp h.func j1
        rw [i3] at h5
        cases h5
        exact ⟨_, h.gets hrest hlrest hIs i2 _, one hlrest (.gepElem (hop _ _ _ _ (by rw [hk]; simp [operands]) h1 i4.2 i4.1)
          (.cst (.int _ _)) (hop _ _ _ _ (by rw [hk]; simp [operands]) h2 i5.2 i5.1) h3 h4)⟩
    | _ => simp_all
  | getElemPtrExt hk ht h1 h2 h3 =>
    cases hI with
    | getElemPtr i1 i2 i3 i4 i5 =>
      rw [hk] at i1; cases i1
      rw [hk, ht] at hty
      cases hty with
      | getElemPtr j1 j2 =>
        have h5 := valueTy_of hp h.func j1
        rw [i3] at h5
        cases h5
        exact ⟨_, h.gets hrest hlrest hIs i2 _, one hlrest (.gepElemExt (hop _ _ _ _ (by rw [hk]; simp [operands]) h1 i4.2 i4.1)
          (.cst (.int _ _)) (hop _ _ _ _ (by rw [hk]; simp [operands]) h2 i5.2 i5.1) h3)⟩
    | _ => simp_all
  | @binary op lhs rhs l r n hk h1 h2 h3 =>
    have hty' : HasTy p a.fn lhs .i32 ∧ HasTy p a.fn rhs .i32 := by
      rw [hk] at hty
      generalize d.ty = t at hty
      cases hty with
      | binary j1 j2 => exact ⟨j1, j2⟩
    have t1 := valueTy_of hp h.func hty'.1
    have t2 := valueTy_of hp h.func hty'.2
    cases hI with
    | arith i1 i2 i3 i4 i5 =>
      rw [hk] at i1; cases i1
      exact ⟨_, h.gets hrest hlrest hIs i3 _, one hlrest (.arith (hop _ _ _ _ (by rw [hk]; simp [operands]) h1 i4 t1)
        (hop _ _ _ _ (by rw [hk]; simp [operands]) h2 i5 t2) (arith_val i2 h3 (fun ho => hsh _ _ _ _ hk ho h2)))⟩
    | @compare _ _ _ c o1 o2 nn mm i1 i2 i3 i4 i5 i6 =>
      rw [hk] at i1; cases i1
      have hl2 : (la.gets mm (.int n)).rest = .zext nn (.loc mm) :: ys := by simp [LAct.gets, hlrest]
      refine ⟨(la.gets mm (.int n)).gets nn (.int n), ?_, .inr ⟨_, la.gets mm (.int n), _, by rw [hlrest]; rfl,
        .icmp (hop _ _ _ _ (by rw [hk]; simp [operands]) h1 i5 t1) (hop _ _ _ _ (by rw [hk]; simp [operands]) h2 i6 t2) (cond_val i2 h3),
        by rw [hl2]; rfl, .zext (.loc (by simp [LAct.gets]))⟩⟩
      refine h.move rfl rfl rfl ⟨[v], by rw [hrest]; simp [Act.gets, hrest]⟩ ?_ ((h.regs.temp h.names i4 (.int n)).gets h.names i3 (.int n)) h.objs
      simp only [Act.gets, LAct.gets, hrest, hlrest, List.cons_append, List.nil_append, List.tail_cons]
      exact hIs
    | _ => simp_all

/-! ### Transfer of control -/

theorem all2_get {α β : Type} {R : α → β → Prop} {as : List α} {bs : List β} (h : All2 R as bs) : ∀ (i : Nat) a, as[i]? = some a → ∃ b, bs[i]? = some b ∧ R a b := by
  induction h with
  | nil => intro i a h; cases h
  | cons h _ ih =>
    intro i a hi
    cases i with
    | zero => cases hi; exact ⟨_, rfl, h⟩
    | succ i => exact ih i a hi

theorem all2_get' {α β : Type} {R : α → β → Prop} {as : List α} {bs : List β} (h : All2 R as bs) : ∀ (i : Nat) b, bs[i]? = some b → ∃ a, as[i]? = some a ∧ R a b := by
  induction h with
  | nil => intro i a h; cases h
  | cons h _ ih =>
    intro i a hi
    cases i with
    | zero => cases hi; exact ⟨_, rfl, h⟩
    | succ i => exact ih i a hi

theorem all2_mem {α β : Type} {R : α → β → Prop} {as : List α} {bs : List β} (h : All2 R as bs) {a : α} (ha : a ∈ as) : ∃ b ∈ bs, R a b := by
  obtain ⟨i, hi⟩ := List.mem_iff_getElem?.1 ha
  obtain ⟨b, h1, h2⟩ := all2_get h i a hi
  exact ⟨b, List.mem_iff_getElem?.2 ⟨i, h1⟩, h2⟩

theorem all2_mem' {α β : Type} {R : α → β → Prop} {as : List α} {bs : List β} (h : All2 R as bs) {b : β} (hb : b ∈ bs) : ∃ a ∈ as, R a b := by
  obtain ⟨i, hi⟩ := List.mem_iff_getElem?.1 hb
  obtain ⟨a, h1, h2⟩ := all2_get' h i b hi
  exact ⟨a, List.mem_iff_getElem?.2 ⟨i, h1⟩, h2⟩

theorem all2_len {α β : Type} {R : α → β → Prop} {as : List α} {bs : List β} (h : All2 R as bs) : as.length = bs.length := by
  induction h with
  | nil => rfl
  | cons _ _ ih => simp [ih]

theorem phis_get {users : List Value} {c : BB} : ∀ {i : Nat} {vs : List Value} {φs : List Phi}, PhisOf fd N c users i vs φs →
    ∀ φ ∈ φs, ∃ k v, vs[k]? = some v ∧ PhiOf fd N c users (i + k) v φ
  | _, _, _, .nil _, φ, h => by cases h
  | i, _, _, .cons h hs, φ, hφ => by
    rcases List.mem_cons.1 hφ with rfl | hφ
    · exact ⟨0, _, rfl, h⟩
    · obtain ⟨k, v, h1, h2⟩ := phis_get hs φ hφ
      exact ⟨k + 1, v, h1, by rw [show i + (k + 1) = i + 1 + k by omega]; exact h2⟩

theorem phis_get' {users : List Value} {c : BB} : ∀ {i : Nat} {vs : List Value} {φs : List Phi}, PhisOf fd N c users i vs φs →
    ∀ v ∈ vs, ∃ φ ∈ φs, N.ent (.value v) = some φ.name
  | _, _, _, .nil _, v, h => by cases h
  | i, _, _, .cons h hs, v, hv => by
    rcases List.mem_cons.1 hv with rfl | hv
    · obtain ⟨d, -, h1, -⟩ := h
      exact ⟨_, List.mem_cons_self, h1⟩
    · obtain ⟨φ, h1, h2⟩ := phis_get' hs v hv
      exact ⟨φ, List.mem_cons_of_mem _ h1, h2⟩

theorem keys_eq {α β : Type} [DecidableEq α] : ∀ {l : List (α × β)}, (l.map (·.1)).Nodup → ∀ {k : α} {x y : β}, (k, x) ∈ l → (k, y) ∈ l → x = y
  | [], _, k, x, y, h, _ => by cases h
  | q :: l, hn, k, x, y, h, h' => by
    simp only [List.map_cons, List.nodup_cons] at hn
    rcases List.mem_cons.1 h with rfl | g
    · rcases List.mem_cons.1 h' with h' | h'
      · cases h'; rfl
      · exact absurd (List.mem_map.2 ⟨_, h', rfl⟩) hn.1
    · rcases List.mem_cons.1 h' with h' | h'
      · rw [← h'] at hn
        exact absurd (List.mem_map.2 ⟨(k, x), g, rfl⟩) hn.1
      · exact keys_eq hn.2 g h'

/-- A terminator in the block is the last instruction. -/
theorem last_term (hp : LReady p) {f : Func} (hf : p.funcs.get? f = some fd) (hb : (b, is) ∈ fd.layout.bbs) :
    ∃ t, ∀ v d, v ∈ is → fd.dfg.values.get? v = some d → terminator d.kind = true → v = t := by
  obtain ⟨init, t, rfl, -, h2⟩ := hp.wf.ends f fd b is hf hb
  refine ⟨t, fun v d hv hd ht => ?_⟩
  rcases List.mem_append.1 hv with hv | hv
  · obtain ⟨x, ⟨fd', h3, h4⟩, h5⟩ := h2 v hv
    rw [hf] at h3; cases h3
    rw [hd] at h4; cases h4
    rw [ht] at h5; cases h5
  · exact List.mem_singleton.1 hv

theorem targets_term {k : VKind} {c : BB} (h : c ∈ targets k) : terminator k = true := by
  cases k <;> simp [targets] at h <;> rfl

/-- The arguments an instruction passes to a block are those of the phi nodes. -/
theorem phiArg_of (hp : LReady p) {f : Func} {v : Value} {d : VData} (hd : LocalVal p f v d) {regs : Value → Option Val} {c : BB} {args : List Value}
    (hg : Goes p f regs d c args) : c ∈ targets d.kind ∧ (∀ x ∈ args, x ∈ operands d.kind) ∧ (∃ ts, ParamTys p f c ts ∧ All2 (HasTy p f) args ts) ∧
      ∀ i, BackLlvm.phiArg c i d.kind = args[i]? := by
  have hty := hp.wf.typed.locals _ v d hd
  generalize d.ty = t at hty
  cases hg with
  | jump hk =>
    rw [hk] at hty
    cases hty with
    | jump j1 j2 => exact ⟨by rw [hk]; simp [targets], by rw [hk]; exact fun x hx => hx, ⟨_, j1, j2⟩, fun i => by rw [hk]; rfl⟩
  | branchTrue hk =>
    rw [hk] at hty
    cases hty with
    | branch j1 j2 j3 j4 j5 j6 =>
      exact ⟨by rw [hk]; simp [targets], by rw [hk]; intro x hx; simp [operands, hx], ⟨_, j2, j4⟩, fun i => by rw [hk]; simp [BackLlvm.phiArg]⟩
  | branchFalse hk =>
    rw [hk] at hty
    cases hty with
    | branch j1 j2 j3 j4 j5 j6 =>
      refine ⟨by rw [hk]; simp [targets], by rw [hk]; intro x hx; simp [operands, hx], ⟨_, j3, j5⟩, fun i => ?_⟩
      rw [hk]
      simp only [BackLlvm.phiArg]
      split
      · rename_i he
        obtain ⟨e1, e2⟩ := j6 he
        rw [e1, e2]
      · rfl

/-- Entering a block. -/
theorem enters_sim (hp : LReady p) (hA : AddrOk p G addr) (h : ActIn p M G fd N b is a la) {lregs : Str → Option Val} (hlr : RegsRel fd N a.regs lregs)
    {v : Value} {d : VData} (hvis : v ∈ is) (hd : LocalVal p a.fn v d) {c : BB} {args js : List Value} {regs' : Value → Option Val} (hg : Goes p a.fn a.regs d c args)
    (he : Enters p a.fn a.regs c args js regs') {l : Str} (hl : N.bb c = some ('%' :: l)) :
    ∃ B lregs', BlkOf p fd N (c, js) B ∧ (c, js) ∈ fd.layout.bbs ∧ LEnters addr la.fn la.cur lregs l B.insts lregs' ∧ RegsRel fd N regs' lregs' := by
  obtain ⟨fd', bd, e1, e2, e3, e4, e5⟩ := he
  rw [h.func] at e1; cases e1
  have hdg : fd.dfg.values.get? v = some d := by
    obtain ⟨fd', h1, h2⟩ := hd
    rw [h.func] at h1; cases h1; exact h2
  obtain ⟨g1, g2, ⟨ts, ⟨bd', ⟨fd', k1, k2⟩, k3⟩, g3⟩, g4⟩ := phiArg_of hp hd hg
  rw [h.func] at k1; cases k1
  rw [e2] at k2; cases k2
  have hpar := hp.wf.parents _ fd h.func
  have hblk : (c, js) ∈ fd.layout.bbs := (lookup_eq_some_iff hpar.blocksOnce).1 e3
  obtain ⟨B, hB, hBO⟩ := all2_mem h.fn.blks hblk
  obtain ⟨hB1, ⟨bd', us, hB2, hus, hB3⟩, hB4⟩ := hBO
  rw [e2] at hB2; cases hB2
  have hlab : B.label = l := by
    rw [hl] at hB1
    exact (List.cons.inj (Option.some.inj hB1)).2.symm
  have hlen : args.length = bd.params.length := by rw [all2_len g3, ← all2_len k3]
  obtain ⟨t, ht⟩ := last_term hp h.func h.blk
  have hvt := ht v d hvis hdg (targets_term g1)
  have hzip : ∀ (i : Nat) q x, bd.params[i]? = some q → args[i]? = some x → (q, x) ∈ bd.params.zip args := by
    intro i q x h1 h2
    exact List.mem_iff_getElem?.2 ⟨i, by rw [List.getElem?_zip_eq_some]; exact ⟨h1, h2⟩⟩
  have hvb : fd.layout.parentBb v = some b := (hpar.parent v b).2 ⟨is, h.blk, hvis⟩
  classical
  let lregs' : Str → Option Val := fun n => if hn : ∃ q ∈ bd.params, N.ent (.value q) = some n then regs' hn.choose else lregs n
  have hin : ∀ q n, q ∈ bd.params → N.ent (.value q) = some n → lregs' n = regs' q := by
    intro q n hq hn
    have hex : ∃ q ∈ bd.params, N.ent (.value q) = some n := ⟨q, hq, hn⟩
    simp only [lregs', dif_pos hex]
    rw [Ent.value.inj (h.names.distinct.ents _ _ _ hex.choose_spec.2 hn)]
  refine ⟨B, lregs', ⟨hB1, ⟨bd, us, e2, hus, hB3⟩, hB4⟩, hblk, ⟨B, hB, hlab, rfl, ?_, ?_⟩, ?_⟩
  · intro φ hφ
    obtain ⟨i, q, i1, d', i2, i3, i4, i5⟩ := phis_get hB3 φ hφ
    rw [Nat.zero_add] at i5
    have hi : i < args.length := by rw [hlen]; exact (List.getElem?_eq_some_iff.1 i1).1
    obtain ⟨ar, har⟩ : ∃ ar, args[i]? = some ar := ⟨_, List.getElem?_eq_getElem hi⟩
    obtain ⟨-, x, x1, x2⟩ := e4 q ar (hzip i q ar i1 har)
    refine ⟨x, by rw [hin q _ (List.mem_iff_getElem?.2 ⟨i, i1⟩) i3, x2], ?_, ?_⟩
    · obtain ⟨o, o1, o2⟩ := all2_mem i5 (hus.mem_iff.2 ((hp.wf.blockUses _ c bd ⟨fd, h.func, e2⟩ v).2 ⟨d, hd, g1⟩))
      obtain ⟨d'', a'', c'', -, -, -, j4, j5⟩ := o2
      rw [hvb] at j4; cases j4
      rw [h.cur] at j5
      refine ⟨o.1, ?_⟩
      rw [(List.cons.inj (Option.some.inj j5)).2]
      exact o1
    · intro o ho
      obtain ⟨u, u1, u2⟩ := all2_mem' i5 ho
      obtain ⟨d'', a'', c'', j1, j2, j3, j4, j5⟩ := u2
      have hc : c'' = b := h.names.distinct.bbs _ _ _ j5 h.cur
      subst hc
      obtain ⟨is', l1, l2⟩ := (hpar.parent u c'').1 j4
      have := keys_eq hpar.blocksOnce l1 h.blk
      subst this
      have hut : u = t := by
        obtain ⟨y, ⟨fd', y1, y2⟩, y3⟩ := (hp.wf.blockUses _ c bd ⟨fd, h.func, e2⟩ u).1 (hus.mem_iff.1 u1)
        rw [h.func] at y1; cases y1
        exact ht u y l2 y2 (targets_term y3)
      rw [hut, ← hvt, hdg] at j1
      cases j1
      rw [g4 i, har] at j2
      cases j2
      have hxm : ar ∈ args := List.mem_iff_getElem?.2 ⟨i, har⟩
      obtain ⟨ty, t1, t2⟩ := all2_get g3 i ar har
      obtain ⟨ty', t3, t4⟩ := all2_get k3 i q i1
      rw [t1] at t3; cases t3
      have t5 := valueTy_of hp h.func t4
      have t6 : BackLlvm.valueTy p fd q = some φ.ty := by
        unfold BackLlvm.valueTy
        rw [if_neg (by rw [hp.localId _ q d' ⟨fd, h.func, i2⟩]; decide), i2, i4]; rfl
      rw [t5] at t6; cases t6
      exact opd_val h.func h.names hA hlr x1 j3 (fun e he => hp.nonUnit _ fd c'' is' v d ar e h.func h.blk hvis hdg (g2 ar hxm) he) (valueTy_of hp h.func t2)
  · intro n hn
    have : ¬ ∃ q ∈ bd.params, N.ent (.value q) = some n := by
      rintro ⟨q, q1, q2⟩
      obtain ⟨φ, f1, f2⟩ := phis_get' hB3 q q1
      rw [q2] at f2
      exact hn φ f1 (Option.some.inj f2)
    simp only [lregs', dif_neg this]
  · intro u e n u1 u2 u3
    by_cases hu : u ∈ bd.params
    · exact hin u n hu u3
    · have : ¬ ∃ q ∈ bd.params, N.ent (.value q) = some n := by
        rintro ⟨q, q1, q2⟩
        exact hu (Ent.value.inj (h.names.distinct.ents _ _ _ q2 u3) ▸ q1)
      simp only [lregs', dif_neg this]
      rw [hlr u e n u1 u2 u3, e5 u (fun ar har => hu (List.of_mem_zip har).1)]

end

end Koopa
