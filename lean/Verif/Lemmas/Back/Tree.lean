import Verif.Lemmas.Back.Show
import Verif.Lemmas.Back.Pieces
/-!
The syntax tree of a program under a naming, and that the generator writes its text.
-/
namespace Koopa
open Spec

/-- Names for everything a function mentions. -/
structure Nm where
  glob : Value → Str
  fn : Func → Str
  val : Value → Str
  bb : BB → Str

/-- The part of the text a piece stands for. -/
def tpOf (M : Nm) : Piece → TP
  | .lit s => .lit s
  | .func f _ => .fn (M.fn f)
  | .bb b _ => .bb (M.bb b)
  | .global v _ => .sym (M.glob v)
  | .value v _ => .sym (M.val v)
  | _ => .mark

def symOf (M : Nm) (v : Value) : Str := if isGlobal v then M.glob v else M.val v

mutual
/-- The written form of a type. -/
def astOf : Ty → TyAst
  | .i32 => .int
  | .unit => .int
  | .array t n => .array (astOf t) n
  | .ptr t => .pointer (astOf t)
  | .func ps r => .func (astOfs ps) (if r.isUnit then none else some (astOf r))
def astOfs : List Ty → List TyAst
  | [] => []
  | t :: ts => astOf t :: astOfs ts
end

theorem astOfs_eq : ∀ ts, astOfs ts = ts.map astOf
  | [] => rfl
  | t :: ts => by rw [astOfs, astOfs_eq ts]; rfl

theorem astOfs_is : ∀ {ts : List Ty}, (∀ t ∈ ts, TyIs (astOf t) t) → All2 TyIs (ts.map astOf) ts
  | [], _ => .nil
  | t :: ts, h => .cons (h t List.mem_cons_self) (astOfs_is (fun t ht => h t (List.mem_cons_of_mem _ ht)))

theorem astOf_is {t : Ty} (h : Expressible t) : TyIs (astOf t) t := by
  induction h with
  | i32 => exact .int
  | array _ h0 _ ih => exact .array ih (by omega)
  | ptr _ ih => exact .pointer ih
  | @proc ps _ ih =>
    rw [astOf, astOfs_eq]
    refine .func ?_ .none
    exact astOfs_is ih
  | @func ps r _ hr ih ihr =>
    rw [astOf, astOfs_eq, hr.not_unit]
    refine .func ?_ (.some ihr)
    exact astOfs_is ih

theorem astOf_lex {t : Ty} (h : Expressible t) : LexTy (astOf t) := ⟨t, genType_complete (astOf_is h), h⟩

theorem astOf_text {t : Ty} (h : Expressible t) : tyTP (astOf t) = .lit t.show := by
  unfold tyTP tyText
  rw [genType_complete (astOf_is h)]

/-- The written form of a return type. -/
def retAst (r : Ty) : Option TyAst := if r.isUnit then none else some (astOf r)

/-- The written form of a constant without elements. -/
def leafAst : VKind → ValAst
  | .integer n => .int n
  | .zeroInit => .zero
  | _ => .undef

/-- The written form of a constant. -/
def constAst (get : Value → Option VData) : Nat → VKind → ValAst
  | 0, k => leafAst k
  | n + 1, k => match k with
    | .aggregate es => .agg (es.map (fun e => match get e with
      | none => .undef
      | some d => constAst get n d.kind))
    | k => leafAst k

/-- The written form of an operand. -/
def valAst (fd : FData) (M : Nm) (v : Value) : ValAst :=
  if isGlobal v then .sym (M.glob v)
  else match fd.dfg.values.get? v with
    | none => .undef
    | some d => if d.kind.isConst then constAst fd.dfg.values.get? (fd.dfg.values.entries.length + 1) d.kind else .sym (M.val v)

/-- The written form of an instruction. -/
def kindAst (fd : FData) (M : Nm) (v : Value) (ty : Ty) : VKind → StmtAst
  | .alloc => match ty with
    | .ptr t => .def (M.val v) (.alloc (astOf t))
    | _ => .error
  | .load s => .def (M.val v) (.load (symOf M s))
  | .store x d => .store (valAst fd M x) (symOf M d)
  | .getPtr s i => .def (M.val v) (.getPtr (symOf M s) (valAst fd M i))
  | .getElemPtr s i => .def (M.val v) (.getElemPtr (symOf M s) (valAst fd M i))
  | .binary op a b => .def (M.val v) (.binary op (valAst fd M a) (valAst fd M b))
  | .branch c t f ta fa => .branch (valAst fd M c) (M.bb t) (ta.map (valAst fd M)) (M.bb f) (fa.map (valAst fd M))
  | .jump t as => .jump (M.bb t) (as.map (valAst fd M))
  | .call g as => if ty.isUnit then .call (M.fn g) (as.map (valAst fd M)) else .def (M.val v) (.call (M.fn g) (as.map (valAst fd M)))
  | .ret none => .ret none
  | .ret (some x) => .ret (some (valAst fd M x))
  | _ => .error

def stmtAst (fd : FData) (M : Nm) (v : Value) : StmtAst :=
  match fd.dfg.values.get? v with
  | none => .error
  | some d => kindAst fd M v d.ty d.kind

/-- The written form of a parameter. -/
def paramAst (fd : FData) (M : Nm) (v : Value) : Str × TyAst :=
  (M.val v, match fd.dfg.values.get? v with
    | none => .int
    | some d => astOf d.ty)

def blockAst (fd : FData) (M : Nm) (q : BB × List Value) : BlockAst :=
  ⟨M.bb q.1, (match fd.dfg.bbs.get? q.1 with
    | none => []
    | some x => x.params.map (paramAst fd M)), q.2.map (stmtAst fd M)⟩

/-- The written form of a function. -/
def funAst (M : Nm) (f : Func) (fd : FData) : GlobalAst :=
  match fd.ty with
  | .func ts r =>
    if fd.dfg.bbs.isEmpty then .funDecl (M.fn f) (ts.map astOf) (retAst r)
    else .funDef (M.fn f) (fd.params.map (paramAst fd M)) (retAst r) (fd.layout.bbs.map (blockAst fd M))
  | _ => .error

/-- The written form of a global variable. -/
def globalAst (p : Program) (M : Nm) (v : Value) : GlobalAst :=
  match p.values.get? v with
  | none => .error
  | some d => match d.kind with
    | .globalAlloc i => match p.values.get? i with
      | none => .error
      | some x => .globalDef (M.glob v) (astOf x.ty) (constAst p.values.get? (p.values.entries.length + 1) x.kind)
    | _ => .error

/-! ### The pieces of the generator -/

/-- The pieces stand for these parts. -/
def Writes (M : Nm) (o : Option (List Piece)) (l : List TP) : Prop := ∃ ps, o = some ps ∧ ps.map (tpOf M) = l

theorem allSome_writes {α : Type} {M : Nm} {f : α → Option (List Piece)} {g : α → List TP} : ∀ {as : List α}, (∀ a ∈ as, Writes M (f a) (g a)) →
    ∃ pss, allSome f as = some pss ∧ pss.map (List.map (tpOf M)) = as.map g
  | [], _ => ⟨[], rfl, rfl⟩
  | a :: as, h => by
    obtain ⟨ps, h1, h2⟩ := h a List.mem_cons_self
    obtain ⟨pss, h3, h4⟩ := allSome_writes (as := as) (fun a ha => h a (List.mem_cons_of_mem _ ha))
    exact ⟨ps :: pss, by simp [allSome, h1, h3], by simp [h2, h4]⟩

theorem sepPieces_cons (x y : List Piece) (l : List (List Piece)) : sepPieces (x :: y :: l) = x ++ txt ", " :: sepPieces (y :: l) := by
  rw [sepPieces]; simp

theorem sepTP_cons (x y : List TP) (l : List (List TP)) : sepTP (x :: y :: l) = x ++ tt ", " :: sepTP (y :: l) := by
  rw [sepTP]; simp

theorem sepPieces_map (M : Nm) : ∀ pss : List (List Piece), (sepPieces pss).map (tpOf M) = sepTP (pss.map (List.map (tpOf M)))
  | [] => rfl
  | [x] => rfl
  | x :: y :: l => by
    rw [sepPieces_cons, List.map_append, List.map_cons, sepPieces_map M (y :: l)]
    simp only [List.map_cons, sepTP_cons]
    rfl

@[simp] theorem tpOf_txt (M : Nm) (s : String) : tpOf M (txt s) = tt s := rfl
@[simp] theorem tpOf_lit (M : Nm) (s : Str) : tpOf M (.lit s) = .lit s := rfl
@[simp] theorem tpOf_func (M : Nm) (f : Func) (c : Str) : tpOf M (.func f c) = .fn (M.fn f) := rfl
@[simp] theorem tpOf_bb (M : Nm) (b : BB) (c : Option Str) : tpOf M (.bb b c) = .bb (M.bb b) := rfl
@[simp] theorem tpOf_value (M : Nm) (v : Value) (c : Option Str) : tpOf M (.value v c) = .sym (M.val v) := rfl
@[simp] theorem tpOf_global (M : Nm) (v : Value) (c : Option Str) : tpOf M (.global v c) = .sym (M.glob v) := rfl
@[simp] theorem tpOf_enter (M : Nm) : tpOf M .enter = .mark := rfl
@[simp] theorem tpOf_exit (M : Nm) : tpOf M .exit = .mark := rfl

/-! ### Constants -/

/-- The pieces of an element of an aggregate. -/
def elemPieces (get : Value → Option VData) (n : Nat) (e : Value) : Option (List Piece) := match get e with
  | none => none
  | some d => constPieces get n d.kind

/-- The pieces around the elements of an aggregate. -/
def aggPieces : Option (List (List Piece)) → Option (List Piece)
  | none => none
  | some ps => some (txt "{" :: (sepPieces ps ++ [txt "}"]))

theorem constPieces_agg (get : Value → Option VData) (n : Nat) (es : List Value) :
    constPieces get (n + 1) (.aggregate es) = aggPieces (allSome (elemPieces get n) es) := by
  rw [constPieces]
  show (match allSome (elemPieces get n) es with
      | none => none
      | some ps => some (txt "{" :: (sepPieces ps ++ [txt "}"]))) = _
  cases allSome (elemPieces get n) es <;> rfl

theorem constPieces_leaf (get : Value → Option VData) (n : Nat) {k : VKind} (h : ∀ es, k ≠ .aggregate es) : constPieces get n k = constLit k := by
  cases n with
  | zero => rw [constPieces]
  | succ n =>
    cases k with
    | aggregate es => exact absurd rfl (h es)
    | _ => rfl

theorem constPieces_zero_agg (get : Value → Option VData) (es : List Value) : constPieces get 0 (.aggregate es) = none := rfl

theorem isAgg (k : VKind) : (∃ es, k = .aggregate es) ∨ ∀ es, k ≠ .aggregate es := by
  cases k <;> first | exact .inl ⟨_, rfl⟩ | exact .inr (by simp)

/-- With enough fuel, constants are written. -/
theorem constPieces_enough {get : Value → Option VData} : ∀ {n m : Nat} {k : VKind} {ps : List Piece}, constPieces get n k = some ps → n ≤ m →
    constPieces get m k = some ps := by
  intro n
  induction n with
  | zero =>
    intro m k ps h _
    rcases isAgg k with ⟨es, rfl⟩ | hk
    · cases h
    · rw [constPieces_leaf _ _ hk] at h ⊢; exact h
  | succ n ih =>
    intro m k ps h hm
    rcases isAgg k with ⟨es, rfl⟩ | hk
    · cases m with
      | zero => omega
      | succ m =>
        rw [constPieces_agg] at h ⊢
        have key : ∀ (es : List Value) pss, allSome (elemPieces get n) es = some pss → allSome (elemPieces get m) es = some pss := by
          intro es
          induction es with
          | nil => intro pss h; exact h
          | cons e es ihe =>
            intro pss h
            rw [allSome] at h ⊢
            split at h
            · cases h
            · rename_i b hb
              obtain ⟨bs, hbs, rfl⟩ := Option.map_eq_some_iff.1 h
              have : elemPieces get m e = some b := by
                unfold elemPieces at hb ⊢
                split at hb
                · cases hb
                · exact ih hb (by omega)
              rw [this, ihe bs hbs]; rfl
        rcases hp : allSome (elemPieces get n) es with _ | pss
        · rw [hp] at h; cases h
        · rw [key es pss hp, ← hp]; exact h
    · rw [constPieces_leaf _ _ hk] at h ⊢; exact h

/-- The written form of an element of an aggregate. -/
def elemAst (get : Value → Option VData) (n : Nat) (e : Value) : ValAst := match get e with
  | none => .undef
  | some d => constAst get n d.kind

theorem constAst_leaf (get : Value → Option VData) (n : Nat) {k : VKind} (h : ∀ es, k ≠ .aggregate es) : constAst get n k = leafAst k := by
  cases n with
  | zero => rw [constAst]
  | succ n =>
    cases k with
    | aggregate es => exact absurd rfl (h es)
    | _ => rfl

theorem constAst_agg (get : Value → Option VData) (n : Nat) (es : List Value) : constAst get (n + 1) (.aggregate es) = .agg (es.map (elemAst get n)) := by
  rw [constAst]; rfl

theorem constPieces_ast (M : Nm) {get : Value → Option VData} : ∀ {n : Nat} {k : VKind} {ps : List Piece}, constPieces get n k = some ps →
    ps.map (tpOf M) = valTP (constAst get n k) := by
  have leaf : ∀ {n : Nat} {k : VKind} {ps : List Piece}, (∀ es, k ≠ .aggregate es) → constPieces get n k = some ps →
      ps.map (tpOf M) = valTP (constAst get n k) := by
    intro n k ps hk h
    rw [constPieces_leaf _ _ hk] at h
    rw [constAst_leaf _ _ hk]
    cases k with
    | integer => cases h; rfl
    | zeroInit => cases h; rfl
    | undef => cases h; rfl
    | _ => cases h
  intro n
  induction n with
  | zero =>
    intro k ps h
    rcases isAgg k with ⟨es, rfl⟩ | hk
    · cases h
    · exact leaf hk h
  | succ n ih =>
    intro k ps h
    rcases isAgg k with ⟨es, rfl⟩ | hk
    · rw [constPieces_agg] at h
      rcases hp : allSome (elemPieces get n) es with _ | pss
      · rw [hp] at h; cases h
      · rw [hp] at h
        cases h
        have key : ∀ (es : List Value) pss, allSome (elemPieces get n) es = some pss →
            pss.map (List.map (tpOf M)) = (es.map (elemAst get n)).map valTP := by
          intro es
          induction es with
          | nil => intro pss h; cases h; rfl
          | cons e es ihe =>
            intro pss h
            rw [allSome] at h
            split at h
            · cases h
            · rename_i b hb
              obtain ⟨bs, hbs, rfl⟩ := Option.map_eq_some_iff.1 h
              have : b.map (tpOf M) = valTP (elemAst get n e) := by
                unfold elemPieces at hb
                unfold elemAst
                split at hb
                · cases hb
                · exact ih hb
              rw [List.map_cons, List.map_cons, List.map_cons, this, ihe bs hbs]
        rw [constAst_agg, valTP, valTPs_eq, ← key es pss hp, ← sepPieces_map]
        simp
    · exact leaf hk h

theorem constPieces_agg_isSome {get : Value → Option VData} {n : Nat} {es : List Value} :
    (constPieces get (n + 1) (.aggregate es)).isSome = true ↔ ∀ e ∈ es, (elemPieces get n e).isSome = true := by
  have key : ∀ es : List Value, (allSome (elemPieces get n) es).isSome = true ↔ ∀ e ∈ es, (elemPieces get n e).isSome = true := by
    intro es
    induction es with
    | nil => simp [allSome]
    | cons e es ih =>
      simp only [allSome, List.mem_cons, forall_eq_or_imp]
      rcases hg : elemPieces get n e with _ | d
      · simp
      · simp [ih]
  rw [← key, constPieces_agg]
  cases allSome (elemPieces get n) es <;> simp [aggPieces]

theorem elemPieces_enough {get : Value → Option VData} {n m : Nat} {e : Value} (h : (elemPieces get n e).isSome = true) (hm : n ≤ m) :
    (elemPieces get m e).isSome = true := by
  unfold elemPieces at h ⊢
  split at h
  · cases h
  · obtain ⟨ps, hps⟩ := Option.isSome_iff_exists.1 h
    rw [constPieces_enough hps hm]; rfl

theorem Spec.Constant.some {get : Value → Option VData} {v : Value} (h : Constant get v) : ∃ n, (elemPieces get n v).isSome = true := by
  induction h with
  | int h hk => exact ⟨0, by rw [elemPieces, h]; simp only [hk]; rfl⟩
  | undef h hk => exact ⟨0, by rw [elemPieces, h]; simp only [hk]; rfl⟩
  | zero h hk => exact ⟨0, by rw [elemPieces, h]; simp only [hk]; rfl⟩
  | @agg v x es h hk _ ih =>
    have : ∃ n, ∀ e ∈ es, (elemPieces get n e).isSome = true := by
      clear hk h
      induction es with
      | nil => exact ⟨0, by simp⟩
      | cons e es ihe =>
        obtain ⟨n, h1⟩ := ihe (fun e he => by rename_i h; exact h e (List.mem_cons_of_mem _ he)) (fun e he => ih e (List.mem_cons_of_mem _ he))
        obtain ⟨m, h2⟩ := ih e List.mem_cons_self
        refine ⟨max n m, fun e' he' => ?_⟩
        rcases List.mem_cons.1 he' with rfl | he'
        · exact elemPieces_enough h2 (Nat.le_max_right _ _)
        · exact elemPieces_enough (h1 e' he') (Nat.le_max_left _ _)
    obtain ⟨n, hn⟩ := this
    refine ⟨n + 1, ?_⟩
    rw [elemPieces, h]
    simp only [hk]
    rw [constPieces_agg_isSome]; exact hn

/-- The value is written with `n` levels of recursion, but not with fewer. -/
def DepthIs (get : Value → Option VData) (v : Value) (n : Nat) : Prop :=
  (elemPieces get n v).isSome = true ∧ ∀ m, m < n → (elemPieces get m v).isSome = false

theorem depth_exists {get : Value → Option VData} {v : Value} : ∀ {n : Nat}, (elemPieces get n v).isSome = true → ∃ m, m ≤ n ∧ DepthIs get v m := by
  intro n
  induction n using Nat.strongRecOn with
  | _ n ih =>
    intro h
    by_cases hm : ∃ m, m < n ∧ (elemPieces get m v).isSome = true
    · obtain ⟨m, h1, h2⟩ := hm
      obtain ⟨k, h3, h4⟩ := ih m h1 h2
      exact ⟨k, by omega, h4⟩
    · refine ⟨n, Nat.le_refl _, h, fun m hmn => ?_⟩
      rcases hb : (elemPieces get m v).isSome with _ | _
      · rfl
      · exact absurd ⟨m, hmn, hb⟩ hm

/-- Below a value of depth `n` there are values of every smaller depth. -/
theorem depth_below {get : Value → Option VData} : ∀ {n : Nat} {v : Value}, DepthIs get v n → ∀ m, 0 < m → m ≤ n → ∃ u, DepthIs get u m := by
  intro n
  induction n with
  | zero => intro v h m hm _; omega
  | succ n ih =>
    intro v h m h0 hm
    by_cases he : m = n + 1
    · subst he; exact ⟨v, h⟩
    · have : ∃ u, DepthIs get u n := by
        obtain ⟨h1, h2⟩ := h
        have h3 := h2 n (by omega)
        unfold elemPieces at h1 h3
        rcases hg : get v with _ | d
        · rw [hg] at h1; cases h1
        · rw [hg] at h1 h3
          simp only at h1 h3
          rcases isAgg d.kind with ⟨es, hk⟩ | hk
          · rw [hk] at h1 h3
            rw [constPieces_agg_isSome] at h1
            cases n with
            | zero => omega
            | succ n =>
              have h4 : ¬ ∀ e ∈ es, (elemPieces get n e).isSome = true := by
                rw [← constPieces_agg_isSome, h3]; simp
              simp only [Classical.not_forall] at h4
              obtain ⟨e, he, h5⟩ := h4
              refine ⟨e, h1 e he, fun m hm => ?_⟩
              rcases hb : (elemPieces get m e).isSome with _ | _
              · rfl
              · exact absurd (elemPieces_enough hb (by omega)) h5
          · rw [constPieces_leaf _ _ hk] at h1 h3
            rw [h1] at h3; cases h3
      obtain ⟨u, hu⟩ := this
      exact ih hu m h0 (by omega)

theorem depth_unique {get : Value → Option VData} {v : Value} {n m : Nat} (h : DepthIs get v n) (h' : DepthIs get v m) : n = m := by
  rcases Nat.lt_trichotomy n m with hl | he | hl
  · have := h'.2 n hl; rw [h.1] at this; cases this
  · exact he
  · have := h.2 m hl; rw [h'.1] at this; cases this

theorem Map.mem_keys_of_get? {κ ν : Type} [DecidableEq κ] {mp : Map κ ν} {k : κ} {n : ν} (h : mp.get? k = some n) : k ∈ mp.entries.map (·.1) := by
  unfold Map.get? at h
  generalize mp.entries = l at h ⊢
  induction l with
  | nil => cases h
  | cons q l ih =>
    obtain ⟨a, b⟩ := q
    rw [Map.lookup] at h
    split at h
    · rename_i e; subst e; simp
    · exact List.mem_cons_of_mem _ (ih h)

theorem nodup_length {l l' : List Nat} (hn : l.Nodup) (hs : ∀ x ∈ l, x ∈ l') : l.length ≤ l'.length := by
  induction l generalizing l' with
  | nil => simp
  | cons a l ih =>
    rw [List.nodup_cons] at hn
    have ha := hs a List.mem_cons_self
    have := ih (l' := l'.erase a) hn.2 (fun x hx => by
      have hne : x ≠ a := by rintro rfl; exact hn.1 hx
      exact (List.mem_erase_of_ne hne).2 (hs x (List.mem_cons_of_mem _ hx)))
    rw [List.length_erase_of_mem ha] at this
    have := List.length_pos_of_mem ha
    simp only [List.length_cons]
    omega

/-- A constant is written with as many levels of recursion as there are values. -/
theorem Spec.Constant.fuel {mp : Map Value VData} {v : Value} (h : Constant mp.get? v) :
    (elemPieces mp.get? (mp.entries.length + 1) v).isSome = true := by
  obtain ⟨n, hn⟩ := h.some
  obtain ⟨m, -, hm⟩ := depth_exists hn
  have hb := depth_below hm
  have hle : m ≤ mp.entries.length := by
    have hex : ∀ k : Nat, ∃ u, 0 < k → k ≤ m → DepthIs mp.get? u k := by
      intro k
      by_cases hk : 0 < k ∧ k ≤ m
      · obtain ⟨u, hu⟩ := hb k hk.1 hk.2
        exact ⟨u, fun _ _ => hu⟩
      · exact ⟨0, fun h1 h2 => absurd ⟨h1, h2⟩ hk⟩
    obtain ⟨g, hg⟩ := Classical.axiomOfChoice hex
    have h1 : ((List.range m).map (fun k => g (k + 1))).Nodup := by
      rw [List.Nodup, List.pairwise_map]
      refine List.Pairwise.imp_of_mem ?_ List.nodup_range
      intro a b ha hb hne he
      rw [List.mem_range] at ha hb
      have h1 := hg (a + 1) (by omega) (by omega)
      have h2 := hg (b + 1) (by omega) (by omega)
      rw [he] at h1
      have := depth_unique h1 h2
      omega
    have h2 := nodup_length (l' := mp.entries.map (·.1)) h1 (fun x hx => by
      obtain ⟨k, hk, rfl⟩ := List.mem_map.1 hx
      rw [List.mem_range] at hk
      have h3 := (hg (k + 1) (by omega) (by omega)).1
      unfold elemPieces at h3
      split at h3
      · cases h3
      · rename_i d hd
        exact Map.mem_keys_of_get? hd)
    simpa using h2
  exact elemPieces_enough hm.1 (by omega)

end Koopa
