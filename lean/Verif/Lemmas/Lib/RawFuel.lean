import Verif.Lemmas.Lib.RawRound
/-!
The numbers that bound the recursion do not matter: more of it changes nothing, and whether a panic comes from
the bound can be told.
-/
namespace Koopa.Raw
open Spec

/-- What `m` gives, `m'` gives. -/
def GLe {α : Type} (m m' : Gen α) : Prop := ∀ s r, m s = some r → m' s = some r

theorem GLe.refl {α : Type} (m : Gen α) : GLe m m := fun _ _ h => h

theorem GLe.bind {α β : Type} {m m' : Gen α} {k k' : α → Gen β} (h : GLe m m') (hk : ∀ a, GLe (k a) (k' a)) :
    GLe (m >>= k) (m' >>= k') := by
  intro s r hr
  change Gen.bind m k s = some r at hr
  change Gen.bind m' k' s = some r
  unfold Gen.bind at hr ⊢
  rcases hm : m s with _ | x
  · rw [hm] at hr; cases hr
  · rw [hm] at hr
    rw [h s x hm]
    rcases x with e | ⟨a, s1⟩
    · exact hr
    · exact hk a s1 r hr

theorem GLe.each {α β : Type} {f f' : α → Gen β} (h : ∀ a, GLe (f a) (f' a)) : ∀ l, GLe (Gen.each f l) (Gen.each f' l)
  | [] => .refl _
  | a :: l => (h a).bind fun _ => (GLe.each h l).bind fun _ => .refl _

/-- Unless `m` gives an error code, it does what `m'` does, panics included. -/
def Like {α : Type} (m m' : Gen α) : Prop := ∀ s, (∃ e, m s = some (.error e)) ∨ m' s = m s

theorem Like.refl {α : Type} (m : Gen α) : Like m m := fun _ => .inr rfl

theorem Like.bind {α β : Type} {m m' : Gen α} {k k' : α → Gen β} (h : Like m m') (hk : ∀ a, Like (k a) (k' a)) :
    Like (m >>= k) (m' >>= k') := by
  intro s
  change (∃ e, Gen.bind m k s = _) ∨ Gen.bind m' k' s = Gen.bind m k s
  unfold Gen.bind
  rcases h s with ⟨e, he⟩ | he
  · rw [he]; exact .inl ⟨e, rfl⟩
  · rw [he]
    rcases m s with _ | e | ⟨a, s1⟩
    · exact .inr rfl
    · exact .inl ⟨e, rfl⟩
    · exact hk a s1

theorem Like.each {α β : Type} {f f' : α → Gen β} (h : ∀ a, Like (f a) (f' a)) : ∀ l, Like (Gen.each f l) (Gen.each f' l)
  | [] => .refl _
  | a :: l => (h a).bind fun _ => (Like.each h l).bind fun _ => .refl _

variable {one one' : Item → Gen Nat}

theorem genKind_le (h : ∀ i, GLe (one i) (one' i)) (r : RVal) : GLe (genKind one r) (genKind one' r) := by
  unfold genKind
  cases r.kind with
  | ret v => cases v <;> (repeat' first | exact .refl _ | exact h _ | refine GLe.bind ?_ ?_ | intro _)
  | _ => repeat' first | exact .refl _ | exact h _ | exact GLe.each (fun _ => h _) _ | refine GLe.bind ?_ ?_ | intro _

theorem genKind_like (h : ∀ i, Like (one i) (one' i)) (r : RVal) : Like (genKind one r) (genKind one' r) := by
  unfold genKind
  cases r.kind with
  | ret v => cases v <;> (repeat' first | exact .refl _ | exact h _ | refine Like.bind ?_ ?_ | intro _)
  | _ => repeat' first | exact .refl _ | exact h _ | exact Like.each (fun _ => h _) _ | refine Like.bind ?_ ?_ | intro _

theorem genInsts_le (h : ∀ i, GLe (one i) (one' i)) (b : BB) : ∀ is, GLe (genInsts one b is) (genInsts one' b is)
  | [] => .refl _
  | v :: is => (h _).bind fun _ => (GLe.refl _).bind fun _ => (GLe.refl _).bind fun _ => genInsts_le h b is

theorem genInsts_like (h : ∀ i, Like (one i) (one' i)) (b : BB) : ∀ is, Like (genInsts one b is) (genInsts one' b is)
  | [] => .refl _
  | v :: is => (h _).bind fun _ => (Like.refl _).bind fun _ => (Like.refl _).bind fun _ => genInsts_like h b is

theorem genBlock_le (h : ∀ i, GLe (one i) (one' i)) (m : Builder) (b : BB) : GLe (genBlock m one b) (genBlock m one' b) :=
  (GLe.refl _).bind fun _ => (GLe.refl _).bind fun _ => (GLe.refl _).bind fun _ => (GLe.refl _).bind fun ⟨_, _⟩ =>
    (GLe.refl _).bind fun _ => (GLe.refl _).bind fun _ => (GLe.refl _).bind fun _ => (GLe.refl _).bind fun _ =>
      (GLe.refl _).bind fun _ => (GLe.refl _).bind fun _ => (genInsts_le h _ _).bind fun _ => GLe.refl _

theorem genBlock_like (h : ∀ i, Like (one i) (one' i)) (m : Builder) (b : BB) : Like (genBlock m one b) (genBlock m one' b) :=
  (Like.refl _).bind fun _ => (Like.refl _).bind fun _ => (Like.refl _).bind fun _ => (Like.refl _).bind fun ⟨_, _⟩ =>
    (Like.refl _).bind fun _ => (Like.refl _).bind fun _ => (Like.refl _).bind fun _ => (Like.refl _).bind fun _ =>
      (Like.refl _).bind fun _ => (Like.refl _).bind fun _ => (genInsts_like h _ _).bind fun _ => Like.refl _

theorem genFunc_le (h : ∀ i, GLe (one i) (one' i)) (m : Builder) (f : Func) : GLe (genFunc m one f) (genFunc m one' f) := by
  refine (GLe.refl _).bind fun r => ?_
  rcases r.name with _ | name
  · exact GLe.refl _
  · cases r.ty with
    | func tys ret =>
      refine (GLe.refl _).bind fun _ => (GLe.refl _).bind fun _ => (GLe.refl _).bind fun _ => (GLe.refl _).bind fun _ =>
        (GLe.refl _).bind fun _ => ?_
      by_cases hb : r.bbs.len = 0
      · simp only [if_pos hb]; exact GLe.refl _
      · simp only [if_neg hb]
        exact (GLe.refl _).bind fun _ => (GLe.refl _).bind fun _ => (GLe.refl _).bind fun _ =>
          (GLe.each (fun _ => h _) _).bind fun _ => GLe.refl _
    | _ => exact GLe.refl _

theorem genFunc_like (h : ∀ i, Like (one i) (one' i)) (m : Builder) (f : Func) : Like (genFunc m one f) (genFunc m one' f) := by
  refine (Like.refl _).bind fun r => ?_
  rcases r.name with _ | name
  · exact Like.refl _
  · cases r.ty with
    | func tys ret =>
      refine (Like.refl _).bind fun _ => (Like.refl _).bind fun _ => (Like.refl _).bind fun _ => (Like.refl _).bind fun _ =>
        (Like.refl _).bind fun _ => ?_
      by_cases hb : r.bbs.len = 0
      · simp only [if_pos hb]; exact Like.refl _
      · simp only [if_neg hb]
        exact (Like.refl _).bind fun _ => (Like.refl _).bind fun _ => (Like.refl _).bind fun _ =>
          (Like.each (fun _ => h _) _).bind fun _ => Like.refl _
    | _ => exact Like.refl _

/-- One level of the recursion. -/
def genStep (m : Builder) (one : Item → Gen Nat) : Item → Gen Nat
  | .val v => do
    match ← findVal v with
    | some w => pure w
    | none => do
      let r ← deref m.vals v
      let w ← genKind one r
      keepVal v r.name w
      pure w
  | .bb b => do
    let (_, info) ← curInfo
    match info.bbs.get? b with
    | some w => pure w
    | none => genBlock m one b
  | .func f => do
    let s ← Gen.get
    match s.funcs.get? f with
    | some info => pure info.func
    | none => genFunc m one f

theorem gen_succ (m : Builder) (n : Nat) (i : Item) : gen m (n + 1) i = genStep m (gen m n) i := by cases i <;> rfl

theorem genStep_le (h : ∀ i, GLe (one i) (one' i)) (m : Builder) (i : Item) : GLe (genStep m one i) (genStep m one' i) := by
  cases i with
  | val v =>
    refine (GLe.refl _).bind fun o => ?_
    cases o with
    | some w => exact .refl _
    | none => exact (GLe.refl _).bind fun r => (genKind_le h r).bind fun _ => .refl _
  | bb b =>
    refine (GLe.refl _).bind fun o => ?_
    obtain ⟨_, info⟩ := o
    simp only
    split
    · exact .refl _
    · exact genBlock_le h m b
  | func f =>
    refine (GLe.refl _).bind fun s => ?_
    split
    · exact .refl _
    · exact genFunc_le h m f

theorem genStep_like (h : ∀ i, Like (one i) (one' i)) (m : Builder) (i : Item) : Like (genStep m one i) (genStep m one' i) := by
  cases i with
  | val v =>
    refine (Like.refl _).bind fun o => ?_
    cases o with
    | some w => exact .refl _
    | none => exact (Like.refl _).bind fun r => (genKind_like h r).bind fun _ => .refl _
  | bb b =>
    refine (Like.refl _).bind fun o => ?_
    obtain ⟨_, info⟩ := o
    simp only
    split
    · exact .refl _
    · exact genBlock_like h m b
  | func f =>
    refine (Like.refl _).bind fun s => ?_
    split
    · exact .refl _
    · exact genFunc_like h m f

/-- More depth changes nothing. -/
theorem gen_le (m : Builder) : ∀ {n n' : Nat}, n ≤ n' → ∀ i, GLe (gen m n i) (gen m n' i)
  | 0, _, _, i => by intro s r h; cases i <;> simp [gen, Gen.panic] at h
  | n + 1, 0, h, _ => by omega
  | n + 1, n' + 1, h, i => by
    rw [gen_succ, gen_succ]
    exact genStep_le (gen_le m (by omega)) m i

/-- The recursion with an error code where the bound is reached. -/
def genLim (m : Builder) : Nat → Item → Gen Nat
  | 0, _ => Gen.fail .nullPointerError
  | n + 1, i => genStep m (genLim m n) i

theorem genLim_like (m : Builder) : ∀ {n n' : Nat}, n ≤ n' → ∀ i, Like (genLim m n i) (gen m n' i)
  | 0, _, _, _ => fun _ => .inl ⟨_, rfl⟩
  | n + 1, 0, h, _ => by omega
  | n + 1, n' + 1, h, i => by
    rw [gen_succ]
    exact genStep_like (genLim_like m (by omega)) m i

theorem generateProgram_more {ids : Ids} {m : Builder} {n n' : Nat} {r : RawProgram} {x : Except Lib.Code Program} (hn : n ≤ n')
    (h : generateProgram ids m n r = some x) : generateProgram ids m n' r = some x := by
  have key : GLe (genProgram m n r) (genProgram m n' r) := by
    unfold genProgram
    repeat' first | exact .refl _ | exact GLe.each (fun _ => gen_le m hn _) _ | refine GLe.bind ?_ ?_ | intro _
  unfold generateProgram at h ⊢
  rcases hg : genProgram m n r { prog := .new ids, values := .empty, funcs := .empty, cur := none } with _ | y
  · rw [hg] at h; cases h
  · rw [hg] at h; rw [key _ _ hg]; exact h

/-- As `genProgram`, with `genLim`. -/
def genProgramLim (m : Builder) (n : Nat) (r : RawProgram) : Gen Unit := do
  let vs ← r.values.read .value
  let _ ← Gen.each (fun v => genLim m n (.val v)) vs
  let fs ← r.funcs.read .function
  let _ ← Gen.each (fun f => genLim m n (.func f)) fs
  pure ()

/-- A panic that does not come from the bound is a panic for every bound. -/
theorem generateProgram_panics {ids : Ids} {m : Builder} {n : Nat} {r : RawProgram}
    (h : genProgramLim m n r { prog := .new ids, values := .empty, funcs := .empty, cur := none } = none) (k : Nat) :
    generateProgram ids m k r = none := by
  have key : ∀ k, n ≤ k → generateProgram ids m k r = none := by
    intro k hk
    have key : Like (genProgramLim m n r) (genProgram m k r) := by
      unfold genProgramLim genProgram
      repeat' first | exact .refl _ | exact Like.each (fun _ => genLim_like m hk _) _ | refine Like.bind ?_ ?_ | intro _
    unfold generateProgram
    rcases key { prog := .new ids, values := .empty, funcs := .empty, cur := none } with ⟨e, he⟩ | he
    · rw [h] at he; cases he
    · rw [he, h]
  rcases hg : generateProgram ids m k r with _ | x
  · rfl
  · have h1 := generateProgram_more (Nat.le_max_left k n) hg
    rw [key _ (Nat.le_max_right k n)] at h1
    cases h1

/-! ### The builder -/

theorem buildAll_more {f g : Item → BSt → Option BSt} (h : ∀ i s s', f i s = some s' → g i s = some s') :
    ∀ {is : List Item} {s s' : BSt}, buildAll f is s = some s' → buildAll g is s = some s'
  | [], _, _, hs => hs
  | i :: is, s, s', hs => by
    rw [buildAll] at hs ⊢
    rcases hf : f i s with _ | s1
    · rw [hf] at hs; cases hs
    · rw [hf] at hs; rw [h _ _ _ hf]; exact buildAll_more h hs

theorem build_more (p : Program) : ∀ {n n' : Nat}, n ≤ n' → ∀ cur i s s', build p n cur i s = some s' → build p n' cur i s = some s'
  | 0, _, _, _, _, _, _, h => by simp [build] at h
  | n + 1, 0, hn, _, _, _, _, _ => by omega
  | n + 1, n' + 1, hn, cur, i, s, s', h => by
    have ih := fun cur => @buildAll_more (build p n cur) (build p n' cur) (build_more p (by omega) cur)
    cases i with
    | val v =>
      rw [build] at h ⊢
      split at h
      · rename_i hc; rw [if_pos hc]; exact h
      · rename_i hc; rw [if_neg hc]
        simp only at h ⊢
        split at h
        · cases h
        · rename_i x hx
          try rw [hx]
          try simp only
          split at h
          · cases h
          · rename_i name hname
            try rw [hname]
            try simp only
            split at h
            · cases h
            · rename_i s1 hs1
              rw [ih cur hs1]; exact h
    | bb b =>
      rw [build] at h ⊢
      split at h
      · rename_i hc; rw [if_pos hc]; exact h
      · rename_i hc; rw [if_neg hc]
        simp only at h ⊢
        cases cur with
        | none => cases h
        | some fd =>
          simp only at h ⊢
          split at h
          · cases h
          · rename_i x hx
            try rw [hx]
            try simp only
            split at h
            · cases h
            · rename_i name hname
              try rw [hname]
              try simp only
              split at h
              · cases h
              · rename_i s1 hs1
                rw [ih (some fd) hs1]; simp only
                split at h
                · cases h
                · rename_i is his
                  try rw [his]
                  try simp only
                  split at h
                  · cases h
                  · rename_i s2 hs2
                    rw [ih (some fd) hs2]; exact h
    | func f =>
      rw [build] at h ⊢
      split at h
      · rename_i hc; rw [if_pos hc]; exact h
      · rename_i hc; rw [if_neg hc]
        simp only at h ⊢
        split at h
        · cases h
        · rename_i fd hf
          try rw [hf]
          try simp only
          split at h
          · cases h
          · rename_i name hname
            try rw [hname]
            try simp only
            split at h
            · cases h
            · rename_i s1 hs1
              rw [ih (some fd) hs1]; exact h

theorem buildRaw_more {n n' : Nat} {b : Builder} {p : Program} {x : Builder × RawProgram} (hn : n ≤ n') (h : buildRaw n b p = some x) :
    buildRaw n' b p = some x := by
  unfold buildRaw at h ⊢
  split at h
  · cases h
  · rename_i s hs
    rw [buildAll_more (build_more p hn none) hs]
    exact h

end Koopa.Raw
