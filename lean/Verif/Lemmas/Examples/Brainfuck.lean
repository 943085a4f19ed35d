import Verif.Model.Examples.Brainfuck
import Verif.Lemmas.Front.BuildTotal
import Verif.Lemmas.Front.ElabDriver
/-!
The Brainfuck compiler: an invariant of the program under construction.
-/
namespace Koopa.Bf
open Koopa Koopa.Spec

/-- The instruction ends a block. -/
def isTerm : VKind → Bool
  | .branch .. | .jump .. | .ret _ => true
  | _ => false

/-- Kind of a local value of `f`. -/
def kindAt (V : View) (f : Func) (v : Value) : Option VKind := (V.l f v).map (·.2.2)

/-- No instruction of the list ends a block. -/
def Running (V : View) (f : Func) (is : List Value) : Prop :=
  ∀ v ∈ is, ∃ k, kindAt V f v = some k ∧ isTerm k = false

/-- The last instruction of the list, and only this one, ends a block. -/
def Ended (V : View) (f : Func) (is : List Value) : Prop :=
  ∃ js v k, is = js ++ [v] ∧ Running V f js ∧ kindAt V f v = some k ∧ isTerm k = true

/-- Some listed instruction goes to `b`. -/
def Targeted (V : View) (f : Func) (l : Layout) (b : BB) : Prop :=
  ∃ c is v k, (c, is) ∈ l.bbs ∧ v ∈ is ∧ kindAt V f v = some k ∧ b ∈ targets k

/-- The main function under construction: `O` are the blocks that still lack their last instruction,
`P` the blocks that are not laid out yet, `T` the blocks that are jumped to. -/
structure Inv (f pu ge : Func) (p : Program) (l : Layout) (O P T : BB → Prop) : Prop where
  fi : FInv p
  main : (p.view.head f).isSome
  put : (p.view.head pu).map (·.1) = some (.func [.i32] .i32)
  get : (p.view.head ge).map (·.1) = some (.func [] .i32)
  lay : p.view.lay f = some l
  others : ∀ g l', g ≠ f → p.view.lay g = some l' → l'.bbs = []
  laid : ∀ b ∈ l.bbs.map (·.1), ∃ n, p.view.b f b = some (n, [])
  pend : ∀ b, P b → b ∉ l.bbs.map (·.1) ∧ ∃ n, p.view.b f b = some (n, [])
  opened : ∀ b, O b → b ∈ l.bbs.map (·.1)
  running : ∀ b is, (b, is) ∈ l.bbs → O b → Running p.view f is
  ended : ∀ b is, (b, is) ∈ l.bbs → ¬ O b → Ended p.view f is
  tgts : ∀ v k, kindAt p.view f v = some k → ∀ b ∈ targets k, b ∈ l.bbs.map (·.1) ∨ P b
  tgt : ∀ b, T b → Targeted p.view f l b

variable {f pu ge : Func} {p : Program} {l : Layout} {O P T : BB → Prop}

theorem Running.mono {V V' : View} {is : List Value} (h : Running V f is)
    (hv : ∀ v s, V.l f v = some s → V'.l f v = some s) : Running V' f is := by
  intro v hm
  obtain ⟨k, h1, h2⟩ := h v hm
  refine ⟨k, ?_, h2⟩
  unfold kindAt at h1 ⊢
  obtain ⟨s, hs, rfl⟩ := Option.map_eq_some_iff.1 h1
  rw [hv v s hs]; rfl

theorem kindAt_mono {V V' : View} {v : Value} {k : VKind} (h : kindAt V f v = some k)
    (hv : ∀ v s, V.l f v = some s → V'.l f v = some s) : kindAt V' f v = some k := by
  unfold kindAt at h ⊢
  obtain ⟨s, hs, rfl⟩ := Option.map_eq_some_iff.1 h
  rw [hv v s hs]; rfl

theorem Ended.mono {V V' : View} {is : List Value} (h : Ended V f is)
    (hv : ∀ v s, V.l f v = some s → V'.l f v = some s) : Ended V' f is := by
  obtain ⟨js, v, k, h1, h2, h3, h4⟩ := h
  exact ⟨js, v, k, h1, h2.mono hv, kindAt_mono h3 hv, h4⟩

theorem Inv.weaken {O' P' T' : BB → Prop} (h : Inv f pu ge p l O P T)
    (hO : ∀ b, O b ↔ O' b) (hP : ∀ b, P b ↔ P' b) (hT : ∀ b, T' b → T b) :
    Inv f pu ge p l O' P' T' := by
  obtain rfl : O = O' := funext fun b => propext (hO b)
  obtain rfl : P = P' := funext fun b => propext (hP b)
  exact { h with tgt := fun b hb => h.tgt b (hT b hb) }

/-- A type as the builder sees it. -/
def HasT (p : Program) (f : Func) (v : Value) (t : Ty) : Prop := (viewQuerier p.view f).valueType v = some t

theorem HasT.ext {p p' : Program} (h : Ext p p') (hi' : FInv p') {v : Value} {t : Ty} (hv : HasT p f v t) :
    HasT p' f v t := by
  unfold HasT viewQuerier at hv ⊢
  simp only [Option.map_eq_some_iff] at hv ⊢
  obtain ⟨s, hs, rfl⟩ := hv
  exact ⟨s, h.val hi' hs, rfl⟩

theorem head_map_ext {p p' : Program} (h : Ext p p') {g : Func} {t : Ty}
    (hg : (p.view.head g).map (·.1) = some t) : (p'.view.head g).map (·.1) = some t := by
  obtain ⟨s, hs, rfl⟩ := Option.map_eq_some_iff.1 hg
  rw [h.head g s hs]; rfl

theorem others_set {L : Func → Option Layout} {l : Layout} (h : ∀ g l', g ≠ f → L g = some l' → l'.bbs = []) :
    ∀ g l', g ≠ f → (if g = f then some l else L g) = some l' → l'.bbs = [] := by
  intro g l' hg h'
  rw [if_neg hg] at h'
  exact h g l' hg h'

theorem lookup_set {b c : BB} {is : List Value} : ∀ {l : List (BB × List Value)}, b ∈ l.map (·.1) →
    Map.lookup (setInsts b is l) c = if c = b then some is else Map.lookup l c
  | [], h => by cases h
  | (b', is') :: l, h => by
    unfold setInsts
    by_cases e : b' = b
    · subst e
      simp only [if_true, Map.lookup]
      by_cases e' : c = b'
      · subst e'; simp
      · simp [e', Ne.symm e']
    · have hm : b ∈ l.map (·.1) := by
        rcases List.mem_cons.1 h with h | h
        · exact absurd h.symm e
        · exact h
      simp only [if_neg e, Map.lookup, lookup_set hm]
      by_cases e' : b' = c
      · subst e'; simp [e]
      · simp [e']

theorem lookup_snoc {b c : BB} {is : List Value} : ∀ {l : List (BB × List Value)},
    Map.lookup (l ++ [(b, is)]) c = (Map.lookup l c).or (if c = b then some is else none)
  | [] => by
    by_cases e : c = b
    · subst e; simp [Map.lookup]
    · simp [Map.lookup, e, Ne.symm e]
  | (b', is') :: l => by
    simp only [List.cons_append, Map.lookup]
    split
    · simp
    · exact lookup_snoc

/-- The instructions of a block of `f`. -/
def code (f : Func) (p : Program) (b : BB) : Option (List Value) := (p.view.lay f).bind (·.insts? b)

/-- The blocks of `f`, in order. -/
def keys (f : Func) (p : Program) : Option (List BB) := (p.view.lay f).map (·.bbs.map (·.1))

/-- Type and kind of a local value of `f`. -/
def Has (p : Program) (f : Func) (v : Value) (t : Ty) (k : VKind) : Prop := ∃ n, p.view.l f v = some (t, n, k)

theorem Has.ext {p p' : Program} {v : Value} {t : Ty} {k : VKind} (h : Has p f v t k) (x : Ext p p') : Has p' f v t k :=
  h.imp fun _ hn => x.l _ _ _ hn

/-- From `p` to `p'` the instructions `vs` are appended to the block `bb` of `f`. -/
structure Writes (f : Func) (p p' : Program) (bb : BB) (vs : List Value) : Prop where
  ext : Ext p p'
  g : p'.view.g = p.view.g
  insts : p'.view.insts = p.view.insts
  head : p'.view.head = p.view.head
  keys : keys f p' = keys f p
  code : ∀ b, code f p' b = if b = bb then (code f p b).map (· ++ vs) else code f p b

theorem Writes.none {p' : Program} (bb : BB) (hx : Ext p p') (hg : p'.view.g = p.view.g)
    (hi : p'.view.insts = p.view.insts) (hh : p'.view.head = p.view.head) (hl : p'.view.lay = p.view.lay) :
    Writes f p p' bb [] :=
  ⟨hx, hg, hi, hh, by unfold Bf.keys; rw [hl], fun b => by unfold Bf.code; rw [hl]; split <;> simp⟩

theorem Writes.trans {p1 p2 : Program} {bb : BB} {vs ws : List Value} (h : Writes f p p1 bb vs) (h' : Writes f p1 p2 bb ws) :
    Writes f p p2 bb (vs ++ ws) := by
  refine ⟨h.ext.trans h'.ext, h'.g.trans h.g, h'.insts.trans h.insts, h'.head.trans h.head, h'.keys.trans h.keys, fun b => ?_⟩
  rw [h'.code, h.code]
  split <;> simp [Option.map_map, Function.comp_def]

/-- From `p` to `p'` the block `b` of `f` is laid out. -/
structure Lays (f : Func) (p p' : Program) (b : BB) : Prop where
  ext : Ext p p'
  g : p'.view.g = p.view.g
  insts : p'.view.insts = p.view.insts
  head : p'.view.head = p.view.head
  keys : keys f p' = (keys f p).map (· ++ [b])
  code : ∀ c, code f p' c = if c = b then some [] else code f p c

theorem Writes.lays {p1 p2 : Program} {b bb : BB} (h : Writes f p p1 bb []) (h' : Lays f p1 p2 b) : Lays f p p2 b := by
  refine ⟨h.ext.trans h'.ext, h'.g.trans h.g, h'.insts.trans h.insts, h'.head.trans h.head, ?_, fun c => ?_⟩
  · rw [h'.keys, h.keys]
  · rw [h'.code, h.code]
    split
    · rfl
    · split <;> simp

/-- A value that is not listed. -/
theorem Inv.value (h : Inv f pu ge p l O P T) {i : LocalInst} {data : VData} (hr : i.notRaw)
    (hb : i.build (viewQuerier p.view f) = some data) (ht : ∀ b ∈ targets data.kind, b ∈ l.bbs.map (·.1) ∨ P b) :
    ∃ p', p.newLocal f i = some (p', p.ids.nextLocal) ∧ Ext p p' ∧ Inv f pu ge p' l O P T ∧
      p'.view.l f p.ids.nextLocal = some data.shape ∧
      (∀ b is, (b, is) ∈ l.bbs → p.ids.nextLocal ∉ is) ∧ ∀ bb, Writes f p p' bb [] := by
  obtain ⟨p', h1, h2, h3, h4⟩ := newLocal_run h.fi h.main hr hb
  have hl : ∀ v s, p.view.l f v = some s → p'.view.l f v = some s := fun v s hs => h3.l f v s hs
  refine ⟨p', h1, h3.ext, ?_, by rw [h4]; simp, ?_, fun bb => .none bb h3.ext (by rw [h4]) (by rw [h4]) (by rw [h4]) (by rw [h4])⟩
  · refine ⟨h2, by rw [h3.head]; exact h.main, head_map_ext h3.ext h.put, head_map_ext h3.ext h.get,
      by rw [h3.lay]; exact h.lay, by rw [h3.lay]; exact h.others, by rw [h3.b]; exact h.laid, by rw [h3.b]; exact h.pend, h.opened,
      fun b is hm ho => (h.running b is hm ho).mono hl, fun b is hm ho => (h.ended b is hm ho).mono hl, ?_, ?_⟩
    · intro v k hk b hbk
      unfold kindAt at hk
      rw [h4] at hk
      simp only [true_and] at hk
      split at hk
      · cases hk; exact ht b hbk
      · exact h.tgts v k hk b hbk
    · intro b hT
      obtain ⟨c, is, v, k, h5, h6, h7, h8⟩ := h.tgt b hT
      exact ⟨c, is, v, k, h5, h6, kindAt_mono h7 hl, h8⟩
  · intro b is hm hv
    have := (h.fi.lays f l h.lay).2 b is hm
    obtain ⟨s, hs⟩ := Option.isSome_iff_exists.1 (this.2 _ hv)
    have := (h.fi.lRange hs).2
    omega

/-- Appending an instruction that does not end the block. -/
theorem Inv.push (h : Inv f pu ge p l O P T) {bb : BB} (ho : O bb) {v : Value} {k : VKind}
    (hv : kindAt p.view f v = some k) (hn : ∀ b is, (b, is) ∈ l.bbs → v ∉ is) :
    ∃ p' l', p.pushInst f bb v = some p' ∧ Ext p p' ∧ l'.bbs.map (·.1) = l.bbs.map (·.1) ∧
      Inv f pu ge p' l' (fun b => O b ∧ (b = bb → isTerm k = false)) P (fun b => T b ∨ b ∈ targets k) ∧
      Writes f p p' bb [v] := by
  obtain ⟨⟨bb', is⟩, his, rfl⟩ := List.mem_map.1 (h.opened bb ho)
  simp only at ho
  have hvs : (p.view.l f v).isSome := by
    unfold kindAt at hv
    cases hc : p.view.l f v with
    | none => rw [hc] at hv; cases hv
    | some s => rfl
  obtain ⟨p', h1, h2, h3, h4⟩ := pushInst_run h.fi h.lay his hvs hn
  have hkeys := (h.fi.lays f l h.lay).1.keys
  have hmem : bb' ∈ l.bbs.map (·.1) := List.mem_map.2 ⟨_, his, rfl⟩
  refine ⟨p', { bbs := setInsts bb' (is ++ [v]) l.bbs, instBb := l.instBb.insert v bb' }, h1, h3,
    setInsts_keys .., ?_, ⟨h3, by rw [h4], by rw [h4], by rw [h4], ?_, ?_⟩⟩
  rotate_left
  · unfold Bf.keys
    rw [h4, h.lay]
    simp [setInsts_keys]
  · intro b
    unfold Bf.code Layout.insts?
    rw [h4, h.lay]
    simp only [if_true, Option.bind_some]
    rw [lookup_set hmem]
    split
    · rename_i e; subst e
      rw [(lookup_eq_some_iff hkeys).2 his]; rfl
    · rfl
  have eb : p'.view.b = p.view.b := by rw [h4]
  have el : p'.view.l = p.view.l := by rw [h4]
  have hl : ∀ v s, p.view.l f v = some s → p'.view.l f v = some s := fun v s hs => by rw [el]; exact hs
  have hm : ∀ c js, (c, js) ∈ setInsts bb' (is ++ [v]) l.bbs ↔
      (c ≠ bb' ∧ (c, js) ∈ l.bbs) ∨ (c = bb' ∧ js = is ++ [v]) := by
    intro c js
    rw [mem_setInsts hkeys]
    simp [hmem]
  refine ⟨h2, by rw [h4]; exact h.main, head_map_ext h3 h.put, head_map_ext h3 h.get, by rw [h4]; simp,
    by rw [h4]; exact others_set h.others, ?_, ?_,
    ?_, ?_, ?_, ?_, ?_⟩
  · show ∀ b ∈ (setInsts _ _ l.bbs).map (·.1), _
    rw [setInsts_keys, eb]; exact h.laid
  · show ∀ b, P b → b ∉ (setInsts _ _ l.bbs).map (·.1) ∧ _
    rw [setInsts_keys, eb]; exact h.pend
  · show ∀ b, _ → b ∈ (setInsts _ _ l.bbs).map (·.1)
    rw [setInsts_keys]; exact fun b hb => h.opened b hb.1
  · intro b js hmj hO
    rcases (hm b js).1 hmj with ⟨_, h5⟩ | ⟨rfl, rfl⟩
    · exact (h.running b js h5 hO.1).mono hl
    · intro w hw
      rcases List.mem_append.1 hw with h5 | h5
      · exact (h.running b is his ho).mono hl w h5
      · rw [List.mem_singleton] at h5; subst h5
        exact ⟨k, kindAt_mono hv hl, hO.2 rfl⟩
  · intro b js hmj hO
    rcases (hm b js).1 hmj with ⟨hne, h5⟩ | ⟨rfl, rfl⟩
    · refine (h.ended b js h5 (fun hO' => hO ⟨hO', fun e => absurd e hne⟩)).mono hl
    · refine ⟨is, v, k, rfl, (h.running b is his ho).mono hl, kindAt_mono hv hl, ?_⟩
      cases hk : isTerm k with
      | true => rfl
      | false => exact absurd ⟨ho, fun _ => hk⟩ hO
  · intro w k' hk b hb
    show b ∈ (setInsts _ _ l.bbs).map (·.1) ∨ _
    rw [setInsts_keys]
    unfold kindAt at hk
    rw [el] at hk
    exact h.tgts w k' hk b hb
  · rintro b (hb | hb)
    · obtain ⟨c, js, w, k', h5, h6, h7, h8⟩ := h.tgt b hb
      by_cases hc : c = bb'
      · subst hc
        obtain rfl : js = is := by
          have h9 := (lookup_eq_some_iff hkeys).2 h5
          have h10 := (lookup_eq_some_iff hkeys).2 his
          rw [h9] at h10; cases h10; rfl
        exact ⟨c, js ++ [v], w, k', (hm _ _).2 (.inr ⟨rfl, rfl⟩), by simp [h6], kindAt_mono h7 hl, h8⟩
      · exact ⟨c, js, w, k', (hm _ _).2 (.inl ⟨hc, h5⟩), h6, kindAt_mono h7 hl, h8⟩
    · exact ⟨bb', is ++ [v], v, k, (hm _ _).2 (.inr ⟨rfl, rfl⟩), by simp, kindAt_mono hv hl, hb⟩

/-- A new instruction that does not end the block. -/
theorem Inv.plain (h : Inv f pu ge p l O P T) {bb : BB} (ho : O bb) {i : LocalInst} {data : VData}
    (hb : i.build (viewQuerier p.view f) = some data) (hr : i.notRaw) (ht : isTerm data.kind = false) :
    ∃ p' l' v, addNew f p bb i = some (p', v) ∧ Ext p p' ∧ l'.bbs.map (·.1) = l.bbs.map (·.1) ∧
      Inv f pu ge p' l' O P T ∧ HasT p' f v data.ty ∧ Writes f p p' bb [v] ∧ Has p' f v data.ty data.kind := by
  have htg : targets data.kind = [] := by cases hk : data.kind <;> simp [hk, isTerm, targets] at ht ⊢
  obtain ⟨p1, h1, h2, h3, h4, h5, w1⟩ := h.value hr hb (by simp [htg])
  obtain ⟨p2, l', h6, h7, h8, h9, w2⟩ := h3.push ho (v := p.ids.nextLocal) (k := data.kind)
    (by unfold kindAt; rw [h4]; rfl) h5
  refine ⟨p2, l', p.ids.nextLocal, ?_, h2.trans h7, h8, h9.weaken ?_ (fun _ => .rfl) (fun _ h => .inl h), ?_,
    (w1 bb).trans w2, ⟨_, h7.l _ _ _ h4⟩⟩
  · unfold addNew; rw [h1]; simp only [Option.bind_eq_bind, Option.bind_some, h6]
  · intro b; simp [ht]
  · refine HasT.ext h7 h9.fi ?_
    unfold HasT viewQuerier View.val
    have : p1.view.g p.ids.nextLocal = none := by
      cases hg : p1.view.g p.ids.nextLocal with
      | none => rfl
      | some s =>
        have a := h3.fi.gRange hg
        have b := h3.fi.lRange h4
        have := h3.fi.max
        omega
    simp only [this, Option.none_or, h4, Option.map_some]
    rfl

/-- A new constant. -/
theorem Inv.const (h : Inv f pu ge p l O P T) (n : I32) :
    ∃ p' v, p.newLocal f (.val (.integer n)) = some (p', v) ∧ Ext p p' ∧ Inv f pu ge p' l O P T ∧
      HasT p' f v .i32 ∧ (∀ bb, Writes f p p' bb []) ∧ Has p' f v .i32 (.integer n) := by
  obtain ⟨p1, h1, h2, h3, h4, h5, w1⟩ := h.value (i := .val (.integer n)) trivial rfl (by simp [VData.new, targets])
  refine ⟨p1, _, h1, h2, h3, ?_, w1, ⟨_, h4⟩⟩
  unfold HasT viewQuerier View.val
  have : p1.view.g p.ids.nextLocal = none := by
    cases hg : p1.view.g p.ids.nextLocal with
    | none => rfl
    | some s =>
      have a := h3.fi.gRange hg
      have b := h3.fi.lRange h4
      have := h3.fi.max
      omega
  simp only [this, Option.none_or, h4, Option.map_some]
  rfl

/-- A new instruction that ends the block. -/
theorem Inv.term (h : Inv f pu ge p l O P T) {bb : BB} (ho : O bb) {i : LocalInst} {data : VData}
    (hb : i.build (viewQuerier p.view f) = some data) (hr : i.notRaw) (ht : isTerm data.kind = true)
    (htg : ∀ b ∈ targets data.kind, b ∈ l.bbs.map (·.1) ∨ P b) :
    ∃ p' l' v, addNew f p bb i = some (p', v) ∧ Ext p p' ∧ l'.bbs.map (·.1) = l.bbs.map (·.1) ∧
      Inv f pu ge p' l' (fun b => O b ∧ b ≠ bb) P (fun b => T b ∨ b ∈ targets data.kind) ∧
      Writes f p p' bb [v] ∧ Has p' f v data.ty data.kind := by
  obtain ⟨p1, h1, h2, h3, h4, h5, w1⟩ := h.value hr hb htg
  obtain ⟨p2, l', h6, h7, h8, h9, w2⟩ := h3.push ho (v := p.ids.nextLocal) (k := data.kind)
    (by unfold kindAt; rw [h4]; rfl) h5
  refine ⟨p2, l', p.ids.nextLocal, ?_, h2.trans h7, h8, h9.weaken ?_ (fun _ => .rfl) (fun _ h => h),
    (w1 bb).trans w2, ⟨_, h7.l _ _ _ h4⟩⟩
  · unfold addNew; rw [h1]; simp only [Option.bind_eq_bind, Option.bind_some, h6]
  · intro b; simp [ht]

/-- A new block that is not laid out. -/
theorem Inv.block (h : Inv f pu ge p l O P T) {n : Option Str} (hn : validOptName n = true) :
    ∃ p' b, p.newBb f n = some (p', b) ∧ Ext p p' ∧ b ∉ l.bbs.map (·.1) ∧ ¬ P b ∧
      Inv f pu ge p' l O (fun c => P c ∨ c = b) T ∧ ∀ bb, Writes f p p' bb [] := by
  obtain ⟨p', h1, h2, h3, h4⟩ := newBb_run h.fi h.main (n := n) (ps := []) hn (by simp)
  have fresh : ∀ s, p.view.b f p.ids.nextBb ≠ some s := fun s hs => by
    have := h.fi.bRange hs; omega
  have f1 : p.ids.nextBb ∉ l.bbs.map (·.1) := fun hm => by
    obtain ⟨n, hn⟩ := h.laid _ hm; exact fresh _ hn
  have f2 : ¬ P p.ids.nextBb := fun hm => by
    obtain ⟨_, n, hn⟩ := h.pend _ hm; exact fresh _ hn
  have el : p'.view.l = p.view.l := by
    rw [h4]
    simp only [paramSig_nil, Option.none_or]
    funext g w
    split
    · rename_i e; rw [e]
    · rfl
  have hl : ∀ v s, p.view.l f v = some s → p'.view.l f v = some s := fun v s hs => by rw [el]; exact hs
  refine ⟨p', p.ids.nextBb, by rw [newBb_eq]; exact h1, h3, f1, f2, ?_,
    fun bb => .none bb h3 (by rw [h4]) (by rw [h4]) (by rw [h4]) (by rw [h4])⟩
  refine ⟨h2, by rw [h4]; exact h.main, head_map_ext h3 h.put, head_map_ext h3 h.get, by rw [h4]; exact h.lay, by rw [h4]; exact h.others, ?_, ?_,
    h.opened, fun b is hm ho => (h.running b is hm ho).mono hl, fun b is hm ho => (h.ended b is hm ho).mono hl, ?_, ?_⟩
  · intro b hb
    obtain ⟨n, hn⟩ := h.laid b hb
    exact ⟨n, h3.b _ _ _ hn⟩
  · rintro b (hb | rfl)
    · obtain ⟨a, n, hn⟩ := h.pend b hb
      exact ⟨a, n, h3.b _ _ _ hn⟩
    · refine ⟨f1, n, ?_⟩
      rw [h4]; simp [paramHandles]
  · intro v k hk b hb
    unfold kindAt at hk
    rw [el] at hk
    rcases h.tgts v k hk b hb with h5 | h5
    · exact .inl h5
    · exact .inr (.inl h5)
  · intro b hb
    obtain ⟨c, js, w, k', h5, h6, h7, h8⟩ := h.tgt b hb
    exact ⟨c, js, w, k', h5, h6, kindAt_mono h7 hl, h8⟩

/-- Laying out a block. -/
theorem Inv.layBlock (h : Inv f pu ge p l O P T) {b : BB} (hb : P b) :
    ∃ p' l', p.pushBb f b = some p' ∧ Ext p p' ∧ l'.bbs.map (·.1) = l.bbs.map (·.1) ++ [b] ∧
      Inv f pu ge p' l' (fun c => O c ∨ c = b) (fun c => P c ∧ c ≠ b) T ∧ Lays f p p' b := by
  obtain ⟨hb1, n, hb2⟩ := h.pend b hb
  obtain ⟨p', h1, h2, h3, h4⟩ := pushBb_run h.fi h.lay (b := b) (by rw [hb2]; rfl) hb1
  have eb : p'.view.b = p.view.b := by rw [h4]
  have el : p'.view.l = p.view.l := by rw [h4]
  have hl : ∀ v s, p.view.l f v = some s → p'.view.l f v = some s := fun v s hs => by rw [el]; exact hs
  have hk : ∀ c, c ∈ (l.bbs ++ [(b, ([] : List Value))]).map (·.1) ↔ c ∈ l.bbs.map (·.1) ∨ c = b := by
    intro c; simp
  have hmem : ∀ c is, (c, is) ∈ l.bbs ++ [(b, ([] : List Value))] ↔ (c, is) ∈ l.bbs ∨ (c = b ∧ is = []) := by
    intro c is; simp
  refine ⟨p', { l with bbs := l.bbs ++ [(b, [])] }, h1, h3, by simp, ?_, ⟨h3, by rw [h4], by rw [h4], by rw [h4], ?_, ?_⟩⟩
  rotate_left
  · unfold Bf.keys
    rw [h4, h.lay]
    simp
  · intro c
    unfold Bf.code Layout.insts?
    rw [h4, h.lay]
    simp only [if_true, Option.bind_some]
    rw [lookup_snoc]
    split
    · rename_i e; subst e
      rw [lookup_eq_none_iff.2 hb1]
      rfl
    · simp
  refine ⟨h2, by rw [h4]; exact h.main, head_map_ext h3 h.put, head_map_ext h3 h.get, by rw [h4]; simp,
    by rw [h4]; exact others_set h.others, ?_, ?_,
    ?_, ?_, ?_, ?_, ?_⟩
  · intro c hc
    rw [eb]
    rcases (hk c).1 hc with h5 | rfl
    · exact h.laid c h5
    · exact ⟨n, hb2⟩
  · rintro c ⟨hc, hne⟩
    rw [eb]
    obtain ⟨h5, h6⟩ := h.pend c hc
    exact ⟨fun hm => ((hk c).1 hm).elim h5 hne, h6⟩
  · rintro c (hc | rfl)
    · exact (hk c).2 (.inl (h.opened c hc))
    · exact (hk c).2 (.inr rfl)
  · intro c is hm hO
    rcases (hmem c is).1 hm with h5 | ⟨rfl, rfl⟩
    · refine (h.running c is h5 ?_).mono hl
      rcases hO with h6 | rfl
      · exact h6
      · exact absurd (List.mem_map.2 ⟨_, h5, rfl⟩) hb1
    · intro v hv; cases hv
  · intro c is hm hO
    rcases (hmem c is).1 hm with h5 | ⟨rfl, rfl⟩
    · exact (h.ended c is h5 (fun h6 => hO (.inl h6))).mono hl
    · exact absurd (.inr rfl) hO
  · intro v k hkk c hc
    unfold kindAt at hkk
    rw [el] at hkk
    rw [hk]
    rcases h.tgts v k hkk c hc with h5 | h5
    · exact .inl (.inl h5)
    · by_cases e : c = b
      · exact .inl (.inr e)
      · exact .inr ⟨h5, e⟩
  · intro c hc
    obtain ⟨c', js, w, k', h5, h6, h7, h8⟩ := h.tgt c hc
    exact ⟨c', js, w, k', (hmem _ _).2 (.inl h5), h6, kindAt_mono h7 hl, h8⟩

/-- A new block that is laid out at once. -/
theorem Inv.addBb (h : Inv f pu ge p l O P T) {n : Option Str} (hn : validOptName n = true) :
    ∃ p' l' b, addBb f p n = some (p', b) ∧ Ext p p' ∧ l'.bbs.map (·.1) = l.bbs.map (·.1) ++ [b] ∧
      b ∉ l.bbs.map (·.1) ∧ Inv f pu ge p' l' (fun c => O c ∨ c = b) P T ∧ Lays f p p' b := by
  obtain ⟨p1, b, h1, h2, h3, h4, h5, w1⟩ := h.block hn
  obtain ⟨p2, l', h6, h7, h8, h9, w2⟩ := h5.layBlock (.inr rfl)
  refine ⟨p2, l', b, ?_, h2.trans h7, h8, h3, h9.weaken (fun _ => .rfl) ?_ (fun _ h => h), (w1 b).lays w2⟩
  · unfold Bf.addBb; rw [h1]; simp only [Option.bind_eq_bind, Option.bind_some, h6]
  · intro c
    constructor
    · rintro ⟨h | h, hne⟩
      · exact h
      · exact absurd h hne
    · exact fun h => ⟨.inl h, fun e => h4 (e ▸ h)⟩

/-! ### Which instructions the builder accepts -/

theorem build_load {v : Value} {t : Ty} (h : HasT p f v (.ptr t)) :
    (LocalInst.load v).build (viewQuerier p.view f) = some (VData.new t (.load v)) := by
  unfold HasT at h; simp [LocalInst.build, h]

theorem build_store {v d : Value} {t : Ty} (h : HasT p f v t) (h' : HasT p f d (.ptr t)) :
    (LocalInst.store v d).build (viewQuerier p.view f) = some (VData.new .unit (.store v d)) := by
  unfold HasT at h h'; simp [LocalInst.build, h, h', Koopa.assert]

theorem build_getPtr {v i : Value} {t : Ty} (h : HasT p f v (.ptr t)) (h' : HasT p f i .i32) :
    (LocalInst.getPtr v i).build (viewQuerier p.view f) = some (VData.new (.ptr t) (.getPtr v i)) := by
  unfold HasT at h h'; simp [LocalInst.build, h, h', Koopa.assert, Ty.isI32]

theorem build_getElemPtr {v i : Value} {t : Ty} {n : Nat} (h : HasT p f v (.ptr (.array t n))) (h' : HasT p f i .i32) :
    (LocalInst.getElemPtr v i).build (viewQuerier p.view f) = some (VData.new (.ptr t) (.getElemPtr v i)) := by
  unfold HasT at h h'; simp [LocalInst.build, h, h', Koopa.assert, Ty.isI32]

theorem build_binary {o : BinOp} {v i : Value} (h : HasT p f v .i32) (h' : HasT p f i .i32) :
    (LocalInst.binary o v i).build (viewQuerier p.view f) = some (VData.new .i32 (.binary o v i)) := by
  unfold HasT at h h'; simp [LocalInst.build, h, h', Koopa.assert, Ty.isI32]

theorem Inv.noParams (h : Inv f pu ge p l O P T) {b : BB} (hb : b ∈ l.bbs.map (·.1) ∨ P b) :
    (viewQuerier p.view f).bbParams b = some [] := by
  obtain ⟨n, hn⟩ : ∃ n, p.view.b f b = some (n, []) := by
    rcases hb with hb | hb
    · exact h.laid b hb
    · exact (h.pend b hb).2
  show (p.view.b f b).map (·.2) = _
  rw [hn]; rfl

theorem Inv.build_jump (h : Inv f pu ge p l O P T) {b : BB} (hb : b ∈ l.bbs.map (·.1) ∨ P b) :
    (LocalInst.jump b).build (viewQuerier p.view f) = some (VData.new .unit (.jump b [])) := by
  simp [LocalInst.build, h.noParams hb, Koopa.assert]

theorem Inv.build_branch (h : Inv f pu ge p l O P T) {v : Value} {b c : BB} (hv : HasT p f v .i32)
    (hb : b ∈ l.bbs.map (·.1) ∨ P b) (hc : c ∈ l.bbs.map (·.1) ∨ P c) :
    (LocalInst.branch v b c).build (viewQuerier p.view f) = some (VData.new .unit (.branch v b c [] [])) := by
  unfold HasT at hv
  simp [LocalInst.build, h.noParams hb, h.noParams hc, hv, Koopa.assert, Ty.isI32]

theorem build_ret {v : Value} (h : HasT p f v .i32) :
    (LocalInst.ret (some v)).build (viewQuerier p.view f) = some (VData.new .unit (.ret (some v))) := by
  unfold HasT at h; simp [LocalInst.build, h, Koopa.assert, Ty.isUnit]

theorem build_alloc {t : Ty} (h : t.isUnit = false) :
    (LocalInst.alloc t).build (viewQuerier p.view f) = some (VData.new (.ptr t) .alloc) := by
  simp [LocalInst.build, h, Koopa.assert]

theorem Inv.build_put (h : Inv f pu ge p l O P T) {v : Value} (hv : HasT p f v .i32) :
    (LocalInst.call pu [v]).build (viewQuerier p.view f) = some (VData.new .i32 (.call pu [v])) := by
  have : (viewQuerier p.view f).funcType pu = some (.func [.i32] .i32) := h.put
  unfold HasT at hv
  simp [LocalInst.build, this, hv, Koopa.assert, checkCallArgs]

theorem Inv.build_get (h : Inv f pu ge p l O P T) :
    (LocalInst.call ge []).build (viewQuerier p.view f) = some (VData.new .i32 (.call ge [])) := by
  have : (viewQuerier p.view f).funcType ge = some (.func [] .i32) := h.get
  simp [LocalInst.build, this, Koopa.assert, checkCallArgs]

/-! ### The commands -/

/-- From `p` to `p'` the block `bb` of `f` may grow and blocks may be added. -/
structure Grows (f : Func) (p p' : Program) (bb : BB) : Prop where
  ext : Ext p p'
  g : p'.view.g = p.view.g
  insts : p'.view.insts = p.view.insts
  head : p'.view.head = p.view.head
  keys : ∃ ks, keys f p' = (keys f p).map (· ++ ks)
  code : ∀ b, b ≠ bb → (code f p b).isSome → code f p' b = code f p b

theorem Writes.grows {p' : Program} {bb : BB} {vs : List Value} (h : Writes f p p' bb vs) : Grows f p p' bb :=
  ⟨h.ext, h.g, h.insts, h.head, ⟨[], by rw [h.keys]; simp⟩, fun b hb _ => by rw [h.code, if_neg hb]⟩

theorem code_none (h : Inv f pu ge p l O P T) {b : BB} : code f p b = none ↔ b ∉ l.bbs.map (·.1) := by
  unfold code Layout.insts?
  rw [h.lay, Option.bind_some, lookup_eq_none_iff]

/-- The instructions for `>` and `<`. -/
def PtrOp (p : Program) (f : Func) (ptr : Value) (i : I32) (vs : List Value) : Prop :=
  ∃ a x b c, vs = [a, b, c] ∧ Has p f a (.ptr .i32) (.load ptr) ∧ Has p f x .i32 (.integer i) ∧
    Has p f b (.ptr .i32) (.getPtr a x) ∧ Has p f c .unit (.store b ptr)

/-- The instructions for `+` and `-`. -/
def DataOp (p : Program) (f : Func) (ptr : Value) (i : I32) (vs : List Value) : Prop :=
  ∃ a b x c d, vs = [a, b, c, d] ∧ Has p f a (.ptr .i32) (.load ptr) ∧ Has p f b .i32 (.load a) ∧ Has p f x .i32 (.integer i) ∧
    Has p f c .i32 (.binary .add b x) ∧ Has p f d .unit (.store c a)

/-- The instructions for `.`. -/
def PutOp (p : Program) (f pu : Func) (ptr : Value) (vs : List Value) : Prop :=
  ∃ a b c, vs = [a, b, c] ∧ Has p f a (.ptr .i32) (.load ptr) ∧ Has p f b .i32 (.load a) ∧ Has p f c .i32 (.call pu [b])

/-- The instructions for `,`. -/
def GetOp (p : Program) (f ge : Func) (ptr : Value) (vs : List Value) : Prop :=
  ∃ a b c, vs = [a, b, c] ∧ Has p f a .i32 (.call ge []) ∧ Has p f b (.ptr .i32) (.load ptr) ∧ Has p f c .unit (.store a b)

/-- The condition block of a loop. -/
def CondOp (p : Program) (f : Func) (ptr : Value) (body done : BB) (vs : List Value) : Prop :=
  ∃ a b x c d, vs = [a, b, c, d] ∧ Has p f a (.ptr .i32) (.load ptr) ∧ Has p f b .i32 (.load a) ∧ Has p f x .i32 (.integer 0) ∧
    Has p f c .i32 (.binary .notEq b x) ∧ Has p f d .unit (.branch c body done [] [])

theorem PtrOp.ext {p' : Program} {ptr : Value} {i : I32} {vs : List Value} (x : Ext p p') (h : PtrOp p f ptr i vs) : PtrOp p' f ptr i vs := by
  obtain ⟨a, y, b, c, h1, h2, h3, h4, h5⟩ := h
  exact ⟨a, y, b, c, h1, h2.ext x, h3.ext x, h4.ext x, h5.ext x⟩

theorem DataOp.ext {p' : Program} {ptr : Value} {i : I32} {vs : List Value} (x : Ext p p') (h : DataOp p f ptr i vs) : DataOp p' f ptr i vs := by
  obtain ⟨a, b, y, c, d, h1, h2, h3, h4, h5, h6⟩ := h
  exact ⟨a, b, y, c, d, h1, h2.ext x, h3.ext x, h4.ext x, h5.ext x, h6.ext x⟩

theorem PutOp.ext {p' : Program} {ptr : Value} {vs : List Value} (x : Ext p p') (h : PutOp p f pu ptr vs) : PutOp p' f pu ptr vs := by
  obtain ⟨a, b, c, h1, h2, h3, h4⟩ := h
  exact ⟨a, b, c, h1, h2.ext x, h3.ext x, h4.ext x⟩

theorem GetOp.ext {p' : Program} {ptr : Value} {vs : List Value} (x : Ext p p') (h : GetOp p f ge ptr vs) : GetOp p' f ge ptr vs := by
  obtain ⟨a, b, c, h1, h2, h3, h4⟩ := h
  exact ⟨a, b, c, h1, h2.ext x, h3.ext x, h4.ext x⟩

theorem CondOp.ext {p' : Program} {ptr : Value} {body done : BB} {vs : List Value} (x : Ext p p') (h : CondOp p f ptr body done vs) :
    CondOp p' f ptr body done vs := by
  obtain ⟨a, b, y, c, d, h1, h2, h3, h4, h5, h6⟩ := h
  exact ⟨a, b, y, c, d, h1, h2.ext x, h3.ext x, h4.ext x, h5.ext x, h6.ext x⟩

/-- The invariant between two bytes of the input. -/
structure At (env : Env) (st : St) (zero : Value) : Prop where
  inv : ∃ l, Inv env.main env.putchar env.getchar st.prog l (· = st.bb) (fun b => b ∈ st.loops.map (·.2))
      (fun b => b ∈ st.loops.map (·.2)) ∧ ∀ c ∈ st.loops.map (·.1), c ∈ l.bbs.map (·.1)
  nodup : (st.loops.map (·.2)).Nodup
  ptr : HasT st.prog env.main env.ptr (.ptr (.ptr .i32))
  zero : HasT st.prog env.main zero .i32

theorem At.keep {env : Env} {st : St} {zero : Value} (h : At env st zero) {p' : Program} {l l' : Layout}
    (hl : Inv env.main env.putchar env.getchar st.prog l (· = st.bb) (fun b => b ∈ st.loops.map (·.2))
      (fun b => b ∈ st.loops.map (·.2))) (hc : ∀ c ∈ st.loops.map (·.1), c ∈ l.bbs.map (·.1))
    (he : Ext st.prog p')
    (hk : l'.bbs.map (·.1) = l.bbs.map (·.1))
    (hi : Inv env.main env.putchar env.getchar p' l' (· = st.bb) (fun b => b ∈ st.loops.map (·.2))
      (fun b => b ∈ st.loops.map (·.2))) : At env { st with prog := p' } zero :=
  ⟨⟨l', hi, by rw [hk]; exact hc⟩, h.nodup, h.ptr.ext he hi.fi, h.zero.ext he hi.fi⟩

theorem At.ptrOp {env : Env} {st : St} {zero : Value} (h : At env st zero) (i : I32) :
    ∃ st', ptrOp env st i = some st' ∧ st'.loops = st.loops ∧ At env st' zero ∧ st'.bb = st.bb ∧
      ∃ vs, Writes env.main st.prog st'.prog st.bb vs ∧ PtrOp st'.prog env.main env.ptr i vs := by
  obtain ⟨l, h0, hc⟩ := h.inv
  obtain ⟨p1, l1, v1, e1, x1, k1, i1, t1, w1, d1⟩ := h0.plain (bb := st.bb) rfl (build_load h.ptr) trivial rfl
  obtain ⟨p2, v2, e2, x2, i2, t2, w2, d2⟩ := i1.const i
  obtain ⟨p3, l3, v3, e3, x3, k3, i3, t3, w3, d3⟩ := i2.plain (bb := st.bb) rfl
    (build_getPtr (t1.ext x2 i2.fi) t2) trivial rfl
  obtain ⟨p4, l4, v4, e4, x4, k4, i4, t4, w4, d4⟩ := i3.plain (bb := st.bb) rfl
    (build_store t3 (h.ptr.ext ((x1.trans x2).trans x3) i3.fi)) trivial rfl
  refine ⟨{ st with prog := p4 }, ?_, rfl, h.keep h0 hc (((x1.trans x2).trans x3).trans x4) (by rw [k4, k3, k1]) i4, rfl,
    _, ((w1.trans (w2 _)).trans w3).trans w4, ⟨v1, v2, v3, v4, rfl, d1.ext ((x2.trans x3).trans x4), d2.ext (x3.trans x4), d3.ext x4, d4⟩⟩
  unfold Bf.ptrOp
  simp only [e1, e2, e3, e4, Option.bind_eq_bind, Option.bind_some]

theorem At.dataOp {env : Env} {st : St} {zero : Value} (h : At env st zero) (i : I32) :
    ∃ st', dataOp env st i = some st' ∧ st'.loops = st.loops ∧ At env st' zero ∧ st'.bb = st.bb ∧
      ∃ vs, Writes env.main st.prog st'.prog st.bb vs ∧ DataOp st'.prog env.main env.ptr i vs := by
  obtain ⟨l, h0, hc⟩ := h.inv
  obtain ⟨p1, l1, v1, e1, x1, k1, i1, t1, w1, d1⟩ := h0.plain (bb := st.bb) rfl (build_load h.ptr) trivial rfl
  obtain ⟨p2, l2, v2, e2, x2, k2, i2, t2, w2, d2⟩ := i1.plain (bb := st.bb) rfl (build_load t1) trivial rfl
  obtain ⟨p3, v3, e3, x3, i3, t3, w3, d3⟩ := i2.const i
  obtain ⟨p4, l4, v4, e4, x4, k4, i4, t4, w4, d4⟩ := i3.plain (bb := st.bb) rfl
    (build_binary (o := .add) (t2.ext x3 i3.fi) t3) trivial rfl
  obtain ⟨p5, l5, v5, e5, x5, k5, i5, t5, w5, d5⟩ := i4.plain (bb := st.bb) rfl
    (build_store t4 (t1.ext ((x2.trans x3).trans x4) i4.fi)) trivial rfl
  refine ⟨{ st with prog := p5 }, ?_, rfl, h.keep h0 hc ((((x1.trans x2).trans x3).trans x4).trans x5)
    (by rw [k5, k4, k2, k1]) i5, rfl, _, (((w1.trans w2).trans (w3 _)).trans w4).trans w5,
    ⟨v1, v2, v3, v4, v5, rfl, d1.ext (((x2.trans x3).trans x4).trans x5), d2.ext ((x3.trans x4).trans x5), d3.ext (x4.trans x5), d4.ext x5, d5⟩⟩
  unfold Bf.dataOp
  simp only [e1, e2, e3, e4, e5, Option.bind_eq_bind, Option.bind_some]

theorem At.put {env : Env} {st : St} {zero : Value} (h : At env st zero) :
    ∃ st', Bf.put env st = some st' ∧ st'.loops = st.loops ∧ At env st' zero ∧ st'.bb = st.bb ∧
      ∃ vs, Writes env.main st.prog st'.prog st.bb vs ∧ PutOp st'.prog env.main env.putchar env.ptr vs := by
  obtain ⟨l, h0, hc⟩ := h.inv
  obtain ⟨p1, l1, v1, e1, x1, k1, i1, t1, w1, d1⟩ := h0.plain (bb := st.bb) rfl (build_load h.ptr) trivial rfl
  obtain ⟨p2, l2, v2, e2, x2, k2, i2, t2, w2, d2⟩ := i1.plain (bb := st.bb) rfl (build_load t1) trivial rfl
  obtain ⟨p3, l3, v3, e3, x3, k3, i3, t3, w3, d3⟩ := i2.plain (bb := st.bb) rfl (i2.build_put t2) trivial rfl
  refine ⟨{ st with prog := p3 }, ?_, rfl, h.keep h0 hc ((x1.trans x2).trans x3) (by rw [k3, k2, k1]) i3, rfl,
    _, (w1.trans w2).trans w3, ⟨v1, v2, v3, rfl, d1.ext (x2.trans x3), d2.ext x3, d3⟩⟩
  unfold Bf.put
  simp only [e1, e2, e3, Option.bind_eq_bind, Option.bind_some]

theorem At.get {env : Env} {st : St} {zero : Value} (h : At env st zero) :
    ∃ st', Bf.get env st = some st' ∧ st'.loops = st.loops ∧ At env st' zero ∧ st'.bb = st.bb ∧
      ∃ vs, Writes env.main st.prog st'.prog st.bb vs ∧ GetOp st'.prog env.main env.getchar env.ptr vs := by
  obtain ⟨l, h0, hc⟩ := h.inv
  obtain ⟨p1, l1, v1, e1, x1, k1, i1, t1, w1, d1⟩ := h0.plain (bb := st.bb) rfl h0.build_get trivial rfl
  obtain ⟨p2, l2, v2, e2, x2, k2, i2, t2, w2, d2⟩ := i1.plain (bb := st.bb) rfl (build_load (h.ptr.ext x1 i1.fi)) trivial rfl
  obtain ⟨p3, l3, v3, e3, x3, k3, i3, t3, w3, d3⟩ := i2.plain (bb := st.bb) rfl
    (build_store (t1.ext x2 i2.fi) t2) trivial rfl
  refine ⟨{ st with prog := p3 }, ?_, rfl, h.keep h0 hc ((x1.trans x2).trans x3) (by rw [k3, k2, k1]) i3, rfl,
    _, (w1.trans w2).trans w3, ⟨v1, v2, v3, rfl, d1.ext (x2.trans x3), d2.ext x3, d3⟩⟩
  unfold Bf.get
  simp only [e1, e2, e3, Option.bind_eq_bind, Option.bind_some]

theorem At.start {env : Env} {st : St} {zero : Value} (h : At env st zero) :
    ∃ st' c e, Bf.start env st = some st' ∧ st'.loops = (c, e) :: st.loops ∧ At env st' zero ∧
      Grows env.main st.prog st'.prog st.bb ∧ code env.main st.prog st'.bb = none ∧
      code env.main st'.prog st'.bb = some [] ∧
      (∃ j, code env.main st'.prog st.bb = (code env.main st.prog st.bb).map (· ++ [j]) ∧
        Has st'.prog env.main j .unit (.jump c [])) ∧
      c ≠ st'.bb ∧ ∃ vs, code env.main st'.prog c = some vs ∧ CondOp st'.prog env.main env.ptr st'.bb e vs := by
  obtain ⟨l, h0, hc⟩ := h.inv
  have hbb : st.bb ∈ l.bbs.map (·.1) := h0.opened _ rfl
  obtain ⟨p1, l1, cond, e1, x1, k1, n1, i1, w1⟩ := h0.addBb (n := some "%while_cond".toList) (by decide)
  have hcond : cond ∈ l1.bbs.map (·.1) := by rw [k1]; simp
  have hne : cond ≠ st.bb := fun e => n1 (e ▸ hbb)
  obtain ⟨p2, l2, v2, e2, x2, k2, i2, w2, d2⟩ := i1.term (bb := st.bb) (.inl rfl) (i1.build_jump (.inl hcond)) trivial rfl
    (by intro b hb; simp [VData.new, targets] at hb; subst hb; exact .inl hcond)
  have i2 := i2.weaken (O' := (· = cond)) (P' := fun b => b ∈ st.loops.map (·.2)) (T' := fun b => b ∈ st.loops.map (·.2)) (by
    intro b
    constructor
    · rintro ⟨rfl | h, h'⟩
      · exact absurd rfl h'
      · exact h
    · rintro rfl; exact ⟨.inr rfl, hne⟩) (fun _ => .rfl) (fun _ h => .inl h)
  have hp2 := h.ptr.ext (x1.trans x2) i2.fi
  obtain ⟨p3, l3, v3, e3, x3, k3, i3, t3, w3, d3⟩ := i2.plain (bb := cond) rfl (build_load hp2) trivial rfl
  obtain ⟨p4, l4, v4, e4, x4, k4, i4, t4, w4, d4⟩ := i3.plain (bb := cond) rfl (build_load t3) trivial rfl
  obtain ⟨p5, v5, e5, x5, i5, t5, w5, d5⟩ := i4.const 0
  obtain ⟨p6, l6, v6, e6, x6, k6, i6, t6, w6, d6⟩ := i5.plain (bb := cond) rfl
    (build_binary (o := .notEq) (t4.ext x5 i5.fi) t5) trivial rfl
  obtain ⟨p7, body, e7, x7, n7, m7, i7, w7⟩ := i6.block (n := some "%while_body".toList) (by decide)
  obtain ⟨p8, end', e8, x8, n8, m8, i8, w8⟩ := i7.block (n := some "%while_end".toList) (by decide)
  obtain ⟨p9, l9, v9, e9, x9, k9, i9, w9, d9⟩ := i8.term (bb := cond) rfl
    (i8.build_branch (t6.ext (x7.trans x8) i8.fi) (.inr (.inl (.inr rfl))) (.inr (.inr rfl))) trivial rfl
    (by
      intro b hb
      simp [VData.new, targets] at hb
      rcases hb with rfl | rfl
      · exact .inr (.inl (.inr rfl))
      · exact .inr (.inr rfl))
  have hee : end' ≠ body := fun e => m8 (.inr e)
  obtain ⟨p10, l10, e10, x10, k10, i10, w10⟩ := i9.layBlock (b := body) (.inl (.inr rfl))
  have hbody : body ∉ l1.bbs.map (·.1) := by
    rw [k6, k4, k3, k2] at n7; exact n7
  have hbl : body ∉ l.bbs.map (·.1) := fun hm => hbody (by rw [k1]; exact List.mem_append.2 (.inl hm))
  have hcb : cond ≠ body := fun e => hbody (e ▸ hcond)
  have hbb' : st.bb ≠ body := fun e => hbl (e ▸ hbb)
  have wc := (((((w3.trans w4).trans (w5 cond)).trans w6).trans (w7 cond)).trans (w8 cond)).trans w9
  refine ⟨{ prog := p10, bb := body, loops := (cond, end') :: st.loops }, cond, end', ?_, rfl, ?_,
    ⟨((w1.ext.trans w2.ext).trans wc.ext).trans w10.ext, ((w10.g.trans wc.g).trans w2.g).trans w1.g,
      ((w10.insts.trans wc.insts).trans w2.insts).trans w1.insts, ((w10.head.trans wc.head).trans w2.head).trans w1.head,
      ⟨[cond] ++ [body], ?_⟩, ?_⟩, (code_none h0).2 hbl, ?_, ⟨v2, ?_, d2.ext (wc.ext.trans w10.ext)⟩, hcb,
    [v3, v4, v6, v9], ?_, ⟨v3, v4, v5, v6, v9, rfl,
      d3.ext ((((((x4.trans x5).trans x6).trans x7).trans x8).trans x9).trans x10),
      d4.ext (((((x5.trans x6).trans x7).trans x8).trans x9).trans x10),
      d5.ext ((((x6.trans x7).trans x8).trans x9).trans x10), d6.ext (((x7.trans x8).trans x9).trans x10), d9.ext x10⟩⟩
  rotate_left 2
  · rw [w10.keys, wc.keys, w2.keys, w1.keys]
    simp [Option.map_map, Function.comp_def]
  · intro b hb hs
    have h1 : b ≠ body := fun e => by rw [e, (code_none h0).2 hbl] at hs; cases hs
    have h2 : b ≠ cond := fun e => by rw [e, (code_none h0).2 n1] at hs; cases hs
    simp only [w10.code, wc.code, w2.code, w1.code, h1, h2, hb, if_false]
  · simp [w10.code]
  · simp [w10.code, wc.code, w2.code, w1.code, hbb', Ne.symm hne]
  · simp [w10.code, wc.code, w2.code, w1.code, hcb, hne]
  · unfold Bf.start
    simp only [e1, e2, e3, e4, e5, e6, e7, e8, e9, e10, Option.bind_eq_bind, Option.bind_some]
  · have xx := ((((((((x1.trans x2).trans x3).trans x4).trans x5).trans x6).trans x7).trans x8).trans x9).trans x10
    have kk : l10.bbs.map (·.1) = (l.bbs.map (·.1) ++ [cond]) ++ [body] := by
      rw [k10, k9, k6, k4, k3, k2, k1]
    refine ⟨⟨l10, i10.weaken ?_ ?_ ?_, ?_⟩, ?_, h.ptr.ext xx i10.fi, h.zero.ext xx i10.fi⟩
    · intro b
      constructor
      · rintro (⟨h1, h2⟩ | h1)
        · exact absurd h1 h2
        · exact h1
      · exact .inr
    · intro b
      simp only [List.map_cons, List.mem_cons]
      constructor
      · rintro ⟨(h1 | rfl) | rfl, h2⟩
        · exact .inr h1
        · exact absurd rfl h2
        · exact .inl rfl
      · rintro (rfl | h1)
        · exact ⟨.inr rfl, hee⟩
        · exact ⟨.inl (.inl h1), fun e => m7 (e ▸ h1)⟩
    · intro b hb
      rcases List.mem_cons.1 hb with rfl | h1
      · exact .inr (by simp [VData.new, targets])
      · exact .inl h1
    · intro c hcm
      rw [kk]
      rcases List.mem_cons.1 hcm with rfl | h1
      · simp
      · have := hc c h1; simp [List.mem_map] at this ⊢; exact .inl this
    · show (end' :: st.loops.map (·.2)).Nodup
      exact List.nodup_cons.2 ⟨fun hm => m8 (.inl hm), h.nodup⟩

theorem At.finish {env : Env} {st : St} {zero : Value} (h : At env st zero) :
    (st.loops = [] ∧ Bf.finish env st = some none) ∨
    ∃ st' q, Bf.finish env st = some (some st') ∧ st.loops = q :: st'.loops ∧ At env st' zero ∧
      Grows env.main st.prog st'.prog st.bb ∧ st'.bb = q.2 ∧ code env.main st.prog st'.bb = none ∧
      code env.main st'.prog st'.bb = some [] ∧
      ∃ j, code env.main st'.prog st.bb = (code env.main st.prog st.bb).map (· ++ [j]) ∧
        Has st'.prog env.main j .unit (.jump q.1 []) := by
  obtain ⟨prog, bb, loops⟩ := st
  cases loops with
  | nil => exact .inl ⟨rfl, rfl⟩
  | cons q loops =>
    obtain ⟨cond, end'⟩ := q
    right
    obtain ⟨l, h0, hc⟩ := h.inv
    obtain ⟨p1, l1, v1, e1, x1, k1, i1, w1, d1⟩ := h0.term (bb := bb) rfl
      (h0.build_jump (.inl (hc cond (by simp)))) trivial rfl
      (by intro b hb; simp [VData.new, targets] at hb; subst hb; exact .inl (hc _ (by simp)))
    obtain ⟨p2, l2, e2, x2, k2, i2, w2⟩ := i1.layBlock (b := end') (by simp)
    have hend : end' ∉ l.bbs.map (·.1) := (h0.pend end' (by simp)).1
    have hbb' : bb ≠ end' := fun e => hend (e ▸ h0.opened bb rfl)
    refine ⟨{ prog := p2, bb := end', loops }, (cond, end'), ?_, rfl, ?_,
      ⟨w1.ext.trans w2.ext, w2.g.trans w1.g, w2.insts.trans w1.insts, w2.head.trans w1.head, ⟨[end'], ?_⟩, ?_⟩, rfl,
      (code_none h0).2 hend, ?_, v1, ?_, d1.ext x2⟩
    rotate_left 2
    · rw [w2.keys, w1.keys]
    · intro b hb hs
      have h1 : b ≠ end' := fun e => by rw [e, (code_none h0).2 hend] at hs; cases hs
      simp only [w2.code, w1.code, h1, hb, if_false]
    · simp [w2.code]
    · simp [w2.code, w1.code, hbb']
    · unfold Bf.finish
      simp only [e1, e2, Option.bind_eq_bind, Option.bind_some]
    · have hn : end' ∉ loops.map (·.2) := (List.nodup_cons.1 h.nodup).1
      refine ⟨⟨l2, i2.weaken ?_ ?_ ?_, ?_⟩, (List.nodup_cons.1 h.nodup).2, h.ptr.ext (x1.trans x2) i2.fi,
        h.zero.ext (x1.trans x2) i2.fi⟩
      · intro b
        constructor
        · rintro (⟨h1, h2⟩ | h1)
          · exact absurd h1 h2
          · exact h1
        · exact .inr
      · intro b
        simp only [List.map_cons, List.mem_cons]
        constructor
        · rintro ⟨rfl | h1, h2⟩
          · exact absurd rfl h2
          · exact h1
        · exact fun h1 => ⟨.inr h1, fun e => hn (e ▸ h1)⟩
      · intro b hb
        exact .inl (by simp only [List.map_cons, List.mem_cons]; exact .inr hb)
      · intro c hcm
        rw [k2, k1]
        have := hc c (by simp only [List.map_cons, List.mem_cons]; exact .inr hcm)
        exact List.mem_append.2 (.inl this)

/-- One byte of the input. -/
theorem At.step {env : Env} {st : St} {zero : Value} (h : At env st zero) (c : Char) :
    (c = ']' ∧ st.loops = [] ∧ step env st c = some none) ∨
    ∃ st', step env st c = some (some st') ∧ At env st' zero ∧
      st'.loops.length + [c].count ']' = st.loops.length + [c].count '[' := by
  unfold Bf.step
  by_cases e1 : c = '>'
  · subst e1
    obtain ⟨st', h1, h2, h3, -⟩ := h.ptrOp 1
    exact .inr ⟨st', by rw [if_pos rfl, h1]; rfl, h3, by simp [h2]⟩
  rw [if_neg e1]
  by_cases e2 : c = '<'
  · subst e2
    obtain ⟨st', h1, h2, h3, -⟩ := h.ptrOp (-1)
    exact .inr ⟨st', by rw [if_pos rfl, h1]; rfl, h3, by simp [h2]⟩
  rw [if_neg e2]
  by_cases e3 : c = '+'
  · subst e3
    obtain ⟨st', h1, h2, h3, -⟩ := h.dataOp 1
    exact .inr ⟨st', by rw [if_pos rfl, h1]; rfl, h3, by simp [h2]⟩
  rw [if_neg e3]
  by_cases e4 : c = '-'
  · subst e4
    obtain ⟨st', h1, h2, h3, -⟩ := h.dataOp (-1)
    exact .inr ⟨st', by rw [if_pos rfl, h1]; rfl, h3, by simp [h2]⟩
  rw [if_neg e4]
  by_cases e5 : c = '['
  · subst e5
    obtain ⟨st', a, b, h1, h2, h3, -⟩ := h.start
    exact .inr ⟨st', by rw [if_pos rfl, h1]; rfl, h3, by simp [h2]⟩
  rw [if_neg e5]
  by_cases e6 : c = ']'
  · subst e6
    rw [if_pos rfl]
    rcases h.finish with ⟨h1, h2⟩ | ⟨st', q, h1, h2, h3, -⟩
    · exact .inl ⟨rfl, h1, h2⟩
    · exact .inr ⟨st', h1, h3, by simp [h2]⟩
  rw [if_neg e6]
  have c1 : [c].count ']' = 0 := by
    rw [List.count_eq_zero]; simp only [List.mem_singleton]; exact fun e => e6 e.symm
  have c2 : [c].count '[' = 0 := by
    rw [List.count_eq_zero]; simp only [List.mem_singleton]; exact fun e => e5 e.symm
  right
  by_cases e7 : c = '.'
  · subst e7
    obtain ⟨st', h1, h2, h3, -⟩ := h.put
    exact ⟨st', by rw [if_pos rfl, h1]; rfl, h3, by rw [c1, c2, h2]⟩
  rw [if_neg e7]
  by_cases e8 : c = ','
  · subst e8
    obtain ⟨st', h1, h2, h3, -⟩ := h.get
    exact ⟨st', by rw [if_pos rfl, h1]; rfl, h3, by rw [c1, c2, h2]⟩
  rw [if_neg e8]
  exact ⟨st, rfl, h, by rw [c1, c2]⟩

/-- No prefix closes more loops than it opens, `d` being open before. -/
def NoStrayFrom (d : Nat) (w : List Char) : Prop := ∀ n, (w.take n).count ']' ≤ d + (w.take n).count '['

theorem At.loop {env : Env} {zero : Value} : ∀ (w : List Char) {st : St}, At env st zero →
    (¬ NoStrayFrom st.loops.length w ∧ loop env st w = some none) ∨
    NoStrayFrom st.loops.length w ∧ ∃ st', loop env st w = some (some st') ∧ At env st' zero ∧
      st'.loops.length + w.count ']' = st.loops.length + w.count '['
  | [], st, h => .inr ⟨fun n => by simp, st, rfl, h, by simp⟩
  | c :: w, st, h => by
    unfold Bf.loop
    rcases h.step c with ⟨rfl, h1, h2⟩ | ⟨st1, h1, h2, h3⟩
    · rw [h2]
      refine .inl ⟨fun hn => ?_, rfl⟩
      have := hn 1
      simp [h1] at this
    · rw [h1]
      have hcons : ∀ (x : List Char) (a : Char), (c :: x).count a = [c].count a + x.count a := fun x a => by
        rw [← List.count_append]; rfl
      have key : NoStrayFrom st.loops.length (c :: w) ↔ NoStrayFrom st1.loops.length w := by
        constructor
        · intro hn n
          have := hn (n + 1)
          rw [List.take_succ_cons, hcons _ ']', hcons _ '['] at this
          omega
        · intro hn n
          cases n with
          | zero => simp
          | succ n =>
            have := hn n
            rw [List.take_succ_cons, hcons _ ']', hcons _ '[']
            omega
      rw [key]
      rcases At.loop w h2 with ⟨h4, h5⟩ | ⟨h4, st', h5, h6, h7⟩
      · exact .inl ⟨h4, h5⟩
      · refine .inr ⟨h4, st', h5, h6, ?_⟩
        rw [hcons w ']', hcons w '[']
        omega

/-! ### Before and after the loop -/

theorem Inv.rename (h : Inv f pu ge p l O P T) {v : Value} {n : Option Str} (hv : (p.view.l f v).isSome)
    (hn : validOptName n = true) :
    ∃ p', p.setLocalName f v n = some p' ∧ Inv f pu ge p' l O P T ∧
      (∀ w, kindAt p'.view f w = kindAt p.view f w) ∧ (∀ w t, HasT p f w t → HasT p' f w t) ∧
      (∀ w t k, Has p f w t k → Has p' f w t k) ∧ p'.view.g = p.view.g ∧ p'.view.insts = p.view.insts ∧
      p'.view.head = p.view.head ∧ p'.view.lay = p.view.lay := by
  obtain ⟨s, hs⟩ := Option.isSome_iff_exists.1 hv
  obtain ⟨p', h1, h2, h3⟩ := setLocalName_run h.fi hs hn
  have hk : ∀ w, kindAt p'.view f w = kindAt p.view f w := by
    intro w
    unfold kindAt
    rw [h3]
    by_cases e : w = v
    · subst e; simp [hs]
    · simp [e]
  have hr : ∀ is, Running p'.view f is ↔ Running p.view f is := fun is => by
    unfold Running; simp only [hk]
  have he : ∀ is, Ended p'.view f is ↔ Ended p.view f is := fun is => by
    unfold Ended; simp only [hk, hr]
  refine ⟨p', h1, ⟨h2, by rw [h3]; exact h.main, by rw [h3]; exact h.put, by rw [h3]; exact h.get,
    by rw [h3]; exact h.lay, by rw [h3]; exact h.others, by rw [h3]; exact h.laid, by rw [h3]; exact h.pend, h.opened,
    fun b is hm ho => (hr is).2 (h.running b is hm ho), fun b is hm ho => (he is).2 (h.ended b is hm ho),
    fun w k hw => h.tgts w k (by rw [← hk]; exact hw), ?_⟩, hk, ?_, ?_, by rw [h3], by rw [h3], by rw [h3], by rw [h3]⟩
  · intro b hb
    obtain ⟨c, js, w, k', h5, h6, h7, h8⟩ := h.tgt b hb
    exact ⟨c, js, w, k', h5, h6, by rw [hk]; exact h7, h8⟩
  · intro w t hw
    unfold HasT viewQuerier View.val at hw ⊢
    rw [h3]
    simp only [true_and] at hw ⊢
    by_cases e : w = v
    · subst e
      have : p.view.g w = none := by
        cases hg : p.view.g w with
        | none => rfl
        | some s' =>
          have a := h.fi.gRange hg
          have b := h.fi.lRange hs
          have := h.fi.max
          omega
      simp [this, hs] at hw ⊢
      exact hw
    · simp only [e, if_false]
      exact hw
  · rintro w t k ⟨m, hm⟩
    unfold Has
    rw [h3]
    by_cases e : w = v
    · subst e
      rw [hs, Option.some.injEq] at hm
      subst hm
      simp
    · simp only [e, and_false, if_false]
      exact ⟨m, hm⟩

/-- The entry block. -/
theorem enter_at {env : Env} {p : Program} {l : Layout}
    (h : Inv env.main env.putchar env.getchar p l (fun _ => False) (fun _ => False) (fun _ => False))
    (hp : HasT p env.main env.ptr (.ptr (.array .i32 65536))) (hl : l.bbs = []) :
    ∃ ptr zero st, enter env p = some ({ env with ptr }, zero, st) ∧ st.loops = [] ∧ At { env with ptr } st zero ∧
      st.prog.view.g = p.view.g ∧ st.prog.view.insts = p.view.insts ∧ st.prog.view.head = p.view.head ∧
      code env.main st.prog st.bb = some [] ∧ Has st.prog env.main ptr (.ptr (.ptr .i32)) .alloc ∧
      Has st.prog env.main zero .i32 (.integer 0) ∧
      ∃ entry a b j, keys env.main st.prog = some [entry, st.bb] ∧ entry ≠ st.bb ∧ code env.main st.prog entry = some [ptr, a, b, j] ∧
        Has st.prog env.main a (.ptr .i32) (.getElemPtr env.ptr zero) ∧ Has st.prog env.main b .unit (.store a ptr) ∧
        Has st.prog env.main j .unit (.jump st.bb []) := by
  obtain ⟨p1, l1, entry, e1, x1, k1, n1, i1, w1⟩ := h.addBb (n := some "%entry".toList) (by decide)
  have i1 := i1.weaken (O' := (· = entry)) (P' := fun _ => False) (T' := fun _ => False)
    (fun b => by simp) (fun _ => .rfl) (fun _ h => h)
  obtain ⟨p2, e2, x2, i2, s2, q2, w2⟩ := i1.value (i := .alloc (.ptr .i32)) trivial (build_alloc rfl)
    (by simp [VData.new, targets])
  have t2 : HasT p2 env.main p1.ids.nextLocal (.ptr (.ptr .i32)) := by
    unfold HasT viewQuerier View.val
    have : p2.view.g p1.ids.nextLocal = none := by
      cases hg : p2.view.g p1.ids.nextLocal with
      | none => rfl
      | some s =>
        have a := i2.fi.gRange hg
        have b := i2.fi.lRange s2
        have := i2.fi.max
        omega
    simp only [this, Option.none_or, s2, Option.map_some]
    rfl
  obtain ⟨p3, e3, i3, m3, t3, d3, g3, n3, y3, z3⟩ := i2.rename (v := p1.ids.nextLocal) (n := some "%ptr".toList) (by rw [s2]; rfl) (by decide)
  obtain ⟨p4, l4, e4, x4, k4, i4, w4⟩ := i3.push (bb := entry) rfl (v := p1.ids.nextLocal) (k := .alloc)
    (by rw [m3]; unfold kindAt; rw [s2]; rfl) q2
  have i4 := i4.weaken (O' := (· = entry)) (P' := fun _ => False) (T' := fun _ => False)
    (fun b => by simp [isTerm]) (fun _ => .rfl) (fun _ h => h.elim)
  have a4 : HasT p4 env.main p1.ids.nextLocal (.ptr (.ptr .i32)) := (t3 _ _ t2).ext x4 i4.fi
  have b4 : HasT p4 env.main env.ptr (.ptr (.array .i32 65536)) :=
    (t3 _ _ (hp.ext (x1.trans x2) i2.fi)).ext x4 i4.fi
  obtain ⟨p5, zero, e5, x5, i5, t5, w5, d5⟩ := i4.const 0
  obtain ⟨p6, l6, v6, e6, x6, k6, i6, t6, w6, d6⟩ := i5.plain (bb := entry) rfl
    (build_getElemPtr (b4.ext x5 i5.fi) t5) trivial rfl
  obtain ⟨p7, l7, v7, e7, x7, k7, i7, t7, w7, d7⟩ := i6.plain (bb := entry) rfl
    (build_store t6 (a4.ext (x5.trans x6) i6.fi)) trivial rfl
  obtain ⟨p8, l8, bb, e8, x8, k8, n8, i8, w8⟩ := i7.addBb (n := none) rfl
  have hne : entry ≠ bb := fun e => n8 (by rw [k7, k6, k4, k1]; simp [e])
  have hbb : bb ∈ l8.bbs.map (·.1) := by rw [k8]; simp
  obtain ⟨p9, l9, v9, e9, x9, k9, i9, w9, d9⟩ := i8.term (bb := entry) (.inl rfl) (i8.build_jump (.inl hbb)) trivial rfl
    (by intro b hb; simp [VData.new, targets] at hb; subst hb; exact .inl hbb)
  have s4 : Has p4 env.main p1.ids.nextLocal (.ptr (.ptr .i32)) .alloc := (d3 _ _ _ ⟨_, s2⟩).ext x4
  have hen : ∀ b, code env.main p b = none := fun b => (code_none h).2 (by rw [hl]; simp)
  have w2 := w2 entry
  have c3 : ∀ b, code env.main p3 b = code env.main p2 b := fun b => by unfold code; rw [z3]
  have k3 : keys env.main p3 = keys env.main p2 := by unfold keys; rw [z3]
  have w57 := (w5 entry).trans (w6.trans w7)
  refine ⟨p1.ids.nextLocal, zero, { prog := p9, bb, loops := [] }, ?_, rfl, ?_, ?_, ?_, ?_, ?_,
    s4.ext ((w57.ext.trans x8).trans x9), d5.ext (((x6.trans x7).trans x8).trans x9), entry, v6, v7, v9, ?_, hne, ?_,
    d6.ext ((x7.trans x8).trans x9), d7.ext (x8.trans x9), d9⟩
  rotate_left 2
  · rw [w9.g, w8.g, w57.g, w4.g, g3, w2.g, w1.g]
  · rw [w9.insts, w8.insts, w57.insts, w4.insts, n3, w2.insts, w1.insts]
  · rw [w9.head, w8.head, w57.head, w4.head, y3, w2.head, w1.head]
  · simp [w9.code, w8.code, Ne.symm hne]
  · have : keys env.main p = some [] := by unfold keys; rw [h.lay]; simp [hl]
    simp [w9.keys, w8.keys, w57.keys, w4.keys, k3, w2.keys, w1.keys, this]
  · simp [w9.code, w8.code, w57.code, w4.code, c3, w2.code, w1.code, hne]
  · unfold enter
    simp only [e1, e2, e3, e4, e5, e6, e7, e8, e9, Option.bind_eq_bind, Option.bind_some]
  · refine ⟨⟨l9, i9.weaken ?_ ?_ ?_, by simp⟩, by simp,
      a4.ext ((((x5.trans x6).trans x7).trans x8).trans x9) i9.fi, t5.ext (((x6.trans x7).trans x8).trans x9) i9.fi⟩
    · intro b
      constructor
      · rintro ⟨h1 | h1, h2⟩
        · exact absurd h1 h2
        · exact h1
      · rintro rfl; exact ⟨.inr rfl, fun e => hne e.symm⟩
    · simp
    · simp

/-- The end block. -/
theorem At.leave {env : Env} {st : St} {zero : Value} (h : At env st zero) :
    ∃ p l, leave env zero st = some p ∧
      Inv env.main env.putchar env.getchar p l (fun _ => False) (fun b => b ∈ st.loops.map (·.2))
        (fun b => b ∈ st.loops.map (·.2)) ∧ Grows env.main st.prog p st.bb ∧
      ∃ j e r, code env.main p st.bb = (code env.main st.prog st.bb).map (· ++ [j]) ∧ Has p env.main j .unit (.jump e []) ∧
        code env.main p e = some [r] ∧ Has p env.main r .unit (.ret (some zero)) := by
  obtain ⟨l, h0, hc⟩ := h.inv
  have hbb : st.bb ∈ l.bbs.map (·.1) := h0.opened _ rfl
  obtain ⟨p1, l1, end', e1, x1, k1, n1, i1, w1⟩ := h0.addBb (n := some "%end".toList) (by decide)
  have hend : end' ∈ l1.bbs.map (·.1) := by rw [k1]; simp
  have hne : end' ≠ st.bb := fun e => n1 (e ▸ hbb)
  obtain ⟨p2, l2, v2, e2, x2, k2, i2, w2, d2⟩ := i1.term (bb := st.bb) (.inl rfl) (i1.build_jump (.inl hend)) trivial rfl
    (by intro b hb; simp [VData.new, targets] at hb; subst hb; exact .inl hend)
  obtain ⟨p3, l3, v3, e3, x3, k3, i3, w3, d3⟩ := i2.term (bb := end') ⟨.inr rfl, hne⟩
    (build_ret (h.zero.ext (x1.trans x2) i2.fi)) trivial rfl (by simp [VData.new, targets])
  refine ⟨p3, l3, ?_, i3.weaken ?_ (fun _ => .rfl) (fun _ h => .inl (.inl h)),
    ⟨(x1.trans x2).trans x3, (w3.g.trans w2.g).trans w1.g, (w3.insts.trans w2.insts).trans w1.insts,
      (w3.head.trans w2.head).trans w1.head, ⟨[end'], ?_⟩, ?_⟩, v2, end', v3, ?_, d2.ext x3, ?_, d3⟩
  rotate_left 2
  · rw [w3.keys, w2.keys, w1.keys]
  · intro b hb hs
    have h1 : b ≠ end' := fun e => by rw [e, (code_none h0).2 n1] at hs; cases hs
    simp only [w3.code, w2.code, w1.code, h1, hb, if_false]
  · simp [w3.code, w2.code, w1.code, Ne.symm hne]
  · simp [w3.code, w2.code, w1.code, hne]
  · unfold Bf.leave
    simp only [e1, e2, e3, Option.bind_eq_bind, Option.bind_some]
  · intro b
    constructor
    · rintro ⟨⟨h1 | h1, h2⟩, h3⟩
      · exact h2 h1
      · exact h3 h1
    · exact False.elim

theorem build_globalAlloc {q : Querier} {v : Value} {t : Ty} (h : q.valueType v = some t) (ht : t.isUnit = false) :
    (GlobalInst.globalAlloc v).build q = some (VData.new (.ptr t) (.globalAlloc v)) := by
  simp [GlobalInst.build, h, ht, Koopa.assert]

/-- The data array, the declarations and the empty main function. -/
theorem prelude_inv {ids : Ids} (hg : globalStart ≤ ids.nextGlobal) (hl : localStart ≤ ids.nextLocal)
    (hm : ids.nextGlobal + 2 ≤ localStart) :
    ∃ env p l, prelude ids = some (env, p) ∧
      Inv env.main env.putchar env.getchar p l (fun _ => False) (fun _ => False) (fun _ => False) ∧
      HasT p env.main env.ptr (.ptr (.array .i32 65536)) ∧ l.bbs = [] ∧
      (∃ init n, p.view.g env.ptr = some (.ptr (.array .i32 65536), n, .globalAlloc init) ∧
        p.view.g init = some (.array .i32 65536, none, .zeroInit)) ∧
      p.view.insts = [env.ptr] ∧ p.view.head env.main = some (.func [] .i32, "@main".toList, []) ∧
      p.view.head env.putchar = some (.func [.i32] .i32, "@putchar".toList, []) ∧
      p.view.head env.getchar = some (.func [] .i32, "@getchar".toList, []) ∧
      ∀ f t ps, p.view.head f = some (t, "@main".toList, ps) → f = env.main := by
  have i0 := FInv.new ids hg hl (by omega)
  obtain ⟨p1, e1, i1, x1, v1⟩ := newGlobal_run i0 (i := .val (.zeroInit (.array .i32 65536))) trivial
    (data := VData.new (.array .i32 65536) .zeroInit) rfl (by show ids.nextGlobal < _; omega)
  have g1 : p1.ids.nextGlobal = ids.nextGlobal + 1 := by
    exact congrArg (fun V : View => V.ids.nextGlobal) v1
  have t1 : (viewGlobalQuerier p1.view).valueType ids.nextGlobal = some (.array .i32 65536) := by
    show (p1.view.g ids.nextGlobal).map (·.1) = _
    rw [v1]
    have e : (Program.new ids).ids.nextGlobal = ids.nextGlobal := rfl
    simp only [e, if_true, Option.map_some]
    rfl
  obtain ⟨p2, e2, i2, x2, v2⟩ := newGlobal_run i1 (i := .globalAlloc ids.nextGlobal) trivial
    (data := VData.new (.ptr (.array .i32 65536)) (.globalAlloc ids.nextGlobal))
    (build_globalAlloc t1 rfl)
    (by omega)
  have s2 : p2.view.g p1.ids.nextGlobal = some (.ptr (.array .i32 65536), none, .globalAlloc ids.nextGlobal) := by
    rw [v2]; simp [VData.shape, VData.new]
  obtain ⟨p3, e3, i3, v3⟩ := setGlobalName_run i2 s2 (n := some "@data_arr".toList) (by decide)
  obtain ⟨p4, e4, i4, x4, v4⟩ := newFuncDecl_run i3 (n := "@putchar".toList) (ps := [.i32]) (r := .i32) (by decide) (by simp)
  obtain ⟨p5, e5, i5, x5, v5⟩ := newFuncDecl_run i4 (n := "@getchar".toList) (ps := []) (r := .i32) (by decide) (by simp)
  obtain ⟨p6, e6, i6, x6, v6⟩ := newFuncDef_run i5 (n := "@main".toList) (ps := []) (r := .i32) (by decide) (by simp)
  have e6' : p5.newFuncDef "@main".toList [] .i32 = some (p6, p5.ids.nextFunc) := e6
  refine ⟨{ ptr := p1.ids.nextGlobal, putchar := p3.ids.nextFunc, getchar := p4.ids.nextFunc, main := p5.ids.nextFunc },
    p6, Layout.new, ?_, ?_, ?_, rfl, ⟨ids.nextGlobal, some "@data_arr".toList, ?_, ?_⟩, ?_, by rw [v6]; simp [paramHandles], ?_, ?_, ?_⟩
  · unfold prelude
    have : Ty.getArray .i32 65536 = some (.array .i32 65536) := rfl
    have e1' : (Program.new ids).newGlobal (.val (.zeroInit (.array .i32 65536))) = some (p1, ids.nextGlobal) := e1
    simp only [this, Option.bind_eq_bind, Option.bind_some, e1', e2, e3, e4, e5, e6']
  · have hl6 : ∀ w, p6.view.l p5.ids.nextFunc w = none := by
      intro w; rw [v6]; simp [paramSig_nil]
    have hn4 : p4.ids.nextFunc = p3.ids.nextFunc + 1 := by
      exact congrArg (fun V : View => V.ids.nextFunc) v4
    refine ⟨i6, by rw [v6]; simp, ?_, ?_, by rw [v6]; simp, ?_, by simp [Layout.new], by simp, by simp, by simp, by simp [Layout.new],
      ?_, by simp⟩
    · exact head_map_ext x6 (head_map_ext x5 (by rw [v4]; simp))
    · exact head_map_ext x6 (by rw [v5]; simp)
    · intro g l' hg hl'
      have l0 : ∀ g, p3.view.lay g = none := by
        intro g
        have : p3.view.lay = (Program.new ids).view.lay := by rw [v3, v2, v1]
        rw [this]
        rfl
      rw [v6] at hl'
      simp only [if_neg hg] at hl'
      rw [v5] at hl'
      simp only at hl'
      split at hl'
      · cases hl'; rfl
      · rw [v4] at hl'
        simp only at hl'
        split at hl'
        · cases hl'; rfl
        · rw [l0] at hl'; cases hl'
    · intro v k hk
      unfold kindAt at hk
      rw [hl6] at hk; cases hk
  · have hg3 : p3.view.g p1.ids.nextGlobal = some (.ptr (.array .i32 65536), some "@data_arr".toList, .globalAlloc ids.nextGlobal) := by
      rw [v3]; simp
    have hg6 := x6.g _ _ (x5.g _ _ (x4.g _ _ hg3))
    unfold HasT viewQuerier View.val
    simp only [hg6, Option.some_or, Option.map_some]
  · have hg3 : p3.view.g p1.ids.nextGlobal = some (.ptr (.array .i32 65536), some "@data_arr".toList, .globalAlloc ids.nextGlobal) := by
      rw [v3]; simp
    exact x6.g _ _ (x5.g _ _ (x4.g _ _ hg3))
  · have hg1 : p1.view.g ids.nextGlobal = some (.array .i32 65536, none, .zeroInit) := by
      rw [v1]
      have e : (Program.new ids).ids.nextGlobal = ids.nextGlobal := rfl
      simp only [e, if_true]; rfl
    have hg3 : p3.view.g ids.nextGlobal = some (.array .i32 65536, none, .zeroInit) := by
      rw [v3]
      simp only [show ids.nextGlobal ≠ p1.ids.nextGlobal by omega, if_false]
      exact x2.g _ _ hg1
    exact x6.g _ _ (x5.g _ _ (x4.g _ _ hg3))
  · rw [v6, v5, v4, v3, v2, v1]
    rfl
  · exact x6.head _ _ (x5.head _ _ (by rw [v4]; simp))
  · exact x6.head _ _ (by rw [v5]; simp)
  · intro f t ps hf
    rw [v6] at hf
    simp only at hf
    split at hf
    · assumption
    · rw [v5] at hf
      simp only at hf
      split at hf
      · simp at hf
      · rw [v4] at hf
        simp only at hf
        split at hf
        · simp at hf
        · have : p3.view.head f = none := by
            have : p3.view.head = (Program.new ids).view.head := by rw [v3, v2, v1]
            rw [this]
            rfl
          rw [this] at hf; cases hf

end Koopa.Bf
