import Verif.Lemmas.Lib.RawGen
/-!
The invariant of the generator: what is generated so far is a renamed part of the program that the raw program
was built from.
-/
namespace Koopa.Raw
open Spec

namespace GSt
/-- The new handle of a global value. -/
def gv (s : GSt) (v : Value) : Option Value := s.values.get? v
/-- The new handle of a value of function `f`. -/
def lv (s : GSt) (f : Func) (v : Value) : Option Value := (s.funcs.get? f).bind (·.values.get? v)
/-- The new handle of a block of function `f`. -/
def bv (s : GSt) (f : Func) (b : BB) : Option BB := (s.funcs.get? f).bind (·.bbs.get? b)
/-- The new handle of a function. -/
def fv (s : GSt) (f : Func) : Option Func := (s.funcs.get? f).map (·.func)
/-- The new handle of a value that function `f` mentions. -/
def rv (s : GSt) (f : Func) (v : Value) : Option Value := if isGlobal v then s.gv v else s.lv f v
/-- The new handle of anything that function `f` mentions. -/
def item (s : GSt) (f : Func) : Item → Option Nat
  | .val v => s.rv f v
  | .bb b => s.bv f b
  | .func g => s.fv g
/-- The same, totalised. -/
def h (s : GSt) (f : Func) (i : Item) : Nat := (s.item f i).getD 0

/-- Block `b` of function `f` is generated and holds the instructions `js` now. -/
def Ins (s : GSt) (f : Func) (b : BB) (js : List Value) : Prop :=
  ∃ i w l, s.funcs.get? f = some i ∧ i.bbs.get? b = some w ∧ s.prog.view.lay i.func = some l ∧ (w, js) ∈ l.bbs
end GSt

/-- More is generated. -/
structure Le (s s' : GSt) : Prop where
  gv : ∀ v w, s.gv v = some w → s'.gv v = some w
  lv : ∀ f v w, s.lv f v = some w → s'.lv f v = some w
  bv : ∀ f v w, s.bv f v = some w → s'.bv f v = some w
  fv : ∀ f w, s.fv f = some w → s'.fv f = some w

theorem Le.refl (s : GSt) : Le s s := ⟨fun _ _ h => h, fun _ _ _ h => h, fun _ _ _ h => h, fun _ _ h => h⟩

theorem Le.trans {a b c : GSt} (h : Le a b) (h' : Le b c) : Le a c :=
  ⟨fun _ _ x => h'.gv _ _ (h.gv _ _ x), fun _ _ _ x => h'.lv _ _ _ (h.lv _ _ _ x), fun _ _ _ x => h'.bv _ _ _ (h.bv _ _ _ x),
    fun _ _ x => h'.fv _ _ (h.fv _ _ x)⟩

theorem Le.rv {s s' : GSt} (h : Le s s') {f : Func} {v w : Value} (hv : s.rv f v = some w) : s'.rv f v = some w := by
  unfold GSt.rv at hv ⊢
  split at hv
  · rw [if_pos (by assumption)]; exact h.gv _ _ hv
  · rw [if_neg (by assumption)]; exact h.lv _ _ _ hv

theorem Le.item {s s' : GSt} (h : Le s s') {f : Func} {i : Item} {w : Nat} (hv : s.item f i = some w) : s'.item f i = some w := by
  cases i with
  | val v => exact h.rv hv
  | bb b => exact h.bv _ _ _ hv
  | func g => exact h.fv _ _ hv

theorem Le.itemSome {s s' : GSt} (h : Le s s') {f : Func} {i : Item} (hv : (s.item f i).isSome) : (s'.item f i).isSome := by
  obtain ⟨w, hw⟩ := Option.isSome_iff_exists.1 hv
  rw [h.item hw]; rfl

theorem Le.h {s s' : GSt} (h : Le s s') {f : Func} {i : Item} (hv : (s.item f i).isSome) : s'.h f i = s.h f i := by
  obtain ⟨w, hw⟩ := Option.isSome_iff_exists.1 hv
  rw [GSt.h, GSt.h, hw, h.item hw]

theorem GSt.h_eq {s : GSt} {f : Func} {i : Item} {w : Nat} (h : s.item f i = some w) : s.h f i = w := by rw [GSt.h, h]; rfl

/-- Kind `k'` is kind `k` with the new handles, all of which are known. -/
def KOk (s : GSt) (f : Func) (k k' : VKind) : Prop :=
  (∀ i ∈ kindItems k, (s.item f i).isSome) ∧
    k' = mapKind (fun v => s.h f (.val v)) (fun b => s.h f (.bb b)) (fun g => s.h f (.func g)) k

theorem KOk.mono {s s' : GSt} (hle : Le s s') {f : Func} {k k' : VKind} (h : KOk s f k k') : KOk s' f k k' := by
  refine ⟨fun i hi => hle.itemSome (h.1 i hi), ?_⟩
  rw [h.2]
  apply mapKind_congr
  intro i hi
  have := hle.h (h.1 i hi)
  exact ⟨fun v e => by rw [← e, this], fun v e => by rw [← e, this], fun v e => by rw [← e, this]⟩

/-- Function `f`, generated as `i`. -/
structure FuncInv (p : Program) (s : GSt) (f : Func) (i : FuncInfo) (fd : FData) : Prop where
  head : ∃ ws, s.prog.view.head i.func = some (fd.ty, fd.name, ws) ∧ All2 (fun v w => i.values.get? v = some w) fd.params ws
  vals : ∀ v w, i.values.get? v = some w → Used p (some f) v ∧ ∃ x k, LocalVal p f v x ∧ KOk s f x.kind k ∧
    s.prog.view.l i.func w = some (x.ty, x.name, k)
  onlyVals : ∀ w q, s.prog.view.l i.func w = some q → ∃ v, i.values.get? v = some w
  injVals : ∀ v v' w, i.values.get? v = some w → i.values.get? v' = some w → v = v'
  args : ∀ v w x n, i.values.get? v = some w → LocalVal p f v x → x.kind = .blockArgRef n →
    ∃ b c y, i.bbs.get? b = some c ∧ fd.dfg.bbs.get? b = some y ∧ v ∈ y.params
  blks : ∀ b w, i.bbs.get? b = some w → b ∈ fd.layout.bbs.map (·.1) ∧ ∃ x ws, fd.dfg.bbs.get? b = some x ∧
    s.prog.view.b i.func w = some (x.name, ws) ∧ All2 (fun v w => i.values.get? v = some w) x.params ws
  onlyBlks : ∀ w q, s.prog.view.b i.func w = some q → ∃ b, i.bbs.get? b = some w
  injBlks : ∀ b b' w, i.bbs.get? b = some w → i.bbs.get? b' = some w → b = b'
  lay : ∃ l, s.prog.view.lay i.func = some l ∧
    (∀ b w, i.bbs.get? b = some w → ∃ js is n, (w, js) ∈ l.bbs ∧ (b, is) ∈ fd.layout.bbs ∧
      All2 (fun v w => i.values.get? v = some w) (is.take n) js) ∧
    (∀ w ∈ l.bbs.map (·.1), ∃ b, i.bbs.get? b = some w) ∧
    ∀ w, (l.bbs.map (·.1)).head? = some w → ∃ e, (fd.layout.bbs.map (·.1)).head? = some e ∧ i.bbs.get? e = some w

/-- The part of a program that belongs to one function. -/
def SameView (V V' : View) (g : Func) : Prop := V'.l g = V.l g ∧ V'.b g = V.b g ∧ V'.head g = V.head g ∧ V'.lay g = V.lay g

theorem FuncInv.frame {p : Program} {s s' : GSt} {f : Func} {i : FuncInfo} {fd : FData} (h : FuncInv p s f i fd)
    (hle : Le s s') (hv : SameView s.prog.view s'.prog.view i.func) : FuncInv p s' f i fd := by
  obtain ⟨h1, h2, h3, h4⟩ := hv
  refine ⟨by rw [h3]; exact h.head, ?_, by rw [h1]; exact h.onlyVals, h.injVals, h.args, by rw [h2]; exact h.blks,
    by rw [h2]; exact h.onlyBlks, h.injBlks, by rw [h4]; exact h.lay⟩
  intro v w hw
  obtain ⟨hu, x, k, hx, hk, hs⟩ := h.vals v w hw
  exact ⟨hu, x, k, hx, hk.mono hle, by rw [h1]; exact hs⟩

/-- The invariant; `g0` is the first handle of a global value. -/
structure GInv (p : Program) (g0 : Nat) (s : GSt) : Prop where
  fin : FInv s.prog
  cur : ∀ f, s.cur = some f → (s.funcs.get? f).isSome
  count : ∃ L : List Value, L.Nodup ∧ (∀ v ∈ L, (s.gv v).isSome) ∧ s.prog.ids.nextGlobal = g0 + L.length
  globs : ∀ v w, s.gv v = some w → Used p none v ∧ ∃ x k, GlobalVal p v x ∧ KOk s 0 x.kind k ∧
    s.prog.view.g w = some (x.ty, x.name, k)
  onlyGlobs : ∀ w q, s.prog.view.g w = some q → ∃ v, s.gv v = some w
  injGlobs : ∀ v v' w, s.gv v = some w → s.gv v' = some w → v = v'
  funcs : ∀ f i, s.funcs.get? f = some i → ∃ fd, p.funcs.get? f = some fd ∧ FuncInv p s f i fd
  onlyFuncs : ∀ g q, s.prog.view.head g = some q → ∃ f i, s.funcs.get? f = some i ∧ i.func = g
  injFuncs : ∀ f f' i i', s.funcs.get? f = some i → s.funcs.get? f' = some i' → i.func = i'.func → f = f'

section
variable {p : Program} {g0 : Nat} {s : GSt}

theorem GSt.lv_eq {f : Func} {i : FuncInfo} (h : s.funcs.get? f = some i) (v : Value) : s.lv f v = i.values.get? v := by
  rw [GSt.lv, h]; rfl
theorem GSt.bv_eq {f : Func} {i : FuncInfo} (h : s.funcs.get? f = some i) (v : BB) : s.bv f v = i.bbs.get? v := by
  rw [GSt.bv, h]; rfl
theorem GSt.fv_eq {f : Func} {i : FuncInfo} (h : s.funcs.get? f = some i) : s.fv f = some i.func := by
  rw [GSt.fv, h]; rfl

theorem GInv.global_id (hc : Convertible p) (hi : GInv p g0 s) {v w : Value} (h : s.gv v = some w) : isGlobal v = true := by
  obtain ⟨_, x, _, hx, _⟩ := hi.globs v w h
  exact hc.globalId _ _ hx

theorem GInv.local_id (hc : Convertible p) (hi : GInv p g0 s) {f : Func} {v w : Value} (h : s.lv f v = some w) :
    isGlobal v = false := by
  unfold GSt.lv at h
  obtain ⟨i, hf, hv⟩ := Option.bind_eq_some_iff.1 h
  obtain ⟨fd, _, hfi⟩ := hi.funcs f i hf
  obtain ⟨_, x, _, hx, _⟩ := hfi.vals v w hv
  exact hc.localId _ _ _ hx

/-- The data of a value that function `f` mentions is the renamed data. -/
theorem GInv.rv_data (hc : Convertible p) (hi : GInv p g0 s) {f : Func} {i : FuncInfo} (hf : s.funcs.get? f = some i) {v w : Value}
    (h : s.rv f v = some w) {y : VData} (hy : GlobalVal p v y ∨ LocalVal p f v y) :
    ∃ k, s.prog.view.val i.func w = some (y.ty, y.name, k) ∧ k.isConst = y.kind.isConst := by
  have hconst : ∀ (a : Value → Value) (b : BB → BB) (c : Func → Func) (k : VKind), (mapKind a b c k).isConst = k.isConst := by
    intro a b c k; cases k <;> rfl
  unfold GSt.rv at h
  split at h
  · rename_i hg
    obtain ⟨_, x, k, hx, hk, hs⟩ := hi.globs v w h
    have : x = y := by
      rcases hy with hy | hy
      · exact Option.some.inj ((show p.values.get? v = some x from hx).symm.trans hy)
      · have := hc.localId _ _ _ hy; simp [hg] at this
    subst this
    refine ⟨k, by rw [View.val, hs]; rfl, by rw [hk.2, hconst]⟩
  · rename_i hg
    obtain ⟨fd, _, hfi⟩ := hi.funcs f i hf
    rw [GSt.lv_eq hf] at h
    obtain ⟨_, x, k, hx, hk, hs⟩ := hfi.vals v w h
    have : x = y := by
      rcases hy with hy | hy
      · have := hc.globalId _ _ hy; simp [hg] at this
      · obtain ⟨a, h1, h2⟩ := hx
        obtain ⟨b, h3, h4⟩ := hy
        rw [h1] at h3; cases h3
        rw [h2] at h4; cases h4; rfl
    subst this
    refine ⟨k, ?_, by rw [hk.2, hconst]⟩
    have hn : s.prog.view.g w = none := by
      cases hq : s.prog.view.g w with
      | none => rfl
      | some q =>
        have h1 := hi.fin.gRange hq
        have h2 := hi.fin.lRange hs
        have h3 := hi.fin.max
        omega
    rw [View.val, hn, hs]; rfl

theorem All2.swap {α β γ : Type} {R : α → β → Prop} {S : α → γ → Prop} {T : γ → β → Prop} {as : List α} {bs : List β}
    {cs : List γ} (h : All2 R as bs) (h' : All2 S as cs) (ht : ∀ a ∈ as, ∀ b c, R a b → S a c → T c b) : All2 T cs bs := by
  induction h generalizing cs with
  | nil => cases h'; exact .nil
  | cons h _ ih =>
    cases h' with
    | cons h1 h2 => exact .cons (ht _ (by simp) _ _ h h1) (ih h2 (fun a ha => ht a (by simp [ha])))

theorem localInst_some {H : Value → Ty → Prop} {P : BB → List Ty → Prop} {F : Func → Ty → Prop} {k : VKind} {t : Ty}
    (h : InstTy H P F k t) (h1 : ∀ n, k ≠ .funcArgRef n) (h2 : ∀ n, k ≠ .blockArgRef n) (h3 : ∀ n, k ≠ .globalAlloc n) :
    ∃ i, localInst t k = some i := by
  cases h with
  | funcArgRef h => exact absurd rfl (h1 _)
  | blockArgRef h => exact absurd rfl (h2 _)
  | globalAlloc _ _ => exact absurd rfl (h3 _)
  | _ => exact ⟨_, rfl⟩

/-- The instruction with the new handles can be made. -/
theorem GInv.instOk (hc : Convertible p) (hi : GInv p g0 s) {f : Func} {i : FuncInfo} (hf : s.funcs.get? f = some i)
    {v : Value} {x : VData} (hu : Used p (some f) v) (hx : LocalVal p f v x) (hm : ∀ j ∈ kindItems x.kind, (s.item f j).isSome)
    (h1 : ∀ n, x.kind ≠ .funcArgRef n) (h2 : ∀ n, x.kind ≠ .blockArgRef n) :
    ∃ j, localInst x.ty (mapKind (fun v => s.h f (.val v)) (fun b => s.h f (.bb b)) (fun g => s.h f (.func g)) x.kind) = some j ∧
      j.notRaw ∧ j.build (viewQuerier s.prog.view i.func) = some (VData.new x.ty
        (mapKind (fun v => s.h f (.val v)) (fun b => s.h f (.bb b)) (fun g => s.h f (.func g)) x.kind)) := by
  obtain ⟨fd, hfd, hfi⟩ := hi.funcs f i hf
  have hty := hc.typed.locals _ _ _ hx
  have hval : ∀ u y, GlobalVal p u y ∨ LocalVal p f u y → (s.item f (.val u)).isSome →
      ∃ k, s.prog.view.val i.func (s.h f (.val u)) = some (y.ty, y.name, k) ∧ k.isConst = y.kind.isConst := by
    intro u y hy hs
    obtain ⟨w, hw⟩ := Option.isSome_iff_exists.1 hs
    rw [GSt.h_eq hw]
    exact hi.rv_data hc hf hw hy
  have hmap : InstTy (fun w t => (viewQuerier s.prog.view i.func).valueType w = some t)
      (fun b ts => ∃ ps, (viewQuerier s.prog.view i.func).bbParams b = some ps ∧
        All2 (fun w t => (viewQuerier s.prog.view i.func).valueType w = some t) ps ts)
      (fun g t => (viewQuerier s.prog.view i.func).funcType g = some t)
      (mapKind (fun v => s.h f (.val v)) (fun b => s.h f (.bb b)) (fun g => s.h f (.func g)) x.kind) x.ty := by
    refine hty.map ?_ ?_ ?_ ?_
    · rintro u hu' t ⟨y, hy, rfl⟩
      obtain ⟨k, hk, _⟩ := hval u y hy (hm _ (operand_mem hu'))
      simp [viewQuerier, hk]
    · rintro b hb ts ⟨y, ⟨fd', hfd', hy⟩, hps⟩
      rw [hfd] at hfd'; cases hfd'
      obtain ⟨w, hw⟩ := Option.isSome_iff_exists.1 (hm _ (target_mem hb))
      rw [GSt.h_eq hw]
      have hw' : i.bbs.get? b = some w := by rw [← GSt.bv_eq hf]; exact hw
      obtain ⟨_, y', ws, hy', hv, ha⟩ := hfi.blks b w hw'
      rw [hy] at hy'; cases hy'
      refine ⟨ws, by simp [viewQuerier, hv], All2.swap hps ha ?_⟩
      rintro a ham t c ⟨z, hz, rfl⟩ hac
      obtain ⟨_, z', k, hz', _, hs⟩ := hfi.vals a c hac
      have hl := hc.localId _ _ _ hz'
      have hr : s.rv f a = some c := by
        rw [GSt.rv, if_neg (by simp [hl]), GSt.lv_eq hf]; exact hac
      obtain ⟨k, hk, _⟩ := hi.rv_data hc hf hr hz
      simp [viewQuerier, hk]
    · rintro g as hk t ⟨gd, hgd, rfl⟩
      have hm' := hm (.func g) (by rw [hk]; simp [kindItems])
      obtain ⟨w, hw⟩ := Option.isSome_iff_exists.1 hm'
      rw [GSt.h_eq hw]
      obtain ⟨j, hj, rfl⟩ := Option.map_eq_some_iff.1 (show s.fv g = some w from hw)
      obtain ⟨gd', hgd', hgi⟩ := hi.funcs g j hj
      rw [hgd] at hgd'; cases hgd'
      obtain ⟨ws, hh, _⟩ := hgi.head
      simp [viewQuerier, hh]
    · intro a ha b hb he
      obtain ⟨w, hw⟩ := Option.isSome_iff_exists.1 (hm _ (target_mem ha))
      obtain ⟨w', hw'⟩ := Option.isSome_iff_exists.1 (hm _ (target_mem hb))
      rw [GSt.h_eq hw, GSt.h_eq hw'] at he
      subst he
      exact hfi.injBlks a b w (by rw [← GSt.bv_eq hf]; exact hw) (by rw [← GSt.bv_eq hf]; exact hw')
  have hagg : ∀ es, mapKind (fun v => s.h f (.val v)) (fun b => s.h f (.bb b)) (fun g => s.h f (.func g)) x.kind = .aggregate es →
      ∀ e ∈ es, (viewQuerier s.prog.view i.func).isConst e = some true := by
    intro es he e hem
    have : ∃ es', x.kind = .aggregate es' ∧ es = es'.map (fun v => s.h f (.val v)) := by
      cases hk : x.kind <;> simp [hk, mapKind] at he
      exact ⟨_, rfl, he.symm⟩
    obtain ⟨es', hk, rfl⟩ := this
    obtain ⟨u, hu', rfl⟩ := List.mem_map.1 hem
    have huo : u ∈ operands x.kind := by rw [hk]; exact hu'
    obtain ⟨t, y, hy, _⟩ := hty.live.1 u huo
    obtain ⟨k, hk1, hk2⟩ := hval u y hy (hm _ (operand_mem huo))
    have := hc.aggConst _ _ _ _ _ _ hu hx hk hu' hy
    simp [viewQuerier, hk1, hk2, this]
  obtain ⟨j, hj⟩ := localInst_some hmap (by intro n; cases hk : x.kind <;> simp [mapKind]; exact fun _ => absurd hk (h1 _))
    (by intro n; cases hk : x.kind <;> simp [mapKind]; exact fun _ => absurd hk (h2 _))
    (by intro n; cases hk : x.kind <;> simp [mapKind]; exact fun _ => absurd hk (hc.noGlobalAlloc _ _ _ _ hu hx))
  exact ⟨j, hj, localInst_build (fun _ _ h => h) (fun _ _ h => h) (fun _ _ h => h) hmap hagg hj⟩

end

end Koopa.Raw
