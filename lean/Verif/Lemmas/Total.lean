import Verif.Lemmas.Blocks
/-! When the bookkeeping loops do not panic. -/
namespace Koopa
open Spec

theorem modData_isSome {c : Ctx} {v : Value} {f : VData → VData} (h : (c.data v).isSome) :
    ∃ c', c.modData v f = some c' := by
  unfold Ctx.data at h
  unfold Ctx.modData
  split
  · exact ⟨_, rfl⟩
  · rename_i hg
    rw [hg] at h
    cases hl : c.d.values.get? v with
    | some x => exact ⟨_, rfl⟩
    | none => simp [hl] at h

theorem modData_data {c c' : Ctx} {v w : Value} {f : VData → VData} (h : c.modData v f = some c') :
    (c'.data w).isSome ↔ (c.data w).isSome := by
  rw [data_isSome_iff, data_isSome_iff]
  unfold Ctx.modData at h
  split at h
  · rename_i x hx
    cases h
    simp only [Map.get?_insert]
    by_cases hw : w = v
    · subst hw; simp [hx]
    · simp [hw]
  · split at h
    · rename_i x hx
      cases h
      simp only [Map.get?_insert]
      by_cases hw : w = v
      · subst hw; simp [hx]
      · simp [hw]
    · cases h

theorem addUses_isSome {vs : List Value} {c : Ctx} {u : Value} (h : ∀ v ∈ vs, (c.data v).isSome) :
    ∃ c', c.addUses u vs = some c' := by
  induction vs generalizing c with
  | nil => exact ⟨c, rfl⟩
  | cons v vs ih =>
    obtain ⟨c1, h1⟩ := modData_isSome (f := VData.addUser u) (h v (by simp))
    obtain ⟨c2, h2⟩ := ih (c := c1) (fun w hw => (modData_data h1).2 (h w (by simp [hw])))
    exact ⟨c2, by simp only [Ctx.addUses, h1, h2]⟩

theorem delUses_isSome {vs : List Value} {c : Ctx} {u : Value} (h : ∀ v ∈ vs, (c.data v).isSome) :
    ∃ c', c.delUses u vs = some c' := by
  induction vs generalizing c with
  | nil => exact ⟨c, rfl⟩
  | cons v vs ih =>
    obtain ⟨c1, h1⟩ := modData_isSome (f := VData.delUser u) (h v (by simp))
    obtain ⟨c2, h2⟩ := ih (c := c1) (fun w hw => (modData_data h1).2 (h w (by simp [hw])))
    exact ⟨c2, by simp only [Ctx.delUses, h1, h2]⟩

theorem delUses_data {vs : List Value} {c c' : Ctx} {u w : Value} (h : c.delUses u vs = some c') :
    (c'.data w).isSome ↔ (c.data w).isSome := by
  obtain ⟨h1, h2, _⟩ := delUses_keep h
  have a := h1 w; have b := h2 w
  have e : ∀ o : Option VData, o.isSome = (kindOf o).isSome := fun o => by cases o <;> rfl
  rw [data_isSome_iff, data_isSome_iff, e, e, e (c.g.get? w), e (c.d.values.get? w), a, b]

theorem modBb_isSome {c : Ctx} {b : BB} {f : BData → BData} (h : (c.d.bbs.get? b).isSome) :
    ∃ c', c.modBb b f = some c' := by
  unfold Ctx.modBb
  cases hb : c.d.bbs.get? b with
  | some x => exact ⟨_, rfl⟩
  | none => simp [hb] at h

theorem addBbUses_isSome {bs : List BB} {c : Ctx} {u : Value} (h : ∀ b ∈ bs, (c.d.bbs.get? b).isSome) :
    ∃ c', c.addBbUses u bs = some c' := by
  induction bs generalizing c with
  | nil => exact ⟨c, rfl⟩
  | cons v vs ih =>
    obtain ⟨c1, h1⟩ := modBb_isSome (f := BData.addUser u) (h v (by simp))
    obtain ⟨c2, h2⟩ := ih (c := c1) (fun w hw => by
      rw [(modBb_eq h1).2.2.1]; simpa using h w (by simp [hw]))
    exact ⟨c2, by simp only [Ctx.addBbUses, h1, h2]⟩

theorem delBbUses_isSome {bs : List BB} {c : Ctx} {u : Value} (h : ∀ b ∈ bs, (c.d.bbs.get? b).isSome) :
    ∃ c', c.delBbUses u bs = some c' := by
  induction bs generalizing c with
  | nil => exact ⟨c, rfl⟩
  | cons v vs ih =>
    obtain ⟨c1, h1⟩ := modBb_isSome (f := BData.delUser u) (h v (by simp))
    obtain ⟨c2, h2⟩ := ih (c := c1) (fun w hw => by
      rw [(modBb_eq h1).2.2.1]; simpa using h w (by simp [hw]))
    exact ⟨c2, by simp only [Ctx.delBbUses, h1, h2]⟩

theorem delGlobalUses_isSome {vs : List Value} {g : Map Value VData} {u : Value}
    (h : ∀ v ∈ vs, (g.get? v).isSome) : ∃ g', delGlobalUses u g vs = some g' := by
  induction vs generalizing g with
  | nil => exact ⟨g, rfl⟩
  | cons v vs ih =>
    obtain ⟨x, hx⟩ := Option.isSome_iff_exists.1 (h v (by simp))
    obtain ⟨g', hg⟩ := ih (g := g.insert v (x.delUser u)) (fun w hw => by
      rw [Map.get?_insert]; split
      · rfl
      · exact h w (by simp [hw]))
    exact ⟨g', by simp only [delGlobalUses, hx, hg]⟩

/-- `data` after erasing a local. -/
theorem data_eraseLocal {c : Ctx} {v w : Value} (h : w ≠ v) : (c.eraseLocal v).data w = c.data w := by
  have e : (c.eraseLocal v).d.values.get? w = c.d.values.get? w := Map.get?_erase_ne _ h
  have e2 : (c.eraseLocal v).g = c.g := rfl
  unfold Ctx.data
  rw [e, e2]

theorem Inv.opsLive {S p f fd u x} (hi : Inv S p) (hf : p.funcs.get? f = some fd)
    (hu : fd.dfg.values.get? u = some x) :
    (∀ v ∈ operands x.kind, v ≠ u ∧ ((p.ctx fd).data v).isSome) ∧
    ∀ b ∈ targets x.kind, (fd.dfg.bbs.get? b).isSome := by
  refine ⟨fun v hv => ?_, fun b hb => ?_⟩
  · have huse : LocalUse p f u v := ⟨x, ⟨fd, hf, hu⟩, hv⟩
    refine ⟨?_, ?_⟩
    · rintro rfl; exact hi.noSelf f v huse
    · rw [data_isSome_iff]
      rcases hi.closedL f u v huse with ⟨y, hy⟩ | ⟨y, fd', hf', hy⟩
      · exact .inl (Option.isSome_iff_exists.2 ⟨y, hy⟩)
      · rw [hf] at hf'; cases hf'
        exact .inr (Option.isSome_iff_exists.2 ⟨y, hy⟩)
  · obtain ⟨y, fd', hf', hy⟩ := hi.closedB f u b ⟨x, ⟨fd, hf, hu⟩, hb⟩
    rw [hf] at hf'; cases hf'
    exact Option.isSome_iff_exists.2 ⟨y, hy⟩

theorem Inv.replace_total {S p f fd u x data} (hi : Inv S p) (hf : p.funcs.get? f = some fd)
    (hu : fd.dfg.values.get? u = some x)
    (hops : ∀ v ∈ operands data.kind, v ≠ u ∧ ((p.ctx fd).data v).isSome)
    (htgt : ∀ b ∈ targets data.kind, (fd.dfg.bbs.get? b).isSome) :
    ∃ c', (p.ctx fd).replaceValueWithData u data = some c' := by
  obtain ⟨ho, ht⟩ := hi.opsLive hf hu
  obtain ⟨c1, h1⟩ := delUses_isSome (c := (p.ctx fd).eraseLocal u) (u := u) (vs := operands x.kind)
    (fun v hv => by rw [data_eraseLocal (ho v hv).1]; exact (ho v hv).2)
  have k1 := delUses_keep h1
  obtain ⟨c2, h2⟩ := delBbUses_isSome (c := c1) (u := u) (bs := targets x.kind)
    (fun b hb => by rw [k1.2.2]; exact ht b hb)
  obtain ⟨g1, g2, g3, _⟩ := delBbUses_eq h2
  obtain ⟨c3, h3⟩ := addUses_isSome (c := c2) (u := u) (vs := operands data.kind) (fun v hv => by
    rw [data_isSome_iff, g1, g2, ← data_isSome_iff, delUses_data h1, data_eraseLocal (hops v hv).1]
    exact (hops v hv).2)
  have k3 := addUses_keep h3
  obtain ⟨c4, h4⟩ := addBbUses_isSome (c := c3) (u := u) (bs := targets data.kind) (fun b hb => by
    rw [k3.2.2, g3, k1.2.2, Option.isSome_map]; exact htgt b hb)
  have hu' : (p.ctx fd).d.values.get? u = some x := hu
  refine ⟨c4.insertLocal u { data with usedBy := x.usedBy }, ?_⟩
  unfold Ctx.replaceValueWithData
  simp only [Option.bind_eq_bind, hu', Option.bind_some, valueUses_eq, bbUses_eq, h1, h2, h3, h4]

theorem Inv.remove_total {S p f fd u x} (hi : Inv S p) (hf : p.funcs.get? f = some fd)
    (hu : fd.dfg.values.get? u = some x) (hn : x.usedBy = []) :
    ∃ c', (p.ctx fd).removeValue u = some (c', x) := by
  obtain ⟨ho, ht⟩ := hi.opsLive hf hu
  obtain ⟨c1, h1⟩ := delUses_isSome (c := (p.ctx fd).eraseLocal u) (u := u) (vs := operands x.kind)
    (fun v hv => by rw [data_eraseLocal (ho v hv).1]; exact (ho v hv).2)
  have k1 := delUses_keep h1
  obtain ⟨c2, h2⟩ := delBbUses_isSome (c := c1) (u := u) (bs := targets x.kind)
    (fun b hb => by rw [k1.2.2]; exact ht b hb)
  have hu' : (p.ctx fd).d.values.get? u = some x := hu
  refine ⟨c2, ?_⟩
  unfold Ctx.removeValue
  simp only [Option.bind_eq_bind, hu', Option.bind_some, valueUses_eq, bbUses_eq, h1, h2, guard, hn,
    if_true]
  rfl

/-- Everything about a value except its users. -/
def shapeOf (x : Option VData) : Option (Ty × Option Str × VKind) :=
  x.map (fun x => (x.ty, x.name, x.kind))

/-- What bookkeeping for users leaves alone. -/
structure Ctx.SameShape (c c' : Ctx) : Prop where
  g : ∀ w, shapeOf (c'.g.get? w) = shapeOf (c.g.get? w)
  v : ∀ w, shapeOf (c'.d.values.get? w) = shapeOf (c.d.values.get? w)
  b : ∀ w, (c'.d.bbs.get? w).map (fun x => (x.name, x.params)) =
    (c.d.bbs.get? w).map (fun x => (x.name, x.params))

theorem Ctx.SameShape.trans {a b c : Ctx} (h : a.SameShape b) (h' : b.SameShape c) : a.SameShape c :=
  ⟨fun w => by rw [h'.g, h.g], fun w => by rw [h'.v, h.v], fun w => by rw [h'.b, h.b]⟩

theorem modData_shape {c c' : Ctx} {v : Value} {f : VData → VData}
    (hk : ∀ x, (f x).ty = x.ty ∧ (f x).name = x.name ∧ (f x).kind = x.kind)
    (h : c.modData v f = some c') : c.SameShape c' := by
  unfold Ctx.modData at h
  split at h
  · rename_i x hx
    cases h
    refine ⟨fun w => ?_, fun w => rfl, fun _ => rfl⟩
    simp only [Map.get?_insert]
    by_cases hw : w = v
    · subst hw; simp [hx, shapeOf, hk]
    · simp [hw]
  · split at h
    · rename_i x hx
      cases h
      refine ⟨fun w => rfl, fun w => ?_, fun _ => rfl⟩
      simp only [Map.get?_insert]
      by_cases hw : w = v
      · subst hw; simp [hx, shapeOf, hk]
      · simp [hw]
    · cases h

theorem modBb_shape {c c' : Ctx} {b : BB} {f : BData → BData}
    (hk : ∀ x, (f x).name = x.name ∧ (f x).params = x.params)
    (h : c.modBb b f = some c') : c.SameShape c' := by
  unfold Ctx.modBb at h
  split at h
  · rename_i x hx
    cases h
    refine ⟨fun w => rfl, fun w => rfl, fun w => ?_⟩
    simp only [Map.get?_insert]
    by_cases hw : w = b
    · subst hw; simp [hx, hk]
    · simp [hw]
  · cases h

theorem addUses_shape {vs : List Value} {c c' : Ctx} {u : Value} (h : c.addUses u vs = some c') :
    c.SameShape c' := by
  induction vs generalizing c with
  | nil => simp only [Ctx.addUses, Option.some.injEq] at h; subst h; exact ⟨fun _ => rfl, fun _ => rfl, fun _ => rfl⟩
  | cons v vs ih =>
    simp only [Ctx.addUses] at h
    split at h
    · rename_i c1 h1
      exact (modData_shape (f := VData.addUser u) (fun _ => ⟨rfl, rfl, rfl⟩) h1).trans (ih h)
    · cases h

theorem delUses_shape {vs : List Value} {c c' : Ctx} {u : Value} (h : c.delUses u vs = some c') :
    c.SameShape c' := by
  induction vs generalizing c with
  | nil => simp only [Ctx.delUses, Option.some.injEq] at h; subst h; exact ⟨fun _ => rfl, fun _ => rfl, fun _ => rfl⟩
  | cons v vs ih =>
    simp only [Ctx.delUses] at h
    split at h
    · rename_i c1 h1
      exact (modData_shape (f := VData.delUser u) (fun _ => ⟨rfl, rfl, rfl⟩) h1).trans (ih h)
    · cases h

theorem addBbUses_shape {vs : List BB} {c c' : Ctx} {u : Value} (h : c.addBbUses u vs = some c') :
    c.SameShape c' := by
  induction vs generalizing c with
  | nil => simp only [Ctx.addBbUses, Option.some.injEq] at h; subst h; exact ⟨fun _ => rfl, fun _ => rfl, fun _ => rfl⟩
  | cons v vs ih =>
    simp only [Ctx.addBbUses] at h
    split at h
    · rename_i c1 h1
      exact (modBb_shape (f := BData.addUser u) (fun _ => ⟨rfl, rfl⟩) h1).trans (ih h)
    · cases h

theorem delBbUses_shape {vs : List BB} {c c' : Ctx} {u : Value} (h : c.delBbUses u vs = some c') :
    c.SameShape c' := by
  induction vs generalizing c with
  | nil => simp only [Ctx.delBbUses, Option.some.injEq] at h; subst h; exact ⟨fun _ => rfl, fun _ => rfl, fun _ => rfl⟩
  | cons v vs ih =>
    simp only [Ctx.delBbUses] at h
    split at h
    · rename_i c1 h1
      exact (modBb_shape (f := BData.delUser u) (fun _ => ⟨rfl, rfl⟩) h1).trans (ih h)
    · cases h

theorem replace_shape {c c' : Ctx} {v : Value} {data : VData}
    (h : c.replaceValueWithData v data = some c') :
    (∃ old, c.d.values.get? v = some old ∧
      c'.d.values.get? v = some { data with usedBy := old.usedBy }) ∧
    (∀ w, w ≠ v → shapeOf (c'.d.values.get? w) = shapeOf (c.d.values.get? w)) ∧
    (∀ w, shapeOf (c'.g.get? w) = shapeOf (c.g.get? w)) ∧
    (∀ w, (c'.d.bbs.get? w).map (fun x => (x.name, x.params)) =
      (c.d.bbs.get? w).map (fun x => (x.name, x.params))) := by
  unfold Ctx.replaceValueWithData at h
  simp only [Option.bind_eq_bind, Option.bind_eq_some_iff, Option.some.injEq] at h
  obtain ⟨old, ho, c1, h1, c2, h2, c3, h3, c4, h4, rfl⟩ := h
  have hs := (((delUses_shape h1).trans (delBbUses_shape h2)).trans (addUses_shape h3)).trans
    (addBbUses_shape h4)
  refine ⟨⟨old, ho, Map.get?_insert_self ..⟩, fun w hw => ?_, hs.g, hs.b⟩
  show shapeOf ((c4.d.values.insert v _).get? w) = _
  rw [Map.get?_insert_ne _ _ hw, hs.v]
  show shapeOf ((c.d.values.erase v).get? w) = _
  rw [Map.get?_erase_ne _ hw]

end Koopa
