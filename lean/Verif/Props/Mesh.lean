import Verif.Model.Mesh
import Mathlib.Data.List.Sort
import Mathlib.Tactic.IntervalCases

/-!
# Properties of the prepared mesh

C23 (masses), C24 (vertex order), C25 (fixed attribute), C26 (material ids).
-/

namespace Softy.Mesh

/-! ## C26: material ids -/

/-- The ids after normalisation are valid. -/
theorem normalizeId_range {n : ℕ} (hn : 0 < n) (id : ℤ) :
    0 ≤ normalizeId n id ∧ normalizeId n id < n := by
  unfold normalizeId; split <;> omega

/-- A valid id is not changed. -/
theorem normalizeId_valid {n : ℕ} {id : ℤ} (h0 : 0 ≤ id) (h : id < n) : normalizeId n id = id := by
  unfold normalizeId; split <;> omega

/-- **C26**, for meshes whose material attribute on the cells is of the builder's own type: the
builder leaves an attribute on the cells with one id per cell, every id indexes an existing
material, and ids which already did are unchanged. Missing: attributes of other types, see
`material_ids_unsigned_violated` and `material_ids_wide_violated`. -/
theorem material_ids_partial {n : ℕ} (hn : 0 < n) (a : Attrs) (ids : List ℤ)
    (ha : a.onCells = some ⟨.i32, ids⟩) :
    ∃ ids' : List ℤ, initMaterialId n a = .ok { a with onCells := some ⟨.i32, ids'⟩ } ∧
      ids'.length = ids.length ∧ (∀ id ∈ ids', 0 ≤ id ∧ id < n) ∧
      ∀ (i : ℕ) (id : ℤ), ids[i]? = some id → 0 ≤ id → id < n → ids'[i]? = some id := by
  refine ⟨ids.map (normalizeId n), ?_, by simp, ?_, ?_⟩
  · rw [initMaterialId, ha]
  · intro id hid
    obtain ⟨v, -, rfl⟩ := List.mem_map.1 hid
    exact normalizeId_range hn v
  · intro i id hi h0 h
    rw [List.getElem?_map, hi, Option.map_some, normalizeId_valid h0 h]

example : ∃ ids', initMaterialId 3 ⟨5, 4, some ⟨.i32, [-4, 0, 2, 7]⟩, none⟩ =
    .ok ⟨5, 4, some ⟨.i32, ids'⟩, none⟩ ∧ ids' = [0, 0, 2, 0] :=
  ⟨_, rfl, by norm_num [normalizeId]⟩

/-- Without a material attribute all cells have material zero, which exists. -/
theorem material_ids_default {n : ℕ} (a : Attrs) (ha : a.onCells = none) :
    initMaterialId n a = .ok { a with onCells := some ⟨.i32, List.replicate a.numCells 0⟩ } := by
  rw [initMaterialId, ha]

/-- With an attribute of unsigned type the ids are stored on the vertices: no cell has an id,
or the builder returns an error. -/
theorem initMaterialId_unsigned {n : ℕ} (a : Attrs) (ids : List ℤ)
    (ha : a.onCells = some ⟨.u8, ids⟩ ∨ a.onCells = some ⟨.u32, ids⟩) (b : Attrs)
    (hb : initMaterialId n a = .ok b) : b.onCells = none := by
  rcases ha with ha | ha <;> rw [initMaterialId, ha] at hb <;>
  · simp only [insertOnVerts] at hb
    split at hb
    · cases hb
    · cases hb; rfl

/-- **C26 is violated** for unsigned attributes: although all ids of the mesh may be valid, no
solver can be built from it. -/
theorem material_ids_unsigned_violated {P : Type*} (materials : List Material) (m : Input P)
    (ids : List ℤ) (ha : m.mtl.onCells = some ⟨.u8, ids⟩ ∨ m.mtl.onCells = some ⟨.u32, ids⟩)
    (s : State P) : build materials m ≠ .ok s := by
  intro h
  unfold build prepare at h
  cases hb : initMaterialId materials.length m.mtl with
  | error f => rw [hb] at h; cases h
  | ok b => rw [hb] at h; simp [assignMaterials, initMaterialId_unsigned _ _ ha _ hb] at h

/-- **C26 is violated** for attributes of other integer types: valid ids are lost. -/
theorem material_ids_wide_violated : ∃ (a b : Attrs) (i : ℕ) (id : ℤ) (ids : List ℤ),
    a.onCells = some ⟨.i64, ids⟩ ∧ ids[i]? = some id ∧ 0 ≤ id ∧ id < 2 ∧
    initMaterialId 2 a = .ok b ∧ b.onCells = some ⟨.i32, [0]⟩ ∧ id ≠ 0 :=
  ⟨⟨3, 1, some ⟨.i64, [1]⟩, none⟩, _, 0, 1, [1], rfl, rfl, by norm_num, by norm_num, rfl, rfl,
    by norm_num⟩

/-- If every id is valid all material lookups succeed. -/
theorem withMaterials_some (cells : List Cell) (materials : List Material)
    (h : ∀ c ∈ cells, 0 ≤ c.mtl ∧ c.mtl < materials.length) :
    ∃ l, withMaterials cells materials = some l ∧ l.map Prod.fst = cells ∧
      ∀ c ∈ l, materials[c.1.mtl.toNat]? = some c.2 := by
  induction cells with
  | nil => exact ⟨[], rfl, rfl, by simp⟩
  | cons c t ih =>
    obtain ⟨l, hl, hf, hm⟩ := ih fun d hd => h d (List.mem_cons_of_mem _ hd)
    have hc := h c List.mem_cons_self
    have hlt : (max c.mtl 0).toNat < materials.length := by omega
    refine ⟨(c, materials[(max c.mtl 0).toNat]) :: l, ?_, by simp [hf], ?_⟩
    · simp only [withMaterials] at hl ⊢
      simp [List.mapM_cons, hl, List.getElem?_eq_getElem hlt]
    · intro d hd
      rcases List.mem_cons.1 hd with rfl | hd
      · have : (max c.mtl 0).toNat = c.mtl.toNat := by omega
        simp only [this] at hlt ⊢
        exact List.getElem?_eq_getElem hlt
      · exact hm d hd

/-- With at least one material and an attribute of the builder's own type (or none), material
lookups never panic while the mesh is prepared. -/
theorem prepare_no_panic {P : Type*} (materials : List Material) (hn : materials ≠ [])
    (m : Input P) (ids : List ℤ)
    (ha : m.mtl.onCells = some ⟨.i32, ids⟩ ∨ m.mtl.onCells = none) :
    ∃ r, prepare materials m = .ok r := by
  have hpos : 0 < materials.length := List.length_pos_iff.2 hn
  obtain ⟨b, ids', hb, hb', hr⟩ : ∃ b ids', initMaterialId materials.length m.mtl = .ok b ∧
      b.onCells = some ⟨.i32, ids'⟩ ∧ ∀ id ∈ ids', 0 ≤ id ∧ id < materials.length := by
    rcases ha with ha | ha
    · obtain ⟨ids', h, -, hr, -⟩ := material_ids_partial hpos _ _ ha
      exact ⟨_, ids', h, rfl, hr⟩
    · refine ⟨_, _, material_ids_default _ ha, rfl, ?_⟩
      intro id hid
      rw [List.eq_of_mem_replicate hid]
      omega
  obtain ⟨l, hl, -⟩ := withMaterials_some
    ((m.cells.zip ids').map fun c => { c.1 with mtl := c.2 }) materials (by
      intro c hc
      obtain ⟨d, hd, rfl⟩ := List.mem_map.1 hc
      exact hr _ (List.of_mem_zip hd).2)
  exact ⟨_, by simp only [prepare, hb, assignMaterials, hb', hl]; rfl⟩

example : (⟨.i32, [5, 1]⟩ : IntAttr).WF ∧ ([Material.fixed] : List Material) ≠ [] := by
  constructor
  · intro v hv
    simp only [List.mem_cons, List.not_mem_nil, or_false] at hv
    rcases hv with rfl | rfl <;> norm_num [AttrType.range]
  · simp

/-! ## Vertex types -/

theorem markCell_get (t : VertexType) (verts : List ℕ) (vt : List VertexType) (v : ℕ) :
    (markCell t vt verts)[v]? =
      (vt[v]?).map fun x => if x = .ignored ∧ v ∈ verts then t else x := by
  induction verts generalizing vt with
  | nil => simp [markCell]
  | cons i r ih =>
    have : markCell t vt (i :: r) =
      markCell t (vt.modify i fun x => if x = .ignored then t else x) r := rfl
    rw [this, ih, List.getElem?_modify]
    rcases hv : vt[v]? with - | x
    · simp
    · by_cases hi : i = v
      · subst hi
        by_cases hx : x = .ignored
        · subst hx
          change some (if (if _ then t else _) = VertexType.ignored ∧ i ∈ r then t else _) = _
          simp
        · simp [hx]
      · simp [hi, Ne.symm hi]

open Classical in
theorem mark_get (t : VertexType) (p : Cell × Material → Bool) (cells : List (Cell × Material))
    (vt : List VertexType) (v : ℕ) :
    (cells.foldl (fun vt c => if p c then markCell t vt c.1.verts else vt) vt)[v]? =
      (vt[v]?).map fun x =>
        if x = .ignored ∧ ∃ c ∈ cells, p c = true ∧ v ∈ c.1.verts then t else x := by
  induction cells generalizing vt with
  | nil => simp
  | cons c r ih =>
    rw [List.foldl_cons, ih]
    rcases hv : vt[v]? with - | x
    · split <;> simp [markCell_get, hv]
    · by_cases hp : p c = true
      · rw [if_pos hp, markCell_get, hv]
        simp only [hp, Option.map_some, List.mem_cons, exists_eq_or_imp, true_and]
        refine congrArg some ?_
        by_cases hx : x = .ignored
        · by_cases hm : v ∈ c.1.verts
          · simp [hx, hm]
          · simp [hx, hm]
        · simp [hx]
      · rw [if_neg hp, hv]
        simp only [hp, Option.map_some, List.mem_cons, exists_eq_or_imp, Bool.false_eq_true,
          false_and, false_or]

/-- What the type of a vertex says about the user's mesh: the fixed attribute decides first, then
rigid cells, then soft cells. -/
def typeSpec (isFixed isRigid isSoft : Prop) [Decidable isFixed] [Decidable isRigid]
    [Decidable isSoft] : VertexType :=
  if isFixed then .fixed else if isRigid then .rigid else if isSoft then .free else .ignored

open Classical in
/-- The type of every vertex. -/
theorem vertexTypes_get (fixed : List ℤ) (cells : List (Cell × Material)) (v : ℕ) :
    (vertexTypes fixed cells)[v]? = (fixed[v]?).map fun x =>
      typeSpec (0 < x) (∃ c ∈ cells, c.2.isRigid = true ∧ v ∈ c.1.verts)
        (∃ c ∈ cells, (c.2.isSoft = true ∧ c.1.valid) ∧ v ∈ c.1.verts) := by
  have h1 := mark_get .free (fun c => decide (c.2.isSoft = true ∧ c.1.valid)) cells
    (markRigid cells (fixedTypes fixed)) v
  simp only [decide_eq_true_eq] at h1
  have h2 := mark_get .rigid (fun c => c.2.isRigid) cells (fixedTypes fixed) v
  rw [vertexTypes]
  refine Eq.trans (h1 : (markFree _ _)[v]? = _) ?_
  rw [show (markRigid cells (fixedTypes fixed))[v]? = _ from h2, fixedTypes, List.getElem?_map]
  rcases fixed[v]? with - | x
  · rfl
  · simp only [Option.map_some]
    refine congrArg some ?_
    unfold typeSpec
    by_cases hx : 0 < x
    · simp [hx]
    · simp only [gt_iff_lt, hx, if_false, true_and]
      split_ifs <;> simp_all

theorem vertexTypes_length (fixed : List ℤ) (cells : List (Cell × Material)) :
    (vertexTypes fixed cells).length = fixed.length := by
  have h : ∀ v : ℕ, (vertexTypes fixed cells)[v]? = none ↔ fixed[v]? = none := by
    intro v; rw [vertexTypes_get]; simp
  simp only [List.getElem?_eq_none_iff] at h
  have h1 := (h (vertexTypes fixed cells).length).1 le_rfl
  have h2 := (h fixed.length).2 le_rfl
  omega

/-! ## C25: the fixed attribute -/

/-- The integer types the builder reads the fixed attribute from. -/
def AttrType.supported (t : AttrType) : Prop := t ≠ .other

theorem initFixed_length (n : ℕ) (a : Option IntAttr) (h : ∀ b, a = some b → b.vals.length = n) :
    (initFixed n a).length = n := by
  rcases a with - | ⟨ty, vals⟩
  · simp [initFixed]
  · have := h _ rfl
    cases ty <;> simpa [initFixed] using this

theorem initFixed_get (n : ℕ) (ty : AttrType) (hty : ty.supported) (vals : List ℤ)
    (hwf : IntAttr.WF ⟨ty, vals⟩) (v : ℕ) :
    (initFixed n (some ⟨ty, vals⟩))[v]? =
      (vals[v]?).map fun x => if -128 ≤ x ∧ x ≤ 127 ∧ x ≠ 0 then 1 else 0 := by
  have key : ∀ x : ℤ, normalizeFixed (convert .i8 x) =
      if -128 ≤ x ∧ x ≤ 127 ∧ x ≠ 0 then 1 else 0 := by
    intro x
    simp only [normalizeFixed, convert, AttrType.range]
    norm_num
  cases ty
  case other => exact absurd rfl hty
  case i8 =>
    simp only [initFixed, List.getElem?_map]
    rcases hx : vals[v]? with - | x
    · rfl
    · have := hwf x (List.mem_of_getElem? hx)
      simp only [AttrType.range] at this
      norm_num at this
      simp only [Option.map_some, normalizeFixed]
      refine congrArg some ?_
      split_ifs <;> first | rfl | omega
  all_goals
    simp only [initFixed, List.getElem?_map]
    refine congrArg (fun f => Option.map f vals[v]?) (funext key)

/-- **C25**, for values that fit in a byte: for every supported integer type, a vertex is fixed
exactly if its value is not zero, whatever the cells and materials are. Missing: other values,
see `fixed_wide_violated`. -/
theorem fixed_attr_partial {P : Type*} (materials : List Material) (m : Input P) (ty : AttrType)
    (hty : ty.supported) (vals : List ℤ) (hf : m.fixed = some ⟨ty, vals⟩)
    (hwf : IntAttr.WF ⟨ty, vals⟩) (mcells : List (Cell × Material)) (vt : List VertexType)
    (hp : prepare materials m = .ok (mcells, vt)) (v : ℕ) (x : ℤ) (hx : vals[v]? = some x)
    (hbyte : -128 ≤ x ∧ x ≤ 127) : vt[v]? = some .fixed ↔ x ≠ 0 := by
  have hvt : vt = vertexTypes (initFixed m.verts.length m.fixed) mcells := by
    unfold prepare at hp
    split at hp
    · cases hp
    · split at hp
      · cases hp
      · split at hp
        · cases hp
        · cases hp; rfl
  rw [hvt, vertexTypes_get, hf, initFixed_get _ _ hty _ hwf, hx]
  simp only [Option.map_some, Option.some.injEq, typeSpec]
  by_cases h0 : x = 0
  · simp only [h0]
    norm_num
    split_ifs <;> simp
  · simp [h0, hbyte.1, hbyte.2]

theorem prepare_types {P : Type*} {materials : List Material} {m : Input P}
    {mcells : List (Cell × Material)} {vt : List VertexType}
    (hp : prepare materials m = .ok (mcells, vt)) :
    vt = vertexTypes (initFixed m.verts.length m.fixed) mcells := by
  unfold prepare at hp
  split at hp
  · cases hp
  · split at hp
    · cases hp
    · split at hp
      · cases hp
      · cases hp; rfl

/-- **C25 is violated** for every value that does not fit in a byte: the vertex is not fixed. -/
theorem fixed_wide_violated {P : Type*} (materials : List Material) (m : Input P) (ty : AttrType)
    (hty : ty.supported) (vals : List ℤ) (hf : m.fixed = some ⟨ty, vals⟩)
    (hwf : IntAttr.WF ⟨ty, vals⟩) (mcells : List (Cell × Material)) (vt : List VertexType)
    (hp : prepare materials m = .ok (mcells, vt)) (v : ℕ) (x : ℤ) (hx : vals[v]? = some x)
    (hwide : x < -128 ∨ 127 < x) : vt[v]? ≠ some .fixed := by
  rw [prepare_types hp, vertexTypes_get, hf, initFixed_get _ _ hty _ hwf, hx]
  have : ¬ (-128 ≤ x ∧ x ≤ 127 ∧ x ≠ 0) := by omega
  simp only [Option.map_some, this, if_false, typeSpec]
  norm_num
  split_ifs <;> simp

/-- Both cases occur: in an unsigned byte attribute the value `1` fixes a vertex and the value
`200` does not. -/
example : ∃ vt mc, prepare (P := ℕ) [.softShell (some 1)]
    ⟨[⟨0, 0⟩, ⟨1, 0⟩, ⟨2, 0⟩], none, some ⟨.u8, [1, 200, 0]⟩, ⟨3, 1, none, none⟩,
      [⟨.triangle, [0, 1, 2], 1, none, 0⟩]⟩ = .ok (mc, vt) ∧
    vt = [.fixed, .free, .free] := by
  refine ⟨_, _, rfl, ?_⟩
  norm_num [initFixed, convert, normalizeFixed, AttrType.range, vertexTypes, markFree, markRigid,
    markCell, fixedTypes, Material.isRigid, Material.isSoft, Cell.valid, CellType.size,
    List.modify_cons]
  intro h
  cases h

end Softy.Mesh
