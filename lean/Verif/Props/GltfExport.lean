import Verif.Lemmas.GltfExport

/-!
# C89: meshes of glTF files
-/

namespace Softy.Gltf

/-! ## Specification -/

/-- Cells refer to vertices, and attributes have one element for each vertex or cell. -/
structure Valid (m : Mesh) : Prop where
  cells : ∀ c ∈ m.cells, ∀ i ∈ c, i < m.pos.length
  vattrs : ∀ e ∈ m.vattrs, e.2.data.length = m.pos.length
  cattrs : ∀ e ∈ m.cattrs, e.2.data.length = m.cells.length

/-- Type and value of each attribute of element `i`. -/
def attrs (d : Dict) (i : ℕ) (name : String) : Option (Ty × Option Value) :=
  (d.lookup name).map fun A => (A.type, A.data[i]?)

/-- What a vertex looks like: its position and attributes. -/
abbrev Corner := Option (ℝ × ℝ × ℝ) × (String → Option (Ty × Option Value))

/-- What a cell looks like: its corners and attributes. -/
abbrev Shape := List Corner × (String → Option (Ty × Option Value))

/-- See `Corner`. -/
def corner (m : Mesh) (i : ℕ) : Corner := (m.pos[i]?, attrs m.vattrs i)

/-- See `Shape`. -/
def shapes (m : Mesh) : List Shape := m.cells.zipIdx.map fun c => (c.1.map (corner m), attrs m.cattrs c.2)

/-- The mesh with rounded positions. -/
def rounded (r32 : ℝ → ℝ) (m : Mesh) : Mesh :=
  { m with pos := m.pos.map fun p => (r32 p.1, r32 p.2.1, r32 p.2.2) }

/-- What the exported triangles should look like: the triangles of the mesh and the faces of exactly one
tetrahedron. -/
def expected (m : Mesh) : List Shape :=
  (shapes m).filter (fun s => s.1.length = 3) ++
    (boundary (m.cells.zipIdx.filter fun c => c.1.length = 4)).map fun f =>
      (f.1.map (corner m), attrs m.cattrs f.2)

/-! ## Parts -/

theorem attrs_map (d : Dict) (f : List Value → List Value) (i : ℕ) (name : String) :
    attrs (d.map fun e => (e.1, ⟨e.2.type, f e.2.data⟩)) i name =
      (d.lookup name).map fun A => (A.type, (f A.data)[i]?) := by
  unfold attrs
  rw [lookup_map d fun A => ⟨A.type, f A.data⟩, Option.map_map]
  rfl

/-- The names and types of attributes agree. -/
def SameDict (a b : Dict) : Prop := ∀ name, (a.lookup name).map Attrib.type = (b.lookup name).map Attrib.type

theorem sameDict_map (d : Dict) (f : List Value → List Value) :
    SameDict (d.map fun e => (e.1, ⟨e.2.type, f e.2.data⟩)) d := by
  intro name
  rw [lookup_map d fun A => ⟨A.type, f A.data⟩, Option.map_map]
  rfl

/-- What is known about the mesh of cells with `k` vertices. -/
structure IsPart (k : ℕ) (m r : Mesh) : Prop where
  valid : Valid r
  vsame : SameDict r.vattrs m.vattrs
  csame : SameDict r.cattrs m.cattrs
  cells : r.cells = (m.cells.filter fun c => c.length = k).map fun c => c.map (rank (used k m.cells))
  corner : ∀ c ∈ m.cells, c.length = k → ∀ i ∈ c, corner r (rank (used k m.cells) i) = Gltf.corner m i
  cattrs : ∀ j, at' (fun c => decide (c.length = k)) m.cells j →
    attrs r.cattrs (rank (at' (fun c => decide (c.length = k)) m.cells) j) = attrs m.cattrs j
  inUse : ∀ i < r.pos.length, ∃ c ∈ r.cells, i ∈ c

theorem used_of {k : ℕ} {cells : List (List ℕ)} {c : List ℕ} {i : ℕ} (hc : c ∈ cells) (hk : c.length = k)
    (hi : i ∈ c) : used k cells i := by
  unfold used
  exact decide_eq_true ⟨c, hc, hk, hi⟩

theorem part_spec (r32 : ℝ → ℝ) (k : ℕ) (m : Mesh) (h : Valid m) :
    ∃ r, part r32 k m = some r ∧ IsPart k (rounded r32 m) r := by
  unfold part
  rw [mark_eq _ k m.cells h.cells]
  simp only [Option.bind_some]
  rw [number_eq]
  simp only
  set P := used k m.cells with hP
  set Q := at' (fun c : List ℕ => decide (c.length = k)) m.cells with hQ
  rw [mapM_map _ (fun c => c.map (rank P))]
  swap
  · intro c hc
    rw [List.mem_filter] at hc
    apply mapM_map
    intro i hi
    exact index_eq P _ i (used_of hc.1 (by simpa using hc.2) hi) (h.cells c hc.1 i hi)
  refine ⟨_, rfl, ?_⟩
  have hlen : (m.cells.filter fun c => decide (c.length = k)).length = rank Q m.cells.length := by
    rw [filter_sel, sel_length]
  have hv : ∀ e ∈ m.vattrs, pick (numbers P 0 m.pos.length) e.2.data = sel P e.2.data := by
    intro e he
    rw [← h.vattrs e he, pick_eq]
  have hc : ∀ e ∈ m.cattrs, pickCells k m.cells e.2.data = sel Q e.2.data := by
    intro e he
    rw [pickCells_eq k _ _ (h.cattrs e he).symm]
  refine ⟨⟨?_, ?_, ?_⟩, sameDict_map _ _, sameDict_map _ _, rfl, ?_, ?_, ?_⟩
  · simp only [List.mem_map, List.mem_filter, forall_exists_index, and_imp]
    rintro _ c hc hk rfl i hi
    rw [List.mem_map] at hi
    obtain ⟨j, hj, rfl⟩ := hi
    rw [sel_length, List.length_map]
    exact rank_lt P j _ (used_of hc (by simpa using hk) hj) (h.cells c hc j hj)
  · simp only [List.mem_map, forall_exists_index, and_imp]
    rintro _ e he rfl
    simp only
    rw [hv e he, sel_length, sel_length, List.length_map, h.vattrs e he]
  · simp only [List.mem_map, forall_exists_index, and_imp]
    rintro _ e he rfl
    simp only
    rw [hc e he, sel_length, List.length_map, hlen, h.cattrs e he]
  · intro c hc hk i hi
    have hu : P i := used_of hc hk hi
    unfold corner
    refine Prod.ext ?_ ?_
    · exact sel_get P _ i hu
    · funext name
      simp only [rounded]
      rw [attrs_map]
      unfold attrs
      cases hl : m.vattrs.lookup name with
      | none => rfl
      | some A =>
        simp only [Option.map_some]
        rw [hv _ (lookup_mem hl)]
        simp only
        rw [show rank (used k m.cells) i = rank P i from rfl, sel_get P _ i hu]
  · intro j hj
    funext name
    simp only [rounded]
    rw [attrs_map]
    unfold attrs
    cases hl : m.cattrs.lookup name with
    | none => rfl
    | some A =>
      simp only [Option.map_some]
      rw [hc _ (lookup_mem hl)]
      simp only
      rw [sel_get Q _ j hj]
  · intro i hi
    simp only [sel_length, List.length_map] at hi
    obtain ⟨j, _, hu, rfl⟩ := rank_surj P _ i hi
    rw [hP] at hu
    unfold used at hu
    obtain ⟨c, hc, hk, hj⟩ := of_decide_eq_true hu
    refine ⟨c.map (rank P), ?_, List.mem_map_of_mem hj⟩
    exact List.mem_map.2 ⟨c, List.mem_filter.2 ⟨hc, by simpa using hk⟩, rfl⟩

theorem zipIdx_get {α : Type} (l : List α) (i : ℕ) : l.zipIdx[i]? = l[i]?.map fun a => (a, i) := by
  rw [List.getElem?_zipIdx]
  simp

/-- The cells of a part with the indices of the cells they came from. -/
theorem part_zip {k : ℕ} {m r : Mesh} (h : IsPart k m r) :
    ∃ L : List (List ℕ × ℕ × ℕ),
      L.map (fun t => (t.1, t.2.1)) = m.cells.zipIdx.filter (fun c => c.1.length = k) ∧
      L.map (fun t => (t.1.map (rank (used k m.cells)), t.2.2)) = r.cells.zipIdx ∧
      ∀ t ∈ L, t.1 ∈ m.cells ∧ t.1.length = k ∧ attrs r.cattrs t.2.2 = attrs m.cattrs t.2.1 := by
  set Q := at' (fun c : List ℕ => decide (c.length = k)) m.cells with hQ
  have e : m.cells.zipIdx.filter (fun c => c.1.length = k) = sel Q m.cells.zipIdx := by
    rw [filter_sel]
    congr 1
    have : m.cells = m.cells.zipIdx.map Prod.fst := by simp
    rw [hQ]
    conv_rhs => rw [this]
    rw [at_map]
  have e2 : (m.cells.filter fun c => c.length = k) = (sel Q m.cells.zipIdx).map Prod.fst := by
    rw [← sel_map, filter_sel]
    simp [hQ]
  refine ⟨(sel Q m.cells.zipIdx).zipIdx.map fun t => (t.1.1, t.1.2, t.2), ?_, ?_, ?_⟩
  · rw [List.map_map, e]
    conv_rhs => rw [← List.zipIdx_map_fst 0 (sel Q m.cells.zipIdx)]
    rfl
  · rw [h.cells, e2, List.map_map, List.map_map, List.zipIdx_map]
    rfl
  · intro t ht
    rw [List.mem_map] at ht
    obtain ⟨⟨⟨c, j⟩, j'⟩, hm, rfl⟩ := ht
    rw [List.mem_zipIdx_iff_getElem?] at hm
    obtain ⟨i, hq, hr, hi⟩ := sel_exists Q _ _ _ hm
    rw [zipIdx_get] at hi
    cases hc : m.cells[i]? with
    | none => rw [hc] at hi; cases hi
    | some c' =>
      rw [hc] at hi
      simp only [Option.map_some, Option.some.injEq, Prod.mk.injEq] at hi
      obtain ⟨rfl, rfl⟩ := hi
      refine ⟨List.mem_of_getElem? hc, ?_, ?_⟩
      · obtain ⟨a, ha, hk⟩ := at_of_get hq
        rw [hc] at ha
        cases ha
        simpa using hk
      · simp only at hr ⊢
        rw [← hr]
        exact h.cattrs _ hq

theorem part_shapes {k : ℕ} {m r : Mesh} (h : IsPart k m r) :
    shapes r = (shapes m).filter fun s => s.1.length = k := by
  obtain ⟨L, h1, h2, h3⟩ := part_zip h
  unfold shapes
  rw [List.filter_map]
  have e : m.cells.zipIdx.filter ((fun s : Shape => decide (s.1.length = k)) ∘ fun c =>
      (c.1.map (corner m), attrs m.cattrs c.2)) = m.cells.zipIdx.filter fun c => c.1.length = k := by
    apply List.filter_congr
    intro c _
    simp
  rw [e, ← h1, ← h2, List.map_map, List.map_map]
  apply List.map_congr_left
  intro t ht
  obtain ⟨hm, hk, ha⟩ := h3 t ht
  simp only [Function.comp_apply, ha, List.map_map, Prod.mk.injEq, and_true]
  exact List.map_congr_left fun i hi => h.corner _ hm hk i hi

theorem rounded_id (m : Mesh) : rounded id m = m := by simp [rounded]

theorem surface_spec (r : Mesh) (hr : Valid r) :
    ∃ s, surfaceTrimesh r = some s ∧ Valid s ∧ SameDict s.vattrs r.vattrs ∧ SameDict s.cattrs r.cattrs ∧
      (∀ c ∈ s.cells, c.length = 3) ∧ (∀ i < s.pos.length, ∃ c ∈ s.cells, i ∈ c) ∧
      shapes s = (boundary r.cells.zipIdx).map fun f => (f.1.map (corner r), attrs r.cattrs f.2) := by
  set b := boundary r.cells.zipIdx with hb
  have hmem : ∀ f ∈ b, f.1.length = 3 ∧ f.2 < r.cells.length ∧ ∀ i ∈ f.1, i < r.pos.length := by
    intro f hf
    obtain ⟨h3, c, hc, hi⟩ := boundary_mem hf
    rw [List.mem_zipIdx_iff_getElem?] at hc
    obtain ⟨hl, he⟩ := List.getElem?_eq_some_iff.1 hc
    exact ⟨h3, hl, fun i h => hr.cells c (List.mem_of_getElem? hc) i (hi i h)⟩
  set S : Mesh :=
    { r with
      cells := b.map fun f => f.1
      cattrs := r.cattrs.map fun e => (e.1, ⟨e.2.type, b.filterMap fun f => e.2.data[f.2]?⟩) } with hS
  have hdata : ∀ data : List Value, data.length = r.cells.length →
      ∀ j : ℕ, (b.filterMap fun f => data[f.2]?)[j]? = b[j]?.bind fun f : List ℕ × ℕ => data[f.2]? := by
    intro data hd
    have key : ∀ l : List (List ℕ × ℕ), (∀ f ∈ l, f.2 < data.length) →
        ∀ j : ℕ, (l.filterMap fun f => data[f.2]?)[j]? = l[j]?.bind fun f : List ℕ × ℕ => data[f.2]? := by
      intro l
      induction l with
      | nil => intro _ j; simp
      | cons f l ih =>
        intro hl j
        have hf := hl f (by simp)
        rw [List.filterMap_cons, List.getElem?_eq_getElem hf]
        simp only
        cases j with
        | zero => simp [hf]
        | succ j =>
          rw [List.getElem?_cons_succ, List.getElem?_cons_succ, ih fun f hf => hl f (List.mem_cons_of_mem _ hf)]
    exact key b fun f hf => by rw [hd]; exact (hmem f hf).2.1
  have hSv : Valid S := by
    refine ⟨?_, hr.vattrs, ?_⟩
    · intro c hc i hi
      rw [hS] at hc
      obtain ⟨f, hf, rfl⟩ := List.mem_map.1 hc
      exact (hmem f hf).2.2 i hi
    · intro e he
      rw [hS] at he
      obtain ⟨e', he', rfl⟩ := List.mem_map.1 he
      have hl := hr.cattrs e' he'
      simp only [hS, List.length_map]
      have hd := hdata e'.2.data hl
      apply le_antisymm
      · exact List.length_filterMap_le _ _
      · by_contra hlt
        push Not at hlt
        have := hd (b.filterMap fun f => e'.2.data[f.2]?).length
        rw [List.getElem?_eq_none le_rfl, List.getElem?_eq_getElem hlt, Option.bind_some,
          List.getElem?_eq_getElem (by rw [hl]; exact (hmem _ (List.getElem_mem hlt)).2.1)] at this
        cases this
  obtain ⟨s, hs, hp⟩ := part_spec id 3 S hSv
  rw [rounded_id] at hp
  have hall : (S.cells.filter fun c => c.length = 3) = S.cells := by
    rw [List.filter_eq_self]
    intro c hc
    rw [hS] at hc
    obtain ⟨f, hf, rfl⟩ := List.mem_map.1 hc
    simpa using (hmem f hf).1
  refine ⟨s, hs, hp.valid, hp.vsame, ?_, ?_, hp.inUse, ?_⟩
  · intro name
    rw [hp.csame name]
    exact sameDict_map r.cattrs (fun d => b.filterMap fun f => d[f.2]?) name
  · intro c hc
    rw [hp.cells, hall] at hc
    obtain ⟨c', hc', rfl⟩ := List.mem_map.1 hc
    rw [hS] at hc'
    obtain ⟨f, hf, rfl⟩ := List.mem_map.1 hc'
    simpa using (hmem f hf).1
  · rw [part_shapes hp]
    have : shapes S = b.map fun f => (f.1.map (corner r), attrs r.cattrs f.2) := by
      unfold shapes
      apply List.ext_getElem?
      intro j
      rw [List.getElem?_map, zipIdx_get, List.getElem?_map, hS]
      simp only [List.getElem?_map]
      cases hj : b[j]? with
      | none => rfl
      | some f =>
        simp only [Option.map_some, Option.some.injEq]
        refine Prod.ext rfl ?_
        funext name
        simp only
        rw [attrs_map r.cattrs (fun d => b.filterMap fun f => d[f.2]?)]
        unfold attrs
        cases hl : r.cattrs.lookup name with
        | none => rfl
        | some A =>
          simp only [Option.map_some]
          rw [hdata A.data (hr.cattrs _ (lookup_mem hl)), hj]
          rfl
    rw [this, List.filter_eq_self]
    intro s hs
    obtain ⟨f, hf, rfl⟩ := List.mem_map.1 hs
    simpa using (hmem f hf).1

/-! ## Merging -/

theorem lookup_append (a b : Dict) (name : String) : (a ++ b).lookup name = (a.lookup name).or (b.lookup name) := by
  rw [List.lookup_append]

theorem lookup_filter_none (b : Dict) (p : String × Attrib → Bool) (name : String) (h : b.lookup name = none) :
    (b.filter p).lookup name = none := by
  rw [List.lookup_eq_none_iff] at h ⊢
  intro q hq
  exact h q (List.mem_of_mem_filter hq)

theorem merge_lookup (na nb : ℕ) (a b : Dict) (h : SameDict a b) (name : String) :
    (mergeDict na nb a b).lookup name = (a.lookup name).bind fun A => (b.lookup name).map fun B =>
      (⟨A.type, A.data ++ B.data⟩ : Attrib) := by
  unfold mergeDict
  rw [lookup_append]
  have hn := h name
  have key : ∀ a : Dict, ((a.map fun e => (e.1, (⟨e.2.type, e.2.data ++ added nb e.2.type (b.lookup e.1)⟩ :
      Attrib))).lookup name) =
      (a.lookup name).map fun A => ⟨A.type, A.data ++ added nb A.type (b.lookup name)⟩ := by
    intro a
    induction a with
    | nil => rfl
    | cons e a ih =>
      obtain ⟨n, A⟩ := e
      rw [List.map_cons, List.lookup_cons, List.lookup_cons, ih]
      by_cases hh : name = n
      · subst hh
        simp
      · rw [beq_false_of_ne hh]
  rw [key]
  cases ha : a.lookup name with
  | none =>
    rw [ha] at hn
    have hb : b.lookup name = none := by
      cases hb : b.lookup name with
      | none => rfl
      | some B => rw [hb] at hn; cases hn
    simp only [Option.map_none, Option.none_or, Option.bind_none]
    rw [lookup_map (b.filter _) fun A => ⟨A.type, List.replicate na A.type.default ++ A.data⟩,
      lookup_filter_none b _ name hb]
    rfl
  | some A =>
    rw [ha] at hn
    cases hb : b.lookup name with
    | none => rw [hb] at hn; cases hn
    | some B =>
      rw [hb] at hn
      simp only [Option.map_some, Option.some.injEq] at hn
      simp [added, hn]

theorem merge_attrs_left (na nb : ℕ) (a b : Dict) (h : SameDict a b) (ha : ∀ e ∈ a, e.2.data.length = na)
    (i : ℕ) (hi : i < na) : attrs (mergeDict na nb a b) i = attrs a i := by
  funext name
  unfold attrs
  rw [merge_lookup na nb a b h]
  have hn := h name
  cases hla : a.lookup name with
  | none => rfl
  | some A =>
    cases hlb : b.lookup name with
    | none => rw [hla, hlb] at hn; cases hn
    | some B =>
      simp only [Option.bind_some, Option.map_some]
      rw [List.getElem?_append_left (by rw [ha _ (lookup_mem hla)]; exact hi)]

theorem merge_attrs_right (na nb : ℕ) (a b : Dict) (h : SameDict a b) (ha : ∀ e ∈ a, e.2.data.length = na)
    (i : ℕ) : attrs (mergeDict na nb a b) (na + i) = attrs b i := by
  funext name
  unfold attrs
  rw [merge_lookup na nb a b h]
  have hn := h name
  cases hla : a.lookup name with
  | none =>
    cases hlb : b.lookup name with
    | none => rfl
    | some B => rw [hla, hlb] at hn; cases hn
  | some A =>
    cases hlb : b.lookup name with
    | none => rw [hla, hlb] at hn; cases hn
    | some B =>
      rw [hla, hlb] at hn
      simp only [Option.map_some, Option.some.injEq] at hn
      simp only [Option.bind_some, Option.map_some]
      have := ha _ (lookup_mem hla)
      rw [List.getElem?_append_right (by simp only at this; omega)]
      simp only at this
      rw [this, Nat.add_sub_cancel_left, hn]

theorem merge_shapes (a b : Mesh) (ha : Valid a) (hb : Valid b) (hv : SameDict a.vattrs b.vattrs)
    (hc : SameDict a.cattrs b.cattrs) : shapes (merge a b) = shapes a ++ shapes b := by
  have cl : ∀ i < a.pos.length, corner (merge a b) i = corner a i := by
    intro i hi
    unfold corner
    refine Prod.ext ?_ ?_
    · simp only [merge]
      rw [List.getElem?_append_left hi]
    · exact merge_attrs_left _ _ _ _ hv ha.vattrs i hi
  have cr : ∀ i, corner (merge a b) (a.pos.length + i) = corner b i := by
    intro i
    unfold corner
    refine Prod.ext ?_ ?_
    · simp only [merge]
      rw [List.getElem?_append_right (by omega), Nat.add_sub_cancel_left]
    · exact merge_attrs_right _ _ _ _ hv ha.vattrs i
  unfold shapes
  simp only [merge]
  rw [List.zipIdx_append, List.map_append]
  congr 1
  · apply List.map_congr_left
    intro c hc'
    rw [List.mem_zipIdx_iff_getElem?] at hc'
    obtain ⟨hl, _⟩ := List.getElem?_eq_some_iff.1 hc'
    refine Prod.ext ?_ ?_
    · exact List.map_congr_left fun i hi => cl i (ha.cells _ (List.mem_of_getElem? hc') i hi)
    · exact merge_attrs_left _ _ _ _ hc ha.cattrs _ hl
  · apply List.ext_getElem?
    intro j
    rw [List.getElem?_map, List.getElem?_map, List.getElem?_zipIdx, zipIdx_get, List.getElem?_map]
    cases b.cells[j]? with
    | none => rfl
    | some c =>
      simp only [Option.map_some, Option.some.injEq, List.map_map]
      refine Prod.ext ?_ ?_
      · exact List.map_congr_left fun i _ => cr i
      · simp only
        rw [show 0 + a.cells.length + j = a.cells.length + j by omega]
        exact merge_attrs_right _ _ _ _ hc ha.cattrs j

theorem sameDict_symm {a b : Dict} (h : SameDict a b) : SameDict b a := fun n => (h n).symm

theorem sameDict_trans {a b c : Dict} (h : SameDict a b) (h' : SameDict b c) : SameDict a c :=
  fun n => (h n).trans (h' n)

/-! ## Theorems -/

/-- **C89.** The triangle mesh of a mesh consists of its triangles and the boundary faces of its tetrahedra,
with the attributes of the vertices and cells they came from, and has no other vertices. -/
theorem trimesh_shapes (r32 : ℝ → ℝ) (m : Mesh) (h : Valid m) :
    ∃ r, trimeshFromMesh r32 m = some r ∧ shapes r = expected (rounded r32 m) ∧
      (∀ c ∈ r.cells, c.length = 3 ∧ ∀ i ∈ c, i < r.pos.length) ∧ ∀ i < r.pos.length, ∃ c ∈ r.cells, i ∈ c := by
  obtain ⟨a, ha, hpa⟩ := part_spec r32 3 m h
  obtain ⟨t, ht, hpt⟩ := part_spec r32 4 m h
  obtain ⟨s, hs, hvs, hsv, hsc, h3, hu, hsh⟩ := surface_spec t hpt.valid
  have hv : SameDict a.vattrs s.vattrs :=
    sameDict_trans hpa.vsame (sameDict_symm (sameDict_trans hsv hpt.vsame))
  have hc : SameDict a.cattrs s.cattrs :=
    sameDict_trans hpa.csame (sameDict_symm (sameDict_trans hsc hpt.csame))
  refine ⟨merge a s, ?_, ?_, ?_, ?_⟩
  · unfold trimeshFromMesh
    rw [ha, Option.bind_some, ht, Option.bind_some, hs, Option.map_some]
  · rw [merge_shapes a s hpa.valid hvs hv hc, part_shapes hpa, hsh]
    unfold expected
    congr 1
    obtain ⟨L, h1, h2, h4⟩ := part_zip hpt
    have b2 := boundary_map (rank (used 4 (rounded r32 m).cells)) (fun j : ℕ × ℕ => j.2) L
      {i | used 4 (rounded r32 m).cells i} (rank_inj _) fun t ht i hi => used_of (h4 t ht).1 (h4 t ht).2.1 hi
    have b1 := boundary_map id (fun j : ℕ × ℕ => j.1) L Set.univ Function.injective_id.injOn fun _ _ _ _ => trivial
    simp only [List.map_id_fun, id_eq] at b1
    rw [← h1, ← h2, b1, b2, List.map_map, List.map_map]
    apply List.map_congr_left
    intro f hf
    obtain ⟨_, c, hcL, hi⟩ := boundary_mem hf
    obtain ⟨hm, hk, hat⟩ := h4 _ hcL
    simp only [Function.comp_apply, List.map_map]
    refine Prod.ext ?_ hat
    exact List.map_congr_left fun i hif => hpt.corner _ hm hk i (hi i hif)
  · intro c hcm
    simp only [merge, List.mem_append, List.mem_map, List.length_append] at hcm ⊢
    rcases hcm with hcm | ⟨c, hcm, rfl⟩
    · refine ⟨?_, fun i hi => by have := hpa.valid.cells c hcm i hi; omega⟩
      rw [hpa.cells] at hcm
      obtain ⟨c', hc', rfl⟩ := List.mem_map.1 hcm
      simpa using (List.mem_filter.1 hc').2
    · refine ⟨by simpa using h3 c hcm, fun i hi => ?_⟩
      obtain ⟨j, hj, rfl⟩ := List.mem_map.1 hi
      have := hvs.cells c hcm j hj
      omega
  · intro i hi
    simp only [merge, List.mem_append, List.mem_map, List.length_append] at hi ⊢
    by_cases hlt : i < a.pos.length
    · obtain ⟨c, hcm, hic⟩ := hpa.inUse i hlt
      exact ⟨c, .inl hcm, hic⟩
    · obtain ⟨c, hcm, hic⟩ := hu (i - a.pos.length) (by omega)
      refine ⟨_, .inr ⟨c, hcm, rfl⟩, List.mem_map.2 ⟨_, hic, by omega⟩⟩

/-! ## Boundaries -/

theorem perm_iff_toFinset {a b : List ℕ} (ha : a.Nodup) (hb : b.Nodup) : a.Perm b ↔ a.toFinset = b.toFinset := by
  rw [List.perm_ext_iff_of_nodup ha hb, Finset.ext_iff]
  simp

/-- A tetrahedron has one face with given vertices, or none. -/
theorem tet_count {t f : List ℕ} (ht : t.length = 4) (hn : t.Nodup) (hf : f.Nodup) (h3 : f.length = 3) :
    (tetFaces t).countP (fun g => g.isPerm f) = if f ⊆ t then 1 else 0 := by
  match t with
  | [] | [_] | [_, _] | [_, _, _] | _ :: _ :: _ :: _ :: _ :: _ => simp at ht
  | [a, b, c, d] =>
    simp only [List.nodup_cons, List.mem_cons, List.not_mem_nil, or_false, not_or, not_false_eq_true,
      List.nodup_nil, and_true] at hn
    obtain ⟨⟨hab, hac, had⟩, ⟨hbc, hbd⟩, hcd⟩ := hn
    split
    · rename_i hs
      have hcard : ([a, b, c, d].toFinset \ f.toFinset).card = 1 := by
        rw [Finset.card_sdiff_of_subset fun x hx => by simpa using hs (by simpa using hx),
          List.toFinset_card_of_nodup hf, List.toFinset_card_of_nodup (by simp [*]), h3]
        rfl
      obtain ⟨v, hv⟩ := Finset.card_eq_one.1 hcard
      have hmem : ∀ x, x ∈ [a, b, c, d] → (x ∉ f ↔ x = v) := by
        intro x hx
        have := Finset.ext_iff.1 hv x
        rw [Finset.mem_sdiff, List.mem_toFinset, List.mem_toFinset, Finset.mem_singleton] at this
        rw [← this]
        simp only [hx, true_and]
      have hfs : ∀ x, x ∈ f → x ∈ [a, b, c, d] := fun x hx => hs hx
      have ma := hmem a (by simp)
      have mb := hmem b (by simp)
      have mc := hmem c (by simp)
      have md := hmem d (by simp)
      have face : ∀ o x y z : ℕ, [x, y, z].Nodup → (∀ w, w ∈ [a, b, c, d] ↔ w = o ∨ w ∈ [x, y, z]) →
          o ∉ [x, y, z] → ([x, y, z].isPerm f = true ↔ o = v) := by
        intro o x y z hxyz hw ho
        rw [List.isPerm_iff, List.perm_ext_iff_of_nodup hxyz hf]
        rw [← hmem o ((hw o).2 (.inl rfl))]
        constructor
        · exact fun h hof => ho ((h o).2 hof)
        · intro hof w
          constructor
          · intro hwx
            by_contra hwf
            have e1 := (hmem w ((hw w).2 (.inr hwx))).1 hwf
            have e2 := (hmem o ((hw o).2 (.inl rfl))).1 hof
            exact ho (by rw [e2, ← e1]; exact hwx)
          · intro hwf
            rcases (hw w).1 (hfs w hwf) with rfl | h
            · exact absurd hwf hof
            · exact h
      have f1 := face a b d c (by simp [hbd, hbc, Ne.symm hcd]) (fun w => by
          simp only [List.mem_cons, List.not_mem_nil, or_false]
          constructor <;> (rintro (h | h | h | h) <;> simp [h])) (by simp [*])
      have f2 := face b a c d (by simp [*]) (fun w => by
          simp only [List.mem_cons, List.not_mem_nil, or_false]
          constructor <;> (rintro (h | h | h | h) <;> simp [h])) (by simp [*, Ne.symm hab])
      have f3 := face c a d b (by simp [*, Ne.symm hbd]) (fun w => by
          simp only [List.mem_cons, List.not_mem_nil, or_false]
          constructor <;> (rintro (h | h | h | h) <;> simp [h]))
        (by simp [*, Ne.symm hac, Ne.symm hbc])
      have f4 := face d a b c (by simp [*]) (fun w => by
          simp only [List.mem_cons, List.not_mem_nil, or_false]
          constructor <;> (rintro (h | h | h | h) <;> simp [h]))
        (by simp [Ne.symm had, Ne.symm hbd, Ne.symm hcd])
      have hv' : v ∈ [a, b, c, d] := by
        have : v ∈ [a, b, c, d].toFinset \ f.toFinset := by rw [hv]; simp
        simpa using (Finset.mem_sdiff.1 this).1
      simp only [tetFaces, List.countP_cons, List.countP_nil, f1, f2, f3, f4]
      simp only [List.mem_cons, List.not_mem_nil, or_false] at hv'
      rcases hv' with rfl | rfl | rfl | rfl
      · simp [Ne.symm hab, Ne.symm hac, Ne.symm had]
      · simp [hab, Ne.symm hbc, Ne.symm hbd]
      · simp [hac, hbc, Ne.symm hcd]
      · simp [had, hbd, hcd]
    · rename_i hs
      rw [List.countP_eq_zero]
      intro g hg hp
      apply hs
      intro x hx
      exact (tetFaces_mem hg).2 x ((List.isPerm_iff.1 hp).mem_iff.2 hx)

/-- **C89.** A triangle is on the boundary if it is a face of a tetrahedron, and no other tetrahedron of the mesh
has its three vertices. -/
theorem boundary_iff (cells : List (List ℕ)) (h4 : ∀ c ∈ cells, c.length = 4 → c.Nodup) (f : List ℕ) (j : ℕ) :
    (f, j) ∈ boundary (cells.zipIdx.filter fun c => c.1.length = 4) ↔
      (∃ t, cells[j]? = some t ∧ f ∈ tetFaces t) ∧
        ∀ k t, cells[k]? = some t → t.length = 4 → f ⊆ t → k = j := by
  set L := cells.zipIdx.filter fun c => c.1.length = 4 with hL
  have hLmem : ∀ t k, (t, k) ∈ L ↔ cells[k]? = some t ∧ t.length = 4 := by
    intro t k
    rw [hL, List.mem_filter, List.mem_zipIdx_iff_getElem?]
    simp
  have hmem : (f, j) ∈ allFaces L ↔ ∃ t, cells[j]? = some t ∧ f ∈ tetFaces t := by
    unfold allFaces
    rw [List.mem_flatMap]
    constructor
    · rintro ⟨⟨t, k⟩, ht, hf⟩
      rw [List.mem_map] at hf
      obtain ⟨g, hg, he⟩ := hf
      cases he
      exact ⟨t, ((hLmem _ _).1 ht).1, hg⟩
    · rintro ⟨t, ht, hf⟩
      refine ⟨(t, j), (hLmem t j).2 ⟨ht, ?_⟩, List.mem_map.2 ⟨f, hf, rfl⟩⟩
      by_contra hne
      match t with
      | [] | [_] | [_, _] | [_, _, _] | _ :: _ :: _ :: _ :: _ :: _ => simp [tetFaces] at hf
      | [a, b, c, d] => simp at hne
  unfold boundary
  rw [List.mem_filter, hmem]
  apply and_congr_right
  rintro ⟨t, ht, hft⟩
  have htl : t.length = 4 := by
    by_contra hne
    match t with
    | [] | [_] | [_, _] | [_, _, _] | _ :: _ :: _ :: _ :: _ :: _ => simp [tetFaces] at hft
    | [a, b, c, d] => simp at hne
  have htn := h4 t (List.mem_of_getElem? ht) htl
  have hfn : f.Nodup := by
    match t with
    | [] | [_] | [_, _] | [_, _, _] | _ :: _ :: _ :: _ :: _ :: _ => simp at htl
    | [a, b, c, d] =>
      simp only [List.nodup_cons, List.mem_cons, List.not_mem_nil, or_false, not_or, not_false_eq_true,
        List.nodup_nil, and_true] at htn
      obtain ⟨⟨hab, hac, had⟩, ⟨hbc, hbd⟩, hcd⟩ := htn
      simp only [tetFaces, List.mem_cons, List.not_mem_nil, or_false] at hft
      rcases hft with rfl | rfl | rfl | rfl
      · simp [hbd, hbc, Ne.symm hcd]
      · simp [*]
      · simp [*, Ne.symm hbd]
      · simp [*]
  have hf3 := (tetFaces_mem hft).1
  have hcount : (allFaces L).countP (fun g => g.1.isPerm f) = L.countP fun t => decide (f ⊆ t.1) := by
    unfold allFaces
    rw [List.countP_flatMap]
    have : ∀ l : List (List ℕ × ℕ), (∀ t ∈ l, t.1.length = 4 ∧ t.1.Nodup) →
        (l.map ((fun l => List.countP (fun g : List ℕ × ℕ => g.1.isPerm f) l) ∘ fun t =>
          (tetFaces t.1).map fun f => (f, t.2))).sum = l.countP fun t => decide (f ⊆ t.1) := by
      intro l
      induction l with
      | nil => intro _; rfl
      | cons t l ih =>
        intro hl
        obtain ⟨h1, h2⟩ := hl t (by simp)
        rw [List.map_cons, List.sum_cons, ih fun t ht => hl t (List.mem_cons_of_mem _ ht), List.countP_cons,
          Function.comp_apply, List.countP_map]
        have := tet_count h1 h2 hfn hf3
        simp only [Function.comp_def, this]
        by_cases hs : f ⊆ t.1 <;> simp [hs, add_comm]
    refine this L ?_
    rintro ⟨t, k⟩ ht
    obtain ⟨h1, h2⟩ := (hLmem t k).1 ht
    exact ⟨h2, h4 t (List.mem_of_getElem? h1) h2⟩
  simp only [decide_eq_true_eq]
  rw [hcount]
  have hnd : L.Nodup := by
    rw [hL]
    apply List.Nodup.filter
    exact List.Nodup.of_map Prod.snd (by rw [List.zipIdx_map_snd]; exact List.nodup_range')
  rw [List.countP_eq_length_filter, List.length_eq_one_iff]
  have hself : (t, j) ∈ L.filter fun t => decide (f ⊆ t.1) := by
    rw [List.mem_filter]
    exact ⟨(hLmem t j).2 ⟨ht, htl⟩, decide_eq_true fun x hx => (tetFaces_mem hft).2 x hx⟩
  constructor
  · rintro ⟨x, hx⟩ k t' ht' h4' hs
    have m1 : (t', k) ∈ L.filter fun t => decide (f ⊆ t.1) := by
      rw [List.mem_filter]
      exact ⟨(hLmem t' k).2 ⟨ht', h4'⟩, by simpa using hs⟩
    rw [hx, List.mem_singleton] at m1 hself
    rw [← hself] at m1
    exact (Prod.mk.inj m1).2
  · intro hall
    refine ⟨(t, j), ?_⟩
    have hperm : (L.filter fun t => decide (f ⊆ t.1)).Perm [(t, j)] := by
      rw [List.perm_ext_iff_of_nodup (hnd.filter _) (by simp)]
      rintro ⟨t', k⟩
      constructor
      · intro hm
        rw [List.mem_filter] at hm
        obtain ⟨h1, h2⟩ := (hLmem t' k).1 hm.1
        have := hall k t' h1 h2 (by simpa using hm.2)
        subst this
        rw [ht] at h1
        cases h1
        simp
      · intro hm
        rw [List.mem_singleton] at hm
        rw [hm]
        exact hself
    exact List.perm_singleton.1 hperm

/-! ## Frames -/

/-- How the value of an attribute is converted: vectors and masses to single precision, where masses that are
infinite become `-1`, and flags to numbers that are not negative. -/
def convertedValue (r32 : ℝ → ℝ) (name : String) : Value → Value
  | .vec x y z =>
    if name ∈ ["vel", "friction", "residual", "contact"] then .vec (r32 x) (r32 y) (r32 z) else .vec x y z
  | .scalar x => if name = "mass" then .scalar (some ((x.map r32).getD (-1))) else .scalar x
  | .int z => if name ∈ ["fixed", "animated"] then .int (max z 0) else .int z
  | .other n => .other n

/-- How the type of an attribute is converted. -/
def convertedType (name : String) (t : Ty) : Ty :=
  if name ∈ ["vel", "friction", "residual", "contact"] then .vec32
  else if name = "mass" then .f32
  else if name ∈ ["fixed", "animated"] then .u32
  else t

/-- The mesh with converted attributes of vertices. -/
def converted (r32 : ℝ → ℝ) (m : Mesh) : Mesh :=
  { m with
    vattrs := m.vattrs.map fun e =>
      (e.1, ⟨convertedType e.1 e.2.type, e.2.data.map (convertedValue r32 e.1)⟩) }

/-- The mesh has the vertex attribute with the given type. -/
def Has (m : Mesh) (name : String) (T : Ty) : Prop := (m.vattrs.lookup name).map Attrib.type = some T

/-- The vertex attributes of the meshes of the solver (`problem.rs:355-379, 478-577`). -/
structure Solved (m : Mesh) : Prop where
  vel : Has m "vel" .vec64
  friction : Has m "friction" .vec64
  residual : Has m "residual" .vec64
  contact : Has m "contact" .vec64
  mass : Has m "mass" .f64
  fixed : Has m "fixed" .i32

/-- The result of converting some attributes. -/
structure Step (m m' : Mesh) (name : String) (U : Ty) (f : Value → Value) : Prop where
  pos : m'.pos = m.pos
  cells : m'.cells = m.cells
  cattrs : m'.cattrs = m.cattrs
  this : m'.vattrs.lookup name = (m.vattrs.lookup name).map fun A => ⟨U, A.data.map f⟩
  others : ∀ n, n ≠ name → m'.vattrs.lookup n = m.vattrs.lookup n
  valid : Valid m → Valid m'

theorem lookup_filter (d : Dict) (name n : String) (h : n ≠ name) :
    (d.filter fun e => e.1 ≠ name).lookup n = d.lookup n := by
  induction d with
  | nil => rfl
  | cons e d ih =>
    obtain ⟨k, A⟩ := e
    rw [List.filter_cons, List.lookup_cons]
    by_cases hk : k = name
    · subst hk
      rw [if_neg (by simp), ih, beq_false_of_ne h]
    · rw [if_pos (by simpa using hk), List.lookup_cons, ih]

theorem convertAttrib_step (m : Mesh) (name : String) (T U : Ty) (f : Value → Value) (h : Has m name T) :
    ∃ m', convertAttrib m name T U f = some m' ∧ Step m m' name U f := by
  unfold Has at h
  cases hl : m.vattrs.lookup name with
  | none => rw [hl] at h; cases h
  | some A =>
    rw [hl] at h
    simp only [Option.map_some, Option.some.injEq] at h
    unfold convertAttrib
    rw [hl]
    simp only
    rw [if_pos h]
    refine ⟨_, rfl, rfl, rfl, rfl, ?_, ?_, ?_⟩
    · simp only
      rw [lookup_append, hl, List.lookup_eq_none_iff.2, Option.none_or]
      · simp
      · intro q hq
        have := (List.mem_filter.1 hq).2
        simpa using fun h => (by simpa using this : q.1 ≠ name) h.symm
    · intro n hn
      simp only
      rw [lookup_append, lookup_filter _ _ _ hn]
      simp [List.lookup_cons, beq_false_of_ne hn]
    · intro hv
      refine ⟨hv.cells, ?_, hv.cattrs⟩
      intro e he
      simp only [List.mem_append, List.mem_singleton] at he
      rcases he with he | rfl
      · exact hv.vattrs e (List.mem_of_mem_filter he)
      · simpa using hv.vattrs _ (lookup_mem hl)

/-- Attributes are converted step by step. -/
theorem convertAll_spec (r32 : ℝ → ℝ) (m : Mesh) (h : Solved m) (ha : Has m "animated" .i32) (hv : Valid m) :
    ∃ m', convertAll r32 m = some m' ∧ m'.pos = m.pos ∧ m'.cells = m.cells ∧ m'.cattrs = m.cattrs ∧ Valid m' ∧
      ∀ name, m'.vattrs.lookup name = (m.vattrs.lookup name).map fun A =>
        ⟨convertedType name A.type, A.data.map (convertedValue r32 name)⟩ := by
  have keep : ∀ {m m' : Mesh} {name : String} {U : Ty} {f : Value → Value} {n : String} {T : Ty},
      Step m m' name U f → n ≠ name → Has m n T → Has m' n T := by
    intro m m' name U f n T hs hn hh
    unfold Has at hh ⊢
    rw [hs.others n hn, hh]
  obtain ⟨m1, e1, s1⟩ := convertAttrib_step m "vel" .vec64 .vec32 (vecTo32 r32) h.vel
  obtain ⟨m2, e2, s2⟩ := convertAttrib_step m1 "friction" .vec64 .vec32 (vecTo32 r32)
    (keep s1 (by decide) h.friction)
  obtain ⟨m3, e3, s3⟩ := convertAttrib_step m2 "residual" .vec64 .vec32 (vecTo32 r32)
    (keep s2 (by decide) (keep s1 (by decide) h.residual))
  obtain ⟨m4, e4, s4⟩ := convertAttrib_step m3 "contact" .vec64 .vec32 (vecTo32 r32)
    (keep s3 (by decide) (keep s2 (by decide) (keep s1 (by decide) h.contact)))
  obtain ⟨m5, e5, s5⟩ := convertAttrib_step m4 "mass" .f64 .f32 (massTo32 r32)
    (keep s4 (by decide) (keep s3 (by decide) (keep s2 (by decide) (keep s1 (by decide) h.mass))))
  obtain ⟨m6, e6, s6⟩ := convertAttrib_step m5 "fixed" .i32 .u32 toU32
    (keep s5 (by decide) (keep s4 (by decide) (keep s3 (by decide) (keep s2 (by decide)
      (keep s1 (by decide) h.fixed)))))
  obtain ⟨m7, e7, s7⟩ := convertAttrib_step m6 "animated" .i32 .u32 toU32
    (keep s6 (by decide) (keep s5 (by decide) (keep s4 (by decide) (keep s3 (by decide) (keep s2 (by decide)
      (keep s1 (by decide) ha))))))
  refine ⟨m7, ?_, ?_, ?_, ?_, ?_, ?_⟩
  · simp only [convertAll, convertVecs, convertInts, e1, e2, e3, e4, e5, e6, e7, Option.bind_some]
  · rw [s7.pos, s6.pos, s5.pos, s4.pos, s3.pos, s2.pos, s1.pos]
  · rw [s7.cells, s6.cells, s5.cells, s4.cells, s3.cells, s2.cells, s1.cells]
  · rw [s7.cattrs, s6.cattrs, s5.cattrs, s4.cattrs, s3.cattrs, s2.cattrs, s1.cattrs]
  · exact s7.valid (s6.valid (s5.valid (s4.valid (s3.valid (s2.valid (s1.valid hv))))))
  · have fv : ∀ name ∈ ["vel", "friction", "residual", "contact"], vecTo32 r32 = convertedValue r32 name := by
      intro name hn
      funext v
      cases v with
      | vec => rw [convertedValue, if_pos hn]; rfl
      | scalar =>
        rw [convertedValue, if_neg]; rfl
        rintro rfl
        revert hn
        decide
      | int =>
        rw [convertedValue, if_neg]; rfl
        simp only [List.mem_cons, List.not_mem_nil, or_false] at hn ⊢
        rcases hn with rfl | rfl | rfl | rfl <;> decide
      | other => rfl
    have fm : massTo32 r32 = convertedValue r32 "mass" := by
      funext v
      match v with
      | .vec .. => rw [convertedValue, if_neg (by decide)]; rfl
      | .scalar none => rfl
      | .scalar (some x) => rfl
      | .int _ => rw [convertedValue, if_neg (by decide)]; rfl
      | .other _ => rfl
    have fi : ∀ name ∈ ["fixed", "animated"], toU32 = convertedValue r32 name := by
      intro name hn
      funext v
      cases v with
      | vec =>
        rw [convertedValue, if_neg]; rfl
        simp only [List.mem_cons, List.not_mem_nil, or_false] at hn ⊢
        rcases hn with rfl | rfl <;> decide
      | scalar =>
        rw [convertedValue, if_neg]; rfl
        rintro rfl
        revert hn
        decide
      | int z =>
        rw [convertedValue, if_pos hn, toU32]
        split
        · rw [max_eq_left (by assumption)]
        · rw [max_eq_right (by omega)]
      | other => rfl
    intro name
    by_cases h1 : name = "vel"
    · subst h1
      rw [s7.others _ (by decide), s6.others _ (by decide), s5.others _ (by decide), s4.others _ (by decide),
        s3.others _ (by decide), s2.others _ (by decide), s1.this, fv "vel" (by decide)]
      rfl
    by_cases h2 : name = "friction"
    · subst h2
      rw [s7.others _ (by decide), s6.others _ (by decide), s5.others _ (by decide), s4.others _ (by decide),
        s3.others _ (by decide), s2.this, s1.others _ (by decide), fv "friction" (by decide)]
      rfl
    by_cases h3 : name = "residual"
    · subst h3
      rw [s7.others _ (by decide), s6.others _ (by decide), s5.others _ (by decide), s4.others _ (by decide),
        s3.this, s2.others _ (by decide), s1.others _ (by decide), fv "residual" (by decide)]
      rfl
    by_cases h4 : name = "contact"
    · subst h4
      rw [s7.others _ (by decide), s6.others _ (by decide), s5.others _ (by decide), s4.this,
        s3.others _ (by decide), s2.others _ (by decide), s1.others _ (by decide), fv "contact" (by decide)]
      rfl
    by_cases h5 : name = "mass"
    · subst h5
      rw [s7.others _ (by decide), s6.others _ (by decide), s5.this, s4.others _ (by decide),
        s3.others _ (by decide), s2.others _ (by decide), s1.others _ (by decide), fm]
      rfl
    by_cases h6 : name = "fixed"
    · subst h6
      rw [s7.others _ (by decide), s6.this, s5.others _ (by decide), s4.others _ (by decide),
        s3.others _ (by decide), s2.others _ (by decide), s1.others _ (by decide), fi "fixed" (by decide)]
      rfl
    by_cases h7 : name = "animated"
    · subst h7
      rw [s7.this, s6.others _ (by decide), s5.others _ (by decide), s4.others _ (by decide),
        s3.others _ (by decide), s2.others _ (by decide), s1.others _ (by decide), fi "animated" (by decide)]
      rfl
    rw [s7.others _ h7, s6.others _ h6, s5.others _ h5, s4.others _ h4, s3.others _ h3, s2.others _ h2,
      s1.others _ h1]
    have e : (fun A : Attrib => (⟨convertedType name A.type, A.data.map (convertedValue r32 name)⟩ : Attrib)) =
        id := by
      funext A
      have : convertedValue r32 name = id := by
        funext v
        cases v <;> simp [convertedValue, h1, h2, h3, h4, h5, h6, h7]
      simp [this, convertedType, h1, h2, h3, h4, h5, h6, h7]
    rw [e, Option.map_id]
    rfl

theorem lookup_converted (r32 : ℝ → ℝ) (m : Mesh) (name : String) :
    (converted r32 m).vattrs.lookup name = (m.vattrs.lookup name).map fun A =>
      ⟨convertedType name A.type, A.data.map (convertedValue r32 name)⟩ := by
  unfold converted
  simp only
  induction m.vattrs with
  | nil => rfl
  | cons e d ih =>
    obtain ⟨n, A⟩ := e
    rw [List.map_cons, List.lookup_cons, List.lookup_cons, ih]
    by_cases h : name = n
    · subst h; simp
    · rw [beq_false_of_ne h]

/-- What a mesh looks like depends on lookups only. -/
theorem expected_congr (a b : Mesh) (h1 : a.pos = b.pos) (h2 : a.cells = b.cells) (h3 : a.cattrs = b.cattrs)
    (h4 : ∀ n, a.vattrs.lookup n = b.vattrs.lookup n) : expected a = expected b := by
  have hc : corner a = corner b := by
    funext i
    unfold corner
    refine Prod.ext (by simp only [h1]) ?_
    funext n
    simp only [attrs, h4]
  unfold expected shapes
  rw [hc, h2, h3]

/-- **C89.** Every frame with the attribute `animated` is exported, and the exported triangles are those of the
mesh and the boundary of its tetrahedra, with rounded positions and converted attributes. -/
theorem frame_exported_partial (r32 : ℝ → ℝ) (m : Mesh) (h : Valid m) (hs : Solved m)
    (ha : Has m "animated" .i32) :
    ∃ r, exportFrame r32 m = some r ∧ shapes r = expected (rounded r32 (converted r32 m)) := by
  obtain ⟨m', e, hp, hc, hca, hv, hl⟩ := convertAll_spec r32 m hs ha h
  obtain ⟨r, hr, hsh, -⟩ := trimesh_shapes r32 m' hv
  refine ⟨r, by rw [exportFrame, e, Option.bind_some, hr], ?_⟩
  rw [hsh]
  apply expected_congr
  · simp only [rounded, converted, hp]
  · simp only [rounded, converted, hc]
  · simp only [rounded, converted, hca]
  · intro n
    simp only [rounded]
    rw [hl, lookup_converted]

/-! ## Examples -/

/-- A tetrahedron and a triangle with a common vertex. -/
noncomputable def sample : Mesh where
  pos := [(0, 0, 0), (1, 0, 0), (0, 1, 0), (0, 0, 1), (2, 0, 0), (2, 1, 0), (3, 3, 3)]
  cells := [[0, 1, 2, 3], [1, 4, 5]]
  vattrs :=
    [("vel", ⟨.vec64, List.replicate 7 (.vec 1 2 3)⟩), ("friction", ⟨.vec64, List.replicate 7 (.vec 0 0 0)⟩),
     ("residual", ⟨.vec64, List.replicate 7 (.vec 0 0 0)⟩), ("contact", ⟨.vec64, List.replicate 7 (.vec 0 0 0)⟩),
     ("mass", ⟨.f64, List.replicate 7 (.scalar none)⟩), ("fixed", ⟨.i32, List.replicate 7 (.int 1)⟩)]
  cattrs := [("mtl_id", ⟨.i32, [.int 0, .int 1]⟩)]

theorem sample_valid : Valid sample := by
  constructor
  · simp [sample]
  · simp [sample]
  · simp [sample]

theorem sample_solved : Solved sample := by
  constructor <;> rfl

/-- The sample with an attribute `animated` meets the hypotheses of `frame_exported_partial`. -/
example : let m := { sample with vattrs := sample.vattrs ++ [("animated", ⟨.i32, List.replicate 7 (.int 0)⟩)] }
    Valid m ∧ Solved m ∧ Has m "animated" .i32 := by
  refine ⟨⟨sample_valid.cells, ?_, sample_valid.cattrs⟩, ?_, ?_⟩
  · simp [sample]
  · constructor <;> rfl
  · rfl

/-- Its exported mesh has one triangle and four boundary faces. -/
example : (expected sample).length = 5 := by
  unfold expected shapes sample
  simp [boundary, allFaces, tetFaces]
  decide

/-- C89 fails for scenes without the attribute `animated`, which is optional: export panics. -/
theorem frame_exported_violated :
    ∃ m, Valid m ∧ Solved m ∧ ∀ r32, exportFrame r32 m = none := by
  refine ⟨sample, sample_valid, sample_solved, fun r32 => ?_⟩
  unfold exportFrame
  have : convertAll r32 sample = none := by
    obtain ⟨m1, e1, s1⟩ := convertAttrib_step sample "vel" .vec64 .vec32 (vecTo32 r32) sample_solved.vel
    simp [convertAll, convertVecs, convertInts, convertAttrib, sample, List.lookup_cons]
  rw [this]
  rfl

end Softy.Gltf
