import Verif.Model.ContactSetup
import Verif.Props.MeshState
import Verif.Props.GravityInertia
import Verif.Props.Touching

/-!
# C82: the contacts that are simulated are those that the user asked for
-/

noncomputable section

namespace Softy.Setup

open Softy Mesh

/-! ## Specification -/

/-- The object ids that the user gave the cells: all cells belong to object 0 if there are none. -/
def given (a : Attrs) : List ℤ :=
  match a.onCells with
  | none => List.replicate a.numCells 0
  | some ids => ids.vals

/-- The cells of an object. Cells with a negative id belong to object 0. -/
def own (cells : List Cell) (ids : List ℤ) (id : ℕ) : List Cell :=
  ((cells.zip ids).filter fun c => decide (max c.2 0 = (id : ℤ))).map Prod.fst

/-- Some cell belongs to the object. -/
def Exists (ids : List ℤ) (id : ℕ) : Prop := ∃ v ∈ ids, max v 0 = (id : ℤ)

/-- The faces of an object: the boundary of its tetrahedra and its triangles. -/
def facesOf (surface : List (Fin 4 → ℕ) → List (Fin 3 → ℕ)) (cells : List Cell) : List (Fin 3 → ℕ) :=
  surface (tetsOf cells) ++ trisOf cells

/-- The index in the simulated mesh of a vertex of a surface. -/
def TriMesh.index (m : TriMesh) (j : ℕ) : ℕ := ((m.verts[j]?).map Prod.fst).getD 0

/-- The mesh consists of the given triangles of the simulated mesh: it has their vertices and no others,
each once and in order, at their positions. -/
structure Shows (x : ℕ → V3 ℝ) (tris : List (Fin 3 → ℕ)) (m : TriMesh) : Prop where
  ordered : (m.verts.map Prod.fst).Pairwise (· < ·)
  positions : ∀ v ∈ m.verts, v.2 = x v.1
  inside : ∀ f ∈ m.faces, ∀ i, f i < m.verts.length
  faces : (m.faces.map fun f i => m.index (f i)) = tris
  used : ∀ k, k ∈ m.verts.map Prod.fst ↔ ∃ t ∈ tris, ∃ i, t i = k

/-- The user gave no object ids, or `i32` numbers on cells. -/
def Plain (a : Attrs) : Prop := ∀ ids, a.onCells = some ids → ids.ty = .i32 ∧ ids.WF

/-- All vertices of the triangles are fixed. -/
def AllFixed (types : List VertexType) (tris : List (Fin 3 → ℕ)) : Prop :=
  ∀ t ∈ tris, ∀ i, types[t i]? = some .fixed

/-- Kernels for which there are implicit surfaces. -/
def KernelType.Usable : KernelType → Prop
  | .hrbf => False
  | .global _ => True
  | .interpolating c => c ≠ 0
  | .smooth c _ => c ≠ 0
  | .approximate c _ => c ≠ 0
  | .cubic c => c ≠ 0

/-- A contact is what the user asked for. `faces` are the faces of each object. -/
structure Realizes (x : ℕ → V3 ℝ) (types : List VertexType) (faces : ℕ → List (Fin 3 → ℕ))
    (r : Request) (C : Contact) : Prop where
  object : Shows x (faces r.object) C.object.mesh
  collider : Shows x (faces r.collider) C.collider.mesh
  objectFixed : C.object.fixed = true ↔ AllFixed types (faces r.object)
  colliderFixed : C.collider.fixed = true ↔ AllFixed types (faces r.collider)
  offset : C.offset = r.params.offset
  tolerance : C.tolerance = r.params.tolerance
  stiffness : 0 < r.params.stiffness → C.stiffness = some r.params.stiffness
  unset : r.params.stiffness ≤ 0 → 0 < r.params.tolerance → C.stiffness = some (1 / r.params.tolerance)

/-! ## Lists without repetitions -/

section firsts

variable {α : Type} [DecidableEq α]

theorem mem_firsts (l : List α) (a : α) : a ∈ firsts l ↔ a ∈ l := by
  induction l with
  | nil => simp [firsts]
  | cons b l ih =>
    simp only [firsts, List.mem_cons, List.mem_filter, decide_eq_true_eq, ih]
    tauto

theorem firsts_nodup (l : List α) : (firsts l).Nodup := by
  induction l with
  | nil => simp [firsts]
  | cons b l ih =>
    rw [firsts, List.nodup_cons]
    exact ⟨by simp, ih.filter _⟩

theorem firsts_sublist (l : List α) : (firsts l).Sublist l := by
  induction l with
  | nil => simp [firsts]
  | cons b l ih => exact (List.filter_sublist.trans ih).cons_cons b

theorem idxOf_lt_firsts {l : List α} {a : α} (h : a ∈ l) : (firsts l).idxOf a < (firsts l).length :=
  List.idxOf_lt_length_of_mem ((mem_firsts l a).2 h)

theorem getElem?_idxOf' {l : List α} {a : α} (h : a ∈ l) : l[l.idxOf a]? = some a := by
  rw [List.getElem?_eq_getElem (List.idxOf_lt_length_of_mem h), List.getElem_idxOf]

end firsts

/-! ## The parts of the mesh -/

theorem fold_set (key : ℤ → ℕ) (L : List ℤ) (hL : L.Nodup) (l : List ℤ) (hl : ∀ v ∈ l, v ∈ L)
    (m : List ℕ) (hm : m.length = L.length) :
    (l.foldl (fun m v => m.set (L.idxOf v) (key v)) m).length = L.length ∧
    ∀ k (hk : k < L.length), (l.foldl (fun m v => m.set (L.idxOf v) (key v)) m)[k]? =
      if L[k] ∈ l then some (key L[k]) else m[k]? := by
  induction l generalizing m with
  | nil => simp [hm]
  | cons v l ih =>
    have hv := hl v List.mem_cons_self
    obtain ⟨h1, h2⟩ := ih (fun w hw => hl w (List.mem_cons_of_mem _ hw))
      (m.set (L.idxOf v) (key v)) (by simpa using hm)
    refine ⟨h1, fun k hk => ?_⟩
    rw [List.foldl_cons, h2 k hk]
    by_cases hkl : L[k] ∈ l
    · rw [if_pos hkl, if_pos (List.mem_cons_of_mem _ hkl)]
    · rw [if_neg hkl]
      by_cases hkv : L[k] = v
      · have : L.idxOf v = k := by rw [← hkv]; exact hL.idxOf_getElem k hk
        rw [if_pos (by rw [hkv]; exact List.mem_cons_self), this, hkv,
          List.getElem?_set_self (by omega)]
      · rw [if_neg (by simp [hkv, hkl]), List.getElem?_set_ne]
        intro h
        apply hkv
        have := getElem?_idxOf' hv
        rw [h, List.getElem?_eq_getElem hk] at this
        exact Option.some.inj this

theorem idMap_eq (ids : List ℤ) : idMap ids = (firsts ids).map fun v => (v % 2 ^ 64).toNat := by
  have hz : (partition ids).zip ids = ids.map fun v => ((firsts ids).idxOf v, v) := by
    unfold partition
    have : ∀ l : List ℤ, (l.map fun id => (firsts ids).idxOf id).zip l =
        l.map fun v => ((firsts ids).idxOf v, v) := by
      intro l
      induction l with
      | nil => rfl
      | cons a l ih => simp [ih]
    exact this ids
  unfold idMap
  rw [hz, List.foldl_map]
  obtain ⟨h1, h2⟩ := fold_set (fun v => (v % 2 ^ 64).toNat) (firsts ids) (firsts_nodup ids) ids
    (fun v hv => (mem_firsts _ _).2 hv) (List.replicate (numParts ids) 0) (by simp [numParts])
  refine List.ext_getElem? fun k => ?_
  by_cases hk : k < (firsts ids).length
  · rw [h2 k hk, if_pos ((mem_firsts _ _).1 (List.getElem_mem hk)), List.getElem?_map,
      List.getElem?_eq_getElem hk]
    rfl
  · rw [List.getElem?_eq_none (by rw [h1]; omega), List.getElem?_eq_none (by simpa using hk)]

theorem zip_filter (cells : List Cell) (ids : List ℤ) (g : ℤ → ℕ) (k : ℕ) (v : ℤ)
    (h : ∀ w ∈ ids, g w = k ↔ w = v) :
    ((cells.zip (ids.map g)).filter fun c => decide (c.2 = k)).map Prod.fst =
      ((cells.zip ids).filter fun c => decide (c.2 = v)).map Prod.fst := by
  induction cells generalizing ids with
  | nil => simp
  | cons c cells ih =>
    cases ids with
    | nil => simp
    | cons w ids =>
      have hw := h w List.mem_cons_self
      have := ih ids fun u hu => h u (List.mem_cons_of_mem _ hu)
      simp only [List.map_cons, List.zip_cons_cons, List.filter_cons]
      by_cases he : w = v
      · simp [he, hw.2 he, ← this]
        rw [← he, hw.2 he]; simp
      · have h2 : g w ≠ k := fun e => he (hw.1 e)
        simp [he, h2, this]

theorem split_eq (cells : List Cell) (ids : List ℤ) :
    split cells ids = (firsts ids).map fun v =>
      ((cells.zip ids).filter fun c => decide (c.2 = v)).map Prod.fst := by
  refine List.ext_getElem? fun k => ?_
  unfold split numParts
  rw [List.getElem?_map, List.getElem?_map]
  by_cases hk : k < (firsts ids).length
  · rw [List.getElem?_range hk, List.getElem?_eq_getElem hk, Option.map_some, Option.map_some]
    congr 1
    refine zip_filter cells ids _ k _ fun w hw => ?_
    constructor
    · intro e
      have := getElem?_idxOf' ((mem_firsts ids w).2 hw)
      rw [e, List.getElem?_eq_getElem hk] at this
      exact (Option.some.inj this).symm
    · rintro rfl
      exact (firsts_nodup ids).idxOf_getElem k hk
  · rw [List.getElem?_eq_none (by simpa using hk),
      List.getElem?_eq_none (by simpa using hk)]
    rfl

theorem surfaceMeshes_eq (surface : List (Fin 4 → ℕ) → List (Fin 3 → ℕ)) (x : ℕ → V3 ℝ)
    (cells : List Cell) (ids : List ℤ) :
    surfaceMeshes surface x cells ids = (firsts ids).map fun v => ((v % 2 ^ 64).toNat,
      surfaceMesh surface x (((cells.zip ids).filter fun c => decide (c.2 = v)).map Prod.fst)) := by
  unfold surfaceMeshes
  rw [idMap_eq, split_eq, List.map_map]
  generalize firsts ids = L
  induction L with
  | nil => rfl
  | cons a L ih => rw [List.map_cons, List.map_cons, List.zip_cons_cons, ih]; rfl

theorem lookup_some {β : Type} (M : List ℤ) (key : ℤ → ℕ) (g : ℤ → β) (id : ℕ) (v : ℤ) (hv : v ∈ M)
    (hk : key v = id) (hu : ∀ w ∈ M, key w = id → w = v) :
    (M.map fun w => (key w, g w)).lookup id = some (g v) := by
  induction M with
  | nil => simp at hv
  | cons w M ih =>
    rw [List.map_cons, List.lookup_cons]
    by_cases hw : key w = id
    · rw [hu w List.mem_cons_self hw, hk]; simp
    · have : (id == key w) = false := by simpa using fun e => hw e.symm
      rw [this]
      refine ih ?_ fun u hu' => hu u (List.mem_cons_of_mem _ hu')
      rcases List.mem_cons.1 hv with rfl | h
      · exact absurd hk hw
      · exact h

theorem lookup_none {β : Type} (M : List ℤ) (key : ℤ → ℕ) (g : ℤ → β) (id : ℕ)
    (hu : ∀ w ∈ M, key w ≠ id) : (M.map fun w => (key w, g w)).lookup id = none := by
  induction M with
  | nil => rfl
  | cons w M ih =>
    rw [List.map_cons, List.lookup_cons]
    have : (id == key w) = false := by
      simpa using fun e => hu w List.mem_cons_self e.symm
    rw [this]
    exact ih fun u hu' => hu u (List.mem_cons_of_mem _ hu')

theorem own_clamped (cells : List Cell) (ids : List ℤ) (id : ℕ) :
    ((cells.zip (ids.map (max · 0))).filter fun c => decide (c.2 = (id : ℤ))).map Prod.fst =
      own cells ids id := by
  unfold own
  induction cells generalizing ids with
  | nil => simp
  | cons c cells ih =>
    cases ids with
    | nil => simp
    | cons w ids =>
      simp only [List.map_cons, List.zip_cons_cons, List.filter_cons]
      by_cases he : max w 0 = (id : ℤ) <;> simp [he, ih ids]

/-- The surface that is found for an object. -/
theorem surface_lookup (surface : List (Fin 4 → ℕ) → List (Fin 3 → ℕ)) (x : ℕ → V3 ℝ)
    (cells : List Cell) (ids : List ℤ) (hr : ∀ v ∈ ids, v < 2 ^ 31) (id : ℕ) :
    (Exists ids id → (surfaceMeshes surface x cells (ids.map (max · 0))).reverse.lookup id =
      some (surfaceMesh surface x (own cells ids id))) ∧
    (¬ Exists ids id → (surfaceMeshes surface x cells (ids.map (max · 0))).reverse.lookup id = none) := by
  have hkey : ∀ w ∈ (firsts (ids.map (max · 0))).reverse, ((w % 2 ^ 64).toNat : ℤ) = w := by
    intro w hw
    rw [List.mem_reverse, mem_firsts, List.mem_map] at hw
    obtain ⟨u, hu, rfl⟩ := hw
    have := hr u hu
    rw [Int.emod_eq_of_lt (by omega) (by omega)]
    omega
  rw [surfaceMeshes_eq, ← List.map_reverse]
  constructor
  · rintro ⟨v, hv, he⟩
    have hmem : (id : ℤ) ∈ (firsts (ids.map (max · 0))).reverse := by
      rw [List.mem_reverse, mem_firsts, List.mem_map]
      exact ⟨v, hv, he⟩
    have := lookup_some _ (fun v => (v % 2 ^ 64).toNat) (fun v => surfaceMesh surface x
      (((cells.zip (ids.map (max · 0))).filter fun c => decide (c.2 = v)).map Prod.fst)) id (id : ℤ) hmem
      (by exact_mod_cast hkey _ hmem) (by
        intro w hw e
        rw [← hkey w hw, ← e])
    rw [own_clamped] at this
    exact this
  · intro hne
    refine lookup_none _ _ _ _ fun w hw e => hne ?_
    have := hkey w hw
    rw [e] at this
    rw [List.mem_reverse, mem_firsts, List.mem_map] at hw
    obtain ⟨u, hu, rfl⟩ := hw
    exact ⟨u, hu, this.symm⟩

/-! ## The surface of an object -/

/-- The properties of `Shows` that hold for all meshes on the way. -/
structure Partial (x : ℕ → V3 ℝ) (tris : List (Fin 3 → ℕ)) (m : TriMesh) : Prop where
  positions : ∀ v ∈ m.verts, v.2 = x v.1
  inside : ∀ f ∈ m.faces, ∀ i, f i < m.verts.length
  faces : (m.faces.map fun f i => m.index (f i)) = tris
  used : ∀ k, k ∈ m.verts.map Prod.fst ↔ ∃ t ∈ tris, ∃ i, t i = k

theorem index_of (m : TriMesh) (j k : ℕ) (p : V3 ℝ) (h : m.verts[j]? = some (k, p)) :
    m.index j = k := by
  unfold TriMesh.index
  rw [h]
  rfl

theorem trianglesOf_partial (x : ℕ → V3 ℝ) (tris : List (Fin 3 → ℕ)) :
    Partial x tris (trianglesOf x tris) := by
  have hmem : ∀ t ∈ tris, ∀ i, t i ∈ firsts (tris.flatMap fun t => [t 0, t 1, t 2]) := by
    intro t ht i
    rw [mem_firsts, List.mem_flatMap]
    refine ⟨t, ht, ?_⟩
    fin_cases i <;> simp
  refine ⟨?_, ?_, ?_, ?_⟩
  · intro v hv
    obtain ⟨i, -, rfl⟩ := List.mem_map.1 hv
    rfl
  · intro f hf i
    obtain ⟨t, ht, rfl⟩ := List.mem_map.1 hf
    simp only [trianglesOf, List.length_map]
    exact List.idxOf_lt_length_of_mem (hmem t ht i)
  · simp only [trianglesOf, List.map_map]
    conv_rhs => rw [← List.map_id tris]
    refine List.map_congr_left fun t ht => ?_
    funext i
    refine index_of _ _ _ (x (t i)) ?_
    simp only [List.getElem?_map, getElem?_idxOf' (hmem t ht i)]
    rfl
  · intro k
    simp only [trianglesOf, List.map_map, List.mem_map, Function.comp, exists_eq_right, mem_firsts,
      List.mem_flatMap]
    refine exists_congr fun t => and_congr_right fun _ => ?_
    constructor
    · intro h
      simp only [List.mem_cons, List.not_mem_nil, or_false] at h
      rcases h with rfl | rfl | rfl
      exacts [⟨0, rfl⟩, ⟨1, rfl⟩, ⟨2, rfl⟩]
    · rintro ⟨i, rfl⟩
      fin_cases i <;> simp

theorem merge_partial (x : ℕ → V3 ℝ) (ta tb : List (Fin 3 → ℕ)) (a b : TriMesh)
    (ha : Partial x ta a) (hb : Partial x tb b) : Partial x (ta ++ tb) (a.merge b) := by
  have hl : ∀ j, j < a.verts.length → (a.merge b).index j = a.index j := by
    intro j hj
    simp only [TriMesh.index, TriMesh.merge, List.getElem?_append_left hj]
  have hr : ∀ j, (a.merge b).index (a.verts.length + j) = b.index j := by
    intro j
    simp only [TriMesh.index, TriMesh.merge]
    rw [List.getElem?_append_right (by omega), Nat.add_sub_cancel_left]
  refine ⟨?_, ?_, ?_, ?_⟩
  · intro v hv
    rcases List.mem_append.1 hv with h | h
    · exact ha.positions v h
    · exact hb.positions v h
  · intro f hf i
    simp only [TriMesh.merge, List.length_append] at hf ⊢
    rcases List.mem_append.1 hf with h | h
    · have := ha.inside f h i; omega
    · obtain ⟨g, hg, rfl⟩ := List.mem_map.1 h
      have := hb.inside g hg i
      simp only; omega
  · have : (a.merge b).faces = a.faces ++ b.faces.map fun f i => a.verts.length + f i := rfl
    rw [this, List.map_append, List.map_map, ← ha.faces, ← hb.faces]
    congr 1
    · refine List.map_congr_left fun f hf => ?_
      funext i
      exact hl _ (ha.inside f hf i)
    · refine List.map_congr_left fun f _ => ?_
      funext i
      exact hr _
  · intro k
    have : (a.merge b).verts = a.verts ++ b.verts := rfl
    rw [this, List.map_append, List.mem_append, ha.used, hb.used]
    constructor
    · rintro (⟨t, ht, h⟩ | ⟨t, ht, h⟩)
      · exact ⟨t, List.mem_append_left _ ht, h⟩
      · exact ⟨t, List.mem_append_right _ ht, h⟩
    · rintro ⟨t, ht, h⟩
      rcases List.mem_append.1 ht with h' | h'
      · exact Or.inl ⟨t, h', h⟩
      · exact Or.inr ⟨t, h', h⟩

theorem order_perm (m : TriMesh) : m.order.Perm (List.range m.verts.length) := List.mergeSort_perm _ _

theorem order_mem (m : TriMesh) (i : ℕ) : i ∈ m.order ↔ i < m.verts.length := by
  rw [(order_perm m).mem_iff, List.mem_range]

theorem sort_verts_perm (m : TriMesh) : m.sort.verts.Perm m.verts :=
  ((order_perm m).filterMap (m.verts[·]?)).trans (List.Perm.of_eq (gather_range m.verts))

theorem sort_sorted (m : TriMesh) : (m.sort.verts.map Prod.fst).Pairwise (· ≤ ·) := by
  have h := List.pairwise_mergeSort (le := fun a b : ℕ =>
      decide (((m.verts[a]?).map Prod.fst).getD 0 ≤ ((m.verts[b]?).map Prod.fst).getD 0))
    (by intro a b c; simp; omega) (by intro a b; simp; omega) (List.range m.verts.length)
  simp only [TriMesh.sort, gather]
  rw [List.pairwise_map, List.pairwise_filterMap]
  refine List.Pairwise.imp ?_ h
  intro a b hab u hu v hv
  simpa [hu, hv] using hab

theorem sort_partial (x : ℕ → V3 ℝ) (tris : List (Fin 3 → ℕ)) (m : TriMesh) (h : Partial x tris m) :
    Partial x tris m.sort := by
  have hget : ∀ j, j < m.verts.length → m.sort.index (m.order.idxOf j) = m.index j := by
    intro j hj
    simp only [TriMesh.index, TriMesh.sort]
    rw [gather_get _ _ fun i hi => (order_mem m i).1 hi, getElem?_idxOf' ((order_mem m j).2 hj)]
    rfl
  refine ⟨fun v hv => h.positions v ((sort_verts_perm m).mem_iff.1 hv), ?_, ?_, ?_⟩
  · intro f hf i
    obtain ⟨g, hg, rfl⟩ := List.mem_map.1 hf
    rw [(sort_verts_perm m).length_eq]
    have := List.idxOf_lt_length_of_mem ((order_mem m (g i)).2 (h.inside g hg i))
    rwa [(order_perm m).length_eq, List.length_range] at this
  · rw [← h.faces]
    have : m.sort.faces = m.faces.map fun f i => m.order.idxOf (f i) := rfl
    rw [this, List.map_map]
    refine List.map_congr_left fun f hf => ?_
    funext i
    exact hget _ (h.inside f hf i)
  · intro k
    rw [((sort_verts_perm m).map Prod.fst).mem_iff]
    exact h.used k

theorem average_same (ps : List (V3 ℝ)) (p : V3 ℝ) (hne : ps ≠ []) (h : ∀ q ∈ ps, q = p) :
    average ps = p := by
  have key : ∀ (l : List (V3 ℝ)) (c : ℝ) (acc : V3 ℝ), (∀ q ∈ l, q = p) →
      l.foldl (fun acc q => acc + c • q) acc = acc + ((l.length : ℝ) * c) • p := by
    intro l c
    induction l with
    | nil => intro acc _; ext <;> simp
    | cons q l ih =>
      intro acc hq
      rw [List.foldl_cons, ih _ fun r hr => hq r (List.mem_cons_of_mem _ hr), hq q List.mem_cons_self]
      ext <;> simp <;> ring
  have hn : (ps.length : ℝ) ≠ 0 := by
    simpa using hne
  unfold average
  rw [key ps _ 0 h, mul_one_div_cancel hn]
  ext <;> simp

theorem fuse_shows (x : ℕ → V3 ℝ) (tris : List (Fin 3 → ℕ)) (m : TriMesh) (h : Partial x tris m)
    (hs : (m.verts.map Prod.fst).Pairwise (· ≤ ·)) : Shows x tris m.fuse := by
  have hfst : m.fuse.verts.map Prod.fst = firsts (m.verts.map Prod.fst) := by
    simp [TriMesh.fuse, Function.comp_def]
  have hmem : ∀ f ∈ m.faces, ∀ i, m.index (f i) ∈ firsts (m.verts.map Prod.fst) := by
    intro f hf i
    rw [mem_firsts, h.used]
    refine ⟨fun i => m.index (f i), ?_, i, rfl⟩
    rw [← h.faces]
    exact List.mem_map.2 ⟨f, hf, rfl⟩
  refine ⟨?_, ?_, ?_, ?_, ?_⟩
  · rw [hfst]
    have h1 := hs.sublist (firsts_sublist _)
    have h2 := firsts_nodup (m.verts.map Prod.fst)
    exact (h1.and h2).imp fun h => lt_of_le_of_ne h.1 h.2
  · intro v hv
    obtain ⟨k, hk, rfl⟩ := List.mem_map.1 hv
    refine average_same _ _ ?_ ?_
    · rw [mem_firsts, List.mem_map] at hk
      obtain ⟨u, hu, rfl⟩ := hk
      intro e
      have : u.2 ∈ (m.verts.filter fun v => decide (v.1 = u.1)).map Prod.snd :=
        List.mem_map.2 ⟨u, List.mem_filter.2 ⟨hu, by simp⟩, rfl⟩
      rw [e] at this
      simp at this
    · intro q hq
      obtain ⟨u, hu, rfl⟩ := List.mem_map.1 hq
      rw [List.mem_filter, decide_eq_true_eq] at hu
      rw [h.positions u hu.1, hu.2]
  · intro f hf i
    obtain ⟨g, hg, rfl⟩ := List.mem_map.1 hf
    have := List.idxOf_lt_length_of_mem (hmem g hg i)
    rw [← hfst, List.length_map] at this
    rw [hfst] at this
    exact this
  · rw [← h.faces]
    have : m.fuse.faces = m.faces.map fun f i => (firsts (m.verts.map Prod.fst)).idxOf (m.index (f i)) :=
      rfl
    rw [this, List.map_map]
    refine List.map_congr_left fun f hf => ?_
    funext i
    have hg := getElem?_idxOf' (hmem f hf i)
    simp only [Function.comp, TriMesh.index]
    rw [← List.getElem?_map, hfst]
    change (firsts (m.verts.map Prod.fst))[(firsts (m.verts.map Prod.fst)).idxOf (m.index (f i))]?.getD 0
      = m.index (f i)
    rw [hg]
    rfl
  · intro k
    rw [hfst, mem_firsts]
    exact h.used k

theorem surfaceMesh_shows (surface : List (Fin 4 → ℕ) → List (Fin 3 → ℕ)) (x : ℕ → V3 ℝ)
    (cells : List Cell) : Shows x (facesOf surface cells) (surfaceMesh surface x cells) :=
  fuse_shows _ _ _ (sort_partial _ _ _ (merge_partial _ _ _ _ _ (trianglesOf_partial _ _)
    (trianglesOf_partial _ _))) (sort_sorted _)

/-! ## All contacts -/

theorem initObjectId_plain (a : Attrs) (h : Plain a) :
    ∃ a', initObjectId a = .ok a' ∧ a'.onCells = some ⟨.i32, (given a).map (max · 0)⟩ ∧
      ∀ v ∈ given a, v < 2 ^ 31 := by
  obtain ⟨nv, nc, oc, ov⟩ := a
  cases oc with
  | none =>
    refine ⟨_, rfl, ?_, ?_⟩
    · simp [given]
    · intro v hv
      have := List.eq_of_mem_replicate hv
      subst this
      norm_num
  | some ids =>
    obtain ⟨ty, vals⟩ := ids
    obtain ⟨h1, h2⟩ := h _ rfl
    simp only at h1
    subst h1
    refine ⟨_, rfl, rfl, fun v hv => ?_⟩
    have := (h2 v hv).2
    simp only [AttrType.range] at this
    omega

/-- The faces of each object of the scene. -/
def objectFaces (surface : List (Fin 4 → ℕ) → List (Fin 3 → ℕ)) (cells : List Cell) (a : Attrs)
    (id : ℕ) : List (Fin 3 → ℕ) := facesOf surface (own cells (given a) id)

theorem contactSurface_eq (surface : List (Fin 4 → ℕ) → List (Fin 3 → ℕ)) (x : ℕ → V3 ℝ)
    (cells : List Cell) (ids : List ℤ) (hr : ∀ v ∈ ids, v < 2 ^ 31) (types : List VertexType) (id : ℕ) :
    (Exists ids id → ∃ S, contactSurface (surfaceMeshes surface x cells (ids.map (max · 0))) types id
        = .ok S ∧ Shows x (facesOf surface (own cells ids id)) S.mesh ∧
        (S.fixed = true ↔ AllFixed types (facesOf surface (own cells ids id)))) ∧
    (¬ Exists ids id → contactSurface (surfaceMeshes surface x cells (ids.map (max · 0))) types id
        = .error (.unknownObject id)) := by
  obtain ⟨h1, h2⟩ := surface_lookup surface x cells ids hr id
  constructor
  · intro h
    unfold contactSurface
    rw [h1 h]
    have hs := surfaceMesh_shows surface x (own cells ids id)
    refine ⟨_, rfl, hs, ?_⟩
    simp only [List.all_eq_true, decide_eq_true_eq, List.mem_finRange, true_implies]
    unfold AllFixed
    constructor
    · intro hf t ht i
      rw [← hs.faces] at ht
      obtain ⟨f, hf', rfl⟩ := List.mem_map.1 ht
      exact hf f hf' i
    · intro hf f hf' i
      refine hf (fun i => (surfaceMesh surface x (own cells ids id)).index (f i)) ?_ i
      rw [← hs.faces]
      exact List.mem_map.2 ⟨f, hf', rfl⟩
  · intro h
    unfold contactSurface
    rw [h2 h]

theorem implicit_iff (k : KernelType) (x : ℕ → V3 ℝ) (tris : List (Fin 3 → ℕ)) (m : TriMesh)
    (h : Shows x tris m) : implicit k m = true ↔ k.Usable ∧ tris ≠ [] := by
  have : m.faces.isEmpty = false ↔ tris ≠ [] := by
    rw [← h.faces]
    cases m.faces <;> simp
  cases k <;> simp [implicit, KernelType.Usable, ← this]

/-- One request of the user can be met. -/
structure Possible (types : List VertexType) (ids : List ℤ) (faces : ℕ → List (Fin 3 → ℕ))
    (r : Request) : Prop where
  object : Exists ids r.object
  collider : Exists ids r.collider
  kernel : r.params.kernel.Usable
  surface : faces r.object ≠ []
  moves : ¬ (AllFixed types (faces r.object) ∧ AllFixed types (faces r.collider))

/-- Why a request of the user cannot be met. -/
def Explains (types : List VertexType) (ids : List ℤ) (faces : ℕ → List (Fin 3 → ℕ)) (r : Request) :
    Failure → Prop
  | .unknownObject id => (id = r.object ∨ id = r.collider) ∧ ¬ Exists ids id
  | .invalidSurface => ¬ (r.params.kernel.Usable ∧ faces r.object ≠ [])
  | .missingMass => AllFixed types (faces r.object) ∧ AllFixed types (faces r.collider)
  | .selfContact => r.object = r.collider
  | .attribute => False
  | .panic => False

theorem buildContact_eq (surface : List (Fin 4 → ℕ) → List (Fin 3 → ℕ)) (x : ℕ → V3 ℝ)
    (cells : List Cell) (a : Attrs) (hr : ∀ v ∈ given a, v < 2 ^ 31) (types : List VertexType)
    (r : Request) :
    (∃ C, buildContact (surfaceMeshes surface x cells ((given a).map (max · 0))) types r = .ok C ∧
      Possible types (given a) (objectFaces surface cells a) r ∧
      Realizes x types (objectFaces surface cells a) r C) ∨
    (∃ e, buildContact (surfaceMeshes surface x cells ((given a).map (max · 0))) types r = .error e ∧
      ¬ Possible types (given a) (objectFaces surface cells a) r ∧
      Explains types (given a) (objectFaces surface cells a) r e) := by
  obtain ⟨h1, h1'⟩ := contactSurface_eq surface x cells (given a) hr types r.object
  obtain ⟨h2, h2'⟩ := contactSurface_eq surface x cells (given a) hr types r.collider
  by_cases ho : Exists (given a) r.object
  · obtain ⟨S, hS, hSs, hSf⟩ := h1 ho
    by_cases hc : Exists (given a) r.collider
    · obtain ⟨T, hT, hTs, hTf⟩ := h2 hc
      have hb : buildContact (surfaceMeshes surface x cells ((given a).map (max · 0))) types r =
          if implicit r.params.kernel S.mesh = false then .error .invalidSurface
          else if S.fixed && T.fixed then .error .missingMass
          else .ok ⟨S, T, r.params.offset, initialStiffness r.params, r.params.tolerance,
            r.useFixed⟩ := by
        unfold buildContact
        rw [hS]
        simp only
        rw [hT]
      by_cases hi : implicit r.params.kernel S.mesh = false
      · right
        have hk : ¬ (r.params.kernel.Usable ∧ objectFaces surface cells a r.object ≠ []) := by
          intro h
          rw [← Bool.not_eq_true] at hi
          exact hi ((implicit_iff _ x _ _ hSs).2 h)
        exact ⟨.invalidSurface, by rw [hb, if_pos hi], fun hp => hk ⟨hp.kernel, hp.surface⟩, hk⟩
      · have hk : r.params.kernel.Usable ∧ objectFaces surface cells a r.object ≠ [] :=
          (implicit_iff _ x _ _ hSs).1 (by simpa using hi)
        by_cases hf : (S.fixed && T.fixed) = true
        · right
          have hf' : AllFixed types (objectFaces surface cells a r.object) ∧
              AllFixed types (objectFaces surface cells a r.collider) := by
            rw [Bool.and_eq_true] at hf
            exact ⟨hSf.1 hf.1, hTf.1 hf.2⟩
          exact ⟨.missingMass, by rw [hb, if_neg hi, if_pos hf], fun hp => hp.moves hf', hf'⟩
        · left
          refine ⟨⟨S, T, r.params.offset, initialStiffness r.params, r.params.tolerance, r.useFixed⟩,
            by rw [hb, if_neg hi, if_neg hf], ⟨ho, hc, hk.1, hk.2, ?_⟩,
            ⟨hSs, hTs, hSf, hTf, rfl, rfl, ?_, ?_⟩⟩
          · rintro ⟨g1, g2⟩
            exact hf (by rw [Bool.and_eq_true]; exact ⟨hSf.2 g1, hTf.2 g2⟩)
          · intro h
            simp only [initialStiffness]
            rw [if_neg (by linarith)]
          · intro h h'
            simp only [initialStiffness]
            rw [if_pos h, if_neg h'.ne']
    · right
      refine ⟨.unknownObject r.collider, ?_, fun hp => hc hp.collider, Or.inr rfl, hc⟩
      unfold buildContact
      rw [hS]
      simp only
      rw [h2' hc]
  · right
    refine ⟨.unknownObject r.object, ?_, fun hp => ho hp.object, Or.inl rfl, ho⟩
    unfold buildContact
    rw [h1' ho]

theorem buildAll_eq (surface : List (Fin 4 → ℕ) → List (Fin 3 → ℕ)) (x : ℕ → V3 ℝ)
    (cells : List Cell) (a : Attrs) (hr : ∀ v ∈ given a, v < 2 ^ 31) (types : List VertexType)
    (l : List Request) :
    (∃ Cs, buildAll (surfaceMeshes surface x cells ((given a).map (max · 0))) types l = .ok Cs ∧
      (∀ r ∈ l, Possible types (given a) (objectFaces surface cells a) r) ∧
      List.Forall₂ (Realizes x types (objectFaces surface cells a)) l Cs) ∨
    (∃ e, buildAll (surfaceMeshes surface x cells ((given a).map (max · 0))) types l = .error e ∧
      ∃ r ∈ l, ¬ Possible types (given a) (objectFaces surface cells a) r ∧
        Explains types (given a) (objectFaces surface cells a) r e) := by
  induction l with
  | nil => exact Or.inl ⟨[], rfl, by simp, .nil⟩
  | cons r l ih =>
    rcases buildContact_eq surface x cells a hr types r with ⟨C, h1, h2, h3⟩ | ⟨e, h1, h2, h3⟩
    · rcases ih with ⟨Cs, g1, g2, g3⟩ | ⟨e, g1, q, hq, g2, g3⟩
      · refine Or.inl ⟨C :: Cs, ?_, ?_, .cons h3 g3⟩
        · simp only [buildAll]
          rw [h1]
          simp only
          rw [g1]
        · intro q hq
          rcases List.mem_cons.1 hq with rfl | hq
          · exact h2
          · exact g2 q hq
      · refine Or.inr ⟨e, ?_, q, List.mem_cons_of_mem _ hq, g2, g3⟩
        simp only [buildAll]
        rw [h1]
        simp only
        rw [g1]
    · refine Or.inr ⟨e, ?_, r, List.mem_cons_self, h2, h3⟩
      simp only [buildAll]
      rw [h1]

/-! ## C82 -/

/-- C82: for every scene whose object ids are `i32` numbers on cells or missing, contacts are set up if and
only if each of them is between two different objects of the scene, at least one of which can move, and has
a usable kernel. -/
theorem contact_setup_possible (surface : List (Fin 4 → ℕ) → List (Fin 3 → ℕ)) (a : Attrs) (ha : Plain a)
    (cells : List Cell) (types : List VertexType) (x : ℕ → V3 ℝ) (requests : List Request) :
    (∃ Cs, setup surface a cells types x requests = .ok Cs) ↔
      ∀ r ∈ requests, r.object ≠ r.collider ∧
        Possible types (given a) (objectFaces surface cells a) r := by
  obtain ⟨a', h1, h2, h3⟩ := initObjectId_plain a ha
  unfold setup
  rw [h1]
  simp only
  by_cases hs : (requests.any fun r => decide (r.object = r.collider)) = true
  · rw [if_pos hs]
    simp only [reduceCtorEq, exists_false, false_iff]
    intro h
    rw [List.any_eq_true] at hs
    obtain ⟨r, hr, he⟩ := hs
    exact (h r hr).1 (by simpa using he)
  · rw [if_neg hs, h2]
    simp only
    have hne : ∀ r ∈ requests, r.object ≠ r.collider := by
      intro r hr he
      exact hs (List.any_eq_true.2 ⟨r, hr, by simpa using he⟩)
    rcases buildAll_eq surface x cells a h3 types requests with ⟨Cs, g1, g2, -⟩ | ⟨e, g1, r, hr, g2, -⟩
    · exact ⟨fun _ r hr => ⟨hne r hr, g2 r hr⟩, fun _ => ⟨Cs, g1⟩⟩
    · rw [g1]
      simp only [reduceCtorEq, exists_false, false_iff]
      exact fun h => g2 (h r hr).2

/-- C82: the contacts are those that were asked for, in this order. The surface of each object is the
boundary of its tetrahedra with its triangles; it counts as fixed if and only if all its vertices are. -/
theorem contact_setup (surface : List (Fin 4 → ℕ) → List (Fin 3 → ℕ)) (a : Attrs) (ha : Plain a)
    (cells : List Cell) (types : List VertexType) (x : ℕ → V3 ℝ) (requests : List Request)
    (Cs : List Contact) (h : setup surface a cells types x requests = .ok Cs) :
    List.Forall₂ (Realizes x types (objectFaces surface cells a)) requests Cs := by
  obtain ⟨a', h1, h2, h3⟩ := initObjectId_plain a ha
  unfold setup at h
  rw [h1] at h
  simp only at h
  by_cases hs : (requests.any fun r => decide (r.object = r.collider)) = true
  · rw [if_pos hs] at h
    cases h
  · rw [if_neg hs, h2] at h
    simp only at h
    rcases buildAll_eq surface x cells a h3 types requests with ⟨Cs', g1, -, g2⟩ | ⟨e, g1, -⟩
    · rw [g1] at h
      cases h
      exact g2
    · rw [g1] at h
      cases h

/-- C82: the failures that are reported apply to one of the requests, and nothing panics. -/
theorem contact_setup_failure (surface : List (Fin 4 → ℕ) → List (Fin 3 → ℕ)) (a : Attrs) (ha : Plain a)
    (cells : List Cell) (types : List VertexType) (x : ℕ → V3 ℝ) (requests : List Request) (e : Failure)
    (h : setup surface a cells types x requests = .error e) :
    ∃ r ∈ requests, Explains types (given a) (objectFaces surface cells a) r e := by
  obtain ⟨a', h1, h2, h3⟩ := initObjectId_plain a ha
  unfold setup at h
  rw [h1] at h
  simp only at h
  by_cases hs : (requests.any fun r => decide (r.object = r.collider)) = true
  · rw [if_pos hs] at h
    cases h
    rw [List.any_eq_true] at hs
    obtain ⟨r, hr, he⟩ := hs
    exact ⟨r, hr, by simpa [Explains] using he⟩
  · rw [if_neg hs, h2] at h
    simp only at h
    rcases buildAll_eq surface x cells a h3 types requests with ⟨Cs', g1, -⟩ | ⟨e', g1, r, hr, -, g2⟩
    · rw [g1] at h
      cases h
    · rw [g1] at h
      cases h
      exact ⟨r, hr, g2⟩

/-! ### The contacts of the simulation -/

theorem numDofs_le (types : List VertexType) (i : ℕ) (h : types[i]? = some .fixed) :
    numDofs types ≤ i := by
  unfold numDofs
  induction types generalizing i with
  | nil => simp
  | cons t l ih =>
    cases i with
    | zero =>
      simp only [List.getElem?_cons_zero, Option.some.injEq] at h
      subst h
      simp [VertexType.rank]
    | succ i =>
      rw [List.takeWhile_cons]
      split
      · simpa using ih i (by simpa using h)
      · simp

/-- The index in the simulated mesh of a vertex of a contact. -/
def vertexIndex (m : TriMesh) (j : ℕ) : ℕ := (((m.verts[j]?).getD (m.verts.getLastD (0, 0)))).1

theorem vertexIndex_mem (m : TriMesh) (h : m.verts ≠ []) (j : ℕ) :
    vertexIndex m j ∈ m.verts.map Prod.fst := by
  unfold vertexIndex
  by_cases hj : j < m.verts.length
  · rw [List.getElem?_eq_getElem hj]
    exact List.mem_map.2 ⟨_, List.getElem_mem hj, rfl⟩
  · rw [List.getElem?_eq_none (by omega), List.getLastD_eq_getLast?, List.getLast?_eq_getLast_of_ne_nil h]
    exact List.mem_map.2 ⟨_, List.getLast_mem h, rfl⟩

theorem shows_ne (x : ℕ → V3 ℝ) (tris : List (Fin 3 → ℕ)) (m : TriMesh) (h : Shows x tris m)
    (ht : tris ≠ []) : m.verts ≠ [] := by
  obtain ⟨t, l, rfl⟩ := List.exists_cons_of_ne_nil ht
  intro e
  have := (h.used (t 0)).2 ⟨t, List.mem_cons_self, 0, rfl⟩
  rw [e] at this
  simp at this

theorem vertexIndex_mono (x : ℕ → V3 ℝ) (tris : List (Fin 3 → ℕ)) (m : TriMesh) (h : Shows x tris m)
    (i j : ℕ) (hij : i < j) (hj : j < m.verts.length) : vertexIndex m i < vertexIndex m j := by
  have := List.pairwise_iff_getElem.1 h.ordered i j (by simp; omega) (by simpa using hj) hij
  unfold vertexIndex
  rw [List.getElem?_eq_getElem hj, List.getElem?_eq_getElem (by omega)]
  simpa using this

/-- C82: the contacts of a scene satisfy what C78 to C81 assume about them, if no two objects in contact
share a vertex. In particular, the vertices of surfaces that count as fixed are not moved by the solver. -/
theorem contact_setup_within (surface : List (Fin 4 → ℕ) → List (Fin 3 → ℕ)) (a : Attrs) (ha : Plain a)
    (cells : List Cell) (types : List VertexType) (x : ℕ → V3 ℝ) (requests : List Request)
    (Cs : List Contact) (h : setup surface a cells types x requests = .ok Cs)
    (kappa : Contact → ℝ) (value : Contact → ℕ → ℝ) (kernel : Contact → Kernel.Kern)
    (nbrs : Contact → List (List ℕ)) (closest : Contact → ℕ → ℕ)
    (hin : ∀ id, ∀ t ∈ objectFaces surface cells a id, ∀ i, t i < types.length)
    (hne : ∀ r ∈ requests, objectFaces surface cells a r.collider ≠ [])
    (hapart : ∀ r ∈ requests, ∀ t ∈ objectFaces surface cells a r.object,
      ∀ u ∈ objectFaces surface cells a r.collider, ∀ i j, t i ≠ u j)
    (S : Softy.Contact.Touching) (hbase : S.toSealed.Within S.numVertices)
    (hverts : S.numVertices = types.length) (hact : S.numActive = numDofs types)
    (hcon : S.contacts = Cs.map fun C => C.pair (kappa C) (value C) (kernel C) (nbrs C) (closest C)) :
    S.Within := by
  have hreal := contact_setup surface a ha cells types x requests Cs h
  have hposs := (contact_setup_possible surface a ha cells types x requests).1 ⟨Cs, h⟩
  have hall : ∀ D ∈ S.contacts, ∃ C, ∃ r ∈ requests,
      Realizes x types (objectFaces surface cells a) r C ∧
      D = C.pair (kappa C) (value C) (kernel C) (nbrs C) (closest C) := by
    intro D hD
    rw [hcon] at hD
    obtain ⟨C, hC, rfl⟩ := List.mem_map.1 hD
    obtain ⟨k, hk, rfl⟩ := List.getElem_of_mem hC
    have hk' : k < requests.length := by rw [hreal.length_eq]; exact hk
    exact ⟨Cs[k], requests[k], List.getElem_mem hk', List.forall₂_iff_get.1 hreal |>.2 k hk' hk, rfl⟩
  have hobj : ∀ (C : Contact) (r : Request), r ∈ requests →
      Realizes x types (objectFaces surface cells a) r C → ∀ j,
      ∃ t ∈ objectFaces surface cells a r.object, ∃ i, t i = vertexIndex C.object.mesh j := by
    intro C r hr hC j
    exact (hC.object.used _).1 (vertexIndex_mem _ (shows_ne _ _ _ hC.object (hposs r hr).2.surface) j)
  have hcol : ∀ (C : Contact) (r : Request), r ∈ requests →
      Realizes x types (objectFaces surface cells a) r C → ∀ j,
      ∃ t ∈ objectFaces surface cells a r.collider, ∃ i, t i = vertexIndex C.collider.mesh j := by
    intro C r hr hC j
    exact (hC.collider.used _).1 (vertexIndex_mem _ (shows_ne _ _ _ hC.collider (hne r hr)) j)
  refine ⟨hbase, ?_, ?_, ?_, ?_, ?_⟩
  · intro D hD j
    obtain ⟨C, r, hr, hC, rfl⟩ := hall D hD
    obtain ⟨t, ht, i, e⟩ := hobj C r hr hC j
    change vertexIndex C.object.mesh j < _
    rw [← e, hverts]
    exact hin _ t ht i
  · intro D hD j
    obtain ⟨C, r, hr, hC, rfl⟩ := hall D hD
    obtain ⟨t, ht, i, e⟩ := hcol C r hr hC j
    change vertexIndex C.collider.mesh j < _
    rw [← e, hverts]
    exact hin _ t ht i
  · intro D hD hf j
    obtain ⟨C, r, hr, hC, rfl⟩ := hall D hD
    obtain ⟨t, ht, i, e⟩ := hobj C r hr hC j
    change _ ≤ vertexIndex C.object.mesh j
    rw [← e, hact]
    exact numDofs_le _ _ (hC.objectFixed.1 hf t ht i)
  · intro D hD hf j
    obtain ⟨C, r, hr, hC, rfl⟩ := hall D hD
    obtain ⟨t, ht, i, e⟩ := hcol C r hr hC j
    change _ ≤ vertexIndex C.collider.mesh j
    rw [← e, hact]
    exact numDofs_le _ _ (hC.colliderFixed.1 hf t ht i)
  · intro D hD
    obtain ⟨C, r, hr, hC, rfl⟩ := hall D hD
    have hfne : C.object.mesh.faces ≠ [] := by
      intro e
      apply (hposs r hr).2.surface
      rw [← hC.object.faces, e]
      rfl
    have htri : ∀ s i, ((C.pair (kappa C) (value C) (kernel C) (nbrs C) (closest C)).tris s).get i <
        C.object.mesh.verts.length := by
      intro s i
      have : ∀ f ∈ C.object.mesh.faces, ∀ i : Fin 3, (⟨f 0, f 1, f 2⟩ : Field.Tri).get i <
          C.object.mesh.verts.length := by
        intro f hf i
        have := hC.object.inside f hf
        fin_cases i
        exacts [this 0, this 1, this 2]
      refine this ((C.object.mesh.faces[s]?).getD (C.object.mesh.faces.getLastD fun _ => 0)) ?_ i
      by_cases hs : s < C.object.mesh.faces.length
      · rw [List.getElem?_eq_getElem hs]
        exact List.getElem_mem hs
      · rw [List.getElem?_eq_none (by omega), List.getLastD_eq_getLast?,
          List.getLast?_eq_getLast_of_ne_nil hfne]
        exact List.getLast_mem hfne
    refine ⟨?_, ?_⟩
    · intro s s' i j hlt
      exact vertexIndex_mono x _ _ hC.object _ _ hlt (htri s' j)
    · intro i j e
      obtain ⟨t, ht, k, e1⟩ := hobj C r hr hC j
      obtain ⟨u, hu, l, e2⟩ := hcol C r hr hC i
      refine hapart r hr t ht u hu k l ?_
      rw [e1, e2]
      exact e.symm

/-! ### A scene -/

/-- The boundary of separate tetrahedra. -/
def demoSurface (ts : List (Fin 4 → ℕ)) : List (Fin 3 → ℕ) :=
  ts.flatMap fun t => [![t 0, t 2, t 1], ![t 0, t 3, t 2], ![t 0, t 1, t 3], ![t 1, t 2, t 3]]

/-- A tetrahedron that can move, above a triangle that is fixed. -/
def demoCells : List Cell :=
  [⟨.tetrahedron, [0, 1, 2, 3], 1, none, 0⟩, ⟨.triangle, [4, 5, 6], 1, none, 0⟩]

def demoTypes : List VertexType := [.free, .free, .free, .free, .fixed, .fixed, .fixed]

/-- The tetrahedron is object 0, as its id is negative; the triangle is object 1. -/
def demoIds : Attrs := ⟨7, 2, some ⟨.i32, [-5, 1]⟩, none⟩

def demoParams : Params := ⟨.approximate 1 0.01, 0.1, 0, 0.5, ⟨0, 0, 0⟩⟩

theorem demo_plain : Plain demoIds := by
  intro ids h
  cases h
  refine ⟨rfl, ?_⟩
  intro v hv
  simp only [List.mem_cons, List.not_mem_nil, or_false] at hv
  rcases hv with rfl | rfl <;> simp [AttrType.range]

theorem demo_faces0 : objectFaces demoSurface demoCells demoIds 0 =
    [![0, 2, 1], ![0, 3, 2], ![0, 1, 3], ![1, 2, 3]] := by
  simp [objectFaces, facesOf, own, given, demoIds, demoCells, tetsOf, trisOf, demoSurface]

theorem demo_faces1 : objectFaces demoSurface demoCells demoIds 1 = [![4, 5, 6]] := by
  have : own demoCells (given demoIds) 1 = [⟨.triangle, [4, 5, 6], 1, none, 0⟩] := by
    simp [own, given, demoIds, demoCells]
  simp only [objectFaces, facesOf, this]
  have h1 : trisOf [⟨.triangle, [4, 5, 6], 1, none, 0⟩] = [![4, 5, 6]] := by
    simp only [trisOf, decide_true, List.filter_cons_of_pos, List.filter_nil, List.map_cons, List.map_nil,
      List.cons.injEq, and_true]
    funext i
    fin_cases i <;> rfl
  rw [h1]
  simp [tetsOf, demoSurface]

theorem demo_exists (id : ℕ) (h : id < 2) : Exists (given demoIds) id := by
  interval_cases id
  · exact ⟨-5, by simp [given, demoIds], by norm_num⟩
  · exact ⟨1, by simp [given, demoIds], by norm_num⟩

theorem demo_fixed : AllFixed demoTypes (objectFaces demoSurface demoCells demoIds 1) ∧
    ¬ AllFixed demoTypes (objectFaces demoSurface demoCells demoIds 0) := by
  rw [demo_faces0, demo_faces1]
  constructor
  · intro t ht i
    rw [List.mem_singleton] at ht
    subst ht
    fin_cases i <;> rfl
  · intro h
    have := h ![0, 2, 1] (by simp) 0
    simp [demoTypes] at this

theorem demo_possible (u : Bool) :
    Possible demoTypes (given demoIds) (objectFaces demoSurface demoCells demoIds)
      ⟨demoParams, 0, 1, u⟩ := by
  refine ⟨demo_exists 0 (by norm_num), demo_exists 1 (by norm_num), ?_, ?_, ?_⟩
  · simp [demoParams, KernelType.Usable]
  · simp [demo_faces0]
  · exact fun h => demo_fixed.2 h.1

/-- The contact of the tetrahedron and the triangle is set up, with a stiffness of 2. -/
theorem demo_setup (x : ℕ → V3 ℝ) (u : Bool) :
    ∃ C, setup demoSurface demoIds demoCells demoTypes x [⟨demoParams, 0, 1, u⟩] = .ok [C] ∧
      C.object.fixed = false ∧ C.collider.fixed = true ∧ C.stiffness = some 2 ∧
      (∃ v ∈ C.collider.mesh.verts, v.1 = 4) := by
  obtain ⟨Cs, hCs⟩ := (contact_setup_possible demoSurface demoIds demo_plain demoCells demoTypes x
    [⟨demoParams, 0, 1, u⟩]).2 (by
      intro r hr
      rw [List.mem_singleton] at hr
      subst hr
      exact ⟨by simp, demo_possible u⟩)
  have h := contact_setup _ _ demo_plain _ _ _ _ _ hCs
  obtain ⟨C, l, hC, hl, rfl⟩ := List.forall₂_cons_left_iff.1 h
  rw [List.forall₂_nil_left_iff] at hl
  subst hl
  refine ⟨C, hCs, ?_, hC.colliderFixed.2 demo_fixed.1, ?_, ?_⟩
  · rw [← Bool.not_eq_true, hC.objectFixed]
    exact demo_fixed.2
  · rw [hC.unset (by simp [demoParams]) (by norm_num [demoParams])]
    norm_num [demoParams]
  · have := (hC.collider.used 4).2 ⟨![4, 5, 6], by rw [demo_faces1]; simp, 0, rfl⟩
    exact List.mem_map.1 this

/-- The hypotheses of `contact_setup_within` about the scene hold. -/
example : (∀ id, ∀ t ∈ objectFaces demoSurface demoCells demoIds id, ∀ i, t i < demoTypes.length) ∧
    objectFaces demoSurface demoCells demoIds 1 ≠ [] ∧
    (∀ t ∈ objectFaces demoSurface demoCells demoIds 0,
      ∀ u ∈ objectFaces demoSurface demoCells demoIds 1, ∀ i j, t i ≠ u j) ∧
    numDofs demoTypes = 4 := by
  refine ⟨?_, by simp [demo_faces1], ?_, rfl⟩
  · intro id t ht i
    rcases id with _ | _ | id
    · rw [demo_faces0] at ht
      simp only [List.mem_cons, List.not_mem_nil, or_false] at ht
      rcases ht with rfl | rfl | rfl | rfl <;> fin_cases i <;> decide
    · rw [demo_faces1] at ht
      simp only [List.mem_cons, List.not_mem_nil, or_false] at ht
      subst ht
      fin_cases i <;> decide
    · exfalso
      have : own demoCells (given demoIds) (id + 2) = [] := by
        simp only [own, given, demoIds, demoCells, List.zip_cons_cons, List.zip_nil_right]
        rw [List.filter_cons_of_neg (by simp; omega), List.filter_cons_of_neg (by simp; omega)]
        rfl
      rw [objectFaces, this] at ht
      simp [facesOf, tetsOf, trisOf, demoSurface] at ht
  · rw [demo_faces0, demo_faces1]
    intro t ht u hu i j
    simp only [List.mem_cons, List.not_mem_nil, or_false] at ht hu
    subst hu
    rcases ht with rfl | rfl | rfl | rfl <;> fin_cases i <;> fin_cases j <;> decide

/-- An object that does not exist, a contact of fixed objects. -/
example (x : ℕ → V3 ℝ) :
    (∀ Cs, setup demoSurface demoIds demoCells demoTypes x [⟨demoParams, 0, 2, true⟩] ≠ .ok Cs) ∧
    (∀ Cs, setup demoSurface demoIds demoCells (List.replicate 7 .fixed) x [⟨demoParams, 0, 1, true⟩]
      ≠ .ok Cs) := by
  constructor
  · intro Cs h
    have := ((contact_setup_possible _ _ demo_plain _ _ _ _).1 ⟨Cs, h⟩ _ List.mem_cons_self).2.collider
    obtain ⟨v, hv, e⟩ := this
    simp only [given, demoIds, List.mem_cons, List.not_mem_nil, or_false] at hv
    rcases hv with rfl | rfl <;> norm_num at e
  · intro Cs h
    refine ((contact_setup_possible _ _ demo_plain _ _ _ _).1 ⟨Cs, h⟩ _ List.mem_cons_self).2.moves ?_
    constructor
    · intro t ht i
      rw [demo_faces0] at ht
      simp only [List.mem_cons, List.not_mem_nil, or_false] at ht
      rcases ht with rfl | rfl | rfl | rfl <;> fin_cases i <;> rfl
    · intro t ht i
      rw [demo_faces1] at ht
      simp only [List.mem_cons, List.not_mem_nil, or_false] at ht
      subst ht
      fin_cases i <;> rfl

/-- C82: a contact is kept exactly if the simulation has a time step or the contact has no friction of any
kind: neither dynamic nor static nor viscous. -/
theorem contact_requested (dynamic : Bool) (l : List Request) (p : Params) (ids : ℕ × ℕ) :
    (⟨p, ids.1, ids.2, true⟩ : Request) ∈ add dynamic l p ids ∧ add dynamic l p ids ≠ l ↔
      dynamic = true ∨ (p.friction.dynamic = 0 ∧ p.friction.static = 0 ∧ p.friction.viscous = 0) := by
  unfold add addWithFixed
  constructor
  · rintro ⟨-, h⟩
    by_contra hn
    apply h
    rw [if_neg]
    intro hc
    rcases hc with hc | hc
    · exact hn (Or.inr hc)
    · exact hn (Or.inl hc)
  · intro h
    have hc : p.friction.IsNone ∨ dynamic = true := h.elim Or.inr Or.inl
    rw [if_pos hc]
    refine ⟨by simp, fun he => ?_⟩
    have := congrArg List.length he
    simp at this

/-- A contact with static friction only is dropped where there is no time step. -/
example : add false [] { demoParams with friction := ⟨0, 1, 0⟩ } (0, 1) = [] := by
  by_contra h
  have := (contact_requested false [] { demoParams with friction := ⟨0, 1, 0⟩ } (0, 1)).1 ⟨?_, h⟩
  · simp at this
  · unfold add addWithFixed at h ⊢
    split_ifs at h ⊢ with hc
    · simp
    · exact absurd rfl h

/-! ### Violations -/

/-- C82, violated: the documentation of `add_frictional_contact` (builder.rs lines 71-74) says how to add
self contacts, but they are always rejected. -/
theorem contact_self_violated (surface : List (Fin 4 → ℕ) → List (Fin 3 → ℕ)) (a : Attrs) (ha : Plain a)
    (cells : List Cell) (types : List VertexType) (x : ℕ → V3 ℝ) (dynamic : Bool) (p : Params)
    (hp : p.friction.IsNone) (id : ℕ) :
    setup surface a cells types x (add dynamic [] p (id, id)) = .error .selfContact := by
  obtain ⟨a', h1, -⟩ := initObjectId_plain a ha
  unfold setup add addWithFixed
  rw [h1, if_pos (Or.inl hp)]
  simp

/-- C82, violated: `add_frictional_contact_ignore_fixed` promises to ignore fixed vertices when contact
surfaces are built. The same surfaces are built as by `add_frictional_contact`: in this scene, vertex 4 is
fixed and part of the collider. -/
theorem contact_ignore_fixed_violated (x : ℕ → V3 ℝ) :
    ∃ C D, setup demoSurface demoIds demoCells demoTypes x (addIgnoreFixed true [] demoParams (0, 1))
        = .ok [C] ∧
      setup demoSurface demoIds demoCells demoTypes x (add true [] demoParams (0, 1)) = .ok [D] ∧
      C.object = D.object ∧ C.collider = D.collider ∧
      demoTypes[4]? = some .fixed ∧ (∃ v ∈ C.collider.mesh.verts, v.1 = 4) := by
  have e1 : addIgnoreFixed true [] demoParams (0, 1) = [⟨demoParams, 0, 1, false⟩] := by
    simp [addIgnoreFixed, addWithFixed]
  have e2 : add true [] demoParams (0, 1) = [⟨demoParams, 0, 1, true⟩] := by
    simp [add, addWithFixed]
  rw [e1, e2]
  obtain ⟨C, hC, -, -, -, hv⟩ := demo_setup x false
  obtain ⟨D, hD, -⟩ := demo_setup x true
  refine ⟨C, D, hC, hD, ?_, ?_, rfl, hv⟩
  all_goals
    obtain ⟨a', h1, h2, -⟩ := initObjectId_plain demoIds demo_plain
    unfold setup at hC hD
    rw [h1] at hC hD
    simp only [List.any_cons, List.any_nil, zero_ne_one, decide_false, Bool.or_self, Bool.false_eq_true,
      if_false] at hC hD
    rw [h2] at hC hD
    simp only [buildAll, buildContact] at hC hD
    revert hC hD
    cases contactSurface (surfaceMeshes demoSurface x demoCells ((given demoIds).map (max · 0)))
      demoTypes 0 with
    | error e => intro hC; cases hC
    | ok S =>
      cases contactSurface (surfaceMeshes demoSurface x demoCells ((given demoIds).map (max · 0)))
        demoTypes 1 with
      | error e => intro hC; cases hC
      | ok T =>
        simp only
        by_cases hi : implicit demoParams.kernel S.mesh = false
        · rw [if_pos hi]; intro hC; cases hC
        · rw [if_neg hi]
          by_cases hf : (S.fixed && T.fixed) = true
          · rw [if_pos hf]; intro hC; cases hC
          · rw [if_neg hf]
            intro hC hD
            simp only [if_neg hi, if_neg hf, Except.ok.injEq, List.cons.injEq, and_true] at hC hD
            rw [← hC, ← hD]

/-- C82, violated: in simulations without a time step, contacts with friction are dropped altogether and
without an error, although the objects would not pass through each other without friction. -/
theorem contact_static_violated (x : ℕ → V3 ℝ) :
    setup demoSurface demoIds demoCells demoTypes x
      (add false [] { demoParams with friction := ⟨0.2, 0, 0⟩ } (0, 1)) = .ok [] ∧
    ∃ C, setup demoSurface demoIds demoCells demoTypes x (add false [] demoParams (0, 1)) = .ok [C] := by
  constructor
  · have : add false [] { demoParams with friction := ⟨0.2, 0, 0⟩ } (0, 1) = [] := by
      unfold add addWithFixed
      rw [if_neg]
      norm_num [FrictionParams.IsNone]
    rw [this]
    obtain ⟨a', h1, h2, -⟩ := initObjectId_plain demoIds demo_plain
    unfold setup
    rw [h1]
    simp only [List.any_nil, Bool.false_eq_true, if_false]
    rw [h2]
    rfl
  · have : add false [] demoParams (0, 1) = [⟨demoParams, 0, 1, true⟩] := by
      unfold add addWithFixed
      rw [if_pos (Or.inl (by simp [demoParams, FrictionParams.IsNone]))]
      rfl
    rw [this]
    obtain ⟨C, hC, -⟩ := demo_setup x true
    exact ⟨C, hC⟩

/-- C82, violated: object ids of type `u8` or `u32` are moved to the vertices. The setup then fails for
every scene, even without contacts: with an error if the mesh has not as many vertices as cells, and with a
panic if it has. Ids of other types, such as `i64`, are replaced by zeros without an error. -/
theorem contact_object_type_violated (surface : List (Fin 4 → ℕ) → List (Fin 3 → ℕ)) (cells : List Cell)
    (types : List VertexType) (x : ℕ → V3 ℝ) (nv nc : ℕ) (ty : AttrType) (ids : List ℤ)
    (hl : ids.length = nc) :
    ((ty = .u8 ∨ ty = .u32) → setup surface ⟨nv, nc, some ⟨ty, ids⟩, none⟩ cells types x [] =
      .error (if nv = nc then .panic else .attribute)) ∧
    (ty = .i64 → ∀ r, r.object ≠ 0 → r.object ≠ r.collider →
      setup surface ⟨nv, nc, some ⟨ty, ids⟩, none⟩ cells types x [r] =
        .error (.unknownObject r.object)) := by
  constructor
  · intro h
    by_cases hn : nv = nc
    · subst hn
      rcases h with rfl | rfl <;> simp [setup, initObjectId, insertOnVerts, hl]
    · have : nc ≠ nv := fun e => hn e.symm
      rcases h with rfl | rfl <;> simp [setup, initObjectId, insertOnVerts, hl, hn, this]
  · rintro rfl r h0 hne
    have he : ((List.replicate nc (0 : ℤ)).map (max · 0)) = List.replicate nc 0 := by simp
    have hs := (contactSurface_eq surface x cells (List.replicate nc 0) (by
      intro v hv
      rw [List.eq_of_mem_replicate hv]
      norm_num) types r.object).2 (by
        rintro ⟨v, hv, e⟩
        rw [List.eq_of_mem_replicate hv] at e
        apply h0
        simpa using e.symm)
    rw [he] at hs
    simp only [setup, initObjectId, List.any_cons, List.any_nil, hne, decide_false, Bool.or_self,
      Bool.false_eq_true, if_false, buildAll, buildContact]
    rw [hs]

/-- C82, violated: the stiffness of contacts with default parameters is not a finite number, because the
default tolerance is zero. -/
theorem contact_default_violated (x : ℕ → V3 ℝ) :
    ∃ C, setup demoSurface demoIds demoCells demoTypes x (add true [] Params.default (0, 1)) = .ok [C] ∧
      C.stiffness = none := by
  have e2 : add true [] Params.default (0, 1) = [⟨Params.default, 0, 1, true⟩] := by
    simp [add, addWithFixed]
  rw [e2]
  obtain ⟨Cs, hCs⟩ := (contact_setup_possible demoSurface demoIds demo_plain demoCells demoTypes x
    [⟨Params.default, 0, 1, true⟩]).2 (by
      intro r hr
      rw [List.mem_singleton] at hr
      subst hr
      exact ⟨by simp, demo_exists 0 (by norm_num), demo_exists 1 (by norm_num),
        by simp [Params.default, KernelType.Usable], by simp [demo_faces0],
        fun h => demo_fixed.2 h.1⟩)
  have h := contact_setup _ _ demo_plain _ _ _ _ _ hCs
  obtain ⟨C, l, hC, hl, rfl⟩ := List.forall₂_cons_left_iff.1 h
  rw [List.forall₂_nil_left_iff] at hl
  subst hl
  refine ⟨C, hCs, ?_⟩
  obtain ⟨a', h1, h2, -⟩ := initObjectId_plain demoIds demo_plain
  unfold setup at hCs
  rw [h1] at hCs
  simp only [List.any_cons, List.any_nil, zero_ne_one, decide_false, Bool.or_self, Bool.false_eq_true,
    if_false] at hCs
  rw [h2] at hCs
  simp only [buildAll, buildContact] at hCs
  revert hCs
  cases contactSurface (surfaceMeshes demoSurface x demoCells ((given demoIds).map (max · 0)))
    demoTypes 0 with
  | error e => intro hC; cases hC
  | ok S =>
    cases contactSurface (surfaceMeshes demoSurface x demoCells ((given demoIds).map (max · 0)))
      demoTypes 1 with
    | error e => intro hC; cases hC
    | ok T =>
      simp only
      by_cases hi : implicit Params.default.kernel S.mesh = false
      · rw [if_pos hi]; intro hC; cases hC
      · rw [if_neg hi]
        by_cases hf : (S.fixed && T.fixed) = true
        · rw [if_pos hf]; intro hC; cases hC
        · rw [if_neg hf]
          intro hC
          simp only [Except.ok.injEq, List.cons.injEq, and_true] at hC
          rw [← hC]
          simp [initialStiffness, Params.default]

end Softy.Setup
