import Verif.Props.SurfaceQueryHessian

/-!
# C112: examples, and where derivatives at many query points are not as documented
-/

noncomputable section

namespace Softy.SurfaceQuery

open Softy Softy.Kernel Softy.Field

/-! ## Normals at vertices -/

/-- The vector with the direction of `n` and the length one, if it has a direction. -/
def direction (n : V3 ℝ) : V3 ℝ := if 0 < n.norm then (1 / n.norm) • n else n

/-- C112 for normals at vertices: if the query points are the vertices of the surface, then each vertex
has the direction in which the potential grows there.
Missing: the documentation does not ask for this; see `vertex_normals_violated`. -/
theorem Query.vertex_normals_partial (Q : Query) (hQ : Q.Complete)
    (hn : Q.cache.trivial.length = Q.numVertices) :
    Q.surfaceVertexNormals.length = Q.numVertices ∧ ∀ i < Q.numVertices,
      Q.surfaceVertexNormals.getD i 0 = direction (Q.jacobianAt (Q.x i)
        (Q.cache.trivial.getD i []) (Q.cache.closest.getD i 0)) := by
  have hc : Q.cache.closest.length = Q.numVertices := hQ.trans hn
  have hl : (Q.queryBlocks true ((List.range Q.numVertices).map Q.x)).length = Q.numVertices := by
    unfold Query.queryBlocks Query.zipped
    rw [List.length_map, List.filter_eq_self.2 (by simp)]
    simp [hn, hc]
  have hz : Q.surfaceVertexNormals = (Q.queryBlocks true ((List.range Q.numVertices).map Q.x)).map
      direction := by
    unfold Query.surfaceVertexNormals Query.queryFill SurfaceVelocity.Query.fill
    rw [List.take_of_length_le (by rw [hl, List.length_replicate]),
      List.drop_of_length_le (by rw [hl, List.length_replicate]), List.append_nil]
    rfl
  refine ⟨by rw [hz, List.length_map, hl], fun i hi => ?_⟩
  rw [List.getD_eq_getElem _ _ (by rw [hz, List.length_map, hl]; exact hi)]
  simp only [hz, List.getElem_map]
  congr 1
  unfold Query.queryBlocks Query.zipped
  have hf : (((List.range Q.numVertices).map Q.x).zip (Q.cache.trivial.zip Q.cache.closest)).filter
      (fun p => true || !p.2.1.isEmpty) =
      ((List.range Q.numVertices).map Q.x).zip (Q.cache.trivial.zip Q.cache.closest) :=
    List.filter_eq_self.2 (by simp)
  simp only [hf, List.getElem_map, List.getElem_zip, List.getElem_range]
  rw [List.getD_eq_getElem _ _ (by omega), List.getD_eq_getElem _ _ (by omega)]

/-- Where there are fewer query points than vertices, the last vertices have no normals. -/
theorem Query.vertex_normals_missing (Q : Query) (i : ℕ) (h1 : Q.cache.trivial.length ≤ i)
    (h2 : i < Q.numVertices) : Q.surfaceVertexNormals.getD i 0 = 0 := by
  have hl : (Q.queryBlocks true ((List.range Q.numVertices).map Q.x)).length ≤ i := by
    unfold Query.queryBlocks Query.zipped
    rw [List.length_map]
    refine (List.length_filter_le _ _).trans ?_
    rw [List.length_zip, List.length_zip]
    omega
  unfold Query.surfaceVertexNormals Query.queryFill SurfaceVelocity.Query.fill
  rw [List.length_replicate, List.drop_replicate, List.getD_eq_getElem?_getD, List.getElem?_map,
    List.getElem?_append_right (by rw [List.length_take]; omega), List.getElem?_replicate,
    if_pos (by rw [List.length_take]; omega)]
  simp
  intro _
  ext <;> simp

/-- A triangle and two query points: the first has no samples around it, the second has. -/
def demoQuery (w : Bool) : Query where
  S := faceSamples (fun _ => demoTri) demoVerts fun _ => 0
  sampleType := .face
  tris := fun _ => demoTri
  faces := [demoTri]
  x := demoVerts
  numVertices := 3
  kernel := .cubic 1
  params := ⟨.distanceBased, w⟩
  cache := .loc [[], [0]] [0, 0] [[], [0]]

/-- C112 fails for normals at vertices: there are two query points and three vertices, of which the last
has no normal, although the triangle has one. -/
theorem vertex_normals_violated : (demoQuery true).numVertices = 3 ∧
    (demoQuery true).S.nml 0 = ⟨0, 0, 9⟩ ∧ (demoQuery true).surfaceVertexNormals.getD 2 0 = 0 :=
  ⟨rfl, demo_nml 0, Query.vertex_normals_missing _ 2 (by simp [demoQuery, Cache.trivial])
    (by simp [demoQuery])⟩

/-! ## Multipliers -/

theorem demo_far_hessian : ∃ H, queryHessianAt ⟨1, 1, 2⟩ [0]
    (faceSamples (fun _ => demoTri) demoVerts fun _ => 0) (.cubic 1) ⟨.distanceBased, false⟩ = some H ∧
      H.r0.x ≠ 0 := by
  have hS := demo_smooth 2 (by norm_num) (by norm_num) false
  have hfar : (1 : ℝ) < ((⟨1, 1, 2⟩ : V3 ℝ) -
      (faceSamples (fun _ => demoTri) demoVerts fun _ => 0).pos 0).norm := by
    rw [demo_norm 2 (by norm_num)]
    norm_num
  obtain ⟨hcl, -⟩ := regular_weighable (q := fun _ => (⟨1, 1, 2⟩ : V3 ℝ))
    (S := fun _ => faceSamples (fun _ => demoTri) demoVerts fun _ => 0) (t := 0) hS.toRegular
  refine ⟨_, by unfold queryHessianAt; rw [local_eq none hcl]; rfl, ?_⟩
  have h := (query_form hS ⟨1, 0, 0⟩ ⟨1, 0, 0⟩).trans (pathForm_far hS rfl (r := 1) rfl hfar
    (fun _ => ⟨1, 0, 0⟩) (fun _ => 0) (fun _ => ⟨1, 0, 0⟩) (fun _ => 0) fun _ => 0)
  rw [show ∀ m : M3 ℝ, qf ⟨1, 0, 0⟩ m ⟨1, 0, 0⟩ = m.r0.x by
    intro m; simp [qf, M3.mulVec, V3.dot]] at h
  rw [h]
  have hdist : (bgAt (.cubic 1) ⟨.distanceBased, false⟩ ⟨1, 1, 2⟩ [0]
      (faceSamples (fun _ => demoTri) demoVerts fun _ => 0) 0 none).dist = 2 := demo_norm 2 (by norm_num)
  have hdisp : (bgAt (.cubic 1) ⟨.distanceBased, false⟩ ⟨1, 1, 2⟩ [0]
      (faceSamples (fun _ => demoTri) demoVerts fun _ => 0) 0 none).disp = ⟨0, 0, 2⟩ := demo_disp 2
  have ho : (bgAt (.cubic 1) ⟨.distanceBased, false⟩ ⟨1, 1, 2⟩ [0]
      (faceSamples (fun _ => demoTri) demoVerts fun _ => 0) 0 none).orientation = 1 := by
    rw [orientation_eq]
    rw [demo_nml, demo_disp, if_neg]
    norm_num [V3.dot]
  have hval : (bgAt (.cubic 1) ⟨.distanceBased, false⟩ ⟨1, 1, 2⟩ [0]
      (faceSamples (fun _ => demoTri) demoVerts fun _ => 0) 0 none).value = .signedDistance := rfl
  unfold Bg.fieldHess
  rw [hval]
  simp only [hdist, hdisp, ho]
  norm_num [qf, M3.mulVec, M3.diag, M3.outer, V3.dot]

/-- C112 fails for multipliers, of which the documentation asks for one for each query point. Two points
have the multipliers 0 and 1. The first has no samples around it. The second gets the multiplier of the
first: as the second point moves, its row of the Jacobian changes, but the Hessian is zero. -/
theorem multipliers_violated : ∃ d,
    HasDerivAt (fun s : ℝ => ((List.range 2).map fun i => [(0 : ℝ), 1].getD i 0 *
      rowSum ((demoQuery false).queryIndices.zip ((demoQuery false).queryValues
        [⟨9, 9, 9⟩, ⟨1, 1, 2⟩ + s • ⟨1, 0, 0⟩])) i (flat fun _ => ⟨1, 0, 0⟩)).sum) d 0 ∧
    symForm ((demoQuery false).queryHessianIndices.zip ((demoQuery false).queryHessianValues
      [⟨9, 9, 9⟩, ⟨1, 1, 2⟩] [0, 1])) (flat fun _ => ⟨1, 0, 0⟩) (flat fun _ => ⟨1, 0, 0⟩) ≠ d := by
  obtain ⟨H, hH, hne⟩ := demo_far_hessian
  have e0 : (⟨1, 1, 2⟩ : V3 ℝ) + (0 : ℝ) • ⟨1, 0, 0⟩ = ⟨1, 1, 2⟩ := by ext <;> simp
  have hq := (demoQuery false).query_hessian_derivative
    (fun s => [⟨9, 9, 9⟩, ⟨1, 1, 2⟩ + s • ⟨1, 0, 0⟩]) (fun i => if i = 0 then 0 else ⟨1, 0, 0⟩)
    (fun _ => ⟨1, 0, 0⟩) [1] 0 rfl (fun s => rfl) (by decide) (by
      intro i hi
      have : i = 0 ∨ i = 1 := by
        have : i < 2 := hi
        omega
      rcases this with rfl | rfl
      · exact HasD.const _
      · exact HasD.line _ _) (by
      intro i hi hv
      have : i = 0 ∨ i = 1 := by
        have : i < 2 := hi
        omega
      rcases this with rfl | rfl
      · exact absurd rfl hv
      · refine ⟨0, ?_⟩
        show Smooth (.cubic 1) ⟨.distanceBased, false⟩ (⟨1, 1, 2⟩ + (0 : ℝ) • ⟨1, 0, 0⟩) [0] _ 0
        rw [e0]
        exact demo_smooth 2 (by norm_num) (by norm_num) false)
  refine ⟨_, hq, ?_⟩
  have hb : ∀ a : ℝ, ∀ m, (demoQuery false).queryHessianBlocks [⟨9, 9, 9⟩, ⟨1, 1, 2⟩] (a :: m) =
      [(1, a • H)] := by
    intro a m
    unfold Query.queryHessianBlocks
    show [(1, a • (queryHessianAt ⟨1, 1, 2⟩ [0] (faceSamples (fun _ => demoTri) demoVerts fun _ => 0)
      (.cubic 1) ⟨.distanceBased, false⟩).getD 0)] = _
    rw [hH]
    rfl
  have hi : (demoQuery false).queryHessianIndices =
      [(3, 3), (4, 3), (4, 4), (5, 3), (5, 4), (5, 5)] := rfl
  unfold Query.queryHessianValues
  simp only [e0]
  rw [hb, hb, hi]
  have e : Query.lowerIndices = [(0, 0), (1, 0), (1, 1), (2, 0), (2, 1), (2, 2)] := rfl
  rw [e]
  simp [symForm, entry, coords, flat]
  exact fun h => hne h.symm

/-! ## Examples -/

/-- The query point above the triangle. -/
def demoPoints : List (V3 ℝ) := [⟨9, 9, 9⟩, ⟨1, 1, 1 / 2⟩]

example : (demoQuery true).Complete ∧ demoPoints.length = (demoQuery true).numQueryPoints ∧
    (demoQuery true).numNeighborhoods = 1 ∧
    (demoQuery true).queryIndices = [(1, 3), (1, 4), (1, 5)] ∧
    (demoQuery true).surfaceIndices = [(1, 0), (1, 1), (1, 2), (1, 3), (1, 4), (1, 5), (1, 6), (1, 7),
      (1, 8)] ∧ spread (demoQuery true).cache.trivial [7] = [0, 7] :=
  ⟨rfl, rfl, rfl, rfl, rfl, rfl⟩

theorem demoQuery_smooth (w : Bool) : ∀ i < (demoQuery w).cache.trivial.length,
    (demoQuery w).cache.trivial.getD i [] ≠ [] → ∃ c, Smooth (demoQuery w).kernel (demoQuery w).params
      (demoPoints.getD i 0) ((demoQuery w).cache.trivial.getD i []) (demoQuery w).S c := by
  intro i hi hv
  have : i = 0 ∨ i = 1 := by
    have : i < 2 := hi
    omega
  rcases this with rfl | rfl
  · exact absurd rfl hv
  · exact ⟨0, demo_smooth (1 / 2) (by norm_num) (by norm_num) w⟩

example (d : ℕ → V3 ℝ) : ∃ idx vals, (demoQuery true).surfaceHessianIndices = some idx ∧
    (demoQuery true).surfaceHessianValues demoPoints [7] = some vals ∧ ∀ u, HasDerivAt (fun s : ℝ =>
      ((List.range 2).map fun i => [(0 : ℝ), 7].getD i 0 *
        rowSum (((demoQuery true).at_ (fun v => demoVerts v + s • d v) fun _ => 0).surfaceIndices.zip
          (((demoQuery true).at_ (fun v => demoVerts v + s • d v) fun _ => 0).surfaceValues demoPoints))
          i (flat u)).sum) (symForm (idx.zip vals) (flat u) (flat d)) 0 := by
  have h := fun u => (demoQuery true).surface_hessian_derivative demoPoints
    (fun s v => demoVerts v + s • d v) d u (fun _ => 0) [7] 0 rfl (fun v => HasD.line _ _) (le_refl 2)
    (le_refl 1) (by
      intro i hi hv
      rw [demo_line]
      exact demoQuery_smooth true i hi hv)
  obtain ⟨idx, vals, h1, h2, -⟩ := h 0
  refine ⟨idx, vals, by rw [← h1, demo_line]; rfl, by rw [← h2, demo_line]; rfl, fun u => ?_⟩
  obtain ⟨idx', vals', h1', h2', h3⟩ := h u
  rw [h1] at h1'
  rw [h2] at h2'
  cases h1'
  cases h2'
  exact h3

/-- The triangle with samples at vertices, found in another order than that of their columns. -/
def demoVertexQuery : Query where
  S := vertexSamples [demoTri] demoVerts (fun _ => 0) fun _ => 0
  sampleType := .vertex
  tris := fun _ => demoTri
  faces := [demoTri]
  x := demoVerts
  numVertices := 3
  kernel := .cubic 10
  params := ⟨.distanceBased, false⟩
  cache := .loc [[2, 0, 1]] [0] [[0, 1, 2]]

example (d : ℕ → V3 ℝ) : HasDerivAt (fun s : ℝ => potentialAt ⟨1, 1 / 2, 1⟩ [2, 0, 1]
      (vertexSamples [demoTri] (fun v => demoVerts v + s • d v) (fun _ => 0) fun _ => 0)
      (.cubic 10) ⟨.distanceBased, false⟩ 0)
    (rowSum (demoVertexQuery.surfaceIndices.zip (demoVertexQuery.surfaceValues [⟨1, 1 / 2, 1⟩])) 0
      (flat d)) 0 := by
  refine demoVertexQuery.surface_derivative_vertices [⟨1, 1 / 2, 1⟩]
    (fun s v => demoVerts v + s • d v) d (fun _ => 0) (fun _ => 0) 0 0 rfl (fun v => HasD.line _ _)
    (by rw [demo_line]; rfl) (le_refl 1) 0 _ _ [0, 1, 2] rfl rfl (by decide) (by decide) ?_ ?_ ?_ ?_
    ⟨0, demo_vertex⟩
  · intro j hj hn
    exact absurd (by revert j; decide) hn
  · refine ⟨0, by simp, fun r hr => ?_⟩
    cases hr
    rw [show ((⟨1, 1 / 2, 1⟩ : V3 ℝ) - (demoVerts 0 + (0 : ℝ) • d 0)).norm = 3 / 2 by
      simp only [V3.norm, V3.dot, demoVerts, if_true, V3.sub_x, V3.sub_y, V3.sub_z, V3.add_x, V3.add_y,
        V3.add_z, V3.smul_x, V3.smul_y, V3.smul_z, V3.zero_x, V3.zero_y, V3.zero_z]
      rw [show ((1 - (0 + 0 * (d 0).x)) * (1 - (0 + 0 * (d 0).x)) + (1 / 2 - (0 + 0 * (d 0).y)) *
        (1 / 2 - (0 + 0 * (d 0).y)) + (1 - (0 + 0 * (d 0).z)) * (1 - (0 + 0 * (d 0).z)) : ℝ) =
        3 / 2 * (3 / 2) by ring, Real.sqrt_mul_self (by norm_num)]]
    norm_num
  · intro T hT
    obtain rfl : T = demoTri := List.mem_singleton.1 hT
    exact ⟨by decide, by decide, by decide⟩
  · intro T hT
    obtain rfl : T = demoTri := List.mem_singleton.1 hT
    left
    rintro v (rfl | rfl | rfl) <;> decide

end Softy.SurfaceQuery
