import Verif.Model.FieldHessian
import Verif.Model.SurfaceVelocity

/-!
# Derivatives of the potential at many query points

The potential of an implicit surface at a list of query points has a Jacobian and a Hessian.
`QueryTopo` offers them as sparse matrices: numbers in one list, rows and columns in another
(`implicits/src/field/jacobian.rs:6-710`, `implicits/src/field/hessian.rs:119-486` and `816-1025`), and
in sequential, parallel and chunked variants.  What is computed for one query point is modelled in
`Field` and `FieldHessian`; here are the loops around it.  `none` is a panic.
-/

noncomputable section

namespace Softy.SurfaceQuery

open Softy Softy.Kernel Softy.Field

/-- The neighborhoods that a query keeps (`QueryTopo`, `query.rs:17-44`): for kernels with local
support, the samples in the radius, the closest sample and the samples in the radius and around them,
for each query point; for global kernels, all samples, and the closest for each query point. -/
inductive Cache where
  | loc (trivial : List (List ℕ)) (closest : List ℕ) (extended : List (List ℕ))
  | glob (samples : List ℕ) (closest : List ℕ)

/-- `trivial_neighborhood_seq` (`query.rs:441-452`) and `trivial_neighborhood_par` (321-337). -/
def Cache.trivial : Cache → List (List ℕ)
  | .loc t _ _ => t
  | .glob s c => c.map fun _ => s

/-- `closest_samples_seq` (`query.rs:455-464`) and `closest_samples_par` (339-349). -/
def Cache.closest : Cache → List ℕ
  | .loc _ c _ => c
  | .glob _ c => c

/-- `extended_neighborhood_seq` (`query.rs:467-474`) and `extended_neighborhood_par` (351-359). -/
def Cache.extended : Cache → List (List ℕ)
  | .loc _ _ e => e
  | .glob s c => c.map fun _ => s

/-- A query: the surface and the cache. `tris` are the triangles by index, `faces` the list of them
and `x` the vertices, of which there are `numVertices`. -/
structure Query where
  S : Samples
  sampleType : SampleType
  tris : ℕ → Tri
  faces : List Tri
  x : ℕ → V3 ℝ
  numVertices : ℕ
  kernel : Kern
  params : BgParams
  cache : Cache

/-- `Chunked3::from_flat(..).into_arrays()` of `flatk`: numbers in groups of three; panics when some
are left over. -/
def arrays : List ℝ → Option (List (V3 ℝ))
  | [] => some []
  | a :: b :: c :: l => (arrays l).map fun r => ⟨a, b, c⟩ :: r
  | _ => none

/-- The numbers of a vector (`ArrayVec::from(v).into_iter()`). -/
def coords (v : V3 ℝ) : List ℝ := [v.x, v.y, v.z]

/-- `par_chunks(size)` of a slice. A size of zero panics; callers test for it. -/
def chunks {α : Type} (size : ℕ) (l : List α) : List (List α) :=
  if h : l = [] ∨ size = 0 then [] else l.take size :: chunks size (l.drop size)
termination_by l.length
decreasing_by
  push Not at h
  have := List.length_pos_iff.2 h.1
  rw [List.length_drop]
  omega

/-- The work of `ws.par_iter_mut().zip(..)`: each workspace gets the calls of one chunk, in order;
workspaces beyond the last chunk get none, chunks beyond the last workspace are not visited. -/
def perWorkspace {α : Type} (w : ℕ) (calls : List (List α)) : List (List α) :=
  calls.take w ++ List.replicate (w - calls.length) []

namespace Query

variable (Q : Query)

/-- `num_query_points` (`query.rs:194-196`). -/
def numQueryPoints : ℕ := Q.cache.trivial.length

/-- `num_neighborhoods` (`query.rs:199-203`). -/
def numNeighborhoods : ℕ := (Q.cache.trivial.filter fun n => !n.isEmpty).length

/-! ## Jacobian with respect to query points -/

/-- `num_query_jacobian_entries` (`jacobian.rs:10-12`). -/
def numQueryEntries : ℕ := Q.numNeighborhoods * 3

/-- The closure of `query_jacobian_iter_impl` (`jacobian.rs:163-173`) and of its variants. A closest
sample is given, so this does not panic. -/
def jacobianAt (q : V3 ℝ) (view : List ℕ) (closest : ℕ) : V3 ℝ :=
  (queryJacobianAt q view Q.S (some closest) Q.kernel Q.params).getD 0

/-- `zip!(query_points, neigh_points, closest_points)`. -/
def zipped (points : List (V3 ℝ)) : List (V3 ℝ × List ℕ × ℕ) :=
  points.zip (Q.cache.trivial.zip Q.cache.closest)

/-- `query_jacobian_iter_impl` (`jacobian.rs:142-174`), which `query_jacobian_block_iter` (35-42)
returns. -/
def queryBlocks (full : Bool) (points : List (V3 ℝ)) : List (V3 ℝ) :=
  ((Q.zipped points).filter fun p => full || !p.2.1.isEmpty).map fun p =>
    Q.jacobianAt p.1 p.2.1 p.2.2

/-- `query_jacobian_values_iter` (`jacobian.rs:78-86`). -/
def queryValues (points : List (V3 ℝ)) : List ℝ := (Q.queryBlocks false points).flatMap coords

/-- `query_jacobian_impl` (`jacobian.rs:286-300`): `query_jacobian` (17-24) and
`query_jacobian_full` (97-104). -/
def queryFill (full : Bool) (points : List (V3 ℝ)) (buffer : List (V3 ℝ)) : List (V3 ℝ) :=
  SurfaceVelocity.Query.fill (Q.queryBlocks full points) buffer

/-- `query_jacobian_values` (`jacobian.rs:27-32`). -/
def queryFillValues (points : List (V3 ℝ)) (buffer : List ℝ) : Option (List ℝ) :=
  (arrays buffer).map fun b => (Q.queryFill false points b).flatMap coords

/-- `query_jacobian_block_indices_iter` (`jacobian.rs:117-122`). -/
def queryBlockIndices : List (ℕ × ℕ) :=
  (Q.cache.trivial.zipIdx.filter fun p => !p.1.isEmpty).map fun p => (p.2, p.2)

/-- `query_jacobian_block_indices_par_iter` (`jacobian.rs:129-135`). -/
def queryBlockIndicesPar : List (ℕ × ℕ × ℕ) :=
  Q.cache.trivial.zipIdx.map fun p => (p.2, p.2, p.1.length)

/-- `query_jacobian_indices_iter` (`jacobian.rs:137-140`). -/
def queryIndices : List (ℕ × ℕ) :=
  Q.queryBlockIndices.flatMap fun p => (List.range 3).map fun j => (p.1, 3 * p.2 + j)

/-- `query_jacobian_par_iter_impl` (`jacobian.rs:246-284`), which `query_jacobian_block_par_iter`
(69-76) returns. -/
def queryBlocksPar (full : Bool) (points : List (V3 ℝ)) : List (Option (V3 ℝ)) :=
  (Q.zipped points).map fun p =>
    if full || !p.2.1.isEmpty then some (Q.jacobianAt p.1 p.2.1 p.2.2) else none

/-- `query_jacobian_indexed_block_par_iter` (`jacobian.rs:59-66`). -/
def queryIndexedPar (points : List (V3 ℝ)) : List (ℕ × ℕ × V3 ℝ) :=
  (Q.queryBlockIndicesPar.zip (Q.queryBlocksPar false points)).filterMap fun p =>
    p.2.map fun b => (p.1.1, p.1.2.1, b)

/-- `query_jacobian_impl_par` (`jacobian.rs:302-318`), called by `query_jacobian_full_par` (108-115):
each result is written to its own place. -/
def queryFillPar (full : Bool) (points : List (V3 ℝ)) (buffer : List (V3 ℝ)) : List (V3 ℝ) :=
  List.zipWith (fun j old => j.getD old) (Q.queryBlocksPar full points) buffer ++
    buffer.drop (Q.queryBlocksPar full points).length

/-- The size of chunks for `n` query points and `w` workspaces (`jacobian.rs:189-190` and `662`). -/
def chunkSize (n w : ℕ) : ℕ := (n + w - 1) / w

/-- `query_jacobian_indexed_block_par_chunks_impl` (`jacobian.rs:176-240`), called by
`query_jacobian_indexed_block_par_chunks` (44-56): the calls of `op` for each workspace. Panics: the
division if there are no workspaces, `par_chunks` if there are no query points, and
`trivial_neighborhood_par_chunks` for global kernels (`query.rs:398-408`). -/
def queryChunks (points : List (V3 ℝ)) (w : ℕ) : Option (List (List (ℕ × ℕ × V3 ℝ))) :=
  match Q.cache with
  | .glob _ _ => none
  | .loc trivial closest _ =>
    let size := chunkSize points.length w
    if w = 0 ∨ size = 0 then none
    else
      some (perWorkspace w
        (((chunks size points).zip ((chunks size trivial).zip (chunks size closest))).zipIdx.map
          fun c => ((c.1.1.zip (c.1.2.1.zip c.1.2.2)).zipIdx.filter fun p => !p.1.2.1.isEmpty).map
            fun p => (c.2 * size + p.2, c.2 * size + p.2, Q.jacobianAt p.1.1 p.1.2.1 p.1.2.2)))

/-- `surface_vertex_normals` (`query.rs:256-267`). -/
def surfaceVertexNormals : List (V3 ℝ) :=
  (Q.queryFill true ((List.range Q.numVertices).map Q.x) (List.replicate Q.numVertices 0)).map
    fun n => if 0 < n.norm then (1 / n.norm) • n else n

/-! ## Jacobian with respect to the vertices of the surface -/

/-- The neighborhoods of the surface Jacobian: `jacobian.rs:328-337`, `427-453`, `540-577`. -/
def surfaceNbrs : List (List ℕ) :=
  match Q.sampleType with
  | .vertex => Q.cache.extended
  | .face => Q.cache.trivial

/-- `num_pts_per_sample` (`jacobian.rs:338-341`). -/
def pointsPerSample : ℕ :=
  match Q.sampleType with
  | .vertex => 1
  | .face => 3

/-- `num_surface_jacobian_entries` (`jacobian.rs:327-342`). -/
def numSurfaceEntries : ℕ := (Q.surfaceNbrs.map List.length).sum * 3 * Q.pointsPerSample

/-- The vertices of the samples in a neighborhood, one for each block (`jacobian.rs:432-434` and
`442-446`). -/
def surfaceCols (view : List ℕ) : List ℕ :=
  match Q.sampleType with
  | .vertex => view
  | .face => faceJacobianCols view Q.tris

/-- `vertex_jacobian_at` or `face_jacobian_at`: the blocks of one query point. Neighborhoods are not
empty where this is called, so that it does not panic. -/
def surfaceAt (q : V3 ℝ) (view : List ℕ) : List (V3 ℝ) :=
  match Q.sampleType with
  | .vertex => (vertexJacobianAt q view Q.S Q.kernel Q.faces Q.params).getD []
  | .face => (faceJacobianAt q view Q.S Q.kernel Q.tris Q.x Q.params).getD []

/-- `surface_jacobian_iter_impl` (`jacobian.rs:522-579`), which `surface_jacobian_block_iter`
(353-360) returns. -/
def surfaceBlocks (points : List (V3 ℝ)) : List (V3 ℝ) :=
  ((points.zip Q.surfaceNbrs).filter fun p => !p.2.isEmpty).flatMap fun p => Q.surfaceAt p.1 p.2

/-- `surface_jacobian_values_iter` (`jacobian.rs:386-394`). -/
def surfaceValues (points : List (V3 ℝ)) : List ℝ := (Q.surfaceBlocks points).flatMap coords

/-- `surface_jacobian_values` (`jacobian.rs:345-351`) with `surface_jacobian_values_impl` (508-520). -/
def surfaceFillValues (points : List (V3 ℝ)) (buffer : List ℝ) : Option (List ℝ) :=
  (arrays buffer).map fun b =>
    (SurfaceVelocity.Query.fill (Q.surfaceBlocks points) b).flatMap coords

/-- `surface_jacobian_block_indices_iter` (`jacobian.rs:428-454`). -/
def surfaceBlockIndices : List (ℕ × ℕ) :=
  (Q.surfaceNbrs.zipIdx.filter fun p => !p.1.isEmpty).flatMap fun p =>
    (Q.surfaceCols p.1).map fun c => (p.2, c)

/-- `surface_jacobian_indices_iter` (`jacobian.rs:459-462`) and `surface_jacobian_indices_par_iter`
(397-423). -/
def surfaceIndices : List (ℕ × ℕ) :=
  Q.surfaceBlockIndices.flatMap fun p => (List.range 3).map fun i => (p.1, 3 * p.2 + i)

/-- `surface_jacobian_indices` (`jacobian.rs:467-506`): rows and columns are written to two buffers,
as many as fit both. -/
def surfaceFillIndices (rows cols : List ℕ) : List ℕ × List ℕ :=
  let ix := (Q.surfaceNbrs.zipIdx.filter fun p => !p.1.isEmpty).flatMap fun p =>
    (Q.surfaceCols p.1).flatMap fun c => (List.range 3).map fun i => (p.2, 3 * c + i)
  let n := min rows.length cols.length
  (SurfaceVelocity.Query.fill ((ix.take n).map Prod.fst) rows,
    SurfaceVelocity.Query.fill ((ix.take n).map Prod.snd) cols)

/-- The blocks of one row with their indices (`jacobian.rs:611-623`, `634-648` and `687-701`). -/
def surfaceRow (row : ℕ) (q : V3 ℝ) (view : List ℕ) : List (ℕ × ℕ × V3 ℝ) :=
  ((Q.surfaceCols view).zip (Q.surfaceAt q view)).map fun p => (row, p.1, p.2)

/-- `surface_jacobian_par_iter_impl` (`jacobian.rs:581-651`), which
`surface_jacobian_indexed_block_par_iter` (362-369) returns. -/
def surfaceIndexedPar (points : List (V3 ℝ)) : List (ℕ × ℕ × V3 ℝ) :=
  ((points.zip Q.surfaceNbrs).zipIdx.filter fun p => !p.1.2.isEmpty).flatMap fun p =>
    Q.surfaceRow p.2 p.1.1 p.1.2

/-- `surface_jacobian_par_chunks_impl` (`jacobian.rs:653-705`), called by
`surface_jacobian_indexed_block_par_chunks` (371-384). Panics as `queryChunks`, and for samples at
vertices. -/
def surfaceChunks (points : List (V3 ℝ)) (w : ℕ) : Option (List (List (ℕ × ℕ × V3 ℝ))) :=
  let size := chunkSize points.length w
  match Q.sampleType, Q.cache with
  | .face, .loc trivial _ _ =>
    if w = 0 ∨ size = 0 then none
    else
      some (perWorkspace w (((chunks size points).zip (chunks size trivial)).zipIdx.map fun c =>
        ((c.1.1.zip c.1.2).zipIdx.filter fun p => !p.1.2.isEmpty).flatMap fun p =>
          Q.surfaceRow (c.2 * size + p.2) p.1.1 p.1.2))
  | _, _ => none

/-! ## Hessian with respect to query points -/

/-- `num_query_hessian_product_entries` (`hessian.rs:124-126`). -/
def numQueryHessianEntries : ℕ := Q.numNeighborhoods * 6

/-- `query_hessian_product_block_indices_iter` (`hessian.rs:139-144`). -/
def queryHessianBlockIndices : List ℕ :=
  (Q.cache.trivial.zipIdx.filter fun p => !p.1.isEmpty).map Prod.snd

/-- Rows and columns of the lower triangle of a block, row by row. -/
def lowerIndices : List (ℕ × ℕ) := (List.range 3).flatMap fun r => (List.range (r + 1)).map fun c => (r, c)

/-- `query_hessian_product_indices_iter` (`hessian.rs:128-133`). -/
def queryHessianIndices : List (ℕ × ℕ) :=
  Q.queryHessianBlockIndices.flatMap fun i => lowerIndices.map fun p => (3 * i + p.1, 3 * i + p.2)

/-- `query_hessian_product_indexed_blocks_iter_impl` (`hessian.rs:216-246`), which
`query_hessian_product_indexed_blocks_iter` (155-162) returns: multipliers are taken one after the
other by points whose neighborhood is not empty. -/
def queryHessianBlocks (points : List (V3 ℝ)) (mult : List ℝ) : List (ℕ × M3 ℝ) :=
  ((((points.zip Q.cache.trivial).zipIdx).filter fun p => !p.1.2.isEmpty).zip mult).map fun p =>
    (p.1.2, p.2 • (queryHessianAt p.1.1.1 p.1.1.2 Q.S Q.kernel Q.params).getD 0)

/-- `mtx[r][c]`. -/
def _root_.Softy.SurfaceQuery.entry (m : M3 ℝ) (r c : ℕ) : ℝ :=
  ((([m.r0, m.r1, m.r2].map coords).getD r []).getD c 0)

/-- `query_hessian_product_values_iter_impl` (`hessian.rs:193-210`). -/
def queryHessianValues (points : List (V3 ℝ)) (mult : List ℝ) : List ℝ :=
  (Q.queryHessianBlocks points mult).flatMap fun b => lowerIndices.map fun p => entry b.2 p.1 p.2

/-- `query_hessian_product_values_impl` (`hessian.rs:248-271`), called by
`query_hessian_product_scaled_values` (177-190) and, with the scale one, by
`query_hessian_product_values` (164-171). The assertion of debug builds is left out. -/
def queryHessianFill (points : List (V3 ℝ)) (mult : List ℝ) (scale : ℝ) (buffer : List ℝ) : List ℝ :=
  SurfaceVelocity.Query.fill ((Q.queryHessianValues points mult).map (· * scale)) buffer

/-! ## Hessian with respect to the vertices of the surface -/

/-- `surface_hessian_product_block_indices_iter` (`hessian.rs:356-377`); `none` is the error for
samples at vertices. -/
def surfaceHessianBlockIndices : Option (List (ℕ × ℕ)) :=
  match Q.sampleType with
  | .vertex => none
  | .face => some (Q.cache.trivial.flatMap fun v => faceHessianIndices v Q.tris Q.params.weighted)

/-- Rows and columns of a block, row by row. -/
def allIndices : List (ℕ × ℕ) := (List.range 3).flatMap fun r => (List.range 3).map fun c => (r, c)

/-- `surface_hessian_product_indices_iter` (`hessian.rs:342-351`). -/
def surfaceHessianIndices : Option (List (ℕ × ℕ)) :=
  Q.surfaceHessianBlockIndices.map fun l =>
    (l.flatMap fun b => allIndices.map fun p => (3 * b.1 + p.1, 3 * b.2 + p.2)).filter
      fun p => p.2 ≤ p.1

/-- `num_surface_hessian_product_entries` (`hessian.rs:280-283`). -/
def numSurfaceHessianEntries : Option ℕ := Q.surfaceHessianIndices.map List.length

/-- `surface_hessian_product_indices` (`hessian.rs:379-389`): panics if a buffer is too short; the
outer `none` is the error for samples at vertices. -/
def surfaceHessianFillIndices (rows cols : List ℕ) : Option (Option (List ℕ × List ℕ)) :=
  Q.surfaceHessianIndices.map fun l =>
    if l.length ≤ rows.length ∧ l.length ≤ cols.length then
      some (SurfaceVelocity.Query.fill (l.map Prod.fst) rows,
        SurfaceVelocity.Query.fill (l.map Prod.snd) cols)
    else none

/-- `surface_hessian_product_indexed_blocks_iter_impl` (`hessian.rs:443-486`). -/
def surfaceHessianBlocks (points : List (V3 ℝ)) (mult : List ℝ) : Option (List HBlock) :=
  match Q.sampleType with
  | .vertex => none
  | .face => some ((((points.zip Q.cache.trivial).filter fun p => !p.2.isEmpty).zip mult).flatMap
      fun p => (faceHessianAt p.1.1 p.1.2 Q.S Q.kernel Q.tris Q.x Q.params p.2).getD [])

/-- `surface_hessian_product_values_iter_impl` (`hessian.rs:414-438`). -/
def surfaceHessianValues (points : List (V3 ℝ)) (mult : List ℝ) : Option (List ℝ) :=
  (Q.surfaceHessianBlocks points mult).map fun l => l.flatMap fun b =>
    (allIndices.filter fun p => 3 * b.col + p.2 ≤ 3 * b.row + p.1).map fun p => entry b.val p.1 p.2

/-- `surface_hessian_product_values_impl` (`hessian.rs:391-412`). -/
def surfaceHessianFill (points : List (V3 ℝ)) (mult : List ℝ) (scale : ℝ) (buffer : List ℝ) :
    Option (List ℝ) :=
  (Q.surfaceHessianValues points mult).map fun l =>
    SurfaceVelocity.Query.fill (l.map (· * scale)) buffer

/-! ## Mixed Hessian -/

/-- `sample_query_hessian_product_indexed_blocks_iter_impl` (`hessian.rs:839-981`): without
multipliers all are one (`sample_query_hessian_indexed_blocks_iter`, 816-823). -/
def mixedBlocks (points : List (V3 ℝ)) (mult : Option (List ℝ)) : Option (List (ℕ × ℕ × M3 ℝ)) :=
  match Q.sampleType with
  | .vertex => none
  | .face =>
    let visited := ((points.zip Q.cache.trivial).zipIdx).filter fun p => !p.1.2.isEmpty
    some ((visited.zip (mult.getD (List.replicate visited.length 1))).flatMap fun p =>
      ((sampleQueryHessianAt p.1.1.1 p.1.1.2 Q.S Q.kernel Q.tris Q.x Q.params p.2).getD []).map
        fun b => (p.1.2, b.1, b.2))

/-- `sample_query_hessian_product_block_indices_iter` (`hessian.rs:983-1025`). -/
def mixedIndices : Option (List (ℕ × ℕ)) :=
  match Q.sampleType with
  | .vertex => none
  | .face => some ((Q.cache.trivial.zipIdx.filter fun p => !p.1.isEmpty).flatMap fun p =>
      (sampleQueryHessianIndices p.1 Q.tris).map fun v => (p.2, v))

end Query

end Softy.SurfaceQuery
