import Verif.Model.Sliding

/-!
# Velocities of an implicit surface at query points

The contact Jacobian of an implicit surface as its users get it: as blocks with indices, as numbers
with indices, and multiplied with velocities (`implicits/src/field/jacobian.rs:713-1011`), and the
vector field (`implicits/src/field/query.rs:958-1006`, `implicits/src/field.rs:1107-1155`).
Sequential and parallel variants visit the same points in the same order.  `none` is a panic.
-/

noncomputable section

namespace Softy.SurfaceVelocity

open Softy Softy.Kernel Softy.Field Softy.Contact

/-- What a query knows: the samples and whether they are vertices or faces, the triangles, the
kernel, the background, and the neighborhood of each query point (`QueryTopo`, `query.rs:17-44`).
Corners of faces are `tris`. -/
structure Query where
  S : Samples
  sampleType : SampleType
  tris : ℕ → Tri
  kernel : Kern
  params : BgParams
  nbrs : List (List ℕ)

namespace Query

variable (Q : Query)

/-- The query points that are visited, with their rows: those whose neighborhood is not empty
(`enumerate` and `filter`, `jacobian.rs:870-873`). -/
def visited (points : List (V3 ℝ)) : List (ℕ × V3 ℝ × List ℕ) :=
  (points.zip Q.nbrs).zipIdx.filterMap fun p =>
    if p.1.2.isEmpty then none else some (p.2, p.1.1, p.1.2)

/-- The blocks of one sample: one for a vertex, one for each corner of a face (`jacobian.rs:882-889`). -/
def sampleBlocks (row j : ℕ) (m : M3 ℝ) : List MBlock :=
  match Q.sampleType with
  | .vertex => [⟨row, j, m⟩]
  | .face => (List.finRange 3).map fun c => ⟨row, (Q.tris j).get c, (1 / 3 : ℝ) • m⟩

/-- `contact_jacobian_matrices_impl` (`jacobian.rs:846-890`) and `contact_jacobian_matrices_par_impl`
(892-937). The assertion on lengths comes first. -/
def matrices (points : List (V3 ℝ)) : Option (List MBlock) :=
  if points.length = Q.nbrs.length then
    some ((Q.visited points).flatMap fun p =>
      (((contactJacobianAt p.2.1 p.2.2 Q.S Q.kernel Q.params).getD []).zip p.2.2).flatMap
        fun s => Q.sampleBlocks p.1 s.2 s.1)
  else none

/-- `contact_jacobian_matrix_indices_iter` (`jacobian.rs:796-820`) and its parallel variant (822-843). -/
def matrixIndices : List (ℕ × ℕ) :=
  (Q.nbrs.zipIdx.filter fun p => !p.1.isEmpty).flatMap fun p => p.1.flatMap fun j =>
    match Q.sampleType with
    | .vertex => [(p.2, j)]
    | .face => (List.finRange 3).map fun c => (p.2, (Q.tris j).get c)

/-- `num_contact_jacobian_matrices` (`jacobian.rs:787-794`). -/
def numMatrices : ℕ :=
  (Q.nbrs.map List.length).sum * (match Q.sampleType with | .vertex => 1 | .face => 3)

/-- `num_contact_jacobian_entries` (`jacobian.rs:731-733`). -/
def numEntries : ℕ := Q.numMatrices * 9

/-- `contact_jacobian_indices_iter` (`jacobian.rs:744-749`). -/
def indices : List (ℕ × ℕ) :=
  Q.matrixIndices.flatMap fun p =>
    (List.finRange 3).flatMap fun j => (List.finRange 3).map fun i => (3 * p.1 + j, 3 * p.2 + i)

/-- Writing results into a buffer: `zip` with `iter_mut`. -/
def fill {α : Type} (new old : List α) : List α := new.take old.length ++ old.drop new.length

/-- The numbers of a matrix, as `Chunked3::from_flat` twice divides a buffer of numbers into arrays
of rows (`jacobian.rs:738-740`). -/
def entries (m : M3 ℝ) : List ℝ :=
  [m.r0.x, m.r0.y, m.r0.z, m.r1.x, m.r1.y, m.r1.z, m.r2.x, m.r2.y, m.r2.z]

/-- `contact_jacobian_values` (`jacobian.rs:737-742`), through `contact_jacobian_matrices` (755-761).
Simplification: the buffer has nine numbers for each block, as `num_contact_jacobian_entries` says. -/
def values (points : List (V3 ℝ)) (buffer : List ℝ) : Option (List ℝ) :=
  (Q.matrices points).map fun bs => fill (bs.flatMap fun b => entries b.val) buffer

/-- The velocity of a sample, from velocities of vertices: `jacobian.rs:1662` and `1739-1741`. -/
def sampleVelocity (v : ℕ → V3 ℝ) (j : ℕ) : V3 ℝ :=
  match Q.sampleType with
  | .vertex => v j
  | .face => (1 / 3 : ℝ) • (v (Q.tris j).a + v (Q.tris j).b + v (Q.tris j).c)

/-- `vertex_contact_jacobian_product_at` (`jacobian.rs:1634-1680`) and
`face_contact_jacobian_product_at` (1711-1755), with `sample_contact_jacobian_product_at`
(1559-1588): the background is added. -/
def productAt (v : ℕ → V3 ℝ) (q : V3 ℝ) (view : List ℕ) : Option (V3 ℝ) :=
  (Bg.local q view Q.S Q.kernel Q.params none).bind fun b =>
    (queryJacobianAt q view Q.S none Q.kernel Q.params).map fun g =>
      (view.map fun j =>
        (sampleContactJacobian Q.kernel b.dist q Q.S g
          (weightNmlSumInv Q.kernel b.dist q view Q.S g) j).mulVec (Q.sampleVelocity v j)).sum +
        b.queryJacobian

/-- `contact_jacobian_product_values_impl` (`jacobian.rs:940-1010`): points are visited if their
neighborhood is not empty, and results are written one after the other. -/
def productValues (points : List (V3 ℝ)) (v : ℕ → V3 ℝ) (buffer : List (V3 ℝ)) : List (V3 ℝ) :=
  fill (((points.zip Q.nbrs).filter fun p => !p.2.isEmpty).map fun p =>
    (Q.productAt v p.1 p.2).getD 0) buffer

/-- `compute_unnormalized_weighted_vector_field` (`background_field.rs:368-379`), with
`BackgroundFieldValue::new` (37-49). -/
def backgroundVector (b : Bg) (input : V3 ℝ) : V3 ℝ :=
  b.bgWeight • (match Q.params.fieldType with
    | .zero => (0 : V3 ℝ)
    | .fromInput => input
    | .distanceBased => 0)

/-- `compute_local_vector_at` (`field.rs:1107-1155`): the new vector, given the old one. The weights
of a background do not depend on its value. -/
def vectorAt (q : V3 ℝ) (view : List ℕ) (old : V3 ℝ) : V3 ℝ :=
  match Bg.local q view Q.S Q.kernel Q.params none with
  | none => old
  | some b =>
    match queryJacobianAt q view Q.S none Q.kernel Q.params with
    | none => old
    | some g =>
      Q.backgroundVector b old +
        (view.map fun j =>
          (sampleContactJacobian Q.kernel b.dist q Q.S g b.weightSumInv j).mulVec (Q.S.vel j)).sum

/-- `compute_vector_field` (`query.rs:972-1006`), called by `vector_field` (963-969). -/
def vectorField (points : List (V3 ℝ)) (buffer : List (V3 ℝ)) : Option (List (V3 ℝ)) :=
  if Q.nbrs.length = buffer.length then
    some (fill (((points.zip Q.nbrs).zip buffer).map fun p => Q.vectorAt p.1.1 p.1.2 p.2) buffer)
  else none

end Query

end Softy.SurfaceVelocity
