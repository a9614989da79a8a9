import Verif.Model.Field
import Verif.Model.ContactPenalty

/-!
# Contacts: penalty energy and forces

Model of `softy/src/constraints/point_contact.rs` and of the parts of
`softy/src/constraints/penalty_point_contact.rs` that compute distances, multipliers, energy and forces
of one contact pair. Scalars are reals. Vertex data are functions of the vertex number. The
neighborhoods are those that the implicit surface has cached for each collider vertex
(`Model/Neighborhood.lean` computes them); they stay as they are while the vertices move. Penalty
constraints are never linearised (`penalty_point_contact.rs:1134`), so `constraint_jacobian` is empty.
-/

noncomputable section

namespace Softy.Contact

open Softy Softy.Kernel Softy.Field

/-- `PointContactConstraint` (`point_contact.rs:59-102`), with the parameters and index lists of
`PenaltyPointContactConstraint` that it is used with. -/
structure Pair where
  /-- `surface_topo` of the implicit surface. -/
  tris : ℕ → Tri
  /-- `samples.values`. -/
  value : ℕ → ℝ
  kernel : Kern
  /-- `trivial_neighborhood_seq()`: the samples around each collider vertex. -/
  nbrs : List (List ℕ)
  /-- `closest_samples_seq()`. -/
  closest : ℕ → ℕ
  /-- `implicit_surface_vertex_indices`. -/
  surf : ℕ → ℕ
  /-- `collider_vertex_indices`. -/
  coll : ℕ → ℕ
  /-- `object_is_fixed()`. -/
  objectFixed : Bool
  /-- `collider_is_fixed()`. -/
  colliderFixed : Bool
  /-- `contact_offset`. -/
  offset : ℝ
  /-- `params.tolerance`. -/
  delta : ℝ
  /-- `params.stiffness`. -/
  kappa : ℝ

/-- A triplet `(row, col, block)` of a Jacobian with blocks of size 1 by 3. -/
structure Block where
  row : ℕ
  col : ℕ
  val : V3 ℝ

/-- The background that contacts use: `point_contact.rs:151-154`. -/
def params : BgParams := ⟨.distanceBased, false⟩

namespace Pair

variable (C : Pair)

/-- `update_surface_vertex_positions` (`penalty_point_contact.rs:1146-1155`) and the resampling of the
surface (`samples.rs:190-218`). -/
def samples (x : ℕ → V3 ℝ) : Samples := faceSamples C.tris (fun j => x (C.surf j)) C.value

/-- `collider_vertex_positions`, after `update_collider_vertex_positions`
(`penalty_point_contact.rs:1158-1165`). -/
def query (x : ℕ → V3 ℝ) (i : ℕ) : V3 ℝ := x (C.coll i)

/-- The values that `compute_nonlinear_constraint` (`point_contact.rs:1053-1098`) leaves in
`constraint_value`: the potential of each collider vertex. Lines 1059-1061 are undone by 1078-1080. -/
def potentials (x : ℕ → V3 ℝ) : List ℝ :=
  C.nbrs.zipIdx.map fun p => potentialAt (C.query x p.2) p.1 (C.samples x) C.kernel params 0

/-- `compute_nonlinear_constraint`, the output `value` (lines 1093-1103), as
`update_distance_potential` (`penalty_point_contact.rs:1233-1241`) calls it: one distance for each
neighborhood that is not empty. -/
def distances (x : ℕ → V3 ℝ) : List ℝ :=
  (((C.nbrs.map List.length).zip (C.potentials x)).filter fun p => p.1 ≠ 0).map fun p =>
    p.2 - C.offset

/-- `enumerate_nonempty_neighborhoods_inplace` (`point_contact.rs:571-598`): the number of the
constraint that belongs to each collider vertex, given the number `n` of the first one. -/
def enumerateFrom (n : ℕ) : List ℕ → List (Option ℕ)
  | [] => []
  | s :: l => if s ≠ 0 then some n :: enumerateFrom (n + 1) l else none :: enumerateFrom n l

def neighborhoodIndices : List (Option ℕ) := enumerateFrom 0 (C.nbrs.map List.length)

/-- The number of a constraint: `neighborhood_indices[row].unwrap()`. The code panics where there is
none; `Props/Contact.lean` shows that this does not happen. -/
def constraintOf (row : ℕ) : ℕ := ((C.neighborhoodIndices[row]?).getD none).getD 0

/-- The neighborhoods that are not empty, with the number of the collider vertex:
`enumerate().filter(|(_, nbrs)| !nbrs.is_empty())`. -/
def active : List (List ℕ × ℕ) := C.nbrs.zipIdx.filter fun p => !p.1.isEmpty

/-- `surface_jacobian_block_indices_iter` for face samples (`jacobian.rs:427-453`). -/
def surfaceIndices : List (ℕ × ℕ) :=
  C.active.flatMap fun p => (faceJacobianCols p.1 C.tris).map fun col => (p.2, col)

/-- `surface_jacobian_block_iter` for face samples (`jacobian.rs:561-577`). -/
def surfaceBlocks (x : ℕ → V3 ℝ) : List (V3 ℝ) :=
  C.active.flatMap fun p => (faceJacobianAt (C.query x p.2) p.1 (C.samples x) C.kernel C.tris
    (fun j => x (C.surf j)) params).getD []

/-- `object_constraint_jacobian_blocks_iter` (`point_contact.rs:1203-1241`), with the column mapped to
a vertex (`penalty_point_contact.rs:1424-1438`). -/
def objectBlocks (x : ℕ → V3 ℝ) : List Block :=
  if C.objectFixed then [] else
    (C.surfaceIndices.zip (C.surfaceBlocks x)).map fun p =>
      ⟨C.constraintOf p.1.1, C.surf p.1.2, p.2⟩

/-- `query_jacobian_block_indices_iter` (`jacobian.rs:117-122`). -/
def queryIndices : List (ℕ × ℕ) := C.active.map fun p => (p.2, p.2)

/-- `query_jacobian_block_iter` (`jacobian.rs:34-41`, and 142-174 with `full` false). -/
def queryBlocks (x : ℕ → V3 ℝ) : List (V3 ℝ) :=
  C.active.map fun p =>
    (queryJacobianAt (C.query x p.2) p.1 (C.samples x) (some (C.closest p.2)) C.kernel
      params).getD 0

/-- `collider_constraint_jacobian_blocks_iter` (`point_contact.rs:1333-1371`), with the column mapped
to a vertex. -/
def colliderBlocks (x : ℕ → V3 ℝ) : List Block :=
  if C.colliderFixed then [] else
    (C.queryIndices.zip (C.queryBlocks x)).map fun p =>
      ⟨C.constraintOf p.1.1, C.coll p.1.2, p.2⟩

/-- `distance_jacobian_blocks_iter_fn` (`penalty_point_contact.rs:1424-1438`). -/
def blocks (x : ℕ → V3 ℝ) : List Block := C.objectBlocks x ++ C.colliderBlocks x

/-- `update_multipliers` (`penalty_point_contact.rs:1330-1338`). -/
def lambda (x : ℕ → V3 ℝ) : List ℝ := ContactPenalty.multipliers C.kappa C.delta (C.distances x)

/-- `subtract_constraint_force` (`penalty_point_contact.rs:2224-2235`):
`f[col] -= j * lambda[row]` for each block. -/
def subtractForce (x : ℕ → V3 ℝ) (f : ℕ → V3 ℝ) : ℕ → V3 ℝ :=
  (C.blocks x).foldl (fun f b =>
    Function.update f b.col (f b.col - ((C.lambda x).getD b.row 0) • b.val)) f

/-- `contact_constraint` (`penalty_point_contact.rs:2237-2246`). -/
def energy (x : ℕ → V3 ℝ) : ℝ :=
  ((C.distances x).map fun d => C.kappa * ContactPenalty.b C.delta d).sum

end Pair

end Softy.Contact
