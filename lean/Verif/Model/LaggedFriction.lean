import Verif.Model.Touching
import Verif.Model.Sliding

/-!
# The problem with contacts and lagged friction

Model of `friction_jacobian_indexed_value_iter` (`penalty_point_contact.rs:2914-3120`) for contacts whose
`friction_params.lagged` is set, and of the parts of `softy/src/fem/nl/problem.rs` that handle lagged
friction, on top of the problem of `Model/Touching.lean`. Lagged friction is computed from
`contact_state_prev`, a copy of the state of the contact that `advance_state` made at the start of the
step: the neighborhoods, positions, multipliers, frames and matrices of that time.

Matrices are those of crate `tensr`: they are kept in rows with a block for each pair of indices that
occurs among the triplets, in ascending order, blocks of equal triplets are summed, and products have a
block where a row of the first and a column of the second matrix have an index in common.
-/

noncomputable section

namespace Softy.Contact

open Softy Fem Softy.Field

namespace Pair

variable (C : Pair)

/-! ## Jacobian of lagged friction -/

/-- `TripletContactJacobian::from_selection_reindexed_full` (`contact.rs:506-550`), transposed by
`MappedContactGradient::from_triplets` (`penalty_point_contact.rs:403-450`). Rows are vertices of the mesh,
columns are constraints; `N` is the number of vertices of the mesh. -/
def gradientBlocks (x : ℕ → V3 ℝ) (N : ℕ) : List MBlock :=
  (((C.contactBlocks x).map fun b => MBlock.mk (C.surf b.col) b.row b.val.transpose) ++
    C.active.zipIdx.map fun p => MBlock.mk (C.coll p.1.2) p.2 (M3.transpose (-M3.diag 1))).filter
      fun b => decide (b.row < N)

/-- `contact_gradient.matrix`: the sum of the triplets at vertex `i` and constraint `k`. -/
def gradientBlock (x : ℕ → V3 ℝ) (N i k : ℕ) : M3 ℝ :=
  (((C.gradientBlocks x N).filter fun b => decide (b.row = i ∧ b.col = k)).map fun b => b.val).sum

/-- Constraint `k` has a block in the row of vertex `i` of `contact_gradient.matrix`. -/
def touches (x : ℕ → V3 ℝ) (N i k : ℕ) : Prop := ∃ b ∈ C.gradientBlocks x N, b.row = i ∧ b.col = k

/-- A block of `dh`: `penalty_point_contact.rs:3044-3058`. -/
def etaBlock (p : Friction.Params) (x v : ℕ → V3 ℝ) (k : ℕ) : M3 ℝ :=
  let c := ((C.contactBasis x).toContactCoordinates ((C.relativeVelocities x v).getD k 0) k).getD 0
  let m := Friction.jacobian ⟨c.y, c.z⟩ ((C.lambda x).getD k 0) p
  ⟨0, ⟨0, m.xx, m.xy⟩, ⟨0, m.yx, m.yy⟩⟩

/-- The block of matrix (E) for vertices `i` and `j`: `penalty_point_contact.rs:3060-3083`. -/
def frictionBlock (p : Friction.Params) (x v : ℕ → V3 ℝ) (N i j : ℕ) : M3 ℝ :=
  ((List.range C.active.length).map fun k =>
    C.gradientBlock x N i k * (((C.contactBasis x).fullBlock k).getD 0 *
      (C.etaBlock p x v k * (((C.contactBasis x).fullBlockTranspose k).getD 0 *
        (C.gradientBlock x N j k).transpose)))).sum

open Classical in
/-- The blocks of matrix (E), in rows. -/
def frictionBlocks (p : Friction.Params) (x v : ℕ → V3 ℝ) (N : ℕ) : List HBlock :=
  (List.range N).flatMap fun i =>
    ((List.range N).filter fun j => decide (∃ k, C.touches x N i k ∧ C.touches x N j k)).map
      fun j => ⟨i, j, C.frictionBlock p x v N i j⟩

open Classical in
/-- `friction_jacobian_indexed_value_iter` for lagged friction: `penalty_point_contact.rs:2914-3120`.
It is `None`, which counts as empty, where there is no friction. -/
def frictionEntries (p : Friction.Params) (x v : ℕ → V3 ℝ) (N maxIndex : ℕ) :
    List (Sparse.Key × ℝ) :=
  if p.isNone then []
  else ((C.frictionBlocks p x v N).filter fun b => decide (b.row < maxIndex ∧ b.col < maxIndex)).flatMap
    blockEntries

end Pair

/-! ## The problem -/

/-- A contact with lagged friction: its `contact_state_prev`, the positions for which this state was
updated, the number of vertices of its surface, and its `friction_params`. -/
structure Lagged where
  pair : Pair
  x : ℕ → V3 ℝ
  ns : ℕ
  params : Friction.Params

/-- `NLProblem` with its `frictional_contact_constraints`: problem.rs lines 116-190. -/
structure Rubbing extends Touching where
  frictions : List Lagged

namespace Rubbing

variable (S : Rubbing)

/-- `energy`: problem.rs lines 1087-1118, with line 1114. The sums are reordered. -/
def energy (x v : ℕ → V3 ℝ) (dqdv : ℝ) : Option ℝ :=
  (S.toTouching.energy x v dqdv).map fun e =>
    S.frictions.foldl (fun e L => e + L.pair.frictionPotential L.params L.x v dqdv) e

/-- `subtract_force` applied to the cleared residual, with the friction of `subtract_friction_forces`:
problem.rs lines 1168-1241. -/
def force (x v : ℕ → V3 ℝ) (dqdv : ℝ) : Option (ℕ → V3 ℝ) :=
  (S.toTouching.force x v dqdv).map fun r =>
    S.frictions.foldl (fun r L => L.pair.subtractFriction L.ns L.params L.x v r) r

open Classical in
/-- `compute_objective`: problem.rs lines 1355-1390. -/
def objective (forceMul prevForceMul : ℝ) (prevForce : ℕ → V3 ℝ) (v0 x v : ℕ → V3 ℝ) :
    Option ℝ :=
  let dqdv := S.dt * forceMul
  let start := if prevForceMul > 0
    then (∑ i ∈ Finset.range S.numVertices, V3.dot (prevForce i) (v i)) * prevForceMul * S.dt else 0
  (S.energy x v dqdv).map fun e =>
    if S.isStatic then start + e else start + e + S.inertia v0 v

open Classical in
/-- `compute_vertex_residual_impl`: problem.rs lines 1396-1451. -/
def residual (forceMul prevForceMul : ℝ) (prevForce : ℕ → V3 ℝ) (v0 x v : ℕ → V3 ℝ) :
    Option ((ℕ → V3 ℝ) × (ℕ → V3 ℝ)) :=
  let dqdv := S.dt * forceMul
  (S.force x v dqdv).map fun f =>
    let r : ℕ → V3 ℝ := if prevForceMul > 0
      then fun i => S.dt • (forceMul • f i + prevForceMul • prevForce i)
      else fun i => dqdv • f i
    (if S.isStatic then r else S.momentumDiff v0 v r, f)

/-- The entries that the iterator yields for one contact. -/
def entriesOf (v : ℕ → V3 ℝ) (L : Lagged) : List (Sparse.Key × ℝ) :=
  L.pair.frictionEntries L.params L.x v S.numVertices S.numActive

/-- `jacobian_nnz`: problem.rs lines 949-1022, with lines 997-1018. `u` are the velocities when it is
called. -/
def nnz (x u : ℕ → V3 ℝ) : ℕ :=
  S.frictions.foldl (fun n L => n + (S.entriesOf u L).length) (S.toTouching.nnz x)

/-- `jacobian_indices`: problem.rs lines 1467-1478, with the friction of `compute_jacobian_indices` (lines
1626-1654). What comes before fits into the buffers, even if there is no friction (C81). -/
def jacobianIndices (x u : ℕ → V3 ℝ) : List (ℕ × ℕ) :=
  S.frictions.foldl (fun l L => l ++ ((S.entriesOf u L).map fun e => e.1).take (S.nnz x u - l.length))
    (S.toTouching.jacobianIndices x)

/-- `jacobian_values`: problem.rs lines 1736-2000, with the friction of lines 1950-1985, into a buffer that
is as long as the indices, which were computed for velocities `u`. The factor `impulse_inv_scale` is one
(lines 196-198). -/
def jacobianValues (x u v : ℕ → V3 ℝ) (dqdv forceMultiplier : ℝ) : List ℝ :=
  S.frictions.foldl (fun l L => l ++ ((S.entriesOf v L).map fun e => forceMultiplier * 1 * e.2).take
    ((S.jacobianIndices x u).length - l.length)) (S.toTouching.jacobianValues x v dqdv forceMultiplier)

end Rubbing

end Softy.Contact
