import Verif.Model.Pressure
import Verif.Model.ContactHessian

/-!
# The problem with contacts

Model of the parts of `softy/src/fem/nl/problem.rs` that handle `frictional_contact_constraints`, on top
of the problem of `Model/Pressure.lean`. The contacts have no friction (`friction_params` that are
`None`), so `lagged_friction_potential`, `subtract_friction_force` and
`friction_jacobian_indexed_value_iter` add nothing.
-/

noncomputable section

namespace Softy.Contact

open Softy Fem

/-- `NLProblem` with its `volume_constraints` and `frictional_contact_constraints`: problem.rs lines
116-190. -/
structure Touching extends Volume.Sealed where
  contacts : List Pair
  /-- The number of vertices in `vtx`. -/
  numVertices : ℕ
  /-- `num_variables() / 3`: the vertices that the solver may move are those before this one. -/
  numActive : ℕ

namespace Touching

variable (S : Touching)

/-- `energy`: problem.rs lines 1087-1118, with lines 1107-1115. -/
def energy (x v : ℕ → V3 ℝ) (dqdv : ℝ) : Option ℝ :=
  (S.toSealed.energy x v dqdv).map fun e => S.contacts.foldl (fun e C => e + C.energy x) e

/-- `subtract_force` applied to the cleared residual: problem.rs lines 1209-1241, 1402-1405, with the
contacts of `subtract_constraint_forces`, lines 1147-1155. -/
def force (x v : ℕ → V3 ℝ) (dqdv : ℝ) : Option (ℕ → V3 ℝ) :=
  (S.toSealed.force x v dqdv).map fun r => S.contacts.foldl (fun r C => C.subtractForce x r) r

open Classical in
/-- `compute_objective`: problem.rs lines 1355-1390. -/
def objective (forceMul prevForceMul : ℝ) (prevForce : ℕ → V3 ℝ) (v0 x v : ℕ → V3 ℝ) :
    Option ℝ :=
  let dqdv := S.dt * forceMul
  let start := if prevForceMul > 0
    then (∑ i ∈ Finset.range S.numVertices, V3.dot (prevForce i) (v i)) * prevForceMul * S.dt else 0
  (S.energy x v dqdv).map fun e =>
    if S.isStatic then start + e else start + e + S.inertia v0 v

open Classical in
/-- `compute_vertex_residual_impl`: problem.rs lines 1396-1451. -/
def residual (forceMul prevForceMul : ℝ) (prevForce : ℕ → V3 ℝ) (v0 x v : ℕ → V3 ℝ) :
    Option ((ℕ → V3 ℝ) × (ℕ → V3 ℝ)) :=
  let dqdv := S.dt * forceMul
  (S.force x v dqdv).map fun f =>
    let r : ℕ → V3 ℝ := if prevForceMul > 0
      then fun i => S.dt • (forceMul • f i + prevForceMul • prevForce i)
      else fun i => dqdv • f i
    (if S.isStatic then r else S.momentumDiff v0 v r, f)

/-- `constraint_hessian_indices_iter(num_active_coords / 3)` of a contact whose distance gradient was
computed at positions `x`. -/
def contactIndices (x : ℕ → V3 ℝ) (C : Pair) : List Sparse.Key :=
  C.hessianIndices (C.gradient x S.numVertices) S.numActive

/-- `jacobian_nnz`: problem.rs lines 949-1010, with lines 979-990 and
`penalty_point_contact.rs:3435-3437, 3471-3475`. -/
def nnz (x : ℕ → V3 ℝ) : ℕ :=
  S.contacts.foldl (fun n C => n + (2 * (S.contactIndices x C).length -
    ((S.contactIndices x C).filter fun k => k.2 = k.1).length)) S.toSealed.nnz

/-- `jacobian_indices`: problem.rs lines 1467-1478, with the contacts of `compute_jacobian_indices`
(lines 1599-1618). The buffers have `nnz` entries: the iterators are zipped with what is left of
them. Both buffers are cut to the entries that were written. -/
def jacobianIndices (x : ℕ → V3 ℝ) : List (ℕ × ℕ) :=
  S.contacts.foldl (fun l C => l ++ (S.contactIndices x C).take (S.nnz x - l.length))
    S.toSealed.jacobianIndices

/-- `jacobian_values`: problem.rs lines 1736-2000, with the contacts of lines 1892-1917, into a buffer
that is as long as the indices. The factor `impulse_inv_scale` is one (lines 196-198). -/
def jacobianValues (x v : ℕ → V3 ℝ) (dqdv forceMultiplier : ℝ) : List ℝ :=
  S.contacts.foldl (fun l C => l ++ ((C.hessianEntries x S.numVertices S.numActive).map fun e =>
    -dqdv * forceMultiplier * 1 * e.2).take ((S.jacobianIndices x).length - l.length))
    (S.toSealed.jacobianValues x v dqdv forceMultiplier)

end Touching

end Softy.Contact
