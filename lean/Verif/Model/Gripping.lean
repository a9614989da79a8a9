import Verif.Model.FrictionJacobian

/-!
# The problem with contacts and any friction

Model of the parts of `softy/src/fem/nl/problem.rs` that handle friction, on top of the problem of
`Model/Touching.lean`, for contacts whose friction is lagged (`Model/LaggedFriction.lean`) or not
(`Model/FrictionJacobian.lean`). The indices of the Jacobian are computed when a solve starts
(`newton.rs:850-900`); its values are computed in every iteration.
-/

noncomputable section

namespace Softy.Contact

open Softy Fem Softy.Field

/-- A contact with friction that is not lagged: the contact, the number of vertices of its surface, and its
`friction_params`, with `incomplete_jacobian`. -/
structure Current where
  pair : Pair
  ns : ℕ
  params : Friction.Params
  incomplete : Bool

/-- The friction of a contact: `friction_params.lagged` tells them apart. -/
inductive Grip where
  | lagged (L : Lagged)
  | current (F : Current)

namespace Grip

/-- `subtract_friction_force`: `penalty_point_contact.rs:2336-2346, 2494-2549`. The flag `lagged` is not set:
all calls that the solver makes pass `false` (`newton.rs:1063, 1473-1837`, `problem.rs:2891-2896`). -/
def subtract (G : Grip) (x v r : ℕ → V3 ℝ) : ℕ → V3 ℝ :=
  match G with
  | .lagged L => L.pair.subtractFriction L.ns L.params L.x v r
  | .current F => F.pair.subtractFriction F.ns F.params x v r

/-- `friction_jacobian_indexed_value_iter`: `penalty_point_contact.rs:2914-3420`. -/
def entries (G : Grip) (x v : ℕ → V3 ℝ) (dqdv : ℝ) (N n : ℕ) : List (Sparse.Key × ℝ) :=
  match G with
  | .lagged L => L.pair.frictionEntries L.params L.x v N n
  | .current F => F.pair.currentEntries F.params F.incomplete x v dqdv N n

end Grip

/-- `NLProblem` with its `frictional_contact_constraints`: problem.rs lines 116-190. -/
structure Gripping extends Touching where
  grips : List Grip

namespace Gripping

variable (S : Gripping)

/-- `subtract_force` applied to the cleared residual, with the friction of `subtract_friction_forces`:
problem.rs lines 1168-1241. -/
def force (x v : ℕ → V3 ℝ) (dqdv : ℝ) : Option (ℕ → V3 ℝ) :=
  (S.toTouching.force x v dqdv).map fun r => S.grips.foldl (fun r G => G.subtract x v r) r

open Classical in
/-- `compute_vertex_residual_impl`: problem.rs lines 1396-1451. -/
def residual (forceMul prevForceMul : ℝ) (prevForce : ℕ → V3 ℝ) (v0 x v : ℕ → V3 ℝ) :
    Option ((ℕ → V3 ℝ) × (ℕ → V3 ℝ)) :=
  let dqdv := S.dt * forceMul
  (S.force x v dqdv).map fun f =>
    let r : ℕ → V3 ℝ := if prevForceMul > 0
      then fun i => S.dt • (forceMul • f i + prevForceMul • prevForce i)
      else fun i => dqdv • f i
    (if S.isStatic then r else S.momentumDiff v0 v r, f)

/-- `jacobian_nnz`: problem.rs lines 949-1022, with lines 997-1018, which pass the time step for `dqdv`. `y`
and `u` are the positions and velocities when it is called. -/
def nnz (y u : ℕ → V3 ℝ) : ℕ :=
  S.grips.foldl (fun n G => n + (G.entries y u S.dt S.numVertices S.numActive).length)
    (S.toTouching.nnz y)

/-- `jacobian_indices`: problem.rs lines 1467-1478, with the friction of `compute_jacobian_indices` (lines
1626-1654). -/
def jacobianIndices (y u : ℕ → V3 ℝ) : List (ℕ × ℕ) :=
  S.grips.foldl (fun l G => l ++ ((G.entries y u S.dt S.numVertices S.numActive).map fun e => e.1).take
    (S.nnz y u - l.length)) (S.toTouching.jacobianIndices y)

/-- `jacobian_values`: problem.rs lines 1736-2000, with the friction of lines 1950-1985, into a buffer of
length `len`. The factor `impulse_inv_scale` is one (lines 196-198). What comes before friction fits into
the buffer (C81). -/
def jacobianValues (x v : ℕ → V3 ℝ) (dqdv forceMultiplier : ℝ) (len : ℕ) : List ℝ :=
  S.grips.foldl (fun l G => l ++ ((G.entries x v dqdv S.numVertices S.numActive).map fun e =>
    forceMultiplier * 1 * e.2).take (len - l.length))
    (S.toTouching.jacobianValues x v dqdv forceMultiplier)

end Gripping

end Softy.Contact
