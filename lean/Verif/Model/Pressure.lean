import Verif.Model.Volume

/-!
# The problem with volume constraints

Model of the parts of `softy/src/fem/nl/problem.rs` that handle `volume_constraints`, on top of the
problem of `Model/Objective.lean`. Frictional contacts are not part of it.
-/

noncomputable section

namespace Softy.Volume

open Softy Assembly Fem

/-- `NLProblem` with its `volume_constraints`: problem.rs lines 116-190. -/
structure Sealed extends Problem where
  volumes : List Penalty

namespace Sealed

variable (S : Sealed)

/-- `energy`: problem.rs lines 1087-1118, with lines 1102-1104. -/
def energy (x v : ℕ → V3 ℝ) (dqdv : ℝ) : Option ℝ :=
  (S.toProblem.energy x v dqdv).map fun e => S.volumes.foldl (fun e P => e + P.energy x) e

/-- `subtract_force` applied to the cleared residual: problem.rs lines 1209-1241, 1402-1405, with the
volume constraints of `subtract_constraint_forces`, lines 1138-1142. -/
def force (x v : ℕ → V3 ℝ) (dqdv : ℝ) : Option (ℕ → V3 ℝ) :=
  (S.toProblem.force x v dqdv).map fun r =>
    Problem.toVec (S.volumes.foldl (fun r P => P.subtractForce x r) (Problem.ofVec r))

open Classical in
/-- `compute_objective`: problem.rs lines 1355-1390, for a problem with `N` vertices. -/
def objective (N : ℕ) (forceMul prevForceMul : ℝ) (prevForce : ℕ → V3 ℝ) (v0 x v : ℕ → V3 ℝ) :
    Option ℝ :=
  let dqdv := S.dt * forceMul
  let start := if prevForceMul > 0
    then (∑ i ∈ Finset.range N, V3.dot (prevForce i) (v i)) * prevForceMul * S.dt else 0
  (S.energy x v dqdv).map fun e =>
    if S.isStatic then start + e else start + e + S.inertia v0 v

open Classical in
/-- `compute_vertex_residual_impl`: problem.rs lines 1396-1451. -/
def residual (forceMul prevForceMul : ℝ) (prevForce : ℕ → V3 ℝ) (v0 x v : ℕ → V3 ℝ) :
    Option ((ℕ → V3 ℝ) × (ℕ → V3 ℝ)) :=
  let dqdv := S.dt * forceMul
  (S.force x v dqdv).map fun f =>
    let r : ℕ → V3 ℝ := if prevForceMul > 0
      then fun i => S.dt • (forceMul • f i + prevForceMul • prevForce i)
      else fun i => dqdv • f i
    (if S.isStatic then r else S.momentumDiff v0 v r, f)

/-- `jacobian_nnz`: problem.rs lines 949-977. -/
def nnz : ℕ := S.volumes.foldl (fun n P => n + P.hessianSize) S.toProblem.nnz

/-- `compute_jacobian_indices`: problem.rs lines 1480-1591. -/
def jacobianIndices : List (ℕ × ℕ) :=
  S.toProblem.jacobianIndices ++ S.volumes.flatMap Penalty.hessianIndices

/-- `jacobian_values`: problem.rs lines 1736-1884. The factor `volume_constraint_scale` is one
(lines 200-202). -/
def jacobianValues (x v : ℕ → V3 ℝ) (dqdv forceMultiplier : ℝ) : List ℝ :=
  S.toProblem.jacobianValues x v dqdv forceMultiplier ++
    S.volumes.flatMap fun P => P.hessianValues x (dqdv * forceMultiplier * 1)

end Sealed

end Softy.Volume
