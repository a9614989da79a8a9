import Verif.Model.Objective
import Mathlib.Data.Matrix.Mul
import Mathlib.Data.Matrix.Diagonal

/-!
# Projection of element Hessians

Model of the option `project_element_hessians` (softy/src/fem/nl.rs line 77): the branch of
`TetSolidElasticity::energy_hessian_values`, softy/src/energy_models/elasticity/tetsolid_nh.rs lines
328-352, and of the assembled Jacobian of a problem with this option. The rows and columns `3 * n + r`
of the 12x12 matrix are pairs `(n, r)`. The decomposition that `nalgebra` computes is an argument: a
function of a symmetric matrix (the dependency reads the entries on and below the diagonal).
-/

noncomputable section

namespace Softy.Projection

open Softy Softy.Assembly Softy.Fem

/-- A row or column of the matrix of an element: the vertex and the coordinate. -/
abbrev Dof := Fin 4 × Fin 3

/-- A 12x12 matrix. -/
abbrev Mat := Matrix Dof Dof ℝ

/-- `na::SymmetricEigen`: the columns of `vectors` belong to the `values`. -/
structure Eigen where
  vectors : Mat
  values : Dof → ℝ

/-- The matrix that is decomposed: tetsolid_nh.rs lines 329-332. `symmetric_eigen` (line 334) only
reads the lower triangle. -/
def lowerPart (h : LocalHess 4) : Mat := fun p q =>
  if q.1 < p.1 ∨ (q.1 = p.1 ∧ q.2 ≤ p.2) then h p.1 q.1 p.2 q.2 else h q.1 p.1 q.2 p.2

/-- Negative eigenvalues are set to zero: tetsolid_nh.rs lines 335-339. -/
def Eigen.clamp (E : Eigen) : Eigen :=
  ⟨E.vectors, fun i => if E.values i < 0 then 0 else E.values i⟩

/-- `recompose` (dependency, assumed behaviour). -/
def Eigen.recompose (E : Eigen) : Mat := E.vectors * Matrix.diagonal E.values * E.vectors.transpose

/-- The projected element Hessian: tetsolid_nh.rs lines 328-352. -/
def project (eig : Mat → Eigen) (h : LocalHess 4) : LocalHess 4 := fun n k r c =>
  (eig (lowerPart h)).clamp.recompose (n, r) (k, c)

/-- The local Hessian of one element with the flag `projected_hessian`: tetsolid_nh.rs lines 324-379.
-/
def elemHessian (projected : Bool) (eig : Mat → Eigen) (M : TetModel) (e : TetElem)
    (x v : ℕ → V3 ℝ) (dqdv scale : ℝ) : LocalHess 4 :=
  let h := M.hessian (e.ref.at (e.pick x))
  let h := if projected then project eig h else h
  fun n k row col => (h n k row col + M.hessian (e.prev x v dqdv) n k row col * e.damping) * scale

/-- `energy_hessian_values`: tetsolid_nh.rs lines 291-394. -/
def values (projected : Bool) (eig : Mat → Eigen) (M : TetModel) (es : List TetElem)
    (x v : ℕ → V3 ℝ) (dqdv scale : ℝ) : List ℝ :=
  es.flatMap fun e => (pattern 4).map (entryValue (elemHessian projected eig M e x v dqdv scale))

open Classical in
/-- The values of the lower triangle of the Jacobian: problem.rs lines 1761-1813. The flag is the same
for all solids (softy/src/fem/nl/solver/builder.rs line 694, softy/src/objects/tetsolid.rs lines 359-379);
shells do not have it. -/
def lowerValues (projected : Bool) (eig : Mat → Eigen) (P : Problem) (x v : ℕ → V3 ℝ)
    (dqdv forceMultiplier : ℝ) : List ℝ :=
  let factor : ℝ := 1
  let scale := dqdv * forceMultiplier * factor
  (values projected eig .nh P.nh x v dqdv scale ++ values projected eig .snh P.snh x v dqdv scale) ++
    P.shell.values x scale ++
    if P.isStatic then [] else
      (inertiaValues tetKind P.nhBodies factor ++ inertiaValues tetKind P.snhBodies factor) ++
        inertiaValues triKind P.shellBodies factor

/-- `jacobian_values` without constraints: problem.rs lines 1736-1842. -/
def jacobianValues (projected : Bool) (eig : Mat → Eigen) (P : Problem) (x v : ℕ → V3 ℝ)
    (dqdv forceMultiplier : ℝ) : List ℝ :=
  Sparse.mirrorValues P.lowerIndices (lowerValues projected eig P x v dqdv forceMultiplier)
    (P.nnz - P.lowerIndices.length)

end Softy.Projection
