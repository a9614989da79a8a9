import Verif.Model.Vec
import Verif.Model.TimeIntegration
import Verif.Model.Mesh

/-!
# Model of the convergence test

`softy/src/fem/nl/problem.rs:2750-2803`, `NLProblem::converged`. Vectors of unknowns are lists of
three-dimensional vectors, one per vertex. Numbers are real; the infinities which the test
produces by division by zero (the inverse of a zero mass, the inverse of a zero time step) are
`none`, and the comparisons with them follow IEEE rules.
-/

noncomputable section

namespace Softy.Converged

open TimeInt

/-- `lp_norm(LpNorm::Inf)` of a flat vector. -/
def infNorm (r : List (V3 ℝ)) : ℝ :=
  r.foldl (fun m a => max (max (max m |a.x|) |a.y|) |a.z|) 0

/-- `norm` of a flat vector. -/
def norm2 (r : List (V3 ℝ)) : ℝ := √((r.map fun a => V3.dot a a).sum)

/-- `1.0 / x`, `none` for the infinite result. -/
def inv (x : ℝ) : Option ℝ := if x = 0 then none else some (1 / x)

/-- No component is zero. -/
def allNonzero (r : V3 ℝ) : Prop := r.x ≠ 0 ∧ r.y ≠ 0 ∧ r.z ≠ 0

/-- `problem.rs:2795-2800`: the test of one vertex. If the inverse mass is infinite the left
side is infinite, or not a number if a component of the residual is zero. If the inverse time
step is infinite the right side is infinite (the mesh size is positive). -/
def accelOk (aTol : ℝ) (hInv : Option ℝ) (r : V3 ℝ) (mInv : Option ℝ) (size : ℝ) (v : V3 ℝ) :
    Prop :=
  match mInv, hInv with
  | some w, some h => (w • r).norm ≤ max (aTol * v.norm) (aTol * (size * h))
  | some _, none => True
  | none, some _ => False
  | none, none => allNonzero r

/-- `problem.rs:2781-2802`: the acceleration criterion. -/
def accelCriterion (aTol : ℝ) (hInv : Option ℝ) (rUnscaled : List (V3 ℝ))
    (massInv : List (Option ℝ)) (size : List ℝ) (xPrev x : List (V3 ℝ)) : Prop :=
  ∀ a ∈ ((rUnscaled.zip massInv).zip size).zip (xPrev.zip x),
    accelOk aTol hInv a.1.1.1 a.1.1.2 a.1.2 a.2.2

/-- `problem.rs:2750-2803`, `converged`. -/
def converged (dt : ℝ) (ti : SingleStep) (massInv : List (Option ℝ)) (size : List ℝ)
    (xPrev x r rUnscaled : List (V3 ℝ)) (xTol rTol aTol : ℝ) : Prop :=
  (rTol > 0 ∧ infNorm r < rTol) ∨
  (xTol > 0 ∧ norm2 (List.zipWith (fun a b => a - b) xPrev x) < xTol * (norm2 x + 1)) ∨
  (aTol > 0 ∧ accelCriterion aTol (inv (dt * ti.implicitFactor)) rUnscaled massInv size xPrev x)

end Softy.Converged
