import Verif.Model.Gripping
import Verif.Model.Precond
import Mathlib.Analysis.Calculus.Deriv.Basic

/-!
# The derivative test

Model of `check_jacobian` and `check_objective_gradient` (`softy/src/fem/nl/problem.rs:3048-3277`), of the call in
`Solver::step` (`softy/src/fem/nl/solver.rs:260-265`) and of the test in Newton iterations with a direct linear solver
(`softy/src/fem/nl/newton.rs:1310-1374, 2076-2111`). Printing is left out.
-/

noncomputable section

namespace Softy.DerivativeTest

open Softy Fem Contact

/-- `approx::relative_eq!` of finite numbers: equal, or not farther apart than `epsilon`, or not farther apart than
the larger one times `max_relative`. -/
def relativeEq (a b maxRelative epsilon : ℝ) : Prop :=
  a = b ∨ |a - b| ≤ epsilon ∨ |a - b| ≤ (if |b| > |a| then |b| else |a|) * maxRelative

/-- What the test evaluates: `num_variables`, `objective`, `residual` with `symmetric` set and not set, and the
triplets of `jacobian_indices` and `jacobian_values`, each after `update_state` for velocities of vertices. `none` is a
result that is not finite. -/
structure Tested where
  n : ℕ
  objective : (ℕ → V3 ℝ) → Option ℝ
  gradient : (ℕ → V3 ℝ) → Option (ℕ → V3 ℝ)
  residual : (ℕ → V3 ℝ) → Option (ℕ → V3 ℝ)
  triplets : (ℕ → V3 ℝ) → List ((ℕ × ℕ) × ℝ)

/-- `x0[i] = F::var(x0[i])`: the velocities if only the scalar `i` is varied, by `s`. -/
def vary (v : ℕ → V3 ℝ) (i : ℕ) (s : ℝ) : ℕ → V3 ℝ :=
  fun k => v k + s • Problem.toVec (fun j => if j = i then 1 else 0) k

/-- `deriv()` of the dual number `f`: automatic differentiation is modelled as exact. There is no number to compare if
`f` is not finite. -/
def dual (f : ℝ → Option ℝ) : Option ℝ := (f 0).map fun _ => deriv (fun s => (f s).getD 0) 0

/-- A comparison with a number that is not finite fails. -/
def compare (a b : Option ℝ) (maxRelative epsilon : ℝ) : Prop :=
  match a, b with
  | some a, some b => relativeEq a b maxRelative epsilon
  | _, _ => False

/-- The scalar `i` of a residual in the buffer of the degrees of freedom. -/
def scalar (r : Option (ℕ → V3 ℝ)) (i : ℕ) : Option ℝ := r.map fun r => Problem.ofVec r i

/-- The dense matrix of the triplets: `problem.rs:3092-3098` and `newton.rs:2094-2111`. -/
def dense (n : ℕ) (T : List ((ℕ × ℕ) × ℝ)) : ℕ × ℕ → ℝ :=
  T.foldl (fun (J : ℕ × ℕ → ℝ) (e : (ℕ × ℕ) × ℝ) =>
    if e.1.1 < n ∧ e.1.2 < n then Function.update J e.1 (J e.1 + e.2) else J) fun _ => 0

/-- The result of the test: `Ok`, `DerivativeCheckFailure`, or the error of saving a mesh. -/
inductive Verdict where
  | ok
  | failure
  | io
deriving DecidableEq

namespace Tested

variable (T : Tested)

/-- `check_objective_gradient`: `problem.rs:3213-3277`, whether all comparisons succeed. -/
def gradientOk (v : ℕ → V3 ℝ) : Prop :=
  ∀ i < T.n, compare (scalar (T.gradient v) i) (dual fun s => T.objective (vary v i s)) 1e-5 1e-6

/-- The derivative of the scalar `row` of the residual: `problem.rs:3120-3124`. -/
def partialRow (v : ℕ → V3 ℝ) (row col : ℕ) : Option ℝ := dual fun s => scalar (T.residual (vary v col s)) row

/-- `avg_deriv`: `problem.rs:3124-3125`. -/
def columnNorm (v : ℕ → V3 ℝ) (col : ℕ) : ℝ :=
  Real.sqrt (((List.range T.n).map fun row => ((T.partialRow v row col).getD 0) ^ 2).sum)

/-- `problem.rs:3069-3145`, whether all comparisons succeed. -/
def jacobianOk (v : ℕ → V3 ℝ) : Prop :=
  ∀ col < T.n, ∀ row < T.n, compare (some (dense T.n (T.triplets v) (row, col))) (T.partialRow v row col) 1e-6
    (1e-5 * max 1 (T.columnNorm v col))

open Classical in
/-- `check_jacobian`: `problem.rs:3049-3210`, without perturbation. `saved` is whether `./out/deriv_mesh.vtk` can be
written. -/
def check (level : ℕ) (saved : Bool) (v : ℕ → V3 ℝ) : Verdict :=
  if level = 0 then .ok
  else
    let objectiveResult := if T.gradientOk v then Verdict.ok else .failure
    if level = 1 then objectiveResult
    else if T.jacobianOk v then objectiveResult
    else if saved then .failure else .io

end Tested

/-- The test of `newton.rs:1310-1374`: `product i` is the result of `jacobian_product` for the unit vector `i`. -/
def innerOk {n nnz : ℕ} (precond : Fin n → ℝ) (rows cols : Fin nnz → ℕ) (vals : Fin nnz → ℝ)
    (product : Fin n → Fin n → ℝ) : Prop :=
  ∀ i j : Fin n, relativeEq
    (dense n (List.ofFn fun k => ((rows k, cols k), Precond.rescaleValues precond rows vals k)) (i, j))
    (Precond.rescale precond (product j) i) 1e-6 1e-3

/-- The scene as it is tested, in a stage with factors `fm` and `pm` that starts from positions `x0` and velocities
`v0`. The objective and the residual with `symmetric` set have lagged friction (`R`); the residual otherwise has the
friction of `G`, which is `R` again if all friction is lagged. -/
def ofScene (R : Rubbing) (G : Gripping) (fm pm : ℝ) (prev v0 x0 : ℕ → V3 ℝ) : Tested where
  n := 3 * G.numActive
  objective v := R.objective fm pm prev v0 (fun i => x0 i + (R.dt * fm) • v i) v
  gradient v := (R.residual fm pm prev v0 (fun i => x0 i + (R.dt * fm) • v i) v).map Prod.fst
  residual v := (G.residual fm pm prev v0 (fun i => x0 i + (G.dt * fm) • v i) v).map Prod.fst
  triplets v :=
    let x := fun i => x0 i + (G.dt * fm) • v i
    (G.jacobianIndices x v).zip
      (G.jacobianValues x v (G.dt * fm) (G.dt * fm) (G.jacobianIndices x v).length)

end Softy.DerivativeTest
