import Mathlib.Analysis.SpecialFunctions.Pow.Real
import Mathlib.Algebra.BigOperators.Group.List.Basic

/-!
# Statistics of a solve

Model of `IterationInfo` (newton.rs lines 1905-1984), of the places in `solve_with` where its entries are made
(lines 1095-1109 and 1757-1770), and of the line search (lines 1480-1586) as far as step sizes are
concerned. Iterates, residuals and results of linear solves are inputs. The status and the time in
the results of linear solves are left out.
-/

noncomputable section

namespace Softy.Stats

/-- `linsolve::SolveResult`: linsolve.rs lines 31-45. -/
structure Linear where
  iterations : ℕ
  residual : ℝ
  error : ℝ

/-- `linsolve::SolveResult::default()`: newton.rs line 1047. -/
def Linear.default : Linear := ⟨0, 0, 0⟩

/-- `IterationInfo`: newton.rs lines 1905-1930. -/
structure Info where
  iteration : ℕ
  lsSteps : ℕ
  linear : Linear
  eta : ℝ
  alpha : ℝ
  merit : ℝ
  rInf : ℝ
  aInf : ℝ
  x2 : ℝ
  d2 : ℝ

/-- `lp_norm(LpNorm::Inf)` of crate tensr: newton.rs line 1962. -/
def normInf (r : List ℝ) : ℝ := (r.map abs).foldr max 0

/-- `chunks_exact(3)`: newton.rs line 1964. -/
def chunks3 : List ℝ → List (ℝ × ℝ × ℝ)
  | a :: b :: c :: l => (a, b, c) :: chunks3 l
  | _ => []

/-- `Vector3::norm`: newton.rs line 1966. -/
def norm3 (t : ℝ × ℝ × ℝ) : ℝ := √(t.1 ^ 2 + t.2.1 ^ 2 + t.2.2 ^ 2)

/-- `a_inf`: newton.rs lines 1963-1970. -/
def accelInf (r massInv : List ℝ) : ℝ :=
  (((chunks3 r).zip massInv).map fun p => norm3 p.1 * p.2).foldr max 0

/-- `norm`: newton.rs line 1972. -/
def norm2 (x : List ℝ) : ℝ := √(x.map fun a => a ^ 2).sum

/-- `d_2`: newton.rs lines 1973-1980. -/
def dist2 (x y : List ℝ) : ℝ := √(List.zipWith (fun a b => (a - b) * (a - b)) x y).sum

/-- `IterationInfo::new`: newton.rs lines 1934-1982. -/
def Info.new (iteration lsSteps : ℕ) (linear : Linear) (eta alpha merit : ℝ) (r prev x massInv : List ℝ) :
    Info :=
  ⟨iteration, lsSteps, linear, eta, alpha, merit, normInf r, accelInf r massInv, norm2 x, dist2 prev x⟩

/-- What an iteration that is completed computes: the new iterate, its residual (not scaled by the preconditioner, lines 1752-1755), the number of steps of the
line search, the result of the linear solve if the solver is iterative (lines 1213-1238; direct solvers do
not assign `linsolve_result`), the tolerance, the step size and the merit. -/
structure Step where
  x : List ℝ
  r : List ℝ
  ls : ℕ
  linear : Option Linear
  eta : ℝ
  alpha : ℝ
  merit : ℝ

/-- A solve: the iterate before the loop, its residual and merit, the tolerance, and its iterations. -/
structure Run where
  x0 : List ℝ
  r0 : List ℝ
  merit0 : ℝ
  tol : ℝ
  steps : List Step

/-- The entries of the loop: newton.rs lines 1155-1845, with `x_prev` of line 1433. -/
def record (massInv : List ℝ) : ℕ → Linear → List ℝ → List Step → List Info
  | _, _, _, [] => []
  | i, lin, prev, s :: l =>
    Info.new (i + 1) s.ls (s.linear.getD lin) s.eta s.alpha s.merit s.r prev s.x massInv ::
      record massInv (i + 1) (s.linear.getD lin) s.x l

/-- `stats` at the end of a solve: newton.rs lines 1095-1109 and 1757-1770. `ws` is the vector `x_prev` in the
workspace when the solve begins. -/
def Run.stats (R : Run) (ws massInv : List ℝ) : List Info :=
  Info.new 0 0 .default R.tol 1 R.merit0 R.r0 ws R.x0 massInv ::
    record massInv 0 .default R.x0 R.steps

/-- "Total linear steps" of `Display for SolveResult`: nl.rs lines 253-257, and newton.rs lines 1881-1884. -/
def linearSteps (stats : List Info) : ℕ := (stats.map fun s => s.linear.iterations).sum

/-- "Total ls steps" of `Display for SolveResult`: nl.rs line 259, and newton.rs line 1886. -/
def searchSteps (stats : List Info) : ℕ := (stats.map fun s => s.lsSteps).sum

/-- `x_prev` in the workspace at the end of a solve: it is written at line 1433 only, and kept from solve to
solve (lines 559 and 690). -/
def Run.workspace (R : Run) (ws : List ℝ) : List ℝ :=
  ((R.x0 :: R.steps.map fun s => s.x).dropLast.getLast?).getD ws

/-- The loop of the line search, newton.rs lines 1535-1574. `test` is `test_alpha` for the iterate at the given
step size. The result has the step size that is reported, the one of the last iterate, and the number of
steps. The first argument bounds the number of passes. -/
def backtrack (rho : ℝ) (test : ℝ → Bool) : ℕ → ℝ → ℕ → Option (ℝ × ℝ × ℕ)
  | 0, _, _ => none
  | n + 1, alpha, ls =>
    if test alpha then some (alpha, alpha, ls)
    else if rho * alpha < 1 / 10 ^ 20 ∧ 2 < ls then some (rho * alpha, alpha, ls)
    else backtrack rho test n (rho * alpha) (ls + 1)

/-- The step size with which the loop starts. `cand` is the step size up to which contacts and friction let the
iterate go, if the line search is assisted: newton.rs lines 1487-1530. -/
def start (rho : ℝ) : Option ℝ → ℝ
  | none => 1
  | some cand => if cand < 1 then cand else rho

/-- The line search: newton.rs lines 1480-1586. -/
def lineSearch (rho : ℝ) (test : ℝ → Bool) (cand : Option ℝ) (n : ℕ) : Option (ℝ × ℝ × ℕ) :=
  if rho < 1 ∧ test 1 = false then backtrack rho test n (start rho cand) 1 else some (1, 1, 1)

/-- The iterate at a step size: newton.rs lines 1463, 1519-1521 and 1564-1566. -/
def along (x p : List ℝ) (t : ℝ) : List ℝ := List.zipWith (fun x p => p * t + x) x p

end Softy.Stats
