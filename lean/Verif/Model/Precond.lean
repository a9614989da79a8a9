import Verif.Model.Newton
import Verif.Model.Objective
import Mathlib.Algebra.BigOperators.Ring.Finset
import Mathlib.Data.Fintype.BigOperators

/-!
# Model of the diagonal preconditioner

`softy/src/fem/nl/problem.rs:2092-2307` and `2904-2916` and its use in
`softy/src/fem/nl/newton.rs:773-792, 939-1016, 1194-1430, 1750-1780`.

The unknowns are `Fin n → ℝ`. The nonlinear problem is given before it is scaled; scaling it gives
the problem that the model of the Newton solver (`Softy.Newton`) works on.
-/

noncomputable section

open Classical

namespace Softy.Precond

/-- `problem.rs:2110-2119` and `2293-2302`: inverse square root of a diagonal entry, guarded against
degenerate ones. -/
def invSqrt (x : ℝ) : ℝ :=
  let xsqrt := √|x|
  if xsqrt < 2 ^ (-52 : ℤ) then 1 else 1 / xsqrt

/-- `nl.rs:22-42`, `Preconditioner`. -/
inductive Kind where
  | none
  | incompleteJacobi
  | approximateJacobi
deriving DecidableEq

/-- `problem.rs:2904-2916`, `diagonal_preconditioner`, with `compute_incomplete_jacobi_preconditioner`
(`2094-2120`) and `compute_physical_preconditioner` (`2124-2307`): `old` is the buffer of the solver,
`fem` the diagonal without constraints and `constraints` what contacts and friction add to it. -/
def diagonal {n : ℕ} (kind : Kind) (fem constraints old : Fin n → ℝ) : Fin n → ℝ :=
  match kind with
  | .incompleteJacobi => fun i => invSqrt (fem i)
  | .approximateJacobi => fun i => invSqrt (fem i + constraints i)
  | .none => old

/-- `problem.rs:2094-2120` for the finite element part of C66: the diagonal of all `nverts` vertices,
of which the first `n` unknowns are free (`vtx_to_dof`). -/
def incompleteJacobi (P : Fem.Problem) (x v : ℕ → V3 ℝ) (h : ℝ) (nverts n : ℕ) :
    Option (Fin n → ℝ) :=
  (P.jacobianDiagonal x v h h nverts (fun _ => 0)).map fun D i => invSqrt (D i)

/-- `newton.rs:779-783`, `rescale_vector`. -/
def rescale {n : ℕ} (precond r : Fin n → ℝ) : Fin n → ℝ := fun i => r i * precond i

/-- `newton.rs:773-777`, `unscale_vector`. -/
def unscale {n : ℕ} (precond r : Fin n → ℝ) : Fin n → ℝ := fun i => r i / precond i

/-- `newton.rs:785-792`, `rescale_jacobian_values`: rows beyond the unknowns are left alone. -/
def rescaleValues {n nnz : ℕ} (precond : Fin n → ℝ) (rows : Fin nnz → ℕ) (vals : Fin nnz → ℝ) :
    Fin nnz → ℝ :=
  fun k => if h : rows k < n then vals k * precond ⟨rows k, h⟩ else vals k

/-- Product of the compressed matrix `j` with a vector (`newton.rs:998-1007`). That the matrix holds
the sums of the triplets inside of it is C09 and C10. -/
def product {n nnz : ℕ} (rows cols : Fin nnz → ℕ) (vals : Fin nnz → ℝ) (p : Fin n → ℝ) :
    Fin n → ℝ :=
  fun i => ∑ k, if h : rows k = i ∧ cols k < n then vals k * p ⟨cols k, h.2⟩ else 0

/-- The nonlinear problem before scaling, at given epsilons: `residual`, `objective`, the triplets of
`jacobian_indices` and `jacobian_values`, `jacobian_product`, `use_obj_merit`, and the acceleration
criterion of `converged` (`problem.rs:2781-2802`) for `x` and the unscaled residual. -/
structure Raw (n nnz : ℕ) where
  residual : List ℝ → (Fin n → ℝ) → Fin n → ℝ
  objective : List ℝ → (Fin n → ℝ) → Option ℝ
  rows : Fin nnz → ℕ
  cols : Fin nnz → ℕ
  values : List ℝ → (Fin n → ℝ) → Fin nnz → ℝ
  jacobianProduct : List ℝ → (Fin n → ℝ) → (Fin n → ℝ) → Fin n → ℝ
  objMerit : Bool
  accel : (Fin n → ℝ) → (Fin n → ℝ) → Bool

/-- `norm_squared`. -/
def normSq {n : ℕ} (r : Fin n → ℝ) : ℝ := ∑ i, r i * r i

/-- Tolerances `r_tol` and `x_tol` (`newton.rs:28-32`). -/
structure Tol where
  r : ℝ
  x : ℝ

/-- The matrix the direct solver factorises, as a product (`newton.rs:1247-1258, 1379-1391`). -/
def directMatrix {n nnz : ℕ} (R : Raw n nnz) (precond : Fin n → ℝ) (eps : List ℝ)
    (x p : Fin n → ℝ) : Fin n → ℝ :=
  product R.rows R.cols (rescaleValues precond R.rows (R.values eps x)) p

/-- The operator the iterative solver is given (`newton.rs:1213-1219`). -/
def iterativeMatrix {n nnz : ℕ} (R : Raw n nnz) (precond : Fin n → ℝ) (eps : List ℝ)
    (x p : Fin n → ℝ) : Fin n → ℝ :=
  rescale precond (R.jacobianProduct eps x p)

/-- `newton.rs:963-1016`, `merit_jac_prod`, for the scaled residual `r`. -/
def meritJacProd {n nnz : ℕ} (R : Raw n nnz) (precond : Fin n → ℝ) (iterative : Bool)
    (eps : List ℝ) (x r p : Fin n → ℝ) : ℝ :=
  if R.objMerit then ∑ i, r i * p i
  else
    let jp := if iterative then R.jacobianProduct eps x p else directMatrix R precond eps x p
    ∑ i, rescale precond jp i * r i

/-- `problem.rs:2750-2803`, `converged`, called in `newton.rs:1754-1780` with the scaled residual `r`
and with what `unscale_vector` makes of it. -/
def converged {n nnz : ℕ} (R : Raw n nnz) (precond : Fin n → ℝ) (tol : Tol)
    (xPrev x r : Fin n → ℝ) : Prop :=
  (0 < tol.r ∧ ∀ i, |r i| < tol.r) ∨
  (0 < tol.x ∧ √(normSq fun i => xPrev i - x i) < tol.x * (√(normSq x) + 1)) ∨
  R.accel x (unscale precond r)

/-- The problem that the Newton solver works on. -/
def scaled {n nnz : ℕ} (R : Raw n nnz) (precond : Fin n → ℝ) (iterative : Bool) (tol : Tol) :
    Newton.Problem (Fin n → ℝ) where
  residual eps x := rescale precond (R.residual eps x)
  merit eps x r := if R.objMerit then R.objective eps x else some (0.5 * normSq r)
  normSq r := some (normSq r)
  slope eps x r p := meritJacProd R precond iterative eps x r p
  converged xPrev x r := decide (converged R precond tol xPrev x r)

end Softy.Precond
