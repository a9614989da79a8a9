import Verif.Prelude
import Mathlib.Analysis.SpecialFunctions.Pow.Real

/-!
# Model of the Newton solver

`softy/src/fem/nl/newton.rs:850-1901`, `Newton::solve_with`.

Vectors live in an arbitrary real vector space `V`. The problem is given by its residual (after
the diagonal preconditioner), merit function, slope and convergence test; all of them read the
problem's internal state (`at`, set by `update_state`), not the `x` they are handed, as in
`problem.rs:2740` and `2891`. Linear solves, callbacks and line-search assists are arbitrary
sequences. Non-finite numbers are `none`. Timings, statistics, logging and the derivative check
itself are not modelled; a panic is a status.
-/

noncomputable section

open Classical

namespace Softy.Newton

variable {V : Type*} [AddCommGroup V] [Module ℝ V]

/-- `nl.rs:108-126`, `Status`, as far as the Newton solver returns it, and `panicked`. -/
inductive Status where
  | nothingToSolve
  | failedToInitializeJacobian
  | interrupted
  | diverged
  | failedJacobianCheck
  | linearSolveError
  | stepTooLarge
  | success
  | maximumIterationsExceeded
  | panicked
deriving DecidableEq

/-- Parameters (`newton.rs:30-60`, `2260-2338`): `rho` and `c` are the step factor and the Armijo
coefficient of the line search (both one for `LineSearch::None`), `iterative` tells whether the
linear solver is iterative, `objMerit` is `use_obj_merit`, `outDir` tells whether the directory
`./out` can be written. -/
structure Config where
  maxIter : ℕ
  rho : ℝ
  c : ℝ
  adaptive : Bool
  iterative : Bool
  assisted : Bool
  contactOnly : Bool
  objMerit : Bool
  outDir : Bool

/-- The nonlinear problem. The first argument is the list of friction epsilons, the second one
the vector that `update_state` was last called with. -/
structure Problem (V : Type*) where
  /-- `residual` followed by `rescale_vector`. -/
  residual : List ℝ → V → V
  /-- `newton.rs:939-945`, `merit`, with the residual as last argument. -/
  merit : List ℝ → V → V → Option ℝ
  /-- Squared norm of a residual. -/
  normSq : V → Option ℝ
  /-- `newton.rs:963-1016`, `merit_jac_prod` for the residual and direction given. -/
  slope : List ℝ → V → V → V → ℝ
  /-- `problem.rs:2750-2803`, `converged`, for `x_prev`, `x` and the residual. -/
  converged : V → V → V → Bool

/-- Outcome of a linear solve. -/
inductive Linear (V : Type*) where
  | error
  | checkFailed
  | solution (finite : Bool) (p : V)

/-- What happens outside of the solver, by iteration. -/
structure Oracle (V : Type*) where
  /-- `outer_callback` returns false. -/
  interrupt : ℕ → Bool
  linear : ℕ → Linear V
  /-- `assist_line_search_for_contact`. -/
  contactAlpha : ℕ → ℝ
  /-- `assist_line_search_for_friction`. -/
  frictionAlpha : ℕ → ℝ

/-- The iterate `x`, the vector the problem state was last updated with, and the residual. -/
structure Point (V : Type*) where
  x : V
  at' : V
  r : V

/-- Assign `x`, call `update_state` and evaluate the residual (for instance
`newton.rs:1564-1571`). -/
def moveTo (P : Problem V) (eps : List ℝ) (x : V) : Point V :=
  let at' := x
  ⟨x, at', P.residual eps at'⟩

/-- Comparison of possibly non-finite numbers; false if one of them is not finite. -/
def le' : Option ℝ → Option ℝ → Prop
  | some a, some b => a ≤ b
  | _, _ => False

/-- `newton.rs:1122-1154`, `test_alpha`. -/
def testAlpha (cfg : Config) (P : Problem V) (tol : ℝ) (rCur : V) (meritCur : Option ℝ)
    (meritJacP : ℝ) (rNext : V) (meritNext : Option ℝ) (alpha : ℝ) : Prop :=
  if cfg.iterative then
    let gCur := if cfg.objMerit then P.normSq rNext else meritNext
    let gPrev := if cfg.objMerit then P.normSq rCur else meritCur
    let factor := 1 - cfg.c * alpha * (1 - tol)
    le' gCur (gPrev.map fun g => g * factor * factor)
  else
    let increment := cfg.c * alpha
    le' meritNext (meritCur.map fun m => m + increment * meritJacP)

/-- Result of the line search. `passed` tells that the last test succeeded, `searched` that the
block `newton.rs:1486-1747` was entered. -/
structure Search (V : Type*) where
  alpha : ℝ
  count : ℕ
  pt : Point V
  merit : Option ℝ
  passed : Bool
  searched : Bool

/-- `newton.rs:1536-1574`, the backtracking loop, from `alpha`, `ls_count` and the current
trial point; `none` if it does not terminate. `test` is `test_alpha` with the fixed arguments
filled in. -/
def backtrackLoop (cfg : Config) (P : Problem V) (eps : List ℝ)
    (test : V → Option ℝ → ℝ → Prop) (x₀ p : V) (alpha : ℝ) (count : ℕ) (pt : Point V) :
    Option (Search V) :=
  let meritNext := P.merit eps pt.at' pt.r
  if test pt.r meritNext alpha then some ⟨alpha, count, pt, meritNext, true, true⟩
  else
    let alpha := alpha * cfg.rho
    if alpha < 1e-20 ∧ count > 2 then some ⟨alpha, count, pt, meritNext, false, true⟩
    else backtrackLoop cfg P eps test x₀ p alpha (count + 1) (moveTo P eps (x₀ + alpha • p))
partial_fixpoint

/-- `newton.rs:1487-1529`: the step size the backtracking starts from. -/
def startAlpha (cfg : Config) (contactAlpha frictionAlpha : ℝ) : ℝ :=
  if cfg.assisted then
    let candidate := if cfg.contactOnly then contactAlpha else frictionAlpha
    if candidate < 1 then candidate else 1 * cfg.rho
  else 1

/-- `newton.rs:1462-1574`: the full step and the line search. -/
def lineSearch (cfg : Config) (P : Problem V) (eps : List ℝ)
    (test : V → Option ℝ → ℝ → Prop) (contactAlpha frictionAlpha : ℝ) (x₀ p : V) :
    Option (Search V) :=
  let full := moveTo P eps (x₀ + p)
  let meritNext := P.merit eps full.at' full.r
  if cfg.rho < 1 ∧ ¬ test full.r meritNext 1 then
    let alpha := startAlpha cfg contactAlpha frictionAlpha
    let pt := if cfg.assisted then moveTo P eps (x₀ + alpha • p) else full
    backtrackLoop cfg P eps test x₀ p alpha 1 pt
  else some ⟨1, 1, full, meritNext, cfg.rho < 1, false⟩

/-- `newton.rs:1437-1460`: the slope for the Armijo test and the direction, reversed if it is
not a descent direction. -/
def direction (cfg : Config) (P : Problem V) (eps : List ℝ) (pt : Point V) (p : V) : ℝ × V :=
  if cfg.rho < 1 then
    let meritJacP := P.slope eps pt.at' pt.r p
    let p := if meritJacP > 0 then -p else p
    (meritJacP, p)
  else (0, p)

/-- `f32::EPSILON`. -/
def epsilonF32 : ℝ := 2 ^ (-23 : ℤ)

/-- `newton.rs:1182-1192`: the forcing term of an inexact Newton iteration. The ratio of merit
values is an arbitrary number here (a zero or negative denominator gives NaN or infinity, for
which `f32::max` and `min` pick the other operand or the original tolerance). -/
def forcing (origTol tol eta : ℝ) : ℝ :=
  let etaPrev2 := tol * tol
  let eta := max epsilonF32 eta
  let eta := if etaPrev2 > 0.1 then max eta etaPrev2 else eta
  min origTol eta

/-- `(merit_cur / merit_prev).powf(0.5 * power)` in `newton.rs:1183-1185`. -/
def etaRatio (meritCur meritPrev : Option ℝ) : ℝ :=
  match meritCur, meritPrev with
  | some a, some b => (a / b) ^ (0.5 * (0.5 * (1 + Real.sqrt 0.5)))
  | _, _ => 0

/-- `newton.rs:880-881` and `1824-1825`: the base of the epsilon schedule. -/
def epsBase (orig : ℝ) (prevCount : ℕ) : ℝ :=
  max ((1 / orig) ^ (1 / ((prevCount : ℝ) - 3))) 1

/-- `newton.rs:879-888`: the initial epsilon of a solve. -/
def initEps (cfg : Config) (prevCount : ℕ) (orig : ℝ) : ℝ :=
  if cfg.adaptive then orig * epsBase orig prevCount ^ ((prevCount : ℝ) - 3) else orig

/-- `newton.rs:1826`: the factor of an epsilon reduction. The square root of a negative or
infinite ratio is dropped by `min`. -/
def epsFactor (orig : ℝ) (prevCount : ℕ) (meritCur meritPrev : Option ℝ) : ℝ :=
  match meritCur, meritPrev with
  | some a, some b =>
    if b = 0 ∨ a / b < 0 then 1 / epsBase orig prevCount
    else min (Real.sqrt (a / b)) (1 / epsBase orig prevCount)
  | _, _ => 1 / epsBase orig prevCount

/-- `newton.rs:1830`. -/
def reduceEps (prevCount : ℕ) (meritCur meritPrev : Option ℝ) (orig eps : ℝ) : ℝ :=
  max orig (eps * epsFactor orig prevCount meritCur meritPrev)

/-- Record of a step taken, not part of the code: the epsilons in force, the iterate it starts
from, the right-hand side of the linear solve, its tolerance and solution (negated), the step size,
the iterate it ends at and whether the last test of the line search succeeded. -/
structure Step (V : Type*) where
  eps : List ℝ
  x : V
  rhs : V
  tol : ℝ
  dir : V
  alpha : ℝ
  x' : V
  passed : Bool

/-- State of the main loop. `tols` records the tolerances of the linear solves, `epsilons`
the epsilons of the iterations and `log` the steps, most recent first. -/
structure Iter (V : Type*) where
  pt : Point V
  eps : List ℝ
  meritCur : Option ℝ
  meritPrev : Option ℝ
  tol : ℝ
  iterations : ℕ
  tols : List ℝ
  epsilons : List (List ℝ)
  log : List (Step V)

/-- What a solve leaves behind. -/
structure Result (V : Type*) where
  status : Status
  iterations : ℕ
  pt : Point V
  eps : List ℝ
  tol : ℝ
  prevCount : ℕ
  tols : List ℝ
  epsilons : List (List ℝ)
  log : List (Step V)

/-- Leaving the main loop by `break` (`newton.rs:1870-1900`). -/
def finish (cfg : Config) (origTol : ℝ) (status : Status) (s : Iter V) : Result V :=
  ⟨status, s.iterations, s.pt, s.eps, if cfg.iterative then origTol else s.tol, s.iterations,
    s.tols, s.epsilons, s.log⟩

/-- Leaving by `return` or panic: nothing is restored. -/
def abort (prevCount : ℕ) (status : Status) (s : Iter V) : Result V :=
  ⟨status, s.iterations, s.pt, s.eps, s.tol, prevCount, s.tols, s.epsilons, s.log⟩

/-- `newton.rs:1176-1192`: set the tolerance of the linear solve. -/
def prepare (cfg : Config) (origTol : ℝ) (s : Iter V) : Iter V :=
  let tol := if cfg.iterative then forcing origTol s.tol (etaRatio s.meritCur s.meritPrev)
    else s.tol
  { s with tol := tol, tols := tol :: s.tols, epsilons := s.eps :: s.epsilons }

/-- `newton.rs:1580-1584` and `1750-1755`: after the line search along `p`. -/
def accept (cfg : Config) (s : Iter V) (p : V) (ls : Search V) : Iter V :=
  { s with
    pt := ls.pt
    tol := if cfg.iterative ∧ ls.searched then 1 - ls.alpha * (1 - s.tol) else s.tol
    iterations := s.iterations + 1
    log := ⟨s.eps, s.pt.x, s.pt.r, s.tol, p, ls.alpha, ls.pt.x, ls.passed⟩ :: s.log }

/-- `newton.rs:1811-1841`: update the merit values and reduce the epsilons. -/
def nextIter (cfg : Config) (P : Problem V) (orig : List ℝ) (prevCount : ℕ)
    (meritNext : Option ℝ) (s : Iter V) : Iter V :=
  let s := { s with meritPrev := s.meritCur, meritCur := meritNext }
  if cfg.adaptive then
    let update := (List.zipWith (fun o e => decide (e > o)) orig s.eps).any id
    let s := { s with
      eps := List.zipWith (reduceEps prevCount s.meritCur s.meritPrev) orig s.eps }
    if update then
      let r := P.residual s.eps s.pt.at'
      { s with pt := { s.pt with r := r }, meritCur := P.merit s.eps s.pt.at' r }
    else s
  else s

omit [AddCommGroup V] [Module ℝ V] in
theorem nextIter_iterations (cfg : Config) (P : Problem V) (orig : List ℝ) (prevCount : ℕ)
    (m : Option ℝ) (s : Iter V) :
    (nextIter cfg P orig prevCount m s).iterations = s.iterations := by
  unfold nextIter
  simp only
  by_cases h : cfg.adaptive
  · simp only [h, if_true]
    generalize List.any _ _ = b
    cases b <;> rfl
  · simp only [h]
    rfl

/-- `newton.rs:1156-1842`, the main loop. -/
def mainLoop (cfg : Config) (P : Problem V) (o : Oracle V) (orig : List ℝ) (origTol : ℝ)
    (prevCount : ℕ) (s : Iter V) : Option (Result V) :=
  if o.interrupt s.iterations then some (finish cfg origTol .interrupted s)
  else if s.meritCur = none then some (finish cfg origTol .diverged s)
  else
    let s₁ := prepare cfg origTol s
    match o.linear s.iterations with
    | .error => some (finish cfg origTol .linearSolveError s₁)
    | .checkFailed => some (abort prevCount .failedJacobianCheck s₁)
    | .solution finite p =>
      if ¬ finite then some (finish cfg origTol .stepTooLarge s₁)
      else
        let d := direction cfg P s₁.eps s₁.pt (-p)
        let test := testAlpha cfg P s₁.tol s₁.pt.r s₁.meritCur d.1
        match lineSearch cfg P s₁.eps test (o.contactAlpha s.iterations)
            (o.frictionAlpha s.iterations) s₁.pt.x d.2 with
        | none => none
        | some ls =>
          if ls.searched ∧ ls.alpha < 1e-20 ∧ ls.count > 80 ∧ ¬ cfg.outDir then
            some (abort prevCount .panicked s₁)
          else
            let s₂ := accept cfg s₁ (-p) ls
            if P.converged s₁.pt.x s₂.pt.x s₂.pt.r ∧ s₂.eps = orig then
              some (finish cfg origTol .success s₂)
            else if h : s₂.iterations ≥ cfg.maxIter then
              some (finish cfg origTol .maximumIterationsExceeded s₂)
            else mainLoop cfg P o orig origTol prevCount
              (nextIter cfg P orig prevCount ls.merit s₂)
termination_by cfg.maxIter - s.iterations
decreasing_by
  rw [nextIter_iterations]
  have h1 : s₂.iterations = s.iterations + 1 := rfl
  change _ - s₂.iterations < _
  omega

/-- `newton.rs:1059-1084`: scale back the initial guess until the merit is finite. The number
is ten minus `initial_backtrack_iterations`. -/
def initialGuess (P : Problem V) (eps : List ℝ) : ℕ → Point V → Point V
  | 0, pt => pt
  | k + 1, pt =>
    if (P.merit eps pt.at' pt.r).isSome then pt
    else
      let x := if k = 0 then 0 else (0.5 : ℝ) • pt.x
      initialGuess P eps k (moveTo P eps x)

/-- The solver between solves: epsilons of the problem, those of its automatic-differentiation
twins (`problem.rs:408-414` only reaches the former), tolerance of the linear solver and
iterations of the last solve. -/
structure Solver where
  eps : List ℝ
  epsAd : List ℝ
  tol : ℝ
  prevCount : ℕ

/-- `newton.rs:850-1901`, `solve_with`. `empty` tells that there are no unknowns, `jacOk` that
`update_jacobian_indices` succeeds, `noJac` that the Jacobian has no entries. -/
def solveWith (cfg : Config) (P : Problem V) (o : Oracle V) (empty jacOk noJac : Bool)
    (sv : Solver) (x : V) : Option (Result V) :=
  let init : Iter V := ⟨⟨x, x, 0⟩, sv.eps, none, none, sv.tol, 0, [], [], []⟩
  if empty then some (abort sv.prevCount .nothingToSolve init)
  else
    let orig := sv.eps
    let eps := orig.map (initEps cfg sv.prevCount)
    let init := { init with eps := eps }
    if ¬ jacOk then some (abort sv.prevCount .failedToInitializeJacobian init)
    else
      let pt := initialGuess P eps 10 (moveTo P eps x)
      let merit := P.merit eps pt.at' pt.r
      let init := { init with pt := pt, meritCur := merit, meritPrev := merit }
      if noJac then some (abort sv.prevCount .nothingToSolve init)
      else mainLoop cfg P o orig sv.tol sv.prevCount init

/-- The solver after a solve. -/
def after (sv : Solver) (r : Result V) : Solver :=
  { sv with eps := r.eps, tol := r.tol, prevCount := r.prevCount }

end Softy.Newton
