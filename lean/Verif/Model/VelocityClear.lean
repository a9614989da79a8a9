import Verif.Model.TimeIntegration
import Verif.Model.Solver
import Mathlib.Algebra.Order.Round

/-!
# Model of the clearing of velocities

`velocity_clear_frequency` (`softy/src/fem/nl.rs:55-61`): `softy/src/fem/nl/solver.rs:225-234`, `332-334` and `391-393`,
`problem.rs:1347-1350` and `state.rs:1392-1400`, on the model of the time integrators and on the model of `step`.

Numbers are reals. The count of steps is a natural number (`u32` in the code, which overflows after 2^32 steps).
-/

noncomputable section

namespace Softy.VelocityClear

open TimeInt

/-- `u32::MAX`, used at `solver.rs:229` and `231`. -/
def u32Max : ℕ := 2 ^ 32 - 1

/-- `solver.rs:225-234`, `velocity_clear_steps`. The quotient is infinite for a time step of zero. Time steps are not
negative, for which rounding half up is rounding half away from zero (`solver.rs:227`). -/
def clearSteps (freq dt : ℝ) : ℕ :=
  max
    (if 0 < freq then
      if dt = 0 then u32Max
      else
        let n := round (1 / (freq * dt))
        if 0 ≤ n ∧ n < 2 ^ 32 then n.toNat else u32Max
    else u32Max)
    1

/-- `state.rs:1392-1400`, `clear_velocities`, on one degree of freedom: only the current velocity is reset. -/
def clear (d : Dof) : Dof := { d with cur := { d.cur with dq := 0 } }

/-- `solver.rs:332` and `391`: whether velocities are reset in the step with the given number (`solver.rs:209`). -/
def clears (freq dt : ℝ) (count : ℕ) : Bool := count % clearSteps freq dt == 0

variable {ι : Type*}

/-- The stages `k`, `k + 1`, … of `Solver::step` (`solver.rs:243-405`) with the nonlinear solver replaced by its contract
(`SystemStageSolves`). Velocities are reset after the commit of every stage (`solver.rs:332-334` and `391-393`). -/
def StagesClear (ti : TimeIntegration) (m : ι → ℝ) (dt : ℝ) (force : (ι → ℝ) → (ι → ℝ) → ι → ℝ) (clr : Bool) :
    ℕ → ℕ → (ι → Dof) → (ι → Dof) → Prop
  | 0, _, D, D' => D' = D
  | n + 1, k, D, D' => ∃ D1,
      SystemStageSolves (ti.stepIntegrator k).1 m (dt * (ti.stepIntegrator k).2) force D D1 ∧
      StagesClear ti m dt force clr n (k + 1) (if clr then fun i => clear (D1 i) else D1) D'

/-- A successful call of `Solver::step` (`solver.rs:207-407`), the call with the given number. -/
def StepClear (ti : TimeIntegration) (m : ι → ℝ) (dt freq : ℝ) (force : (ι → ℝ) → (ι → ℝ) → ι → ℝ) (count : ℕ)
    (D D' : ι → Dof) : Prop :=
  StagesClear ti m dt force (clears freq dt count) ti.numStages 0 D D'

/-- Successful calls of `Solver::step` with the numbers `count + 1`, …, `count + n`. -/
def RunClear (ti : TimeIntegration) (m : ι → ℝ) (dt freq : ℝ) (force : (ι → ℝ) → (ι → ℝ) → ι → ℝ) :
    ℕ → ℕ → (ι → Dof) → (ι → Dof) → Prop
  | 0, _, D, D' => D' = D
  | n + 1, count, D, D' => ∃ D1, StepClear ti m dt freq force (count + 1) D D1 ∧
      RunClear ti m dt freq force n (count + 1) D1 D'

/-- The operations of `step` (`Solver.Env`) on degrees of freedom: `problem.rs:773-783`, `advance`, where the candidate
force is that of the state committed, and `problem.rs:1347-1350`, `clear_velocities`. -/
def env (n : ℕ) (force : (ι → ℝ) → (ι → ℝ) → ι → ℝ) : Solver.Env (ι → Dof) (ι → ℝ) where
  numVertices := n
  advance s dt D v := fun i =>
    advance (D i) (integrateStep s (D i) (v i) dt) (v i) (-(force (fun j => integrateStep s (D j) (v j) dt) v i))
  clearVelocities D := fun i => clear (D i)

/-- The velocity a mesh shows after a commit (`problem.rs:773-775` and `301-350`): `advance` copies it to the vertices
(`state.rs:783-790`), where `clear_velocities` (`state.rs:1392-1400`) does not reset it. The pair is the state of a
degree of freedom and what the vertices hold. -/
def commitShown (s : SingleStep) (dt : ℝ) (force : (ι → ℝ) → (ι → ℝ) → ι → ℝ) (clr : Bool) (D : ι → Dof)
    (v : ι → ℝ) : (ι → Dof) × (ι → GState) :=
  let D1 := (env 0 force).advance s dt D v
  (if clr then (env 0 force).clearVelocities D1 else D1, fun i => (D1 i).cur)

end Softy.VelocityClear
