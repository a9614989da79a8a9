import Mathlib.Analysis.Real.Sqrt

/-!
# Model of the time integrators

`softy/src/fem/nl/time_integration.rs`, the integration formulas of
`softy/src/fem/nl/state.rs`, and the parts of `softy/src/fem/nl/problem.rs` and
`softy/src/fem/nl/solver.rs` that drive them.

Every degree of freedom is integrated independently by the code, so the model
follows a single scalar degree of freedom (one entry of `q`/`dq`). Numbers are reals;
the `f32` round trip of the TR-BDF2 fraction and of `implicit_factor` is not modelled.
-/

noncomputable section

namespace Softy.TimeInt

/-- `time_integration.rs:5-18`, `TimeIntegration`. -/
inductive TimeIntegration where
  | BE | TR | BDF2
  | TRBDF2 (t : ℝ)
  | SDIRK2

/-- `time_integration.rs:63-79`, `SingleStepTimeIntegration`. -/
inductive SingleStep where
  | BE | TR | BDF2
  | MixedBDF2 (t : ℝ)
  | SDIRK2

/-- `time_integration.rs:28-51`, `TimeIntegration::step_integrator`. -/
def TimeIntegration.stepIntegrator : TimeIntegration → ℕ → SingleStep × ℝ
  | .BE, _ => (.BE, 1)
  | .TR, _ => (.TR, 1)
  | .BDF2, _ => (.BDF2, 1)
  | .TRBDF2 t, stage => if stage % 2 = 0 then (.TR, t) else (.MixedBDF2 (1 - t), 1)
  | .SDIRK2, stage => if stage % 2 = 0 then (.BE, 1 - 0.5 * √2) else (.SDIRK2, 1)

/-- `time_integration.rs:53-58`, `TimeIntegration::num_stages`. -/
def TimeIntegration.numStages : TimeIntegration → ℕ
  | .BE | .TR | .BDF2 => 1
  | .TRBDF2 _ | .SDIRK2 => 2

/-- `time_integration.rs:83-91`, `implicit_factor`. -/
def SingleStep.implicitFactor : SingleStep → ℝ
  | .BE => 1
  | .TR => 0.5
  | .BDF2 => 2 / 3
  | .MixedBDF2 t => t / (1 + t)
  | .SDIRK2 => 1 - 0.5 * √2

/-- `time_integration.rs:95-105`, `explicit_factor`. -/
def SingleStep.explicitFactor : SingleStep → ℝ
  | .BE => 0
  | .TR => 0.5
  | .BDF2 => 0
  | .MixedBDF2 _ => 0
  | .SDIRK2 => 0.5 * √2

/-- One degree of freedom: position and velocity (`GeneralizedState`). -/
@[ext] structure GState where
  q : ℝ
  dq : ℝ

/-- One entry of `GeneralizedCoords` (`state.rs:284-301`) plus the entry of
`NLProblem::prev_force` (`problem.rs:164`). As in the code, `prevForce` stores the
*residual contribution*, i.e. minus the force (`subtract_force`, `problem.rs:1412`). -/
@[ext] structure Dof where
  prev : GState
  cur : GState
  prevForce : ℝ

/-- A freshly built degree of freedom: `state.rs:260-281` clones `cur` into `prev`, and
`solver/builder.rs:829` sets `prev_force` to zero. -/
def Dof.fresh (q v : ℝ) : Dof := ⟨⟨q, v⟩, ⟨q, v⟩, 0⟩

/-- `state.rs:971-983`, `be_step`. -/
def beStep (d : Dof) (v dt : ℝ) : ℝ := v * dt + d.cur.q

/-- `state.rs:1024-1049`, `lerp_step`. -/
def lerpStep (d : Dof) (v dt alpha : ℝ) : ℝ :=
  (v * alpha + d.cur.dq * (1 - alpha)) * dt + d.cur.q

/-- `state.rs:1014-1016`, `tr_step`. -/
def trStep (d : Dof) (v dt : ℝ) : ℝ := lerpStep d v dt 0.5

/-- `state.rs:1085-1112`, `sdirk2_step`. -/
def sdirk2Step (d : Dof) (v dt alpha : ℝ) : ℝ :=
  (v * alpha + d.cur.dq * (1 - alpha)) * dt + d.prev.q

/-- `state.rs:1126-1150`, `mixed_bdf2_step`. -/
def mixedBdf2Step (d : Dof) (v dt gamma : ℝ) : ℝ :=
  let a := 1 / (gamma * (2 - gamma))
  let b := -(1 - gamma) * (1 - gamma) / (gamma * (2 - gamma))
  let c := (1 - gamma) / (2 - gamma)
  v * (c * dt) + d.cur.q * a + d.prev.q * b

/-- `state.rs:1115-1118`, `bdf2_step`. -/
def bdf2Step (d : Dof) (v dt : ℝ) : ℝ := mixedBdf2Step d v (2 * dt) 0.5

/-- `problem.rs:850-868`, `integrate_step`: the position computed for velocity `v`. -/
def integrateStep (s : SingleStep) (d : Dof) (v dt : ℝ) : ℝ :=
  match s with
  | .BE => beStep d v dt
  | .TR => trStep d v dt
  | .BDF2 => bdf2Step d v dt
  | .MixedBDF2 t => mixedBdf2Step d v dt (1 - t)
  | .SDIRK2 => sdirk2Step d v dt (1 - 0.5 * √2)

/-- `state.rs:54-73`, velocity part of `update_with_lerp`. -/
def lerpVel (d : Dof) (a0 a1 : ℝ) : ℝ := d.cur.dq * a1 + d.prev.dq * a0

/-- `state.rs:54-73`, position part of `update_with_lerp`. -/
def lerpPos (d : Dof) (a0 a1 : ℝ) : ℝ := d.cur.q * a1 + d.prev.q * a0

/-- `problem.rs:1320-1344`, `update_cur_vertices`: the pair of weights `(a0, a1)` of the
previous and current state used as the reference ("current") vertex state. The default
branch copies `cur`, i.e. weights `(0, 1)`. -/
def curWeights : SingleStep → ℝ × ℝ
  | .BDF2 => (-1 / 3, 4 / 3)
  | .MixedBDF2 t => (-(t * t / (1 - t * t)), 1 / (1 - t * t))
  | .SDIRK2 => (1, 0)
  | .BE => (0, 1)
  | .TR => (0, 1)

/-- Velocity of the reference vertex state against which momentum is differenced. -/
def curVertexVel (s : SingleStep) (d : Dof) : ℝ :=
  lerpVel d (curWeights s).1 (curWeights s).2

/-- Position of the reference vertex state. -/
def curVertexPos (s : SingleStep) (d : Dof) : ℝ :=
  lerpPos d (curWeights s).1 (curWeights s).2

/-- `problem.rs:1396-1451`, `compute_vertex_residual_impl` for one degree of freedom of
mass `m`: `negForce` is what `subtract_force` leaves in the residual (minus the force at
the new state); the momentum difference is added at the end
(`energy_models/inertia/soft_solid.rs:52-82`). -/
def residual (s : SingleStep) (m dt : ℝ) (d : Dof) (v negForce : ℝ) : ℝ :=
  let forceMul := s.implicitFactor
  let prevForceMul := s.explicitFactor
  (if prevForceMul > 0 then (negForce * forceMul + d.prevForce * prevForceMul) * dt
   else negForce * (dt * forceMul)) + m * (v - curVertexVel s d)

/-- `problem.rs:773-783` (`NLProblem::advance`) and `state.rs:287-301`
(`GeneralizedCoords::advance`): commit velocity `v`, whose position is `q`, and the last
evaluated force. -/
def advance (d : Dof) (q v negForce : ℝ) : Dof :=
  { prev := d.cur, cur := ⟨q, v⟩, prevForce := negForce }

/-- One stage of `Solver::step` (`solver.rs:243-405`) for a degree of freedom of mass `m`
in a force field `force q v`, with the nonlinear solver replaced by its contract: the
committed velocity is a root of the residual. -/
def StageSolves (s : SingleStep) (m dt : ℝ) (force : ℝ → ℝ → ℝ) (d d' : Dof) : Prop :=
  ∃ v, residual s m dt d v (-(force (integrateStep s d v dt) v)) = 0 ∧
    d' = advance d (integrateStep s d v dt) v (-(force (integrateStep s d v dt) v))

/-- The stage loop of `Solver::step` (`solver.rs:243-247`): stages `k, k+1, …` with their
own integrators and scaled time steps. -/
def StagesSolve (ti : TimeIntegration) (m dt : ℝ) (force : ℝ → ℝ → ℝ) :
    ℕ → ℕ → Dof → Dof → Prop
  | 0, _, d, d' => d' = d
  | n + 1, k, d, d' => ∃ d1,
      StageSolves (ti.stepIntegrator k).1 m (dt * (ti.stepIntegrator k).2) force d d1 ∧
      StagesSolve ti m dt force n (k + 1) d1 d'

/-- A whole successful call of `Solver::step` (`solver.rs:207-407`). -/
def StepSolves (ti : TimeIntegration) (m dt : ℝ) (force : ℝ → ℝ → ℝ) (d d' : Dof) : Prop :=
  StagesSolve ti m dt force ti.numStages 0 d d'

/-- A stage for a whole system of degrees of freedom `ι` (`problem.rs:1396-1451` computes the
residual of every degree of freedom from forces that depend on all of them): `force` maps
all new positions and velocities to the force on every degree of freedom. -/
def SystemStageSolves {ι : Type*} (s : SingleStep) (m : ι → ℝ) (dt : ℝ)
    (force : (ι → ℝ) → (ι → ℝ) → ι → ℝ) (D D' : ι → Dof) : Prop :=
  ∃ v : ι → ℝ,
    let q := fun i => integrateStep s (D i) (v i) dt
    ∀ i, residual s (m i) dt (D i) (v i) (-(force q v i)) = 0 ∧
      D' i = advance (D i) (q i) (v i) (-(force q v i))

end Softy.TimeInt
