import Verif.Model.StepLimit
import Verif.Props.Solver

/-!
# Limits on steps

Property C118: a limit on displacements that is set on a solver holds for every step that is taken
afterwards, until it is changed.
-/

noncomputable section

namespace Softy.StepLimit

open Softy Softy.Solver Softy.TimeInt

variable {X V : Type*}

/-- Specification: the calls that are steps. -/
def Call.isStep : Call → Bool
  | .step _ _ => true
  | _ => false

/-- Specification: the limit in force, the last one that was set. -/
def limitAfter (cs : List Call) (limit : ℝ) : ℝ :=
  cs.foldl (fun l c => match c with
    | .maxStep s => s
    | _ => l) limit

theorem relax_same (s : Limited X V) (relax : Bool) (size : ℝ) : relaxMaxStep s relax size = s := by
  unfold relaxMaxStep minContactRadius
  split <;> rfl

/-- C118 fails in general: what is set has no effect. Every history gives the same states and results as the
one without the calls that set limits, whatever the limits were before, and whatever the nonlinear solver
does. -/
theorem limits_ignored (env : Env X V) (par : Params) (solve : Sim X V → ℕ → Outcome V)
    (jac : Sim X V → ℕ → Bool) (cs : List Call) (sim : Sim X V) (l l' : ℝ) :
    calls env par solve jac cs ⟨sim, l⟩ = calls env par solve jac (cs.filter Call.isStep) ⟨sim, l'⟩ := by
  induction cs generalizing sim l l' with
  | nil => rfl
  | cons c cs ih =>
    cases c with
    | maxStep step => exact ih sim step l'
    | radius mult => exact ih sim l l'
    | step relax size =>
      rw [List.filter_cons_of_pos (by rfl)]
      simp only [calls, call, relax_same]
      congr 1
      exact ih _ l l'

/-- The limit that is stored is the one that was set last: it is never relaxed. -/
theorem limit_stored (env : Env X V) (par : Params) (solve : Sim X V → ℕ → Outcome V)
    (jac : Sim X V → ℕ → Bool) (cs : List Call) (s : Limited X V) :
    (cs.foldl (fun s c => (call env par solve jac s c).1) s).maxStep = limitAfter cs s.maxStep := by
  induction cs generalizing s with
  | nil => rfl
  | cons c cs ih =>
    rw [List.foldl_cons, ih]
    cases c with
    | maxStep step => rfl
    | radius mult => rfl
    | step relax size =>
      show limitAfter cs (relaxMaxStep _ relax size).maxStep = _
      rw [relax_same]
      rfl

/-! ## Example: a particle -/

/-- A particle on a line that moves with the velocity that is solved for. -/
def particle : Env ℝ ℝ where
  numVertices := 1
  advance := fun _ dt x v => x + dt * v
  clearVelocities := fun x => x

def particleStart : Limited ℝ ℝ := ⟨⟨0, 0, 1, .BE, [], [], 0⟩, 0⟩

/-- A solve that succeeds with velocity 10. -/
def fast : Sim ℝ ℝ → ℕ → Outcome ℝ := fun _ _ => ⟨.success, 10, [], false⟩

theorem particle_step : Solver.step particle ⟨1, .BE, 0⟩ (fast particleStart.sim) (fun _ => true)
    particleStart.sim = ⟨1, ⟨10, 10, 1, .BE, [], [], 1⟩, some [⟨.BE, [.success], 0, 0⟩]⟩ := by
  simp [Solver.step, TimeIntegration.numStages, Solver.stages, contactLoop, fast, particleStart,
    TimeIntegration.stepIntegrator, contactViolation, contactConstraint, minBy, record, Solver.relax,
    Solver.commit, particle, List.range_succ]

/-- C118 fails: with a limit of 1 a particle moves by 10 in one step. -/
theorem limit_violated :
    ∃ (env : Env ℝ ℝ) (par : Params) (solve : Sim ℝ ℝ → ℕ → Outcome ℝ) (s : Limited ℝ ℝ) (limit : ℝ)
      (x : ℝ) (r : List StageResult), 0 < limit ∧
      calls env par solve (fun _ _ => true) [.maxStep limit, .step true 10] s = [(x, some r)] ∧
      limitAfter [.maxStep limit, .step true 10] s.maxStep = limit ∧ limit < |x - s.sim.state| := by
  refine ⟨particle, ⟨1, .BE, 0⟩, fast, particleStart, 1, 10, [⟨.BE, [.success], 0, 0⟩], one_pos, ?_, rfl, ?_⟩
  · simp only [calls, call, relax_same, updateMaxStep, problemMaxStep, particle_step]
  · norm_num [particleStart]

end Softy.StepLimit
