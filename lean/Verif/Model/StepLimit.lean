import Verif.Model.Solver

/-!
# Limits on steps

Model of the settings of `Solver` that are meant to limit steps: `update_max_step` and
`update_radius_multiplier` (`softy/src/fem/nl/solver.rs:98-106`), and of the part of `commit_solution` that
relaxes the limit (`solver.rs:137-155`). A solve is a function of the problem; the solver hands the problem
to the nonlinear solver (`solver.rs:270-275`).
-/

namespace Softy.StepLimit

open Softy Softy.Solver

variable {X V : Type*}

/-- The solver: the problem, and the field `max_step` (`solver.rs:38`), which is zero at first
(`builder.rs:918`). -/
structure Limited (X V : Type*) where
  sim : Sim X V
  maxStep : ℝ

/-- `problem.rs:806-813`, `NLProblem::update_max_step`. The body is commented out. -/
def problemMaxStep (p : Sim X V) (_step : ℝ) : Sim X V := p

/-- `problem.rs:814-825`, `NLProblem::update_radius_multiplier`. The body is commented out. -/
def problemRadius (p : Sim X V) (_mult : ℝ) : Sim X V := p

/-- `problem.rs:591-599`, `min_contact_radius`. -/
def minContactRadius (_p : Sim X V) : Option ℝ := none

/-- `solver.rs:98-102`, `update_max_step`. -/
def updateMaxStep (s : Limited X V) (step : ℝ) : Limited X V :=
  ⟨problemMaxStep s.sim step, step⟩

/-- `solver.rs:104-106`, `update_radius_multiplier`. -/
def updateRadius (s : Limited X V) (mult : ℝ) : Limited X V :=
  { s with sim := problemRadius s.sim mult }

/-- `solver.rs:137-155`, the end of `commit_solution`; `size` is the largest entry of the solution. -/
noncomputable def relaxMaxStep (s : Limited X V) (relax : Bool) (size : ℝ) : Limited X V :=
  if relax then
    match minContactRadius s.sim with
    | none => s
    | some radius =>
      let step := size * if s.sim.timeStep > 0 then s.sim.timeStep else 1
      let new := max (step - radius) (s.maxStep * 0.5)
      if s.maxStep ≠ new then ⟨problemMaxStep s.sim new, new⟩ else s
  else s

/-- Calls of the solver. -/
inductive Call where
  | maxStep (step : ℝ)
  | radius (mult : ℝ)
  /-- `solver.rs:207-407`, `step`. Whether the limit is relaxed after it, and the size of the solution. -/
  | step (relax : Bool) (size : ℝ)

/-- The solver after a call. `solve` is the nonlinear solver and `jac` the check of derivatives, both applied
to the problem. -/
noncomputable def call (env : Env X V) (par : Params) (solve : Sim X V → ℕ → Outcome V)
    (jac : Sim X V → ℕ → Bool) (s : Limited X V) : Call → Limited X V × Option (List StageResult)
  | .maxStep step => (updateMaxStep s step, none)
  | .radius mult => (updateRadius s mult, none)
  | .step relax size =>
    let r := Solver.step env par (solve s.sim) (jac s.sim) s.sim
    (relaxMaxStep { s with sim := r.sim } relax size, r.result)

/-- The solver after a sequence of calls, with the states and results after all steps. -/
noncomputable def calls (env : Env X V) (par : Params) (solve : Sim X V → ℕ → Outcome V)
    (jac : Sim X V → ℕ → Bool) : List Call → Limited X V → List (X × Option (List StageResult))
  | [], _ => []
  | .step relax size :: cs, s =>
    let r := call env par solve jac s (.step relax size)
    (r.1.sim.state, r.2) :: calls env par solve jac cs r.1
  | c :: cs, s => calls env par solve jac cs (call env par solve jac s c).1

end Softy.StepLimit
