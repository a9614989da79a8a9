import Verif.Model.VelocityClear

/-!
# What a mesh read from the solver shows

`mesh` (`softy/src/fem/nl/problem.rs:300-350`), `mesh_with` (268-298) and `vertex_positions` (225-240) read the vertices
of the workspace, `vtx.next`. This is a model of `Solver::step` that keeps track of the free vertices of the workspace.
Contacts are those of the model of `step`.
-/

noncomputable section

namespace Softy.ReadBack

open TimeInt Solver VelocityClear

variable {ι : Type*}

/-- The solver and the free vertices of the workspace. -/
structure View (ι : Type*) where
  sim : Sim (ι → Dof) (ι → ℝ)
  /-- `vtx.next` (`state.rs:783-790` writes it). -/
  shown : ι → GState

/-- `problem.rs:2861-2874`, the start of `update_state`: integrate the velocities and copy the result to the vertices. The
same as `problem.rs:274-277` in `mesh_with` and `problem.rs:774-775` in `advance`. -/
def trial (s : View ι) (v : ι → ℝ) : View ι :=
  { s with shown := fun i => ⟨integrateStep s.sim.integration (s.sim.state i) (v i) s.sim.timeStep, v i⟩ }

/-- A solve evaluates the problem at these velocities, one after another (`newton.rs:1129-1375`, every call of
`update_state`). -/
def trials (s : View ι) (vs : List (ι → ℝ)) : View ι := vs.foldl trial s

/-- The other parts of the solver. -/
def View.onSim (s : View ι) (f : Sim (ι → Dof) (ι → ℝ) → Sim (ι → Dof) (ι → ℝ)) : View ι := { s with sim := f s.sim }

/-- `solver.rs:124-156`, `commit_solution(false)`, followed by the clearing of velocities (332-334 and 391-393):
`problem.rs:773-783`, `advance`, copies to the vertices before it advances; `state.rs:1392-1400` clears velocities of
degrees of freedom only. -/
def commitView (E : Env (ι → Dof) (ι → ℝ)) (par : Params) (s : View ι) (x : ι → ℝ) : View ι :=
  (trial s x).onSim fun t => commit E par t x

/-- Result of the contact loop, as in `Solver.LoopResult`. -/
structure LoopView (ι : Type*) where
  solves : ℕ
  iters : ℤ
  view : View ι
  stage : Option StageResult

/-- `solver.rs:270-403`, the contact loop of one stage, as `Solver.contactLoop`. `ev k` are the velocities at which solve `k`
evaluates the problem. -/
def loopView (E : Env (ι → Dof) (ι → ℝ)) (par : Params) (ω : ℕ → Outcome (ι → ℝ)) (ev : ℕ → List (ι → ℝ)) (k : ℕ)
    (ci : ℤ) (s : View ι) (st : StageResult) : LoopView ι :=
  let o := ω k
  let s := trials s (ev k)
  if o.status = .success ∨ o.status = .maximumIterationsExceeded then
    let cv := contactViolation E.numVertices s.sim.fcs o.cached
    if h : ci - 1 < 0 then
      ⟨k + 1, ci - 1, commitView E par s o.solution,
        some { st with results := st.results ++ [.maximumContactIterationsExceeded] }⟩
    else
      if cv.violation > 0 then
        loopView E par ω ev (k + 1) (ci - 1) (s.onSim fun t => bump t cv) (record st o cv)
      else
        ⟨k + 1, ci - 1, commitView E par (s.onSim fun t => relax t cv) o.solution, some (record st o cv)⟩
  else ⟨k + 1, ci, s, none⟩
termination_by ci.toNat
decreasing_by omega

/-- Result of a step, as in `Solver.StepOutcome`. -/
structure StepView (ι : Type*) where
  solves : ℕ
  view : View ι
  result : Option (List StageResult)

/-- `solver.rs:243-405`, the loop over stages, as `Solver.stages`. Every stage starts with an evaluation at the initial
point (252-258, `update_constraint_state`). -/
def stagesView (E : Env (ι → Dof) (ι → ℝ)) (par : Params) (ω : ℕ → Outcome (ι → ℝ)) (ev : ℕ → List (ι → ℝ))
    (jacOk : ℕ → Bool) (trueStep : ℝ) : List ℕ → ℕ → ℤ → View ι → List StageResult → StepView ι
  | [], k, _, s, acc => ⟨k, s, some acc⟩
  | stage :: rest, k, ci, s, acc =>
    let si := par.integrator.stepIntegrator stage
    let s := s.onSim fun t => { t with integration := si.1, timeStep := trueStep * si.2 }
    let s := trial s s.sim.initialPoint
    if jacOk stage then
      let r := loopView E par ω ev k ci s ⟨si.1, [], 0, 0⟩
      match r.stage with
      | some st => stagesView E par ω ev jacOk trueStep rest r.solves r.iters r.view (acc ++ [st])
      | none => ⟨r.solves, r.view, none⟩
    else ⟨k, s, none⟩

/-- `solver.rs:207-407`, `Solver::step`. -/
def stepView (E : Env (ι → Dof) (ι → ℝ)) (par : Params) (ω : ℕ → Outcome (ι → ℝ)) (ev : ℕ → List (ι → ℝ))
    (jacOk : ℕ → Bool) (s : View ι) : StepView ι :=
  let s := s.onSim fun t => { t with iterationCount := t.iterationCount + 1 }
  stagesView E par ω ev jacOk s.sim.timeStep (List.range par.integrator.numStages) 0 par.contactIterations s []

/-- What users call. -/
inductive Call (ι : Type*) where
  /-- `solver.rs:207`, with the solves that it makes. -/
  | step (ω : ℕ → Outcome (ι → ℝ)) (ev : ℕ → List (ι → ℝ)) (jacOk : ℕ → Bool)
  /-- `problem.rs:268`. -/
  | meshWith (dq : ι → ℝ)
  /-- `problem.rs:300`, `vertex_positions` (225) and, on free vertices, `update_vertex_positions` (639, `state.rs:1182-1250`)
  do not write the free vertices. -/
  | mesh

/-- One call. -/
def call (E : Env (ι → Dof) (ι → ℝ)) (par : Params) (s : View ι) : Call ι → View ι
  | .step ω ev jacOk => (stepView E par ω ev jacOk s).view
  | .meshWith dq => trial s dq
  | .mesh => s

/-- A history of calls. -/
def calls (E : Env (ι → Dof) (ι → ℝ)) (par : Params) (s : View ι) (l : List (Call ι)) : View ι := l.foldl (call E par) s

/-- A new solver: vertices and degrees of freedom start with the positions and velocities of the mesh
(`state.rs:556-640`, `258-281`). -/
def fresh (sim : Sim (ι → Dof) (ι → ℝ)) : View ι := ⟨sim, fun i => (sim.state i).cur⟩

/-- What `mesh` and `vertex_positions` show of the free vertices (`problem.rs:300-350` and `225-240`). -/
def View.mesh (s : View ι) : (ι → ℝ) × (ι → ℝ) := (fun i => (s.shown i).q, fun i => (s.shown i).dq)

/-- What `mesh_with` shows (`problem.rs:268-298`). -/
def View.meshWith (s : View ι) (dq : ι → ℝ) : ι → ℝ := fun i => ((trial s dq).shown i).q

end Softy.ReadBack
