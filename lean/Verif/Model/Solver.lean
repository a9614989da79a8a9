import Verif.Model.TimeIntegration
import Verif.Model.ContactPenalty

/-!
# Model of a simulation step

`softy/src/fem/nl/solver.rs:207-407`, `Solver::step`, with `contact_violation`
(`softy/src/fem/nl/problem.rs:416-448`).

The nonlinear solver is an oracle: the result of the `k`-th call of a step is an arbitrary
`Outcome`. The committed mechanical state `X` and the vector of unknowns `V` are abstract;
`Env.advance` stands for `NLProblem::advance`. Stiffnesses are reals (`f32` in the code).
Timings, logs and the statistics of the solves are not modelled, nor is the sparsity of the
constraint set.
-/

noncomputable section

namespace Softy.Solver

open TimeInt

/-- `nl.rs:108-126`, `Status`, as far as `step` distinguishes. -/
inductive Status where
  | success
  | maximumIterationsExceeded
  | maximumContactIterationsExceeded
  | failed
deriving DecidableEq

/-- The part of a frictional contact constraint that `step` uses: its tolerance, the vertex
indices of its collider and its stiffness. -/
structure Fc where
  tolerance : ℝ
  colliderIdx : List ℕ
  stiffness : ℝ

/-- `penalty_point_contact.rs:1190-1204`, `cached_distance_potential`: the cached potential of
the query points, scattered to the vertices; all other vertices get zero. -/
def cachedDistance (n : ℕ) (colliderIdx : List ℕ) (cached : List ℝ) : List ℝ :=
  (colliderIdx.zip cached).foldl (fun out a => out.set a.1 a.2) (List.replicate n 0)

/-- `problem.rs:1046-1072`, `contact_constraint` and `contact_constraint_index`: the values of
all constraints one after another, each with the index of its constraint. -/
def contactConstraint (n : ℕ) (fcs : List Fc) (cached : List (List ℝ)) : List (ℝ × ℕ) :=
  (fcs.zipIdx.zip cached).flatMap fun a =>
    (cachedDistance n a.1.1.colliderIdx a.2).map fun d => (d, a.1.2)

/-- `Iterator::min_by`: the first of the smallest elements. -/
def minBy : List (ℝ × ℕ) → Option (ℝ × ℕ)
  | [] => none
  | a :: t => some (t.foldl (fun m b => if b.1 < m.1 then b else m) a)

/-- `problem.rs:2451-2457`, `ContactViolation`. -/
structure ContactViolation where
  bumpRatio : ℝ
  violation : ℝ
  largestPenalty : ℝ
  index : ℕ

/-- `problem.rs:416-448`, `contact_violation`. -/
def contactViolation (n : ℕ) (fcs : List Fc) (cached : List (List ℝ)) : ContactViolation :=
  match minBy (contactConstraint n fcs cached) with
  | some (deepest, i) =>
    let delta := (fcs[i]?.map Fc.tolerance).getD 0
    { bumpRatio := ContactPenalty.db delta deepest / ContactPenalty.db delta (0.5 * delta)
      violation := max 0 (-deepest)
      largestPenalty := ContactPenalty.b delta deepest
      index := i }
  | none => ⟨0, 0, 0, 0⟩

/-- What one nonlinear solve leaves behind: its status, the unknowns, the cached potential of
every constraint, and the answer of `max_step_violation`. -/
structure Outcome (V : Type*) where
  status : Status
  solution : V
  cached : List (List ℝ)
  maxStep : Bool

/-- The state of the solver. `fcsAd` holds the stiffnesses of the automatic-differentiation
twins. -/
structure Sim (X V : Type*) where
  state : X
  initialPoint : V
  timeStep : ℝ
  integration : SingleStep
  fcs : List Fc
  fcsAd : List ℝ
  iterationCount : ℕ

/-- Operations on the committed state, and the number of vertices. -/
structure Env (X V : Type*) where
  numVertices : ℕ
  /-- `problem.rs:773-783`, `advance`, for an integrator and a time step. -/
  advance : SingleStep → ℝ → X → V → X
  /-- `problem.rs:1347-1350`, `clear_velocities`. -/
  clearVelocities : X → X

/-- The parameters `step` reads. `clearSteps` is `velocity_clear_steps` (`solver.rs:225-233`). -/
structure Params where
  contactIterations : ℕ
  integrator : TimeIntegration
  clearSteps : ℕ

/-- `nl.rs`, `StageResult`. -/
structure StageResult where
  integration : SingleStep
  results : List Status
  contactViolations : ℕ
  maxStepViolations : ℕ

variable {X V : Type*}

/-- `solver.rs:124-156`, `commit_solution(false)`, followed by the clearing of velocities
(`solver.rs:332-334` and `391-393`). -/
def commit (env : Env X V) (par : Params) (s : Sim X V) (x : V) : Sim X V :=
  let state := env.advance s.integration s.timeStep s.state x
  { s with
    initialPoint := x
    state := if s.iterationCount % par.clearSteps = 0 then env.clearVelocities state else state }

/-- `solver.rs:340-352`: raise the stiffness of the violating constraint and of its twin. -/
def bump (s : Sim X V) (cv : ContactViolation) : Sim X V :=
  let factor := max cv.bumpRatio 2
  { s with
    fcs := s.fcs.modify cv.index fun fc => { fc with stiffness := fc.stiffness * factor }
    fcsAd := s.fcsAd.modify cv.index fun k => k * factor }

/-- `solver.rs:383-386`: the condition to relax a constraint. -/
def relaxable (fc : Fc) : Prop := fc.stiffness > 1e2 / fc.tolerance

open Classical in
/-- Body of the loop `solver.rs:376-387` for one constraint. -/
def relaxFc (fc : Fc) : Fc :=
  if relaxable fc then { fc with stiffness := fc.stiffness / 2 } else fc

open Classical in
/-- Body of the loop `solver.rs:376-387` for the twin of a constraint. -/
def relaxAd (fc : Fc) (k : ℝ) : ℝ := if relaxable fc then k / 2 else k

/-- `solver.rs:374-388`: relax stiffness. The loop runs over the zipped lists. -/
def relax (s : Sim X V) (cv : ContactViolation) : Sim X V :=
  if cv.largestPenalty = 0 then
    { s with
      fcs := (s.fcs.zip s.fcsAd).map (fun a => relaxFc a.1) ++ s.fcs.drop s.fcsAd.length
      fcsAd := (s.fcs.zip s.fcsAd).map (fun a => relaxAd a.1 a.2) ++ s.fcsAd.drop s.fcs.length }
  else s

/-- The stage statistics after a solve within the contact budget (`solver.rs:339`, `357` and
`366-368`). -/
def record (st : StageResult) (o : Outcome V) (cv : ContactViolation) : StageResult :=
  { st with
    contactViolations := st.contactViolations + if cv.violation > 0 then 1 else 0
    maxStepViolations := st.maxStepViolations + if o.maxStep then 1 else 0
    results := st.results ++ [o.status] }

/-- Result of the contact loop: number of solves so far, remaining contact iterations, the
solver and, unless the step failed, the result of the stage. -/
structure LoopResult (X V : Type*) where
  solves : ℕ
  iters : ℤ
  sim : Sim X V
  stage : Option StageResult

/-- `solver.rs:270-403`, the contact loop of one stage. `k` counts the solves done in this
step, `ci` is `contact_iterations`. -/
def contactLoop (env : Env X V) (par : Params) (ω : ℕ → Outcome V) (k : ℕ) (ci : ℤ)
    (s : Sim X V) (st : StageResult) : LoopResult X V :=
  let o := ω k
  if o.status = .success ∨ o.status = .maximumIterationsExceeded then
    let cv := contactViolation env.numVertices s.fcs o.cached
    if h : ci - 1 < 0 then
      ⟨k + 1, ci - 1, commit env par s o.solution,
        some { st with results := st.results ++ [.maximumContactIterationsExceeded] }⟩
    else
      if cv.violation > 0 then
        contactLoop env par ω (k + 1) (ci - 1) (bump s cv) (record st o cv)
      else
        ⟨k + 1, ci - 1, commit env par (relax s cv) o.solution, some (record st o cv)⟩
  else ⟨k + 1, ci, s, none⟩
termination_by ci.toNat
decreasing_by omega

/-- Result of a step: number of solves, the solver, and the stages unless it failed. -/
structure StepOutcome (X V : Type*) where
  solves : ℕ
  sim : Sim X V
  result : Option (List StageResult)

/-- `solver.rs:243-405`, the loop over stages. `jacOk` is the outcome of `check_jacobian`
(`solver.rs:261-265`) for each stage. -/
def stages (env : Env X V) (par : Params) (ω : ℕ → Outcome V) (jacOk : ℕ → Bool)
    (trueStep : ℝ) : List ℕ → ℕ → ℤ → Sim X V → List StageResult → StepOutcome X V
  | [], k, _, s, acc => ⟨k, s, some acc⟩
  | stage :: rest, k, ci, s, acc =>
    let si := par.integrator.stepIntegrator stage
    let s := { s with integration := si.1, timeStep := trueStep * si.2 }
    if jacOk stage then
      let r := contactLoop env par ω k ci s ⟨si.1, [], 0, 0⟩
      match r.stage with
      | some st => stages env par ω jacOk trueStep rest r.solves r.iters r.sim (acc ++ [st])
      | none => ⟨r.solves, r.sim, none⟩
    else ⟨k, s, none⟩

/-- `solver.rs:207-407`, `Solver::step`. -/
def step (env : Env X V) (par : Params) (ω : ℕ → Outcome V) (jacOk : ℕ → Bool) (s : Sim X V) :
    StepOutcome X V :=
  let s := { s with iterationCount := s.iterationCount + 1 }
  stages env par ω jacOk s.timeStep (List.range par.integrator.numStages) 0
    par.contactIterations s []

/-- A history of steps, with an oracle for each; the solver is used again after a failed
step. -/
def run (env : Env X V) (par : Params) :
    List ((ℕ → Outcome V) × (ℕ → Bool)) → Sim X V → Sim X V
  | [], s => s
  | o :: os, s => run env par os (step env par o.1 o.2 s).sim

end Softy.Solver
