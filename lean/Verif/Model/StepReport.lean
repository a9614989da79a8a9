import Verif.Model.Solver

/-!
# Model of the report of a step

`softy/src/fem/nl.rs:128-215` (`StepResult`, `StageResult`, `ProblemInfo`),
`softy/src/fem/nl/problem.rs:242-265` (`num_in_proximity`, `num_contacts`),
`softy/src/fem/nl/solver.rs:197-204` (`log_result`), `softy/src/lib.rs:149-205` (`SimResult`) and
`softy-hdk/src/api/solver.rs:24-33` (`solve`).

The reports themselves are those of `Softy.Solver`. Texts are not modelled: an entry of the log
is the frame number with the report. The file system is the content of the log file, absent or
present; writing to an open file succeeds.
-/

noncomputable section

namespace Softy.StepReport

open Solver

variable {X V : Type*}

/-- `nl.rs:134-142`, `first_solve_result`; `none` is the panic of an index out of range. -/
def firstSolveResult (stages : List StageResult) : Option Status :=
  match stages[0]? with
  | some st => st.results[0]?
  | none => none

/-- One contact constraint as `num_contacts` sees it: stiffness, tolerance, and the potential at
the points that it constrains. -/
structure Contact where
  stiffness : ℝ
  tolerance : ℝ
  dist : List ℝ

/-- `problem.rs:242-250`, `num_in_proximity`, with `constraint_size`
(`penalty_point_contact.rs:1229-1231`): the length of the vector of potentials
(`penalty_point_contact.rs:1233-1241`). -/
def numInProximity (cs : List Contact) : ℕ := (cs.map fun c => c.dist.length).sum

/-- `problem.rs:251-264`, `num_contacts`: the positive multipliers. -/
def numContacts (cs : List Contact) : ℕ :=
  (cs.map fun c => (ContactPenalty.multipliers c.stiffness c.tolerance c.dist).countP
    fun l => decide (l > 0)).sum

/-- `softy/src/lib.rs:149-154`, `SimResult`, without the texts. -/
inductive SimResult where
  | success (report : List StageResult)
  | warning
  | error

/-- `softy/src/lib.rs:198-205`, `From<Result<StepResult, Error>> for SimResult`. -/
def SimResult.ofStep : Option (List StageResult) → SimResult
  | some r => .success r
  | none => .error

/-- An entry of the log: the number of the frame and the report. -/
abbrev Entry := ℕ × List StageResult

/-- The log file parameter with the content of the file, if there is one. -/
structure Log where
  /-- `SimParams::log_file` is set. -/
  enabled : Bool
  content : Option (List Entry)

/-- `solver.rs:197-204`, `log_result`: the file is opened for appending and must exist. The
boolean says whether the function returned `Ok`. -/
def logResult (log : Log) (frame : ℕ) (r : List StageResult) : Log × Bool :=
  if log.enabled then
    match log.content with
    | some c => ({ log with content := some (c ++ [(frame, r)]) }, true)
    | none => (log, false)
  else (log, true)

/-- `softy-hdk/src/api/solver.rs:24-33`, `solve`: a step, its report logged if it succeeded; a
failure to log is only a warning in the program's own log. -/
def pluginSolve (env : Env X V) (par : Params) (ω : ℕ → Outcome V) (jacOk : ℕ → Bool)
    (s : Sim X V) (log : Log) : Sim X V × Log × SimResult :=
  let o := step env par ω jacOk s
  let log := match o.result with
    | some r => (logResult log o.sim.iterationCount r).1
    | none => log
  (o.sim, log, SimResult.ofStep o.result)

/-- A history of calls of `solve`; the list of what they return. -/
def pluginRun (env : Env X V) (par : Params) :
    List ((ℕ → Outcome V) × (ℕ → Bool)) → Sim X V → Log → Sim X V × Log × List SimResult
  | [], s, log => (s, log, [])
  | o :: os, s, log =>
    let a := pluginSolve env par o.1 o.2 s log
    let b := pluginRun env par os a.1 a.2.1
    (b.1, b.2.1, a.2.2 :: b.2.2)

end Softy.StepReport
