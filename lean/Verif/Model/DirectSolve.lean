import Verif.Model.MatrixFree

/-!
# Linear systems of the direct solver

Model of `DirectSolver`, `SparseJacobian` and `update_jacobian_indices` of
`softy/src/fem/nl/newton.rs`, and of the calls that `Solver::step` (`softy/src/fem/nl/solver.rs:207-407`)
and `Newton::solve_with` (`newton.rs:850-1901`) make for a direct linear solver. The positions of the entries
are kept from one solve to the next, and so is the setup of the library that factorises matrices. The
library itself (Accelerate on macOS, MKL if it is asked for, nothing otherwise) is not modelled: it may
refuse a matrix, and what it does with a matrix is left open. What decides how many iterations there are, and with
which velocities, is arbitrary. Numbers are reals: the conversion to `f64` changes nothing.
-/

noncomputable section

namespace Softy.DirectSolve

open Softy Fem Contact

/-- What differs between platforms: whether matrices are stored by columns
(`newton.rs:741-744`), and for which sizes and matrices `SparseDirectSolver::new`
(`newton.rs:341-391`) gives a solver. -/
structure Platform where
  transpose : Bool
  new : ℕ → List (Sparse.Key × ℝ) → Bool

/-- macOS: `newton.rs:341-357`. -/
def mac : Platform := ⟨true, fun _ _ => true⟩

/-- Neither macOS nor MKL: `newton.rs:359-364`. -/
def noLibrary : Platform := ⟨false, fun _ _ => false⟩

/-- Row and column, as a position in the layout that matrices are stored in, or back:
`newton.rs:595-597, 305-309`. -/
def layout (transpose : Bool) (k : Sparse.Key) : Sparse.Key := if transpose then (k.2, k.1) else k

/-- `SparseJacobian` (`newton.rs:499-503`) and `DirectSolver` (486-497). `j` has positions in the layout of
the platform. The solver of the library is its positions: its values are replaced in every
solve. -/
structure Workspace where
  /-- `j_rows` and `j_cols`. -/
  keys : List Sparse.Key
  /-- `j_vals`. -/
  vals : List ℝ
  j : List (Sparse.Key × ℝ)
  /-- `j_mapping`. -/
  mapping : List (Option ℕ)
  /-- `sparse_solver`. -/
  solver : Option (List Sparse.Key)

/-- `Newton::new`: `newton.rs:664-680, 688-689`. -/
def Workspace.init : Workspace := ⟨[], [], [], [], none⟩

/-- `Vec::resize(n, 0)`. -/
def resize (n : ℕ) (l : List ℝ) : List ℝ := l.take n ++ List.replicate (n - l.length) 0

namespace Workspace

variable (w : Workspace)

/-- `update_jacobian_indices` (`newton.rs:704-770`) for `n` variables and the indices `keys` of the problem, with
its result. -/
def update (pl : Platform) (n : ℕ) (keys : List Sparse.Key) : Workspace × Bool :=
  if keys.isEmpty then (w, true)
  else
    let vals := resize keys.length w.vals
    let key : Fin keys.length → Sparse.Key := fun k => layout pl.transpose (keys.get k)
    let j := Sparse.compress key (fun k => vals.getD k.val 0) n
    let mapping := (List.finRange keys.length).map (Sparse.mapping key n)
    if pl.new n j then (⟨keys, vals, j, mapping, some (j.map Prod.fst)⟩, true)
    else (⟨keys, vals, j, mapping, w.solver⟩, false)

/-- `jacobian_values` writes into `j_vals` from its start: `newton.rs:1248-1254`. -/
def write (vals : List ℝ) : List ℝ := vals.take w.vals.length ++ w.vals.drop vals.length

/-- `rescale_jacobian_values` with `n` factors: `newton.rs:785-791, 1255-1259`. -/
def rescale (n : ℕ) (precond : ℕ → ℝ) (vals : List ℝ) : List ℝ :=
  List.zipWith (fun k v => if k.1 < n then v * precond k.1 else v) w.keys vals

/-- The values of `j` that are computed from those of the triplets: `newton.rs:1379-1391`. -/
def storage (vals : List ℝ) : List ℝ :=
  let z := w.mapping.zip vals
  (List.range w.j.length).map
    (Sparse.reassemble (fun k : Fin z.length => (z.get k).1) fun k : Fin z.length => (z.get k).2)

/-- The linear solve of an iteration (`newton.rs:1241-1413`) for `n` variables, the values of the Jacobian and the
factors of the preconditioner: the workspace afterwards, and the matrix that the library is given, with its
positions as rows and columns. Without solver, `expect` panics (1393-1395). -/
def solve (pl : Platform) (n : ℕ) (values : List ℝ) (precond : ℕ → ℝ) :
    Workspace × Option (List (Sparse.Key × ℝ)) :=
  let vals := w.rescale n precond (w.write values)
  let st := w.storage vals
  ({ w with vals := vals, j := (w.j.map Prod.fst).zip st },
    w.solver.map fun pos => (pos.zip st).map fun e => (layout pl.transpose e.1, e.2))

/-- The product of `j` with `p` in `merit_jac_prod`, before it is scaled: `newton.rs:982-1008`. -/
def mul (pl : Platform) (p : ℕ → ℝ) (i : ℕ) : ℝ :=
  ((w.j.filter fun e => decide ((layout pl.transpose e.1).1 = i)).map fun e =>
    e.2 * p (layout pl.transpose e.1).2).sum

end Workspace

/-- The problem while it is solved: its setting, the velocity of the last `update_state`, and the workspace. -/
structure Machine where
  env : Setting
  vel : Vel
  ws : Workspace

/-- A linear solve: the setting, the iterate, the factors of the preconditioner, the matrix (or a panic), the
direction that was found, and its product with the matrix in the line search. -/
structure Record where
  env : Setting
  v : Vel
  precond : ℕ → ℝ
  matrix : Option (List (Sparse.Key × ℝ))
  direction : Vel
  slope : ℕ → ℝ

/-- How a solve or a step ends: `Success` or `MaximumIterationsExceeded`, or something that makes `step`
return an error (`solver.rs:292-400`). -/
inductive Outcome where
  | done
  | failedToInitializeJacobian
  | nothingToSolve
  | otherError
  deriving DecidableEq

namespace Machine

/-- The number of variables. -/
def n (m : Machine) : ℕ := 3 * m.env.problem.numActive

/-- The constraints change. -/
def change (m : Machine) (f : Cons → Cons) : Machine :=
  { m with env := { m.env with problem := m.env.problem.withCons (f m.env.problem.cons) } }

/-- The constraints may change. -/
def change? (m : Machine) (f : Option (Cons → Cons)) : Machine := (f.map m.change).getD m

/-- `update_state`, several times. -/
def updates (m : Machine) (vs : List Vel) : Machine := { m with vel := vs.getLastD m.vel }

/-- `update_jacobian_indices` with the indices of the problem: `newton.rs:706-712, 818-835`. -/
def indices (m : Machine) (pl : Platform) : Machine × Bool :=
  let r := m.ws.update pl m.n (m.env.problem.jacobianIndices (m.env.positions m.vel) m.vel)
  ({ m with ws := r.1 }, r.2)

/-- The values of the Jacobian (`problem.rs:1718-2000`), for a buffer of the length of `j_vals`: they are those at
the velocity of the last `update_state` (1728-1729, 1763). -/
def values (m : Machine) : List ℝ :=
  m.env.problem.jacobianValues (m.env.positions m.vel) m.vel m.env.h m.env.h m.ws.vals.length

/-- The linear solve at the iterate `x`. -/
def linearSolve (m : Machine) (pl : Platform) (precond : ℕ → ℝ) (x direction : Vel) : Machine × Record :=
  let r := m.ws.solve pl m.n m.values precond
  ({ m with ws := r.1 }, ⟨m.env, x, precond, r.2, direction, r.1.mul pl (Problem.ofVec direction)⟩)

end Machine

/-- An iteration, newton.rs lines 1156-1842: the direction, the full step, the points that the line search tries,
points at which debug data are computed (after which the state is updated to the result again), and the reduction
of epsilons. -/
structure Iteration where
  direction : Vel
  full : Vel
  trials : List Vel
  dump : Option (List Vel)
  reduce : Option (Cons → Cons)

namespace Iteration

/-- The iterate after the line search. -/
def result (t : Iteration) : Vel := t.trials.getLastD t.full

/-- The velocities that `update_state` is called with. -/
def points (t : Iteration) : List Vel :=
  t.full :: t.trials ++ (t.dump.map fun d => d ++ [t.result]).getD []

/-- An iteration that starts at `x`. -/
def run (t : Iteration) (pl : Platform) (precond : ℕ → ℝ) (x : Vel) (m : Machine) : Machine × Record :=
  let r := m.linearSolve pl precond x t.direction
  ((r.1.updates t.points).change? t.reduce, r.2)

end Iteration

/-- Iterations one after another, starting at `x`. -/
def iterate (pl : Platform) (precond : ℕ → ℝ) : List Iteration → Vel → Machine → Machine × List Record
  | [], _, m => (m, [])
  | t :: ts, x, m =>
    let r := t.run pl precond x m
    let s := iterate pl precond ts t.result r.1
    (s.1, r.2 :: s.2)

/-- A solve: the initial epsilons (newton.rs lines 869-890), the initial guess, the guesses that it is scaled back to
(1059-1084), the preconditioner (1056-1058), the iterations, and whether it ends with an error
of another kind. -/
structure Solve where
  start : Option (Cons → Cons)
  guess : Vel
  guesses : List Vel
  precond : ℕ → ℝ
  iterations : List Iteration
  error : Bool

/-- The rest of `solve_with` once the indices are there: newton.rs lines 1052-1901. -/
def Solve.body (s : Solve) (pl : Platform) (m : Machine) : Machine × List Record × Outcome :=
  let m := m.updates (s.guess :: s.guesses)
  if m.ws.keys.isEmpty then (m, [], .nothingToSolve)
  else
    let r := iterate pl s.precond s.iterations (s.guesses.getLastD s.guess) m
    (r.1, r.2, if s.error then .otherError else .done)

/-- `solve_with`: newton.rs lines 850-1901. `fresh` is `update_jacobian_indices`. -/
def Solve.run (s : Solve) (pl : Platform) (fresh : Bool) (m : Machine) : Machine × List Record × Outcome :=
  if m.n = 0 then (m, [], .nothingToSolve)
  else
    let m := m.change? s.start
    if fresh then
      let r := m.indices pl
      if r.2 then s.body pl r.1 else (r.1, [], .failedToInitializeJacobian)
    else s.body pl m

/-- The solves of a stage, each but the last followed by a change of the constraints and another solve, unless it
fails: solver.rs lines 269-402. -/
def solves (pl : Platform) : Bool → List (Solve × After) → Solve → After → Machine →
    Machine × List Record × Outcome
  | fresh, [], s, a, m =>
    let r := s.run pl fresh m
    if r.2.2 = .done then ((r.1.change? a.bump).change? a.refresh, r.2.1, .done) else r
  | fresh, b :: l, s, a, m =>
    let r := b.1.run pl fresh m
    if r.2.2 = .done then
      let q := solves pl b.2.refresh.isSome l s a ((r.1.change? b.2.bump).change? b.2.refresh)
      (q.1, r.2.1 ++ q.2.1, q.2.2)
    else r

/-- A stage, solver.rs lines 243-405: its integration scheme, what `update_constraint_state` does to the
constraints, its initial point, and the solves. -/
structure Stage where
  timeStep : ℝ
  x0 : Vel
  fm : ℝ
  advance : Cons → Cons
  initial : Vel
  solves : List (Solve × After)
  lastSolve : Solve
  lastAfter : After

/-- The integration scheme of a stage is set, and the vertices of its start: solver.rs lines 244-250. -/
def Machine.enter (m : Machine) (timeStep : ℝ) (x0 : Vel) (fm : ℝ) : Machine :=
  { m with env := { m.env with
    problem := { m.env.problem with timeStep := timeStep }, x0 := x0, fm := fm } }

/-- A stage. -/
def Stage.run (g : Stage) (pl : Platform) (m : Machine) : Machine × List Record × Outcome :=
  let m := ((m.enter g.timeStep g.x0 g.fm).change g.advance).updates [g.initial]
  DirectSolve.solves pl true g.solves g.lastSolve g.lastAfter m

/-- Stages one after another, until one fails. -/
def stages (pl : Platform) : List Stage → Machine → Machine × List Record × Outcome
  | [], m => (m, [], .done)
  | g :: l, m =>
    let r := g.run pl m
    if r.2.2 = .done then
      let q := stages pl l r.1
      (q.1, r.2.1 ++ q.2.1, q.2.2)
    else r

/-- A step, solver.rs lines 207-407: what `update_constraint_set` does to the constraints, and the
stages. -/
structure TimeStep where
  set : Cons → Cons
  stages : List Stage

/-- A step, with its result. -/
def TimeStep.run (t : TimeStep) (pl : Platform) (m : Machine) : Machine × List Record × Outcome :=
  DirectSolve.stages pl t.stages (m.change t.set)

/-- A simulation: steps are taken whether those before failed or not. Results are the linear solves and the
outcomes of all steps. -/
def simulate (pl : Platform) : List TimeStep → Machine → Machine × List Record × List Outcome
  | [], m => (m, [], [])
  | t :: ts, m =>
    let r := t.run pl m
    let q := simulate pl ts r.1
    (q.1, r.2.1 ++ q.2.1, r.2.2 :: q.2.2)

end Softy.DirectSolve
