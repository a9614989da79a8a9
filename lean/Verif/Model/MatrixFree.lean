import Verif.Model.Gripping
import Mathlib.Analysis.Calculus.Deriv.Basic

/-!
# Products with the Jacobian that are computed without assembling it

Model of `jacobian_product_constraint_ad`, `update_state_ad` and
`invalidate_cached_jacobian_product_values` of `softy/src/fem/nl/problem.rs`, of the values that are cached
between products, and of the calls that `Solver::step` (`softy/src/fem/nl/solver.rs:207-407`) and
`Newton::solve_with` (`softy/src/fem/nl/newton.rs:850-1901`) make for an iterative linear solver. What decides
how many calls there are and with which vectors (outcomes of linear solves, tests and user callbacks) is
arbitrary. Vertex data are functions of the vertex number; products are functions of the number of the degree
of freedom. Element Hessians are not projected here (`Model/Projection.lean`), and timings are left out.
-/

noncomputable section

namespace Softy.Contact

open Softy Fem

/-- Velocities, or directions, of all vertices. -/
abbrev Vel := ℕ → V3 ℝ

/-- `frictional_contact_constraints`, or `frictional_contact_constraints_ad`: problem.rs lines 138-140. -/
structure Cons where
  contacts : List Pair
  grips : List Grip

namespace Gripping

variable (S : Gripping)

/-- The field `frictional_contact_constraints`. -/
def cons : Cons := ⟨S.contacts, S.grips⟩

/-- The problem with other constraints in their place. -/
def withCons (A : Cons) : Gripping := { S with contacts := A.contacts, grips := A.grips }

/-- `subtract_constraint_forces` applied to a cleared residual: problem.rs lines 1126-1201, 2347-2363. -/
def constraintForce (x v : Vel) : Vel :=
  let r := Problem.toVec (S.volumes.foldl (fun r P => P.subtractForce x r) fun _ => 0)
  let r := S.contacts.foldl (fun r C => C.subtractForce x r) r
  S.grips.foldl (fun r G => G.subtract x v r) r

end Gripping

/-- What a product depends on, except for the velocity: the problem (with its time step), the constraints of
automatic differentiation, and the integration scheme of the stage. Velocities `v` put the vertices at
`x0 + dt * fm * v` (C03); `fm` is `implicit_factor()`. -/
structure Setting where
  problem : Gripping
  twin : Cons
  x0 : Vel
  fm : ℝ

namespace Setting

variable (E : Setting)

/-- `h = dt * implicit_factor`: problem.rs lines 1730-1733. -/
def h : ℝ := E.problem.dt * E.fm

/-- `integrate_step` and `update_vertices`: problem.rs lines 2868-2874; `integrate_step_ad` and
`update_vertices_ad`, lines 2427-2428. -/
def positions (v : Vel) : Vel := fun i => E.x0 i + E.h • v i

/-- The entries of the Jacobian without constraints, before they are compressed: `jacobian_values` called
with `with_constraints` not set, problem.rs lines 1718-1842, 2331. -/
def elasticValues (v : Vel) : List ℝ :=
  E.problem.toProblem.jacobianValues (E.positions v) v E.h E.h

/-- The dual part of the forces of constraints: problem.rs lines 2343-2381, with `update_state_ad`, lines
2411-2446. Velocities are the dual numbers `v + p ε`. Their functions have as dual part the derivative along
`p`, and `T::from(r_ad.deriv())` reads it. -/
def dualPart (v p : Vel) (i : ℕ) : ℝ :=
  deriv (fun s : ℝ => E.h * Problem.ofVec ((E.problem.withCons E.twin).constraintForce
    (E.positions fun j => v j + s • p j) fun j => v j + s • p j) i) 0

end Setting

/-! ## Cached values -/

/-- `JacobianWorkspace`: `rows` and `cols`, the number of rows of `jac`, the values it stores, and `stale`. Where
the values are stored, and `mapping`, follow from `rows` and `cols` (`Model/Sparse.lean`). -/
structure Cache where
  keys : List Sparse.Key
  size : ℕ
  storage : ℕ → ℝ
  stale : Bool

namespace Cache

/-- The position of triplet `k`. -/
def key (c : Cache) (k : Fin c.keys.length) : Sparse.Key := c.keys.get k

/-- `compute_jacobian_indices`: problem.rs lines 1553-1581. The values that are stored are replaced before they
are read, since the flag is set. -/
def indices (c : Cache) (S : Gripping) : Cache :=
  { keys := S.toProblem.jacobianIndices, size := 3 * S.numActive, storage := c.storage, stale := true }

/-- `invalidate_cached_jacobian_product_values`: problem.rs lines 2934-2937. -/
def invalidate (c : Cache) : Cache := { c with stale := true }

/-- The values are computed again where they are stale: problem.rs lines 2330-2341. -/
def refresh (c : Cache) (vals : List ℝ) : Cache :=
  if c.stale then
    { c with
      storage := Sparse.reassemble (Sparse.mapping c.key c.size) fun k => vals.getD k.val 0
      stale := false }
  else c

/-- Entry `i` of `jac * p`: problem.rs lines 2392-2400. -/
def mul (c : Cache) (p : ℕ → ℝ) (i : ℕ) : ℝ :=
  (((Sparse.compress c.key (fun _ => (0 : ℝ)) c.size).zipIdx.filter fun e => e.1.1.1 = i).map fun e =>
    c.storage e.2 * p e.1.1.2).sum

end Cache

/-! ## Calls -/

/-- The problem while it is solved: its setting, the velocity of the last `update_state`, and the cache. -/
structure Machine where
  env : Setting
  vel : Vel
  cache : Cache

/-- Calls that change the problem, and products. -/
inductive Call where
  /-- A stage starts: solver.rs lines 244-250. -/
  | enter (timeStep : ℝ) (x0 : Vel) (fm : ℝ)
  /-- All constraints and their twins change in the same way. -/
  | both (f : Cons → Cons)
  /-- The constraints change, their twins do not. -/
  | primal (f : Cons → Cons)
  /-- `jacobian_indices`. -/
  | indices
  /-- `update_state`. -/
  | update (v : Vel)
  /-- `invalidate_cached_jacobian_product_values`. -/
  | invalidate
  /-- `jacobian_product`. -/
  | product (v p : Vel)

/-- A product that was computed: what it depends on, and the result. -/
structure Record where
  env : Setting
  v : Vel
  p : Vel
  out : ℕ → ℝ

namespace Machine

/-- `jacobian_product_constraint_ad`: problem.rs lines 2309-2403. The cached values are those of the velocity of
the last `update_state` (lines 1728-1729, 1763). -/
def product (m : Machine) (v p : Vel) : Machine × Record :=
  let c := m.cache.refresh (m.env.elasticValues m.vel)
  ({ m with cache := c },
    ⟨m.env, v, p, fun i => m.env.dualPart v p i + c.mul (Problem.ofVec p) i⟩)

/-- What a call does. -/
def exec (m : Machine) : Call → Machine × List Record
  | .enter t x0 fm =>
    ({ m with env := { m.env with problem := { m.env.problem with timeStep := t }, x0 := x0, fm := fm } }, [])
  | .both f => ({ m with env := { m.env with problem := m.env.problem.withCons (f m.env.problem.cons),
                                             twin := f m.env.twin } }, [])
  | .primal f => ({ m with env := { m.env with problem := m.env.problem.withCons (f m.env.problem.cons) } }, [])
  | .indices => ({ m with cache := m.cache.indices m.env.problem }, [])
  | .update v => ({ m with vel := v }, [])
  | .invalidate => ({ m with cache := m.cache.invalidate }, [])
  | .product v p => let r := m.product v p; (r.1, [r.2])

/-- A sequence of calls, with all products. -/
def run (m : Machine) : List Call → Machine × List Record
  | [] => (m, [])
  | c :: cs =>
    let a := m.exec c
    let b := a.1.run cs
    (b.1, a.2 ++ b.2)

end Machine

/-! ## The calls of the solver -/

/-- The block that writes debug data, newton.rs lines 1597-1744: points at which the residual is probed, each
with the direction of a product unless the merit function is the objective, columns of the Jacobian, points along the
gradient, and the direction. -/
structure Dump where
  probes : List (Vel × Option Vel)
  columns : List Vel
  gradProbes : List Vel
  dir : Vel

/-- The calls of the block: `prev` is `x_prev` and `x` is the iterate. -/
def Dump.calls (d : Dump) (prev x : Vel) : List Call :=
  [.invalidate] ++
    (d.probes.flatMap fun q => [.update q.1, .update prev] ++ (q.2.toList.map fun p => .product prev p)) ++
    [.update prev] ++ (d.columns.map fun p => .product prev p) ++ (d.gradProbes.map fun y => .update y) ++
    [.invalidate, .update x, .product x d.dir]

/-- The line search, newton.rs lines 1486-1747: the points that are tried after the full step (lines 1497-1527,
1564-1571), and the debug data. -/
structure Search where
  trials : List Vel
  dump : Option Dump

/-- An iteration, newton.rs lines 1156-1842: the directions of the products of the linear solve (line 1216), the
direction of the product for the Armijo test (line 979), the full step, the line search unless the full step is
accepted, and the reduction of epsilons, which is for `adaptive_epsilon` only. -/
structure Iteration where
  directions : List Vel
  slope : Option Vel
  full : Vel
  search : Option Search
  reduce : Option (Cons → Cons)

namespace Iteration

variable (t : Iteration)

/-- The products before the iterate changes: newton.rs lines 1216, 979. -/
def products (x : Vel) : List Call :=
  (t.directions.map fun p => .product x p) ++ (t.slope.toList.map fun p => .product x p)

/-- The iterate after the line search. -/
def result : Vel :=
  match t.search with
  | none => t.full
  | some s => s.trials.getLastD t.full

/-- The calls of the line search: newton.rs lines 1497-1747. -/
def searchCalls (x : Vel) : List Call :=
  match t.search with
  | none => []
  | some s => (s.trials.map fun y => .update y) ++ [.invalidate] ++
    match s.dump with
    | none => []
    | some d => d.calls x t.result

/-- The calls of an iteration that starts at `x`: newton.rs lines 1216, 1437-1470, 1486-1747, 1815-1841. -/
def calls (x : Vel) : List Call :=
  t.products x ++ [.invalidate, .update t.full] ++ t.searchCalls x ++ (t.reduce.toList.map fun f => .primal f)

end Iteration

/-- The calls of iterations one after another, starting at `x`. -/
def iterationCalls (x : Vel) : List Iteration → List Call
  | [] => []
  | t :: ts => t.calls x ++ iterationCalls t.result ts

/-- A solve: the initial epsilons (newton.rs lines 869-890, for `adaptive_epsilon` only), the initial guess, the
guesses that it is scaled back to (lines 1059-1084), and the iterations. -/
structure Solve where
  start : Option (Cons → Cons)
  guess : Vel
  guesses : List Vel
  iterations : List Iteration

/-- The iterate at which the first iteration starts. -/
def Solve.first (s : Solve) : Vel := s.guesses.getLastD s.guess

/-- The iterate at which the last iteration ends. -/
def Solve.last (s : Solve) : Vel := (s.iterations.map Iteration.result).getLastD s.first

/-- The calls of `solve_with`: newton.rs lines 850-1901. `fresh` is `update_jacobian_indices`. -/
def Solve.calls (s : Solve) (fresh : Bool) : List Call :=
  (s.start.toList.map fun f => .primal f) ++ (if fresh then [.indices] else []) ++ [.update s.guess] ++
    (s.guesses.map fun y => .update y) ++ iterationCalls s.first s.iterations

/-- What `step` does to the constraints between two solves of a stage: raise or relax stiffness (solver.rs lines
338-353, 374-388), and look for neighbors where the largest step was exceeded (lines 355-364). -/
structure After where
  bump : Option (Cons → Cons)
  refresh : Option (Cons → Cons)

/-- Their calls. `update_constraint_set` is called with `and_autodiff` not set: solver.rs lines 358-362. -/
def After.calls (a : After) : List Call :=
  (a.bump.toList.map fun f => .both f) ++ (a.refresh.toList.map fun f => .primal f)

/-- A stage, solver.rs lines 243-405: its integration scheme, what `update_constraint_state` does to the
constraints (lines 252-258), its initial point, the solves, each but the last followed by another one, and the
products of an iteration that is not completed. -/
structure Stage where
  timeStep : ℝ
  x0 : Vel
  fm : ℝ
  advance : Cons → Cons
  initial : Vel
  solves : List (Solve × After)
  lastSolve : Solve
  lastAfter : After
  broken : List Vel

/-- The calls of the solves of a stage: `fresh` is `update_jacobian_indices`, solver.rs lines 269-290, 363. -/
def solveCalls (fresh : Bool) : List (Solve × After) → Solve → List Call
  | [], s => s.calls fresh
  | a :: l, s => a.1.calls fresh ++ a.2.calls ++ solveCalls a.2.refresh.isSome l s

/-- The calls of a stage. -/
def Stage.calls (g : Stage) : List Call :=
  [.enter g.timeStep g.x0 g.fm, .both g.advance, .update g.initial] ++ solveCalls true g.solves g.lastSolve ++
    (g.broken.map fun p => .product g.lastSolve.last p) ++ g.lastAfter.calls

/-- A step, solver.rs lines 207-407: what `update_constraint_set` does to the constraints (lines 217-221), and the
stages. -/
structure TimeStep where
  set : Cons → Cons
  stages : List Stage

/-- The calls of a step. -/
def TimeStep.calls (t : TimeStep) : List Call := .both t.set :: t.stages.flatMap Stage.calls

/-- The calls of a simulation. -/
def simulationCalls (ts : List TimeStep) : List Call := ts.flatMap TimeStep.calls

end Softy.Contact
