import Mathlib.Algebra.BigOperators.Group.List.Basic
import Mathlib.Algebra.Group.Pi.Basic
import Mathlib.Data.Nat.Basic

/-!
# Times that are reported for a solve

Model of `timing.rs`, of the places in `problem.rs` and `penalty_point_contact.rs` where time is kept, and of
`solve_with` in `newton.rs` as far as it keeps time. Durations are natural numbers (of nanoseconds); a clock
never goes backward. How long each part of a call takes is an input. What happens between two readings of the
clock that are taken one after the other, without work between them, takes no time.
-/

namespace Softy.Timing

/-- `JacobianTimings`: `timing.rs:5-13`. -/
structure Jac where
  total : ℕ
  fem : ℕ
  diag : ℕ
  volume : ℕ
  contact : ℕ
  friction : ℕ

/-- `ResidualTimings`: `timing.rs:25-45`. `friction_force` are the two durations of `FrictionTimings`
(`penalty_point_contact.rs:958-962`), `update_constraint_details` the eight of `UpdateTimings`
(`penalty_point_contact.rs:920-930`), in this order. -/
structure Residual where
  total : ℕ
  energyGradient : ℕ
  updateState : ℕ
  updateDistance : ℕ
  updateGradient : ℕ
  updateMultipliers : ℕ
  updateBasis : ℕ
  contactForce : ℕ
  volumeForce : ℕ
  contactJacobian : ℕ
  jacobian : Jac
  frictionForce : Fin 2 → ℕ
  details : Fin 8 → ℕ
  forceAd : ℕ
  dofToVtxAd : ℕ
  readDerivAd : ℕ
  productAd : ℕ
  preconditioner : ℕ

/-- `ResidualTimings::clear`: `timing.rs:47-66`. It does not mention `jacobian`. -/
def Residual.clear (r : Residual) : Residual :=
  ⟨0, 0, 0, 0, 0, 0, 0, 0, 0, 0, r.jacobian, 0, 0, 0, 0, 0, 0, 0⟩

/-- The fields `timings` and `jac_timings` of the problem: problem.rs lines 181-182. The second are the
twelve durations of `FrictionJacobianTimings` (`penalty_point_contact.rs:978-992`). -/
structure Clocks where
  residual : Residual
  friction : Fin 12 → ℕ

/-- Those of a new problem: `builder.rs:845-846`. -/
def Clocks.new : Clocks :=
  ⟨⟨0, 0, 0, 0, 0, 0, 0, 0, 0, 0, ⟨0, 0, 0, 0, 0, 0⟩, 0, 0, 0, 0, 0, 0, 0⟩, 0⟩

/-! ## Calls of the problem -/

/-- How long the update of one contact takes, by parts: problem.rs lines 2878-2888 and 2434-2446. -/
structure Update where
  state : ℕ
  distance : ℕ
  gradient : ℕ
  multipliers : ℕ
  basis : ℕ
  details : Fin 8 → ℕ

/-- How long the forces of all volume zones, contacts and frictions take: problem.rs lines 1139-1201. -/
structure Forces where
  volumes : List ℕ
  contacts : List ℕ
  frictions : List (Fin 2 → ℕ)

/-- How long the parts of `jacobian_values_with_constraints` take (problem.rs lines 1736-2067), and the parts
of the Jacobian of friction of each contact. -/
structure Values where
  fem : ℕ
  diag : ℕ
  volume : ℕ
  contact : ℕ
  friction : ℕ
  frictions : List (Fin 12 → ℕ)

/-- A call of the problem that keeps time, with the durations of its parts. `rest` and the like are times for
what is not measured on its own. `product` is `jacobian_product_constraint_ad` (problem.rs lines 2308-2408);
`stale` has the time for new values of the Jacobian, and that for adding them up. -/
inductive Call where
  | update (us : List Update) (rest : ℕ)
  | residual (energy : ℕ) (f : Forces) (rest : ℕ)
  | values (v : Values)
  | product (stale : Option (Values × ℕ)) (us : List Update) (rest : ℕ) (f : Forces)
      (scale dof read mul : ℕ)
  | preconditioner (time : ℕ)

/-- The time for the update of a contact: problem.rs lines 2878-2888. -/
def Update.time (u : Update) : ℕ := u.state + u.distance + u.gradient + u.multipliers + u.basis

/-- The time for the forces. That for friction is the first of its durations. -/
def Forces.time (f : Forces) : ℕ := f.volumes.sum + f.contacts.sum + (f.frictions.map fun t => t 0).sum

/-- `t_end - t_begin` in problem.rs lines 2060-2067. -/
def Values.time (v : Values) : ℕ := v.fem + v.diag + v.volume + v.contact + v.friction

/-- How long a call takes from its beginning to its end. -/
def Call.time : Call → ℕ
  | .update us rest => (us.map Update.time).sum + rest
  | .residual e f rest => e + f.time + rest
  | .values v => v.time
  | .product stale us rest f scale dof read mul =>
    (stale.elim 0 fun p => p.1.time + p.2) + (us.map Update.time).sum + rest + (f.time + scale) + dof + read +
      mul
  | .preconditioner t => t

/-- `add_time!` (`lib.rs:7-14`) for the parts of the update of a contact: problem.rs lines 2878-2888 and
2434-2446. -/
def Residual.addUpdate (r : Residual) (u : Update) : Residual :=
  { r with
    updateState := r.updateState + u.state
    updateDistance := r.updateDistance + u.distance
    updateGradient := r.updateGradient + u.gradient
    updateMultipliers := r.updateMultipliers + u.multipliers
    updateBasis := r.updateBasis + u.basis
    details := r.details + u.details }

/-- The times that the loops of problem.rs lines 1139-1201 add. -/
def Residual.addForces (r : Residual) (f : Forces) : Residual :=
  { r with
    volumeForce := r.volumeForce + f.volumes.sum
    contactForce := r.contactForce + f.contacts.sum
    frictionForce := r.frictionForce + f.frictions.sum }

/-- The end of `jacobian_values_with_constraints`, problem.rs lines 2060-2067, with the friction of line
1990. -/
def Clocks.addValues (c : Clocks) (v : Values) : Clocks :=
  ⟨{ c.residual with
      jacobian := ⟨c.residual.jacobian.total + v.time, c.residual.jacobian.fem + v.fem,
        c.residual.jacobian.diag + v.diag, c.residual.jacobian.volume + v.volume,
        c.residual.jacobian.contact + v.contact, c.residual.jacobian.friction + v.friction⟩
      total := c.residual.total + v.time },
    c.friction + v.frictions.sum⟩

/-- What a call does to the clocks: problem.rs lines 2861-2889 (`update_state`), 2891-2902 (`residual`, with
line 1220), 1736-2067 (`jacobian_values`), 2308-2408 (`jacobian_product`), 2904-2916
(`diagonal_preconditioner`). -/
def Clocks.run (c : Clocks) : Call → Clocks
  | .update us _ => ⟨us.foldl Residual.addUpdate c.residual, c.friction⟩
  | .residual e f rest =>
    let r := { c.residual with energyGradient := c.residual.energyGradient + e }
    let r := r.addForces f
    ⟨{ r with total := r.total + (e + f.time + rest) }, c.friction⟩
  | .values v => c.addValues v
  | .product stale us rest f scale dof read mul =>
    let c := stale.elim c fun p => c.addValues p.1
    let r := us.foldl Residual.addUpdate c.residual
    let r := r.addForces f
    ⟨{ r with
        forceAd := r.forceAd + (f.time + scale)
        dofToVtxAd := r.dofToVtxAd + dof
        readDerivAd := r.readDerivAd + read
        productAd := r.productAd + mul
        total := r.total + (Call.product stale us rest f scale dof read mul).time }, c.friction⟩
  | .preconditioner t =>
    ⟨{ c.residual with preconditioner := c.residual.preconditioner + t }, c.friction⟩

/-! ## Solves -/

/-- The linear solve of an iteration: newton.rs lines 1170-1424. Iterative solvers call products, each
followed by a scaling of the result; `other` is the remaining time. Direct solvers compute values and scale
them; `check` are the products of `derivative_check` (lines 1311-1373); `failed` is one that returns an error, upon which the loop is left at once (lines 1393-1396). -/
inductive Linear where
  | iterative (products : List (Call × ℕ)) (other : ℕ)
  | direct (values : Values) (scale : ℕ) (check : List Call) (debug solve other : ℕ)
  | failed (values : Values) (scale : ℕ) (check : List Call) (debug solve : ℕ)

/-- An iteration: the linear solve, the calls for the full step, those of the line search with the time they
leave, the time of its assistance, which is part of it, and the calls after it. -/
structure Iteration where
  linear : Linear
  full : List Call
  search : List Call
  searchRest : ℕ
  assist : ℕ
  after : List Call
  rest : ℕ

/-- A solve: the time until `t_jacobian_indices`, the calls before the loop, its iterations, the time for
everything else, and whether it is left by a `return` (lines 1110-1117 and 1365-1372), not by the end of
the function. -/
structure Solve where
  indices : ℕ
  start : List Call
  iterations : List Iteration
  rest : ℕ
  returned : Bool

namespace Linear

/-- The calls of a linear solve: newton.rs lines 1216 and 1247-1253. -/
def calls : Linear → List Call
  | .iterative ps _ => ps.map fun p => p.1
  | .direct v _ check _ _ _ => .values v :: check
  | .failed v _ check _ _ => .values v :: check

/-- The time from `t_begin_linsolve` to the end of the linear solve: newton.rs lines 1170-1424. -/
def time : Linear → ℕ
  | .iterative ps other => (ps.map fun p => p.1.time + p.2).sum + other
  | .direct v scale check debug solve other =>
    v.time + scale + ((check.map Call.time).sum + debug) + solve + other
  | .failed v scale check debug solve => v.time + scale + ((check.map Call.time).sum + debug) + solve

/-- The linear solve returns an error: newton.rs line 1394. -/
def isFailed : Linear → Bool
  | .failed _ _ _ _ _ => true
  | _ => false

end Linear

namespace Iteration

variable (it : Iteration)

/-- The calls of an iteration: newton.rs lines 1155-1845. -/
def calls : List Call :=
  it.linear.calls ++ (if it.linear.isFailed then [] else it.full ++ it.search ++ it.after)

/-- The time for the line search: newton.rs lines 1484-1490. -/
def searchTime : ℕ := (it.search.map Call.time).sum + it.searchRest

/-- The time for an iteration: newton.rs lines 1155-1845. -/
def time : ℕ :=
  it.linear.time + (if it.linear.isFailed then 0
    else (it.full.map Call.time).sum + it.searchTime + (it.after.map Call.time).sum + it.rest)

end Iteration

/-- `Timings`: `timing.rs:68-81`. -/
structure Report where
  lineSearchAssist : ℕ
  residual : Residual
  frictionJacobian : Fin 12 → ℕ
  linearSolve : ℕ
  directSolve : ℕ
  jacobianProduct : ℕ
  jacobianValues : ℕ
  jacobianIndices : ℕ
  debugInfo : ℕ
  lineSearch : ℕ
  total : ℕ

/-- `Timings::default()`: newton.rs line 852. -/
def Report.new : Report := ⟨0, Clocks.new.residual, 0, 0, 0, 0, 0, 0, 0, 0, 0⟩

/-- What an iteration adds: newton.rs lines 1220, 1415-1417, 1424, 1484-1490. -/
def Report.add (t : Report) (it : Iteration) : Report :=
  match it.linear with
  | .iterative ps _ =>
    { t with
      jacobianProduct := t.jacobianProduct + (ps.map fun p => p.1.time + p.2).sum
      linearSolve := t.linearSolve + it.linear.time
      lineSearch := t.lineSearch + it.searchTime
      lineSearchAssist := t.lineSearchAssist + it.assist }
  | .direct v scale check debug solve _ =>
    { t with
      directSolve := t.directSolve + solve
      jacobianValues := t.jacobianValues + (v.time + scale)
      debugInfo := t.debugInfo + ((check.map Call.time).sum + debug)
      linearSolve := t.linearSolve + it.linear.time
      lineSearch := t.lineSearch + it.searchTime
      lineSearchAssist := t.lineSearchAssist + it.assist }
  | .failed _ _ _ _ _ => t

namespace Solve

variable (s : Solve)

/-- The calls of a solve: newton.rs lines 850-1902. -/
def calls : List Call := s.start ++ s.iterations.flatMap Iteration.calls

/-- The time from `t_begin_solve` to line 1875: newton.rs lines 868-1875. -/
def time : ℕ :=
  s.indices + (s.start.map Call.time).sum + (s.iterations.map Iteration.time).sum + s.rest

/-- `solve_with`, newton.rs lines 850-1902, as far as it keeps time: clocks are cleared at line 867 and read
at lines 1875-1878. -/
def run (c : Clocks) : Report × Clocks :=
  let c := s.calls.foldl Clocks.run ⟨c.residual.clear, c.friction⟩
  let t := s.iterations.foldl Report.add Report.new
  if s.returned then (t, c)
  else ({ t with total := s.time, jacobianIndices := s.indices, residual := c.residual,
                 frictionJacobian := c.friction }, c)

end Solve

/-- The clocks of a problem after the given solves. Calls between solves are left out. -/
def history (l : List Solve) : Clocks := l.foldl (fun c s => (s.run c).2) Clocks.new

end Softy.Timing
