import Verif.Model.Newton
import Verif.Model.LinSolve
import Verif.Model.Solver

/-!
# Model of interrupters

How the functions given to `build_with_interrupt`, `set_coarse_interrupter` and `set_fine_interrupter` reach the Newton
solver and its linear solves, and what a step makes of the status of a solve. The solvers themselves are those of
`Model/Newton.lean`, `Model/LinSolve.lean` and `Model/Solver.lean`.

An interrupter is the sequence of its answers. The outer callback is called once at the head of each iteration of a solve
and nowhere else, so that the answers of a solve are a segment of it.
-/

noncomputable section

namespace Softy.Interrupt

/-- The answers of an interrupter to its successive calls. -/
abbrev Checker := ℕ → Bool

/-- A callback of the Newton solver (`nl.rs:105`): `false` asks it to stop. -/
abbrev Callback := ℕ → Bool

/-- `builder.rs:857-912`, `build_with_interrupt`: the outer callback answers what the checker answers. -/
def buildWithInterrupt (f : Checker) : Callback := fun k => f k

/-- `builder.rs:853-855`, `build`. -/
def build : Callback := buildWithInterrupt fun _ => true

/-- `solver.rs:55-57`, `set_coarse_interrupter`: the outer callback answers the opposite. -/
def coarse (f : Checker) : Callback := fun k => !f k

/-- `solver.rs:60-62`, `set_fine_interrupter`: so does the inner callback. -/
def fine (f : Checker) : Callback := fun k => !f k

/-- The outcome of the linear solve of an iteration with the iterative solver (`newton.rs:1212-1237` and `1414-1424`) as
the Newton solver takes it: the status is not looked at, only whether the vector is finite. The initial guess `p` is the
direction of the previous iteration, zero in a new solver (`newton.rs:641-650`). `inner` is the inner callback from the
first call of this solve on. -/
def linearSolve {V : Type*} [NormedAddCommGroup V] [InnerProductSpace ℝ V] (A : V →ₗ[ℝ] V) (K : ℕ → V → V)
    (inner : Callback) (tol : ℝ) (maxIter : ℕ) (p r : V) : Newton.Linear V :=
  match (LinSolve.biSolve A K (fun k => !inner k) tol maxIter p r).x with
  | some x => .solution true x
  | none => .solution false 0

variable {V : Type*}

/-- What the Newton solver asks: `newton.rs:1156-1170` for the outer callback from the call number `n` on, and the given
linear solves and step sizes of assisted line searches, one for each iteration. -/
def oracle (outer : Callback) (n : ℕ) (linear : ℕ → Newton.Linear V) (contactAlpha frictionAlpha : ℕ → ℝ) :
    Newton.Oracle V :=
  ⟨fun k => !outer (n + k), linear, contactAlpha, frictionAlpha⟩

/-- What `step` makes of the status of a solve: `solver.rs:294` and `395-401`. -/
def status : Newton.Status → Solver.Status
  | .success => .success
  | .maximumIterationsExceeded => .maximumIterationsExceeded
  | _ => .failed

/-- What the contact loop sees of a solve (`solver.rs:277-292`), with the potential it leaves. -/
def outcome (r : Newton.Result V) (cached : List (List ℝ)) (maxStep : Bool) : Solver.Outcome V :=
  ⟨status r.status, r.pt.x, cached, maxStep⟩

end Softy.Interrupt
