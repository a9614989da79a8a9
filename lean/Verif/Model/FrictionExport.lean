import Verif.Model.Export
import Verif.Model.Sliding

/-!
# Friction forces of the simulation mesh

Model of the friction attribute that `NLProblem::mesh` writes (`softy/src/fem/nl/problem.rs:501-599`) and of
the calls that decide for which positions contacts have computed what it reads. Contacts keep two things
apart: the contact force `λ`, and the sliding basis, which is the contact Jacobian together with the contact
frames. Which faces of the surface are near a contact is taken to stay the same between these calls.
-/

noncomputable section

namespace Softy.Export

open Softy

/-- A contact with friction. `penalty_point_contact.rs:1531-1560`. Positions stand for what has been computed
from them. -/
structure FrictionEntry where
  pair : Contact.Pair
  /-- The number of vertices of the surface. -/
  ns : ℕ
  params : Friction.Params
  /-- `friction_params.lagged`. -/
  lagged : Bool
  /-- The positions that belong to `contact_state.contact_jacobian` and `contact_state.contact_basis`. -/
  basisPos : ℕ → V3 ℝ
  /-- The positions that belong to `contact_state.lambda`. -/
  forcePos : ℕ → V3 ℝ
  /-- The same for `contact_state_prev`. -/
  prevBasisPos : ℕ → V3 ℝ
  prevForcePos : ℕ → V3 ℝ

/-- The state of the problem, with its contacts that have friction. -/
structure FrictionState where
  base : State
  entries : List FrictionEntry

/-- `compute_constraint_friction_force` and the change of basis (`penalty_point_contact.rs:2401-2441,
2514-2533`) with a sliding basis for positions `xb` and contact forces for positions `xl`. -/
def mixedFriction (C : Contact.Pair) (p : Friction.Params) (xb xl v : ℕ → V3 ℝ) : List (V3 ℝ) :=
  (C.relativeVelocities xb v).zipIdx.map fun r =>
    ((C.contactBasis xb).contactFriction p ((C.lambda xl).getD r.2 0) r.1 r.2).getD 0

open Classical in
/-- `compute_friction_force`: `penalty_point_contact.rs:2494-2550`. -/
def mixedForce (C : Contact.Pair) (ns : ℕ) (p : Friction.Params) (xb xl v : ℕ → V3 ℝ) :
    Option (ℕ → V3 ℝ) :=
  if p.isNone then none else some (C.transposeMul ns xb (mixedFriction C p xb xl v))

/-- `subtract_friction_force` (`penalty_point_contact.rs:2336-2346`) with `lagged = false`. -/
def FrictionEntry.subtract (e : FrictionEntry) (v f : ℕ → V3 ℝ) : ℕ → V3 ℝ :=
  match if e.lagged then mixedForce e.pair e.ns e.params e.prevBasisPos e.prevForcePos v
    else mixedForce e.pair e.ns e.params e.basisPos e.forcePos v with
  | none => f
  | some g => fun i => f i - g i

/-- `update_state`, `update_distance_potential` and `update_multipliers`: `problem.rs:521-523`. -/
def FrictionEntry.updateForce (e : FrictionEntry) (x : ℕ → V3 ℝ) : FrictionEntry := { e with forcePos := x }

open Classical in
/-- `update_sliding_basis`: `penalty_point_contact.rs:2443-2486`. -/
def FrictionEntry.updateBasis (e : FrictionEntry) (x : ℕ → V3 ℝ) : FrictionEntry :=
  if e.params.isNone then e else { e with basisPos := x }

/-- `problem.rs:501-599`, `compute_frictional_contact_data`: the friction attribute, and the state that is
left behind. The sliding basis is not updated. -/
def readFriction (s : FrictionState) : List (V3 ℝ) × FrictionState :=
  let n := s.base.orig.length
  let es := s.entries.map fun e => e.updateForce (at' s.base.pos)
  let f := es.foldl (fun f e => e.subtract (at' s.base.vel) f) fun _ => 0
  (scatter n 0 s.base.orig ((List.range n).map fun i => -f i), ⟨(mesh s.base).2, es⟩)

/-- What the solver does to the state between two reads. -/
inductive FrictionOp where
  /-- The solver evaluates residuals at a state: `problem.rs:2870-2890`, with the state that
  `update_vertices` has written. -/
  | evaluate (pos vel : List (V3 ℝ))
  /-- A step is accepted: `problem.rs:786-803`, `advance_state` (`penalty_point_contact.rs:1564-1566`). -/
  | advance
  /-- Fixed vertices are moved: `state.rs:1182-1250`, `update_fixed_vertices`. `newPos` is in the order of
  the original mesh. -/
  | moveFixed (fixed : List Bool) (newPos : List (V3 ℝ)) (dt : ℝ)
  /-- The mesh is read. -/
  | read

/-- `state.rs:1222-1248`, the second loop of `update_fixed_vertices`, on one vertex. -/
def moveOne (newPos : List (V3 ℝ)) (dt : ℝ) (orig : ℕ) (fixed : Bool) (pos vel : V3 ℝ) : V3 ℝ × V3 ℝ :=
  if fixed then
    match newPos[orig]? with
    | some x => (x, (1 / dt) • (x - pos))
    | none => (pos, vel)
  else (pos, vel)

/-- The state after an operation. -/
def FrictionState.step (s : FrictionState) : FrictionOp → FrictionState
  | .evaluate pos vel =>
    ⟨{ s.base with pos := pos, vel := vel },
      s.entries.map fun e => (e.updateForce (at' pos)).updateBasis (at' pos)⟩
  | .advance =>
    ⟨s.base, s.entries.map fun e => { e with prevBasisPos := e.basisPos, prevForcePos := e.forcePos }⟩
  | .moveFixed fixed newPos dt =>
    let moved := (List.range s.base.pos.length).map fun i =>
      moveOne newPos dt (s.base.orig.getD i 0) (fixed.getD i false) (s.base.pos.getD i 0)
        (s.base.vel.getD i 0)
    ⟨{ s.base with pos := moved.map Prod.fst, vel := moved.map Prod.snd }, s.entries⟩
  | .read => (readFriction s).2

end Softy.Export
