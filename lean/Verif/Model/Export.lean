import Verif.Model.Contact
import Verif.Model.Solver

/-!
# Reading out the simulation mesh

Model of `NLProblem::mesh` (`softy/src/fem/nl/problem.rs:300-386`). Vertex data are lists in the order
of the state. Scalars are reals, so conversions between floats are left out. Attributes of the original
mesh that are not written, and the attributes for state indices and 64 bit positions, are not modelled.
Friction forces are modelled in `Model/FrictionExport.lean`.
-/

noncomputable section

namespace Softy.Export

open Softy

/-- The part of the problem that `mesh` reads or writes. Each contact comes with the values that it has
cached (`cached_constraint_value`, `point_contact.rs:246-248`). -/
structure State where
  /-- `vtx.orig_index`. -/
  orig : List ℕ
  /-- `vtx.next.pos`. -/
  pos : List (V3 ℝ)
  /-- `vtx.next.vel`. -/
  vel : List (V3 ℝ)
  /-- `vtx.residual`. -/
  residual : List (V3 ℝ)
  /-- `vtx.mass_inv`. -/
  massInv : List ℝ
  /-- `prev_force`. -/
  prevForce : List (V3 ℝ)
  contacts : List (Contact.Pair × List ℝ)

/-- The attributes that `mesh` writes, in the order of the original mesh. -/
structure Mesh where
  pos : List (V3 ℝ)
  vel : List (V3 ℝ)
  netForce : List (V3 ℝ)
  mass : List ℝ
  residual : List (V3 ℝ)
  /-- One attribute for each contact. -/
  potential : List (List ℝ)
  contactForce : List (V3 ℝ)

/-- `orig_index.iter().zip(values).for_each(|(&i, v)| out[i] = v)`. -/
def scatter {α : Type*} (n : ℕ) (d : α) (orig : List ℕ) (vals : List α) : List α :=
  (orig.zip vals).foldl (fun out a => out.set a.1 a.2) (List.replicate n d)

/-- The position of a vertex. -/
def at' (pos : List (V3 ℝ)) (v : ℕ) : V3 ℝ := pos.getD v 0

/-- `collider_vertex_indices` as a list. -/
def colliders (C : Contact.Pair) : List ℕ := (List.range C.nbrs.length).map C.coll

/-- `problem.rs:449-475`, `compute_distance_potential`. -/
def distancePotential (s : State) : List (List ℝ) :=
  s.contacts.map fun c =>
    scatter s.orig.length 0 s.orig (Solver.cachedDistance s.orig.length (colliders c.1) c.2)

/-- `problem.rs:514-530`: the contact forces subtracted from zero, one contact after another. -/
def contactForces (s : State) : ℕ → V3 ℝ :=
  s.contacts.foldl (fun f c => c.1.subtractForce (at' s.pos) f) fun _ => 0

/-- `problem.rs:300-386`, `mesh`, with the state that it leaves behind. `compute_residual_on_mesh`
(477-498) and `compute_distance_potential` come before `compute_frictional_contact_data` (501-599), which
clears the residual (505-508) and updates the values that contacts cache (522-523). -/
def mesh (s : State) : Mesh × State :=
  let n := s.orig.length
  ({ pos := scatter n 0 s.orig s.pos
     vel := scatter n 0 s.orig s.vel
     netForce := scatter n 0 s.orig s.prevForce
     mass := scatter n 0 s.orig (s.massInv.map fun m => 1 / m)
     residual := scatter n 0 s.orig s.residual
     potential := distancePotential s
     contactForce := scatter n 0 s.orig ((List.range n).map fun v => -contactForces s v) },
   { s with
     residual := s.residual.map fun _ => 0
     contacts := s.contacts.map fun c => (c.1, c.1.potentials (at' s.pos)) })

end Softy.Export
