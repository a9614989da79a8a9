import Verif.Model.ContactBasis
import Mathlib.Analysis.SpecialFunctions.Complex.Arg

/-!
# Model of polar and cylindrical coordinates of contacts, and of the contact solver

`softy/src/contact.rs:46-131, 197-238, 284-299, 459-484` and `softy/src/contact/solver.rs`.
Numbers are reals: signs of zeros, not-a-number and rounding are not modelled. The `From` and
`Into` conversions (`contact.rs:120-137`) are the functions they call.
-/

noncomputable section

namespace Softy.ContactCoords

/-- `Float::atan2(y, x)`: the angle of the point `(x, y)`, between `-π` (excluded) and `π`, and
zero for the origin. -/
def atan2 (y x : ℝ) : ℝ := Complex.arg ⟨x, y⟩

/-- `Polar2` (`contact.rs:46-52`). -/
@[ext] structure Polar where
  radius : ℝ
  angle : ℝ

/-- `Polar2::from_euclidean` (`contact.rs:58-64`). -/
def Polar.ofEuclidean (v : V2 ℝ) : Polar := ⟨v.norm, atan2 v.y v.x⟩

/-- `Polar2::to_euclidean` (`contact.rs:66-69`). -/
def Polar.toEuclidean (p : Polar) : V2 ℝ :=
  ⟨p.radius * Real.cos p.angle, p.radius * Real.sin p.angle⟩

/-- `VectorCyl` (`contact.rs:72-78`). -/
@[ext] structure Cyl where
  normal : ℝ
  tangent : Polar

/-- `VectorCyl::new` (`contact.rs:81-86`). -/
def Cyl.mk' (normal radius angle : ℝ) : Cyl := ⟨normal, ⟨radius, angle⟩⟩

/-- `VectorCyl::from_polar_tangent` (`contact.rs:88-93`). -/
def Cyl.ofPolarTangent (t : Polar) : Cyl := ⟨0, t⟩

/-- `VectorCyl::from_euclidean` (`contact.rs:95-104`). -/
def Cyl.ofEuclidean (v : V3 ℝ) : Cyl := ⟨v.x, ⟨V2.norm ⟨v.y, v.z⟩, atan2 v.z v.y⟩⟩

/-- `VectorCyl::to_euclidean` (`contact.rs:106-116`). -/
def Cyl.toEuclidean (c : Cyl) : V3 ℝ :=
  ⟨c.normal, c.tangent.radius * Real.cos c.tangent.angle,
    c.tangent.radius * Real.sin c.tangent.angle⟩

/-- `to_cylindrical_contact_coordinates` (`contact.rs:197-206`). -/
def toCylindrical (b : ContactBasis) (v : V3 ℝ) (i : ℕ) : Option Cyl :=
  (b.toContactCoordinates v i).map Cyl.ofEuclidean

/-- `from_cylindrical_contact_coordinates` (`contact.rs:229-235`). -/
def fromCylindrical (b : ContactBasis) (c : Cyl) (i : ℕ) : Option (V3 ℝ) :=
  b.fromContactCoordinates c.toEuclidean i

/-- Apply a function that may panic to the entries of a list and their indices, from `i` on:
`iter().enumerate().map(..).collect()`. -/
def mapEnum {α β : Type*} (f : α → ℕ → Option β) : List α → ℕ → Option (List β)
  | [], _ => some []
  | a :: l, i => (f a i).bind fun x => (mapEnum f l (i + 1)).map fun r => x :: r

/-- `to_polar_tangent_space` (`contact.rs:284-290`). -/
def toPolarTangentSpace (b : ContactBasis) (vs : List (V3 ℝ)) : Option (List Polar) :=
  mapEnum (fun v i => (toCylindrical b v i).map Cyl.tangent) vs 0

/-- `from_polar_tangent_space` (`contact.rs:292-298`). -/
def fromPolarTangentSpace (b : ContactBasis) (ps : List Polar) : Option (List (V3 ℝ)) :=
  mapEnum (fun p i => fromCylindrical b (Cyl.ofPolarTangent p) i) ps 0

/-- `project_out_normal_component` (`contact.rs:470-484`): the vectors are changed in place, one
for every normal; `zip` stops at the shorter list, and the vectors beyond it stay. -/
def projectOut : List (V3 ℝ) → List (V3 ℝ) → List (V3 ℝ)
  | n :: ns, v :: vs => ContactBasis.projectOutNormal n v :: projectOut ns vs
  | _, vs => vs

/-- `project_to_tangent_space` (`contact.rs:459-465`). -/
def projectToTangentSpace (b : ContactBasis) (vs : List (V3 ℝ)) : List (V3 ℝ) :=
  projectOut b.normals vs

/-- A history of changes of the set of contacts, each followed by `remap`
(`contact.rs:181-195`): the basis belongs to the contacts `old`, then to each of the sets in
turn. -/
def remapAll (b : ContactBasis) : List ℕ → List (List ℕ) → ContactBasis
  | _, [] => b
  | old, new :: rest => remapAll (b.remap old new) new rest

/-! ## The contact solver -/

/-- `ContactSolver` (`contact/solver.rs:6-21`), with a contact Jacobian of blocks at pairs of a
contact and a vertex. -/
structure Solver where
  velocity : List ℝ
  frictionImpulse : List (V2 ℝ)
  basis : ContactBasis
  jacobian : Option (List (M3 ℝ) × List (ℕ × ℕ))
  masses : List ℝ

/-- `ContactSolver::without_contact_jacobian` (`contact/solver.rs:23-36, 59-73`). -/
def Solver.withoutJacobian (velocity : List ℝ) (friction : List (V2 ℝ)) (b : ContactBasis)
    (masses : List ℝ) : Solver := ⟨velocity, friction, b, none, masses⟩

/-- `ContactSolver::new` (`contact/solver.rs:38-57, 59-73`). -/
def Solver.new (velocity : List ℝ) (friction : List (V2 ℝ)) (b : ContactBasis)
    (masses : List ℝ) (jacobian : List (M3 ℝ) × List (ℕ × ℕ)) : Solver :=
  ⟨velocity, friction, b, some jacobian, masses⟩

/-- The loop of `step` (`contact/solver.rs:78-86`): `zip!` stops at the shorter list, and the
impulses beyond it stay zero. -/
def stepLoop : List ℝ → List ℝ → List ℝ
  | v :: vs, m :: ms => max (-v * m) 0 :: stepLoop vs ms
  | vs, _ => vs.map fun _ => 0

/-- `ContactSolver::step` (`contact/solver.rs:75-89`). -/
def Solver.step (s : Solver) : List ℝ := stepLoop s.velocity s.masses

end Softy.ContactCoords
