import Verif.Model.SurfaceQuery
import Verif.Model.Contact

/-!
# Contacts as constraints

Model of the public constraint `PointContactConstraint` (`softy/src/constraints/point_contact.rs`): the
values, bounds, Jacobian and Hessian that it offers to an optimizer by the traits `Constraint`,
`ContactConstraintJacobian` and `ContactConstraintHessian` (1475-1714), and `linearize_constraint`
(995-1039). What the implicit surface computes is modelled in `SurfaceQuery`. Scalars are reals. `none`
is a panic or an error. Masses, friction and the Jacobian that `linearize_constraint` stores are left
out, and so are assertions of debug builds.
-/

noncomputable section

namespace Softy.PointConstraint

open Softy Softy.Kernel Softy.Field Softy.SurfaceQuery

/-- `PointContactConstraint` (`point_contact.rs:59-102`). -/
structure Constraint where
  /-- `implicit_surface`. -/
  surf : Query
  /-- Values of samples; they stay zero in the code. -/
  value : ℕ → ℝ
  /-- `collider_vertex_positions`. -/
  collider : List (V3 ℝ)
  objectFixed : Bool
  colliderFixed : Bool
  /-- `contact_offset`. -/
  offset : ℝ
  /-- `constraint_value`. -/
  buffer : List ℝ
  /-- `constraint_jacobian.filled()`. -/
  linear : Bool

namespace Constraint

variable (C : Constraint)

/-- `update_surface_with_mesh_pos` (`point_contact.rs:339-356`), given a position for each vertex, and
`update_collider_vertex_positions` (358-360). The neighborhoods stay. -/
def update (x : ℕ → V3 ℝ) (y : List (V3 ℝ)) : Constraint :=
  { C with surf := { C.surf with S := faceSamples C.surf.tris x C.value, x := x }, collider := y }

/-- `neighborhood_sizes` (`query.rs:218-223`). -/
def sizes : List ℕ := C.surf.surfaceNbrs.map List.length

/-- `compute_potential` (`query.rs:852-878`), called by `potential` (785-796): the new values of the
buffer. Panics if the buffer has another length. -/
def potential (old : List ℝ) : Option (List ℝ) :=
  if C.surf.cache.trivial.length = old.length then
    some (SurfaceVelocity.Query.fill ((C.collider.zip (C.surf.cache.trivial.zip old)).map fun p =>
      potentialAt p.1 p.2.1 C.surf.S C.surf.kernel C.surf.params p.2.2) old)
  else none

/-- `compute_local_potential` (`query.rs:927-954`), called by `local_potential` (838-849). -/
def localPotential (old : List ℝ) : List ℝ :=
  SurfaceVelocity.Query.fill
    ((((C.collider.zip C.surf.cache.trivial).filter fun p => !p.2.isEmpty).zip old).map fun p =>
      potentialAt p.1.1 p.1.2 C.surf.S C.surf.kernel C.surf.params p.2) old

/-- `linearize_constraint` (`point_contact.rs:995-1039`), without the Jacobian. -/
def linearize (x : ℕ → V3 ℝ) (y : List (V3 ℝ)) : Constraint :=
  let C := C.update x y
  { C with
    linear := true
    buffer := (C.localPotential (List.replicate C.surf.numNeighborhoods 0)).map (· - C.offset) }

/-- `new` (`point_contact.rs:131-237`): `Q` is the implicit surface with the neighborhoods of the
collider vertices `y`, without the settings that are made here. -/
def new (Q : Query) (y : List (V3 ℝ)) (objectFixed colliderFixed : Bool) (offset : ℝ)
    (linearized : Bool) : Constraint :=
  let C : Constraint :=
    { surf := { Q with sampleType := .face, params := Contact.params,
                       S := faceSamples Q.tris Q.x fun _ => 0 }
      value := fun _ => 0
      collider := y
      objectFixed := objectFixed
      colliderFixed := colliderFixed
      offset := offset
      buffer := List.replicate y.length 0
      linear := false }
  if linearized then C.linearize Q.x y else C

/-- `constraint_size` (`point_contact.rs:1478-1480`). -/
def size : ℕ := C.surf.numNeighborhoods

/-- `constraint_bounds` (`point_contact.rs:1482-1485`). -/
def bounds : List ℝ × List ℝ := (List.replicate C.size 0, List.replicate C.size 2e19)

open Classical in
/-- The loop of `constraint` that clears the buffer (`point_contact.rs:1496-1513`): the radius, with the
sign of the side of the closest sample. Panics if there are no samples. The infinite radius of global
kernels is taken to be zero. -/
def cleared : Option (List ℝ) :=
  let r := C.surf.kernel.radius.getD 0
  if C.surf.faces = [] ∧ C.collider.zip C.buffer ≠ [] then none
  else
    some (SurfaceVelocity.Query.fill ((C.collider.zip C.buffer).map fun p =>
      match closestSample p.1 C.surf.S (List.range C.surf.faces.length) with
      | none => r
      | some c => if 0 < V3.dot (C.surf.S.nml c) (p.1 - C.surf.S.pos c) then r else -r) C.buffer)

/-- `constraint` (`point_contact.rs:1487-1540`): the constraint afterwards and the contents of the
output, of which `out` are the contents before. -/
def constraint (x : ℕ → V3 ℝ) (y : List (V3 ℝ)) (out : List ℝ) : Option (Constraint × List ℝ) :=
  let C := C.update x y
  C.cleared.bind fun old => (C.potential old).map fun buffer =>
    ({ C with buffer := buffer },
      SurfaceVelocity.Query.fill (((C.sizes.zip buffer).filter fun p => p.1 ≠ 0).map Prod.snd) out)

/-- `compute_nonlinear_constraint` (`point_contact.rs:1053-1104`), after `update_state` (386-389). Lines
1059-1061 are undone by 1078-1080. -/
def nonlinear (x : ℕ → V3 ℝ) (y : List (V3 ℝ)) (out : List ℝ) : Option (List ℝ) :=
  let C := C.update x y
  (C.potential (C.buffer.map fun _ => 0)).map fun buffer =>
    SurfaceVelocity.Query.fill (((C.sizes.zip buffer).filter fun p => p.1 ≠ 0).map fun p =>
      p.2 - C.offset) out

/-- `enumerate_nonempty_neighborhoods_inplace` (`point_contact.rs:571-597`) at a row; indexing out of
range is `none` as well. -/
def number (row : ℕ) : Option ℕ := ((Contact.Pair.enumerateFrom 0 C.sizes)[row]?).getD none

/-- `constraint_jacobian_size` (`point_contact.rs:1544-1557`). -/
def jacobianSize : ℕ :=
  (if C.objectFixed then 0 else C.surf.numSurfaceEntries) +
    if C.colliderFixed then 0 else C.surf.numQueryEntries

/-- The entries before their rows are numbered (`point_contact.rs:1562-1583`). -/
def jacobianPlaces : List (ℕ × ℕ) :=
  (if C.objectFixed then [] else C.surf.surfaceIndices) ++
    (if C.colliderFixed then [] else C.surf.queryIndices).map fun p =>
      (p.1, p.2 + C.surf.numVertices * 3)

/-- `constraint_jacobian_indices_iter` (`point_contact.rs:1559-1594`): panics if a row has no number. -/
def jacobianIndices : Option (List (ℕ × ℕ)) :=
  if C.jacobianPlaces.all fun p => (C.number p.1).isSome then
    some (C.jacobianPlaces.map fun p => ((C.number p.1).getD 0, p.2))
  else none

/-- `constraint_jacobian_values` (`point_contact.rs:1596-1626`): panics if the output is too short. -/
def jacobianValues (x : ℕ → V3 ℝ) (y : List (V3 ℝ)) (out : List ℝ) : Option (List ℝ) :=
  let C := C.update x y
  let n := if C.objectFixed then 0 else C.surf.numSurfaceEntries
  if out.length < n then none
  else
    (if C.objectFixed then some (out.take n)
      else C.surf.surfaceFillValues C.collider (out.take n)).bind fun a =>
    (if C.colliderFixed then some (out.drop n)
      else C.surf.queryFillValues C.collider (out.drop n)).map fun b => a ++ b

/-- `constraint_hessian_size` (`point_contact.rs:1630-1644`). -/
def hessianSize : ℕ :=
  (if C.objectFixed then 0 else C.surf.numSurfaceHessianEntries.getD 0) +
    if C.colliderFixed then 0 else C.surf.numQueryHessianEntries

/-- `constraint_hessian_indices_iter` (`point_contact.rs:1646-1676`). -/
def hessianIndices : Option (List (ℕ × ℕ)) :=
  (if C.objectFixed then some [] else C.surf.surfaceHessianIndices).map fun obj =>
    obj ++ (if C.colliderFixed then [] else C.surf.queryHessianIndices).map fun p =>
      (p.1 + C.surf.numVertices * 3, p.2 + C.surf.numVertices * 3)

/-- `constraint_hessian_values` (`point_contact.rs:1678-1713`): panics if the output is too short. -/
def hessianValues (x : ℕ → V3 ℝ) (y : List (V3 ℝ)) (lam : List ℝ) (scale : ℝ) (out : List ℝ) :
    Option (List ℝ) :=
  let C := C.update x y
  let n := if C.objectFixed then 0 else C.surf.numSurfaceHessianEntries.getD 0
  if out.length < n then none
  else
    (if C.objectFixed then some (out.take n)
      else C.surf.surfaceHessianFill C.collider lam scale (out.take n)).map fun a =>
    a ++ if C.colliderFixed then out.drop n
      else C.surf.queryHessianFill C.collider lam scale (out.drop n)

end Constraint

end Softy.PointConstraint
