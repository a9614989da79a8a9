import Verif.Model.ContactBasis
import Mathlib.Algebra.BigOperators.Group.Finset.Basic
import Mathlib.Data.Fintype.Basic
import Mathlib.Data.List.FinRange

/-!
# Model of the contact Jacobian products

`softy/src/constraints/penalty_point_contact.rs:220-390`, `MappedContactJacobian`, and the
friction force assembled with it.

There are `nv` vertices, `ns` of them (listed by `surf`) on the implicit surface, `nk` (listed
by `coll`) on the collider, and `nc` contacts; contact `i` belongs to collider vertex
`constr i`. Indices are in range by their types: where the code would panic on an index out of
range there is nothing to model. The sparse matrix is the list of its blocks (rows are
contacts, columns are surface vertices).
-/

noncomputable section

namespace Softy.ContactJacobian

open ContactBasis

/-- The data of one contact pair used by the products. -/
structure Jac (nv ns nk nc : ℕ) where
  /-- `MappedContactJacobian::matrix`. -/
  blocks : List (Fin nc × Fin ns × M3 ℝ)
  /-- `implicit_surface_vertex_indices`. -/
  surf : Fin ns → Fin nv
  /-- `collider_vertex_indices`. -/
  coll : Fin nk → Fin nv
  /-- `constrained_collider_vertices`. -/
  constr : Fin nc → Fin nk

variable {nv ns nk nc : ℕ} (J : Jac nv ns nk nc)

/-- Product of the sparse block matrix with a vector (`tensr`'s `SSBlockMatrix3 * Vector`). -/
def matMul (blocks : List (Fin nc × Fin ns × M3 ℝ)) (v : Fin ns → V3 ℝ) (i : Fin nc) : V3 ℝ :=
  (blocks.map fun b => if b.1 = i then b.2.2.mulVec (v b.2.1) else 0).sum

/-- Product of the transposed sparse block matrix with a vector. -/
def matTransposeMul (blocks : List (Fin nc × Fin ns × M3 ℝ)) (w : Fin nc → V3 ℝ) (j : Fin ns) :
    V3 ℝ :=
  (blocks.map fun b => if b.2.1 = j then b.2.2.transpose.mulVec (w b.1) else 0).sum

/-- `penalty_point_contact.rs:353-366`, `mul`: relative velocity at the contacts. -/
def mul (v : Fin nv → V3 ℝ) (i : Fin nc) : V3 ℝ :=
  matMul J.blocks (fun j => v (J.surf j)) i - v (J.coll (J.constr i))

/-- One assignment `v[i] = x`. -/
def assign {n : ℕ} (v : Fin n → V3 ℝ) (a : Fin n × V3 ℝ) : Fin n → V3 ℝ := Function.update v a.1 a.2

/-- `penalty_point_contact.rs:368-385`, `transpose_mul`. -/
def transposeMul (w : Fin nc → V3 ℝ) : Fin nv → V3 ℝ :=
  let surfV := matTransposeMul J.blocks w
  let v := ((List.finRange ns).map fun j => (J.surf j, surfV j)).foldl assign (fun _ => 0)
  ((List.finRange nc).map fun i => (J.coll (J.constr i), -w i)).foldl assign v

/-- `penalty_point_contact.rs:2494-2550`, `compute_friction_force`, with
`compute_constraint_friction_force` (2401-2441): `none` where a frame is missing. -/
def frictionForce (b : ContactBasis) (p : Friction.Params) (lambda : Fin nc → ℝ)
    (v : Fin nv → V3 ℝ) : Option (Fin nv → V3 ℝ) :=
  let vc := mul J v
  if ∀ i : Fin nc, (b.contactFriction p (lambda i) (vc i) i).isSome then
    some (transposeMul J fun i => (b.contactFriction p (lambda i) (vc i) i).getD 0)
  else none

end Softy.ContactJacobian
