import Verif.Model.Contact
import Verif.Model.ContactBasis

/-!
# Contacts: relative velocities and friction

Model of the contact Jacobian of an implicit surface (`implicits/src/field/jacobian.rs`, with
`NormalKernel` of `implicits/src/kernel.rs`), of the matrix that is built from it
(`softy/src/contact.rs:506-590`, `penalty_point_contact.rs:220-385`), of the contact normals
(`point_contact.rs:931-952`) and of the friction force and potential of one contact pair
(`penalty_point_contact.rs:2248-2550`). Everything is computed from the positions of the state that the
code picks: those of the previous step for lagged friction, else those of the current one. The rows of the
matrix are constraints, the columns are vertices of the surface. Compression of the matrix, which sums
blocks with equal indices, is the subject of `Model/Sparse.lean` and left out here. Parallel iteration
gives the same triplets in the same order.
-/

noncomputable section

namespace Softy.Contact

open Softy Softy.Kernel Softy.Field

/-! ## Contact Jacobian of the implicit surface -/

/-- `NormalKernel::eval`: `kernel.rs:692-699`. -/
def normalKernel (n g : V3 ℝ) : ℝ :=
  let w := (1 / 2) * (1 + V3.dot n g)
  w * w

open Classical in
/-- `rodrigues_rotation`: `jacobian.rs:1501-1511`. -/
def rodrigues (ux : M3 ℝ) (d : ℝ) : M3 ℝ :=
  if d ≠ -1 then M3.diag 1 + ux + (1 / (1 + d)) • (ux * ux) else M3.diag 1

/-- The unit normal of a sample: `sample_nml.normalize()`, `nml.normalized()`. -/
def unitNormal (S : Samples) (i : ℕ) : V3 ℝ := (1 / (S.nml i).norm) • S.nml i

/-- `sample_contact_jacobian_at`: `jacobian.rs:1517-1557`. -/
def sampleContactJacobian (k : Kern) (dist : ℝ) (q : V3 ℝ) (S : Samples) (g : V3 ℝ) (wsi : ℝ) (i : ℕ) :
    M3 ℝ :=
  let n := unitNormal S i
  let w := weight k dist q S i * normalKernel n g * wsi
  w • rodrigues (M3.skew (V3.cross n g)) (V3.dot n g)

open Classical in
/-- `weight_nml_sum_inv`: `jacobian.rs:1682-1704`. -/
def weightNmlSumInv (k : Kern) (dist : ℝ) (q : V3 ℝ) (view : List ℕ) (S : Samples) (g : V3 ℝ) : ℝ :=
  let sum := (view.map fun i => weight k dist q S i * normalKernel (unitNormal S i) g).sum
  if sum > 0 then 1 / sum else 0

/-- `contact_jacobian_at`: `jacobian.rs:1594-1630`, the first component; `none` where it panics. -/
def contactJacobianAt (q : V3 ℝ) (view : List ℕ) (S : Samples) (k : Kern) (P : BgParams) :
    Option (List (M3 ℝ)) :=
  (Bg.local q view S k P none).bind fun b =>
    (queryJacobianAt q view S none k P).map fun g =>
      view.map (sampleContactJacobian k b.dist q S g (weightNmlSumInv k b.dist q view S g))

/-- A triplet `(row, col, block)` of a matrix with blocks of size 3 by 3. -/
structure MBlock where
  row : ℕ
  col : ℕ
  val : M3 ℝ

namespace Pair

variable (C : Pair)

/-! ## Relative velocities -/

/-- `contact_jacobian_matrices_par_impl` (`jacobian.rs:898-936`) for face samples, with the rows mapped to
constraints by `TripletContactJacobian::from_selection` (`contact.rs:552-590`). -/
def contactBlocks (x : ℕ → V3 ℝ) : List MBlock :=
  C.active.flatMap fun p =>
    (p.1.zip ((contactJacobianAt (C.query x p.2) p.1 (C.samples x) C.kernel params).getD [])).flatMap
      fun s => (List.finRange 3).map fun j =>
        ⟨C.constraintOf p.2, (C.tris s.1).get j, (1 / 3 : ℝ) • s.2⟩

/-- `MappedContactJacobian::mul`: `penalty_point_contact.rs:353-366`. One velocity for each constraint. -/
def relativeVelocities (x v : ℕ → V3 ℝ) : List (V3 ℝ) :=
  C.active.zipIdx.map fun p =>
    (((C.contactBlocks x).filter fun b => b.row = p.2).map fun b => b.val.mulVec (v (C.surf b.col))).sum -
      v (C.coll p.1.2)

/-! ## Contact frames -/

open Classical in
/-- `contact_normals`: `point_contact.rs:931-952`. `query_jacobian_values` visits the neighborhoods that are
not empty. -/
def contactNormals (x : ℕ → V3 ℝ) : List (V3 ℝ) :=
  (C.queryBlocks x).map fun g => if g.norm > 0 then (1 / -g.norm) • g else g

/-- `update_contact_basis`: `penalty_point_contact.rs:1350-1354`. -/
def contactBasis (x : ℕ → V3 ℝ) : ContactBasis := ContactBasis.updateFromNormals (C.contactNormals x)

/-! ## Friction -/

/-- `compute_constraint_friction_force` followed by the change of basis in `compute_friction_force`:
`penalty_point_contact.rs:2401-2441, 2523-2533`. The force at each constraint, in physical space. The
contact basis has an entry for each constraint, otherwise the code panics. -/
def constraintFriction (p : Friction.Params) (x v : ℕ → V3 ℝ) : List (V3 ℝ) :=
  (C.relativeVelocities x v).zipIdx.map fun r =>
    ((C.contactBasis x).contactFriction p ((C.lambda x).getD r.2 0) r.1 r.2).getD 0

/-- `MappedContactJacobian::transpose_mul`: `penalty_point_contact.rs:368-385`. `ns` is the number of
vertices of the surface. Both loops assign. -/
def transposeMul (ns : ℕ) (x : ℕ → V3 ℝ) (w : List (V3 ℝ)) : ℕ → V3 ℝ :=
  let surfV (j : ℕ) : V3 ℝ := (((C.contactBlocks x).filter fun b => b.col = j).map fun b =>
    b.val.transpose.mulVec (w.getD b.row 0)).sum
  let f := (List.range ns).foldl (fun f j => Function.update f (C.surf j) (surfV j)) fun _ => 0
  C.active.zipIdx.foldl (fun f p => Function.update f (C.coll p.1.2) (-w.getD p.2 0)) f

open Classical in
/-- `compute_friction_force`: `penalty_point_contact.rs:2494-2550`. -/
def frictionForce (ns : ℕ) (p : Friction.Params) (x v : ℕ → V3 ℝ) : Option (ℕ → V3 ℝ) :=
  if p.isNone then none else some (C.transposeMul ns x (C.constraintFriction p x v))

/-- `subtract_friction_force`: `penalty_point_contact.rs:2336-2346`. -/
def subtractFriction (ns : ℕ) (p : Friction.Params) (x v f : ℕ → V3 ℝ) : ℕ → V3 ℝ :=
  match C.frictionForce ns p x v with
  | none => f
  | some g => fun i => f i - g i

open Classical in
/-- `lagged_friction_potential`: `penalty_point_contact.rs:2248-2290`. -/
def frictionPotential (p : Friction.Params) (x v : ℕ → V3 ℝ) (dqdv : ℝ) : ℝ :=
  if p.isNone then 0
  else ((C.relativeVelocities x v).zipIdx.map fun r =>
    (((C.contactBasis x).toContactCoordinates r.1 r.2).map fun c =>
      Friction.potential ⟨c.y, c.z⟩ ((C.lambda x).getD r.2 0) p).getD 0).sum * dqdv

end Pair

end Softy.Contact
