import Verif.Model.PointConstraint

/-!
# Normals and impulses of contacts

Model of what `PointContactConstraint` says about the points in contact: `contact_normals`,
`add_contact_impulse` (both of the trait `ContactConstraint`) and `in_contact_indices`
(`softy/src/constraints/point_contact.rs`). `none` is a panic.
-/

noncomputable section

namespace Softy.PointConstraint

open Softy Softy.Kernel Softy.Field Softy.SurfaceQuery Softy.Contact

namespace Constraint

variable (C : Constraint)

/-- `active_constraint_indices` (`point_contact.rs:967-969`): `nonempty_neighborhood_indices`
(`query.rs:206-215, 477-485`). -/
def activeIndices : List ℕ :=
  (C.surf.surfaceNbrs.zipIdx.filter fun p => !p.1.isEmpty).map Prod.snd

open Classical in
/-- `contact_normals` (`point_contact.rs:931-952`). -/
def contactNormals : List (V3 ℝ) :=
  (C.surf.queryBlocks false C.collider).map fun n => if 0 < n.norm then (1 / -n.norm) • n else n

/-- What the contact Jacobian is computed from (`QueryTopo`, `query.rs:17-44`). -/
def velocityQuery : SurfaceVelocity.Query :=
  ⟨C.surf.S, C.surf.sampleType, C.surf.tris, C.surf.kernel, C.surf.params, C.surf.cache.trivial⟩

/-- One assignment `a[i] = v`. -/
def put (a : ℕ → V3 ℝ) (i : ℕ) (v : V3 ℝ) : ℕ → V3 ℝ := fun j => if j = i then v else a j

/-- `add_contact_impulse` (`point_contact.rs:892-929`): impulses of the object and of the collider.
Simplification: the arrays have a place for each vertex. -/
def addContactImpulse (lam : List ℝ) (obj coll : ℕ → V3 ℝ) : Option ((ℕ → V3 ℝ) × (ℕ → V3 ℝ)) :=
  let normals := C.contactNormals
  if lam.length = normals.length ∧ C.activeIndices.length = normals.length then
    let coll := (C.activeIndices.zip (normals.zip lam)).foldl
      (fun (a : ℕ → V3 ℝ) (p : ℕ × V3 ℝ × ℝ) => put a p.1 (p.2.2 • p.2.1)) coll
    (C.velocityQuery.matrices C.collider).map fun bs =>
      (bs.foldl (fun (a : ℕ → V3 ℝ) (b : MBlock) =>
        put a b.col (a b.col + b.val.transpose.mulVec (coll b.row))) obj, coll)
  else none

/-- `num_neighbors_within_distance(..) > 0` (`query.rs:491-497`) for the radius that
`in_contact_indices` takes (`point_contact.rs:526`). An infinite radius has all samples in it. -/
def Near (q : V3 ℝ) : Prop :=
  ∃ i < C.surf.faces.length, ∀ r, C.surf.kernel.radius = some r →
    (q - C.surf.S.pos i).norm ^ 2 ≤ (r * 0.999) ^ 2

/-- What `in_contact_indices` returns. -/
structure InContact where
  /-- contact to constraint -/
  constraints : List ℕ
  /-- contact to collider vertex -/
  vertices : List ℕ
  /-- constraint to contact -/
  ofConstraint : List (Option ℕ)
  /-- collider vertex to contact -/
  ofVertex : List (Option ℕ)
  impulse : List ℝ

/-- The closure in `in_contact_indices` (`point_contact.rs:541-553`), which is called with an index, an
impulse and a collider vertex. The number of contacts is `contact_counter`. -/
def countContact (near : ℕ → Prop) [DecidablePred near] (R : InContact) (p : ℕ × ℝ × ℕ)  : InContact :=
  if p.2.1 ≠ 0 ∧ near p.2.2 then
    { R with
      constraints := R.constraints ++ [p.1]
      ofConstraint := R.ofConstraint.set p.1 (some R.constraints.length)
      ofVertex := R.ofVertex.set p.2.2 (some R.constraints.length)
      impulse := R.impulse ++ [p.2.1] }
  else R

open Classical in
/-- `in_contact_indices` (`point_contact.rs:519-568`). -/
def inContactIndices (lam : List ℝ) : Option InContact :=
  let query := C.activeIndices
  if query.length = lam.length then
    let R := ((lam.zip query).zipIdx.map fun p => (p.2, p.1)).foldl
      (countContact fun q => C.Near (C.collider.getD q 0))
      ⟨[], [], List.replicate query.length none, List.replicate C.collider.length none, []⟩
    some { R with vertices := R.constraints.map fun i => query.getD i 0 }
  else none

end Constraint

end Softy.PointConstraint
