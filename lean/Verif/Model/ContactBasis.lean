import Verif.Model.Mat
import Verif.Model.Vec
import Verif.Model.Remap
import Verif.Model.Friction

/-!
# Model of the contact frames

`softy/src/contact.rs`, `ContactBasis`, over the reals, and the part of the friction force
computed in contact space (`softy/src/constraints/penalty_point_contact.rs`).

Vectors of arrays are lists; indexing past the end (a panic) is `none`.
-/

noncomputable section

namespace Softy

/-- Component `i` of a vector, `v[i]`. Only called with `i < 3`. -/
def V3.getN {K : Type*} (v : V3 K) (i : ℕ) : K := if i = 0 then v.x else if i = 1 then v.y else v.z

/-- The coordinate axis `i`: zero except for a one in component `i`. -/
def V3.axis (i : ℕ) : V3 ℝ :=
  ⟨if i = 0 then 1 else 0, if i = 1 then 1 else 0, if i = 2 then 1 else 0⟩

/-- `tensr`'s `iamax`: index of the first component with the largest absolute value. -/
def V3.iamax (v : V3 ℝ) : ℕ :=
  if |v.y| ≤ |v.x| ∧ |v.z| ≤ |v.x| then 0 else if |v.z| ≤ |v.y| then 1 else 2

/-- `tensr`'s `normalize`: divide by the norm. -/
def V3.normalize (v : V3 ℝ) : V3 ℝ := (1 / v.norm) • v

/-- `contact.rs:139-142`, `ContactBasis`. -/
structure ContactBasis where
  normals : List (V3 ℝ)
  tangents : List (V3 ℝ)

namespace ContactBasis

/-- `contact.rs:434-444`, body of the loop in `update_from_normals`: the tangent for a
normal. -/
def tangentFor (n : V3 ℝ) : V3 ℝ :=
  let a := (n.iamax + 1) % 3
  (V3.axis a - n.getN a • n).normalize

/-- `contact.rs:429-445`, `update_from_normals`. -/
def updateFromNormals (normals : List (V3 ℝ)) : ContactBasis :=
  ⟨normals, normals.map tangentFor⟩

/-- `contact.rs:209-215`, `contact_basis_matrix`, for the normal and tangent of one contact. -/
def frame (n t : V3 ℝ) : M3 ℝ := ⟨n, t, n.cross t⟩

/-- `contact.rs:209-215`, `contact_basis_matrix`. -/
def contactBasisMatrix (b : ContactBasis) (i : ℕ) : Option (M3 ℝ) :=
  match b.normals[i]?, b.tangents[i]? with
  | some n, some t => some (frame n t)
  | _, _ => none

/-- `contact.rs:219-227`, `to_contact_coordinates`. -/
def toContactCoordinates (b : ContactBasis) (v : V3 ℝ) (i : ℕ) : Option (V3 ℝ) :=
  (b.contactBasisMatrix i).map fun m => m.mulVec v

/-- `contact.rs:239-244`, `from_contact_coordinates`. -/
def fromContactCoordinates (b : ContactBasis) (v : V3 ℝ) (i : ℕ) : Option (V3 ℝ) :=
  (b.contactBasisMatrix i).map fun m => m.transpose.mulVec v

/-- Entry `i` of `to_tangent_space` (`contact.rs:248-256`). -/
def toTangentSpace (b : ContactBasis) (v : V3 ℝ) (i : ℕ) : Option (V2 ℝ) :=
  (b.toContactCoordinates v i).map fun c => ⟨c.y, c.z⟩

/-- Entry `i` of `from_tangent_space` (`contact.rs:259-267`). -/
def fromTangentSpace (b : ContactBasis) (v : V2 ℝ) (i : ℕ) : Option (V3 ℝ) :=
  b.fromContactCoordinates ⟨0, v.x, v.y⟩ i

/-- Entry `i` of `to_normal_space` (`contact.rs:270-275`). -/
def toNormalSpace (b : ContactBasis) (v : V3 ℝ) (i : ℕ) : Option ℝ :=
  (b.toContactCoordinates v i).map fun c => c.x

/-- Entry `i` of `from_normal_space` (`contact.rs:277-282`). -/
def fromNormalSpace (b : ContactBasis) (c : ℝ) (i : ℕ) : Option (V3 ℝ) :=
  b.fromContactCoordinates ⟨c, 0, 0⟩ i

/-- `contact.rs:477-482`, body of the loop of `project_out_normal_component`. -/
def projectOutNormal (n v : V3 ℝ) : V3 ℝ := v - (n.dot v) • n

/-- A triplet of a sparse matrix. -/
abbrev Triplet := ℕ × ℕ × ℝ

/-- Triplets of one contact in `normal_basis_matrix_sprs` (`contact.rs:304-317`). -/
def normalTripletsAt (m : M3 ℝ) (i : ℕ) : List Triplet :=
  [(0 + 3 * i, 0 + i, m.r0.x), (1 + 3 * i, 0 + i, m.r0.y), (2 + 3 * i, 0 + i, m.r0.z)]

/-- `contact.rs:300-328`, `normal_basis_matrix_sprs`: the triplets handed to
`sprs::TriMat::from_triplets`. -/
def normalTriplets (b : ContactBasis) : List Triplet :=
  (List.range b.normals.length).flatMap fun i =>
    (b.contactBasisMatrix i).elim [] fun m => normalTripletsAt m i

/-- Triplets of one contact in `tangent_basis_matrix_sprs`: the flattened stencils
`[[0, 0, 1], [1, 2, 2]]` and `[[0, 1, 0], [1, 0, 1]]` against the flattened values
`[t, b]` (`contact.rs:334-347`). -/
def tangentTripletsAt (m : M3 ℝ) (i : ℕ) : List Triplet :=
  [(0 + 3 * i, 0 + 2 * i, m.r1.x), (0 + 3 * i, 1 + 2 * i, m.r1.y), (1 + 3 * i, 0 + 2 * i, m.r1.z),
   (1 + 3 * i, 1 + 2 * i, m.r2.x), (2 + 3 * i, 0 + 2 * i, m.r2.y), (2 + 3 * i, 1 + 2 * i, m.r2.z)]

/-- `contact.rs:330-359`, `tangent_basis_matrix_sprs`. -/
def tangentTriplets (b : ContactBasis) : List Triplet :=
  (List.range b.normals.length).flatMap fun i =>
    (b.contactBasisMatrix i).elim [] fun m => tangentTripletsAt m i

/-- `contact.rs:361-375`, block `i` of `full_basis_matrix`, row-major. -/
def fullBlock (b : ContactBasis) (i : ℕ) : Option (M3 ℝ) :=
  (b.contactBasisMatrix i).map M3.transpose

/-- `contact.rs:377-387`, block `i` of `full_basis_matrix_transpose`. -/
def fullBlockTranspose (b : ContactBasis) (i : ℕ) : Option (M3 ℝ) := b.contactBasisMatrix i

/-- `contact.rs:389-404`, block `i` of `normal_basis_matrix`: a 3×1 block, row-major. -/
def normalBlock (b : ContactBasis) (i : ℕ) : Option (List (List ℝ)) :=
  (b.contactBasisMatrix i).map fun m => [[m.r0.x], [m.r0.y], [m.r0.z]]

/-- `contact.rs:406-425`, block `i` of `tangent_basis_matrix`: a 3×2 block, row-major. -/
def tangentBlock (b : ContactBasis) (i : ℕ) : Option (List (List ℝ)) :=
  (b.contactBasisMatrix i).map fun m =>
    [[m.r1.x, m.r2.x], [m.r1.y, m.r2.y], [m.r1.z, m.r2.z]]

/-- `contact.rs:181-195`, `remap`. -/
def remap (b : ContactBasis) (oldSet newSet : List ℕ) : ContactBasis :=
  ⟨Remap.remapValues b.normals 0 oldSet newSet, Remap.remapValues b.tangents 0 oldSet newSet⟩

/-- `penalty_point_contact.rs:2434-2439` followed by `2523-2533`: the friction force at one
contact in physical space, for the relative velocity `vc` and multiplier `l`. -/
def contactFriction (b : ContactBasis) (p : Friction.Params) (l : ℝ) (vc : V3 ℝ) (i : ℕ) :
    Option (V3 ℝ) :=
  (b.toContactCoordinates vc i).bind fun c =>
    let f := Friction.profile ⟨c.y, c.z⟩ l p
    b.fromContactCoordinates ((-1 : ℝ) • (⟨0, f.x, f.y⟩ : V3 ℝ)) i

end ContactBasis

end Softy
