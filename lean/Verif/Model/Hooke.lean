import Verif.Model.Material
import Verif.Model.TetElasticity
import Verif.Model.TriElasticity
import Verif.Model.Volume

/-!
# From materials to the forces of elements

How the reference shape, the material and the attributes of a cell determine the elastic element
the solver uses: `softy/src/objects/tetsolid.rs:49-210` and `softy/src/objects/trishell.rs:53-218`.
The element functions themselves are those of `Model/TetElasticity.lean` and
`Model/TriElasticity.lean`. Numbers are reals, also where the code stores single precision numbers
(reference positions, Lamé parameters).
-/

noncomputable section

namespace Softy.Hooke

open Material

/-- The attributes `lambda` and `mu` of a cell (`LAMBDA_ATTRIB`, `MU_ATTRIB` in
`attrib_defines.rs:9-10`), if the mesh has them. -/
structure CellAttrs where
  lambda : Option ℝ := none
  mu : Option ℝ := none

/-- `tetsolid.rs:101-117`, `trishell.rs:98-114`: the attribute, else the effective parameter of the
material (`Elasticity::lambda`, `material.rs:564-566`); `none` is `MissingElasticityParams`. -/
def elemLambda (a : CellAttrs) (e : Option Elasticity) : Option ℝ :=
  match a.lambda with
  | some l => some l
  | none => e.map fun e => e.lame.1

/-- `tetsolid.rs:119-132`, `trishell.rs:116-129`; `Elasticity::mu` is `material.rs:567-569`. -/
def elemMu (a : CellAttrs) (e : Option Elasticity) : Option ℝ :=
  match a.mu with
  | some m => some m
  | none => e.map fun e => e.lame.2

/-! ## Solids -/

/-- `tetsolid.rs:160-210`, `compute_ref_tet_volumes` and `compute_ref_tet_shape_matrix_inverses`:
the inverse of the reference shape matrix and the reference volume. `none` is
`InvertedReferenceElement`. -/
def refTet (X : Tet.Verts) : Option (M3 ℝ × ℝ) :=
  open Classical in
  if Volume.tetVolume X ≤ 0 then none
  else (Tet.shape X).inverse.map fun D => (D, Volume.tetVolume X)

/-- `tetsolid.rs:95-132`: the data of the element of a cell with the reference positions `X`. -/
def solidElem (X : Tet.Verts) (a : CellAttrs) (m : Base Solid) : Option Tet.Ref :=
  match refTet X, elemLambda a m.properties.deformable.elasticity,
    elemMu a m.properties.deformable.elasticity with
  | some D, some l, some mu => some ⟨D.1, D.2, l, mu⟩
  | _, _, _ => none

/-- The gradient of the elastic energy of a tetrahedron of a solid. `tetsolid.rs:345-379` sorts the
cells by the model of their material, and `tetsolid.rs:435-443` uses the energy of the model. -/
def solidGradient (X : Tet.Verts) (a : CellAttrs) (m : Base Solid) (x : Tet.Verts) :
    Option Tet.Verts :=
  match solidElem X a m with
  | none => none
  | some r =>
    match solidModel m with
    | .neoHookean => Tet.nhGradient (r.at x)
    | .stableNeoHookean => Tet.snhGradient (r.at x)

/-! ## Shells -/

/-- `Triangle::area` (crate `geo`): half of the length of the cross product of two edges. -/
def triArea (X : Tri.Verts) : ℝ := (V3.cross (X 0 - X 2) (X 1 - X 2)).norm / 2

/-- `trishell.rs:181-194`, `isotropic_tri_shape_matrix`. -/
def isotropicShape (m : Tri.M23) : Tri.M22 :=
  let m0_norm := m.r0.norm
  let e0 := m0_norm⁻¹ • m.r0
  let m1_e0 := V3.dot e0 m.r1
  let m1_e1 := (m.r1 - m1_e0 • e0).norm
  ⟨⟨m0_norm, 0⟩, ⟨m1_e0, m1_e1⟩⟩

/-- `trishell.rs:156-218`: the inverse of the reference shape matrix and the reference area. `none`
is `DegenerateReferenceElement`. The `unwrap` of the inverse cannot fail for a positive area. -/
def refTri (X : Tri.Verts) : Option (Tri.M22 × ℝ) :=
  open Classical in
  if triArea X ≤ 0 then none else some ((isotropicShape (Tri.shape X)).inv, triArea X)

/-- `trishell.rs:91-129`: the data of the element of a triangle of a soft shell. -/
def shellElem (X : Tri.Verts) (a : CellAttrs) (m : Base SoftShell) : Option Tri.Ref :=
  match refTri X, elemLambda a m.properties.deformable.elasticity,
    elemMu a m.properties.deformable.elasticity with
  | some D, some l, some mu => some ⟨D.1, D.2, l, mu⟩
  | _, _, _ => none

/-- The gradient of the membrane energy of a triangle of a soft shell, for every elasticity model
the neo-Hookean one: `trishell.rs:630-634`. -/
def shellGradient (X : Tri.Verts) (a : CellAttrs) (m : Base SoftShell) (x : Tri.Verts) :
    Option Tri.Verts :=
  (shellElem X a m).map fun r => Tri.gradient (r.at x)

end Softy.Hooke
