import Verif.Model.TetElasticity

/-!
# Elastic membrane energy of a single triangle

Model of `softy/src/energy_models/elasticity/tri_nh.rs` lines 1-270 (`NeoHookeanTriEnergy`).
Floating point numbers are real numbers, an infinite energy is `none`.

`geo`'s `Triangle::shape_matrix` has the rows `x0 - x2`, `x1 - x2` (an assumption, the crate is not
part of the repository).
-/

noncomputable section

namespace Softy.Tri

open Softy

/-- `tensr::Matrix2`, by rows. -/
@[ext] structure M22 where
  r0 : V2 ℝ
  r1 : V2 ℝ

/-- `tensr::Matrix2x3`, by rows. -/
@[ext] structure M23 where
  r0 : V3 ℝ
  r1 : V3 ℝ

instance : Zero M23 := ⟨⟨0, 0⟩⟩
instance : Add M23 := ⟨fun a b => ⟨a.r0 + b.r0, a.r1 + b.r1⟩⟩
instance : Sub M23 := ⟨fun a b => ⟨a.r0 - b.r0, a.r1 - b.r1⟩⟩
instance : SMul ℝ M23 := ⟨fun c a => ⟨c • a.r0, c • a.r1⟩⟩

@[simp] theorem M23.zero_r0 : (0 : M23).r0 = 0 := rfl
@[simp] theorem M23.zero_r1 : (0 : M23).r1 = 0 := rfl
@[simp] theorem M23.add_r0 (a b : M23) : (a + b).r0 = a.r0 + b.r0 := rfl
@[simp] theorem M23.add_r1 (a b : M23) : (a + b).r1 = a.r1 + b.r1 := rfl
@[simp] theorem M23.sub_r0 (a b : M23) : (a - b).r0 = a.r0 - b.r0 := rfl
@[simp] theorem M23.sub_r1 (a b : M23) : (a - b).r1 = a.r1 - b.r1 := rfl
@[simp] theorem M23.smul_r0 (c : ℝ) (a : M23) : (c • a).r0 = c • a.r0 := rfl
@[simp] theorem M23.smul_r1 (c : ℝ) (a : M23) : (c • a).r1 = c • a.r1 := rfl

/-- Product of a 2x2 and a 2x3 matrix. -/
def M22.mul23 (a : M22) (b : M23) : M23 :=
  ⟨a.r0.x • b.r0 + a.r0.y • b.r1, a.r1.x • b.r0 + a.r1.y • b.r1⟩

/-- Transpose. -/
def M22.transpose (a : M22) : M22 := ⟨⟨a.r0.x, a.r1.x⟩, ⟨a.r0.y, a.r1.y⟩⟩

/-- Product of a 2x2 matrix and a column. -/
def M22.mulVec (a : M22) (v : V2 ℝ) : V2 ℝ := ⟨V2.dot a.r0 v, V2.dot a.r1 v⟩

/-- Determinant. -/
def M22.det (a : M22) : ℝ := a.r0.x * a.r1.y - a.r0.y * a.r1.x

/-- Trace. -/
def M22.trace (a : M22) : ℝ := a.r0.x + a.r1.y

/-- `Matrix2::inverse` of a matrix with nonzero determinant. -/
def M22.inv (a : M22) : M22 :=
  ⟨⟨a.det⁻¹ * a.r1.y, a.det⁻¹ * -a.r0.y⟩, ⟨a.det⁻¹ * -a.r1.x, a.det⁻¹ * a.r0.x⟩⟩

/-- The product of two 2x3 matrices, the second transposed: `a * b.transpose()`. -/
def M23.mulT (a b : M23) : M22 :=
  ⟨⟨V3.dot a.r0 b.r0, V3.dot a.r0 b.r1⟩, ⟨V3.dot a.r1 b.r0, V3.dot a.r1 b.r1⟩⟩

/-- The product of a column and a row. -/
def outer22 (a b : V2 ℝ) : M22 := ⟨⟨a.x * b.x, a.x * b.y⟩, ⟨a.y * b.x, a.y * b.y⟩⟩

/-- The product of a column and a row. -/
def outer23 (a : V2 ℝ) (b : V3 ℝ) : M23 := ⟨a.x • b, a.y • b⟩

/-- Column `c` of a 2x3 matrix. -/
def M23.col (a : M23) (c : Fin 3) : V2 ℝ := ⟨a.r0.get c, a.r1.get c⟩

/-- The unit vector of axis `c`. -/
def axis (c : Fin 3) : V3 ℝ := ![⟨1, 0, 0⟩, ⟨0, 1, 0⟩, ⟨0, 0, 1⟩] c

/-- Row `j` of a 2x3 matrix. -/
def M23.row (a : M23) (j : Fin 2) : V3 ℝ := ![a.r0, a.r1] j

/-- The three vertices of a triangle, or a displacement of each (`geo::prim::Triangle`). -/
abbrev Verts := Fin 3 → V3 ℝ

/-- `Triangle::shape_matrix`. -/
def shape (x : Verts) : M23 := ⟨x 0 - x 2, x 1 - x 2⟩

/-- `NeoHookeanTriEnergy`: tri_nh.rs lines 21-27. -/
structure Elem where
  Dx : M23
  DXinv : M22
  area : ℝ
  lambda : ℝ
  mu : ℝ

/-- The reference data of a triangle (`TriangleElements`): softy/src/objects/trishell.rs fields
`ref_tri_shape_mtx_inv`, `ref_area`, `lambda`, `mu`. -/
structure Ref where
  DXinv : M22
  area : ℝ
  lambda : ℝ
  mu : ℝ

/-- The element energy of a triangle with vertices at `x`: trishell_nh.rs lines 164-169, the call
of `LinearElementEnergy::new` (tri_nh.rs lines 103-111). -/
def Ref.at (r : Ref) (x : Verts) : Elem := ⟨shape x, r.DXinv, r.area, r.lambda, r.mu⟩

/-- `deformation_gradient`: tri_nh.rs lines 33-35. -/
def Elem.F (e : Elem) : M23 := e.DXinv.mul23 e.Dx

/-- `deformation_gradient_differential`: tri_nh.rs lines 116-120. -/
def Elem.dF (e : Elem) (dx : Verts) : M23 := e.DXinv.mul23 (shape dx)

/-- `C = F * F.transpose()`: tri_nh.rs lines 132, 161, 191, 250. -/
def Elem.C (e : Elem) : M22 := e.F.mulT e.F

/-- `[H[0], H[1], -H[0] - H[1]]`: tri_nh.rs line 170. -/
def spread (H : M23) : Verts := ![H.r0, H.r1, -H.r0 - H.r1]

/-- `energy`: tri_nh.rs lines 127-145. `none` is infinity. -/
def energy (e : Elem) : Option ℝ :=
  let Cdet := e.C.det
  let I := e.C.r0.x + e.C.r1.y
  open Classical in
  if Cdet ≤ 0 then none
  else
    let l := Real.log Cdet
    some (e.area * 0.5 * (e.mu * (I - 2 - l) + 0.25 * e.lambda * l * l))

/-- `energy_gradient`: tri_nh.rs lines 152-172. For a degenerate triangle the gradient is zero. -/
def gradient (e : Elem) : Verts :=
  let Cdet := e.C.det
  open Classical in
  if Cdet ≤ 0 then fun _ => 0
  else
    let Finvtr := e.C.inv.mul23 e.F
    let logJ := 0.5 * Real.log Cdet
    let P := e.mu • e.F + (e.lambda * logJ - e.mu) • Finvtr
    spread (e.area • e.DXinv.transpose.mul23 P)

/-- The derivative of the deformation gradient with respect to a vertex, up to the component:
the rows of `dF` in `stiffness_product_tensor`, tri_nh.rs lines 52-56. -/
def dFrow (e : Elem) : Fin 3 → V2 ℝ :=
  let D := e.DXinv.transpose
  ![D.r0, D.r1, ⟨-D.r0.x - D.r1.x, -D.r0.y - D.r1.y⟩]

/-- `normalized` (dependency): the vector divided by its length. -/
def unit (v : V3 ℝ) : V3 ℝ := v.norm⁻¹ • v

/-- The closure `dP` of `stiffness_product_tensor`: tri_nh.rs lines 76-84, for the component `x` of
vertex `i`. -/
def dP (e : Elem) (Finvtr : M23) (Cinvtr : M22) (n : V3 ℝ) (alpha : ℝ) (x i : Fin 3) : M23 :=
  let q := outer22 (Finvtr.col x) (dFrow e i)
  alpha • q.mul23 Finvtr + (q.trace * e.lambda) • Finvtr
    - alpha • outer23 (⟨(Cinvtr.mulVec (dFrow e i)).x * n.get x,
        (Cinvtr.mulVec (dFrow e i)).y * n.get x⟩) n
    + outer23 ⟨(dFrow e i).x * e.mu, (dFrow e i).y * e.mu⟩ (axis x)

/-- The local Hessian: the block of vertices `i` and `j`, then the entry `row`, `col`. -/
abbrev Hess := Fin 3 → Fin 3 → Fin 3 → Fin 3 → ℝ

/-- The loop of `energy_hessian`: tri_nh.rs lines 208-229. `h i row` is the matrix computed for
component `row` of vertex `i`. Its rows fill the blocks on and below the diagonal of the first two
vertices; the last block is minus the sum of the other two of its row. -/
def fill (h : Fin 3 → Fin 3 → M23) : Hess := fun i j row col =>
  if hj : j.val < 2 then
    if i > j ∨ (i = j ∧ row ≥ col) then ((h i row).row ⟨j, hj⟩).get col else 0
  else if i = 2 then -((h i row).row 0).get col - ((h i row).row 1).get col
  else 0

/-- `energy_hessian`: tri_nh.rs lines 180-233. -/
def hessian (e : Elem) : Hess :=
  let Cdet := e.C.det
  open Classical in
  if 0 < Cdet then
    let alpha := e.mu - e.lambda * 0.5 * Real.log Cdet
    let Cinvtr := e.C.inv.transpose
    let Finvtr := Cinvtr.transpose.mul23 e.F
    let n := unit (V3.cross e.F.r0 e.F.r1)
    fill fun i row => e.area • e.DXinv.transpose.mul23 (dP e Finvtr Cinvtr n alpha row i)
  else fun _ _ _ _ => 0

/-- `energy_hessian_product_transpose`: tri_nh.rs lines 240-269. The code computes the transposed
matrix `dP_tr`; here its transpose is written out. -/
def product (e : Elem) (dx : Verts) : M23 :=
  let dF := e.dF dx
  let Cdet := e.C.det
  open Classical in
  if 0 < Cdet then
    let alpha := e.mu - e.lambda * 0.5 * Real.log Cdet
    let Cinv := e.C.inv
    let Finvtr := Cinv.mul23 e.F
    -- `dF_F_inv = dF * F_inv`
    let t := dF.mulT Finvtr
    let n := unit (V3.cross e.F.r0 e.F.r1)
    -- the row `n.transpose() * dF.transpose() * C_inv`
    let dn : V2 ℝ := ⟨V3.dot n dF.r0, V3.dot n dF.r1⟩
    let w : V2 ℝ := Cinv.transpose.mulVec dn
    let dP := e.mu • dF + alpha • t.transpose.mul23 Finvtr + (t.trace * e.lambda) • Finvtr
      - alpha • outer23 w n
    e.area • e.DXinv.transpose.mul23 dP
  else 0

end Softy.Tri
