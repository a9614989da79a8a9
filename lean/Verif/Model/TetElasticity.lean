import Verif.Model.Mat
import Mathlib.Analysis.SpecialFunctions.Log.Basic
import Mathlib.Algebra.BigOperators.Fin

/-!
# Elastic energies of a single tetrahedron

Model of `softy/src/energy_models/elasticity/tet_nh.rs` (neo-Hookean) and
`softy/src/energy_models/elasticity/tet_snh.rs` (stable neo-Hookean). Floating point numbers are
real numbers. An infinite energy or gradient is `none`.

`tensr` matrices are stored by rows and `A[i][j]` is row `i`, column `j`. `geo`'s
`Tetrahedron::shape_matrix` has the rows `x0 - x3`, `x1 - x3`, `x2 - x3`. Both crates are
dependencies that are not part of the repository, so this is an assumption.
-/

noncomputable section

namespace Softy

/-- Component `i` of a vector (`v[i]`). -/
def V3.get {K : Type*} (v : V3 K) : Fin 3 → K := ![v.x, v.y, v.z]

/-- Row `i` of a matrix (`a[i]`). -/
def M3.row {K : Type*} (a : M3 K) : Fin 3 → V3 K := ![a.r0, a.r1, a.r2]

/-- Entry of a matrix (`a[i][j]`). -/
def M3.at {K : Type*} (a : M3 K) (i j : Fin 3) : K := (a.row i).get j

/-- The cofactor matrix. In `tet_snh.rs` lines 50-52, 152-154, 227-229 it is written out as
`[F[1].cross(F[2]), F[2].cross(F[0]), F[0].cross(F[1])]`. -/
def M3.cof {K : Type*} [CommRing K] (a : M3 K) : M3 K :=
  ⟨V3.cross a.r1 a.r2, V3.cross a.r2 a.r0, V3.cross a.r0 a.r1⟩

/-- `Matrix3::inverse`: `None` for a singular matrix. Dependency, assumed behaviour. -/
def M3.inverse (a : M3 ℝ) : Option (M3 ℝ) :=
  open Classical in if a.det = 0 then none else some (a.det⁻¹ • a.adj)

/-- `Matrix3::inverse_transpose`: `None` for a singular matrix. Dependency, assumed behaviour. -/
def M3.inverseTranspose (a : M3 ℝ) : Option (M3 ℝ) :=
  open Classical in if a.det = 0 then none else some (a.det⁻¹ • a.cof)

namespace Tet

/-- The four vertices of a tetrahedron, or a displacement of each (`geo::prim::Tetrahedron`). -/
abbrev Verts := Fin 4 → V3 ℝ

/-- `Tetrahedron::shape_matrix`. -/
def shape (x : Verts) : M3 ℝ := ⟨x 0 - x 3, x 1 - x 3, x 2 - x 3⟩

/-- `NeoHookeanTetEnergy` and `StableNeoHookeanTetEnergy`: tet_nh.rs lines 16-22,
tet_snh.rs lines 18-24. -/
structure Elem where
  Dx : M3 ℝ
  DXinv : M3 ℝ
  volume : ℝ
  lambda : ℝ
  mu : ℝ

/-- The reference data of a tetrahedral element (`TetElements`): softy/src/objects/tetsolid.rs
fields `ref_tet_shape_mtx_inv`, `ref_volume`, `lambda`, `mu`. -/
structure Ref where
  DXinv : M3 ℝ
  volume : ℝ
  lambda : ℝ
  mu : ℝ

/-- The element energy of a tetrahedron with vertices at `x`: tetsolid_nh.rs lines 101-109, the
call of `LinearElementEnergy::new` (tet_nh.rs lines 41-49, tet_snh.rs lines 95-103). -/
def Ref.at (r : Ref) (x : Verts) : Elem := ⟨shape x, r.DXinv, r.volume, r.lambda, r.mu⟩

/-- `deformation_gradient`: tet_nh.rs lines 28-30, tet_snh.rs lines 30-32. -/
def Elem.F (e : Elem) : M3 ℝ := e.DXinv * e.Dx

/-- `deformation_gradient_differential`: tet_nh.rs lines 54-58, tet_snh.rs lines 108-112. -/
def Elem.dF (e : Elem) (dx : Verts) : M3 ℝ := e.DXinv * shape dx

/-- The result of the gradient functions from the first three rows:
`[H[0], H[1], H[2], -H[0] - H[1] - H[2]]`, tet_nh.rs line 108, tet_snh.rs line 158. -/
def spread (H : M3 ℝ) : Verts := ![H.r0, H.r1, H.r2, -H.r0 - H.r1 - H.r2]

/-- `NeoHookeanTetEnergy::energy`: tet_nh.rs lines 66-82. `none` is infinity. -/
def nhEnergy (e : Elem) : Option ℝ :=
  let I := e.F.normSq
  let J := e.F.det
  open Classical in
  if J ≤ 0 then none
  else
    let logJ := Real.log J
    some (e.volume * (0.5 * e.mu * (I - 3) - e.mu * logJ + 0.5 * e.lambda * logJ * logJ))

/-- The first Piola-Kirchhoff stress `F * mu + F_inv_tr * (lambda * logJ - mu)` of tet_nh.rs
line 107. -/
def nhStress (F Finvtr : M3 ℝ) (logJ lambda mu : ℝ) : M3 ℝ :=
  mu • F + (lambda * logJ - mu) • Finvtr

/-- `NeoHookeanTetEnergy::energy_gradient`: tet_nh.rs lines 90-110. `none` stands for a gradient
with infinite components. The `unwrap` of line 105 cannot fail here, because the determinant is
positive; its failure would be `none` too. -/
def nhGradient (e : Elem) : Option Verts :=
  let J := e.F.det
  open Classical in
  if J ≤ 0 then none
  else
    match e.F.inverseTranspose with
    | none => none
    | some Finvtr =>
      let logJ := Real.log J
      some (spread (e.volume • (e.DXinv.transpose * nhStress e.F Finvtr logJ e.lambda e.mu)))

/-- One value `h` of the loop of `energy_hessian`: tet_nh.rs lines 156-161. -/
def nhEntry (e : Elem) (Dxinv : M3 ℝ) (alpha : ℝ) (n k row col : Fin 3) : ℝ :=
  let A := e.DXinv.transpose * e.DXinv
  let cLambda := e.lambda * Dxinv.at row n * Dxinv.at col k
  let cAlpha := alpha * Dxinv.at col n * Dxinv.at row k
  e.volume * (cAlpha + cLambda) + if col = row then e.volume * e.mu * A.at n k else 0

/-- The local Hessian: the block of vertices `n` and `k`, then the entry `row`, `col`. -/
abbrev Hess := Fin 4 → Fin 4 → Fin 3 → Fin 3 → ℝ

/-- The fill pattern of `energy_hessian`: tet_nh.rs lines 149-178. The entries of the first three
vertices are kept on and below the diagonal (lines 164-166), the row of blocks of the last vertex
is minus the sum of the other rows of blocks, including the entries that were not kept (line 168),
and the last block is the sum of everything on and below its own diagonal (lines 169, 174-176).
All other entries stay zero. -/
def fillLower (h : Fin 3 → Fin 3 → Fin 3 → Fin 3 → ℝ) : Hess := fun n k row col =>
  if hn : n.val < 3 then
    if hk : k.val < 3 then
      if (n = k ∧ row ≥ col) ∨ n > k then h ⟨n, hn⟩ ⟨k, hk⟩ row col else 0
    else 0
  else
    if hk : k.val < 3 then - ∑ n' : Fin 3, h n' ⟨k, hk⟩ row col
    else if row ≥ col then ∑ n' : Fin 3, ∑ k' : Fin 3, h n' k' row col else 0

/-- `NeoHookeanTetEnergy::energy_hessian`: tet_nh.rs lines 120-181. -/
def nhHessian (e : Elem) : Hess :=
  let J := e.F.det
  open Classical in
  if J ≤ 0 then fun _ _ _ _ => 0
  else
    match e.Dx.inverse with
    | none => fun _ _ _ _ => 0
    | some Dxinv => fillLower (nhEntry e Dxinv (e.mu - e.lambda * Real.log J))

/-- `NeoHookeanTetEnergy::energy_hessian_product_transpose`: tet_nh.rs lines 191-216. The failure
of the `unwrap` of line 205 is the zero matrix; it cannot happen for a positive determinant. -/
def nhProduct (e : Elem) (dx : Verts) : M3 ℝ :=
  let dF := e.dF dx
  let J := e.F.det
  open Classical in
  if 0 < J then
    let alpha := e.mu - e.lambda * Real.log J
    match e.F.inverseTranspose with
    | none => 0
    | some Finvtr =>
      let t := dF.transpose * Finvtr
      let dP := e.mu • dF + alpha • (Finvtr * t) + (t.trace * e.lambda) • Finvtr
      e.volume • (e.DXinv.transpose * dP)
  else 0

/-- `StableNeoHookeanTetEnergy::energy`: tet_snh.rs lines 119-133. For `lambda = 0` the quotient
`mu / lambda` is infinite or not a number, and then so is the product with `lambda`: `none`. -/
def snhEnergy (e : Elem) : Option ℝ :=
  let I := e.F.normSq
  let J := e.F.det
  let JmAlpha := J - 1 - 0.75 * e.mu / e.lambda
  open Classical in
  if e.lambda = 0 then none
  else some
    (e.volume * 0.5 * (e.mu * (I - 3 - Real.log (I + 1)) + e.lambda * JmAlpha * JmAlpha))

/-- `StableNeoHookeanTetEnergy::energy_gradient`: tet_snh.rs lines 140-159. -/
def snhGradient (e : Elem) : Option Verts :=
  let I := e.F.normSq
  let J := e.F.det
  let alpha := 1 + 0.75 * e.mu / e.lambda
  let P := (e.mu * (I / (I + 1))) • e.F + (e.lambda * (J - alpha)) • e.F.cof
  open Classical in
  if e.lambda = 0 then none else some (spread (e.volume • (e.DXinv.transpose * P)))

/-- The blocks of the derivative of the cofactors: `H_blocks`, tet_snh.rs lines 56-60 and
233-237. -/
def hBlocks (F : M3 ℝ) : Fin 3 → Fin 3 → M3 ℝ :=
  ![![0, M3.skew (-F.r2), M3.skew F.r1],
    ![M3.skew F.r2, 0, M3.skew (-F.r0)],
    ![M3.skew (-F.r1), M3.skew F.r0, 0]]

/-- `elastic_energy_deformation_hessian`: tet_snh.rs lines 39-84. The 9x9 matrices are indexed by
pairs; `vec` and `mtx` go through the entries row by row (an assumption about the `tensr` crate).
The result `out[i][j][k][l]` is the entry for the pairs `(i, j)` and `(k, l)`. Meaningful only for
`lambda ≠ 0`, like the product function below. -/
def snhDeformationHessian (e : Elem) (i j k l : Fin 3) : ℝ :=
  let F := e.F.transpose
  let I := F.normSq
  let J := F.det
  let JmAlpha := J - 1 - 0.75 * e.mu / e.lambda
  let Ti : ℝ := if i = k ∧ j = l then 1 else 0
  let M := F.at i j * F.at k l
  let G := F.cof.at i j * F.cof.at k l
  let H := (hBlocks F i k).at j l
  Ti * (e.mu * I / (I + 1)) + M * (e.mu * 2 / ((I + 1) * (I + 1))) + G * e.lambda
    + H * e.lambda * JmAlpha

/-- The blocks of the first three vertices in `energy_hessian`: tet_snh.rs lines 169-191. -/
def snhEntry (e : Elem) (r c i j : Fin 3) : ℝ :=
  let D := e.DXinv.transpose
  ∑ k : Fin 3, e.volume * (∑ l : Fin 3, snhDeformationHessian e j k i l * D.at r l) * D.at c k

/-- `StableNeoHookeanTetEnergy::energy_hessian`: tet_snh.rs lines 167-206. Unlike the neo-Hookean
one all blocks of the first three vertices are filled, the last row of blocks is minus the sum of
the others (lines 193-198) and the last block is minus the sum of the rest of its row (lines
200-203). The last column of blocks above it stays zero. -/
def snhHessian (e : Elem) : Hess := fun n k row col =>
  let lastRow := fun c : Fin 3 => - ∑ r : Fin 3, snhEntry e r c row col
  if hn : n.val < 3 then
    if hk : k.val < 3 then snhEntry e ⟨n, hn⟩ ⟨k, hk⟩ row col else 0
  else if hk : k.val < 3 then lastRow ⟨k, hk⟩
  else - ∑ c : Fin 3, lastRow c

/-- `StableNeoHookeanTetEnergy::energy_hessian_product_transpose`: tet_snh.rs lines 214-258. -/
def snhProduct (e : Elem) (dx : Verts) : M3 ℝ :=
  let F := e.F
  let dF := e.dF dx
  let J := F.det
  let I := F.normSq
  let alpha := 1 + 0.75 * e.mu / e.lambda
  let vdot := fun a b : M3 ℝ => V3.dot a.r0 b.r0 + V3.dot a.r1 b.r1 + V3.dot a.r2 b.r2
  let hrow := fun r : Fin 3 =>
    M3.mulVec (hBlocks F r 0) dF.r0 + M3.mulVec (hBlocks F r 1) dF.r1
      + M3.mulVec (hBlocks F r 2) dF.r2
  let h : M3 ℝ := ⟨hrow 0, hrow 1, hrow 2⟩
  let dP := e.mu • ((I / (I + 1)) • dF + (vdot F dF * 2 / ((I + 1) * (I + 1))) • F)
    + e.lambda • (vdot F.cof dF • F.cof + (J - alpha) • h)
  e.volume • (e.DXinv.transpose * dP)

end Tet

end Softy
