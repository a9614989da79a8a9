import Verif.Model.Assembly
import Verif.Model.Sparse

/-!
# Gravity, inertia, and the objective, residual and Jacobian of the nonlinear problem

Model of `softy/src/energy_models/gravity.rs`, `softy/src/energy_models/inertia/soft_solid.rs`,
`soft_shell.rs`, and of `compute_objective`, `compute_vertex_residual_impl`,
`compute_jacobian_indices`, `jacobian_values` and `jacobian_diagonal_impl` of
`softy/src/fem/nl/problem.rs`, for problems without volume constraints and frictional contacts. Vertex
data are functions of the vertex number. All vertices are variables here; the Jacobian is cut down
to the active ones by the compression of `Model/Sparse.lean`. The vertices of rigid bodies
(`DegreesOfFreedom`) are not modelled.
-/

noncomputable section

namespace Softy.Fem

open Softy Assembly

/-! ## Bodies with lumped masses -/

/-- What gravity and inertia read of an element: `tets`, `ref_volume` and `density` of
`TetElements`, or `triangles`, `ref_area` and `density` of `TriangleElements`. -/
structure Body (m : ℕ) where
  cell : Fin m → ℕ
  measure : ℝ
  density : ℝ

/-- What is different for tetrahedra and triangles: the share of the mass of an element that each of
its vertices gets, and the function `centroid()` of the crate `geo`. -/
structure Kind (m : ℕ) where
  share : ℝ
  centroid : (Fin m → V3 ℝ) → V3 ℝ

/-- Tetrahedra: `0.25`, gravity.rs line 81, soft_solid.rs lines 43, 80, 188, 220, 248. -/
def tetKind : Kind 4 := ⟨0.25, fun p => (0.25 : ℝ) • (p 0 + p 1 + p 2 + p 3)⟩

/-- Triangles: `third = 1.0 / 3.0`, gravity.rs line 165, soft_shell.rs lines 41, 79, 174, 206, 232. -/
def triKind : Kind 3 := ⟨1.0 / 3.0, fun p => (1.0 / 3.0 : ℝ) • (p 0 + p 1 + p 2)⟩

variable {m : ℕ}

/-- The mass that goes to each vertex: `0.25 * vol * density`, or `third * area * density`. -/
def Body.lump (K : Kind m) (b : Body m) : ℝ := K.share * b.measure * b.density

/-! ## Gravity -/

/-- `energy`: gravity.rs lines 39-60 (tetrahedra), 131-152 (triangles). -/
def gravityEnergy (K : Kind m) (g : V3 ℝ) (bs : List (Body m)) (x : ℕ → V3 ℝ) : ℝ :=
  (bs.map fun b =>
    V3.dot g (K.centroid fun i => x (b.cell i)) * (-b.measure * b.density)).sum

/-- `add_energy_gradient`: gravity.rs lines 65-84 (tetrahedra), 157-178 (triangles). -/
def gravityGradient (K : Kind m) (g : V3 ℝ) (bs : List (Body m)) (G : ℕ → V3 ℝ) : ℕ → V3 ℝ :=
  addAll (bs.flatMap fun b => zipCell b.cell fun _ => -(b.lump K • g)) G

/-! ## Inertia -/

/-- `energy`: soft_solid.rs lines 20-47, soft_shell.rs lines 21-49. -/
def inertiaEnergy (K : Kind m) (bs : List (Body m)) (v0 v1 : ℕ → V3 ℝ) : ℝ :=
  (bs.map fun b =>
    0.5 * (b.lump K * ((List.finRange m).map fun i =>
      V3.dot (v1 (b.cell i) - v0 (b.cell i)) (v1 (b.cell i) - v0 (b.cell i))).sum)).sum

/-- `add_energy_gradient`: soft_solid.rs lines 52-83, soft_shell.rs lines 54-84. -/
def inertiaGradient (K : Kind m) (bs : List (Body m)) (v0 v1 : ℕ → V3 ℝ) (G : ℕ → V3 ℝ) :
    ℕ → V3 ℝ :=
  addAll (bs.flatMap fun b =>
    zipCell b.cell fun i => b.lump K • (v1 (b.cell i) - v0 (b.cell i))) G

/-- `energy_hessian_rows_cols_offset` and `energy_hessian_indices_offset`: soft_solid.rs lines
95-160, soft_shell.rs lines 95-160. -/
def inertiaIndices (bs : List (Body m)) (offset : ℕ × ℕ) : List (ℕ × ℕ) :=
  bs.flatMap fun b => (List.finRange m).flatMap fun vi =>
    (List.finRange 3).map fun j =>
      (3 * b.cell vi + j.val + offset.1, 3 * b.cell vi + j.val + offset.2)

/-- `energy_hessian_values`: soft_solid.rs lines 165-192, soft_shell.rs lines 165-193. -/
def inertiaValues (K : Kind m) (bs : List (Body m)) (scale : ℝ) : List ℝ :=
  bs.flatMap fun b => (List.finRange m).flatMap fun _ =>
    (List.finRange 3).map fun _ => b.lump K * scale

/-- `energy_hessian_size` and `num_hessian_diagonal_nnz`: soft_solid.rs lines 87-93 (12 for each
tetrahedron), soft_shell.rs lines 88-93 (9 for each triangle). -/
def inertiaSize (bs : List (Body m)) : ℕ := 3 * m * bs.length

/-- `buf[i] += val` for a list of positions and values, in a buffer of length `len`. Positions out
of bounds panic (`none`). -/
def addFlat (len : ℕ) : List (ℕ × ℝ) → (ℕ → ℝ) → Option (ℕ → ℝ)
  | [], D => some D
  | (i, a) :: l, D => if i < len then addFlat len l (Function.update D i (D i + a)) else none

/-- `buf[i] = val` for a list of positions and values. -/
def setFlat (len : ℕ) : List (ℕ × ℝ) → (ℕ → ℝ) → Option (ℕ → ℝ)
  | [], D => some D
  | (i, a) :: l, D => if i < len then setFlat len l (Function.update D i a) else none

/-- The three scalars of a vertex: `for j in 0..3 { .. 3 * vi + j .. }`. -/
def scalars (vi : ℕ) (a : Fin 3 → ℝ) : List (ℕ × ℝ) :=
  (List.finRange 3).map fun j => (3 * vi + j.val, a j)

/-- `add_energy_hessian_diagonal` of solids: soft_solid.rs lines 195-225. The length of the buffer of
scalars is compared with a vertex number (line 216). -/
def solidInertiaDiagonal (bs : List (Body 4)) (scale : ℝ) (len : ℕ) (D : ℕ → ℝ) : Option (ℕ → ℝ) :=
  addFlat len (bs.flatMap fun b => (List.finRange 4).flatMap fun i =>
    if b.cell i < len then scalars (b.cell i) fun _ => b.lump tetKind * scale else []) D

/-- `add_energy_hessian_diagonal` of shells: soft_shell.rs lines 196-226. -/
def shellInertiaDiagonal (bs : List (Body 3)) (scale : ℝ) (len : ℕ) (D : ℕ → ℝ) : Option (ℕ → ℝ) :=
  addFlat len (bs.flatMap fun b => (List.finRange 3).flatMap fun i =>
    scalars (b.cell i) fun _ => b.lump triKind * scale) D

/-- `energy_hessian_product` of solids: soft_solid.rs lines 229-252. -/
def solidInertiaProduct (bs : List (Body 4)) (p : ℕ → ℝ) (scale : ℝ) (len : ℕ) (D : ℕ → ℝ) :
    Option (ℕ → ℝ) :=
  addFlat len (bs.flatMap fun b => (List.finRange 4).flatMap fun i =>
    scalars (b.cell i) fun j => p (3 * b.cell i + j.val) * b.lump tetKind * scale) D

/-- `energy_hessian_product` of shells: soft_shell.rs lines 229-254. Line 250 assigns. -/
def shellInertiaProduct (bs : List (Body 3)) (p : ℕ → ℝ) (scale : ℝ) (len : ℕ) (D : ℕ → ℝ) :
    Option (ℕ → ℝ) :=
  setFlat len (bs.flatMap fun b => (List.finRange 3).flatMap fun i =>
    scalars (b.cell i) fun j => p (3 * b.cell i + j.val) * b.lump triKind * scale) D

/-! ## The problem -/

/-- `TetSolid` (with the Neo-Hookean and the stable Neo-Hookean elements), `TriShell`, `gravity` and
`time_step` of `NLProblem`: problem.rs lines 116-190. Densities are in arrays of their own. -/
structure Problem where
  nh : List TetElem
  nhDensity : List ℝ
  snh : List TetElem
  snhDensity : List ℝ
  shell : Shell
  shellDensity : List ℝ
  gravity : V3 ℝ
  timeStep : ℝ

/-- `zip!(ref_volume, density, tets)`. -/
def tetBodies (es : List TetElem) (ds : List ℝ) : List (Body 4) :=
  (es.zip ds).map fun p => ⟨p.1.cell, p.1.ref.volume, p.2⟩

/-- `zip!(ref_area, density, triangles)`. -/
def triBodies (es : List TriElem) (ds : List ℝ) : List (Body 3) :=
  (es.zip ds).map fun p => ⟨p.1.cell, p.1.ref.area, p.2⟩

namespace Problem

variable (P : Problem)

def nhBodies : List (Body 4) := tetBodies P.nh P.nhDensity
def snhBodies : List (Body 4) := tetBodies P.snh P.snhDensity
def shellBodies : List (Body 3) := triBodies P.shell.tris P.shellDensity

/-- `is_static`: problem.rs lines 220-222. -/
def isStatic : Prop := P.timeStep = 0

open Classical in
/-- `time_step()`: problem.rs lines 208-214. -/
def dt : ℝ := if P.isStatic then 1 else P.timeStep

/-- `energy`: problem.rs lines 1087-1118. Each of the pairs of solids is added as in
energy_models/mod.rs lines 159-163. -/
def energy (x v : ℕ → V3 ℝ) (dqdv : ℝ) : Option ℝ :=
  (tetEnergy .nh P.nh x v dqdv).bind fun a =>
  (tetEnergy .snh P.snh x v dqdv).bind fun b =>
  (P.shell.energy x v dqdv).bind fun s =>
  some ((a + b) + (gravityEnergy tetKind P.gravity P.nhBodies x
    + gravityEnergy tetKind P.gravity P.snhBodies x)
    + s + gravityEnergy triKind P.gravity P.shellBodies x)

/-- `inertia`: problem.rs lines 1074-1084. -/
def inertia (v0 v : ℕ → V3 ℝ) : ℝ :=
  inertiaEnergy tetKind P.nhBodies v0 v + inertiaEnergy tetKind P.snhBodies v0 v
    + inertiaEnergy triKind P.shellBodies v0 v

/-- `subtract_force` applied to the cleared residual: problem.rs lines 1209-1241, 1402-1405. -/
def force (x v : ℕ → V3 ℝ) (dqdv : ℝ) : Option (ℕ → V3 ℝ) :=
  (tetGradient .nh P.nh x v dqdv fun _ => 0).bind fun r =>
  (tetGradient .snh P.snh x v dqdv r).bind fun r =>
  some (gravityGradient triKind P.gravity P.shellBodies
    (P.shell.gradient x v dqdv
      (gravityGradient tetKind P.gravity P.snhBodies
        (gravityGradient tetKind P.gravity P.nhBodies r))))

/-- `add_momentum_diff`: problem.rs lines 1029-1044. -/
def momentumDiff (v0 v : ℕ → V3 ℝ) (r : ℕ → V3 ℝ) : ℕ → V3 ℝ :=
  inertiaGradient triKind P.shellBodies v0 v
    (inertiaGradient tetKind P.snhBodies v0 v (inertiaGradient tetKind P.nhBodies v0 v r))

open Classical in
/-- `compute_objective`: problem.rs lines 1355-1390, for a problem with `N` vertices. -/
def objective (N : ℕ) (forceMul prevForceMul : ℝ) (prevForce : ℕ → V3 ℝ) (v0 x v : ℕ → V3 ℝ) :
    Option ℝ :=
  let dqdv := P.dt * forceMul
  let start := if prevForceMul > 0
    then (∑ i ∈ Finset.range N, V3.dot (prevForce i) (v i)) * prevForceMul * P.dt else 0
  (P.energy x v dqdv).map fun e =>
    if P.isStatic then start + e else start + e + P.inertia v0 v

open Classical in
/-- `compute_vertex_residual_impl`: problem.rs lines 1396-1451. The result is the residual and the
force that is saved as `candidate_force`. -/
def residual (forceMul prevForceMul : ℝ) (prevForce : ℕ → V3 ℝ) (v0 x v : ℕ → V3 ℝ) :
    Option ((ℕ → V3 ℝ) × (ℕ → V3 ℝ)) :=
  let dqdv := P.dt * forceMul
  (P.force x v dqdv).map fun f =>
    let r : ℕ → V3 ℝ := if prevForceMul > 0
      then fun i => P.dt • (forceMul • f i + prevForceMul • prevForce i)
      else fun i => dqdv • f i
    (if P.isStatic then r else P.momentumDiff v0 v r, f)

open Classical in
/-- The positions in the lower triangle: problem.rs lines 1489-1522. -/
def lowerIndices : List (ℕ × ℕ) :=
  (tetIndices P.nh (0, 0) ++ tetIndices P.snh (0, 0)) ++ P.shell.indices (0, 0) ++
    if P.isStatic then [] else
      (inertiaIndices P.nhBodies (0, 0) ++ inertiaIndices P.snhBodies (0, 0)) ++
        inertiaIndices P.shellBodies (0, 0)

open Classical in
/-- The values of the lower triangle: problem.rs lines 1761-1813. The factor `impulse_inv_scale` is one
(lines 196-198). -/
def lowerValues (x v : ℕ → V3 ℝ) (dqdv forceMultiplier : ℝ) : List ℝ :=
  let factor : ℝ := 1
  let scale := dqdv * forceMultiplier * factor
  (tetValues .nh P.nh x v dqdv scale ++ tetValues .snh P.snh x v dqdv scale) ++
    P.shell.values x scale ++
    if P.isStatic then [] else
      (inertiaValues tetKind P.nhBodies factor ++ inertiaValues tetKind P.snhBodies factor) ++
        inertiaValues triKind P.shellBodies factor

open Classical in
/-- `jacobian_nnz` without constraints: problem.rs lines 949-972, with `num_hessian_diagonal_nnz` of
tetsolid_nh.rs lines 209-211 and trishell_nh.rs lines 318-322. -/
def nnz : ℕ :=
  let solid := tetHessianSize P.nh + tetHessianSize P.snh
  let solidDiag := 12 * P.nh.length + 12 * P.snh.length
  let shellDiag := 9 * P.shell.tris.length + 12 * P.shell.dihedrals.length
  let solidInertia := inertiaSize P.nhBodies + inertiaSize P.snhBodies
  let shellInertia := inertiaSize P.shellBodies
  (2 * solid - solidDiag + if P.isStatic then 0 else 2 * solidInertia - solidInertia)
    + (2 * P.shell.hessianSize - shellDiag + if P.isStatic then 0 else 2 * shellInertia - shellInertia)

/-- `compute_jacobian_indices` without constraints: problem.rs lines 1480-1550. The buffers have the
length `nnz` (lines 1466-1477). -/
def jacobianIndices : List (ℕ × ℕ) :=
  Sparse.mirrorIndices P.lowerIndices (P.nnz - P.lowerIndices.length)

/-- `jacobian_values` without constraints: problem.rs lines 1736-1842. -/
def jacobianValues (x v : ℕ → V3 ℝ) (dqdv forceMultiplier : ℝ) : List ℝ :=
  Sparse.mirrorValues P.lowerIndices (P.lowerValues x v dqdv forceMultiplier)
    (P.nnz - P.lowerIndices.length)

/-- A buffer of scalars as vectors and back: `bytemuck::cast_slice`. -/
def toVec (D : ℕ → ℝ) (i : ℕ) : V3 ℝ := ⟨D (3 * i), D (3 * i + 1), D (3 * i + 2)⟩

def ofVec (D : ℕ → V3 ℝ) (i : ℕ) : ℝ :=
  if i % 3 = 0 then (D (i / 3)).x else if i % 3 = 1 then (D (i / 3)).y else (D (i / 3)).z

open Classical in
/-- `jacobian_diagonal_impl`: problem.rs lines 1669-1716, for a buffer of `3 * n` scalars. The
elastic models compare vertex numbers with `n`. -/
def jacobianDiagonal (x v : ℕ → V3 ℝ) (dqdv forceMultiplier : ℝ) (n : ℕ) (D : ℕ → ℝ) :
    Option (ℕ → ℝ) :=
  let factor : ℝ := 1
  let scale := dqdv * forceMultiplier * factor
  let D := tetDiagonal .nh P.nh x v dqdv scale n (toVec D)
  let D := tetDiagonal .snh P.snh x v dqdv scale n D
  let D := ofVec (P.shell.diagonal x scale n D)
  if P.isStatic then some D else
    (solidInertiaDiagonal P.nhBodies factor (3 * n) D).bind fun D =>
    (solidInertiaDiagonal P.snhBodies factor (3 * n) D).bind fun D =>
    shellInertiaDiagonal P.shellBodies factor (3 * n) D

end Problem

end Softy.Fem
