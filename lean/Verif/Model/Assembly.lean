import Verif.Model.TetElasticity
import Verif.Model.TriElasticity
import Verif.Model.InteriorEdge

/-!
# Assembly of the elastic energies of whole meshes

Model of `softy/src/energy_models/elasticity/tetsolid_nh.rs` (`TetSolidElasticity`) and
`trishell_nh.rs` (`TriShellElasticity`): energies, gradients and Hessian triplets of all elements
and the order in which they are written. Vertex data are functions of the vertex number, so that
reads out of bounds are not modelled. Loops over elements that run in parallel write to disjoint
chunks and are modelled in sequential order. The projection of the local Hessians to positive
semi-definite ones (`projected_hessian`, tetsolid_nh.rs lines 328-352) is in `Model/Projection.lean`.
-/

noncomputable section

namespace Softy.Assembly

open Softy

/-! ## Order of the Hessian entries -/

/-- An entry of a local Hessian: the two vertices `(n, k)` and the position `(row, col)` in their
block. -/
abbrev Entry (m : ℕ) := Fin m × Fin m × Fin 3 × Fin 3

/-- The entries in the order in which `hessian_for_each` goes through them: tetsolid_nh.rs lines
56-76 (for `m = 4`) and `tri_hessian_for_each`, trishell_nh.rs lines 62-82 (for `m = 3`). -/
def pattern (m : ℕ) : List (Entry m) :=
  (List.finRange m).flatMap fun k : Fin m =>
    ((List.finRange m).drop k.val).flatMap fun n : Fin m =>
      (List.finRange 3).flatMap fun row =>
        ((List.finRange 3).take (if n = k then row.val + 1 else 3)).map fun col => (n, k, row, col)

/-- The entries in the order of `edge_hessian_for_each`, trishell_nh.rs lines 91-140: first the
blocks on the diagonal, then the blocks below it. -/
def edgePattern : List (Entry 4) :=
  ((List.finRange 4).flatMap fun vtx =>
    (List.finRange 3).flatMap fun row =>
      ((List.finRange 3).take (row.val + 1)).map fun col => (vtx, vtx, row, col)) ++
  (((List.finRange 4).drop 1).flatMap fun rowVtx : Fin 4 =>
    ((List.finRange 4).take rowVtx.val).flatMap fun colVtx : Fin 4 =>
      (List.finRange 3).flatMap fun row =>
        (List.finRange 3).map fun col => (rowVtx, colVtx, row, col))

/-- The row and column of an entry in the matrix of the whole mesh: tetsolid_nh.rs lines 238-245 and
272-281, trishell_nh.rs lines 354-363, 391-405, 436-445, 468-486. For the blocks on the diagonal of a dihedral
element the code does not compare the vertices, which are the same. -/
def globalIndex {m : ℕ} (cell : Fin m → ℕ) (offset : ℕ × ℕ) (e : Entry m) : ℕ × ℕ :=
  let n := e.1
  let k := e.2.1
  let row := e.2.2.1
  let col := e.2.2.2
  let globalRow := 3 * cell n + row.val
  let globalCol := 3 * cell k + col.val
  if cell n < cell k then (globalCol + offset.1, globalRow + offset.2)
  else (globalRow + offset.1, globalCol + offset.2)

/-- A local Hessian: blocks, then entries. -/
abbrev LocalHess (m : ℕ) := Fin m → Fin m → Fin 3 → Fin 3 → ℝ

/-- The value of an entry: `tet_hess[i] = h[row][col]`, tetsolid_nh.rs line 390, trishell_nh.rs lines
550 and 603-608. -/
def entryValue {m : ℕ} (h : LocalHess m) (e : Entry m) : ℝ := h e.1 e.2.1 e.2.2.1 e.2.2.2

/-! ## Accumulation into vertex arrays -/

/-- `gradient[c] += g` for a list of vertices and vectors. -/
def addAll : List (ℕ × V3 ℝ) → (ℕ → V3 ℝ) → (ℕ → V3 ℝ)
  | [], G => G
  | (c, g) :: l, G => addAll l (Function.update G c (G c + g))

/-- `if c < diag.len() { diag[c] += g }` for a list of vertices and vectors. -/
def addBelow (len : ℕ) : List (ℕ × V3 ℝ) → (ℕ → V3 ℝ) → (ℕ → V3 ℝ)
  | [], G => G
  | (c, g) :: l, G =>
    addBelow len l (if c < len then Function.update G c (G c + g) else G)

/-- The vectors of the vertices of an element: `cell.iter().zip(local.iter())`. -/
def zipCell {m : ℕ} (cell : Fin m → ℕ) (g : Fin m → V3 ℝ) : List (ℕ × V3 ℝ) :=
  (List.finRange m).map fun i => (cell i, g i)

/-- The sum of energies, of which one may be infinite. -/
def sumEnergies : List (Option ℝ) → Option ℝ
  | [] => some 0
  | a :: l => match a, sumEnergies l with
    | some x, some y => some (x + y)
    | _, _ => none

/-- All values, if none of them is infinite or not a number. -/
def collect {α : Type} : List (Option α) → Option (List α)
  | [] => some []
  | a :: l => match a, collect l with
    | some x, some y => some (x :: y)
    | _, _ => none

/-! ## Tetrahedra -/

/-- The element energy model: the parameter `E` of `TetSolidElasticity`. -/
inductive TetModel
  | nh
  | snh

/-- A tetrahedral element: the fields `tets`, `ref_tet_shape_mtx_inv`, `ref_volume`, `lambda`, `mu`
and `damping` of `TetElements`. -/
structure TetElem where
  cell : Fin 4 → ℕ
  ref : Tet.Ref
  damping : ℝ

/-- `E::energy`. -/
def TetModel.energy : TetModel → Tet.Elem → Option ℝ
  | nh => Tet.nhEnergy
  | snh => Tet.snhEnergy

/-- `E::energy_gradient`. -/
def TetModel.gradient : TetModel → Tet.Elem → Option Tet.Verts
  | nh => Tet.nhGradient
  | snh => Tet.snhGradient

/-- `E::energy_hessian`. -/
def TetModel.hessian : TetModel → Tet.Elem → Tet.Hess
  | nh => Tet.nhHessian
  | snh => Tet.snhHessian

/-- `E::energy_hessian_product_transpose`. -/
def TetModel.product : TetModel → Tet.Elem → Tet.Verts → M3 ℝ
  | nh => Tet.nhProduct
  | snh => Tet.snhProduct

/-- `Tetrahedron::from_indexed_slice(cell, x)`. -/
def TetElem.pick (e : TetElem) (x : ℕ → V3 ℝ) : Tet.Verts := fun i => x (e.cell i)

/-- The element of the previous positions: `tet_x0 = tet_x - tet_v * dqdv` and `tet_energy_prev`,
tetsolid_nh.rs lines 111-113, 178-180, 360-362, 433-435. -/
def TetElem.prev (e : TetElem) (x v : ℕ → V3 ℝ) (dqdv : ℝ) : Tet.Elem :=
  e.ref.at fun i => e.pick x i - dqdv • e.pick v i

/-- The energy of one element: tetsolid_nh.rs lines 95-127. -/
def TetElem.energy (M : TetModel) (e : TetElem) (x v : ℕ → V3 ℝ) (dqdv : ℝ) : Option ℝ :=
  (M.energy (e.ref.at (e.pick x))).map fun elastic =>
    let dH := M.product (e.prev x v dqdv) (e.pick v)
    let v3 := e.pick v 3
    elastic + 0.5 * e.damping * (dqdv * dqdv) *
      (V3.dot dH.r0 (e.pick v 0) + V3.dot dH.r1 (e.pick v 1) + V3.dot dH.r2 (e.pick v 2)
        - (V3.dot dH.r0 v3 + V3.dot dH.r1 v3 + V3.dot dH.r2 v3))

/-- The gradient of one element: tetsolid_nh.rs lines 154-190. -/
def TetElem.gradient (M : TetModel) (e : TetElem) (x v : ℕ → V3 ℝ) (dqdv : ℝ) : Option Tet.Verts :=
  (M.gradient (e.ref.at (e.pick x))).map fun grad =>
    let dH := M.product (e.prev x v dqdv) (e.pick v)
    let damping := e.damping * dqdv
    ![grad 0 + damping • dH.r0, grad 1 + damping • dH.r1, grad 2 + damping • dH.r2,
      grad 3 - damping • dH.r0 - damping • dH.r1 - damping • dH.r2]

/-- The local Hessian of one element: `(local_hessians[n][k] + damping_hessians[n][k] * damping) *
scale`, tetsolid_nh.rs lines 311-379. -/
def TetElem.hessian (M : TetModel) (e : TetElem) (x v : ℕ → V3 ℝ) (dqdv scale : ℝ) : LocalHess 4 :=
  fun n k row col =>
    (M.hessian (e.ref.at (e.pick x)) n k row col
      + M.hessian (e.prev x v dqdv) n k row col * e.damping) * scale

/-- `energy`: tetsolid_nh.rs lines 82-129. -/
def tetEnergy (M : TetModel) (es : List TetElem) (x v : ℕ → V3 ℝ) (dqdv : ℝ) : Option ℝ :=
  sumEnergies (es.map fun e => e.energy M x v dqdv)

/-- `add_energy_gradient`: tetsolid_nh.rs lines 135-202. -/
def tetGradient (M : TetModel) (es : List TetElem) (x v : ℕ → V3 ℝ) (dqdv : ℝ) (G : ℕ → V3 ℝ) :
    Option (ℕ → V3 ℝ) :=
  (collect (es.map fun e => e.gradient M x v dqdv)).map fun loc =>
    addAll ((es.zip loc).flatMap fun p => zipCell p.1.cell p.2) G

/-- `energy_hessian_indices_offset`, tetsolid_nh.rs lines 252-286, and
`energy_hessian_rows_cols_offset`, lines 213-250. -/
def tetIndices (es : List TetElem) (offset : ℕ × ℕ) : List (ℕ × ℕ) :=
  es.flatMap fun e => (pattern 4).map (globalIndex e.cell offset)

/-- `energy_hessian_values`: tetsolid_nh.rs lines 291-394. -/
def tetValues (M : TetModel) (es : List TetElem) (x v : ℕ → V3 ℝ) (dqdv scale : ℝ) : List ℝ :=
  es.flatMap fun e => (pattern 4).map (entryValue (e.hessian M x v dqdv scale))

/-- `energy_hessian_size`: tetsolid_nh.rs lines 206-208. -/
def tetHessianSize (es : List TetElem) : ℕ := 78 * es.length

/-- `utils::get_diag3`: the diagonal of a block. -/
def diag3 (h : Fin 3 → Fin 3 → ℝ) : V3 ℝ := ⟨h 0 0, h 1 1, h 2 2⟩

/-- `add_energy_hessian_diagonal`: tetsolid_nh.rs lines 398-471. -/
def tetDiagonal (M : TetModel) (es : List TetElem) (x v : ℕ → V3 ℝ) (dqdv scale : ℝ) (len : ℕ)
    (D : ℕ → V3 ℝ) : ℕ → V3 ℝ :=
  addBelow len (es.flatMap fun e => zipCell e.cell fun i =>
    scale • (diag3 (M.hessian (e.ref.at (e.pick x)) i i)
      + e.damping • diag3 (M.hessian (e.prev x v dqdv) i i))) D

/-! ## Shells -/

/-- A triangle element: the fields `triangles`, `ref_tri_shape_mtx_inv`, `ref_area`, `lambda`, `mu`
and `damping` of `TriangleElements`. -/
structure TriElem where
  cell : Fin 3 → ℕ
  ref : Tri.Ref
  damping : ℝ

/-- `Triangle::from_indexed_slice(face, x)`. -/
def TriElem.pick (e : TriElem) (x : ℕ → V3 ℝ) : Tri.Verts := fun i => x (e.cell i)

/-- The membrane energy of one element: trishell_nh.rs lines 164-181. -/
def TriElem.energy (e : TriElem) (x v : ℕ → V3 ℝ) (dqdv : ℝ) : Option ℝ :=
  (Tri.energy (e.ref.at (e.pick x))).map fun elastic =>
    let dF := (e.ref.at (e.pick x)).dF (e.pick v)
    elastic + e.ref.mu * e.ref.area * (V3.dot dF.r0 dF.r0 + V3.dot dF.r1 dF.r1) * 0.5 * e.damping
      * (dqdv * dqdv)

/-- The damping forces of the first two vertices: trishell_nh.rs lines 261-262. -/
def TriElem.damp (e : TriElem) (x v : ℕ → V3 ℝ) (dqdv : ℝ) : Tri.M23 :=
  (e.ref.mu * e.ref.area * e.damping) •
    e.ref.DXinv.transpose.mul23 (dqdv • (e.ref.at (e.pick x)).dF (e.pick v))

/-- The additions to the gradient for one triangle, in order: trishell_nh.rs lines 250-266. -/
def TriElem.gradientUpdates (e : TriElem) (x v : ℕ → V3 ℝ) (dqdv : ℝ) : List (ℕ × V3 ℝ) :=
  let grad := Tri.gradient (e.ref.at (e.pick x))
  let damp := e.damp x v dqdv
  zipCell e.cell grad ++
    [(e.cell 0, damp.r0), (e.cell 2, -damp.r0), (e.cell 1, damp.r1), (e.cell 2, -damp.r1)]

/-- The matrix `ddF = DX_inv.transpose() * DX_inv * (area * mu * damping)`: trishell_nh.rs lines 533
and 721. -/
def TriElem.ddF (e : TriElem) : Tri.M22 :=
  let D := e.ref.DXinv
  let c := e.ref.area * e.ref.mu * e.damping
  ⟨⟨c * (D.r0.x * D.r0.x + D.r1.x * D.r1.x), c * (D.r0.x * D.r0.y + D.r1.x * D.r1.y)⟩,
    ⟨c * (D.r0.y * D.r0.x + D.r1.y * D.r1.x), c * (D.r0.y * D.r0.y + D.r1.y * D.r1.y)⟩⟩

/-- The factor of the identity in the block `(n, k)`: trishell_nh.rs lines 539-547. -/
def TriElem.dampBlock (e : TriElem) (n k : Fin 3) : ℝ :=
  let m := e.ddF
  let row : Fin 3 → V2 ℝ := ![m.r0, m.r1, ⟨0, 0⟩]
  let sum := fun r : V2 ℝ => r.x + r.y
  if n = 2 ∧ k = 2 then m.r0.x + m.r0.y + m.r1.x + m.r1.y
  else if k = 2 then -sum (row n)
  else if n = 2 then -sum (row k)
  else ![(row n).x, (row n).y, 0] k

/-- The local Hessian of one triangle: trishell_nh.rs lines 521-549. -/
def TriElem.hessian (e : TriElem) (x : ℕ → V3 ℝ) (scale : ℝ) : LocalHess 3 :=
  fun n k row col =>
    (Tri.hessian (e.ref.at (e.pick x)) n k row col
      + (if row = col then e.dampBlock n k else 0)) * scale

/-- A dihedral element: the fields `dihedrals`, `angles`, `ref_angles`, `ref_length` and
`bending_stiffness` of `DihedralElements`. -/
structure Dihedral where
  edge : IEdge.Edge
  bending : IEdge.Bending

/-- `edge.verts(..)` as a function of the local vertex: trishell_nh.rs lines 299, 383, 462. -/
def Dihedral.cell (e : Dihedral) (faces : ℕ → ℕ → ℕ) : Fin 4 → ℕ :=
  ![e.edge.vert0 faces 0, e.edge.vert0 faces 1, e.edge.vert0 faces 2, e.edge.vert1 faces 2]

/-- The gradient of the bending energy by local vertex. -/
def gradList (g : IEdge.Grad) : Fin 4 → V3 ℝ := ![g.d0, g.d1, g.d2, g.d3]

/-- The entry of a lower triangle at a row and a column, `h[i]` with the counter `i` of
`edge_hessian_for_each`. Above the diagonal there is no entry. -/
def lowAt (h : IEdge.Low) : Fin 3 → Fin 3 → ℝ :=
  ![![h.a00, 0, 0], ![h.a10, h.a11, 0], ![h.a20, h.a21, h.a22]]

/-- The local Hessian of a dihedral element: trishell_nh.rs lines 587-609. -/
def bendLocal (h : IEdge.BHess) (scale : ℝ) : LocalHess 4 :=
  ![![fun r c => scale * lowAt h.main.h0 r c, fun _ _ => 0, fun _ _ => 0, fun _ _ => 0],
    ![fun r c => scale * h.main.h10.at r c, fun r c => scale * lowAt h.main.h1 r c, fun _ _ => 0,
      fun _ _ => 0],
    ![fun r c => scale * h.main.h20.at r c, fun r c => scale * h.main.h21.at r c,
      fun r c => scale * lowAt h.main.h2 r c, fun _ _ => 0],
    ![fun r c => scale * h.main.h30.at r c, fun r c => scale * h.main.h31.at r c,
      fun r c => scale * h.h32.at r c, fun r c => scale * lowAt h.main.h3 r c]]

/-- A shell: `triangle_elements` and `dihedral_elements` with its `triangles`. -/
structure Shell where
  tris : List TriElem
  dihedrals : List Dihedral
  faces : ℕ → ℕ → ℕ

/-- `energy`: trishell_nh.rs lines 146-209. -/
def Shell.energy (s : Shell) (x v : ℕ → V3 ℝ) (dqdv : ℝ) : Option ℝ :=
  (sumEnergies (s.tris.map fun e => e.energy x v dqdv)).map fun membrane =>
    membrane + (s.dihedrals.map fun e => e.bending.energy e.edge x s.faces).sum

/-- `add_energy_gradient`: trishell_nh.rs lines 215-308. -/
def Shell.gradient (s : Shell) (x v : ℕ → V3 ℝ) (dqdv : ℝ) (G : ℕ → V3 ℝ) : ℕ → V3 ℝ :=
  addAll (s.dihedrals.flatMap fun e =>
      zipCell (e.cell s.faces) (gradList (e.bending.gradient e.edge x s.faces)))
    (addAll (s.tris.flatMap fun e => e.gradientUpdates x v dqdv) G)

/-- `energy_hessian_indices_offset`, trishell_nh.rs lines 412-491, and
`energy_hessian_rows_cols_offset`, lines 324-410. -/
def Shell.indices (s : Shell) (offset : ℕ × ℕ) : List (ℕ × ℕ) :=
  (s.tris.flatMap fun e => (pattern 3).map (globalIndex e.cell offset)) ++
    (s.dihedrals.flatMap fun e => edgePattern.map (globalIndex (e.cell s.faces) offset))

/-- `energy_hessian_values`: trishell_nh.rs lines 498-681. -/
def Shell.values (s : Shell) (x : ℕ → V3 ℝ) (scale : ℝ) : List ℝ :=
  (s.tris.flatMap fun e => (pattern 3).map (entryValue (e.hessian x scale))) ++
    (s.dihedrals.flatMap fun e =>
      edgePattern.map (entryValue (bendLocal (e.bending.hessian e.edge x s.faces) scale)))

/-- `energy_hessian_size`: trishell_nh.rs lines 312-317. -/
def Shell.hessianSize (s : Shell) : ℕ := 45 * s.tris.length + 78 * s.dihedrals.length

/-- The diagonal of the local Hessian of one triangle: trishell_nh.rs lines 703-729. -/
def TriElem.diagonal (e : TriElem) (x : ℕ → V3 ℝ) (scale : ℝ) : Fin 3 → V3 ℝ := fun i =>
  let one : V3 ℝ := ⟨1, 1, 1⟩
  let m := e.ddF
  scale • diag3 (Tri.hessian (e.ref.at (e.pick x)) i i)
    + (scale * ![m.r0.x, m.r1.y, m.r0.x + m.r0.y + m.r1.x + m.r1.y] i) • one

/-- The diagonal of the local Hessian of one dihedral element: trishell_nh.rs lines 744-770. -/
def Dihedral.diagonal (e : Dihedral) (faces : ℕ → ℕ → ℕ) (x : ℕ → V3 ℝ) (scale : ℝ) :
    Fin 4 → V3 ℝ := fun i =>
  let dw := e.bending.angleDerivative e.edge x faces
  let g := gradList (e.edge.gradient x faces) i
  let k := e.bending.stiffness * e.bending.refShape
  let h := e.edge.hessian x faces
  let low : IEdge.Low := ![h.h0, h.h1, h.h2, h.h3] i
  let m := M3.outer g (k • g)
  scale • ((⟨m.r0.x, m.r1.y, m.r2.z⟩ : V3 ℝ) + dw • (⟨low.a00, low.a11, low.a22⟩ : V3 ℝ))

/-- `add_energy_hessian_diagonal`: trishell_nh.rs lines 685-801. -/
def Shell.diagonal (s : Shell) (x : ℕ → V3 ℝ) (scale : ℝ) (len : ℕ) (D : ℕ → V3 ℝ) : ℕ → V3 ℝ :=
  addBelow len (s.dihedrals.flatMap fun e => zipCell (e.cell s.faces) (e.diagonal s.faces x scale))
    (addBelow len (s.tris.flatMap fun e => zipCell e.cell (e.diagonal x scale)) D)

end Softy.Assembly
