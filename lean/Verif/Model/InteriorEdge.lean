import Verif.Model.Mat
import Mathlib.Analysis.SpecialFunctions.Complex.Arg

/-!
# Model of interior edges and their bending angles

`softy/src/objects/interior_edge.rs`. Positions are real vectors. `atan2` is the argument of a
complex number. `geo`'s `Triangle::area_normal` of `(a, b, c)` is `(b - a) × (c - a)`.
-/

noncomputable section

namespace Softy.IEdge

open V3

/-- `interior_edge.rs:32-39`, `InteriorEdge`: two faces, and in each the corner (0, 1 or 2) where
the edge starts. -/
structure Edge where
  f0 : ℕ
  f1 : ℕ
  s0 : ℕ
  s1 : ℕ
deriving DecidableEq

/-- `interior_edge.rs:53-62`, `face_vert` of face 0. -/
def Edge.vert0 {α : Type} (e : Edge) (get : ℕ → ℕ → α) (v : ℕ) : α := get e.f0 ((e.s0 + v) % 3)

/-- `interior_edge.rs:53-62`, `face_vert` of face 1. -/
def Edge.vert1 {α : Type} (e : Edge) (get : ℕ → ℕ → α) (v : ℕ) : α := get e.f1 ((e.s1 + v) % 3)

/-- `interior_edge.rs:105-110`, `verts`: the ends of the edge and the two opposite vertices. -/
def Edge.verts (e : Edge) (faces : ℕ → ℕ → ℕ) : List ℕ :=
  [e.vert0 faces 0, e.vert0 faces 1, e.vert0 faces 2, e.vert1 faces 2]

/-- `interior_edge.rs:175-182`, `edge_vector`. -/
def Edge.edgeVector (e : Edge) (pos : ℕ → V3 ℝ) (faces : ℕ → ℕ → ℕ) : V3 ℝ :=
  pos (e.vert0 faces 1) - pos (e.vert0 faces 0)

/-- `interior_edge.rs:187-198`, `face0_tangent`. -/
def Edge.face0Tangent (e : Edge) (pos : ℕ → V3 ℝ) (faces : ℕ → ℕ → ℕ) : V3 ℝ :=
  pos (e.vert0 faces 2) - pos (faces e.f0 e.s0)

/-- `interior_edge.rs:202-213`, `face1_tangent`. -/
def Edge.face1Tangent (e : Edge) (pos : ℕ → V3 ℝ) (faces : ℕ → ℕ → ℕ) : V3 ℝ :=
  pos (e.vert1 faces 2) - pos (e.vert0 faces 0)

/-- `interior_edge.rs:219-221`, `is_oriented`. -/
def Edge.isOriented (e : Edge) (faces : ℕ → ℕ → ℕ) : Bool :=
  decide (e.vert0 faces 0 ≠ e.vert1 faces 0)

/-- `geo::prim::Triangle::area_normal`. -/
def areaNormal (a b c : V3 ℝ) : V3 ℝ := cross (b - a) (c - a)

/-- `interior_edge.rs:228-252`, `face_area_normals`, for face 0. -/
def Edge.normal0 (e : Edge) (pos : ℕ → V3 ℝ) (faces : ℕ → ℕ → ℕ) : V3 ℝ :=
  areaNormal (pos (faces e.f0 0)) (pos (faces e.f0 1)) (pos (faces e.f0 2))

/-- `interior_edge.rs:228-252`, `face_area_normals`, for face 1, whose first two vertices are
exchanged if the faces are not oriented alike. -/
def Edge.normal1 (e : Edge) (pos : ℕ → V3 ℝ) (faces : ℕ → ℕ → ℕ) : V3 ℝ :=
  if e.isOriented faces then
    areaNormal (pos (faces e.f1 0)) (pos (faces e.f1 1)) (pos (faces e.f1 2))
  else areaNormal (pos (faces e.f1 1)) (pos (faces e.f1 0)) (pos (faces e.f1 2))

/-- `Float::atan2`. -/
def atan2 (y x : ℝ) : ℝ := Complex.arg ⟨x, y⟩

/-- `interior_edge.rs:268-283`, `edge_angle`. -/
def Edge.edgeAngle (e : Edge) (pos : ℕ → V3 ℝ) (faces : ℕ → ℕ → ℕ) : ℝ :=
  let y := (e.edgeVector pos faces).norm * dot (e.face1Tangent pos faces) (e.normal0 pos faces);
  -atan2 y (dot (e.normal0 pos faces) (e.normal1 pos faces))

/-- `Float::signum` of a number that is not negative zero. -/
def signum (x : ℝ) : ℝ := if x < 0 then -1 else 1

/-- `interior_edge.rs:291-319`, `ref_edge_angle`; `refPos` gives the reference position of a
corner of a face. -/
def Edge.refAngle (e : Edge) (refPos : ℕ → ℕ → V3 ℝ) : ℝ :=
  let an0 := areaNormal (refPos e.f0 0) (refPos e.f0 1) (refPos e.f0 2)
  let an1 := areaNormal (refPos e.f1 0) (refPos e.f1 1) (refPos e.f1 2)
  open Classical in
  if (e.vert0 refPos 0 = e.vert1 refPos 0 ∧ e.vert0 refPos 1 = e.vert1 refPos 1) ∨
      (e.vert0 refPos 0 = e.vert1 refPos 1 ∧ e.vert0 refPos 1 = e.vert1 refPos 0) then
    let t := e.vert0 refPos 2 - e.vert0 refPos 0
    atan2 (cross an0 an1).norm (dot an0 an1) * -signum (dot an1 t)
  else 0

/-! ## Tracking of angles -/

/-- The remainder `a % b` of floats for positive `b`: it has the sign of `a`. -/
def rem (a b : ℝ) : ℝ := if 0 ≤ a then a - b * ⌊a / b⌋ else -(-a - b * ⌊-a / b⌋)

/-- `interior_edge.rs:325-334`, `project_angle`. -/
def projectAngle (angle : ℝ) : ℝ :=
  let out := rem (angle + Real.pi) (2 * Real.pi) - Real.pi
  if out < -Real.pi then out + 2 * Real.pi else out

/-- `interior_edge.rs:341-359`, `incremental_angle`, as a function of `edge_angle`. -/
def wrapAngle (refAngle edgeAngle : ℝ) : ℝ :=
  let diff := edgeAngle - projectAngle refAngle
  refAngle +
    (if diff < -Real.pi then diff + 2 * Real.pi
    else if diff > Real.pi then diff - 2 * Real.pi else diff)

/-- `interior_edge.rs:341-359`, `incremental_angle`. -/
def Edge.incrementalAngle (e : Edge) (refAngle : ℝ) (pos : ℕ → V3 ℝ) (faces : ℕ → ℕ → ℕ) : ℝ :=
  wrapAngle refAngle (e.edgeAngle pos faces)

/-! ## Gradient -/

/-- The gradient with respect to the four vertices. -/
@[ext] structure Grad where
  d0 : V3 ℝ
  d1 : V3 ℝ
  d2 : V3 ℝ
  d3 : V3 ℝ

/-- `interior_edge.rs:366-408`, `edge_angle_gradient`. -/
def Edge.gradient (e : Edge) (pos : ℕ → V3 ℝ) (faces : ℕ → ℕ → ℕ) : Grad :=
  let an0 := e.normal0 pos faces
  let an1 := e.normal1 pos faces
  let e0 := e.edgeVector pos faces
  let e1 := e.face0Tangent pos faces
  let e2 := e.face1Tangent pos faces
  if dot an0 an0 = 0 ∨ dot an1 an1 = 0 then ⟨0, 0, 0, 0⟩
  else
    let e0n := (1 / e0.norm) • e0
    let e1e0n := dot e1 e0n
    let e2e0n := dot e2 e0n
    let an0nn := (1 / dot an0 an0) • an0
    let an1nn := (1 / dot an1 an1) • an1
    ⟨(e0.norm - e1e0n) • an0nn + (e0.norm - e2e0n) • an1nn, e1e0n • an0nn + e2e0n • an1nn,
      (-e0.norm) • an0nn, (-e0.norm) • an1nn⟩

/-! ## Hessian -/

/-- The lower triangle of a 3×3 matrix, by rows (`lower_triangular_vec`). -/
structure Low where
  a00 : ℝ
  a10 : ℝ
  a11 : ℝ
  a20 : ℝ
  a21 : ℝ
  a22 : ℝ

/-- `lower_triangular_vec`. -/
def lower (m : M3 ℝ) : Low := ⟨m.r0.x, m.r1.x, m.r1.y, m.r2.x, m.r2.y, m.r2.z⟩

/-- The output of `edge_angle_hessian`: diagonal blocks by their lower triangle and the blocks of
the lower triangle, without the block of the two opposite vertices. -/
structure Hess where
  h0 : Low
  h1 : Low
  h2 : Low
  h3 : Low
  h10 : M3 ℝ
  h20 : M3 ℝ
  h21 : M3 ℝ
  h30 : M3 ℝ
  h31 : M3 ℝ

/-- `interior_edge.rs:452-455`: the derivative of `n / n·n`. -/
def dnn (n : V3 ℝ) : M3 ℝ :=
  M3.diag (1 / dot n n) -
    (2 : ℝ) • M3.outer ((1 / dot n n) • n) ((1 / dot n n) • n)

/-- `interior_edge.rs:462-467`, `dth_de[0]` (e0e0). -/
def de00 (an0 an1 e0 e1 e2 : V3 ℝ) : M3 ℝ :=
  let e0u := (1 / e0.norm) • e0
  let e0ue1 := dot e0u e1
  let e0ue2 := dot e0u e2
  e0ue1 • (dnn an0 * M3.skew (-e1)) +
    M3.outer ((1 / dot an0 an0) • an0) ((1 / e0.norm) • (e1 - e0ue1 • e0u)) +
    e0ue2 • (dnn an1 * M3.skew e2) +
    M3.outer ((1 / dot an1 an1) • an1) ((1 / e0.norm) • (e2 - e0ue2 • e0u))

/-- `interior_edge.rs:468`, `dth_de[1]`. -/
def de01 (an0 e0 e1 : V3 ℝ) : M3 ℝ :=
  let e0u := (1 / e0.norm) • e0
  dot e0u e1 • (dnn an0 * M3.skew e0) + M3.outer ((1 / dot an0 an0) • an0) e0u

/-- `interior_edge.rs:469`, `dth_de[2]`. -/
def de02 (an1 e0 e2 : V3 ℝ) : M3 ℝ :=
  let e0u := (1 / e0.norm) • e0
  dot e0u e2 • (dnn an1 * M3.skew (-e0)) + M3.outer ((1 / dot an1 an1) • an1) e0u

/-- `interior_edge.rs:470`, `dth_de[3]`. -/
def de11 (an0 e0 : V3 ℝ) : M3 ℝ := (-e0.norm) • (dnn an0 * M3.skew e0)

/-- `interior_edge.rs:471`, `dth_de[4]`. -/
def de22 (an1 e0 : V3 ℝ) : M3 ℝ := (-e0.norm) • (dnn an1 * M3.skew (-e0))

/-- `interior_edge.rs:420-508`, `edge_angle_hessian`. -/
def Edge.hessian (e : Edge) (pos : ℕ → V3 ℝ) (faces : ℕ → ℕ → ℕ) : Hess :=
  let an0 := e.normal0 pos faces
  let an1 := e.normal1 pos faces
  let e0 := e.edgeVector pos faces
  let e1 := e.face0Tangent pos faces
  let e2 := e.face1Tangent pos faces
  if dot an0 an0 = 0 ∨ dot an1 an1 = 0 then
    ⟨lower 0, lower 0, lower 0, lower 0, 0, 0, 0, 0, 0⟩
  else
    let d0 := de00 an0 an1 e0 e1 e2
    let d1 := de01 an0 e0 e1
    let d2 := de02 an1 e0 e2
    let d3 := de11 an0 e0
    let d4 := de22 an1 e0
    ⟨lower (d0 + d1 + d1.transpose + d2 + d2.transpose + d3 + d4), lower d0, lower d3, lower d4,
      -d0 - d1 - d2, -d1.transpose - d3, d1.transpose, -d2.transpose - d4, d2.transpose⟩

/-! ## Bending energy (`softy/src/energy_models/elasticity/tri_nh.rs`) -/

/-- `tri_nh.rs:272-280`, the parameters of `DiscreteShellBendingEnergy`. -/
structure Bending where
  prevTheta : ℝ
  refTheta : ℝ
  refShape : ℝ
  stiffness : ℝ

/-- `tri_nh.rs:285-293`, `energy`. -/
def Bending.energy (b : Bending) (e : Edge) (pos : ℕ → V3 ℝ) (faces : ℕ → ℕ → ℕ) : ℝ :=
  let strain := e.incrementalAngle b.prevTheta pos faces - b.refTheta
  0.5 * b.refShape * b.stiffness * strain * strain

/-- `tri_nh.rs:298-303`, `energy_angle_derivative`. -/
def Bending.angleDerivative (b : Bending) (e : Edge) (pos : ℕ → V3 ℝ) (faces : ℕ → ℕ → ℕ) : ℝ :=
  b.refShape * b.stiffness * (e.incrementalAngle b.prevTheta pos faces - b.refTheta)

/-- `tri_nh.rs:306-320`, `energy_gradient`. -/
def Bending.gradient (b : Bending) (e : Edge) (pos : ℕ → V3 ℝ) (faces : ℕ → ℕ → ℕ) : Grad :=
  let dw := b.angleDerivative e pos faces
  let g := e.gradient pos faces
  ⟨dw • g.d0, dw • g.d1, dw • g.d2, dw • g.d3⟩

/-- Sum of two lower triangles. -/
def Low.add (a b : Low) : Low :=
  ⟨a.a00 + b.a00, a.a10 + b.a10, a.a11 + b.a11, a.a20 + b.a20, a.a21 + b.a21, a.a22 + b.a22⟩

/-- Scaled lower triangle. -/
def Low.scale (c : ℝ) (a : Low) : Low :=
  ⟨c * a.a00, c * a.a10, c * a.a11, c * a.a20, c * a.a21, c * a.a22⟩

/-- The blocks of the Hessian of one dihedral element, with the block of the opposite vertices. -/
structure BHess where
  main : Hess
  h32 : M3 ℝ

/-- `trishell_nh.rs:587-604` with the terms of `tri_nh.rs:324-345`, `energy_hessian`: the Hessian
blocks of one dihedral element (with unit `scale`). The blocks of `edge_hessian_for_each` are
numbered (1,0), (2,0), (2,1), (3,0), (3,1), (3,2). -/
def Bending.hessian (b : Bending) (e : Edge) (pos : ℕ → V3 ℝ) (faces : ℕ → ℕ → ℕ) : BHess :=
  let dw := b.angleDerivative e pos faces
  let g := e.gradient pos faces
  let k := b.stiffness * b.refShape
  let h := e.hessian pos faces
  ⟨⟨(lower (M3.outer g.d0 (k • g.d0))).add (h.h0.scale dw),
      (lower (M3.outer g.d1 (k • g.d1))).add (h.h1.scale dw),
      (lower (M3.outer g.d2 (k • g.d2))).add (h.h2.scale dw),
      (lower (M3.outer g.d3 (k • g.d3))).add (h.h3.scale dw),
      M3.outer g.d1 (k • g.d0) + dw • h.h10, M3.outer g.d2 (k • g.d0) + dw • h.h20,
      M3.outer g.d2 (k • g.d1) + dw • h.h21, M3.outer g.d3 (k • g.d0) + dw • h.h30,
      M3.outer g.d3 (k • g.d1) + dw • h.h31⟩,
    M3.outer g.d3 (k • g.d2)⟩

/-- `trishell.rs:358-498`: the dihedral element of an edge of a shell made from a mesh without
reference angle attribute, given the reference positions, the current positions, the reference
length ratio and the bending stiffness. -/
def Bending.make (e : Edge) (refPos : ℕ → ℕ → V3 ℝ) (pos : ℕ → V3 ℝ) (faces : ℕ → ℕ → ℕ)
    (refShape stiffness : ℝ) : Bending :=
  ⟨e.edgeAngle pos faces, e.refAngle refPos, refShape, stiffness⟩

/-! ## Detection of interior edges -/

/-- Cells of the mesh: triangles, or something else (tetrahedra). -/
inductive Cell where
  | tri (a b c : ℕ)
  | other

/-- `EdgeTopo` and `EdgeData` (`interior_edge.rs:518-548`): the vertices in the order of the first
side that was registered, and the faces; there are one, two or more of them in the three cases of
`EdgeTopo`. -/
structure EdgeData where
  verts : ℕ × ℕ
  faces : List ℕ
deriving DecidableEq

/-- `interior_edge.rs:573-574`: the sorted pair. -/
def sortPair (v0 v1 : ℕ) : ℕ × ℕ := if v0 < v1 then (v0, v1) else (v1, v0)

/-- The hash map from sorted pairs to edges, as an association list in arbitrary order. -/
abbrev EdgeMap := List ((ℕ × ℕ) × EdgeData)

/-- `interior_edge.rs:575-588`: `entry(key).and_modify(..).or_insert(..)`. -/
def register : EdgeMap → ℕ → ℕ × ℕ → EdgeMap
  | [], face, v => [(sortPair v.1 v.2, ⟨v, [face]⟩)]
  | (k, d) :: l, face, v =>
    if k = sortPair v.1 v.2 then (k, { d with faces := d.faces ++ [face] }) :: l
    else (k, d) :: register l face v

/-- `interior_edge.rs:570-590`, `add_face_edges`. -/
def addFace (m : EdgeMap) (face a b c : ℕ) : EdgeMap :=
  register (register (register m face (a, b)) face (b, c)) face (c, a)

/-- `interior_edge.rs:592-602`, the loop over the cells; `i` is the index of the first one. -/
def addCells : EdgeMap → ℕ → List Cell → EdgeMap
  | m, _, [] => m
  | m, i, .tri a b c :: l => addCells (addFace m i a b c) (i + 1) l
  | m, i, .other :: l => addCells m (i + 1) l

/-- `interior_edge.rs:608-637`, `find_triangle_edge_start`; `none` is the panic. -/
def edgeStart (verts : ℕ × ℕ) (v0 v1 v2 : ℕ) : Option ℕ :=
  if v0 = verts.1 then
    if v1 = verts.2 then some 0 else if v2 = verts.2 then some 2 else none
  else if v1 = verts.1 then
    if v2 = verts.2 then some 1 else if v0 = verts.2 then some 0 else none
  else if v2 = verts.1 then
    if v0 = verts.2 then some 2 else if v1 = verts.2 then some 1 else none
  else none

/-- Corner `i` of cell `f` (`mesh.cell_to_vertex`); zero if there is none. -/
def corner (cells : List Cell) (f i : ℕ) : ℕ :=
  match cells[f]? with
  | some (.tri a b c) => match i with
    | 0 => a
    | 1 => b
    | _ => c
  | _ => 0

/-- `interior_edge.rs:639-662`: the edge made from one entry of the map; `none` if it is not
manifold or all its vertices are fixed. The outer `none` is a panic. -/
def makeEdge (cells : List Cell) (isFixed : ℕ → Bool) (d : EdgeData) : Option (Option Edge) :=
  match d.faces with
  | [f0, f1] =>
    match edgeStart d.verts (corner cells f0 0) (corner cells f0 1) (corner cells f0 2),
        edgeStart d.verts (corner cells f1 0) (corner cells f1 1) (corner cells f1 2) with
    | some s0, some s1 =>
      if ((⟨f0, f1, s0, s1⟩ : Edge).verts (corner cells)).any (fun v => !isFixed v) then
        some (some ⟨f0, f1, s0, s1⟩)
      else some none
    | _, _ => none
  | _ => some none

/-- The loop over the values of the map, in the given order. -/
def makeEdges (cells : List Cell) (isFixed : ℕ → Bool) : List EdgeData → Option (List Edge)
  | [] => some []
  | d :: l =>
    match makeEdge cells isFixed d, makeEdges cells isFixed l with
    | some (some e), some es => some (e :: es)
    | some none, some es => some es
    | _, _ => none

end Softy.IEdge
