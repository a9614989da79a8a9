import Verif.Model.Field

/-!
# Second derivatives of the potential field

Model of the Hessians in `implicits/src/field/hessian.rs` that contacts use, and of the second
derivatives of the background in `implicits/src/field/background_field.rs`.

From the crate `geo` one more function is assumed: `Triangle::area_normal_hessian_product(j, i, l)`,
stored column by column and read row by row, is minus the second derivative of `l · area_normal` with
respect to corners `j` (rows) and `i` (columns). Hash maps and vectors over all vertices are modelled
as functions.
-/

noncomputable section

namespace Softy.Field

open Softy Softy.Kernel

/-- A block of a matrix with its block row and block column. -/
structure HBlock where
  row : ℕ
  col : ℕ
  val : M3 ℝ

/-- `hessian.rs:13-23`, `sym_outer`. -/
def symOuter (a b : V3 ℝ) : M3 ℝ :=
  let m01 := a.x * b.y + a.y * b.x
  let m02 := a.x * b.z + a.z * b.x
  let m12 := a.y * b.z + a.z * b.y
  ⟨⟨2 * a.x * b.x, m01, m02⟩, ⟨m01, 2 * a.y * b.y, m12⟩, ⟨m02, m12, 2 * a.z * b.z⟩⟩

/-! ## Background -/

/-- The pairs `(j, i)` with `i < j` in the order of two nested loops over a view. -/
def offDiagonal (view : List ℕ) : List (ℕ × ℕ) :=
  view.flatMap fun i => (view.filter fun j => i < j).map fun j => (j, i)

/-- `background_field.rs:381-399`, `hessian_block_indices`. -/
def bgHessianIndices (weighted : Bool) (view : List ℕ) : List (ℕ × ℕ) :=
  view.map (fun i => (i, i)) ++ if weighted then offDiagonal view else []

namespace Bg

variable (b : Bg)

/-- `background_field.rs:607-649`, the diagonal blocks of `hessian_blocks`. -/
def hessianDiagonal (i : ℕ) : M3 ℝ :=
  let wsi := b.weightSumInv
  let wb := b.bgWeight
  let dwb := b.bgWeightGrad (some b.closest.get)
  let ddwb := b.bgWeightHess (some b.closest.get)
  let f := b.fieldValue
  let df := -b.fieldGrad
  let ddf := b.fieldHess
  let h0 := if b.value.isDistance ∧ i = b.closest.get then wb • ddf else 0
  if b.weighted = false then wsi • h0
  else
    let dw := weightGrad b.kernel b.dist b.q b.S i
    let ddw := weightHess b.kernel b.dist b.q b.S i
    let h1 := h0 + (f * wb * wsi) • (M3.outer dw ((2 * wsi) • dw) - ddw)
    let factor := 1 - wb * wsi
    let h2 := if b.value.isDistance ∧ i = b.closest.get then
        h1 + ((factor * f) • ddwb - (factor * 2 * f * wsi) • M3.outer dwb dwb +
          ((1 - 2 * wb * wsi) * f * wsi) • symOuter dwb dw + factor • symOuter df dwb +
          wsi • (wb • symOuter df dw))
      else h1
    wsi • h2

/-- `background_field.rs:651-681`, the other blocks of `hessian_blocks`, for samples `j` (rows) and
`i` (columns). -/
def hessianOffDiagonal (j i : ℕ) : M3 ℝ :=
  let wsi := b.weightSumInv
  let wb := b.bgWeight
  let dwb := b.bgWeightGrad (some b.closest.get)
  let f := b.fieldValue
  let df := -b.fieldGrad
  let dwi := weightGrad b.kernel b.dist b.q b.S i
  let dwj := weightGrad b.kernel b.dist b.q b.S j
  let dwdwFactor := 2 * f * wsi
  let dwdwbFactor := f * (1 - 2 * wb * wsi)
  let h :=
    if i = b.closest.get then M3.outer dwj (wb • (dwdwFactor • dwi + df) + dwdwbFactor • dwb)
    else if j = b.closest.get then
      M3.outer (wb • (df + dwdwFactor • dwj) + dwdwbFactor • dwb) dwi
    else (dwdwFactor * wb) • M3.outer dwj dwi
  wsi • (wsi • h)

/-- `background_field.rs:583-683`, `hessian_blocks`. -/
def hessianBlocks : List (M3 ℝ) :=
  b.view.map b.hessianDiagonal ++
    if b.weighted then (offDiagonal b.view).map fun p => b.hessianOffDiagonal p.1 p.2 else []

/-- `background_field.rs:725-777`, `compute_query_hessian`. -/
def queryHessian : M3 ℝ :=
  let wsi := b.weightSumInv
  let wb := b.bgWeight
  let h0 := wb • b.fieldHess
  let h1 :=
    if b.weighted then
      let dwb := b.bgWeightGrad none
      let dwTotal := (b.view.map (weightGrad b.kernel b.dist b.q b.S)).sum + dwb
      let ddwb := b.bgWeightHess none
      let ddwTotal := (b.view.map (weightHess b.kernel b.dist b.q b.S)).sum + ddwb
      let f := b.fieldValue
      let df := b.fieldGrad
      h0 + (symOuter df dwb - (wb * wsi) • symOuter dwTotal df - (f * wsi) • symOuter dwTotal dwb +
        M3.outer dwTotal ((2 * f * wb * wsi * wsi) • dwTotal) + f • ddwb -
        (wb * wsi) • (f • ddwTotal))
    else h0
  wsi • h1

end Bg

/-! ## Hessian with respect to the query point -/

/-- `hessian.rs:1083-1108`, `normalized_neighbor_weight_hessian`. -/
def neighborWeightHess (b : Bg) : M3 ℝ :=
  b.weightSumInv • ((b.view.map (weightHess b.kernel b.dist b.q b.S)).sum + b.bgWeightHess none)

/-- The closure of `query_hessian_at` (`hessian.rs:1062-1077`), for one sample. -/
def sampleQueryHessian (b : Bg) (dwNeigh : V3 ℝ) (ddwNeigh : M3 ℝ) (i : ℕ) : M3 ℝ :=
  let n := (1 / (b.S.nml i).norm) • b.S.nml i
  let w := weight b.kernel b.dist b.q b.S i
  let dw := weightGrad b.kernel b.dist b.q b.S i
  let ddw := weightHess b.kernel b.dist b.q b.S i
  let psi := b.S.value i + V3.dot n (b.q - b.S.pos i)
  symOuter n dw - w • symOuter n dwNeigh - psi • symOuter dwNeigh dw - w • (psi • ddwNeigh) +
    psi • (M3.outer dwNeigh ((2 * w) • dwNeigh) + ddw)

/-- `hessian.rs:1037-1081`, `query_hessian_at`; `none` where the code panics. -/
def queryHessianAt (q : V3 ℝ) (view : List ℕ) (S : Samples) (k : Kern) (P : BgParams) :
    Option (M3 ℝ) :=
  (Bg.local q view S k P none).map fun b =>
    b.weightSumInv •
      (view.map (sampleQueryHessian b (neighborWeightGrad b) (neighborWeightHess b))).sum +
      b.queryHessian

/-! ## Hessian with respect to samples -/

/-- The unit normal of a sample. -/
def unitNormal (S : Samples) (i : ℕ) : V3 ℝ := (1 / (S.nml i).norm) • S.nml i

/-- `hessian.rs:1221-1254`: the diagonal blocks of `sample_hessian_at`. -/
def sampleHessianDiagonal (b : Bg) (localPot : ℝ) (i : ℕ) : M3 ℝ :=
  let n := unitNormal b.S i
  let psi := b.S.value i + V3.dot (b.q - b.S.pos i) n
  let w := weight b.kernel b.dist b.q b.S i
  let dw := -weightGrad b.kernel b.dist b.q b.S i
  let ddw := weightHess b.kernel b.dist b.q b.S i
  let dwb := b.bgWeightGrad (some i)
  let ddwb := b.bgWeightHess (some i)
  let dws := dwb + dw
  let wsi := b.weightSumInv
  wsi • (psi • ddw - localPot • (ddw + ddwb) - symOuter dw n - (psi * wsi) • symOuter dws dw +
    M3.outer dws ((2 * localPot * wsi) • dws) + (w * wsi) • symOuter n dws)

/-- `hessian.rs:1256-1297`: the other blocks of `sample_hessian_at`, for samples `j` (rows) and `i`
(columns). -/
def sampleHessianOffDiagonal (b : Bg) (localPot : ℝ) (j i : ℕ) : M3 ℝ :=
  let ni := unitNormal b.S i
  let psii := b.S.value i + V3.dot (b.q - b.S.pos i) ni
  let wi := weight b.kernel b.dist b.q b.S i
  let dwi := -weightGrad b.kernel b.dist b.q b.S i
  let dwsi := b.bgWeightGrad (some i) + dwi
  let nj := unitNormal b.S j
  let psij := b.S.value j + V3.dot (b.q - b.S.pos j) nj
  let wj := weight b.kernel b.dist b.q b.S j
  let dwj := -weightGrad b.kernel b.dist b.q b.S j
  let dwsj := b.bgWeightGrad (some j) + dwj
  (b.weightSumInv * b.weightSumInv) •
    (-M3.outer dwsj (psii • dwi) - M3.outer dwj (psij • dwsi) +
      M3.outer dwsj ((2 * localPot) • dwsi) + M3.outer nj (wj • dwsi) + M3.outer dwsj (wi • ni))

/-- `hessian.rs:34-42`, `sample_hessian_indices`. -/
def sampleHessianIndices (view : List ℕ) : List (ℕ × ℕ) :=
  view.map (fun i => (i, i)) ++ offDiagonal view

/-- `hessian.rs:1192-1301`, `sample_hessian_at`. -/
def sampleHessianAt (b : Bg) : List HBlock :=
  let localPot := localPotentialAt b.q b.view b.S b.kernel b.weightSumInv b.dist
  let bgHess := ((b.hessianBlocks.zip (bgHessianIndices b.weighted b.view)).filter
    fun p => p.2.2 ≤ p.2.1).map fun p => (⟨p.2.1, p.2.2, p.1⟩ : HBlock)
  b.view.map (fun i => ⟨i, i, sampleHessianDiagonal b localPot i⟩) ++
    (offDiagonal b.view).map (fun p => ⟨p.1, p.2, sampleHessianOffDiagonal b localPot p.1 p.2⟩) ++
    bgHess

/-! ## Hessian with respect to the vertices of the surface -/

/-- `area_normal_hessian_product(j, i, l)` of `geo`, read as a row-major matrix (see above). -/
def areaNormalHessianProduct (j i : Fin 3) (l : V3 ℝ) : M3 ℝ :=
  match j, i with
  | 0, 1 => M3.skew l
  | 1, 2 => M3.skew l
  | 2, 0 => M3.skew l
  | 1, 0 => -M3.skew l
  | 2, 1 => -M3.skew l
  | 0, 2 => -M3.skew l
  | _, _ => 0

/-- The pairs of corners `(j, i)` of a triangle whose vertices satisfy `T[i] ≤ T[j]`, in the order of
two nested loops. -/
def lowerCorners (T : Tri) : List (Fin 3 × Fin 3) :=
  (List.finRange 3).flatMap fun j =>
    ((List.finRange 3).filter fun i => T.get i ≤ T.get j).map fun i => (j, i)

/-- `scaled_tangent_projection_from_sample` (`field.rs:1302-1309`). -/
def sampleProjection (S : Samples) (i : ℕ) : M3 ℝ :=
  scaledTangentProjection (unitNormal S i) (1 / (S.nml i).norm)

/-- `hessian.rs:1416-1449`, `face_unit_normals_symmetric_jacobian`, with the multiplier of
`normal_hessian_at` (1320). -/
def symmetricNormalJacobian (b : Bg) (x : ℕ → V3 ℝ) (tris : ℕ → Tri) : List HBlock :=
  b.view.flatMap fun s =>
    let proj := sampleProjection b.S s
    let lambda := weight b.kernel b.dist b.q b.S s * b.weightSumInv
    (lowerCorners (tris s)).map fun p =>
      ⟨(tris s).get p.1, (tris s).get p.2, (lambda * (1 / 3)) •
        (proj * areaNormalGrad x (tris s) p.2 - areaNormalGrad x (tris s) p.1 * proj)⟩

/-- `hessian.rs:1451-1501`, `compute_face_unit_normals_hessian_products`, with the multiplier of
`normal_hessian_at` (1329-1332). -/
def normalHessianProducts (b : Bg) (x : ℕ → V3 ℝ) (tris : ℕ → Tri) : List HBlock :=
  b.view.flatMap fun s =>
    let n := unitNormal b.S s
    let normInv := 1 / (b.S.nml s).norm
    let proj := scaledTangentProjection n normInv
    let mult := normalMultiplier b s
    (lowerCorners (tris s)).map fun p =>
      let projMult := M3.mulVec proj mult
      let prod := V3.dot n mult • proj + M3.outer projMult n + M3.outer n projMult
      ⟨(tris s).get p.1, (tris s).get p.2,
        normInv • (areaNormalGrad x (tris s) p.1 * prod * areaNormalGrad x (tris s) p.2) -
          areaNormalHessianProduct p.1 p.2 projMult⟩

/-- The ordering of rows and columns in `normal_hessian_at` (1366-1370 and 1397-1401). -/
def orderedBlock (r c : ℕ) (m : M3 ℝ) : HBlock :=
  if c < r then ⟨r, c, m⟩
  else if r < c then ⟨c, r, m.transpose⟩
  else ⟨r, c, m + m.transpose⟩

/-- `hessian.rs:1345-1404`: the terms of `normal_hessian_at` that couple normals and weights. -/
def couplingHessian (b : Bg) (x : ℕ → V3 ℝ) (tris : ℕ → Tri) : List HBlock :=
  let wsi := b.weightSumInv
  b.view.flatMap fun l =>
    let dwb := b.bgWeightGrad (some l)
    let dw := -weightGrad b.kernel b.dist b.q b.S l
    let dws := dw + dwb
    ((List.finRange 3).flatMap fun i => (List.finRange 3).map fun j =>
      orderedBlock ((tris l).get i) ((tris l).get j) ((wsi * (1 / 3)) • M3.outer
        (M3.mulVec (faceUnitNormalGrad x tris b.S l i) (b.q - b.S.pos l)) dw)) ++
    b.view.flatMap fun k =>
      let wk := weight b.kernel b.dist b.q b.S k
      (List.finRange 3).flatMap fun i => (List.finRange 3).map fun j =>
        orderedBlock ((tris k).get i) ((tris l).get j) ((wk * wsi * wsi * (1 / 3)) • M3.outer
          (M3.mulVec (-faceUnitNormalGrad x tris b.S k i) (b.q - b.S.pos k)) dws)

/-- `hessian.rs:1303-1414`, `normal_hessian_at`. -/
def normalHessianAt (b : Bg) (x : ℕ → V3 ℝ) (tris : ℕ → Tri) : List HBlock :=
  List.zipWith (fun s n => (⟨s.row, s.col, n.val - s.val⟩ : HBlock))
    (symmetricNormalJacobian b x tris) (normalHessianProducts b x tris) ++ couplingHessian b x tris

/-- The closure `samples_to_vertices` of `face_hessian_at` (`hessian.rs:1164-1171`). -/
def samplesToVertices (tris : ℕ → Tri) (h : HBlock) : List HBlock :=
  (List.finRange 3).flatMap fun i =>
    ((List.finRange 3).filter fun j => (tris h.col).get j ≤ (tris h.row).get i).map fun j =>
      ⟨(tris h.row).get i, (tris h.col).get j, (1 / 9 : ℝ) • h.val⟩

/-- The blocks of the vertices of two samples (`hessian.rs:1174-1182`). -/
def vertexBlocks (tris : ℕ → Tri) (h : HBlock) : List HBlock :=
  samplesToVertices tris h ++
    if h.col < h.row then samplesToVertices tris ⟨h.col, h.row, h.val.transpose⟩ else []

/-- `hessian.rs:1147-1190`, `face_hessian_at`; `none` where the code panics. -/
def faceHessianAt (q : V3 ℝ) (view : List ℕ) (S : Samples) (k : Kern) (tris : ℕ → Tri)
    (x : ℕ → V3 ℝ) (P : BgParams) (multiplier : ℝ) : Option (List HBlock) :=
  (Bg.local q view S k P none).map fun b =>
    (normalHessianAt b x tris ++ (sampleHessianAt b).flatMap (vertexBlocks tris)).map fun h =>
      ⟨h.row, h.col, multiplier • h.val⟩

/-- The indices of `samples_to_vertices` in `face_hessian_indices_iter` (`hessian.rs:51-58`). -/
def samplesToVerticesIndices (tris : ℕ → Tri) (row col : ℕ) : List (ℕ × ℕ) :=
  (List.finRange 3).flatMap fun i =>
    ((List.finRange 3).filter fun j => (tris col).get j ≤ (tris row).get i).map fun j =>
      ((tris row).get i, (tris col).get j)

/-- The order of an index pair (`hessian.rs:88-92` and `102-106`). -/
def orderedIndices (r c : ℕ) : ℕ × ℕ := if r ≥ c then (r, c) else (c, r)

/-- `hessian.rs:44-116`, `face_hessian_indices_iter`. -/
def faceHessianIndices (view : List ℕ) (tris : ℕ → Tri) (weighted : Bool) : List (ℕ × ℕ) :=
  let main := (sampleHessianIndices view ++ bgHessianIndices weighted view).flatMap fun p =>
    samplesToVerticesIndices tris p.1 p.2 ++
      if p.1 > p.2 then samplesToVerticesIndices tris p.2 p.1 else []
  let normal := view.flatMap (fun s => samplesToVerticesIndices tris s s) ++
    view.flatMap fun si =>
      ((List.finRange 3).flatMap fun i => (List.finRange 3).map fun j =>
        orderedIndices ((tris si).get i) ((tris si).get j)) ++
      view.flatMap fun sj => (List.finRange 3).flatMap fun j => (List.finRange 3).map fun i =>
        orderedIndices ((tris sj).get j) ((tris si).get i)
  normal ++ main

/-! ## Mixed second derivatives -/

/-- `jacobian.rs:1170-1203`, `normalized_neighbor_weight_vertex_gradients`. -/
def vertexWeightGrad (b : Bg) (tris : ℕ → Tri) (v : ℕ) : V3 ℝ :=
  -(b.view.flatMap fun s => ((List.finRange 3).filter fun j => (tris s).get j = v).map fun _ =>
    ((1 / 3) * b.weightSumInv) •
      (weightGrad b.kernel b.dist b.q b.S s - b.bgWeightGrad (some s))).sum

/-- `hessian.rs:1110-1141`, `normalized_neighbor_weight_vertex_hessian`. -/
def vertexWeightHess (b : Bg) (tris : ℕ → Tri) (v : ℕ) : M3 ℝ :=
  -(b.view.flatMap fun s => ((List.finRange 3).filter fun j => (tris s).get j = v).map fun _ =>
    ((1 / 3) * b.weightSumInv) •
      (weightHess b.kernel b.dist b.q b.S s + b.bgWeightHess (some s))).sum

/-- `hessian.rs:2073-2125`, `sample_query_hessian_component_at`. -/
def sampleQueryHessianComponent (b : Bg) (x : ℕ → V3 ℝ) (tris : ℕ → Tri) (v s : ℕ) : M3 ℝ :=
  let n := unitNormal b.S s
  let wsi := b.weightSumInv
  let dwNeigh := neighborWeightGrad b
  let ddwdq := vertexWeightHess b tris v
  let dwdq := vertexWeightGrad b tris v
  let w := weight b.kernel b.dist b.q b.S s
  let dw := weightGrad b.kernel b.dist b.q b.S s
  let ddw := weightHess b.kernel b.dist b.q b.S s
  let psi := b.S.value s + V3.dot n (b.q - b.S.pos s)
  let dwNormalized := wsi • (dw - w • dwNeigh)
  let gradPsi := psi • dwNormalized + wsi • (w • n)
  let r := M3.outer (-gradPsi) dwdq + wsi • (psi • (w • (M3.outer dwNeigh dwdq - ddwdq)))
  match (tris s).position v with
  | none => r
  | some j =>
    let g := faceUnitNormalGrad x tris b.S s j
    r + M3.outer dwNormalized (M3.mulVec g (b.q - b.S.pos s) - (1 / 3 : ℝ) • n) +
      wsi • ((1 / 3 : ℝ) • (psi • (-ddw + M3.outer dwNeigh dw)) - M3.outer n ((1 / 3 : ℝ) • dw) +
        w • g.transpose)

/-- The filter with `seen` (`hessian.rs:922-935`): first occurrences only. -/
def firstSeen (seen : List ℕ) : List ℕ → List ℕ
  | [] => []
  | v :: l => if v ∈ seen then firstSeen seen l else v :: firstSeen (v :: seen) l

/-- `hessian.rs:839-981`, `sample_query_hessian_product_indexed_blocks_iter_impl`, for one query point:
the columns with their blocks; `none` where the code panics. -/
def sampleQueryHessianAt (q : V3 ℝ) (view : List ℕ) (S : Samples) (k : Kern) (tris : ℕ → Tri)
    (x : ℕ → V3 ℝ) (P : BgParams) (multiplier : ℝ) : Option (List (ℕ × M3 ℝ)) :=
  (Bg.local q view S k P none).map fun b =>
    (firstSeen [] (faceJacobianCols view tris)).map fun v =>
      (v, multiplier • (view.map (sampleQueryHessianComponent b x tris v)).sum)

/-- `hessian.rs:983-1025`, `sample_query_hessian_product_block_indices_iter`, for one query point. -/
def sampleQueryHessianIndices (view : List ℕ) (tris : ℕ → Tri) : List ℕ :=
  firstSeen [] (faceJacobianCols view tris)

end Softy.Field
