import Verif.Model.Kernel

/-!
# The potential field of an implicit surface

Model of `implicits/src/field/background_field.rs`, of the potential in `implicits/src/field.rs` and
of the Jacobians in `implicits/src/field/jacobian.rs`.

Scalars are reals. Samples are indexed by natural numbers and stored as functions: indices of a view
are in range, where the code would panic otherwise. Parallel variants compute the same values in the
same order and are not modelled separately. From the crate `geo` these functions are assumed:
`area_normal` of the triangle `a b c` is `(b - a) × (c - a)`, `centroid` is the mean of the corners,
`area_normal_gradient(i)`, read as a row-major matrix, is the derivative of the area normal with
respect to corner `i`, and `compute_vertex_area_weighted_normals` sums the area normals of the
triangles around each vertex.
-/

noncomputable section

namespace Softy.Field

open Softy Softy.Kernel

/-! ## Samples -/

/-- `samples.rs:40-55`, `Samples`. -/
structure Samples where
  pos : ℕ → V3 ℝ
  nml : ℕ → V3 ℝ
  vel : ℕ → V3 ℝ
  value : ℕ → ℝ

/-- `field.rs:267-280`, `reverse`: the normals change sign. -/
def Samples.reverse (S : Samples) : Samples := { S with nml := fun i => -S.nml i }

/-- `field.rs:106-111`, `SampleType`. -/
inductive SampleType where
  | vertex
  | face
  deriving DecidableEq

/-! ## Background field -/

/-- `background_field.rs:7-17`, `BackgroundFieldType`. -/
inductive BgType where
  | zero
  | fromInput
  | distanceBased
  deriving DecidableEq

/-- `background_field.rs:19-25`, `BackgroundFieldParams`. -/
structure BgParams where
  fieldType : BgType
  weighted : Bool

/-- `background_field.rs:27-35`, `BackgroundFieldValue`, for scalar fields. -/
inductive BgValue where
  | constant (v : ℝ)
  | signedDistance

/-- `background_field.rs:37-49`, `BackgroundFieldValue::new`. -/
def BgValue.new (ty : BgType) (v : Option ℝ) : BgValue :=
  match ty with
  | .zero => .constant 0
  | .fromInput => .constant (v.getD 0)
  | .distanceBased => .signedDistance

/-- The test `bg_field_value == ClosestSampleSignedDistance`. -/
def BgValue.isDistance : BgValue → Bool
  | .constant _ => false
  | .signedDistance => true

/-- `background_field.rs:51-60`, `ClosestIndex`. -/
inductive ClosestIndex where
  | loc (i : ℕ)
  | glob (i : ℕ)

/-- `background_field.rs:62-69`, `ClosestIndex::get`. -/
def ClosestIndex.get : ClosestIndex → ℕ
  | loc i => i
  | glob i => i

/-- `background_field.rs:71-97`, `BackgroundField`. -/
structure Bg where
  q : V3 ℝ
  view : List ℕ
  S : Samples
  value : BgValue
  weighted : Bool
  weightSum : ℝ
  kernel : Kern
  dist : ℝ
  disp : V3 ℝ
  closest : ClosestIndex

open Classical in
/-- The loop of `min_by` in `closest_sample` (lines 143-146): the first sample with the least distance wins. -/
def closestFrom (q : V3 ℝ) (S : Samples) (best : ℕ) : List ℕ → ℕ
  | [] => best
  | i :: l =>
    if V3.dot (q - S.pos i) (q - S.pos i) < V3.dot (q - S.pos best) (q - S.pos best) then
      closestFrom q S i l
    else closestFrom q S best l

/-- `background_field.rs:134-147`, `closest_sample`. -/
def closestSample (q : V3 ℝ) (S : Samples) : List ℕ → Option ℕ
  | [] => none
  | i :: l => some (closestFrom q S i l)

/-- The unnormalised weight of sample `i`, `kernel.with_closest_dist(dist).eval(q, pos)`. -/
def weight (k : Kern) (dist : ℝ) (q : V3 ℝ) (S : Samples) (i : ℕ) : ℝ :=
  (k.withClosest dist).eval q (S.pos i)

/-- Its gradient, `kernel.with_closest_dist(dist).grad(q, pos)`. -/
def weightGrad (k : Kern) (dist : ℝ) (q : V3 ℝ) (S : Samples) (i : ℕ) : V3 ℝ :=
  (k.withClosest dist).grad q (S.pos i)

/-- Its Hessian, `kernel.with_closest_dist(dist).hess(q, pos)`. -/
def weightHess (k : Kern) (dist : ℝ) (q : V3 ℝ) (S : Samples) (i : ℕ) : M3 ℝ :=
  (k.withClosest dist).hess q (S.pos i)

open Classical in
/-- `background_field.rs:278-291`, `background_weight`. The radius of the global kernel is infinite,
where the kernel vanishes. -/
def backgroundWeight (k : Kern) (weighted : Bool) (dist : ℝ) : ℝ :=
  match k.radius with
  | none => 0
  | some r =>
    if r < dist then 1
    else if weighted then k.f (r - dist) else 0

/-- `background_field.rs:223-263`, `new_impl`. -/
def Bg.newImpl (q : V3 ℝ) (view : List ℕ) (S : Samples) (c : ClosestIndex) (k : Kern) (P : BgParams)
    (v : Option ℝ) : Bg :=
  let disp := q - S.pos c.get
  let dist := disp.norm
  { q := q
    view := view
    S := S
    value := BgValue.new P.fieldType v
    weighted := P.weighted
    weightSum := (view.map (weight k dist q S)).sum + backgroundWeight k P.weighted dist
    kernel := k
    dist := dist
    disp := disp
    closest := c }

/-- `background_field.rs:149-176`, `local`: fails when there are no samples. -/
def Bg.local (q : V3 ℝ) (view : List ℕ) (S : Samples) (k : Kern) (P : BgParams) (v : Option ℝ) :
    Option Bg :=
  match closestSample q S view with
  | none => none
  | some i => some (Bg.newImpl q view S (.loc i) k P v)

/-- `background_field.rs:178-221`, `global` (the assertion of debug builds is left out). -/
def Bg.global (q : V3 ℝ) (view : List ℕ) (S : Samples) (closest : ℕ) (k : Kern) (P : BgParams)
    (v : Option ℝ) : Bg :=
  match closestSample q S view with
  | none => Bg.newImpl q view S (.glob closest) k P v
  | some i => Bg.newImpl q view S (.loc i) k P v

/-- `background_field.rs:105-132`, `new`. -/
def Bg.new (q : V3 ℝ) (view : List ℕ) (S : Samples) (closest : Option ℕ) (k : Kern) (P : BgParams)
    (v : Option ℝ) : Option Bg :=
  match closest with
  | some c => some (Bg.global q view S c k P v)
  | none => Bg.local q view S k P v

namespace Bg

open Classical

variable (b : Bg)

/-- `background_field.rs:270-276`, `weight_sum_inv`. -/
def weightSumInv : ℝ := if b.weightSum = 0 then 0 else 1 / b.weightSum

/-- `background_weight` (278-291). -/
def bgWeight : ℝ := backgroundWeight b.kernel b.weighted b.dist

/-- The test of lines 298 and 329: the gradient of the background weight is zero. -/
def flat : Prop := (∃ r, b.kernel.radius = some r ∧ r < b.dist) ∨ b.weighted = false

/-- `kernel.df(radius - dist)`; for the global kernel, with its infinite radius, the code computes
not-a-number, theorems leave this case out. -/
def edgeDf : ℝ := (b.kernel.radius.map fun r => b.kernel.df (r - b.dist)).getD 0

/-- `kernel.ddf(radius - dist)`. -/
def edgeDdf : ℝ := (b.kernel.radius.map fun r => b.kernel.ddf (r - b.dist)).getD 0

/-- `background_field.rs:293-322`, `background_weight_gradient`. -/
def bgWeightGrad (index : Option ℕ) : V3 ℝ :=
  if b.flat then 0
  else
    match index with
    | some i =>
      match b.closest with
      | .loc c => if i = c then (b.edgeDf / b.dist) • b.disp else 0
      | .glob _ => 0
    | none => (b.edgeDf / b.dist) • (-b.disp)

/-- `background_field.rs:324-360`, `background_weight_hessian`. -/
def bgWeightHess (index : Option ℕ) : M3 ℝ :=
  if b.flat then 0
  else
    let dir := (1 / b.dist) • b.disp
    let h := M3.outer (b.edgeDdf • dir) dir -
      (b.edgeDf / b.dist) • (M3.diag 1 - M3.outer dir dir)
    match index with
    | some i =>
      match b.closest with
      | .loc c => if i = c then h else 0
      | .glob _ => 0
    | none => h

/-- `background_field.rs:407-411`, `orientation`. The sign of zero is taken to be positive. -/
def orientation : ℝ := if V3.dot (b.S.nml b.closest.get) b.disp < 0 then -1 else 1

/-- `background_field.rs:413-422`, `field_value`. -/
def fieldValue : ℝ :=
  match b.value with
  | .constant v => v
  | .signedDistance => b.dist * b.orientation

/-- `background_field.rs:424-448`, `field_gradient`. -/
def fieldGrad : V3 ℝ :=
  match b.value with
  | .constant _ => 0
  | .signedDistance => if b.dist ≠ 0 then (b.orientation / b.dist) • b.disp else 0

/-- `background_field.rs:450-476`, `field_hessian`. -/
def fieldHess : M3 ℝ :=
  match b.value with
  | .constant _ => 0
  | .signedDistance =>
    if b.dist ≠ 0 then
      let distInv := b.orientation / b.dist
      let dir := distInv • b.disp
      M3.diag distInv - M3.outer dir (distInv • dir)
    else 0

/-- `background_field.rs:478-483`, `compute_unnormalized_weighted_scalar_field`. -/
def weightedField : ℝ := b.fieldValue * b.bgWeight

/-- `background_field.rs:523-572`, `compute_sample_jacobian`, with the arguments that
`compute_jacobian` (485-505) passes. -/
def sampleJacobian (i : ℕ) : V3 ℝ :=
  let wsi := b.weightSumInv
  let wb := b.bgWeight * wsi
  let dwbdp := b.bgWeightGrad (some b.closest.get)
  let field := b.fieldValue
  let g0 := if b.value.isDistance ∧ i = b.closest.get then -(wb • b.fieldGrad) else 0
  if b.weighted = false then g0
  else
    let g1 := g0 + (field * wb * wsi) • weightGrad b.kernel b.dist b.q b.S i
    if b.value.isDistance ∧ i = b.closest.get then g1 + (field * wsi * (1 - wb)) • dwbdp else g1

/-- `background_field.rs:685-723`, `compute_query_jacobian`. -/
def queryJacobian : V3 ℝ :=
  let wsi := b.weightSumInv
  let wb := b.bgWeight * wsi
  let grad :=
    if b.weighted then
      let dwb := b.bgWeightGrad none
      let dwTotal := (b.view.map (weightGrad b.kernel b.dist b.q b.S)).sum + dwb
      (b.fieldValue * wsi) • (dwb - wb • dwTotal)
    else 0
  grad + wb • b.fieldGrad

end Bg

/-! ## Potential -/

/-- The value that the linear approximation at sample `i` takes at `q`,
`value + nml.dot(q - pos) / nml.norm()`. -/
def samplePotential (q : V3 ℝ) (S : Samples) (i : ℕ) : ℝ :=
  S.value i + V3.dot (S.nml i) (q - S.pos i) / (S.nml i).norm

/-- `field.rs:1036-1061`, `compute_local_potential_at`. -/
def localPotentialAt (q : V3 ℝ) (view : List ℕ) (S : Samples) (k : Kern) (wsi dist : ℝ) : ℝ :=
  (view.map fun i => weight k dist q S i * samplePotential q S i).sum * wsi

/-- `field.rs:1004-1034`, `compute_potential_at`: the new value of `potential`, given the old one. -/
def potentialAt (q : V3 ℝ) (view : List ℕ) (S : Samples) (k : Kern) (P : BgParams) (old : ℝ) : ℝ :=
  match Bg.local q view S k P (some old) with
  | none => old
  | some b => b.weightedField * b.weightSumInv + localPotentialAt q view S k b.weightSumInv b.dist

/-! ## Jacobian with respect to the query point -/

/-- `jacobian.rs:1205-1231`, `normalized_neighbor_weight_gradient`. -/
def neighborWeightGrad (b : Bg) : V3 ℝ :=
  b.weightSumInv • ((b.view.map (weightGrad b.kernel b.dist b.q b.S)).sum + b.bgWeightGrad none)

/-- `jacobian.rs:1757-1786`, `sample_query_jacobian_at`, with the unit normal as multiplier. -/
def sampleQueryJacobian (b : Bg) (dwNeigh : V3 ℝ) (i : ℕ) : V3 ℝ :=
  let n := (1 / (b.S.nml i).norm) • b.S.nml i
  let w := weight b.kernel b.dist b.q b.S i
  let dw := weightGrad b.kernel b.dist b.q b.S i
  let psi := b.S.value i + V3.dot n (b.q - b.S.pos i)
  b.weightSumInv • (psi • (dw - w • dwNeigh) + w • n)

/-- `jacobian.rs:1021-1066`, `query_jacobian_at`. -/
def queryJacobianAt (q : V3 ℝ) (view : List ℕ) (S : Samples) (closest : Option ℕ) (k : Kern)
    (P : BgParams) : Option (V3 ℝ) :=
  (Bg.new q view S closest k P none).map fun b =>
    (view.map (sampleQueryJacobian b (neighborWeightGrad b))).sum + b.queryJacobian

/-! ## Jacobian with respect to samples -/

/-- `jacobian.rs:1462-1495`, `local_sample_jacobian_at`. -/
def localSampleJacobian (b : Bg) (localPot : ℝ) (i : ℕ) : V3 ℝ :=
  let diff := b.q - b.S.pos i
  let n := (1 / (b.S.nml i).norm) • b.S.nml i
  let dw := weightGrad b.kernel b.dist b.q b.S i
  let dwb := b.bgWeightGrad (some i)
  let wsi := b.weightSumInv
  let w := weight b.kernel b.dist b.q b.S i
  (localPot * wsi) • (dw - dwb) - (wsi * (b.S.value i + V3.dot n diff)) • dw - (w * wsi) • n

/-- `jacobian.rs:1389-1425`, `sample_jacobian_at`: the derivative of the potential with respect to
the position of sample `i`, with its normal held fixed. -/
def sampleJacobianAt (b : Bg) (i : ℕ) : V3 ℝ :=
  b.sampleJacobian i +
    localSampleJacobian b (localPotentialAt b.q b.view b.S b.kernel b.weightSumInv b.dist) i

/-! ## Jacobian with respect to the vertices of the surface -/

/-- The area normal of a triangle, from `geo`. -/
def areaNormal (a b c : V3 ℝ) : V3 ℝ := V3.cross (b - a) (c - a)

/-- Corners of a triangle. -/
structure Tri where
  a : ℕ
  b : ℕ
  c : ℕ
  deriving DecidableEq

/-- `tri[i]`, the corner that `surface_topo` stores. -/
def Tri.get (t : Tri) (i : Fin 3) : ℕ :=
  match i with
  | 0 => t.a
  | 1 => t.b
  | 2 => t.c

/-- `area_normal_gradient(i)` of `geo`, read as a row-major matrix: the derivative of the area normal
with respect to corner `i`. -/
def areaNormalGrad (x : ℕ → V3 ℝ) (t : Tri) (i : Fin 3) : M3 ℝ :=
  match i with
  | 0 => M3.skew (x t.c - x t.b)
  | 1 => M3.skew (x t.a - x t.c)
  | 2 => M3.skew (x t.b - x t.a)

/-- `field.rs:1289-1300`, `scaled_tangent_projection`. -/
def scaledTangentProjection (n : V3 ℝ) (s : ℝ) : M3 ℝ := M3.diag s - M3.outer (s • n) n

/-- `samples.rs:190-218`, `update_triangle_samples`: one sample at the centroid of each triangle. The
velocities become unit vectors along the first edge. -/
def faceSamples (tris : ℕ → Tri) (x : ℕ → V3 ℝ) (value : ℕ → ℝ) : Samples where
  pos := fun i => (1 / 3 : ℝ) • (x (tris i).a + x (tris i).b + x (tris i).c)
  nml := fun i => areaNormal (x (tris i).a) (x (tris i).b) (x (tris i).c)
  vel := fun i => (1 / (x (tris i).b - x (tris i).a).norm) • (x (tris i).b - x (tris i).a)
  value := value

/-- `field.rs:1223-1242`, `face_unit_normal_gradient_iter`, with the arguments of
`face_unit_normal_gradient_iter_from_sample` (1204-1221). -/
def faceUnitNormalGrad (x : ℕ → V3 ℝ) (tris : ℕ → Tri) (S : Samples) (i : ℕ) (j : Fin 3) : M3 ℝ :=
  let area := (S.nml i).norm
  let n := (1 / area) • S.nml i
  (-areaNormalGrad x (tris i) j) * scaledTangentProjection n (1 / area)

/-- The closure of `face_jacobian_at` and `vertex_jacobian_at`: `(q - pos) * (w * weight_sum_inv)`. -/
def normalMultiplier (b : Bg) (i : ℕ) : V3 ℝ :=
  (weight b.kernel b.dist b.q b.S i * b.weightSumInv) • (b.q - b.S.pos i)

/-- `jacobian.rs:1302-1340`, `face_jacobian_at`: for each sample of the view, the derivative of the
potential with respect to each corner of its triangle; `none` where the code panics. -/
def faceJacobianAt (q : V3 ℝ) (view : List ℕ) (S : Samples) (k : Kern) (tris : ℕ → Tri)
    (x : ℕ → V3 ℝ) (P : BgParams) : Option (List (V3 ℝ)) :=
  (Bg.local q view S k P none).map fun b =>
    view.flatMap fun i => (List.finRange 3).map fun j =>
      (1 / 3 : ℝ) • sampleJacobianAt b i +
        M3.mulVec (faceUnitNormalGrad x tris S i j) (normalMultiplier b i)

/-- `jacobian.rs:427-453`, `surface_jacobian_block_indices_iter` for face samples: the columns of one
row. -/
def faceJacobianCols (view : List ℕ) (tris : ℕ → Tri) : List ℕ :=
  view.flatMap fun i => (List.finRange 3).map fun j => (tris i).get j

/-- Area weighted normals of the vertices, from `geo`. -/
def vertexNormal (tris : List Tri) (x : ℕ → V3 ℝ) (v : ℕ) : V3 ℝ :=
  (tris.map fun t => if v = t.a ∨ v = t.b ∨ v = t.c then areaNormal (x t.a) (x t.b) (x t.c)
    else 0).sum

/-- `field.rs:297-330`, `update_samples` for samples at vertices. -/
def vertexSamples (tris : List Tri) (x : ℕ → V3 ℝ) (vel : ℕ → V3 ℝ) (value : ℕ → ℝ) : Samples where
  pos := x
  nml := vertexNormal tris x
  vel := vel
  value := value

/-- `position(|&j| j == index)` (`field.rs:1375-1378`); `none` where the code panics. -/
def Tri.position (t : Tri) (v : ℕ) : Option (Fin 3) :=
  if t.a = v then some 0 else if t.b = v then some 1 else if t.c = v then some 2 else none

/-- `builder.rs:148-162`, `compute_dual_topo`: the triangles around a vertex, one entry for each
corner. -/
def dualTopo (tris : List Tri) (v : ℕ) : List Tri :=
  tris.flatMap fun t => ([t.a, t.b, t.c].filter (· = v)).map fun _ => t

/-- The projection times the multiplier, `nmlk_proj * (dx(sample) * normk_inv)`
(`field.rs:1384-1387`; line 1381 computes the same for the vertex itself). -/
def projectedMultiplier (b : Bg) (i : ℕ) : V3 ℝ :=
  let normInv := 1 / (b.S.nml i).norm
  M3.mulVec (M3.diag 1 - M3.outer (b.S.nml i) ((normInv * normInv) • b.S.nml i))
    (normInv • normalMultiplier b i)

/-- `field.rs:1348-1393`, `compute_vertex_unit_normal_gradient_product`. -/
def vertexNormalGradProduct (b : Bg) (tris : List Tri) (v : ℕ) : V3 ℝ :=
  ((dualTopo tris v).map fun t =>
    let g := ((t.position v).map fun j => areaNormalGrad b.S.pos t j).getD 0
    let triGrad := projectedMultiplier b v +
      (([t.a, t.b, t.c].filter (· ≠ v)).map (projectedMultiplier b)).sum;
    -M3.mulVec g triGrad).sum

/-- `jacobian.rs:1237-1265`, `vertex_jacobian_at`. -/
def vertexJacobianAt (q : V3 ℝ) (view : List ℕ) (S : Samples) (k : Kern) (tris : List Tri)
    (P : BgParams) : Option (List (V3 ℝ)) :=
  (Bg.local q view S k P none).map fun b =>
    view.map fun i => sampleJacobianAt b i + vertexNormalGradProduct b tris i

end Softy.Field
