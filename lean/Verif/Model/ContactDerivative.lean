import Verif.Model.Sliding
import Verif.Model.FieldHessian

/-!
# Derivatives of the contact Jacobian

Model of the derivatives of the contact Jacobian of an implicit surface, multiplied by constant vectors
(`implicits/src/field/hessian.rs:488-808, 1503-2070`, `jacobian.rs:1068-1166`,
`implicits/src/kernel.rs:700-708`), for samples on faces and for one query point. Blocks are stored as in
the code: entry `(r, c)` of a block is the derivative of component `c` with respect to coordinate `r` of
the vertex, which the code calls column-major. The vertices around the query point come out of a hash set
(`neighborhood_verts`); here they come in order of their first occurrence. Vectors over all vertices are
modelled as functions.
-/

noncomputable section

namespace Softy.Contact

open Softy Softy.Kernel Softy.Field

/-- `NormalKernel::grad`: `kernel.rs:703-708`. -/
def normalKernelGrad (n g : V3 ℝ) (unitNmlGrad jacGradPhiT : M3 ℝ) : V3 ℝ :=
  ((1 / 2) * (1 + V3.dot n g)) • (jacGradPhiT.mulVec n + unitNmlGrad.mulVec g)

open Classical in
/-- `rodrigues_rotation_jacobian_product_at`: `hessian.rs:2011-2070`. -/
def rodriguesJacobianProduct (n g : V3 ℝ) (jacGradPhiT unitNmlGrad : M3 ℝ) (d : ℝ) (b : V3 ℝ)
    (transpose : Bool) : M3 ℝ :=
  let dn : M3 ℝ := ⟨V3.cross unitNmlGrad.r0 g + V3.cross n jacGradPhiT.r0,
    V3.cross unitNmlGrad.r1 g + V3.cross n jacGradPhiT.r1,
    V3.cross unitNmlGrad.r2 g + V3.cross n jacGradPhiT.r2⟩
  let first : M3 ℝ := ⟨V3.cross dn.r0 b, V3.cross dn.r1 b, V3.cross dn.r2 b⟩
  let u := V3.cross n g
  let ub := V3.cross u b
  let second : M3 ℝ := ⟨V3.cross dn.r0 ub + V3.cross u (V3.cross dn.r0 b),
    V3.cross dn.r1 ub + V3.cross u (V3.cross dn.r1 b),
    V3.cross dn.r2 ub + V3.cross u (V3.cross dn.r2 b)⟩
  let denom := 1 + d
  let factor := if denom = 0 then 0 else 1 / denom
  let scalar := (-factor * factor) • (unitNmlGrad.mulVec g + jacGradPhiT.mulVec n)
  let third := M3.outer scalar (V3.cross u ub)
  (if transpose then -first else first) + factor • second + third

/-- `rodrigues_rotation` of the sample, or its transpose (`hessian.rs:1859-1870, 1925-1940`). -/
def sampleRotation (n g : V3 ℝ) (transpose : Bool) : M3 ℝ :=
  let u := V3.cross n g
  let u := if transpose then -u else u
  rodrigues (M3.skew u) (V3.dot n g)

/-! ## Derivative with respect to the query point -/

/-- `normalized_neighbor_weight_nml_gradient`: `jacobian.rs:1133-1166`. -/
def neighborNmlWeightGrad (b : Bg) (g : V3 ℝ) (ddpsiT : M3 ℝ) : V3 ℝ :=
  let wsi := weightNmlSumInv b.kernel b.dist b.q b.view b.S g
  let bgTerm := b.bgWeightGrad none
  (b.view.map fun s =>
    let n := unitNormal b.S s
    let w := weight b.kernel b.dist b.q b.S s
    let dw := weightGrad b.kernel b.dist b.q b.S s
    wsi • (normalKernel n g • (dw + bgTerm) + w • normalKernelGrad n g 0 ddpsiT)).sum

/-- `query_contact_jacobian_gradient_product_at`: `hessian.rs:1839-1893`. -/
def queryContactProduct (b : Bg) (g dwNeigh : V3 ℝ) (ddpsi : M3 ℝ) (wsi : ℝ) (s : ℕ) (mult : V3 ℝ)
    (transpose : Bool) : M3 ℝ :=
  let n := unitNormal b.S s
  let rot := sampleRotation n g transpose
  let wNml := normalKernel n g
  let w := weight b.kernel b.dist b.q b.S s
  let wNormalized := wNml * w * wsi
  let dw := weightGrad b.kernel b.dist b.q b.S s
  let dwNormalized := wsi • (wNml • dw + w • normalKernelGrad n g 0 ddpsi.transpose)
  M3.outer (dwNormalized - wNormalized • dwNeigh) (rot.mulVec mult) +
    wNormalized • rodriguesJacobianProduct n g ddpsi.transpose 0 (V3.dot n g) mult transpose

/-- The average of what the corners of the triangle of a sample carry (`hessian.rs:616-620, 1673-1677`). -/
def sampleMultiplier (tris : ℕ → Tri) (mult : ℕ → V3 ℝ) (s : ℕ) : V3 ℝ :=
  (1 / 3 : ℝ) • ((List.finRange 3).map fun j => mult ((tris s).get j)).sum

/-- `contact_query_jacobian_jacobian_product_indexed_blocks_iter`: `hessian.rs:549-643`, for one query
point; `none` where the code panics. -/
def contactQueryJacobianJacobianAt (q : V3 ℝ) (view : List ℕ) (S : Samples) (k : Kern) (tris : ℕ → Tri)
    (P : BgParams) (mult : ℕ → V3 ℝ) : Option (List (M3 ℝ)) :=
  (Bg.local q view S k P none).bind fun b =>
    (queryJacobianAt q view S none k P).bind fun g =>
      (queryHessianAt q view S k P).map fun ddpsi =>
        view.map fun s => queryContactProduct b g (neighborNmlWeightGrad b g ddpsi.transpose) ddpsi
          (weightNmlSumInv k b.dist q view S g) s (sampleMultiplier tris mult s) false

/-- `contact_query_hessian_product_indexed_blocks_iter`: `hessian.rs:711-810`, for one query point; `none`
where the code panics. -/
def contactQueryHessianAt (q : V3 ℝ) (view : List ℕ) (S : Samples) (k : Kern) (tris : ℕ → Tri)
    (P : BgParams) (mult : V3 ℝ) : Option (List (ℕ × M3 ℝ)) :=
  (Bg.local q view S k P none).bind fun b =>
    (queryJacobianAt q view S none k P).bind fun g =>
      (queryHessianAt q view S k P).map fun ddpsi =>
        view.flatMap fun s => (List.finRange 3).map fun j =>
          ((tris s).get j, (1 / 3 : ℝ) •
            queryContactProduct b g (neighborNmlWeightGrad b g ddpsi.transpose) ddpsi
              (weightNmlSumInv k b.dist q view S g) s mult true)

/-! ## Derivative with respect to the vertices of the surface -/

/-- `neighborhood_verts`: `hessian.rs:1558-1575`. -/
def neighborhoodVerts (view : List ℕ) (tris : ℕ → Tri) : List ℕ :=
  firstSeen [] (faceJacobianCols view tris)

/-- `jacobian_gradient_phi`: `hessian.rs:1506-1556`, the block of one vertex. -/
def jacobianGradientPhi (b : Bg) (x : ℕ → V3 ℝ) (tris : ℕ → Tri) (v : ℕ) : M3 ℝ :=
  (b.view.map (sampleQueryHessianComponent b x tris v)).sum

/-- `normalized_neighbor_weight_nml_vertex_gradients`: `jacobian.rs:1068-1130`, the entry of vertex `v`. -/
def vertexNmlWeightGrad (b : Bg) (x : ℕ → V3 ℝ) (tris : ℕ → Tri) (g : V3 ℝ) (v : ℕ) : V3 ℝ :=
  let wsi := weightNmlSumInv b.kernel b.dist b.q b.view b.S g
  let sqrtFactor (s : ℕ) : ℝ := (1 / 2) * (1 + V3.dot (unitNormal b.S s) g)
  let firstTerm := (b.view.map fun s =>
    (weight b.kernel b.dist b.q b.S s * sqrtFactor s) • unitNormal b.S s).sum
  (if v ∈ neighborhoodVerts b.view tris then
      (jacobianGradientPhi b x tris v).transpose.mulVec (wsi • firstTerm) else 0) +
    (b.view.map fun s =>
      let w := weight b.kernel b.dist b.q b.S s
      let dw := weightGrad b.kernel b.dist b.q b.S s
      let dwn := (normalKernel (unitNormal b.S s) g * ((1 / 3) * wsi)) • (dw - b.bgWeightGrad (some s))
      ((List.finRange 3).map fun j => if (tris s).get j = v then
        -dwn + (faceUnitNormalGrad x tris b.S s j).mulVec ((w * wsi * sqrtFactor s) • g) else 0).sum).sum

/-- The derivative of the unit normal of a sample with respect to a vertex: `hessian.rs:1985-1989`. -/
def vertexNormalGrad (b : Bg) (x : ℕ → V3 ℝ) (tris : ℕ → Tri) (s v : ℕ) : M3 ℝ :=
  match (tris s).position v with
  | none => 0
  | some j => faceUnitNormalGrad x tris b.S s j

/-- `sample_contact_jacobian_gradient_product_at`: `hessian.rs:1895-2008`. -/
def sampleContactProduct (b : Bg) (x : ℕ → V3 ℝ) (tris : ℕ → Tri) (g : V3 ℝ) (wsi : ℝ) (s : ℕ)
    (mult : V3 ℝ) (transpose : Bool) : List (ℕ × M3 ℝ) :=
  let w := weight b.kernel b.dist b.q b.S s
  let wNormalized := w * wsi
  let dw := weightGrad b.kernel b.dist b.q b.S s
  let n := unitNormal b.S s
  let rotB := (sampleRotation n g transpose).mulVec mult
  let wNml := normalKernel n g
  let dwNormalized := wsi • (wNml • dw)
  let dwTerm := M3.outer dwNormalized ((-(1 / 3) : ℝ) • rotB)
  let sqrtFactor := (1 / 2) * (1 + V3.dot n g) * wNormalized
  let dwEntries := (List.finRange 3).map fun j => ((tris s).get j, dwTerm)
  let nmlEntries := (List.finRange 3).map fun j => ((tris s).get j,
    M3.outer (sqrtFactor • (faceUnitNormalGrad x tris b.S s j).mulVec g) rotB)
  let secondEntries := (neighborhoodVerts b.view tris).map fun v =>
    let denomTerm := M3.outer ((wNormalized * wNml) • -vertexNmlWeightGrad b x tris g v) rotB
    let jgpT := (jacobianGradientPhi b x tris v).transpose
    let jgpTerm := M3.outer (sqrtFactor • jgpT.mulVec n) rotB
    let rotJac := rodriguesJacobianProduct n g jgpT (vertexNormalGrad b x tris s v) (V3.dot n g) mult
      transpose
    (v, denomTerm + (wNormalized * wNml) • rotJac + jgpTerm)
  dwEntries ++ secondEntries ++ nmlEntries

/-- `contact_jacobian_jacobian_at`: `hessian.rs:1577-1704`; `none` where the code panics. -/
def contactJacobianJacobianAt (q : V3 ℝ) (view : List ℕ) (S : Samples) (k : Kern) (tris : ℕ → Tri)
    (x : ℕ → V3 ℝ) (P : BgParams) (mult : ℕ → V3 ℝ) : Option (List (ℕ × M3 ℝ)) :=
  (Bg.local q view S k P none).bind fun b =>
    (queryJacobianAt q view S none k P).map fun g =>
      view.flatMap fun s => sampleContactProduct b x tris g (weightNmlSumInv k b.dist q view S g) s
        (sampleMultiplier tris mult s) false

/-- `contact_hessian_at`: `hessian.rs:1706-1837`; `none` where the code panics. -/
def contactHessianAt (q : V3 ℝ) (view : List ℕ) (S : Samples) (k : Kern) (tris : ℕ → Tri)
    (x : ℕ → V3 ℝ) (P : BgParams) (mult : V3 ℝ) : Option (List HBlock) :=
  (Bg.local q view S k P none).bind fun b =>
    (queryJacobianAt q view S none k P).map fun g =>
      view.flatMap fun s => (List.finRange 3).flatMap fun i =>
        (sampleContactProduct b x tris g (weightNmlSumInv k b.dist q view S g) s mult true).map
          fun e => ⟨(tris s).get i, e.1, (1 / 3 : ℝ) • e.2⟩

end Softy.Contact
