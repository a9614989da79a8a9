import Verif.Model.Contact
import Verif.Model.FieldHessian
import Verif.Model.Sparse
import Verif.Model.TetElasticity

/-!
# Derivatives of contact forces

Model of the parts of `softy/src/constraints/penalty_point_contact.rs` that compute the derivative of
the contact forces of one pair (`Model/Contact.lean`), and of the Hessian products of
`implicits/src/field/hessian.rs` over all query points.
-/

noncomputable section

namespace Softy.Contact.Pair

open Softy Softy.Field

variable (C : Pair)

/-- The collider vertices with neighbors, each with its multiplier: `.filter(…).zip(multipliers)` in
`hessian.rs:233-238`, `466-468` and `870-875`. -/
def multiplied (lam : List ℝ) : List ((List ℕ × ℕ) × ℝ) := C.active.zip lam

/-- `object_distance_potential_hessian_indexed_blocks_iter` (`penalty_point_contact.rs:3478-3504`) with
`surface_hessian_product_indexed_blocks_iter_impl` (`hessian.rs:442-487`). -/
def objectHessian (x : ℕ → V3 ℝ) (lam : List ℝ) : List HBlock :=
  if C.objectFixed then [] else
    (C.multiplied lam).flatMap fun p =>
      ((faceHessianAt (C.query x p.1.2) p.1.1 (C.samples x) C.kernel C.tris (fun j => x (C.surf j))
        params p.2).getD []).map fun h => ⟨C.surf h.row, C.surf h.col, h.val⟩

/-- `object_collider_distance_potential_hessian_indexed_blocks_iter`
(`penalty_point_contact.rs:3508-3540`) with `sample_query_hessian_product_indexed_blocks_iter_impl`
(`hessian.rs:839-981`). -/
def mixedHessian (x : ℕ → V3 ℝ) (lam : List ℝ) : List HBlock :=
  if C.objectFixed then [] else
    (C.multiplied lam).flatMap fun p =>
      ((sampleQueryHessianAt (C.query x p.1.2) p.1.1 (C.samples x) C.kernel C.tris
        (fun j => x (C.surf j)) params p.2).getD []).map fun m =>
          ⟨C.coll p.1.2, C.surf m.1, m.2⟩

/-- `collider_distance_potential_hessian_indexed_blocks_iter` (`penalty_point_contact.rs:3543-3566`)
with `query_hessian_product_indexed_blocks_iter_impl` (`hessian.rs:215-244`). -/
def colliderHessian (x : ℕ → V3 ℝ) (lam : List ℝ) : List HBlock :=
  if C.colliderFixed then [] else
    (C.multiplied lam).map fun p => ⟨C.coll p.1.2, C.coll p.1.2, p.2 •
      ((queryHessianAt (C.query x p.1.2) p.1.1 (C.samples x) C.kernel params).getD 0)⟩

/-- "Fill upper triangular portion" (`penalty_point_contact.rs:3712-3723`). -/
def mirror (h : HBlock) : List HBlock :=
  h :: if h.row = h.col then [] else [⟨h.col, h.row, h.val.transpose⟩]

/-- The distance gradient as `reset_distance_gradient` (`penalty_point_contact.rs:1207-1227`) and
`MappedDistanceGradient::new` (134-216) leave it: triplets `(vertex, constraint, block)`, sorted, those
outside of the matrix dropped, equal positions summed. `update_constraint_gradient` (1292-1328) refills
it by the algorithm of `Sparse.reassemble`, with the same result. -/
def gradient (x : ℕ → V3 ℝ) (N : ℕ) : List (Sparse.Key × V3 ℝ) :=
  Sparse.pruneSum ((((C.blocks x).map fun b => ((b.col, b.row), b.val)).mergeSort
    fun a b => Sparse.keyLe a.1 b.1).filter fun e => e.1.1 < N && e.1.2 < C.active.length)

/-- The rows of a sparse matrix that are not empty, in order. -/
def gradientRows (g : List (Sparse.Key × V3 ℝ)) : List ℕ := (g.map fun e => e.1.1).dedup

/-- The entries of a row of a sparse matrix. -/
def gradientRow (g : List (Sparse.Key × V3 ℝ)) (v : ℕ) : List (Sparse.Key × V3 ℝ) :=
  g.filter fun e => e.1.1 = v

/-- The pairs of entries in rows `v` and `u` with the same column: what `MulExpr` iterates over
(`penalty_point_contact.rs:3750`). -/
def gradientPairs (g : List (Sparse.Key × V3 ℝ)) (v u : ℕ) :
    List ((Sparse.Key × V3 ℝ) × (Sparse.Key × V3 ℝ)) :=
  (gradientRow g v).flatMap fun a =>
    ((gradientRow g u).filter fun b => b.1.2 = a.1.2).map fun b => (a, b)

/-- `penalty_point_contact.rs:3740-3758`: the blocks of the product of the distance gradient with its
transpose, weighted by the second derivative of the penalty. -/
def productBlocks (g : List (Sparse.Key × V3 ℝ)) (dist : List ℝ) (maxIndex : ℕ) : List HBlock :=
  ((gradientRows g).filter (· < maxIndex)).flatMap fun v =>
    ((gradientRows g).filter (· < maxIndex)).flatMap fun u =>
      (gradientPairs g v u).map fun p =>
        ⟨v, u, (-C.kappa * ContactPenalty.ddb C.delta (dist.getD p.1.1.2 0)) • M3.outer p.1.2 p.2.2⟩

/-- The blocks of `constraint_hessian_indexed_values_iter` (`penalty_point_contact.rs:3702-3764`). -/
def hessianBlocks (x : ℕ → V3 ℝ) (N maxIndex : ℕ) : List HBlock :=
  (((C.objectHessian x (C.lambda x) ++ C.mixedHessian x (C.lambda x)).flatMap mirror ++
    C.colliderHessian x (C.lambda x)).filter fun h => h.row < maxIndex && h.col < maxIndex) ++
    C.productBlocks (C.gradient x N) (C.distances x) maxIndex

/-- `penalty_point_contact.rs:3776-3778`: the scalar entries of a block. -/
def blockEntries (h : HBlock) : List (Sparse.Key × ℝ) :=
  (List.finRange 3).flatMap fun r => (List.finRange 3).map fun c =>
    ((3 * h.row + r.val, 3 * h.col + c.val), h.val.at r c)

/-- `constraint_hessian_indexed_values_iter` (`penalty_point_contact.rs:3702-3782`). -/
def hessianEntries (x : ℕ → V3 ℝ) (N maxIndex : ℕ) : List (Sparse.Key × ℝ) :=
  (C.hessianBlocks x N maxIndex).flatMap blockEntries

/-! ## Indices -/

/-- `object_distance_potential_hessian_block_indices_iter` (`penalty_point_contact.rs:3569-3592`) with
`surface_hessian_product_block_indices_iter` (`hessian.rs:355-377`). -/
def objectIndices : List Sparse.Key :=
  if C.objectFixed then [] else
    (C.nbrs.flatMap fun n => faceHessianIndices n C.tris params.weighted).map fun p =>
      if C.surf p.2 > C.surf p.1 then (C.surf p.2, C.surf p.1) else (C.surf p.1, C.surf p.2)

/-- `object_collider_distance_potential_hessian_block_indices_iter`
(`penalty_point_contact.rs:3594-3617`) with `sample_query_hessian_product_block_indices_iter`
(`hessian.rs:984-1025`). -/
def mixedIndices : List Sparse.Key :=
  if C.objectFixed then [] else
    C.active.flatMap fun p => (sampleQueryHessianIndices p.1 C.tris).map fun v =>
      (C.coll p.2, C.surf v)

/-- `collider_distance_potential_hessian_block_indices_iter` (`penalty_point_contact.rs:3619-3635`)
with `query_hessian_product_block_indices_iter` (`hessian.rs:139-144`). -/
def colliderIndices : List ℕ :=
  if C.colliderFixed then [] else C.active.map fun p => C.coll p.2

/-- `penalty_point_contact.rs:3649-3656`. -/
def mirrorIndex (p : Sparse.Key) : List Sparse.Key := p :: if p.1 = p.2 then [] else [(p.2, p.1)]

/-- `penalty_point_contact.rs:3667-3682`. -/
def productIndices (g : List (Sparse.Key × V3 ℝ)) (maxIndex : ℕ) : List Sparse.Key :=
  ((gradientRows g).filter (· < maxIndex)).flatMap fun v =>
    ((gradientRows g).filter (· < maxIndex)).flatMap fun u =>
      (gradientPairs g v u).map fun _ => (v, u)

/-- `constraint_hessian_indices_iter` (`penalty_point_contact.rs:3637-3700`), for a distance gradient
`g`. -/
def hessianIndices (g : List (Sparse.Key × V3 ℝ)) (maxIndex : ℕ) : List Sparse.Key :=
  ((((C.objectIndices ++ C.mixedIndices).flatMap mirrorIndex ++
    C.colliderIndices.map fun i => (i, i)).filter fun p => p.1 < maxIndex && p.2 < maxIndex) ++
    productIndices g maxIndex).flatMap fun p =>
      (List.finRange 3).flatMap fun r => (List.finRange 3).map fun c =>
        (3 * p.1 + r.val, 3 * p.2 + c.val)

end Softy.Contact.Pair
