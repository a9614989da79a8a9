import Verif.Model.LaggedFriction
import Verif.Model.ContactDerivative
import Verif.Model.ContactHessian

/-!
# The Jacobian of friction that is not lagged

Model of `friction_jacobian_indexed_value_iter` (`penalty_point_contact.rs:2914-3420`) for contacts whose
`friction_params.lagged` is not set, of the functions it calls (`penalty_point_contact.rs:2555-2911`), and
of the matrices that `precompute_contact_jacobian` (1842-1930) prepares for it. Everything is computed from
the current state of the contact. Products and sums of sparse matrices are those of
`Model/LaggedFriction.lean`. Timings are left out.
-/

noncomputable section

namespace Softy.Contact

open Softy Softy.Kernel Softy.Field

/-- Row `a` of a matrix, `m[a]`. Only called with `a < 3`. -/
def rowN (m : M3 ℝ) (a : ℕ) : V3 ℝ := if a = 0 then m.r0 else if a = 1 then m.r1 else m.r2

/-- The closure in `contact_basis_matrix_jacobian_product`: `penalty_point_contact.rs:2601-2662`. `n` is the
normal, `g` the gradient of the potential and `h` the block of its derivative. -/
def basisJacobianProduct (n g : V3 ℝ) (h : M3 ℝ) (mult : V3 ℝ) (transpose : Bool) : M3 ℝ :=
  let nmlJac : M3 ℝ := (-(1 / g.norm)) • ((M3.diag 1 - M3.outer n n) * h)
  let a := (n.iamax + 1) % 3
  let t := V3.axis a - n.getN a • n
  let normInv := 1 / t.norm
  let t := normInv • t
  let jacT : M3 ℝ := -(n.getN a • nmlJac + M3.outer n (rowN nmlJac a))
  let tangentJac : M3 ℝ := normInv • ((M3.diag 1 - M3.outer t t) * jacT)
  let bitangentJac : M3 ℝ :=
    ⟨t.z • nmlJac.r1 - t.y • nmlJac.r2 + n.y • tangentJac.r2 - n.z • tangentJac.r1,
      t.x • nmlJac.r2 - t.z • nmlJac.r0 + n.z • tangentJac.r0 - n.x • tangentJac.r2,
      t.y • nmlJac.r0 - t.x • nmlJac.r1 + n.x • tangentJac.r1 - n.y • tangentJac.r0⟩
  if transpose then
    ⟨nmlJac.transpose.mulVec mult, tangentJac.transpose.mulVec mult, bitangentJac.transpose.mulVec mult⟩
  else mult.x • nmlJac + mult.y • tangentJac + mult.z • bitangentJac

namespace Pair

variable (C : Pair)

/-! ## Derivatives of the frames -/

/-- The blocks of the derivative of the gradient of the potential at each contact, with contact and vertex:
`penalty_point_contact.rs:2567-2600`. -/
def gradientJacobian (x : ℕ → V3 ℝ) : List ((List ℕ × ℕ) × ℕ × M3 ℝ) :=
  (C.active.map fun p => (p, C.coll p.2,
    (queryHessianAt (C.query x p.2) p.1 (C.samples x) C.kernel params).getD 0)) ++
  C.active.flatMap fun p => ((sampleQueryHessianAt (C.query x p.2) p.1 (C.samples x) C.kernel C.tris
    (fun j => x (C.surf j)) params 1).getD []).map fun m => (p, C.surf m.1, m.2)

/-- `contact_basis_matrix_jacobian_product`: `penalty_point_contact.rs:2555-2663`. Rows are constraints,
columns are vertices. `query_jacobian_full` (`jacobian.rs:95-106`) computes the same gradients as
`query_jacobian_block_iter`. -/
def basisJacobian (x : ℕ → V3 ℝ) (mult : ℕ → V3 ℝ) (transpose : Bool) : List MBlock :=
  (C.gradientJacobian x).map fun e =>
    let k := C.constraintOf e.1.2
    let g := (queryJacobianAt (C.query x e.1.2) e.1.1 (C.samples x) (some (C.closest e.1.2)) C.kernel
      params).getD 0
    ⟨k, e.2.1, basisJacobianProduct ((C.contactNormals x).getD k 0) g e.2.2 (mult k) transpose⟩

/-- `build_contact_basis_gradient_product_from_selection` (`penalty_point_contact.rs:2669-2721`), transposed
again where it is used (3196-3197, 3233-3234). `n` is the number of vertices that may move. -/
def basisTriplets (x : ℕ → V3 ℝ) (mult : ℕ → V3 ℝ) (transpose : Bool) (n : ℕ) : List MBlock :=
  (C.basisJacobian x mult transpose).filter fun b => decide (b.col < n)

/-! ## Derivatives of the contact Jacobian -/

/-- `build_contact_jacobian_jacobian_product`: `penalty_point_contact.rs:2785-2823`. Neighborhoods that are
empty are skipped before they are paired with multipliers (`hessian.rs:677-680, 735-738`). -/
def forceTriplets (x : ℕ → V3 ℝ) (mult : ℕ → V3 ℝ) (n : ℕ) : List HBlock :=
  ((C.active.zipIdx.flatMap fun p => ((contactHessianAt (C.query x p.1.2) p.1.1 (C.samples x) C.kernel
      C.tris (fun j => x (C.surf j)) params (mult p.2)).getD []).map fun b =>
        HBlock.mk (C.surf b.row) (C.surf b.col) b.val.transpose) ++
    C.active.zipIdx.flatMap fun p => ((contactQueryHessianAt (C.query x p.1.2) p.1.1 (C.samples x) C.kernel
      C.tris params (mult p.2)).getD []).map fun e =>
        HBlock.mk (C.surf e.1) (C.coll p.1.2) e.2.transpose).filter
    fun b => decide (b.row < n ∧ b.col < n)

/-- `build_contact_jacobian_gradient_product`: `penalty_point_contact.rs:2727-2779`. Rows are vertices,
columns are constraints. -/
def velocityTriplets (x : ℕ → V3 ℝ) (mult : ℕ → V3 ℝ) (n : ℕ) : List MBlock :=
  ((C.active.flatMap fun p => ((contactJacobianJacobianAt (C.query x p.2) p.1 (C.samples x) C.kernel C.tris
      (fun j => x (C.surf j)) params mult).getD []).map fun e =>
        MBlock.mk (C.surf e.1) (C.constraintOf p.2) e.2) ++
    C.active.flatMap fun p => ((contactQueryJacobianJacobianAt (C.query x p.2) p.1 (C.samples x) C.kernel
      C.tris params mult).getD []).map fun m =>
        MBlock.mk (C.coll p.2) (C.constraintOf p.2) m).filter
    fun b => decide (b.row < n)

/-- `jac_contact_gradient` after `update_jac_contact_gradient` (`penalty_point_contact.rs:1988-2010`). The
indices are those of `precompute_contact_jacobian` (1918-1928), for all `N` vertices and multipliers that are
zero; they depend on the neighborhoods only. The blocks are those for the `n` vertices that may move. -/
def jacContactGradient (x : ℕ → V3 ℝ) (mult : ℕ → V3 ℝ) (N n : ℕ) : List HBlock :=
  List.zipWith (fun i b => ⟨i.row, i.col, b.val⟩) (C.forceTriplets x (fun _ => 0) N)
    (C.forceTriplets x mult n)

/-- `jac_contact_jacobian` after `update_jac_contact_jacobian` (`penalty_point_contact.rs:1957-1986`), as
triplets. Blocks are added up at the positions of the triplets of `precompute_contact_jacobian`
(1903-1916), for all `N` vertices, which `MappedSSBlockMatrix3` (473-545) has kept. -/
def jacContactJacobian (x : ℕ → V3 ℝ) (mult : ℕ → V3 ℝ) (N n : ℕ) : List MBlock :=
  List.zipWith (fun i b => ⟨i.row, i.col, b.val⟩) (C.velocityTriplets x (fun _ => 0) N)
    (C.velocityTriplets x mult n)

/-! ## Products -/

/-- The sum of the triplets at row `k` and column `j`. -/
def blockAt (T : List MBlock) (k j : ℕ) : M3 ℝ :=
  ((T.filter fun b => decide (b.row = k ∧ b.col = j)).map fun b => b.val).sum

open Classical in
/-- The product of `contact_gradient` with a block diagonal matrix and a matrix whose rows are constraints
and whose columns are vertices. -/
def contactProduct (x : ℕ → V3 ℝ) (N : ℕ) (mid : ℕ → M3 ℝ) (T : List MBlock) : List HBlock :=
  (List.range N).flatMap fun i =>
    ((List.range N).filter fun j =>
      decide (∃ k, C.touches x N i k ∧ ∃ b ∈ T, b.row = k ∧ b.col = j)).map fun j =>
        ⟨i, j, ((List.range C.active.length).map fun k =>
          C.gradientBlock x N i k * (mid k * blockAt T k j)).sum⟩

/-! ## The Jacobian -/

/-- `compute_constraint_friction_force`, entry `k`: `penalty_point_contact.rs:2401-2441`. With `lam` instead
of the multiplier it is also `vc_t_smoothed` in `penalty_point_contact.rs:2851-2855`. -/
def frictionCoordinates (p : Friction.Params) (x v : ℕ → V3 ℝ) (lam : ℝ) (k : ℕ) : V3 ℝ :=
  let c := ((C.contactBasis x).toContactCoordinates ((C.relativeVelocities x v).getD k 0) k).getD 0
  let f := Friction.profile ⟨c.y, c.z⟩ lam p
  ⟨0, f.x, f.y⟩

open Classical in
/-- `contact_constraint_jac_product_map`: `penalty_point_contact.rs:2828-2911`. Entries in a row of the
contact gradient and a row of the distance gradient are sorted by constraint; those of equal constraints
are paired. -/
def lambdaBlocks (p : Friction.Params) (x v : ℕ → V3 ℝ) (dqdv : ℝ) (N n : ℕ) : List HBlock :=
  ((List.range N).filter (· < n)).flatMap fun i =>
    ((gradientRows (C.gradient x N)).filter (· < n)).flatMap fun j =>
      ((gradientRow (C.gradient x N) j).filter fun e => decide (C.touches x N i e.1.2)).map fun e =>
        let vc := ((C.contactBasis x).fromContactCoordinates (C.frictionCoordinates p x v 1 e.1.2)
          e.1.2).getD 0
        let s := -dqdv * C.kappa * ContactPenalty.ddb C.delta ((C.distances x).getD e.1.2 0)
        ⟨i, j, C.gradientBlock x N i e.1.2 * M3.outer vc (s • e.2)⟩

/-- `friction_jacobian_workspace.bc`: `penalty_point_contact.rs:3171-3180`. -/
def physicalFriction (p : Friction.Params) (x v : ℕ → V3 ℝ) (dqdv : ℝ) (k : ℕ) : V3 ℝ :=
  dqdv • ((C.contactBasis x).fromContactCoordinates
    (C.frictionCoordinates p x v ((C.lambda x).getD k 0) k) k).getD 0

/-- Matrix (A): `penalty_point_contact.rs:3183-3196`. -/
def blocksA (p : Friction.Params) (x v : ℕ → V3 ℝ) (dqdv : ℝ) (N n : ℕ) : List HBlock :=
  C.jacContactGradient x (C.physicalFriction p x v dqdv) N n

/-- Matrix (B): `penalty_point_contact.rs:3199-3229`. -/
def blocksB (p : Friction.Params) (x v : ℕ → V3 ℝ) (N n : ℕ) : List HBlock :=
  C.contactProduct x N (fun _ => M3.diag 1) (C.basisTriplets x
    (fun k => C.frictionCoordinates p x v ((C.lambda x).getD k 0) k) false n)

/-- Matrix (C): `penalty_point_contact.rs:3231-3274`. -/
def blocksC (p : Friction.Params) (x v : ℕ → V3 ℝ) (N n : ℕ) : List HBlock :=
  C.contactProduct x N (fun k => ((C.contactBasis x).fullBlock k).getD 0 * C.etaBlock p x v k)
    (C.basisTriplets x (fun k => (C.relativeVelocities x v).getD k 0) true n)

/-- Matrix (D): `penalty_point_contact.rs:3276-3322`. The matrix of derivatives is transposed. -/
def blocksD (p : Friction.Params) (x v : ℕ → V3 ℝ) (N n : ℕ) : List HBlock :=
  C.contactProduct x N (fun k => ((C.contactBasis x).fullBlock k).getD 0 * (C.etaBlock p x v k *
      ((C.contactBasis x).fullBlockTranspose k).getD 0))
    ((C.jacContactJacobian x (fun j => v (C.surf j)) N n).map fun b => ⟨b.col, b.row, b.val.transpose⟩)

/-- A matrix times a number. -/
def scaleBlocks (c : ℝ) (B : List HBlock) : List HBlock := B.map fun b => ⟨b.row, b.col, c • b.val⟩

/-- The blocks with `friction_params.incomplete_jacobian`: `penalty_point_contact.rs:3136-3160`. -/
def incompleteBlocks (p : Friction.Params) (x v : ℕ → V3 ℝ) (dqdv : ℝ) (N n : ℕ) : List HBlock :=
  C.lambdaBlocks p x v dqdv N n ++ C.frictionBlocks p x v N

/-- The blocks without it: `penalty_point_contact.rs:3340-3411`. -/
def completeBlocks (p : Friction.Params) (x v : ℕ → V3 ℝ) (dqdv : ℝ) (N n : ℕ) : List HBlock :=
  C.lambdaBlocks p x v dqdv N n ++ C.blocksA p x v dqdv N n ++ scaleBlocks dqdv (C.blocksB p x v N n) ++
    scaleBlocks dqdv (C.blocksC p x v N n) ++ scaleBlocks dqdv (C.blocksD p x v N n) ++
      C.frictionBlocks p x v N

open Classical in
/-- `friction_jacobian_indexed_value_iter` for friction that is not lagged:
`penalty_point_contact.rs:2914-3420`. It is `None`, which counts as empty, where there is no friction. -/
def currentEntries (p : Friction.Params) (incomplete : Bool) (x v : ℕ → V3 ℝ) (dqdv : ℝ) (N n : ℕ) :
    List (Sparse.Key × ℝ) :=
  if p.isNone then []
  else ((if incomplete then C.incompleteBlocks p x v dqdv N n else C.completeBlocks p x v dqdv N n).filter
    fun b => decide (b.row < n ∧ b.col < n)).flatMap blockEntries

end Pair

end Softy.Contact
