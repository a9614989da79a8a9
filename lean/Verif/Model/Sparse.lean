import Mathlib.Algebra.Ring.Defs
import Mathlib.Algebra.BigOperators.Group.List.Basic
import Mathlib.Data.List.FinRange

/-!
# Model of the sparse Jacobian assembly

`sparse_matrix_and_mapping` and the value update of the direct solver in
`softy/src/fem/nl/newton.rs`, the symmetrisation in `softy/src/fem/nl/problem.rs`.

Triplets are given by functions on `Fin nnz` (`assert_eq!` in lines 599-600 makes the three
arrays equally long). Values live in an arbitrary commutative monoid: only sums are formed.
-/

namespace Softy.Sparse

variable {R : Type*} [AddCommMonoid R]

/-- Position of a matrix entry: (row, column). -/
abbrev Key := ℕ × ℕ

/-- The comparison of `newton.rs:604`: `rows.cmp().then_with(|| cols.cmp())` is not
`Greater`. -/
def keyLe (a b : Key) : Bool := a.1 < b.1 || (a.1 == b.1 && a.2 ≤ b.2)

/-- Row/column of triplet `k`, swapped if `transpose` (`newton.rs:595-597`). -/
def keyOf {nnz : ℕ} (rows cols : Fin nnz → ℕ) (transpose : Bool) (k : Fin nnz) : Key :=
  if transpose then (cols k, rows k) else (rows k, cols k)

/-- `newton.rs:602-604`: indices of the triplets, stably sorted by position. -/
def sortedEntries {nnz : ℕ} (key : Fin nnz → Key) : List (Fin nnz) :=
  (List.finRange nnz).mergeSort (fun a b => keyLe (key a) (key b))

/-- `newton.rs:607-610`: drop the entries outside of the matrix. -/
def keptEntries {nnz : ℕ} (key : Fin nnz → Key) (size : ℕ) : List (Fin nnz) :=
  (sortedEntries key).filter (fun k => (key k).1 < size && (key k).2 < size)

/-- `newton.rs:616-625`: what `tensr`'s `pruned(|_, _, _| true, _)` does to sorted triplets:
neighbouring entries with the same position are summed into one. (The `tensr` crate is not
part of the repository; this is the documented behaviour of the call.) -/
def pruneSum : List (Key × R) → List (Key × R)
  | [] => []
  | [a] => [a]
  | a :: b :: t =>
    if a.1 = b.1 then pruneSum ((a.1, a.2 + b.2) :: t) else a :: pruneSum (b :: t)
termination_by l => l.length

/-- The `dst` positions reported by the same call to the callback `|src, dst|`
(`newton.rs:622`), for the entries in order, when the first one goes to `d`. -/
def pruneDst : ℕ → List Key → List ℕ
  | _, [] => []
  | d, [_] => [d]
  | d, a :: b :: t => d :: pruneDst (if a = b then d else d + 1) (b :: t)

/-- `newton.rs:588-627`, first component of the result: the compressed matrix as the list of
its stored entries, row by row. -/
def compress {nnz : ℕ} (key : Fin nnz → Key) (vals : Fin nnz → R) (size : ℕ) : List (Key × R) :=
  pruneSum ((keptEntries key size).map fun k => (key k, vals k))

/-- `newton.rs:623`: `mapping[entries[src]] = Index::new(dst)`. -/
def setEntry {nnz : ℕ} (m : Fin nnz → Option ℕ) (p : Fin nnz × ℕ) : Fin nnz → Option ℕ :=
  Function.update m p.1 (some p.2)

/-- `newton.rs:606,622-624`, second component: `mapping[entries[src]] = dst`, all other
entries stay `Index::INVALID`. -/
def mapping {nnz : ℕ} (key : Fin nnz → Key) (size : ℕ) : Fin nnz → Option ℕ :=
  ((keptEntries key size).zip (pruneDst 0 ((keptEntries key size).map key))).foldl
    setEntry (fun _ => none)

/-- `newton.rs:1388-1390`: `storage[pos] += val` if the mapped position is valid. -/
def addEntry {nnz : ℕ} (m : Fin nnz → Option ℕ) (vals : Fin nnz → R) (st : ℕ → R)
    (k : Fin nnz) : ℕ → R :=
  match m k with
  | some pos => Function.update st pos (st pos + vals k)
  | none => st

/-- `newton.rs:1379-1391`: zero the stored values, then add every new triplet value at its
mapped position. Storage is a function of the position; only positions below the number of
stored entries are ever read. -/
def reassemble {nnz : ℕ} (m : Fin nnz → Option ℕ) (vals : Fin nnz → R) : ℕ → R :=
  (List.finRange nnz).foldl (addEntry m vals) (fun _ => 0)

/-- `newton.rs:522-535`, `SparseJacobian::compute_product`: product of the triplets with `p`
(length `n`); out-of-range triplets are skipped. -/
def computeProduct {K : Type*} [Semiring K] {nnz : ℕ} (rows cols : Fin nnz → ℕ)
    (vals : Fin nnz → K) (nr nc : ℕ) (p : Fin nc → K) : ℕ → K :=
  (List.finRange nnz).foldl
    (fun jp k => if h : rows k < nr ∧ cols k < nc then
        Function.update jp (rows k) (jp (rows k) + p ⟨cols k, h.2⟩ * vals k)
      else jp)
    (fun _ => 0)

/-- `problem.rs:1524-1550`: indices of the lower triangular entries, followed by the swapped
off-diagonal ones, as many as fit into the `cap` remaining slots. -/
def mirrorIndices (idx : List Key) (cap : ℕ) : List Key :=
  idx ++ ((idx.filter fun k => k.1 != k.2).map fun k => (k.2, k.1)).take cap

/-- `problem.rs:1832-1842`: values of the lower triangular entries followed by the
off-diagonal ones again. -/
def mirrorValues (idx : List Key) (vals : List R) (cap : ℕ) : List R :=
  vals ++ (((idx.zip vals).filter fun e => e.1.1 != e.1.2).map fun e => e.2).take cap

/-- `problem.rs:949-972`, `jacobian_nnz`: twice the number of lower triangular entries minus
the diagonal ones. -/
def jacobianNnz (idx : List Key) : ℕ :=
  2 * idx.length - (idx.filter fun k => k.1 == k.2).length

end Softy.Sparse
