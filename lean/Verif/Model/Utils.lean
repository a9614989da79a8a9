import Verif.Prelude
import Mathlib.Data.Real.Basic
import Mathlib.Tactic.Linarith

/-!
# Model of small utilities

`utils/src/lib.rs`: `mode_u32`, `build_mesh_laplacian`; `softy/src/lib.rs`: `inf_norm`.
-/

namespace Softy.Utils

/-! ## Mode -/

/-- `utils/src/lib.rs:104-108`: resize the bins if needed and count `x`. -/
def bump (bins : List ℕ) (x : ℕ) : List ℕ :=
  let bins := if x ≥ bins.length then bins ++ List.replicate (x + 1 - bins.length) 0 else bins
  bins.modify x (· + 1)

/-- `Iterator::max_by_key` on enumerated bins: the last maximal element. `i` is the index of the
next bin, `best` the best so far. -/
def maxBin : List ℕ → ℕ → Option (ℕ × ℕ) → Option (ℕ × ℕ)
  | [], _, best => best
  | f :: l, i, none => maxBin l (i + 1) (some (i, f))
  | f :: l, i, some (m, g) => maxBin l (i + 1) (if f < g then some (m, g) else some (i, f))

/-- `utils/src/lib.rs:100-117`, `mode_u32`. -/
def mode (data : List ℕ) : ℕ × ℕ := (maxBin (data.foldl bump []) 0 none).getD (0, 0)

/-! ## Infinity norm -/

noncomputable section

/-- `a.partial_cmp(b).unwrap_or(Less)` is `Greater`; `none` is NaN. -/
def cmpGreater : Option ℝ → Option ℝ → Prop
  | some a, some b => b < a
  | _, _ => False

open Classical in
/-- The fold of `Iterator::max_by`: the later element wins unless the earlier is greater. -/
def maxBy : List (Option ℝ) → Option (Option ℝ) → Option (Option ℝ)
  | [], best => best
  | x :: l, none => maxBy l (some x)
  | x :: l, some b => maxBy l (some (if cmpGreater b x then b else x))

/-- `softy/src/lib.rs:207-215`, `inf_norm`; `none` is NaN. -/
def infNorm (xs : List (Option ℝ)) : Option ℝ :=
  (maxBy (xs.map fun x => x.map abs) none).getD (some 0)

/-! ## Mesh Laplacian -/

/-- `utils/src/lib.rs:32-46`: the triplets, those of the faces first. -/
def triplets (faces : List (ℕ × ℕ × ℕ)) (size : ℕ) (w : ℝ) : List (ℕ × ℕ × ℝ) :=
  (faces.flatMap fun (v0, v1, v2) =>
    [(v0, v1, w), (v0, v2, w), (v1, v0, w), (v1, v2, w), (v2, v0, w), (v2, v1, w)]) ++
  (List.range size).map fun i => (i, i, 1 - w)

/-- `utils/src/lib.rs:54`: the function combining an entry with a further one for the same
place, `*a += 0.5 * (*a + b)`. -/
def combine (a b : ℝ) : ℝ := a + 0.5 * (a + b)

/-- The values for one place combined, if there are any. -/
def combineAll : List ℝ → Option ℝ
  | [] => none
  | a :: l => some (l.foldl combine a)

/-- Values of the triplets at row `i` and column `j`. -/
def valuesAt (ts : List (ℕ × ℕ × ℝ)) (i j : ℕ) : List ℝ :=
  (ts.filter fun t => t.1 = i ∧ t.2.1 = j).map fun t => t.2.2

open Classical in
/-- `utils/src/lib.rs:53-57`: row `i` of the pruned matrix. The method `pruned` of the sparse matrix
library sorts a row by column, combines entries of equal column and removes the entries which
the predicate rejects. -/
def prunedRow (ts : List (ℕ × ℕ × ℝ)) (size i : ℕ) : List (ℕ × ℝ) :=
  (List.range size).filterMap fun j =>
    match combineAll (valuesAt ts i j) with
    | some v => if v ≠ 0 then some (j, v) else none
    | none => none

/-- `utils/src/lib.rs:60-67`: normalise row `i`. `none` is the panic of the subtraction for an
empty row. -/
def normalizeRow (i : ℕ) (row : List (ℕ × ℝ)) : Option (List (ℕ × ℝ)) :=
  if row.length = 0 then none
  else some (row.map fun (j, v) => if i ≠ j then (j, v / ((row.length - 1 : ℕ) : ℝ)) else (j, v))

/-- `utils/src/lib.rs:28-70`, `build_mesh_laplacian`: row `i` of the result. -/
def laplacianRow (faces : List (ℕ × ℕ × ℕ)) (size : ℕ) (w : ℝ) (i : ℕ) : Option (List (ℕ × ℝ)) :=
  normalizeRow i (prunedRow (triplets faces size w) size i)

end

end Softy.Utils
