import Verif.Model.Field

/-!
# Projection of query points to one side of an iso-surface

Model of `implicits/src/field/query.rs:500-775`. Lists of query points are functions on `Fin n`.
The parallel versions (641-775) do the same per point and count the same points, so both are modelled
by one function. The query topology, and with it every neighborhood, is fixed during the projection.
-/

noncomputable section

namespace Softy.Project

open Softy Softy.Field Softy.Kernel Classical

/-- The two functions of the surface that the projection calls for point `i`: `pot i q old` is what
`potential` (785-796) writes over `old`, `grad i q` what `query_jacobian_full` (`jacobian.rs:95-102`)
writes. -/
structure QueryField (n : ℕ) where
  pot : Fin n → V3 ℝ → ℝ → ℝ
  grad : Fin n → V3 ℝ → V3 ℝ

/-- The functions of an implicit surface with the given neighborhoods and closest samples
(`query.rs:852-878`, `jacobian.rs:142-173`). -/
def surfaceField {n : ℕ} (S : Samples) (k : Kern) (P : BgParams) (views : Fin n → List ℕ)
    (closest : Fin n → ℕ) : QueryField n where
  pot i q old := potentialAt q (views i) S k P old
  grad i q := (queryJacobianAt q (views i) S (some (closest i)) k P).getD 0

/-- `Side`. -/
inductive Side where
  | above
  | below

/-- The multiplier, 537-540. -/
def Side.mult : Side → ℝ
  | .above => 1
  | .below => -1

/-- What the binary search leaves behind. -/
structure Search (n : ℕ) where
  cand : Fin n → V3 ℝ
  candPot : Fin n → ℝ
  conv : Bool

variable {n : ℕ}

/-- Lines 588-626: the loop that halves steps of overshooting points, with the given number of
iterations left. -/
def search (F : QueryField n) (mult iso eps : ℝ) (pts : Fin n → V3 ℝ) (pot norms : Fin n → ℝ) :
    ℕ → (Fin n → V3 ℝ) → (Fin n → V3 ℝ) → (Fin n → ℝ) → Search n
  | 0, _, cand, candPot => ⟨cand, candPot, true⟩
  | m + 1, steps, cand, candPot =>
    let cand := fun i => if pot i < iso ∧ norms i ≠ 0 then pts i + steps i else cand i
    let candPot := fun i => F.pot i (cand i) (candPot i) * mult
    let over := fun i => pot i < iso ∧ candPot i > iso + eps ∧ norms i ≠ 0
    let steps := fun i => if over i then (1 / 2 : ℝ) • steps i else steps i
    if ∀ i, ¬ over i then ⟨cand, candPot, true⟩
    else if m = 0 then ⟨cand, candPot, false⟩
    else search F mult iso eps pts pot norms m steps cand candPot

/-- Lines 553-636: the outer loop with the given number of iterations left. -/
def iterate (F : QueryField n) (mult iso eps : ℝ) :
    ℕ → (Fin n → V3 ℝ) → (Fin n → V3 ℝ) → (Fin n → ℝ) → (Fin n → ℝ) → Bool → (Fin n → V3 ℝ) × Bool
  | 0, pts, _, _, _, conv => (pts, conv)
  | m + 1, pts, cand, pot, candPot, conv =>
    let pot := fun i => F.pot i (pts i) (pot i) * mult
    let norms := fun i => (F.grad i (pts i)).norm
    if ∀ i, ¬ (pot i < iso ∧ norms i ≠ 0) then (pts, conv)
    else
      let steps := fun i =>
        if pot i < iso ∧ norms i ≠ 0 then
          (mult * ((eps * (1 / 2) + (iso - pot i)) / norms i)) • F.grad i (pts i)
        else F.grad i (pts i)
      let r := search F mult iso eps pts pot norms 10 steps cand candPot
      iterate F mult iso eps m r.cand r.cand pot r.candPot (conv && r.conv && decide (m ≠ 0))

/-- `query.rs:530-639`, `project`: the new query points and the answer. -/
def project (F : QueryField n) (side : Side) (iso eps : ℝ) (pts : Fin n → V3 ℝ) :
    (Fin n → V3 ℝ) × Bool :=
  iterate F side.mult (iso * side.mult) eps 20 pts pts (fun _ => 0) (fun _ => 0) true

end Softy.Project
