import Verif.Model.ContactPenalty
import Verif.Lemmas.Calculus
import Mathlib.Analysis.Convex.Deriv

/-!
# C12 — the contact penalty
-/

noncomputable section

namespace Softy.ContactPenalty

open Set

theorem b_of_lt {δ x : ℝ} (h : x < δ) : b δ x = (δ - x) ^ 3 / δ := by
  simp only [b, gt_iff_lt, sub_pos, h, if_true]; ring

theorem b_of_ge {δ x : ℝ} (h : δ ≤ x) : b δ x = 0 := by
  simp only [b, gt_iff_lt, sub_pos, not_lt.2 h, if_false]

theorem db_of_lt {δ x : ℝ} (h : x < δ) : db δ x = -3 * (δ - x) ^ 2 / δ := by
  simp only [db, gt_iff_lt, sub_pos, h, if_true]; ring

theorem db_of_ge {δ x : ℝ} (h : δ ≤ x) : db δ x = 0 := by
  simp only [db, gt_iff_lt, sub_pos, not_lt.2 h, if_false]

theorem ddb_of_lt {δ x : ℝ} (h : x < δ) : ddb δ x = 6 * (δ - x) / δ := by
  simp only [ddb, gt_iff_lt, sub_pos, h, if_true]

theorem ddb_of_ge {δ x : ℝ} (h : δ ≤ x) : ddb δ x = 0 := by
  simp only [ddb, gt_iff_lt, sub_pos, not_lt.2 h, if_false]

theorem b_of_le {δ x : ℝ} (h : x ≤ δ) : b δ x = (δ - x) ^ 3 / δ := by
  rcases h.lt_or_eq with h | h
  · exact b_of_lt h
  · rw [b_of_ge h.ge, h]; simp

theorem db_of_le {δ x : ℝ} (h : x ≤ δ) : db δ x = -3 * (δ - x) ^ 2 / δ := by
  rcases h.lt_or_eq with h | h
  · exact db_of_lt h
  · rw [db_of_ge h.ge, h]; simp

/-- **C12.** `db` is the derivative of the penalty at every distance, including the
junction at the tolerance. -/
theorem b_hasDerivAt (δ x : ℝ) : HasDerivAt (b δ) (db δ x) x := by
  have hc : ∀ y, HasDerivAt (fun x => (δ - x) ^ 3 / δ) (-3 * (δ - y) ^ 2 / δ) y := by
    intro y
    have := ((((hasDerivAt_id' y).const_sub δ).pow 3).div_const δ)
    refine this.congr_deriv ?_
    push_cast; ring
  rcases lt_trichotomy x δ with h | h | h
  · rw [db_of_lt h]
    exact hasDerivAt_of_lt h (hc x) fun y hy => b_of_lt hy
  · subst h
    rw [db_of_ge le_rfl]
    refine hasDerivAt_glue (g := fun y => (x - y) ^ 3 / x) (h := fun _ => 0) ?_
      (hasDerivAt_const _ _) (fun y hy => b_of_le hy) (fun y hy => b_of_ge hy)
    exact (hc x).congr_deriv (by simp)
  · rw [db_of_ge h.le]
    exact hasDerivAt_of_gt h (hasDerivAt_const x 0) fun y hy => b_of_ge hy.le

/-- **C12.** `ddb` is the derivative of `db` at every distance, so the penalty is twice
differentiable. -/
theorem db_hasDerivAt (δ x : ℝ) : HasDerivAt (db δ) (ddb δ x) x := by
  have hc : ∀ y, HasDerivAt (fun x => -3 * (δ - x) ^ 2 / δ) (6 * (δ - y) / δ) y := by
    intro y
    have := (((((hasDerivAt_id' y).const_sub δ).pow 2).const_mul (-3)).div_const δ)
    refine this.congr_deriv ?_
    push_cast; ring
  rcases lt_trichotomy x δ with h | h | h
  · rw [ddb_of_lt h]
    exact hasDerivAt_of_lt h (hc x) fun y hy => db_of_lt hy
  · subst h
    rw [ddb_of_ge le_rfl]
    refine hasDerivAt_glue (g := fun y => -3 * (x - y) ^ 2 / x) (h := fun _ => 0) ?_
      (hasDerivAt_const _ _) (fun y hy => db_of_le hy) (fun y hy => db_of_ge hy)
    exact (hc x).congr_deriv (by simp)
  · rw [ddb_of_ge h.le]
    exact hasDerivAt_of_gt h (hasDerivAt_const x 0) fun y hy => db_of_ge hy.le

/-- **C12.** The second derivative is continuous (Lipschitz), so the penalty is `C²`. -/
theorem ddb_lipschitz (δ : ℝ) (hδ : 0 < δ) (x y : ℝ) :
    |ddb δ x - ddb δ y| ≤ 6 / δ * |x - y| := by
  have e : ∀ z, ddb δ z = 6 / δ * max (δ - z) 0 := by
    intro z
    rcases lt_or_ge z δ with h | h
    · rw [ddb_of_lt h, max_eq_left (by linarith)]; ring
    · rw [ddb_of_ge h, max_eq_right (by linarith)]; ring
  rw [e, e, ← mul_sub, abs_mul, abs_of_pos (by positivity)]
  refine mul_le_mul_of_nonneg_left ?_ (by positivity)
  calc |max (δ - x) 0 - max (δ - y) 0| ≤ |(δ - x) - (δ - y)| := abs_max_sub_max_le_abs _ _ _
    _ = |x - y| := by rw [← abs_neg]; congr 1; ring

/-- **C12.** The penalty is non-negative. -/
theorem b_nonneg (δ x : ℝ) (hδ : 0 < δ) : 0 ≤ b δ x := by
  rcases le_or_gt δ x with h | h
  · rw [b_of_ge h]
  · rw [b_of_lt h]
    have : 0 < δ - x := by linarith
    positivity

/-- **C12.** The penalty, its force and its stiffness vanish exactly at and beyond the
tolerance. -/
theorem b_eq_zero_iff (δ x : ℝ) (hδ : 0 < δ) :
    (b δ x = 0 ↔ δ ≤ x) ∧ (db δ x = 0 ↔ δ ≤ x) ∧ (ddb δ x = 0 ↔ δ ≤ x) := by
  refine ⟨⟨fun h => ?_, b_of_ge⟩, ⟨fun h => ?_, db_of_ge⟩, ⟨fun h => ?_, ddb_of_ge⟩⟩ <;>
    (by_contra hc; rw [not_le] at hc; have h' : 0 < δ - x := by linarith)
  · rw [b_of_lt hc] at h
    have : 0 < (δ - x) ^ 3 / δ := by positivity
    linarith
  · rw [db_of_lt hc] at h
    have : 0 < 3 * (δ - x) ^ 2 / δ := by positivity
    have e : -3 * (δ - x) ^ 2 / δ = -(3 * (δ - x) ^ 2 / δ) := by ring
    linarith
  · rw [ddb_of_lt hc] at h
    have : 0 < 6 * (δ - x) / δ := by positivity
    linarith

theorem db_nonpos (δ x : ℝ) (hδ : 0 < δ) : db δ x ≤ 0 := by
  rcases le_or_gt δ x with h | h
  · rw [db_of_ge h]
  · rw [db_of_lt h]
    have : 0 ≤ 3 * (δ - x) ^ 2 / δ := by positivity
    have e : -3 * (δ - x) ^ 2 / δ = -(3 * (δ - x) ^ 2 / δ) := by ring
    linarith

theorem ddb_nonneg (δ x : ℝ) (hδ : 0 < δ) : 0 ≤ ddb δ x := by
  rcases le_or_gt δ x with h | h
  · rw [ddb_of_ge h]
  · rw [ddb_of_lt h]
    have : 0 < δ - x := by linarith
    positivity

/-- **C12.** The penalty is non-increasing in the distance. -/
theorem b_antitone (δ : ℝ) (hδ : 0 < δ) : Antitone (b δ) :=
  antitone_of_deriv_nonpos (fun x => (b_hasDerivAt δ x).differentiableAt)
    fun x => by rw [(b_hasDerivAt δ x).deriv]; exact db_nonpos δ x hδ

/-- **C12.** The penalty is convex. -/
theorem b_convex (δ : ℝ) (hδ : 0 < δ) : ConvexOn ℝ univ (b δ) := by
  have hd : deriv (b δ) = db δ := funext fun x => (b_hasDerivAt δ x).deriv
  refine Monotone.convexOn_univ_of_deriv (fun x => (b_hasDerivAt δ x).differentiableAt) ?_
  rw [hd]
  exact monotone_of_deriv_nonneg (fun x => (db_hasDerivAt δ x).differentiableAt)
    fun x => by rw [(db_hasDerivAt δ x).deriv]; exact ddb_nonneg δ x hδ

/-- **C12.** Contact multipliers are never attractive, there is one per distance, and a
contact beyond the tolerance exerts no force while one within it does. -/
theorem multipliers_spec (κ δ : ℝ) (hκ : 0 < κ) (hδ : 0 < δ) (dist : List ℝ) :
    (multipliers κ δ dist).length = dist.length ∧
    ∀ (i : ℕ) (h : i < dist.length) (h' : i < (multipliers κ δ dist).length),
      0 ≤ (multipliers κ δ dist)[i] ∧ (0 < (multipliers κ δ dist)[i] ↔ dist[i] < δ) := by
  refine ⟨by simp [multipliers], fun i h h' => ?_⟩
  simp only [multipliers, List.getElem_map]
  have h1 := db_nonpos δ dist[i] hδ
  have h2 := (b_eq_zero_iff δ dist[i] hδ).2.1
  refine ⟨by nlinarith, ?_, ?_⟩
  · intro hp
    by_contra hc
    rw [h2.2 (not_lt.1 hc)] at hp
    simp at hp
  · intro hc
    have : db δ dist[i] ≠ 0 := fun e => absurd (h2.1 e) (not_le.2 hc)
    have : db δ dist[i] < 0 := lt_of_le_of_ne h1 this
    nlinarith

/-- **C12.** The multiplier is the force of the stiffness-scaled penalty: minus the
derivative of `κ b` with respect to the distance. -/
theorem multiplier_is_force (κ δ x : ℝ) :
    HasDerivAt (fun x => κ * b δ x) (-(-κ * db δ x)) x := by
  have := (b_hasDerivAt δ x).const_mul κ
  exact this.congr_deriv (by ring)

/-- Non-vacuity: an active and an inactive contact. -/
example : 0 < (multipliers 10 1 [0.5, 2])[0]'(by simp [multipliers]) ∧
    (multipliers 10 1 [0.5, 2])[1]'(by simp [multipliers]) = 0 := by
  constructor <;> norm_num [multipliers, db]

end Softy.ContactPenalty
