import Verif.Model.Converged

/-!
# Properties of the convergence test (C49)
-/

namespace Softy.Converged

open TimeInt

theorem foldl_max_le (r : List (V3 ℝ)) (m c : ℝ) :
    r.foldl (fun m a => max (max (max m |a.x|) |a.y|) |a.z|) m < c ↔
      m < c ∧ ∀ a ∈ r, |a.x| < c ∧ |a.y| < c ∧ |a.z| < c := by
  induction r generalizing m with
  | nil => simp
  | cons a t ih =>
    rw [List.foldl_cons, ih]
    simp only [max_lt_iff, List.forall_mem_cons]
    tauto

/-- The residual criterion: every component of the residual is below the tolerance. -/
theorem infNorm_lt (r : List (V3 ℝ)) (c : ℝ) (hc : 0 < c) :
    infNorm r < c ↔ ∀ a ∈ r, |a.x| < c ∧ |a.y| < c ∧ |a.z| < c := by
  rw [infNorm, foldl_max_le]
  simp [hc]

theorem norm_smul (w : ℝ) (r : V3 ℝ) : (w • r).norm = |w| * r.norm := by
  have : V3.dot (w • r) (w • r) = w ^ 2 * V3.dot r r := by
    simp only [V3.dot, V3.smul_x, V3.smul_y, V3.smul_z]; ring
  rw [V3.norm, V3.norm, this, Real.sqrt_mul (sq_nonneg w), Real.sqrt_sq_eq_abs]

/-- **C49**: with all tolerances non-positive the test never passes. -/
theorem never_without_tolerance (dt : ℝ) (ti : SingleStep) (massInv : List (Option ℝ))
    (size : List ℝ) (xPrev x r rU : List (V3 ℝ)) (xTol rTol aTol : ℝ) (hx : xTol ≤ 0)
    (hr : rTol ≤ 0) (ha : aTol ≤ 0) : ¬ converged dt ti massInv size xPrev x r rU xTol rTol aTol := by
  rintro (h | h | h) <;> linarith [h.1]

/-- The acceleration of vertex `i`, given by its residual and its mass, is below the tolerance
relative to its speed or to its mesh size per time step. -/
def AccelSmall (aTol dtf : ℝ) (r v : V3 ℝ) (mass size : ℝ) : Prop :=
  r.norm / mass ≤ aTol * max v.norm (size / dtf)

/-- **C49**, for time steps with an implicit integrator: if the test passes, one criterion with a
positive tolerance is met: all components of the residual are below the tolerance; or the
change of the unknowns is below the tolerance relative to their size; or the acceleration of
every vertex with a mass is small. Missing: static solves, see `static_accel_violated`, and
vertices of rigid bodies, whose residual the last criterion ignores, see
`rigid_ignored_violated`. -/
theorem converged_criterion_partial (dt : ℝ) (ti : SingleStep) (massInv : List (Option ℝ))
    (size : List ℝ) (xPrev x r rU : List (V3 ℝ)) (xTol rTol aTol : ℝ)
    (hdt : 0 < dt * ti.implicitFactor) (hmass : ∀ w, some w ∈ massInv → 0 ≤ w)
    (hlen : rU.length ≤ massInv.length ∧ rU.length ≤ size.length ∧ xPrev.length = rU.length ∧
      x.length = rU.length)
    (h : converged dt ti massInv size xPrev x r rU xTol rTol aTol) :
    (0 < rTol ∧ ∀ a ∈ r, |a.x| < rTol ∧ |a.y| < rTol ∧ |a.z| < rTol) ∨
    (0 < xTol ∧ norm2 (List.zipWith (fun a b => a - b) xPrev x) < xTol * (norm2 x + 1)) ∨
    (0 < aTol ∧ ∀ (i : ℕ) (ri vi : V3 ℝ) (si : ℝ), rU[i]? = some ri → x[i]? = some vi →
      size[i]? = some si → ∃ w, massInv[i]? = some (some w) ∧
        ∀ mass, w = 1 / mass → AccelSmall aTol (dt * ti.implicitFactor) ri vi mass si) := by
  rcases h with ⟨h1, h2⟩ | h | ⟨h1, h2⟩
  · exact .inl ⟨h1, (infNorm_lt r rTol h1).1 h2⟩
  · exact .inr (.inl h)
  · refine .inr (.inr ⟨h1, ?_⟩)
    intro i ri vi si hri hvi hsi
    have hi := (List.getElem?_eq_some_iff.1 hri).1
    obtain ⟨l1, l2, l3, l4⟩ := hlen
    obtain ⟨mi, hmi⟩ : ∃ mi, massInv[i]? = some mi :=
      ⟨_, List.getElem?_eq_getElem (by omega)⟩
    obtain ⟨pi, hpi⟩ : ∃ pi, xPrev[i]? = some pi := ⟨_, List.getElem?_eq_getElem (by omega)⟩
    have := h2 (((ri, mi), si), (pi, vi)) (by
      refine List.mem_of_getElem? (i := i) ?_
      simp only [List.getElem?_zip_eq_some]
      exact ⟨⟨⟨hri, hmi⟩, hsi⟩, hpi, hvi⟩)
    rw [inv, if_neg hdt.ne'] at this
    cases mi with
    | none => exact absurd this (by simp [accelOk])
    | some w =>
      refine ⟨w, hmi, ?_⟩
      intro mass hw
      simp only [accelOk] at this
      have hw0 := hmass w (List.mem_of_getElem? hmi)
      rw [norm_smul, abs_of_nonneg hw0, hw] at this
      unfold AccelSmall
      rw [mul_max_of_nonneg _ _ h1.le]
      calc ri.norm / mass = 1 / mass * ri.norm := by ring
        _ ≤ _ := this
        _ = _ := by rw [mul_one_div]

/-- Conversely a met criterion makes the test pass. -/
theorem converged_of_residual (dt : ℝ) (ti : SingleStep) (massInv : List (Option ℝ))
    (size : List ℝ) (xPrev x r rU : List (V3 ℝ)) (xTol rTol aTol : ℝ) (h0 : 0 < rTol)
    (h : ∀ a ∈ r, |a.x| < rTol ∧ |a.y| < rTol ∧ |a.z| < rTol) :
    converged dt ti massInv size xPrev x r rU xTol rTol aTol :=
  .inl ⟨h0, (infNorm_lt r rTol h0).2 h⟩

/-- A case that passes by the residual criterion only. -/
example : converged 0.01 .BE [some 1] [1] [⟨0, 0, 0⟩] [⟨9, 0, 0⟩] [⟨0, 1/2, 0⟩] [⟨0, 1/2, 0⟩]
    0 1 0 := by
  refine converged_of_residual _ _ _ _ _ _ _ _ _ _ _ one_pos ?_
  intro a ha
  rw [List.mem_singleton] at ha
  subst ha
  norm_num [abs_lt]

/-- **C49 is violated** in static solves: with a zero time step and a positive acceleration
tolerance every iterate passes, whatever its residual is. -/
theorem static_accel_violated (ti : SingleStep) (massInv : List (Option ℝ)) (size : List ℝ)
    (xPrev x r rU : List (V3 ℝ)) (xTol rTol aTol : ℝ) (ha : 0 < aTol)
    (hm : ∀ w ∈ massInv, w ≠ none) : converged 0 ti massInv size xPrev x r rU xTol rTol aTol := by
  refine .inr (.inr ⟨ha, ?_⟩)
  intro a hmem
  rw [zero_mul, inv, if_pos rfl]
  have := hm a.1.1.2 (List.of_mem_zip (List.of_mem_zip (List.of_mem_zip hmem).1).1).2
  cases h : a.1.1.2 with
  | none => exact absurd h this
  | some w => simp only [accelOk]

/-- **C49 is violated** for rigid bodies: their vertices are unknowns with inverse mass zero
(`Mesh.rigid_massInv`), so if all unknowns belong to rigid bodies the test passes for every
residual. -/
theorem rigid_ignored_violated (dt : ℝ) (ti : SingleStep) (massInv : List (Option ℝ))
    (size : List ℝ) (xPrev x r rU : List (V3 ℝ)) (xTol rTol aTol : ℝ) (ha : 0 < aTol)
    (hm : ∀ w ∈ massInv, w = some 0) : converged dt ti massInv size xPrev x r rU xTol rTol aTol := by
  refine .inr (.inr ⟨ha, ?_⟩)
  intro a hmem
  have := hm a.1.1.2 (List.of_mem_zip (List.of_mem_zip (List.of_mem_zip hmem).1).1).2
  rw [this]
  unfold inv
  split_ifs
  · simp only [accelOk]
  · simp only [accelOk]
    rw [norm_smul, abs_zero, zero_mul]
    refine le_max_of_le_left (mul_nonneg ha.le (Real.sqrt_nonneg _))

/-- In a dynamic solve, a vertex of infinite inverse mass (`Mesh.free_massless_violated`) keeps the
acceleration criterion from ever being met. -/
theorem massless_blocks (aTol h : ℝ) (rU xPrev x : List (V3 ℝ)) (massInv : List (Option ℝ))
    (size : List ℝ) (i : ℕ) (hi : massInv[i]? = some none) (h1 : i < rU.length)
    (h2 : i < size.length) (h3 : i < xPrev.length) (h4 : i < x.length) :
    ¬ accelCriterion aTol (some h) rU massInv size xPrev x := by
  intro hc
  have := hc (((rU[i], none), size[i]), (xPrev[i], x[i])) (by
    refine List.mem_of_getElem? (i := i) ?_
    simp only [List.getElem?_zip_eq_some]
    exact ⟨⟨⟨List.getElem?_eq_getElem h1, hi⟩, List.getElem?_eq_getElem h2⟩,
      List.getElem?_eq_getElem h3, List.getElem?_eq_getElem h4⟩)
  simp [accelOk] at this

end Softy.Converged
