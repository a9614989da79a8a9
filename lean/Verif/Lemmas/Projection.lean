import Mathlib.LinearAlgebra.Matrix.Trace
import Mathlib.LinearAlgebra.Matrix.NonsingularInverse
import Mathlib.Analysis.Matrix.Spectrum

/-!
# Positive parts of symmetric matrices
-/

namespace Softy.Projection

open Matrix

variable {ι : Type*} [Fintype ι] [DecidableEq ι]

/-- The value of the quadratic form of a matrix. -/
def form (A : Matrix ι ι ℝ) (x : ι → ℝ) : ℝ := ∑ i, ∑ j, x i * A i j * x j

omit [DecidableEq ι] in
theorem form_eq (A : Matrix ι ι ℝ) (x : ι → ℝ) : form A x = x ⬝ᵥ (A *ᵥ x) := by
  simp only [form, dotProduct, mulVec, Finset.mul_sum, mul_assoc]

omit [DecidableEq ι] in
theorem form_conj (U A : Matrix ι ι ℝ) (x : ι → ℝ) : form (U * A * Uᵀ) x = form A (Uᵀ *ᵥ x) := by
  rw [form_eq, form_eq, ← mulVec_mulVec, ← mulVec_mulVec, dotProduct_mulVec, mulVec_transpose]

theorem form_diagonal (d x : ι → ℝ) : form (diagonal d) x = ∑ i, d i * (x i * x i) := by
  unfold form
  refine Finset.sum_congr rfl fun i _ => ?_
  rw [Finset.sum_eq_single i]
  · rw [diagonal_apply_eq]; ring
  · intro j _ h; rw [diagonal_apply_ne _ h.symm]; ring
  · simp

/-- The sum of the squares of the entries. -/
def sumSq (A : Matrix ι ι ℝ) : ℝ := ∑ i, ∑ j, A i j * A i j

omit [DecidableEq ι] in
theorem sumSq_eq (A : Matrix ι ι ℝ) : sumSq A = trace (A * Aᵀ) := by
  simp only [sumSq, trace, mul_apply, diag_apply, transpose_apply]

theorem sumSq_conj {U : Matrix ι ι ℝ} (hU : Uᵀ * U = 1) (A : Matrix ι ι ℝ) :
    sumSq (U * A * Uᵀ) = sumSq A := by
  rw [sumSq_eq, sumSq_eq]
  have e : U * A * Uᵀ * (U * A * Uᵀ)ᵀ = U * (A * Aᵀ) * Uᵀ := by
    simp only [transpose_mul, transpose_transpose]
    calc U * A * Uᵀ * (U * (Aᵀ * Uᵀ)) = U * A * (Uᵀ * U) * (Aᵀ * Uᵀ) := by
          simp only [Matrix.mul_assoc]
      _ = _ := by rw [hU, Matrix.mul_one]; simp only [Matrix.mul_assoc]
  rw [e, trace_mul_comm, ← Matrix.mul_assoc, hU, Matrix.one_mul]

theorem conj_conj {U : Matrix ι ι ℝ} (hU : Uᵀ * U = 1) (A : Matrix ι ι ℝ) :
    U * (Uᵀ * A * U) * Uᵀ = A := by
  have hU' : U * Uᵀ = 1 := mul_eq_one_comm.1 hU
  calc U * (Uᵀ * A * U) * Uᵀ = (U * Uᵀ) * A * (U * Uᵀ) := by simp only [Matrix.mul_assoc]
    _ = A := by rw [hU', Matrix.one_mul, Matrix.mul_one]

theorem conj_diag_nonneg (U B : Matrix ι ι ℝ) (hB : ∀ x, 0 ≤ form B x) (i : ι) :
    0 ≤ (Uᵀ * B * U) i i := by
  have h := hB (U *ᵥ Pi.single i 1)
  have e : form B (U *ᵥ Pi.single i 1) = form (Uᵀ * B * U) (Pi.single i 1) := by
    have := form_conj Uᵀ B (Pi.single i 1)
    rw [transpose_transpose] at this
    exact this.symm
  rw [e] at h
  have : form (Uᵀ * B * U) (Pi.single i 1) = (Uᵀ * B * U) i i := by
    generalize Uᵀ * B * U = A
    simp only [form, Pi.single_apply]
    simp
  rwa [this] at h

/-- The distance between `diagonal d` and a matrix with nonnegative diagonal. -/
theorem diagonal_dist (d : ι → ℝ) (M : Matrix ι ι ℝ) (hM : ∀ i, 0 ≤ M i i) :
    sumSq (diagonal d - diagonal fun i => max (d i) 0) ≤ sumSq (diagonal d - M) ∧
    (sumSq (diagonal d - M) ≤ sumSq (diagonal d - diagonal fun i => max (d i) 0) →
      M = diagonal fun i => max (d i) 0) := by
  have term : ∀ i j, ((diagonal d - diagonal fun i => max (d i) 0 : Matrix ι ι ℝ) i j) *
      ((diagonal d - diagonal fun i => max (d i) 0 : Matrix ι ι ℝ) i j) ≤
      ((diagonal d - M) i j) * ((diagonal d - M) i j) := by
    intro i j
    simp only [Matrix.sub_apply]
    by_cases h : i = j
    · subst h
      simp only [diagonal_apply_eq]
      rcases le_total (d i) 0 with h0 | h0
      · rw [max_eq_right h0]
        nlinarith [hM i]
      · rw [max_eq_left h0, sub_self, zero_mul]
        exact mul_self_nonneg _
    · simp only [diagonal_apply_ne _ h, sub_self, zero_mul]
      exact mul_self_nonneg _
  constructor
  · exact Finset.sum_le_sum fun i _ => Finset.sum_le_sum fun j _ => term i j
  · intro h
    have hall : ∀ i ∈ Finset.univ, ∀ j ∈ Finset.univ,
        ((diagonal d - diagonal fun i => max (d i) 0 : Matrix ι ι ℝ) i j) *
      ((diagonal d - diagonal fun i => max (d i) 0 : Matrix ι ι ℝ) i j) =
      ((diagonal d - M) i j) * ((diagonal d - M) i j) := by
      have h1 := (Finset.sum_eq_sum_iff_of_le (s := Finset.univ)
        (fun i _ => Finset.sum_le_sum fun j _ => term i j)).1
        (le_antisymm (Finset.sum_le_sum fun i _ => Finset.sum_le_sum fun j _ => term i j) h)
      intro i hi
      exact (Finset.sum_eq_sum_iff_of_le (fun j _ => term i j)).1 (h1 i hi)
    ext i j
    have := hall i (Finset.mem_univ _) j (Finset.mem_univ _)
    simp only [Matrix.sub_apply] at this
    by_cases hij : i = j
    · subst hij
      simp only [diagonal_apply_eq] at this ⊢
      rcases le_total (d i) 0 with h0 | h0
      · rw [max_eq_right h0] at this ⊢
        nlinarith [hM i]
      · rw [max_eq_left h0, sub_self, zero_mul] at this
        rw [max_eq_left h0]
        have := mul_self_eq_zero.1 this.symm
        linarith
    · simp only [diagonal_apply_ne _ hij, sub_self, zero_mul, zero_sub] at this ⊢
      nlinarith

/-- The positive part of a symmetric matrix is the nearest positive semi-definite matrix, and the only
one. -/
theorem nearest {U : Matrix ι ι ℝ} (hU : Uᵀ * U = 1) (d : ι → ℝ) (B : Matrix ι ι ℝ)
    (hB : ∀ x, 0 ≤ form B x) :
    sumSq (U * diagonal d * Uᵀ - U * diagonal (fun i => max (d i) 0) * Uᵀ) ≤
      sumSq (U * diagonal d * Uᵀ - B) ∧
    (sumSq (U * diagonal d * Uᵀ - B) ≤
        sumSq (U * diagonal d * Uᵀ - U * diagonal (fun i => max (d i) 0) * Uᵀ) →
      B = U * diagonal (fun i => max (d i) 0) * Uᵀ) := by
  have e : ∀ C : Matrix ι ι ℝ, sumSq (U * diagonal d * Uᵀ - U * C * Uᵀ) = sumSq (diagonal d - C) := by
    intro C
    rw [← Matrix.sub_mul, ← Matrix.mul_sub, sumSq_conj hU]
  have h := diagonal_dist d (Uᵀ * B * U) (conj_diag_nonneg U B hB)
  rw [← e, ← e, conj_conj hU] at h
  refine ⟨h.1, fun h' => ?_⟩
  rw [← h.2 h', conj_conj hU]

/-- A symmetric matrix has a decomposition. -/
theorem exists_eigen (A : Matrix ι ι ℝ) (hA : Aᵀ = A) :
    ∃ (U : Matrix ι ι ℝ) (d : ι → ℝ), Uᵀ * U = 1 ∧ U * diagonal d * Uᵀ = A := by
  have h : A.IsHermitian := by
    rw [Matrix.IsHermitian, conjTranspose_eq_transpose_of_trivial, hA]
  refine ⟨h.eigenvectorUnitary, h.eigenvalues, ?_, ?_⟩
  · have := (Matrix.mem_unitaryGroup_iff').1 h.eigenvectorUnitary.2
    rwa [star_eq_conjTranspose, conjTranspose_eq_transpose_of_trivial] at this
  · have := h.spectral_theorem
    rw [Unitary.conjStarAlgAut_apply, star_eq_conjTranspose,
      conjTranspose_eq_transpose_of_trivial] at this
    exact this.symm

end Softy.Projection
