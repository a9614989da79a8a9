import Verif.Lemmas.LinSolve
import Mathlib.Analysis.InnerProductSpace.PiL2
import Mathlib.Analysis.Complex.Basic
import Mathlib.Tactic.NormNum

/-!
# Properties of the iterative linear solvers (C30, C31, C63, C64, C65)

`A` is any linear operator on a real inner product space, `b` the right-hand side, `x₀` the initial
guess. The true residual of a vector `x` is `‖b - A x‖`.
-/

noncomputable section

open scoped Classical
open scoped RealInnerProductSpace

namespace Softy.LinSolve

variable {V : Type*} [NormedAddCommGroup V] [InnerProductSpace ℝ V]

/-! ## C31: conjugate residual -/

/-- A result of the conjugate residual method that reports success contains a vector whose true
residual is below the relative tolerance, or below the rounding unit. -/
theorem cr_success (A : V →ₗ[ℝ] V) (stop : ℕ → Bool) (tol : ℝ) (htol : 0 ≤ tol) (maxIter : ℕ)
    (x₀ b : V) (h : (crSolve A stop tol maxIter x₀ b).status = .success) :
    ∃ x, (crSolve A stop tol maxIter x₀ b).x = some x ∧
      (‖b - A x‖ < tol * ‖b‖ ∨ ‖b - A x‖ ≤ 2 ^ (-52 : ℤ)) := by
  unfold crSolve at h ⊢
  by_cases h0 : stop 0 = true
  · simp [h0] at h
  rw [if_neg h0] at h ⊢
  dsimp only at h ⊢
  by_cases h1 : ‖b - A x₀‖ ^ 2 ≤ eps64 * eps64
  · rw [if_pos h1]
    refine ⟨x₀, rfl, Or.inr ?_⟩
    rw [← sq] at h1
    exact (sq_le_sq₀ (norm_nonneg _) eps64_pos.le).1 h1
  rw [if_neg h1] at h ⊢
  obtain ⟨x, hx, hlt⟩ := (crLoop_spec (A := A) (stop := stop) (b := b) (tol := tol)
    (maxIter := maxIter) ⟨x₀, b - A x₀, b - A x₀, A (b - A x₀), ⟪b - A x₀, A (b - A x₀)⟫, 0⟩
    ⟨rfl, rfl, rfl, rfl⟩).2.1 h
  refine ⟨x, hx, Or.inl ?_⟩
  have : ‖b - A x‖ ^ 2 < (tol * ‖b‖) ^ 2 := by rw [mul_pow, sq tol]; exact hlt
  exact (sq_lt_sq₀ (norm_nonneg _) (by positivity)).1 this

/-- Whatever the operator, the conjugate residual method never returns a vector with a larger
residual than the initial guess, and it reports the residual of the vector it returns. The only
exception to the report is an interruption before anything was computed. -/
theorem cr_residual_monotone (A : V →ₗ[ℝ] V) (stop : ℕ → Bool) (tol : ℝ) (maxIter : ℕ)
    (x₀ b x : V) (h : (crSolve A stop tol maxIter x₀ b).x = some x) :
    ‖b - A x‖ ≤ ‖b - A x₀‖ ∧
    (stop 0 = false → (crSolve A stop tol maxIter x₀ b).residual = some ‖b - A x‖) := by
  unfold crSolve at h ⊢
  by_cases h0 : stop 0 = true
  · rw [if_pos h0] at h
    obtain rfl := Option.some.inj h
    exact ⟨le_rfl, by simp [h0]⟩
  rw [if_neg h0] at h ⊢
  dsimp only at h ⊢
  by_cases h1 : ‖b - A x₀‖ ^ 2 ≤ eps64 * eps64
  · rw [if_pos h1] at h ⊢
    obtain rfl := Option.some.inj h
    exact ⟨le_rfl, fun _ => rfl⟩
  rw [if_neg h1] at h ⊢
  have := (crLoop_spec (A := A) (stop := stop) (b := b) (tol := tol)
    (maxIter := maxIter) ⟨x₀, b - A x₀, b - A x₀, A (b - A x₀), ⟪b - A x₀, A (b - A x₀)⟫, 0⟩
    ⟨rfl, rfl, rfl, rfl⟩).1 x h
  exact ⟨this.2, fun _ => this.1⟩

/-- The conjugate residual method makes at most `maxIter` iterations, and at most one if the limit
is zero. -/
theorem cr_iterations (A : V →ₗ[ℝ] V) (stop : ℕ → Bool) (tol : ℝ) (maxIter : ℕ) (x₀ b : V) :
    (crSolve A stop tol maxIter x₀ b).iterations ≤ max 1 maxIter := by
  unfold crSolve
  split_ifs
  · simp
  dsimp only
  split_ifs
  · simp
  · exact (crLoop_spec (A := A) (stop := stop) (b := b) (tol := tol)
      (maxIter := maxIter) ⟨x₀, b - A x₀, b - A x₀, A (b - A x₀), ⟪b - A x₀, A (b - A x₀)⟫, 0⟩
      ⟨rfl, rfl, rfl, rfl⟩).2.2

/-- In exact arithmetic the conjugate residual method solves every symmetric positive definite
system in at most as many iterations as there are unknowns, from any initial guess. -/
theorem cr_converges [FiniteDimensional ℝ V] (A : V →ₗ[ℝ] V)
    (hsym : ∀ x y, ⟪A x, y⟫ = ⟪x, A y⟫) (hpos : ∀ x, x ≠ 0 → 0 < ⟪x, A x⟫)
    (stop : ℕ → Bool) (hstop : ∀ k, stop k = false) (tol : ℝ) (htol : 0 < tol) (maxIter : ℕ)
    (hmax : Module.finrank ℝ V ≤ maxIter) (x₀ b : V) (hb : b ≠ 0) :
    (crSolve A stop tol maxIter x₀ b).status = .success ∧
    (crSolve A stop tol maxIter x₀ b).iterations ≤ Module.finrank ℝ V := by
  unfold crSolve
  rw [hstop, if_neg (by simp)]
  dsimp only
  by_cases h1 : ‖b - A x₀‖ ^ 2 ≤ eps64 * eps64
  · rw [if_pos h1]; simp
  rw [if_neg h1]
  refine crLoop_converges (fun x y => hsym x y) hpos hstop hb htol hmax _ ⊥
    ⟨rfl, rfl, rfl, rfl⟩ ⟨?_, ?_, ?_, ?_, by simp⟩ ?_
  · intro t ht; rw [(Submodule.mem_bot ℝ).1 ht, inner_zero_right]
  · intro t ht; rw [(Submodule.mem_bot ℝ).1 ht, inner_zero_right]
  · exact Submodule.mem_sup_right (Submodule.mem_span_singleton_self _)
  · intro t ht; rw [(Submodule.mem_bot ℝ).1 ht, map_zero]; exact Submodule.zero_mem _
  · intro h0
    simp only at h0
    apply h1
    rw [h0, norm_zero]
    have := eps64_pos
    simp only [ne_eq, OfNat.ofNat_ne_zero, not_false_eq_true, zero_pow]
    positivity

/-- Twice the identity on the plane is a system as in `cr_converges`. -/
example (b : EuclideanSpace ℝ (Fin 2)) (hb : b ≠ 0) :
    (crSolve ((2 : ℝ) • LinearMap.id) (fun _ => false) (1 / 100) 2 0 b).status = .success := by
  refine (cr_converges _ ?_ ?_ _ (fun _ => rfl) _ (by norm_num) 2 (by simp) 0 b hb).1
  · intro x y
    simp [inner_smul_left, inner_smul_right]
  · intro x hx
    have := real_inner_self_eq_norm_sq x
    have h0 := norm_pos_iff.2 hx
    simp only [LinearMap.smul_apply, LinearMap.id_coe, id_eq, inner_smul_right, this]
    positivity

/-- The property that a zero right-hand side is always solved fails for the conjugate residual
method: whenever the guess is not a solution already, the solve never succeeds, whatever the
operator, the tolerance and the iteration limit. -/
theorem cr_zero_rhs_violated (A : V →ₗ[ℝ] V) (stop : ℕ → Bool) (tol : ℝ) (maxIter : ℕ) (x₀ : V)
    (h : 2 ^ (-52 : ℤ) < ‖A x₀‖) : (crSolve A stop tol maxIter x₀ 0).status ≠ .success := by
  intro hs
  unfold crSolve at hs
  by_cases h0 : stop 0 = true
  · simp [h0] at hs
  rw [if_neg h0] at hs
  dsimp only at hs
  have h1 : ¬ ‖(0 : V) - A x₀‖ ^ 2 ≤ eps64 * eps64 := by
    rw [zero_sub, norm_neg, ← sq, not_le]
    exact (sq_lt_sq₀ eps64_pos.le (norm_nonneg _)).2 h
  rw [if_neg h1] at hs
  obtain ⟨x, -, hlt⟩ := (crLoop_spec (A := A) (stop := stop) (b := 0) (tol := tol)
    (maxIter := maxIter) ⟨x₀, 0 - A x₀, 0 - A x₀, A (0 - A x₀), ⟪0 - A x₀, A (0 - A x₀)⟫, 0⟩
    ⟨rfl, rfl, rfl, rfl⟩).2.1 hs
  rw [norm_zero] at hlt
  have := sq_nonneg ‖0 - A x‖
  simp only [ne_eq, OfNat.ofNat_ne_zero, not_false_eq_true, zero_pow, mul_zero] at hlt
  linarith

example : (2 : ℝ) ^ (-52 : ℤ) < ‖(LinearMap.id : ℝ →ₗ[ℝ] ℝ) 1‖ := by norm_num

/-! ## C30: BiCGSTAB -/

/-- The residual tracked by BiCGSTAB was never overwritten by a restart with `A x`. This is the
flag the model adds to the code. -/
def NotOverwritten (res : BiResult V) : Prop := res.stale = false

/-- If BiCGSTAB reports success and did not restart on a direction orthogonal to the shadow
residual, the vector returned has a true residual within the relative tolerance, and this is the
residual reported. Missing from C30: runs with such a restart, for which the claim is false. -/
theorem bicg_success_partial (A : V →ₗ[ℝ] V) (K : ℕ → V → V) (stop : ℕ → Bool) (tol : ℝ)
    (htol : 0 ≤ tol) (maxIter : ℕ) (x₀ b : V)
    (h : (biSolve A K stop tol maxIter x₀ b).status = .success)
    (hs : NotOverwritten (biSolve A K stop tol maxIter x₀ b)) :
    ∃ x, (biSolve A K stop tol maxIter x₀ b).x = some x ∧ ‖b - A x‖ ≤ tol * ‖b‖ ∧
      (biSolve A K stop tol maxIter x₀ b).residual = some ‖b - A x‖ := by
  unfold NotOverwritten at hs
  unfold biSolve at h hs ⊢
  by_cases hb : ‖b‖ ^ 2 = 0
  · rw [if_pos hb]
    have : b = 0 := norm_eq_zero.1 (by simpa using hb)
    refine ⟨0, rfl, ?_, ?_⟩ <;> simp [this]
  rw [if_neg hb] at h hs ⊢
  by_cases h0 : stop 0 = true
  · simp [h0] at h
  rw [if_neg h0] at h hs ⊢
  dsimp only at h hs ⊢
  obtain ⟨x, ρ, hx, hρ, hle, he⟩ := (biLoop_spec (A := A) (b := b) (K := K) (stop := stop)
    (maxIter := maxIter) _ ⟨rfl, fun _ => rfl⟩).1 h
  have he := he hs
  refine ⟨x, hx, ?_, by rw [hρ, he]⟩
  rw [he] at hle
  have : ‖b - A x‖ ^ 2 ≤ (tol * ‖b‖) ^ 2 := by rw [mul_pow, sq tol, mul_comm]; exact hle
  exact (sq_le_sq₀ (norm_nonneg _) (by positivity)).1 this

/-- If BiCGSTAB reports that the iteration limit was exceeded, it did so at the limit, and without
such a restart the vector returned has the residual reported, which exceeds the tolerance. -/
theorem bicg_max_iterations_partial (A : V →ₗ[ℝ] V) (K : ℕ → V → V) (stop : ℕ → Bool) (tol : ℝ)
    (htol : 0 ≤ tol) (maxIter : ℕ) (x₀ b : V)
    (h : (biSolve A K stop tol maxIter x₀ b).status = .maximumIterationsExceeded)
    (hs : NotOverwritten (biSolve A K stop tol maxIter x₀ b)) :
    maxIter ≤ (biSolve A K stop tol maxIter x₀ b).iterations ∧
    ∃ x, (biSolve A K stop tol maxIter x₀ b).x = some x ∧ tol * ‖b‖ < ‖b - A x‖ ∧
      (biSolve A K stop tol maxIter x₀ b).residual = some ‖b - A x‖ := by
  unfold NotOverwritten at hs
  unfold biSolve at h hs ⊢
  by_cases hb : ‖b‖ ^ 2 = 0
  · rw [if_pos hb] at h; simp at h
  rw [if_neg hb] at h hs ⊢
  by_cases h0 : stop 0 = true
  · simp [h0] at h
  rw [if_neg h0] at h hs ⊢
  dsimp only at h hs ⊢
  obtain ⟨hm, x, ρ, hx, hρ, hle, he⟩ := (biLoop_spec (A := A) (b := b) (K := K) (stop := stop)
    (maxIter := maxIter) _ ⟨rfl, fun _ => rfl⟩).2.1 h
  have he := he hs
  refine ⟨hm, x, hx, ?_, by rw [hρ, he]⟩
  rw [he] at hle
  have : (tol * ‖b‖) ^ 2 < ‖b - A x‖ ^ 2 := by rw [mul_pow, sq tol, mul_comm]; exact hle
  exact (sq_lt_sq₀ (by positivity) (norm_nonneg _)).1 this

/-- BiCGSTAB makes at most `maxIter` iterations, and at most one if the limit is zero. -/
theorem bicg_iterations (A : V →ₗ[ℝ] V) (K : ℕ → V → V) (stop : ℕ → Bool) (tol : ℝ)
    (maxIter : ℕ) (x₀ b : V) :
    (biSolve A K stop tol maxIter x₀ b).iterations ≤ max 1 maxIter := by
  unfold biSolve
  split_ifs
  · simp
  · simp
  exact (biLoop_spec (A := A) (b := b) (K := K) (stop := stop)
    (maxIter := maxIter) _ ⟨rfl, fun _ => rfl⟩).2.2

/-- A zero right-hand side is solved by zero from any guess. -/
theorem bicg_zero_rhs (A : V →ₗ[ℝ] V) (K : ℕ → V → V) (stop : ℕ → Bool) (tol : ℝ)
    (maxIter : ℕ) (x₀ : V) :
    (biSolve A K stop tol maxIter x₀ 0).status = .success ∧
    (biSolve A K stop tol maxIter x₀ 0).x = some 0 := by
  simp [biSolve]

/-- Rotation of the plane by a right angle. -/
def rot : ℂ →ₗ[ℝ] ℂ where
  toFun z := ⟨z.im, -z.re⟩
  map_add' z w := by apply Complex.ext <;> simp; ring
  map_smul' c z := by apply Complex.ext <;> simp

/-- Doubling the second coordinate of the plane. -/
def stretch : ℂ →ₗ[ℝ] ℂ where
  toFun z := ⟨z.re, 2 * z.im⟩
  map_add' z w := by apply Complex.ext <;> simp; ring
  map_smul' c z := by apply Complex.ext <;> simp; ring

/-- Dropping the second coordinate of the plane. -/
def project : ℂ →ₗ[ℝ] ℂ where
  toFun z := ⟨z.re, 0⟩
  map_add' z w := by apply Complex.ext <;> simp
  map_smul' c z := by apply Complex.ext <;> simp

theorem inner_mk (z w : ℂ) : ⟪z, w⟫ = z.re * w.re + z.im * w.im := by
  rw [Complex.inner]; simp; ring

theorem smul_mk (c : ℝ) (z : ℂ) : c • z = ⟨c * z.re, c * z.im⟩ := by
  apply Complex.ext <;> simp

theorem norm_sq_mk (z : ℂ) : ‖z‖ ^ 2 = z.re ^ 2 + z.im ^ 2 := by
  rw [Complex.sq_norm, Complex.normSq_apply]; ring

/-- C30 fails: for every positive tolerance there is a right-hand side for which BiCGSTAB, started
from zero on a rotation of the plane, reports success with a vector whose residual is larger than
that of zero. -/
theorem bicg_success_violated (tol : ℝ) (htol : 0 < tol) (maxIter : ℕ) :
    ∃ b x : ℂ, (biSolve rot (fun _ z => z) (fun _ => false) tol maxIter 0 b).status = .success ∧
      (biSolve rot (fun _ z => z) (fun _ => false) tol maxIter 0 b).x = some x ∧
      ‖b‖ < ‖b - rot x‖ := by
  obtain ⟨N, hN0, hN⟩ : ∃ N : ℝ, 0 < N ∧ 1 ≤ tol * N ^ 2 := by
    refine ⟨1 + 1 / tol, by positivity, ?_⟩
    have : tol * (1 + 1 / tol) ^ 2 = tol + 2 + 1 / tol := by field_simp; ring
    rw [this]
    have : 0 < 1 / tol := by positivity
    linarith
  have hb : ‖(⟨N, 0⟩ : ℂ)‖ ^ 2 = N ^ 2 := by rw [norm_sq_mk]; simp
  have hrun : biSolve rot (fun _ z => z) (fun _ => false) tol maxIter 0 ⟨N, 0⟩ =
      ⟨⟨.success, 1, some ‖(⟨0, 1 / N⟩ : ℂ)‖, some ⟨1 / N, 0⟩⟩, true⟩ := by
    unfold biSolve
    rw [if_neg (by rw [hb]; positivity), if_neg (by simp)]
    dsimp only
    rw [map_zero, sub_zero, biLoop]
    have hv : rot ⟨N, 0⟩ = ⟨0, -N⟩ := rfl
    have hvn : ‖rot ⟨N, 0⟩‖ ^ 2 = N ^ 2 := by rw [hv, norm_sq_mk]; simp
    have hre : restartV rot (fun _ => false)
        { x := 0, r := ⟨N, 0⟩, r0s := ⟨N, 0⟩, r0sNormSq := ‖(⟨N, 0⟩ : ℂ)‖ ^ 2, v := rot ⟨N, 0⟩,
          p := ⟨N, 0⟩, y := ⟨N, 0⟩, rho := 1, rNormSq := ‖(⟨N, 0⟩ : ℂ)‖ ^ 2, iterations := 1,
          calls := 2, precs := 1, stale := false } = some ({
          x := 0, r := 0, r0s := rot ⟨N, 0⟩, r0sNormSq := N ^ 2, v := rot ⟨N, 0⟩,
          p := ⟨N, 0⟩, y := ⟨N, 0⟩, rho := 1, rNormSq := ‖(⟨N, 0⟩ : ℂ)‖ ^ 2, iterations := 1,
          calls := 3, precs := 1, stale := true }, N ^ 2) := by
      unfold restartV
      rw [if_pos ?_, if_neg (by simp)]
      · simp only [hvn, map_zero]
      · dsimp only
        rw [hv, inner_mk, hb]
        have := eps64_pos
        simp only [mul_zero, zero_mul, add_zero, abs_zero]
        positivity
    rw [hre]
    dsimp only
    rw [if_neg (by positivity)]
    have hsv : (0 : ℂ) - (1 / N ^ 2) • rot ⟨N, 0⟩ = ⟨0, 1 / N⟩ := by
      rw [hv, smul_mk]
      apply Complex.ext
      · simp
      · simp; field_simp
    rw [hsv, if_pos ?_]
    · congr 2
      rw [smul_mk]
      congr 1
      apply Complex.ext
      · simp; field_simp
      · simp
    · rw [norm_sq_mk, hb]
      simp only [ne_eq, OfNat.ofNat_ne_zero, not_false_eq_true, zero_pow, zero_add]
      rw [div_pow, one_pow, div_le_iff₀ (by positivity)]
      nlinarith
  refine ⟨⟨N, 0⟩, ⟨1 / N, 0⟩, by rw [hrun], by rw [hrun], ?_⟩
  rw [← sq_lt_sq₀ (norm_nonneg _) (norm_nonneg _), hb, norm_sq_mk]
  have : (⟨N, 0⟩ - rot ⟨1 / N, 0⟩ : ℂ) = ⟨N, 1 / N⟩ := by
    apply Complex.ext <;> simp [rot]
  rw [this]
  have : 0 < (1 / N) ^ 2 := by positivity
  simp only
  linarith

/-! ## C63: an exact initial guess -/

/-- The conjugate residual method accepts an initial guess that solves the system and leaves it
unchanged. -/
theorem cr_exact_guess (A : V →ₗ[ℝ] V) (stop : ℕ → Bool) (hstop : stop 0 = false) (tol : ℝ)
    (maxIter : ℕ) (x₀ b : V) (h : A x₀ = b) :
    (crSolve A stop tol maxIter x₀ b).status = .success ∧
    (crSolve A stop tol maxIter x₀ b).x = some x₀ := by
  have : ‖b - A x₀‖ ^ 2 ≤ eps64 * eps64 := by
    have := eps64_pos
    rw [h, sub_self, norm_zero]
    simp only [ne_eq, OfNat.ofNat_ne_zero, not_false_eq_true, zero_pow]
    positivity
  simp [crSolve, hstop, this]

/-- C63 fails for BiCGSTAB: given an initial guess that solves the system exactly, with a nonzero
right-hand side and any preconditioner that maps zero to zero, it reports that it met a number that
is not finite, and destroys the guess. -/
theorem bicg_exact_guess_violated (A : V →ₗ[ℝ] V) (K : ℕ → V → V) (hK : K 0 0 = 0)
    (stop : ℕ → Bool) (hstop : ∀ k, stop k = false) (tol : ℝ) (maxIter : ℕ) (x₀ b : V)
    (h : A x₀ = b) (hb : b ≠ 0) :
    (biSolve A K stop tol maxIter x₀ b).status = .nanDetected ∧
    (biSolve A K stop tol maxIter x₀ b).x = none := by
  have hb' : ¬ ‖b‖ ^ 2 = 0 := by simpa using hb
  unfold biSolve
  rw [if_neg hb', hstop, if_neg (by simp)]
  dsimp only
  rw [h, sub_self, hK, map_zero, biLoop]
  simp [restartV, hstop]

/-- The identity on the line with the solution as the guess. -/
example : (biSolve (LinearMap.id : ℝ →ₗ[ℝ] ℝ) (fun _ z => z) (fun _ => false) (1 / 100) 10 1 1).status
    = .nanDetected :=
  (bicg_exact_guess_violated _ _ rfl _ (fun _ => rfl) _ _ _ _ rfl one_ne_zero).1

/-! ## C64: the residual reported is that of the vector returned

For the conjugate residual method this is `cr_residual_monotone`, for BiCGSTAB the cases of success
and of too many iterations are in `bicg_success_partial` and `bicg_max_iterations_partial`. -/

/-- C64 fails for BiCGSTAB on a singular matrix: the residual reported belongs to a vector which
was not stored. -/
theorem bicg_residual_violated :
    (biSolve project (fun _ z => z) (fun _ => false) (1 / 100) 10 0 ⟨1, 1⟩).status =
      .singularMatrix ∧
    (biSolve project (fun _ z => z) (fun _ => false) (1 / 100) 10 0 ⟨1, 1⟩).x = some 0 ∧
    (biSolve project (fun _ z => z) (fun _ => false) (1 / 100) 10 0 ⟨1, 1⟩).residual = some 1 ∧
    ‖(⟨1, 1⟩ : ℂ) - project 0‖ ^ 2 = 2 := by
  have hb : ‖(⟨1, 1⟩ : ℂ)‖ ^ 2 = 2 := by rw [norm_sq_mk]; norm_num
  have hrun : biSolve project (fun _ z => z) (fun _ => false) (1 / 100) 10 0 ⟨1, 1⟩ =
      ⟨⟨.singularMatrix, 1, some 1, some 0⟩, false⟩ := by
    unfold biSolve
    rw [if_neg (by rw [hb]; norm_num), if_neg (by simp)]
    dsimp only
    rw [map_zero, sub_zero, biLoop]
    have hv : project ⟨1, 1⟩ = ⟨1, 0⟩ := rfl
    have hre : ∀ s : BiState ℂ, s.r0s = ⟨1, 1⟩ → s.v = ⟨1, 0⟩ → s.r0sNormSq = 2 →
        restartV project (fun _ => false) s = some (s, 1) := by
      intro s h1 h2 h3
      unfold restartV
      rw [if_neg ?_, h1, h2, inner_mk]
      · norm_num
      · rw [h1, h2, h3, inner_mk]
        norm_num [eps64]
    rw [hre _ rfl hv hb]
    dsimp only
    have hsv : (⟨1, 1⟩ : ℂ) - (1 / 1 : ℝ) • project ⟨1, 1⟩ = ⟨0, 1⟩ := by
      rw [hv, smul_mk]; apply Complex.ext <;> simp
    have hn : ‖(⟨0, 1⟩ : ℂ)‖ = 1 := Complex.norm_I
    have ht : project ⟨0, 1⟩ = 0 := by apply Complex.ext <;> simp [project]
    rw [if_neg (by norm_num), hsv, hn, ht, hb, inner_zero_left]
    norm_num
  refine ⟨by rw [hrun], by rw [hrun], by rw [hrun], ?_⟩
  rw [map_zero, sub_zero, hb]

/-! ## C65: scaling the system -/

/-- The same result for vectors measured in another unit. -/
def Result.scale (c : ℝ) (res : Result V) : Result V :=
  ⟨res.status, res.iterations, res.residual.map (|c| * ·), res.x.map (c • ·)⟩

theorem crPoisoned_scale (c : ℝ) (stop : ℕ → Bool) (maxIter k : ℕ) :
    (crPoisoned (V := V) stop maxIter k).scale c = crPoisoned stop maxIter k := by
  induction h : maxIter - k using Nat.strong_induction_on generalizing k with
  | _ n ih =>
    rw [crPoisoned]
    split_ifs with h1 h2
    · rfl
    · rfl
    · exact ih (maxIter - (k + 1)) (by omega) (k + 1) rfl

theorem crLoop_scale (A : V →ₗ[ℝ] V) (stop : ℕ → Bool) (b : V) (tol : ℝ) (maxIter : ℕ) (c : ℝ)
    (hc : c ≠ 0) (s : CrState V) :
    crLoop A stop (c • b) tol maxIter
      ⟨c • s.x, c • s.r, c • s.p, c • s.ap, c ^ 2 * s.rar, s.iterations⟩ =
    (crLoop A stop b tol maxIter s).scale c := by
  induction h : maxIter - s.iterations using Nat.strong_induction_on generalizing s with
  | _ n ih =>
    have hc2 : c ^ 2 ≠ 0 := pow_ne_zero 2 hc
    rw [crLoop, crLoop]
    have hip : ∀ v w : V, ⟪c • v, c • w⟫ = c ^ 2 * ⟪v, w⟫ := by
      intro v w
      rw [inner_smul_left, inner_smul_right, conj_trivial]; ring
    have hnorm : ∀ v : V, ‖c • v‖ ^ 2 = c ^ 2 * ‖v‖ ^ 2 := by
      intro v
      rw [norm_smul, mul_pow, Real.norm_eq_abs, sq_abs]
    dsimp only
    rw [hip]
    by_cases h1 : ⟪s.ap, s.ap⟫ = 0
    · rw [if_pos (by rw [h1, mul_zero]), if_pos h1, crPoisoned_scale]
    rw [if_neg (mul_ne_zero hc2 h1), if_neg h1, mul_div_mul_left _ _ hc2]
    set a := s.rar / ⟪s.ap, s.ap⟫
    have hr : c • s.r - a • c • s.ap = c • (s.r - a • s.ap) := by
      rw [smul_sub, smul_comm a c]
    have hx : c • s.x + a • c • s.p = c • (s.x + a • s.p) := by
      rw [smul_add, smul_comm a c]
    rw [hr, hx, hnorm, hnorm, map_smul, hip]
    set r := s.r - a • s.ap
    have hcmp : c ^ 2 * ‖r‖ ^ 2 < tol * tol * (c ^ 2 * ‖b‖ ^ 2) ↔
        ‖r‖ ^ 2 < tol * tol * ‖b‖ ^ 2 := by
      rw [mul_left_comm, mul_lt_mul_iff_right₀ (by positivity)]
    have hn : ‖c • r‖ = |c| * ‖r‖ := by rw [norm_smul, Real.norm_eq_abs]
    simp only [hcmp, hn]
    by_cases h2 : ‖r‖ ^ 2 < tol * tol * ‖b‖ ^ 2
    · rw [if_pos h2, if_pos h2]; rfl
    rw [if_neg h2, if_neg h2]
    by_cases h3 : s.iterations + 1 ≥ maxIter
    · rw [if_pos h3, if_pos h3]; rfl
    rw [if_neg h3, if_neg h3]
    by_cases h4 : stop (s.iterations + 2) = true
    · rw [if_pos h4, if_pos h4]; rfl
    rw [if_neg h4, if_neg h4]
    by_cases h5 : s.rar = 0
    · rw [if_pos (by rw [h5, mul_zero]), if_pos h5, crPoisoned_scale]
    rw [if_neg (mul_ne_zero hc2 h5), if_neg h5, mul_div_mul_left _ _ hc2]
    rw [← ih (maxIter - (s.iterations + 1)) (by omega) _ rfl]
    congr 2 <;> rw [smul_add, smul_comm _ c]

/-- The conjugate residual method does not depend on the unit of the right-hand side: scaling it
and the guess scales the result and changes neither the status nor the number of iterations, as
long as no initial residual is below the rounding unit. -/
theorem cr_scale (A : V →ₗ[ℝ] V) (stop : ℕ → Bool) (tol : ℝ) (maxIter : ℕ) (c : ℝ) (hc : c ≠ 0)
    (x₀ b : V) (h1 : 2 ^ (-52 : ℤ) < ‖b - A x₀‖) (h2 : 2 ^ (-52 : ℤ) < |c| * ‖b - A x₀‖)
    (hstop : stop 0 = false) :
    crSolve A stop tol maxIter (c • x₀) (c • b) = (crSolve A stop tol maxIter x₀ b).scale c := by
  unfold crSolve
  simp only [hstop, Bool.false_eq_true, if_false]
  have hr : c • b - A (c • x₀) = c • (b - A x₀) := by rw [map_smul, smul_sub]
  rw [hr]
  have e1 : ¬ ‖b - A x₀‖ ^ 2 ≤ eps64 * eps64 := by
    rw [← sq, not_le]; exact (sq_lt_sq₀ eps64_pos.le (norm_nonneg _)).2 h1
  have e2 : ¬ ‖c • (b - A x₀)‖ ^ 2 ≤ eps64 * eps64 := by
    rw [← sq, not_le, norm_smul]; exact (sq_lt_sq₀ eps64_pos.le (by positivity)).2 h2
  rw [if_neg e1, if_neg e2, ← crLoop_scale A stop b tol maxIter c hc]
  congr 2
  · rw [map_smul]
  · rw [map_smul, inner_smul_left, inner_smul_right, conj_trivial]; ring

example : (2 : ℝ) ^ (-52 : ℤ) < ‖(1 : ℝ) - (LinearMap.id : ℝ →ₗ[ℝ] ℝ) 0‖ ∧
    (2 : ℝ) ^ (-52 : ℤ) < |(10 : ℝ)| * ‖(1 : ℝ) - (LinearMap.id : ℝ →ₗ[ℝ] ℝ) 0‖ := by
  norm_num

theorem restartV_stretch (s : BiState ℂ) (h : eps64 * eps64 * s.r0sNormSq < ⟪s.r0s, s.v⟫) :
    restartV stretch (fun _ => false) s = some (s, ⟪s.r0s, s.v⟫) := by
  unfold restartV
  rw [if_neg]
  rw [not_le]
  exact lt_of_lt_of_le h (le_abs_self _)

theorem stretch_run :
    (biSolve stretch (fun _ z => z) (fun _ => false) (1 / 5) 1 0 ⟨1, 1⟩).status = .success ∧
    (biSolve stretch (fun _ z => z) (fun _ => false) (1 / 5) 1 0 ⟨1, 1⟩).stale = false := by
  have hb : ‖(⟨1, 1⟩ : ℂ)‖ ^ 2 = 2 := by rw [norm_sq_mk]; norm_num
  have hv : stretch ⟨1, 1⟩ = ⟨1, 2⟩ := by apply Complex.ext <;> simp [stretch]
  have hi : ⟪(⟨1, 1⟩ : ℂ), ⟨1, 2⟩⟫ = 3 := by rw [inner_mk]; norm_num
  unfold biSolve
  rw [if_neg (by rw [hb]; norm_num), if_neg (by simp)]
  dsimp only
  rw [map_zero, sub_zero, biLoop, restartV_stretch _ (by
    dsimp only; rw [hv, hi, hb]; norm_num [eps64])]
  dsimp only
  have hsv : (⟨1, 1⟩ : ℂ) - (1 / 3 : ℝ) • (⟨1, 2⟩ : ℂ) = ⟨2 / 3, 1 / 3⟩ := by
    rw [smul_mk]; apply Complex.ext <;> norm_num
  have ht : stretch ⟨2 / 3, 1 / 3⟩ = ⟨2 / 3, 2 / 3⟩ := by
    apply Complex.ext <;> norm_num [stretch]
  have hw : ⟪(⟨2 / 3, 1 / 3⟩ : ℂ), ⟨2 / 3, 2 / 3⟩⟫ = 2 / 3 := by rw [inner_mk]; norm_num
  have htt : ⟪(⟨2 / 3, 2 / 3⟩ : ℂ), ⟨2 / 3, 2 / 3⟩⟫ = 8 / 9 := by rw [inner_mk]; norm_num
  have hr : (⟨2 / 3, 1 / 3⟩ : ℂ) - (2 / 3 / (8 / 9) : ℝ) • (⟨2 / 3, 2 / 3⟩ : ℂ) =
      ⟨1 / 6, -1 / 6⟩ := by
    rw [smul_mk]; apply Complex.ext <;> norm_num
  rw [hv, hi, if_neg (by norm_num), hsv, ht, hw, htt, hr, hb]
  simp only [norm_sq_mk]
  norm_num

theorem stretch_run₂ :
    (biSolve stretch (fun _ z => z) (fun _ => false) (1 / 5) 1 0 ⟨2, 2⟩).status =
      .maximumIterationsExceeded ∧
    (biSolve stretch (fun _ z => z) (fun _ => false) (1 / 5) 1 0 ⟨2, 2⟩).stale = false := by
  have hb : ‖(⟨2, 2⟩ : ℂ)‖ ^ 2 = 8 := by rw [norm_sq_mk]; norm_num
  have hv : stretch ⟨2, 2⟩ = ⟨2, 4⟩ := by apply Complex.ext <;> norm_num [stretch]
  have hi : ⟪(⟨2, 2⟩ : ℂ), ⟨2, 4⟩⟫ = 12 := by rw [inner_mk]; norm_num
  unfold biSolve
  rw [if_neg (by rw [hb]; norm_num), if_neg (by simp)]
  dsimp only
  rw [map_zero, sub_zero, biLoop, restartV_stretch _ (by
    dsimp only; rw [hv, hi, hb]; norm_num [eps64])]
  dsimp only
  have hsv : (⟨2, 2⟩ : ℂ) - (1 / 12 : ℝ) • (⟨2, 4⟩ : ℂ) = ⟨11 / 6, 5 / 3⟩ := by
    rw [smul_mk]; apply Complex.ext <;> norm_num
  have ht : stretch ⟨11 / 6, 5 / 3⟩ = ⟨11 / 6, 10 / 3⟩ := by
    apply Complex.ext <;> norm_num [stretch]
  have hw : ⟪(⟨11 / 6, 5 / 3⟩ : ℂ), ⟨11 / 6, 10 / 3⟩⟫ = 321 / 36 := by rw [inner_mk]; norm_num
  have htt : ⟪(⟨11 / 6, 10 / 3⟩ : ℂ), ⟨11 / 6, 10 / 3⟩⟫ = 521 / 36 := by
    rw [inner_mk]; norm_num
  have hr : (⟨11 / 6, 5 / 3⟩ : ℂ) - (321 / 36 / (521 / 36) : ℝ) • (⟨11 / 6, 10 / 3⟩ : ℂ) =
      ⟨11 / 6 * (200 / 521), -(5 / 3 * (121 / 521))⟩ := by
    rw [smul_mk]; apply Complex.ext <;> norm_num
  rw [hv, hi, if_neg (by norm_num), hsv, ht, hw, htt, hr, hb]
  simp only [norm_sq_mk]
  norm_num


/-- C65 fails for BiCGSTAB: the same system is solved to the tolerance within one iteration for one
right-hand side, and not for twice that right-hand side. -/
theorem bicg_scale_violated :
    (biSolve stretch (fun _ z => z) (fun _ => false) (1 / 5) 1 0 ⟨1, 1⟩).status = .success ∧
    (biSolve stretch (fun _ z => z) (fun _ => false) (1 / 5) 1 0 ⟨2, 2⟩).status =
      .maximumIterationsExceeded := by
  exact ⟨stretch_run.1, stretch_run₂.1⟩

/-- The first run of `bicg_scale_violated` is a success without an overwritten residual, as in
`bicg_success_partial`. -/
example : NotOverwritten
    (biSolve stretch (fun _ z => z) (fun _ => false) (1 / 5) 1 0 ⟨1, 1⟩) :=
  stretch_run.2

/-- The second one meets the hypotheses of `bicg_max_iterations_partial`. -/
example : NotOverwritten
    (biSolve stretch (fun _ z => z) (fun _ => false) (1 / 5) 1 0 ⟨2, 2⟩) :=
  stretch_run₂.2

end Softy.LinSolve
