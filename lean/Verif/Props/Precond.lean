import Verif.Model.Precond
import Verif.Props.Newton
import Verif.Props.Jacobian
import Mathlib.Analysis.Calculus.Deriv.Basic

/-!
# C91 — preconditioning does not change what is solved
-/

noncomputable section

open Classical

namespace Softy.Precond

/-! ## The entries -/

theorem invSqrt_pos (x : ℝ) : 0 < invSqrt x := by
  unfold invSqrt
  simp only
  split_ifs with h
  · norm_num
  · push Not at h
    exact one_div_pos.2 (lt_of_lt_of_le (by positivity) h)

/-- Unless the diagonal entry is degenerate, scaling it from both sides makes it one in size. -/
theorem invSqrt_spec (x : ℝ) (h : (2 : ℝ) ^ (-104 : ℤ) ≤ |x|) : invSqrt x * |x| * invSqrt x = 1 := by
  have h1 : ((2 : ℝ) ^ (-52 : ℤ)) ≤ √|x| := by
    apply Real.le_sqrt_of_sq_le
    refine le_trans (le_of_eq ?_) h
    rw [← zpow_natCast, ← zpow_mul]
    norm_num
  have h0 : 0 < √|x| := lt_of_lt_of_le (by positivity) h1
  have h2 : √|x| * √|x| = |x| := Real.mul_self_sqrt (abs_nonneg x)
  unfold invSqrt
  simp only
  rw [if_neg (not_lt.2 h1)]
  nth_rw 2 [← h2]
  field_simp

/-- **C91** Every preconditioner has positive entries, if the buffer of the solver has (it is filled
with ones). -/
theorem entries_positive {n : ℕ} (kind : Kind) (fem constraints old : Fin n → ℝ)
    (h : ∀ i, 0 < old i) (i : Fin n) : 0 < diagonal kind fem constraints old i := by
  cases kind
  · exact h i
  · exact invSqrt_pos _
  · exact invSqrt_pos _

/-- **C91** Without contacts the Jacobi preconditioner is computed without a panic, and scales the
diagonal of the Jacobian to one wherever it is not degenerate. -/
theorem incomplete_jacobi (P : Fem.Problem) (nverts n : ℕ) (hn : n ≤ 3 * nverts)
    (hN : P.Within nverts) (hD : P.Distinct) (x v : ℕ → V3 ℝ) (h : ℝ) :
    ∃ q, incompleteJacobi P x v h nverts n = some q ∧ ∀ i : Fin n, 0 < q i ∧
      ∀ a, a = Sparse.storedEntry (P.jacobianIndices.zip (P.jacobianValues x v h h)) (i.val, i.val) →
        (2 : ℝ) ^ (-104 : ℤ) ≤ |a| → q i * |a| * q i = 1 := by
  obtain ⟨D, h1, h2⟩ := Fem.jacobian_diagonal P nverts hN hD x v h h (fun _ => 0)
  refine ⟨fun i => invSqrt (D i), ?_, fun i => ⟨invSqrt_pos _, ?_⟩⟩
  · unfold incompleteJacobi
    rw [h1]
    rfl
  · intro a ha hb
    have h3 := h2 i (by omega)
    rw [zero_add] at h3
    simp only
    rw [h3, ← ha]
    exact invSqrt_spec a hb

/-! ## The linear systems -/

theorem product_rescale {n nnz : ℕ} (precond : Fin n → ℝ) (rows cols : Fin nnz → ℕ)
    (vals : Fin nnz → ℝ) (p : Fin n → ℝ) :
    product rows cols (rescaleValues precond rows vals) p =
      rescale precond (product rows cols vals p) := by
  funext i
  unfold product rescale
  rw [Finset.sum_mul]
  refine Finset.sum_congr rfl fun k _ => ?_
  by_cases h : rows k = i ∧ cols k < n
  · rw [dif_pos h, dif_pos h]
    have hr : rows k < n := by rw [h.1]; exact i.isLt
    have e : (⟨rows k, hr⟩ : Fin n) = i := Fin.ext h.1
    unfold rescaleValues
    rw [dif_pos hr, e]
    ring
  · rw [dif_neg h, dif_neg h, zero_mul]

theorem rescale_inj {n : ℕ} {precond : Fin n → ℝ} (h : ∀ i, precond i ≠ 0) {a b : Fin n → ℝ} :
    rescale precond a = rescale precond b ↔ a = b := by
  constructor
  · intro e
    funext i
    exact mul_right_cancel₀ (h i) (congrFun e i)
  · rintro rfl
    rfl

/-- **C91** The system that is solved directly has the same solutions for every preconditioner: those
of the Jacobian for the residual. -/
theorem direct_direction {n nnz : ℕ} (R : Raw n nnz) (precond : Fin n → ℝ)
    (h : ∀ i, precond i ≠ 0) (eps : List ℝ) (x p : Fin n → ℝ) :
    directMatrix R precond eps x p = rescale precond (R.residual eps x) ↔
      product R.rows R.cols (R.values eps x) p = R.residual eps x := by
  unfold directMatrix
  rw [product_rescale, rescale_inj h]

/-- **C91** The same for the system of the iterative solver. -/
theorem iterative_direction {n nnz : ℕ} (R : Raw n nnz) (precond : Fin n → ℝ)
    (h : ∀ i, precond i ≠ 0) (eps : List ℝ) (x p : Fin n → ℝ) :
    iterativeMatrix R precond eps x p = rescale precond (R.residual eps x) ↔
      R.jacobianProduct eps x p = R.residual eps x := by
  unfold iterativeMatrix
  rw [rescale_inj h]

/-- **C91** The acceleration criterion sees the residual itself. -/
theorem unscale_rescale {n : ℕ} (precond r : Fin n → ℝ) (h : ∀ i, precond i ≠ 0) :
    unscale precond (rescale precond r) = r := by
  funext i
  exact mul_div_cancel_right₀ _ (h i)

/-! ## The slope -/

theorem merit_deriv {n : ℕ} (precond : Fin n → ℝ) (f : ℝ → Fin n → ℝ) (d : Fin n → ℝ)
    (h : ∀ i, HasDerivAt (fun s : ℝ => f s i) (d i) 0) :
    HasDerivAt (fun s : ℝ => 0.5 * normSq (rescale precond (f s)))
      (∑ i, rescale precond d i * rescale precond (f 0) i) 0 := by
  have h1 : HasDerivAt (fun s : ℝ => ∑ i, rescale precond (f s) i * rescale precond (f s) i)
      (∑ i, (rescale precond d i * rescale precond (f 0) i +
        rescale precond (f 0) i * rescale precond d i)) 0 := by
    refine HasDerivAt.fun_sum fun i _ => ?_
    have := (h i).mul_const (precond i)
    exact this.mul this
  refine (h1.const_mul 0.5).congr_deriv ?_
  rw [Finset.mul_sum]
  refine Finset.sum_congr rfl fun i _ => ?_
  ring

/-- **C91** With an iterative solver and the residual as merit function, the slope of the line search is the
derivative of the merit function in the direction of the step, if the product is with the derivative
of the residual (C90). -/
theorem iterative_slope {n nnz : ℕ} (R : Raw n nnz) (hm : R.objMerit = false)
    (precond : Fin n → ℝ) (tol : Tol) (eps : List ℝ) (x p : Fin n → ℝ)
    (hJ : ∀ i, HasDerivAt (fun s : ℝ => R.residual eps (x + s • p) i)
      (R.jacobianProduct eps x p i) 0) :
    ∃ m : ℝ → ℝ, (∀ s, (scaled R precond true tol).merit eps (x + s • p)
        ((scaled R precond true tol).residual eps (x + s • p)) = some (m s)) ∧
      HasDerivAt m ((scaled R precond true tol).slope eps x
        ((scaled R precond true tol).residual eps x) p) 0 := by
  refine ⟨fun s => 0.5 * normSq (rescale precond (R.residual eps (x + s • p))), fun s => ?_, ?_⟩
  · simp [scaled, hm]
  · refine (merit_deriv precond (fun s => R.residual eps (x + s • p)) _ hJ).congr_deriv ?_
    simp [scaled, meritJacProd, hm]

/-- **C91** (partial: only without a preconditioner) The same for a direct solver. -/
theorem direct_slope_partial {n nnz : ℕ} (R : Raw n nnz) (hm : R.objMerit = false)
    (tol : Tol) (eps : List ℝ) (x p : Fin n → ℝ)
    (hJ : ∀ i, HasDerivAt (fun s : ℝ => R.residual eps (x + s • p) i)
      (product R.rows R.cols (R.values eps x) p i) 0) :
    ∃ m : ℝ → ℝ, (∀ s, (scaled R (fun _ => 1) false tol).merit eps (x + s • p)
        ((scaled R (fun _ => 1) false tol).residual eps (x + s • p)) = some (m s)) ∧
      HasDerivAt m ((scaled R (fun _ => 1) false tol).slope eps x
        ((scaled R (fun _ => 1) false tol).residual eps x) p) 0 := by
  refine ⟨fun s => 0.5 * normSq (rescale (fun _ => 1) (R.residual eps (x + s • p))), fun s => ?_, ?_⟩
  · simp [scaled, hm]
  · refine (merit_deriv (fun _ => 1) (fun s => R.residual eps (x + s • p)) _ hJ).congr_deriv ?_
    simp only [scaled, meritJacProd, hm, Bool.false_eq_true, if_false, directMatrix, product_rescale,
      zero_smul, add_zero]
    simp [rescale]

/-- **C91** With a direct solver and the residual as merit function, no preconditioner makes the solver
reverse the direction of an exact solve: the slope is negative unless the residual is zero. -/
theorem direct_slope_negative {n nnz : ℕ} (R : Raw n nnz) (hm : R.objMerit = false)
    (precond : Fin n → ℝ) (hP : ∀ i, 0 < precond i) (tol : Tol) (eps : List ℝ)
    (x p : Fin n → ℝ) (hp : product R.rows R.cols (R.values eps x) p = R.residual eps x)
    (hr : R.residual eps x ≠ 0) :
    (scaled R precond false tol).slope eps x ((scaled R precond false tol).residual eps x) (-p) < 0 := by
  have hneg : product R.rows R.cols (R.values eps x) (-p) = - R.residual eps x := by
    rw [← hp]
    funext i
    simp only [product, Pi.neg_apply, ← Finset.sum_neg_distrib]
    refine Finset.sum_congr rfl fun k _ => ?_
    split_ifs <;> ring
  have e : (scaled R precond false tol).slope eps x ((scaled R precond false tol).residual eps x) (-p) =
      - ∑ i, precond i * (R.residual eps x i * precond i) ^ 2 := by
    simp only [scaled, meritJacProd, hm, Bool.false_eq_true, if_false, directMatrix, product_rescale, hneg]
    rw [← Finset.sum_neg_distrib]
    refine Finset.sum_congr rfl fun i _ => ?_
    simp only [rescale, Pi.neg_apply]
    ring
  rw [e, neg_lt_zero]
  obtain ⟨i, hi⟩ := Function.ne_iff.1 hr
  refine Finset.sum_pos' (fun j _ => mul_nonneg (hP j).le (sq_nonneg _)) ⟨i, Finset.mem_univ i, ?_⟩
  have : R.residual eps x i * precond i ≠ 0 := mul_ne_zero hi (hP i).ne'
  have := hP i
  positivity

/-- **C91** (partial: only without a preconditioner) With the objective as merit function, the slope is its
derivative in the direction of the step, if the residual is its gradient. -/
theorem objective_slope_partial {n nnz : ℕ} (R : Raw n nnz) (hm : R.objMerit = true)
    (iterative : Bool) (tol : Tol) (eps : List ℝ) (x p : Fin n → ℝ) (f : (Fin n → ℝ) → ℝ)
    (hf : ∀ y, R.objective eps y = some (f y))
    (hg : HasDerivAt (fun s : ℝ => f (x + s • p)) (∑ i, R.residual eps x i * p i) 0) :
    (∀ s : ℝ, (scaled R (fun _ => 1) iterative tol).merit eps (x + s • p)
        ((scaled R (fun _ => 1) iterative tol).residual eps (x + s • p)) = some (f (x + s • p))) ∧
      HasDerivAt (fun s : ℝ => f (x + s • p)) ((scaled R (fun _ => 1) iterative tol).slope eps x
        ((scaled R (fun _ => 1) iterative tol).residual eps x) p) 0 := by
  refine ⟨fun s => ?_, hg.congr_deriv ?_⟩
  · simp [scaled, hm, hf]
  · simp [scaled, meritJacProd, hm, rescale]

/-! ## Whole solves -/

open Newton

/-- What two solves have in common. -/
structure Same {V : Type*} (a b : Newton.Result V) : Prop where
  status : a.status = b.status
  iterations : a.iterations = b.iterations
  x : a.pt.x = b.pt.x
  eps : a.eps = b.eps

structure SameIter {V : Type*} (a b : Newton.Iter V) : Prop where
  iterations : a.iterations = b.iterations
  x : a.pt.x = b.pt.x
  eps : a.eps = b.eps
  merit : a.meritCur = none ↔ b.meritCur = none

theorem lineSearch_full {V : Type*} [AddCommGroup V] [Module ℝ V] (cfg : Config) (h : ¬ cfg.rho < 1)
    (P : Newton.Problem V) (eps : List ℝ) (test : V → Option ℝ → ℝ → Prop) (ca fa : ℝ) (x p : V) :
    lineSearch cfg P eps test ca fa x p =
      some ⟨1, 1, moveTo P eps (x + p), P.merit eps (x + p) (P.residual eps (x + p)), false, false⟩ := by
  unfold lineSearch
  simp only
  rw [if_neg (fun hh => h hh.1)]
  simp [h, moveTo]

theorem converged_scaled {n nnz : ℕ} (R : Raw n nnz) (tol : Tol) (ht : tol.r ≤ 0)
    (P Q : Fin n → ℝ) (hP : ∀ i, P i ≠ 0) (hQ : ∀ i, Q i ≠ 0) (xPrev x r : Fin n → ℝ) :
    converged R P tol xPrev x (rescale P r) ↔ converged R Q tol xPrev x (rescale Q r) := by
  unfold converged
  rw [unscale_rescale P r hP, unscale_rescale Q r hQ]
  have h : ∀ q : Prop, ¬ (0 < tol.r ∧ q) := fun q h => absurd h.1 (not_lt.2 ht)
  simp [h]

theorem merit_none {n nnz : ℕ} (R : Raw n nnz) (P Q : Fin n → ℝ) (it jt : Bool) (tol : Tol)
    (eps : List ℝ) (x r r' : Fin n → ℝ) :
    (scaled R P it tol).merit eps x r = none ↔ (scaled R Q jt tol).merit eps x r' = none := by
  unfold scaled
  by_cases h : R.objMerit <;> simp [h]

theorem mainLoop_same {n nnz : ℕ} (R : Raw n nnz) (tol : Tol) (ht : tol.r ≤ 0) (P Q : Fin n → ℝ)
    (hP : ∀ i, P i ≠ 0) (hQ : ∀ i, Q i ≠ 0) (cfg : Config) (hr : ¬ cfg.rho < 1)
    (ha : cfg.adaptive = false) (it jt : Bool)
    (o : Oracle (Fin n → ℝ)) (orig : List ℝ) (t t' : ℝ) (c c' : ℕ) (a b : Iter (Fin n → ℝ))
    (hab : SameIter a b) : ∃ r r', mainLoop cfg (scaled R P it tol) o orig t c a = some r ∧
      mainLoop cfg (scaled R Q jt tol) o orig t' c' b = some r' ∧ Same r r' := by
  induction hn : cfg.maxIter - a.iterations using Nat.strong_induction_on generalizing a b with
  | _ m ih =>
    obtain ⟨h1, h2, h3, h4⟩ := hab
    rw [mainLoop, mainLoop.eq_def _ _ _ _ _ _ b, ← h1]
    by_cases hi : o.interrupt a.iterations
    · rw [if_pos hi, if_pos hi]
      exact ⟨_, _, rfl, rfl, rfl, h1, h2, h3⟩
    rw [if_neg hi, if_neg hi]
    by_cases hm : a.meritCur = none
    · rw [if_pos hm, if_pos (h4.1 hm)]
      exact ⟨_, _, rfl, rfl, rfl, h1, h2, h3⟩
    rw [if_neg hm, if_neg (fun h => hm (h4.2 h))]
    cases hl : o.linear a.iterations with
    | error => exact ⟨_, _, rfl, rfl, rfl, h1, h2, h3⟩
    | checkFailed => exact ⟨_, _, rfl, rfl, rfl, h1, h2, h3⟩
    | solution finite p =>
      simp only
      by_cases hf : ¬ finite = true
      · rw [if_pos hf, if_pos hf]
        exact ⟨_, _, rfl, rfl, rfl, h1, h2, h3⟩
      rw [if_neg hf, if_neg hf]
      have ea : (prepare cfg t a).pt = a.pt := rfl
      have eb : (prepare cfg t' b).pt = b.pt := rfl
      have ea' : (prepare cfg t a).eps = a.eps := rfl
      have eb' : (prepare cfg t' b).eps = b.eps := rfl
      have hd : ∀ (S : Newton.Problem (Fin n → ℝ)) e q p, (direction cfg S e q p) = (0, p) := by
        intro S e q p
        unfold direction
        rw [if_neg hr]
      simp only [lineSearch_full cfg hr, hd, ea, eb, ea', eb']
      simp only [Bool.false_eq_true, false_and, if_false]
      have hconv : (scaled R P it tol).converged a.pt.x (a.pt.x + -p)
            ((scaled R P it tol).residual a.eps (a.pt.x + -p)) =
          (scaled R Q jt tol).converged b.pt.x (b.pt.x + -p)
            ((scaled R Q jt tol).residual b.eps (b.pt.x + -p)) := by
        rw [← h2, ← h3]
        simp only [scaled, decide_eq_decide]
        exact converged_scaled R tol ht P Q hP hQ _ _ _
      simp only [accept, moveTo, ea, eb, ea', eb', Bool.false_eq_true, and_false, if_false]
      rw [hconv]
      rw [show (prepare cfg t a).iterations = a.iterations from rfl,
        show (prepare cfg t' b).iterations = b.iterations from rfl, ← h1, ← h3, ← h2]
      by_cases hc : (scaled R Q jt tol).converged a.pt.x (a.pt.x + -p)
            ((scaled R Q jt tol).residual a.eps (a.pt.x + -p)) = true ∧ a.eps = orig
      · rw [if_pos hc, if_pos hc]
        exact ⟨_, _, rfl, rfl, rfl, rfl, rfl, rfl⟩
      rw [if_neg hc, if_neg hc]
      by_cases hx : a.iterations + 1 ≥ cfg.maxIter
      · rw [dif_pos hx, dif_pos hx]
        exact ⟨_, _, rfl, rfl, rfl, rfl, rfl, rfl⟩
      rw [dif_neg hx, dif_neg hx]
      refine ih _ ?_ _ _ ?_ rfl
      · rw [nextIter_iterations]
        change cfg.maxIter - (a.iterations + 1) < m
        omega
      · unfold nextIter
        simp only [ha, Bool.false_eq_true, if_false]
        exact ⟨rfl, rfl, rfl, merit_none R P Q it jt tol _ _ _ _⟩

/-- **C91** (partial: without line search and without the tolerance for the residual) Whole solves do not
depend on the preconditioner: with the same answers of the linear solver they go through the
same iterates and end the same way. -/
theorem solve_invariant_partial {n nnz : ℕ} (R : Raw n nnz) (tol : Tol) (ht : tol.r ≤ 0)
    (P Q : Fin n → ℝ) (hP : ∀ i, P i ≠ 0) (hQ : ∀ i, Q i ≠ 0) (cfg : Config) (hr : ¬ cfg.rho < 1)
    (ha : cfg.adaptive = false) (o : Oracle (Fin n → ℝ)) (empty jacOk noJac : Bool) (sv : Solver)
    (x : Fin n → ℝ) :
    ∃ r r', solveWith cfg (scaled R P cfg.iterative tol) o empty jacOk noJac sv x = some r ∧
      solveWith cfg (scaled R Q cfg.iterative tol) o empty jacOk noJac sv x = some r' ∧ Same r r' := by
  have hg : ∀ k (a b : Point (Fin n → ℝ)) eps, a.x = b.x → a.at' = a.x → b.at' = b.x →
      (initialGuess (scaled R P cfg.iterative tol) eps k a).x =
        (initialGuess (scaled R Q cfg.iterative tol) eps k b).x := by
    intro k
    induction k with
    | zero => intro a b eps h _ _; exact h
    | succ k ih =>
      intro a b eps h h1 h2
      simp only [initialGuess]
      have hm := merit_none R P Q cfg.iterative cfg.iterative tol eps a.at' a.r b.r
      rw [h1, h, ← h2] at hm
      have hs : ((scaled R P cfg.iterative tol).merit eps a.at' a.r).isSome =
          ((scaled R Q cfg.iterative tol).merit eps b.at' b.r).isSome := by
        rw [show a.at' = b.at' by rw [h1, h, h2]]
        rw [Bool.eq_iff_iff, Option.isSome_iff_ne_none, Option.isSome_iff_ne_none, ne_eq, ne_eq, hm]
      rw [hs, h]
      split_ifs
      · exact h
      · exact ih _ _ eps rfl rfl rfl
      · exact ih _ _ eps rfl rfl rfl
  unfold solveWith
  simp only
  cases empty
  swap
  · exact ⟨_, _, rfl, rfl, rfl, rfl, rfl, rfl⟩
  cases jacOk
  · exact ⟨_, _, rfl, rfl, rfl, rfl, rfl, rfl⟩
  have hx := hg 10 (moveTo (scaled R P cfg.iterative tol) (sv.eps.map (initEps cfg sv.prevCount)) x)
    (moveTo (scaled R Q cfg.iterative tol) (sv.eps.map (initEps cfg sv.prevCount)) x)
    (sv.eps.map (initEps cfg sv.prevCount)) rfl rfl rfl
  cases noJac
  swap
  · exact ⟨_, _, rfl, rfl, rfl, rfl, hx, rfl⟩
  · simp only [Bool.false_eq_true, if_false, not_true_eq_false]
    refine mainLoop_same R tol ht P Q hP hQ cfg hr ha _ _ o _ _ _ _ _ _ _ ⟨rfl, hx, rfl, ?_⟩
    have e1 := initialGuess_atX (scaled R P cfg.iterative tol) (sv.eps.map (initEps cfg sv.prevCount)) 10
      (moveTo (scaled R P cfg.iterative tol) (sv.eps.map (initEps cfg sv.prevCount)) x) rfl
    have e2 := initialGuess_atX (scaled R Q cfg.iterative tol) (sv.eps.map (initEps cfg sv.prevCount)) 10
      (moveTo (scaled R Q cfg.iterative tol) (sv.eps.map (initEps cfg sv.prevCount)) x) rfl
    unfold AtX at e1 e2
    simp only
    rw [e1, e2, hx]
    exact merit_none R P Q _ _ tol _ _ _ _

/-! ## Violations -/

/-- Answers of a linear solver, no interruption. -/
def answers {n : ℕ} (p : ℕ → Fin n → ℝ) : Oracle (Fin n → ℝ) :=
  ⟨fun _ => false, fun k => .solution true (p k), fun _ => 1, fun _ => 1⟩

/-- The solver before its first solve, without friction. -/
def fresh : Solver := ⟨[], [], 0, 1⟩

/-- A convex quadratic function of two unknowns with its gradient and Hessian, as an objective. -/
def bowl : Raw 2 4 where
  residual _ x := ![1e-12 * (x 0 + 8 * x 1), 1e-12 * (8 * x 0 + 100 * x 1)]
  objective _ x := some (1e-12 * (0.5 * x 0 ^ 2 + 8 * x 0 * x 1 + 50 * x 1 ^ 2))
  rows := ![0, 0, 1, 1]
  cols := ![0, 1, 0, 1]
  values _ _ := ![1e-12, 8e-12, 8e-12, 100e-12]
  jacobianProduct _ _ p := ![1e-12 * (p 0 + 8 * p 1), 1e-12 * (8 * p 0 + 100 * p 1)]
  objMerit := true
  accel _ _ := false

/-- Its Jacobi preconditioner. -/
def bowlPrecond : Fin 2 → ℝ :=
  diagonal .approximateJacobi ![1e-12, 100e-12] (fun _ => 0) (fun _ => 1)

theorem invSqrt_sq (a : ℝ) (h : (2 : ℝ) ^ (-52 : ℤ) ≤ a) : invSqrt (a ^ 2) = 1 / a := by
  have h0 : 0 < a := lt_of_lt_of_le (by positivity) h
  unfold invSqrt
  simp only
  rw [abs_of_pos (by positivity), Real.sqrt_sq h0.le, if_neg (not_lt.2 h)]

theorem bowlPrecond_eq : bowlPrecond = ![1e6, 1e5] := by
  funext i
  fin_cases i
  · change invSqrt (1e-12 + 0) = 1e6
    rw [show (1e-12 : ℝ) + 0 = (1e-6) ^ 2 by norm_num, invSqrt_sq _ (by norm_num)]
    norm_num
  · change invSqrt (100e-12 + 0) = 1e5
    rw [show (100e-12 : ℝ) + 0 = (1e-5) ^ 2 by norm_num, invSqrt_sq _ (by norm_num)]
    norm_num

/-- The start and the iterates. -/
def bowlAt (t : ℝ) : Fin 2 → ℝ := ![-4 * t, t]

theorem bowl_product (eps : List ℝ) (x p : Fin 2 → ℝ) :
    product bowl.rows bowl.cols (bowl.values eps x) p = bowl.jacobianProduct eps x p := by
  funext i
  unfold product
  rw [Fin.sum_univ_four]
  fin_cases i <;> simp [bowl] <;> ring

theorem bowl_residual (t : ℝ) : bowl.residual [] (bowlAt t) = ![4e-12 * t, 68e-12 * t] := by
  funext i
  fin_cases i <;> simp [bowl, bowlAt] <;> ring

theorem bowl_objective (t : ℝ) : bowl.objective [] (bowlAt t) = some (26e-12 * t ^ 2) := by
  simp only [bowl, bowlAt, Option.some.injEq, Matrix.cons_val_zero, Matrix.cons_val_one]
  ring

theorem bowl_rescaled (t : ℝ) : rescale ![1e6, 1e5] (![4e-12 * t, 68e-12 * t] : Fin 2 → ℝ) =
    ![4e-6 * t, 6.8e-6 * t] := by
  funext i
  fin_cases i <;> simp [rescale] <;> ring

/-- Tolerance for the residual only. -/
def bowlTol : Tol := ⟨1e-6, 0⟩

theorem bowl_step (N : ℕ) (o : Oracle (Fin 2 → ℝ)) (ho : o = answers fun k => bowlAt (2 ^ k))
    (s : Iter (Fin 2 → ℝ)) (hs : s.iterations < N)
    (h1 : s.pt = ⟨bowlAt (2 ^ s.iterations), bowlAt (2 ^ s.iterations),
      rescale bowlPrecond (bowl.residual [] (bowlAt (2 ^ s.iterations)))⟩)
    (h2 : s.eps = []) (h3 : s.meritCur = some (26e-12 * (2 ^ s.iterations) ^ 2)) :
    ∃ r, mainLoop { defaultConfig with maxIter := N } (scaled bowl bowlPrecond false bowlTol) o [] 0 1 s
      = some r ∧ r.status = .maximumIterationsExceeded ∧ r.pt.x = bowlAt (2 ^ N) := by
  induction hn : N - s.iterations using Nat.strong_induction_on generalizing s with
  | _ m ih =>
    obtain ⟨k, hk⟩ : ∃ k, k = s.iterations := ⟨_, rfl⟩
    rw [← hk] at h1 h3 hs hn
    have ht : (1 : ℝ) ≤ 2 ^ k := one_le_pow₀ (by norm_num)
    generalize hgt : (2 : ℝ) ^ k = t at *
    rw [mainLoop]
    rw [if_neg (by subst ho; simp [answers]), if_neg (by rw [h3]; simp)]
    have hl : o.linear s.iterations = .solution true (bowlAt t) := by
      rw [ho, ← hk]
      simp only [answers]
      rw [hgt]
    rw [hl]
    simp only [not_true_eq_false, if_false]
    have e1 : (prepare { defaultConfig with maxIter := N } 0 s).pt = s.pt := rfl
    have e2 : (prepare { defaultConfig with maxIter := N } 0 s).eps = s.eps := rfl
    have e3 : (prepare { defaultConfig with maxIter := N } 0 s).meritCur = s.meritCur := rfl
    rw [bowl_residual, bowlPrecond_eq, bowl_rescaled] at h1
    have hdir : direction { defaultConfig with maxIter := N } (scaled bowl bowlPrecond false bowlTol) s.eps
        s.pt (-bowlAt t) = (9.2e-6 * t ^ 2, bowlAt t) := by
      have hsl : (scaled bowl bowlPrecond false bowlTol).slope s.eps s.pt.at' s.pt.r (-bowlAt t) =
          9.2e-6 * t ^ 2 := by
        rw [h1]
        simp only [scaled, meritJacProd, bowl, if_true, Fin.sum_univ_two, bowlAt]
        simp
        ring
      unfold direction
      rw [if_pos (by norm_num [defaultConfig])]
      simp only [hsl]
      rw [if_pos (by positivity), neg_neg]
    have hmv : moveTo (scaled bowl bowlPrecond false bowlTol) s.eps (s.pt.x + bowlAt t) =
        ⟨bowlAt (2 * t), bowlAt (2 * t), rescale bowlPrecond (bowl.residual [] (bowlAt (2 * t)))⟩ := by
      have : s.pt.x + bowlAt t = bowlAt (2 * t) := by
        rw [h1]
        funext i
        fin_cases i <;> simp [bowlAt] <;> ring
      rw [this, h2]
      rfl
    have hmer : ∀ r, (scaled bowl bowlPrecond false bowlTol).merit s.eps (bowlAt (2 * t)) r =
        some (26e-12 * (2 * t) ^ 2) := by
      intro r
      rw [h2]
      change (if bowl.objMerit = true then bowl.objective [] (bowlAt (2 * t)) else some (0.5 * normSq r)) = _
      rw [if_pos (show bowl.objMerit = true from rfl), bowl_objective]
    have hls : ∀ tol, lineSearch { defaultConfig with maxIter := N } (scaled bowl bowlPrecond false bowlTol)
        s.eps (testAlpha { defaultConfig with maxIter := N } (scaled bowl bowlPrecond false bowlTol) tol
          s.pt.r s.meritCur (9.2e-6 * t ^ 2)) (o.contactAlpha s.iterations) (o.frictionAlpha s.iterations)
        s.pt.x (bowlAt t) = some ⟨1, 1, ⟨bowlAt (2 * t), bowlAt (2 * t),
          rescale bowlPrecond (bowl.residual [] (bowlAt (2 * t)))⟩, some (26e-12 * (2 * t) ^ 2), true,
          false⟩ := by
      intro tol
      unfold lineSearch
      simp only [hmv, hmer]
      rw [if_neg]
      · norm_num [defaultConfig]
      · push Not
        intro _
        rw [h3]
        simp only [testAlpha, defaultConfig, Bool.false_eq_true, if_false, Option.map_some, le']
        nlinarith
    simp only [e1, e2, e3, hdir, hls]
    rw [if_neg (by simp)]
    have hnc : ¬ ((scaled bowl bowlPrecond false bowlTol).converged s.pt.x (bowlAt (2 * t))
        (rescale bowlPrecond (bowl.residual [] (bowlAt (2 * t)))) = true ∧ s.eps = []) := by
      rintro ⟨hc, -⟩
      rw [bowl_residual, bowlPrecond_eq, bowl_rescaled] at hc
      simp only [scaled, decide_eq_true_eq, converged, bowlTol, lt_self_iff_false, false_and,
        false_or] at hc
      rcases hc with hc | hc
      · have := hc.2 1
        simp only [Matrix.cons_val_one] at this
        rw [Matrix.cons_val_fin_one, abs_of_nonneg (by positivity)] at this
        linarith
      · exact absurd hc (by simp [bowl])
    have ehnc : (accept { defaultConfig with maxIter := N }
        (prepare { defaultConfig with maxIter := N } 0 s) (-bowlAt t)
        ⟨1, 1, ⟨bowlAt (2 * t), bowlAt (2 * t), rescale bowlPrecond (bowl.residual [] (bowlAt (2 * t)))⟩,
          some (26e-12 * (2 * t) ^ 2), true, false⟩).eps = s.eps := rfl
    rw [if_neg (by rw [ehnc]; exact hnc)]
    have e2t : 2 * t = 2 ^ (k + 1) := by rw [pow_succ, hgt]; ring
    by_cases hx : s.iterations + 1 ≥ N
    · rw [dif_pos (show (accept { defaultConfig with maxIter := N }
        (prepare { defaultConfig with maxIter := N } 0 s) (-bowlAt t) _).iterations ≥ N from hx)]
      refine ⟨_, rfl, rfl, ?_⟩
      change bowlAt (2 * t) = bowlAt (2 ^ N)
      rw [e2t, show k + 1 = N by omega]
    · rw [dif_neg (show ¬ (accept { defaultConfig with maxIter := N }
        (prepare { defaultConfig with maxIter := N } 0 s) (-bowlAt t) _).iterations ≥ N from hx)]
      have hk1 : s.iterations + 1 = k + 1 := by rw [hk]
      refine ih (N - (k + 1)) (by omega) _ ?_ ?_ ?_ ?_ ?_
      · rw [nextIter_iterations]
        change s.iterations + 1 < N
        omega
      · rw [nextIter_iterations]
        change (⟨bowlAt (2 * t), bowlAt (2 * t), _⟩ : Point (Fin 2 → ℝ)) =
          ⟨bowlAt (2 ^ (s.iterations + 1)), bowlAt (2 ^ (s.iterations + 1)),
            rescale bowlPrecond (bowl.residual [] (bowlAt (2 ^ (s.iterations + 1))))⟩
        rw [hk1, ← e2t]
      · exact h2
      · rw [nextIter_iterations]
        change some (26e-12 * (2 * t) ^ 2) = some (26e-12 * (2 ^ (s.iterations + 1)) ^ 2)
        rw [hk1, ← e2t]
      · rw [nextIter_iterations]
        change N - (s.iterations + 1) = _
        rw [hk1]

theorem bowl_q_pos (x : Fin 2 → ℝ) (h : x ≠ 0) :
    0 < 0.5 * x 0 ^ 2 + 8 * x 0 * x 1 + 50 * x 1 ^ 2 := by
  have h1 : x 0 ≠ 0 ∨ x 1 ≠ 0 := by
    by_contra hc
    push Not at hc
    refine h (funext fun i => ?_)
    fin_cases i
    · exact hc.1
    · exact hc.2
  rcases h1 with h1 | h1
  · have := sq_pos_of_ne_zero h1
    nlinarith [sq_nonneg (x 0 * (8 / 100) + x 1)]
  · have := sq_pos_of_ne_zero h1
    nlinarith [sq_nonneg (x 0 + 8 * x 1)]

/-- **C91 (violated, objective as merit function)** The slope of the line search is computed from the scaled
residual, so that a preconditioner can turn a descent direction around. For a strictly convex
quadratic function, with its exact gradient and Hessian, exact linear solves and the default
parameters, each step with the Jacobi preconditioner doubles the distance from the minimum, however many are
allowed; without it the first step ends in the minimum. -/
theorem objective_slope_violated :
    (∀ x p : Fin 2 → ℝ, ∀ eps, ∃ f : (Fin 2 → ℝ) → ℝ, (∀ y, bowl.objective eps y = some (f y)) ∧
      (∀ y, y ≠ 0 → f 0 < f y) ∧
      HasDerivAt (fun s : ℝ => f (x + s • p)) (∑ i, bowl.residual eps x i * p i) 0 ∧
      ∀ i, HasDerivAt (fun s : ℝ => bowl.residual eps (x + s • p) i)
        (product bowl.rows bowl.cols (bowl.values eps x) p i) 0) ∧
    (∀ k : ℕ, product bowl.rows bowl.cols (bowl.values [] (bowlAt (2 ^ k))) (bowlAt (2 ^ k)) =
      bowl.residual [] (bowlAt (2 ^ k))) ∧
    (∀ N, 0 < N → ∃ r, solveWith { defaultConfig with maxIter := N }
        (scaled bowl bowlPrecond false bowlTol) (answers fun k => bowlAt (2 ^ k)) false true false fresh
        (bowlAt 1) = some r ∧ r.status = .maximumIterationsExceeded ∧
      r.pt.x = (2 ^ N : ℝ) • bowlAt 1) ∧
    ∃ r, solveWith defaultConfig (scaled bowl (fun _ => 1) false bowlTol)
        (answers fun k => bowlAt (2 ^ k)) false true false fresh (bowlAt 1) = some r ∧
      r.status = .success ∧ r.iterations = 1 ∧ r.pt.x = 0 := by
  refine ⟨fun x p eps => ⟨fun x => 1e-12 * (0.5 * x 0 ^ 2 + 8 * x 0 * x 1 + 50 * x 1 ^ 2),
    fun y => rfl, fun y hy => ?_, ?_, ?_⟩, ?_, ?_, ?_⟩
  · have := bowl_q_pos y hy
    simp only [Pi.zero_apply]
    nlinarith
  · have h : ∀ i, HasDerivAt (fun s : ℝ => (x + s • p) i) (p i) 0 := by
      intro i
      simpa using ((hasDerivAt_id (0 : ℝ)).mul_const (p i)).const_add (x i)
    refine (((((h 0).fun_pow 2).const_mul 0.5).fun_add (((h 0).const_mul 8).fun_mul (h 1))).fun_add
      (((h 1).fun_pow 2).const_mul 50) |>.const_mul 1e-12).congr_deriv ?_
    rw [Fin.sum_univ_two]
    simp [bowl]
    ring
  · have h : ∀ i, HasDerivAt (fun s : ℝ => (x + s • p) i) (p i) 0 := by
      intro i
      simpa using ((hasDerivAt_id (0 : ℝ)).mul_const (p i)).const_add (x i)
    rw [bowl_product]
    intro i
    fin_cases i
    · exact ((h 0).fun_add ((h 1).const_mul 8)).const_mul 1e-12
    · exact (((h 0).const_mul 8).fun_add ((h 1).const_mul 100)).const_mul 1e-12
  · intro k
    rw [bowl_product]
    rfl
  · intro N hN
    obtain ⟨r, h1, h2, h3⟩ := bowl_step N _ rfl
      ⟨⟨bowlAt 1, bowlAt 1, rescale bowlPrecond (bowl.residual [] (bowlAt 1))⟩, [],
        some (26e-12 * 1 ^ 2), some (26e-12 * 1 ^ 2), 0, 0, [], [], []⟩ hN (by simp) rfl (by simp)
    refine ⟨r, ?_, h2, ?_⟩
    · rw [← h1]
      unfold solveWith
      have hm : ∀ r, (scaled bowl bowlPrecond false bowlTol).merit [] (bowlAt 1) r =
          some (26e-12 * 1 ^ 2) := by
        intro r
        change (if bowl.objMerit = true then bowl.objective [] (bowlAt 1) else some (0.5 * normSq r)) = _
        rw [if_pos (show bowl.objMerit = true from rfl), bowl_objective]
      have hg : initialGuess (scaled bowl bowlPrecond false bowlTol) [] 10
          (moveTo (scaled bowl bowlPrecond false bowlTol) [] (bowlAt 1)) =
          ⟨bowlAt 1, bowlAt 1, rescale bowlPrecond (bowl.residual [] (bowlAt 1))⟩ := by
        rw [initialGuess, moveTo, hm]
        rfl
      simp only [Bool.false_eq_true, if_false, not_true_eq_false, fresh, List.map_nil, hg, hm]
    · rw [h3]
      funext i
      fin_cases i <;> simp [bowlAt] <;> ring
  · have hm : ∀ r, (scaled bowl (fun _ => 1) false bowlTol).merit [] (bowlAt 1) r =
        some (26e-12 * 1 ^ 2) := by
      intro r
      change (if bowl.objMerit = true then bowl.objective [] (bowlAt 1) else some (0.5 * normSq r)) = _
      rw [if_pos (show bowl.objMerit = true from rfl), bowl_objective]
    have hm0 : ∀ r, (scaled bowl (fun _ => 1) false bowlTol).merit [] 0 r = some 0 := by
      intro r
      change (if bowl.objMerit = true then bowl.objective [] 0 else some (0.5 * normSq r)) = _
      rw [if_pos (show bowl.objMerit = true from rfl)]
      simp [bowl]
    have hr0 : (scaled bowl (fun _ => 1) false bowlTol).residual [] 0 = 0 := by
      funext i
      fin_cases i <;> simp [scaled, rescale, bowl]
    have hr1 : (scaled bowl (fun _ => 1) false bowlTol).residual [] (bowlAt 1) = ![4e-12, 68e-12] := by
      change rescale (fun _ => 1) (bowl.residual [] (bowlAt 1)) = _
      rw [bowl_residual]
      funext i
      fin_cases i <;> simp [rescale]
    have hg : initialGuess (scaled bowl (fun _ => 1) false bowlTol) [] 10
        (moveTo (scaled bowl (fun _ => 1) false bowlTol) [] (bowlAt 1)) =
        ⟨bowlAt 1, bowlAt 1, ![4e-12, 68e-12]⟩ := by
      rw [initialGuess, moveTo, hm, hr1]
      rfl
    unfold solveWith
    simp only [Bool.false_eq_true, if_false, not_true_eq_false, fresh, List.map_nil, hg, hm]
    rw [mainLoop]
    rw [if_neg (by simp [answers]), if_neg (by simp)]
    simp only [answers, pow_zero, not_true_eq_false, if_false, prepare]
    have hdir : direction defaultConfig (scaled bowl (fun _ => 1) false bowlTol) []
        ⟨bowlAt 1, bowlAt 1, ![4e-12, 68e-12]⟩ (-bowlAt 1) = (-52e-12, -bowlAt 1) := by
      have hsl : (scaled bowl (fun _ => 1) false bowlTol).slope [] (bowlAt 1) ![4e-12, 68e-12]
          (-bowlAt 1) = -52e-12 := by
        simp only [scaled, meritJacProd, bowl, if_true, Fin.sum_univ_two, bowlAt]
        norm_num
      unfold direction
      rw [if_pos (by norm_num [defaultConfig])]
      simp only [hsl]
      rw [if_neg (by norm_num)]
    have hls : ∀ tol, lineSearch defaultConfig (scaled bowl (fun _ => 1) false bowlTol)
        [] (testAlpha defaultConfig (scaled bowl (fun _ => 1) false bowlTol) tol
          ![4e-12, 68e-12] (some (26e-12 * 1 ^ 2)) (-52e-12)) 1 1
        (bowlAt 1) (-bowlAt 1) = some ⟨1, 1, ⟨0, 0, 0⟩, some 0, true, false⟩ := by
      intro tol
      unfold lineSearch
      simp only [add_neg_cancel, moveTo, hr0, hm0]
      rw [if_neg]
      · norm_num [defaultConfig]
      · push Not
        intro _
        simp only [testAlpha, defaultConfig, Bool.false_eq_true, if_false, Option.map_some, le']
        norm_num
    simp only [hdir, hls, Bool.false_eq_true, false_and, if_false]
    rw [if_pos]
    · exact ⟨_, rfl, rfl, rfl, rfl⟩
    · refine ⟨?_, rfl⟩
      simp only [accept, scaled, decide_eq_true_eq]
      left
      norm_num [bowlTol]

/-- One unknown with residual `1e-8 x`: for instance a velocity of a light vertex. -/
def light : Raw 1 1 where
  residual _ x := fun i => 1e-8 * x i
  objective _ _ := some 0
  rows _ := 0
  cols _ := 0
  values _ _ := fun _ => 1e-8
  jacobianProduct _ _ p := fun i => 1e-8 * p i
  objMerit := false
  accel _ _ := false

/-- Its Jacobi preconditioner. -/
def lightPrecond : Fin 1 → ℝ := diagonal .approximateJacobi (fun _ => 1e-8) (fun _ => 0) (fun _ => 1)

theorem lightPrecond_eq : lightPrecond = fun _ => 1e4 := by
  funext i
  change invSqrt (1e-8 + 0) = 1e4
  rw [show (1e-8 : ℝ) + 0 = (1e-4) ^ 2 by norm_num, invSqrt_sq _ (by norm_num)]
  norm_num

def lightTol : Tol := ⟨1e-5, 1e-6⟩

/-- The default parameters with the residual as merit function. -/
def residualConfig : Config := { defaultConfig with objMerit := false }

/-- The same where `./out` can be written. -/
def outConfig : Config := { residualConfig with outDir := true }

theorem light_search (cfg : Config) (hcfg : cfg = residualConfig ∨
    cfg = outConfig) (tol : ℝ) :
    ∃ ls, lineSearch cfg (scaled light lightPrecond false lightTol) []
      (testAlpha cfg (scaled light lightPrecond false lightTol) tol (fun _ => 1e-4) (some 5e-9) (-1e-4))
        1 1 (fun _ => 1) (-fun _ => 1) = some ls ∧
      ls.passed = false ∧ 0 < ls.alpha ∧
      ls.pt = moveTo (scaled light lightPrecond false lightTol) [] (fun _ => 1 - ls.alpha / 0.9) := by
  have hrho : cfg.rho = 0.9 := by rcases hcfg with rfl | rfl <;> rfl
  have hc : cfg.c = 1e-4 := by rcases hcfg with rfl | rfl <;> rfl
  have hi : cfg.iterative = false := by rcases hcfg with rfl | rfl <;> rfl
  have ha : cfg.assisted = false := by rcases hcfg with rfl | rfl <;> rfl
  have hmer : ∀ x : Fin 1 → ℝ, (scaled light lightPrecond false lightTol).merit [] x
      ((scaled light lightPrecond false lightTol).residual [] x) = some (5e-9 * x 0 ^ 2) := by
    intro x
    rw [lightPrecond_eq]
    simp only [scaled, light, Bool.false_eq_true, if_false, normSq, rescale, Finset.univ_unique,
      Finset.sum_singleton, Option.some.injEq, Fin.default_eq_zero]
    ring
  set S := scaled light lightPrecond false lightTol with hS
  set test := testAlpha cfg S tol (fun _ => 1e-4) (some 5e-9) (-1e-4) with htest
  have hno : ∀ (a : ℝ) r, 0 < a → ¬ test r (some (5e-9 * (1 - a) ^ 2)) a := by
    intro a r h
    simp only [htest, testAlpha, hi, Bool.false_eq_true, if_false, Option.map_some, le', hc, not_le]
    nlinarith [sq_pos_of_pos h]
  obtain ⟨ls, hls⟩ := lineSearch_terminates cfg S [] (by rw [hrho]; norm_num) test 1 1
    (fun _ => 1) (-fun _ => 1)
  obtain ⟨h1, -, h3, h4⟩ := lineSearch_spec _ _ _ _ _ _ _ _ _ hls
  have hpos : 0 < ls.alpha := by
    have h := hls
    unfold lineSearch at h
    simp only at h
    split_ifs at h
    · simp_all
    · exact backtrack_alpha_pos cfg S [] (by rw [hrho]; norm_num) _ _ _ _ _ _ _ h
        (by simp [startAlpha, ha])
    · simp only [Option.some.injEq] at h
      rw [← h]
      norm_num
  have hx : ∀ a : ℝ, ((fun _ => 1) + a • (-fun _ => 1) : Fin 1 → ℝ) = fun _ => 1 - a := by
    intro a
    funext i
    simp
    ring
  have hfail : ls.passed = false := by
    by_contra hp
    obtain ⟨-, ht, hpt⟩ := h3 (by simpa using hp)
    rw [h1, hpt, hx] at ht
    simp only [moveTo, hmer] at ht
    exact hno ls.alpha _ hpos ht
  refine ⟨ls, hls, hfail, hpos, ?_⟩
  obtain ⟨-, -, -, a, h5, h6, -⟩ := h4 hfail (by rw [hrho]; norm_num)
  rw [h6, hx]
  have : a = ls.alpha / 0.9 := by rw [h5, hrho]; field_simp
  rw [this]

theorem light_start (cfg : Config) (hcfg : cfg = residualConfig ∨
    cfg = outConfig) :
    solveWith cfg (scaled light lightPrecond false lightTol) (answers fun _ _ => 1) false true false fresh
      (fun _ => 1) = mainLoop cfg (scaled light lightPrecond false lightTol) (answers fun _ _ => 1) [] 0 1
        ⟨⟨fun _ => 1, fun _ => 1, fun _ => 1e-4⟩, [], some 5e-9, some 5e-9, 0, 0, [], [], []⟩ ∧
    direction cfg (scaled light lightPrecond false lightTol) []
      ⟨fun _ => 1, fun _ => 1, fun _ => 1e-4⟩ (-fun _ => 1) = (-1e-4, -fun _ => 1) := by
  have hrho : cfg.rho = 0.9 := by rcases hcfg with rfl | rfl <;> rfl
  have hr : (scaled light lightPrecond false lightTol).residual [] (fun _ => 1) = fun _ => 1e-4 := by
    rw [lightPrecond_eq]
    funext i
    norm_num [scaled, light, rescale]
  have hm : (scaled light lightPrecond false lightTol).merit [] (fun _ => 1) (fun _ => 1e-4) =
      some 5e-9 := by
    norm_num [scaled, light, normSq]
  constructor
  · unfold solveWith
    have hg : initialGuess (scaled light lightPrecond false lightTol) [] 10
        (moveTo (scaled light lightPrecond false lightTol) [] (fun _ => 1)) =
        ⟨fun _ => 1, fun _ => 1, fun _ => 1e-4⟩ := by
      rw [initialGuess, moveTo, hr, hm]
      rfl
    simp only [Bool.false_eq_true, if_false, not_true_eq_false, fresh, List.map_nil, hg, hm]
  · have hsl : (scaled light lightPrecond false lightTol).slope [] (fun _ => 1) (fun _ => 1e-4)
        (-fun _ => 1) = -1e-4 := by
      rw [lightPrecond_eq]
      simp [scaled, meritJacProd, light, directMatrix, product, rescale, rescaleValues]
      norm_num
    unfold direction
    rw [if_pos (by rw [hrho]; norm_num)]
    simp only [hsl]
    rw [if_neg (by norm_num)]

/-- **C91 (violated, residual as merit function)** With a direct solver the residual is scaled twice in the slope
of the line search: the matrix is scaled already. For an unknown with a small diagonal entry the
required decrease is more than any step can give, even for a linear problem with exact solves. With the default
parameters, the solve panics in its first line search, or, if `./out` can be written, reports success
where it started; without a preconditioner the first step ends in the solution. -/
theorem direct_slope_violated :
    (∀ x p : Fin 1 → ℝ, ∀ eps i, HasDerivAt (fun s : ℝ => light.residual eps (x + s • p) i)
        (product light.rows light.cols (light.values eps x) p i) 0) ∧
    product light.rows light.cols (light.values [] fun _ => 1) (fun _ => 1) =
      light.residual [] (fun _ => 1) ∧
    (∃ r, solveWith residualConfig (scaled light lightPrecond false lightTol) (answers fun _ _ => 1)
        false true false fresh (fun _ => 1) = some r ∧ r.status = .panicked) ∧
    (∃ r, solveWith outConfig (scaled light lightPrecond false lightTol)
        (answers fun _ _ => 1) false true false fresh (fun _ => 1) = some r ∧ r.status = .success ∧
      r.iterations = 1 ∧ 1 - 1e-19 < r.pt.x 0) ∧
    ∃ r, solveWith residualConfig (scaled light (fun _ => 1) false lightTol) (answers fun _ _ => 1)
        false true false fresh (fun _ => 1) = some r ∧ r.status = .success ∧ r.iterations = 1 ∧
      r.pt.x = 0 := by
  refine ⟨?_, ?_, ?_, ?_, ?_⟩
  · intro x p eps i
    have h : HasDerivAt (fun s : ℝ => (x + s • p) i) (p i) 0 := by
      simpa using ((hasDerivAt_id (0 : ℝ)).mul_const (p i)).const_add (x i)
    refine (h.const_mul 1e-8).congr_deriv ?_
    fin_cases i
    simp [product, light]
  · funext i
    fin_cases i
    simp [product, light]
  · obtain ⟨h1, h2⟩ := light_start _ (Or.inl rfl)
    obtain ⟨ls, h3, h4, h5, h6⟩ := light_search _ (Or.inl rfl) 0
    obtain ⟨d1, d2, d3⟩ := failed_search_dumps _ rfl rfl _ _ _ _ _ _ _ _ h3 h4
    rw [h1, mainLoop]
    have hit : residualConfig.iterative = false := rfl
    simp only [answers, Bool.false_eq_true, if_false, reduceCtorEq, prepare, not_true_eq_false, hit,
      show (-fun _ => 1 : Fin 1 → ℝ) = -fun _ => 1 from rfl] at h2 h3 ⊢
    simp only [h2, h3]
    rw [if_pos ⟨d1, d2, d3, by simp [residualConfig, defaultConfig]⟩]
    exact ⟨_, rfl, rfl⟩
  · obtain ⟨h1, h2⟩ := light_start _ (Or.inr rfl)
    obtain ⟨ls, h3, h4, h5, h6⟩ := light_search _ (Or.inr rfl) 0
    obtain ⟨d1, d2, d3⟩ := failed_search_dumps _ rfl rfl _ _ _ _ _ _ _ _ h3 h4
    rw [h1, mainLoop]
    have hit : outConfig.iterative = false := rfl
    simp only [answers, Bool.false_eq_true, if_false, reduceCtorEq, prepare, not_true_eq_false, hit,
      not_false_eq_true] at h2 h3 ⊢
    simp only [h2, h3]
    rw [if_neg (by simp [outConfig]), if_pos]
    · refine ⟨_, rfl, rfl, rfl, ?_⟩
      change 1 - 1e-19 < ls.pt.x 0
      rw [h6]
      change (1 : ℝ) - 1e-19 < 1 - ls.alpha / 0.9
      have : ls.alpha / 0.9 < 1e-19 := by
        rw [div_lt_iff₀ (by norm_num)]
        refine lt_trans d2 (by norm_num)
      linarith
    · refine ⟨?_, rfl⟩
      change (scaled light lightPrecond false lightTol).converged (fun _ => 1) ls.pt.x ls.pt.r = true
      rw [h6]
      change decide (converged light lightPrecond lightTol _ _ _) = true
      rw [decide_eq_true_eq]
      refine Or.inr (Or.inl ?_)
      refine ⟨by norm_num [lightTol], ?_⟩
      have h7 : 0 < ls.alpha / 0.9 := by positivity
      have h8 : ls.alpha / 0.9 < 1e-19 := by
        rw [div_lt_iff₀ (by norm_num)]
        refine lt_trans d2 (by norm_num)
      have e : √(normSq fun i : Fin 1 => 1 - (1 - ls.alpha / 0.9)) = ls.alpha / 0.9 := by
        simp only [normSq, Finset.univ_unique, Finset.sum_singleton, sub_sub_cancel]
        exact Real.sqrt_mul_self h7.le
      simp only [moveTo]
      rw [e]
      have := Real.sqrt_nonneg (normSq fun _ : Fin 1 => 1 - ls.alpha / 0.9)
      simp only [lightTol]
      nlinarith
  · have hr : (scaled light (fun _ => 1) false lightTol).residual [] (fun _ => 1) = fun _ => 1e-8 := by
      funext i
      norm_num [scaled, light, rescale]
    have hr0 : (scaled light (fun _ => 1) false lightTol).residual [] 0 = 0 := by
      funext i
      norm_num [scaled, light, rescale]
    have hm : (scaled light (fun _ => 1) false lightTol).merit [] (fun _ => 1) (fun _ => 1e-8) =
        some 5e-17 := by
      norm_num [scaled, light, normSq]
    have hm0 : (scaled light (fun _ => 1) false lightTol).merit [] 0 0 = some 0 := by
      norm_num [scaled, light, normSq]
    have hg : initialGuess (scaled light (fun _ => 1) false lightTol) [] 10
        (moveTo (scaled light (fun _ => 1) false lightTol) [] (fun _ => 1)) =
        ⟨fun _ => 1, fun _ => 1, fun _ => 1e-8⟩ := by
      rw [initialGuess, moveTo, hr, hm]
      rfl
    unfold solveWith
    simp only [Bool.false_eq_true, if_false, not_true_eq_false, fresh, List.map_nil, hg, hm]
    rw [mainLoop]
    rw [if_neg (by simp [answers]), if_neg (by simp)]
    simp only [answers, not_true_eq_false, if_false, prepare]
    have hdir : direction residualConfig (scaled light (fun _ => 1) false lightTol) []
        ⟨fun _ => 1, fun _ => 1, fun _ => 1e-8⟩ (-fun _ => 1) = (-1e-16, -fun _ => 1) := by
      have hsl : (scaled light (fun _ => 1) false lightTol).slope [] (fun _ => 1) (fun _ => 1e-8)
          (-fun _ => 1) = -1e-16 := by
        simp [scaled, meritJacProd, light, directMatrix, product, rescale, rescaleValues]
        norm_num
      unfold direction
      rw [if_pos (by norm_num [residualConfig, defaultConfig])]
      simp only [hsl]
      rw [if_neg (by norm_num)]
    have hls : ∀ tol, lineSearch residualConfig (scaled light (fun _ => 1) false lightTol)
        [] (testAlpha residualConfig (scaled light (fun _ => 1) false lightTol) tol
          (fun _ => 1e-8) (some 5e-17) (-1e-16)) 1 1
        (fun _ => 1) (-fun _ => 1) = some ⟨1, 1, ⟨0, 0, 0⟩, some 0, true, false⟩ := by
      intro tol
      unfold lineSearch
      simp only [add_neg_cancel, moveTo, hr0, hm0]
      rw [if_neg]
      · norm_num [residualConfig, defaultConfig]
      · push Not
        intro _
        simp only [testAlpha, residualConfig, defaultConfig, Bool.false_eq_true, if_false,
          Option.map_some, le']
        norm_num
    simp only [hdir, hls, Bool.false_eq_true, false_and, if_false]
    rw [if_pos]
    · exact ⟨_, rfl, rfl, rfl, rfl⟩
    · refine ⟨?_, rfl⟩
      simp only [accept, scaled, decide_eq_true_eq]
      left
      norm_num [lightTol]

/-- One unknown with the residual `4/3 · 10⁴ (x + x²)`, with a derivative of `4 · 10⁴` in one. -/
def heavy : Raw 1 1 where
  residual _ x := fun i => 4 / 3 * 1e4 * (x i + x i ^ 2)
  objective _ _ := some 0
  rows _ := 0
  cols _ := 0
  values _ x := fun _ => 4 / 3 * 1e4 * (1 + 2 * x 0)
  jacobianProduct _ x p := fun i => 4 / 3 * 1e4 * (1 + 2 * x 0) * p i
  objMerit := false
  accel _ _ := false

/-- Its Jacobi preconditioner at the initial guess. -/
def heavyPrecond : Fin 1 → ℝ := diagonal .approximateJacobi (fun _ => 4e4) (fun _ => 0) (fun _ => 1)

theorem heavyPrecond_eq : heavyPrecond = fun _ => 1 / 200 := by
  funext i
  change invSqrt (4e4 + 0) = 1 / 200
  rw [show (4e4 : ℝ) + 0 = 200 ^ 2 by norm_num, invSqrt_sq _ (by norm_num)]

def heavyTol : Tol := ⟨30, 0⟩

/-- **C91 (violated, tolerance)** The tolerance for the residual is applied to the scaled residual: a solve
reports success with a residual a hundred times larger than the tolerance (the only one that is
set). -/
theorem residual_tolerance_violated :
    product heavy.rows heavy.cols (heavy.values [] fun _ => 1) (fun _ => 2 / 3) =
      heavy.residual [] (fun _ => 1) ∧
    ∃ r, solveWith residualConfig (scaled heavy heavyPrecond false heavyTol)
        (answers fun _ _ => 2 / 3) false true false fresh (fun _ => 1) = some r ∧
      r.status = .success ∧ 100 * heavyTol.r < |heavy.residual [] r.pt.x 0| := by
  constructor
  · funext i
    fin_cases i
    simp [product, heavy]
    norm_num
  rw [heavyPrecond_eq]
  have hr : ∀ t : ℝ, (scaled heavy (fun _ => 1 / 200) false heavyTol).residual [] (fun _ => t) =
      fun _ => 200 / 3 * (t + t ^ 2) := by
    intro t
    funext i
    simp only [scaled, heavy, rescale]
    ring
  have hm : ∀ t : ℝ, (scaled heavy (fun _ => 1 / 200) false heavyTol).merit [] (fun _ => t)
      (fun _ => 200 / 3 * (t + t ^ 2)) = some (0.5 * (200 / 3 * (t + t ^ 2)) ^ 2) := by
    intro t
    simp only [scaled, heavy, normSq, Finset.univ_unique, Finset.sum_singleton, Bool.false_eq_true,
      if_false, Option.some.injEq]
    ring
  have hg : initialGuess (scaled heavy (fun _ => 1 / 200) false heavyTol) [] 10
      (moveTo (scaled heavy (fun _ => 1 / 200) false heavyTol) [] (fun _ => 1)) =
      ⟨fun _ => 1, fun _ => 1, fun _ => 200 / 3 * (1 + 1 ^ 2)⟩ := by
    rw [initialGuess, moveTo, hr, hm]
    rfl
  unfold solveWith
  simp only [Bool.false_eq_true, if_false, not_true_eq_false, fresh, List.map_nil, hg, hm]
  rw [mainLoop]
  rw [if_neg (by simp [answers]), if_neg (by simp)]
  simp only [answers, not_true_eq_false, if_false, prepare]
  have hdir : direction residualConfig (scaled heavy (fun _ => 1 / 200) false heavyTol) []
      ⟨fun _ => 1, fun _ => 1, fun _ => 200 / 3 * (1 + 1 ^ 2)⟩ (-fun _ => 2 / 3) =
      (-(1 / 200 * (400 / 3) ^ 2), -fun _ => 2 / 3) := by
    have hsl : (scaled heavy (fun _ => 1 / 200) false heavyTol).slope [] (fun _ => 1)
        (fun _ => 200 / 3 * (1 + 1 ^ 2)) (-fun _ => 2 / 3) = -(1 / 200 * (400 / 3) ^ 2) := by
      simp [scaled, meritJacProd, heavy, directMatrix, product, rescale, rescaleValues]
      norm_num
    unfold direction
    rw [if_pos (by norm_num [residualConfig, defaultConfig])]
    simp only [hsl]
    rw [if_neg (by norm_num)]
  have hx : ((fun _ => 1) + -fun _ => 2 / 3 : Fin 1 → ℝ) = fun _ => 1 / 3 := by
    funext i
    norm_num
  have hls : ∀ tol, lineSearch residualConfig (scaled heavy (fun _ => 1 / 200) false heavyTol)
      [] (testAlpha residualConfig (scaled heavy (fun _ => 1 / 200) false heavyTol) tol
        (fun _ => 200 / 3 * (1 + 1 ^ 2)) (some (0.5 * (200 / 3 * (1 + 1 ^ 2)) ^ 2))
        (-(1 / 200 * (400 / 3) ^ 2))) 1 1
      (fun _ => 1) (-fun _ => 2 / 3) = some ⟨1, 1, ⟨fun _ => 1 / 3, fun _ => 1 / 3,
        fun _ => 200 / 3 * (1 / 3 + (1 / 3) ^ 2)⟩,
        some (0.5 * (200 / 3 * (1 / 3 + (1 / 3) ^ 2)) ^ 2), true, false⟩ := by
    intro tol
    unfold lineSearch
    simp only [hx, moveTo, hr, hm]
    rw [if_neg]
    · norm_num [residualConfig, defaultConfig]
    · push Not
      intro _
      simp only [testAlpha, residualConfig, defaultConfig, Bool.false_eq_true, if_false,
        Option.map_some, le']
      norm_num
  simp only [hdir, hls, Bool.false_eq_true, false_and, if_false]
  rw [if_pos]
  · refine ⟨_, rfl, rfl, ?_⟩
    change 100 * heavyTol.r < |heavy.residual [] (fun _ => 1 / 3) 0|
    norm_num [heavyTol, heavy, abs_of_pos]
  · refine ⟨?_, rfl⟩
    simp only [accept, scaled, decide_eq_true_eq]
    left
    norm_num [heavyTol, abs_of_pos]

/-- The hypotheses of `iterative_slope`, `direct_slope_partial` and `direct_slope_negative` are met by
`heavy` at its start. -/
example : heavy.objMerit = false ∧ (∀ i, 0 < heavyPrecond i) ∧
    heavy.residual [] (fun _ => 1) ≠ 0 ∧
    (∀ i, HasDerivAt (fun s : ℝ => heavy.residual [] ((fun _ => 1) + s • fun _ => 2 / 3) i)
      (heavy.jacobianProduct [] (fun _ => 1) (fun _ => 2 / 3) i) 0) ∧
    ∀ i, HasDerivAt (fun s : ℝ => heavy.residual [] ((fun _ => 1) + s • fun _ => 2 / 3) i)
      (product heavy.rows heavy.cols (heavy.values [] fun _ => 1) (fun _ => 2 / 3) i) 0 := by
  have hd : ∀ i, HasDerivAt (fun s : ℝ => heavy.residual [] ((fun _ => 1) + s • fun _ => 2 / 3) i)
      (heavy.jacobianProduct [] (fun _ => 1) (fun _ => 2 / 3) i) 0 := by
    intro i
    have h : HasDerivAt (fun s : ℝ => 1 + s * (2 / 3 : ℝ)) (2 / 3) 0 := by
      simpa using ((hasDerivAt_id (0 : ℝ)).mul_const (2 / 3 : ℝ)).const_add 1
    refine ((h.fun_add (h.fun_pow 2)).const_mul (4 / 3 * 1e4)).congr_deriv ?_
    norm_num [heavy]
  refine ⟨rfl, fun i => ?_, fun h => ?_, hd, fun i => (hd i).congr_deriv ?_⟩
  · rw [heavyPrecond_eq]
    norm_num
  · have := congrFun h 0
    norm_num [heavy] at this
  · fin_cases i
    norm_num [heavy, product]

/-- The hypotheses of `solve_invariant_partial` are met by `heavy` with a tolerance for the unknowns. -/
example : ∃ r r', solveWith { residualConfig with rho := 1 } (scaled heavy heavyPrecond false ⟨0, 1e-3⟩)
      (answers fun _ _ => 2 / 3) false true false fresh (fun _ => 1) = some r ∧
    solveWith { residualConfig with rho := 1 } (scaled heavy (fun _ => 1) false ⟨0, 1e-3⟩)
      (answers fun _ _ => 2 / 3) false true false fresh (fun _ => 1) = some r' ∧ Same r r' :=
  solve_invariant_partial heavy ⟨0, 1e-3⟩ le_rfl heavyPrecond (fun _ => 1)
    (fun i => by rw [heavyPrecond_eq]; norm_num) (fun _ => one_ne_zero) _ (lt_irrefl 1) rfl _ _ _ _ _ _

end Softy.Precond
