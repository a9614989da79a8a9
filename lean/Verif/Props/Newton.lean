import Verif.Model.Newton
import Mathlib.Analysis.Calculus.Deriv.Add
import Mathlib.Analysis.Calculus.Deriv.Mul
import Mathlib.Analysis.Calculus.Deriv.Pow

/-!
# C27, C28, C29, C57 — the Newton solver
-/

noncomputable section

open Classical

namespace Softy.Newton

variable {V : Type*} [AddCommGroup V] [Module ℝ V]

/-! ## Line search -/

/-- What the backtracking loop returns. `start` is the trial point it was called with and
`alpha₀` the step size that led there. -/
theorem backtrack_spec (cfg : Config) (P : Problem V) (eps : List ℝ)
    (test : V → Option ℝ → ℝ → Prop) (x₀ p : V) (alpha : ℝ) (count : ℕ) (pt : Point V)
    (ls : Search V) (h : backtrackLoop cfg P eps test x₀ p alpha count pt = some ls)
    (hpt : pt = moveTo P eps (x₀ + alpha • p)) :
    ls.searched = true ∧ ls.merit = P.merit eps ls.pt.at' ls.pt.r ∧
    (ls.passed = true → test ls.pt.r ls.merit ls.alpha ∧
      ls.pt = moveTo P eps (x₀ + ls.alpha • p)) ∧
    (ls.passed = false → ls.alpha < 1e-20 ∧ 2 < ls.count ∧ ∃ a, ls.alpha = a * cfg.rho ∧
      ls.pt = moveTo P eps (x₀ + a • p) ∧ ¬ test ls.pt.r ls.merit a) := by
  revert hpt
  refine backtrackLoop.partial_correctness cfg P eps test x₀ p
    (fun alpha _ pt ls => pt = moveTo P eps (x₀ + alpha • p) → ls.searched = true ∧
      ls.merit = P.merit eps ls.pt.at' ls.pt.r ∧
      (ls.passed = true → test ls.pt.r ls.merit ls.alpha ∧
        ls.pt = moveTo P eps (x₀ + ls.alpha • p)) ∧
      (ls.passed = false → ls.alpha < 1e-20 ∧ 2 < ls.count ∧ ∃ a, ls.alpha = a * cfg.rho ∧
        ls.pt = moveTo P eps (x₀ + a • p) ∧ ¬ test ls.pt.r ls.merit a))
    ?_ alpha count pt ls h
  intro rec ih alpha count pt ls h hpt
  simp only at h
  split_ifs at h with h1 h2
  · simp only [Option.some.injEq] at h
    subst h
    exact ⟨rfl, rfl, fun _ => ⟨h1, hpt⟩, fun h => by simp at h⟩
  · simp only [Option.some.injEq] at h
    subst h
    exact ⟨rfl, rfl, fun h => by simp at h, fun _ => ⟨h2.1, h2.2, alpha, rfl, hpt, h1⟩⟩
  · exact ih _ _ _ _ h rfl

/-- Step sizes stay in the unit interval. -/
theorem backtrack_alpha (cfg : Config) (P : Problem V) (eps : List ℝ) (hr0 : 0 ≤ cfg.rho)
    (hr1 : cfg.rho < 1)
    (test : V → Option ℝ → ℝ → Prop) (x₀ p : V) (alpha : ℝ) (count : ℕ) (pt : Point V)
    (ls : Search V) (h : backtrackLoop cfg P eps test x₀ p alpha count pt = some ls)
    (h0 : 0 ≤ alpha) (h1 : alpha ≤ 1) : 0 ≤ ls.alpha ∧ ls.alpha ≤ 1 := by
  revert h0 h1
  refine backtrackLoop.partial_correctness cfg P eps test x₀ p
    (fun alpha _ _ ls => 0 ≤ alpha → alpha ≤ 1 → 0 ≤ ls.alpha ∧ ls.alpha ≤ 1)
    ?_ alpha count pt ls h
  intro rec ih alpha count pt ls h h0 h1
  have h2 : 0 ≤ alpha * cfg.rho := mul_nonneg h0 hr0
  have h3 : alpha * cfg.rho ≤ 1 := by nlinarith
  simp only at h
  split_ifs at h
  · simp only [Option.some.injEq] at h
    subst h
    exact ⟨h0, h1⟩
  · simp only [Option.some.injEq] at h
    subst h
    exact ⟨h2, h3⟩
  · exact ih _ _ _ _ h h2 h3

/-- The backtracking loop terminates for every test. -/
theorem backtrack_terminates (cfg : Config) (P : Problem V) (eps : List ℝ) (hr0 : 0 ≤ cfg.rho)
    (hr1 : cfg.rho < 1) (test : V → Option ℝ → ℝ → Prop) (x₀ p : V) (alpha : ℝ) (count : ℕ)
    (pt : Point V) : ∃ ls, backtrackLoop cfg P eps test x₀ p alpha count pt = some ls := by
  have hn : ∃ n : ℕ, alpha * cfg.rho ^ n < 1e-20 := by
    by_cases ha : alpha ≤ 0
    · exact ⟨0, by simp only [pow_zero, mul_one]; linarith [show (0 : ℝ) < 1e-20 by norm_num]⟩
    · push Not at ha
      obtain ⟨n, hn⟩ := exists_pow_lt_of_lt_one (show (0 : ℝ) < 1e-20 / alpha by positivity) hr1
      refine ⟨n, ?_⟩
      rw [lt_div_iff₀ ha] at hn
      linarith
  obtain ⟨n, hn⟩ := hn
  induction hm : n + (3 - count) using Nat.strong_induction_on generalizing n alpha count pt with
  | _ m ih =>
    rw [backtrackLoop]
    simp only
    split_ifs with h1 h2
    · exact ⟨_, rfl⟩
    · exact ⟨_, rfl⟩
    · cases n with
      | zero =>
        simp only [pow_zero, mul_one] at hn
        have h3 : alpha * cfg.rho < 1e-20 := by
          rcases le_or_gt alpha 0 with ha | ha
          · have : alpha * cfg.rho ≤ 0 := mul_nonpos_of_nonpos_of_nonneg ha hr0
            linarith [show (0 : ℝ) < 1e-20 by norm_num]
          · nlinarith
        have h4 : ¬ count > 2 := fun h => h2 ⟨h3, h⟩
        exact ih (0 + (3 - (count + 1))) (by omega) _ _ _ 0 (by simpa using h3) rfl
      | succ n =>
        exact ih (n + (3 - (count + 1))) (by omega) _ _ _ n
          (by rw [mul_assoc, ← pow_succ']; exact hn) rfl

theorem lineSearch_terminates (cfg : Config) (P : Problem V) (eps : List ℝ) (hr0 : 0 ≤ cfg.rho)
    (test : V → Option ℝ → ℝ → Prop) (ca fa : ℝ) (x₀ p : V) :
    ∃ ls, lineSearch cfg P eps test ca fa x₀ p = some ls := by
  unfold lineSearch
  simp only
  split_ifs with h
  · exact backtrack_terminates cfg P eps hr0 h.1 _ _ _ _ _ _
  · exact backtrack_terminates cfg P eps hr0 h.1 _ _ _ _ _ _
  · exact ⟨_, rfl⟩

/-- What the line search returns. -/
theorem lineSearch_spec (cfg : Config) (P : Problem V) (eps : List ℝ)
    (test : V → Option ℝ → ℝ → Prop) (ca fa : ℝ) (x₀ p : V) (ls : Search V)
    (h : lineSearch cfg P eps test ca fa x₀ p = some ls) :
    ls.merit = P.merit eps ls.pt.at' ls.pt.r ∧ (∃ a : ℝ, ls.pt = moveTo P eps (x₀ + a • p)) ∧
    (ls.passed = true → cfg.rho < 1 ∧ test ls.pt.r ls.merit ls.alpha ∧
      ls.pt = moveTo P eps (x₀ + ls.alpha • p)) ∧
    (ls.passed = false → cfg.rho < 1 → ls.searched = true ∧ ls.alpha < 1e-20 ∧ 2 < ls.count ∧
      ∃ a, ls.alpha = a * cfg.rho ∧ ls.pt = moveTo P eps (x₀ + a • p) ∧
        ¬ test ls.pt.r ls.merit a) := by
  unfold lineSearch at h
  simp only at h
  by_cases hc : cfg.rho < 1 ∧ ¬ test (moveTo P eps (x₀ + p)).r
      (P.merit eps (moveTo P eps (x₀ + p)).at' (moveTo P eps (x₀ + p)).r) 1
  · rw [if_pos hc] at h
    have hpt : (if cfg.assisted = true then moveTo P eps (x₀ + startAlpha cfg ca fa • p)
        else moveTo P eps (x₀ + p)) = moveTo P eps (x₀ + startAlpha cfg ca fa • p) := by
      by_cases ha : cfg.assisted = true
      · rw [if_pos ha]
      · rw [if_neg ha, startAlpha, if_neg ha, one_smul]
    obtain ⟨h1, h2, h3, h4⟩ := backtrack_spec _ _ _ _ _ _ _ _ _ _ h hpt
    refine ⟨h2, ?_, fun hp => ⟨hc.1, h3 hp⟩, fun hp _ => ⟨h1, h4 hp⟩⟩
    cases hp : ls.passed with
    | true => exact ⟨_, (h3 hp).2⟩
    | false =>
      obtain ⟨-, -, a, -, ha, -⟩ := h4 hp
      exact ⟨a, ha⟩
  · rw [if_neg hc] at h
    simp only [Option.some.injEq] at h
    subst h
    refine ⟨rfl, ⟨1, by rw [one_smul]⟩, ?_, ?_⟩
    · intro hp
      have hp : cfg.rho < 1 := by simpa using hp
      refine ⟨hp, ?_, by rw [one_smul]⟩
      by_contra hn
      exact hc ⟨hp, hn⟩
    · intro hp hr
      simp [hr] at hp

theorem lineSearch_alpha (cfg : Config) (P : Problem V) (eps : List ℝ) (hr0 : 0 ≤ cfg.rho)
    (test : V → Option ℝ → ℝ → Prop) (ca fa : ℝ) (hca : 0 ≤ ca) (hfa : 0 ≤ fa) (x₀ p : V)
    (ls : Search V) (h : lineSearch cfg P eps test ca fa x₀ p = some ls) :
    0 ≤ ls.alpha ∧ ls.alpha ≤ 1 := by
  unfold lineSearch at h
  simp only at h
  by_cases hc : cfg.rho < 1 ∧ ¬ test (moveTo P eps (x₀ + p)).r
      (P.merit eps (moveTo P eps (x₀ + p)).at' (moveTo P eps (x₀ + p)).r) 1
  · rw [if_pos hc] at h
    have hs : 0 ≤ startAlpha cfg ca fa ∧ startAlpha cfg ca fa ≤ 1 := by
      unfold startAlpha
      simp only
      split_ifs
      all_goals constructor <;> linarith [hc.1]
    exact backtrack_alpha cfg P eps hr0 hc.1 _ _ _ _ _ _ _ h hs.1 hs.2
  · rw [if_neg hc] at h
    simp only [Option.some.injEq] at h
    subst h
    norm_num

/-- **C28** (partial: with a direct solver, for a direction that did not have to be reversed) A
step accepted by the line search satisfies the Armijo condition with the slope of the merit
function in the direction of the step; in particular the merit does not increase. -/
theorem search_armijo_partial (cfg : Config) (hdir : cfg.iterative = false) (hc : 0 ≤ cfg.c)
    (hr0 : 0 ≤ cfg.rho) (P : Problem V) (eps : List ℝ) (tol ca fa m : ℝ) (hca : 0 ≤ ca)
    (hfa : 0 ≤ fa) (x p : V) (hslope : P.slope eps x (P.residual eps x) p ≤ 0)
    (ls : Search V)
    (h : lineSearch cfg P eps (testAlpha cfg P tol (P.residual eps x) (some m)
      (direction cfg P eps (moveTo P eps x) p).1) ca fa x
      (direction cfg P eps (moveTo P eps x) p).2 = some ls) (hp : ls.passed = true) :
    ls.pt.x = x + ls.alpha • p ∧
    ∃ m', P.merit eps ls.pt.x (P.residual eps ls.pt.x) = some m' ∧
      m' ≤ m + cfg.c * ls.alpha * P.slope eps x (P.residual eps x) p ∧ m' ≤ m := by
  obtain ⟨h1, -, h3, -⟩ := lineSearch_spec _ _ _ _ _ _ _ _ _ h
  obtain ⟨hr, ht, hpt⟩ := h3 hp
  obtain ⟨ha0, ha1⟩ := lineSearch_alpha _ _ _ hr0 _ _ _ hca hfa _ _ _ h
  have hd : direction cfg P eps (moveTo P eps x) p = (P.slope eps x (P.residual eps x) p, p) := by
    unfold direction moveTo
    simp only [hr, if_true]
    rw [if_neg (not_lt.2 hslope)]
  rw [hd] at ht hpt
  unfold testAlpha at ht
  simp only [hdir, Bool.false_eq_true, if_false, Option.map_some] at ht
  have hm : ls.merit = P.merit eps ls.pt.x (P.residual eps ls.pt.x) := by
    rw [h1, hpt]
    rfl
  rw [hm] at ht
  refine ⟨by rw [hpt]; rfl, ?_⟩
  cases hv : P.merit eps ls.pt.x (P.residual eps ls.pt.x) with
  | none => rw [hv] at ht; exact absurd ht (by simp [le'])
  | some m' =>
    rw [hv] at ht
    have ht : m' ≤ m + cfg.c * ls.alpha * P.slope eps x (P.residual eps x) p := ht
    refine ⟨m', rfl, ht, ht.trans ?_⟩
    have : cfg.c * ls.alpha * P.slope eps x (P.residual eps x) p ≤ 0 :=
      mul_nonpos_of_nonneg_of_nonpos (mul_nonneg hc ha0) hslope
    linarith

/-- **C28** (inexact Newton) With an iterative solver, the merit after an accepted step is at most
`(1 - c α (1 - tol))²` times the one before, where `tol` is the tolerance of the linear solve; in
particular a non-negative merit does not increase. The merit is the squared residual if the
objective is used for the line search and the merit function itself otherwise. -/
theorem search_inexact (cfg : Config) (hit : cfg.iterative = true) (hc0 : 0 ≤ cfg.c)
    (hc1 : cfg.c ≤ 1) (hr0 : 0 ≤ cfg.rho) (P : Problem V) (eps : List ℝ) (tol ca fa g : ℝ)
    (ht0 : 0 ≤ tol) (ht1 : tol ≤ 1) (hca : 0 ≤ ca) (hfa : 0 ≤ fa) (x p : V) (slope : ℝ)
    (hg : (if cfg.objMerit then P.normSq (P.residual eps x)
      else P.merit eps x (P.residual eps x)) = some g) (hg0 : 0 ≤ g) (ls : Search V)
    (h : lineSearch cfg P eps (testAlpha cfg P tol (P.residual eps x)
      (P.merit eps x (P.residual eps x)) slope) ca fa x p = some ls) (hp : ls.passed = true) :
    ls.pt.x = x + ls.alpha • p ∧
    ∃ g', (if cfg.objMerit then P.normSq (P.residual eps ls.pt.x)
        else P.merit eps ls.pt.x (P.residual eps ls.pt.x)) = some g' ∧
      g' ≤ g * (1 - cfg.c * ls.alpha * (1 - tol)) ^ 2 ∧ g' ≤ g := by
  obtain ⟨h1, -, h3, -⟩ := lineSearch_spec _ _ _ _ _ _ _ _ _ h
  obtain ⟨hr, ht, hpt⟩ := h3 hp
  obtain ⟨ha0, ha1⟩ := lineSearch_alpha _ _ _ hr0 _ _ _ hca hfa _ _ _ h
  refine ⟨by rw [hpt]; rfl, ?_⟩
  have hr' : ls.pt.r = P.residual eps ls.pt.x := by rw [hpt]; rfl
  have hm : ls.merit = P.merit eps ls.pt.x (P.residual eps ls.pt.x) := by
    rw [h1, hpt]
    rfl
  unfold testAlpha at ht
  simp only [hit, if_true] at ht
  rw [hr', hm, hg, Option.map_some] at ht
  cases hv : (if cfg.objMerit then P.normSq (P.residual eps ls.pt.x)
        else P.merit eps ls.pt.x (P.residual eps ls.pt.x)) with
  | none => rw [hv] at ht; exact absurd ht (by simp [le'])
  | some g' =>
    rw [hv] at ht
    have ht : g' ≤ g * (1 - cfg.c * ls.alpha * (1 - tol)) * (1 - cfg.c * ls.alpha * (1 - tol)) := ht
    refine ⟨g', rfl, by nlinarith, ht.trans ?_⟩
    have f0 : 0 ≤ cfg.c * ls.alpha * (1 - tol) :=
      mul_nonneg (mul_nonneg hc0 ha0) (by linarith)
    have f1 : cfg.c * ls.alpha * (1 - tol) ≤ 1 := by
      have : cfg.c * ls.alpha ≤ 1 := by nlinarith
      nlinarith [mul_nonneg hc0 ha0]
    have f2 : (1 - cfg.c * ls.alpha * (1 - tol)) * (1 - cfg.c * ls.alpha * (1 - tol)) ≤ 1 := by
      nlinarith
    nlinarith [mul_nonneg hg0 (sub_nonneg.2 f2)]

/-- The default parameters of a direct solve (`newton.rs:2297-2299`). -/
def defaultConfig : Config :=
  { maxIter := 50, rho := 0.9, c := 1e-4, adaptive := false, iterative := false,
    assisted := false, contactOnly := false, objMerit := true, outDir := false }

/-- One unknown with a smooth, strongly convex objective `x + (1 + 1e-5) x²`. -/
def quadratic : Problem ℝ where
  residual _ x := 1 + 2 * (1 + 1e-5) * x
  merit _ x _ := some (x + (1 + 1e-5) * x ^ 2)
  normSq r := some (r ^ 2)
  slope _ _ r p := r * p
  converged _ _ r := decide (|r| < 1e-3)

/-- **C28 (violated)** If the direction from the linear solver is an ascent direction it is
reversed, but the Armijo test goes on with the positive slope of the direction before the
reversal: the accepted step increases the objective. The slope used here is the derivative of
the objective. -/
theorem reversed_search_violated :
    (∀ x p, HasDerivAt (fun t : ℝ => (x + t * p) + (1 + 1e-5) * (x + t * p) ^ 2)
      (quadratic.slope [] x (quadratic.residual [] x) p) 0) ∧
    ∃ ls m m', lineSearch defaultConfig quadratic []
      (testAlpha defaultConfig quadratic 0 (quadratic.residual [] 0) (quadratic.merit [] 0 1)
        (direction defaultConfig quadratic [] (moveTo quadratic [] 0) 1).1) 1 1 0
      (direction defaultConfig quadratic [] (moveTo quadratic [] 0) 1).2 = some ls ∧
      ls.passed = true ∧ quadratic.merit [] 0 1 = some m ∧
      quadratic.merit [] ls.pt.x ls.pt.r = some m' ∧ m < m' := by
  refine ⟨?_, ?_⟩
  · intro x p
    have h1 : HasDerivAt (fun t : ℝ => x + t * p) p 0 := by
      simpa using ((hasDerivAt_id (0 : ℝ)).mul_const p).const_add x
    refine ((h1.fun_add ((h1.fun_pow 2).const_mul (1 + 1e-5))).congr_deriv ?_)
    simp only [quadratic]
    ring
  · have hd : direction defaultConfig quadratic [] (moveTo quadratic [] 0) 1 = (1, -1) := by
      norm_num [direction, defaultConfig, quadratic, moveTo]
    rw [hd]
    refine ⟨⟨1, 1, moveTo quadratic [] (-1), some 1e-5, true, false⟩, 0, 1e-5, ?_, rfl, ?_, ?_, ?_⟩
    · unfold lineSearch
      simp only
      rw [if_neg]
      · norm_num [moveTo, quadratic, defaultConfig]
      · push Not
        intro _
        norm_num [testAlpha, defaultConfig, quadratic, moveTo, le']
    · norm_num [quadratic]
    · norm_num [quadratic, moveTo]
    · norm_num

/-- After a failed search with the default step factor from a full step, more than eighty
halvings have been tried. -/
theorem backtrack_count (cfg : Config) (P : Problem V) (eps : List ℝ)
    (test : V → Option ℝ → ℝ → Prop) (x₀ p : V) (alpha : ℝ) (count : ℕ) (pt : Point V)
    (ls : Search V) (h : backtrackLoop cfg P eps test x₀ p alpha count pt = some ls)
    (ha : alpha * cfg.rho = cfg.rho ^ count) (hp : ls.passed = false) :
    ls.alpha = cfg.rho ^ ls.count := by
  revert ha hp
  refine backtrackLoop.partial_correctness cfg P eps test x₀ p
    (fun alpha count _ ls => alpha * cfg.rho = cfg.rho ^ count → ls.passed = false →
      ls.alpha = cfg.rho ^ ls.count) ?_ alpha count pt ls h
  intro rec ih alpha count pt ls h ha hp
  simp only at h
  split_ifs at h
  · simp only [Option.some.injEq] at h
    subst h
    simp at hp
  · simp only [Option.some.injEq] at h
    subst h
    exact ha
  · exact ih _ _ _ _ h (by rw [ha, pow_succ]) hp

/-- **C28 (failed searches)** With the default parameters every line search that fails runs into
the debugging block that writes to `./out`, so it panics if that directory is not there. -/
theorem failed_search_dumps (cfg : Config) (hrho : cfg.rho = 0.9) (ha : cfg.assisted = false)
    (P : Problem V) (eps : List ℝ) (test : V → Option ℝ → ℝ → Prop) (ca fa : ℝ) (x₀ p : V)
    (ls : Search V) (h : lineSearch cfg P eps test ca fa x₀ p = some ls)
    (hp : ls.passed = false) : ls.searched = true ∧ ls.alpha < 1e-20 ∧ ls.count > 80 := by
  obtain ⟨-, -, -, h4⟩ := lineSearch_spec _ _ _ _ _ _ _ _ _ h
  obtain ⟨h5, h6, -, -⟩ := h4 hp (by rw [hrho]; norm_num)
  refine ⟨h5, h6, ?_⟩
  unfold lineSearch at h
  simp only at h
  split_ifs at h with hc
  · simp [ha] at *
  · have hcount : ls.alpha = cfg.rho ^ ls.count := by
      refine backtrack_count _ _ _ _ _ _ _ _ _ _ h ?_ hp
      simp [startAlpha, ha]
    rw [hcount, hrho] at h6
    by_contra hle
    push Not at hle
    have : (0.9 : ℝ) ^ 80 ≤ 0.9 ^ ls.count :=
      pow_le_pow_of_le_one (by norm_num) (by norm_num) hle
    have h9 : (1e-20 : ℝ) < 0.9 ^ 80 := by norm_num
    linarith
  · simp only [Option.some.injEq] at h
    subst h
    simp [hrho] at hp
    norm_num at hp

/-! ## The main loop -/

/-- `ls` is the result of the line search of the iteration that starts in `s` with the
direction `p` from the linear solve. -/
def IsSearch (cfg : Config) (P : Problem V) (o : Oracle V) (origTol : ℝ) (s : Iter V)
    (ls : Search V) (p : V) : Prop :=
  (∃ q, o.linear s.iterations = .solution true q ∧ p = -q) ∧
  lineSearch cfg P s.eps (testAlpha cfg P (prepare cfg origTol s).tol s.pt.r s.meritCur
    (direction cfg P s.eps s.pt p).1) (o.contactAlpha s.iterations)
    (o.frictionAlpha s.iterations) s.pt.x (direction cfg P s.eps s.pt p).2 = some ls

/-- Induction over the iterations of the main loop. -/
theorem mainLoop_ind (cfg : Config) (P : Problem V) (o : Oracle V) (orig : List ℝ)
    (origTol : ℝ) (prevCount : ℕ) (motive : Iter V → Result V → Prop)
    (hint : ∀ s, motive s (finish cfg origTol .interrupted s))
    (hdiv : ∀ s, s.meritCur = none → motive s (finish cfg origTol .diverged s))
    (hbreak : ∀ s st, st = .linearSolveError ∨ st = .stepTooLarge →
      motive s (finish cfg origTol st (prepare cfg origTol s)))
    (habort : ∀ s st, st = .failedJacobianCheck ∨ st = .panicked →
      motive s (abort prevCount st (prepare cfg origTol s)))
    (hsucc : ∀ s ls p, IsSearch cfg P o origTol s ls p → P.converged s.pt.x ls.pt.x ls.pt.r = true →
      s.eps = orig →
      motive s (finish cfg origTol .success (accept cfg (prepare cfg origTol s) p ls)))
    (hmax : ∀ s ls p, IsSearch cfg P o origTol s ls p → cfg.maxIter ≤ s.iterations + 1 →
      motive s (finish cfg origTol .maximumIterationsExceeded
        (accept cfg (prepare cfg origTol s) p ls)))
    (hnext : ∀ s ls p r, IsSearch cfg P o origTol s ls p → s.iterations + 1 < cfg.maxIter →
      motive (nextIter cfg P orig prevCount ls.merit (accept cfg (prepare cfg origTol s) p ls)) r →
      motive s r) :
    ∀ s r, mainLoop cfg P o orig origTol prevCount s = some r → motive s r := by
  intro s
  induction hn : cfg.maxIter - s.iterations using Nat.strong_induction_on generalizing s with
  | _ n ih =>
    intro r h
    rw [mainLoop] at h
    split_ifs at h with h1 h2
    · simp only [Option.some.injEq] at h
      exact h ▸ hint s
    · simp only [Option.some.injEq] at h
      exact h ▸ hdiv s h2
    · cases hl : o.linear s.iterations with
      | error =>
        simp only [hl, Option.some.injEq] at h
        exact h ▸ hbreak s _ (Or.inl rfl)
      | checkFailed =>
        simp only [hl, Option.some.injEq] at h
        exact h ▸ habort s _ (Or.inl rfl)
      | solution finite p =>
        simp only [hl] at h
        by_cases hf : ¬ finite = true
        · rw [if_pos hf] at h
          simp only [Option.some.injEq] at h
          exact h ▸ hbreak s _ (Or.inr rfl)
        · rw [if_neg hf] at h
          cases hs : lineSearch cfg P (prepare cfg origTol s).eps
              (testAlpha cfg P (prepare cfg origTol s).tol (prepare cfg origTol s).pt.r
                (prepare cfg origTol s).meritCur
                (direction cfg P (prepare cfg origTol s).eps (prepare cfg origTol s).pt (-p)).1)
              (o.contactAlpha s.iterations) (o.frictionAlpha s.iterations)
              (prepare cfg origTol s).pt.x
              (direction cfg P (prepare cfg origTol s).eps (prepare cfg origTol s).pt (-p)).2 with
          | none => simp [hs] at h
          | some ls =>
            have hls : IsSearch cfg P o origTol s ls (-p) := by
              refine ⟨⟨p, ?_, rfl⟩, hs⟩
              rw [hl]
              congr 1
              simpa using hf
            simp only [hs] at h
            split_ifs at h with c1 c2 c3
            · simp only [Option.some.injEq] at h
              exact h ▸ habort s _ (Or.inr rfl)
            · simp only [Option.some.injEq] at h
              exact h ▸ hsucc s ls _ hls c2.1 c2.2
            · simp only [Option.some.injEq] at h
              exact h ▸ hmax s ls _ hls c3
            · have c3' : ¬ s.iterations + 1 ≥ cfg.maxIter := c3
              refine hnext s ls _ r hls (by omega) (ih _ ?_ _ rfl r h)
              rw [nextIter_iterations]
              have : (accept cfg (prepare cfg origTol s) (-p) ls).iterations = s.iterations + 1 := rfl
              omega

theorem mainLoop_terminates (cfg : Config) (hr0 : 0 ≤ cfg.rho) (P : Problem V) (o : Oracle V)
    (orig : List ℝ) (origTol : ℝ) (prevCount : ℕ) (s : Iter V) :
    ∃ r, mainLoop cfg P o orig origTol prevCount s = some r := by
  induction hn : cfg.maxIter - s.iterations using Nat.strong_induction_on generalizing s with
  | _ n ih =>
    rw [mainLoop]
    split_ifs with h1 h2
    · exact ⟨_, rfl⟩
    · exact ⟨_, rfl⟩
    · cases hl : o.linear s.iterations with
      | error => exact ⟨_, rfl⟩
      | checkFailed => exact ⟨_, rfl⟩
      | solution finite p =>
        simp only
        by_cases hf : ¬ finite = true
        · rw [if_pos hf]
          exact ⟨_, rfl⟩
        · rw [if_neg hf]
          obtain ⟨ls, hls⟩ := lineSearch_terminates cfg P (prepare cfg origTol s).eps hr0
              (testAlpha cfg P (prepare cfg origTol s).tol (prepare cfg origTol s).pt.r
                (prepare cfg origTol s).meritCur
                (direction cfg P (prepare cfg origTol s).eps (prepare cfg origTol s).pt (-p)).1)
              (o.contactAlpha s.iterations) (o.frictionAlpha s.iterations)
              (prepare cfg origTol s).pt.x
              (direction cfg P (prepare cfg origTol s).eps (prepare cfg origTol s).pt (-p)).2
          simp only [hls]
          split_ifs with c1 c2 c3
          · exact ⟨_, rfl⟩
          · exact ⟨_, rfl⟩
          · exact ⟨_, rfl⟩
          · refine ih _ ?_ _ rfl
            rw [nextIter_iterations]
            have e : (accept cfg (prepare cfg origTol s) (-p) ls).iterations = s.iterations + 1 := rfl
            omega

/-- The problem state corresponds to the iterate. -/
def AtX (pt : Point V) : Prop := pt.at' = pt.x

omit [AddCommGroup V] [Module ℝ V] in
theorem nextIter_pt (cfg : Config) (P : Problem V) (orig : List ℝ) (prevCount : ℕ)
    (m : Option ℝ) (s : Iter V) :
    (nextIter cfg P orig prevCount m s).pt.x = s.pt.x ∧
    (nextIter cfg P orig prevCount m s).pt.at' = s.pt.at' ∧
    (nextIter cfg P orig prevCount m s).tol = s.tol ∧
    (nextIter cfg P orig prevCount m s).tols = s.tols ∧
    (nextIter cfg P orig prevCount m s).epsilons = s.epsilons ∧
    (nextIter cfg P orig prevCount m s).eps =
      if cfg.adaptive then List.zipWith (reduceEps prevCount m s.meritCur) orig s.eps
      else s.eps := by
  unfold nextIter
  simp only
  by_cases h : cfg.adaptive
  · simp only [h, if_true]
    generalize List.any _ _ = b
    cases b <;> exact ⟨rfl, rfl, rfl, rfl, rfl, rfl⟩
  · simp [h]

theorem search_atX {cfg : Config} {P : Problem V} {o : Oracle V} {origTol : ℝ} {s : Iter V}
    {ls : Search V} {p : V} (h : IsSearch cfg P o origTol s ls p) :
    AtX ls.pt ∧ ls.pt.r = P.residual s.eps ls.pt.x := by
  obtain ⟨-, ⟨a, ha⟩, -, -⟩ := lineSearch_spec _ _ _ _ _ _ _ _ _ h.2
  rw [ha]
  exact ⟨rfl, rfl⟩

theorem mainLoop_atX (cfg : Config) (P : Problem V) (o : Oracle V) (orig : List ℝ)
    (origTol : ℝ) (prevCount : ℕ) :
    ∀ s r, mainLoop cfg P o orig origTol prevCount s = some r → AtX s.pt → AtX r.pt := by
  refine mainLoop_ind cfg P o orig origTol prevCount (fun s r => AtX s.pt → AtX r.pt)
    (fun s h => h) (fun s _ h => h) (fun s st _ h => h) (fun s st _ h => h) ?_ ?_ ?_
  · intro s ls p hs _ _ _
    exact (search_atX hs).1
  · intro s ls p hs _ _
    exact (search_atX hs).1
  · intro s ls p r hs _ ih _
    refine ih ?_
    obtain ⟨h1, h2, -⟩ := nextIter_pt cfg P orig prevCount ls.merit
      (accept cfg (prepare cfg origTol s) p ls)
    unfold AtX
    rw [h1, h2]
    exact (search_atX hs).1

theorem initialGuess_atX (P : Problem V) (eps : List ℝ) (k : ℕ) (pt : Point V) (h : AtX pt) :
    AtX (initialGuess P eps k pt) := by
  induction k generalizing pt with
  | zero => exact h
  | succ k ih =>
    simp only [initialGuess]
    generalize (if k = 0 then (0 : V) else (0.5 : ℝ) • pt.x) = y
    split_ifs
    · exact h
    · exact ih _ rfl

/-- Cases of a solve. -/
theorem solveWith_cases (cfg : Config) (P : Problem V) (o : Oracle V) (empty jacOk noJac : Bool)
    (sv : Solver) (x : V) (r : Result V)
    (h : solveWith cfg P o empty jacOk noJac sv x = some r) :
    ((∃ eps pt, r = ⟨.nothingToSolve, 0, pt, eps, sv.tol, sv.prevCount, [], [], []⟩ ∧ AtX pt ∧
        (eps = sv.eps ∨ eps = sv.eps.map (initEps cfg sv.prevCount))) ∨
      (∃ pt, r = ⟨.failedToInitializeJacobian, 0, pt, sv.eps.map (initEps cfg sv.prevCount),
        sv.tol, sv.prevCount, [], [], []⟩ ∧ AtX pt)) ∨
    ∃ s : Iter V, mainLoop cfg P o sv.eps sv.tol sv.prevCount s = some r ∧ s.iterations = 0 ∧
      s.eps = sv.eps.map (initEps cfg sv.prevCount) ∧ s.tol = sv.tol ∧ s.tols = [] ∧
      s.epsilons = [] ∧ AtX s.pt ∧ s.log = [] ∧
      s.pt = initialGuess P s.eps 10 (moveTo P s.eps x) ∧
      s.meritCur = P.merit s.eps s.pt.at' s.pt.r := by
  unfold solveWith at h
  simp only at h
  split_ifs at h with h1 h2 h3
  · simp only [Option.some.injEq] at h
    exact Or.inl (Or.inl ⟨_, _, h.symm, rfl, Or.inl rfl⟩)
  · simp only [Option.some.injEq] at h
    exact Or.inl (Or.inl ⟨_, _, h.symm,
      initialGuess_atX P _ 10 (moveTo P (sv.eps.map (initEps cfg sv.prevCount)) x) rfl,
      Or.inr rfl⟩)
  · exact Or.inr ⟨_, h, rfl, rfl, rfl, rfl, rfl,
      initialGuess_atX P _ 10 (moveTo P (sv.eps.map (initEps cfg sv.prevCount)) x) rfl, rfl, rfl, rfl⟩
  · simp only [Option.some.injEq] at h
    exact Or.inl (Or.inr ⟨_, h.symm, rfl⟩)

/-- **C27** (partial: at least one iteration is done even if none is allowed) A solve
terminates, whatever the residuals, linear solves, callbacks and assists do, and takes at most
`max_iter` iterations, or one if `max_iter` is zero. -/
theorem solve_stops_partial (cfg : Config) (hr0 : 0 ≤ cfg.rho) (P : Problem V) (o : Oracle V)
    (empty jacOk noJac : Bool) (sv : Solver) (x : V) :
    ∃ r, solveWith cfg P o empty jacOk noJac sv x = some r ∧
      r.iterations ≤ max 1 cfg.maxIter := by
  have hex : ∃ r, solveWith cfg P o empty jacOk noJac sv x = some r := by
    unfold solveWith
    simp only
    split_ifs
    · exact ⟨_, rfl⟩
    · exact ⟨_, rfl⟩
    · exact mainLoop_terminates cfg hr0 P o _ _ _ _
    · exact ⟨_, rfl⟩
  obtain ⟨r, hr⟩ := hex
  refine ⟨r, hr, ?_⟩
  rcases solveWith_cases _ _ _ _ _ _ _ _ _ hr with (⟨_, _, rfl, _⟩ | ⟨_, rfl, _⟩) | ⟨s, hs, h0, _⟩
  · simp
  · simp
  · have key := mainLoop_ind cfg P o sv.eps sv.tol sv.prevCount
      (fun s r => s.iterations + 1 ≤ max 1 cfg.maxIter → r.iterations ≤ max 1 cfg.maxIter)
      (fun s h => by simp only [finish]; omega) (fun s _ h => by simp only [finish]; omega)
      (fun s st _ h => by simp only [finish, prepare]; omega)
      (fun s st _ h => by simp only [abort, prepare]; omega)
      (fun s ls p _ _ _ h => h) (fun s ls p _ _ h => h)
      (fun s ls p r _ hlt ih h => ih (by
        rw [nextIter_iterations]
        change s.iterations + 1 + 1 ≤ _
        omega)) s r hs
    exact key (by omega)

/-- **C27** Success is reported only if the convergence test passed at the returned iterate,
with the residual of that iterate, the problem's state being that of the iterate and all
smoothing epsilons being the original ones. -/
theorem solve_success (cfg : Config) (P : Problem V) (o : Oracle V) (empty jacOk noJac : Bool)
    (sv : Solver) (x : V) (r : Result V)
    (h : solveWith cfg P o empty jacOk noJac sv x = some r) (hs : r.status = .success) :
    1 ≤ r.iterations ∧ r.eps = sv.eps ∧ r.pt.at' = r.pt.x ∧
      ∃ xPrev, P.converged xPrev r.pt.x (P.residual sv.eps r.pt.x) = true := by
  rcases solveWith_cases _ _ _ _ _ _ _ _ _ h with (⟨_, _, rfl, _⟩ | ⟨_, rfl, _⟩) | ⟨s, hm, _⟩
  · simp at hs
  · simp at hs
  · revert hs
    refine mainLoop_ind cfg P o sv.eps sv.tol sv.prevCount
      (fun _ r => r.status = .success → 1 ≤ r.iterations ∧ r.eps = sv.eps ∧ r.pt.at' = r.pt.x ∧
        ∃ xPrev, P.converged xPrev r.pt.x (P.residual sv.eps r.pt.x) = true)
      ?_ ?_ ?_ ?_ ?_ ?_ (fun _ _ _ _ _ _ ih => ih) s r hm
    · intro s hs; simp [finish] at hs
    · intro s _ hs; simp [finish] at hs
    · rintro s st (rfl | rfl) hs <;> simp [finish] at hs
    · rintro s st (rfl | rfl) hs <;> simp [abort] at hs
    · intro s ls p hls hc he _
      obtain ⟨h1, h2⟩ := search_atX hls
      refine ⟨Nat.le_add_left _ _, he, h1, s.pt.x, ?_⟩
      rw [← he]
      change P.converged s.pt.x ls.pt.x (P.residual s.eps ls.pt.x) = true
      rw [← h2]
      exact hc
    · intro s ls _ _ _ hs; simp [finish] at hs

/-- **C27** The iteration limit is reported as the reason only if it was reached. -/
theorem solve_exceeded (cfg : Config) (P : Problem V) (o : Oracle V) (empty jacOk noJac : Bool)
    (sv : Solver) (x : V) (r : Result V)
    (h : solveWith cfg P o empty jacOk noJac sv x = some r)
    (hs : r.status = .maximumIterationsExceeded) : cfg.maxIter ≤ r.iterations := by
  rcases solveWith_cases _ _ _ _ _ _ _ _ _ h with (⟨_, _, rfl, _⟩ | ⟨_, rfl, _⟩) | ⟨s, hm, _⟩
  · simp at hs
  · simp at hs
  · revert hs
    refine mainLoop_ind cfg P o sv.eps sv.tol sv.prevCount
      (fun _ r => r.status = .maximumIterationsExceeded → cfg.maxIter ≤ r.iterations)
      ?_ ?_ ?_ ?_ ?_ ?_ (fun _ _ _ _ _ _ ih => ih) s r hm
    · intro s hs; simp [finish] at hs
    · intro s _ hs; simp [finish] at hs
    · rintro s st (rfl | rfl) hs <;> simp [finish] at hs
    · rintro s st (rfl | rfl) hs <;> simp [abort] at hs
    · intro s ls _ _ _ _ hs; simp [finish] at hs
    · intro s ls _ _ hle _
      exact hle

/-- **C27** Whatever the status, the problem is left in the state of the returned iterate, so
that contacts and violations are evaluated there. -/
theorem solve_state (cfg : Config) (P : Problem V) (o : Oracle V) (empty jacOk noJac : Bool)
    (sv : Solver) (x : V) (r : Result V)
    (h : solveWith cfg P o empty jacOk noJac sv x = some r) : r.pt.at' = r.pt.x := by
  rcases solveWith_cases _ _ _ _ _ _ _ _ _ h with (⟨_, _, rfl, ha, _⟩ | ⟨_, rfl, ha⟩) |
    ⟨s, hm, _, _, _, _, _, ha, _⟩
  · exact ha
  · exact ha
  · exact mainLoop_atX _ _ _ _ _ _ s r hm ha

/-- The initial guess is the given one scaled by a power of one half, or zero. -/
theorem initialGuess_spec (P : Problem V) (eps : List ℝ) (k : ℕ) (x : V) :
    (∃ j < k, initialGuess P eps k (moveTo P eps x) = moveTo P eps ((0.5 : ℝ) ^ j • x) ∧
      (P.merit eps ((0.5 : ℝ) ^ j • x) (P.residual eps ((0.5 : ℝ) ^ j • x))).isSome) ∨
    initialGuess P eps k (moveTo P eps x) = moveTo P eps (if k = 0 then x else 0) := by
  induction k generalizing x with
  | zero => exact Or.inr rfl
  | succ k ih =>
    simp only [initialGuess]
    by_cases hm : (P.merit eps (moveTo P eps x).at' (moveTo P eps x).r).isSome = true
    · rw [if_pos hm]
      exact Or.inl ⟨0, by omega, by simp, by simpa [moveTo] using hm⟩
    · rw [if_neg hm]
      by_cases hk : k = 0
      · subst hk
        right
        simp [initialGuess]
      · rw [if_neg hk]
        rcases ih ((0.5 : ℝ) • (moveTo P eps x).x) with ⟨j, hj, h1, h2⟩ | h
        · left
          refine ⟨j + 1, by omega, ?_, ?_⟩
          · rw [h1, pow_succ, mul_smul]
            rfl
          · rw [pow_succ, mul_smul]
            exact h2
        · right
          rw [h, if_neg hk, if_neg (Nat.succ_ne_zero k)]

/-- **C27** If the merit function is finite at zero, the solve does not diverge before the first
iteration: a bad initial guess is scaled back until the merit is finite. -/
theorem solve_not_diverged_at_start (cfg : Config) (P : Problem V) (o : Oracle V)
    (empty jacOk noJac : Bool) (sv : Solver) (x : V) (r : Result V)
    (hz : ∀ eps, (P.merit eps 0 (P.residual eps 0)).isSome)
    (h : solveWith cfg P o empty jacOk noJac sv x = some r) (hi : r.iterations = 0) :
    r.status ≠ .diverged := by
  rcases solveWith_cases _ _ _ _ _ _ _ _ _ h with (⟨_, _, rfl, h, _⟩ | ⟨_, rfl, h⟩) |
    ⟨s, hm, h0, _, _, _, _, ha, _, hp, hmer⟩
  · simp
  · simp
  · have hsome : s.meritCur ≠ none := by
      rw [hmer, hp]
      rcases initialGuess_spec P s.eps 10 x with ⟨j, -, h1, h2⟩ | h1
      · rw [h1]
        exact Option.isSome_iff_ne_none.1 h2
      · rw [h1]
        exact Option.isSome_iff_ne_none.1 (hz s.eps)
    have key := mainLoop_ind cfg P o sv.eps sv.tol sv.prevCount
      (fun s r => s.iterations ≤ r.iterations ∧
        (s.meritCur ≠ none → r.iterations = s.iterations → r.status ≠ .diverged))
      (fun s => ⟨le_rfl, fun _ _ => by simp [finish]⟩)
      (fun s h => ⟨le_rfl, fun h' => absurd h h'⟩)
      (by rintro s st (rfl | rfl) <;> exact ⟨le_rfl, fun _ _ => by simp [finish]⟩)
      (by rintro s st (rfl | rfl) <;> exact ⟨le_rfl, fun _ _ => by simp [abort]⟩)
      (fun s ls p _ _ _ => ⟨Nat.le_succ _, fun _ _ => by simp [finish]⟩)
      (fun s ls p _ _ => ⟨Nat.le_succ _, fun _ _ => by simp [finish]⟩)
      (fun s ls p r _ _ ih => by
        rw [nextIter_iterations] at ih
        have e : (accept cfg (prepare cfg sv.tol s) p ls).iterations = s.iterations + 1 := rfl
        rw [e] at ih
        exact ⟨by omega, fun _ h => by omega⟩) s r hm
    exact key.2 hsome (by omega)

/-! ## C29: adaptive epsilons -/

theorem epsBase_ge (orig : ℝ) (n : ℕ) : 1 ≤ epsBase orig n := le_max_right _ _

theorem initEps_ge (cfg : Config) (n : ℕ) (orig : ℝ) (h0 : 0 < orig) (h : orig ≤ 1 ∨ 3 ≤ n) :
    orig ≤ initEps cfg n orig := by
  unfold initEps
  split_ifs
  · have h1 : 1 ≤ epsBase orig n ^ ((n : ℝ) - 3) := by
      by_cases hn : 3 ≤ n
      · have : (3 : ℝ) ≤ n := by exact_mod_cast hn
        exact Real.one_le_rpow (epsBase_ge orig n) (by linarith)
      · have ho : orig ≤ 1 := h.resolve_right hn
        have hn' : (n : ℝ) < 3 := by
          have : n < 3 := by omega
          exact_mod_cast this
        have : epsBase orig n = 1 := by
          unfold epsBase
          refine max_eq_right (Real.rpow_le_one_of_one_le_of_nonpos ?_ ?_)
          · rw [le_div_iff₀ h0]; linarith
          · exact div_nonpos_of_nonneg_of_nonpos (by norm_num) (by linarith)
        rw [this, Real.one_rpow]
    nlinarith
  · exact le_rfl

/-- After a solve with more than three iterations a requested epsilon below one is raised to
one. -/
theorem initEps_eq_one (cfg : Config) (ha : cfg.adaptive = true) (n : ℕ) (hn : 3 < n) (orig : ℝ)
    (h0 : 0 < orig) (h1 : orig ≤ 1) : initEps cfg n orig = 1 := by
  have hn' : (0 : ℝ) < (n : ℝ) - 3 := by
    have : (3 : ℝ) < n := by exact_mod_cast hn
    linarith
  have hge : 1 ≤ 1 / orig := by rw [le_div_iff₀ h0]; linarith
  unfold initEps epsBase
  rw [if_pos ha, max_eq_left (Real.one_le_rpow hge (by positivity)),
    ← Real.rpow_mul (by positivity), one_div_mul_cancel hn'.ne', Real.rpow_one]
  field_simp

theorem epsFactor_range (orig : ℝ) (n : ℕ) (a b : Option ℝ) :
    0 ≤ epsFactor orig n a b ∧ epsFactor orig n a b ≤ 1 := by
  have h1 : 0 ≤ 1 / epsBase orig n ∧ 1 / epsBase orig n ≤ 1 := by
    have := epsBase_ge orig n
    constructor
    · positivity
    · rw [div_le_one (by linarith)]; exact this
  unfold epsFactor
  split
  · split_ifs
    · exact h1
    · exact ⟨le_min (Real.sqrt_nonneg _) h1.1, (min_le_right _ _).trans h1.2⟩
  · exact h1

theorem reduceEps_range (n : ℕ) (a b : Option ℝ) {orig eps : ℝ} (h0 : 0 < orig)
    (h : orig ≤ eps) : orig ≤ reduceEps n a b orig eps ∧ reduceEps n a b orig eps ≤ eps := by
  obtain ⟨f0, f1⟩ := epsFactor_range orig n a b
  unfold reduceEps
  exact ⟨le_max_left _ _, max_le h (by nlinarith)⟩

/-- Elementwise order of epsilon lists. -/
abbrev Le (a b : List ℝ) : Prop := List.Forall₂ (· ≤ ·) a b

theorem Le.refl (a : List ℝ) : Le a a := by
  induction a with
  | nil => exact .nil
  | cons a t ih => exact .cons le_rfl ih

theorem Le.trans {a b c : List ℝ} (h1 : Le a b) (h2 : Le b c) : Le a c := by
  induction h1 generalizing c with
  | nil => cases h2; exact .nil
  | cons h _ ih =>
    cases h2 with
    | cons h' t => exact .cons (h.trans h') (ih t)

theorem reduce_list (n : ℕ) (a b : Option ℝ) {orig eps : List ℝ} (h0 : ∀ e ∈ orig, 0 < e)
    (h : Le orig eps) : Le orig (List.zipWith (reduceEps n a b) orig eps) ∧
      Le (List.zipWith (reduceEps n a b) orig eps) eps := by
  induction h with
  | nil => exact ⟨.nil, .nil⟩
  | cons hx _ ih =>
    obtain ⟨h1, h2⟩ := reduceEps_range n a b (h0 _ List.mem_cons_self) hx
    obtain ⟨h3, h4⟩ := ih fun e he => h0 e (List.mem_cons_of_mem _ he)
    exact ⟨.cons h1 h3, .cons h2 h4⟩

/-- **C29** (partial: for epsilons up to one, or after a solve with at least three iterations) In
every iteration of a solve and afterwards no epsilon is below the requested one, and epsilons
never increase from one iteration to the next. -/
theorem eps_schedule_partial (cfg : Config) (P : Problem V) (o : Oracle V)
    (empty jacOk noJac : Bool) (sv : Solver) (x : V) (r : Result V)
    (he : ∀ e ∈ sv.eps, 0 < e ∧ (e ≤ 1 ∨ 3 ≤ sv.prevCount))
    (h : solveWith cfg P o empty jacOk noJac sv x = some r) :
    (∀ eps ∈ r.eps :: r.epsilons, Le sv.eps eps) ∧
    (r.eps :: r.epsilons).Pairwise fun later earlier => Le later earlier := by
  have hinit : Le sv.eps (sv.eps.map (initEps cfg sv.prevCount)) := by
    clear h
    revert he
    generalize sv.eps = l
    intro he
    induction l with
    | nil => exact .nil
    | cons e t ih =>
      refine .cons ?_ (ih fun e he' => he e (List.mem_cons_of_mem _ he'))
      exact initEps_ge cfg _ e (he e List.mem_cons_self).1 (he e List.mem_cons_self).2
  rcases solveWith_cases _ _ _ _ _ _ _ _ _ h with (⟨_, _, rfl, _, heps⟩ | ⟨_, rfl, _⟩) |
    ⟨s, hm, _, hs, _, _, hl, _⟩
  · refine ⟨?_, by simp⟩
    simp only [List.mem_singleton, forall_eq]
    rcases heps with rfl | rfl
    · exact Le.refl _
    · exact hinit
  · exact ⟨by simpa using hinit, by simp⟩
  · let I : List ℝ → List (List ℝ) → Prop := fun e l =>
      (∀ eps ∈ e :: l, Le sv.eps eps) ∧ (e :: l).Pairwise fun later earlier => Le later earlier
    have hprep : ∀ e l, I e l → I e (e :: l) := by
      rintro e l ⟨h1, h2⟩
      refine ⟨?_, ?_⟩
      · intro eps hx
        rcases List.mem_cons.1 hx with rfl | hx
        · exact h1 _ List.mem_cons_self
        · exact h1 _ hx
      · rw [List.pairwise_cons]
        refine ⟨?_, h2⟩
        intro b hb
        rcases List.mem_cons.1 hb with rfl | hb
        · exact Le.refl _
        · exact (List.pairwise_cons.1 h2).1 b hb
    have key := mainLoop_ind cfg P o sv.eps sv.tol sv.prevCount
      (fun s r => I s.eps s.epsilons → I r.eps r.epsilons)
      (fun s h => h) (fun s _ h => h) (fun s _ _ h => hprep _ _ h) (fun s _ _ h => hprep _ _ h)
      (fun s _ _ _ _ _ h => hprep _ _ h) (fun s _ _ _ _ h => hprep _ _ h)
      (fun s ls p r _ _ ih h => by
        apply ih
        obtain ⟨-, -, -, -, e1, e2⟩ := nextIter_pt cfg P sv.eps sv.prevCount ls.merit
          (accept cfg (prepare cfg sv.tol s) p ls)
        rw [e1, e2]
        have h' := hprep _ _ h
        by_cases ha : cfg.adaptive = true
        · rw [if_pos ha]
          obtain ⟨h1, h2⟩ := h'
          obtain ⟨r1, r2⟩ := reduce_list sv.prevCount ls.merit
            (accept cfg (prepare cfg sv.tol s) p ls).meritCur (fun e hx => (he e hx).1)
            (h1 _ List.mem_cons_self)
          refine ⟨?_, ?_⟩
          · intro eps hx
            rcases List.mem_cons.1 hx with rfl | hx
            · exact r1
            · exact h1 _ (List.mem_cons_of_mem _ hx)
          · rw [List.pairwise_cons] at h2 ⊢
            exact ⟨fun b hb => r2.trans (h2.1 b hb), h2.2⟩
        · rw [if_neg ha]
          exact h') s r hm
    apply key
    rw [hs, hl]
    exact ⟨by simpa using hinit, by simp⟩

/-- **C29** (partial: only for successful solves, or without adaptation) The epsilons after a
solve are the requested ones. -/
theorem eps_restored_partial (cfg : Config) (P : Problem V) (o : Oracle V)
    (empty jacOk noJac : Bool) (sv : Solver) (x : V) (r : Result V)
    (h : solveWith cfg P o empty jacOk noJac sv x = some r)
    (hs : r.status = .success ∨ cfg.adaptive = false) : r.eps = sv.eps := by
  rcases hs with hs | hs
  · exact (solve_success _ _ _ _ _ _ _ _ _ h hs).2.1
  · have hmap : sv.eps.map (initEps cfg sv.prevCount) = sv.eps := by
      have : initEps cfg sv.prevCount = id := by
        funext e
        simp [initEps, hs]
      rw [this, List.map_id]
    rcases solveWith_cases _ _ _ _ _ _ _ _ _ h with (⟨_, _, rfl, _, heps⟩ | ⟨_, rfl, _⟩) |
      ⟨s, hm, _, he, _⟩
    · rcases heps with rfl | rfl
      · rfl
      · exact hmap
    · exact hmap
    · rw [hmap] at he
      rw [← he]
      refine mainLoop_ind cfg P o sv.eps sv.tol sv.prevCount (fun s r => r.eps = s.eps)
        (fun s => rfl) (fun s _ => rfl) (fun s _ _ => rfl) (fun s _ _ => rfl)
        (fun s _ _ _ _ _ => rfl) (fun s _ _ _ _ => rfl)
        (fun s ls p r _ _ ih => by
          obtain ⟨-, -, -, -, -, e2⟩ := nextIter_pt cfg P sv.eps sv.prevCount ls.merit
            (accept cfg (prepare cfg sv.tol s) p ls)
          rw [ih, e2, hs]
          rfl) s r hm

/-- **C29 (violated, lower bound)** On the first solve (where the previous iteration count is
one) a requested epsilon above one is lowered. -/
theorem eps_below_requested_violated :
    initEps { defaultConfig with adaptive := true } 1 2 = 1 := by
  have e : (((1 : ℕ) : ℝ) - 3) = -2 := by norm_num
  have hb : epsBase 2 1 = 2 ^ (1 / 2 : ℝ) := by
    have key : ((1 : ℝ) / 2) ^ (1 / (-2 : ℝ)) = 2 ^ (1 / 2 : ℝ) := by
      have h2 : (1 : ℝ) / (-2) = -(1 / 2) := by norm_num
      rw [h2, one_div (2 : ℝ), Real.inv_rpow (by norm_num), Real.rpow_neg (by norm_num), inv_inv]
    unfold epsBase
    rw [e, key]
    exact max_eq_left (Real.one_le_rpow (by norm_num) (by norm_num))
  unfold initEps
  rw [if_pos rfl, hb, e, ← Real.rpow_mul (by norm_num)]
  have : (1 / 2 : ℝ) * -2 = -1 := by norm_num
  rw [this, Real.rpow_neg_one]
  norm_num

/-- A problem that is converged everywhere. -/
def trivialProblem : Problem ℝ where
  residual _ _ := 0
  merit _ _ _ := some 0
  normSq _ := some 0
  slope _ _ _ _ := 0
  converged _ _ _ := true

/-- An oracle that interrupts immediately, or never. -/
def trivialOracle (interrupt : Bool) : Oracle ℝ :=
  ⟨fun _ => interrupt, fun _ => .solution true 0, fun _ => 1, fun _ => 1⟩

/-- **C29 (violated, restoring)** An interrupted adaptive solve leaves the raised epsilon behind,
and forgets the requested one: the next solve takes the raised epsilon as the requested one and
reports success with it. Also, during the solve the automatic-differentiation twins keep
another epsilon than the residual uses. -/
theorem eps_forgotten_violated :
    let cfg := { defaultConfig with adaptive := true }
    let sv : Solver := ⟨[1 / 2], [1 / 2], 0, 4⟩
    ∃ r₁ r₂, solveWith cfg trivialProblem (trivialOracle true) false true false sv 0 = some r₁ ∧
      r₁.status = .interrupted ∧ r₁.eps = [1] ∧ (after sv r₁).epsAd = [1 / 2] ∧
      solveWith cfg trivialProblem (trivialOracle false) false true false (after sv r₁) 0 =
        some r₂ ∧ r₂.status = .success ∧ r₂.eps = [1] := by
  intro cfg sv
  have h1 : initEps cfg 4 (1 / 2) = 1 :=
    initEps_eq_one cfg rfl 4 (by norm_num) _ (by norm_num) (by norm_num)
  have h2 : initEps cfg 0 1 = 1 := by
    simp [initEps, epsBase, cfg]
  have e1 : solveWith cfg trivialProblem (trivialOracle true) false true false sv 0 =
      some ⟨.interrupted, 0, initialGuess trivialProblem [1] 10 (moveTo trivialProblem [1] 0),
        [1], 0, 0, [], [], []⟩ := by
    unfold solveWith
    simp only [Bool.false_eq_true, if_false, not_true_eq_false, sv, List.map_cons, List.map_nil,
      h1]
    rw [mainLoop]
    simp [trivialOracle, finish]
  obtain ⟨r₂, hr₂, -⟩ := solve_stops_partial cfg (by norm_num [cfg, defaultConfig]) trivialProblem
    (trivialOracle false) false true false (after sv ⟨.interrupted, 0,
      initialGuess trivialProblem [1] 10 (moveTo trivialProblem [1] 0), [1], 0, 0, [], [], []⟩) (0 : ℝ)
  have hsucc : r₂.status = .success := by
    have h := hr₂
    unfold solveWith at h
    simp only [Bool.false_eq_true, if_false, not_true_eq_false, after, List.map_cons,
      List.map_nil, h2] at h
    rw [mainLoop] at h
    have hls : ∀ test : ℝ → Option ℝ → ℝ → Prop, (∀ r m a, test r m a) → ∀ x p,
        lineSearch cfg trivialProblem [1] test 1 1 x p =
          some ⟨1, 1, moveTo trivialProblem [1] (x + p), some 0, true, false⟩ := by
      intro test ht x p
      unfold lineSearch
      simp only
      rw [if_neg (fun hc => hc.2 (ht _ _ _))]
      norm_num [cfg, defaultConfig, trivialProblem]
    simp only [trivialOracle, Bool.false_eq_true, if_false] at h
    have hm : trivialProblem.merit [1] = fun _ _ => some 0 := rfl
    simp only [hm, reduceCtorEq, if_false, not_true_eq_false, prepare] at h
    have htest : ∀ (tol : ℝ) (rc : ℝ) (r : ℝ) (m : ℝ) (a : ℝ) (d : ℝ), d = 0 →
        testAlpha cfg trivialProblem tol rc (some 0) d r (some 0) a := by
      intro tol rc r m a d hd
      subst hd
      simp [testAlpha, cfg, defaultConfig, le']
    have hdir : ∀ (pt : Point ℝ) (p : ℝ), direction cfg trivialProblem [1] pt p = (0, p) := by
      intro pt p
      simp [direction, trivialProblem]
    simp only [hdir] at h
    have hls' : ∀ x p tol rc, lineSearch cfg trivialProblem [1]
        (testAlpha cfg trivialProblem tol rc (some 0) 0) 1 1 x p =
          some ⟨1, 1, moveTo trivialProblem [1] (x + p), some 0, true, false⟩ := by
      intro x p tol rc
      unfold lineSearch
      simp only
      rw [if_neg (fun hc => hc.2 (by rw [hm]; exact htest _ _ _ 0 _ _ rfl))]
      norm_num [cfg, defaultConfig, trivialProblem]
    simp only [hls'] at h
    norm_num [accept, trivialProblem] at h
    rw [← h]
    rfl
  refine ⟨_, r₂, e1, rfl, rfl, rfl, hr₂, hsucc, ?_⟩
  exact (solve_success _ _ _ _ _ _ _ _ _ hr₂ hsucc).2.1

/-! ## C57: tolerances of the linear solves -/

theorem forcing_range (origTol tol eta : ℝ) (h : 0 < origTol) :
    0 < forcing origTol tol eta ∧ forcing origTol tol eta ≤ origTol := by
  have he : 0 < epsilonF32 := by unfold epsilonF32; positivity
  unfold forcing
  refine ⟨lt_min h ?_, min_le_left _ _⟩
  have : 0 < max epsilonF32 eta := lt_max_of_lt_left he
  split_ifs
  · exact lt_max_of_lt_left this
  · exact this

/-- **C57** Every linear solve of an inexact Newton solve is asked for a positive tolerance that
is at most the configured one, and the configured tolerance is in place again afterwards. -/
theorem solve_tolerances (cfg : Config) (P : Problem V) (o : Oracle V)
    (empty jacOk noJac : Bool) (sv : Solver) (x : V) (r : Result V) (ht : 0 < sv.tol)
    (hit : cfg.iterative = true)
    (h : solveWith cfg P o empty jacOk noJac sv x = some r) :
    (∀ t ∈ r.tols, 0 < t ∧ t ≤ sv.tol) ∧
      (r.status ≠ .panicked → r.status ≠ .failedJacobianCheck → r.tol = sv.tol) := by
  rcases solveWith_cases _ _ _ _ _ _ _ _ _ h with (⟨_, _, rfl, _, heps⟩ | ⟨_, rfl, _⟩) |
    ⟨s, hm, _, _, _, hs, _⟩
  · simp
  · simp
  · have hprep : ∀ s : Iter V, (∀ t ∈ s.tols, 0 < t ∧ t ≤ sv.tol) →
        ∀ t ∈ (prepare cfg sv.tol s).tols, 0 < t ∧ t ≤ sv.tol := by
      intro s hs t h
      simp only [prepare, hit, if_true, List.mem_cons] at h
      rcases h with rfl | h
      · exact forcing_range _ _ _ ht
      · exact hs t h
    refine mainLoop_ind cfg P o sv.eps sv.tol sv.prevCount
      (fun s r => (∀ t ∈ s.tols, 0 < t ∧ t ≤ sv.tol) → (∀ t ∈ r.tols, 0 < t ∧ t ≤ sv.tol) ∧
        (r.status ≠ .panicked → r.status ≠ .failedJacobianCheck → r.tol = sv.tol))
      ?_ ?_ ?_ ?_ ?_ ?_ ?_ s r hm (by rw [hs]; simp)
    · intro s hs
      exact ⟨hs, fun _ _ => by simp [finish, hit]⟩
    · intro s _ hs
      exact ⟨hs, fun _ _ => by simp [finish, hit]⟩
    · intro s st _ hs
      exact ⟨hprep s hs, fun _ _ => by simp [finish, hit]⟩
    · rintro s st (rfl | rfl) hs
      · exact ⟨hprep s hs, fun _ h => absurd rfl h⟩
      · exact ⟨hprep s hs, fun h => absurd rfl h⟩
    · intro s ls _ _ _ _ hs
      exact ⟨hprep s hs, fun _ _ => by simp [finish, hit]⟩
    · intro s ls _ _ _ hs
      exact ⟨hprep s hs, fun _ _ => by simp [finish, hit]⟩
    · intro s ls p r _ _ ih hs
      apply ih
      obtain ⟨-, -, -, e1, -, -⟩ := nextIter_pt cfg P sv.eps sv.prevCount ls.merit
        (accept cfg (prepare cfg sv.tol s) p ls)
      rw [e1]
      exact hprep s hs

/-! ## Witnesses -/

/-- **C27 (violated, limit zero)** With an iteration limit of zero one iteration is done. -/
theorem solve_limit_zero_violated :
    ∃ r, solveWith { defaultConfig with maxIter := 0 } { trivialProblem with
        converged := fun _ _ _ => false } (trivialOracle false) false true false
        ⟨[], [], 0, 1⟩ 0 = some r ∧ r.iterations = 1 := by
  obtain ⟨r, hr, -⟩ := solve_stops_partial { defaultConfig with maxIter := 0 }
    (by norm_num [defaultConfig])
    { trivialProblem with converged := fun _ _ _ => false } (trivialOracle false) false true false
    ⟨[], [], 0, 1⟩ (0 : ℝ)
  refine ⟨r, hr, ?_⟩
  unfold solveWith at hr
  simp only [Bool.false_eq_true, if_false, not_true_eq_false, List.map_nil] at hr
  rw [mainLoop] at hr
  have hit : defaultConfig.iterative = false := rfl
  simp only [trivialOracle, Bool.false_eq_true, if_false, trivialProblem, reduceCtorEq,
    not_true_eq_false, prepare, false_and, hit] at hr
  split at hr
  · simp at hr
  · rename_i ls hls
    have hp : ls.passed = true := by
      unfold lineSearch at hls
      simp only at hls
      rw [if_neg] at hls
      · simp only [Option.some.injEq] at hls
        rw [← hls]
        norm_num [defaultConfig]
      · push Not
        intro _
        simp [testAlpha, direction, defaultConfig, le']
    have hc : ls.count = 1 := by
      unfold lineSearch at hls
      simp only at hls
      rw [if_neg] at hls
      · simp only [Option.some.injEq] at hls
        rw [← hls]
      · push Not
        intro _
        simp [testAlpha, direction, defaultConfig, le']
    rw [if_neg (by omega)] at hr
    split at hr
    · rw [← Option.some.inj hr]
      rfl
    · rename_i hlt
      exact absurd (Nat.zero_le _) hlt

theorem backtrack_alpha_pos (cfg : Config) (P : Problem V) (eps : List ℝ) (hr0 : 0 < cfg.rho)
    (test : V → Option ℝ → ℝ → Prop) (x₀ p : V) (alpha : ℝ) (count : ℕ) (pt : Point V)
    (ls : Search V) (h : backtrackLoop cfg P eps test x₀ p alpha count pt = some ls)
    (h0 : 0 < alpha) : 0 < ls.alpha := by
  revert h0
  refine backtrackLoop.partial_correctness cfg P eps test x₀ p
    (fun alpha _ _ ls => 0 < alpha → 0 < ls.alpha) ?_ alpha count pt ls h
  intro rec ih alpha count pt ls h h0
  have h2 : 0 < alpha * cfg.rho := mul_pos h0 hr0
  simp only at h
  split_ifs at h
  · simp only [Option.some.injEq] at h
    exact h ▸ h0
  · simp only [Option.some.injEq] at h
    exact h ▸ h2
  · exact ih _ _ _ _ h h2

/-- One unknown with a merit function `|x|` and the slope of its left branch. -/
def kink : Problem ℝ where
  residual _ _ := 1
  merit _ x _ := some |x|
  normSq r := some (r ^ 2)
  slope _ _ _ p := -p
  converged _ _ _ := false

/-- The line search from the minimum of `kink` fails. -/
theorem kink_search (cfg : Config) (hcfg : cfg = defaultConfig ∨
    cfg = { defaultConfig with outDir := true }) :
    ∃ ls, lineSearch cfg kink [] (testAlpha cfg kink 0 1 (some 0) (-1)) 1 1 0 1 = some ls ∧
      ls.passed = false ∧ 0 < ls.alpha ∧ ls.pt.x = ls.alpha / 0.9 := by
  have hrho : cfg.rho = 0.9 := by rcases hcfg with rfl | rfl <;> rfl
  have hc : cfg.c = 1e-4 := by rcases hcfg with rfl | rfl <;> rfl
  have hi : cfg.iterative = false := by rcases hcfg with rfl | rfl <;> rfl
  have ha : cfg.assisted = false := by rcases hcfg with rfl | rfl <;> rfl
  have htest : ∀ a : ℝ, 0 < a →
      ¬ testAlpha cfg kink 0 1 (some 0) (-1) 1 (kink.merit [] a 1) a := by
    intro a h
    simp only [testAlpha, hi, Bool.false_eq_true, if_false, kink, Option.map_some, le', hc,
      abs_of_pos h, not_le]
    linarith
  obtain ⟨ls, hls⟩ := lineSearch_terminates cfg kink [] (by rw [hrho]; norm_num)
    (testAlpha cfg kink 0 1 (some 0) (-1)) 1 1 0 1
  obtain ⟨h1, -, h3, h4⟩ := lineSearch_spec _ _ _ _ _ _ _ _ _ hls
  have hpos : 0 < ls.alpha := by
    have h := hls
    unfold lineSearch at h
    simp only at h
    split_ifs at h
    · simp_all
    · exact backtrack_alpha_pos cfg kink [] (by rw [hrho]; norm_num) _ _ _ _ _ _ _ h
        (by simp [startAlpha, ha])
    · simp only [Option.some.injEq] at h
      rw [← h]
      norm_num
  have hfail : ls.passed = false := by
    by_contra hp
    obtain ⟨-, ht, hpt⟩ := h3 (by simpa using hp)
    refine htest ls.alpha hpos ?_
    rw [h1, hpt] at ht
    simpa [moveTo, kink] using ht
  refine ⟨ls, hls, hfail, hpos, ?_⟩
  obtain ⟨-, -, -, a, h5, h6, -⟩ := h4 hfail (by rw [hrho]; norm_num)
  rw [h6, h5, hrho]
  simp only [moveTo, smul_eq_mul, mul_one, zero_add]
  field_simp

/-- **C28 (violated, failed search)** A line search that never finds a decrease does not stop the
solve: the last trial point becomes the iterate, with a larger merit than before (provided the
debugging output can be written). -/
theorem failed_search_violated :
    ∃ ls m m', lineSearch { defaultConfig with outDir := true } kink []
      (testAlpha { defaultConfig with outDir := true } kink 0 1 (some 0) (-1)) 1 1 0 1 = some ls ∧
      kink.merit [] 0 1 = some m ∧ kink.merit [] ls.pt.x ls.pt.r = some m' ∧ m < m' := by
  obtain ⟨ls, h1, h2, h3, h4⟩ := kink_search _ (Or.inr rfl)
  refine ⟨ls, |0|, |ls.pt.x|, h1, rfl, rfl, ?_⟩
  rw [h4, abs_zero]
  positivity

/-- **C28 (violated, panic)** With the default parameters, a solve whose line search fails panics
if `./out` is not writable. -/
theorem failed_search_panics :
    ∃ r, solveWith defaultConfig kink ⟨fun _ => false, fun _ => .solution true (-1), fun _ => 1,
        fun _ => 1⟩ false true false ⟨[], [], 0, 1⟩ 0 = some r ∧ r.status = .panicked := by
  obtain ⟨ls, h1, h2, h3, h4⟩ := kink_search _ (Or.inl rfl)
  obtain ⟨d1, d2, d3⟩ := failed_search_dumps _ rfl rfl _ _ _ _ _ _ _ _ h1 h2
  unfold solveWith
  simp only [Bool.false_eq_true, if_false, not_true_eq_false, List.map_nil]
  rw [mainLoop]
  have hg : initialGuess kink [] 10 (moveTo kink [] 0) = ⟨0, 0, 1⟩ := by
    simp [initialGuess, moveTo, kink]
  have hd : direction defaultConfig kink [] ⟨0, 0, 1⟩ (- -1) = (-1, 1) := by
    norm_num [direction, defaultConfig, kink]
  have hm : kink.merit [] 0 1 = some 0 := by simp [kink]
  have hit : defaultConfig.iterative = false := rfl
  simp only [hg, hm, Bool.false_eq_true, if_false, reduceCtorEq, prepare, not_true_eq_false, hd,
    hit, h1]
  rw [if_pos ⟨d1, d2, d3, by simp [defaultConfig]⟩]
  exact ⟨_, rfl, rfl⟩

/-- The hypotheses of `search_armijo_partial` are met by a Newton step for `quadratic`. -/
example : ∃ ls, lineSearch defaultConfig quadratic []
    (testAlpha defaultConfig quadratic 0 (quadratic.residual [] 1) (quadratic.merit [] 1 0)
      (direction defaultConfig quadratic [] (moveTo quadratic [] 1) (-1)).1) 1 1 1
    (direction defaultConfig quadratic [] (moveTo quadratic [] 1) (-1)).2 = some ls ∧
    ls.passed = true ∧ quadratic.slope [] 1 (quadratic.residual [] 1) (-1) ≤ 0 := by
  have hd : direction defaultConfig quadratic [] (moveTo quadratic [] 1) (-1) =
      (-3.00002, -1) := by
    norm_num [direction, defaultConfig, quadratic, moveTo]
  rw [hd]
  refine ⟨⟨1, 1, moveTo quadratic [] 0, some 0, true, false⟩, ?_, rfl, ?_⟩
  · unfold lineSearch
    simp only
    rw [if_neg]
    · norm_num [moveTo, quadratic, defaultConfig]
    · push Not
      intro _
      norm_num [testAlpha, defaultConfig, quadratic, moveTo, le']
  · norm_num [quadratic]

end Softy.Newton
