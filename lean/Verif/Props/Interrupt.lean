import Verif.Model.Interrupt
import Verif.Props.Newton
import Verif.Props.NewtonSteps
import Verif.Props.LinSolve
import Verif.Props.Solver

/-!
# Interrupting a simulation (C96)

An interrupter that answers `true` is meant to stop the simulation.
-/

noncomputable section

open scoped Classical
open scoped RealInnerProductSpace

namespace Softy.Interrupt

open Newton

/-! ## Solves -/

section Solves

variable {V : Type*} [AddCommGroup V] [Module ℝ V]

theorem log_grows (cfg : Config) (P : Newton.Problem V) (o : Oracle V) (orig : List ℝ) (origTol : ℝ) (n : ℕ) :
    ∀ s r, mainLoop cfg P o orig origTol n s = some r → ∃ l, r.log = l ++ s.log := by
  refine mainLoop_ind cfg P o orig origTol n (fun s r => ∃ l, r.log = l ++ s.log) (fun s => ⟨[], rfl⟩)
    (fun s _ => ⟨[], rfl⟩) (fun s _ _ => ⟨[], rfl⟩) (fun s _ _ => ⟨[], rfl⟩) (fun s ls p _ _ _ => ⟨[_], rfl⟩)
    (fun s ls p _ _ => ⟨[_], rfl⟩) ?_
  rintro s ls p r - - ⟨l, hl⟩
  rw [nextIter_log] at hl
  exact ⟨l ++ [_], by rw [hl, List.append_assoc]; rfl⟩

theorem loop_asked (cfg : Config) (P : Newton.Problem V) (o : Oracle V) (orig : List ℝ) (origTol : ℝ) (n : ℕ)
    (s : Iter V) (r : Newton.Result V) (h : mainLoop cfg P o orig origTol n s = some r) :
    s.iterations ≤ r.iterations ∧ (∀ k, s.iterations ≤ k → k < r.iterations → o.interrupt k = false) ∧
      (r.status = .interrupted → o.interrupt r.iterations = true) ∧
      (o.interrupt s.iterations = true → r = finish cfg origTol .interrupted s) := by
  induction hn : cfg.maxIter - s.iterations using Nat.strong_induction_on generalizing s with
  | _ m ih =>
    rw [mainLoop] at h
    cases hi : o.interrupt s.iterations with
    | true =>
      rw [if_pos hi] at h
      obtain rfl := Option.some.inj h
      exact ⟨le_rfl, fun k h1 h2 => absurd h2 (by simp only [finish]; omega), fun _ => hi, fun _ => rfl⟩
    | false =>
      rw [if_neg (by simp [hi])] at h
      have leaf : ∀ st (t : Iter V), st ≠ .interrupted → (t.iterations = s.iterations ∨ t.iterations = s.iterations + 1) →
          ∀ r : Newton.Result V, r.status = st → r.iterations = t.iterations →
          s.iterations ≤ r.iterations ∧ (∀ k, s.iterations ≤ k → k < r.iterations → o.interrupt k = false) ∧
            (r.status = .interrupted → o.interrupt r.iterations = true) ∧
            (false = true → r = finish cfg origTol .interrupted s) := by
        intro st t hst ht r hr hri
        refine ⟨by omega, fun k h1 h2 => ?_, fun h => absurd (hr.symm.trans h) hst, fun h => by cases h⟩
        have : k = s.iterations := by omega
        rw [this, hi]
      simp only at h
      split_ifs at h with h2
      · obtain rfl := Option.some.inj h
        exact leaf .diverged s (by simp) (Or.inl rfl) _ rfl rfl
      · cases hl : o.linear s.iterations with
        | error =>
          simp only [hl, Option.some.injEq] at h
          subst h
          exact leaf .linearSolveError s (by simp) (Or.inl rfl) _ rfl rfl
        | checkFailed =>
          simp only [hl, Option.some.injEq] at h
          subst h
          exact leaf .failedJacobianCheck s (by simp) (Or.inl rfl) _ rfl rfl
        | solution finite p =>
          simp only [hl] at h
          by_cases hf : ¬ finite = true
          · rw [if_pos hf] at h
            obtain rfl := Option.some.inj h
            exact leaf .stepTooLarge s (by simp) (Or.inl rfl) _ rfl rfl
          · rw [if_neg hf] at h
            split at h
            · cases h
            · rename_i ls hls
              split_ifs at h with c1 c2 c3
              · obtain rfl := Option.some.inj h
                exact leaf .panicked s (by simp) (Or.inl rfl) _ rfl rfl
              · obtain rfl := Option.some.inj h
                exact leaf .success (accept cfg (prepare cfg origTol s) (-p) ls) (by simp) (Or.inr rfl) _ rfl rfl
              · obtain rfl := Option.some.inj h
                exact leaf .maximumIterationsExceeded (accept cfg (prepare cfg origTol s) (-p) ls) (by simp)
                  (Or.inr rfl) _ rfl rfl
              · have e : (accept cfg (prepare cfg origTol s) (-p) ls).iterations = s.iterations + 1 := rfl
                have c3' : ¬ s.iterations + 1 ≥ cfg.maxIter := c3
                obtain ⟨g1, g2, g3, -⟩ := ih _ (by rw [nextIter_iterations]; omega) _ h rfl
                rw [nextIter_iterations, e] at g1 g2
                refine ⟨by omega, fun k h1 h2 => ?_, g3, fun h => by cases h⟩
                rcases Nat.eq_or_lt_of_le h1 with h3 | h3
                · rw [← h3, hi]
                · exact g2 k h3 h2

theorem loop_same (cfg : Config) (P : Newton.Problem V) (o : Oracle V) (orig : List ℝ) (origTol : ℝ) (n : ℕ)
    (s : Iter V) (r r' : Newton.Result V) (h : mainLoop cfg P o orig origTol n s = some r)
    (h' : mainLoop cfg P { o with interrupt := fun _ => false } orig origTol n s = some r') :
    (∃ l, r'.log = l ++ r.log) ∧ (r.status ≠ .interrupted → r = r') := by
  induction hn : cfg.maxIter - s.iterations using Nat.strong_induction_on generalizing s with
  | _ m ih =>
    cases hi : o.interrupt s.iterations with
    | true =>
      have := (loop_asked _ _ _ _ _ _ _ _ h).2.2.2 hi
      subst this
      exact ⟨log_grows _ _ _ _ _ _ _ _ h', fun h => absurd rfl h⟩
    | false =>
      rw [mainLoop, if_neg (by simp [hi])] at h
      rw [mainLoop, if_neg (by simp)] at h'
      have leaf : ∀ t : Newton.Result V, some t = some r → some t = some r' →
          (∃ l, r'.log = l ++ r.log) ∧ (r.status ≠ .interrupted → r = r') := by
        intro t h h'
        obtain rfl := Option.some.inj h
        obtain rfl := Option.some.inj h'
        exact ⟨⟨[], rfl⟩, fun _ => rfl⟩
      simp only at h h'
      split_ifs at h h' with h2
      · exact leaf _ h h'
      · cases hl : o.linear s.iterations with
        | error =>
          simp only [hl] at h h'
          exact leaf _ h h'
        | checkFailed =>
          simp only [hl] at h h'
          exact leaf _ h h'
        | solution finite p =>
          simp only [hl] at h h'
          by_cases hf : ¬ finite = true
          · rw [if_pos hf] at h h'
            exact leaf _ h h'
          · rw [if_neg hf] at h h'
            split at h
            · cases h
            · rename_i ls hls
              rw [hls] at h'
              simp only at h'
              split_ifs at h h' with c1 c2 c3
              · exact leaf _ h h'
              · exact leaf _ h h'
              · exact leaf _ h h'
              · have e : (accept cfg (prepare cfg origTol s) (-p) ls).iterations = s.iterations + 1 := rfl
                have c3' : ¬ s.iterations + 1 ≥ cfg.maxIter := c3
                exact ih _ (by rw [nextIter_iterations]; omega) _ h h' rfl

/-- C96: with `set_coarse_interrupter(f)`, a solve is reported as interrupted only if `f` answered `true`, it stops at
the first iteration at which `f` does, and does not start that iteration. `n` is the number of earlier calls. -/
theorem coarse_stops (cfg : Config) (P : Newton.Problem V) (f : Checker) (n : ℕ) (linear : ℕ → Linear V)
    (ca fa : ℕ → ℝ) (empty jacOk noJac : Bool) (sv : Newton.Solver) (x : V) (r : Newton.Result V)
    (h : solveWith cfg P (oracle (coarse f) n linear ca fa) empty jacOk noJac sv x = some r) :
    (r.status = .interrupted → f (n + r.iterations) = true) ∧ (∀ k < r.iterations, f (n + k) = false) ∧
      (∀ k, f (n + k) = true → r.iterations ≤ k) := by
  have key : (∀ k < r.iterations, f (n + k) = false) ∧ (r.status = .interrupted → f (n + r.iterations) = true) := by
    rcases solveWith_cases _ _ _ _ _ _ _ _ _ h with (⟨_, _, rfl, _⟩ | ⟨_, rfl, _⟩) | ⟨s, hs, h0, _⟩
    · simp
    · simp
    · obtain ⟨-, h2, h3, -⟩ := loop_asked _ _ _ _ _ _ _ _ hs
      refine ⟨fun k hk => ?_, fun h => ?_⟩
      · simpa [oracle, coarse] using h2 k (by omega) hk
      · simpa [oracle, coarse] using h3 h
  refine ⟨key.2, key.1, fun k hk => ?_⟩
  by_contra hlt
  rw [key.1 k (by omega)] at hk
  cases hk

/-- C96: up to the interruption the solve takes the steps it would take without one; without an interruption it gives
the same. `r'` is the solve of a simulation whose interrupter never answers `true`. -/
theorem coarse_same (cfg : Config) (P : Newton.Problem V) (f : Checker) (n : ℕ) (linear : ℕ → Linear V)
    (ca fa : ℕ → ℝ) (empty jacOk noJac : Bool) (sv : Newton.Solver) (x : V) (r r' : Newton.Result V)
    (h : solveWith cfg P (oracle (coarse f) n linear ca fa) empty jacOk noJac sv x = some r)
    (h' : solveWith cfg P (oracle (coarse fun _ => false) n linear ca fa) empty jacOk noJac sv x = some r') :
    (∃ l, r'.log = l ++ r.log) ∧ (r.status ≠ .interrupted → r = r') ∧ r'.status ≠ .interrupted := by
  have hlast : r'.status ≠ .interrupted := fun h0 => by
    have := (coarse_stops _ _ _ _ _ _ _ _ _ _ _ _ _ h').1 h0
    cases this
  unfold solveWith at h h'
  simp only at h h'
  split_ifs at h h' with h1 h2 h3
  · obtain rfl := Option.some.inj h
    obtain rfl := Option.some.inj h'
    exact ⟨⟨[], rfl⟩, fun _ => rfl, hlast⟩
  · obtain rfl := Option.some.inj h
    obtain rfl := Option.some.inj h'
    exact ⟨⟨[], rfl⟩, fun _ => rfl, hlast⟩
  · have := loop_same _ _ _ _ _ _ _ _ _ h h'
    exact ⟨this.1, this.2, hlast⟩
  · obtain rfl := Option.some.inj h
    obtain rfl := Option.some.inj h'
    exact ⟨⟨[], rfl⟩, fun _ => rfl, hlast⟩

/-- C96: a solver built without an interrupter is never interrupted. -/
theorem build_uninterrupted (cfg : Config) (P : Newton.Problem V) (n : ℕ) (linear : ℕ → Linear V)
    (ca fa : ℕ → ℝ) (empty jacOk noJac : Bool) (sv : Newton.Solver) (x : V) (r : Newton.Result V)
    (h : solveWith cfg P (oracle build n linear ca fa) empty jacOk noJac sv x = some r) : r.status ≠ .interrupted :=
  fun h0 => by
    have := (coarse_stops cfg P (fun _ => false) n linear ca fa empty jacOk noJac sv x r h).1 h0
    cases this

/-- C96 (violated): `build_with_interrupt` takes the answers of its `interrupt_checker` the other way round. A checker that
never asks to interrupt interrupts every solve at once, before the first step, while `set_coarse_interrupter` does not
interrupt with the same checker. -/
theorem build_checker_violated (cfg : Config) (hr0 : 0 ≤ cfg.rho) (P : Newton.Problem V) (n : ℕ)
    (linear : ℕ → Linear V) (ca fa : ℕ → ℝ) (sv : Newton.Solver) (x : V) :
    ∃ f : Checker, (∀ k, f k = false) ∧
      (∃ r, solveWith cfg P (oracle (buildWithInterrupt f) n linear ca fa) false true false sv x = some r ∧
        r.status = .interrupted ∧ r.iterations = 0 ∧ r.log = []) ∧
      ∃ r, solveWith cfg P (oracle (coarse f) n linear ca fa) false true false sv x = some r ∧
        r.status ≠ .interrupted := by
  refine ⟨fun _ => false, fun _ => rfl, ?_, ?_⟩
  · obtain ⟨r, hr, -⟩ := solve_stops_partial cfg hr0 P (oracle (buildWithInterrupt fun _ => false) n linear ca fa)
      false true false sv x
    refine ⟨r, hr, ?_⟩
    unfold solveWith at hr
    simp only [Bool.false_eq_true, if_false, not_true_eq_false] at hr
    rw [(loop_asked _ _ _ _ _ _ _ _ hr).2.2.2 rfl]
    exact ⟨rfl, rfl, rfl⟩
  · obtain ⟨r, hr, -⟩ := solve_stops_partial cfg hr0 P (oracle (coarse fun _ => false) n linear ca fa)
      false true false sv x
    exact ⟨r, hr, (coarse_same _ _ _ _ _ _ _ _ _ _ _ _ _ _ hr hr).2.2⟩

/-- An interrupter that answers `true` to its third call stops a solve before its third step. -/
example : ∃ r, solveWith { defaultConfig with rho := 1 }
    ⟨fun _ _ => (1 : ℝ), fun _ _ _ => some 1, fun _ => some 1, fun _ _ _ _ => 1, fun _ _ _ => false⟩
    (oracle (coarse fun k => k == 2) 0 (fun _ => .solution true 1) (fun _ => 1) fun _ => 1) false true false
    ⟨[], [], 0, 1⟩ 5 = some r ∧ r.status = .interrupted ∧ r.iterations = 2 ∧ r.pt.x = 3 := by
  obtain ⟨r, hr, -⟩ := solve_stops_partial { defaultConfig with rho := 1 } (by norm_num)
    ⟨fun _ _ => (1 : ℝ), fun _ _ _ => some 1, fun _ => some 1, fun _ _ _ _ => 1, fun _ _ _ => false⟩
    (oracle (coarse fun k => k == 2) 0 (fun _ => .solution true 1) (fun _ => 1) fun _ => 1) false true false
    ⟨[], [], 0, 1⟩ 5
  refine ⟨r, hr, ?_⟩
  unfold solveWith at hr
  simp only [Bool.false_eq_true, if_false, not_true_eq_false] at hr
  iterate 3
    rw [mainLoop] at hr
    simp [oracle, coarse, lineSearch, defaultConfig, prepare, nextIter, accept, direction, initialGuess, moveTo] at hr
  subst hr
  refine ⟨rfl, rfl, ?_⟩
  norm_num [finish]

end Solves

/-! ## Linear solves -/

section Linear

variable {V : Type*} [NormedAddCommGroup V] [InnerProductSpace ℝ V]

open LinSolve

theorem restartV_calls {A : V →ₗ[ℝ] V} {stop : ℕ → Bool} {s s' : BiState V} {ρ : ℝ}
    (h : restartV A stop s = some (s', ρ)) : s.calls ≤ s'.calls := by
  unfold restartV at h
  split_ifs at h
  · simp only [Option.some.injEq, Prod.mk.injEq] at h
    rw [← h.1]
    exact Nat.le_succ _
  · simp only [Option.some.injEq, Prod.mk.injEq] at h
    rw [← h.1]

theorem restartV_none {A : V →ₗ[ℝ] V} {stop : ℕ → Bool} {s : BiState V} (h : restartV A stop s = none) :
    ∃ k, stop k = true := by
  unfold restartV at h
  split_ifs at h with h1 h2
  exact ⟨_, h2⟩

theorem resetR0s_calls {A : V →ₗ[ℝ] V} {stop : ℕ → Bool} {b : V} {s s' : BiState V} {ρ : ℝ}
    (h : resetR0s A stop b s = some (s', ρ)) : s.calls ≤ s'.calls := by
  unfold resetR0s at h
  split_ifs at h
  · simp only [Option.some.injEq, Prod.mk.injEq] at h
    rw [← h.1]
    exact Nat.le_succ _
  · simp only [Option.some.injEq, Prod.mk.injEq] at h
    rw [← h.1]

theorem resetR0s_none {A : V →ₗ[ℝ] V} {stop : ℕ → Bool} {b : V} {s : BiState V} (h : resetR0s A stop b s = none) :
    ∃ k, stop k = true := by
  unfold resetR0s at h
  split_ifs at h with h1 h2
  exact ⟨_, h2⟩

theorem biLoop_asked (A : V →ₗ[ℝ] V) (K : ℕ → V → V) (stop : ℕ → Bool) (b : V) (tolSq : ℝ) (maxIter : ℕ)
    (s : BiState V) (hc : 2 * s.iterations ≤ s.calls) :
    ((biLoop A K stop b tolSq maxIter s).status = .interrupted → ∃ k, stop k = true) ∧
    (∀ n, (∀ k, n ≤ k → stop k = true) →
      (biLoop A K stop b tolSq maxIter s).iterations ≤ max s.iterations (n / 2 + 1)) := by
  induction hn : maxIter - s.iterations using Nat.strong_induction_on generalizing s with
  | _ m ih =>
    have leaf : ∀ r : BiResult V, r.status ≠ .interrupted → r.iterations = s.iterations →
        (r.status = .interrupted → ∃ k, stop k = true) ∧
        (∀ n, (∀ k, n ≤ k → stop k = true) → r.iterations ≤ max s.iterations (n / 2 + 1)) :=
      fun r h1 h2 => ⟨fun h => absurd h h1, fun n _ => by rw [h2]; exact le_max_left _ _⟩
    have asked : ∀ r : BiResult V, (∃ k, stop k = true) → r.iterations = s.iterations →
        (r.status = .interrupted → ∃ k, stop k = true) ∧
        (∀ n, (∀ k, n ≤ k → stop k = true) → r.iterations ≤ max s.iterations (n / 2 + 1)) :=
      fun r h1 h2 => ⟨fun _ => h1, fun n _ => by rw [h2]; exact le_max_left _ _⟩
    rw [biLoop]
    cases h1 : restartV A stop s with
    | none => exact asked _ (restartV_none h1) rfl
    | some q =>
      obtain ⟨s₁, ρ⟩ := q
      have c1 := restartV_calls h1
      simp only
      by_cases e1 : ρ = 0
      · rw [if_pos e1]
        exact leaf _ (by simp) rfl
      rw [if_neg e1]
      by_cases e2 : ‖s₁.r - (s.rho / ρ) • s.v‖ ^ 2 ≤ tolSq
      · rw [if_pos e2]
        exact leaf _ (by simp) rfl
      rw [if_neg e2]
      by_cases e3 : stop s₁.calls = true
      · rw [if_pos e3]
        exact asked _ ⟨_, e3⟩ rfl
      rw [if_neg e3]
      generalize s₁.r - (s.rho / ρ) • s.v = sv
      generalize A (K s.precs sv) = t
      by_cases e4 : ⟪t, t⟫ > 0
      swap
      · rw [if_neg e4]
        exact leaf _ (by simp) rfl
      rw [if_pos e4]
      generalize sv - (⟪sv, t⟫ / ⟪t, t⟫) • t = r
      by_cases e5 : ‖r‖ ^ 2 ≤ tolSq
      · rw [if_pos e5]
        exact leaf _ (by simp) rfl
      rw [if_neg e5]
      by_cases e6 : s.iterations ≥ maxIter
      · rw [dif_pos e6]
        exact leaf _ (by simp) rfl
      rw [dif_neg e6]
      split
      · rename_i h2
        exact asked _ (resetR0s_none h2) rfl
      · rename_i s₃ ρ' h2
        have c2 := resetR0s_calls h2
        simp only at c2
        by_cases e7 : s.rho = 0 ∨ ⟪sv, t⟫ / ⟪t, t⟫ = 0
        · rw [if_pos e7]
          by_cases e8 : stop s₃.calls = true
          · rw [if_pos e8]
            exact asked _ ⟨_, e8⟩ rfl
          · rw [if_neg e8]
            refine ⟨fun h => (by cases h), fun n hn => ?_⟩
            have : s₃.calls < n := by
              by_contra hle
              exact e8 (hn _ (by omega))
            simp only
            omega
        · rw [if_neg e7]
          by_cases e9 : stop s₃.calls = true
          · rw [if_pos e9]
            exact asked _ ⟨_, e9⟩ rfl
          · rw [if_neg e9]
            have hlt : 2 * (s.iterations + 1) ≤ s₃.calls + 1 := by omega
            obtain ⟨g1, g2⟩ := ih (maxIter - (s.iterations + 1)) (by omega) { s₃ with
              v := A (K (s.precs + 1) (s₃.r + (ρ' / s.rho * (s.rho / ρ / (⟪sv, t⟫ / ⟪t, t⟫))) •
                (s.p - (⟪sv, t⟫ / ⟪t, t⟫) • s.v)))
              p := s₃.r + (ρ' / s.rho * (s.rho / ρ / (⟪sv, t⟫ / ⟪t, t⟫))) • (s.p - (⟪sv, t⟫ / ⟪t, t⟫) • s.v)
              y := K (s.precs + 1) (s₃.r + (ρ' / s.rho * (s.rho / ρ / (⟪sv, t⟫ / ⟪t, t⟫))) •
                (s.p - (⟪sv, t⟫ / ⟪t, t⟫) • s.v))
              rho := ρ'
              iterations := s.iterations + 1
              calls := s₃.calls + 1
              precs := s.precs + 2 } hlt rfl
            refine ⟨g1, fun n hn => (g2 n hn).trans ?_⟩
            have : s₃.calls < n := by
              by_contra hle
              exact e9 (hn _ (by omega))
            simp only
            omega

/-- C96: the iterative solver reports an interruption only if a product asked for one, and once products keep asking, from
call number `n` on, it makes at most `n / 2 + 1` iterations. Each iteration makes at least two products. -/
theorem bicg_stops_partial (A : V →ₗ[ℝ] V) (K : ℕ → V → V) (stop : ℕ → Bool) (tol : ℝ) (maxIter : ℕ) (x₀ b : V) :
    ((biSolve A K stop tol maxIter x₀ b).status = .interrupted → ∃ k, stop k = true) ∧
    (∀ n, (∀ k, n ≤ k → stop k = true) → (biSolve A K stop tol maxIter x₀ b).iterations ≤ n / 2 + 1) := by
  unfold biSolve
  split_ifs with h1 h2
  · exact ⟨fun h => (by cases h), fun n _ => Nat.zero_le _⟩
  · exact ⟨fun _ => ⟨0, h2⟩, fun n _ => Nat.zero_le _⟩
  · obtain ⟨g1, g2⟩ := biLoop_asked A K stop b (‖b‖ ^ 2 * (tol * tol)) maxIter
      { x := x₀, r := b - A x₀, r0s := b - A x₀, r0sNormSq := ‖b - A x₀‖ ^ 2, v := A (K 0 (b - A x₀)), p := b - A x₀,
        y := K 0 (b - A x₀), rho := 1, rNormSq := ‖b - A x₀‖ ^ 2, iterations := 1, calls := 2, precs := 1,
        stale := false } (le_refl 2)
    exact ⟨g1, fun n hn => (g2 n hn).trans (by simp)⟩

omit [NormedAddCommGroup V] [InnerProductSpace ℝ V] in
theorem crPoisoned_asked (stop : ℕ → Bool) (maxIter i : ℕ) :
    ((crPoisoned (V := V) stop maxIter i).status = .interrupted → ∃ k, stop k = true) ∧
    (∀ n, (∀ k, n ≤ k → stop k = true) → (crPoisoned (V := V) stop maxIter i).iterations ≤ max (i + 1) n) := by
  induction hn : maxIter - i using Nat.strong_induction_on generalizing i with
  | _ m ih =>
    rw [crPoisoned]
    split_ifs with h1 h2
    · exact ⟨fun h => (by cases h), fun n _ => le_max_left _ _⟩
    · exact ⟨fun _ => ⟨_, h2⟩, fun n _ => le_max_left _ _⟩
    · obtain ⟨g1, g2⟩ := ih (maxIter - (i + 1)) (by omega) (i + 1) rfl
      refine ⟨g1, fun n hn => (g2 n hn).trans ?_⟩
      have : i + 2 < n := by
        by_contra hle
        exact h2 (hn _ (by omega))
      omega

theorem crLoop_asked (A : V →ₗ[ℝ] V) (stop : ℕ → Bool) (b : V) (tol : ℝ) (maxIter : ℕ) (s : CrState V) :
    ((crLoop A stop b tol maxIter s).status = .interrupted → ∃ k, stop k = true) ∧
    (∀ n, (∀ k, n ≤ k → stop k = true) → (crLoop A stop b tol maxIter s).iterations ≤ max (s.iterations + 1) n) := by
  induction hn : maxIter - s.iterations using Nat.strong_induction_on generalizing s with
  | _ m ih =>
    rw [crLoop]
    simp only
    split_ifs with h1 h2 h3 h4 h5
    · exact crPoisoned_asked _ _ _
    · exact ⟨fun h => (by cases h), fun n _ => le_max_left _ _⟩
    · exact ⟨fun h => (by cases h), fun n _ => le_max_left _ _⟩
    · exact ⟨fun _ => ⟨_, h4⟩, fun n _ => le_max_left _ _⟩
    · obtain ⟨g1, g2⟩ := crPoisoned_asked (V := V) stop maxIter (s.iterations + 1)
      refine ⟨g1, fun n hn => (g2 n hn).trans ?_⟩
      have : s.iterations + 2 < n := by
        by_contra hle
        exact h4 (hn _ (by omega))
      omega
    · obtain ⟨g1, g2⟩ := ih (maxIter - (s.iterations + 1)) (by omega) ⟨s.x + (s.rar / ⟪s.ap, s.ap⟫) • s.p,
        s.r - (s.rar / ⟪s.ap, s.ap⟫) • s.ap, _, _, _, s.iterations + 1⟩ rfl
      refine ⟨g1, fun n hn => (g2 n hn).trans ?_⟩
      have : s.iterations + 2 < n := by
        by_contra hle
        exact h4 (hn _ (by omega))
      simp only
      omega

/-- C96: so does the conjugate residual solver, within `max 1 n` iterations. -/
theorem cr_stops_partial (A : V →ₗ[ℝ] V) (stop : ℕ → Bool) (tol : ℝ) (maxIter : ℕ) (x₀ b : V) :
    ((crSolve A stop tol maxIter x₀ b).status = .interrupted → ∃ k, stop k = true) ∧
    (∀ n, (∀ k, n ≤ k → stop k = true) → (crSolve A stop tol maxIter x₀ b).iterations ≤ max 1 n) := by
  unfold crSolve
  simp only
  split_ifs with h1 h2
  · exact ⟨fun _ => ⟨0, h1⟩, fun n _ => Nat.zero_le _⟩
  · exact ⟨fun h => (by cases h), fun n _ => Nat.zero_le _⟩
  · exact crLoop_asked _ _ _ _ _ _

/-- C96 (violated): a product that asks to interrupt does not end the solve if it is the second one: both solvers go on and
report success. -/
theorem second_product_violated :
    ∃ stop : ℕ → Bool, stop 1 = true ∧
      (biSolve (LinearMap.id : ℝ →ₗ[ℝ] ℝ) (fun _ => id) stop (1 / 2) 10 0 1).status = .success ∧
      1 ≤ (biSolve (LinearMap.id : ℝ →ₗ[ℝ] ℝ) (fun _ => id) stop (1 / 2) 10 0 1).iterations ∧
      (crSolve (LinearMap.id : ℝ →ₗ[ℝ] ℝ) stop (1 / 2) 10 0 1).status = .success ∧
      1 ≤ (crSolve (LinearMap.id : ℝ →ₗ[ℝ] ℝ) stop (1 / 2) 10 0 1).iterations := by
  have hi : ∀ a b : ℝ, ⟪a, b⟫ = b * a := fun a b => by simp
  have hb : biSolve (LinearMap.id : ℝ →ₗ[ℝ] ℝ) (fun _ => id) (fun k => k == 1) (1 / 2) 10 0 1 =
      ⟨⟨.success, 1, some 0, some 1⟩, false⟩ := by
    have he : ¬ (1 : ℝ) ≤ eps64 * eps64 := by norm_num [eps64]
    unfold biSolve
    norm_num
    rw [biLoop]
    norm_num [restartV, hi, he]
  have hc : crSolve (LinearMap.id : ℝ →ₗ[ℝ] ℝ) (fun k => k == 1) (1 / 2) 10 0 1 =
      ⟨.success, 1, some 0, some 1⟩ := by
    have he : ¬ (1 : ℝ) ≤ eps64 * eps64 := by norm_num [eps64]
    unfold crSolve
    norm_num [he]
    rw [crLoop]
    norm_num [hi]
  refine ⟨fun k => k == 1, rfl, ?_⟩
  rw [hb, hc]
  exact ⟨rfl, le_rfl, rfl, le_rfl⟩

/-- C96: if the fine interrupter asks to interrupt at the first product, the linear solve hands back its initial guess as
the solution. -/
theorem interrupted_linear (A : V →ₗ[ℝ] V) (K : ℕ → V → V) (f : Checker) (hf : f 0 = true) (tol : ℝ) (maxIter : ℕ)
    (p r : V) (hr : r ≠ 0) : linearSolve A K (fine f) tol maxIter p r = .solution true p := by
  have : ¬ ‖r‖ ^ 2 = 0 := by simpa using hr
  have hs : (biSolve A K (fun k => !fine f k) tol maxIter p r).x = some p := by
    unfold biSolve
    rw [if_neg this, if_pos (by simp [fine, hf])]
  unfold linearSolve
  rw [hs]

/-- C96: a linear solve that is not interrupted and succeeds hands back a vector that solves the system to the tolerance,
under the conditions of C30. -/
theorem converged_linear (A : V →ₗ[ℝ] V) (K : ℕ → V → V) (inner : Callback) (tol : ℝ) (htol : 0 ≤ tol) (maxIter : ℕ)
    (p r : V) (h : (biSolve A K (fun k => !inner k) tol maxIter p r).status = .success)
    (hs : NotOverwritten (biSolve A K (fun k => !inner k) tol maxIter p r)) :
    ∃ x, linearSolve A K inner tol maxIter p r = .solution true x ∧ ‖r - A x‖ ≤ tol * ‖r‖ := by
  obtain ⟨x, hx, hle, -⟩ := bicg_success_partial A K _ tol htol maxIter p r h hs
  refine ⟨x, ?_, hle⟩
  unfold linearSolve
  rw [hx]

/-- The hypotheses of `converged_linear` are met with a fine interrupter that never asks to interrupt. -/
example : ∃ x, linearSolve stretch (fun _ z => z) (fine fun _ => false) (1 / 5) 1 0 ⟨1, 1⟩ = .solution true x ∧
    ‖(⟨1, 1⟩ : ℂ) - stretch x‖ ≤ 1 / 5 * ‖(⟨1, 1⟩ : ℂ)‖ :=
  converged_linear _ _ _ _ (by norm_num) _ _ _ stretch_run.1 stretch_run.2

end Linear

/-! ## The fine interrupter -/

section Fine

variable {V : Type*} [NormedAddCommGroup V] [InnerProductSpace ℝ V]

/-- The linear solves of the iterations of a solver whose fine interrupter always answers `true`, as long as the residual
is `r` and the initial guess zero, as it is in a new solver. -/
def allInterrupted (A : ℕ → V →ₗ[ℝ] V) (K : ℕ → ℕ → V → V) (tol : ℕ → ℝ) (maxIter : ℕ) (r : V) : ℕ → Linear V :=
  fun k => linearSolve (A k) (K k) (fine fun _ => true) (tol k) maxIter 0 r

theorem loop_stuck (cfg : Config) (hrho : cfg.rho = 1) (had : cfg.adaptive = false) (P : Newton.Problem V)
    (o : Oracle V) (ho : ∀ k, o.interrupt k = false) (hl : ∀ k, o.linear k = .solution true 0) (orig : List ℝ)
    (origTol : ℝ) (n : ℕ) (x : V) (hm : (P.merit orig x (P.residual orig x)).isSome) (s : Iter V)
    (hs : s.pt = moveTo P orig x) (he : s.eps = orig) (hc : s.meritCur = P.merit orig x (P.residual orig x)) :
    ∃ r, mainLoop cfg P o orig origTol n s = some r ∧
      (r.status = .success ∨ r.status = .maximumIterationsExceeded) ∧ r.pt = moveTo P orig x ∧
      s.iterations < r.iterations := by
  induction hn : cfg.maxIter - s.iterations using Nat.strong_induction_on generalizing s with
  | _ m ih =>
    rw [mainLoop, if_neg (by simp [ho]), if_neg (by rw [hc]; intro h; simp [h] at hm)]
    simp only [hl, not_true_eq_false, if_false]
    have hls : lineSearch cfg P (prepare cfg origTol s).eps
        (testAlpha cfg P (prepare cfg origTol s).tol (prepare cfg origTol s).pt.r (prepare cfg origTol s).meritCur
          (direction cfg P (prepare cfg origTol s).eps (prepare cfg origTol s).pt (-0)).1)
        (o.contactAlpha s.iterations) (o.frictionAlpha s.iterations) (prepare cfg origTol s).pt.x
        (direction cfg P (prepare cfg origTol s).eps (prepare cfg origTol s).pt (-0)).2 =
        some ⟨1, 1, moveTo P orig x, P.merit orig x (P.residual orig x), false, false⟩ := by
      have hx : (prepare cfg origTol s).pt.x = x := by
        change s.pt.x = x
        rw [hs]
        rfl
      have he' : (prepare cfg origTol s).eps = orig := he
      have hd : (direction cfg P (prepare cfg origTol s).eps (prepare cfg origTol s).pt (-0)).2 = 0 := by
        unfold direction
        rw [if_neg (by rw [hrho]; norm_num)]
        simp
      rw [hd, hx, he']
      unfold lineSearch
      simp only [add_zero]
      rw [if_neg (by rw [hrho]; norm_num)]
      simp only [hrho, lt_self_iff_false, decide_false]
      rfl
    rw [hls]
    simp only [Bool.false_eq_true, false_and, if_false]
    split_ifs with c2 c3
    · exact ⟨_, rfl, Or.inl rfl, rfl, Nat.lt_succ_self _⟩
    · exact ⟨_, rfl, Or.inr rfl, rfl, Nat.lt_succ_self _⟩
    · have c3' : ¬ s.iterations + 1 ≥ cfg.maxIter := c3
      have hnext : ∀ t : Iter V, nextIter cfg P orig n (P.merit orig x (P.residual orig x)) t =
          { t with meritPrev := t.meritCur, meritCur := P.merit orig x (P.residual orig x) } := by
        intro t
        unfold nextIter
        simp [had]
      rw [hnext]
      obtain ⟨r, g1, g2, g3, g4⟩ := ih (cfg.maxIter - (s.iterations + 1)) (by omega)
        { accept cfg (prepare cfg origTol s) (-0)
            ⟨1, 1, moveTo P orig x, P.merit orig x (P.residual orig x), false, false⟩ with
          meritPrev := (accept cfg (prepare cfg origTol s) (-0)
            ⟨1, 1, moveTo P orig x, P.merit orig x (P.residual orig x), false, false⟩).meritCur
          meritCur := P.merit orig x (P.residual orig x) } rfl he rfl rfl
      exact ⟨r, g1, g2, g3, lt_trans (Nat.lt_succ_self _) g4⟩

theorem guess_finite (P : Newton.Problem V) (eps : List ℝ) (x : V) (hm : (P.merit eps x (P.residual eps x)).isSome) :
    initialGuess P eps 10 (moveTo P eps x) = moveTo P eps x := by
  unfold initialGuess
  exact if_pos hm

/-- C96 (violated): the Newton solver does not look at the status of linear solves. If the fine interrupter always answers
`true`, solves without a line search are not interrupted: they go on to report success or the limit of iterations,
without having moved. -/
theorem fine_solve_violated (cfg : Config) (hrho : cfg.rho = 1) (had : cfg.adaptive = false) (P : Newton.Problem V)
    (A : ℕ → V →ₗ[ℝ] V) (K : ℕ → ℕ → V → V) (tol : ℕ → ℝ) (maxIter n : ℕ) (ca fa : ℕ → ℝ) (sv : Newton.Solver) (x : V)
    (hm : (P.merit sv.eps x (P.residual sv.eps x)).isSome) (hr : P.residual sv.eps x ≠ 0) :
    ∃ r, solveWith cfg P (oracle build n (allInterrupted A K tol maxIter (P.residual sv.eps x)) ca fa) false true false
        sv x = some r ∧
      (r.status = .success ∨ r.status = .maximumIterationsExceeded) ∧ r.pt.x = x ∧ 0 < r.iterations := by
  have he : sv.eps.map (initEps cfg sv.prevCount) = sv.eps := by
    have : initEps cfg sv.prevCount = id := by
      funext e
      simp [initEps, had]
    rw [this, List.map_id]
  unfold solveWith
  simp only [Bool.false_eq_true, if_false, not_true_eq_false, he, guess_finite P sv.eps x hm]
  obtain ⟨r, g1, g2, g3, g4⟩ := loop_stuck cfg hrho had P
    (oracle build n (allInterrupted A K tol maxIter (P.residual sv.eps x)) ca fa) (fun _ => rfl)
    (fun k => interrupted_linear _ _ _ rfl _ _ _ _ hr) sv.eps sv.tol sv.prevCount x hm
    { pt := moveTo P sv.eps x, eps := sv.eps, meritCur := P.merit sv.eps x (P.residual sv.eps x),
      meritPrev := P.merit sv.eps x (P.residual sv.eps x), tol := sv.tol, iterations := 0, tols := [], epsilons := [],
      log := [] } rfl rfl rfl
  exact ⟨r, g1, g2, by rw [g3]; rfl, g4⟩

/-- C96 (violated): with the default line search, it panics instead if the directory `./out` is not there. -/
theorem fine_panic_violated (cfg : Config) (hrho : cfg.rho = 0.9) (hc0 : 0 < cfg.c) (hc1 : cfg.c ≤ 1)
    (hit : cfg.iterative = true) (hass : cfg.assisted = false) (hobj : cfg.objMerit = false)
    (hout : cfg.outDir = false) (had : cfg.adaptive = false) (P : Newton.Problem V)
    (A : ℕ → V →ₗ[ℝ] V) (K : ℕ → ℕ → V → V) (tol : ℕ → ℝ) (maxIter n : ℕ) (sv : Newton.Solver)
    (ht0 : 0 < sv.tol) (ht1 : sv.tol < 1) (x : V) (m : ℝ) (hm0 : 0 < m)
    (hm : P.merit sv.eps x (P.residual sv.eps x) = some m) (hr : P.residual sv.eps x ≠ 0) :
    ∃ r, solveWith cfg P (oracle build n (allInterrupted A K tol maxIter (P.residual sv.eps x)) (fun _ => 1) fun _ => 1)
        false true false sv x = some r ∧ r.status = .panicked := by
  have he : sv.eps.map (initEps cfg sv.prevCount) = sv.eps := by
    have : initEps cfg sv.prevCount = id := by
      funext e
      simp [initEps, had]
    rw [this, List.map_id]
  unfold solveWith
  simp only [Bool.false_eq_true, if_false, not_true_eq_false, he, guess_finite P sv.eps x (by rw [hm]; rfl)]
  have hmx : P.merit sv.eps (moveTo P sv.eps x).at' (moveTo P sv.eps x).r = some m := hm
  rw [mainLoop]
  have hl : ∀ k, (oracle build n (allInterrupted A K tol maxIter (P.residual sv.eps x)) (fun _ => 1)
      fun _ => 1).linear k = .solution true 0 := fun k => interrupted_linear _ _ _ rfl _ _ _ _ hr
  have hi : ∀ k, (oracle build n (allInterrupted A K tol maxIter (P.residual sv.eps x)) (fun _ => 1)
      fun _ => 1).interrupt k = false := fun k => rfl
  simp only [hi, hl, hmx, Bool.false_eq_true, if_false, reduceCtorEq, not_true_eq_false]
  obtain ⟨tl, htl, ht⟩ : ∃ t, (0 < t ∧ t < 1) ∧ forcing sv.tol sv.tol (etaRatio (some m) (some m)) = t := by
    obtain ⟨h1, h2⟩ := forcing_range sv.tol sv.tol (etaRatio (some m) (some m)) ht0
    exact ⟨_, ⟨h1, by linarith⟩, rfl⟩
  simp only [prepare, hit, if_true, ht]
  have hd : ∀ pt, (direction cfg P sv.eps pt (-0)).2 = (0 : V) := by
    intro pt
    unfold direction
    split_ifs
    · simp
    · simp
  rw [hd]
  obtain ⟨ls, hls⟩ := lineSearch_terminates cfg P sv.eps (by rw [hrho]; norm_num)
    (testAlpha cfg P tl (moveTo P sv.eps x).r (some m)
      (direction cfg P sv.eps (moveTo P sv.eps x) (-0)).1) 1 1 (moveTo P sv.eps x).x 0
  obtain ⟨h1, ⟨a, h2⟩, h3, -⟩ := lineSearch_spec _ _ _ _ _ _ _ _ _ hls
  have hpt : ls.pt = moveTo P sv.eps x := by
    rw [h2, smul_zero, add_zero]
    rfl
  have hpos : 0 < ls.alpha := by
    have h := hls
    unfold lineSearch at h
    simp only at h
    split_ifs at h with hh hh'
    · simp_all
    · exact backtrack_alpha_pos cfg P _ (by rw [hrho]; norm_num) _ _ _ _ _ _ _ h (by simp [startAlpha, hass])
    · simp only [Option.some.injEq] at h
      rw [← h]
      norm_num
  have hle := (lineSearch_alpha cfg P sv.eps (by rw [hrho]; norm_num) _ 1 1 zero_le_one zero_le_one _ _ _ hls).2
  have hfail : ls.passed = false := by
    by_contra hp
    obtain ⟨-, hte, -⟩ := h3 (by simpa using hp)
    rw [h1, hpt, hmx] at hte
    simp only [testAlpha, hit, hobj, if_true, Bool.false_eq_true, if_false, Option.map_some, le'] at hte
    have f0 : 0 < cfg.c * ls.alpha * (1 - tl) := mul_pos (mul_pos hc0 hpos) (by linarith [htl.2])
    have f1 : cfg.c * ls.alpha * (1 - tl) ≤ 1 := by
      have : cfg.c * ls.alpha ≤ 1 := by nlinarith
      nlinarith [mul_pos hc0 hpos, htl.1]
    nlinarith [mul_pos hm0 f0]
  obtain ⟨d1, d2, d3⟩ := failed_search_dumps cfg hrho hass _ _ _ _ _ _ _ _ hls hfail
  have hls' : lineSearch cfg P sv.eps (testAlpha cfg P tl (moveTo P sv.eps x).r (some m)
      (direction cfg P sv.eps (moveTo P sv.eps x) (-0)).1)
      ((oracle build n (allInterrupted A K tol maxIter (P.residual sv.eps x)) (fun _ => 1) fun _ => 1).contactAlpha 0)
      ((oracle build n (allInterrupted A K tol maxIter (P.residual sv.eps x)) (fun _ => 1) fun _ => 1).frictionAlpha 0)
      (moveTo P sv.eps x).x 0 = some ls := hls
  rw [hls']
  simp only
  rw [if_pos ⟨d1, d2, d3, by rw [hout]; simp⟩]
  exact ⟨_, rfl, rfl⟩

end Fine

/-! ## Steps -/

section Steps

open Solver

variable {X V : Type*}

/-- The solver with another number of steps taken. -/
def withCount (n : ℕ) (s : Sim X V) : Sim X V := { s with iterationCount := n }

theorem commit_count (env : Env X V) (par : Params) (n : ℕ) (s : Sim X V) (x : V)
    (h : s.iterationCount % par.clearSteps = 0 ↔ n % par.clearSteps = 0) :
    commit env par (withCount n s) x = withCount n (commit env par s x) := by
  unfold commit withCount
  simp only [h]

theorem relax_count (n : ℕ) (s : Sim X V) (cv : ContactViolation) : relax (withCount n s) cv = withCount n (relax s cv) := by
  unfold relax withCount
  split_ifs <;> rfl

theorem relax_iterationCount (s : Sim X V) (cv : ContactViolation) : (relax s cv).iterationCount = s.iterationCount := by
  unfold relax
  split_ifs <;> rfl

theorem loop_count' (env : Env X V) (par : Params) (ω : ℕ → Outcome V) (n : ℕ) :
    ∀ k ci s st, (s.iterationCount % par.clearSteps = 0 ↔ n % par.clearSteps = 0) →
      contactLoop env par ω k ci (withCount n s) st =
        { contactLoop env par ω k ci s st with sim := withCount n (contactLoop env par ω k ci s st).sim } := by
  intro k ci
  induction hn : ci.toNat using Nat.strong_induction_on generalizing k ci with
  | _ m ih =>
    intro s st h
    rw [contactLoop, contactLoop.eq_def env par ω k ci s st]
    simp only
    have hf : (withCount n s).fcs = s.fcs := rfl
    rw [hf]
    split_ifs with h1 h2 h3
    · simp only [commit_count _ _ _ _ _ h]
    · have := ih (ci - 1).toNat (by omega) (k + 1) (ci - 1) rfl
        (bump s (contactViolation env.numVertices s.fcs (ω k).cached))
        (record st (ω k) (contactViolation env.numVertices s.fcs (ω k).cached)) h
      exact this
    · rw [relax_count, commit_count _ _ _ _ _ (by rw [relax_iterationCount]; exact h)]
    · rfl

/-- C96: if the first solve of a step with a single stage is interrupted, the step fails, nothing of the simulation has
changed but the number of steps, and the integrator is that of the settings. The time step, the state, the starting
point and the stiffnesses of contacts are as before. -/
theorem interrupted_step_partial (env : Env X V) (par : Params) (hone : par.integrator.numStages = 1)
    (ω : ℕ → Outcome V) (hω : (ω 0).status = status .interrupted) (s : Sim X V) :
    step env par ω (fun _ => true) s =
      ⟨1, { s with iterationCount := s.iterationCount + 1, integration := (par.integrator.stepIntegrator 0).1 }, none⟩ := by
  have hfac : (par.integrator.stepIntegrator 0).2 = 1 := by
    revert hone
    cases par.integrator <;> simp [TimeInt.TimeIntegration.numStages, TimeInt.TimeIntegration.stepIntegrator]
  unfold step
  rw [hone]
  simp only [List.range_one, stages, if_true]
  rw [contactLoop]
  simp only [hω, status, reduceCtorEq, or_self, if_false, hfac, mul_one]

/-- C96: a step after an interrupted one gives what it would have given without the interrupted one, unless velocities are
cleared periodically. -/
theorem interrupted_retry (env : Env X V) (par : Params) (hone : par.integrator.numStages = 1)
    (ω : ℕ → Outcome V) (hω : (ω 0).status = status .interrupted) (s : Sim X V)
    (hclear : s.iterationCount + 2 < par.clearSteps) (ω' : ℕ → Outcome V) (jacOk : ℕ → Bool) :
    (step env par ω' jacOk (step env par ω (fun _ => true) s).sim).solves = (step env par ω' jacOk s).solves ∧
    (step env par ω' jacOk (step env par ω (fun _ => true) s).sim).result = (step env par ω' jacOk s).result ∧
    (step env par ω' jacOk (step env par ω (fun _ => true) s).sim).sim =
      { (step env par ω' jacOk s).sim with iterationCount := s.iterationCount + 2 } := by
  rw [interrupted_step_partial env par hone ω hω s]
  unfold step
  rw [hone]
  simp only [List.range_one, stages]
  by_cases hj : jacOk 0 = true
  · simp only [if_pos hj]
    have hmod : (s.iterationCount + 1) % par.clearSteps = 0 ↔ (s.iterationCount + 2) % par.clearSteps = 0 := by
      rw [Nat.mod_eq_of_lt (by omega), Nat.mod_eq_of_lt (by omega)]
      omega
    have := loop_count' env par ω' (s.iterationCount + 2) 0 par.contactIterations
      { s with
        iterationCount := s.iterationCount + 1
        integration := (par.integrator.stepIntegrator 0).1
        timeStep := s.timeStep * (par.integrator.stepIntegrator 0).2 } ⟨(par.integrator.stepIntegrator 0).1, [], 0, 0⟩ hmod
    unfold withCount at this
    simp only at this
    rw [this]
    simp only
    split
    · exact ⟨rfl, rfl, rfl⟩
    · exact ⟨rfl, rfl, rfl⟩
  · simp only [if_neg hj]
    exact ⟨trivial, trivial, trivial⟩

example : ∃ (par : Params) (s : Sim ℝ ℝ) (ω : ℕ → Outcome ℝ), par.integrator.numStages = 1 ∧
    (ω 0).status = status .interrupted ∧ s.iterationCount + 2 < par.clearSteps :=
  ⟨⟨5, .BE, 10⟩, ⟨0, 0, 1, .BE, [], [], 0⟩, fun _ => ⟨.failed, 1, [], false⟩, rfl, rfl,
    by norm_num⟩

/-- C96 (violated): with two stages, an interruption in the second one leaves the state of the first one, and the next step
goes on from there; one in the first stage leaves the time step of that stage. -/
theorem interrupted_stages_violated :
    ∃ (env : Env ℝ ℝ) (par : Params) (s : Sim ℝ ℝ) (ω ω' : ℕ → Outcome ℝ),
      (ω 0).status = status .success ∧ (ω 1).status = status .interrupted ∧
      (step env par ω (fun _ => true) s).result = none ∧ (step env par ω (fun _ => true) s).sim.state ≠ s.state ∧
      (ω' 0).status = status .interrupted ∧
      (step env par ω' (fun _ => true) s).result = none ∧ (step env par ω' (fun _ => true) s).sim.timeStep ≠ s.timeStep := by
  refine ⟨⟨0, fun _ dt x v => x + dt * v, id⟩, ⟨5, .TRBDF2 (1 / 2), 10⟩, ⟨0, 0, 1, .BE, [], [], 0⟩,
    fun k => ⟨if k = 0 then .success else .failed, 2, [], false⟩, failing 0, rfl, rfl, ?_, ?_, rfl,
    (step_failing _ _ _ _).1, ?_⟩
  · rw [← Option.isNone_iff_eq_none]
    have hr : List.range 2 = [0, 1] := rfl
    unfold step
    simp only [TimeInt.TimeIntegration.numStages, hr, stages, if_true]
    rw [contactLoop]
    simp [contactViolation, contactConstraint, minBy, record, relax, commit]
    rw [contactLoop]
    simp
  · have hr : List.range 2 = [0, 1] := rfl
    unfold step
    simp only [TimeInt.TimeIntegration.numStages, hr, stages, if_true]
    rw [contactLoop]
    simp [contactViolation, contactConstraint, minBy, record, relax, commit]
    rw [contactLoop]
    simp [TimeInt.TimeIntegration.stepIntegrator]
  · rw [(step_failing _ _ _ _).2]
    norm_num [TimeInt.TimeIntegration.stepIntegrator]

end Steps

/-- C96 (violated): a fine interrupter that always answers `true` does not interrupt the step. The step reports a result, and
commits the velocities it started from as the solution. -/
theorem fine_step_violated {X V : Type*} [NormedAddCommGroup V] [InnerProductSpace ℝ V] (cfg : Config)
    (hrho : cfg.rho = 1) (had : cfg.adaptive = false) (P : Newton.Problem V) (A : ℕ → V →ₗ[ℝ] V) (K : ℕ → ℕ → V → V)
    (tol : ℕ → ℝ) (maxIter n : ℕ) (ca fa : ℕ → ℝ) (sv : Newton.Solver) (env : Solver.Env X V) (par : Solver.Params)
    (hbe : par.integrator = .BE) (s : Solver.Sim X V) (hfc : s.fcs = []) (hclear : s.iterationCount + 1 < par.clearSteps)
    (hm : (P.merit sv.eps s.initialPoint (P.residual sv.eps s.initialPoint)).isSome)
    (hr : P.residual sv.eps s.initialPoint ≠ 0) :
    ∃ r, solveWith cfg P (oracle build n (allInterrupted A K tol maxIter (P.residual sv.eps s.initialPoint)) ca fa) false
        true false sv s.initialPoint = some r ∧
      (Solver.step env par (fun _ => outcome r [] false) (fun _ => true) s).result ≠ none ∧
      (Solver.step env par (fun _ => outcome r [] false) (fun _ => true) s).sim.state =
        env.advance .BE s.timeStep s.state s.initialPoint := by
  obtain ⟨r, h1, h2, h3, -⟩ := fine_solve_violated cfg hrho had P A K tol maxIter n ca fa sv s.initialPoint hm hr
  refine ⟨r, h1, ?_⟩
  have hu : status r.status = .success ∨ status r.status = .maximumIterationsExceeded := by
    rcases h2 with h | h <;> simp [h, status]
  have hrange : List.range par.integrator.numStages = [0] := by
    rw [hbe]
    rfl
  have hsi : par.integrator.stepIntegrator 0 = (.BE, 1) := by
    rw [hbe]
    rfl
  have hmod : ¬ (s.iterationCount + 1) % par.clearSteps = 0 := by
    rw [Nat.mod_eq_of_lt hclear]
    omega
  unfold Solver.step
  simp only [hrange, Solver.stages, if_true]
  rw [Solver.contactLoop]
  simp only [outcome, if_pos hu, hfc, Solver.contactViolation, Solver.contactConstraint, Solver.minBy, h3, hsi, mul_one,
    List.zipIdx_nil, List.zip_nil_left, List.flatMap_nil, lt_self_iff_false, if_false]
  split_ifs with hci
  · exact ⟨by simp, by simp [Solver.commit, hmod]⟩
  · refine ⟨by simp, ?_⟩
    simp only [Solver.commit, Solver.relax, if_true]
    rw [if_neg hmod]

/-- The hypotheses are met by a simulation of one unknown. -/
example : ∃ (cfg : Config) (P : Newton.Problem ℝ) (sv : Newton.Solver) (par : Solver.Params) (s : Solver.Sim ℝ ℝ),
    cfg.rho = 1 ∧ cfg.adaptive = false ∧ cfg.iterative = true ∧ par.integrator = .BE ∧ s.fcs = [] ∧
      s.iterationCount + 1 < par.clearSteps ∧
      (P.merit sv.eps s.initialPoint (P.residual sv.eps s.initialPoint)).isSome ∧
      P.residual sv.eps s.initialPoint ≠ 0 :=
  ⟨{ defaultConfig with rho := 1, iterative := true },
    ⟨fun _ x => x - 1, fun _ _ r => some (r ^ 2 / 2), fun r => some (r ^ 2), fun _ _ r p => r * p, fun _ _ r => r == 0⟩,
    ⟨[], [], 1 / 10, 1⟩, ⟨5, .BE, 10⟩, ⟨0, 0, 1, .BE, [], [], 0⟩, rfl, rfl, rfl, rfl, rfl, by norm_num, rfl, by norm_num⟩

end Softy.Interrupt
