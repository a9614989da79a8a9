import Verif.Model.Stats
import Mathlib.Tactic.Linarith
import Mathlib.Tactic.Positivity
import Mathlib.Tactic.NormNum
import Mathlib.Analysis.SpecificLimits.Basic

/-!
# C126: the statistics of a solve describe its iterations
-/

noncomputable section

namespace Softy.Stats

theorem record_length (m : List ℝ) (i : ℕ) (lin : Linear) (prev : List ℝ) (l : List Step) :
    (record m i lin prev l).length = l.length := by
  induction l generalizing i lin prev with
  | nil => rfl
  | cons s l ih => simp [record, ih]

theorem record_get (m : List ℝ) (l : List Step) (i : ℕ) (lin : Linear) (prev : List ℝ) (k : ℕ)
    (hk : k < l.length) :
    ∃ e, (record m i lin prev l)[k]? = some e ∧ e.iteration = i + k + 1 ∧ e.lsSteps = l[k].ls ∧
      e.eta = l[k].eta ∧ e.alpha = l[k].alpha ∧ e.merit = l[k].merit ∧ e.rInf = normInf l[k].r ∧
      e.x2 = norm2 l[k].x ∧ e.aInf = accelInf l[k].r m ∧
      e.d2 = dist2 ((prev :: l.map fun s => s.x)[k]'(by simp; omega)) l[k].x ∧
      (∀ r, l[k].linear = some r → e.linear = r) ∧
      ((∀ s ∈ l, s.linear = none) → e.linear = lin) := by
  induction l generalizing i lin prev k with
  | nil => exact absurd hk (Nat.not_lt_zero _)
  | cons s l ih =>
    cases k with
    | zero =>
      refine ⟨_, rfl, rfl, rfl, rfl, rfl, rfl, rfl, rfl, rfl, rfl, ?_, ?_⟩
      · intro r hr
        have : s.linear = some r := hr
        simp [Info.new, this]
      · intro h
        simp [Info.new, h s List.mem_cons_self]
    | succ k =>
      have hk' : k < l.length := by simpa using hk
      obtain ⟨e, h1, h2, h3⟩ := ih (i + 1) (s.linear.getD lin) s.x k hk'
      refine ⟨e, ?_, by omega, ?_⟩
      · simpa [record] using h1
      · simp only [List.getElem_cons_succ, List.map_cons]
        obtain ⟨a1, a2, a3, a4, a5, a6, a7, a8, a9, a10⟩ := h3
        refine ⟨a1, a2, a3, a4, a5, a6, a7, a8, a9, fun h => ?_⟩
        rw [a10 fun t ht => h t (List.mem_cons_of_mem _ ht), h s List.mem_cons_self]
        rfl

/-- C126. There is an entry for the start and one for each iteration, in this order. -/
theorem stats_numbered (R : Run) (ws m : List ℝ) :
    (R.stats ws m).map (fun e => e.iteration) = List.range (R.steps.length + 1) := by
  refine List.ext_getElem? fun k => ?_
  cases k with
  | zero => simp [Run.stats, Info.new, List.range_succ_eq_map]
  | succ k =>
    by_cases hk : k < R.steps.length
    · obtain ⟨e, h1, h2, -⟩ := record_get m R.steps 0 .default R.x0 k hk
      have hr : (List.range (R.steps.length + 1))[k + 1]? = some (k + 1) :=
        List.getElem?_range (by omega)
      rw [hr, List.getElem?_map]
      simp only [Run.stats, List.getElem?_cons_succ, h1, Option.map_some, h2]
      congr 1
      omega
    · rw [List.getElem?_eq_none, List.getElem?_eq_none]
      · simp only [List.length_range]; omega
      · simp only [List.length_map, Run.stats, List.length_cons, record_length]; omega

/-- C126. The entry of an iteration has the largest coordinate of its residual, the length of its iterate,
the length of the step from the iterate before, and, with an iterative solver, the result of its linear
solve. -/
theorem stats_steps_partial (R : Run) (ws m : List ℝ) (k : ℕ) (hk : k < R.steps.length) :
    ∃ e, (R.stats ws m)[k + 1]? = some e ∧ e.lsSteps = R.steps[k].ls ∧ e.alpha = R.steps[k].alpha ∧
      e.merit = R.steps[k].merit ∧ e.rInf = normInf R.steps[k].r ∧ e.x2 = norm2 R.steps[k].x ∧
      e.d2 = dist2 ((R.x0 :: R.steps.map fun s => s.x)[k]'(by simp; omega)) R.steps[k].x ∧
      ∀ r, R.steps[k].linear = some r → e.linear = r := by
  obtain ⟨e, h1, -, h3, -, h5, h6, h7, h8, -, h10, h11, -⟩ := record_get m R.steps 0 .default R.x0 k hk
  exact ⟨e, by simpa [Run.stats] using h1, h3, h5, h6, h7, h8, h10, h11⟩

theorem record_linear (m : List ℝ) (l : List (Step × Linear)) (h : ∀ p ∈ l, p.1.linear = some p.2) (i : ℕ)
    (lin : Linear) (prev : List ℝ) :
    ((record m i lin prev (l.map Prod.fst)).map fun s => s.linear.iterations) =
      l.map fun p => p.2.iterations := by
  induction l generalizing i lin prev with
  | nil => rfl
  | cons p l ih =>
    have hp := h p List.mem_cons_self
    simp only [List.map_cons, record, hp, Option.getD_some]
    rw [ih fun q hq => h q (List.mem_cons_of_mem _ hq)]
    rfl

theorem record_search (m : List ℝ) (l : List Step) (i : ℕ) (lin : Linear) (prev : List ℝ) :
    ((record m i lin prev l).map fun s => s.lsSteps) = l.map fun s => s.ls := by
  induction l generalizing i lin prev with
  | nil => rfl
  | cons s l ih =>
    simp only [List.map_cons, record, ih]
    rfl

/-- C126. The totals that are printed for a solve are the sums over its iterations: of the steps of line
searches, and with an iterative solver, of the iterations of linear solves. -/
theorem totals_partial (R : Run) (ws m : List ℝ) (l : List (Step × Linear)) (hl : R.steps = l.map Prod.fst)
    (h : ∀ p ∈ l, p.1.linear = some p.2) :
    linearSteps (R.stats ws m) = (l.map fun p => p.2.iterations).sum ∧
      searchSteps (R.stats ws m) = (R.steps.map fun s => s.ls).sum := by
  unfold linearSteps searchSteps Run.stats
  constructor
  · rw [List.map_cons, List.sum_cons, hl, record_linear m l h]
    exact Nat.zero_add _
  · rw [List.map_cons, List.sum_cons, record_search]
    exact Nat.zero_add _

/-- C126 is false: with a direct solver all entries say that the linear solve took no iterations and left no
residual and no error, whatever the solver returned. -/
theorem direct_linear_violated (R : Run) (ws m : List ℝ) (h : ∀ s ∈ R.steps, s.linear = none) :
    ∀ e ∈ R.stats ws m, e.linear = ⟨0, 0, 0⟩ := by
  intro e he
  obtain ⟨k, hk⟩ := List.mem_iff_getElem?.1 he
  cases k with
  | zero =>
    simp only [Run.stats, List.getElem?_cons_zero, Option.some.injEq] at hk
    rw [← hk]
    rfl
  | succ k =>
    rw [Run.stats, List.getElem?_cons_succ] at hk
    have hk' : k < R.steps.length := by
      by_contra hn
      rw [List.getElem?_eq_none (by rw [record_length]; omega)] at hk
      exact absurd hk (by simp)
    obtain ⟨e', h1, h2⟩ := record_get m R.steps 0 .default R.x0 k hk'
    rw [hk] at h1
    rw [Option.some.inj h1]
    exact h2.2.2.2.2.2.2.2.2.2.2 h

/-- C126 is false: the first entry has the length of a step that no one took. If a solve begins where the
one before ended, it is the length of the last step of the one before. -/
theorem first_step_violated (R R' : Run) (ws m : List ℝ) (s : Step) (l : List Step)
    (hs : R.steps = l ++ [s]) (hx : R'.x0 = s.x) :
    ∃ e e', (R.stats ws m).getLast? = some e ∧ (R'.stats (R.workspace ws) m).head? = some e' ∧
      e'.iteration = 0 ∧ e'.d2 = e.d2 := by
  have hl : l.length < R.steps.length := by simp [hs]
  obtain ⟨e, h1, -, -, -, -, -, -, -, -, h10, -⟩ := record_get m R.steps 0 .default R.x0 l.length hl
  refine ⟨e, _, ?_, rfl, rfl, ?_⟩
  · rw [List.getLast?_eq_getElem?]
    have : (R.stats ws m).length - 1 = l.length + 1 := by
      simp [Run.stats, record_length, hs]
    rw [this, Run.stats, List.getElem?_cons_succ, h1]
  · have hg : R.steps[l.length] = s := by simp [hs]
    rw [h10, hg]
    show dist2 (R.workspace ws) R'.x0 = _
    rw [hx]
    congr 1
    unfold Run.workspace
    rw [List.getLast?_eq_getElem?]
    have hn : (R.x0 :: R.steps.map fun s => s.x).dropLast.length - 1 = l.length := by simp [hs]
    rw [hn, List.getElem?_dropLast, if_pos (by simp [hs]), List.getElem?_eq_getElem (by simp [hs]),
      Option.getD_some]

/-! ## Accelerations -/

/-- The residual of vertices with the given masses whose accelerations are off by the given amounts: the
momentum that they miss in a time step. -/
def missing (dt : ℝ) : List (ℝ × ℝ × ℝ × ℝ) → List ℝ
  | [] => []
  | (m, a) :: l => m * dt * a.1 :: m * dt * a.2.1 :: m * dt * a.2.2 :: missing dt l

/-- The largest of the accelerations. -/
def largest (l : List (ℝ × ℝ × ℝ × ℝ)) : ℝ := (l.map fun p => norm3 p.2).foldr max 0

theorem norm3_smul {c : ℝ} (hc : 0 ≤ c) (a : ℝ × ℝ × ℝ) :
    norm3 (c * a.1, c * a.2.1, c * a.2.2) = c * norm3 a := by
  unfold norm3
  rw [show (c * a.1) ^ 2 + (c * a.2.1) ^ 2 + (c * a.2.2) ^ 2 = c ^ 2 * (a.1 ^ 2 + a.2.1 ^ 2 + a.2.2 ^ 2) by
    ring, Real.sqrt_mul (by positivity), Real.sqrt_sq hc]

/-- C126 is false: what is called the norm of the accelerations is that of velocities. If the accelerations
of the vertices are off by the given amounts, the largest of these is reported times the time step. -/
theorem acceleration_violated {dt : ℝ} (hdt : 0 < dt) (l : List (ℝ × ℝ × ℝ × ℝ)) (hl : ∀ p ∈ l, 0 < p.1) :
    accelInf (missing dt l) (l.map fun p => 1 / p.1) = dt * largest l := by
  unfold accelInf largest
  induction l with
  | nil => simp [missing, chunks3]
  | cons p l ih =>
    have hp := hl p List.mem_cons_self
    have h2 := ih fun q hq => hl q (List.mem_cons_of_mem _ hq)
    obtain ⟨m, a⟩ := p
    simp only [missing, chunks3, List.map_cons, List.zip_cons_cons, List.foldr_cons] at h2 hp ⊢
    rw [h2, norm3_smul (by positivity), mul_max_of_nonneg _ _ hdt.le]
    congr 1
    field_simp

/-! ## Step sizes -/

theorem backtrack_result {rho : ℝ} {test : ℝ → Bool} {n ls ls' : ℕ} {alpha a t : ℝ}
    (h : backtrack rho test n alpha ls = some (a, t, ls')) :
    (a = t ∧ test t = true) ∨ (a = rho * t ∧ test t = false ∧ a < 1 / 10 ^ 20) := by
  induction n generalizing alpha ls with
  | zero => simp [backtrack] at h
  | succ n ih =>
    rw [backtrack] at h
    split_ifs at h with h1 h2
    · simp only [Option.some.injEq, Prod.mk.injEq] at h
      obtain ⟨rfl, rfl, -⟩ := h
      exact Or.inl ⟨rfl, h1⟩
    · simp only [Option.some.injEq, Prod.mk.injEq] at h
      obtain ⟨rfl, rfl, -⟩ := h
      exact Or.inr ⟨rfl, by simpa using h1, h2.1⟩
    · exact ih h

theorem backtrack_ends {rho : ℝ} (h0 : 0 < rho) (h1 : rho < 1) (test : ℝ → Bool) (alpha : ℝ) (ls : ℕ)
    (ha : 0 < alpha) : ∃ n a t ls', backtrack rho test n alpha ls = some (a, t, ls') := by
  obtain ⟨k, hk⟩ := exists_pow_lt_of_lt_one (show (0 : ℝ) < 1 / 10 ^ 20 / alpha by positivity) h1
  have key : ∀ (j : ℕ) (b : ℝ) (s : ℕ), 0 < b → rho ^ j * b < 1 / 10 ^ 20 → 3 ≤ s + j →
      ∃ n a t ls', backtrack rho test n b s = some (a, t, ls') := by
    intro j
    induction j with
    | zero =>
      intro b s hb hj hs
      refine ⟨1, ?_⟩
      rw [backtrack]
      split_ifs with c1 c2
      · exact ⟨_, _, _, rfl⟩
      · exact ⟨_, _, _, rfl⟩
      · refine absurd ⟨?_, by omega⟩ c2
        rw [pow_zero, one_mul] at hj
        exact (mul_lt_of_lt_one_left hb h1).trans hj
    | succ j ih =>
      intro b s hb hj hs
      obtain ⟨n, a, t, ls', h⟩ := ih (rho * b) (s + 1) (by positivity) (by
        rw [← mul_assoc, ← pow_succ]; exact hj) (by omega)
      refine ⟨n + 1, ?_⟩
      rw [backtrack]
      split_ifs
      · exact ⟨_, _, _, rfl⟩
      · exact ⟨_, _, _, rfl⟩
      · exact ⟨_, _, _, h⟩
  refine key (k + 3) alpha ls ha ?_ (by omega)
  have hk' : rho ^ k * alpha < 1 / 10 ^ 20 := (lt_div_iff₀ ha).1 hk
  have h3 : rho ^ 3 ≤ 1 := pow_le_one₀ h0.le h1.le
  rw [pow_add]
  calc rho ^ k * rho ^ 3 * alpha = rho ^ 3 * (rho ^ k * alpha) := by ring
    _ ≤ 1 * (rho ^ k * alpha) := mul_le_mul_of_nonneg_right h3 (by positivity)
    _ < _ := by rw [one_mul]; exact hk'

theorem backtrack_pos {rho : ℝ} (h0 : 0 < rho) {test : ℝ → Bool} {n ls ls' : ℕ} {alpha a t : ℝ}
    (ha : 0 < alpha) (h : backtrack rho test n alpha ls = some (a, t, ls')) : 0 < t := by
  induction n generalizing alpha ls with
  | zero => simp [backtrack] at h
  | succ n ih =>
    rw [backtrack] at h
    split_ifs at h
    · simp only [Option.some.injEq, Prod.mk.injEq] at h
      exact h.2.1 ▸ ha
    · simp only [Option.some.injEq, Prod.mk.injEq] at h
      exact h.2.1 ▸ ha
    · exact ih (by positivity) h

/-- The line search ends, with any assistance. -/
theorem lineSearch_ends {rho : ℝ} (h0 : 0 < rho) (test : ℝ → Bool) (cand : Option ℝ)
    (hc : ∀ c ∈ cand, 0 < c) : ∃ n a t ls, lineSearch rho test cand n = some (a, t, ls) := by
  by_cases h : rho < 1 ∧ test 1 = false
  · have hs : 0 < start rho cand := by
      cases cand with
      | none => exact one_pos
      | some c =>
        rw [start]
        split_ifs
        exacts [hc c rfl, h0]
    obtain ⟨n, a, t, ls, hn⟩ := backtrack_ends h0 h.1 test _ 1 hs
    exact ⟨n, a, t, ls, by rw [lineSearch, if_pos h, hn]⟩
  · exact ⟨0, 1, 1, 1, by rw [lineSearch, if_neg h]⟩

/-- C126. The fraction of the step that is reported is that of the iterate, unless the line search fails. If
the line search is enabled and does not fail, the iterate passes the test. -/
theorem alpha_partial {rho : ℝ} {test : ℝ → Bool} {cand : Option ℝ} {n ls : ℕ} {a t : ℝ}
    (h : lineSearch rho test cand n = some (a, t, ls)) :
    (a = t ∧ (rho < 1 → test t = true)) ∨ (a = rho * t ∧ test t = false ∧ a < 1 / 10 ^ 20) := by
  rw [lineSearch] at h
  split_ifs at h with h1
  · rcases backtrack_result h with ⟨h2, h3⟩ | h2
    · exact Or.inl ⟨h2, fun _ => h3⟩
    · exact Or.inr h2
  · simp only [Option.some.injEq, Prod.mk.injEq] at h
    obtain ⟨rfl, rfl, -⟩ := h
    refine Or.inl ⟨rfl, fun hr => ?_⟩
    by_contra hn
    exact h1 ⟨hr, by simpa using hn⟩

theorem dist_along {x p : List ℝ} (hl : x.length = p.length) {t : ℝ} (ht : 0 ≤ t) :
    dist2 x (along x p t) = t * norm2 p := by
  have key : (List.zipWith (fun a b => (a - b) * (a - b)) x (along x p t)).sum =
      t ^ 2 * (p.map fun a => a ^ 2).sum := by
    unfold along
    induction x generalizing p with
    | nil =>
      cases p with
      | nil => simp
      | cons b p => simp at hl
    | cons b x ih =>
      cases p with
      | nil => simp at hl
      | cons c p =>
        have := ih (p := p) (by simpa using hl)
        simp only [List.zipWith_cons_cons, List.sum_cons, List.map_cons]
        rw [this]
        ring
  unfold dist2 norm2
  rw [key, Real.sqrt_mul (by positivity), Real.sqrt_sq ht]

/-- C126. Unless its line search fails, the length of the step in the entry of an iteration is the fraction
in the entry of the length of the Newton step. -/
theorem step_length_partial (R : Run) (ws m : List ℝ) (k : ℕ) (hk : k < R.steps.length) {rho : ℝ}
    {test : ℝ → Bool} {cand : Option ℝ} {n : ℕ} {t : ℝ} {p : List ℝ}
    (hs : lineSearch rho test cand n = some (R.steps[k].alpha, t, R.steps[k].ls)) (ht : 0 ≤ t)
    (hp : ((R.x0 :: R.steps.map fun s => s.x)[k]'(by simp; omega)).length = p.length)
    (hx : R.steps[k].x = along ((R.x0 :: R.steps.map fun s => s.x)[k]'(by simp; omega)) p t)
    (hok : test t = true) :
    ∃ e, (R.stats ws m)[k + 1]? = some e ∧ e.d2 = e.alpha * norm2 p := by
  obtain ⟨e, h1, -, h3, -, -, -, h7, -⟩ := stats_steps_partial R ws m k hk
  refine ⟨e, h1, ?_⟩
  rw [h7, hx, dist_along hp ht, h3]
  rcases alpha_partial hs with ⟨h, -⟩ | ⟨-, h, -⟩
  · rw [h]
  · rw [hok] at h
    exact absurd h (by simp)

/-- C126 is false: if the line search fails, the fraction of the step that is reported is smaller than that of
the iterate by the step factor. -/
theorem alpha_violated {rho : ℝ} (h0 : 0 < rho) (h1 : rho < 1) :
    ∃ n a t ls, lineSearch rho (fun _ => false) none n = some (a, t, ls) ∧ 0 < t ∧ a = rho * t ∧ a < t := by
  obtain ⟨n, a, t, ls, h⟩ := lineSearch_ends h0 (fun _ => false) none (by simp)
  have ht : 0 < t := by
    rw [lineSearch, if_pos ⟨h1, rfl⟩] at h
    exact backtrack_pos h0 one_pos h
  refine ⟨n, a, t, ls, h, ht, ?_⟩
  suffices h2 : a = rho * t from ⟨h2, h2 ▸ mul_lt_of_lt_one_left ht h1⟩
  rcases alpha_partial h with ⟨-, h2⟩ | ⟨h2, -⟩
  · exact absurd (h2 h1) (by simp)
  · exact h2

/-! ## The hypotheses are met -/

/-- A solve with two iterations of a direct solver. -/
def exRun : Run where
  x0 := [0, 0, 0]
  r0 := [4, 0, 3]
  merit0 := 25 / 2
  tol := 1 / 1000
  steps := [⟨[1, 0, 0], [2, 0, 0], 1, none, 1 / 1000, 1, 2⟩, ⟨[4, 4, 0], [0, 0, 1 / 100], 2, none, 1 / 1000,
    1 / 2, 1 / 20000⟩]

example : (∀ s ∈ exRun.steps, s.linear = none) ∧ 1 < exRun.steps.length ∧
    exRun.steps = [exRun.steps[0]] ++ [exRun.steps[1]] := by
  refine ⟨fun s hs => ?_, by decide, rfl⟩
  simp only [exRun, List.mem_cons, List.not_mem_nil, or_false] at hs
  rcases hs with rfl | rfl <;> rfl

/-- A solve that begins where the other ended reports a step of length five at its start. -/
example : ∃ e, ((⟨[4, 4, 0], [0, 0, 0], 0, 1 / 1000, []⟩ : Run).stats (exRun.workspace [0, 0, 0])
    [1]).head? = some e ∧ e.d2 = 5 := by
  refine ⟨_, rfl, ?_⟩
  simp only [Info.new, dist2, exRun, Run.workspace, List.map_cons, List.map_nil, List.dropLast_cons_cons,
    List.dropLast_singleton, List.getLast?_cons_cons, List.getLast?_singleton, Option.getD_some,
    List.zipWith_cons_cons, List.zipWith_nil_left, List.sum_cons, List.sum_nil]
  rw [show ((1 : ℝ) - 4) * (1 - 4) + ((0 - 4) * (0 - 4) + ((0 - 0) * (0 - 0) + 0)) = 5 ^ 2 by norm_num]
  exact Real.sqrt_sq (by norm_num)

example : ∃ (R : Run) (l : List (Step × Linear)), R.steps = l.map Prod.fst ∧ l.length = 2 ∧
    ∀ p ∈ l, p.1.linear = some p.2 := by
  refine ⟨⟨[0], [1], 1 / 2, 1 / 1000, [⟨[1], [1 / 2], 1, some ⟨5, 0, 0⟩, 1 / 1000, 1, 1 / 8⟩,
    ⟨[2], [0], 1, some ⟨7, 0, 0⟩, 1 / 1000, 1, 0⟩]⟩, [(⟨[1], [1 / 2], 1, some ⟨5, 0, 0⟩, 1 / 1000, 1, 1 / 8⟩,
    ⟨5, 0, 0⟩), (⟨[2], [0], 1, some ⟨7, 0, 0⟩, 1 / 1000, 1, 0⟩, ⟨7, 0, 0⟩)], rfl, rfl, fun p hp => ?_⟩
  simp only [List.mem_cons, List.not_mem_nil, or_false] at hp
  rcases hp with rfl | rfl <;> rfl

/-- The second iteration of the example takes half of a step, and its line search succeeds. -/
example : lineSearch (1 / 2) (fun a => decide (a < 3 / 4)) none 5 =
      some (exRun.steps[1].alpha, (1 / 2 : ℝ), exRun.steps[1].ls) ∧
    exRun.steps[1].x = along exRun.steps[0].x [6, 8, 0] (1 / 2) := by
  constructor
  · norm_num [lineSearch, backtrack, start, exRun]
  · norm_num [along, exRun]

end Softy.Stats
