import Verif.Model.VelocityClear
import Verif.Props.Solver
import Mathlib.Tactic.Linarith
import Mathlib.Tactic.Ring
import Mathlib.Tactic.FieldSimp
import Mathlib.Tactic.NormNum

/-!
# C97 — clearing velocities with a given frequency
-/

noncomputable section

namespace Softy.VelocityClear

open TimeInt

variable {ι : Type*}

/-! ## Specification -/

/-- Positions of a state. -/
def positions (D : ι → Dof) : ι → ℝ := fun i => (D i).cur.q

/-- Velocities of a state. -/
def velocities (D : ι → Dof) : ι → ℝ := fun i => (D i).cur.dq

/-- Velocities are not cleared: the steps of the time integrators alone (`StagesSolve` for many degrees of freedom). -/
def PlainStages (ti : TimeIntegration) (m : ι → ℝ) (dt : ℝ) (force : (ι → ℝ) → (ι → ℝ) → ι → ℝ) :
    ℕ → ℕ → (ι → Dof) → (ι → Dof) → Prop
  | 0, _, D, D' => D' = D
  | n + 1, k, D, D' => ∃ D1,
      SystemStageSolves (ti.stepIntegrator k).1 m (dt * (ti.stepIntegrator k).2) force D D1 ∧
      PlainStages ti m dt force n (k + 1) D1 D'

/-- A step of a simulation in which velocities are not cleared. -/
def PlainStep (ti : TimeIntegration) (m : ι → ℝ) (dt : ℝ) (force : (ι → ℝ) → (ι → ℝ) → ι → ℝ) (D D' : ι → Dof) : Prop :=
  PlainStages ti m dt force ti.numStages 0 D D'

/-- `n` steps of a simulation in which velocities are not cleared. -/
def PlainRun (ti : TimeIntegration) (m : ι → ℝ) (dt : ℝ) (force : (ι → ℝ) → (ι → ℝ) → ι → ℝ) :
    ℕ → (ι → Dof) → (ι → Dof) → Prop
  | 0, D, D' => D' = D
  | n + 1, D, D' => ∃ D1, PlainStep ti m dt force D D1 ∧ PlainRun ti m dt force n D1 D'

/-! ## How often velocities are cleared -/

theorem clearSteps_pos (freq dt : ℝ) : 1 ≤ clearSteps freq dt := le_max_right _ _

/-- C97: with a positive frequency, velocities are cleared every `clearSteps` steps, whose duration is the period asked
for up to half a time step. If the period is shorter than half a step, they are cleared in every step. -/
theorem clear_period (freq dt : ℝ) (hf : 0 < freq) (hdt : 0 < dt) (hbig : 1 / freq < (2 ^ 32 - 1) * dt) :
    |clearSteps freq dt * dt - 1 / freq| ≤ dt / 2 ∨ clearSteps freq dt = 1 ∧ 1 / freq < dt / 2 := by
  have hx : 0 < 1 / (freq * dt) := by positivity
  have hq : 1 / freq = 1 / (freq * dt) * dt := by field_simp
  have hx' : 1 / (freq * dt) < 2 ^ 32 - 1 := by
    rw [hq] at hbig
    exact lt_of_mul_lt_mul_right hbig hdt.le
  rw [hq]
  unfold clearSteps
  rw [if_pos hf, if_neg hdt.ne']
  simp only
  generalize 1 / (freq * dt) = x at hx hx' ⊢
  have hr := abs_le.mp (abs_sub_round x)
  have h0 : (0 : ℤ) ≤ round x := by
    have : (-1 : ℝ) < round x := by linarith
    have : (-1 : ℤ) < round x := by exact_mod_cast this
    omega
  have h1 : round x < 2 ^ 32 := by
    have : (round x : ℝ) < 2 ^ 32 := by linarith
    exact_mod_cast this
  rw [if_pos ⟨h0, h1⟩]
  rcases Nat.eq_zero_or_pos (round x).toNat with h | h
  · right
    have hz : round x = 0 := by omega
    rw [hz] at hr
    rw [h]
    refine ⟨rfl, ?_⟩
    have hlt : x < 1 / 2 := by
      rw [round_eq, Int.floor_eq_zero_iff] at hz
      have := hz.2
      linarith
    nlinarith
  · left
    rw [max_eq_left h]
    have : (((round x).toNat : ℕ) : ℝ) = (round x : ℝ) := by
      have : (((round x).toNat : ℤ) : ℝ) = (round x : ℝ) := by rw [Int.toNat_of_nonneg h0]
      exact_mod_cast this
    rw [this, ← sub_mul, abs_mul, abs_of_pos hdt]
    have : |(round x : ℝ) - x| ≤ 1 / 2 := by
      rw [abs_sub_comm]
      exact abs_sub_round x
    nlinarith

/-- With 60 steps per second and a frequency of 24 Hz velocities are cleared every third step. -/
example : clearSteps 24 (1 / 60) = 3 := by
  have : round (1 / ((24 : ℝ) * (1 / 60))) = 3 := by
    rw [round_eq, Int.floor_eq_iff]
    norm_num
  unfold clearSteps
  rw [this]
  norm_num
  rfl

/-- C97: with a frequency that is not positive, or in a static simulation, no step of the first 2^32 - 2 clears. -/
theorem clear_never (freq dt : ℝ) (h : freq ≤ 0 ∨ dt = 0) (count : ℕ) (h0 : 0 < count) (hc : count < 2 ^ 32 - 1) :
    clears freq dt count = false := by
  have hk : clearSteps freq dt = 2 ^ 32 - 1 := by
    unfold clearSteps u32Max
    rcases h with h | h
    · rw [if_neg (not_lt.mpr h)]
      rfl
    · rw [if_pos h]
      split_ifs <;> rfl
  unfold clears
  rw [hk, Nat.mod_eq_of_lt hc]
  simp
  omega

/-- C97: steps are cleared exactly at the multiples. -/
theorem clears_iff (freq dt : ℝ) (count : ℕ) : clears freq dt count = true ↔ clearSteps freq dt ∣ count := by
  unfold clears
  rw [beq_iff_eq, Nat.dvd_iff_mod_eq_zero]

/-! ## Steps with and without clearing -/

theorem stagesClear_false (ti : TimeIntegration) (m : ι → ℝ) (dt : ℝ) (force : (ι → ℝ) → (ι → ℝ) → ι → ℝ) (n k : ℕ)
    (D D' : ι → Dof) : StagesClear ti m dt force false n k D D' ↔ PlainStages ti m dt force n k D D' := by
  induction n generalizing k D with
  | zero => exact Iff.rfl
  | succ n ih =>
    simp only [StagesClear, PlainStages, Bool.false_eq_true, if_false, ih]

/-- C97: the steps between are those of a simulation without clearing. -/
theorem step_between (ti : TimeIntegration) (m : ι → ℝ) (dt freq : ℝ) (force : (ι → ℝ) → (ι → ℝ) → ι → ℝ) (count : ℕ)
    (h : ¬ clearSteps freq dt ∣ count) (D D' : ι → Dof) :
    StepClear ti m dt freq force count D D' ↔ PlainStep ti m dt force D D' := by
  have : clears freq dt count = false := by
    rw [← clears_iff, Bool.not_eq_true] at h
    exact h
  unfold StepClear PlainStep
  rw [this, stagesClear_false]

/-- C97: simulations that do not ask for clearing are not affected. -/
theorem run_never (ti : TimeIntegration) (m : ι → ℝ) (dt freq : ℝ) (force : (ι → ℝ) → (ι → ℝ) → ι → ℝ)
    (h : freq ≤ 0 ∨ dt = 0) (n count : ℕ) (hc : count + n < 2 ^ 32 - 1) (D D' : ι → Dof) :
    RunClear ti m dt freq force n count D D' ↔ PlainRun ti m dt force n D D' := by
  induction n generalizing count D with
  | zero => exact Iff.rfl
  | succ n ih =>
    simp only [RunClear, PlainRun]
    have : ∀ D1, StepClear ti m dt freq force (count + 1) D D1 ↔ PlainStep ti m dt force D D1 := by
      intro D1
      unfold StepClear PlainStep
      rw [clear_never freq dt h (count + 1) (by omega) (by omega), stagesClear_false]
    simp only [this, ih (count + 1) (by omega)]

/-- C97: a step whose number is a multiple ends at rest. -/
theorem step_at_rest (ti : TimeIntegration) (m : ι → ℝ) (dt freq : ℝ) (force : (ι → ℝ) → (ι → ℝ) → ι → ℝ) (count : ℕ)
    (h : clearSteps freq dt ∣ count) (D D' : ι → Dof) (hs : StepClear ti m dt freq force count D D') :
    velocities D' = 0 := by
  rw [← clears_iff] at h
  unfold StepClear at hs
  rw [h] at hs
  cases ti with
  | BE | TR | BDF2 =>
    obtain ⟨D1, -, rfl⟩ := hs
    rfl
  | TRBDF2 t =>
    obtain ⟨D1, -, D2, -, rfl⟩ := hs
    rfl
  | SDIRK2 =>
    obtain ⟨D1, -, D2, -, rfl⟩ := hs
    rfl

/-- C97 (partial): with an integrator of one stage, clearing moves nothing: the step ends at the positions of the same
step without clearing. Missing: integrators of two stages, for which this is false. -/
theorem step_positions_partial (ti : TimeIntegration) (h1 : ti.numStages = 1) (m : ι → ℝ) (dt freq : ℝ)
    (force : (ι → ℝ) → (ι → ℝ) → ι → ℝ) (count : ℕ) (h : clearSteps freq dt ∣ count) (D D' : ι → Dof)
    (hs : StepClear ti m dt freq force count D D') :
    ∃ D1, PlainStep ti m dt force D D1 ∧ positions D' = positions D1 ∧ velocities D' = 0 := by
  have hr := step_at_rest ti m dt freq force count h D D' hs
  rw [← clears_iff] at h
  unfold StepClear at hs
  unfold PlainStep
  rw [h, h1] at hs
  rw [h1]
  obtain ⟨D1, hD1, rfl⟩ := hs
  exact ⟨D1, ⟨D1, hD1, rfl⟩, rfl, hr⟩

/-! ## The step after clearing -/

/-- A state of rest at given positions, as in a new solver. -/
def resting (q : ι → ℝ) : ι → Dof := fun i => Dof.fresh (q i) 0

/-- C97 (partial): with backward Euler, the step after velocities were cleared is that of a new simulation at rest at
the positions reached, for any forces. Missing: the other integrators, for which this is false. -/
theorem next_be_partial (m : ι → ℝ) (dt : ℝ) (force : (ι → ℝ) → (ι → ℝ) → ι → ℝ) (D : ι → Dof)
    (hD : velocities D = 0) (q v : ι → ℝ) :
    (∃ D', PlainStep .BE m dt force D D' ∧ positions D' = q ∧ velocities D' = v) ↔
      ∃ D', PlainStep .BE m dt force (resting (positions D)) D' ∧ positions D' = q ∧ velocities D' = v := by
  have hv : ∀ i, (D i).cur.dq = 0 := fun i => congrFun hD i
  have key : ∀ (D : ι → Dof), (∀ i, (D i).cur.dq = 0) →
      ((∃ D', PlainStep .BE m dt force D D' ∧ positions D' = q ∧ velocities D' = v) ↔
        (q = fun i => v i * dt + (D i).cur.q) ∧ ∀ i, m i * v i = dt * force q v i) := by
    intro D hv
    constructor
    · rintro ⟨D', ⟨D1, ⟨w, hw⟩, rfl⟩, rfl, rfl⟩
      have hq : positions D' = fun i => w i * dt + (D i).cur.q := by
        funext i
        simp [positions, (hw i).2, advance, integrateStep, beStep, TimeIntegration.stepIntegrator]
      have hw' : velocities D' = w := by
        funext i
        simp [velocities, (hw i).2, advance]
      rw [hw', hq]
      refine ⟨rfl, fun i => ?_⟩
      have := (hw i).1
      simp [TimeInt.residual, SingleStep.implicitFactor, SingleStep.explicitFactor, curVertexVel, lerpVel, curWeights, hv,
        integrateStep, beStep, TimeIntegration.stepIntegrator] at this
      linarith
    · rintro ⟨rfl, hm⟩
      refine ⟨_, ⟨_, ⟨v, fun i => ⟨?_, rfl⟩⟩, rfl⟩, ?_, ?_⟩
      · have := hm i
        simp [TimeInt.residual, SingleStep.implicitFactor, SingleStep.explicitFactor, curVertexVel, lerpVel, curWeights, hv,
          integrateStep, beStep, TimeIntegration.stepIntegrator]
        linarith
      · funext i
        simp [positions, advance, integrateStep, beStep, TimeIntegration.stepIntegrator]
      · funext i
        simp [velocities, advance]
  rw [key D hv, key (resting (positions D)) fun i => rfl]
  rfl

/-- Forces that depend on positions only. -/
def Static (force : (ι → ℝ) → (ι → ℝ) → ι → ℝ) : Prop := ∀ q v w, force q v = force q w

/-- The force committed with a state is that at its positions. -/
def ForceCommitted (force : (ι → ℝ) → (ι → ℝ) → ι → ℝ) (D : ι → Dof) : Prop :=
  ∀ i, (D i).prevForce = -(force (positions D) 0 i)

/-- C97 (partial): with the trapezoidal rule and forces that depend on positions only, the step after velocities were
cleared is that of the trapezoidal rule from rest: momentum changes by the mean of the forces at both ends, and positions
by the mean of the velocities zero and `v`. -/
theorem next_tr_partial (m : ι → ℝ) (dt freq : ℝ) (force : (ι → ℝ) → (ι → ℝ) → ι → ℝ) (hF : Static force)
    (count : ℕ) (h : clearSteps freq dt ∣ count) (D D1 D2 : ι → Dof) (hs : StepClear .TR m dt freq force count D D1)
    (hn : PlainStep .TR m dt force D1 D2) :
    (∀ i, positions D2 i = positions D1 i + dt * ((0 + velocities D2 i) / 2)) ∧
      ∀ i, m i * velocities D2 i = dt * ((force (positions D1) 0 i + force (positions D2) 0 i) / 2) := by
  have hr := step_at_rest _ m dt freq force count h D D1 hs
  have hv : ∀ i, (D1 i).cur.dq = 0 := fun i => congrFun hr i
  have hpf : ForceCommitted force D1 := by
    rw [← clears_iff] at h
    unfold StepClear at hs
    rw [h] at hs
    obtain ⟨E, ⟨w, hw⟩, rfl⟩ := hs
    intro i
    have hp : positions (fun i => clear (E i)) = fun i => integrateStep .TR (D i) (w i) (dt * 1) := by
      funext j
      simp [positions, clear, (hw j).2, advance, TimeIntegration.stepIntegrator]
    simp only [if_true]
    rw [hp, hF _ 0 w]
    simp [clear, (hw i).2, advance, TimeIntegration.stepIntegrator]
  obtain ⟨E, ⟨w, hw⟩, rfl⟩ := hn
  have hp : positions D2 = fun i => integrateStep .TR (D1 i) (w i) dt := by
    funext j
    simp [positions, (hw j).2, advance, TimeIntegration.stepIntegrator]
  have hw' : velocities D2 = w := by
    funext i
    simp [velocities, (hw i).2, advance]
  constructor
  · intro i
    rw [hw', hp]
    simp only [integrateStep, trStep, lerpStep, hv, positions]
    ring
  · intro i
    have hi := (hw i).1
    rw [hw', hF (positions D2) 0 w, hp]
    simp only [TimeInt.residual, SingleStep.implicitFactor, SingleStep.explicitFactor, curVertexVel, lerpVel, curWeights, hv,
      TimeIntegration.stepIntegrator, hpf i, mul_one] at hi
    rw [if_pos (by norm_num)] at hi
    linarith

/-- Nothing acts. -/
def noForce : (ι → ℝ) → (ι → ℝ) → ι → ℝ := fun _ _ _ => 0

theorem stage_rest (s : SingleStep) (hs : s = .BE ∨ s = .TR) (m : ι → ℝ) (hm : ∀ i, m i ≠ 0) (dt : ℝ) (D D' : ι → Dof)
    (hv : velocities D = 0) (hpf : ∀ i, (D i).prevForce = 0) (h : SystemStageSolves s m dt noForce D D') :
    (∀ i, (D' i).prev = (D i).cur) ∧ positions D' = positions D ∧ velocities D' = 0 ∧ ∀ i, (D' i).prevForce = 0 := by
  obtain ⟨w, hw⟩ := h
  have hv' : ∀ i, (D i).cur.dq = 0 := fun i => congrFun hv i
  have hz : ∀ i, w i = 0 := by
    intro i
    have := (hw i).1
    rcases hs with rfl | rfl <;>
      simpa [TimeInt.residual, noForce, hpf, curVertexVel, lerpVel, curWeights, hv', hm i] using this
  refine ⟨fun i => ?_, ?_, ?_, fun i => ?_⟩
  · rw [(hw i).2]
    rfl
  · funext i
    simp only [positions, (hw i).2, advance, hz]
    rcases hs with rfl | rfl <;> simp [integrateStep, beStep, trStep, lerpStep, hv']
  · funext i
    simp [velocities, (hw i).2, advance, hz]
  · simp [(hw i).2, advance, noForce]

theorem stage_rest₂ (s : SingleStep) (hs : (∃ t, s = .MixedBDF2 t ∧ t ≠ 0 ∧ t * t ≠ 1) ∨ s = .SDIRK2) (m : ι → ℝ)
    (hm : ∀ i, m i ≠ 0) (dt : ℝ) (D D' : ι → Dof) (hv : velocities D = 0) (hp : ∀ i, (D i).prev = (D i).cur)
    (hpf : ∀ i, (D i).prevForce = 0) (h : SystemStageSolves s m dt noForce D D') :
    positions D' = positions D ∧ velocities D' = 0 ∧ ∀ i, (D' i).prevForce = 0 := by
  obtain ⟨w, hw⟩ := h
  have hv' : ∀ i, (D i).cur.dq = 0 := fun i => congrFun hv i
  have hz : ∀ i, w i = 0 := by
    intro i
    have := (hw i).1
    rcases hs with ⟨t, rfl, -⟩ | rfl
    · simpa [TimeInt.residual, noForce, hpf, curVertexVel, lerpVel, curWeights, hv', hp, hm i] using this
    · simpa [TimeInt.residual, noForce, hpf, curVertexVel, lerpVel, curWeights, hv', hp, hm i] using this
  refine ⟨?_, ?_, fun i => ?_⟩
  · funext i
    simp only [positions, (hw i).2, advance, hz]
    rcases hs with ⟨t, rfl, ht, ht'⟩ | rfl
    · simp only [integrateStep, mixedBdf2Step, hp]
      have h1 : (1 - t) * (2 - (1 - t)) ≠ 0 := by
        intro h
        apply ht'
        linarith
      have : 1 / ((1 - t) * (2 - (1 - t))) + -(1 - (1 - t)) * (1 - (1 - t)) / ((1 - t) * (2 - (1 - t))) = 1 := by
        rw [← add_div, div_eq_one_iff_eq h1]
        ring
      rw [zero_mul, zero_add, ← mul_add, this, mul_one]
    · simp [integrateStep, sdirk2Step, hp, hv']
  · funext i
    simp [velocities, (hw i).2, advance, hz]
  · simp [(hw i).2, advance, noForce]

/-- The integrators for which clearing stops motion, and valid fractions of TR-BDF2. -/
def Forgets : TimeIntegration → Prop
  | .BE => True
  | .TR => True
  | .BDF2 => False
  | .TRBDF2 t => 0 < t ∧ t < 1
  | .SDIRK2 => True

/-- Resting without forces. -/
def AtRest (q : ι → ℝ) (D : ι → Dof) : Prop :=
  positions D = q ∧ velocities D = 0 ∧ ∀ i, (D i).prevForce = 0

theorem clear_atRest (clr : Bool) (q : ι → ℝ) (D : ι → Dof) (h : AtRest q D) :
    AtRest q (if clr then fun i => clear (D i) else D) := by
  cases clr
  · exact h
  · obtain ⟨h1, -, h3⟩ := h
    exact ⟨h1, rfl, h3⟩

theorem step_atRest (ti : TimeIntegration) (ht : Forgets ti) (m : ι → ℝ) (hm : ∀ i, m i ≠ 0) (dt freq : ℝ) (count : ℕ)
    (q : ι → ℝ) (D D' : ι → Dof) (hD : AtRest q D) (h : StepClear ti m dt freq noForce count D D') : AtRest q D' := by
  obtain ⟨rfl, hv, hpf⟩ := hD
  unfold StepClear at h
  generalize clears freq dt count = clr at h
  have two : ∀ s s' dt dt', (s = .BE ∨ s = .TR) →
      ((∃ t, s' = .MixedBDF2 t ∧ t ≠ 0 ∧ t * t ≠ 1) ∨ s' = .SDIRK2) → ∀ D1 D2,
      SystemStageSolves s m dt noForce D D1 →
      SystemStageSolves s' m dt' noForce (if clr then fun i => clear (D1 i) else D1) D2 →
      AtRest (positions D) (if clr then fun i => clear (D2 i) else D2) := by
    intro s s' dt dt' hs hs' D1 D2 h1 h2
    obtain ⟨a1, a2, a3, a4⟩ := stage_rest s hs m hm dt D D1 hv hpf h1
    have hc := clear_atRest clr (positions D) D1 ⟨a2, a3, a4⟩
    have hp : ∀ i, ((if clr then fun i => clear (D1 i) else D1) i).prev =
        ((if clr then fun i => clear (D1 i) else D1) i).cur := by
      intro i
      have e : (D1 i).cur = (D i).cur := by
        ext
        · exact congrFun a2 i
        · exact (congrFun a3 i).trans (congrFun hv i).symm
      have hz : (D1 i).cur.dq = 0 := congrFun a3 i
      cases clr
      · simp only [Bool.false_eq_true, if_false]
        rw [a1, e]
      · simp only [if_true, clear]
        rw [a1, ← e]
        ext
        · rfl
        · exact hz
    obtain ⟨b1, b2, b3⟩ := stage_rest₂ s' hs' m hm dt' _ D2 hc.2.1 hp hc.2.2 h2
    exact clear_atRest clr _ _ ⟨b1.trans hc.1, b2, b3⟩
  cases ti with
  | BDF2 => exact ht.elim
  | BE =>
    obtain ⟨D1, h1, rfl⟩ := h
    exact clear_atRest clr _ _ (stage_rest _ (.inl rfl) m hm _ D D1 hv hpf h1).2
  | TR =>
    obtain ⟨D1, h1, rfl⟩ := h
    exact clear_atRest clr _ _ (stage_rest _ (.inr rfl) m hm _ D D1 hv hpf h1).2
  | TRBDF2 t =>
    obtain ⟨D1, h1, D2, h2, rfl⟩ := h
    obtain ⟨h0, ht1⟩ := ht
    refine two .TR (.MixedBDF2 (1 - t)) _ _ (.inr rfl) (.inl ⟨1 - t, rfl, by linarith, ?_⟩) D1 D2 h1 h2
    intro h
    nlinarith
  | SDIRK2 =>
    obtain ⟨D1, h1, D2, h2, rfl⟩ := h
    exact two .BE .SDIRK2 _ _ (.inl rfl) (.inr rfl) D1 D2 h1 h2

theorem run_atRest (ti : TimeIntegration) (ht : Forgets ti) (m : ι → ℝ) (hm : ∀ i, m i ≠ 0) (dt freq : ℝ) (n count : ℕ)
    (q : ι → ℝ) (D D' : ι → Dof) (hD : AtRest q D) (h : RunClear ti m dt freq noForce n count D D') : AtRest q D' := by
  induction n generalizing count D with
  | zero =>
    obtain rfl := h
    exact hD
  | succ n ih =>
    obtain ⟨D1, h1, h2⟩ := h
    exact ih (count + 1) D1 (step_atRest ti ht m hm dt freq (count + 1) q D D1 hD h1) h2

theorem step_prevForce (ti : TimeIntegration) (m : ι → ℝ) (dt freq : ℝ) (count : ℕ) (D D' : ι → Dof)
    (h : StepClear ti m dt freq noForce count D D') (i : ι) : (D' i).prevForce = 0 := by
  unfold StepClear at h
  generalize clears freq dt count = clr at h
  have one : ∀ s dt (D D1 : ι → Dof), SystemStageSolves s m dt noForce D D1 →
      ((if clr then fun i => clear (D1 i) else D1) i).prevForce = 0 := by
    rintro s dt D D1 ⟨w, hw⟩
    cases clr <;> simp [clear, (hw i).2, advance, noForce]
  cases ti with
  | BE | TR | BDF2 =>
    obtain ⟨D1, h1, rfl⟩ := h
    exact one _ _ _ _ h1
  | TRBDF2 t =>
    obtain ⟨D1, -, D2, h2, rfl⟩ := h
    exact one _ _ _ _ h2
  | SDIRK2 =>
    obtain ⟨D1, -, D2, h2, rfl⟩ := h
    exact one _ _ _ _ h2

/-- C97 (partial): what moves freely stops for good when velocities are cleared. Missing: BDF2, for which this is
false. -/
theorem free_stops_partial (ti : TimeIntegration) (ht : Forgets ti) (m : ι → ℝ) (hm : ∀ i, m i ≠ 0) (dt freq : ℝ)
    (count n : ℕ) (h : clearSteps freq dt ∣ count) (D D1 D2 : ι → Dof)
    (hs : StepClear ti m dt freq noForce count D D1) (hr : RunClear ti m dt freq noForce n count D1 D2) :
    positions D2 = positions D1 ∧ velocities D2 = 0 := by
  have := run_atRest ti ht m hm dt freq n count (positions D1) D1 D2
    ⟨rfl, step_at_rest ti m dt freq noForce count h D D1 hs, step_prevForce ti m dt freq count D D1 hs⟩ hr
  exact ⟨this.1, this.2.1⟩

/-! ## Disagreements -/

/-- A simulation in uniform motion with the velocity `v`: the state after steps without forces. -/
def uniform (q v dt : ℝ) : Unit → Dof := fun _ => ⟨⟨q - dt * v, v⟩, ⟨q, v⟩, 0⟩

theorem clearSteps_all (dt : ℝ) (hdt : 0 < dt) : clearSteps (1 / dt) dt = 1 := by
  have : round (1 / (1 / dt * dt)) = 1 := by
    rw [one_div_mul_cancel hdt.ne']
    norm_num
  unfold clearSteps
  rw [this]
  split_ifs <;> simp_all

/-- C97 (violated): with BDF2, a body in uniform motion does not stop when velocities are cleared. The next step moves
it forward by a ninth of the way although it leaves it with a third of the velocity in the opposite direction. -/
theorem bdf2_violated (m q v dt freq : ℝ) (count : ℕ) (h : clearSteps freq dt ∣ count)
    (hn : ¬ clearSteps freq dt ∣ count + 1) :
    ∃ D1 D2, StepClear .BDF2 (fun _ => m) dt freq noForce count (uniform q v dt) D1 ∧
      positions D1 () = q + dt * v ∧ velocities D1 () = 0 ∧
      StepClear .BDF2 (fun _ => m) dt freq noForce (count + 1) D1 D2 ∧
      positions D2 () = positions D1 () + dt * v / 9 ∧ velocities D2 () = -v / 3 := by
  rw [← clears_iff] at h hn
  rw [Bool.not_eq_true] at hn
  unfold StepClear
  rw [h, hn]
  refine ⟨fun _ => ⟨⟨q, v⟩, ⟨q + dt * v, 0⟩, 0⟩, fun _ => ⟨⟨q + dt * v, 0⟩, ⟨q + dt * v + dt * v / 9, -v / 3⟩, 0⟩,
    ⟨fun _ => ⟨⟨q, v⟩, ⟨q + dt * v, v⟩, 0⟩, ⟨fun _ => v, fun _ => ⟨?_, ?_⟩⟩, ?_⟩, rfl, rfl,
    ⟨fun _ => ⟨⟨q + dt * v, 0⟩, ⟨q + dt * v + dt * v / 9, -v / 3⟩, 0⟩, ⟨fun _ => -v / 3, fun _ => ⟨?_, ?_⟩⟩, ?_⟩, rfl, rfl⟩
  · norm_num [TimeInt.residual, noForce, curVertexVel, lerpVel, curWeights, TimeIntegration.stepIntegrator, uniform,
      SingleStep.explicitFactor]
    right
    ring
  · simp only [TimeIntegration.stepIntegrator, integrateStep, bdf2Step, mixedBdf2Step, advance, uniform, noForce]
    ext <;> simp <;> ring
  · rfl
  · norm_num [TimeInt.residual, noForce, curVertexVel, lerpVel, curWeights, TimeIntegration.stepIntegrator,
      SingleStep.explicitFactor]
    right
    ring
  · simp only [TimeIntegration.stepIntegrator, integrateStep, bdf2Step, mixedBdf2Step, advance, noForce]
    ext <;> simp <;> ring
  · rfl

/-- C97 (violated): with TR-BDF2 velocities are cleared within the step, between its stages: a body in uniform motion
moves only five ninths of the way before it is stopped. -/
theorem trbdf2_violated (m q v dt freq : ℝ) (hm : m ≠ 0) (count : ℕ) (h : clearSteps freq dt ∣ count) (D : Unit → Dof)
    (hD : StepClear (.TRBDF2 (1 / 2)) (fun _ => m) dt freq noForce count (uniform q v dt) D) :
    positions D () = q + dt * v * (5 / 9) := by
  rw [← clears_iff] at h
  unfold StepClear at hD
  rw [h] at hD
  obtain ⟨D1, ⟨w, hw⟩, D2, ⟨u, hu⟩, rfl⟩ := hD
  have hw0 : w () = v := by
    have := (hw ()).1
    norm_num [TimeInt.residual, noForce, curVertexVel, lerpVel, curWeights, TimeIntegration.stepIntegrator, uniform,
      SingleStep.explicitFactor, hm] at this
    linarith
  have hu0 : u () = -v / 3 := by
    have := (hu ()).1
    norm_num [TimeInt.residual, noForce, curVertexVel, lerpVel, curWeights, TimeIntegration.stepIntegrator, uniform,
      SingleStep.explicitFactor, hm, clear, (hw ()).2, advance] at this
    linarith
  simp only [if_true, positions, clear, (hu ()).2, (hw ()).2, advance, hu0, hw0, TimeIntegration.stepIntegrator,
    integrateStep, mixedBdf2Step, trStep, lerpStep, uniform]
  norm_num
  ring

/-- C97 (violated): the same for SDIRK2, where it moves less than three tenths of the way. -/
theorem sdirk2_violated (m q v dt freq : ℝ) (hm : m ≠ 0) (count : ℕ) (h : clearSteps freq dt ∣ count) (D : Unit → Dof)
    (hD : StepClear .SDIRK2 (fun _ => m) dt freq noForce count (uniform q v dt) D) :
    positions D () = q + dt * v * (1 - √2 / 2) := by
  rw [← clears_iff] at h
  unfold StepClear at hD
  rw [h] at hD
  obtain ⟨D1, ⟨w, hw⟩, D2, ⟨u, hu⟩, rfl⟩ := hD
  have hw0 : w () = v := by
    have := (hw ()).1
    norm_num [TimeInt.residual, noForce, curVertexVel, lerpVel, curWeights, TimeIntegration.stepIntegrator, uniform,
      SingleStep.explicitFactor, hm] at this
    linarith
  have hu0 : u () = v := by
    have := (hu ()).1
    norm_num [TimeInt.residual, noForce, curVertexVel, lerpVel, curWeights, TimeIntegration.stepIntegrator, uniform,
      SingleStep.explicitFactor, hm, clear, (hw ()).2, advance] at this
    linarith
  simp only [if_true, positions, clear, (hu ()).2, (hw ()).2, advance, hu0, hw0, TimeIntegration.stepIntegrator,
    integrateStep, sdirk2Step, uniform]
  norm_num
  ring

/-- Without clearing, both move it all the way (C04). -/
theorem plain_uniform (ti : TimeIntegration) (hti : ti = .TRBDF2 (1 / 2) ∨ ti = .SDIRK2) (m q v dt : ℝ) (hm : m ≠ 0)
    (D : Unit → Dof) (hD : PlainStep ti (fun _ => m) dt noForce (uniform q v dt) D) :
    positions D () = q + dt * v := by
  unfold PlainStep at hD
  rcases hti with rfl | rfl
  · obtain ⟨D1, ⟨w, hw⟩, D2, ⟨u, hu⟩, rfl⟩ := hD
    have hw0 : w () = v := by
      have := (hw ()).1
      norm_num [TimeInt.residual, noForce, curVertexVel, lerpVel, curWeights, TimeIntegration.stepIntegrator, uniform,
        SingleStep.explicitFactor, hm] at this
      linarith
    have hu0 : u () = v := by
      have := (hu ()).1
      norm_num [TimeInt.residual, noForce, curVertexVel, lerpVel, curWeights, TimeIntegration.stepIntegrator, uniform,
        SingleStep.explicitFactor, hm, (hw ()).2, advance, hw0] at this
      linarith
    simp only [positions, (hu ()).2, (hw ()).2, advance, hu0, hw0, TimeIntegration.stepIntegrator,
      integrateStep, mixedBdf2Step, trStep, lerpStep, uniform]
    norm_num
    ring
  · obtain ⟨D1, ⟨w, hw⟩, D2, ⟨u, hu⟩, rfl⟩ := hD
    have hw0 : w () = v := by
      have := (hw ()).1
      norm_num [TimeInt.residual, noForce, curVertexVel, lerpVel, curWeights, TimeIntegration.stepIntegrator, uniform,
        SingleStep.explicitFactor, hm] at this
      linarith
    have hu0 : u () = v := by
      have := (hu ()).1
      norm_num [TimeInt.residual, noForce, curVertexVel, lerpVel, curWeights, TimeIntegration.stepIntegrator, uniform,
        SingleStep.explicitFactor, hm, (hw ()).2, advance] at this
      linarith
    simp only [positions, (hu ()).2, (hw ()).2, advance, hu0, hw0, TimeIntegration.stepIntegrator,
      integrateStep, sdirk2Step, uniform]
    norm_num
    ring

/-- A damper: a force against the velocity. -/
def damper (c : ℝ) : (ι → ℝ) → (ι → ℝ) → ι → ℝ := fun _ v i => -(c * v i)

/-- C97 (violated): with the trapezoidal rule and a damper, the force of the velocity that was cleared acts on in the next
step: a body that was stopped starts to move backwards. -/
theorem tr_damped_violated (m c dt freq v : ℝ) (hm : 0 < m) (hc : 0 < c) (hdt : 0 < dt) (hv : 0 < v) (count : ℕ)
    (h : clearSteps freq dt ∣ count) (D D1 D2 : Unit → Dof)
    (hs : StepClear .TR (fun _ => m) dt freq (damper c) count D D1) (hD : ∃ E, PlainStep .TR (fun _ => m) dt (damper c) D E
      ∧ velocities E () = v ∧ D1 = fun i => clear (E i)) (hn : PlainStep .TR (fun _ => m) dt (damper c) D1 D2) :
    velocities D1 () = 0 ∧ velocities D2 () < 0 ∧ positions D2 () < positions D1 () := by
  have hr := step_at_rest _ _ dt freq (damper c) count h D D1 hs
  have hv1 : (D1 ()).cur.dq = 0 := congrFun hr ()
  obtain ⟨E, ⟨F, ⟨w, hw⟩, rfl⟩, hE, hED⟩ := hD
  have hwv : w () = v := by
    rw [← hE]
    simp [velocities, (hw ()).2, advance]
  have hpf : (D1 ()).prevForce = c * v := by
    rw [hED]
    simp [clear, (hw ()).2, advance, damper, hwv]
  obtain ⟨G, ⟨u, hu⟩, rfl⟩ := hn
  have hu' : velocities D2 () = u () := by simp [velocities, (hu ()).2, advance]
  have hp : positions D2 () = positions D1 () + dt * u () / 2 := by
    simp only [positions, (hu ()).2, advance, TimeIntegration.stepIntegrator, integrateStep, trStep, lerpStep, hv1]
    ring
  have e := (hu ()).1
  simp only [TimeInt.residual, SingleStep.implicitFactor, SingleStep.explicitFactor, curVertexVel, lerpVel, curWeights,
    hv1, TimeIntegration.stepIntegrator, hpf, mul_one, damper] at e
  rw [if_pos (by norm_num)] at e
  have e' : (m + dt * c / 2) * u () = -(dt * c * v / 2) := by linarith
  have hneg : u () < 0 := by
    by_contra hge
    push Not at hge
    have h1 : 0 ≤ (m + dt * c / 2) * u () := by positivity
    have h2 : 0 < dt * c * v / 2 := by positivity
    linarith
  refine ⟨congrFun hr (), by rw [hu']; exact hneg, ?_⟩
  rw [hp]
  nlinarith

/-- C97 (violated): a mesh read after a step that clears shows the velocity that was cleared. -/
theorem shown_velocity_violated (s : SingleStep) (dt : ℝ) (force : (ι → ℝ) → (ι → ℝ) → ι → ℝ) (D : ι → Dof)
    (v : ι → ℝ) :
    velocities (commitShown s dt force true D v).1 = 0 ∧
      (fun i => ((commitShown s dt force true D v).2 i).dq) = v ∧
      (fun i => ((commitShown s dt force true D v).2 i).q) = positions (commitShown s dt force true D v).1 :=
  ⟨rfl, rfl, rfl⟩

/-! ## Steps of the solver -/

open Solver

/-- The states a step without contacts goes through: `D k` is the state before stage `k`. -/
def StageStates (par : Params) (n : ℕ) (force : (ι → ℝ) → (ι → ℝ) → ι → ℝ) (ω : ℕ → Outcome (ι → ℝ)) (dt : ℝ)
    (clr : Bool) (D : ℕ → ι → Dof) : Prop :=
  ∀ k, D (k + 1) =
    let D1 := (env n force).advance (par.integrator.stepIntegrator k).1 (dt * (par.integrator.stepIntegrator k).2) (D k)
      (ω k).solution
    if clr then fun i => clear (D1 i) else D1

theorem contactLoop_free (n : ℕ) (force : (ι → ℝ) → (ι → ℝ) → ι → ℝ) (par : Params) (ω : ℕ → Outcome (ι → ℝ)) (k : ℕ)
    (ci : ℤ) (s : Sim (ι → Dof) (ι → ℝ)) (st : StageResult) (hf : s.fcs = []) (hf' : s.fcsAd = []) (hu : (ω k).usable) :
    ∃ r, contactLoop (env n force) par ω k ci s st =
      ⟨k + 1, ci - 1, commit (env n force) par s (ω k).solution, some r⟩ := by
  rw [contactLoop]
  unfold Outcome.usable at hu
  simp only [hu, if_true]
  by_cases h : ci - 1 < 0
  · rw [dif_pos h]
    exact ⟨_, rfl⟩
  · rw [dif_neg h]
    have : contactViolation (env n force).numVertices s.fcs (ω k).cached = contactViolation n [] (ω k).cached := by
      rw [hf]
      rfl
    rw [this]
    have hv : (contactViolation n [] (ω k).cached).violation = 0 := by
      simp [contactViolation, contactConstraint, minBy]
    rw [if_neg (by rw [hv]; norm_num)]
    have hr : ∀ cv, relax s cv = s := by
      intro cv
      unfold relax
      rw [hf, hf']
      split_ifs
      · cases s
        simp_all
      · rfl
    rw [hr]
    exact ⟨_, rfl⟩

/-- C97: the steps described here are those of the solver: if there are no contacts, every solve ends with usable
velocities and these solve the equations of the stage, then `step` succeeds with a state that is reached by a step with
clearing. -/
theorem solver_step (n : ℕ) (m : ι → ℝ) (force : (ι → ℝ) → (ι → ℝ) → ι → ℝ) (par : Params) (freq : ℝ)
    (ω : ℕ → Outcome (ι → ℝ)) (s : Sim (ι → Dof) (ι → ℝ)) (hpar : par.clearSteps = clearSteps freq s.timeStep)
    (hf : s.fcs = []) (hf' : s.fcsAd = []) (hu : ∀ k, (ω k).usable) (D : ℕ → ι → Dof) (h0 : D 0 = s.state)
    (hD : StageStates par n force ω s.timeStep (clears freq s.timeStep (s.iterationCount + 1)) D)
    (hsolved : ∀ k, k < par.integrator.numStages → ∀ i, TimeInt.residual (par.integrator.stepIntegrator k).1 (m i)
      (s.timeStep * (par.integrator.stepIntegrator k).2) (D k i) ((ω k).solution i)
      (-(force (fun j => integrateStep (par.integrator.stepIntegrator k).1 (D k j) ((ω k).solution j)
        (s.timeStep * (par.integrator.stepIntegrator k).2)) (ω k).solution i)) = 0) :
    (step (env n force) par ω (fun _ => true) s).result.isSome ∧
      (step (env n force) par ω (fun _ => true) s).sim.state = D par.integrator.numStages ∧
      StepClear par.integrator m s.timeStep freq force (s.iterationCount + 1) s.state
        (step (env n force) par ω (fun _ => true) s).sim.state := by
  have hroot : ∀ k, k < par.integrator.numStages → SystemStageSolves (par.integrator.stepIntegrator k).1 m
      (s.timeStep * (par.integrator.stepIntegrator k).2) force (D k) ((env n force).advance
        (par.integrator.stepIntegrator k).1 (s.timeStep * (par.integrator.stepIntegrator k).2) (D k) (ω k).solution) :=
    fun k hk => ⟨(ω k).solution, fun i => ⟨hsolved k hk i, rfl⟩⟩
  have hcm : ∀ k (t : Sim (ι → Dof) (ι → ℝ)), t.iterationCount = s.iterationCount + 1 → t.state = D k →
      t.integration = (par.integrator.stepIntegrator k).1 → t.timeStep = s.timeStep * (par.integrator.stepIntegrator k).2 →
      (commit (env n force) par t (ω k).solution).state = D (k + 1) := by
    intro k t h1 h2 h3 h4
    rw [hD k]
    unfold commit
    simp only [h1, h2, h3, h4, clears, hpar, beq_iff_eq]
    rfl
  have main : (step (env n force) par ω (fun _ => true) s).result.isSome ∧
      (step (env n force) par ω (fun _ => true) s).sim.state = D par.integrator.numStages := by
    unfold step
    have one : par.integrator.numStages = 1 ∨ par.integrator.numStages = 2 := by
      cases par.integrator <;> simp [TimeIntegration.numStages]
    have r1 : List.range 1 = [0] := rfl
    have r2 : List.range 2 = [0, 1] := rfl
    rcases one with h | h
    · simp only [h, r1, stages, if_true]
      obtain ⟨r, hr⟩ := contactLoop_free n force par ω 0 par.contactIterations
        { s with
          iterationCount := s.iterationCount + 1
          integration := (par.integrator.stepIntegrator 0).1
          timeStep := s.timeStep * (par.integrator.stepIntegrator 0).2 }
        ⟨(par.integrator.stepIntegrator 0).1, [], 0, 0⟩ hf hf' (hu 0)
      rw [hr]
      exact ⟨rfl, hcm 0 _ rfl h0.symm rfl rfl⟩
    · simp only [h, r2, stages, if_true]
      obtain ⟨r, hr⟩ := contactLoop_free n force par ω 0 par.contactIterations
        { s with
          iterationCount := s.iterationCount + 1
          integration := (par.integrator.stepIntegrator 0).1
          timeStep := s.timeStep * (par.integrator.stepIntegrator 0).2 }
        ⟨(par.integrator.stepIntegrator 0).1, [], 0, 0⟩ hf hf' (hu 0)
      rw [hr]
      simp only
      have c0 := hcm 0 { s with
          iterationCount := s.iterationCount + 1
          integration := (par.integrator.stepIntegrator 0).1
          timeStep := s.timeStep * (par.integrator.stepIntegrator 0).2 } rfl h0.symm rfl rfl
      obtain ⟨r', hr'⟩ := contactLoop_free n force par ω 1 (par.contactIterations - 1)
        { commit (env n force) par { s with
            iterationCount := s.iterationCount + 1
            integration := (par.integrator.stepIntegrator 0).1
            timeStep := s.timeStep * (par.integrator.stepIntegrator 0).2 } (ω 0).solution with
          integration := (par.integrator.stepIntegrator 1).1
          timeStep := s.timeStep * (par.integrator.stepIntegrator 1).2 }
        ⟨(par.integrator.stepIntegrator 1).1, [], 0, 0⟩ hf hf' (hu 1)
      rw [hr']
      exact ⟨rfl, hcm 1 _ rfl c0 rfl rfl⟩
  refine ⟨main.1, main.2, ?_⟩
  rw [main.2, ← h0]
  have gen : ∀ a k, k + a = par.integrator.numStages →
      StagesClear par.integrator m s.timeStep force (clears freq s.timeStep (s.iterationCount + 1)) a k (D k)
        (D par.integrator.numStages) := by
    intro a
    induction a with
    | zero =>
      intro k hk
      rw [← hk]
      rfl
    | succ a ih =>
      intro k hk
      refine ⟨_, hroot k (by omega), ?_⟩
      have := hD k
      simp only at this
      rw [← this]
      exact ih (k + 1) (by omega)
  exact gen _ 0 (by omega)

/-- C97: a step that succeeds, with or without contacts, and whose number is a multiple ends at rest. -/
theorem solver_at_rest (n : ℕ) (force : (ι → ℝ) → (ι → ℝ) → ι → ℝ) (par : Params) (ω : ℕ → Outcome (ι → ℝ))
    (jacOk : ℕ → Bool) (s : Sim (ι → Dof) (ι → ℝ)) (hc : par.clearSteps ∣ s.iterationCount + 1)
    (hok : (step (env n force) par ω jacOk s).result.isSome) :
    velocities (step (env n force) par ω jacOk s).sim.state = 0 := by
  have hloop : ∀ k ci (t : Sim (ι → Dof) (ι → ℝ)) st, par.clearSteps ∣ t.iterationCount →
      (contactLoop (env n force) par ω k ci t st).sim.iterationCount = t.iterationCount ∧
      ((contactLoop (env n force) par ω k ci t st).stage.isSome →
        velocities (contactLoop (env n force) par ω k ci t st).sim.state = 0) := by
    intro k ci t st
    have hcom : ∀ (t : Sim (ι → Dof) (ι → ℝ)) x, par.clearSteps ∣ t.iterationCount →
        velocities (commit (env n force) par t x).state = 0 := by
      intro t x h
      unfold commit
      rw [Nat.dvd_iff_mod_eq_zero] at h
      simp only [h, if_true]
      rfl
    refine loop_ind (env n force) par ω (fun k ci t st r => par.clearSteps ∣ t.iterationCount →
      r.sim.iterationCount = t.iterationCount ∧ (r.stage.isSome → velocities r.sim.state = 0)) ?_ ?_ ?_ ?_ k ci t st
    · intro k ci t st _ _
      exact ⟨rfl, fun h => by cases h⟩
    · intro k ci t st _ _ h
      exact ⟨rfl, fun _ => hcom _ _ h⟩
    · intro k ci t st r _ _ _ ih h
      exact ih h
    · intro k ci t st _ _ _ h
      have e : ∀ cv, (relax t cv).iterationCount = t.iterationCount := by
        intro cv
        unfold relax
        split_ifs <;> rfl
      exact ⟨e _, fun _ => hcom _ _ (by rw [e]; exact h)⟩
  have hst : ∀ (dt : ℝ) l k ci (t : Sim (ι → Dof) (ι → ℝ)) acc, par.clearSteps ∣ t.iterationCount →
      (l = [] → velocities t.state = 0) →
      (stages (env n force) par ω jacOk dt l k ci t acc).result.isSome →
      velocities (stages (env n force) par ω jacOk dt l k ci t acc).sim.state = 0 := by
    intro dt l
    induction l with
    | nil =>
      intro k ci t acc _ hv _
      exact hv rfl
    | cons a l ih =>
      intro k ci t acc ht _ hres
      rw [stages] at hres ⊢
      simp only at hres ⊢
      by_cases hj : jacOk a = true
      · rw [if_pos hj] at hres ⊢
        obtain ⟨h1, h2⟩ := hloop k ci { t with
            integration := (par.integrator.stepIntegrator a).1
            timeStep := dt * (par.integrator.stepIntegrator a).2 } ⟨(par.integrator.stepIntegrator a).1, [], 0, 0⟩ ht
        generalize contactLoop (env n force) par ω k ci _ _ = r at h1 h2 hres ⊢
        cases hs : r.stage with
        | none =>
          rw [hs] at hres
          cases hres
        | some st =>
          rw [hs] at hres
          simp only at hres ⊢
          exact ih r.solves r.iters r.sim _ (by rw [h1]; exact ht) (fun _ => h2 (by rw [hs]; rfl)) hres
      · rw [if_neg hj] at hres
        cases hres
  unfold step at hok ⊢
  refine hst _ _ _ _ _ _ hc (fun h => ?_) hok
  exfalso
  cases hi : par.integrator <;> simp [hi, TimeIntegration.numStages] at h

/-- A step that succeeds with the velocity one, and one that fails. -/
def moving (ok : Bool) : ℕ → Outcome (Unit → ℝ) := fun _ => ⟨if ok then .success else .failed, fun _ => 1, [], false⟩

/-- C97 (violated): failed steps are counted. If every other step fails, velocities asked to be cleared in every other
step are never cleared. -/
theorem failed_steps_violated (dt : ℝ) (n : ℕ) :
    velocities (run (env 0 noForce) ⟨5, .BE, 2⟩
      ((List.replicate n [(moving true, fun _ => true), (moving false, fun _ => true)]).flatten)
      ⟨fun _ => Dof.fresh 0 1, fun _ => 1, dt, .BE, [], [], 0⟩).state () = 1 := by
  have key : ∀ s : Sim (Unit → Dof) (Unit → ℝ), s.fcs = [] → s.fcsAd = [] → s.iterationCount % 2 = 0 →
      velocities s.state () = 1 →
      velocities (run (env 0 noForce) ⟨5, .BE, 2⟩
        ((List.replicate n [(moving true, fun _ => true), (moving false, fun _ => true)]).flatten) s).state () = 1 := by
    induction n with
    | zero =>
      intro s _ _ _ h
      exact h
    | succ n ih =>
      intro s hf hf' hc hv
      rw [List.replicate_succ, List.flatten_cons]
      simp only [List.cons_append, List.nil_append, run]
      have r1 : List.range 1 = [0] := rfl
      obtain ⟨r, hr⟩ := contactLoop_free 0 noForce ⟨5, .BE, 2⟩ (moving true) 0 5
        { s with iterationCount := s.iterationCount + 1, integration := .BE, timeStep := s.timeStep * 1 }
        ⟨.BE, [], 0, 0⟩ hf hf' (Or.inl rfl)
      have e1 : (step (env 0 noForce) ⟨5, .BE, 2⟩ (moving true) (fun _ => true) s).sim =
          commit (env 0 noForce) ⟨5, .BE, 2⟩
            { s with iterationCount := s.iterationCount + 1, integration := .BE, timeStep := s.timeStep * 1 }
            (fun _ => 1) := by
        unfold step
        simp only [TimeIntegration.numStages, r1, stages, if_true, TimeIntegration.stepIntegrator, Nat.cast_ofNat]
        rw [hr]
        rfl
      have e2 : ∀ t : Sim (Unit → Dof) (Unit → ℝ),
          (step (env 0 noForce) ⟨5, .BE, 2⟩ (moving false) (fun _ => true) t).sim =
            { t with iterationCount := t.iterationCount + 1, integration := .BE, timeStep := t.timeStep * 1 } := by
        intro t
        unfold step
        simp only [TimeIntegration.numStages, r1, stages, if_true, TimeIntegration.stepIntegrator]
        rw [contactLoop]
        simp [moving]
      rw [e1, e2]
      refine ih _ hf hf' ?_ ?_
      · show (s.iterationCount + 1 + 1) % 2 = 0
        omega
      · have : ¬ (s.iterationCount + 1) % 2 = 0 := by omega
        simp only [commit, this, if_false]
        rfl
  exact key _ rfl rfl rfl rfl

/-! ## Concrete cases -/

/-- The hypotheses of `solver_step` are met by a solver with this body, backward Euler and the velocity one. -/
example : ∃ D : ℕ → Unit → Dof, D 0 = (fun _ => Dof.fresh 0 1) ∧
    StageStates ⟨5, .BE, clearSteps 1 1⟩ 0 noForce (moving true) 1 (clears 1 1 1) D ∧ (∀ k, (moving true k).usable) ∧
    ∀ k, k < TimeIntegration.numStages .BE → ∀ i, TimeInt.residual (TimeIntegration.BE.stepIntegrator k).1 1
      (1 * (TimeIntegration.BE.stepIntegrator k).2) (D k i) ((moving true k).solution i)
      (-(noForce (fun j => integrateStep (TimeIntegration.BE.stepIntegrator k).1 (D k j) ((moving true k).solution j)
        (1 * (TimeIntegration.BE.stepIntegrator k).2)) (moving true k).solution i)) = 0 := by
  refine ⟨fun k => Nat.rec (fun _ => Dof.fresh 0 1) (fun k Dk =>
    let D1 := (env 0 noForce).advance (TimeIntegration.BE.stepIntegrator k).1
      (1 * (TimeIntegration.BE.stepIntegrator k).2) Dk (moving true k).solution
    if clears 1 1 1 then fun i => clear (D1 i) else D1) k, rfl, fun k => rfl, fun k => Or.inl rfl, ?_⟩
  intro k hk i
  have : k = 0 := by
    simp only [TimeIntegration.numStages] at hk
    omega
  subst this
  simp [TimeInt.residual, TimeIntegration.stepIntegrator, SingleStep.implicitFactor, SingleStep.explicitFactor, noForce,
    moving, curVertexVel, Dof.fresh, lerpVel, curWeights]

/-- A body at unit speed, cleared in every step of a second: backward Euler moves it by one and stops it. -/
example : ∃ D : Unit → Dof, StepClear .BE (fun _ => 1) 1 1 noForce 1 (fun _ => Dof.fresh 0 1) D ∧
    positions D () = 1 ∧ velocities D = 0 := by
  have hc : clears 1 1 1 = true := by
    have := clearSteps_all 1 one_pos
    rw [clears_iff]
    norm_num at this ⊢
    rw [this]
  unfold StepClear
  rw [hc]
  refine ⟨_, ⟨_, ⟨fun _ => 1, fun _ => ⟨?_, rfl⟩⟩, rfl⟩, ?_, rfl⟩
  · norm_num [TimeInt.residual, noForce, curVertexVel, lerpVel, curWeights, TimeIntegration.stepIntegrator, Dof.fresh,
      SingleStep.explicitFactor]
  · norm_num [positions, clear, advance, TimeIntegration.stepIntegrator, integrateStep, beStep, Dof.fresh]

/-- The hypotheses of `tr_damped_violated` are met. -/
example : ∃ D D1 D2 : Unit → Dof, StepClear .TR (fun _ => 1) 1 1 (damper 2) 1 D D1 ∧
    (∃ E, PlainStep .TR (fun _ => 1) 1 (damper 2) D E ∧ velocities E () = 1 ∧ D1 = fun i => clear (E i)) ∧
    PlainStep .TR (fun _ => 1) 1 (damper 2) D1 D2 := by
  have hc : clears 1 1 1 = true := by
    have := clearSteps_all 1 one_pos
    rw [clears_iff]
    norm_num at this ⊢
    rw [this]
  unfold StepClear PlainStep
  rw [hc]
  have h1 : SystemStageSolves .TR (fun _ : Unit => 1) (1 * 1) (damper 2) (fun _ => ⟨⟨0, 2⟩, ⟨0, 2⟩, 0⟩)
      (fun _ => ⟨⟨0, 2⟩, ⟨3 / 2, 1⟩, 2⟩) := by
    refine ⟨fun _ => 1, fun _ => ⟨?_, ?_⟩⟩
    · norm_num [TimeInt.residual, curVertexVel, lerpVel, curWeights, SingleStep.explicitFactor,
        SingleStep.implicitFactor, damper]
    · norm_num [advance, integrateStep, trStep, lerpStep, damper]
  have h2 : SystemStageSolves .TR (fun _ : Unit => 1) (1 * 1) (damper 2) (fun _ => ⟨⟨0, 2⟩, ⟨3 / 2, 0⟩, 2⟩)
      (fun _ => ⟨⟨3 / 2, 0⟩, ⟨3 / 2 - 1 / 4, -1 / 2⟩, -1⟩) := by
    refine ⟨fun _ => -1 / 2, fun _ => ⟨?_, ?_⟩⟩
    · norm_num [TimeInt.residual, curVertexVel, lerpVel, curWeights, SingleStep.explicitFactor,
        SingleStep.implicitFactor, damper]
    · norm_num [advance, integrateStep, trStep, lerpStep, damper]
  exact ⟨_, _, _, ⟨_, h1, rfl⟩, ⟨_, ⟨_, h1, rfl⟩, rfl, rfl⟩, ⟨_, h2, rfl⟩⟩

end Softy.VelocityClear
