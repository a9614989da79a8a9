import Verif.Model.TimeIntegration
import Verif.Prelude

/-!
# C53 — unconditional stability of the integrators

* Backward Euler never increases the total energy of a system with a convex potential,
  whatever the time step.
* The trapezoidal rule conserves the energy of a linear (mass-spring) system exactly,
  whatever the time step.
-/

noncomputable section

namespace Softy.TimeInt

open Finset

variable {ι : Type*} [Fintype ι]

/-- Kinetic energy of a system. -/
def kinetic (m : ι → ℝ) (D : ι → Dof) : ℝ := ∑ i, m i * (D i).cur.dq ^ 2 / 2

/-- Positions of a system. -/
def positions (D : ι → Dof) : ι → ℝ := fun i => (D i).cur.q

/-- `f` is the (negative) gradient of the convex potential `U`, expressed by the
supporting-hyperplane inequality. -/
def ConvexForce (U : (ι → ℝ) → ℝ) (f : (ι → ℝ) → ι → ℝ) : Prop :=
  ∀ x y, U x - ∑ i, f x i * (y i - x i) ≤ U y

/-- **C53.** One backward Euler step does not increase total energy, for every time step. -/
theorem be_energy_nonincreasing (m : ι → ℝ) (hm : ∀ i, 0 < m i) (dt : ℝ)
    (U : (ι → ℝ) → ℝ) (f : (ι → ℝ) → ι → ℝ) (hU : ConvexForce U f) (D D' : ι → Dof)
    (h : SystemStageSolves .BE m dt (fun q _ => f q) D D') :
    kinetic m D' + U (positions D') ≤ kinetic m D + U (positions D) := by
  obtain ⟨v, h⟩ := h
  have hq : positions D' = fun i => integrateStep .BE (D i) (v i) dt := by
    funext i; simp only [positions, (h i).2, advance]
  have hv : ∀ i, (D' i).cur.dq = v i := fun i => by simp only [(h i).2, advance]
  have hc := hU (positions D') (positions D)
  have hr : ∀ i, m i * (D i).cur.dq = m i * v i - dt * f (positions D') i := by
    intro i
    have := (h i).1
    rw [← hq] at this
    simp only [residual, SingleStep.explicitFactor, gt_iff_lt, lt_irrefl, if_false,
      SingleStep.implicitFactor, curVertexVel, lerpVel, curWeights] at this
    linarith
  have hx : ∀ i, positions D i - positions D' i = -(dt * v i) := by
    intro i
    rw [hq]
    simp only [integrateStep, beStep, positions]
    ring
  have key : kinetic m D' - ∑ i, f (positions D') i * (positions D' i - positions D i) ≤
      kinetic m D := by
    unfold kinetic
    rw [← sum_sub_distrib]
    apply sum_le_sum
    intro i _
    rw [hv]
    have h1 := hr i
    have h2 : positions D' i - positions D i = dt * v i := by linarith [hx i]
    rw [h2]
    have hmi := hm i
    set c := (D i).cur.dq
    have h3 : f (positions D') i * (dt * v i) = m i * v i * v i - m i * c * v i := by
      have : dt * f (positions D') i = m i * v i - m i * c := by linarith
      calc _ = (dt * f (positions D') i) * v i := by ring
        _ = _ := by rw [this]; ring
    rw [h3]
    nlinarith [mul_nonneg hmi.le (sq_nonneg (v i - c))]
  have e : ∑ i, f (positions D') i * (positions D' i - positions D i) =
      - ∑ i, f (positions D') i * (positions D i - positions D' i) := by
    rw [← sum_neg_distrib]
    exact sum_congr rfl fun i _ => by ring
  linarith

/-- Successive BE steps of the whole system. -/
def SystemSteps (s : SingleStep) (m : ι → ℝ) (dt : ℝ) (force : (ι → ℝ) → (ι → ℝ) → ι → ℝ) :
    ℕ → (ι → Dof) → (ι → Dof) → Prop
  | 0, D, D' => D' = D
  | n + 1, D, D' => ∃ D1, SystemStageSolves s m dt force D D1 ∧ SystemSteps s m dt force n D1 D'

/-- **C53.** Energy stays bounded by its initial value for any number of BE steps. -/
theorem be_energy_bounded (m : ι → ℝ) (hm : ∀ i, 0 < m i) (dt : ℝ)
    (U : (ι → ℝ) → ℝ) (f : (ι → ℝ) → ι → ℝ) (hU : ConvexForce U f) (n : ℕ) (D D' : ι → Dof)
    (h : SystemSteps .BE m dt (fun q _ => f q) n D D') :
    kinetic m D' + U (positions D') ≤ kinetic m D + U (positions D) := by
  induction n generalizing D with
  | zero => cases h; exact le_rfl
  | succ n ih =>
    obtain ⟨D1, h1, h2⟩ := h
    exact (ih D1 h2).trans (be_energy_nonincreasing m hm dt U f hU D D1 h1)

/-- The energy of a system of linear springs with stiffness matrix `K` and constant load
`b`: `½ qᵀKq - bᵀq`. -/
def springEnergy (K : ι → ι → ℝ) (b : ι → ℝ) (q : ι → ℝ) : ℝ :=
  (∑ i, ∑ j, q i * K i j * q j) / 2 - ∑ i, b i * q i

/-- The force `b - K q`. -/
def springForce (K : ι → ι → ℝ) (b : ι → ℝ) (q : ι → ℝ) (i : ι) : ℝ :=
  b i - ∑ j, K i j * q j


theorem spring_diff (K : ι → ι → ℝ) (hK : ∀ i j, K i j = K j i) (b p q : ι → ℝ) :
    springEnergy K b q - springEnergy K b p =
      - ∑ i, (springForce K b p i + springForce K b q i) / 2 * (q i - p i) := by
  have sw : ∑ i, ∑ j, p i * K i j * q j = ∑ i, ∑ j, q i * K i j * p j := by
    rw [sum_comm]
    refine sum_congr rfl fun i _ => sum_congr rfl fun j _ => ?_
    rw [hK j i]; ring
  have e1 : ∑ i, (springForce K b p i + springForce K b q i) / 2 * (q i - p i) =
      ∑ i, b i * q i - ∑ i, b i * p i -
      (∑ i, ∑ j, q i * K i j * p j + ∑ i, ∑ j, q i * K i j * q j
        - ∑ i, ∑ j, p i * K i j * p j - ∑ i, ∑ j, p i * K i j * q j) / 2 := by
    simp only [← sum_sub_distrib, ← sum_add_distrib, sum_div]
    refine sum_congr rfl fun i _ => ?_
    simp only [springForce]
    have a1 : ∑ j, (q i * K i j * p j + q i * K i j * q j - p i * K i j * p j
        - p i * K i j * q j) = (q i - p i) * (∑ j, K i j * p j + ∑ j, K i j * q j) := by
      rw [← sum_add_distrib, mul_sum]
      exact sum_congr rfl fun j _ => by ring
    rw [← sum_div, a1]
    ring
  rw [e1, sw]
  unfold springEnergy
  ring

/-- **C53.** The trapezoidal rule conserves the energy of a linear system exactly, for every
time step, provided the stored force is the force of the current state (which every earlier
TR step establishes: `tr_step_stores_force`). -/
theorem tr_energy_conserved (m : ι → ℝ) (dt : ℝ)
    (K : ι → ι → ℝ) (hK : ∀ i j, K i j = K j i) (b : ι → ℝ) (D D' : ι → Dof)
    (hp : ∀ i, (D i).prevForce = -springForce K b (positions D) i)
    (h : SystemStageSolves .TR m dt (fun q _ => springForce K b q) D D') :
    kinetic m D' + springEnergy K b (positions D') =
      kinetic m D + springEnergy K b (positions D) := by
  obtain ⟨v, h⟩ := h
  have hq : positions D' = fun i => integrateStep .TR (D i) (v i) dt := by
    funext i; simp only [positions, (h i).2, advance]
  have hv : ∀ i, (D' i).cur.dq = v i := fun i => by simp only [(h i).2, advance]
  have hd := spring_diff K hK b (positions D) (positions D')
  have key : kinetic m D' - kinetic m D =
      ∑ i, (springForce K b (positions D) i + springForce K b (positions D') i) / 2 *
        (positions D' i - positions D i) := by
    unfold kinetic
    rw [← sum_sub_distrib]
    refine sum_congr rfl fun i _ => ?_
    have h1 := (h i).1
    rw [← hq] at h1
    have e : ((0.5 : ℝ) > 0) := by norm_num
    simp only [residual, SingleStep.explicitFactor, e, if_true,
      SingleStep.implicitFactor, curVertexVel, lerpVel, curWeights, hp i] at h1
    rw [hv]
    have h2 : positions D' i - positions D i = dt / 2 * ((D i).cur.dq + v i) := by
      rw [hq]
      simp only [integrateStep, trStep, lerpStep, positions]
      ring
    rw [h2]
    set c := (D i).cur.dq
    set A := springForce K b (positions D) i
    set B := springForce K b (positions D') i
    have h3 : dt / 2 * (A + B) = m i * (v i - c) := by linarith
    linear_combination (-(c + v i) / 2) * h3
  linarith

omit [Fintype ι] in
/-- After a TR step the stored force is the force of the new state. -/
theorem tr_step_stores_force (m : ι → ℝ) (dt : ℝ) (f : (ι → ℝ) → ι → ℝ) (s : SingleStep)
    (D D' : ι → Dof) (h : SystemStageSolves s m dt (fun q _ => f q) D D') (i : ι) :
    (D' i).prevForce = -f (positions D') i := by
  obtain ⟨v, h⟩ := h
  have hq : positions D' = fun i => integrateStep s (D i) (v i) dt := by
    funext i; simp only [positions, (h i).2, advance]
  rw [hq, (h i).2]
  rfl

/-- **C53.** Hence energy is conserved over any number of TR steps. -/
theorem tr_energy_conserved_steps (m : ι → ℝ) (dt : ℝ)
    (K : ι → ι → ℝ) (hK : ∀ i j, K i j = K j i) (b : ι → ℝ) (n : ℕ) (D D' : ι → Dof)
    (hp : ∀ i, (D i).prevForce = -springForce K b (positions D) i)
    (h : SystemSteps .TR m dt (fun q _ => springForce K b q) n D D') :
    kinetic m D' + springEnergy K b (positions D') =
      kinetic m D + springEnergy K b (positions D) := by
  induction n generalizing D with
  | zero => cases h; rfl
  | succ n ih =>
    obtain ⟨D1, h1, h2⟩ := h
    rw [ih D1 (fun i => tr_step_stores_force m dt (springForce K b) .TR D D1 h1 i) h2]
    exact tr_energy_conserved m dt K hK b D D1 hp h1

/-- Non-vacuity: a unit spring is convex, and a BE step with a huge time step exists. -/
example : ConvexForce (ι := Unit) (fun q => q () ^ 2 / 2) (fun q _ => -q ()) ∧
    ∃ D', SystemStageSolves (ι := Unit) .BE (fun _ => 1) 3 (fun q _ _ => -q ())
      (fun _ => Dof.fresh 10 0) D' := by
  constructor
  · intro x y
    simp only [Finset.univ_unique, sum_singleton, PUnit.default_eq_unit]
    nlinarith [sq_nonneg (x () - y ())]
  · refine ⟨fun _ => _, fun _ => -3, fun i => ⟨?_, rfl⟩⟩
    norm_num [residual, SingleStep.explicitFactor, SingleStep.implicitFactor, curVertexVel,
      lerpVel, curWeights, integrateStep, beStep, Dof.fresh]

/-- Non-vacuity: a TR step of the unit spring whose stored force is consistent. -/
example : (∀ i : Unit, ((fun _ => (⟨⟨1, 0⟩, ⟨1, 0⟩, 1⟩ : Dof)) i).prevForce =
      -springForce (fun _ _ => 1) (fun _ => 0) (positions fun _ => ⟨⟨1, 0⟩, ⟨1, 0⟩, 1⟩) i) ∧
    ∃ D', SystemStageSolves (ι := Unit) .TR (fun _ => 1) 2
      (fun q _ => springForce (fun _ _ => 1) (fun _ => 0) q)
      (fun _ => ⟨⟨1, 0⟩, ⟨1, 0⟩, 1⟩) D' := by
  constructor
  · intro i; simp [springForce, positions]
  · refine ⟨fun _ => _, fun _ => -1, fun i => ⟨?_, rfl⟩⟩
    norm_num [residual, SingleStep.explicitFactor, SingleStep.implicitFactor, curVertexVel,
      lerpVel, curWeights, integrateStep, trStep, lerpStep, springForce]

end Softy.TimeInt
