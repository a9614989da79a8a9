import Verif.Model.TimeIntegration
import Mathlib.Analysis.Calculus.Deriv.Mul
import Mathlib.Analysis.Calculus.Deriv.Add
import Mathlib.Tactic.Ring
import Mathlib.Tactic.FieldSimp
import Mathlib.Tactic.Linarith
import Mathlib.Tactic.NormNum

/-!
# C03, C04, C05 — time integrators

* C03: the position depends on the unknown velocity with slope `implicit_factor * dt`.
* C04: uniform motion is reproduced exactly (any number of steps).
* C05: constant acceleration is reproduced exactly by the second-order schemes.
-/

noncomputable section

namespace Softy.TimeInt

/-- The single-step integrators that a valid scheme can select: the fraction of a
`MixedBDF2` stage lies strictly between 0 and 1. -/
def SingleStep.Valid : SingleStep → Prop
  | .MixedBDF2 t => 0 < t ∧ t < 1
  | _ => True

/-- The TR-BDF2 fraction lies strictly between 0 and 1. -/
def TimeIntegration.Valid : TimeIntegration → Prop
  | .TRBDF2 t => 0 < t ∧ t < 1
  | _ => True

/-- Every stage of a valid scheme is a valid single step. -/
theorem stepIntegrator_valid (ti : TimeIntegration) (h : ti.Valid) (k : ℕ) :
    (ti.stepIntegrator k).1.Valid := by
  cases ti <;> simp only [TimeIntegration.stepIntegrator] <;>
    first
      | trivial
      | (split <;> simp only [SingleStep.Valid]
         obtain ⟨h1, h2⟩ := h
         constructor <;> linarith)
      | (split <;> trivial)

/-! ## C03 -/

/-- **C03.** The new position is affine in the new velocity with slope
`implicit_factor * dt`. -/
theorem integrateStep_affine (s : SingleStep) (hs : s.Valid) (d : Dof) (v w dt : ℝ) :
    integrateStep s d v dt - integrateStep s d w dt = s.implicitFactor * dt * (v - w) := by
  cases s with
  | BE => simp only [integrateStep, beStep, SingleStep.implicitFactor]; ring
  | TR => simp only [integrateStep, trStep, lerpStep, SingleStep.implicitFactor]; ring
  | BDF2 =>
    simp only [integrateStep, bdf2Step, mixedBdf2Step, SingleStep.implicitFactor]; ring
  | MixedBDF2 t =>
    obtain ⟨h0, h1⟩ := hs
    have : (1 + t) ≠ 0 := by positivity
    have e : (2 - (1 - t)) = 1 + t := by ring
    simp only [integrateStep, mixedBdf2Step, SingleStep.implicitFactor, e]
    field_simp
    ring
  | SDIRK2 => simp only [integrateStep, sdirk2Step, SingleStep.implicitFactor]; ring

/-- **C03.** `implicit_factor * dt` is the derivative `dq/dv` used to chain energy
derivatives (`problem.rs:1410`). -/
theorem integrateStep_hasDerivAt (s : SingleStep) (hs : s.Valid) (d : Dof) (v dt : ℝ) :
    HasDerivAt (fun v => integrateStep s d v dt) (s.implicitFactor * dt) v := by
  have h : (fun v => integrateStep s d v dt) =
      fun v => s.implicitFactor * dt * v + integrateStep s d 0 dt := by
    funext w
    have := integrateStep_affine s hs d w 0 dt
    linarith
  rw [h]
  simpa using ((hasDerivAt_id' v).const_mul (s.implicitFactor * dt)).add_const
    (integrateStep s d 0 dt)

/-- Non-vacuity of the validity hypothesis. -/
example : (SingleStep.MixedBDF2 0.5).Valid ∧ (TimeIntegration.TRBDF2 0.3).Valid := by
  constructor <;> constructor <;> norm_num

/-- The position used as the reference state for BDF2-type stages is exactly the part of
the new position that does not depend on the new velocity: lagged quantities and the
position update use the same blend of `prev` and `cur`. -/
theorem integrateStep_eq_curVertexPos_bdf2 (s : SingleStep) (hs : s.Valid)
    (hb : s = .BDF2 ∨ ∃ t, s = .MixedBDF2 t) (d : Dof) (v dt : ℝ) :
    integrateStep s d v dt = curVertexPos s d + s.implicitFactor * dt * v := by
  rcases hb with rfl | ⟨t, rfl⟩
  · simp only [integrateStep, bdf2Step, mixedBdf2Step, SingleStep.implicitFactor, curVertexPos,
      lerpPos, curWeights]
    ring
  · obtain ⟨h0, h1⟩ := hs
    have p1 : (1 + t) ≠ 0 := by positivity
    have p2 : (1 - t) ≠ 0 := by linarith
    have p3 : (1 - t * t) ≠ 0 := by
      have : 1 - t * t = (1 - t) * (1 + t) := by ring
      rw [this]; exact mul_ne_zero p2 p1
    have e : (2 - (1 - t)) = 1 + t := by ring
    have e2 : 1 - t * t = (1 - t) * (1 + t) := by ring
    simp only [integrateStep, mixedBdf2Step, SingleStep.implicitFactor, curVertexPos,
      lerpPos, curWeights, e, e2]
    field_simp
    ring

/-! ## Helper lemmas about a single stage -/

theorem stage_velocity (s : SingleStep) (m dt : ℝ) (hm : m ≠ 0) (force : ℝ → ℝ → ℝ) (F : ℝ)
    (hF : ∀ q v, force q v = F) (d d' : Dof) (h : StageSolves s m dt force d d') :
    let v := curVertexVel s d + dt / m * (F * s.implicitFactor -
      (if s.explicitFactor > 0 then d.prevForce * s.explicitFactor else 0))
    d' = ⟨d.cur, ⟨integrateStep s d v dt, v⟩, -F⟩ := by
  obtain ⟨v, hr, hd⟩ := h
  rw [hF] at hr hd
  have hv : v = curVertexVel s d + dt / m * (F * s.implicitFactor -
      (if s.explicitFactor > 0 then d.prevForce * s.explicitFactor else 0)) := by
    simp only [residual] at hr
    split_ifs at hr ⊢ with hpos <;> field_simp <;> linarith
  intro v'
  have : v' = v := hv.symm
  rw [this, hd]
  rfl

theorem stage_exists (s : SingleStep) (m dt : ℝ) (hm : m ≠ 0) (force : ℝ → ℝ → ℝ) (F : ℝ)
    (hF : ∀ q v, force q v = F) (d : Dof) : ∃ d', StageSolves s m dt force d d' := by
  refine ⟨_, curVertexVel s d + dt / m * (F * s.implicitFactor -
      (if s.explicitFactor > 0 then d.prevForce * s.explicitFactor else 0)), ?_, rfl⟩
  rw [hF]
  simp only [residual]
  split_ifs <;> field_simp <;> ring

theorem sqrt_two_half_pos : (0 : ℝ) < 0.5 * √2 := by positivity

theorem sqrt_two_sq : √2 * √2 = (2 : ℝ) := Real.mul_self_sqrt (by norm_num)

/-! ## Specification of exact motion -/

/-- Position at time `τ` of a body starting at `q₀` with velocity `v₀` and constant
acceleration `a`. -/
def exactPos (q₀ v₀ a τ : ℝ) : ℝ := q₀ + v₀ * τ + a * τ ^ 2 / 2

/-- Velocity at time `τ` of the same body. -/
def exactVel (v₀ a τ : ℝ) : ℝ := v₀ + a * τ

/-- The simulator's state at time `τ` matches the exact motion. The history (`prev`) only
matters to plain BDF2, where it must be the exact state one time step earlier. The stored
force is minus the constant force. -/
def OnTrajectory (ti : TimeIntegration) (m dt q₀ v₀ a τ : ℝ) (d : Dof) : Prop :=
  d.cur = ⟨exactPos q₀ v₀ a τ, exactVel v₀ a τ⟩ ∧ d.prevForce = -(m * a) ∧
  match ti with
  | .BDF2 => d.prev = ⟨exactPos q₀ v₀ a (τ - dt), exactVel v₀ a (τ - dt)⟩
  | _ => True

/-- `n` successful calls of `Solver::step`. -/
def StepsSolve (ti : TimeIntegration) (m dt : ℝ) (force : ℝ → ℝ → ℝ) : ℕ → Dof → Dof → Prop
  | 0, d, d' => d' = d
  | n + 1, d, d' => ∃ d1, StepSolves ti m dt force d d1 ∧ StepsSolve ti m dt force n d1 d'

/-- The integrators of second order. -/
def SecondOrder : TimeIntegration → Prop
  | .BE => False
  | _ => True

theorem mixed_ne (t : ℝ) (h0 : 0 < t) (h1 : t < 1) :
    t ≠ 0 ∧ (2 - t) ≠ 0 ∧ (1 - t) ≠ 0 ∧ (1 + (1 - t)) ≠ 0 ∧
      (1 - (1 - t) * (1 - t)) = t * (2 - t) := by
  refine ⟨h0.ne', by linarith, by linarith, by linarith, by ring⟩

/-- One step of a second-order scheme follows the exact trajectory. -/
theorem step_onTrajectory (ti : TimeIntegration) (hv : ti.Valid) (h2 : SecondOrder ti)
    (m dt q₀ v₀ a τ : ℝ) (hm : m ≠ 0) (d d' : Dof)
    (h : OnTrajectory ti m dt q₀ v₀ a τ d)
    (hs : StepSolves ti m dt (fun _ _ => m * a) d d') :
    OnTrajectory ti m dt q₀ v₀ a (τ + dt) d' := by
  obtain ⟨⟨pq, pv⟩, ⟨cq, cv⟩, pf⟩ := d
  obtain ⟨hc, hf, hp⟩ := h
  simp only [GState.mk.injEq] at hc
  obtain ⟨rfl, rfl⟩ := hc
  simp only at hf
  subst hf
  cases ti with
  | BE => exact absurd h2 (by simp [SecondOrder])
  | TR =>
    simp only [StepSolves, TimeIntegration.numStages, StagesSolve,
      TimeIntegration.stepIntegrator] at hs
    obtain ⟨d1, h1, rfl⟩ := hs
    have := stage_velocity _ _ _ hm _ (m * a) (fun _ _ => rfl) _ _ h1
    subst this
    refine ⟨?_, rfl, trivial⟩
    have e : ((0.5 : ℝ) > 0) := by norm_num
    simp only [SingleStep.implicitFactor, SingleStep.explicitFactor, curVertexVel, curWeights,
      lerpVel, integrateStep, trStep, lerpStep, exactPos, exactVel, e, if_true, GState.mk.injEq]
    constructor <;> field_simp <;> ring
  | BDF2 =>
    simp only [StepSolves, TimeIntegration.numStages, StagesSolve,
      TimeIntegration.stepIntegrator] at hs
    obtain ⟨d1, h1, rfl⟩ := hs
    simp only [GState.mk.injEq] at hp
    obtain ⟨rfl, rfl⟩ := hp
    have := stage_velocity _ _ _ hm _ (m * a) (fun _ _ => rfl) _ _ h1
    subst this
    refine ⟨?_, rfl, ?_⟩
    · simp only [SingleStep.implicitFactor, SingleStep.explicitFactor, curVertexVel, curWeights,
        lerpVel, integrateStep, bdf2Step, mixedBdf2Step, exactPos, exactVel, gt_iff_lt,
        lt_irrefl, if_false, GState.mk.injEq]
      constructor <;> field_simp <;> ring
    · simp [exactPos, exactVel]
  | TRBDF2 t =>
    obtain ⟨t0, t1⟩ := hv
    obtain ⟨n1, n2, n3, n4, e5⟩ := mixed_ne t t0 t1
    simp only [StepSolves, TimeIntegration.numStages, StagesSolve,
      TimeIntegration.stepIntegrator] at hs
    obtain ⟨d1, h1, d2, h2', rfl⟩ := hs
    simp only [if_true] at h1
    simp only [Nat.reduceAdd, Nat.one_mod, one_ne_zero, if_false, mul_one] at h2'
    have := stage_velocity _ _ _ hm _ (m * a) (fun _ _ => rfl) _ _ h1
    subst this
    have := stage_velocity _ _ _ hm _ (m * a) (fun _ _ => rfl) _ _ h2'
    subst this
    refine ⟨?_, rfl, trivial⟩
    have e : ((0.5 : ℝ) > 0) := by norm_num
    have e6 : 1 + (1 - t) = 2 - t := by ring
    simp only [SingleStep.implicitFactor, SingleStep.explicitFactor, curVertexVel, curWeights,
      lerpVel, integrateStep, trStep, lerpStep, mixedBdf2Step, exactPos, exactVel, e, if_true,
      gt_iff_lt, lt_irrefl, if_false, GState.mk.injEq, e5, sub_sub_cancel, e6]
    constructor <;> field_simp <;> ring
  | SDIRK2 =>
    simp only [StepSolves, TimeIntegration.numStages, StagesSolve,
      TimeIntegration.stepIntegrator] at hs
    obtain ⟨d1, h1, d2, h2', rfl⟩ := hs
    simp only [if_true] at h1
    simp only [Nat.reduceAdd, Nat.one_mod, one_ne_zero, if_false, mul_one] at h2'
    have := stage_velocity _ _ _ hm _ (m * a) (fun _ _ => rfl) _ _ h1
    subst this
    have := stage_velocity _ _ _ hm _ (m * a) (fun _ _ => rfl) _ _ h2'
    subst this
    refine ⟨?_, rfl, trivial⟩
    have e : (0.5 * √2 : ℝ) > 0 := sqrt_two_half_pos
    have hs2 := sqrt_two_sq
    simp only [SingleStep.implicitFactor, SingleStep.explicitFactor, curVertexVel, curWeights,
      lerpVel, integrateStep, beStep, sdirk2Step, exactPos, exactVel, e, if_true,
      gt_iff_lt, lt_irrefl, if_false, GState.mk.injEq]
    generalize √2 = r at hs2
    clear * - hs2 hm
    constructor
    · field_simp
      linear_combination (-(a * m * dt ^ 2 / 2)) * hs2
    · field_simp
      ring


/-- One BE step of uniform motion. -/
theorem step_uniform_BE (m dt q₀ v₀ τ : ℝ) (hm : m ≠ 0) (d d' : Dof)
    (h : OnTrajectory .BE m dt q₀ v₀ 0 τ d)
    (hs : StepSolves .BE m dt (fun _ _ => 0) d d') :
    OnTrajectory .BE m dt q₀ v₀ 0 (τ + dt) d' := by
  obtain ⟨⟨pq, pv⟩, ⟨cq, cv⟩, pf⟩ := d
  obtain ⟨hc, hf, -⟩ := h
  simp only [GState.mk.injEq] at hc
  obtain ⟨rfl, rfl⟩ := hc
  simp only [StepSolves, TimeIntegration.numStages, StagesSolve,
    TimeIntegration.stepIntegrator] at hs
  obtain ⟨d1, h1, rfl⟩ := hs
  have := stage_velocity _ _ _ hm _ 0 (fun _ _ => rfl) _ _ h1
  subst this
  refine ⟨?_, by simp, trivial⟩
  simp only [SingleStep.implicitFactor, SingleStep.explicitFactor, curVertexVel, curWeights,
    lerpVel, integrateStep, beStep, exactPos, exactVel, gt_iff_lt, lt_irrefl, if_false,
    GState.mk.injEq]
  constructor <;> ring

/-- Stages always have a solution when the force is constant. -/
theorem stages_exist (ti : TimeIntegration) (m dt : ℝ) (hm : m ≠ 0) (F : ℝ) (n k : ℕ)
    (d : Dof) : ∃ d', StagesSolve ti m dt (fun _ _ => F) n k d d' := by
  induction n generalizing k d with
  | zero => exact ⟨d, rfl⟩
  | succ n ih =>
    obtain ⟨d1, h1⟩ := stage_exists (ti.stepIntegrator k).1 m (dt * (ti.stepIntegrator k).2) hm
      (fun _ _ => F) F (fun _ _ => rfl) d
    obtain ⟨d2, h2⟩ := ih (k + 1) d1
    exact ⟨d2, d1, h1, h2⟩

theorem steps_exist (ti : TimeIntegration) (m dt : ℝ) (hm : m ≠ 0) (F : ℝ) (n : ℕ)
    (d : Dof) : ∃ d', StepsSolve ti m dt (fun _ _ => F) n d d' := by
  induction n generalizing d with
  | zero => exact ⟨d, rfl⟩
  | succ n ih =>
    obtain ⟨d1, h1⟩ := stages_exist ti m dt hm F ti.numStages 0 d
    obtain ⟨d2, h2⟩ := ih d1
    exact ⟨d2, d1, h1, h2⟩

/-! ## C04 -/

/-- **C04.** Under no force, `n` steps of *any* scheme reproduce uniform motion exactly,
for every time step, and such steps exist. -/
theorem uniform_motion_exact (ti : TimeIntegration) (hv : ti.Valid) (m dt q₀ v₀ : ℝ)
    (hm : m ≠ 0) (n : ℕ) (d : Dof) (h : OnTrajectory ti m dt q₀ v₀ 0 0 d) :
    (∃ d', StepsSolve ti m dt (fun _ _ => 0) n d d') ∧
    ∀ d', StepsSolve ti m dt (fun _ _ => 0) n d d' →
      d'.cur.q = q₀ + n * dt * v₀ ∧ d'.cur.dq = v₀ := by
  refine ⟨steps_exist ti m dt hm 0 n d, ?_⟩
  have key : ∀ (n : ℕ) (τ : ℝ) (d d' : Dof), OnTrajectory ti m dt q₀ v₀ 0 τ d →
      StepsSolve ti m dt (fun _ _ => 0) n d d' →
      OnTrajectory ti m dt q₀ v₀ 0 (τ + n * dt) d' := by
    intro n
    induction n with
    | zero => intro τ d d' h hs; cases hs; simpa using h
    | succ n ih =>
      intro τ d d' h ⟨d1, h1, h2⟩
      have h1' : OnTrajectory ti m dt q₀ v₀ 0 (τ + dt) d1 := by
        cases ti with
        | BE => exact step_uniform_BE m dt q₀ v₀ τ hm d d1 h h1
        | TR => exact step_onTrajectory .TR hv trivial m dt q₀ v₀ 0 τ hm d d1 h (by simpa using h1)
        | BDF2 =>
          exact step_onTrajectory .BDF2 hv trivial m dt q₀ v₀ 0 τ hm d d1 h (by simpa using h1)
        | TRBDF2 t =>
          exact step_onTrajectory (.TRBDF2 t) hv trivial m dt q₀ v₀ 0 τ hm d d1 h
            (by simpa using h1)
        | SDIRK2 =>
          exact step_onTrajectory .SDIRK2 hv trivial m dt q₀ v₀ 0 τ hm d d1 h (by simpa using h1)
      have := ih (τ + dt) d1 d' h1' h2
      have e : τ + dt + n * dt = τ + (n + 1 : ℕ) * dt := by push_cast; ring
      rwa [e] at this
  intro d' hs
  have := (key n 0 d d' h hs).1
  rw [this]
  simp only [exactPos, exactVel]
  constructor <;> ring

/-- Non-vacuity: a freshly built solver is on the trajectory for every scheme but BDF2. -/
example (q v dt : ℝ) : OnTrajectory .TR 1 dt q v 0 0 (Dof.fresh q v) := by
  refine ⟨?_, ?_, trivial⟩ <;> simp [Dof.fresh, exactPos, exactVel]

/-- Non-vacuity for BDF2: a consistent history. -/
example : OnTrajectory .BDF2 1 0.1 0 2 0 0 ⟨⟨-0.2, 2⟩, ⟨0, 2⟩, 0⟩ := by
  refine ⟨?_, ?_, ?_⟩ <;> norm_num [exactPos, exactVel]

/-- **C04 from a fresh solver.** For BE, TR, TR-BDF2 and SDIRK2 a freshly built solver
reproduces uniform motion; no history is needed. -/
theorem uniform_motion_exact_fresh_partial (ti : TimeIntegration) (hv : ti.Valid)
    (hti : ti ≠ .BDF2) (m dt q₀ v₀ : ℝ) (hm : m ≠ 0) (n : ℕ) (d' : Dof)
    (hs : StepsSolve ti m dt (fun _ _ => 0) n (Dof.fresh q₀ v₀) d') :
    d'.cur.q = q₀ + n * dt * v₀ ∧ d'.cur.dq = v₀ := by
  refine (uniform_motion_exact ti hv m dt q₀ v₀ hm n _ ?_).2 d' hs
  refine ⟨by simp [Dof.fresh, exactPos, exactVel], by simp [Dof.fresh], ?_⟩
  cases ti <;> first | trivial | exact absurd rfl hti

/-- **C04 fails from a fresh BDF2 solver.** The history of a fresh solver says that the
body was at rest at its initial position although it has a velocity, so BDF2 starts with a
position error which tends to half a step and never disappears: after `n` steps the body is
behind by `dt * v₀ / 2 * (1 - 3⁻ⁿ)`. -/
theorem bdf2_fresh_lag (m dt q₀ v₀ : ℝ) (hm : m ≠ 0) (n : ℕ) (d' : Dof)
    (hs : StepsSolve .BDF2 m dt (fun _ _ => 0) n (Dof.fresh q₀ v₀) d') :
    d'.cur.q = q₀ + n * dt * v₀ - dt * v₀ / 2 * (1 - (1 / 3) ^ n) ∧ d'.cur.dq = v₀ := by
  have key : ∀ (n : ℕ) (k : ℕ) (d d' : Dof),
      d.cur = ⟨q₀ + k * dt * v₀ - dt * v₀ / 2 * (1 - (1 / 3) ^ k), v₀⟩ →
      d.prev = ⟨q₀ + k * dt * v₀ - dt * v₀ - dt * v₀ / 2 * (1 - 3 * (1 / 3) ^ k), v₀⟩ →
      StepsSolve .BDF2 m dt (fun _ _ => 0) n d d' →
      d'.cur = ⟨q₀ + (k + n : ℕ) * dt * v₀ - dt * v₀ / 2 * (1 - (1 / 3) ^ (k + n)), v₀⟩ := by
    intro n
    induction n with
    | zero => intro k d d' h _ hs; cases hs; simpa using h
    | succ n ih =>
      intro k d d' hc hp ⟨d1, h1, h2⟩
      simp only [StepSolves, TimeIntegration.numStages, StagesSolve,
        TimeIntegration.stepIntegrator] at h1
      obtain ⟨d2, h1, rfl⟩ := h1
      have := stage_velocity _ _ _ hm _ 0 (fun _ _ => rfl) _ _ h1
      have hk := ih (k + 1) d1 d' ?_ ?_ h2
      · rw [hk]; congr 3 <;> (try congr 1) <;> (try push_cast) <;> ring
      · subst this
        simp only [SingleStep.implicitFactor, SingleStep.explicitFactor, curVertexVel, curWeights,
          lerpVel, integrateStep, bdf2Step, mixedBdf2Step, gt_iff_lt,
          lt_irrefl, if_false, GState.mk.injEq, hc, hp]
        push_cast
        constructor <;> ring
      · subst this
        simp only [hc, GState.mk.injEq, and_true]
        push_cast
        ring
  have := key n 0 (Dof.fresh q₀ v₀) d' (by simp [Dof.fresh]) (by simp [Dof.fresh]; ring) hs
  rw [this]
  simp

/-- The concrete violation: one step of size 1 of a unit-velocity free body with a fresh
BDF2 solver moves it by 2/3. -/
theorem uniform_motion_bdf2_fresh_violated :
    ∃ d', StepsSolve .BDF2 1 1 (fun _ _ => 0) 1 (Dof.fresh 0 1) d' ∧ d'.cur.q ≠ 0 + 1 * 1 * 1 := by
  obtain ⟨d', h⟩ := steps_exist .BDF2 1 1 one_ne_zero 0 1 (Dof.fresh 0 1)
  refine ⟨d', h, ?_⟩
  rw [(bdf2_fresh_lag 1 1 0 1 one_ne_zero 1 d' h).1]
  norm_num

/-! ## C05 -/

/-- **C05.** Under a constant force `m a`, `n` steps of any second-order scheme reproduce
the parabola exactly, for every time step, and such steps exist. -/
theorem constant_acceleration_exact (ti : TimeIntegration) (hv : ti.Valid)
    (h2 : SecondOrder ti) (m dt q₀ v₀ a : ℝ) (hm : m ≠ 0) (n : ℕ) (d : Dof)
    (h : OnTrajectory ti m dt q₀ v₀ a 0 d) :
    (∃ d', StepsSolve ti m dt (fun _ _ => m * a) n d d') ∧
    ∀ d', StepsSolve ti m dt (fun _ _ => m * a) n d d' →
      d'.cur.q = exactPos q₀ v₀ a (n * dt) ∧ d'.cur.dq = exactVel v₀ a (n * dt) := by
  refine ⟨steps_exist ti m dt hm (m * a) n d, ?_⟩
  have key : ∀ (n : ℕ) (τ : ℝ) (d d' : Dof), OnTrajectory ti m dt q₀ v₀ a τ d →
      StepsSolve ti m dt (fun _ _ => m * a) n d d' →
      OnTrajectory ti m dt q₀ v₀ a (τ + n * dt) d' := by
    intro n
    induction n with
    | zero => intro τ d d' h hs; cases hs; simpa using h
    | succ n ih =>
      intro τ d d' h ⟨d1, h1, h3⟩
      have := ih (τ + dt) d1 d' (step_onTrajectory ti hv h2 m dt q₀ v₀ a τ hm d d1 h h1) h3
      have e : τ + dt + n * dt = τ + (n + 1 : ℕ) * dt := by push_cast; ring
      rwa [e] at this
  intro d' hs
  have := (key n 0 d d' h hs).1
  rw [this]
  simp

/-- Non-vacuity: consistent starting states under gravity-like acceleration. -/
example : OnTrajectory .BDF2 2 0.5 0 0 (-10) 0 ⟨⟨-1.25, 5⟩, ⟨0, 0⟩, 20⟩ := by
  refine ⟨?_, ?_, ?_⟩ <;> norm_num [exactPos, exactVel]

/-- **C05 (contrast).** Backward Euler is only first order: each step adds an extra
`a dt²/2`, so after `n` steps the position is ahead of the parabola by `n a dt² / 2`. -/
theorem be_first_order_error (m dt q₀ v₀ a : ℝ) (hm : m ≠ 0) (n : ℕ) (d d' : Dof)
    (h : d.cur = ⟨q₀, v₀⟩) (hs : StepsSolve .BE m dt (fun _ _ => m * a) n d d') :
    d'.cur.q = exactPos q₀ v₀ a (n * dt) + n * (a * dt ^ 2 / 2) ∧
    d'.cur.dq = exactVel v₀ a (n * dt) := by
  induction n generalizing d q₀ v₀ with
  | zero => cases hs; simp [h, exactPos, exactVel]
  | succ n ih =>
    obtain ⟨d1, h1, h2⟩ := hs
    simp only [StepSolves, TimeIntegration.numStages, StagesSolve,
      TimeIntegration.stepIntegrator] at h1
    obtain ⟨d2, h1, rfl⟩ := h1
    have := stage_velocity _ _ _ hm _ (m * a) (fun _ _ => rfl) _ _ h1
    have hk := ih (q₀ + dt * (v₀ + dt * a)) (v₀ + dt * a) d1 ?_ h2
    · rw [hk.1, hk.2]
      simp only [exactPos, exactVel]
      push_cast
      constructor <;> ring
    · subst this
      simp only [SingleStep.implicitFactor, SingleStep.explicitFactor, curVertexVel, curWeights,
        lerpVel, integrateStep, beStep, gt_iff_lt, lt_irrefl, if_false, GState.mk.injEq, h]
      constructor <;> field_simp <;> ring

/-- **C05 from a fresh solver is violated by TR.** The stored force of a fresh solver is zero,
so the first trapezoidal step only applies half of the acceleration. -/
theorem tr_fresh_first_step (m dt q₀ v₀ a : ℝ) (hm : m ≠ 0) (d' : Dof)
    (hs : StepsSolve .TR m dt (fun _ _ => m * a) 1 (Dof.fresh q₀ v₀) d') :
    d'.cur.dq = v₀ + a * dt / 2 ∧ d'.cur.q = q₀ + dt * v₀ + a * dt ^ 2 / 4 := by
  obtain ⟨d1, ⟨d2, h1, rfl⟩, rfl⟩ := hs
  have := stage_velocity _ _ _ hm _ (m * a) (fun _ _ => rfl) _ _ h1
  subst this
  have e : ((0.5 : ℝ) > 0) := by norm_num
  simp only [TimeIntegration.stepIntegrator, SingleStep.implicitFactor, SingleStep.explicitFactor,
    curVertexVel, curWeights, lerpVel, integrateStep, trStep, lerpStep, e, if_true, Dof.fresh]
  constructor <;> field_simp <;> ring

/-- The concrete violation of C05 for a fresh trapezoidal solver. -/
theorem constant_acceleration_tr_fresh_violated :
    ∃ d', StepsSolve .TR 1 1 (fun _ _ => 1 * 1) 1 (Dof.fresh 0 0) d' ∧
      d'.cur.dq ≠ exactVel 0 1 1 := by
  obtain ⟨d', h⟩ := steps_exist .TR 1 1 one_ne_zero (1 * 1) 1 (Dof.fresh 0 0)
  refine ⟨d', h, ?_⟩
  rw [(tr_fresh_first_step 1 1 0 0 1 one_ne_zero d' h).1]
  norm_num [exactVel]

end Softy.TimeInt
