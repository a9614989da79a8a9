import Verif.Model.ReadBack
import Verif.Props.VelocityClear

/-!
# C98 — a mesh read from the solver shows the state of the simulation
-/

noncomputable section

namespace Softy.ReadBack

open TimeInt Solver VelocityClear

variable {ι : Type*} {E : Env (ι → Dof) (ι → ℝ)} {par : Params}

/-! ## Specification -/

/-- The state of the simulation: positions and velocities from which the next step starts. -/
def state (s : View ι) : (ι → ℝ) × (ι → ℝ) := (positions s.sim.state, velocities s.sim.state)

/-- The operations advance positions with the time integrator and clear nothing but velocities, as those of the solver
do (`env_faithful`). -/
structure Faithful (E : Env (ι → Dof) (ι → ℝ)) : Prop where
  position : ∀ s dt D v i, ((E.advance s dt D v) i).cur = ⟨integrateStep s (D i) (v i) dt, v i⟩
  clear : ∀ D i, ((E.clearVelocities D) i).cur.q = (D i).cur.q

theorem env_faithful (n : ℕ) (force : (ι → ℝ) → (ι → ℝ) → ι → ℝ) : Faithful (env n force) :=
  ⟨fun _ _ _ _ _ => rfl, fun _ _ => rfl⟩

/-! ## The view follows the solver -/

theorem trials_sim (s : View ι) (vs : List (ι → ℝ)) : (trials s vs).sim = s.sim := by
  unfold trials
  induction vs generalizing s with
  | nil => rfl
  | cons v vs ih => exact ih (trial s v)

theorem loopView_sim (ω : ℕ → Outcome (ι → ℝ)) (ev : ℕ → List (ι → ℝ)) (k : ℕ) (ci : ℤ) (s : View ι) (st : StageResult) :
    (loopView E par ω ev k ci s st).solves = (contactLoop E par ω k ci s.sim st).solves ∧
    (loopView E par ω ev k ci s st).iters = (contactLoop E par ω k ci s.sim st).iters ∧
    (loopView E par ω ev k ci s st).view.sim = (contactLoop E par ω k ci s.sim st).sim ∧
    (loopView E par ω ev k ci s st).stage = (contactLoop E par ω k ci s.sim st).stage := by
  induction hn : ci.toNat using Nat.strong_induction_on generalizing k ci s st with
  | _ n ih =>
    rw [loopView, contactLoop]
    simp only [trials_sim]
    by_cases h1 : (ω k).status = .success ∨ (ω k).status = .maximumIterationsExceeded
    · rw [if_pos h1, if_pos h1]
      by_cases h2 : ci - 1 < 0
      · rw [dif_pos h2, dif_pos h2]
        simp only [commitView, View.onSim, trial, trials_sim, and_self]
      · rw [dif_neg h2, dif_neg h2]
        by_cases h3 : (contactViolation E.numVertices s.sim.fcs (ω k).cached).violation > 0
        · rw [if_pos h3, if_pos h3]
          have := ih (ci - 1).toNat (by omega) (k + 1) (ci - 1)
            ((trials s (ev k)).onSim fun t => bump t (contactViolation E.numVertices s.sim.fcs (ω k).cached))
            (record st (ω k) (contactViolation E.numVertices s.sim.fcs (ω k).cached)) rfl
          simpa only [View.onSim, trials_sim] using this
        · rw [if_neg h3, if_neg h3]
          simp only [commitView, View.onSim, trial, trials_sim, and_self]
    · rw [if_neg h1, if_neg h1]
      simp only [trials_sim, and_self]

theorem stagesView_sim (ω : ℕ → Outcome (ι → ℝ)) (ev : ℕ → List (ι → ℝ)) (jacOk : ℕ → Bool) (dt : ℝ) (l : List ℕ) (k : ℕ)
    (ci : ℤ) (s : View ι) (acc : List StageResult) :
    (stagesView E par ω ev jacOk dt l k ci s acc).view.sim = (stages E par ω jacOk dt l k ci s.sim acc).sim ∧
    (stagesView E par ω ev jacOk dt l k ci s acc).result = (stages E par ω jacOk dt l k ci s.sim acc).result := by
  induction l generalizing k ci s acc with
  | nil => exact ⟨rfl, rfl⟩
  | cons a l ih =>
    rw [stagesView, stages]
    simp only
    by_cases hj : jacOk a = true
    · rw [if_pos hj, if_pos hj]
      obtain ⟨h1, h2, h3, h4⟩ := loopView_sim (E := E) (par := par) ω ev k ci
        (trial (s.onSim fun t => { t with
          integration := (par.integrator.stepIntegrator a).1
          timeStep := dt * (par.integrator.stepIntegrator a).2 })
          (s.onSim fun t => { t with
            integration := (par.integrator.stepIntegrator a).1
            timeStep := dt * (par.integrator.stepIntegrator a).2 }).sim.initialPoint)
        ⟨(par.integrator.stepIntegrator a).1, [], 0, 0⟩
      have e : ∀ v, (trial (s.onSim fun t => { t with
          integration := (par.integrator.stepIntegrator a).1
          timeStep := dt * (par.integrator.stepIntegrator a).2 }) v).sim = { s.sim with
          integration := (par.integrator.stepIntegrator a).1
          timeStep := dt * (par.integrator.stepIntegrator a).2 } := fun _ => rfl
      rw [e] at h1 h2 h3 h4
      generalize loopView E par ω ev k ci _ _ = r at h1 h2 h3 h4 ⊢
      generalize contactLoop E par ω k ci _ _ = r' at h1 h2 h3 h4 ⊢
      rw [h4]
      cases r'.stage with
      | none => exact ⟨h3, rfl⟩
      | some st =>
        simp only
        rw [← h1, ← h2, ← h3]
        exact ih _ _ _ _
    · rw [if_neg hj, if_neg hj]
      exact ⟨rfl, rfl⟩

/-- The solver does the same whether or not anything is read: steps are those of the model of `step`. -/
theorem stepView_sim (ω : ℕ → Outcome (ι → ℝ)) (ev : ℕ → List (ι → ℝ)) (jacOk : ℕ → Bool) (s : View ι) :
    (stepView E par ω ev jacOk s).view.sim = (step E par ω jacOk s.sim).sim ∧
    (stepView E par ω ev jacOk s).result = (step E par ω jacOk s.sim).result :=
  stagesView_sim ω ev jacOk _ _ _ _ _ _

/-- C98: reading a mesh, also with velocities of trial, never changes the simulation: a history of calls leaves the solver
as the steps alone do. -/
theorem reading_harmless (s : View ι) (l : List (Call ι)) :
    (calls E par s l).sim = run E par (l.filterMap fun | .step ω _ j => some (ω, j) | _ => none) s.sim := by
  induction l generalizing s with
  | nil => rfl
  | cons c l ih =>
    show (calls E par (call E par s c) l).sim = _
    rw [ih]
    cases c with
    | step ω ev j =>
      simp only [List.filterMap_cons, run, call]
      rw [(stepView_sim ω ev j s).1]
    | meshWith dq => rfl
    | mesh => rfl

/-! ## Successful steps -/

theorem commit_state (hE : Faithful E) (t : Sim (ι → Dof) (ι → ℝ)) (x : ι → ℝ) (i : ι) :
    ((commit E par t x).state i).cur.q = integrateStep t.integration (t.state i) (x i) t.timeStep ∧
    (¬ par.clearSteps ∣ t.iterationCount → ((commit E par t x).state i).cur.dq = x i) := by
  unfold commit
  simp only
  rw [Nat.dvd_iff_mod_eq_zero]
  by_cases h : t.iterationCount % par.clearSteps = 0
  · rw [if_pos h, hE.clear, hE.position]
    exact ⟨rfl, fun h' => absurd h h'⟩
  · rw [if_neg h, hE.position]
    exact ⟨rfl, fun _ => rfl⟩

theorem commitView_shown (hE : Faithful E) (s : View ι) (x : ι → ℝ) :
    (commitView E par s x).mesh.1 = (state (commitView E par s x)).1 ∧
    (commitView E par s x).mesh.2 = x ∧
    (¬ par.clearSteps ∣ s.sim.iterationCount → (state (commitView E par s x)).2 = x) := by
  refine ⟨?_, rfl, ?_⟩
  · funext i
    exact (commit_state hE s.sim x i).1.symm
  · intro h
    funext i
    exact (commit_state hE s.sim x i).2 h

theorem loopView_shown (hE : Faithful E) (ω : ℕ → Outcome (ι → ℝ)) (ev : ℕ → List (ι → ℝ)) (k : ℕ) (ci : ℤ) (s : View ι)
    (st : StageResult) (hok : (loopView E par ω ev k ci s st).stage.isSome) :
    (loopView E par ω ev k ci s st).view.mesh.1 = (state (loopView E par ω ev k ci s st).view).1 ∧
    (loopView E par ω ev k ci s st).view.mesh.2 = (loopView E par ω ev k ci s st).view.sim.initialPoint ∧
    (¬ par.clearSteps ∣ s.sim.iterationCount →
      (loopView E par ω ev k ci s st).view.mesh.2 = (state (loopView E par ω ev k ci s st).view).2) := by
  induction hn : ci.toNat using Nat.strong_induction_on generalizing k ci s st with
  | _ n ih =>
    rw [loopView] at hok ⊢
    simp only [trials_sim] at hok ⊢
    by_cases h1 : (ω k).status = .success ∨ (ω k).status = .maximumIterationsExceeded
    · rw [if_pos h1] at hok ⊢
      by_cases h2 : ci - 1 < 0
      · rw [dif_pos h2]
        obtain ⟨a, b, c⟩ := commitView_shown (par := par) hE (trials s (ev k)) (ω k).solution
        rw [trials_sim] at c
        exact ⟨a, b, fun h => (c h).symm ▸ b⟩
      · rw [dif_neg h2] at hok ⊢
        by_cases h3 : (contactViolation E.numVertices s.sim.fcs (ω k).cached).violation > 0
        · rw [if_pos h3] at hok ⊢
          have := ih (ci - 1).toNat (by omega) (k + 1) (ci - 1)
            ((trials s (ev k)).onSim fun t => bump t (contactViolation E.numVertices s.sim.fcs (ω k).cached))
            (record st (ω k) (contactViolation E.numVertices s.sim.fcs (ω k).cached)) hok rfl
          refine ⟨this.1, this.2.1, fun h => this.2.2 ?_⟩
          simpa only [View.onSim, trials_sim, bump] using h
        · rw [if_neg h3]
          obtain ⟨a, b, c⟩ := commitView_shown (par := par) hE
            ((trials s (ev k)).onSim fun t => relax t (contactViolation E.numVertices s.sim.fcs (ω k).cached))
            (ω k).solution
          have e : ((trials s (ev k)).onSim fun t =>
              relax t (contactViolation E.numVertices s.sim.fcs (ω k).cached)).sim.iterationCount =
              s.sim.iterationCount := by
            simp only [View.onSim, trials_sim, relax]
            split_ifs <;> rfl
          rw [e] at c
          exact ⟨a, b, fun h => (c h).symm ▸ b⟩
    · rw [if_neg h1] at hok
      cases hok

theorem contactLoop_count (ω : ℕ → Outcome (ι → ℝ)) (k : ℕ) (ci : ℤ) (s : Sim (ι → Dof) (ι → ℝ)) (st : StageResult) :
    (contactLoop E par ω k ci s st).sim.iterationCount = s.iterationCount := by
  refine loop_ind E par ω (fun k ci s st r => r.sim.iterationCount = s.iterationCount) ?_ ?_ ?_ ?_ k ci s st
  · intros
    rfl
  · intros
    rfl
  · intro k ci s st r _ _ _ h
    exact h
  · intro k ci s st _ _ _
    simp only [commit, relax]
    split_ifs <;> rfl

theorem stagesView_shown (hE : Faithful E) (ω : ℕ → Outcome (ι → ℝ)) (ev : ℕ → List (ι → ℝ)) (jacOk : ℕ → Bool) (dt : ℝ)
    (l : List ℕ) (k : ℕ) (ci : ℤ) (s : View ι) (acc : List StageResult)
    (h0 : l = [] → s.mesh.1 = (state s).1 ∧ s.mesh.2 = s.sim.initialPoint ∧
      (¬ par.clearSteps ∣ s.sim.iterationCount → s.mesh.2 = (state s).2))
    (hok : (stagesView E par ω ev jacOk dt l k ci s acc).result.isSome) :
    (stagesView E par ω ev jacOk dt l k ci s acc).view.mesh.1 =
      (state (stagesView E par ω ev jacOk dt l k ci s acc).view).1 ∧
    (stagesView E par ω ev jacOk dt l k ci s acc).view.mesh.2 =
      (stagesView E par ω ev jacOk dt l k ci s acc).view.sim.initialPoint ∧
    (¬ par.clearSteps ∣ s.sim.iterationCount →
      (stagesView E par ω ev jacOk dt l k ci s acc).view.mesh.2 =
        (state (stagesView E par ω ev jacOk dt l k ci s acc).view).2) := by
  induction l generalizing k ci s acc with
  | nil => exact h0 rfl
  | cons a l ih =>
    rw [stagesView] at hok ⊢
    simp only at hok ⊢
    by_cases hj : jacOk a = true
    · rw [if_pos hj] at hok ⊢
      obtain ⟨h1, h2, h3, h4⟩ := loopView_sim (E := E) (par := par) ω ev k ci
        (trial (s.onSim fun t => { t with
          integration := (par.integrator.stepIntegrator a).1
          timeStep := dt * (par.integrator.stepIntegrator a).2 })
          (s.onSim fun t => { t with
            integration := (par.integrator.stepIntegrator a).1
            timeStep := dt * (par.integrator.stepIntegrator a).2 }).sim.initialPoint)
        ⟨(par.integrator.stepIntegrator a).1, [], 0, 0⟩
      have hc := congrArg Sim.iterationCount h3
      rw [contactLoop_count] at hc
      have hs := loopView_shown (E := E) (par := par) hE ω ev k ci
        (trial (s.onSim fun t => { t with
          integration := (par.integrator.stepIntegrator a).1
          timeStep := dt * (par.integrator.stepIntegrator a).2 })
          (s.onSim fun t => { t with
            integration := (par.integrator.stepIntegrator a).1
            timeStep := dt * (par.integrator.stepIntegrator a).2 }).sim.initialPoint)
        ⟨(par.integrator.stepIntegrator a).1, [], 0, 0⟩
      have e : ∀ v, (trial (s.onSim fun t => { t with
          integration := (par.integrator.stepIntegrator a).1
          timeStep := dt * (par.integrator.stepIntegrator a).2 }) v).sim.iterationCount =
          s.sim.iterationCount := fun _ => rfl
      rw [e] at hc hs
      clear h1 h2 h3 h4
      generalize loopView E par ω ev k ci _ _ = r at hc hs hok ⊢
      cases hst : r.stage with
      | none =>
        rw [hst] at hok
        cases hok
      | some st =>
        rw [hst] at hok
        simp only at hok ⊢
        have hs' := hs (by rw [hst]; rfl)
        have := ih r.solves r.iters r.view (acc ++ [st]) (fun _ => ⟨hs'.1, hs'.2.1, fun h => hs'.2.2 (hc ▸ h)⟩) hok
        exact ⟨this.1, this.2.1, fun h => this.2.2 (by rw [hc]; exact h)⟩
    · rw [if_neg hj] at hok
      cases hok

/-- C98: after a step that succeeds, whatever happened before, a mesh shows the positions of the simulation and the
velocities that the step ended with, from which the next solve starts; these are the velocities of the simulation unless
they were cleared. -/
theorem mesh_after_step (hE : Faithful E) (s : View ι) (ω : ℕ → Outcome (ι → ℝ)) (ev : ℕ → List (ι → ℝ))
    (jacOk : ℕ → Bool) (hok : (stepView E par ω ev jacOk s).result.isSome) :
    (stepView E par ω ev jacOk s).view.mesh.1 = (state (stepView E par ω ev jacOk s).view).1 ∧
    (stepView E par ω ev jacOk s).view.mesh.2 = (stepView E par ω ev jacOk s).view.sim.initialPoint ∧
    (¬ par.clearSteps ∣ s.sim.iterationCount + 1 →
      (stepView E par ω ev jacOk s).view.mesh.2 = (state (stepView E par ω ev jacOk s).view).2) := by
  unfold stepView at hok ⊢
  refine stagesView_shown hE ω ev jacOk _ _ _ _ _ _ (fun h => ?_) hok
  exfalso
  cases hi : par.integrator <;> simp [hi, TimeIntegration.numStages] at h

/-- A call of a history keeps the mesh up to date: steps succeed and do not clear velocities, and no mesh for other
velocities is asked for. -/
def Keeps (E : Env (ι → Dof) (ι → ℝ)) (par : Params) (s : View ι) : Call ι → Prop
  | .step ω ev jacOk => (stepView E par ω ev jacOk s).result.isSome ∧ ¬ par.clearSteps ∣ s.sim.iterationCount + 1
  | .meshWith _ => False
  | .mesh => True

/-- C98 (partial): in a history in which all steps succeed and none clears velocities, a mesh always shows the state of
the simulation. Missing: failed steps, steps that clear and meshes for other velocities, after which this is false. -/
theorem history_partial (hE : Faithful E) (s : View ι) (hs : s.mesh = state s) (l : List (Call ι))
    (hl : ∀ a b c, l = a ++ c :: b → Keeps E par (calls E par s a) c) : (calls E par s l).mesh = state (calls E par s l) := by
  induction l generalizing s with
  | nil => exact hs
  | cons c l ih =>
    show (calls E par (call E par s c) l).mesh = state (calls E par (call E par s c) l)
    refine ih _ ?_ fun a b d h => ?_
    · have := hl [] l c rfl
      cases c with
      | step ω ev j =>
        obtain ⟨h1, -, h3⟩ := mesh_after_step hE s ω ev j this.1
        exact Prod.ext h1 (h3 this.2)
      | meshWith dq => exact this.elim
      | mesh => exact hs
    · exact hl (c :: a) b d (by rw [h]; rfl)

/-- C98: a new solver shows the mesh it was built with. -/
theorem fresh_mesh (sim : Sim (ι → Dof) (ι → ℝ)) : (fresh sim).mesh = state (fresh sim) := rfl

/-- C98: a mesh for given velocities shows where they lead from the state of the simulation, whatever is shown
otherwise. -/
theorem meshWith_spec (s : View ι) (dq : ι → ℝ) (i : ι) :
    s.meshWith dq i = integrateStep s.sim.integration (s.sim.state i) (dq i) s.sim.timeStep := rfl

/-! ## Disagreements -/

/-- C98 (violated): after a step fails in its solve, the state of the simulation is the one before, but the mesh shows the
velocities that the solve tried last and where they lead. This is backward Euler. -/
theorem failed_mesh_violated (s : View ι) (hbe : par.integrator = .BE) (ω : ℕ → Outcome (ι → ℝ)) (hω : (ω 0).status = .failed)
    (ev : ℕ → List (ι → ℝ)) (a : List (ι → ℝ)) (v : ι → ℝ) (hev : ev 0 = a ++ [v]) :
    (stepView E par ω ev (fun _ => true) s).result = none ∧
    state (stepView E par ω ev (fun _ => true) s).view = state s ∧
    (stepView E par ω ev (fun _ => true) s).view.mesh =
      (fun i => (state s).1 i + s.sim.timeStep * v i, v) := by
  have r1 : List.range 1 = [0] := rfl
  have h : stepView E par ω ev (fun _ => true) s = ⟨1, trial
      { sim := { s.sim with iterationCount := s.sim.iterationCount + 1, integration := .BE, timeStep := s.sim.timeStep * 1 },
        shown := s.shown } v, none⟩ := by
    unfold stepView
    simp only [hbe, TimeIntegration.numStages, r1, stagesView, if_true, TimeIntegration.stepIntegrator]
    rw [loopView]
    simp only [hω, reduceCtorEq, or_self, if_false, hev, trials, List.foldl_append, List.foldl_cons, List.foldl_nil]
    congr 1
    have := trials_sim (trial ((s.onSim fun t => { t with iterationCount := t.iterationCount + 1 }).onSim fun t =>
      { t with integration := SingleStep.BE, timeStep := s.sim.timeStep * 1 }) s.sim.initialPoint) a
    unfold trials at this
    simp only [trial, View.onSim] at this ⊢
    rw [this]
  rw [h]
  refine ⟨rfl, rfl, Prod.ext ?_ rfl⟩
  funext i
  simp only [View.mesh, trial, integrateStep, beStep, state, positions, mul_one]
  ring

/-- C98 (violated): a mesh for other velocities changes what meshes show afterwards. -/
theorem meshWith_violated (s : View ι) (dq : ι → ℝ) (hdq : dq ≠ (state s).2) :
    state (call E par s (.meshWith dq)) = state s ∧ (call E par s (.meshWith dq)).mesh ≠ state s := by
  refine ⟨rfl, fun h => hdq ?_⟩
  exact congrArg Prod.snd h

/-- C98 (violated): after a step that clears velocities, the mesh shows those from before. -/
theorem cleared_mesh_violated (n : ℕ) (force : (ι → ℝ) → (ι → ℝ) → ι → ℝ) (s : View ι) (ω : ℕ → Outcome (ι → ℝ))
    (ev : ℕ → List (ι → ℝ)) (jacOk : ℕ → Bool) (hok : (stepView (env n force) par ω ev jacOk s).result.isSome)
    (hc : par.clearSteps ∣ s.sim.iterationCount + 1)
    (hv : (stepView (env n force) par ω ev jacOk s).view.sim.initialPoint ≠ 0) :
    (state (stepView (env n force) par ω ev jacOk s).view).2 = 0 ∧
    (stepView (env n force) par ω ev jacOk s).view.mesh.2 ≠ 0 := by
  obtain ⟨h1, h2⟩ := stepView_sim (E := env n force) (par := par) ω ev jacOk s
  refine ⟨?_, ?_⟩
  · unfold state
    rw [h1]
    exact solver_at_rest n force par ω jacOk s.sim hc (h2 ▸ hok)
  · rw [(mesh_after_step (env_faithful n force) s ω ev jacOk hok).2.1]
    exact hv

/-! ## A concrete history -/

/-- A body at unit speed. -/
def body : View Unit := fresh ⟨fun _ => Dof.fresh 0 1, fun _ => 1, 1, .BE, [], [], 0⟩

theorem body_step (k : ℕ) : (stepView (env 0 noForce) ⟨5, .BE, k⟩ (moving true) (fun _ => [fun _ => 3]) (fun _ => true)
    body).result.isSome ∧ (stepView (env 0 noForce) ⟨5, .BE, k⟩ (moving true) (fun _ => [fun _ => 3]) (fun _ => true)
    body).view.sim.initialPoint = fun _ => 1 := by
  obtain ⟨h1, h2⟩ := stepView_sim (E := env 0 noForce) (par := ⟨5, .BE, k⟩) (moving true) (fun _ => [fun _ => 3])
    (fun _ => true) body
  rw [h1, h2]
  have r1 : List.range 1 = [0] := rfl
  obtain ⟨r, hr⟩ := contactLoop_free 0 noForce ⟨5, .BE, k⟩ (moving true) 0 5
    { body.sim with iterationCount := 0 + 1, integration := .BE, timeStep := 1 * 1 } ⟨.BE, [], 0, 0⟩ rfl rfl (Or.inl rfl)
  unfold step
  simp only [TimeIntegration.numStages, r1, stages, if_true, TimeIntegration.stepIntegrator, Nat.cast_ofNat]
  have : contactLoop (env 0 noForce) ⟨5, .BE, k⟩ (moving true) 0 5
      { body.sim with iterationCount := body.sim.iterationCount + 1, integration := .BE, timeStep := body.sim.timeStep * 1 }
      ⟨.BE, [], 0, 0⟩ = _ := hr
  rw [this]
  exact ⟨rfl, rfl⟩

/-- The hypotheses of `history_partial` are met by a step and a mesh; the step moves the body. -/
example : ((calls (env 0 noForce) ⟨5, .BE, 10⟩ body
    [.step (moving true) (fun _ => [fun _ => 3]) (fun _ => true), .mesh]).mesh =
    state (calls (env 0 noForce) ⟨5, .BE, 10⟩ body
      [.step (moving true) (fun _ => [fun _ => 3]) (fun _ => true), .mesh])) := by
  refine history_partial (env_faithful _ _) body rfl _ fun a b c h => ?_
  match a, h with
  | [], h =>
    simp only [List.nil_append, List.cons.injEq] at h
    obtain ⟨rfl, -⟩ := h
    refine ⟨(body_step 10).1, ?_⟩
    show ¬ 10 ∣ 0 + 1
    decide
  | [d], h =>
    simp only [List.cons_append, List.nil_append, List.cons.injEq] at h
    obtain ⟨rfl, rfl, -⟩ := h
    trivial
  | d :: e :: a, h => simp at h

/-- The hypotheses of `cleared_mesh_violated` are met. -/
example : (stepView (env 0 noForce) ⟨5, .BE, 1⟩ (moving true) (fun _ => [fun _ => 3]) (fun _ => true)
    body).view.mesh.2 ≠ 0 :=
  (cleared_mesh_violated 0 noForce body _ _ _ (body_step 1).1 (one_dvd _) (by
    rw [(body_step 1).2]
    exact fun h => one_ne_zero (congrFun h ()))).2

/-- The hypotheses of `failed_mesh_violated` are met: the mesh shows the body at three, where it never was. -/
example : (stepView (env 0 noForce) ⟨5, .BE, 10⟩ (moving false) (fun _ => [fun _ => 3]) (fun _ => true)
    body).view.mesh.1 () = 3 ∧
    (state (stepView (env 0 noForce) ⟨5, .BE, 10⟩ (moving false) (fun _ => [fun _ => 3]) (fun _ => true)
      body).view).1 () = 0 := by
  obtain ⟨-, h1, h2⟩ := failed_mesh_violated (E := env 0 noForce) (par := ⟨5, .BE, 10⟩) body rfl (moving false) rfl
    (fun _ => [fun _ => 3]) [] (fun _ => 3) rfl
  rw [h1, h2]
  norm_num [state, positions, body, fresh, Dof.fresh]

end Softy.ReadBack
