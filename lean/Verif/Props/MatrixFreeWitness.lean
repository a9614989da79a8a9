import Verif.Props.MatrixFree
import Verif.Props.ProjectionWitness

/-!
# C93: products that are not with the derivative of the residual, and an example
-/

noncomputable section

namespace Softy.Contact

open Softy Assembly Fem Softy.Field Filter

/-- Velocities of vertices at rest. -/
def still : Vel := fun _ => 0

/-- A problem whose twin has the same constraints, before the first step. -/
def machine (S : Gripping) (x0 : Vel) : Machine := ⟨⟨S, S.cons, x0, 1⟩, still, ⟨[], 0, fun _ => 0, true⟩⟩

/-- An iteration whose linear solve multiplies by `p`, and whose full step leads to `y`. -/
def plain (p : List Vel) (y : Vel) : Iteration := ⟨p, none, y, none, none⟩

/-- A product that differs from the derivative of the residual in one coordinate. -/
theorem Record.not_derivative (r : Record) (hp : r.Proper) (hd : r.env.ForcesDifferentiable r.v r.p) (i : ℕ)
    (hi : i < 3 * r.env.problem.numActive)
    (h : r.out i ≠ deriv (fun s : ℝ => r.env.problem.dt * r.env.fm * coord (r.env.problem.constraintForce
          (place r.env.x0 (r.env.problem.dt * r.env.fm) (alongLine r.v r.p s)) (alongLine r.v r.p s)) i) 0 +
        ∑ j ∈ Finset.range (3 * r.env.problem.numActive), Sparse.storedEntry
          (r.env.problem.toProblem.jacobianIndices.zip (r.env.elasticValues r.v)) (i, j) * coord r.p j) :
    ¬ r.IsDerivative := by
  intro hr
  have h' : (Record.mk ⟨r.env.problem, r.env.problem.cons, r.env.x0, r.env.fm⟩ r.v r.p fun i =>
      deriv (fun s : ℝ => r.env.problem.dt * r.env.fm * coord (r.env.problem.constraintForce
          (place r.env.x0 (r.env.problem.dt * r.env.fm) (alongLine r.v r.p s)) (alongLine r.v r.p s)) i) 0 +
        ∑ j ∈ Finset.range (3 * r.env.problem.numActive), Sparse.storedEntry
          (r.env.problem.toProblem.jacobianIndices.zip (r.env.elasticValues r.v)) (i, j) *
            coord r.p j).IsDerivative := by
    refine Record.isDerivative _ ?_ rfl ?_ hd
    · intro i _
      unfold Setting.dualPart
      simp only [ofVec_eq]
      rfl
    · exact ⟨hp.within, hp.distinct, hp.time, hp.factor, hp.active, hp.fixed, hp.smooth⟩
  exact h (Record.isDerivative_unique r _ hr h' rfl rfl rfl rfl rfl i hi).symm

/-! ## An example -/

/-- Positions from which the sliding vertex arrives at `demoX`. -/
def slideX : Vel := fun i => demoX i - (1 / 60 : ℝ) • demoV i

/-- A solve that has to be repeated: an iteration whose line search goes back, and another one. -/
def exSolve : Solve :=
  ⟨none, still, [demoV], [⟨[demoV, liftW], some liftW, liftW, some ⟨[still, demoV], none⟩, none⟩, plain [liftW] still]⟩

/-- A stage: two solves with the stiffness raised in between. -/
def exStage : Stage where
  timeStep := 1 / 60
  x0 := slideX
  fm := 1
  advance := id
  initial := demoV
  solves := [(exSolve, ⟨some id, none⟩)]
  lastSolve := ⟨none, demoV, [], [plain [liftW] still]⟩
  lastAfter := ⟨none, none⟩
  broken := [demoV]

theorem exGrip_dt (p : Friction.Params) (inc : Bool) : (exGrip p inc).dt = 1 / 60 := by
  have h : (exGrip p inc).timeStep = 1 / 60 := rfl
  unfold Problem.dt
  rw [if_neg (by unfold Problem.isStatic; rw [h]; norm_num), h]

theorem slideX_place : place slideX (1 / 60 * 1) demoV = demoX := by
  funext i
  ext <;> simp [place, slideX]

/-- The hypotheses of the theorems are met by a simulation with line searches and a repeated solve, in which a product
is computed with friction and contact. -/
example : (∀ g ∈ [exStage], g.Clean ∧ g.FixedEpsilon ∧ g.FixedNeighbors) ∧
    (((machine (exGrip (coulomb (3 / 10)) false) demoX).run (simulationCalls [⟨id, [exStage]⟩])).2.length = 6) ∧
    ∃ r ∈ ((machine (exGrip (coulomb (3 / 10)) false) demoX).run (simulationCalls [⟨id, [exStage]⟩])).2,
      r.v = demoV ∧ r.p = liftW ∧ r.Proper ∧ r.env.ForcesDifferentiable r.v r.p ∧ r.IsDerivative := by
  have hcl : exStage.Clean := by
    intro a ha _ t ht q hq
    have : a = (exSolve, ⟨some id, none⟩) := by simpa [exStage] using ha
    subst this
    have : t = plain [liftW] still := by simpa [exSolve] using ht.symm
    subst this
    simp [plain] at hq
  have hfe : exStage.FixedEpsilon := by
    refine ⟨fun a ha => ?_, rfl, ?_⟩
    · have : a = (exSolve, ⟨some id, none⟩) := by simpa [exStage] using ha
      subst this
      exact ⟨rfl, by simp [exSolve, plain]⟩
    · simp [exStage, plain]
  have hfn : exStage.FixedNeighbors := by
    refine ⟨fun a ha => ?_, rfl⟩
    have : a = (exSolve, ⟨some id, none⟩) := by simpa [exStage] using ha
    subst this
    rfl
  refine ⟨?_, rfl, ?_⟩
  · intro g hg
    rw [List.mem_singleton] at hg
    subst hg
    exact ⟨hcl, hfe, hfn⟩
  · have hmem : ∃ r ∈ ((machine (exGrip (coulomb (3 / 10)) false) demoX).run
        (simulationCalls [⟨id, [exStage]⟩])).2, r.v = demoV ∧ r.p = liftW ∧
        r.env = ⟨exGrip (coulomb (3 / 10)) false, (exGrip (coulomb (3 / 10)) false).cons, slideX, 1⟩ :=
      ⟨_, List.mem_cons_of_mem _ List.mem_cons_self, rfl, rfl, rfl⟩
    obtain ⟨r, hr, hv, hp, he⟩ := hmem
    have hx : place r.env.x0 (r.env.problem.dt * r.env.fm) r.v = demoX := by
      rw [he, hv]
      simp only [exGrip_dt]
      exact slideX_place
    have hw : ∀ i, r.env.problem.numActive ≤ i → r.p i = 0 := by
      rw [he, hp]
      intro i hi
      have : i ≠ 3 := by
        have : 5 ≤ i := hi
        omega
      simp [liftW, this]
    have hpr : r.Proper := by
      refine ⟨?_, ?_, ?_, ?_, ?_, hw, ?_⟩
      · rw [he]; exact exGrip_within _ (coulomb_valid _ (by norm_num)) _
      · rw [he]; exact exTet_distinct
      · rw [he]; show (0 : ℝ) ≤ 1 / 60; norm_num
      · rw [he]; exact one_pos
      · rw [he]; exact le_refl 5
      · rw [hx, he]; exact exTet_smooth _
    have hd := r.env.forces_differentiable r.v r.p hpr.within hpr.active hw
      (by rw [hx, he]; exact demo_touching_smooth) (by rw [hx, he, hv]; exact exGrip_steady)
    refine ⟨r, hr, hv, hp, hpr, hd, ?_⟩
    refine matrix_free_derivative_partial _ rfl _ ?_ ?_ ?_ r hr hpr hd <;>
    · intro t ht g hg
      rw [List.mem_singleton] at ht
      subst ht
      rw [List.mem_singleton] at hg
      subst hg
      assumption

/-! ## Debug data -/

/-- The tetrahedron of C92 without damping, as a problem without constraints. -/
def looseTet : Gripping :=
  { Projection.dampedProblem 0 with volumes := [], contacts := [], numVertices := 4, numActive := 4, grips := [] }

theorem loose_within : looseTet.Within := by
  refine ⟨⟨⟨Projection.damped_within 0, fun P hP => by simp [looseTet] at hP⟩, ?_, ?_, ?_, ?_, ?_⟩, ?_, ?_⟩ <;>
    simp [looseTet]

/-- The first solve ends by writing debug data, and is repeated. -/
def dumpStage : Stage where
  timeStep := 1
  x0 := Projection.corner
  fm := 1
  advance := id
  initial := still
  solves := [(⟨none, still, [], [⟨[], none, fun i => (Real.exp 1 - 1) • Projection.corner i,
    some ⟨[], some ⟨[], [], [], Projection.push⟩⟩, none⟩]⟩, ⟨some id, none⟩)]
  lastSolve := ⟨none, still, [], [plain [Projection.push] still]⟩
  lastAfter := ⟨none, none⟩
  broken := []

/-- The first entry of the Jacobian of the scaled tetrahedron. -/
theorem scaled_entry (s : ℝ) (hs : 0 < s) (v : Vel) :
    ∑ j ∈ Finset.range (3 * 4), Sparse.storedEntry ((Projection.dampedProblem 0).jacobianIndices.zip
      ((Projection.dampedProblem 0).jacobianValues (fun i => s • Projection.corner i) v 1 1)) (0, j) *
        coord Projection.push j =
      1 / 6 * (1 + (1 - 10 * Real.log (s ^ 3)) / s ^ 2 + 10 / s ^ 2) + 1 / 24 := by
  have hst : ¬ (Projection.dampedProblem 0).isStatic := by
    unfold Problem.isStatic Projection.dampedProblem
    norm_num
  have hc : ∀ i, coord Projection.push i = if i = 0 then 1 else 0 := by
    have : Projection.push = unitAt 0 := by
      funext i
      unfold Projection.push unitAt
      simp
    intro i
    rw [this, coord_unitAt]
  have h := Projection.jacobianForm_eq false (fun _ => ⟨0, 0⟩) (Projection.dampedProblem 0) 4
    (Projection.damped_within 0) (Projection.damped_distinct 0) (fun i => s • Projection.corner i) v 1 1
    Projection.push
  have e : Projection.jacobianForm false (fun _ => ⟨0, 0⟩) (Projection.dampedProblem 0)
      (fun i => s • Projection.corner i) v 1 1 4 Projection.push =
      ∑ j ∈ Finset.range (3 * 4), Sparse.storedEntry ((Projection.dampedProblem 0).jacobianIndices.zip
      ((Projection.dampedProblem 0).jacobianValues (fun i => s • Projection.corner i) v 1 1)) (0, j) *
        coord Projection.push j := by
    unfold Projection.jacobianForm
    rw [Finset.sum_eq_single_of_mem 0 (by simp)]
    · refine Finset.sum_congr rfl fun j _ => ?_
      rw [hc 0, if_pos rfl, one_mul]
      rfl
    · intro i _ hi
      refine Finset.sum_eq_zero fun j _ => ?_
      rw [hc i, if_neg hi, zero_mul, zero_mul]
  rw [← e, h, if_neg hst]
  have h1 : Projection.solidWork false (fun _ => ⟨0, 0⟩) .snh (Projection.dampedProblem 0).snh
    (fun i => s • Projection.corner i) v 1 (1 * 1) Projection.push = 0 := rfl
  have h2 : ∑ i ∈ Finset.range (3 * 4), coord Projection.push i * symMul
      (((Projection.dampedProblem 0).shell.indices (0, 0)).zip
      ((Projection.dampedProblem 0).shell.values (fun i => s • Projection.corner i) (1 * 1)))
      (coord Projection.push) i = 0 :=
    Finset.sum_eq_zero fun i _ => by simp [Projection.dampedProblem, Shell.indices, Shell.values, symMul]
  have h3 : ∑ i ∈ Finset.range 4, (Projection.dampedProblem 0).mass i *
      V3.dot (Projection.push i) (Projection.push i) = 1 / 24 := by
    rw [Finset.sum_eq_single_of_mem 0 (by simp), Projection.damped_mass 0 0 (by norm_num)]
    · simp [Projection.push, V3.dot]
    · intro i _ hi
      simp [Projection.push, hi, V3.dot]
  rw [h1, h2, h3]
  have h4 : Projection.solidWork false (fun _ => ⟨0, 0⟩) .nh (Projection.dampedProblem 0).nh
      (fun i => s • Projection.corner i) v 1 (1 * 1) Projection.push =
      ∑ n, V3.dot (symmMul (Tet.nhHessian ((Projection.dampedTet 0).ref.at fun n => s • Projection.corner n.val))
        (fun k => Projection.push k.val) n) (Projection.push n.val) := by
    have e1 : Projection.elemHessian false (fun _ => ⟨0, 0⟩) .nh (Projection.dampedTet 0)
        (fun i => s • Projection.corner i) v 1 (1 * 1) =
        Tet.nhHessian ((Projection.dampedTet 0).ref.at fun n => s • Projection.corner n.val) := by
      funext n k row col
      have hd : (Projection.dampedTet 0).damping = 0 := rfl
      unfold Projection.elemHessian
      simp only [hd, mul_zero, add_zero, mul_one, Bool.false_eq_true, if_false]
      rfl
    simp only [Projection.solidWork, Projection.dampedProblem, List.map_cons, List.map_nil, List.sum_cons,
      List.sum_nil, add_zero, e1]
    rfl
  rw [h4, Projection.scaled_work 0 s hs fun k => Projection.push k.val]
  simp [Tet.shape, Projection.push, V3.dot]

/-- **C93 (violated).** After a solve that ends by writing debug data, the solve that repeats it multiplies by the
Jacobian of another velocity. -/
theorem dump_violated :
    ∃ (m : Machine) (ts : List TimeStep) (r : Record), m.env.twin = m.env.problem.cons ∧
      (∀ t ∈ ts, ∀ g ∈ t.stages, g.FixedEpsilon) ∧ (∀ t ∈ ts, ∀ g ∈ t.stages, g.FixedNeighbors) ∧
      r ∈ (m.run (simulationCalls ts)).2 ∧ r.Proper ∧ r.env.ForcesDifferentiable r.v r.p ∧ ¬ r.IsDerivative := by
  have hdt : looseTet.dt = 1 := Projection.damped_dt 0
  have hx : place Projection.corner (looseTet.dt * 1) still = Projection.corner := by
    funext i
    ext <;> simp [place, still]
  obtain ⟨r, hr, hv, hp, he, ho⟩ : ∃ r ∈ ((machine looseTet Projection.corner).run
      (simulationCalls [⟨id, [dumpStage]⟩])).2, r.v = still ∧ r.p = Projection.push ∧
      r.env = ⟨looseTet, looseTet.cons, Projection.corner, 1⟩ ∧
      ∀ i, r.out i = Setting.dualPart ⟨looseTet, looseTet.cons, Projection.corner, 1⟩ still Projection.push i +
        Cache.mul ⟨looseTet.toProblem.jacobianIndices, 12, Sparse.reassemble
          (Sparse.mapping (fun k : Fin looseTet.toProblem.jacobianIndices.length =>
            looseTet.toProblem.jacobianIndices.get k) 12) fun k =>
            (Setting.elasticValues ⟨looseTet, looseTet.cons, Projection.corner, 1⟩
              fun i => (Real.exp 1 - 1) • Projection.corner i).getD k.val 0, false⟩
          (Problem.ofVec Projection.push) i :=
    ⟨_, List.mem_cons_of_mem _ List.mem_cons_self, rfl, rfl, rfl, fun _ => rfl⟩
  have hz : ∀ x v : Vel, looseTet.constraintForce x v = fun _ => 0 := by
    intro x v
    funext i
    rw [looseTet.constraintForce_eq]
    simp [looseTet, Volume.Sealed.pressure, Touching.contactForce, Gripping.frictionForce]
  have hd0 : ∀ i : ℕ, Setting.dualPart ⟨looseTet, looseTet.cons, Projection.corner, 1⟩ still Projection.push i =
      0 := by
    intro i
    have e : ∀ x v : Vel, (looseTet.withCons looseTet.cons).constraintForce x v = fun _ => 0 := hz
    unfold Setting.dualPart
    simp only [e, ofVec_eq, Volume.coord_zero, mul_zero, deriv_const]
  have hpr : r.Proper := by
    refine ⟨?_, ?_, ?_, ?_, ?_, ?_, ?_⟩
    · rw [he]; exact loose_within
    · rw [he]; exact Projection.damped_distinct 0
    · rw [he]; exact zero_le_one
    · rw [he]; exact one_pos
    · rw [he]; exact le_refl 4
    · rw [he, hp]
      intro i hi
      have : i ≠ 0 := by
        have : 4 ≤ i := hi
        omega
      simp [Projection.push, this]
    · rw [he, hv]
      show (Projection.dampedProblem 0).Smooth (place Projection.corner (looseTet.dt * 1) still)
      rw [hx]
      exact Projection.damped_smooth 0
  have hdf : r.env.ForcesDifferentiable r.v r.p := by
    intro i _
    rw [he]
    simp only [hz, Volume.coord_zero]
    exact differentiableAt_const _
  refine ⟨machine looseTet Projection.corner, [⟨id, [dumpStage]⟩], r, rfl, ?_, ?_, hr, hpr, hdf, ?_⟩
  · intro t ht g hg
    rw [List.mem_singleton] at ht
    subst ht
    rw [List.mem_singleton] at hg
    subst hg
    refine ⟨fun a ha => ?_, rfl, by simp [dumpStage, plain]⟩
    rw [List.mem_singleton.1 ha]
    exact ⟨rfl, by simp⟩
  · intro t ht g hg
    rw [List.mem_singleton] at ht
    subst ht
    rw [List.mem_singleton] at hg
    subst hg
    refine ⟨fun a ha => ?_, rfl⟩
    rw [List.mem_singleton.1 ha]
  · refine r.not_derivative hpr hdf 0 (by rw [he]; show 0 < 3 * 4; norm_num) ?_
    rw [ho 0, hd0, zero_add, Cache.mul_refreshed looseTet.toProblem.jacobianIndices 12
      (Setting.elasticValues ⟨looseTet, looseTet.cons, Projection.corner, 1⟩
        fun i => (Real.exp 1 - 1) • Projection.corner i) (elastic_length _ _ _ _ _) _ _ _ (by norm_num), he, hv, hp]
    simp only [hz, Volume.coord_zero, mul_zero, deriv_const, zero_add]
    have h1 : Setting.elasticValues ⟨looseTet, looseTet.cons, Projection.corner, 1⟩
        (fun i => (Real.exp 1 - 1) • Projection.corner i) = (Projection.dampedProblem 0).jacobianValues
          (fun i => Real.exp 1 • Projection.corner i) (fun i => (Real.exp 1 - 1) • Projection.corner i) 1 1 := by
      unfold Setting.elasticValues Setting.h
      simp only [hdt, mul_one]
      congr 1
      funext i
      unfold Setting.positions Setting.h
      simp only [hdt, mul_one]
      ext <;> simp <;> ring
    have h2 : Setting.elasticValues ⟨looseTet, looseTet.cons, Projection.corner, 1⟩ still =
        (Projection.dampedProblem 0).jacobianValues (fun i => (1 : ℝ) • Projection.corner i) still 1 1 := by
      unfold Setting.elasticValues Setting.h
      simp only [hdt, mul_one]
      congr 1
      funext i
      unfold Setting.positions Setting.h
      ext <;> simp [still]
    rw [h1, h2]
    have e1 := scaled_entry (Real.exp 1) (Real.exp_pos 1) fun i => (Real.exp 1 - 1) • Projection.corner i
    have e2 := scaled_entry 1 one_pos still
    simp only [ofVec_eq]
    intro h
    have h' := e1.symm.trans (h.trans e2)
    have hl : Real.log (Real.exp 1 ^ 3) = 3 := by
      rw [← Real.exp_nat_mul, Real.log_exp]; norm_num
    rw [hl] at h'
    have hpos : 0 < Real.exp 1 ^ 2 := by positivity
    norm_num at h'
    field_simp at h'
    linarith [Real.exp_pos 2]

/-! ## Epsilons -/

/-- A grip with another epsilon. -/
def Grip.withEpsilon (e : ℝ) : Grip → Grip
  | .lagged L => .lagged { L with params := { L.params with epsilon := e } }
  | .current F => .current { F with params := { F.params with epsilon := e } }

/-- `epsilon_iter_mut`: `problem.rs:408-414`. -/
def Cons.withEpsilon (e : ℝ) (A : Cons) : Cons := ⟨A.contacts, A.grips.map (Grip.withEpsilon e)⟩

/-- Coulomb friction with coefficient 0.3 and some epsilon. -/
def dry (e : ℝ) : Friction.Params := ⟨3 / 10, 3 / 10, 0, 0, e, .quadratic⟩

theorem dry_valid (e : ℝ) (h : 0 < e) : (dry e).Valid := by
  constructor <;> simp [dry, h] <;> norm_num

/-- The soft tetrahedron and the vertex above it, with lagged friction. -/
def rubTet (e : ℝ) : Gripping := { exTouch demo with grips := [.lagged ⟨demo, demoX, 3, dry e⟩] }

theorem rub_within (e : ℝ) (h : 0 < e) : (rubTet e).Within := by
  refine ⟨demo_touching, fun L hL => ?_, fun F hF => by simp [rubTet] at hF⟩
  have : L = ⟨demo, demoX, 3, dry e⟩ := by simpa [rubTet] using hL
  rw [this]
  exact ⟨demo_distinct, dry_valid e h⟩

theorem rub_steady (e : ℝ) : (rubTet e).Steady demoX still := by
  refine ⟨fun L hL k hk => ?_, fun F hF => by simp [rubTet] at hF⟩
  have : L = ⟨demo, demoX, 3, dry e⟩ := by simpa [rubTet] using hL
  rw [this]
  exact Or.inl rfl

theorem rub_dt (e : ℝ) : (rubTet e).dt = 1 / 60 := by
  have h : (rubTet e).timeStep = 1 / 60 := rfl
  unfold Problem.dt
  rw [if_neg (by unfold Problem.isStatic; rw [h]; norm_num), h]

theorem still_place (x0 : Vel) (q : ℝ) : place x0 q still = x0 := by
  funext i
  ext <;> simp [place, still]

theorem demoV_unit : demoV = unitAt 9 := by
  funext i
  unfold demoV unitAt
  simp

/-- The friction of the vertex that starts to slide, by epsilon. -/
theorem rub_rate (e : ℝ) (h : 0 < e) : HasDerivAt (fun s : ℝ => coord
    (fun j => demo.subtractFriction 3 (dry e) demoX (alongLine still demoV s) (fun _ => 0) j) 9) (9 / (10 * e)) 0 := by
  have hnone : ¬ (dry e).isNone := by norm_num [dry, Friction.Params.isNone]
  have h1 := demo.slidePower_deriv demo_distinct (dry e) (dry_valid e h) demoX (alongLine still demoV) demoV demoV 0
    (fun i => HasD.line _ _) fun k _ => Or.inl rfl
  have h0 : alongLine still demoV 0 = still := by
    funext j; unfold alongLine; rw [zero_smul, add_zero]
  have hs : demo.slide demoX still 0 = ⟨0, 0⟩ := by
    have hr : demo.rel demoX still 0 = 0 := by
      unfold Pair.rel
      rw [Pair.relativeVelocities_eq, demo_active, List.map_cons, List.map_nil, List.getD_cons_zero]
      obtain ⟨w, hw, -⟩ := demo_flat.contactJacobian
      unfold Pair.pushed
      simp only at hw ⊢
      rw [hw]
      ext <;> simp [Pair.faceVelocity, demo, demoTri, still, M3.mulVec, M3.diag, V3.dot]
    unfold Pair.slide
    rw [hr, Pair.mulVec_zero_right]
    rfl
  have hf : (fun s : ℝ => coord (fun j => demo.subtractFriction 3 (dry e) demoX (alongLine still demoV s)
      (fun _ => 0) j) 9) = fun s => demo.slidePower (dry e) demoX (alongLine still demoV s) demoV := by
    funext s
    rw [← demo.subtractFriction_power demo_distinct (dry e) hnone, demoV_unit, dot_unitAt _ _ _ (by norm_num)]
  rw [hf]
  refine h1.congr_deriv ?_
  rw [show demo.active.length = 1 from rfl, Finset.sum_range_one, h0, hs, demo_slide, demo_lambda]
  have hj : Friction.jacobian ⟨0, 0⟩ (3 / 2) (dry e) = ⟨9 / (10 * e), 0, 0, 9 / (10 * e)⟩ := by
    simp [Friction.jacobian, Friction.etaJac, dry, V2.norm, V2.dot, Friction.quadraticProfile, h]
    field_simp
    norm_num
  rw [List.getD_cons_zero, hj]
  simp [Friction.M2.mulVec, V2.dot]

/-- A stage with adaptive epsilons: the solve starts with epsilon one. -/
def epsilonStage : Stage where
  timeStep := 1 / 60
  x0 := demoX
  fm := 1
  advance := id
  initial := still
  solves := []
  lastSolve := ⟨some (Cons.withEpsilon 1), still, [], [plain [demoV] still]⟩
  lastAfter := ⟨none, none⟩
  broken := []

/-- **C93 (violated).** With adaptive epsilons, the friction that is differentiated has the epsilon of the scene, while
the residual has another one. -/
theorem epsilon_violated :
    ∃ (m : Machine) (ts : List TimeStep) (r : Record), m.env.twin = m.env.problem.cons ∧
      (∀ t ∈ ts, ∀ g ∈ t.stages, g.Clean) ∧ (∀ t ∈ ts, ∀ g ∈ t.stages, g.FixedNeighbors) ∧
      r ∈ (m.run (simulationCalls ts)).2 ∧ r.Proper ∧ r.env.ForcesDifferentiable r.v r.p ∧ ¬ r.IsDerivative := by
  obtain ⟨r, hr, hv, hp, he, ho⟩ : ∃ r ∈ ((machine (rubTet (1 / 100)) demoX).run
      (simulationCalls [⟨id, [epsilonStage]⟩])).2, r.v = still ∧ r.p = demoV ∧
      r.env = ⟨rubTet 1, (rubTet (1 / 100)).cons, demoX, 1⟩ ∧ r.Current := by
    refine ⟨_, List.mem_cons_self, rfl, rfl, rfl, ?_⟩
    refine (Machine.simulation_ensures (machine (rubTet (1 / 100)) demoX) [⟨id, [epsilonStage]⟩] ?_).1 _
      List.mem_cons_self
    intro t ht g hg
    rw [List.mem_singleton] at ht
    subst ht
    rw [List.mem_singleton] at hg
    subst hg
    intro a ha
    exact absurd ha List.not_mem_nil
  have hx : place r.env.x0 (r.env.problem.dt * r.env.fm) r.v = demoX := by
    rw [he, hv]
    exact still_place _ _
  have hw : ∀ i, 5 ≤ i → demoV i = 0 := by
    intro i hi
    have : i ≠ 3 := by omega
    simp [demoV, this]
  have hpr : r.Proper := by
    refine ⟨?_, ?_, ?_, ?_, ?_, ?_, ?_⟩
    · rw [he]; exact rub_within 1 one_pos
    · rw [he]; exact exTet_distinct
    · rw [he]; show (0 : ℝ) ≤ 1 / 60; norm_num
    · rw [he]; exact one_pos
    · rw [he]; exact le_refl 5
    · rw [he, hp]; exact hw
    · rw [hx, he]; exact exTet_smooth _
  have hdf : r.env.ForcesDifferentiable r.v r.p :=
    r.env.forces_differentiable r.v r.p hpr.within hpr.active hpr.fixed
      (by rw [hx, he]; exact demo_touching_smooth) (by rw [hx, he, hv]; exact rub_steady 1)
  refine ⟨machine (rubTet (1 / 100)) demoX, [⟨id, [epsilonStage]⟩], r, rfl, ?_, ?_, hr, hpr, hdf, ?_⟩
  · intro t ht g hg
    rw [List.mem_singleton] at ht
    subst ht
    rw [List.mem_singleton] at hg
    subst hg
    intro a ha
    exact absurd ha List.not_mem_nil
  · intro t ht g hg
    rw [List.mem_singleton] at ht
    subst ht
    rw [List.mem_singleton] at hg
    subst hg
    exact ⟨fun a ha => absurd ha List.not_mem_nil, rfl⟩
  · refine r.not_derivative hpr hdf 9 (by rw [he]; show 9 < 3 * 5; norm_num) ?_
    rw [ho 9 (by rw [he]; show 9 < 3 * 5; norm_num)]
    intro h
    have h := add_right_cancel h
    rw [he, hv, hp] at h
    unfold Setting.dualPart at h
    simp only [ofVec_eq] at h
    obtain ⟨d, hd⟩ : ∃ d, HasDerivAt (fun s : ℝ => coord (fun j => (rubTet 1).pressure
        (place demoX ((rubTet 1).dt * 1) (alongLine still demoV s)) j + (rubTet 1).contactForce
          (place demoX ((rubTet 1).dt * 1) (alongLine still demoV s)) j) 9) d 0 :=
      ⟨_, ((rubTet 1).forces_differentiable (rub_within 1 one_pos) (le_refl 5) demoX _ still demoV hw
        (by rw [still_place]; exact demo_touching_smooth) 9 (by show 9 < 3 * 5; norm_num)).hasDerivAt⟩
    have key : ∀ e : ℝ, 0 < e → ∀ S : Gripping, S = rubTet e → deriv (fun s : ℝ => (rubTet 1).dt * 1 * coord
        (S.constraintForce (place demoX ((rubTet 1).dt * 1) (alongLine still demoV s)) (alongLine still demoV s)) 9)
          0 = 1 / 60 * (d + 9 / (10 * e)) := by
      rintro e hpos S rfl
      rw [rub_dt] at *
      have hsum : (fun s : ℝ => 1 / 60 * 1 * coord ((rubTet e).constraintForce
          (place demoX (1 / 60 * 1) (alongLine still demoV s)) (alongLine still demoV s)) 9) = fun s =>
          1 / 60 * (coord (fun j => (rubTet 1).pressure
          (place demoX (1 / 60 * 1) (alongLine still demoV s)) j + (rubTet 1).contactForce
          (place demoX (1 / 60 * 1) (alongLine still demoV s)) j) 9 + coord
          (fun j => demo.subtractFriction 3 (dry e) demoX (alongLine still demoV s) (fun _ => 0) j) 9) := by
        funext s
        rw [mul_one, ← Volume.coord_add']
        congr 2
        funext j
        rw [(rubTet e).constraintForce_eq]
        congr 1
        simp [Gripping.frictionForce, rubTet, Grip.subtract]
      rw [hsum]
      exact ((hd.fun_add (rub_rate e hpos)).const_mul _).deriv
    have k1 := key 1 one_pos (rubTet 1) rfl
    have k2 := key (1 / 100) (by norm_num) ((rubTet 1).withCons (rubTet (1 / 100)).cons) rfl
    have h' := (k2.symm.trans h).trans k1
    norm_num at h'

/-! ## Neighbors -/

/-- The pair before its neighbors are known. -/
def farPair : Pair := { demo with nbrs := [[], []] }

/-- `update_neighbors`: the pair finds its neighbors. -/
def Cons.meet (A : Cons) : Cons := ⟨A.contacts.map fun C => { C with nbrs := [[], [0]] }, A.grips⟩

/-- The soft tetrahedron and the vertex above it, without friction. -/
def nearTet (C : Pair) : Gripping := { exTouch C with grips := [] }

theorem near_within : (nearTet demo).Within :=
  ⟨demo_touching, fun L hL => by simp [nearTet] at hL, fun F hF => by simp [nearTet] at hF⟩

theorem near_steady : (nearTet demo).Steady demoX still :=
  ⟨fun L hL => by simp [nearTet] at hL, fun F hF => by simp [nearTet] at hF⟩

theorem near_dt : (nearTet demo).dt = 1 / 60 := by
  have h : (nearTet demo).timeStep = 1 / 60 := rfl
  unfold Problem.dt
  rw [if_neg (by unfold Problem.isStatic; rw [h]; norm_num), h]

theorem liftW_unit : liftW = unitAt 11 := by
  funext i
  unfold liftW unitAt
  simp

/-- The scene with the vertex lifted. -/
def lifted (s : ℝ) : Vel := fun i => demoX i + s • liftW i

theorem lifted_samples (s : ℝ) : demo.samples (lifted s) = demo.samples demoX := by
  unfold Pair.samples
  have : (fun j => lifted s (demo.surf j)) = fun j => demoX (demo.surf j) := by
    funext j
    have : demo.surf j ≠ 3 := by
      show (if j < 3 then j else 0) ≠ 3
      split <;> omega
    simp [lifted, liftW, this]
  simp only [this]

theorem lifted_query (s : ℝ) : demo.query (lifted s) 1 = ⟨1, 1, 1 / 2 + s⟩ := by
  unfold Pair.query
  ext <;> simp [lifted, demo, demoX, liftW]

theorem lifted_flat (s : ℝ) (hs : |s| < 1 / 2) :
    FlatAround demo.kernel (demo.query (lifted s) 1) [0] (demo.samples (lifted s)) ⟨0, 0, 1⟩ := by
  rw [lifted_samples, demo_samples, lifted_query]
  constructor
  · show (0 : ℝ) < 1
    norm_num
  · norm_num [V3.dot]
  · exact fun i _ => plate_normal i
  · refine ⟨1 / 2 + s, fun i _ => ?_⟩
    rw [plate_pos]
    show (0 : ℝ) + _ = _
    norm_num [V3.dot]
  · refine ⟨0, by simp, fun r hr => ?_⟩
    rw [plate_pos]
    have : r = 1 := by
      have : (some 1 : Option ℝ) = some r := hr
      exact (Option.some.inj this).symm
    rw [this]
    unfold V3.norm V3.dot
    rw [Real.sqrt_lt' (by norm_num)]
    obtain ⟨h1, h2⟩ := abs_lt.1 hs
    simp
    nlinarith
  · exact Or.inl trivial

theorem lifted_force (s : ℝ) (hs : |s| < 1 / 2) :
    coord (fun j => demo.subtractForce (lifted s) (fun _ => 0) j) 11 = 2 * ContactPenalty.db 1 (1 / 2 + s) := by
  have hp := demo.forcePower_rate (lifted s) liftW 5 demo_surf demo_coll (fun h => by simp [demo] at h)
    (fun h => by simp [demo] at h)
  have hd : demo.distance (lifted s) ([0], 1) = 1 / 2 + s := by
    unfold Pair.distance
    rw [(lifted_flat s hs).potential 0 (1 / 2 + s) fun i _ => by
      rw [lifted_samples, demo_samples, plate_pos, lifted_query]
      show (0 : ℝ) + V3.dot ⟨0, 0, 1⟩ ((⟨1, 1, 1 / 2 + s⟩ : V3 ℝ) - ⟨1, 1, 0⟩) = 1 / 2 + s
      norm_num [V3.dot]]
    show (1 / 2 + s : ℝ) - 0 = 1 / 2 + s
    ring
  have hr : demo.rate (lifted s) ([0], 1) liftW = 1 := by
    unfold Pair.rate
    have hz : (fun j => liftW (demo.surf j)) = fun _ => 0 := by
      funext j
      have : demo.surf j ≠ 3 := by
        show (if j < 3 then j else 0) ≠ 3
        split <;> omega
      simp [liftW, this]
    have := (lifted_flat s hs).gradient (some (demo.closest 1))
    rw [hz, applyBlocks_zero]
    simp only [this, Option.getD_some]
    norm_num [V3.dot, liftW, demo]
  have hneg : ∀ a b : V3 ℝ, V3.dot (-a) b = -V3.dot a b := fun a b => by simp [V3.dot]; ring
  rw [demo_active, List.map_singleton, List.sum_singleton, hr, Pair.mult, hd, Pair.forcePower] at hp
  simp only [hneg, Finset.sum_neg_distrib] at hp
  rw [liftW_unit, dot_unitAt _ _ _ (by norm_num)] at hp
  have : demo.kappa = 2 ∧ demo.delta = 1 := ⟨rfl, rfl⟩
  rw [this.1, this.2] at hp
  linarith

/-- The stiffness of the contact. -/
theorem lifted_rate (q : ℝ) : HasDerivAt (fun s : ℝ => coord (fun j => demo.subtractForce
    (place demoX q (alongLine still liftW s)) (fun _ => 0) j) 11) (6 * q) 0 := by
  have he : ∀ s : ℝ, place demoX q (alongLine still liftW s) = lifted (q * s) := by
    intro s
    funext i
    ext <;> simp [place, alongLine, lifted, still] <;> ring
  have h1 : HasDerivAt (fun s : ℝ => 2 * ContactPenalty.db 1 (1 / 2 + q * s)) (6 * q) 0 := by
    have hl : HasDerivAt (fun s : ℝ => 1 / 2 + q * s) q 0 := by
      simpa using ((hasDerivAt_id (0 : ℝ)).const_mul q).const_add (1 / 2)
    have := (ContactPenalty.db_hasDerivAt 1 (1 / 2 + q * 0)).comp (0 : ℝ) hl
    refine (this.const_mul 2).congr_deriv ?_
    rw [mul_zero, add_zero, ContactPenalty.ddb_of_lt (by norm_num)]
    ring
  refine h1.congr_of_eventuallyEq ?_
  have hc : ContinuousAt (fun s : ℝ => |q * s|) 0 := by fun_prop
  have : ∀ᶠ s in nhds (0 : ℝ), |q * s| < 1 / 2 := hc.eventually_lt continuousAt_const (by norm_num)
  filter_upwards [this] with s hs
  simp only [he]
  exact lifted_force _ hs

/-- A stage whose first solve exceeds the largest step: the pair finds its neighbors, and the solve is repeated. -/
def neighborStage : Stage where
  timeStep := 1 / 60
  x0 := demoX
  fm := 1
  advance := id
  initial := still
  solves := [(⟨none, still, [], [plain [] still]⟩, ⟨none, some Cons.meet⟩)]
  lastSolve := ⟨none, still, [], [plain [liftW] still]⟩
  lastAfter := ⟨none, none⟩
  broken := []

/-- **C93 (violated).** Where a solve is repeated since vertices moved by more than the largest step, the forces of
contacts that were found are in the residual and not in the products. -/
theorem neighbors_violated :
    ∃ (m : Machine) (ts : List TimeStep) (r : Record), m.env.twin = m.env.problem.cons ∧
      (∀ t ∈ ts, ∀ g ∈ t.stages, g.Clean) ∧ (∀ t ∈ ts, ∀ g ∈ t.stages, g.FixedEpsilon) ∧
      r ∈ (m.run (simulationCalls ts)).2 ∧ r.Proper ∧ r.env.ForcesDifferentiable r.v r.p ∧ ¬ r.IsDerivative := by
  have hcl : neighborStage.Clean := by
    intro a ha h
    rw [List.mem_singleton.1 ha] at h
    simp at h
  obtain ⟨r, hr, hv, hp, he, ho⟩ : ∃ r ∈ ((machine (nearTet farPair) demoX).run
      (simulationCalls [⟨id, [neighborStage]⟩])).2, r.v = still ∧ r.p = liftW ∧
      r.env = ⟨nearTet demo, (nearTet farPair).cons, demoX, 1⟩ ∧ r.Current := by
    refine ⟨_, List.mem_cons_self, rfl, rfl, rfl, ?_⟩
    refine (Machine.simulation_ensures (machine (nearTet farPair) demoX) [⟨id, [neighborStage]⟩] ?_).1 _
      List.mem_cons_self
    intro t ht g hg
    rw [List.mem_singleton] at ht
    subst ht
    rw [List.mem_singleton] at hg
    subst hg
    exact hcl
  have hx : place r.env.x0 (r.env.problem.dt * r.env.fm) r.v = demoX := by
    rw [he, hv]
    exact still_place _ _
  have hw : ∀ i, 5 ≤ i → liftW i = 0 := by
    intro i hi
    have : i ≠ 3 := by omega
    simp [liftW, this]
  have hpr : r.Proper := by
    refine ⟨?_, ?_, ?_, ?_, ?_, ?_, ?_⟩
    · rw [he]; exact near_within
    · rw [he]; exact exTet_distinct
    · rw [he]; show (0 : ℝ) ≤ 1 / 60; norm_num
    · rw [he]; exact one_pos
    · rw [he]; exact le_refl 5
    · rw [he, hp]; exact hw
    · rw [hx, he]; exact exTet_smooth _
  have hdf : r.env.ForcesDifferentiable r.v r.p :=
    r.env.forces_differentiable r.v r.p hpr.within hpr.active hpr.fixed
      (by rw [hx, he]; exact demo_touching_smooth) (by rw [hx, he, hv]; exact near_steady)
  refine ⟨machine (nearTet farPair) demoX, [⟨id, [neighborStage]⟩], r, rfl, ?_, ?_, hr, hpr, hdf, ?_⟩
  · intro t ht g hg
    rw [List.mem_singleton] at ht
    subst ht
    rw [List.mem_singleton] at hg
    subst hg
    exact hcl
  · intro t ht g hg
    rw [List.mem_singleton] at ht
    subst ht
    rw [List.mem_singleton] at hg
    subst hg
    refine ⟨fun a ha => ?_, rfl, by simp [neighborStage, plain]⟩
    rw [List.mem_singleton.1 ha]
    exact ⟨rfl, by simp [plain]⟩
  · refine r.not_derivative hpr hdf 11 (by rw [he]; show 11 < 3 * 5; norm_num) ?_
    rw [ho 11 (by rw [he]; show 11 < 3 * 5; norm_num)]
    intro h
    have h := add_right_cancel h
    have hd := hdf 11 (by rw [he]; show 11 < 3 * 5; norm_num)
    rw [he, hv, hp] at h hd
    unfold Setting.dualPart at h
    simp only [ofVec_eq] at h
    have hsum : ∀ x v : Vel, coord ((nearTet demo).constraintForce x v) 11 =
        coord (((nearTet demo).withCons (nearTet farPair).cons).constraintForce x v) 11 +
          coord (fun j => demo.subtractForce x (fun _ => 0) j) 11 := by
      intro x v
      rw [← Volume.coord_add']
      congr 1
      funext j
      rw [(nearTet demo).constraintForce_eq, ((nearTet demo).withCons (nearTet farPair).cons).constraintForce_eq]
      have h1 : ((nearTet demo).withCons (nearTet farPair).cons).pressure x j = (nearTet demo).pressure x j := rfl
      have h2 : ((nearTet demo).withCons (nearTet farPair).cons).contactForce x j = 0 := by
        show (List.map _ [farPair]).sum = 0
        have : farPair.blocks x = [] := rfl
        rw [List.map_singleton, List.sum_singleton]
        show farPair.subtractForce x (fun _ => 0) j = 0
        rw [Pair.subtractForce, this, List.foldl_nil]
      have h3 : ∀ S : Gripping, S.grips = [] → S.frictionForce x v j = 0 := by
        intro S hS
        simp [Gripping.frictionForce, hS]
      rw [h1, h2, h3 _ rfl, h3 _ rfl, add_zero, add_zero, add_zero]
      congr 1
      exact List.sum_singleton
    simp only [near_dt, mul_one, hsum] at h hd
    have hlin := lifted_rate (1 / 60)
    have hfar := hd.fun_sub hlin.differentiableAt
    simp only [add_sub_cancel_right] at hfar
    have e1 := (hfar.hasDerivAt.const_mul (1 / 60 : ℝ)).deriv
    have e2 := ((hfar.hasDerivAt.fun_add hlin).const_mul (1 / 60 : ℝ)).deriv
    have hh : Setting.h ⟨nearTet demo, (nearTet farPair).cons, demoX, 1⟩ = 1 / 60 := by
      unfold Setting.h
      rw [near_dt, mul_one]
    unfold Setting.positions at h
    rw [hh] at h
    have h' := (e1.symm.trans h).trans e2
    linarith

end Softy.Contact
