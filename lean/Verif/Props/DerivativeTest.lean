import Verif.Model.DerivativeTest
import Verif.Model.Solver
import Verif.Props.MatrixFreeWitness
import Verif.Props.Precond

/-!
# C109: derivative tests accept correct problems and reject wrong ones
-/

noncomputable section

namespace Softy.DerivativeTest

open Softy Fem Contact Filter Assembly

/-! ## Specification -/

/-- Two numbers agree up to an absolute and a relative tolerance. -/
def Agree (a b relative absolute : ℝ) : Prop := |a - b| ≤ max absolute (relative * max |a| |b|)

/-- `d` is the derivative of `f` with respect to the scalar `i` of the velocities `v`. -/
def IsPartial (f : (ℕ → V3 ℝ) → Option ℝ) (v : ℕ → V3 ℝ) (i : ℕ) (d : ℝ) : Prop :=
  ∃ F : ℝ → ℝ, (∀ᶠ s in nhds 0, f (fun k => v k + s • unitAt i k) = some (F s)) ∧ HasDerivAt F d 0

/-- The objective has the derivatives `D`, and the residual with `symmetric` set is `g`. -/
structure HasGradient (T : Tested) (v g : ℕ → V3 ℝ) (D : ℕ → ℝ) : Prop where
  gradient : T.gradient v = some g
  objective : ∀ i < T.n, IsPartial T.objective v i (D i)

/-- The objective and the residual have the derivatives `D` and `J`, and the residual with `symmetric` set is `g`. -/
structure HasDerivatives (T : Tested) (v g : ℕ → V3 ℝ) (D : ℕ → ℝ) (J : ℕ → ℕ → ℝ) : Prop
    extends HasGradient T v g D where
  residual : ∀ row < T.n, ∀ col < T.n,
    IsPartial (fun u => (T.residual u).map fun r => coord r row) v col (J row col)

/-- The gradient agrees with the derivative of the objective. -/
def GradientAgrees (T : Tested) (g : ℕ → V3 ℝ) (D : ℕ → ℝ) : Prop :=
  ∀ i < T.n, Agree (coord g i) (D i) 1e-5 1e-6

/-- The matrix of the triplets agrees with the derivative of the residual, relative to the lengths of columns. -/
def JacobianAgrees (T : Tested) (v : ℕ → V3 ℝ) (J : ℕ → ℕ → ℝ) : Prop :=
  ∀ row < T.n, ∀ col < T.n, Agree (Sparse.storedEntry (T.triplets v) (row, col)) (J row col) 1e-6
    (1e-5 * max 1 (Real.sqrt (∑ i ∈ Finset.range T.n, J i col ^ 2)))

/-! ## Lemmas -/

theorem relativeEq_iff (a b rel eps : ℝ) (he : 0 ≤ eps) : relativeEq a b rel eps ↔ Agree a b rel eps := by
  have hm : (if |b| > |a| then |b| else |a|) = max |a| |b| := by
    split
    · rename_i h; exact (max_eq_right h.le).symm
    · rename_i h; exact (max_eq_left (not_lt.1 h)).symm
  unfold relativeEq Agree
  rw [hm, le_max_iff, mul_comm rel]
  constructor
  · rintro (rfl | h)
    · left; simpa using he
    · exact h
  · exact Or.inr

theorem vary_eq (v : ℕ → V3 ℝ) (i : ℕ) (s : ℝ) : vary v i s = fun k => v k + s • unitAt i k := by
  funext k
  unfold vary
  congr 2
  unfold Problem.toVec unitAt
  by_cases h : k = i / 3
  · rw [if_pos h]
    congr 1
    · exact if_congr (by omega) rfl rfl
    · exact if_congr (by omega) rfl rfl
    · exact if_congr (by omega) rfl rfl
  · rw [if_neg h]
    ext
    · exact if_neg (by omega)
    · exact if_neg (by omega)
    · exact if_neg (by omega)

theorem dual_eq {f : (ℕ → V3 ℝ) → Option ℝ} {v : ℕ → V3 ℝ} {i : ℕ} {d : ℝ} (h : IsPartial f v i d) :
    dual (fun s => f (vary v i s)) = some d := by
  obtain ⟨F, h1, h2⟩ := h
  unfold dual
  simp only [vary_eq]
  rw [h1.self_of_nhds, Option.map_some]
  congr 1
  have : (fun s => (f fun k => v k + s • unitAt i k).getD 0) =ᶠ[nhds 0] F :=
    h1.mono fun s hs => by simp only [hs, Option.getD_some]
  exact (h2.congr_of_eventuallyEq this).deriv

theorem dense_aux (n : ℕ) (p : ℕ × ℕ) (hp : p.1 < n ∧ p.2 < n) : ∀ (T : List ((ℕ × ℕ) × ℝ)) (J : ℕ × ℕ → ℝ),
    T.foldl (fun (J : ℕ × ℕ → ℝ) (e : (ℕ × ℕ) × ℝ) =>
      if e.1.1 < n ∧ e.1.2 < n then Function.update J e.1 (J e.1 + e.2) else J) J p =
      J p + Sparse.storedEntry T p
  | [], J => by simp [Sparse.storedEntry]
  | e :: T, J => by
    rw [List.foldl_cons, dense_aux n p hp T]
    unfold Sparse.storedEntry
    rw [List.map_cons, List.sum_cons, ← add_assoc]
    congr 1
    by_cases h : e.1 = p
    · subst h
      rw [if_pos hp, Function.update_self, if_pos rfl]
    · rw [if_neg h, add_zero]
      split
      · rw [Function.update_of_ne (Ne.symm h)]
      · rfl

theorem dense_eq (n : ℕ) (T : List ((ℕ × ℕ) × ℝ)) (p : ℕ × ℕ) (hp : p.1 < n ∧ p.2 < n) :
    dense n T p = Sparse.storedEntry T p := by
  unfold dense
  rw [dense_aux n p hp, zero_add]

theorem scalar_eq (r : Option (ℕ → V3 ℝ)) (i : ℕ) : scalar r i = r.map fun r => coord r i := by
  unfold scalar
  simp only [ofVec_eq]

section
variable {T : Tested} {v g : ℕ → V3 ℝ} {D : ℕ → ℝ} {J : ℕ → ℕ → ℝ}

theorem gradientOk_iff (h : HasGradient T v g D) : T.gradientOk v ↔ GradientAgrees T g D := by
  unfold Tested.gradientOk GradientAgrees
  refine forall₂_congr fun i hi => ?_
  rw [dual_eq (h.objective i hi), scalar_eq, h.gradient, Option.map_some]
  exact relativeEq_iff _ _ _ _ (by norm_num)

theorem partialRow_eq (h : HasDerivatives T v g D J) {row col : ℕ} (hr : row < T.n) (hc : col < T.n) :
    T.partialRow v row col = some (J row col) := by
  unfold Tested.partialRow
  simp only [scalar_eq]
  exact dual_eq (f := fun u => (T.residual u).map fun r => coord r row) (h.residual row hr col hc)

theorem columnNorm_eq (h : HasDerivatives T v g D J) {col : ℕ} (hc : col < T.n) :
    T.columnNorm v col = Real.sqrt (∑ i ∈ Finset.range T.n, J i col ^ 2) := by
  unfold Tested.columnNorm
  congr 1
  rw [List.map_congr_left (g := fun i => J i col ^ 2) fun i hi => by
    rw [partialRow_eq h (List.mem_range.1 hi) hc, Option.getD_some]]
  rfl

theorem jacobianOk_iff (h : HasDerivatives T v g D J) : T.jacobianOk v ↔ JacobianAgrees T v J := by
  unfold Tested.jacobianOk JacobianAgrees
  have key : ∀ col < T.n, ∀ row < T.n,
      (compare (some (dense T.n (T.triplets v) (row, col))) (T.partialRow v row col) 1e-6
        (1e-5 * max 1 (T.columnNorm v col)) ↔
      Agree (Sparse.storedEntry (T.triplets v) (row, col)) (J row col) 1e-6
        (1e-5 * max 1 (Real.sqrt (∑ i ∈ Finset.range T.n, J i col ^ 2)))) := by
    intro col hc row hr
    rw [partialRow_eq h hr hc, columnNorm_eq h hc, dense_eq _ _ _ ⟨hr, hc⟩]
    exact relativeEq_iff _ _ _ _ (by positivity)
  exact ⟨fun H row hr col hc => (key col hc row hr).1 (H col hc row hr),
    fun H col hc row hr => (key col hc row hr).2 (H row hr col hc)⟩

end

/-! ## Theorems -/

/-- **C109.** Without a level nothing is tested. -/
theorem test_off (T : Tested) (saved : Bool) (v : ℕ → V3 ℝ) : T.check 0 saved v = .ok := by
  simp [Tested.check]

/-- **C109.** On level one, a problem is accepted if and only if the gradient agrees with the derivative of the
objective. -/
theorem test_gradient (T : Tested) (v g : ℕ → V3 ℝ) (D : ℕ → ℝ) (h : HasGradient T v g D) (saved : Bool) :
    (T.check 1 saved v = .ok ↔ GradientAgrees T g D) ∧ (T.check 1 saved v = .failure ↔ ¬ GradientAgrees T g D) := by
  rw [← gradientOk_iff h]
  unfold Tested.check
  by_cases hg : T.gradientOk v <;> simp [hg]

/-- **C109.** On higher levels, a problem is accepted if and only if the gradient agrees with the derivative of the
objective and the Jacobian with that of the residual. -/
theorem test_jacobian (T : Tested) (v g : ℕ → V3 ℝ) (D : ℕ → ℝ) (J : ℕ → ℕ → ℝ) (h : HasDerivatives T v g D J)
    (level : ℕ) (hl : 2 ≤ level) (saved : Bool) :
    T.check level saved v = .ok ↔ GradientAgrees T g D ∧ JacobianAgrees T v J := by
  rw [← gradientOk_iff h.toHasGradient, ← jacobianOk_iff h]
  unfold Tested.check
  rw [if_neg (by omega), if_neg (by omega)]
  by_cases hg : T.gradientOk v <;> by_cases hj : T.jacobianOk v <;> cases saved <;> simp [hg, hj]

/-- **C109.** A problem whose gradient and Jacobian are the derivatives is accepted on all levels. -/
theorem test_accepts (T : Tested) (v g : ℕ → V3 ℝ) (D : ℕ → ℝ) (J : ℕ → ℕ → ℝ) (h : HasDerivatives T v g D J)
    (hg : ∀ i < T.n, coord g i = D i)
    (hJ : ∀ row < T.n, ∀ col < T.n, Sparse.storedEntry (T.triplets v) (row, col) = J row col)
    (level : ℕ) (saved : Bool) : T.check level saved v = .ok := by
  have ag : ∀ a r e : ℝ, 0 ≤ e → Agree a a r e := fun a r e he => by
    unfold Agree
    rw [sub_self, abs_zero]
    exact le_max_of_le_left he
  have hG : GradientAgrees T g D := fun i hi => by rw [hg i hi]; exact ag _ _ _ (by norm_num)
  obtain h0 | h1 | h2 : level = 0 ∨ level = 1 ∨ 2 ≤ level := by omega
  · rw [h0]; exact test_off T saved v
  · rw [h1]; exact (test_gradient T v g D h.toHasGradient saved).1.2 hG
  · exact (test_jacobian T v g D J h level h2 saved).2 ⟨hG, fun row hr col hc => by
      rw [hJ row hr col hc]; exact ag _ _ _ (by positivity)⟩

/-- **C109.** If the test rejects, the step fails before anything is solved: what was committed is kept. -/
theorem test_rejects {X V : Type*} (env : Solver.Env X V) (par : Solver.Params) (ω : ℕ → Solver.Outcome V)
    (T : ℕ → Tested) (level : ℕ) (saved : Bool) (v : ℕ → ℕ → V3 ℝ) (s : Solver.Sim X V)
    (h : (T 0).check level saved (v 0) ≠ .ok) :
    let o := Solver.step env par ω (fun stage => (T stage).check level saved (v stage) = .ok) s
    o.result = none ∧ o.solves = 0 ∧ o.sim.state = s.state ∧ o.sim.initialPoint = s.initialPoint := by
  intro o
  have hn : ∃ l, List.range par.integrator.numStages = 0 :: l := by
    have : 0 < par.integrator.numStages := by cases par.integrator <;> simp [TimeInt.TimeIntegration.numStages]
    obtain ⟨n, hn⟩ := Nat.exists_eq_succ_of_ne_zero this.ne'
    exact ⟨_, by rw [hn, List.range_succ_eq_map]⟩
  obtain ⟨l, hl⟩ := hn
  unfold o Solver.step
  rw [hl]
  unfold Solver.stages
  simp only [h, decide_false, Bool.false_eq_true, if_false]
  exact ⟨trivial, trivial, trivial, trivial⟩

/-- The gradient of a scene whose friction is none or has the coefficient one. -/
theorem scene_gradient (R : Rubbing) (G : Gripping) (hRG : R.toTouching = G.toTouching) (hR : R.Within)
    (hT : 0 ≤ G.timeStep) (hNM : G.numActive ≤ G.numVertices) (hP : ∀ P ∈ G.volumes, P.Proper)
    (hmu : ∀ L ∈ R.frictions, L.params.isNone ∨ L.params.staticFriction = 1 ∧
      L.params.dynamicFriction = 1 ∧ L.params.viscousFriction = 0)
    (fm pm : ℝ) (hfm : 0 < fm) (prev v0 x0 v : ℕ → V3 ℝ)
    (hs : G.toProblem.Smooth (place x0 (G.dt * fm) v))
    (hr : G.toTouching.Regular (place x0 (G.dt * fm) v)) :
    ∃ g, HasGradient (ofScene R G fm pm prev v0 x0) v g (coord g) := by
  have hl : ∀ i k, HasD (fun s : ℝ => v k + s • unitAt i k) (unitAt i k) 0 := fun i k => HasD.line _ _
  have h0 : ∀ i, (fun k => v k + (0 : ℝ) • unitAt i k) = v := fun i => by
    funext k; rw [zero_smul, add_zero]
  have key : ∀ w : ℕ → V3 ℝ, (∀ k, G.numActive ≤ k → w k = 0) → ∃ (W : ℝ → ℝ) (r f : ℕ → V3 ℝ),
      (∀ᶠ s in nhds 0, R.objective fm pm prev v0 (place x0 (R.dt * fm) fun k => v k + s • w k)
        (fun k => v k + s • w k) = some (W s)) ∧
      R.residual fm pm prev v0 (place x0 (R.dt * fm) v) v = some (r, f) ∧
      HasDerivAt W (∑ i ∈ Finset.range R.numVertices, V3.dot (r i) (w i)) 0 := by
    intro w hw
    have h0 : (fun k => v k + (0 : ℝ) • w k) = v := by funext k; rw [zero_smul, add_zero]
    obtain ⟨W, r, f, h1, h2, h3⟩ := lagged_objective_partial R hR (by rw [hRG]; exact hT) (by rw [hRG]; exact hP)
      fm pm hfm prev v0 x0 (fun s k => v k + s • w k) w 0 (fun _ => HasD.line _ _)
      (by rw [hRG]; exact hw) (by rw [hRG, h0]; exact hs) (by rw [hRG, h0]; exact hr) hmu
    rw [h0] at h2
    exact ⟨W, r, f, h1, h2, h3⟩
  obtain ⟨-, g, f, -, hgf, -⟩ := key 0 fun _ _ => rfl
  refine ⟨g, ?_, ?_⟩
  · show (R.residual fm pm prev v0 (place x0 (R.dt * fm) v) v).map Prod.fst = some g
    rw [hgf, Option.map_some]
  · intro i hi
    have hi' : i < 3 * G.numActive := hi
    obtain ⟨W, r, f', h1, h2, h3⟩ := key (unitAt i) fun k hk => by
      unfold unitAt; rw [if_neg (by omega)]
    rw [hgf, Option.some.injEq, Prod.mk.injEq] at h2
    rw [dot_unitAt _ _ _ (by rw [hRG]; omega), ← h2.1] at h3
    exact ⟨W, h1, h3⟩

/-- The derivative of the residual of a scene whose zones have exact Hessians. -/
theorem scene_jacobian (R : Rubbing) (G : Gripping) (hG : G.Within) (hD : G.toProblem.Distinct)
    (hT : 0 ≤ G.timeStep) (hNM : G.numActive ≤ G.numVertices) (hA : ∀ P ∈ G.volumes, P.approx = false)
    (fm pm : ℝ) (hfm : 0 < fm) (prev v0 x0 v : ℕ → V3 ℝ)
    (hs : G.toProblem.Smooth (place x0 (G.dt * fm) v))
    (hc : G.toTouching.Smooth (place x0 (G.dt * fm) v))
    (hf : G.Steady (place x0 (G.dt * fm) v) v) (row : ℕ) (hrow : row < 3 * G.numActive) (col : ℕ)
    (hcol : col < 3 * G.numActive) :
    IsPartial (fun u => ((ofScene R G fm pm prev v0 x0).residual u).map fun r => coord r row) v col
      (Sparse.storedEntry ((ofScene R G fm pm prev v0 x0).triplets v) (row, col)) := by
  have h0 : (fun k => v k + (0 : ℝ) • unitAt col k) = v := by funext k; rw [zero_smul, add_zero]
  obtain ⟨r, h1, h2⟩ := grip_jacobian_derivative_partial G hG hD hT hA fm pm hfm prev v0 x0
    (place x0 (G.dt * fm) v) v (fun s k => v k + s • unitAt col k) (unitAt col) 0 (fun _ => HasD.line _ _)
    (fun k hk => by unfold unitAt; rw [if_neg (by omega)]) hNM
    (by rw [h0]; exact hs) (by rw [h0]; exact hc) (by rw [h0]; exact hf)
  refine ⟨fun s => coord (r s) row, h1.mono fun s hs => ?_, (h2 row hrow).congr_deriv ?_⟩
  · obtain ⟨f', hf'⟩ := hs
    show ((G.residual fm pm prev v0 (place x0 (G.dt * fm) fun k => v k + s • unitAt col k)
        (fun k => v k + s • unitAt col k)).map Prod.fst).map (fun r => coord r row) = _
    rw [hf']
    rfl
  · simp only [coord_unitAt, mul_ite, mul_one, mul_zero, Finset.sum_ite_eq', Finset.mem_range, hcol, if_true, h0]
    rfl

/-- **C109.** A scene is accepted on all levels and by every stage, whatever its state is.
Missing: scenes where the residual is not the gradient of the objective or the Jacobian not the derivative of the
residual, as in C81, C85, C87 and C90; in particular all zones must have exact Hessians and lagged friction the
coefficient one, see `test_volume_violated` and `test_friction_violated`. -/
theorem test_scene_partial (R : Rubbing) (G : Gripping) (hRG : R.toTouching = G.toTouching) (hR : R.Within)
    (hG : G.Within) (hD : G.toProblem.Distinct) (hT : 0 ≤ G.timeStep) (hNM : G.numActive ≤ G.numVertices)
    (hP : ∀ P ∈ G.volumes, P.Proper) (hA : ∀ P ∈ G.volumes, P.approx = false)
    (hmu : ∀ L ∈ R.frictions, L.params.isNone ∨ L.params.staticFriction = 1 ∧
      L.params.dynamicFriction = 1 ∧ L.params.viscousFriction = 0)
    (fm pm : ℝ) (hfm : 0 < fm) (prev v0 x0 v : ℕ → V3 ℝ)
    (hs : G.toProblem.Smooth (place x0 (G.dt * fm) v))
    (hr : G.toTouching.Regular (place x0 (G.dt * fm) v))
    (hc : G.toTouching.Smooth (place x0 (G.dt * fm) v))
    (hf : G.Steady (place x0 (G.dt * fm) v) v) (level : ℕ) (saved : Bool) :
    (ofScene R G fm pm prev v0 x0).check level saved v = .ok := by
  obtain ⟨g, hg⟩ := scene_gradient R G hRG hR hT hNM hP hmu fm pm hfm prev v0 x0 v hs hr
  exact test_accepts _ v g (coord g)
    (fun row col => Sparse.storedEntry ((ofScene R G fm pm prev v0 x0).triplets v) (row, col))
    ⟨hg, scene_jacobian R G hG hD hT hNM hA fm pm hfm prev v0 x0 v hs hc hf⟩
    (fun _ _ => rfl) (fun _ _ _ _ => rfl) level saved

end Softy.DerivativeTest
