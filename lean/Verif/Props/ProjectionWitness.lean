import Verif.Props.Projection
import Mathlib.Analysis.Complex.ExponentialBounds

/-!
# C92: cases in which projected element Hessians are not enough
-/

noncomputable section

namespace Softy.Projection

open Softy Softy.Assembly Softy.Fem Matrix

/-! ## A damped tetrahedron -/

/-- The unit tetrahedron. -/
def corner (i : ℕ) : V3 ℝ :=
  if i = 0 then ⟨1, 0, 0⟩ else if i = 1 then ⟨0, 1, 0⟩ else if i = 2 then ⟨0, 0, 1⟩ else 0

/-- The unit tetrahedron at rest, with damping. -/
def dampedTet (damping : ℝ) : TetElem :=
  ⟨fun n => n.val, ⟨⟨⟨1, 0, 0⟩, ⟨0, 1, 0⟩, ⟨0, 0, 1⟩⟩, 1 / 6, 10, 1⟩, damping⟩

/-- A problem with this tetrahedron. -/
def dampedProblem (damping : ℝ) : Problem where
  nh := [dampedTet damping]
  nhDensity := [1]
  snh := []
  snhDensity := []
  shell := ⟨[], [], fun _ _ => 0⟩
  shellDensity := []
  gravity := 0
  timeStep := 1

/-- The positions of the previous step: stretched. -/
def stretched (i : ℕ) : V3 ℝ := Real.exp 1 • corner i

/-- The velocities that lead back to the shape at rest. -/
def back (i : ℕ) : V3 ℝ := corner i - stretched i

/-- A move of the first vertex. -/
def push (i : ℕ) : V3 ℝ := if i = 0 then ⟨1, 0, 0⟩ else 0

theorem damped_within (c : ℝ) : (dampedProblem c).Within 4 := by
  refine ⟨?_, by simp [dampedProblem], by simp [dampedProblem, Shell.Within]⟩
  intro e he n
  simp only [dampedProblem, List.mem_singleton] at he
  subst he
  exact n.isLt

theorem damped_distinct (c : ℝ) : (dampedProblem c).Distinct := by
  refine ⟨?_, by simp [dampedProblem], by simp [dampedProblem, Shell.Distinct]⟩
  intro e he
  simp only [dampedProblem, List.mem_singleton] at he
  subst he
  exact Fin.val_injective

theorem damped_dt (c : ℝ) : (dampedProblem c).dt = 1 := by
  have : ¬ (dampedProblem c).isStatic := by
    unfold Problem.isStatic dampedProblem
    norm_num
  simp only [Problem.dt, if_neg this]
  rfl

theorem damped_place (c : ℝ) : place stretched ((dampedProblem c).dt * 1) back = corner := by
  rw [damped_dt]
  funext i
  unfold place back
  ext <;> simp

theorem damped_smooth (c : ℝ) : (dampedProblem c).Smooth corner := by
  refine ⟨?_, by simp [dampedProblem], by simp [dampedProblem, Shell.Smooth]⟩
  intro e he
  simp only [dampedProblem, List.mem_singleton] at he
  subst he
  simp [Ready, Tet.Upright, dampedTet, TetElem.pick, corner, Tet.shape, M3.det, V3.dot, V3.cross]

theorem damped_mass (c : ℝ) (i : ℕ) (hi : i < 4) : (dampedProblem c).mass i = 1 / 24 := by
  unfold Problem.mass vertexMass
  simp only [Problem.nhBodies, Problem.snhBodies, Problem.shellBodies, tetBodies, triBodies,
    dampedProblem, dampedTet, Body.mass]
  interval_cases i <;> simp [Fin.sum_univ_four] <;> norm_num

/-- The product with the Hessian of the scaled tetrahedron. -/
theorem scaled_product (c s : ℝ) (hs : 0 < s) (d : Tet.Verts) :
    Tet.nhProduct ((dampedTet c).ref.at fun n => s • corner n.val) d =
      let D := Tet.shape d
      let a := (1 - 10 * Real.log (s ^ 3)) / s ^ 2
      let t := 10 * (D.r0.x + D.r1.y + D.r2.z) / s ^ 2
      (1 / 6 : ℝ) • (⟨⟨D.r0.x + a * D.r0.x + t, D.r0.y + a * D.r1.x, D.r0.z + a * D.r2.x⟩,
        ⟨D.r1.x + a * D.r0.y, D.r1.y + a * D.r1.y + t, D.r1.z + a * D.r2.y⟩,
        ⟨D.r2.x + a * D.r0.z, D.r2.y + a * D.r1.z, D.r2.z + a * D.r2.z + t⟩⟩ : M3 ℝ) := by
  have hF : ((dampedTet c).ref.at fun n => s • corner n.val).F = ⟨⟨s, 0, 0⟩, ⟨0, s, 0⟩, ⟨0, 0, s⟩⟩ := by
    ext <;> simp [Tet.Elem.F, Tet.Ref.at, dampedTet, Tet.shape, corner, M3.mul, M3.mulVec,
      M3.transpose, V3.dot]
  have hdet : (⟨⟨s, 0, 0⟩, ⟨0, s, 0⟩, ⟨0, 0, s⟩⟩ : M3 ℝ).det = s ^ 3 := by
    simp [M3.det, V3.dot, V3.cross]; ring
  have hp : 0 < s ^ 3 := by positivity
  have hinv : (⟨⟨s, 0, 0⟩, ⟨0, s, 0⟩, ⟨0, 0, s⟩⟩ : M3 ℝ).inverseTranspose =
      some ⟨⟨s⁻¹, 0, 0⟩, ⟨0, s⁻¹, 0⟩, ⟨0, 0, s⁻¹⟩⟩ := by
    unfold M3.inverseTranspose
    rw [hdet, if_neg hp.ne']
    congr 1
    ext <;> simp [M3.cof, V3.cross] <;> field_simp
  simp only [Tet.nhProduct, hF, hdet, if_pos hp, hinv]
  have hdF : ((dampedTet c).ref.at fun n => s • corner n.val).dF d = Tet.shape d := by
    ext <;> simp [Tet.Elem.dF, Tet.Ref.at, dampedTet, M3.mul, M3.mulVec, M3.transpose, V3.dot]
  rw [hdF]
  generalize Tet.shape d = D
  have e1 : ((dampedTet c).ref.at fun n => s • corner n.val).mu = 1 := rfl
  have e2 : ((dampedTet c).ref.at fun n => s • corner n.val).lambda = 10 := rfl
  have e3 : ((dampedTet c).ref.at fun n => s • corner n.val).volume = 1 / 6 := rfl
  have e4 : ((dampedTet c).ref.at fun n => s • corner n.val).DXinv =
    ⟨⟨1, 0, 0⟩, ⟨0, 1, 0⟩, ⟨0, 0, 1⟩⟩ := rfl
  rw [e1, e2, e3, e4]
  generalize Real.log (s ^ 3) = l
  ext <;> simp [M3.mul, M3.mulVec, M3.transpose, V3.dot, M3.trace] <;> field_simp

theorem corner_scaled (c : ℝ) : (dampedTet c).ref.at ((dampedTet c).pick corner) =
    (dampedTet c).ref.at fun n => (1 : ℝ) • corner n.val := by
  congr 1
  funext n
  ext <;> simp [TetElem.pick, dampedTet]

/-- The work of the Hessian of the scaled tetrahedron. -/
theorem scaled_work (c s : ℝ) (hs : 0 < s) (d : Tet.Verts) :
    ∑ n, V3.dot (symmMul (Tet.nhHessian ((dampedTet c).ref.at fun n => s • corner n.val)) d n) (d n) =
      let D := Tet.shape d
      let a := (1 - 10 * Real.log (s ^ 3)) / s ^ 2
      (1 / 6) * (V3.dot D.r0 D.r0 + V3.dot D.r1 D.r1 + V3.dot D.r2 D.r2
        + a * (D.r0.x ^ 2 + D.r1.y ^ 2 + D.r2.z ^ 2
          + 2 * (D.r0.y * D.r1.x + D.r0.z * D.r2.x + D.r1.z * D.r2.y))
        + 10 / s ^ 2 * (D.r0.x + D.r1.y + D.r2.z) ^ 2) := by
  have hm : ∀ n, symmMul (Tet.nhHessian ((dampedTet c).ref.at fun n => s • corner n.val)) d n =
      Tet.spread (Tet.nhProduct ((dampedTet c).ref.at fun n => s • corner n.val) d) n :=
    fun n => model_symmMul .nh (dampedTet c).ref _ d n
  simp only [hm, scaled_product c s hs, Fin.sum_univ_four]
  generalize (1 - 10 * Real.log (s ^ 3)) / s ^ 2 = a
  simp only [div_eq_mul_inv]
  generalize (s ^ 2)⁻¹ = q
  simp [Tet.spread, V3.dot, Tet.shape]
  ring

/-- At rest the Hessian is positive semi-definite. -/
theorem rest_psd (c : ℝ) :
    ElemPsd (Tet.nhHessian ((dampedTet c).ref.at ((dampedTet c).pick corner))) := by
  intro y
  have h := form_symmMul (Tet.nhHessian ((dampedTet c).ref.at ((dampedTet c).pick corner)))
    (fun n => ⟨y (n, 0), y (n, 1), y (n, 2)⟩)
  have e : (fun p : Dof => (V3.get (⟨y (p.1, 0), y (p.1, 1), y (p.1, 2)⟩ : V3 ℝ)) p.2) = y := by
    funext p
    obtain ⟨n, r⟩ := p
    fin_cases r <;> rfl
  rw [e] at h
  rw [← h, corner_scaled, scaled_work c 1 one_pos]
  generalize Tet.shape _ = D
  simp only [one_pow, Real.log_one, mul_zero, sub_zero, div_one, V3.dot]
  nlinarith [sq_nonneg (D.r0.y + D.r1.x), sq_nonneg (D.r0.z + D.r2.x), sq_nonneg (D.r1.z + D.r2.y),
    sq_nonneg D.r0.x, sq_nonneg D.r1.y, sq_nonneg D.r2.z, sq_nonneg (D.r0.x + D.r1.y + D.r2.z)]

theorem damped_prev (c : ℝ) : (dampedTet c).prev corner back 1 =
    (dampedTet c).ref.at fun n => Real.exp 1 • corner n.val := by
  unfold TetElem.prev
  congr 1
  funext n
  unfold TetElem.pick back stretched
  ext <;> simp [dampedTet]

theorem elem_work (eig : Mat → Eigen) (M : TetModel) (e : TetElem) (x v : ℕ → V3 ℝ)
    (dqdv scale : ℝ) (d : Fin 4 → V3 ℝ) :
    ∑ n, V3.dot (symmMul (elemHessian true eig M e x v dqdv scale) d n) (d n) =
      scale * (∑ n, V3.dot (symmMul (project eig (M.hessian (e.ref.at (e.pick x)))) d n) (d n)
        + e.damping * ∑ n, V3.dot (symmMul (M.hessian (e.prev x v dqdv)) d n) (d n)) := by
  have e1 : elemHessian true eig M e x v dqdv scale = fun n k row col =>
      (fun n k row col => project eig (M.hessian (e.ref.at (e.pick x))) n k row col +
        (fun n k row col => M.hessian (e.prev x v dqdv) n k row col * e.damping) n k row col)
        n k row col * scale := rfl
  rw [Finset.mul_sum, ← Finset.sum_add_distrib, Finset.mul_sum]
  refine Finset.sum_congr rfl fun n _ => ?_
  rw [e1, symmMul_mul, symmMul_add, symmMul_mul]
  simp only [V3.dot, V3.smul_x, V3.smul_y, V3.smul_z, V3.add_x, V3.add_y, V3.add_z]
  ring

theorem damped_form (eig : Mat → Eigen) (he : Decomposes eig) (c : ℝ) :
    jacobianForm true eig (dampedProblem c) corner back 1 1 4 push =
      2 + c * ((1 - 19 / Real.exp 1 ^ 2) / 6) + 1 / 24 := by
  have hst : ¬ (dampedProblem c).isStatic := by
    unfold Problem.isStatic dampedProblem
    norm_num
  rw [jacobianForm_eq true eig _ 4 (damped_within c) (damped_distinct c), if_neg hst]
  have h1 : solidWork true eig .snh (dampedProblem c).snh corner back 1 (1 * 1) push = 0 := rfl
  have h2 : ∑ i ∈ Finset.range (3 * 4), coord push i * symMul (((dampedProblem c).shell.indices (0, 0)).zip
      ((dampedProblem c).shell.values corner (1 * 1))) (coord push) i = 0 :=
    Finset.sum_eq_zero fun i _ => by simp [dampedProblem, Shell.indices, Shell.values, symMul]
  have h3 : ∑ i ∈ Finset.range 4, (dampedProblem c).mass i * V3.dot (push i) (push i) = 1 / 24 := by
    rw [Finset.sum_eq_single_of_mem 0 (by simp), damped_mass c 0 (by norm_num)]
    · simp [push, V3.dot]
    · intro i _ hi
      simp [push, hi, V3.dot]
  rw [h1, h2, h3]
  have h4 : solidWork true eig .nh (dampedProblem c).nh corner back 1 (1 * 1) push =
      ∑ n, V3.dot (symmMul (elemHessian true eig .nh (dampedTet c) corner back 1 (1 * 1))
        (fun k => push k.val) n) (push n.val) := by
    simp only [solidWork, dampedProblem, List.map_cons, List.map_nil, List.sum_cons, List.sum_nil,
      add_zero]
    rfl
  rw [h4, elem_work eig .nh (dampedTet c) corner back 1 (1 * 1) fun k => push k.val, damped_prev]
  have hk : symmMul (project eig (TetModel.nh.hessian
      ((dampedTet c).ref.at ((dampedTet c).pick corner)))) =
      symmMul (Tet.nhHessian ((dampedTet c).ref.at ((dampedTet c).pick corner))) := by
    have : ∀ n k r c', Assembly.symm (project eig (TetModel.nh.hessian
        ((dampedTet c).ref.at ((dampedTet c).pick corner)))) n k r c' =
        Assembly.symm (Tet.nhHessian ((dampedTet c).ref.at ((dampedTet c).pick corner))) n k r c' := by
      intro n k r c'
      have h := matrixOf_project eig (TetModel.nh.hessian
        ((dampedTet c).ref.at ((dampedTet c).pick corner)))
      have h' := congrFun (congrFun h (n, r)) (k, c')
      exact h'.trans (project_keeps eig he _ (rest_psd c) n k r c')
    funext d n
    unfold symmMul
    simp only [this]
  rw [hk, corner_scaled, scaled_work c 1 one_pos]
  have hw : ∑ n, V3.dot (symmMul (TetModel.nh.hessian ((dampedTet c).ref.at fun n => Real.exp 1 • corner n.val))
      (fun k => push k.val) n) (push n.val) = (1 - 19 / Real.exp 1 ^ 2) / 6 := by
    refine (scaled_work c (Real.exp 1) (Real.exp_pos 1) fun k => push k.val).trans ?_
    have hl : Real.log (Real.exp 1 ^ 3) = 3 := by
      rw [← Real.exp_nat_mul, Real.log_exp]; norm_num
    simp only [hl]
    simp [Tet.shape, push, V3.dot]
    ring
  rw [hw]
  have hd : (dampedTet c).damping = c := rfl
  rw [hd]
  simp [Tet.shape, push, V3.dot]
  norm_num

/-- C92 (violated). Damping is not projected: after a step that brings a stretched tetrahedron back to
its shape at rest, the Jacobian is indefinite although element Hessians are projected, and for some
velocities of the previous step the objective increases along the Newton direction. -/
theorem damping_violated :
    ∃ (P : Problem) (x0 v : ℕ → V3 ℝ), P.Within 4 ∧ P.Distinct ∧ 0 < P.timeStep ∧
      P.shell.tris = [] ∧ P.shell.dihedrals = [] ∧ (∀ i, i < 4 → 0 < P.mass i) ∧
      P.Smooth (place x0 (P.dt * 1) v) ∧
      ∀ eig, Decomposes eig → ∃ v0 r f p : ℕ → V3 ℝ,
        P.residual 1 0 (fun _ => 0) v0 (place x0 (P.dt * 1) v) v = some (r, f) ∧
        NewtonDirection true eig P (place x0 (P.dt * 1) v) v (P.dt * 1) (P.dt * 1) 12 r p ∧
        jacobianForm true eig P (place x0 (P.dt * 1) v) v (P.dt * 1) (P.dt * 1) 4 p < 0 ∧
        ∃ (W : ℝ → ℝ) (slope : ℝ), 0 < slope ∧ HasDerivAt W slope 0 ∧
          ∀ᶠ s in nhds (0 : ℝ), P.objective 4 1 0 (fun _ => 0) v0
            (place x0 (P.dt * 1) fun i => v i + s • p i) (fun i => v i + s • p i) = some (W s) := by
  have hm : ∀ i, i < 4 → 0 < (dampedProblem 100).mass i := by
    intro i hi
    rw [damped_mass 100 i hi]
    norm_num
  have hT : 0 < (dampedProblem 100).timeStep := by
    change (0 : ℝ) < 1
    norm_num
  have hs : (dampedProblem 100).Smooth (place stretched ((dampedProblem 100).dt * 1) back) := by
    rw [damped_place]
    exact damped_smooth 100
  refine ⟨dampedProblem 100, stretched, back, damped_within 100, damped_distinct 100, hT,
    rfl, rfl, hm, hs, fun eig he => ?_⟩
  have hneg : jacobianForm true eig (dampedProblem 100)
      (place stretched ((dampedProblem 100).dt * 1) back) back ((dampedProblem 100).dt * 1)
      ((dampedProblem 100).dt * 1) 4 push < 0 := by
    rw [damped_place, damped_dt, mul_one, damped_form eig he]
    have h1 : Real.exp 1 ^ 2 < 7.4 := by
      have := Real.exp_one_lt_d9
      have h0 := Real.exp_pos 1
      nlinarith
    have h2 : (2.5 : ℝ) < 19 / Real.exp 1 ^ 2 := by
      rw [lt_div_iff₀ (by positivity)]
      linarith
    linarith
  obtain ⟨v0, r, f, h1, h2, h3⟩ := ascent eig (dampedProblem 100) 4 (damped_within 100)
    hT 1 0 one_pos (fun _ => 0) stretched back push hs hm
    (fun i hi => by simp [push, show i ≠ 0 by omega]) hneg
  exact ⟨v0, r, f, push, h1, h2, hneg, h3⟩

/-! ## The diagonal -/

theorem form_push (b : Bool) (eig : Mat → Eigen) (P : Problem) (x v : ℕ → V3 ℝ) (dqdv fmul : ℝ)
    (N : ℕ) (hN : 0 < N) :
    jacobianForm b eig P x v dqdv fmul N push = jacobian b eig P x v dqdv fmul 0 0 := by
  have h0 : coord push 0 = 1 := rfl
  have h1 : ∀ i, i ≠ 0 → coord push i = 0 := by
    intro i hi
    unfold coord push
    split_ifs with h
    · have h3 : i = 1 ∨ i = 2 := by omega
      rcases h3 with rfl | rfl <;> rfl
    · exact get_zero _
  unfold jacobianForm
  rw [Finset.sum_eq_single_of_mem 0 (by simp; omega), Finset.sum_eq_single_of_mem 0 (by simp; omega),
    h0]
  · ring
  · intro j _ hj
    rw [h1 j hj, mul_zero]
  · intro i _ hi
    exact Finset.sum_eq_zero fun j _ => by rw [h1 i hi]; ring

/-- C92 (violated). The diagonal of the Jacobian that preconditioners use is not that of the projected
Jacobian: here an entry is negative, although that of the Jacobian is positive. -/
theorem diagonal_violated :
    ∃ (P : Problem) (x v : ℕ → V3 ℝ) (D : ℕ → ℝ), P.Within 4 ∧ P.Distinct ∧ P.Smooth x ∧
      P.jacobianDiagonal x v 1 1 4 (fun _ => 0) = some D ∧ D 0 < 0 ∧
      ∀ eig, 0 < jacobian true eig P x v 1 1 0 0 := by
  obtain ⟨D, h1, h2⟩ := jacobian_diagonal (dampedProblem 0) 4 (damped_within 0) (damped_distinct 0)
    stretched (fun _ => 0) 1 1 fun _ => 0
  have hst : ¬ (dampedProblem 0).isStatic := by
    unfold Problem.isStatic dampedProblem
    norm_num
  have h3 : ∑ i ∈ Finset.range 4, (dampedProblem 0).mass i * V3.dot (push i) (push i) = 1 / 24 := by
    rw [Finset.sum_eq_single_of_mem 0 (by simp), damped_mass 0 0 (by norm_num)]
    · simp [push, V3.dot]
    · intro i _ hi
      simp [push, hi, V3.dot]
  refine ⟨dampedProblem 0, stretched, fun _ => 0, D, damped_within 0, damped_distinct 0,
    ⟨?_, by simp [dampedProblem], by simp [dampedProblem, Shell.Smooth]⟩, h1, ?_, fun eig => ?_⟩
  · intro e he
    simp only [dampedProblem, List.mem_singleton] at he
    subst he
    simp [Ready, Tet.Upright, dampedTet, TetElem.pick, stretched, corner, Tet.shape, M3.det, V3.dot,
      V3.cross, Real.exp_pos]
  · rw [h2 0 (by norm_num), zero_add, ← unprojected (fun _ => ⟨0, 0⟩)]
    change jacobian false (fun _ => ⟨0, 0⟩) (dampedProblem 0) stretched (fun _ => 0) 1 1 0 0 < 0
    rw [← form_push _ _ _ _ _ _ _ 4 (by norm_num),
      jacobianForm_eq false _ _ 4 (damped_within 0) (damped_distinct 0), if_neg hst, h3]
    have e1 : solidWork false (fun _ => ⟨0, 0⟩) .snh (dampedProblem 0).snh stretched (fun _ => 0) 1
      (1 * 1) push = 0 := rfl
    have e2 : ∑ i ∈ Finset.range (3 * 4), coord push i *
        symMul (((dampedProblem 0).shell.indices (0, 0)).zip
          ((dampedProblem 0).shell.values stretched (1 * 1))) (coord push) i = 0 :=
      Finset.sum_eq_zero fun i _ => by simp [dampedProblem, Shell.indices, Shell.values, symMul]
    have e3 : solidWork false (fun _ => ⟨0, 0⟩) .nh (dampedProblem 0).nh stretched (fun _ => 0) 1
        (1 * 1) push = (1 - 19 / Real.exp 1 ^ 2) / 6 := by
      have e4 : solidWork false (fun _ => ⟨0, 0⟩) .nh (dampedProblem 0).nh stretched (fun _ => 0) 1
          (1 * 1) push = ∑ n, V3.dot (symmMul (Tet.nhHessian
          ((dampedTet 0).ref.at fun n => Real.exp 1 • corner n.val)) (fun k => push k.val) n)
          (push n.val) := by
        have e5 : elemHessian false (fun _ => ⟨0, 0⟩) .nh (dampedTet 0) stretched (fun _ => 0) 1
            (1 * 1) = Tet.nhHessian ((dampedTet 0).ref.at fun n => Real.exp 1 • corner n.val) := by
          funext n k r c
          have : (dampedTet 0).damping = 0 := rfl
          simp only [elemHessian, this, mul_zero, add_zero, mul_one]
          rfl
        simp only [solidWork, dampedProblem, List.map_cons, List.map_nil, List.sum_cons,
          List.sum_nil, add_zero, e5]
        rfl
      rw [e4]
      refine (scaled_work 0 (Real.exp 1) (Real.exp_pos 1) fun k => push k.val).trans ?_
      have hl : Real.log (Real.exp 1 ^ 3) = 3 := by
        rw [← Real.exp_nat_mul, Real.log_exp]; norm_num
      simp only [hl]
      simp [Tet.shape, push, V3.dot]
      ring
    rw [e1, e2, e3]
    have h1 : Real.exp 1 ^ 2 < 7.4 := by
      have := Real.exp_one_lt_d9
      have h0 := Real.exp_pos 1
      nlinarith
    have h2 : (2.5 : ℝ) < 19 / Real.exp 1 ^ 2 := by
      rw [lt_div_iff₀ (by positivity)]
      linarith
    linarith
  · rw [← form_push _ _ _ _ _ _ _ 4 (by norm_num)]
    have h := jacobian_psd_partial eig (dampedProblem 0) 4 (damped_within 0) (damped_distinct 0)
      stretched (fun _ => 0) 1 1 (by norm_num)
      (fun e he => by
        simp only [dampedProblem, List.mem_singleton] at he
        subst he
        exact Or.inl rfl)
      (fun e he => by simp [dampedProblem] at he) (shellPsd_of_empty _ rfl rfl _ _ _) push
    rw [if_neg hst, h3] at h
    linarith

/-! ## A compressed shell -/

/-- A triangle with the unit reference shape. -/
def flatTri : TriElem :=
  ⟨fun n => n.val, ⟨⟨⟨1, 0⟩, ⟨0, 1⟩⟩, 1 / 2, 1, 1⟩, 0⟩

/-- A problem with this triangle. -/
def flatProblem : Problem where
  nh := []
  nhDensity := []
  snh := []
  snhDensity := []
  shell := ⟨[flatTri], [], fun _ _ => 0⟩
  shellDensity := [1]
  gravity := 0
  timeStep := 1

/-- Positions of its vertices: half as large as the reference shape. -/
def half (i : ℕ) : V3 ℝ :=
  if i = 0 then ⟨1 / 2, 0, 0⟩ else if i = 1 then ⟨0, 1 / 2, 0⟩ else 0

/-- A move of the first vertex out of the plane. -/
def lift (i : ℕ) : V3 ℝ := if i = 0 then ⟨0, 0, 1⟩ else 0

theorem flat_within : flatProblem.Within 3 := by
  refine ⟨by simp [flatProblem], by simp [flatProblem], ?_⟩
  simp [flatProblem, Shell.Within, flatTri]

theorem flat_distinct : flatProblem.Distinct := by
  refine ⟨by simp [flatProblem], by simp [flatProblem], ?_⟩
  simp [flatProblem, Shell.Distinct, flatTri, Fin.val_injective]

theorem flat_dt : flatProblem.dt = 1 := by
  have : ¬ flatProblem.isStatic := by
    unfold Problem.isStatic flatProblem
    norm_num
  simp only [Problem.dt, if_neg this]
  rfl

theorem flat_smooth : flatProblem.Smooth half := by
  refine ⟨by simp [flatProblem], by simp [flatProblem], ?_⟩
  simp [flatProblem, Shell.Smooth, Tri.Proper, flatTri, TriElem.pick, half, Tri.M22.det, V3.cross,
    V3.ext_iff]

theorem flat_mass (i : ℕ) (hi : i < 3) : flatProblem.mass i = 1 / 6 := by
  unfold Problem.mass vertexMass
  simp only [Problem.nhBodies, Problem.snhBodies, Problem.shellBodies, tetBodies, triBodies,
    flatProblem, flatTri, Body.mass]
  interval_cases i <;> simp [Fin.sum_univ_three] <;> norm_num

theorem flat_entry : Tri.hessian (flatTri.ref.at (flatTri.pick half)) 0 0 2 2 =
    (1 - 4 * (1 - 0.5 * Real.log (1 / 16))) / 2 := by
  have hF : (flatTri.ref.at (flatTri.pick half)).F = ⟨⟨1 / 2, 0, 0⟩, ⟨0, 1 / 2, 0⟩⟩ := by
    ext <;> simp [Tri.Elem.F, Tri.Ref.at, flatTri, TriElem.pick, Tri.shape, half, Tri.M22.mul23]
  have hC : (flatTri.ref.at (flatTri.pick half)).C = ⟨⟨1 / 4, 0⟩, ⟨0, 1 / 4⟩⟩ := by
    unfold Tri.Elem.C
    rw [hF]
    ext <;> simp [Tri.M23.mulT, V3.dot] <;> norm_num
  have hdet : (⟨⟨1 / 4, 0⟩, ⟨0, 1 / 4⟩⟩ : Tri.M22).det = 1 / 16 := by
    simp [Tri.M22.det]; norm_num
  have hn : Tri.unit (V3.cross (⟨1 / 2, 0, 0⟩ : V3 ℝ) ⟨0, 1 / 2, 0⟩) = ⟨0, 0, 1⟩ := by
    have hc : V3.cross (⟨1 / 2, 0, 0⟩ : V3 ℝ) ⟨0, 1 / 2, 0⟩ = ⟨0, 0, 1 / 4⟩ := by
      ext <;> simp [V3.cross]; norm_num
    have hnorm : (⟨0, 0, 1 / 4⟩ : V3 ℝ).norm = 1 / 4 := by
      rw [V3.norm, show V3.dot (⟨0, 0, 1 / 4⟩ : V3 ℝ) ⟨0, 0, 1 / 4⟩ = (1 / 4) ^ 2 by
        simp [V3.dot]; norm_num, Real.sqrt_sq (by norm_num)]
    rw [Tri.unit, hc, hnorm]
    ext <;> simp
  simp only [Tri.hessian, hC, hdet, hF, hn]
  rw [if_pos (by norm_num)]
  simp [Tri.fill, Tri.dP, Tri.dFrow, flatTri, Tri.Ref.at, Tri.M22.transpose, Tri.M22.mul23,
    Tri.M23.row, Tri.M23.col, V3.get, Tri.outer22, Tri.outer23, Tri.M22.inv, Tri.M22.det,
    Tri.M22.mulVec, V2.dot, Tri.axis, Tri.M22.trace]
  ring

theorem flat_form (eig : Mat → Eigen) :
    jacobianForm true eig flatProblem half (fun _ => 0) 1 1 3 lift =
      (1 - 4 * (1 - 0.5 * Real.log (1 / 16))) / 2 + 1 / 6 := by
  have hst : ¬ flatProblem.isStatic := by
    unfold Problem.isStatic flatProblem
    norm_num
  rw [jacobianForm_eq true eig _ 3 flat_within flat_distinct, if_neg hst]
  have h1 : solidWork true eig .snh flatProblem.snh half (fun _ => 0) 1 (1 * 1) lift = 0 := rfl
  have h2 : solidWork true eig .nh flatProblem.nh half (fun _ => 0) 1 (1 * 1) lift = 0 := rfl
  have h3 : ∑ i ∈ Finset.range 3, flatProblem.mass i * V3.dot (lift i) (lift i) = 1 / 6 := by
    rw [Finset.sum_eq_single_of_mem 0 (by simp), flat_mass 0 (by norm_num)]
    · simp [lift, V3.dot]
    · intro i _ hi
      simp [lift, hi, V3.dot]
  have h4 := mesh_work (T := pattern 3) pattern_three flatProblem.shell.tris (fun e : TriElem => e.cell)
    flat_distinct.shell.1 3 flat_within.shell.1 (fun e => e.hessian half (1 * 1)) lift
  have e1 : flatProblem.shell.indices (0, 0) =
      flatProblem.shell.tris.flatMap fun e => (pattern 3).map (globalIndex e.cell (0, 0)) := by
    simp [Shell.indices, flatProblem]
  have e2 : flatProblem.shell.values half (1 * 1) =
      flatProblem.shell.tris.flatMap fun e => (pattern 3).map (entryValue (e.hessian half (1 * 1))) := by
    simp [Shell.values, flatProblem]
  rw [h1, h2, h3, e1, e2, h4]
  have e3 : flatProblem.shell.tris = [flatTri] := rfl
  have e4 : flatTri.hessian half (1 * 1) 0 0 2 2 = (1 - 4 * (1 - 0.5 * Real.log (1 / 16))) / 2 := by
    have hd : flatTri.dampBlock 0 0 = 0 := by
      simp [TriElem.dampBlock, TriElem.ddF, flatTri]
    simp only [TriElem.hessian, hd, flat_entry]
    simp
  rw [e3]
  simp only [List.map_cons, List.map_nil, List.sum_cons, List.sum_nil, add_zero, zero_add]
  rw [← e4]
  congr 1
  generalize flatTri.hessian half (1 * 1) = h
  simp [Fin.sum_univ_three, symmMul, lift, flatTri, V3.dot, V3.get, Assembly.symm]

/-- C92 (violated). Shells are not projected: for a triangle that is compressed in its plane the
Jacobian is indefinite although element Hessians are projected, and for some velocities of the previous
step the objective increases along the Newton direction. -/
theorem shell_violated :
    ∃ (P : Problem) (x0 v : ℕ → V3 ℝ), P.Within 3 ∧ P.Distinct ∧ 0 < P.timeStep ∧
      (∀ e ∈ P.shell.tris, e.damping = 0) ∧ (∀ i, i < 3 → 0 < P.mass i) ∧
      P.Smooth (place x0 (P.dt * 1) v) ∧
      ∀ eig, Decomposes eig → ∃ v0 r f p : ℕ → V3 ℝ,
        P.residual 1 0 (fun _ => 0) v0 (place x0 (P.dt * 1) v) v = some (r, f) ∧
        NewtonDirection true eig P (place x0 (P.dt * 1) v) v (P.dt * 1) (P.dt * 1) 9 r p ∧
        jacobianForm true eig P (place x0 (P.dt * 1) v) v (P.dt * 1) (P.dt * 1) 3 p < 0 ∧
        ∃ (W : ℝ → ℝ) (slope : ℝ), 0 < slope ∧ HasDerivAt W slope 0 ∧
          ∀ᶠ s in nhds (0 : ℝ), P.objective 3 1 0 (fun _ => 0) v0
            (place x0 (P.dt * 1) fun i => v i + s • p i) (fun i => v i + s • p i) = some (W s) := by
  have hm : ∀ i, i < 3 → 0 < flatProblem.mass i := by
    intro i hi
    rw [flat_mass i hi]
    norm_num
  have hT : 0 < flatProblem.timeStep := by
    change (0 : ℝ) < 1
    norm_num
  have hpl : place half (flatProblem.dt * 1) (fun _ => 0) = half := by
    funext i
    unfold place
    ext <;> simp
  have hs : flatProblem.Smooth (place half (flatProblem.dt * 1) fun _ => 0) := by
    rw [hpl]
    exact flat_smooth
  refine ⟨flatProblem, half, fun _ => 0, flat_within, flat_distinct, hT, ?_, hm, hs,
    fun eig _ => ?_⟩
  · intro e he
    simp only [flatProblem, List.mem_singleton] at he
    subst he
    rfl
  have hneg : jacobianForm true eig flatProblem
      (place half (flatProblem.dt * 1) fun _ => 0) (fun _ => 0) (flatProblem.dt * 1)
      (flatProblem.dt * 1) 3 lift < 0 := by
    rw [hpl, flat_dt, mul_one, flat_form]
    have : Real.log (1 / 16) ≤ 0 := Real.log_nonpos (by norm_num) (by norm_num)
    linarith
  obtain ⟨v0, r, f, h1, h2, h3⟩ := ascent eig flatProblem 3 flat_within hT 1 0 one_pos
    (fun _ => 0) half (fun _ => 0) lift hs hm
    (fun i hi => by simp [lift, show i ≠ 0 by omega]) hneg
  exact ⟨v0, r, f, lift, h1, h2, hneg, h3⟩

/-! ## A case of the positive result -/

/-- The undamped tetrahedron meets the assumptions of `descent_partial`. -/
example : ∃ (P : Problem) (x0 v0 v r f p : ℕ → V3 ℝ) (eig : Mat → Eigen), P.Within 4 ∧ P.Distinct ∧
    0 < P.timeStep ∧ P.Smooth (place x0 (P.dt * 1) v) ∧
    P.residual 1 0 (fun _ => 0) v0 (place x0 (P.dt * 1) v) v = some (r, f) ∧
    (∀ i, 3 * i < 12 → 0 < P.mass i) ∧
    (∀ e ∈ P.nh, DampingPsd .nh e (place x0 (P.dt * 1) v) v (P.dt * 1)) ∧
    (∀ e ∈ P.snh, DampingPsd .snh e (place x0 (P.dt * 1) v) v (P.dt * 1)) ∧
    ShellPsd P (place x0 (P.dt * 1) v) (P.dt * 1 * (P.dt * 1)) 4 ∧ Decomposes eig ∧
    NewtonDirection true eig P (place x0 (P.dt * 1) v) v (P.dt * 1) (P.dt * 1) 12 r p := by
  obtain ⟨eig, he⟩ := exists_decomposes
  have hT : 0 < (dampedProblem 0).timeStep := by change (0 : ℝ) < 1; norm_num
  have hs : (dampedProblem 0).Smooth (place stretched ((dampedProblem 0).dt * 1) back) := by
    rw [damped_place]; exact damped_smooth 0
  obtain ⟨_, r, f, -, hr, -⟩ := objective_derivative (dampedProblem 0) 4 (damped_within 0) hT.le 1 0
    one_pos (fun _ => 0) stretched stretched (fun _ => back) (fun _ => 0) 0
    (fun i => HasD.const (back i)) hs
  have hm : ∀ i, 3 * i < 12 → 0 < (dampedProblem 0).mass i :=
    fun i hi => by rw [damped_mass 0 i (by omega)]; norm_num
  have h1 : ∀ e ∈ (dampedProblem 0).nh, DampingPsd .nh e
      (place stretched ((dampedProblem 0).dt * 1) back) back ((dampedProblem 0).dt * 1) :=
    fun e he => by
      simp only [dampedProblem, List.mem_singleton] at he
      subst he
      exact Or.inl rfl
  have h2 : ∀ e ∈ (dampedProblem 0).snh, DampingPsd .snh e
      (place stretched ((dampedProblem 0).dt * 1) back) back ((dampedProblem 0).dt * 1) :=
    fun e he => by simp [dampedProblem] at he
  obtain ⟨p, hp, -⟩ := newton_solvable_partial eig (dampedProblem 0) 4 (damped_within 0)
    (damped_distinct 0) hT _ _ _ _ (mul_self_nonneg _) 12 (by norm_num) hm h1 h2
    (shellPsd_of_empty _ rfl rfl _ _ _) r
  exact ⟨dampedProblem 0, stretched, stretched, back, r, f, p, eig, damped_within 0,
    damped_distinct 0, hT, hs, hr, hm, h1, h2, shellPsd_of_empty _ rfl rfl _ _ _, he, hp⟩

end Softy.Projection
