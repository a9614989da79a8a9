import Verif.Props.TetNhHessian

/-!
# C35: the stable neo-Hookean tetrahedron
-/

noncomputable section

namespace Softy.Tet

open V3 M3

/-! ## Lemmas -/

/-- The gradient as a formula. -/
def snhMatrix (e : Elem) : M3 ℝ :=
  e.volume • (e.DXinv.transpose * ((e.mu * (e.F.normSq / (e.F.normSq + 1))) • e.F
    + (e.lambda * (e.F.det - (1 + 0.75 * e.mu / e.lambda))) • e.F.cof))

/-- The energy as a formula. -/
def snhValue (e : Elem) : ℝ :=
  e.volume * 0.5 * (e.mu * (e.F.normSq - 3 - Real.log (e.F.normSq + 1))
    + e.lambda * (e.F.det - 1 - 0.75 * e.mu / e.lambda) * (e.F.det - 1 - 0.75 * e.mu / e.lambda))

theorem snhEnergy_eq {e : Elem} (h : e.lambda ≠ 0) : snhEnergy e = some (snhValue e) := by
  simp only [snhEnergy, h, if_false, snhValue]

theorem snhGradient_eq {e : Elem} (h : e.lambda ≠ 0) :
    snhGradient e = some (spread (snhMatrix e)) := by
  simp only [snhGradient, h, if_false, snhMatrix]

theorem normSq_nonneg (a : M3 ℝ) : 0 ≤ a.normSq :=
  add_nonneg (add_nonneg (dot_self_nonneg _) (dot_self_nonneg _)) (dot_self_nonneg _)

theorem hasDerivAt_snhValue (r : Ref) (x : ℝ → Verts) (d : Verts) (t : ℝ) (hx : Moves x d t) :
    HasDerivAt (fun s => snhValue (r.at (x s))) (frob (Tet.shape d) (snhMatrix (r.at (x t)))) t := by
  have hF := hx.F r
  have hJ := hF.det
  have hI := hF.normSq
  have hp : (r.at (x t)).F.normSq + 1 ≠ 0 := by linarith [normSq_nonneg (r.at (x t)).F]
  have hL := (hI.add_const 1).log hp
  have hJm := (hJ.sub_const 1).sub_const (0.75 * r.mu / r.lambda)
  have hv := ((((hI.sub_const 3).fun_sub hL).const_mul r.mu).fun_add
    ((hJm.const_mul r.lambda).fun_mul hJm)).const_mul (r.volume * 0.5)
  refine hv.congr_deriv ?_
  rw [snhMatrix, frob_smul_right]
  have e1 : (r.at (x t)).DXinv = r.DXinv := rfl
  rw [e1, ← frob_mul, frob_add_right, frob_smul_right, frob_smul_right]
  have e2 : r.DXinv * Tet.shape d = (r.at (x t)).dF d := rfl
  rw [e2, frob_comm ((r.at (x t)).dF d), frob_comm ((r.at (x t)).dF d)]
  simp only [Ref.at] at hp ⊢
  generalize frob (Elem.F _) _ = p
  generalize frob (M3.cof (K := ℝ) _) _ = q
  generalize M3.det (K := ℝ) _ = J
  generalize 0.75 * r.mu / r.lambda = c
  field_simp
  ring

/-! ## Gradient -/

/-- C35. The gradient is the derivative of the energy everywhere, also for inverted tetrahedra: for
every differentiable motion of the vertices the energy changes at the rate at which the gradient
does work on the velocities. -/
theorem snh_gradient (r : Ref) (x : ℝ → Verts) (d : Verts) (t : ℝ) (hx : Moves x d t)
    (hl : 0 < r.lambda) :
    ∃ (W : ℝ → ℝ) (g : Verts), (∀ s, snhEnergy (r.at (x s)) = some (W s)) ∧
      snhGradient (r.at (x t)) = some g ∧ HasDerivAt W (work g d) t := by
  refine ⟨fun s => snhValue (r.at (x s)), spread (snhMatrix (r.at (x t))), ?_, ?_, ?_⟩
  · exact fun s => snhEnergy_eq hl.ne'
  · exact snhGradient_eq hl.ne'
  · rw [work_spread]
    exact hasDerivAt_snhValue r x d t hx

/-- A tetrahedron passing through an inverted shape. -/
example : ∃ (r : Ref) (x : ℝ → Verts) (d : Verts), 0 < r.lambda ∧ Moves x d 0 ∧
    ¬ Upright r (x 0) ∧ d ≠ 0 := by
  refine ⟨⟨diag 1, 1, 1, 1⟩, fun s => ![⟨-1, 0, 0⟩ + s • ⟨1, 0, 0⟩, ⟨0, 1, 0⟩, ⟨0, 0, 1⟩, ⟨0, 0, 0⟩],
    ![⟨1, 0, 0⟩, 0, 0, 0], one_pos, ?_, ?_, ?_⟩
  · intro i
    fin_cases i
    · exact HasD.line _ _
    · exact HasD.const _
    · exact HasD.const _
    · exact HasD.const _
  · simp [Upright, Tet.shape, M3.det, V3.dot, V3.cross, diag]
  · intro h
    have := congrArg V3.x (congrFun h 0)
    simp at this

/-! ## Balance of forces and torques -/

theorem snhGradient_some {r : Ref} {x g : Verts} (h : snhGradient (r.at x) = some g) :
    r.lambda ≠ 0 ∧ g = spread (snhMatrix (r.at x)) := by
  by_cases hl : r.lambda = 0
  · have : (r.at x).lambda = 0 := hl
    simp [snhGradient, this] at h
  · have h2 : (r.at x).lambda ≠ 0 := hl
    rw [snhGradient_eq h2] at h
    exact ⟨hl, (Option.some.inj h).symm⟩

/-- C35. The elastic forces of an element sum to zero. -/
theorem snh_force_balance (r : Ref) (x g : Verts) (h : snhGradient (r.at x) = some g) :
    ∑ i, g i = 0 := by
  rw [(snhGradient_some h).2]
  exact sum_spread _

/-- C35. The elastic forces of an element exert no torque. -/
theorem snh_torque_balance (r : Ref) (x g : Verts) (h : snhGradient (r.at x) = some g) :
    ∑ i, V3.cross (x i) (g i) = 0 := by
  rw [(snhGradient_some h).2]
  refine torque_spread _ _ ?_
  set e := r.at x
  have hF : e.F.transpose = (Tet.shape x).transpose * e.DXinv.transpose := by
    simp only [Elem.F, mul_def, transpose_mul]; rfl
  have key : (Tet.shape x).transpose * snhMatrix e =
      (e.volume * (e.mu * (e.F.normSq / (e.F.normSq + 1)))) • (e.F.transpose * e.F)
        + (e.volume * (e.lambda * (e.F.det - (1 + 0.75 * e.mu / e.lambda))) * e.F.det) • diag 1 := by
    rw [snhMatrix, mul_smul', ← mul_assoc', ← hF, mul_add', mul_smul', mul_smul', dxt_cof]
    generalize e.F.transpose * e.F = Q
    generalize e.F.det = J
    ext <;> simp <;> ring
  rw [key, transpose_add, transpose_smul, transpose_smul, ← gram_symm]
  congr 2

/-! ## Rigid motions -/

/-- C35. Rotating and translating a tetrahedron changes neither its energy nor, except for the same
rotation, its forces. -/
theorem snh_rigid (r : Ref) (R : M3 ℝ) (b : V3 ℝ) (x : Verts) (hR : IsRotation R) :
    snhEnergy (r.at (moved R b x)) = snhEnergy (r.at x) ∧
      snhGradient (r.at (moved R b x)) = (snhGradient (r.at x)).map fun g i => mulVec R (g i) := by
  have hdet : (r.at (moved R b x)).F.det = (r.at x).F.det := by
    rw [F_moved, det_mul, det_transpose, hR.2, mul_one]
  have hn : (r.at (moved R b x)).F.normSq = (r.at x).F.normSq := by
    rw [F_moved, normSq_mul_orth _ _ hR.1]
  constructor
  · simp only [snhEnergy, hdet, hn]
    rfl
  · by_cases hl : r.lambda = 0
    · have h1 : (r.at x).lambda = 0 := hl
      have h2 : (r.at (moved R b x)).lambda = 0 := hl
      simp [snhGradient, h1, h2]
    · have h1 : (r.at x).lambda ≠ 0 := hl
      have h2 : (r.at (moved R b x)).lambda ≠ 0 := hl
      rw [snhGradient_eq h1, snhGradient_eq h2, Option.map_some]
      congr 1
      have hc : R.transpose.cof = R.transpose := by
        have h1 := mul_transpose_of_orth hR.1 (by rw [hR.2]; exact one_ne_zero)
        have h2 : R.transpose.cof = R.cof.transpose := by
          ext <;> simp [transpose, cof, V3.cross] <;> ring
        rw [h2, h1, hR.2]
        ext <;> simp [transpose]
      have key : snhMatrix (r.at (moved R b x)) = snhMatrix (r.at x) * R.transpose := by
        simp only [snhMatrix, hdet, hn]
        rw [F_moved, cof_mul, hc]
        simp only [Ref.at]
        generalize r.mu * (_ / _) = c1
        generalize r.lambda * _ = c2
        generalize Elem.F _ = F
        generalize F.cof = C
        ext <;> simp [mul, mulVec, transpose, V3.dot] <;> ring
      rw [key]
      funext i
      fin_cases i
      · ext <;> simp [spread, mul, mulVec, transpose, V3.dot]
      · ext <;> simp [spread, mul, mulVec, transpose, V3.dot]
      · ext <;> simp [spread, mul, mulVec, transpose, V3.dot]
      · ext <;> simp [spread, mul, mulVec, transpose, V3.dot] <;> ring

/-! ## Rest shape -/

/-- C35. In its reference shape a tetrahedron has no forces. -/
theorem snh_rest (r : Ref) (x : Verts) (h : AtRest r x) (hl : 0 < r.lambda) :
    snhGradient (r.at x) = some 0 := by
  have hF : (r.at x).F = diag 1 := h
  have hd : (diag (1 : ℝ)).det = 1 := by simp [det, diag, V3.dot, V3.cross]
  have hn : (diag (1 : ℝ)).normSq = 3 := by simp [normSq, diag, V3.dot]; norm_num
  have hl' : (r.at x).lambda ≠ 0 := hl.ne'
  rw [snhGradient_eq hl']
  congr 1
  have hc : (diag (1 : ℝ)).cof = diag 1 := by ext <;> simp [diag, cof, V3.cross]
  have : snhMatrix (r.at x) = 0 := by
    simp only [snhMatrix, hF, hd, hn, hc]
    have e : (r.at x).lambda * (1 - (1 + 0.75 * (r.at x).mu / (r.at x).lambda)) =
        - ((r.at x).mu * (3 / (3 + 1))) := by
      field_simp
      ring
    rw [e]
    ext <;> simp [mul, mulVec, transpose, V3.dot, diag]
  rw [this]
  funext i
  fin_cases i <;> (ext <;> simp [spread])

/-- C35, failure. With both Lamé parameters zero, which is what a material without stiffness gets,
the energy and the gradient are not numbers, although the other models give zero. -/
theorem snh_zero_stiffness_violated (DXinv : M3 ℝ) (vol : ℝ) (x : Verts) :
    snhEnergy (Ref.at ⟨DXinv, vol, 0, 0⟩ x) = none ∧
      snhGradient (Ref.at ⟨DXinv, vol, 0, 0⟩ x) = none := by
  simp [snhEnergy, snhGradient, Ref.at]

/-! ## Hessian products -/

/-- The rows of the matrix `h_mtx` are the derivative of the cofactors. -/
theorem hBlocks_mul (F D : M3 ℝ) :
    (⟨mulVec (hBlocks F 0 0) D.r0 + mulVec (hBlocks F 0 1) D.r1 + mulVec (hBlocks F 0 2) D.r2,
      mulVec (hBlocks F 1 0) D.r0 + mulVec (hBlocks F 1 1) D.r1 + mulVec (hBlocks F 1 2) D.r2,
      mulVec (hBlocks F 2 0) D.r0 + mulVec (hBlocks F 2 1) D.r1 + mulVec (hBlocks F 2 2) D.r2⟩
        : M3 ℝ) =
    ⟨V3.cross D.r1 F.r2 + V3.cross F.r1 D.r2, V3.cross D.r2 F.r0 + V3.cross F.r2 D.r0,
      V3.cross D.r0 F.r1 + V3.cross F.r0 D.r1⟩ := by
  ext <;> simp [hBlocks, mulVec, skew, V3.dot, V3.cross] <;> ring

theorem hasDM_snhMatrix (r : Ref) (x : ℝ → Verts) (d : Verts) (t : ℝ) (hx : Moves x d t) :
    HasDM (fun s => snhMatrix (r.at (x s))) (snhProduct (r.at (x t)) d) t := by
  have hF := hx.F r
  have hp : (r.at (x t)).F.normSq + 1 ≠ 0 := by linarith [normSq_nonneg (r.at (x t)).F]
  have hI := hF.normSq
  have hq := (hI.fun_div (hI.add_const 1) hp).const_mul r.mu
  have hj := (hF.det.sub_const (1 + 0.75 * r.mu / r.lambda)).const_mul r.lambda
  have hS := (hq.smul' hF).add (hj.smul' hF.cof)
  have hM := (hS.mulLeft r.DXinv.transpose).const_smul r.volume
  refine (hM.congr_of_eventuallyEq (Filter.Eventually.of_forall fun s => rfl)).congr ?_
  simp only [snhProduct]
  rw [hBlocks_mul]
  have e1 : (r.at (x t)).volume = r.volume := rfl
  have e2 : (r.at (x t)).DXinv = r.DXinv := rfl
  have e3 : (r.at (x t)).mu = r.mu := rfl
  have e4 : (r.at (x t)).lambda = r.lambda := rfl
  rw [e1, e2, e3, e4]
  congr 2
  have e5 : ∀ a b : M3 ℝ, V3.dot a.r0 b.r0 + V3.dot a.r1 b.r1 + V3.dot a.r2 b.r2 = frob a b :=
    fun a b => rfl
  rw [e5, e5]
  have hp' : (r.at (x t)).F.normSq + 1 ≠ 0 := hp
  generalize (r.at (x t)).F.normSq = I at hp'
  generalize (r.at (x t)).F.det = J
  generalize (1 + 0.75 * r.mu / r.lambda) = c
  generalize frob (r.at (x t)).F ((r.at (x t)).dF d) = p
  generalize frob (r.at (x t)).F.cof ((r.at (x t)).dF d) = q
  generalize (r.at (x t)).F.cof = C
  generalize (⟨_, _, _⟩ : M3 ℝ) = Z
  generalize (r.at (x t)).F = F
  generalize (r.at (x t)).dF d = D
  ext <;> simp <;> field_simp <;> ring

/-- C35. The product function returns the derivative of the gradient along every differentiable
motion. -/
theorem snh_product (r : Ref) (x : ℝ → Verts) (d : Verts) (t : ℝ) (hx : Moves x d t)
    (hl : 0 < r.lambda) :
    ∃ G : ℝ → Verts, (∀ s, snhGradient (r.at (x s)) = some (G s)) ∧
      ∀ i, HasD (fun s => G s i) (spread (snhProduct (r.at (x t)) d) i) t := by
  refine ⟨fun s => spread (snhMatrix (r.at (x s))), fun s => snhGradient_eq hl.ne', fun i => ?_⟩
  exact HasDM.spread (hasDM_snhMatrix r x d t hx) i

/-! ## Hessian -/

theorem hBlocks_symm (F : M3 ℝ) (r c i j : Fin 3) :
    (hBlocks F r c).at i j = (hBlocks F c r).at j i := by
  fin_cases r <;> fin_cases c <;> fin_cases i <;> fin_cases j <;>
    simp [hBlocks, M3.at, M3.row, V3.get, skew]

theorem deformationHessian_symm (e : Elem) (i j k l : Fin 3) :
    snhDeformationHessian e i j k l = snhDeformationHessian e k l i j := by
  simp only [snhDeformationHessian, hBlocks_symm e.F.transpose i k j l,
    eq_comm (a := i) (b := k), eq_comm (a := j) (b := l)]
  ring

theorem snhEntry_symm (e : Elem) (r c i j : Fin 3) : snhEntry e r c i j = snhEntry e c r j i := by
  simp only [snhEntry, Finset.mul_sum, Finset.sum_mul]
  rw [Finset.sum_comm]
  refine Finset.sum_congr rfl fun k _ => Finset.sum_congr rfl fun l _ => ?_
  rw [deformationHessian_symm e i k j l]
  ring

theorem symm_snhHessian (e : Elem) (n k : Fin 4) (row col : Fin 3) :
    symm (snhHessian e) n k row col = extend (snhEntry e) n k row col := by
  unfold symm snhHessian extend
  have hs := snhEntry_symm e
  by_cases hn : n.val < 3 <;> by_cases hk : k.val < 3
  · simp only [hn, hk, dif_pos]
    split_ifs
    · rfl
    · exact (hs _ _ _ _).symm
  · have hc : ¬ (k < n ∨ k = n ∧ col ≤ row) := by
      rw [not_or]
      constructor
      · intro h1
        rw [Fin.lt_def] at h1
        omega
      · rintro ⟨rfl, _⟩
        exact hk hn
    simp only [hn, hk, hc, dif_pos, dif_neg, if_false, not_false_iff]
    congr 1
    exact Finset.sum_congr rfl fun i _ => hs _ _ _ _
  · have hc : k < n ∨ k = n ∧ col ≤ row := by
      left; rw [Fin.lt_def]; omega
    simp only [hn, hk, hc, dif_pos, dif_neg, if_true, not_false_iff]
  · have hkn : k = n := by ext; omega
    subst hkn
    simp only [hk, dif_neg, not_false_iff, lt_irrefl, false_or, true_and, Finset.sum_neg_distrib,
      neg_neg]
    split_ifs
    · exact Finset.sum_comm
    · exact Finset.sum_congr rfl fun i _ => Finset.sum_congr rfl fun j _ => hs _ _ _ _

/-- The derivative of the stress in the direction `D`. -/
def snhDP (e : Elem) (D : M3 ℝ) : M3 ℝ :=
  (e.mu * e.F.normSq / (e.F.normSq + 1)) • D
    + (frob e.F D * (e.mu * 2 / ((e.F.normSq + 1) * (e.F.normSq + 1)))) • e.F
    + (frob e.F.cof D * e.lambda) • e.F.cof
    + (e.lambda * (e.F.det - 1 - 0.75 * e.mu / e.lambda)) •
      (⟨V3.cross D.r1 e.F.r2 + V3.cross e.F.r1 D.r2,
        V3.cross D.r2 e.F.r0 + V3.cross e.F.r2 D.r0,
        V3.cross D.r0 e.F.r1 + V3.cross e.F.r0 D.r1⟩ : M3 ℝ)

/-- The Hessian with respect to the deformation gradient, applied to a matrix. -/
theorem deformationHessian_mul (e : Elem) (D : M3 ℝ) (k i : Fin 3) :
    ∑ j, ∑ l, snhDeformationHessian e j l i k * D.at l j =
      (snhDP e D).at k i := by
  have hI : e.F.transpose.normSq = e.F.normSq := by
    simp only [normSq, transpose, V3.dot]; ring
  have hC : e.F.transpose.cof = e.F.cof.transpose := by
    ext <;> simp [transpose, cof, V3.cross] <;> ring
  simp only [snhDeformationHessian, hI, det_transpose, hC, snhDP]
  generalize e.mu * e.F.normSq / (e.F.normSq + 1) = c1
  generalize e.mu * 2 / ((e.F.normSq + 1) * (e.F.normSq + 1)) = c2
  generalize e.F.det - 1 - 0.75 * e.mu / e.lambda = c3
  generalize e.F.cof = C
  generalize e.F = F
  simp only [Fin.sum_univ_three]
  fin_cases k <;> fin_cases i <;>
    simp [M3.at, M3.row, V3.get, hBlocks, skew, transpose, frob, V3.dot, V3.cross] <;> ring

/-- The Hessian and the product function agree. -/
theorem snh_symmMul (e : Elem) (d : Verts) (i : Fin 4) :
    symmMul (snhHessian e) d i = spread (snhProduct e d) i := by
  symm
  have hH : ∀ n row, (snhProduct e d).at n row =
      ∑ k, ∑ col, snhEntry e n k row col * ((Tet.shape d).row k).get col := by
    intro n row
    have hD : ∀ k col, (e.dF d).at k col = ∑ l, e.DXinv.at k l * ((Tet.shape d).row l).get col := by
      intro k col
      simp only [Elem.dF, Fin.sum_univ_three]
      fin_cases k <;> fin_cases col <;>
        simp [M3.at, M3.row, V3.get, mul, mulVec, transpose, V3.dot] <;> ring
    have hT : ∀ (a : M3 ℝ) i j, a.transpose.at i j = a.at j i := by
      intro a i j
      fin_cases i <;> fin_cases j <;> simp [M3.at, M3.row, V3.get, transpose]
    have e1 : ∑ k, ∑ col, snhEntry e n k row col * ((Tet.shape d).row k).get col =
        e.volume * ∑ l, e.DXinv.at l n *
          ∑ j, ∑ m, snhDeformationHessian e j m row l * (e.dF d).at m j := by
      simp only [snhEntry, hD, hT, Finset.mul_sum, Finset.sum_mul]
      -- both sides are the same sum over the four indices `k`, `col`, `m`, `l`
      calc ∑ k, ∑ col, ∑ m, ∑ l, e.volume * (snhDeformationHessian e col m row l * e.DXinv.at l n)
            * e.DXinv.at m k * ((Tet.shape d).row k).get col
          = ∑ k, ∑ l, ∑ col, ∑ m, e.volume * (e.DXinv.at l n * (snhDeformationHessian e col m row l *
              (e.DXinv.at m k * ((Tet.shape d).row k).get col))) := by
            refine Finset.sum_congr rfl fun k _ => ?_
            rw [Finset.sum_comm (s := Finset.univ (α := Fin 3)) (t := Finset.univ (α := Fin 3))
              (f := fun l col => ∑ m, e.volume * (e.DXinv.at l n *
                (snhDeformationHessian e col m row l *
                (e.DXinv.at m k * ((Tet.shape d).row k).get col))))]
            refine Finset.sum_congr rfl fun col _ => ?_
            rw [Finset.sum_comm]
            exact Finset.sum_congr rfl fun l _ => Finset.sum_congr rfl fun m _ => by ring
        _ = ∑ l, ∑ col, ∑ m, ∑ k, e.volume * (e.DXinv.at l n * (snhDeformationHessian e col m row l *
              (e.DXinv.at m k * ((Tet.shape d).row k).get col))) := by
            rw [Finset.sum_comm]
            refine Finset.sum_congr rfl fun l _ => ?_
            rw [Finset.sum_comm]
            refine Finset.sum_congr rfl fun col _ => ?_
            rw [Finset.sum_comm]
    rw [e1]
    simp only [deformationHessian_mul]
    have e2 : snhProduct e d = e.volume • (e.DXinv.transpose * snhDP e (e.dF d)) := by
      simp only [snhProduct, snhDP]
      rw [hBlocks_mul]
      congr 2
      have e5 : ∀ a b : M3 ℝ, V3.dot a.r0 b.r0 + V3.dot a.r1 b.r1 + V3.dot a.r2 b.r2 = frob a b :=
        fun a b => rfl
      rw [e5, e5]
      generalize frob e.F (e.dF d) = p
      generalize frob e.F.cof (e.dF d) = q
      generalize e.F.cof = C
      generalize (⟨_, _, _⟩ : M3 ℝ) = Z
      generalize e.F.normSq = I
      generalize e.F.det = J
      generalize e.F = F
      generalize e.dF d = D
      ext <;> simp <;> ring
    rw [e2]
    generalize snhDP e (e.dF d) = P
    simp only [Fin.sum_univ_three]
    fin_cases n <;> fin_cases row <;>
      simp [M3.at, M3.row, V3.get, mul, mulVec, transpose, V3.dot] <;> (left; ring)
  rw [symmMul]
  simp only [symm_snhHessian, extend_mul, ← hH]
  fin_cases i
  all_goals
    ext <;> simp [spread, M3.at, M3.row, V3.get, Fin.sum_univ_three] <;> try ring

/-- C35. The Hessian is the derivative of the gradient: for every differentiable motion, the
gradient of each vertex changes at the rate of the product of the Hessian, of which only the
entries on and below the diagonal are used, with the velocities. -/
theorem snh_hessian (r : Ref) (x : ℝ → Verts) (d : Verts) (t : ℝ) (hx : Moves x d t)
    (hl : 0 < r.lambda) :
    ∃ G : ℝ → Verts, (∀ s, snhGradient (r.at (x s)) = some (G s)) ∧
      ∀ i, HasD (fun s => G s i) (symmMul (snhHessian (r.at (x t))) d i) t := by
  obtain ⟨G, h1, h2⟩ := snh_product r x d t hx hl
  exact ⟨G, h1, fun i => (h2 i).congr (snh_symmMul _ d i).symm⟩

end Softy.Tet
