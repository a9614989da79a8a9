import Verif.Model.ExtScal
import Verif.Props.FieldSurface

/-!
# C69 — mixed-in backgrounds with the interpolating and the global kernel
-/

noncomputable section

namespace Softy.Field

open Softy Softy.Kernel

/-! ## The global kernel -/

/-- The weight of a mixed-in background is zero with the global kernel, as the model of the field
over the reals has it. -/
theorem global_background_weight (eps dist : ℝ) : extBgWeight eps dist = .num 0 := by
  have h1 : (Ext.inf true - Ext.num dist : Ext) = .inf true := rfl
  unfold extBgWeight
  rw [h1]
  unfold globalF
  have h2 : (Ext.inf true * Ext.inf true : Ext) = .inf true := rfl
  have h3 : ((lit eps : Ext) * lit eps) = .num (eps * eps) := rfl
  have h4 : (Ext.inf true + Ext.num (eps * eps) : Ext) = .inf true := rfl
  have h5 : ((lit 1 : Ext) / Ext.inf true) = .num 0 := rfl
  have h6 : (Ext.num 0 * Ext.num 0 : Ext) = .num (0 * 0) := rfl
  simp only [h2, h3, h4, h5, h6, mul_zero]

/-- **C69 (violated)** With the global kernel and a mixed-in background, every Jacobian is NaN:
automatic differentiation multiplies the zero derivative of the constant one by infinity. -/
theorem global_mixed_violated (eps dist disp : ℝ) : extBgWeightGrad eps dist disp = .nan := by
  have h1 : (Ext.inf true - Ext.num dist : Ext) = .inf true := rfl
  have h0 : Ext.infMul true 0 = .nan := if_pos rfl
  have key : globalDf eps (Ext.inf true) = .nan := by
    unfold globalDf globalF
    show Ext.add (Ext.mul (Ext.div (Ext.add (Ext.mul (Ext.num 0) (Ext.inf true)) _) _) _) _ = .nan
    have hm : Ext.mul (Ext.num 0) (Ext.inf true) = .nan := h0
    rw [hm]
    rfl
  unfold extBgWeightGrad
  rw [h1, key]
  have hd : (Ext.nan / Ext.num dist : Ext) = .nan := rfl
  rw [hd]
  rfl

/-! ## The interpolating kernel -/

theorem norm_up (x : ℝ) : (⟨0, 0, x⟩ : V3 ℝ).norm = |x| := by
  simp only [V3.norm, V3.dot, mul_zero, zero_add]
  rw [Real.sqrt_mul_self_eq_abs]

/-- The query point of the witness. -/
theorem up_sub (x : ℝ) : (⟨0, 0, x⟩ : V3 ℝ) - demoSamples.pos 0 = ⟨0, 0, x⟩ := by
  ext <;> simp [demoSamples]

/-- **C69 (violated)** With the interpolating kernel and a mixed-in background, the Jacobian of the
potential is not its derivative: the weights of samples are scaled with the distance to the closest
sample, the weight of the background is not, and the change of the scale is left out. Here one
sample is at the origin, with unit normal upwards, the query point is one above it, and the radius
is two. -/
theorem interpolating_mixed_violated :
    ∃ J, queryJacobianAt ⟨0, 0, 1⟩ [0] demoSamples none (.interpolating 2 2) ⟨.zero, true⟩ = some J ∧
    V3.dot J ⟨0, 0, 1⟩ = -17 / 15 ∧
    HasDerivAt (fun s : ℝ => potentialAt (⟨0, 0, 1⟩ + s • ⟨0, 0, 1⟩) [0] demoSamples
      (.interpolating 2 2) ⟨.zero, true⟩ 0) (-61 / 75) 0 := by
  classical
  have hnn : (demoSamples.nml 0).norm = 2 := by
    show (⟨0, 0, 2⟩ : V3 ℝ).norm = 2
    rw [norm_up]; norm_num
  have hn1 : ((⟨0, 0, 1⟩ : V3 ℝ) - demoSamples.pos 0).norm = 1 := by
    rw [up_sub, norm_up]; norm_num
  refine ⟨queryGradient (bgAt (.interpolating 2 2) ⟨.zero, true⟩ ⟨0, 0, 1⟩ [0] demoSamples 0 none),
    ?_, ?_, ?_⟩
  · unfold queryJacobianAt
    rw [new_eq (c := 0) none none rfl]
    rfl
  · have hw : weight (.interpolating 2 2) 1 ⟨0, 0, 1⟩ demoSamples 0 = 3 / 8 := by
      simp only [weight, Kern.withClosest, Kern.eval, hn1, Kern.f, interpolatingF_eq]
      norm_num
    have hv : (⟨0, 0, 1⟩ : V3 ℝ).norm = 1 := by rw [norm_up]; norm_num
    have hg : weightGrad (.interpolating 2 2) 1 ⟨0, 0, 1⟩ demoSamples 0 = ⟨0, 0, -25 / 16⟩ := by
      simp only [weightGrad, Kern.withClosest, Kern.grad, up_sub, hv, Kern.df]
      rw [interpolatingDf_eq _ _ _ (by norm_num) (by norm_num)]
      norm_num
      ext <;> simp
    have hb : backgroundWeight (.interpolating 2 2) true 1 = 3 / 2 := by
      simp only [backgroundWeight, Kern.radius, Kern.f, interpolatingF_eq]
      norm_num
    have hdf : (Kern.interpolating 2 2).df (2 - 1) = -25 / 4 := by
      simp only [Kern.df]
      rw [interpolatingDf_eq _ _ _ (by norm_num) (by norm_num)]
      norm_num
    have hflat : ¬ (bgAt (.interpolating 2 2) ⟨.zero, true⟩ ⟨0, 0, 1⟩ [0] demoSamples 0 none).flat := by
      rw [flat_iff]
      rintro (⟨r, hr, h⟩ | h)
      · cases hr
        rw [hn1] at h
        norm_num at h
      · cases h
    have hbg : (bgAt (.interpolating 2 2) ⟨.zero, true⟩ ⟨0, 0, 1⟩ [0] demoSamples 0 none).bgWeightGrad
        none = ⟨0, 0, 25 / 4⟩ := by
      simp only [Bg.bgWeightGrad, if_neg hflat]
      simp only [Bg.edgeDf, bgAt, Bg.newImpl, Kern.radius, Option.map_some, Option.getD_some,
        ClosestIndex.get, up_sub, hv, hdf]
      ext <;> simp <;> norm_num
    have hws : (bgAt (.interpolating 2 2) ⟨.zero, true⟩ ⟨0, 0, 1⟩ [0] demoSamples 0 none).weightSumInv
        = 8 / 15 := by
      simp only [Bg.weightSumInv, bgAt, Bg.newImpl, ClosestIndex.get, hn1, List.map_cons, List.map_nil,
        List.sum_cons, List.sum_nil, hw, hb]
      norm_num
    have hfv : (bgAt (.interpolating 2 2) ⟨.zero, true⟩ ⟨0, 0, 1⟩ [0] demoSamples 0 none).fieldValue
        = 0 := rfl
    have hfg : (bgAt (.interpolating 2 2) ⟨.zero, true⟩ ⟨0, 0, 1⟩ [0] demoSamples 0 none).fieldGrad
        = 0 := rfl
    have hqj : (bgAt (.interpolating 2 2) ⟨.zero, true⟩ ⟨0, 0, 1⟩ [0] demoSamples 0 none).queryJacobian
        = 0 := by
      simp only [Bg.queryJacobian, hfv, hfg]
      split_ifs <;> ext <;> simp
    have hnw : neighborWeightGrad (bgAt (.interpolating 2 2) ⟨.zero, true⟩ ⟨0, 0, 1⟩ [0] demoSamples 0
        none) = ⟨0, 0, 5 / 2⟩ := by
      unfold neighborWeightGrad
      rw [hbg, hws]
      simp only [bgAt, Bg.newImpl, ClosestIndex.get, up_sub, hv, List.map_cons, List.map_nil,
        List.sum_cons, List.sum_nil, hg]
      ext <;> simp <;> norm_num
    unfold queryGradient
    rw [hqj, hnw]
    have hview : (bgAt (.interpolating 2 2) ⟨.zero, true⟩ ⟨0, 0, 1⟩ [0] demoSamples 0 none).view = [0] := rfl
    rw [hview]
    simp only [List.map_cons, List.map_nil, List.sum_cons, List.sum_nil, add_zero, sampleQueryJacobian]
    rw [hws]
    simp only [bgAt, Bg.newImpl, ClosestIndex.get, up_sub, hv, hw, hg, hnn]
    simp [demoSamples, V3.dot]
    norm_num
  · have hf : HasDerivAt (fun s : ℝ => (1 - 3 * (1 + s) * (1 + s) / 4 + 2 * (1 + s) * (1 + s) * (1 + s) / 8) *
        (1 - (1 + s) * (1 + s) / 4) * (1 + s) *
        ((1 - 3 * (1 + s) * (1 + s) / 4 + 2 * (1 + s) * (1 + s) * (1 + s) / 8) *
          (1 - (1 + s) * (1 + s) / 4) +
         (1 - 3 * (1 - s) * (1 - s) / 4 + 2 * (1 - s) * (1 - s) * (1 - s) / 8) *
          (4 / ((1 - s) * (1 - s)) - 1))⁻¹) (-61 / 75) 0 := by
      have a1 : HasDerivAt (fun s : ℝ => 1 + s) 1 0 := by
        simpa using (hasDerivAt_id (0 : ℝ)).const_add 1
      have b1 : HasDerivAt (fun s : ℝ => 1 - s) (-1) 0 := by
        simpa using (hasDerivAt_id (0 : ℝ)).const_sub 1
      have c1 := ((((a1.const_mul 3).fun_mul a1).div_const 4).const_sub 1).fun_add
        ((((a1.const_mul 2).fun_mul a1).fun_mul a1).div_const 8)
      have c2 := ((((b1.const_mul 3).fun_mul b1).div_const 4).const_sub 1).fun_add
        ((((b1.const_mul 2).fun_mul b1).fun_mul b1).div_const 8)
      have e1 := ((a1.fun_mul a1).div_const 4).const_sub 1
      have e2 := (((hasDerivAt_const (0 : ℝ) (4 : ℝ)).fun_div (b1.fun_mul b1) (by norm_num))).sub_const 1
      have w1 := c1.fun_mul e1
      have w2 := c2.fun_mul e2
      have s1 := (w1.fun_add w2).fun_inv (by norm_num)
      refine ((w1.fun_mul a1).fun_mul s1).congr_deriv ?_
      norm_num
    refine hf.congr_of_eventuallyEq ?_
    filter_upwards [Ioo_mem_nhds (show (-1 : ℝ) < 0 by norm_num) (show (0 : ℝ) < 1 by norm_num)] with s hs
    have h1 : (1 : ℝ) + s ≠ 0 := by linarith [hs.1]
    have hq : (⟨0, 0, 1⟩ + s • ⟨0, 0, 1⟩ : V3 ℝ) = ⟨0, 0, 1 + s⟩ := by
      ext <;> simp
    have hnorm : ((⟨0, 0, 1 + s⟩ : V3 ℝ) - demoSamples.pos 0).norm = 1 + s := by
      rw [up_sub, norm_up, abs_of_pos (by linarith [hs.1])]
    have hpsi : samplePotential (⟨0, 0, 1 + s⟩ : V3 ℝ) demoSamples 0 = 1 + s := by
      unfold samplePotential
      rw [up_sub, hnn]
      simp [demoSamples, V3.dot]
    have hw : weight (.interpolating 2 2) (1 + s) (⟨0, 0, 1 + s⟩ : V3 ℝ) demoSamples 0 =
        (1 - 3 * (1 + s) * (1 + s) / 4 + 2 * (1 + s) * (1 + s) * (1 + s) / 8) *
          (1 - (1 + s) * (1 + s) / 4) := by
      simp only [weight, Kern.withClosest, Kern.eval, hnorm, Kern.f, interpolatingF_eq]
      rw [if_neg (by linarith [hs.2])]
      field_simp
      ring
    have h2 : (1 : ℝ) - s ≠ 0 := by linarith [hs.2]
    have hwb : backgroundWeight (.interpolating 2 2) true (1 + s) =
        (1 - 3 * (1 - s) * (1 - s) / 4 + 2 * (1 - s) * (1 - s) * (1 - s) / 8) *
          (4 / ((1 - s) * (1 - s)) - 1) := by
      simp only [backgroundWeight, Kern.radius, Kern.f, interpolatingF_eq, if_true]
      rw [if_neg (by linarith [hs.2]), if_neg (by linarith [hs.1])]
      rw [show (2 : ℝ) - (1 + s) = 1 - s by ring]
      field_simp
      ring
    rw [hq, potentialAt_eq (c := 0) rfl]
    simp only [hnorm, List.map_cons, List.map_nil, List.sum_cons, List.sum_nil, add_zero, hw, hwb, hpsi]
    have hz : (Bg.newImpl (⟨0, 0, 1 + s⟩ : V3 ℝ) [0] demoSamples (.loc 0) (.interpolating 2 2)
        ⟨.zero, true⟩ (some 0)).fieldValue = 0 := rfl
    rw [hz]
    ring

end Softy.Field
