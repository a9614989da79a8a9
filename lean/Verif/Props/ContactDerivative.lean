import Verif.Lemmas.ContactDerivative
import Verif.Props.Sliding

/-!
# The derivatives of the contact Jacobian

Property C86.
-/

noncomputable section

namespace Softy.Contact

open Softy Softy.Kernel Softy.Field

/-! ## Specification -/

/-- Specification: the velocity of the query point that the blocks `J` of the contact Jacobian, one for each
sample of the view, make of the velocities `b` of the vertices. A sample moves with the mean velocity of its
corners. -/
def carried (J : List (M3 ℝ)) (view : List ℕ) (tris : ℕ → Tri) (b : ℕ → V3 ℝ) : V3 ℝ :=
  ((view.zip J).map fun p =>
    p.2.mulVec ((1 / 3 : ℝ) • (b (tris p.1).a + b (tris p.1).b + b (tris p.1).c))).sum

/-! ## Proof -/

variable {k : Kern} {P : BgParams} {view : List ℕ} {c : ℕ} {t : ℝ}

/-- The average over the samples. -/
def blend (tr : Bool) (mult m : ℕ → V3 ℝ) (k : Kern) (dist : ℝ) (q : V3 ℝ) (view : List ℕ) (S : Samples)
    (g : V3 ℝ) : ℝ :=
  (view.map fun i => weight k dist q S i * normalKernel (unitNormal S i) g *
    V3.dot ((sampleRotation (unitNormal S i) g tr).mulVec (mult i)) (m i)).sum *
    weightNmlSumInv k dist q view S g

theorem smooth_norm {q : V3 ℝ} {S : Samples} (h : Smooth k P q view S c) {i : ℕ} (hi : i ∈ view) :
    0 < (q - S.pos i).norm := by
  have h0 := norm_pos_of_ne h.apart
  by_cases hc : i = c
  · rw [hc]; exact h0
  · exact h0.trans (h.closest i hi hc)

theorem weight_nonneg' (hk : k.Proper) {q : V3 ℝ} {S : Samples} {i : ℕ} {d : ℝ} (hd : 0 < d)
    (hi : 0 < (q - S.pos i).norm) : 0 ≤ weight k d q S i :=
  kernel_nonneg _ (proper_withClosest hk (Or.inr hd)) _ (V3.norm_nonneg _) (Or.inr hi.ne')

theorem blend_frozen {q : V3 ℝ} {S : Samples} (h : Smooth k P q view S c) (tr : Bool) (mult m : ℕ → V3 ℝ)
    (g : V3 ℝ) {d e : ℝ} (hd : 0 < d) (he : 0 < e) :
    blend tr mult m k d q view S g = blend tr mult m k e q view S g := by
  obtain ⟨A, hA, hw⟩ : ∃ A : ℝ, A ≠ 0 ∧ ∀ i, weight k d q S i = A * weight k e q S i := by
    by_cases hf : k.Finite
    · refine ⟨1, one_ne_zero, fun i => ?_⟩
      unfold weight
      rw [withClosest_of_finite hf, withClosest_of_finite hf, one_mul]
    · cases k with
      | interpolating r xc =>
        refine ⟨d / e * (d / e), mul_ne_zero (div_ne_zero hd.ne' he.ne') (div_ne_zero hd.ne' he.ne'),
          fun i => ?_⟩
        simp only [weight, Kern.withClosest, Kern.eval]
        exact interpolating_scale r _ _ _ he.ne'
      | _ => exact absurd trivial hf
  unfold blend
  rw [nmlSumInv_eq fun i hi => weight_nonneg' h.proper hd (smooth_norm h hi),
    nmlSumInv_eq fun i hi => weight_nonneg' h.proper he (smooth_norm h hi)]
  simp only [hw, mul_assoc]
  rw [List.sum_map_mul_left, List.sum_map_mul_left]
  generalize (view.map fun i => weight k e q S i * (normalKernel (unitNormal S i) g *
    V3.dot ((sampleRotation (unitNormal S i) g tr).mulVec (mult i)) (m i))).sum = X
  generalize (view.map fun i => weight k e q S i * normalKernel (unitNormal S i) g).sum = Y
  rw [mul_inv]
  field_simp

/-- **C86** for the factors that weigh samples by their normals: along paths of the normal and of the gradient
whose rates are `Aᵀ w` and `Bᵀ w`, the rate of the factor is the product of `w` with its computed gradient. -/
theorem normal_kernel_derivative {n g : ℝ → V3 ℝ} {t : ℝ} (A B : M3 ℝ) (w : V3 ℝ)
    (hn : HasD n (A.transpose.mulVec w) t) (hg : HasD g (B.transpose.mulVec w) t) :
    HasDerivAt (fun s => normalKernel (n s) (g s)) (V3.dot (normalKernelGrad (n t) (g t) A B) w) t := by
  refine (normalKernel_hasDeriv hn hg).congr_deriv ?_
  simp [normalKernelGrad, M3.mulVec, M3.transpose, V3.dot]
  ring

/-- The hypotheses hold for a normal that turns. -/
example : HasDerivAt (fun s : ℝ => normalKernel ((⟨0, 0, 1⟩ : V3 ℝ) + s • ⟨1, 0, 0⟩) ⟨1, 0, 0⟩) (1 / 2) 0 := by
  refine (normal_kernel_derivative (n := fun s => ⟨0, 0, 1⟩ + s • ⟨1, 0, 0⟩) (g := fun _ => ⟨1, 0, 0⟩) (t := 0)
    ⟨⟨0, 0, 0⟩, ⟨0, 0, 0⟩, ⟨1, 0, 0⟩⟩ 0 ⟨0, 0, 1⟩ ?_ ?_).congr_deriv ?_
  · rw [show (M3.transpose ⟨⟨0, 0, 0⟩, ⟨0, 0, 0⟩, ⟨1, 0, 0⟩⟩ : M3 ℝ).mulVec ⟨0, 0, 1⟩ = ⟨1, 0, 0⟩ by
      ext <;> simp [M3.transpose, M3.mulVec, V3.dot]]
    exact HasD.line _ _
  · rw [show (M3.transpose (0 : M3 ℝ)).mulVec ⟨0, 0, 1⟩ = 0 by
      ext <;> simp [M3.transpose, M3.mulVec, V3.dot]]
    exact HasD.const _
  · simp [normalKernelGrad, M3.mulVec, V3.dot]

theorem normalKernelGrad_dot (b : Bg) (g q' : V3 ℝ) (H : M3 ℝ) (s : ℕ) :
    V3.dot (normalKernelGrad (unitNormal b.S s) g 0 H.transpose) q' =
      half b g s * V3.dot (unitNormal b.S s) (H.mulVec q') := by
  unfold normalKernelGrad half
  rw [dot_smul_left]
  congr 1
  simp [M3.mulVec, M3.transpose, V3.dot]
  ring

theorem v3_one (v : V3 ℝ) : (1 : ℝ) • v = v := by ext <;> simp

theorem sum_sub (l : List ℕ) (f g : ℕ → ℝ) :
    (l.map f).sum - (l.map g).sum = (l.map fun i => f i - g i).sum := by
  induction l with
  | nil => simp
  | cons i l ih => simp only [List.map_cons, List.sum_cons, ← ih]; ring

theorem qf_queryProduct (b : Bg) (g dwN q' : V3 ℝ) (H : M3 ℝ) (wsi : ℝ) (s : ℕ) (mult m : V3 ℝ)
    (tr : Bool) : qf q' (queryContactProduct b g dwN H wsi s mult tr) m =
      (wsi * (normalKernel (unitNormal b.S s) g * V3.dot (weightGrad b.kernel b.dist b.q b.S s) q' +
          weight b.kernel b.dist b.q b.S s * half b g s * V3.dot (unitNormal b.S s) (H.mulVec q')) -
        normalKernel (unitNormal b.S s) g * weight b.kernel b.dist b.q b.S s * wsi * V3.dot dwN q') *
        V3.dot ((sampleRotation (unitNormal b.S s) g tr).mulVec mult) m +
      normalKernel (unitNormal b.S s) g * weight b.kernel b.dist b.q b.S s * wsi *
        V3.dot (rodDir (unitNormal b.S s) g 0 (H.mulVec q') mult (side tr)) m := by
  have e0 : (M3.transpose (0 : M3 ℝ)).mulVec q' = 0 := by ext <;> simp [M3.mulVec, M3.transpose, V3.dot]
  unfold queryContactProduct
  simp only [qf_add, qf_smul, qf_outer, qf_rod, M3.transpose_transpose, e0, dot_sub_left, dot_smul_left,
    Field.dot_add_left, normalKernelGrad_dot]
  ring

theorem neighborNml_dot (b : Bg) (hb : b.bgWeightGrad none = 0) (g q' : V3 ℝ) (H : M3 ℝ) :
    V3.dot (neighborNmlWeightGrad b g H.transpose) q' =
      weightNmlSumInv b.kernel b.dist b.q b.view b.S g * (b.view.map fun s =>
        normalKernel (unitNormal b.S s) g * V3.dot (weightGrad b.kernel b.dist b.q b.S s) q' +
          weight b.kernel b.dist b.q b.S s * half b g s * V3.dot (unitNormal b.S s) (H.mulVec q')).sum := by
  unfold neighborNmlWeightGrad
  simp only [hb, add_zero]
  rw [dot_sum, ← List.sum_map_mul_left]
  congr 1
  refine List.map_congr_left fun s _ => ?_
  simp only [dot_smul_left, Field.dot_add_left, normalKernelGrad_dot]
  ring

/-- The derivative of the average, as the code has it. -/
theorem blend_hasDeriv (q : ℝ → V3 ℝ) (q' : V3 ℝ) (tris : ℕ → Tri) (value : ℕ → ℝ)
    (x : ℝ → ℕ → V3 ℝ) (x' : ℕ → V3 ℝ) (hq : HasD q q' t) (hx : ∀ v, HasD (fun s => x s v) (x' v) t)
    (h : Smooth k P (q t) view (faceSamples tris (x t) value) c) (hw : P.weighted = false) {g : V3 ℝ}
    (hg : queryJacobianAt (q t) view (faceSamples tris (x t) value) none k P = some g)
    {H : M3 ℝ} (hH : queryHessianAt (q t) view (faceSamples tris (x t) value) k P = some H)
    (hop : ∀ i ∈ view, V3.dot (unitNormal (faceSamples tris (x t) value) i) g ≠ -1)
    (tr : Bool) (mult m : ℕ → V3 ℝ) {b : Bg}
    (hb : b = bgAt k P (q t) view (faceSamples tris (x t) value) c none) :
    HasDerivAt (fun s => blend tr mult m k (q s - (faceSamples tris (x s) value).pos c).norm (q s) view
        (faceSamples tris (x s) value)
        ((queryJacobianAt (q s) view (faceSamples tris (x s) value) none k P).getD 0))
      (view.map fun i =>
        ((sampleContactProduct b (x t) tris g (weightNmlSumInv k b.dist (q t) view
          (faceSamples tris (x t) value) g) i (mult i) tr).map fun e => qf (x' e.1) e.2 (m i)).sum +
        qf q' (queryContactProduct b g (neighborNmlWeightGrad b g H.transpose) H
          (weightNmlSumInv k b.dist (q t) view (faceSamples tris (x t) value) g) i (mult i) tr) (m i)).sum
      t := by
  set S := fun s => faceSamples tris (x s) value with hS
  have hp : ∀ i ∈ view, HasD (fun s => (S s).pos i) (mean tris x' i) t :=
    fun i _ => by
      have h1 := ((hx (tris i).a).add (hx (tris i).b)).add (hx (tris i).c)
      have h2 := HasD.smul (hasDerivAt_const t (1 / 3 : ℝ)) h1
      refine h2.congr ?_
      ext <;> simp [mean]
  have hn : ∀ i ∈ view, HasD (fun s => (S s).nml i) (areaNormalDir (x t) (tris i) x') t :=
    fun i _ => areaNormal_hasD (tris i) hx
  have hev := h.eventually (q := q) (S := S) hq hp hn
  have hd : ∀ i ∈ view, (tris i).Distinct := fun i hi => distinct_of_area tris (x t) value i
    (h.normals i hi)
  have hbS : b.S = S t := by rw [hb]; rfl
  have hbq : b.q = q t := by rw [hb]; rfl
  have hbk : b.kernel = k := by rw [hb]; rfl
  have hbv : b.view = view := by rw [hb]; rfl
  have hbd : b.dist = (q t - (S t).pos c).norm := by rw [hb]; rfl
  have hb0 : ∀ o, b.bgWeightGrad o = 0 := fun o => by
    rw [hb]
    unfold Bg.bgWeightGrad
    exact if_pos (Or.inr hw)
  have hdpos : 0 < b.dist := by rw [hbd]; exact smooth_norm h h.mem
  have hW0 : ∀ i ∈ view, 0 ≤ weight k b.dist (q t) (S t) i := fun i hi =>
    weight_nonneg' h.proper hdpos (smooth_norm h hi)
  set W := (view.map fun i => weight k b.dist (q t) (S t) i *
    normalKernel (unitNormal (S t) i) g).sum with hW
  have hwsi : weightNmlSumInv k b.dist (q t) view (S t) g = W⁻¹ := nmlSumInv_eq hW0
  -- what the code computes
  set D : ℕ → ℝ := fun i => weightDir b (x t) tris g x' i +
    (normalKernel (unitNormal (S t) i) g * V3.dot (weightGrad k b.dist (q t) (S t) i) q' +
      weight k b.dist (q t) (S t) i * half b g i * V3.dot (unitNormal (S t) i) (H.mulVec q')) with hD
  have hcode : (view.map fun i =>
        ((sampleContactProduct b (x t) tris g (weightNmlSumInv k b.dist (q t) view (S t) g) i (mult i)
          tr).map fun e => qf (x' e.1) e.2 (m i)).sum +
        qf q' (queryContactProduct b g (neighborNmlWeightGrad b g H.transpose) H
          (weightNmlSumInv k b.dist (q t) view (S t) g) i (mult i) tr) (m i)).sum =
      (view.map fun i => W⁻¹ * ((D i - weight k b.dist (q t) (S t) i *
          normalKernel (unitNormal (S t) i) g * (W⁻¹ * (view.map D).sum)) *
        V3.dot ((sampleRotation (unitNormal (S t) i) g tr).mulVec (mult i)) (m i) +
        weight k b.dist (q t) (S t) i * normalKernel (unitNormal (S t) i) g *
          V3.dot (rodDir (unitNormal (S t) i) g (nmlDir b (x t) tris x' i)
            (H.mulVec q' + gradDir b (x t) tris x') (mult i) (side tr)) (m i))).sum := by
    have hv := vertexNml_sum b (x t) tris g (fun s => hb0 _) x'
    have hN := neighborNml_dot b (hb0 none) g q' H
    have hsum : (view.map D).sum = (view.map fun s => weightDir b (x t) tris g x' s).sum +
        (view.map fun s => normalKernel (unitNormal (S t) s) g *
          V3.dot (weightGrad k b.dist (q t) (S t) s) q' +
          weight k b.dist (q t) (S t) s * half b g s * V3.dot (unitNormal (S t) s) (H.mulVec q')).sum := by
      rw [← List.sum_map_add]
    rw [hbS, hbq, hbk, hbv, hwsi] at hN hv
    congr 1
    refine List.map_congr_left fun i hi => ?_
    rw [hwsi, sampleProduct_sum b (x t) tris g i (by rw [hbv]; exact hi) (hd i hi), hbv, hv,
      qf_queryProduct, hN, hbS, hbq, hbk]
    have hr : rodDir (unitNormal (S t) i) g (nmlDir b (x t) tris x' i)
        (H.mulVec q' + gradDir b (x t) tris x') (mult i) (side tr) =
        rodDir (unitNormal (S t) i) g 0 (H.mulVec q') (mult i) (side tr) +
        rodDir (unitNormal (S t) i) g (nmlDir b (x t) tris x' i) (gradDir b (x t) tris x') (mult i)
          (side tr) := by
      rw [← rodDir_add, zero_add]
    rw [hr, Field.dot_add_left, hsum]
    simp only [hD]
    ring
  rw [hcode]
  by_cases hfar : ∃ r, k.radius = some r ∧ r < (q t - (S t).pos c).norm
  · -- out of reach
    obtain ⟨r, hr, hlt⟩ := hfar
    have hWz : W = 0 := by
      rw [hW]
      refine sum_eq_zero fun i hi => ?_
      rw [weight_far h.proper (Or.inr hdpos) hr, zero_mul]
      by_cases hc : i = c
      · rw [hc]; exact hlt.le
      · exact (hlt.trans (h.closest i hi hc)).le
    have hz : (view.map fun i => W⁻¹ * ((D i - weight k b.dist (q t) (S t) i *
          normalKernel (unitNormal (S t) i) g * (W⁻¹ * (view.map D).sum)) *
        V3.dot ((sampleRotation (unitNormal (S t) i) g tr).mulVec (mult i)) (m i) +
        weight k b.dist (q t) (S t) i * normalKernel (unitNormal (S t) i) g *
          V3.dot (rodDir (unitNormal (S t) i) g (nmlDir b (x t) tris x' i)
            (H.mulVec q' + gradDir b (x t) tris x') (mult i) (side tr)) (m i))).sum = 0 := by
      refine sum_eq_zero fun i _ => ?_
      rw [hWz, inv_zero, zero_mul]
    rw [hz]
    refine (hasDerivAt_const t (0 : ℝ)).congr_of_eventuallyEq ?_
    filter_upwards [hev, (norm_continuous (hq.sub (hp c h.mem))).eventually_const_lt hlt] with s hs hls
    unfold blend
    rw [sum_eq_zero fun i hi => ?_, zero_mul]
    rw [weight_far h.proper (Or.inr (smooth_norm hs hs.mem)) hr, zero_mul, zero_mul]
    by_cases hc : i = c
    · rw [hc]; exact hls.le
    · exact (hls.trans (hs.closest i hi hc)).le
  · -- within reach
    have hsil : Silent k P (q t - (S t).pos c).norm := Or.inr fun hc => by
      rcases hc with hc | hc
      · exact hfar hc
      · rw [hw] at hc; cases hc
    obtain ⟨H', M, B, hH', hM, -, hjoint⟩ := joint_hessian_partial q q' tris value x x' none hq hx h 1
      (.inr hsil)
    obtain rfl : H' = H := Option.some.inj (hH'.symm.trans hH)
    obtain ⟨hcl, -⟩ := regular_weighable (q := q) (S := S) (t := t) h.toRegular
    have hMg : applyMixed M x' = gradDir b (x t) tris x' := by
      have := (mixedHessian_eq (k := k) (P := P) tris (x t) 1 hcl).symm.trans hM
      rw [← Option.some.inj this]
      unfold applyMixed gradDir jacobianGradientPhi neighborhoodVerts
      rw [List.map_map, hbv, hb]
      congr 1
      refine List.map_congr_left fun v _ => ?_
      simp only [Function.comp, M3.mulVec_smul]
      exact v3_one _
    set G := fun s => (queryJacobianAt (q s) view (S s) none k P).getD 0 with hG
    have hGt : G t = g := by rw [hG]; simp only; rw [hg]; rfl
    have hGd : HasD G (H'.mulVec q' + gradDir b (x t) tris x') t := by
      have key : ∀ uq, HasDerivAt (fun s => V3.dot (G s) uq)
          (V3.dot uq (H'.mulVec q' + gradDir b (x t) tris x')) t := fun uq => by
        have := hjoint uq fun _ => 0
        simp only [applyMixed_zero, quadBlocks_zero, applyBlocks_zero, dot_zero_right,
          add_zero, one_mul] at this
        rw [hMg, ← Field.dot_add_right] at this
        exact this
      refine ⟨?_, ?_, ?_⟩
      · simpa [V3.dot] using key ⟨1, 0, 0⟩
      · simpa [V3.dot] using key ⟨0, 1, 0⟩
      · simpa [V3.dot] using key ⟨0, 0, 1⟩
    have hnd : ∀ i ∈ view, HasD (fun s => unitNormal (S s) i) (nmlDir b (x t) tris x' i) t := fun i hi => by
      have := unitNormal_hasD (hn i hi) (h.normals i hi)
      refine this.congr ?_
      unfold nmlDir
      rw [hbS]
      rfl
    have hwd : ∀ i ∈ view, HasDerivAt (fun s => weight k b.dist (q s) (S s) i)
        (V3.dot (weightGrad k b.dist (q t) (S t) i) (q' - mean tris x' i)) t := fun i hi => by
      refine eval_hasDeriv (k.withClosest b.dist) (proper_withClosest h.proper (Or.inr hdpos)) hq (hp i hi)
        (Or.inr (smooth_norm h hi)) fun r eps hk => ?_
      refine h.off r ?_ i hi
      rw [← radius_withClosest k b.dist, hk]
      rfl
    have hWd : ∀ i ∈ view, HasDerivAt
        (fun s => weight k b.dist (q s) (S s) i * normalKernel (unitNormal (S s) i) (G s)) (D i) t :=
      fun i hi => by
        refine ((hwd i hi).fun_mul (normalKernel_hasDeriv (hnd i hi) hGd)).congr_deriv ?_
        simp only [hD, hGt, weightDir, half, hbS, hbq, hbk, dot_sub_right, Field.dot_add_right]
        ring
    have hrd : ∀ i ∈ view, HasDerivAt
        (fun s => V3.dot ((sampleRotation (unitNormal (S s) i) (G s) tr).mulVec (mult i)) (m i))
        (V3.dot (rodDir (unitNormal (S t) i) g (nmlDir b (x t) tris x' i)
            (H'.mulVec q' + gradDir b (x t) tris x') (mult i) (side tr)) (m i)) t := fun i hi => by
      have := rotation_hasD (hnd i hi) hGd (mult i) tr (by rw [hGt]; exact hop i hi)
      refine (this.dot (HasD.const (m i))).congr_deriv ?_
      rw [hGt, dot_zero_right, add_zero]
    have hWpos : 0 < W := by
      rw [hW]
      refine sum_pos (c := c) (fun i hi => mul_nonneg (hW0 i hi) (normalKernel_nonneg _ _)) h.mem ?_
      refine mul_pos ?_ (normalKernel_pos (hop c h.mem))
      refine kernel_pos _ (proper_withClosest h.proper (Or.inr hdpos)) _ (V3.norm_nonneg _)
        (Or.inr (smooth_norm h h.mem).ne') ?_
      intro r hr
      rw [radius_withClosest] at hr
      exact lt_of_le_of_ne (not_lt.1 fun hlt => hfar ⟨r, hr, hlt⟩) (h.edge r hr)
    have hav := average_hasDeriv (l := view) (g := fun _ => 0) (wb := fun _ => 0) hWd hrd
      (hasDerivAt_const t (0 : ℝ)) (hasDerivAt_const t (0 : ℝ))
      (by simp only [hGt, add_zero]; rw [← hW]; exact hWpos.ne')
    simp only [hGt, add_zero, zero_add, zero_mul] at hav
    rw [← hW] at hav
    refine HasDerivAt.congr_of_eventuallyEq (hav.congr_deriv ?_) ?_
    · rw [List.sum_map_mul_left]
      congr 1
      rw [← List.sum_map_mul_right, ← List.sum_map_mul_right]
      rw [sum_sub]
      congr 1
      refine List.map_congr_left fun i _ => ?_
      ring
    · filter_upwards [hev] with s hs
      rw [blend_frozen hs tr mult m _ (smooth_norm hs hs.mem) hdpos]
      unfold blend
      rw [nmlSumInv_eq fun i hi => weight_nonneg' hs.proper hdpos (smooth_norm hs hi)]

theorem carried_map (f : ℕ → M3 ℝ) (view : List ℕ) (tris : ℕ → Tri) (b : ℕ → V3 ℝ) :
    carried (view.map f) view tris b = (view.map fun i => (f i).mulVec (mean tris b i)).sum := by
  unfold carried
  congr 1
  induction view with
  | nil => rfl
  | cons i l ih =>
    simp only [List.map_cons, List.zip_cons_cons, ih]
    rfl

theorem contactJacobian_eq {q : V3 ℝ} {S : Samples} (h : Smooth k P q view S c) {g : V3 ℝ}
    (hg : queryJacobianAt q view S none k P = some g) : contactJacobianAt q view S k P =
      some (view.map (sampleContactJacobian k (q - S.pos c).norm q S g
        (weightNmlSumInv k (q - S.pos c).norm q view S g))) := by
  obtain ⟨hcl, -⟩ := regular_weighable (q := fun _ => q) (S := fun _ => S) (t := 0) h.toRegular
  unfold contactJacobianAt
  rw [local_eq none hcl, hg]
  rfl

theorem carried_blend {q : V3 ℝ} {S : Samples} (h : Smooth k P q view S c) {g : V3 ℝ}
    (hg : queryJacobianAt q view S none k P = some g) (tris : ℕ → Tri) (m : V3 ℝ) (b : ℕ → V3 ℝ) :
    V3.dot m (carried ((contactJacobianAt q view S k P).getD []) view tris b) =
      blend false (fun i => mean tris b i) (fun _ => m) k (q - S.pos c).norm q view S g ∧
    V3.dot m (carried ((contactJacobianAt q view S k P).getD []) view tris b) =
      blend true (fun _ => m) (fun i => mean tris b i) k (q - S.pos c).norm q view S g := by
  rw [contactJacobian_eq h hg, Option.getD_some, carried_map, dot_sum_right]
  have e : ∀ i, V3.dot m (M3.mulVec (sampleContactJacobian k (q - S.pos c).norm q S g
      (weightNmlSumInv k (q - S.pos c).norm q view S g) i) (mean tris b i)) =
      weight k (q - S.pos c).norm q S i * normalKernel (unitNormal S i) g *
        V3.dot m ((sampleRotation (unitNormal S i) g false).mulVec (mean tris b i)) *
        weightNmlSumInv k (q - S.pos c).norm q view S g := fun i => by
    unfold sampleContactJacobian
    simp only [M3.mulVec_smul, dot_smul_right]
    unfold sampleRotation
    simp only [Bool.false_eq_true, if_false]
    ring
  simp only [e]
  unfold blend
  rw [List.sum_map_mul_right]
  constructor
  · congr 3
    funext i
    rw [dot_symm m]
  · congr 3
    funext i
    rw [rotation_transpose]

theorem multiplier_mean (tris : ℕ → Tri) (b : ℕ → V3 ℝ) (s : ℕ) :
    sampleMultiplier tris b s = mean tris b s := by
  unfold sampleMultiplier mean
  simp [List.finRange_succ, Tri.get, add_assoc]

/-- A derivative that is known for each component along each direction. -/
theorem hasD_of_dot {f : ℝ → V3 ℝ} {f' : V3 ℝ} (h : ∀ d, HasDerivAt (fun s => V3.dot d (f s)) (V3.dot d f') t) :
    HasD f f' t := by
  refine ⟨?_, ?_, ?_⟩
  · simpa [V3.dot] using h ⟨1, 0, 0⟩
  · simpa [V3.dot] using h ⟨0, 1, 0⟩
  · simpa [V3.dot] using h ⟨0, 0, 1⟩

theorem qf_transpose_dot (u w : V3 ℝ) (m : M3 ℝ) : V3.dot w (m.transpose.mulVec u) = qf u m w :=
  qf_transpose w u m

theorem carried_eventually {q : ℝ → V3 ℝ} {q' : V3 ℝ} {tris : ℕ → Tri} {value : ℕ → ℝ}
    {x : ℝ → ℕ → V3 ℝ} {x' : ℕ → V3 ℝ} (hq : HasD q q' t) (hx : ∀ v, HasD (fun s => x s v) (x' v) t)
    (h : Smooth k P (q t) view (faceSamples tris (x t) value) c) (m : V3 ℝ) (b : ℕ → V3 ℝ) :
    ∀ᶠ s in nhds t,
      V3.dot m (carried ((contactJacobianAt (q s) view (faceSamples tris (x s) value) k P).getD []) view
          tris b) =
        blend false (fun i => mean tris b i) (fun _ => m) k
          (q s - (faceSamples tris (x s) value).pos c).norm (q s) view (faceSamples tris (x s) value)
          ((queryJacobianAt (q s) view (faceSamples tris (x s) value) none k P).getD 0) ∧
      V3.dot m (carried ((contactJacobianAt (q s) view (faceSamples tris (x s) value) k P).getD []) view
          tris b) =
        blend true (fun _ => m) (fun i => mean tris b i) k
          (q s - (faceSamples tris (x s) value).pos c).norm (q s) view (faceSamples tris (x s) value)
          ((queryJacobianAt (q s) view (faceSamples tris (x s) value) none k P).getD 0) := by
  have hp : ∀ i ∈ view, HasD (fun s => (faceSamples tris (x s) value).pos i) (mean tris x' i) t :=
    fun i _ => by
      have h1 := ((hx (tris i).a).add (hx (tris i).b)).add (hx (tris i).c)
      have h2 := HasD.smul (hasDerivAt_const t (1 / 3 : ℝ)) h1
      refine h2.congr ?_
      ext <;> simp [mean]
  have hn : ∀ i ∈ view, HasD (fun s => (faceSamples tris (x s) value).nml i)
      (areaNormalDir (x t) (tris i) x') t := fun i _ => areaNormal_hasD (tris i) hx
  filter_upwards [h.eventually (q := q) (S := fun s => faceSamples tris (x s) value) hq hp hn] with s hs
  obtain ⟨g, -, hg, -, -⟩ := jacobian_form none hs.toRegular 0 fun _ => 0
  rw [hg, Option.getD_some]
  exact carried_blend hs hg tris m b

/-- C86 for the velocities of contact points, where the background is not mixed in and no normal opposes
the gradient of the potential: as query point and vertices move, the derivative of the contact Jacobian
times constant velocities `b` of the vertices is what `contact_jacobian_jacobian_product_indexed_blocks_iter`
and `contact_query_jacobian_jacobian_product_indexed_blocks_iter` give. Blocks are stored column by column.
Missing: the full property does not ask for `P.weighted = false`; see
`contact_velocity_derivative_violated`. -/
theorem contact_velocity_derivative_partial (q : ℝ → V3 ℝ) (q' : V3 ℝ) (tris : ℕ → Tri) (value : ℕ → ℝ)
    (x : ℝ → ℕ → V3 ℝ) (x' : ℕ → V3 ℝ) (hq : HasD q q' t) (hx : ∀ v, HasD (fun s => x s v) (x' v) t)
    (h : Smooth k P (q t) view (faceSamples tris (x t) value) c) (hw : P.weighted = false)
    (hop : ∀ g, queryJacobianAt (q t) view (faceSamples tris (x t) value) none k P = some g →
      ∀ i ∈ view, V3.dot (unitNormal (faceSamples tris (x t) value) i) g ≠ -1) (b : ℕ → V3 ℝ) :
    ∃ A B, contactJacobianJacobianAt (q t) view (faceSamples tris (x t) value) k tris (x t) P b = some A ∧
      contactQueryJacobianJacobianAt (q t) view (faceSamples tris (x t) value) k tris P b = some B ∧
      HasD (fun s => carried ((contactJacobianAt (q s) view (faceSamples tris (x s) value) k P).getD [])
          view tris b)
        ((A.map fun e => e.2.transpose.mulVec (x' e.1)).sum +
          (B.map fun m => m.transpose.mulVec q').sum) t := by
  obtain ⟨hcl, -⟩ := regular_weighable (q := q) (S := fun s => faceSamples tris (x s) value)
    (t := t) h.toRegular
  obtain ⟨g, -, hg, -, -⟩ := jacobian_form none h.toRegular 0 fun _ => 0
  obtain ⟨H, hH⟩ : ∃ H, queryHessianAt (q t) view (faceSamples tris (x t) value) k P = some H :=
    ⟨_, by unfold queryHessianAt; rw [local_eq none hcl]; rfl⟩
  refine ⟨_, _, by unfold contactJacobianJacobianAt; rw [local_eq none hcl, hg]; rfl,
    by unfold contactQueryJacobianJacobianAt; rw [local_eq none hcl, hg, hH]; rfl, ?_⟩
  refine hasD_of_dot fun m => ?_
  have key := blend_hasDeriv q q' tris value x x' hq hx h hw hg hH (hop g hg) false
    (fun i => mean tris b i) (fun _ => m) rfl
  refine HasDerivAt.congr_of_eventuallyEq (key.congr_deriv ?_) ?_
  · rw [Field.dot_add_right, dot_sum_right, dot_sum_right, sum_flatMap, List.map_map, ← List.sum_map_add]
    congr 1
    refine List.map_congr_left fun i _ => ?_
    simp only [Function.comp, qf_transpose_dot, multiplier_mean]
  · exact (carried_eventually hq hx h m b).mono fun s hs => hs.1

/-- C86 for the forces on the vertices, where the background is not mixed in and no normal opposes the
gradient of the potential: as query point and vertices move, the derivative of the transpose of the contact
Jacobian times a constant force `l` at the query point is what
`contact_hessian_product_indexed_blocks_iter` and `contact_query_hessian_product_indexed_blocks_iter` give.
Forces are tested with arbitrary motions `u` of the vertices. Blocks are stored column by column.
Missing: the full property does not ask for `P.weighted = false`; see
`contact_velocity_derivative_violated`. -/
theorem contact_force_derivative_partial (q : ℝ → V3 ℝ) (q' : V3 ℝ) (tris : ℕ → Tri) (value : ℕ → ℝ)
    (x : ℝ → ℕ → V3 ℝ) (x' : ℕ → V3 ℝ) (hq : HasD q q' t) (hx : ∀ v, HasD (fun s => x s v) (x' v) t)
    (h : Smooth k P (q t) view (faceSamples tris (x t) value) c) (hw : P.weighted = false)
    (hop : ∀ g, queryJacobianAt (q t) view (faceSamples tris (x t) value) none k P = some g →
      ∀ i ∈ view, V3.dot (unitNormal (faceSamples tris (x t) value) i) g ≠ -1) (l : V3 ℝ) :
    ∃ A B, contactHessianAt (q t) view (faceSamples tris (x t) value) k tris (x t) P l = some A ∧
      contactQueryHessianAt (q t) view (faceSamples tris (x t) value) k tris P l = some B ∧
      ∀ u : ℕ → V3 ℝ, HasDerivAt (fun s => V3.dot l
          (carried ((contactJacobianAt (q s) view (faceSamples tris (x s) value) k P).getD []) view tris u))
        ((A.map fun e => V3.dot (u e.row) (e.val.transpose.mulVec (x' e.col))).sum +
          (B.map fun e => V3.dot (u e.1) (e.2.transpose.mulVec q')).sum) t := by
  obtain ⟨hcl, -⟩ := regular_weighable (q := q) (S := fun s => faceSamples tris (x s) value)
    (t := t) h.toRegular
  obtain ⟨g, -, hg, -, -⟩ := jacobian_form none h.toRegular 0 fun _ => 0
  obtain ⟨H, hH⟩ : ∃ H, queryHessianAt (q t) view (faceSamples tris (x t) value) k P = some H :=
    ⟨_, by unfold queryHessianAt; rw [local_eq none hcl]; rfl⟩
  refine ⟨_, _, by unfold contactHessianAt; rw [local_eq none hcl, hg]; rfl,
    by unfold contactQueryHessianAt; rw [local_eq none hcl, hg, hH]; rfl, fun u => ?_⟩
  have key := blend_hasDeriv q q' tris value x x' hq hx h hw hg hH (hop g hg) true
    (fun _ => l) (fun i => mean tris u i) rfl
  refine HasDerivAt.congr_of_eventuallyEq (key.congr_deriv ?_) ?_
  · rw [sum_flatMap, sum_flatMap, ← List.sum_map_add]
    congr 1
    refine List.map_congr_left fun i _ => ?_
    rw [sum_flatMap]
    simp only [List.map_map, Function.comp_def, qf_transpose_dot, qf_smul, corner_sum]
    congr 1
    · rw [← List.sum_map_add, ← List.sum_map_add]
      congr 1
      refine List.map_congr_left fun e _ => ?_
      unfold mean
      simp only [qf_smul_right, qf_add_right, Tri.get]
      ring
    · unfold mean
      simp only [qf_smul_right, qf_add_right, Tri.get]
      rw [show (1 / 3 : ℝ) * (_ + _ + _) = _ from by rw [mul_add, mul_add]]
  · exact (carried_eventually hq hx h l u).mono fun s hs => hs.2

/-! ## Examples -/

/-- Two triangles of a square. -/
def squareTris (i : ℕ) : Tri := if i = 0 then ⟨0, 1, 2⟩ else ⟨1, 3, 2⟩

def squareX (v : ℕ) : V3 ℝ :=
  if v = 0 then 0 else if v = 1 then ⟨3, 0, 0⟩ else if v = 2 then ⟨0, 3, 0⟩ else ⟨3, 3, 0⟩

theorem square_nml (i : ℕ) : (faceSamples squareTris squareX fun _ => 0).nml i = ⟨0, 0, 9⟩ := by
  unfold faceSamples squareTris
  by_cases h : i = 0
  · ext <;> simp [h, squareX, areaNormal, V3.cross]
    norm_num
  · ext <;> simp [h, squareX, areaNormal, V3.cross]
    norm_num

theorem square_pos (i : ℕ) : (faceSamples squareTris squareX fun _ => 0).pos i =
    if i = 0 then ⟨1, 1, 0⟩ else ⟨2, 2, 0⟩ := by
  unfold faceSamples squareTris
  by_cases h : i = 0
  · ext <;> simp [h, squareX]
  · ext <;> simp [h, squareX] <;> norm_num

theorem square_norm (i : ℕ) : ((⟨1, 1, 1⟩ : V3 ℝ) -
    (faceSamples squareTris squareX fun _ => 0).pos i).norm = if i = 0 then 1 else Real.sqrt 3 := by
  rw [square_pos]
  by_cases h : i = 0
  · simp [h, V3.norm, V3.dot]
  · simp only [h, if_false, V3.norm, V3.dot, V3.sub_x, V3.sub_y, V3.sub_z]
    norm_num

theorem sqrt3_bounds : 1 < Real.sqrt 3 ∧ Real.sqrt 3 < 3 := by
  constructor
  · rw [Real.lt_sqrt (by norm_num)]; norm_num
  · rw [Real.sqrt_lt' (by norm_num)]; norm_num

theorem square_smooth : Smooth (.cubic 3) params ⟨1, 1, 1⟩ [0, 1]
    (faceSamples squareTris squareX fun _ => 0) 0 := by
  obtain ⟨h1, h3⟩ := sqrt3_bounds
  have hne : (⟨1, 1, 1⟩ : V3 ℝ) ≠ (faceSamples squareTris squareX fun _ => 0).pos 0 := by
    refine ne_of_norm_pos ?_
    rw [square_norm]
    norm_num
  refine { proper := by norm_num [Kern.Proper], nodup := by simp, mem := by simp, closest := ?_, edge := ?_,
           kink := ?_, center := Or.inl trivial, normals := ?_, tangent := ?_, mixed := ?_, off := ?_,
           apart := hne }
  · intro i hi h
    simp only [square_norm, if_neg h, if_true]
    exact h1
  · intro r hr; cases hr; rw [square_norm]; norm_num
  · intro r eps h; cases h
  · intro i _; rw [square_nml]; intro h; have := congrArg V3.z h; norm_num at this
  · rintro _ (h | ⟨r, hr, h⟩)
    · cases h
    · cases hr; rw [square_norm] at h; norm_num at h
  · intro h; cases h
  · intro r hr i hi
    cases hr
    rw [square_norm]
    split
    · norm_num
    · exact h3.ne

theorem square_flat : FlatAround (.cubic 3) ⟨1, 1, 1⟩ [0, 1]
    (faceSamples squareTris squareX fun _ => 0) ⟨0, 0, 1⟩ := by
  refine { proper := by norm_num [Kern.Proper], unit := by norm_num [V3.dot], normals := ?_, height := ?_,
           near := ?_, off := Or.inl trivial }
  · intro i _
    rw [square_nml]
    have : (⟨0, 0, 9⟩ : V3 ℝ).norm = 9 := by
      simp only [V3.norm, V3.dot, mul_zero, zero_add]
      exact Real.sqrt_mul_self (by norm_num)
    rw [this]
    ext <;> simp
  · refine ⟨1, fun i _ => ?_⟩
    rw [square_pos]
    unfold faceSamples
    split <;> norm_num [V3.dot]
  · refine ⟨0, by simp, fun r hr => ?_⟩
    cases hr
    rw [square_norm]
    norm_num

theorem square_opposed : ∀ g, queryJacobianAt ⟨1, 1, 1⟩ [0, 1]
    (faceSamples squareTris squareX fun _ => 0) none (.cubic 3) params = some g →
      ∀ i ∈ [0, 1], V3.dot (unitNormal (faceSamples squareTris squareX fun _ => 0) i) g ≠ -1 := by
  intro g hg i hi
  rw [square_flat.gradient none] at hg
  cases hg
  unfold unitNormal
  rw [square_flat.normals i hi]
  norm_num [V3.dot]

theorem square_line (d : ℕ → V3 ℝ) : (fun v => squareX v + (0 : ℝ) • d v) = squareX := by
  funext v; ext <;> simp

example (d b : ℕ → V3 ℝ) (e : V3 ℝ) :
    ∃ A B, contactJacobianJacobianAt ⟨1, 1, 1⟩ [0, 1] (faceSamples squareTris squareX fun _ => 0) (.cubic 3)
        squareTris squareX params b = some A ∧
      contactQueryJacobianJacobianAt ⟨1, 1, 1⟩ [0, 1] (faceSamples squareTris squareX fun _ => 0) (.cubic 3)
        squareTris params b = some B ∧
      HasD (fun s : ℝ => carried ((contactJacobianAt (⟨1, 1, 1⟩ + s • e) [0, 1]
          (faceSamples squareTris (fun v => squareX v + s • d v) fun _ => 0) (.cubic 3) params).getD [])
          [0, 1] squareTris b)
        ((A.map fun a => a.2.transpose.mulVec (d a.1)).sum + (B.map fun m => m.transpose.mulVec e).sum) 0 := by
  have e0 : (⟨1, 1, 1⟩ : V3 ℝ) + (0 : ℝ) • e = ⟨1, 1, 1⟩ := by ext <;> simp
  have := contact_velocity_derivative_partial (t := 0) (k := .cubic 3) (P := params) (view := [0, 1]) (c := 0)
    (fun s : ℝ => (⟨1, 1, 1⟩ : V3 ℝ) + s • e) e squareTris (fun _ => 0)
    (fun (s : ℝ) v => squareX v + s • d v) d (HasD.line _ _) (fun v => HasD.line _ _)
    (by rw [square_line, e0]; exact square_smooth) rfl
    (by rw [square_line, e0]; exact square_opposed) b
  rwa [square_line, e0] at this

example (d u : ℕ → V3 ℝ) (l e : V3 ℝ) :
    ∃ A B, contactHessianAt ⟨1, 1, 1⟩ [0, 1] (faceSamples squareTris squareX fun _ => 0) (.cubic 3)
        squareTris squareX params l = some A ∧
      contactQueryHessianAt ⟨1, 1, 1⟩ [0, 1] (faceSamples squareTris squareX fun _ => 0) (.cubic 3)
        squareTris params l = some B ∧
      HasDerivAt (fun s : ℝ => V3.dot l (carried ((contactJacobianAt (⟨1, 1, 1⟩ + s • e) [0, 1]
          (faceSamples squareTris (fun v => squareX v + s • d v) fun _ => 0) (.cubic 3) params).getD [])
          [0, 1] squareTris u))
        ((A.map fun a => V3.dot (u a.row) (a.val.transpose.mulVec (d a.col))).sum +
          (B.map fun a => V3.dot (u a.1) (a.2.transpose.mulVec e)).sum) 0 := by
  have e0 : (⟨1, 1, 1⟩ : V3 ℝ) + (0 : ℝ) • e = ⟨1, 1, 1⟩ := by ext <;> simp
  have := contact_force_derivative_partial (t := 0) (k := .cubic 3) (P := params) (view := [0, 1]) (c := 0)
    (fun s : ℝ => (⟨1, 1, 1⟩ : V3 ℝ) + s • e) e squareTris (fun _ => 0)
    (fun (s : ℝ) v => squareX v + s • d v) d (HasD.line _ _) (fun v => HasD.line _ _)
    (by rw [square_line, e0]; exact square_smooth) rfl
    (by rw [square_line, e0]; exact square_opposed) l
  rw [square_line, e0] at this
  obtain ⟨A, B, hA, hB, h⟩ := this
  exact ⟨A, B, hA, hB, h u⟩

/-! ## A background that is mixed in -/

/-- A triangle, its samples. -/
abbrev demoS : Samples := faceSamples (fun _ => demoTri) demoVerts fun _ => 0

theorem demo_unit (i : ℕ) : unitNormal demoS i = ⟨0, 0, 1⟩ := by
  have : (⟨0, 0, 9⟩ : V3 ℝ).norm = 9 := by
    simp only [V3.norm, V3.dot, mul_zero, zero_add]
    exact Real.sqrt_mul_self (by norm_num)
  unfold unitNormal
  rw [demo_nml, this]
  ext <;> simp

theorem demo_weight (a : ℝ) (h0 : 0 < a) (h1 : a < 1) : 0 < weight (.cubic 1) a ⟨1, 1, a⟩ demoS 0 := by
  have : weight (.cubic 1) a ⟨1, 1, a⟩ demoS 0 = (Kern.cubic 1).f a := by
    unfold weight Kern.withClosest Kern.eval
    simp only [demo_norm a h0]
  rw [this]
  refine kernel_pos _ one_pos _ h0.le (Or.inl trivial) fun r hr => ?_
  cases hr
  exact h1

theorem axis_norm (a : ℝ) (h0 : 0 < a) : (⟨0, 0, a⟩ : V3 ℝ).norm = a := by
  rw [← demo_disp, demo_norm a h0]

/-- The gradient of the potential on the axis of a triangle. -/
theorem axis_gradient (a : ℝ) (h0 : 0 < a) (h1 : a < 1) :
    queryJacobianAt ⟨1, 1, a⟩ [0] demoS none (.cubic 1) ⟨.distanceBased, true⟩ = some ⟨0, 0, 1⟩ := by
  have h := demo_smooth a h0 h1.ne true
  obtain ⟨hcl, hw⟩ := regular_weighable (q := fun _ => (⟨1, 1, a⟩ : V3 ℝ))
    (S := fun _ => demoS) (t := 0) h.toRegular
  have hn : (1 / (demoS.nml 0).norm) • demoS.nml 0 = (⟨0, 0, 1⟩ : V3 ℝ) := demo_unit 0
  unfold queryJacobianAt
  rw [new_eq none none hcl]
  simp only [Option.map_some, Option.some.injEq, List.map_cons, List.map_nil, List.sum_cons, List.sum_nil,
    add_zero]
  have hor : (bgAt (.cubic 1) ⟨.distanceBased, true⟩ ⟨1, 1, a⟩ [0] demoS 0 none).orientation = 1 := by
    unfold Bg.orientation
    rw [if_neg]
    simp only [bgAt, Bg.newImpl, ClosestIndex.get, demo_disp, demo_nml, V3.dot]
    nlinarith
  have hfv : (bgAt (.cubic 1) ⟨.distanceBased, true⟩ ⟨1, 1, a⟩ [0] demoS 0 none).fieldValue = a := by
    unfold Bg.fieldValue
    rw [hor]
    simp only [bgAt, Bg.newImpl, BgValue.new, ClosestIndex.get, demo_norm a h0, mul_one]
  have hfg : (bgAt (.cubic 1) ⟨.distanceBased, true⟩ ⟨1, 1, a⟩ [0] demoS 0 none).fieldGrad = ⟨0, 0, 1⟩ := by
    unfold Bg.fieldGrad
    rw [hor]
    simp only [bgAt, Bg.newImpl, BgValue.new, ClosestIndex.get, demo_disp, axis_norm a h0,
      ne_eq, h0.ne', not_false_eq_true, if_true]
    ext <;> simp [h0.ne']
  have hsum : (weight (.cubic 1) a ⟨1, 1, a⟩ demoS 0 +
      (bgAt (.cubic 1) ⟨.distanceBased, true⟩ ⟨1, 1, a⟩ [0] demoS 0 none).bgWeight) *
      (bgAt (.cubic 1) ⟨.distanceBased, true⟩ ⟨1, 1, a⟩ [0] demoS 0 none).weightSumInv = 1 := by
    unfold Bg.weightSumInv Bg.bgWeight
    simp only [bgAt, Bg.newImpl, ClosestIndex.get, demo_norm a h0, List.map_cons, List.map_nil, List.sum_cons,
      List.sum_nil, add_zero] at hw ⊢
    rw [if_neg hw, mul_one_div_cancel hw]
  unfold sampleQueryJacobian Bg.queryJacobian neighborWeightGrad
  rw [hfv, hfg]
  generalize (bgAt (.cubic 1) ⟨.distanceBased, true⟩ ⟨1, 1, a⟩ [0] demoS 0 none).bgWeightGrad none = e at *
  generalize (bgAt (.cubic 1) ⟨.distanceBased, true⟩ ⟨1, 1, a⟩ [0] demoS 0 none).bgWeight = wb at *
  generalize (bgAt (.cubic 1) ⟨.distanceBased, true⟩ ⟨1, 1, a⟩ [0] demoS 0 none).weightSumInv = wi at *
  simp only [bgAt, Bg.newImpl, ClosestIndex.get, hn, demo_disp, axis_norm a h0, if_true, List.map_cons,
    List.map_nil, List.sum_cons, List.sum_nil, add_zero]
  have hv : demoS.value 0 = 0 := rfl
  generalize weight (.cubic 1) a ⟨1, 1, a⟩ demoS 0 = w at *
  generalize weightGrad (.cubic 1) a ⟨1, 1, a⟩ demoS 0 = d at *
  have key : ∀ y : ℝ, a * wi * y * (1 - (w + wb) * wi) = 0 := by intro y; rw [hsum]; ring
  ext
  · simp [hv, V3.dot]
    linear_combination key (d.x + e.x)
  · simp [hv, V3.dot]
    linear_combination key (d.y + e.y)
  · simp [hv, V3.dot]
    linear_combination key (d.z + e.z) + hsum

theorem axis_rot (b : V3 ℝ) (tr : Bool) :
    (sampleRotation ⟨0, 0, 1⟩ ⟨0, 0, 1⟩ tr).mulVec b = b := by
  rw [rotation_eq _ _ _ _ (by norm_num [V3.dot])]
  ext <;> simp [V3.cross]

theorem axis_kernel : normalKernel ⟨0, 0, 1⟩ ⟨0, 0, 1⟩ = 1 := by
  norm_num [normalKernel, V3.dot]

theorem axis_inv (a : ℝ) (h0 : 0 < a) (h1 : a < 1) :
    weightNmlSumInv (.cubic 1) a ⟨1, 1, a⟩ [0] demoS ⟨0, 0, 1⟩ =
      (weight (.cubic 1) a ⟨1, 1, a⟩ demoS 0)⁻¹ := by
  rw [nmlSumInv_eq]
  · simp only [List.map_cons, List.map_nil, List.sum_cons, List.sum_nil, add_zero, demo_unit, axis_kernel, mul_one]
  · intro i hi
    rw [List.mem_singleton.1 hi]
    exact (demo_weight a h0 h1).le

theorem axis_still (a : ℝ) (h0 : 0 < a) (h1 : a < 1) (b : ℕ → V3 ℝ) :
    carried ((contactJacobianAt ⟨1, 1, a⟩ [0] demoS (.cubic 1) ⟨.distanceBased, true⟩).getD []) [0]
      (fun _ => demoTri) b = mean (fun _ => demoTri) b 0 := by
  refine eq_of_dot fun m => ?_
  rw [(carried_blend (demo_smooth a h0 h1.ne true) (axis_gradient a h0 h1) _ m b).1]
  have hw := demo_weight a h0 h1
  have hc : ∀ u : V3 ℝ, V3.dot u m = V3.dot m u := fun u => by simp only [V3.dot]; ring
  unfold blend
  simp only [List.map_cons, List.map_nil, List.sum_cons, List.sum_nil, add_zero, demo_unit, demo_norm a h0]
  rw [axis_rot, axis_kernel, axis_inv a h0 h1, hc, mul_one, mul_right_comm, mul_inv_cancel₀ hw.ne', one_mul]

/-- C86 fails with a background that is mixed in: the code counts the change of the weight of the background,
which the contact Jacobian does not have. Moving a point along the axis of a triangle leaves its contact
Jacobian as it is, but the derivative that the code computes is not zero. -/
theorem contact_velocity_derivative_violated :
    ∃ B v, contactQueryJacobianJacobianAt ⟨1, 1, 1 / 2⟩ [0] demoS (.cubic 1) (fun _ => demoTri)
        ⟨.distanceBased, true⟩ (fun _ => ⟨1, 0, 0⟩) = some B ∧
      HasD (fun s : ℝ => carried ((contactJacobianAt ⟨1, 1, 1 / 2 + s⟩ [0] demoS (.cubic 1)
        ⟨.distanceBased, true⟩).getD []) [0] (fun _ => demoTri) (fun _ => ⟨1, 0, 0⟩)) v 0 ∧
      v ≠ (B.map fun m => m.transpose.mulVec ⟨0, 0, 1⟩).sum := by
  have hq : HasD (fun s : ℝ => (⟨1, 1, 1 / 2 + s⟩ : V3 ℝ)) ⟨0, 0, 1⟩ 0 := by
    refine ⟨hasDerivAt_const _ _, hasDerivAt_const _ _, ?_⟩
    exact (hasDerivAt_id (0 : ℝ)).const_add (1 / 2)
  have hev : ∀ᶠ s : ℝ in nhds 0, 0 < 1 / 2 + s ∧ 1 / 2 + s < 1 := by
    have : Set.Ioo (-1 / 2 : ℝ) (1 / 2) ∈ nhds (0 : ℝ) := Ioo_mem_nhds (by norm_num) (by norm_num)
    filter_upwards [this] with s hs
    constructor <;> linarith [hs.1, hs.2]
  have h := demo_smooth (1 / 2) (by norm_num) (by norm_num) true
  have hg := axis_gradient (1 / 2) (by norm_num) (by norm_num)
  obtain ⟨hcl, -⟩ := regular_weighable (q := fun _ => (⟨1, 1, 1 / 2⟩ : V3 ℝ))
    (S := fun _ => demoS) (t := 0) h.toRegular
  obtain ⟨H, hH, hD⟩ := query_hessian (t := 0) (fun s : ℝ => (⟨1, 1, 1 / 2 + s⟩ : V3 ℝ)) ⟨0, 0, 1⟩ demoS none
    (by simpa using h) hq
  have hH0 : H.mulVec ⟨0, 0, 1⟩ = 0 := by
    have : HasD (fun s : ℝ => (queryJacobianAt ⟨1, 1, 1 / 2 + s⟩ [0] demoS none (.cubic 1)
        ⟨.distanceBased, true⟩).getD 0) 0 0 := by
      refine (HasD.const ⟨0, 0, 1⟩).congr_of_eventuallyEq ?_
      filter_upwards [hev] with s hs
      rw [axis_gradient _ hs.1 hs.2]
      rfl
    ext
    · exact hD.1.unique this.1
    · exact hD.2.1.unique this.2.1
    · exact hD.2.2.unique this.2.2
  simp only [add_zero] at hH
  obtain ⟨B, hB⟩ : ∃ B, B = [queryContactProduct
      (bgAt (.cubic 1) ⟨.distanceBased, true⟩ ⟨1, 1, 1 / 2⟩ [0] demoS 0 none) ⟨0, 0, 1⟩
      (neighborNmlWeightGrad (bgAt (.cubic 1) ⟨.distanceBased, true⟩ ⟨1, 1, 1 / 2⟩ [0] demoS 0 none)
        ⟨0, 0, 1⟩ H.transpose) H
      (weightNmlSumInv (.cubic 1) (1 / 2) ⟨1, 1, 1 / 2⟩ [0] demoS ⟨0, 0, 1⟩) 0
      (sampleMultiplier (fun _ => demoTri) (fun _ => ⟨1, 0, 0⟩) 0) false] := ⟨_, rfl⟩
  refine ⟨B, 0, ?_, ?_, ?_⟩
  · unfold contactQueryJacobianJacobianAt
    rw [local_eq none hcl, hg, hH, hB, ← demo_norm (1 / 2) (by norm_num)]
    rfl
  · refine (HasD.const (mean (fun _ => demoTri) (fun _ => ⟨1, 0, 0⟩) 0)).congr_of_eventuallyEq ?_
    filter_upwards [hev] with s hs
    exact axis_still _ hs.1 hs.2 _
  · intro e
    have e := congrArg (V3.dot ⟨1, 0, 0⟩) e
    have hw := demo_weight (1 / 2) (by norm_num) (by norm_num)
    have hb : V3.dot ((bgAt (.cubic 1) ⟨.distanceBased, true⟩ ⟨1, 1, 1 / 2⟩ [0] demoS 0 none).bgWeightGrad none)
        ⟨0, 0, 1⟩ = 3 / 2 := by
      have hf : ¬ (bgAt (.cubic 1) ⟨.distanceBased, true⟩ ⟨1, 1, 1 / 2⟩ [0] demoS 0 none).flat := by
        rintro (⟨r, hr, h'⟩ | h')
        · cases hr
          simp only [bgAt, Bg.newImpl, ClosestIndex.get, demo_disp, axis_norm (1 / 2 : ℝ) (by norm_num)] at h'
          norm_num at h'
        · cases h'
      unfold Bg.bgWeightGrad Bg.edgeDf
      rw [if_neg hf]
      simp only [bgAt, Bg.newImpl, ClosestIndex.get, demo_disp, axis_norm (1 / 2 : ℝ) (by norm_num), Kern.radius,
        Option.map_some, Option.getD_some, Kern.df, cubicDf]
      norm_num [V3.dot]
    have hk : V3.dot (normalKernelGrad ⟨0, 0, 1⟩ ⟨0, 0, 1⟩ 0 H.transpose) ⟨0, 0, 1⟩ = 0 := by
      have := normalKernelGrad_dot (bgAt (.cubic 1) ⟨.distanceBased, true⟩ ⟨1, 1, 1 / 2⟩ [0] demoS 0 none)
        ⟨0, 0, 1⟩ ⟨0, 0, 1⟩ H 0
      rw [hH0] at this
      simp only [bgAt, Bg.newImpl, demo_unit] at this
      rw [this]
      simp [V3.dot]
    have hm : sampleMultiplier (fun _ => demoTri) (fun _ => (⟨1, 0, 0⟩ : V3 ℝ)) 0 = ⟨1, 0, 0⟩ := by
      ext <;> norm_num [sampleMultiplier, List.finRange_succ]
    rw [hB] at e
    simp only [List.map_cons, List.map_nil, List.sum_cons, List.sum_nil, add_zero] at e
    rw [qf_transpose_dot, qf_queryProduct, hH0, rodDir_zero, hm] at e
    unfold neighborNmlWeightGrad at e
    generalize (bgAt (.cubic 1) ⟨.distanceBased, true⟩ ⟨1, 1, 1 / 2⟩ [0] demoS 0 none).bgWeightGrad none = gb
      at e hb
    simp only [bgAt, Bg.newImpl, ClosestIndex.get, demo_unit, demo_disp, axis_norm (1 / 2 : ℝ) (by norm_num),
      List.map_cons, List.map_nil, List.sum_cons, List.sum_nil, add_zero, axis_kernel, axis_rot,
      axis_inv (1 / 2) (by norm_num) (by norm_num), dot_smul_left, Field.dot_add_left, hb, hk] at e
    generalize weight (.cubic 1) (1 / 2) ⟨1, 1, 1 / 2⟩ demoS 0 = w at e hw
    have e1 : V3.dot (⟨1, 0, 0⟩ : V3 ℝ) ⟨1, 0, 0⟩ = 1 := by norm_num [V3.dot]
    have e2 : ∀ v : V3 ℝ, V3.dot v 0 = 0 := fun v => by simp [V3.dot]
    have e3 : ∀ v : V3 ℝ, V3.dot 0 v = 0 := fun v => by simp [V3.dot]
    simp only [e1, e2, e3, mul_zero, add_zero, mul_one, one_mul, mul_inv_cancel₀ hw.ne'] at e
    have : w⁻¹ * (3 / 2) = 0 := by linear_combination e
    have := inv_pos.2 hw
    linarith

end Softy.Contact
