import Verif.Model.FieldHessian
import Verif.Lemmas.Field

/-!
# Second derivatives of weighted averages, and quadratic forms of block matrices
-/

noncomputable section

namespace Softy.Field

open Softy Softy.Kernel

/-! ## Weighted averages -/

/-- The first derivative of a weighted average of `psi` with weights `w`, whose derivatives are `b` and
`a`. -/
def firstForm {ι : Type*} (l : List ι) (w psi a b : ι → ℝ) : ℝ :=
  ((l.map w).sum)⁻¹ * (l.map fun i => a i * psi i + w i * b i).sum -
    ((l.map w).sum)⁻¹ * ((l.map w).sum)⁻¹ * (l.map fun i => w i * psi i).sum * (l.map a).sum

/-- The second derivative of a weighted average in two directions: `a`, `b` and `a'`, `b'` are the
derivatives of weights and values, `aa` and `bb` their second derivatives. -/
def secondForm {ι : Type*} (l : List ι) (w psi a b a' b' aa bb : ι → ℝ) : ℝ :=
  ((l.map w).sum)⁻¹ * (l.map fun i => aa i * psi i + a i * b' i + a' i * b i + w i * bb i).sum -
    ((l.map w).sum)⁻¹ * ((l.map w).sum)⁻¹ * (l.map fun i => a i * psi i + w i * b i).sum *
      (l.map a').sum -
    ((l.map w).sum)⁻¹ * ((l.map w).sum)⁻¹ * (l.map fun i => a' i * psi i + w i * b' i).sum *
      (l.map a).sum -
    ((l.map w).sum)⁻¹ * ((l.map w).sum)⁻¹ * (l.map fun i => w i * psi i).sum * (l.map aa).sum +
    2 * (((l.map w).sum)⁻¹ * ((l.map w).sum)⁻¹ * ((l.map w).sum)⁻¹) *
      (l.map fun i => w i * psi i).sum * (l.map a).sum * (l.map a').sum

theorem firstForm_hasDeriv {ι : Type*} {l : List ι} {w psi a b : ι → ℝ → ℝ} {a' b' aa bb : ι → ℝ}
    {t : ℝ} (hw : ∀ i ∈ l, HasDerivAt (w i) (a' i) t) (hpsi : ∀ i ∈ l, HasDerivAt (psi i) (b' i) t)
    (ha : ∀ i ∈ l, HasDerivAt (a i) (aa i) t) (hb : ∀ i ∈ l, HasDerivAt (b i) (bb i) t)
    (hW : (l.map fun i => w i t).sum ≠ 0) :
    HasDerivAt (fun s => firstForm l (fun i => w i s) (fun i => psi i s) (fun i => a i s)
        fun i => b i s)
      (secondForm l (fun i => w i t) (fun i => psi i t) (fun i => a i t) (fun i => b i t) a' b' aa bb)
      t := by
  have h1 := sum_hasDeriv hw
  have h2 := h1.fun_inv hW
  have h3 := sum_hasDeriv (l := l) (f := fun i s => a i s * psi i s + w i s * b i s)
    fun i hi => ((ha i hi).fun_mul (hpsi i hi)).fun_add ((hw i hi).fun_mul (hb i hi))
  have h4 := sum_hasDeriv (l := l) (f := fun i s => w i s * psi i s)
    fun i hi => (hw i hi).fun_mul (hpsi i hi)
  have h5 := sum_hasDeriv ha
  refine ((h2.fun_mul h3).fun_sub (((h2.fun_mul h2).fun_mul h4).fun_mul h5)).congr_deriv ?_
  unfold secondForm
  have e1 : (l.map fun i => aa i * psi i t + a i t * b' i + (a' i * b i t + w i t * bb i)).sum =
      (l.map fun i => aa i * psi i t + a i t * b' i + a' i * b i t + w i t * bb i).sum := by
    congr 1
    refine List.map_congr_left fun i _ => by ring
  rw [e1]
  generalize (l.map fun i => w i t).sum = W at *
  generalize (l.map a').sum = A'
  generalize (l.map aa).sum = AA
  generalize (l.map fun i => a i t).sum = A
  generalize (l.map fun i => a' i * psi i t + w i t * b' i).sum = X'
  generalize (l.map fun i => a i t * psi i t + w i t * b i t).sum = X
  generalize (l.map fun i => w i t * psi i t).sum = Z
  generalize (l.map fun i => aa i * psi i t + a i t * b' i + a' i * b i t + w i t * bb i).sum = Y
  field_simp
  ring

theorem firstForm_congr {ι : Type*} {l : List ι} {w psi a b w2 psi2 a2 b2 : ι → ℝ}
    (h1 : ∀ i ∈ l, w i = w2 i) (h2 : ∀ i ∈ l, a i = a2 i)
    (h3 : ∀ i ∈ l, a i = 0 ∨ psi i = psi2 i) (h4 : ∀ i ∈ l, w i = 0 ∨ b i = b2 i)
    (h5 : ∀ i ∈ l, w i = 0 ∨ psi i = psi2 i) :
    firstForm l w psi a b = firstForm l w2 psi2 a2 b2 := by
  unfold firstForm
  rw [List.map_congr_left h1, List.map_congr_left h2]
  have e1 : (l.map fun i => a i * psi i + w i * b i) = l.map fun i => a2 i * psi2 i + w2 i * b2 i :=
    List.map_congr_left fun i hi => by
      rw [← h1 i hi, ← h2 i hi]
      rcases h3 i hi with h | h <;> rcases h4 i hi with h' | h' <;> simp [h, h']
  have e2 : (l.map fun i => w i * psi i) = l.map fun i => w2 i * psi2 i :=
    List.map_congr_left fun i hi => by
      rw [← h1 i hi]
      rcases h5 i hi with h | h <;> simp [h]
  rw [e1, e2]

theorem secondForm_congr {ι : Type*} {l : List ι}
    {w psi a b a' b' aa bb w2 psi2 a2 b2 a2' b2' aa2 bb2 : ι → ℝ}
    (h1 : ∀ i ∈ l, w i = w2 i) (h2 : ∀ i ∈ l, a i = a2 i) (h3 : ∀ i ∈ l, a' i = a2' i)
    (h4 : ∀ i ∈ l, aa i = aa2 i)
    (h5 : ∀ i ∈ l, (w i = 0 ∧ a i = 0 ∧ a' i = 0 ∧ aa i = 0) ∨
      (psi i = psi2 i ∧ b i = b2 i ∧ b' i = b2' i ∧ bb i = bb2 i)) :
    secondForm l w psi a b a' b' aa bb = secondForm l w2 psi2 a2 b2 a2' b2' aa2 bb2 := by
  unfold secondForm
  rw [List.map_congr_left h1, List.map_congr_left h2, List.map_congr_left h3, List.map_congr_left h4]
  have e1 : (l.map fun i => aa i * psi i + a i * b' i + a' i * b i + w i * bb i) =
      l.map fun i => aa2 i * psi2 i + a2 i * b2' i + a2' i * b2 i + w2 i * bb2 i :=
    List.map_congr_left fun i hi => by
      rw [← h1 i hi, ← h2 i hi, ← h3 i hi, ← h4 i hi]
      rcases h5 i hi with ⟨p, q, r, s⟩ | ⟨p, q, r, s⟩ <;> simp [p, q, r, s]
  have e2 : (l.map fun i => a i * psi i + w i * b i) = l.map fun i => a2 i * psi2 i + w2 i * b2 i :=
    List.map_congr_left fun i hi => by
      rw [← h1 i hi, ← h2 i hi]
      rcases h5 i hi with ⟨p, q, r, s⟩ | ⟨p, q, r, s⟩ <;> simp [p, q]
  have e3 : (l.map fun i => a' i * psi i + w i * b' i) =
      l.map fun i => a2' i * psi2 i + w2 i * b2' i :=
    List.map_congr_left fun i hi => by
      rw [← h1 i hi, ← h3 i hi]
      rcases h5 i hi with ⟨p, q, r, s⟩ | ⟨p, q, r, s⟩ <;> simp [p, r]
  have e4 : (l.map fun i => w i * psi i) = l.map fun i => w2 i * psi2 i :=
    List.map_congr_left fun i hi => by
      rw [← h1 i hi]
      rcases h5 i hi with ⟨p, q, r, s⟩ | ⟨p, q, r, s⟩ <;> simp [p]
  rw [e1, e2, e3, e4]

/-- Weights only matter up to a common factor. -/
theorem firstForm_scale {ι : Type*} (l : List ι) (w psi a b : ι → ℝ) (c : ℝ) (hc : c ≠ 0) :
    firstForm l (fun i => c * w i) psi (fun i => c * a i) b = firstForm l w psi a b := by
  unfold firstForm
  have e1 : (l.map fun i => c * w i).sum = c * (l.map w).sum := by
    rw [← List.sum_map_mul_left]
  have e2 : (l.map fun i => c * a i).sum = c * (l.map a).sum := by
    rw [← List.sum_map_mul_left]
  have e3 : (l.map fun i => c * a i * psi i + c * w i * b i).sum =
      c * (l.map fun i => a i * psi i + w i * b i).sum := by
    rw [← List.sum_map_mul_left]
    congr 1
    exact List.map_congr_left fun i _ => by ring
  have e4 : (l.map fun i => c * w i * psi i).sum = c * (l.map fun i => w i * psi i).sum := by
    rw [← List.sum_map_mul_left]
    congr 1
    exact List.map_congr_left fun i _ => by ring
  rw [e1, e2, e3, e4, mul_inv]
  have : c⁻¹ * c = 1 := inv_mul_cancel₀ hc
  linear_combination ((l.map w).sum⁻¹ * (l.map fun i => a i * psi i + w i * b i).sum -
    (c⁻¹ * c + 1) * ((l.map w).sum⁻¹ * (l.map w).sum⁻¹ * (l.map fun i => w i * psi i).sum *
      (l.map a).sum)) * this

theorem sum_lin2 {ι : Type*} (l : List ι) (f g : ι → ℝ) :
    (l.map fun i => f i + g i).sum = (l.map f).sum + (l.map g).sum := by
  rw [← List.sum_map_add]

/-- The second derivative is additive in its first direction. -/
theorem secondForm_add_left {ι : Type*} (l : List ι)
    (w psi a b a2 b2 a' b' aa bb aa2 bb2 : ι → ℝ) :
    secondForm l w psi (fun i => a i + a2 i) (fun i => b i + b2 i) a' b' (fun i => aa i + aa2 i)
        (fun i => bb i + bb2 i) =
      secondForm l w psi a b a' b' aa bb + secondForm l w psi a2 b2 a' b' aa2 bb2 := by
  unfold secondForm
  have e1 : (l.map fun i => (aa i + aa2 i) * psi i + (a i + a2 i) * b' i + a' i * (b i + b2 i) +
      w i * (bb i + bb2 i)).sum =
      (l.map fun i => aa i * psi i + a i * b' i + a' i * b i + w i * bb i).sum +
      (l.map fun i => aa2 i * psi i + a2 i * b' i + a' i * b2 i + w i * bb2 i).sum := by
    rw [← sum_lin2]
    congr 1
    exact List.map_congr_left fun i _ => by ring
  have e2 : (l.map fun i => (a i + a2 i) * psi i + w i * (b i + b2 i)).sum =
      (l.map fun i => a i * psi i + w i * b i).sum + (l.map fun i => a2 i * psi i + w i * b2 i).sum := by
    rw [← sum_lin2]
    congr 1
    exact List.map_congr_left fun i _ => by ring
  rw [e1, e2, sum_lin2 l a a2, sum_lin2 l aa aa2]
  ring

theorem secondForm_symm {ι : Type*} (l : List ι) (w psi a b a' b' aa bb : ι → ℝ) :
    secondForm l w psi a b a' b' aa bb = secondForm l w psi a' b' a b aa bb := by
  unfold secondForm
  have e1 : (l.map fun i => aa i * psi i + a i * b' i + a' i * b i + w i * bb i).sum =
      (l.map fun i => aa i * psi i + a' i * b i + a i * b' i + w i * bb i).sum := by
    congr 1
    exact List.map_congr_left fun i _ => by ring
  rw [e1]
  ring

/-- The second derivative is additive in its second direction. -/
theorem secondForm_add_right {ι : Type*} (l : List ι)
    (w psi a b a' b' a2 b2 aa bb aa2 bb2 : ι → ℝ) :
    secondForm l w psi a b (fun i => a' i + a2 i) (fun i => b' i + b2 i) (fun i => aa i + aa2 i)
        (fun i => bb i + bb2 i) =
      secondForm l w psi a b a' b' aa bb + secondForm l w psi a b a2 b2 aa2 bb2 := by
  rw [secondForm_symm, secondForm_add_left, secondForm_symm, secondForm_symm l w psi a2]

/-! ## Quadratic forms -/

/-- The bilinear form of a matrix. -/
def qf (u : V3 ℝ) (M : M3 ℝ) (w : V3 ℝ) : ℝ := V3.dot u (M3.mulVec M w)

theorem qf_add (u w : V3 ℝ) (M N : M3 ℝ) : qf u (M + N) w = qf u M w + qf u N w := by
  unfold qf; rw [M3.mulVec_add, dot_add_right]

theorem qf_sub (u w : V3 ℝ) (M N : M3 ℝ) : qf u (M - N) w = qf u M w - qf u N w := by
  unfold qf; rw [M3.mulVec_sub, dot_sub_right]

theorem qf_neg (u w : V3 ℝ) (M : M3 ℝ) : qf u (-M) w = -qf u M w := by
  unfold qf; rw [M3.mulVec_neg, dot_neg_right]

theorem qf_smul (u w : V3 ℝ) (c : ℝ) (M : M3 ℝ) : qf u (c • M) w = c * qf u M w := by
  unfold qf; rw [M3.mulVec_smul, dot_smul_right]

theorem qf_zero (u w : V3 ℝ) : qf u 0 w = 0 := by
  simp [qf, M3.mulVec, V3.dot]

theorem qf_zero_left (w : V3 ℝ) (M : M3 ℝ) : qf 0 M w = 0 := dot_zero_left _

theorem qf_zero_right (u : V3 ℝ) (M : M3 ℝ) : qf u M 0 = 0 := by
  simp [qf, M3.mulVec, V3.dot]

theorem qf_outer (u w a b : V3 ℝ) : qf u (M3.outer a b) w = V3.dot a u * V3.dot b w := by
  unfold qf
  rw [M3.mulVec_outer, dot_smul_right, dot_symm u a]
  ring

theorem qf_symOuter (u w a b : V3 ℝ) :
    qf u (symOuter a b) w = V3.dot a u * V3.dot b w + V3.dot b u * V3.dot a w := by
  simp only [qf, symOuter, M3.mulVec, V3.dot]
  ring

theorem qf_diag (u w : V3 ℝ) (c : ℝ) : qf u (M3.diag c) w = c * V3.dot u w := by
  unfold qf; rw [M3.mulVec_diag, dot_smul_right]

theorem qf_transpose (u w : V3 ℝ) (M : M3 ℝ) : qf u M.transpose w = qf w M u := by
  simp only [qf, M3.transpose, M3.mulVec, V3.dot]
  ring

theorem qf_add_left (u v w : V3 ℝ) (M : M3 ℝ) : qf (u + v) M w = qf u M w + qf v M w := by
  unfold qf; rw [dot_add_left]

theorem qf_sub_left (u v w : V3 ℝ) (M : M3 ℝ) : qf (u - v) M w = qf u M w - qf v M w := by
  unfold qf; rw [dot_sub_left]

theorem qf_smul_left (c : ℝ) (u w : V3 ℝ) (M : M3 ℝ) : qf (c • u) M w = c * qf u M w := by
  unfold qf; rw [dot_smul_left]

theorem qf_add_right (u v w : V3 ℝ) (M : M3 ℝ) : qf u M (v + w) = qf u M v + qf u M w := by
  unfold qf; rw [M3.mulVec_vadd, dot_add_right]

theorem qf_sub_right (u v w : V3 ℝ) (M : M3 ℝ) : qf u M (v - w) = qf u M v - qf u M w := by
  unfold qf; rw [M3.mulVec_vsub, dot_sub_right]

theorem qf_smul_right (c : ℝ) (u w : V3 ℝ) (M : M3 ℝ) : qf u M (c • w) = c * qf u M w := by
  unfold qf; rw [M3.mulVec_vsmul, dot_smul_right]

theorem qf_sum {ι : Type*} (u w : V3 ℝ) (l : List ι) (M : ι → M3 ℝ) :
    qf u (l.map M).sum w = (l.map fun i => qf u (M i) w).sum := by
  induction l with
  | nil => exact qf_zero u w
  | cons i l ih => simp only [List.map_cons, List.sum_cons, qf_add, ih]

/-- Two matrices with the same bilinear form are equal. -/
theorem mulVec_of_qf {M N : M3 ℝ} {w : V3 ℝ} (h : ∀ u, qf u M w = V3.dot u (M3.mulVec N w)) :
    M3.mulVec M w = M3.mulVec N w := by
  have hx := h ⟨1, 0, 0⟩
  have hy := h ⟨0, 1, 0⟩
  have hz := h ⟨0, 0, 1⟩
  simp only [qf, V3.dot, one_mul, zero_mul, add_zero, zero_add] at hx hy hz
  ext <;> assumption

end Softy.Field
