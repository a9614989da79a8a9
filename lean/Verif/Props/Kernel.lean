import Verif.Model.Kernel
import Verif.Lemmas.VecCalc
import Verif.Lemmas.MatCalc

/-!
# C32: the kernels of the implicit surfaces
-/

noncomputable section

namespace Softy.Kernel

open Softy

/-! ## Specification -/

/-- Meaningful parameters: positive radii and tolerances. -/
def Kern.Proper : Kern → Prop
  | .global eps => 0 < eps
  | .cubic r => 0 < r
  | .interpolating r xc => 0 < r ∧ 0 < xc
  | .smooth r t => 0 < r ∧ 0 < t
  | .approximate r eps => 0 < r ∧ 0 < eps

/-- The kernel has a finite value at zero. -/
def Kern.Finite : Kern → Prop
  | .interpolating _ _ => False
  | _ => True

/-! ## Functions that are cut off -/

open Classical in
theorem cut_deriv {P : ℝ → ℝ} {P' r x : ℝ} (h : x ≠ r) (hP : x < r → HasDerivAt P P' x) :
    HasDerivAt (fun y => if y > r then 0 else P y) (if x > r then 0 else P') x := by
  rcases lt_or_gt_of_ne h with h | h
  · rw [if_neg (not_lt.2 h.le)]
    refine (hP h).congr_of_eventuallyEq ?_
    filter_upwards [Iio_mem_nhds h] with y hy
    exact if_neg (not_lt.2 (le_of_lt hy))
  · rw [if_pos h]
    refine (hasDerivAt_const x (0 : ℝ)).congr_of_eventuallyEq ?_
    filter_upwards [Ioi_mem_nhds h] with y hy
    exact if_pos hy

open Classical in
theorem cut_deriv_edge {P : ℝ → ℝ} {r : ℝ} (h0 : P r = 0) (hP : HasDerivAt P 0 r) :
    HasDerivAt (fun y => if y > r then 0 else P y) 0 r := by
  have h1 : HasDerivWithinAt (fun y => if y > r then 0 else P y) 0 (Set.Iic r) r := by
    refine hP.hasDerivWithinAt.congr (fun y hy => if_neg (not_lt.2 hy)) (if_neg (lt_irrefl r))
  have h2 : HasDerivWithinAt (fun y => if y > r then 0 else P y) 0 (Set.Ici r) r := by
    refine (hasDerivWithinAt_const r (Set.Ici r) (0 : ℝ)).congr (fun y hy => ?_) ?_
    · rcases eq_or_lt_of_le (Set.mem_Ici.1 hy) with rfl | hy
      · rw [if_neg (lt_irrefl _), h0]
      · exact if_pos hy
    · rw [if_neg (lt_irrefl _), h0]
  have h3 := h1.union h2
  rw [Set.Iic_union_Ici] at h3
  exact hasDerivWithinAt_univ.1 h3

/-! ## Formulas -/

section Dual
variable {T : Type} [Scal T] (a b : Dual T)
theorem add_x : (a + b).x = a.x + b.x := rfl
theorem add_dx : (a + b).dx = a.dx + b.dx := rfl
theorem sub_x : (a - b).x = a.x - b.x := rfl
theorem sub_dx : (a - b).dx = a.dx - b.dx := rfl
theorem mul_x : (a * b).x = a.x * b.x := rfl
theorem mul_dx : (a * b).dx = a.dx * b.x + a.x * b.dx := rfl
theorem div_x : (a / b).x = a.x / b.x := rfl
theorem div_dx : (a / b).dx = (a.dx * b.x - a.x * b.dx) / (b.x * b.x) := rfl
theorem lit_x (c : ℝ) : (lit c : Dual T).x = lit c := rfl
theorem lit_dx (c : ℝ) : (lit c : Dual T).dx = lit 0 := rfl
theorem var_x (c : T) : (Dual.var c).x = c := rfl
theorem var_dx (c : T) : (Dual.var c).dx = lit 1 := rfl
theorem lit_real (c : ℝ) : (lit c : ℝ) = c := rfl
end Dual

theorem cubicF_eq (r x : ℝ) : cubicF r x =
    open Classical in if x > r then 0 else 1 - 3 * x * x / (r * r) + 2 * x * x * x / (r * r * r) := rfl

theorem interpolatingF_eq (r xc x : ℝ) : interpolatingF r xc x =
    open Classical in if x > r then 0 else (1 - 3 * x * x / (r * r) + 2 * x * x * x / (r * r * r)) *
      (xc / r) * (xc / r) * (1 / (x / r * (x / r)) - 1) := by
  classical
  simp only [interpolatingF, cubicF_eq]
  show (if x > r then (0 : ℝ) else _) = _
  by_cases h : x > r
  · rw [if_pos h, if_pos h]
  · rw [if_neg h, if_neg h, if_neg h]; rfl

theorem interpolatingDf_eq (r xc x : ℝ) (hr : r ≠ 0) (hx : x ≠ 0) : interpolatingDf r xc x =
    open Classical in if x > r then 0 else
      (xc / r) * (xc / r) * (-2 * r ^ 2 / x ^ 3 + 2 / r + 6 * x / r ^ 2 - 6 * x ^ 2 / r ^ 3) := by
  classical
  unfold interpolatingDf interpolatingF
  have hv : Scal.val (Dual.var x) = x := rfl
  rw [hv]
  by_cases h : x > r
  · rw [if_pos h, if_pos h]; rfl
  · rw [if_neg h, if_neg h]
    unfold cubicF
    rw [hv, if_neg h]
    simp only [add_x, add_dx, sub_x, sub_dx, mul_x, mul_dx, div_x, div_dx, lit_x, lit_dx, var_x, var_dx,
      lit_real]
    field_simp
    ring

theorem interpolatingDdf_eq (r xc x : ℝ) (hr : r ≠ 0) (hx : x ≠ 0) :
    (interpolatingDf r xc (Dual.var x)).dx =
    open Classical in if x > r then 0 else
      (xc / r) * (xc / r) * (6 * r ^ 2 / x ^ 4 + 6 / r ^ 2 - 12 * x / r ^ 3) := by
  classical
  unfold interpolatingDf interpolatingF
  have hv : Scal.val (Dual.var (Dual.var x)) = x := rfl
  rw [hv]
  by_cases h : x > r
  · rw [if_pos h, if_pos h]; rfl
  · rw [if_neg h, if_neg h]
    unfold cubicF
    rw [hv, if_neg h]
    simp only [add_x, add_dx, sub_x, sub_dx, mul_x, mul_dx, div_x, div_dx, lit_x, lit_dx, var_x, var_dx,
      lit_real, zero_mul, mul_zero, add_zero, zero_add, mul_one, one_mul, sub_zero, zero_sub, zero_div]
    field_simp
    ring

theorem globalF_eq (eps x : ℝ) :
    globalF eps x = 1 / (x * x + eps * eps) * (1 / (x * x + eps * eps)) := rfl

theorem globalDf_eq (eps x : ℝ) (h : x * x + eps * eps ≠ 0) :
    globalDf eps x = -4 * x / (x * x + eps * eps) ^ 3 := by
  unfold globalDf globalF
  simp only [add_x, add_dx, mul_x, mul_dx, div_x, div_dx, lit_x, lit_dx, var_x, var_dx,
    lit_real, zero_mul, mul_zero, add_zero, zero_add, mul_one, one_mul, zero_sub]
  field_simp
  ring

theorem globalDdf_eq (eps x : ℝ) (h : x * x + eps * eps ≠ 0) :
    (globalDf eps (Dual.var x)).dx = (20 * x ^ 2 - 4 * eps ^ 2) / (x * x + eps * eps) ^ 4 := by
  unfold globalDf globalF
  simp only [add_x, add_dx, mul_x, mul_dx, div_x, div_dx, sub_x, sub_dx, lit_x, lit_dx, var_x, var_dx,
    lit_real, zero_mul, mul_zero, add_zero, zero_add, mul_one, one_mul, zero_sub, sub_zero]
  field_simp
  ring

/-! ## Derivatives of the formulas -/

theorem cubic_poly (r x : ℝ) (hr : r ≠ 0) :
    HasDerivAt (fun x : ℝ => 1 - 3 * x * x / (r * r) + 2 * x * x * x / (r * r * r))
      (6 * (x * x / (r * r * r) - x / (r * r))) x := by
  have hx := hasDerivAt_id' x
  refine (((((hx.const_mul 3).fun_mul hx).div_const (r * r)).const_sub 1).fun_add
    ((((hx.const_mul 2).fun_mul hx).fun_mul hx).div_const (r * r * r))).congr_deriv ?_
  field_simp
  ring

theorem cubic_poly' (r x : ℝ) (hr : r ≠ 0) :
    HasDerivAt (fun x : ℝ => 6 * (x * x / (r * r * r) - x / (r * r)))
      (12 * x / (r * r * r) - 6 / (r * r)) x := by
  have hx := hasDerivAt_id' x
  refine ((((hx.fun_mul hx).div_const (r * r * r)).fun_sub (hx.div_const (r * r))).const_mul 6).congr_deriv
    ?_
  field_simp
  ring

theorem interpolating_poly (r xc x : ℝ) (hr : r ≠ 0) (h0 : x ≠ 0) :
    HasDerivAt (fun x : ℝ => (1 - 3 * x * x / (r * r) + 2 * x * x * x / (r * r * r)) *
      (xc / r) * (xc / r) * (1 / (x / r * (x / r)) - 1))
      ((xc / r) * (xc / r) * (-2 * r ^ 2 / x ^ 3 + 2 / r + 6 * x / r ^ 2 - 6 * x ^ 2 / r ^ 3)) x := by
  have hx := hasDerivAt_id' x
  have h1 : x / r * (x / r) ≠ 0 := by positivity
  refine ((((cubic_poly r x hr).mul_const (xc / r)).mul_const (xc / r)).fun_mul
    (((hasDerivAt_const x (1 : ℝ)).fun_div ((hx.div_const r).fun_mul (hx.div_const r)) h1).sub_const
      1)).congr_deriv ?_
  field_simp
  ring

theorem interpolating_poly' (r xc x : ℝ) (hr : r ≠ 0) (h0 : x ≠ 0) :
    HasDerivAt (fun x : ℝ =>
      (xc / r) * (xc / r) * (-2 * r ^ 2 / x ^ 3 + 2 / r + 6 * x / r ^ 2 - 6 * x ^ 2 / r ^ 3))
      ((xc / r) * (xc / r) * (6 * r ^ 2 / x ^ 4 + 6 / r ^ 2 - 12 * x / r ^ 3)) x := by
  have hx := hasDerivAt_id' x
  have h3 : x ^ 3 ≠ 0 := by positivity
  refine ((((((hasDerivAt_const x (-2 * r ^ 2)).fun_div (hx.fun_pow 3) h3).add_const (2 / r)).fun_add
    ((hx.const_mul 6).div_const (r ^ 2))).fun_sub
    (((hx.fun_pow 2).const_mul 6).div_const (r ^ 3))).const_mul ((xc / r) * (xc / r))).congr_deriv ?_
  field_simp
  ring

theorem smooth_poly (r t x : ℝ) (hr : r ≠ 0) (ht : 0 < t) :
    HasDerivAt (fun x : ℝ => t * (2 * (x / r * (x / r) * (x / r)) - 3 * (x / r * (x / r)) + 1)
        / (t + x / r * (x / r)))
      (2 * t * (x / r) * (3 * t * (x / r) - 3 * t + x / r * (x / r) * (x / r) - 1)
        / (r * (t * t + 2 * t * (x / r * (x / r)) + x / r * (x / r) * (x / r) * (x / r)))) x := by
  have hx := (hasDerivAt_id' x).div_const r
  have hd : t + x / r * (x / r) ≠ 0 := (add_pos_of_pos_of_nonneg ht (mul_self_nonneg _)).ne'
  have hd2 : t * t + 2 * t * (x / r * (x / r)) + x / r * (x / r) * (x / r) * (x / r) =
      (t + x / r * (x / r)) ^ 2 := by ring
  rw [hd2]
  refine ((((((hx.fun_mul hx).fun_mul hx).const_mul 2).fun_sub ((hx.fun_mul hx).const_mul 3)).add_const
    1).const_mul t).fun_div ((hx.fun_mul hx).const_add t) hd |>.congr_deriv ?_
  generalize x / r = d at *
  field_simp
  ring

theorem smooth_poly' (r t x : ℝ) (hr : r ≠ 0) (ht : 0 < t) :
    HasDerivAt (fun x : ℝ =>
      2 * t * (x / r) * (3 * t * (x / r) - 3 * t + x / r * (x / r) * (x / r) - 1)
        / (r * (t * t + 2 * t * (x / r * (x / r)) + x / r * (x / r) * (x / r) * (x / r))))
      (2 * t * (6 * (t * t) * (x / r) - 3 * (t * t) - 2 * t * (x / r * (x / r) * (x / r))
        + 9 * t * (x / r * (x / r)) - t + 3 * (x / r * (x / r)))
      / (r * r * (t * t * t + 3 * (t * t) * (x / r * (x / r))
        + 3 * t * (x / r * (x / r) * (x / r) * (x / r))
        + x / r * (x / r) * (x / r) * (x / r * (x / r) * (x / r))))) x := by
  have hx := (hasDerivAt_id' x).div_const r
  have hd : t + x / r * (x / r) ≠ 0 := (add_pos_of_pos_of_nonneg ht (mul_self_nonneg _)).ne'
  have hd2 : t * t + 2 * t * (x / r * (x / r)) + x / r * (x / r) * (x / r) * (x / r) =
      (t + x / r * (x / r)) ^ 2 := by ring
  have hd3 : t * t * t + 3 * (t * t) * (x / r * (x / r))
        + 3 * t * (x / r * (x / r) * (x / r) * (x / r))
        + x / r * (x / r) * (x / r) * (x / r * (x / r) * (x / r)) = (t + x / r * (x / r)) ^ 3 := by ring
  have hne : r * (t * t + 2 * t * (x / r * (x / r)) + x / r * (x / r) * (x / r) * (x / r)) ≠ 0 := by
    rw [hd2]; exact mul_ne_zero hr (pow_ne_zero 2 hd)
  refine ((hx.const_mul (2 * t)).fun_mul ((((hx.const_mul (3 * t)).sub_const (3 * t)).fun_add
    ((hx.fun_mul hx).fun_mul hx)).sub_const 1)).fun_div
    (((((hx.fun_mul hx).const_mul (2 * t)).const_add (t * t)).fun_add
      (((hx.fun_mul hx).fun_mul hx).fun_mul hx)).const_mul r) hne |>.congr_deriv ?_
  rw [hd2, hd3]
  generalize x / r = d at *
  field_simp
  ring

theorem approximate_poly (r eps x : ℝ) (hr : r ≠ 0) (he : 0 < eps) :
    HasDerivAt (fun x : ℝ => eps * eps * ((1 + eps) * (1 + eps)) / (1 + 2 * eps) *
        (1 / (x / r * (x / r) + eps) * (1 / (x / r * (x / r) + eps)) - 1 / ((1 + eps) * (1 + eps))))
      (-(eps * eps * ((1 + eps) * (1 + eps)) / (1 + 2 * eps)) * 4 * (x / r) /
        (r * (x / r * (x / r) + eps) * (x / r * (x / r) + eps) * (x / r * (x / r) + eps))) x := by
  have hx := (hasDerivAt_id' x).div_const r
  have hd : x / r * (x / r) + eps ≠ 0 := (add_pos_of_nonneg_of_pos (mul_self_nonneg _) he).ne'
  have hq := (hasDerivAt_const x (1 : ℝ)).fun_div ((hx.fun_mul hx).add_const eps) hd
  refine ((hq.fun_mul hq).sub_const _).const_mul _ |>.congr_deriv ?_
  generalize x / r = d at *
  generalize eps * eps * ((1 + eps) * (1 + eps)) / (1 + 2 * eps) = c
  field_simp
  ring

theorem approximate_poly' (r eps x : ℝ) (hr : r ≠ 0) (he : 0 < eps) :
    HasDerivAt (fun x : ℝ => -(eps * eps * ((1 + eps) * (1 + eps)) / (1 + 2 * eps)) * 4 * (x / r) /
        (r * (x / r * (x / r) + eps) * (x / r * (x / r) + eps) * (x / r * (x / r) + eps)))
      (eps * eps * ((1 + eps) * (1 + eps)) / (1 + 2 * eps) * 4 *
        (6 * (x / r) * (x / r) - (x / r * (x / r) + eps)) /
        ((x / r * (x / r) + eps) * (x / r * (x / r) + eps) * (x / r * (x / r) + eps) *
          (x / r * (x / r) + eps) * r * r)) x := by
  have hx := (hasDerivAt_id' x).div_const r
  have hd : x / r * (x / r) + eps ≠ 0 := (add_pos_of_nonneg_of_pos (mul_self_nonneg _) he).ne'
  have hq := (hx.fun_mul hx).add_const eps
  have hne : r * (x / r * (x / r) + eps) * (x / r * (x / r) + eps) * (x / r * (x / r) + eps) ≠ 0 :=
    mul_ne_zero (mul_ne_zero (mul_ne_zero hr hd) hd) hd
  refine (hx.const_mul _).fun_div (((hq.const_mul r).fun_mul hq).fun_mul hq) hne |>.congr_deriv ?_
  generalize x / r = d at *
  generalize eps * eps * ((1 + eps) * (1 + eps)) / (1 + 2 * eps) = c
  field_simp
  ring

theorem global_poly (eps x : ℝ) (h : 0 < eps) :
    HasDerivAt (fun x : ℝ => 1 / (x * x + eps * eps) * (1 / (x * x + eps * eps)))
      (-4 * x / (x * x + eps * eps) ^ 3) x := by
  have hx := hasDerivAt_id' x
  have hd : x * x + eps * eps ≠ 0 := (add_pos_of_nonneg_of_pos (mul_self_nonneg _) (mul_pos h h)).ne'
  have hq := (hasDerivAt_const x (1 : ℝ)).fun_div ((hx.fun_mul hx).add_const (eps * eps)) hd
  refine (hq.fun_mul hq).congr_deriv ?_
  field_simp
  ring

theorem global_poly' (eps x : ℝ) (h : 0 < eps) :
    HasDerivAt (fun x : ℝ => -4 * x / (x * x + eps * eps) ^ 3)
      ((20 * x ^ 2 - 4 * eps ^ 2) / (x * x + eps * eps) ^ 4) x := by
  have hx := hasDerivAt_id' x
  have hd : x * x + eps * eps ≠ 0 := (add_pos_of_nonneg_of_pos (mul_self_nonneg _) (mul_pos h h)).ne'
  refine (hx.const_mul (-4)).fun_div (((hx.fun_mul hx).add_const (eps * eps)).fun_pow 3)
    (pow_ne_zero 3 hd) |>.congr_deriv ?_
  field_simp
  ring

/-! ## Theorems -/

/-- C32. Kernels are not negative. -/
theorem kernel_nonneg (k : Kern) (hk : k.Proper) (x : ℝ) (hx : 0 ≤ x)
    (h0 : k.Finite ∨ x ≠ 0) : 0 ≤ k.f x := by
  have cub : ∀ r x : ℝ, 0 < r → 0 ≤ x → ¬ x > r →
      0 ≤ 1 - 3 * x * x / (r * r) + 2 * x * x * x / (r * r * r) := by
    intro r x hr hx h
    have e : 1 - 3 * x * x / (r * r) + 2 * x * x * x / (r * r * r) =
        (1 - x / r) ^ 2 * (1 + 2 * (x / r)) := by field_simp; ring
    rw [e]
    have : 0 ≤ x / r := by positivity
    positivity
  cases k with
  | global eps => simp only [Kern.f, globalF_eq]; exact mul_self_nonneg _
  | cubic r =>
    simp only [Kern.f, cubicF_eq]
    split_ifs with h
    · exact le_rfl
    · exact cub r x hk hx h
  | interpolating r xc =>
    simp only [Kern.f, interpolatingF_eq]
    split_ifs with h
    · exact le_rfl
    · obtain ⟨hr, hc⟩ := hk
      have h1 := cub r x hr hx h
      have hx : 0 < x := lt_of_le_of_ne hx (h0.resolve_left id).symm
      have h3 : x / r ≤ 1 := (div_le_one hr).2 (not_lt.1 h)
      have h4 : 0 < x / r := by positivity
      have h2 : 0 ≤ 1 / (x / r * (x / r)) - 1 := by
        rw [sub_nonneg, le_div_iff₀ (by positivity)]
        nlinarith
      exact mul_nonneg (mul_nonneg (mul_nonneg h1 (by positivity)) (by positivity)) h2
  | smooth r t =>
    simp only [Kern.f, smoothF]
    split_ifs with h
    · exact le_rfl
    · obtain ⟨hr, ht⟩ := hk
      have e : 2 * (x / r * (x / r) * (x / r)) - 3 * (x / r * (x / r)) + 1 =
        (1 - x / r) ^ 2 * (1 + 2 * (x / r)) := by ring
      rw [e]
      have : 0 ≤ x / r := by positivity
      positivity
  | approximate r eps =>
    simp only [Kern.f, approximateF]
    split_ifs with h
    · exact le_rfl
    · obtain ⟨hr, he⟩ := hk
      have h3 : x / r ≤ 1 := (div_le_one hr).2 (not_lt.1 h)
      have h4 : 0 ≤ x / r := by positivity
      refine mul_nonneg (by positivity) ?_
      rw [sub_nonneg, ← mul_one (1 : ℝ), ← div_mul_div_comm, mul_one]
      have h5 : 1 / (1 + eps) ≤ 1 / (x / r * (x / r) + eps) :=
        one_div_le_one_div_of_le (by positivity) (by nlinarith)
      exact mul_le_mul h5 h5 (by positivity) (by positivity)

/-- C32. Local kernels vanish at and beyond their radius. -/
theorem kernel_support (k : Kern) (hk : k.Proper) (r x : ℝ) (hr : k.radius = some r) (hx : r ≤ x) :
    k.f x = 0 := by
  cases k with
  | global eps => simp [Kern.radius] at hr
  | cubic r' =>
    simp only [Kern.radius, Option.some.injEq] at hr; subst hr
    simp only [Kern.f, cubicF_eq]
    rcases eq_or_lt_of_le hx with rfl | hx
    · have h0 : r' ≠ 0 := ne_of_gt hk
      rw [if_neg (lt_irrefl _)]; field_simp; ring
    · exact if_pos hx
  | interpolating r' xc =>
    simp only [Kern.radius, Option.some.injEq] at hr; subst hr
    simp only [Kern.f, interpolatingF_eq]
    rcases eq_or_lt_of_le hx with rfl | hx
    · have h0 : r' ≠ 0 := ne_of_gt hk.1
      rw [if_neg (lt_irrefl _)]; field_simp; ring
    · exact if_pos hx
  | smooth r' t =>
    simp only [Kern.radius, Option.some.injEq] at hr; subst hr
    simp only [Kern.f, smoothF]
    rcases eq_or_lt_of_le hx with rfl | hx
    · have h0 : r' ≠ 0 := ne_of_gt hk.1
      rw [if_neg (lt_irrefl _), div_self h0]; norm_num
    · exact if_pos hx
  | approximate r' eps =>
    simp only [Kern.radius, Option.some.injEq] at hr; subst hr
    simp only [Kern.f, approximateF]
    rcases eq_or_lt_of_le hx with rfl | hx
    · have h0 : r' ≠ 0 := ne_of_gt hk.1
      rw [if_neg (lt_irrefl _), div_self h0, one_mul, one_div_mul_one_div, sub_self, mul_zero]
    · exact if_pos hx

/-- C32. Local kernels that are finite at zero are one there and at most one everywhere else. -/
theorem kernel_one (k : Kern) (hk : k.Proper) (hf : k.Finite) (hl : k.radius ≠ none) :
    k.f 0 = 1 ∧ ∀ x, 0 ≤ x → k.f x ≤ 1 := by
  cases k with
  | global eps => exact absurd rfl hl
  | interpolating r xc => exact hf.elim
  | cubic r =>
    have hr : 0 < r := hk
    simp only [Kern.f, cubicF_eq]
    refine ⟨by rw [if_neg (not_lt.2 hr.le)]; simp, fun x hx => ?_⟩
    split_ifs with h
    · exact zero_le_one
    · have e : 1 - 3 * x * x / (r * r) + 2 * x * x * x / (r * r * r) =
        1 - (x / r) ^ 2 * (3 - 2 * (x / r)) := by field_simp; ring
      rw [e, sub_le_self_iff]
      have h3 : x / r ≤ 1 := (div_le_one hr).2 (not_lt.1 h)
      exact mul_nonneg (sq_nonneg _) (by linarith)
  | smooth r t =>
    obtain ⟨hr, ht⟩ := hk
    simp only [Kern.f, smoothF]
    refine ⟨by rw [if_neg (not_lt.2 hr.le)]; simp [ht.ne'], fun x hx => ?_⟩
    split_ifs with h
    · exact zero_le_one
    · have h3 : x / r ≤ 1 := (div_le_one hr).2 (not_lt.1 h)
      have h4 : 0 ≤ x / r := by positivity
      rw [div_le_one (by positivity)]
      generalize x / r = d at *
      have : 0 ≤ t * (d * d * (3 - 2 * d)) :=
        mul_nonneg ht.le (mul_nonneg (mul_self_nonneg d) (by linarith))
      nlinarith [mul_self_nonneg d]
  | approximate r eps =>
    obtain ⟨hr, he⟩ := hk
    simp only [Kern.f, approximateF]
    have one : eps * eps * ((1 + eps) * (1 + eps)) / (1 + 2 * eps) *
        (1 / eps * (1 / eps) - 1 / ((1 + eps) * (1 + eps))) = 1 := by
      field_simp
      ring
    refine ⟨by rw [if_neg (not_lt.2 hr.le)]; simpa using one, fun x hx => ?_⟩
    split_ifs with h
    · exact zero_le_one
    · refine le_trans (mul_le_mul_of_nonneg_left ?_ (by positivity)) one.le
      have h4 : 0 ≤ x / r := by positivity
      have h5 : 1 / (x / r * (x / r) + eps) ≤ 1 / eps :=
        one_div_le_one_div_of_le he (by nlinarith)
      have h6 : 0 ≤ 1 / (x / r * (x / r) + eps) := by positivity
      have := mul_le_mul h5 h5 h6 (h6.trans h5)
      linarith

/-- C32. Away from the radius, the derivatives that kernels report are their derivatives. -/
theorem kernel_derivatives (k : Kern) (hk : k.Proper) (x : ℝ) (h0 : k.Finite ∨ x ≠ 0)
    (hr : ∀ r, k.radius = some r → x ≠ r) :
    HasDerivAt k.f (k.df x) x ∧ HasDerivAt k.df (k.ddf x) x := by
  cases k with
  | global eps =>
    have hne : ∀ y : ℝ, y * y + eps * eps ≠ 0 := fun y =>
      (add_pos_of_nonneg_of_pos (mul_self_nonneg _) (mul_pos hk hk)).ne'
    constructor
    · show HasDerivAt (fun y => globalF eps y) (globalDf eps x) x
      rw [globalDf_eq eps x (hne x)]
      exact global_poly eps x hk
    · have : (fun y : ℝ => globalDf eps y) = fun y => -4 * y / (y * y + eps * eps) ^ 3 :=
        funext fun y => globalDf_eq eps y (hne y)
      show HasDerivAt (fun y => globalDf eps y) (globalDf eps (Dual.var x)).dx x
      rw [globalDdf_eq eps x (hne x), this]
      exact global_poly' eps x hk
  | cubic r =>
    have h := hr r rfl
    have h0 : r ≠ 0 := ne_of_gt hk
    exact ⟨cut_deriv h fun _ => cubic_poly r x h0, cut_deriv h fun _ => cubic_poly' r x h0⟩
  | interpolating r xc =>
    classical
    have h := hr r rfl
    have hr0 : r ≠ 0 := ne_of_gt hk.1
    have hx : x ≠ 0 := h0.resolve_left id
    constructor
    · have e : (fun y : ℝ => interpolatingF r xc y) = _ := funext fun y => interpolatingF_eq r xc y
      show HasDerivAt (fun y => interpolatingF r xc y) (interpolatingDf r xc x) x
      rw [interpolatingDf_eq r xc x hr0 hx, e]
      exact cut_deriv h fun _ => interpolating_poly r xc x hr0 hx
    · show HasDerivAt (fun y => interpolatingDf r xc y) (interpolatingDf r xc (Dual.var x)).dx x
      rw [interpolatingDdf_eq r xc x hr0 hx]
      refine HasDerivAt.congr_of_eventuallyEq
        (cut_deriv h fun _ => interpolating_poly' r xc x hr0 hx) ?_
      filter_upwards [isOpen_ne.mem_nhds hx] with y hy
      exact interpolatingDf_eq r xc y hr0 hy
  | smooth r t =>
    have h := hr r rfl
    have h0 : r ≠ 0 := ne_of_gt hk.1
    exact ⟨cut_deriv h fun _ => smooth_poly r t x h0 hk.2, cut_deriv h fun _ => smooth_poly' r t x h0 hk.2⟩
  | approximate r eps =>
    have h := hr r rfl
    have h0 : r ≠ 0 := ne_of_gt hk.1
    exact ⟨cut_deriv h fun _ => approximate_poly r eps x h0 hk.2,
      cut_deriv h fun _ => approximate_poly' r eps x h0 hk.2⟩

/-- C32. At the radius, the first derivative of all kernels but the approximate one is the derivative,
zero, so it is continuous. -/
theorem kernel_derivative_edge (k : Kern) (hk : k.Proper) (r : ℝ) (hr : k.radius = some r)
    (ha : ∀ r eps, k ≠ .approximate r eps) : k.df r = 0 ∧ HasDerivAt k.f (k.df r) r := by
  classical
  cases k with
  | global eps => simp [Kern.radius] at hr
  | approximate r eps => exact absurd rfl (ha r eps)
  | cubic r' =>
    simp only [Kern.radius, Option.some.injEq] at hr; subst hr
    have h0 : r' ≠ 0 := ne_of_gt hk
    have e : 6 * (r' * r' / (r' * r' * r') - r' / (r' * r')) = 0 := by field_simp; ring
    have e' : (Kern.cubic r').df r' = 0 := by
      simp only [Kern.df, cubicDf]; rw [if_neg (lt_irrefl _), e]
    refine ⟨e', ?_⟩
    rw [e']
    refine cut_deriv_edge ?_ ((cubic_poly r' r' h0).congr_deriv e)
    show (1 : ℝ) - 3 * r' * r' / (r' * r') + 2 * r' * r' * r' / (r' * r' * r') = 0
    field_simp; ring
  | interpolating r' xc =>
    simp only [Kern.radius, Option.some.injEq] at hr; subst hr
    have h0 : r' ≠ 0 := ne_of_gt hk.1
    have e : (xc / r') * (xc / r') * (-2 * r' ^ 2 / r' ^ 3 + 2 / r' + 6 * r' / r' ^ 2 - 6 * r' ^ 2 / r' ^ 3)
        = 0 := by field_simp; ring
    have e' : (Kern.interpolating r' xc).df r' = 0 := by
      simp only [Kern.df]; rw [interpolatingDf_eq r' xc r' h0 h0, if_neg (lt_irrefl _), e]
    refine ⟨e', ?_⟩
    rw [e']
    have ef : (Kern.interpolating r' xc).f = _ := funext fun y => interpolatingF_eq r' xc y
    rw [ef]
    refine cut_deriv_edge ?_ ((interpolating_poly r' xc r' h0 h0).congr_deriv e)
    field_simp; ring
  | smooth r' t =>
    simp only [Kern.radius, Option.some.injEq] at hr; subst hr
    have h0 : r' ≠ 0 := ne_of_gt hk.1
    have e : 2 * t * (r' / r') * (3 * t * (r' / r') - 3 * t + r' / r' * (r' / r') * (r' / r') - 1)
        / (r' * (t * t + 2 * t * (r' / r' * (r' / r')) + r' / r' * (r' / r') * (r' / r') * (r' / r')))
        = 0 := by
      rw [div_self h0]; simp
    have e' : (Kern.smooth r' t).df r' = 0 := by
      simp only [Kern.df, smoothDf]; rw [if_neg (lt_irrefl _), e]
    refine ⟨e', ?_⟩
    rw [e']
    refine cut_deriv_edge ?_ ((smooth_poly r' t r' h0 hk.2).congr_deriv e)
    rw [div_self h0]; norm_num

/-- C32. The second derivative of the interpolating kernel is its second derivative at the radius
too. -/
theorem interpolating_second_edge (r xc : ℝ) (hk : (Kern.interpolating r xc).Proper) :
    (Kern.interpolating r xc).ddf r = 0 ∧
      HasDerivAt (Kern.interpolating r xc).df ((Kern.interpolating r xc).ddf r) r := by
  classical
  have h0 : r ≠ 0 := ne_of_gt hk.1
  have e : (xc / r) * (xc / r) * (6 * r ^ 2 / r ^ 4 + 6 / r ^ 2 - 12 * r / r ^ 3) = 0 := by
    field_simp; ring
  have e' : (Kern.interpolating r xc).ddf r = 0 := by
    simp only [Kern.ddf]; rw [interpolatingDdf_eq r xc r h0 h0, if_neg (lt_irrefl _), e]
  refine ⟨e', ?_⟩
  rw [e']
  refine HasDerivAt.congr_of_eventuallyEq
    (cut_deriv_edge (P := fun x =>
      (xc / r) * (xc / r) * (-2 * r ^ 2 / x ^ 3 + 2 / r + 6 * x / r ^ 2 - 6 * x ^ 2 / r ^ 3)) ?_
      ((interpolating_poly' r xc r h0 h0).congr_deriv e)) ?_
  · field_simp; ring
  · filter_upwards [isOpen_ne.mem_nhds h0] with y hy
    exact interpolatingDf_eq r xc y h0 hy

open Classical in
theorem cut_kink {P : ℝ → ℝ} {P' r : ℝ} (h0 : P r = 0) (hP : HasDerivAt P P' r) (hne : P' ≠ 0) :
    ¬ DifferentiableAt ℝ (fun y => if y > r then 0 else P y) r := by
  intro hd
  have h1 : HasDerivWithinAt (fun y => if y > r then 0 else P y) P' (Set.Iic r) r :=
    hP.hasDerivWithinAt.congr (fun y hy => if_neg (not_lt.2 hy)) (if_neg (lt_irrefl r))
  have h2 : HasDerivWithinAt (fun y => if y > r then 0 else P y) 0 (Set.Ici r) r := by
    refine (hasDerivWithinAt_const r (Set.Ici r) (0 : ℝ)).congr (fun y hy => ?_) ?_
    · rcases eq_or_lt_of_le (Set.mem_Ici.1 hy) with rfl | hy
      · rw [if_neg (lt_irrefl _), h0]
      · exact if_pos hy
    · rw [if_neg (lt_irrefl _), h0]
  have e1 := (uniqueDiffWithinAt_Iic r).eq_deriv _ hd.hasDerivAt.hasDerivWithinAt h1
  have e2 := (uniqueDiffWithinAt_Ici r).eq_deriv _ hd.hasDerivAt.hasDerivWithinAt h2
  exact hne (e1.symm.trans e2)

/-- C32 fails for the approximate kernel at its radius: it has no derivative there. -/
theorem approximate_edge_violated (r eps : ℝ) (hk : (Kern.approximate r eps).Proper) :
    ¬ DifferentiableAt ℝ (Kern.approximate r eps).f r := by
  have h0 : r ≠ 0 := ne_of_gt hk.1
  have he := hk.2
  have hr := hk.1
  refine cut_kink ?_ (approximate_poly r eps r h0 he) ?_
  · rw [div_self h0, one_mul, one_div_mul_one_div, sub_self, mul_zero]
  · rw [div_self h0]
    have : 0 < eps * eps * ((1 + eps) * (1 + eps)) / (1 + 2 * eps) * 4 * 1 /
        (r * (1 * 1 + eps) * (1 * 1 + eps) * (1 * 1 + eps)) := by positivity
    rw [neg_mul, neg_mul, neg_div]
    exact (neg_neg_of_pos this).ne

/-- C32 fails for the second derivatives of the cubic and the smooth kernel at their radii: they do
not exist there. -/
theorem second_edge_violated :
    (∀ r, (Kern.cubic r).Proper → ¬ DifferentiableAt ℝ (Kern.cubic r).df r) ∧
    ∀ r t, (Kern.smooth r t).Proper → ¬ DifferentiableAt ℝ (Kern.smooth r t).df r := by
  constructor
  · intro r hk
    have h0 : r ≠ 0 := ne_of_gt hk
    refine cut_kink ?_ (cubic_poly' r r h0) ?_
    · field_simp; ring
    · have : 12 * r / (r * r * r) - 6 / (r * r) = 6 / (r * r) := by field_simp; ring
      rw [this]
      positivity
  · intro r t hk
    have h0 : r ≠ 0 := ne_of_gt hk.1
    have ht := hk.2
    refine cut_kink ?_ (smooth_poly' r t r h0 ht) ?_
    · rw [div_self h0]; simp
    · rw [div_self h0]
      have e1 : 6 * (t * t) * 1 - 3 * (t * t) - 2 * t * (1 * 1 * 1) + 9 * t * (1 * 1) - t + 3 * (1 * 1)
          = 3 * (t + 1) ^ 2 := by ring
      have hr := hk.1
      rw [e1]
      positivity

/-! ## Radial kernels -/

theorem dot_self_ne {v : V3 ℝ} (h : 0 < v.norm) : V3.dot v v ≠ 0 := by
  rw [← V3.norm_mul_norm]
  exact (mul_pos h h).ne'

theorem sub_hasD {x : ℝ → V3 ℝ} {d : V3 ℝ} {t : ℝ} (hx : HasD x d t) (p : V3 ℝ) :
    HasD (fun s => x s - p) d t := by
  refine (hx.sub (HasD.const p)).congr ?_
  rw [sub_zero]

/-- C32. The gradient of a radial kernel is its derivative, away from its center and where the
kernel has the derivative that it reports. -/
theorem radial_gradient (k : Kern) (x : ℝ → V3 ℝ) (d p : V3 ℝ) (t : ℝ) (hx : HasD x d t)
    (h : 0 < (x t - p).norm) (hf : HasDerivAt k.f (k.df (x t - p).norm) (x t - p).norm) :
    HasDerivAt (fun s => k.eval (x s) p) (V3.dot (k.grad (x t) p) d) t := by
  have hn := (sub_hasD hx p).norm (dot_self_ne h)
  refine (hf.comp t hn).congr_deriv ?_
  simp only [Kern.grad, if_pos h, V3.dot, V3.smul_x, V3.smul_y, V3.smul_z]
  field_simp
  try ring

/-- C32. The Hessian of a radial kernel is the derivative of the gradient, away from its center and
where the kernel has the second derivative that it reports. -/
theorem radial_hessian (k : Kern) (x : ℝ → V3 ℝ) (d p : V3 ℝ) (t : ℝ) (hx : HasD x d t)
    (h : 0 < (x t - p).norm) (hf : HasDerivAt k.df (k.ddf (x t - p).norm) (x t - p).norm) :
    HasD (fun s => k.grad (x s) p) (M3.mulVec (k.hess (x t) p) d) t := by
  have hd := sub_hasD hx p
  have hn := hd.norm (dot_self_ne h)
  have hq := (hf.comp t hn).fun_div hn h.ne'
  have hg := HasD.smul hq hd
  have hev : ∀ᶠ s in nhds t, k.grad (x s) p = (k.df (x s - p).norm / (x s - p).norm) • (x s - p) := by
    filter_upwards [hn.continuousAt.eventually (Ioi_mem_nhds h)] with s hs
    exact if_pos hs
  refine HasD.congr_of_eventuallyEq (hg.congr ?_) hev
  simp only [Kern.hess, if_pos h, Function.comp]
  generalize k.df (x t - p).norm = a
  generalize k.ddf (x t - p).norm = b
  generalize x t - p = v at *
  have hne := h.ne'
  generalize v.norm = n at *
  ext <;> simp [M3.mulVec, M3.outer, M3.diag, V3.dot] <;> field_simp <;> ring

/-- At its center a radial kernel that is finite there has a gradient, which is zero. -/
theorem df_zero (k : Kern) (hk : k.Proper) (hf : k.Finite) : k.df 0 = 0 := by
  classical
  cases k with
  | global eps =>
    simp only [Kern.df]
    rw [globalDf_eq eps 0 (by have : 0 < eps := hk; positivity)]
    simp
  | cubic r => simp [Kern.df, cubicDf]
  | interpolating r xc => exact hf.elim
  | smooth r t => simp [Kern.df, smoothDf]
  | approximate r eps => simp [Kern.df, approximateDf]

theorem norm_le_sum (v : V3 ℝ) : v.norm ≤ |v.x| + |v.y| + |v.z| := by
  unfold V3.norm
  rw [Real.sqrt_le_left (by positivity)]
  simp only [V3.dot]
  nlinarith [abs_mul_abs_self v.x, abs_mul_abs_self v.y, abs_mul_abs_self v.z,
    mul_nonneg (abs_nonneg v.x) (abs_nonneg v.y), mul_nonneg (abs_nonneg v.x) (abs_nonneg v.z),
    mul_nonneg (abs_nonneg v.y) (abs_nonneg v.z)]

/-- C32. At its center, the gradient of a radial kernel that is finite there is its derivative,
zero. -/
theorem radial_gradient_center (k : Kern) (hk : k.Proper) (hf : k.Finite) (x : ℝ → V3 ℝ) (d p : V3 ℝ)
    (t : ℝ) (hx : HasD x d t) (h : x t = p) :
    HasDerivAt (fun s => k.eval (x s) p) (V3.dot (k.grad (x t) p) d) t := by
  have hn0 : (x t - p).norm = 0 := by rw [h, sub_self]; simp [V3.norm, V3.dot]
  have hg : k.grad (x t) p = 0 := by
    simp only [Kern.grad]; rw [if_neg (by rw [hn0]; exact lt_irrefl 0)]
  rw [hg]
  have hz : V3.dot (0 : V3 ℝ) d = 0 := by simp [V3.dot]
  rw [hz]
  have hr : ∀ r, k.radius = some r → (0 : ℝ) ≠ r := by
    intro r hr
    cases k <;> simp only [Kern.radius, Option.some.injEq, reduceCtorEq] at hr <;> subst hr
    · exact ne_of_lt hk
    · exact ne_of_lt hk.1
    · exact ne_of_lt hk.1
    · exact ne_of_lt hk.1
  have hd := (kernel_derivatives k hk 0 (Or.inl hf) hr).1
  rw [df_zero k hk hf] at hd
  rw [hasDerivAt_iff_isLittleO] at hd ⊢
  simp only [sub_zero, smul_zero] at hd ⊢
  have hsub := sub_hasD hx p
  have hO : (fun s => (x s - p).norm) =O[nhds t] fun s => s - t := by
    have hc : ∀ (c : V3 ℝ → ℝ) (c' : ℝ), HasDerivAt (fun s => c (x s - p)) c' t → c (x t - p) = 0 →
        (fun s => |c (x s - p)|) =O[nhds t] fun s => s - t := by
      intro c c' hc h0
      have := hc.isBigO_sub
      simp only [h0, sub_zero] at this
      exact this.norm_left
    have e0 : x t - p = 0 := by rw [h, sub_self]
    have hsum := ((hc V3.x _ hsub.1 (by rw [e0]; rfl)).add (hc V3.y _ hsub.2.1 (by rw [e0]; rfl))).add
      (hc V3.z _ hsub.2.2 (by rw [e0]; rfl))
    refine Asymptotics.IsBigO.trans (Asymptotics.isBigO_of_le _ fun s => ?_) hsum
    rw [Real.norm_of_nonneg (V3.norm_nonneg _), Real.norm_of_nonneg (by positivity)]
    exact norm_le_sum _
  have ht : Filter.Tendsto (fun s => (x s - p).norm) (nhds t) (nhds 0) := by
    refine hO.trans_tendsto ?_
    have : Filter.Tendsto (fun s : ℝ => s - t) (nhds t) (nhds (t - t)) :=
      (continuous_id.sub continuous_const).tendsto t
    rwa [sub_self] at this
  have := (hd.comp_tendsto ht).trans_isBigO hO
  refine this.congr_left fun s => ?_
  simp only [Function.comp, Kern.eval, hn0]

/-- C32 fails for the Hessian of radial kernels at their center: it is reported as zero, but the
derivative of the gradient of the cubic kernel there is `-6 / r ^ 2` times the identity. -/
theorem radial_hessian_center_violated (r : ℝ) (hr : 0 < r) (p d : V3 ℝ) :
    (Kern.cubic r).hess p p = 0 ∧
    HasD (fun s => (Kern.cubic r).grad (p + s • d) p) ((-6 / (r * r)) • d) 0 := by
  classical
  have hnorm : ∀ s : ℝ, (s • d).norm = |s| * d.norm := by
    intro s
    unfold V3.norm
    have : V3.dot (s • d) (s • d) = s ^ 2 * V3.dot d d := by
      simp only [V3.dot, V3.smul_x, V3.smul_y, V3.smul_z]; ring
    rw [this, Real.sqrt_mul (sq_nonneg s), Real.sqrt_sq_eq_abs]
  constructor
  · have : (p - p).norm = 0 := by rw [sub_self]; simp [V3.norm, V3.dot]
    simp only [Kern.hess]
    rw [if_neg (by rw [this]; exact lt_irrefl 0)]
  · have hev : ∀ᶠ s in nhds (0 : ℝ), (Kern.cubic r).grad (p + s • d) p =
        (6 * (|s| * d.norm / (r * r * r) - 1 / (r * r))) • (s • d) := by
      have hc : Filter.Tendsto (fun s : ℝ => |s| * d.norm) (nhds 0) (nhds (|(0 : ℝ)| * d.norm)) :=
        (continuous_abs.mul continuous_const).tendsto 0
      rw [abs_zero, zero_mul] at hc
      filter_upwards [hc.eventually (Iio_mem_nhds hr)] with s hs
      simp only [Kern.grad, add_sub_cancel_left, hnorm]
      split_ifs with h0
      · simp only [Kern.df, cubicDf]
        rw [if_neg (not_lt.2 (le_of_lt hs))]
        congr 1
        have hr' := hr.ne'
        have hn' := h0.ne'
        generalize |s| * d.norm = n at *
        field_simp
      · have hz : |s| * d.norm = 0 := le_antisymm (not_lt.1 h0) (mul_nonneg (abs_nonneg s) (V3.norm_nonneg d))
        have hsd : s • d = 0 := by
          rcases mul_eq_zero.1 hz with h | h
          · rw [abs_eq_zero.1 h]; ext <;> simp
          · have hdd : V3.dot d d = 0 := by rw [← V3.norm_mul_norm, h, mul_zero]
            simp only [V3.dot] at hdd
            have hx : d.x = 0 := by nlinarith [mul_self_nonneg d.x, mul_self_nonneg d.y, mul_self_nonneg d.z]
            have hy : d.y = 0 := by nlinarith [mul_self_nonneg d.x, mul_self_nonneg d.y, mul_self_nonneg d.z]
            have hz : d.z = 0 := by nlinarith [mul_self_nonneg d.x, mul_self_nonneg d.y, mul_self_nonneg d.z]
            ext <;> simp [hx, hy, hz]
        rw [hsd]; ext <;> simp
    refine HasD.congr_of_eventuallyEq ?_ hev
    have habs : HasDerivAt (fun s : ℝ => |s| * s) 0 0 := by
      rw [hasDerivAt_iff_isLittleO]
      simp only [sub_zero, smul_zero, mul_zero]
      have : (fun s : ℝ => |s|) =o[nhds 0] fun _ => (1 : ℝ) := by
        rw [Asymptotics.isLittleO_one_iff]
        have := (continuous_abs (G := ℝ)).tendsto 0
        rwa [abs_zero] at this
      have := this.mul_isBigO (Asymptotics.isBigO_refl (fun s : ℝ => s) (nhds 0))
      simpa using this
    have comp : ∀ c : ℝ, HasDerivAt (fun s : ℝ =>
        6 * (|s| * d.norm / (r * r * r) - 1 / (r * r)) * (s * c)) (-6 / (r * r) * c) 0 := by
      intro c
      have h1 := (habs.const_mul (6 * d.norm / (r * r * r) * c)).fun_sub
        ((hasDerivAt_id' (0 : ℝ)).const_mul (6 / (r * r) * c))
      refine (h1.congr_of_eventuallyEq (Filter.Eventually.of_forall fun s => ?_)).congr_deriv ?_
      · simp only; ring
      · ring
    exact ⟨comp d.x, comp d.y, comp d.z⟩

/-! ## The normal kernel -/

/-- The gradient of the normal kernel, given the derivatives `A` of the unit normal and `B` of the
gradient of the potential (both as matrices whose columns belong to the components of these
vectors). -/
theorem normal_gradient (n g : ℝ → V3 ℝ) (A B : M3 ℝ) (d : V3 ℝ) (t : ℝ)
    (hn : HasD n (M3.mulVec A.transpose d) t) (hg : HasD g (M3.mulVec B.transpose d) t) :
    HasDerivAt (fun s => normalEval (n s) (g s)) (V3.dot (normalGrad (n t) (g t) A B) d) t := by
  have hw := ((hn.dot hg).const_add 1).const_mul (0.5 : ℝ)
  refine (hw.fun_mul hw).congr_deriv ?_
  simp only [normalGrad, V3.dot, M3.mulVec, M3.transpose, V3.smul_x, V3.smul_y, V3.smul_z, V3.add_x,
    V3.add_y, V3.add_z]
  ring

/-! ## Examples -/

example : (Kern.smooth 5 0.01).Proper ∧ (Kern.smooth 5 0.01).Finite ∧
    (Kern.interpolating 5 0.1).Proper := by
  norm_num [Kern.Proper, Kern.Finite]

/-- The approximate kernel with radius and tolerance one, half way to the radius. -/
example : (Kern.approximate 1 1).f (1 / 2) = 13 / 25 := by
  simp only [Kern.f, approximateF]
  norm_num

example : (Kern.cubic 2).f 1 = 1 / 2 ∧ (Kern.cubic 2).df 1 = -3 / 4 := by
  constructor
  · simp only [Kern.f, cubicF_eq]; norm_num
  · simp only [Kern.df, cubicDf]; norm_num

end Softy.Kernel
