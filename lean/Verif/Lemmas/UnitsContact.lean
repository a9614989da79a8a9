import Verif.Lemmas.UnitsElastic
import Verif.Lemmas.FrameContact

/-!
# Pressure, contacts and friction in other units of measurement
-/

noncomputable section

namespace Softy.Units

open Softy Assembly Fem Softy.Field Softy.Kernel Softy.Contact

variable {a : ℝ}

theorem smul_list_sum (k : ℝ) (l : List (V3 ℝ)) : k • l.sum = (l.map (k • ·)).sum := by
  induction l with
  | nil => simp
  | cons x l ih => simp [ih]

/-! ## Pressure -/

/-- A volume zone. The compression is an inverse pressure: it is multiplied by the inverse `k` of the unit of
pressure. -/
def penalty (a k : ℝ) (P : Volume.Penalty) : Volume.Penalty :=
  { P with restVolume := a ^ 3 * P.restVolume, compression := k * P.compression }

theorem signedVolume_scale (a : ℝ) (topo : List (Fin 3 → ℕ)) (x : ℕ → V3 ℝ) :
    Volume.signedVolume topo (scale a x) = a ^ 3 * Volume.signedVolume topo x := by
  unfold Volume.signedVolume
  rw [mul_div_assoc', ← List.sum_map_mul_left]
  congr 2
  refine List.map_congr_left fun t _ => ?_
  simp only [scale, cross_scale, dot_scale]
  ring

theorem penalty_dv (ha : a ≠ 0) (k : ℝ) (P : Volume.Penalty) (x : ℕ → V3 ℝ) :
    (penalty a k P).dv (scale a x) = P.dv x := by
  unfold Volume.Penalty.dv
  show Volume.signedVolume P.topo (scale a x) / (P.pressurization * (a ^ 3 * P.restVolume)) - 1 = _
  rw [signedVolume_scale, mul_left_comm, mul_div_mul_left _ _ (pow_ne_zero 3 ha)]

theorem vertexNormal_scale (a : ℝ) (topo : List (Fin 3 → ℕ)) (x : ℕ → V3 ℝ) (v : ℕ) :
    Volume.vertexNormal topo (scale a x) v = (a ^ 2) • Volume.vertexNormal topo x v := by
  rw [Frame.vertexNormal_eq, Frame.vertexNormal_eq, smul_list_sum, List.map_map]
  congr 1
  apply List.map_congr_left
  intro t _
  simp only [Function.comp]
  rw [Finset.smul_sum]
  refine Finset.sum_congr rfl fun n _ => ?_
  split
  · fin_cases n <;>
      simp only [Volume.Penalty.normals, scale, cross_scale, Matrix.cons_val, pow_two, Fin.zero_eta,
        Fin.mk_one, Fin.reduceFinMk]
  · rw [smul_zero]

theorem penalty_forces_scale (ha : a ≠ 0) {k f : ℝ} (hf : f = a ^ 2 / k) (P : Volume.Penalty)
    (x : ℕ → V3 ℝ) (i : ℕ) : (penalty a k P).forces (scale a x) i = f • P.forces x i := by
  rw [Volume.forces_eq, Volume.forces_eq]
  show (penalty a k P).factor (scale a x) • Volume.vertexNormal P.topo (scale a x) i = _
  rw [vertexNormal_scale, smul_smul, smul_smul]
  congr 1
  unfold Volume.Penalty.factor
  rw [penalty_dv ha, hf]
  show Volume.pressureAtm * P.dv x / (k * P.compression * 6) * a ^ 2 = _
  rw [mul_assoc k, ← div_div, div_right_comm]
  ring

/-- The energy of a zone has a constant part, that does not scale. -/
theorem penalty_energy_scale (ha : a ≠ 0) {k e : ℝ} (he : e = a ^ 3 / k) (P : Volume.Penalty)
    (x : ℕ → V3 ℝ) : (penalty a k P).energy (scale a x) =
      e * P.energy x + Volume.pressureAtm * P.restVolume * (a ^ 3 - e) := by
  unfold Volume.Penalty.energy
  rw [penalty_dv ha, he]
  show Volume.pressureAtm * (a ^ 3 * P.restVolume) *
    (P.dv x * P.dv x * P.pressurization / (k * P.compression * 2) + 1) = _
  rw [mul_assoc k, ← div_div, div_right_comm]
  ring

/-! ## Kernels -/

/-- A kernel: radii and distances are lengths, tolerances have no unit. -/
def kern (a : ℝ) : Kern → Kern
  | .global eps => .global (a * eps)
  | .cubic r => .cubic (a * r)
  | .interpolating r c => .interpolating (a * r) (a * c)
  | .smooth r t => .smooth (a * r) t
  | .approximate r t => .approximate (a * r) t

/-- The common factor of all weights. Only the weights of the global kernel have a unit. -/
def omega (a : ℝ) : Kern → ℝ
  | .global _ => (a ^ 4)⁻¹
  | _ => 1

theorem omega_pos (ha : 0 < a) (k : Kern) : 0 < omega a k := by
  cases k <;> simp only [omega] <;> positivity

theorem gt_scale (ha : 0 < a) (x r : ℝ) : a * x > a * r ↔ x > r := mul_lt_mul_iff_right₀ ha

theorem div_scale (ha : 0 < a) (x r : ℝ) : a * x / (a * r) = x / r := mul_div_mul_left x r ha.ne'

theorem sq_scale (ha : 0 < a) (x r : ℝ) : 3 * (a * x) * (a * x) / (a * r * (a * r)) = 3 * x * x / (r * r) := by
  rw [show 3 * (a * x) * (a * x) = (a * a) * (3 * x * x) by ring,
    show a * r * (a * r) = (a * a) * (r * r) by ring, div_scale (by positivity)]

theorem cube_scale (ha : 0 < a) (x r : ℝ) :
    2 * (a * x) * (a * x) * (a * x) / (a * r * (a * r) * (a * r)) = 2 * x * x * x / (r * r * r) := by
  rw [show 2 * (a * x) * (a * x) * (a * x) = (a * a * a) * (2 * x * x * x) by ring,
    show a * r * (a * r) * (a * r) = (a * a * a) * (r * r * r) by ring, div_scale (by positivity)]

theorem f_scale (ha : 0 < a) (k : Kern) (x : ℝ) : (kern a k).f (a * x) = omega a k * k.f x := by
  cases k with
  | global eps =>
    show globalF (a * eps) (a * x) = (a ^ 4)⁻¹ * globalF eps x
    rw [globalF_eq, globalF_eq, show a * x * (a * x) + a * eps * (a * eps) =
      a ^ 2 * (x * x + eps * eps) by ring, one_div, mul_inv, one_div]
    rw [show (a ^ 4)⁻¹ = (a ^ 2)⁻¹ * (a ^ 2)⁻¹ by rw [← mul_inv]; ring]
    ring
  | cubic r =>
    show cubicF (a * r) (a * x) = 1 * cubicF r x
    rw [cubicF_eq, cubicF_eq]
    simp only [gt_scale ha, sq_scale ha, cube_scale ha, one_mul]
  | interpolating r c =>
    show interpolatingF (a * r) (a * c) (a * x) = 1 * interpolatingF r c x
    rw [interpolatingF_eq, interpolatingF_eq]
    simp only [gt_scale ha, sq_scale ha, cube_scale ha, div_scale ha, one_mul]
  | smooth r t =>
    show smoothF (a * r) t (a * x) = 1 * smoothF r t x
    unfold smoothF
    simp only [gt_scale ha, div_scale ha, one_mul]
  | approximate r t =>
    show approximateF (a * r) t (a * x) = 1 * approximateF r t x
    unfold approximateF
    simp only [gt_scale ha, div_scale ha, one_mul]

theorem interpolatingDf_scale (ha : 0 < a) (r c x : ℝ) :
    interpolatingDf (a * r) (a * c) (a * x) = a⁻¹ * interpolatingDf r c x := by
  have zero : ∀ r c x : ℝ, r = 0 ∨ x = 0 → interpolatingDf r c x = 0 := by
    intro r c x h
    unfold interpolatingDf interpolatingF
    have hv : Scal.val (Dual.var x) = x := rfl
    rw [hv]
    by_cases h' : x > r
    · rw [if_pos h']; rfl
    · rw [if_neg h']
      unfold cubicF
      rw [hv, if_neg h']
      simp only [add_x, add_dx, sub_x, sub_dx, mul_x, mul_dx, div_x, div_dx, lit_x, lit_dx, var_x, var_dx,
        lit_real]
      rcases h with rfl | rfl <;> simp
  by_cases h : r = 0 ∨ x = 0
  · rw [zero r c x h, zero, mul_zero]
    rcases h with rfl | rfl <;> simp
  · obtain ⟨hr, hx⟩ := not_or.1 h
    rw [interpolatingDf_eq _ _ _ hr hx, interpolatingDf_eq _ _ _ (mul_ne_zero ha.ne' hr)
      (mul_ne_zero ha.ne' hx)]
    by_cases h' : x > r
    · simp only [gt_scale ha, if_pos h', mul_zero]
    · simp only [gt_scale ha, if_neg h']
      have := ha.ne'
      field_simp

theorem df_scale (ha : 0 < a) (k : Kern) (x : ℝ) : (kern a k).df (a * x) = omega a k * a⁻¹ * k.df x := by
  have ha' := ha.ne'
  cases k with
  | global eps =>
    show globalDf (a * eps) (a * x) = (a ^ 4)⁻¹ * a⁻¹ * globalDf eps x
    by_cases h : x * x + eps * eps = 0
    · have hx : x = 0 := by nlinarith [mul_self_nonneg x, mul_self_nonneg eps]
      have he : eps = 0 := by nlinarith [mul_self_nonneg x, mul_self_nonneg eps]
      subst hx he
      have : globalDf (0 : ℝ) (0 : ℝ) = 0 := by
        unfold globalDf globalF
        simp [add_x, add_dx, mul_x, mul_dx, div_x, div_dx, lit_x, lit_dx, var_x, var_dx, lit_real]
      simp [this]
    · have e : a * x * (a * x) + a * eps * (a * eps) = a ^ 2 * (x * x + eps * eps) := by ring
      rw [globalDf_eq _ _ h, globalDf_eq _ _ (by rw [e]; exact mul_ne_zero (by positivity) h), e]
      field_simp
  | cubic r =>
    show cubicDf (a * r) (a * x) = 1 * a⁻¹ * cubicDf r x
    unfold cubicDf
    simp only [gt_scale ha]
    split
    · simp
    · by_cases hr : r = 0
      · subst hr; simp
      · field_simp
  | interpolating r c =>
    show interpolatingDf (a * r) (a * c) (a * x) = 1 * a⁻¹ * interpolatingDf r c x
    rw [interpolatingDf_scale ha, one_mul]
  | smooth r t =>
    show smoothDf (a * r) t (a * x) = 1 * a⁻¹ * smoothDf r t x
    unfold smoothDf
    simp only [gt_scale ha, div_scale ha]
    split
    · simp
    · rw [mul_assoc a r, ← div_div, div_right_comm, one_mul, div_eq_inv_mul _ a]
  | approximate r t =>
    show approximateDf (a * r) t (a * x) = 1 * a⁻¹ * approximateDf r t x
    unfold approximateDf
    simp only [gt_scale ha, div_scale ha]
    split
    · simp
    · rw [mul_assoc a r, mul_assoc a, mul_assoc a, ← div_div, div_right_comm, one_mul, div_eq_inv_mul _ a]

theorem withClosest_scale (a : ℝ) (k : Kern) (d : ℝ) :
    (kern a k).withClosest (a * d) = kern a (k.withClosest d) := by
  cases k <;> rfl

theorem omega_closest (a : ℝ) (k : Kern) (d : ℝ) : omega a (k.withClosest d) = omega a k := by
  cases k <;> rfl

theorem radius_scale (a : ℝ) (k : Kern) : (kern a k).radius = k.radius.map (a * ·) := by
  cases k <;> rfl

theorem grad_scale (ha : 0 < a) (k : Kern) (x p : V3 ℝ) :
    (kern a k).grad (a • x) (a • p) = (omega a k * a⁻¹) • k.grad x p := by
  unfold Kern.grad
  simp only [← smul_sub, norm_scale ha.le, df_scale ha]
  by_cases h : (x - p).norm > 0
  · rw [if_pos h, if_pos (mul_pos ha h), smul_smul, smul_smul]
    congr 1
    have := ha.ne'
    field_simp
  · rw [if_neg h, if_neg (by simpa [ha] using h), smul_zero]

/-! ## Fields -/

/-- Samples: positions and values are lengths, normals are areas. -/
def samples (a : ℝ) (S : Samples) : Samples :=
  { S with pos := fun i => a • S.pos i, nml := fun i => (a ^ 2) • S.nml i, value := fun i => a * S.value i }

/-- The value of the background. -/
def bgValue (a : ℝ) : BgValue → BgValue
  | .constant v => .constant (a * v)
  | .signedDistance => .signedDistance

/-- A background field. -/
def bg (a : ℝ) (b : Bg) : Bg :=
  { b with
    q := a • b.q
    S := samples a b.S
    value := bgValue a b.value
    weightSum := omega a b.kernel * b.weightSum
    kernel := kern a b.kernel
    dist := a * b.dist
    disp := a • b.disp }

theorem diff_scale (a : ℝ) (q : V3 ℝ) (S : Samples) (i : ℕ) :
    a • q - (samples a S).pos i = a • (q - S.pos i) := (smul_sub a q (S.pos i)).symm

theorem weight_scale (ha : 0 < a) (k : Kern) (dist : ℝ) (q : V3 ℝ) (S : Samples) (i : ℕ) :
    weight (kern a k) (a * dist) (a • q) (samples a S) i = omega a k * weight k dist q S i := by
  unfold weight Kern.eval
  rw [diff_scale, norm_scale ha.le, withClosest_scale, f_scale ha, omega_closest]

theorem weightGrad_scale (ha : 0 < a) (k : Kern) (dist : ℝ) (q : V3 ℝ) (S : Samples) (i : ℕ) :
    weightGrad (kern a k) (a * dist) (a • q) (samples a S) i =
      (omega a k * a⁻¹) • weightGrad k dist q S i := by
  unfold weightGrad
  rw [withClosest_scale, ← omega_closest a k dist, ← grad_scale ha]
  rfl

theorem backgroundWeight_scale (ha : 0 < a) (k : Kern) (w : Bool) (d : ℝ) :
    backgroundWeight (kern a k) w (a * d) = omega a k * backgroundWeight k w d := by
  unfold backgroundWeight
  rw [radius_scale]
  cases hr : k.radius with
  | none => simp
  | some r =>
    have ho : omega a k = 1 := by cases k <;> first | rfl | simp [Kern.radius] at hr
    have hf := f_scale ha k (r - d)
    rw [mul_sub] at hf
    simp only [Option.map_some, mul_lt_mul_iff_right₀ ha, hf, ho, one_mul]

theorem newImpl_scale (ha : 0 < a) (q : V3 ℝ) (view : List ℕ) (S : Samples) (c : ClosestIndex)
    (k : Kern) (P : BgParams) (v : Option ℝ) :
    Bg.newImpl (a • q) view (samples a S) c (kern a k) P (v.map (a * ·)) =
      bg a (Bg.newImpl q view S c k P v) := by
  unfold Bg.newImpl bg
  simp only [diff_scale, norm_scale ha.le, backgroundWeight_scale ha]
  congr 1
  · cases P.fieldType
    · simp [BgValue.new, bgValue]
    · cases v <;> simp [BgValue.new, bgValue]
    · rfl
  · rw [mul_add, ← List.sum_map_mul_left]
    congr 2
    exact List.map_congr_left fun i _ => weight_scale ha k _ q S i

theorem closestSample_scale (ha : 0 < a) (q : V3 ℝ) (S : Samples) (view : List ℕ) :
    closestSample (a • q) (samples a S) view = closestSample q S view := by
  have h : ∀ (l : List ℕ) (i : ℕ), closestFrom (a • q) (samples a S) i l = closestFrom q S i l := by
    intro l
    induction l with
    | nil => exact fun i => rfl
    | cons j l ih =>
      intro i
      unfold closestFrom
      simp only [diff_scale, dot_scale, ih, mul_lt_mul_iff_right₀ (mul_pos ha ha)]
  unfold closestSample
  cases view with
  | nil => rfl
  | cons i l => simp only [h]

theorem bgLocal_scale (ha : 0 < a) (q : V3 ℝ) (view : List ℕ) (S : Samples) (k : Kern)
    (P : BgParams) (v : Option ℝ) : Bg.local (a • q) view (samples a S) (kern a k) P (v.map (a * ·)) =
      (Bg.local q view S k P v).map (bg a) := by
  unfold Bg.local
  rw [closestSample_scale ha]
  cases closestSample q S view with
  | none => rfl
  | some i => simp only [newImpl_scale ha, Option.map_some]

theorem bgNew_scale (ha : 0 < a) (q : V3 ℝ) (view : List ℕ) (S : Samples) (c : Option ℕ) (k : Kern)
    (P : BgParams) (v : Option ℝ) : Bg.new (a • q) view (samples a S) c (kern a k) P (v.map (a * ·)) =
      (Bg.new q view S c k P v).map (bg a) := by
  unfold Bg.new
  cases c with
  | none => exact bgLocal_scale ha q view S k P v
  | some c =>
    unfold Bg.global
    rw [closestSample_scale ha]
    cases closestSample q S view <;> simp only [newImpl_scale ha, Option.map_some]

variable (b : Bg)

theorem weightSumInv_scale (ha : 0 < a) : (bg a b).weightSumInv = (omega a b.kernel)⁻¹ * b.weightSumInv := by
  unfold Bg.weightSumInv
  show (if omega a b.kernel * b.weightSum = 0 then (0 : ℝ) else 1 / (omega a b.kernel * b.weightSum)) = _
  have := (omega_pos ha b.kernel).ne'
  by_cases h : b.weightSum = 0
  · rw [if_pos h, if_pos (by rw [h, mul_zero]), mul_zero]
  · rw [if_neg h, if_neg (mul_ne_zero this h)]
    field_simp

theorem bgWeight_scale (ha : 0 < a) : (bg a b).bgWeight = omega a b.kernel * b.bgWeight :=
  backgroundWeight_scale ha b.kernel b.weighted b.dist

theorem flat_scale (ha : 0 < a) : (bg a b).flat ↔ b.flat := by
  unfold Bg.flat
  show (∃ r, (kern a b.kernel).radius = some r ∧ r < a * b.dist) ∨ b.weighted = false ↔ _
  rw [radius_scale]
  cases b.kernel.radius with
  | none => simp
  | some r => simp [ha]

theorem edgeDf_scale (ha : 0 < a) : (bg a b).edgeDf = omega a b.kernel * a⁻¹ * b.edgeDf := by
  unfold Bg.edgeDf
  show (((kern a b.kernel).radius.map fun r => (kern a b.kernel).df (r - a * b.dist))).getD 0 = _
  rw [radius_scale]
  cases b.kernel.radius with
  | none => simp
  | some r => simp only [Option.map_some, Option.getD_some, ← mul_sub, df_scale ha]

theorem bgWeightGrad_scale (ha : 0 < a) (i : Option ℕ) :
    (bg a b).bgWeightGrad i = (omega a b.kernel * a⁻¹) • b.bgWeightGrad i := by
  unfold Bg.bgWeightGrad
  have hr : (bg a b).edgeDf / (bg a b).dist * a = omega a b.kernel * a⁻¹ * (b.edgeDf / b.dist) := by
    rw [edgeDf_scale b ha]
    show omega a b.kernel * a⁻¹ * b.edgeDf / (a * b.dist) * a = _
    have := ha.ne'
    field_simp
  by_cases h : b.flat
  · rw [if_pos h, if_pos ((flat_scale b ha).2 h), smul_zero]
  · rw [if_neg h, if_neg (mt (flat_scale b ha).1 h)]
    cases i with
    | none =>
      show ((bg a b).edgeDf / (bg a b).dist) • (-(a • b.disp)) = _
      rw [← smul_neg, smul_smul, smul_smul, hr]
    | some i =>
      have hc : (bg a b).closest = b.closest := rfl
      simp only [hc]
      cases b.closest with
      | glob c => exact (smul_zero _).symm
      | loc c =>
        simp only
        split
        · show ((bg a b).edgeDf / (bg a b).dist) • (a • b.disp) = _
          rw [smul_smul, smul_smul, hr]
        · rw [smul_zero]

theorem orientation_scale (ha : 0 < a) : (bg a b).orientation = b.orientation := by
  unfold Bg.orientation
  show (if V3.dot ((a ^ 2) • b.S.nml b.closest.get) (a • b.disp) < 0 then (-1 : ℝ) else 1) = _
  rw [dot_scale]
  have h : a ^ 2 * a * V3.dot (b.S.nml b.closest.get) b.disp < 0 ↔
      V3.dot (b.S.nml b.closest.get) b.disp < 0 := by
    have h0 := mul_lt_mul_iff_right₀ (a := a ^ 2 * a) (b := V3.dot (b.S.nml b.closest.get) b.disp) (c := 0)
      (by positivity)
    rwa [mul_zero] at h0
  simp only [h]

theorem fieldValue_scale (ha : 0 < a) : (bg a b).fieldValue = a * b.fieldValue := by
  unfold Bg.fieldValue
  rw [orientation_scale b ha]
  show (match bgValue a b.value with
    | .constant v => v
    | .signedDistance => a * b.dist * b.orientation) = _
  cases b.value with
  | constant v => rfl
  | signedDistance => exact mul_assoc _ _ _

theorem isDistance_scale (a : ℝ) : (bg a b).value.isDistance = b.value.isDistance := by
  show (bgValue a b.value).isDistance = _
  cases b.value <;> rfl

theorem fieldGrad_scale (ha : 0 < a) : (bg a b).fieldGrad = b.fieldGrad := by
  unfold Bg.fieldGrad
  rw [orientation_scale b ha]
  show (match bgValue a b.value with
    | .constant _ => 0
    | .signedDistance => if a * b.dist ≠ 0 then (b.orientation / (a * b.dist)) • (a • b.disp) else 0) = _
  cases b.value with
  | constant v => rfl
  | signedDistance =>
    simp only [bgValue]
    by_cases h : b.dist = 0
    · simp [h]
    · rw [if_pos h, if_pos (mul_ne_zero ha.ne' h), smul_smul]
      congr 1
      have := ha.ne'
      field_simp

theorem weightGrad_bg (ha : 0 < a) (i : ℕ) :
    weightGrad (bg a b).kernel (bg a b).dist (bg a b).q (bg a b).S i =
      (omega a b.kernel * a⁻¹) • weightGrad b.kernel b.dist b.q b.S i :=
  weightGrad_scale ha b.kernel b.dist b.q b.S i

theorem weight_bg (ha : 0 < a) (i : ℕ) :
    weight (bg a b).kernel (bg a b).dist (bg a b).q (bg a b).S i =
      omega a b.kernel * weight b.kernel b.dist b.q b.S i := weight_scale ha b.kernel b.dist b.q b.S i

theorem weightGrad_sum_scale (ha : 0 < a) (view : List ℕ) :
    (view.map (weightGrad (bg a b).kernel (bg a b).dist (bg a b).q (bg a b).S)).sum =
      (omega a b.kernel * a⁻¹) • (view.map (weightGrad b.kernel b.dist b.q b.S)).sum := by
  rw [smul_list_sum, List.map_map]
  congr 1
  exact List.map_congr_left fun i _ => weightGrad_bg b ha i

/-- The normalised weight of the background. -/
theorem wb_scale (ha : 0 < a) :
    (bg a b).bgWeight * (bg a b).weightSumInv = b.bgWeight * b.weightSumInv := by
  rw [bgWeight_scale b ha, weightSumInv_scale b ha]
  have := (omega_pos ha b.kernel).ne'
  field_simp

/-- The factors of the derivatives of the weights. -/
theorem wsi_scale (ha : 0 < a) (s : ℝ) : a * s * (bg a b).weightSumInv * (omega a b.kernel * a⁻¹) =
    s * b.weightSumInv := by
  rw [weightSumInv_scale b ha]
  have := (omega_pos ha b.kernel).ne'
  have := ha.ne'
  field_simp

theorem sampleJacobian_scale (ha : 0 < a) (i : ℕ) : (bg a b).sampleJacobian i = b.sampleJacobian i := by
  unfold Bg.sampleJacobian
  have h3 : (bg a b).closest = b.closest := rfl
  have h5 : (bg a b).weighted = b.weighted := rfl
  simp only [h3, h5, wb_scale b ha, isDistance_scale b, bgWeightGrad_scale b ha, fieldValue_scale b ha,
    fieldGrad_scale b ha, weightGrad_bg b ha, smul_smul]
  have e1 : a * b.fieldValue * (b.bgWeight * b.weightSumInv) * (bg a b).weightSumInv *
      (omega a b.kernel * a⁻¹) = b.fieldValue * (b.bgWeight * b.weightSumInv) * b.weightSumInv := by
    rw [mul_assoc a, wsi_scale b ha]
  have e2 : a * b.fieldValue * (bg a b).weightSumInv * (1 - b.bgWeight * b.weightSumInv) *
      (omega a b.kernel * a⁻¹) = b.fieldValue * b.weightSumInv * (1 - b.bgWeight * b.weightSumInv) := by
    rw [mul_right_comm _ (1 - _), wsi_scale b ha]
  simp only [e1, e2]

theorem queryJacobian_scale (ha : 0 < a) : (bg a b).queryJacobian = b.queryJacobian := by
  unfold Bg.queryJacobian
  have h5 : (bg a b).weighted = b.weighted := rfl
  have h6 : (bg a b).view = b.view := rfl
  simp only [h5, h6, wb_scale b ha, bgWeightGrad_scale b ha, fieldValue_scale b ha, fieldGrad_scale b ha,
    weightGrad_sum_scale b ha, ← smul_add, smul_comm _ (omega a b.kernel * a⁻¹), ← smul_sub]
  simp only [smul_smul, wsi_scale b ha, mul_comm (omega a b.kernel * a⁻¹)]

theorem neighborWeightGrad_scale (ha : 0 < a) : neighborWeightGrad (bg a b) = a⁻¹ • neighborWeightGrad b := by
  unfold neighborWeightGrad
  rw [bgWeightGrad_scale b ha, show (bg a b).view = b.view from rfl, weightGrad_sum_scale b ha, ← smul_add,
    smul_smul, smul_smul, weightSumInv_scale b ha]
  congr 1
  have := (omega_pos ha b.kernel).ne'
  field_simp

theorem unit_scale (ha : 0 < a) (n : V3 ℝ) : (1 / ((a ^ 2) • n).norm) • ((a ^ 2) • n) = (1 / n.norm) • n := by
  rw [norm_scale (by positivity), smul_smul]
  congr 1
  have := ha.ne'
  field_simp

theorem sampleQueryJacobian_scale (ha : 0 < a) (w : V3 ℝ) (i : ℕ) :
    sampleQueryJacobian (bg a b) (a⁻¹ • w) i = sampleQueryJacobian b w i := by
  unfold sampleQueryJacobian
  have h2 : (bg a b).S.nml i = (a ^ 2) • b.S.nml i := rfl
  have h3 : (bg a b).q - (bg a b).S.pos i = a • (b.q - b.S.pos i) := diff_scale a b.q b.S i
  have h4 : (bg a b).S.value i = a * b.S.value i := rfl
  simp only [h2, h3, h4, weight_bg b ha, weightGrad_bg b ha, unit_scale ha, weightSumInv_scale b ha]
  generalize (1 / (b.S.nml i).norm) • b.S.nml i = n
  have e : V3.dot n (a • (b.q - b.S.pos i)) = a * V3.dot n (b.q - b.S.pos i) := Fem.dot_smul_right _ _ _
  rw [e, ← mul_add, smul_smul (omega a b.kernel * _), mul_right_comm (omega a b.kernel) _ a⁻¹,
    ← smul_smul _ (weight b.kernel b.dist b.q b.S i), ← smul_sub, smul_smul (a * _),
    mul_comm (omega a b.kernel) (weight _ _ _ _ _), ← smul_smul (weight _ _ _ _ _),
    smul_comm (weight _ _ _ _ _) (omega a b.kernel), show ∀ s : ℝ, a * s * (omega a b.kernel * a⁻¹) =
      omega a b.kernel * s by intro s; have := ha.ne'; field_simp, ← smul_smul (omega a b.kernel),
    ← smul_add, smul_smul]
  congr 1
  have := (omega_pos ha b.kernel).ne'
  field_simp

theorem queryJacobianAt_scale (ha : 0 < a) (q : V3 ℝ) (view : List ℕ) (S : Samples) (c : Option ℕ)
    (k : Kern) (P : BgParams) : queryJacobianAt (a • q) view (samples a S) c (kern a k) P =
      queryJacobianAt q view S c k P := by
  unfold queryJacobianAt
  have h := bgNew_scale ha q view S c k P none
  rw [Option.map_none] at h
  rw [h, Option.map_map]
  congr 1
  funext b
  simp only [Function.comp]
  rw [queryJacobian_scale b ha, neighborWeightGrad_scale b ha]
  congr 2
  exact List.map_congr_left fun i _ => sampleQueryJacobian_scale b ha _ i

theorem samplePotential_scale (ha : 0 < a) (q : V3 ℝ) (S : Samples) (i : ℕ) :
    samplePotential (a • q) (samples a S) i = a * samplePotential q S i := by
  unfold samplePotential
  rw [diff_scale]
  show a * S.value i + V3.dot ((a ^ 2) • S.nml i) (a • (q - S.pos i)) / ((a ^ 2) • S.nml i).norm = _
  rw [dot_scale, norm_scale (by positivity)]
  have := ha.ne'
  field_simp

theorem localPotentialAt_scale (ha : 0 < a) (q : V3 ℝ) (view : List ℕ) (S : Samples) (k : Kern)
    (w dist : ℝ) : localPotentialAt (a • q) view (samples a S) (kern a k) ((omega a k)⁻¹ * w) (a * dist) =
      a * localPotentialAt q view S k w dist := by
  unfold localPotentialAt
  simp only [weight_scale ha, samplePotential_scale ha]
  rw [show (view.map fun i => omega a k * weight k dist q S i * (a * samplePotential q S i)).sum =
      omega a k * a * (view.map fun i => weight k dist q S i * samplePotential q S i).sum by
    rw [← List.sum_map_mul_left]
    congr 1
    exact List.map_congr_left fun i _ => by ring]
  have := (omega_pos ha k).ne'
  field_simp

theorem potentialAt_scale (ha : 0 < a) (q : V3 ℝ) (view : List ℕ) (S : Samples) (k : Kern) (P : BgParams)
    (old : ℝ) : potentialAt (a • q) view (samples a S) (kern a k) P (a * old) =
      a * potentialAt q view S k P old := by
  unfold potentialAt
  have h := bgLocal_scale ha q view S k P (some old)
  rw [Option.map_some] at h
  rw [h]
  cases hb : Bg.local q view S k P (some old) with
  | none => rfl
  | some b =>
    have hk : b.kernel = k := by
      unfold Bg.local at hb
      cases hc : closestSample q S view with
      | none => rw [hc] at hb; cases hb
      | some i => rw [hc] at hb; cases hb; rfl
    simp only [Option.map_some]
    have h1 := localPotentialAt_scale ha q view S k b.weightSumInv b.dist
    rw [weightSumInv_scale b ha, hk, show (bg a b).dist = a * b.dist from rfl, h1]
    unfold Bg.weightedField
    rw [bgWeight_scale b ha, fieldValue_scale b ha, hk]
    have := (omega_pos ha k).ne'
    field_simp

theorem sampleJacobianAt_scale (ha : 0 < a) (i : ℕ) : sampleJacobianAt (bg a b) i = sampleJacobianAt b i := by
  unfold sampleJacobianAt
  rw [sampleJacobian_scale b ha]
  congr 1
  have hl : localPotentialAt (bg a b).q (bg a b).view (bg a b).S (bg a b).kernel
      (bg a b).weightSumInv (bg a b).dist =
      a * localPotentialAt b.q b.view b.S b.kernel b.weightSumInv b.dist := by
    rw [weightSumInv_scale b ha]
    exact localPotentialAt_scale ha b.q b.view b.S b.kernel b.weightSumInv b.dist
  rw [hl]
  unfold localSampleJacobian
  have h2 : (bg a b).S.nml i = (a ^ 2) • b.S.nml i := rfl
  have h3 : (bg a b).q - (bg a b).S.pos i = a • (b.q - b.S.pos i) := diff_scale a b.q b.S i
  have h4 : (bg a b).S.value i = a * b.S.value i := rfl
  simp only [h2, h3, h4, weight_bg b ha, weightGrad_bg b ha, bgWeightGrad_scale b ha, unit_scale ha, ← smul_sub,
    Fem.dot_smul_right, ← mul_add, smul_smul, wsi_scale b ha]
  congr 2
  · rw [mul_comm (bg a b).weightSumInv, wsi_scale b ha, mul_comm]
  · rw [weightSumInv_scale b ha]
    have := (omega_pos ha b.kernel).ne'
    field_simp

theorem faceSamples_scale (ha : 0 < a) (tris : ℕ → Field.Tri) (x : ℕ → V3 ℝ)
    (value : ℕ → ℝ) : faceSamples tris (scale a x) (fun i => a * value i) =
      samples a (faceSamples tris x value) := by
  unfold faceSamples samples scale
  congr 1
  · funext i
    rw [← smul_add, ← smul_add, smul_comm]
  · funext i
    exact areaNormal_scale a _ _ _
  · funext i
    rw [← smul_sub, norm_scale ha.le, smul_smul]
    congr 1
    have := ha.ne'
    field_simp

theorem faceUnitNormalGrad_scale (ha : 0 < a) (x : ℕ → V3 ℝ) (tris : ℕ → Field.Tri)
    (S : Samples) (i : ℕ) (j : Fin 3) (w : V3 ℝ) :
    (faceUnitNormalGrad (scale a x) tris (samples a S) i j).mulVec (a • w) =
      (faceUnitNormalGrad x tris S i j).mulVec w := by
  unfold faceUnitNormalGrad
  have h2 : (samples a S).nml i = (a ^ 2) • S.nml i := rfl
  have hn : ∀ v : V3 ℝ, (-areaNormalGrad (scale a x) (tris i) j).mulVec v =
      a • (-areaNormalGrad x (tris i) j).mulVec v := by
    intro v
    rw [M3.mulVec_neg, M3.mulVec_neg]
    unfold areaNormalGrad
    have e : ∀ p q : V3 ℝ, V3.cross (a • p - a • q) v = a • V3.cross (p - q) v := by
      intro p q
      ext <;> simp [V3.cross] <;> ring
    fin_cases j <;> simp only [scale, M3.mulVec_skew, e, smul_neg]
  simp only [h2, unit_scale ha]
  rw [Frame.mulVec_mul', Frame.mulVec_mul', hn, ← Frame.rot_smul]
  congr 1
  unfold scaledTangentProjection
  rw [norm_scale (by positivity)]
  generalize (1 / (S.nml i).norm) • S.nml i = n
  simp only [M3.mulVec_sub, M3.mulVec_diag, M3.mulVec_outer, Fem.dot_smul_right, smul_sub, smul_smul]
  have := ha.ne'
  congr 2
  · field_simp
  · field_simp

theorem faceJacobianAt_scale (ha : 0 < a) (q : V3 ℝ) (view : List ℕ) (S : Samples) (k : Kern)
    (tris : ℕ → Field.Tri) (x : ℕ → V3 ℝ) (P : BgParams) :
    faceJacobianAt (a • q) view (samples a S) (kern a k) tris (scale a x) P =
      faceJacobianAt q view S k tris x P := by
  unfold faceJacobianAt
  have h := bgLocal_scale ha q view S k P none
  rw [Option.map_none] at h
  rw [h, Option.map_map]
  congr 1
  funext b
  simp only [Function.comp]
  congr 1
  funext i
  apply List.map_congr_left
  intro j _
  rw [sampleJacobianAt_scale b ha]
  congr 1
  rw [← faceUnitNormalGrad_scale ha x]
  congr 1
  unfold normalMultiplier
  rw [weight_bg b ha, weightSumInv_scale b ha, smul_smul,
    show (bg a b).q - (bg a b).S.pos i = a • (b.q - b.S.pos i) from diff_scale a b.q b.S i, smul_smul]
  congr 1
  have := (omega_pos ha b.kernel).ne'
  field_simp

/-! ## One contact -/

/-- A contact: radii, offsets and tolerances are lengths, the stiffness is a tension. -/
def pair (a t : ℝ) (C : Pair) : Pair :=
  { C with
    value := fun i => a * C.value i
    kernel := kern a C.kernel
    offset := a * C.offset
    delta := a * C.delta
    kappa := t * C.kappa }

variable (t : ℝ) (C : Pair)

theorem samples_scale (ha : 0 < a) (x : ℕ → V3 ℝ) : (pair a t C).samples (scale a x) = samples a (C.samples x) :=
  faceSamples_scale ha C.tris (fun j => x (C.surf j)) C.value

theorem potentials_scale (ha : 0 < a) (x : ℕ → V3 ℝ) :
    (pair a t C).potentials (scale a x) = (C.potentials x).map (a * ·) := by
  unfold Pair.potentials
  rw [samples_scale t C ha, List.map_map]
  apply List.map_congr_left
  intro p _
  have h := potentialAt_scale ha (C.query x p.2) p.1 (C.samples x) C.kernel params 0
  rw [mul_zero] at h
  exact h

theorem distances_scale (ha : 0 < a) (x : ℕ → V3 ℝ) :
    (pair a t C).distances (scale a x) = (C.distances x).map (a * ·) := by
  unfold Pair.distances
  rw [potentials_scale t C ha, List.zip_map_right, List.filter_map, List.map_map, List.map_map]
  apply List.map_congr_left
  intro p _
  exact (mul_sub a p.2 C.offset).symm

theorem db_scale (ha : 0 < a) (δ x : ℝ) : ContactPenalty.db (a * δ) (a * x) = a * ContactPenalty.db δ x := by
  unfold ContactPenalty.db
  simp only [← mul_sub]
  by_cases h : δ - x > 0
  · rw [if_pos h, if_pos (mul_pos ha h)]
    have := ha.ne'
    by_cases hd : δ = 0
    · subst hd; simp
    · field_simp
  · rw [if_neg h, if_neg (fun h' => h (pos_of_mul_pos_right h' ha.le)), mul_zero]

theorem b_scale (ha : 0 < a) (δ x : ℝ) : ContactPenalty.b (a * δ) (a * x) = a ^ 2 * ContactPenalty.b δ x := by
  unfold ContactPenalty.b
  simp only [← mul_sub]
  by_cases h : δ - x > 0
  · rw [if_pos h, if_pos (mul_pos ha h)]
    have := ha.ne'
    by_cases hd : δ = 0
    · subst hd; simp
    · field_simp
  · rw [if_neg h, if_neg (fun h' => h (pos_of_mul_pos_right h' ha.le)), mul_zero]

theorem lambda_scale (ha : 0 < a) (x : ℕ → V3 ℝ) :
    (pair a t C).lambda (scale a x) = (C.lambda x).map (t * a * ·) := by
  unfold Pair.lambda ContactPenalty.multipliers
  rw [distances_scale t C ha, List.map_map, List.map_map]
  apply List.map_congr_left
  intro d _
  show -(t * C.kappa) * ContactPenalty.db (a * C.delta) (a * d) = t * a * (-C.kappa * ContactPenalty.db C.delta d)
  rw [db_scale ha]
  ring

theorem getD_scale (k : ℝ) (l : List ℝ) (i : ℕ) : (l.map (k * ·)).getD i 0 = k * l.getD i 0 := by
  rw [List.getD_eq_getElem?_getD, List.getD_eq_getElem?_getD, List.getElem?_map]
  cases l[i]? <;> simp

theorem contactEnergy_scale (ha : 0 < a) (x : ℕ → V3 ℝ) :
    (pair a t C).energy (scale a x) = t * a ^ 2 * C.energy x := by
  unfold Pair.energy
  rw [distances_scale t C ha, List.map_map, ← List.sum_map_mul_left]
  congr 1
  apply List.map_congr_left
  intro d _
  show t * C.kappa * ContactPenalty.b (a * C.delta) (a * d) = _
  rw [b_scale ha]
  ring

theorem queryBlocks_scale (ha : 0 < a) (x : ℕ → V3 ℝ) :
    (pair a t C).queryBlocks (scale a x) = C.queryBlocks x := by
  unfold Pair.queryBlocks
  rw [samples_scale t C ha]
  apply List.map_congr_left
  intro p _
  exact congrArg (Option.getD · 0)
    (queryJacobianAt_scale ha (C.query x p.2) p.1 (C.samples x) (some (C.closest p.2)) C.kernel params)

theorem surfaceBlocks_scale (ha : 0 < a) (x : ℕ → V3 ℝ) :
    (pair a t C).surfaceBlocks (scale a x) = C.surfaceBlocks x := by
  unfold Pair.surfaceBlocks
  rw [samples_scale t C ha]
  show C.active.flatMap _ = C.active.flatMap _
  congr 1
  funext p
  exact congrArg (Option.getD · []) (faceJacobianAt_scale ha (C.query x p.2) p.1 (C.samples x) C.kernel C.tris
    (fun j => x (C.surf j)) params)

theorem blocks_scale (ha : 0 < a) (x : ℕ → V3 ℝ) : (pair a t C).blocks (scale a x) = C.blocks x := by
  unfold Pair.blocks Pair.objectBlocks Pair.colliderBlocks
  rw [queryBlocks_scale t C ha, surfaceBlocks_scale t C ha]
  rfl

theorem update_scale (k : ℝ) (f : ℕ → V3 ℝ) (i : ℕ) (v : V3 ℝ) :
    Function.update (scale k f) i (k • v) = scale k (Function.update f i v) := by
  funext j
  by_cases h : j = i
  · subst h; simp [scale]
  · simp [scale, Function.update_of_ne h]

theorem subtractForce_scale (ha : 0 < a) {k : ℝ} (hk : k = t * a) (x f : ℕ → V3 ℝ) :
    (pair a t C).subtractForce (scale a x) (scale k f) = scale k (C.subtractForce x f) := by
  unfold Pair.subtractForce
  rw [lambda_scale t C ha, blocks_scale t C ha, ← hk]
  induction C.blocks x generalizing f with
  | nil => rfl
  | cons b l ih =>
    rw [List.foldl_cons, List.foldl_cons, ← ih, ← update_scale, smul_sub, smul_smul, getD_scale]
    rfl

/-! ## Friction -/

theorem unitNormal_scale (ha : 0 < a) (S : Samples) (i : ℕ) :
    Contact.unitNormal (samples a S) i = Contact.unitNormal S i := unit_scale ha (S.nml i)

theorem weightNmlSumInv_scale (ha : 0 < a) (k : Kern) (dist : ℝ) (q : V3 ℝ) (view : List ℕ)
    (S : Samples) (g : V3 ℝ) :
    weightNmlSumInv (kern a k) (a * dist) (a • q) view (samples a S) g =
      (omega a k)⁻¹ * weightNmlSumInv k dist q view S g := by
  unfold weightNmlSumInv
  simp only [weight_scale ha, unitNormal_scale ha, mul_assoc (omega a k), List.sum_map_mul_left]
  have ho := omega_pos ha k
  by_cases h : (view.map fun i => weight k dist q S i * normalKernel (Contact.unitNormal S i) g).sum > 0
  · rw [if_pos h, if_pos (mul_pos ho h)]
    have := ho.ne'
    field_simp
  · rw [if_neg h, if_neg (fun h' => h (pos_of_mul_pos_right h' ho.le)), mul_zero]

theorem sampleContactJacobian_scale (ha : 0 < a) (k : Kern) (dist : ℝ) (q : V3 ℝ)
    (S : Samples) (g : V3 ℝ) (w : ℝ) (i : ℕ) :
    sampleContactJacobian (kern a k) (a * dist) (a • q) (samples a S) g ((omega a k)⁻¹ * w) i =
      sampleContactJacobian k dist q S g w i := by
  unfold sampleContactJacobian
  simp only [weight_scale ha, unitNormal_scale ha]
  congr 1
  have := (omega_pos ha k).ne'
  field_simp

theorem contactJacobianAt_scale (ha : 0 < a) (q : V3 ℝ) (view : List ℕ) (S : Samples) (k : Kern)
    (P : BgParams) : contactJacobianAt (a • q) view (samples a S) (kern a k) P =
      contactJacobianAt q view S k P := by
  unfold contactJacobianAt
  have h := bgLocal_scale ha q view S k P none
  rw [Option.map_none] at h
  rw [h, queryJacobianAt_scale ha]
  cases Bg.local q view S k P none with
  | none => rfl
  | some b =>
    simp only [Option.map_some, Option.bind_some]
    congr 1
    funext g
    apply List.map_congr_left
    intro i _
    rw [show (bg a b).dist = a * b.dist from rfl, weightNmlSumInv_scale ha, sampleContactJacobian_scale ha]

theorem contactBlocks_scale (ha : 0 < a) (x : ℕ → V3 ℝ) :
    (pair a t C).contactBlocks (scale a x) = C.contactBlocks x := by
  unfold Pair.contactBlocks
  rw [samples_scale t C ha]
  show C.active.flatMap _ = C.active.flatMap _
  congr 1
  funext p
  have h := contactJacobianAt_scale ha (C.query x p.2) p.1 (C.samples x) C.kernel params
  have h' : contactJacobianAt ((pair a t C).query (scale a x) p.2) p.1 (samples a (C.samples x))
    (pair a t C).kernel params = _ := h
  rw [h']
  rfl

theorem relativeVelocities_scale (ha : 0 < a) (u : ℝ) (x v : ℕ → V3 ℝ) :
    (pair a t C).relativeVelocities (scale a x) (scale u v) = (C.relativeVelocities x v).map (u • ·) := by
  unfold Pair.relativeVelocities
  rw [contactBlocks_scale t C ha, List.map_map]
  apply List.map_congr_left
  intro p _
  simp only [Function.comp, smul_sub, smul_list_sum, List.map_map]
  congr 2
  apply List.map_congr_left
  intro b _
  exact Frame.rot_smul _ _ _

theorem contactBasis_scale (ha : 0 < a) (x : ℕ → V3 ℝ) :
    (pair a t C).contactBasis (scale a x) = C.contactBasis x := by
  unfold Pair.contactBasis Pair.contactNormals
  rw [queryBlocks_scale t C ha]

/-- The parameters of friction: two of them are speeds; viscous friction is a force per speed. -/
def friction (u w : ℝ) (p : Friction.Params) : Friction.Params :=
  { p with
    viscousFriction := w * p.viscousFriction
    stribeckVelocity := u * p.stribeckVelocity
    epsilon := u * p.epsilon }

theorem falloff_scale {u : ℝ} (hu : 0 < u) (x w : ℝ) :
    Friction.falloff (u * x) (u * w) = Friction.falloff x w := by
  unfold Friction.falloff
  have e : u * w * (u * w) * (u * w) = (u * u * u) * (w * w * w) := by ring
  have h3 : 0 < u * u * u := by positivity
  simp only [gt_scale hu, e]
  congr 1
  by_cases h : w * w * w > 0
  · rw [if_pos h, if_pos (mul_pos h3 h), ← div_scale h3 ((2 * x + w) * (x - w) * (x - w))]
    congr 1
    ring
  · rw [if_neg h, if_neg (fun h' => h (pos_of_mul_pos_right h' h3.le))]

theorem profile_scale {u : ℝ} (hu : 0 < u) (P : Friction.Profile) (x e : ℝ) :
    P.s (u * x) (u * e) = u⁻¹ * P.s x e := by
  have hu' := hu.ne'
  cases P with
  | stabilized =>
    show 1 / (u * x + 0.1 * (u * e)) = u⁻¹ * (1 / (x + 0.1 * e))
    rw [show u * x + 0.1 * (u * e) = u * (x + 0.1 * e) by ring, one_div, mul_inv, one_div]
  | quadratic =>
    show (if u * x < u * e then (2 - u * x / (u * e)) / (u * e) else 1 / (u * x)) = u⁻¹ *
      (if x < e then (2 - x / e) / e else 1 / x)
    rw [div_scale hu]
    simp only [mul_lt_mul_iff_right₀ hu]
    split
    · rw [← div_div, div_right_comm, div_eq_inv_mul _ u]
    · rw [one_div, mul_inv, one_div]

theorem profileInt_scale {u : ℝ} (hu : 0 < u) (P : Friction.Profile) (x e : ℝ) :
    P.is (u * x) (u * e) = u * P.is x e := by
  have hu' := hu.ne'
  cases P with
  | stabilized =>
    show u * x + u * e * 0.1 * Real.log (2 * (u * e * 0.1) / (u * e * 0.1 + u * x)) = u *
      (x + e * 0.1 * Real.log (2 * (e * 0.1) / (e * 0.1 + x)))
    rw [show 2 * (u * e * 0.1) = u * (2 * (e * 0.1)) by ring, show u * e * 0.1 + u * x = u * (e * 0.1 + x) by ring,
      div_scale hu]
    ring
  | quadratic =>
    show (if u * x < u * e then (u * x / (u * e)) * (u * x - (u * x * (u * x)) / (3 * (u * e))) + u * e / 3
      else u * x) = u * (if x < e then (x / e) * (x - (x * x) / (3 * e)) + e / 3 else x)
    rw [div_scale hu, show 3 * (u * e) = u * (3 * e) by ring, show u * x * (u * x) = u * (u * (x * x)) by ring,
      div_scale hu]
    simp only [mul_lt_mul_iff_right₀ hu]
    split
    · ring
    · rfl

theorem v2_norm_scale {u : ℝ} (hu : 0 ≤ u) (v : V2 ℝ) : (u • v).norm = u * v.norm := by
  unfold V2.norm
  rw [show V2.dot (u • v) (u • v) = u ^ 2 * V2.dot v v by simp [V2.dot]; ring, Real.sqrt_mul (by positivity),
    Real.sqrt_sq hu]

theorem frictionProfile_scale {u f : ℝ} (hu : 0 < u) (p : Friction.Params) (l : ℝ) (v : V2 ℝ) :
    Friction.profile (u • v) (f * l) (friction u (f / u) p) = f • Friction.profile v l p := by
  rw [Frame.profile_slide, Frame.profile_slide]
  unfold Frame.slide
  rw [v2_norm_scale hu.le]
  simp only [friction, falloff_scale hu, profile_scale hu]
  have := hu.ne'
  ext <;> simp <;> field_simp

theorem frictionPotential_one {u f : ℝ} (hu : 0 < u) (p : Friction.Params) (l : ℝ) (v : V2 ℝ) :
    Friction.potential (u • v) (f * l) (friction u (f / u) p) = f * u * Friction.potential v l p := by
  have e : ∀ (p : Friction.Params) (v : V2 ℝ) (l : ℝ), Friction.potential v l p = l * p.profile.is v.norm p.epsilon := by
    intro p v l
    unfold Friction.potential
    cases p.profile <;> rfl
  rw [e, e, v2_norm_scale hu.le]
  simp only [friction, profileInt_scale hu]
  ring

theorem toCoordinates_scale (B : ContactBasis) (u : ℝ) (v : V3 ℝ) (i : ℕ) :
    B.toContactCoordinates (u • v) i = (B.toContactCoordinates v i).map (u • ·) := by
  unfold ContactBasis.toContactCoordinates
  rw [Option.map_map]
  congr 1
  funext m
  exact Frame.rot_smul _ _ _

theorem contactFriction_scale {u f : ℝ} (hu : 0 < u) (B : ContactBasis) (p : Friction.Params) (l : ℝ) (v : V3 ℝ)
    (i : ℕ) : (B.contactFriction (friction u (f / u) p) (f * l) (u • v) i).getD 0 =
      f • (B.contactFriction p l v i).getD 0 := by
  unfold ContactBasis.contactFriction
  rw [toCoordinates_scale]
  cases B.toContactCoordinates v i with
  | none => exact (smul_zero f).symm
  | some c =>
    have hc : (⟨(u • c).y, (u • c).z⟩ : V2 ℝ) = u • ⟨c.y, c.z⟩ := rfl
    simp only [Option.map_some, Option.bind_some, hc, frictionProfile_scale hu, ContactBasis.fromContactCoordinates]
    cases B.contactBasisMatrix i with
    | none => exact (smul_zero f).symm
    | some m =>
      simp only [Option.map_some, Option.getD_some]
      rw [← Frame.rot_smul]
      congr 1
      ext <;> simp

theorem constraintFriction_scale (ha : 0 < a) {u f : ℝ} (hu : 0 < u) (hf : f = t * a) (p : Friction.Params)
    (x v : ℕ → V3 ℝ) : (pair a t C).constraintFriction (friction u (f / u) p) (scale a x) (scale u v) =
      (C.constraintFriction p x v).map (f • ·) := by
  unfold Pair.constraintFriction
  rw [relativeVelocities_scale t C ha, lambda_scale t C ha, contactBasis_scale t C ha, ← hf, List.zipIdx_map,
    List.map_map, List.map_map]
  apply List.map_congr_left
  intro r _
  simp only [Function.comp, Prod.map, id, getD_scale, contactFriction_scale hu]

theorem getD_smul (k : ℝ) (w : List (V3 ℝ)) (i : ℕ) : (w.map (k • ·)).getD i 0 = k • w.getD i 0 := by
  rw [List.getD_eq_getElem?_getD, List.getD_eq_getElem?_getD, List.getElem?_map]
  cases w[i]? with
  | none => exact (smul_zero k).symm
  | some a => rfl

theorem transposeMul_scale (ha : 0 < a) (k : ℝ) (ns : ℕ) (x : ℕ → V3 ℝ) (w : List (V3 ℝ)) :
    (pair a t C).transposeMul ns (scale a x) (w.map (k • ·)) = scale k (C.transposeMul ns x w) := by
  unfold Pair.transposeMul
  have hs : ∀ j : ℕ, (((C.contactBlocks x).filter fun b => b.col = j).map fun b =>
      b.val.transpose.mulVec ((w.map (k • ·)).getD b.row 0)).sum =
      k • (((C.contactBlocks x).filter fun b => b.col = j).map fun b =>
        b.val.transpose.mulVec (w.getD b.row 0)).sum := by
    intro j
    rw [smul_list_sum, List.map_map]
    congr 1
    apply List.map_congr_left
    intro b _
    simp only [Function.comp, getD_smul, Frame.rot_smul]
  rw [contactBlocks_scale t C ha]
  simp only [hs]
  simp only [getD_smul, ← smul_neg]
  have h1 : ∀ (l : List ℕ) (g : ℕ → V3 ℝ) (f : ℕ → V3 ℝ),
      l.foldl (fun f j => Function.update f (C.surf j) (k • (g j))) (scale k f) =
        scale k (l.foldl (fun f j => Function.update f (C.surf j) (g j)) f) := by
    intro l g
    induction l with
    | nil => exact fun f => rfl
    | cons a l ih => intro f; rw [List.foldl_cons, List.foldl_cons, update_scale, ih]
  have h2 : ∀ (l : List ((List ℕ × ℕ) × ℕ)) (g : ℕ → V3 ℝ) (f : ℕ → V3 ℝ),
      l.foldl (fun f p => Function.update f (C.coll p.1.2) (k • (g p.2))) (scale k f) =
        scale k (l.foldl (fun f p => Function.update f (C.coll p.1.2) (g p.2)) f) := by
    intro l g
    induction l with
    | nil => exact fun f => rfl
    | cons a l ih => intro f; rw [List.foldl_cons, List.foldl_cons, update_scale, ih]
  have h0 : (fun _ : ℕ => (0 : V3 ℝ)) = scale k fun _ => 0 := by
    funext i
    exact (smul_zero k).symm
  rw [← h2 _ fun i => -w.getD i 0, ← h1, ← h0]
  rfl

theorem isNone_scale {u f : ℝ} (hu : 0 < u) (hf : 0 < f) (p : Friction.Params) :
    (friction u (f / u) p).isNone ↔ p.isNone := by
  unfold Friction.Params.isNone
  show p.dynamicFriction = 0 ∧ p.staticFriction = 0 ∧ f / u * p.viscousFriction = 0 ↔ _
  have : f / u ≠ 0 := (div_pos hf hu).ne'
  simp [this]

theorem subtractFriction_scale (ha : 0 < a) {u f : ℝ} (hu : 0 < u) (hf0 : 0 < f) (hf : f = t * a) (ns : ℕ)
    (p : Friction.Params) (x v g : ℕ → V3 ℝ) :
    (pair a t C).subtractFriction ns (friction u (f / u) p) (scale a x) (scale u v) (scale f g) =
      scale f (C.subtractFriction ns p x v g) := by
  unfold Pair.subtractFriction Pair.frictionForce
  by_cases hp : p.isNone
  · rw [if_pos hp, if_pos ((isNone_scale hu hf0 p).2 hp)]
  · rw [if_neg hp, if_neg (mt (isNone_scale hu hf0 p).1 hp)]
    simp only
    funext i
    rw [constraintFriction_scale t C ha hu hf, transposeMul_scale t C ha]
    exact (smul_sub f _ _).symm

theorem frictionPotential_scale (ha : 0 < a) {u f : ℝ} (hu : 0 < u) (hf0 : 0 < f) (hf : f = t * a)
    (p : Friction.Params) (x v : ℕ → V3 ℝ) {q q' e : ℝ} (he : f * u * q' = e * q) :
    (pair a t C).frictionPotential (friction u (f / u) p) (scale a x) (scale u v) q' =
      e * C.frictionPotential p x v q := by
  unfold Pair.frictionPotential
  by_cases hp : p.isNone
  · rw [if_pos hp, if_pos ((isNone_scale hu hf0 p).2 hp), mul_zero]
  · rw [if_neg hp, if_neg (mt (isNone_scale hu hf0 p).1 hp)]
    rw [relativeVelocities_scale t C ha, lambda_scale t C ha, contactBasis_scale t C ha, ← hf, List.zipIdx_map,
      List.map_map]
    have h : ∀ r : V3 ℝ × ℕ, ((fun r : V3 ℝ × ℕ =>
        (((C.contactBasis x).toContactCoordinates r.1 r.2).map fun c =>
          Friction.potential ⟨c.y, c.z⟩ (((C.lambda x).map (f * ·)).getD r.2 0)
            (friction u (f / u) p)).getD 0) ∘ Prod.map (u • ·) id) r =
        f * u * (((C.contactBasis x).toContactCoordinates r.1 r.2).map fun c =>
          Friction.potential ⟨c.y, c.z⟩ ((C.lambda x).getD r.2 0) p).getD 0 := by
      intro r
      simp only [Function.comp, Prod.map, id, toCoordinates_scale, getD_scale]
      cases (C.contactBasis x).toContactCoordinates r.1 r.2 with
      | none => simp
      | some c =>
        have hc : (⟨(u • c).y, (u • c).z⟩ : V2 ℝ) = u • ⟨c.y, c.z⟩ := rfl
        simp only [Option.map_some, Option.getD_some, hc, frictionPotential_one hu]
    rw [List.map_congr_left fun r _ => h r, List.sum_map_mul_left, mul_right_comm, he]
    ring

end Softy.Units
