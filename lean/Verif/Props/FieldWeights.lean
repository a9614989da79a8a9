import Verif.Lemmas.Field

/-!
# The potential is a convex combination

Property C50 (weights), C70 (reversal) and C71 (rigid motions).
-/

noncomputable section

namespace Softy.Field

open Softy Softy.Kernel

/-! ## Specification -/

/-- Specification: the kernel weights are finite and, unless the background is mixed in, the closest
sample does not lie exactly on the edge of the kernel. -/
structure Weighable (k : Kern) (P : BgParams) (q : V3 ℝ) (view : List ℕ) (S : Samples) : Prop where
  proper : k.Proper
  nonempty : view ≠ []
  center : k.Finite ∨ ∀ i ∈ view, q ≠ S.pos i
  edge : (P.weighted = true ∧ k.Finite) ∨ ∀ r, k.radius = some r → ∀ i ∈ view, (q - S.pos i).norm ≠ r

/-- Specification: the background field that the parameters ask for, at a query point whose closest
sample is `c`. -/
inductive IsBackground (P : BgParams) (q : V3 ℝ) (S : Samples) (c : ℕ) (old : ℝ) : ℝ → Prop
  | zero (h : P.fieldType = .zero) : IsBackground P q S c old 0
  | input (h : P.fieldType = .fromInput) : IsBackground P q S c old old
  | above (h : P.fieldType = .distanceBased) (hs : 0 ≤ V3.dot (S.nml c) (q - S.pos c)) :
      IsBackground P q S c old (q - S.pos c).norm
  | below (h : P.fieldType = .distanceBased) (hs : V3.dot (S.nml c) (q - S.pos c) < 0) :
      IsBackground P q S c old (-(q - S.pos c).norm)

/-! ## Weights -/

theorem norm_pos_of_ne {a b : V3 ℝ} (h : a ≠ b) : 0 < (a - b).norm := by
  rcases eq_or_lt_of_le (V3.norm_nonneg (a - b)) with h0 | h0
  · have := V3.norm_mul_norm (a - b)
    rw [← h0, mul_zero] at this
    exact absurd (sub_eq_zero.1 (V3.dot_self_eq_zero.1 this.symm)) h
  · exact h0

theorem potentialAt_eq {q : V3 ℝ} {view : List ℕ} {S : Samples} {c : ℕ}
    (hc : closestSample q S view = some c) (k : Kern) (P : BgParams) (old : ℝ) :
    potentialAt q view S k P old =
      (Bg.newImpl q view S (.loc c) k P (some old)).fieldValue *
        backgroundWeight k P.weighted (q - S.pos c).norm *
        ((view.map (weight k (q - S.pos c).norm q S)).sum +
          backgroundWeight k P.weighted (q - S.pos c).norm)⁻¹ +
      (view.map fun i => weight k (q - S.pos c).norm q S i * samplePotential q S i).sum *
        ((view.map (weight k (q - S.pos c).norm q S)).sum +
          backgroundWeight k P.weighted (q - S.pos c).norm)⁻¹ := by
  simp only [potentialAt, Bg.local, hc, weightSumInv_eq]
  rfl

theorem weight_sum_pos {k : Kern} {P : BgParams} {q : V3 ℝ} {view : List ℕ} {S : Samples} {c : ℕ}
    (h : Weighable k P q view S) (hc : closestSample q S view = some c) :
    (∀ i ∈ view, 0 ≤ weight k (q - S.pos c).norm q S i) ∧
    0 ≤ backgroundWeight k P.weighted (q - S.pos c).norm ∧
    0 < (view.map (weight k (q - S.pos c).norm q S)).sum +
      backgroundWeight k P.weighted (q - S.pos c).norm := by
  obtain ⟨hm, hmin⟩ := closestSample_spec hc
  have hd : k.Finite ∨ 0 < (q - S.pos c).norm :=
    h.center.imp id fun h => norm_pos_of_ne (h c hm)
  have hw : ∀ i ∈ view, 0 ≤ weight k (q - S.pos c).norm q S i := fun i hi =>
    weight_nonneg h.proper hd (hmin i hi)
  have hb : 0 ≤ backgroundWeight k P.weighted (q - S.pos c).norm := by
    refine backgroundWeight_nonneg h.proper _ fun _ => ?_
    rcases h.edge with he | he
    · exact Or.inl he.2
    · exact Or.inr fun r hr => he r hr c hm
  refine ⟨hw, hb, ?_⟩
  have hin : (∀ r, k.radius = some r → (q - S.pos c).norm < r) →
      0 < weight k (q - S.pos c).norm q S c := by
    intro hr
    refine kernel_pos _ (proper_withClosest h.proper hd) _ (V3.norm_nonneg _) ?_ ?_
    · rw [finite_withClosest]; exact hd.imp id fun h => h.ne'
    · rw [radius_withClosest]; exact hr
  cases hr : k.radius with
  | none =>
    refine add_pos_of_pos_of_nonneg (sum_pos hw hm (hin ?_)) hb
    intro r h; rw [hr] at h; cases h
  | some r =>
    rcases lt_trichotomy (q - S.pos c).norm r with hlt | heq | hgt
    · refine add_pos_of_pos_of_nonneg (sum_pos hw hm (hin ?_)) hb
      intro r' h; rw [hr] at h; cases h; exact hlt
    · rcases h.edge with he | he
      · refine add_pos_of_nonneg_of_pos (sum_nonneg hw) ?_
        unfold backgroundWeight
        simp only [hr, heq, lt_irrefl, if_false, he.1, if_true, sub_self]
        rw [(kernel_one k h.proper he.2 (by rw [hr]; simp)).1]
        exact one_pos
      · exact absurd heq (he r hr c hm)
    · refine add_pos_of_nonneg_of_pos (sum_nonneg hw) ?_
      unfold backgroundWeight
      simp only [hr, hgt, if_true]
      exact one_pos

theorem fieldValue_isBackground (q : V3 ℝ) (view : List ℕ) (S : Samples) (c : ℕ) (k : Kern)
    (P : BgParams) (old : ℝ) :
    IsBackground P q S c old (Bg.newImpl q view S (.loc c) k P (some old)).fieldValue := by
  cases hP : P.fieldType with
  | zero => simpa [Bg.fieldValue, Bg.newImpl, BgValue.new, hP] using IsBackground.zero hP
  | fromInput => simpa [Bg.fieldValue, Bg.newImpl, BgValue.new, hP] using IsBackground.input hP
  | distanceBased =>
    simp only [Bg.fieldValue, Bg.newImpl, BgValue.new, hP, Bg.orientation, ClosestIndex.get]
    split
    · rename_i h
      rw [mul_neg, mul_one]
      exact IsBackground.below hP h
    · rename_i h
      rw [mul_one]
      exact IsBackground.above hP (not_lt.1 h)

/-- C50. The potential at a query point is a combination of the values that the samples predict and of
the background field with weights that are not negative and sum to one. Samples outside the radius of
the kernel have no influence, and neither has the background inside the radius, unless it is mixed
in. -/
theorem potential_convex (k : Kern) (P : BgParams) (q : V3 ℝ) (view : List ℕ) (S : Samples) (old : ℝ)
    (h : Weighable k P q view S) :
    ∃ (c : ℕ) (u : ℕ → ℝ) (ub bg : ℝ),
      (c ∈ view ∧ ∀ i ∈ view, (q - S.pos c).norm ≤ (q - S.pos i).norm) ∧
      potentialAt q view S k P old =
        ub * bg + (view.map fun i => u i *
          (S.value i + V3.dot (S.nml i) (q - S.pos i) / (S.nml i).norm)).sum ∧
      (∀ i ∈ view, 0 ≤ u i) ∧ 0 ≤ ub ∧ ub + (view.map u).sum = 1 ∧
      IsBackground P q S c old bg ∧
      (∀ r, k.radius = some r → ∀ i, r ≤ (q - S.pos i).norm → u i = 0) ∧
      (P.weighted = false → (∀ r, k.radius = some r → (q - S.pos c).norm ≤ r) → ub = 0) ∧
      (∀ r, k.radius = some r → r < (q - S.pos c).norm → ub = 1) := by
  obtain ⟨c, hc⟩ := closestSample_isSome (q := q) (S := S) h.nonempty
  obtain ⟨hm, hmin⟩ := closestSample_spec hc
  obtain ⟨hw, hb, hW⟩ := weight_sum_pos h hc
  have hd : k.Finite ∨ 0 < (q - S.pos c).norm :=
    h.center.imp id fun h => norm_pos_of_ne (h c hm)
  have hfar : ∀ r, k.radius = some r → ∀ i, r ≤ (q - S.pos i).norm →
      weight k (q - S.pos c).norm q S i = 0 := fun r hr i hi => weight_far h.proper hd hr hi
  refine ⟨c, fun i => weight k (q - S.pos c).norm q S i *
      ((view.map (weight k (q - S.pos c).norm q S)).sum +
        backgroundWeight k P.weighted (q - S.pos c).norm)⁻¹,
    backgroundWeight k P.weighted (q - S.pos c).norm *
      ((view.map (weight k (q - S.pos c).norm q S)).sum +
        backgroundWeight k P.weighted (q - S.pos c).norm)⁻¹,
    (Bg.newImpl q view S (.loc c) k P (some old)).fieldValue,
    ⟨hm, hmin⟩, ?_, fun i hi => mul_nonneg (hw i hi) (inv_nonneg.2 hW.le),
    mul_nonneg hb (inv_nonneg.2 hW.le), ?_, fieldValue_isBackground q view S c k P old, ?_, ?_, ?_⟩
  · rw [potentialAt_eq hc, ← List.sum_map_mul_right]
    congr 1
    · ring
    · congr 1
      refine List.map_congr_left fun i _ => ?_
      simp only [samplePotential]
      ring
  · rw [List.sum_map_mul_right, ← add_mul, add_comm, ]
    exact mul_inv_cancel₀ hW.ne'
  · intro r hr i hi
    simp only [hfar r hr i hi, zero_mul]
  · intro hP hle
    unfold backgroundWeight
    cases hr : k.radius with
    | none => simp only [zero_mul]
    | some r => simp only [not_lt.2 (hle r hr), if_false, hP, Bool.false_eq_true, zero_mul]
  · intro r hr hgt
    have h0 : (view.map (weight k (q - S.pos c).norm q S)).sum = 0 :=
      sum_eq_zero fun i hi => hfar r hr i (hgt.le.trans (hmin i hi))
    rw [h0, zero_add]
    unfold backgroundWeight
    simp only [hr, hgt, if_true, inv_one, mul_one]

/-- Sums with weights of bounded terms. -/
theorem weighted_bounds {l : List ℕ} {u v : ℕ → ℝ} {a b : ℝ} (hu : ∀ i ∈ l, 0 ≤ u i)
    (hv : ∀ i ∈ l, u i = 0 ∨ a ≤ v i ∧ v i ≤ b) :
    (l.map u).sum * a ≤ (l.map fun i => u i * v i).sum ∧
      (l.map fun i => u i * v i).sum ≤ (l.map u).sum * b := by
  induction l with
  | nil => simp
  | cons i l ih =>
    obtain ⟨h1, h2⟩ := ih (fun j hj => hu j (List.mem_cons_of_mem _ hj))
      fun j hj => hv j (List.mem_cons_of_mem _ hj)
    simp only [List.map_cons, List.sum_cons, add_mul]
    have h0 := hu i (by simp)
    rcases hv i (by simp) with h | ⟨h3, h4⟩
    · rw [h]; simp only [zero_mul, zero_add]; exact ⟨h1, h2⟩
    · exact ⟨add_le_add (mul_le_mul_of_nonneg_left h3 h0) h1,
        add_le_add (mul_le_mul_of_nonneg_left h4 h0) h2⟩

/-- C50. Within the radius, the potential lies between the least and the greatest value that a sample
within the radius predicts, when the background is not mixed in. -/
theorem potential_bounds (k : Kern) (P : BgParams) (q : V3 ℝ) (view : List ℕ) (S : Samples)
    (old a b : ℝ) (h : Weighable k P q view S) (hP : P.weighted = false) (i : ℕ) (hi : i ∈ view)
    (hr : ∀ r, k.radius = some r → (q - S.pos i).norm < r)
    (hab : ∀ j ∈ view, (∀ r, k.radius = some r → (q - S.pos j).norm < r) →
      a ≤ S.value j + V3.dot (S.nml j) (q - S.pos j) / (S.nml j).norm ∧
      S.value j + V3.dot (S.nml j) (q - S.pos j) / (S.nml j).norm ≤ b) :
    a ≤ potentialAt q view S k P old ∧ potentialAt q view S k P old ≤ b := by
  obtain ⟨c, u, ub, bg, ⟨hm, hmin⟩, he, hu, hub, hs, hbg, hfar, hin, hout⟩ :=
    potential_convex k P q view S old h
  have hub0 : ub = 0 := hin hP fun r hk => (hmin i hi).trans (hr r hk).le
  rw [he, hub0, zero_mul, zero_add]
  rw [hub0, zero_add] at hs
  have hv : ∀ j ∈ view, u j = 0 ∨ a ≤ S.value j + V3.dot (S.nml j) (q - S.pos j) / (S.nml j).norm ∧
      S.value j + V3.dot (S.nml j) (q - S.pos j) / (S.nml j).norm ≤ b := by
    intro j hj
    by_cases hx : ∀ r, k.radius = some r → (q - S.pos j).norm < r
    · exact Or.inr (hab j hj hx)
    · push Not at hx
      obtain ⟨r, hr', hx⟩ := hx
      exact Or.inl (hfar r hr' j hx)
  have := weighted_bounds hu hv
  rw [hs, one_mul, one_mul] at this
  exact this

/-- C50. Around samples of a plane with normals across the plane, the potential is the signed distance
from the plane. -/
theorem potential_plane (k : Kern) (P : BgParams) (q : V3 ℝ) (view : List ℕ) (S : Samples) (old : ℝ)
    (h : Weighable k P q view S) (hP : P.weighted = false) (n : V3 ℝ) (hn : V3.dot n n = 1) (off : ℝ)
    (hS : ∀ j ∈ view, S.value j = 0 ∧ V3.dot n (S.pos j) = off ∧ ∃ a : ℝ, 0 < a ∧ S.nml j = a • n)
    (i : ℕ) (hi : i ∈ view) (hr : ∀ r, k.radius = some r → (q - S.pos i).norm < r) :
    potentialAt q view S k P old = V3.dot n q - off := by
  have key : ∀ j ∈ view,
      S.value j + V3.dot (S.nml j) (q - S.pos j) / (S.nml j).norm = V3.dot n q - off := by
    intro j hj
    obtain ⟨h1, h2, a, ha, h3⟩ := hS j hj
    have hnn : (a • n).norm = a := by
      have : V3.dot (a • n) (a • n) = a * a := by
        rw [dot_smul_left, dot_smul_right, hn]; ring
      unfold V3.norm
      rw [this, Real.sqrt_mul_self ha.le]
    rw [h1, h3, hnn, dot_smul_left, dot_sub_right, h2]
    field_simp
    ring
  have := potential_bounds k P q view S old (V3.dot n q - off) (V3.dot n q - off) h hP i hi hr
    fun j hj _ => by rw [key j hj]; exact ⟨le_refl _, le_refl _⟩
  exact le_antisymm this.2 this.1

/-! ### Concrete samples -/

/-- Two samples of the plane `z = 0`. -/
def demoSamples : Samples where
  pos i := ⟨i, 0, 0⟩
  nml _ := ⟨0, 0, 2⟩
  vel _ := 0
  value _ := 0

theorem norm_axis (x : ℝ) : (⟨x, 0, 0⟩ : V3 ℝ).norm = |x| := by
  simp only [V3.norm, V3.dot, mul_zero, add_zero]
  rw [Real.sqrt_mul_self_eq_abs]

theorem demo_norm0 : ((⟨1 / 4, 0, 0⟩ : V3 ℝ) - demoSamples.pos 0).norm = 1 / 4 := by
  have : ((⟨1 / 4, 0, 0⟩ : V3 ℝ) - demoSamples.pos 0) = ⟨1 / 4, 0, 0⟩ := by
    ext <;> simp [demoSamples]
  rw [this, norm_axis, abs_of_pos (by norm_num)]

theorem demo_norm1 : ((⟨1 / 4, 0, 0⟩ : V3 ℝ) - demoSamples.pos 1).norm = 3 / 4 := by
  have : ((⟨1 / 4, 0, 0⟩ : V3 ℝ) - demoSamples.pos 1) = ⟨-(3 / 4), 0, 0⟩ := by
    ext <;> simp [demoSamples]
    norm_num
  rw [this, norm_axis, abs_neg, abs_of_pos (by norm_num)]

theorem demo_weighable (k : Kern) (hk : k.Proper) (hf : k.Finite) (hr : k.radius = some 1)
    (P : BgParams) : Weighable k P ⟨1 / 4, 0, 0⟩ [0, 1] demoSamples where
  proper := hk
  nonempty := by simp
  center := Or.inl hf
  edge := Or.inr fun r h i hi => by
    rw [hr] at h; cases h
    simp only [List.mem_cons, List.not_mem_nil, or_false] at hi
    rcases hi with rfl | rfl
    · rw [demo_norm0]; norm_num
    · rw [demo_norm1]; norm_num

example : Weighable (.approximate 1 (1 / 10)) ⟨.distanceBased, false⟩ ⟨1 / 4, 0, 0⟩ [0, 1]
    demoSamples := demo_weighable (.approximate 1 (1 / 10)) ⟨one_pos, by norm_num⟩ trivial rfl _

example : potentialAt ⟨1 / 4, 0, 0⟩ [0, 1] demoSamples (.approximate 1 (1 / 10))
    ⟨.distanceBased, false⟩ 7 = 0 := by
  rw [potential_plane (.approximate 1 (1 / 10)) ⟨.distanceBased, false⟩ ⟨1 / 4, 0, 0⟩ [0, 1]
    demoSamples 7 (demo_weighable (.approximate 1 (1 / 10)) ⟨one_pos, by norm_num⟩ trivial rfl _) rfl ⟨0, 0, 1⟩
    (by simp [V3.dot]) 0 ?_ 0 (by simp) ?_]
  · simp [V3.dot]
  · intro j _
    refine ⟨rfl, by simp [V3.dot, demoSamples], 2, by norm_num, ?_⟩
    ext <;> simp [demoSamples]
  · intro r hr
    cases hr
    rw [demo_norm0]; norm_num

/-! ## The edge of the kernel -/

/-- One sample at the origin, whose normal points up. -/
def pointSample : Samples where
  pos _ := 0
  nml _ := ⟨0, 0, 1⟩
  vel _ := 0
  value _ := 1

/-- C50 fails at the edge. When the closest sample is exactly at the radius and the background is not
mixed in, all weights are zero and so is the potential, whatever the value of the sample and the
background. -/
theorem edge_weights_violated (k : Kern) (hk : k.Proper) (r : ℝ) (hr : k.radius = some r) (h0 : 0 < r)
    (ty : BgType) (old : ℝ) :
    potentialAt ⟨r, 0, 0⟩ [0] pointSample k ⟨ty, false⟩ old = 0 ∧
      pointSample.value 0 + V3.dot (pointSample.nml 0) (⟨r, 0, 0⟩ - pointSample.pos 0) /
        (pointSample.nml 0).norm = 1 := by
  have hn : ((⟨r, 0, 0⟩ : V3 ℝ) - pointSample.pos 0).norm = r := by
    have : ((⟨r, 0, 0⟩ : V3 ℝ) - pointSample.pos 0) = ⟨r, 0, 0⟩ := by ext <;> simp [pointSample]
    rw [this, norm_axis, abs_of_pos h0]
  constructor
  · rw [potentialAt_eq (c := 0) rfl]
    have hw : weight k r ⟨r, 0, 0⟩ pointSample 0 = 0 :=
      weight_far hk (Or.inr h0) hr hn.ge
    have hb : backgroundWeight k false r = 0 := by
      unfold backgroundWeight
      simp [hr]
    simp only [hn, List.map_cons, List.map_nil, List.sum_cons, List.sum_nil, hw, hb]
    simp
  · simp [pointSample, V3.dot]

/-- The potential is not continuous at the edge of the kernel: a query that leaves the neighborhood of
a sample along its tangent plane sees the potential jump from the value at the sample to the distance
from it. -/
theorem potential_jump_violated (k : Kern) (hk : k.Proper) (r : ℝ) (hr : k.radius = some r)
    (h0 : 0 < r) (old x : ℝ) (hx : 0 < x) :
    (x < r → potentialAt ⟨x, 0, 0⟩ [0] pointSample k ⟨.distanceBased, false⟩ old = 1) ∧
    (r < x → potentialAt ⟨x, 0, 0⟩ [0] pointSample k ⟨.distanceBased, false⟩ old = x) := by
  have he : ((⟨x, 0, 0⟩ : V3 ℝ) - pointSample.pos 0) = ⟨x, 0, 0⟩ := by ext <;> simp [pointSample]
  have hn : ((⟨x, 0, 0⟩ : V3 ℝ) - pointSample.pos 0).norm = x := by
    rw [he, norm_axis, abs_of_pos hx]
  constructor
  · intro h
    have hW : Weighable k ⟨.distanceBased, false⟩ ⟨x, 0, 0⟩ [0] pointSample := by
      refine ⟨hk, by simp, Or.inr fun i hi => ?_, Or.inr fun r' hr' i hi => ?_⟩
      · intro heq
        have := congrArg V3.x heq
        simp only [pointSample, V3.zero_x] at this
        exact hx.ne' this
      · rw [hr] at hr'; cases hr'
        simp only [List.mem_singleton] at hi; subst hi
        rw [hn]; exact h.ne
    have hv : pointSample.value 0 + V3.dot (pointSample.nml 0) (⟨x, 0, 0⟩ - pointSample.pos 0) /
        (pointSample.nml 0).norm = 1 := by simp [pointSample, V3.dot]
    have := potential_bounds k ⟨.distanceBased, false⟩ ⟨x, 0, 0⟩ [0] pointSample old 1 1 hW rfl 0
      (by simp) (fun r' hr' => by rw [hr] at hr'; cases hr'; rw [hn]; exact h) fun j hj _ => by
        simp only [List.mem_singleton] at hj; subst hj
        rw [hv]; exact ⟨le_refl _, le_refl _⟩
    exact le_antisymm this.2 this.1
  · intro h
    rw [potentialAt_eq (c := 0) rfl]
    have hw : weight k x ⟨x, 0, 0⟩ pointSample 0 = 0 :=
      weight_far hk (Or.inr hx) hr (h.le.trans hn.ge)
    have hb : backgroundWeight k false x = 1 := by
      unfold backgroundWeight
      simp [hr, h]
    have hv : (Bg.newImpl ⟨x, 0, 0⟩ [0] pointSample (.loc 0) k ⟨.distanceBased, false⟩
        (some old)).fieldValue = x := by
      simp only [Bg.fieldValue, Bg.newImpl, BgValue.new, Bg.orientation, ClosestIndex.get, hn]
      rw [if_neg (by simp [pointSample, V3.dot]), mul_one]
    simp only [hn, List.map_cons, List.map_nil, List.sum_cons, List.sum_nil, hw, hb, hv]
    simp

/-! ## Reversal -/

theorem closestSample_congr {q q' : V3 ℝ} {S S' : Samples} :
    ∀ l : List ℕ, (∀ i ∈ l, V3.dot (q' - S'.pos i) (q' - S'.pos i) =
      V3.dot (q - S.pos i) (q - S.pos i)) → closestSample q' S' l = closestSample q S l := by
  have key : ∀ (l : List ℕ) (best : ℕ), (∀ i ∈ best :: l, V3.dot (q' - S'.pos i) (q' - S'.pos i) =
      V3.dot (q - S.pos i) (q - S.pos i)) → closestFrom q' S' best l = closestFrom q S best l := by
    intro l
    induction l with
    | nil => intros; rfl
    | cons j l ih =>
      intro best h
      simp only [closestFrom]
      rw [h j (by simp), h best (by simp)]
      split
      · exact ih j fun i hi => h i (List.mem_cons_of_mem _ hi)
      · refine ih best fun i hi => h i ?_
        simp only [List.mem_cons] at hi ⊢
        tauto
  intro l h
  cases l with
  | nil => rfl
  | cons j l => simp only [closestSample, key l j h]

/-- C70. Reversing the normals changes the sign of the potential, for samples with value zero, with
the given background reversed as well; where the background is a signed distance, the query must not
lie in the tangent plane of the closest sample. -/
theorem reverse_potential (k : Kern) (P : BgParams) (q : V3 ℝ) (view : List ℕ) (S : Samples) (old : ℝ)
    (hv : ∀ i ∈ view, S.value i = 0)
    (hs : P.fieldType = .distanceBased → ∀ i ∈ view, V3.dot (S.nml i) (q - S.pos i) ≠ 0) :
    potentialAt q view S.reverse k P (-old) = -potentialAt q view S k P old := by
  have hcl : closestSample q S.reverse view = closestSample q S view :=
    closestSample_congr view fun i _ => rfl
  cases hc : closestSample q S view with
  | none =>
    simp only [potentialAt, Bg.local, hcl, hc]
  | some c =>
    have hm := (closestSample_spec hc).1
    rw [potentialAt_eq (hcl.trans hc), potentialAt_eq hc]
    have hw : weight k (q - S.pos c).norm q S.reverse = weight k (q - S.pos c).norm q S := rfl
    have hp : S.reverse.pos = S.pos := rfl
    have hf : (Bg.newImpl q view S.reverse (.loc c) k P (some (-old))).fieldValue =
        -(Bg.newImpl q view S (.loc c) k P (some old)).fieldValue := by
      cases hP : P.fieldType with
      | zero => simp [Bg.fieldValue, Bg.newImpl, BgValue.new, hP]
      | fromInput => simp [Bg.fieldValue, Bg.newImpl, BgValue.new, hP]
      | distanceBased =>
        have h1 := hs hP c hm
        simp only [Bg.fieldValue, Bg.newImpl, BgValue.new, hP, Bg.orientation, ClosestIndex.get,
          Samples.reverse, dot_neg_left]
        rcases lt_or_gt_of_ne h1 with h | h
        · rw [if_pos h, if_neg (by linarith)]; ring
        · rw [if_pos (by linarith), if_neg (by linarith)]; ring
    have hsum : (view.map fun i => weight k (q - S.pos c).norm q S i *
        samplePotential q S.reverse i).sum =
        -(view.map fun i => weight k (q - S.pos c).norm q S i * samplePotential q S i).sum := by
      rw [← neg_one_mul, ← List.sum_map_mul_left]
      congr 1
      refine List.map_congr_left fun i hi => ?_
      have hnorm : (-S.nml i).norm = (S.nml i).norm := by
        simp [V3.norm, V3.dot]
      simp only [samplePotential, Samples.reverse, hv i hi, dot_neg_left, hnorm]
      ring
    rw [hp, hw, hf, hsum]
    ring

/-- C70 fails for samples with a value: the potential is reflected at the value instead. -/
theorem reverse_value_violated :
    potentialAt ⟨0, 0, 1 / 2⟩ [0] pointSample (.cubic 1) ⟨.zero, false⟩ 0 = 3 / 2 ∧
    potentialAt ⟨0, 0, 1 / 2⟩ [0] pointSample.reverse (.cubic 1) ⟨.zero, false⟩ 0 = 1 / 2 := by
  have hn : ((⟨0, 0, 1 / 2⟩ : V3 ℝ) - pointSample.pos 0).norm = 1 / 2 := by
    have : ((⟨0, 0, 1 / 2⟩ : V3 ℝ) - pointSample.pos 0) = ⟨0, 0, 1 / 2⟩ := by
      ext <;> simp [pointSample]
    rw [this]
    simp only [V3.norm, V3.dot, mul_zero, zero_add]
    rw [Real.sqrt_mul_self (by norm_num)]
  have hu : ((⟨0, 0, 1⟩ : V3 ℝ)).norm = 1 := by simp [V3.norm, V3.dot]
  have hu' : ((-⟨0, 0, 1⟩ : V3 ℝ)).norm = 1 := by simp [V3.norm, V3.dot]
  have main : ∀ (S : Samples) (v : ℝ), S.pos = pointSample.pos →
      samplePotential ⟨0, 0, 1 / 2⟩ S 0 = v →
      potentialAt ⟨0, 0, 1 / 2⟩ [0] S (.cubic 1) ⟨.zero, false⟩ 0 = v := by
    intro S v hp hv
    have hW : Weighable (.cubic 1) ⟨.zero, false⟩ ⟨0, 0, 1 / 2⟩ [0] S := by
      refine ⟨one_pos, by simp, Or.inl trivial, Or.inr fun r' hr' i hi => ?_⟩
      cases hr'
      simp only [List.mem_singleton] at hi; subst hi
      rw [hp, hn]; norm_num
    have := potential_bounds (.cubic 1) ⟨.zero, false⟩ ⟨0, 0, 1 / 2⟩ [0] S 0 v v hW rfl 0
      (by simp) (fun r' hr' => by cases hr'; rw [hp, hn]; norm_num) fun j hj _ => by
        simp only [List.mem_singleton] at hj; subst hj
        unfold samplePotential at hv
        rw [hv]; exact ⟨le_refl _, le_refl _⟩
    exact le_antisymm this.2 this.1
  constructor
  · refine main _ _ rfl ?_
    simp only [samplePotential, pointSample, hu]
    simp [V3.dot]
    norm_num
  · refine main _ _ rfl ?_
    simp only [samplePotential, Samples.reverse, pointSample, hu']
    simp [V3.dot]
    norm_num

example : ∀ i ∈ [0, 1], demoSamples.value i = 0 := fun _ _ => rfl
example : ∀ i ∈ [0, 1], V3.dot (demoSamples.nml i) (⟨1 / 4, 0, 1⟩ - demoSamples.pos i) ≠ 0 := by
  intro i _; simp [demoSamples, V3.dot]

/-! ## Rigid motions -/

/-- The samples after the rigid motion `x ↦ R x + d`. -/
def Samples.move (S : Samples) (R : M3 ℝ) (d : V3 ℝ) : Samples where
  pos i := M3.mulVec R (S.pos i) + d
  nml i := M3.mulVec R (S.nml i)
  vel i := M3.mulVec R (S.vel i)
  value := S.value

theorem mulVec_dot {R : M3 ℝ} (hR : R.transpose * R = M3.diag 1) (a b : V3 ℝ) :
    V3.dot (M3.mulVec R a) (M3.mulVec R b) = V3.dot a b := by
  have h : V3.dot (M3.mulVec R a) (M3.mulVec R b) = V3.dot a (M3.mulVec (R.transpose * R) b) := by
    simp only [M3.mul_def, M3.mul, M3.mulVec, M3.transpose, V3.dot]
    ring
  rw [h, hR]
  simp [M3.mulVec, M3.diag, V3.dot]

/-- C71. The potential does not change when the surface and the query point move rigidly together. -/
theorem rigid_potential (k : Kern) (P : BgParams) (q : V3 ℝ) (view : List ℕ) (S : Samples) (old : ℝ)
    (R : M3 ℝ) (hR : R.transpose * R = M3.diag 1) (d : V3 ℝ) :
    potentialAt (M3.mulVec R q + d) view (S.move R d) k P old = potentialAt q view S k P old := by
  have hdiff : ∀ i, M3.mulVec R q + d - (S.move R d).pos i = M3.mulVec R (q - S.pos i) := by
    intro i
    ext <;> simp [Samples.move, M3.mulVec, V3.dot] <;> ring
  have hnorm : ∀ v, (M3.mulVec R v).norm = v.norm := fun v => by
    simp only [V3.norm, mulVec_dot hR]
  have hcl : closestSample (M3.mulVec R q + d) (S.move R d) view = closestSample q S view :=
    closestSample_congr view fun i _ => by rw [hdiff, mulVec_dot hR]
  cases hc : closestSample q S view with
  | none => simp only [potentialAt, Bg.local, hcl, hc]
  | some c =>
    rw [potentialAt_eq (hcl.trans hc), potentialAt_eq hc]
    have hd : ∀ i, (M3.mulVec R q + d - (S.move R d).pos i).norm = (q - S.pos i).norm := fun i => by
      rw [hdiff, hnorm]
    have hw : weight k (q - S.pos c).norm (M3.mulVec R q + d) (S.move R d) =
        weight k (q - S.pos c).norm q S := by
      funext i
      simp only [weight, Kern.eval, hd]
    have hps : samplePotential (M3.mulVec R q + d) (S.move R d) = samplePotential q S := by
      funext i
      simp only [samplePotential, hdiff]
      simp only [Samples.move, mulVec_dot hR, hnorm]
    have hf : (Bg.newImpl (M3.mulVec R q + d) view (S.move R d) (.loc c) k P (some old)).fieldValue =
        (Bg.newImpl q view S (.loc c) k P (some old)).fieldValue := by
      cases hP : P.fieldType with
      | zero => simp [Bg.fieldValue, Bg.newImpl, BgValue.new, hP]
      | fromInput => simp [Bg.fieldValue, Bg.newImpl, BgValue.new, hP]
      | distanceBased =>
        simp only [Bg.fieldValue, Bg.newImpl, BgValue.new, hP, Bg.orientation, ClosestIndex.get, hdiff]
        simp only [Samples.move, mulVec_dot hR, hnorm]
    rw [hd, hw, hps, hf]

example : (⟨⟨0, -1, 0⟩, ⟨1, 0, 0⟩, ⟨0, 0, 1⟩⟩ : M3 ℝ).transpose *
    ⟨⟨0, -1, 0⟩, ⟨1, 0, 0⟩, ⟨0, 0, 1⟩⟩ = M3.diag 1 := by
  ext <;> simp [M3.transpose, M3.mul, M3.mulVec, M3.diag, V3.dot]

/-! ## Views -/

/-- The closest sample is the first of the least distance. -/
theorem closestSample_first {q : V3 ℝ} {S : Samples} {c : ℕ} {l : List ℕ} :
    closestSample q S l = some c ↔ ∃ l₁ l₂, l = l₁ ++ c :: l₂ ∧
      (∀ i ∈ l₁, V3.dot (q - S.pos c) (q - S.pos c) < V3.dot (q - S.pos i) (q - S.pos i)) ∧
      ∀ i ∈ l₂, V3.dot (q - S.pos c) (q - S.pos c) ≤ V3.dot (q - S.pos i) (q - S.pos i) := by
  have key : ∀ (l : List ℕ) (best : ℕ), ∃ l₁ l₂, best :: l = l₁ ++ closestFrom q S best l :: l₂ ∧
      (∀ i ∈ l₁, V3.dot (q - S.pos (closestFrom q S best l)) (q - S.pos (closestFrom q S best l)) <
        V3.dot (q - S.pos i) (q - S.pos i)) ∧
      ∀ i ∈ l₂, V3.dot (q - S.pos (closestFrom q S best l)) (q - S.pos (closestFrom q S best l)) ≤
        V3.dot (q - S.pos i) (q - S.pos i) := by
    intro l
    induction l with
    | nil => intro best; exact ⟨[], [], by simp [closestFrom]⟩
    | cons j l ih =>
      intro best
      simp only [closestFrom]
      split
      · rename_i h
        obtain ⟨l₁, l₂, h1, h2, h3⟩ := ih j
        refine ⟨best :: l₁, l₂, by rw [List.cons_append, ← h1], fun i hi => ?_, h3⟩
        rcases List.mem_cons.1 hi with rfl | hi
        · refine lt_of_le_of_lt ?_ h
          exact (closestFrom_spec l j).2 j (by simp)
        · exact h2 i hi
      · rename_i h
        obtain ⟨l₁, l₂, h1, h2, h3⟩ := ih best
        cases l₁ with
        | nil =>
          simp only [List.nil_append, List.cons.injEq] at h1
          refine ⟨[], j :: l₂, by rw [List.nil_append, ← h1.1, ← h1.2], by simp, fun i hi => ?_⟩
          rcases List.mem_cons.1 hi with rfl | hi
          · rw [← h1.1]; exact not_lt.1 h
          · exact h3 i hi
        | cons b l₁ =>
          simp only [List.cons_append, List.cons.injEq] at h1
          refine ⟨best :: j :: l₁, l₂, by simp [← h1.2], fun i hi => ?_, h3⟩
          simp only [List.mem_cons] at hi
          have hb := h2 b (by simp)
          rw [← h1.1] at hb
          rcases hi with rfl | rfl | hi
          · exact hb
          · exact hb.trans_le (not_lt.1 h)
          · exact h2 i (List.mem_cons_of_mem _ hi)
  constructor
  · intro h
    cases l with
    | nil => simp [closestSample] at h
    | cons j l =>
      simp only [closestSample, Option.some.injEq] at h
      subst h
      exact key l j
  · rintro ⟨l₁, l₂, rfl, h1, h2⟩
    obtain ⟨c', hc'⟩ := closestSample_isSome (q := q) (S := S) (l := l₁ ++ c :: l₂) (by simp)
    obtain ⟨k₁, k₂, e, h3, h4⟩ : ∃ k₁ k₂, l₁ ++ c :: l₂ = k₁ ++ c' :: k₂ ∧
        (∀ i ∈ k₁, V3.dot (q - S.pos c') (q - S.pos c') < V3.dot (q - S.pos i) (q - S.pos i)) ∧
        ∀ i ∈ k₂, V3.dot (q - S.pos c') (q - S.pos c') ≤ V3.dot (q - S.pos i) (q - S.pos i) := by
      cases hl : l₁ ++ c :: l₂ with
      | nil => simp at hl
      | cons j l =>
        rw [hl] at hc'
        simp only [closestSample, Option.some.injEq] at hc'
        subst hc'
        exact key l j
    rw [hc']
    congr 1
    rcases List.append_eq_append_iff.1 e with ⟨m, e1, e2⟩ | ⟨m, e1, e2⟩
    · cases m with
      | nil => simp at e2; exact e2.1.symm
      | cons x m =>
        simp only [List.cons_append, List.cons.injEq] at e2
        have a1 := h3 c (by rw [e1, e2.1]; simp)
        have a2 := h2 c' (by rw [e2.2]; simp)
        exact absurd a1 (not_lt.2 a2)
    · cases m with
      | nil => simp at e2; exact e2.1
      | cons x m =>
        simp only [List.cons_append, List.cons.injEq] at e2
        have a1 := h1 c' (by rw [e1, e2.1]; simp)
        have a2 := h4 c (by rw [e2.2]; simp)
        exact absurd a1 (not_lt.2 a2)

theorem closestSample_filter {q : V3 ℝ} {S : Samples} {c : ℕ} {l : List ℕ} (p : ℕ → Bool)
    (h : closestSample q S l = some c) (hp : p c = true) :
    closestSample q S (l.filter p) = some c := by
  obtain ⟨l₁, l₂, rfl, h1, h2⟩ := closestSample_first.1 h
  refine closestSample_first.2 ⟨l₁.filter p, l₂.filter p, ?_, fun i hi => h1 i (List.mem_of_mem_filter hi),
    fun i hi => h2 i (List.mem_of_mem_filter hi)⟩
  simp [hp]

theorem sum_filter_of_zero {l : List ℕ} (p : ℕ → Bool) {f : ℕ → ℝ} (h : ∀ i ∈ l, p i = false → f i = 0) :
    ((l.filter p).map f).sum = (l.map f).sum := by
  induction l with
  | nil => rfl
  | cons i l ih =>
    have ih' := ih fun j hj => h j (List.mem_cons_of_mem _ hj)
    cases hp : p i with
    | true => simp only [List.filter_cons_of_pos hp, List.map_cons, List.sum_cons, ih']
    | false =>
      rw [List.filter_cons_of_neg (by simp [hp]), List.map_cons, List.sum_cons, ih',
        h i (by simp) hp, zero_add]

/-- C72. Samples outside the radius of the kernel that are kept in the neighborhood, as cached
neighborhoods do, have no influence on the potential: it is the same for every part `p` of the view
that contains all samples within the radius, if there are such samples. -/
theorem potential_superset (k : Kern) (hk : k.Proper) (P : BgParams) (q : V3 ℝ) (view : List ℕ)
    (S : Samples) (old : ℝ) (p : ℕ → Bool) (hcen : k.Finite ∨ ∀ i ∈ view, q ≠ S.pos i)
    (hp : ∀ i ∈ view, p i = false → ∃ r, k.radius = some r ∧ r ≤ (q - S.pos i).norm)
    (hne : ∃ i ∈ view, ∀ r, k.radius = some r → (q - S.pos i).norm < r) :
    potentialAt q (view.filter p) S k P old = potentialAt q view S k P old := by
  obtain ⟨j, hj, hjr⟩ := hne
  obtain ⟨c, hc⟩ := closestSample_isSome (q := q) (S := S) (l := view)
    (by rintro rfl; simp at hj)
  obtain ⟨hm, hmin⟩ := closestSample_spec hc
  have hpc : p c = true := by
    cases h : p c with
    | true => rfl
    | false =>
      obtain ⟨r, hr, hle⟩ := hp c hm h
      exact absurd (hle.trans (hmin j hj)) (not_le.2 (hjr r hr))
  have hd : k.Finite ∨ 0 < (q - S.pos c).norm := hcen.imp id fun h => norm_pos_of_ne (h c hm)
  have hz : ∀ i ∈ view, p i = false → weight k (q - S.pos c).norm q S i = 0 := fun i hi h => by
    obtain ⟨r, hr, hle⟩ := hp i hi h
    exact weight_far hk hd hr hle
  rw [potentialAt_eq hc, potentialAt_eq (closestSample_filter p hc hpc), sum_filter_of_zero p hz,
    sum_filter_of_zero p (f := fun i => weight k (q - S.pos c).norm q S i * samplePotential q S i)
      fun i hi h => by rw [hz i hi h, zero_mul]]
  rfl

/-- C72. The order of the samples in the neighborhood does not matter when no two samples are equally
close. -/
theorem potential_perm (k : Kern) (P : BgParams) (q : V3 ℝ) (view view' : List ℕ) (S : Samples)
    (old : ℝ) (h : view.Perm view')
    (hd : ∀ i ∈ view, ∀ j ∈ view, (q - S.pos i).norm = (q - S.pos j).norm → i = j) :
    potentialAt q view S k P old = potentialAt q view' S k P old := by
  cases view with
  | nil => rw [List.nil_perm.1 h]
  | cons i l =>
    obtain ⟨c, hc⟩ := closestSample_isSome (q := q) (S := S) (l := i :: l) (by simp)
    obtain ⟨hm, hmin⟩ := closestSample_spec hc
    have hc' : closestSample q S view' = some c := by
      refine closestSample_eq (h.mem_iff.1 hm) fun j hj hne => ?_
      have hj' := h.mem_iff.2 hj
      have h1 : (q - S.pos c).norm < (q - S.pos j).norm :=
        lt_of_le_of_ne (hmin j hj') fun e => hne (hd c hm j hj' e).symm
      rw [← V3.norm_mul_norm, ← V3.norm_mul_norm]
      exact mul_self_lt_mul_self (V3.norm_nonneg _) h1
    rw [potentialAt_eq hc, potentialAt_eq hc', (h.map _).sum_eq,
      (h.map fun i => weight k (q - S.pos c).norm q S i * samplePotential q S i).sum_eq]
    rfl

example : ∀ i ∈ [0, 1], ∀ j ∈ [0, 1], ((⟨1 / 4, 0, 0⟩ : V3 ℝ) - demoSamples.pos i).norm =
    ((⟨1 / 4, 0, 0⟩ : V3 ℝ) - demoSamples.pos j).norm → i = j := by
  intro i hi j hj h
  simp only [List.mem_cons, List.not_mem_nil, or_false] at hi hj
  rcases hi with rfl | rfl <;> rcases hj with rfl | rfl <;>
    first | rfl | (rw [demo_norm0, demo_norm1] at h; norm_num at h)

end Softy.Field
