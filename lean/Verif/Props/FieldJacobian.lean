import Verif.Props.FieldWeights

/-!
# The Jacobians of the potential are its derivatives

Property C69.
-/

noncomputable section

namespace Softy.Field

open Softy Softy.Kernel Filter

/-! ## Specification -/

/-- Specification: a configuration of query point and samples at which the potential is expected to be
differentiable: one sample `c` is closest, no sample is at a kink of the kernel, normals are not zero
and the query point is not in the tangent plane of the closest sample where the signed distance from
it matters. A given background must not be mixed in (see `weighted_input_violated`), and neither must a
background be mixed in with kernels that have no finite value at zero or no radius (see
`interpolating_mixed_violated` and `global_mixed_violated`). -/
structure Regular (k : Kern) (P : BgParams) (q : V3 ℝ) (view : List ℕ) (S : Samples) (c : ℕ) :
    Prop where
  proper : k.Proper
  nodup : view.Nodup
  mem : c ∈ view
  closest : ∀ i ∈ view, i ≠ c → (q - S.pos c).norm < (q - S.pos i).norm
  edge : ∀ r, k.radius = some r → (q - S.pos c).norm ≠ r
  kink : ∀ r eps, k = .approximate r eps → ∀ i ∈ view, (q - S.pos i).norm ≠ r
  center : k.Finite ∨ q ≠ S.pos c
  normals : ∀ i ∈ view, S.nml i ≠ 0
  tangent : P.fieldType = .distanceBased →
    (P.weighted = true ∨ ∃ r, k.radius = some r ∧ r < (q - S.pos c).norm) →
    V3.dot (S.nml c) (q - S.pos c) ≠ 0
  mixed : P.weighted = true → P.fieldType ≠ .fromInput ∧ k.Finite ∧ k.radius ≠ none ∧ q ≠ S.pos c

/-! ## Weights along a path -/

theorem norm_continuous {f : ℝ → V3 ℝ} {f' : V3 ℝ} {t : ℝ} (h : HasD f f' t) :
    ContinuousAt (fun s => (f s).norm) t := (h.dot h).continuousAt.sqrt

/-- The kernel along a path of query points and samples. -/
theorem eval_hasDeriv (k : Kern) (hk : k.Proper) {q p : ℝ → V3 ℝ} {q' p' : V3 ℝ} {t : ℝ}
    (hq : HasD q q' t) (hp : HasD p p' t) (hc : k.Finite ∨ 0 < (q t - p t).norm)
    (he : ∀ r eps, k = .approximate r eps → (q t - p t).norm ≠ r) :
    HasDerivAt (fun s => k.eval (q s) (p s)) (V3.dot (k.grad (q t) (p t)) (q' - p')) t := by
  have hd : HasD (fun s => q s - p s) (q' - p') t := hq.sub hp
  have e1 : ∀ a b, k.eval a b = k.eval (a - b) 0 := fun a b => by simp only [Kern.eval, sub_zero]
  have e2 : ∀ a b, k.grad a b = k.grad (a - b) 0 := fun a b => by simp only [Kern.grad, sub_zero]
  rw [e2]
  simp only [e1 (q _)]
  rcases eq_or_lt_of_le (V3.norm_nonneg (q t - p t)) with h0 | h0
  · have hf : k.Finite := hc.resolve_right (by rw [← h0]; exact lt_irrefl 0)
    refine radial_gradient_center k hk hf _ _ 0 t hd ?_
    have := V3.norm_mul_norm (q t - p t)
    rw [← h0, mul_zero] at this
    exact V3.dot_self_eq_zero.1 this.symm
  · refine radial_gradient k _ _ 0 t hd (by rw [sub_zero]; exact h0) ?_
    rw [sub_zero]
    by_cases hr : ∃ r, k.radius = some r ∧ (q t - p t).norm = r
    · obtain ⟨r, hr, hx⟩ := hr
      rw [hx]
      refine (kernel_derivative_edge k hk r hr fun r' eps h => ?_).2
      subst h
      cases hr
      exact he _ _ rfl hx
    · push Not at hr
      exact (kernel_derivatives k hk _ (Or.inr h0.ne') hr).1

/-- The unit normal along a path, applied to another path. -/
theorem unit_dot_hasDeriv {n d : ℝ → V3 ℝ} {n' d' : V3 ℝ} {t : ℝ} (hn : HasD n n' t)
    (hd : HasD d d' t) (h0 : n t ≠ 0) :
    HasDerivAt (fun s => V3.dot (n s) (d s) / (n s).norm)
      (V3.dot ((1 / (n t).norm) • n t) d' +
        V3.dot (d t) (M3.mulVec (scaledTangentProjection ((1 / (n t).norm) • n t) (1 / (n t).norm))
          n')) t := by
  have hpos : 0 < (n t).norm := by
    have := norm_pos_of_ne h0
    rwa [sub_zero] at this
  have h1 := (hn.dot hd).fun_div (hn.norm (dot_self_ne hpos)) hpos.ne'
  refine h1.congr_deriv ?_
  simp only [scaledTangentProjection, M3.mulVec_sub, M3.mulVec_outer, dot_sub_right, dot_smul_right,
    dot_smul_left]
  have hdiag : ∀ (a : ℝ) (v : V3 ℝ), M3.mulVec (M3.diag a) v = a • v := by
    intro a v; ext <;> simp [M3.mulVec, M3.diag, V3.dot]
  rw [hdiag, dot_smul_right, dot_symm (d t) n', dot_symm (d t) (n t)]
  generalize (n t).norm = N at *
  generalize V3.dot n' (d t) = a
  generalize V3.dot (n t) (d t) = b
  generalize V3.dot (n t) n' = e
  generalize V3.dot (n t) d' = g
  field_simp
  ring

/-! ## Background along a path -/

variable {k : Kern} {P : BgParams} {view : List ℕ} {c : ℕ} {t old : ℝ}
  {q : ℝ → V3 ℝ} {S : ℝ → Samples} {q' : V3 ℝ} {p' n' : ℕ → V3 ℝ}

/-- The background at the query point. -/
abbrev bgAt (k : Kern) (P : BgParams) (q : V3 ℝ) (view : List ℕ) (S : Samples) (c : ℕ)
    (v : Option ℝ) : Bg := Bg.newImpl q view S (.loc c) k P v

theorem flat_iff (v : Option ℝ) (q : V3 ℝ) (S : Samples) : (bgAt k P q view S c v).flat ↔
    (∃ r, k.radius = some r ∧ r < (q - S.pos c).norm) ∨ P.weighted = false := Iff.rfl

open Classical in
theorem orientation_eq (v : Option ℝ) (q : V3 ℝ) (S : Samples) :
    (bgAt k P q view S c v).orientation =
      if V3.dot (S.nml c) (q - S.pos c) < 0 then -1 else 1 := by
  simp only [Bg.orientation]
  split <;> rename_i h
  · rw [if_pos]; exact h
  · rw [if_neg]; exact h

/-- The side of the closest sample does not change along a path. -/
theorem orientation_eventually (hd : HasD (fun s => q s - (S s).pos c) (q' - p' c) t)
    (hn : HasD (fun s => (S s).nml c) (n' c) t) (v : Option ℝ)
    (htan : V3.dot ((S t).nml c) (q t - (S t).pos c) ≠ 0) :
    ∀ᶠ s in nhds t, (bgAt k P (q s) view (S s) c v).orientation =
      (bgAt k P (q t) view (S t) c v).orientation := by
  have hc2 := (hn.dot hd).continuousAt
  rcases lt_or_gt_of_ne htan with hl | hg
  · filter_upwards [hc2.eventually_lt_const hl] with s hs
    rw [orientation_eq, orientation_eq]
    rw [if_pos hs, if_pos hl]
  · filter_upwards [hc2.eventually_const_lt hg] with s hs
    rw [orientation_eq, orientation_eq]
    rw [if_neg (not_lt.2 hs.le), if_neg (not_lt.2 hg.le)]

/-- The background field along a path, where it counts. -/
theorem field_hasDeriv (h : Regular k P (q t) view (S t) c) (hq : HasD q q' t)
    (hp : HasD (fun s => (S s).pos c) (p' c) t) (hn : HasD (fun s => (S s).nml c) (n' c) t)
    (v : Option ℝ)
    (hcase : (∃ r, k.radius = some r ∧ r < (q t - (S t).pos c).norm) ∨ P.weighted = true) :
    HasDerivAt (fun s => (bgAt k P (q s) view (S s) c v).fieldValue)
      (V3.dot (bgAt k P (q t) view (S t) c v).fieldGrad (q' - p' c)) t := by
  have hd : HasD (fun s => q s - (S s).pos c) (q' - p' c) t := hq.sub hp
  cases hP : P.fieldType with
  | zero =>
    simp only [bgAt, Bg.fieldValue, Bg.fieldGrad, Bg.newImpl, BgValue.new, hP, dot_zero_left]
    exact hasDerivAt_const _ _
  | fromInput =>
    simp only [bgAt, Bg.fieldValue, Bg.fieldGrad, Bg.newImpl, BgValue.new, hP, dot_zero_left]
    exact hasDerivAt_const _ _
  | distanceBased =>
    have htan := h.tangent hP hcase.symm
    have hne : (q t - (S t).pos c).norm ≠ 0 := by
      intro h0
      have := V3.norm_mul_norm (q t - (S t).pos c)
      rw [h0, mul_zero] at this
      rw [V3.dot_self_eq_zero.1 this.symm, dot_zero_right] at htan
      exact htan rfl
    have hpos := lt_of_le_of_ne (V3.norm_nonneg (q t - (S t).pos c)) (Ne.symm hne)
    have hor := orientation_eventually (k := k) (P := P) (view := view) (c := c) hd hn v htan
    have h1 := (hd.norm (dot_self_ne hpos)).mul_const (bgAt k P (q t) view (S t) c v).orientation
    have h2 : V3.dot (q t - (S t).pos c) (q' - p' c) / (q t - (S t).pos c).norm *
        (bgAt k P (q t) view (S t) c v).orientation =
        V3.dot (bgAt k P (q t) view (S t) c v).fieldGrad (q' - p' c) := by
      have e : (bgAt k P (q t) view (S t) c v).fieldGrad =
          ((bgAt k P (q t) view (S t) c v).orientation / (q t - (S t).pos c).norm) •
            (q t - (S t).pos c) := by
        simp only [bgAt, Bg.fieldGrad, Bg.newImpl, BgValue.new, hP, ClosestIndex.get]
        rw [if_pos hne]
      rw [e, dot_smul_left]
      ring
    refine (h1.congr_deriv h2).congr_of_eventuallyEq ?_
    filter_upwards [hor] with s hs
    rw [← hs]
    simp only [bgAt, Bg.fieldValue, Bg.newImpl, BgValue.new, hP, ClosestIndex.get]

/-- Weight of the background along a path, and its product with the background field. -/
theorem background_hasDeriv (h : Regular k P (q t) view (S t) c) (hq : HasD q q' t)
    (hp : HasD (fun s => (S s).pos c) (p' c) t) (hn : HasD (fun s => (S s).nml c) (n' c) t)
    (v : Option ℝ) :
    HasDerivAt (fun s => backgroundWeight k P.weighted (q s - (S s).pos c).norm)
      (V3.dot ((bgAt k P (q t) view (S t) c v).bgWeightGrad none) (q' - p' c)) t ∧
    HasDerivAt (fun s => (bgAt k P (q s) view (S s) c v).fieldValue *
        backgroundWeight k P.weighted (q s - (S s).pos c).norm)
      (backgroundWeight k P.weighted (q t - (S t).pos c).norm *
          V3.dot (bgAt k P (q t) view (S t) c v).fieldGrad (q' - p' c) +
        (bgAt k P (q t) view (S t) c v).fieldValue *
          V3.dot ((bgAt k P (q t) view (S t) c v).bgWeightGrad none) (q' - p' c)) t := by
  have hd : HasD (fun s => q s - (S s).pos c) (q' - p' c) t := hq.sub hp
  have hcont := norm_continuous hd
  have hfield := fun hcase => field_hasDeriv h hq hp hn v hcase
  have hzero : (bgAt k P (q t) view (S t) c v).flat →
      V3.dot ((bgAt k P (q t) view (S t) c v).bgWeightGrad none) (q' - p' c) = 0 := by
    intro hf
    unfold Bg.bgWeightGrad
    rw [if_pos hf, dot_zero_left]
  -- the weight is locally zero
  have hnull : P.weighted = false →
      (∀ r, k.radius = some r → (q t - (S t).pos c).norm < r) →
      ∀ᶠ s in nhds t, backgroundWeight k P.weighted (q s - (S s).pos c).norm = 0 := by
    intro hw hr
    unfold backgroundWeight
    cases hk : k.radius with
    | none => simp
    | some r =>
      filter_upwards [hcont.eventually_lt_const (hr r hk)] with s hs
      simp only [not_lt.2 hs.le, if_false, hw, Bool.false_eq_true]
  by_cases hout : ∃ r, k.radius = some r ∧ r < (q t - (S t).pos c).norm
  · -- outside
    obtain ⟨r, hk, hr⟩ := hout
    have hone : ∀ᶠ s in nhds t, backgroundWeight k P.weighted (q s - (S s).pos c).norm = 1 := by
      filter_upwards [hcont.eventually_const_lt hr] with s hs
      unfold backgroundWeight
      simp only [hk, hs, if_true]
    rw [hzero (Or.inl ⟨r, hk, hr⟩)]
    have h1 : HasDerivAt (fun s => backgroundWeight k P.weighted (q s - (S s).pos c).norm) 0 t :=
      (hasDerivAt_const t (1 : ℝ)).congr_of_eventuallyEq hone
    refine ⟨h1, ?_⟩
    exact ((hfield (Or.inl ⟨r, hk, hr⟩)).fun_mul h1).congr_deriv (by ring)
  · have hin : ∀ r, k.radius = some r → (q t - (S t).pos c).norm < r := by
      intro r hk
      push Not at hout
      exact lt_of_le_of_ne (hout r hk) (h.edge r hk)
    by_cases hw : P.weighted = true
    · -- inside, mixed in
      obtain ⟨hm1, hm2, hm3, hm4⟩ := h.mixed hw
      obtain ⟨r, hk⟩ := Option.ne_none_iff_exists'.1 hm3
      have hpos := norm_pos_of_ne hm4
      have hlt := hin r hk
      have hflat : ¬ (bgAt k P (q t) view (S t) c v).flat := by
        rw [flat_iff]
        rintro (hx | hx)
        · exact hout hx
        · rw [hw] at hx; cases hx
      have hkd := (kernel_derivatives k h.proper (r - (q t - (S t).pos c).norm) (Or.inl hm2)
        (fun r' hr' => by rw [hk] at hr'; cases hr'; linarith)).1
      have h0 := hkd.comp t ((hd.norm (dot_self_ne hpos)).const_sub r)
      have h1 : HasDerivAt (fun s => backgroundWeight k P.weighted (q s - (S s).pos c).norm)
          (V3.dot ((bgAt k P (q t) view (S t) c v).bgWeightGrad none) (q' - p' c)) t := by
        refine (h0.congr_deriv ?_).congr_of_eventuallyEq ?_
        · unfold Bg.bgWeightGrad
          rw [if_neg hflat]
          simp only [bgAt, Bg.newImpl, Bg.edgeDf, hk, Option.map_some, Option.getD_some, ClosestIndex.get,
            dot_smul_left, dot_neg_left]
          ring
        · filter_upwards [hcont.eventually_lt_const hlt] with s hs
          unfold backgroundWeight
          simp only [hk, not_lt.2 hs.le, if_false, hw, if_true, Function.comp]
      refine ⟨h1, ?_⟩
      exact ((hfield (Or.inr hw)).fun_mul h1).congr_deriv (by ring)
    · -- inside, not mixed in
      have hw' : P.weighted = false := by simpa using hw
      have hn0 := hnull hw' hin
      rw [hzero (Or.inr hw'), hn0.self_of_nhds]
      refine ⟨(hasDerivAt_const t (0 : ℝ)).congr_of_eventuallyEq hn0, ?_⟩
      refine ((hasDerivAt_const t (0 : ℝ)).congr_of_eventuallyEq ?_).congr_deriv (by ring)
      filter_upwards [hn0] with s hs
      rw [hs, mul_zero]

/-! ## Potential along a path -/

theorem bgWeightGrad_eq (v v' : Option ℝ) (q : V3 ℝ) (S : Samples) (o : Option ℕ) :
    (bgAt k P q view S c v).bgWeightGrad o = (bgAt k P q view S c v').bgWeightGrad o := rfl

theorem fieldGrad_eq (v v' : Option ℝ) (q : V3 ℝ) (S : Samples) :
    (bgAt k P q view S c v).fieldGrad = (bgAt k P q view S c v').fieldGrad := by
  cases hP : P.fieldType <;> simp only [Bg.fieldGrad, bgAt, Bg.newImpl, BgValue.new, hP] <;> try rfl

theorem fieldValue_eq (v v' : Option ℝ) (q : V3 ℝ) (S : Samples) (h : P.fieldType ≠ .fromInput) :
    (bgAt k P q view S c v).fieldValue = (bgAt k P q view S c v').fieldValue := by
  cases hP : P.fieldType with
  | fromInput => exact absurd hP h
  | zero => simp only [Bg.fieldValue, bgAt, Bg.newImpl, BgValue.new, hP]
  | distanceBased => simp only [Bg.fieldValue, bgAt, Bg.newImpl, BgValue.new, hP, Bg.orientation]

theorem bgWeightGrad_sample (v : Option ℝ) (q : V3 ℝ) (S : Samples) (i : ℕ) :
    (bgAt k P q view S c v).bgWeightGrad (some i) =
      if i = c then -(bgAt k P q view S c v).bgWeightGrad none else 0 := by
  by_cases hf : (bgAt k P q view S c v).flat
  · simp only [Bg.bgWeightGrad, if_pos hf, neg_zero, ite_self]
  · simp only [Bg.bgWeightGrad, if_neg hf]
    by_cases hi : i = c
    · simp only [hi, if_true, bgAt, Bg.newImpl]
      ext <;> simp only [V3.smul_x, V3.smul_y, V3.smul_z, V3.neg_x, V3.neg_y, V3.neg_z, Bg.edgeDf] <;> ring
    · simp only [hi, if_false, bgAt, Bg.newImpl]

/-- Around a regular configuration, the closest sample stays the same. -/
theorem closest_eventually (h : Regular k P (q t) view (S t) c) (hq : HasD q q' t)
    (hp : ∀ i ∈ view, HasD (fun s => (S s).pos i) (p' i) t) :
    ∀ᶠ s in nhds t, closestSample (q s) (S s) view = some c := by
  have h1 : ∀ᶠ s in nhds t, ∀ i ∈ view.toFinset, i ≠ c →
      (q s - (S s).pos c).norm < (q s - (S s).pos i).norm := by
    rw [Filter.eventually_all_finset]
    intro i hi
    have hi' := List.mem_toFinset.1 hi
    by_cases hc : i = c
    · exact Filter.Eventually.of_forall fun s h => absurd hc h
    · have hlt := h.closest i hi' hc
      have c1 := norm_continuous (hq.sub (hp c h.mem))
      have c2 := norm_continuous (hq.sub (hp i hi'))
      filter_upwards [c1.eventually_lt c2 hlt] with s hs _
      exact hs
  filter_upwards [h1] with s hs
  refine closestSample_eq h.mem fun i hi hne => ?_
  rw [← V3.norm_mul_norm, ← V3.norm_mul_norm]
  exact mul_self_lt_mul_self (V3.norm_nonneg _) (hs i (List.mem_toFinset.2 hi) hne)

/-- Around a regular configuration, the potential is a quotient in which the dependence of the kernel on
the distance of the closest sample is frozen. -/
theorem potential_frozen (h : Regular k P (q t) view (S t) c) (hq : HasD q q' t)
    (hp : ∀ i ∈ view, HasD (fun s => (S s).pos i) (p' i) t) :
    ∀ᶠ s in nhds t, potentialAt (q s) view (S s) k P old =
      (bgAt k P (q s) view (S s) c (some old)).fieldValue *
        backgroundWeight k P.weighted (q s - (S s).pos c).norm *
        ((view.map fun i => (k.withClosest (q t - (S t).pos c).norm).eval (q s) ((S s).pos i)).sum +
          backgroundWeight k P.weighted (q s - (S s).pos c).norm)⁻¹ +
      (view.map fun i => (k.withClosest (q t - (S t).pos c).norm).eval (q s) ((S s).pos i) *
          samplePotential (q s) (S s) i).sum *
        ((view.map fun i => (k.withClosest (q t - (S t).pos c).norm).eval (q s) ((S s).pos i)).sum +
          backgroundWeight k P.weighted (q s - (S s).pos c).norm)⁻¹ := by
  have hcl := closest_eventually h hq hp
  have hcont := norm_continuous (hq.sub (hp c h.mem))
  by_cases hf : k.Finite
  · filter_upwards [hcl] with s hs
    rw [potentialAt_eq hs]
    unfold weight
    simp only [withClosest_of_finite hf]
  · cases k with
    | interpolating r xc =>
      have hw : P.weighted = false := by
        cases hw : P.weighted with
        | false => rfl
        | true => exact absurd (h.mixed hw).2.1 hf
      have hpos := norm_pos_of_ne (h.center.resolve_left hf)
      have hne := h.edge r rfl
      have hr := h.proper.1
      filter_upwards [hcl, hcont.eventually_const_lt hpos, hcont.eventually_ne hne] with s hs h1 h2
      have hmin := (closestSample_spec hs).2
      rw [potentialAt_eq hs]
      rcases lt_or_gt_of_ne h2 with hlt | hgt
      · have hb : backgroundWeight (.interpolating r xc) P.weighted (q s - (S s).pos c).norm = 0 := by
          unfold backgroundWeight
          simp only [Kern.radius, not_lt.2 hlt.le, if_false, hw, Bool.false_eq_true]
        rw [hb]
        set A := (q s - (S s).pos c).norm / (q t - (S t).pos c).norm with hA
        have hA0 : A * A ≠ 0 := by
          have : 0 < A := div_pos h1 hpos
          positivity
        have hsc : ∀ i, weight (.interpolating r xc) (q s - (S s).pos c).norm (q s) (S s) i =
            A * A * ((Kern.interpolating r xc).withClosest (q t - (S t).pos c).norm).eval (q s)
              ((S s).pos i) := fun i => by
          simp only [weight, Kern.withClosest, Kern.eval]
          exact interpolating_scale r _ _ _ hpos.ne'
        have e1 : (view.map (weight (.interpolating r xc) (q s - (S s).pos c).norm (q s) (S s))).sum =
            A * A * (view.map fun i =>
              ((Kern.interpolating r xc).withClosest (q t - (S t).pos c).norm).eval (q s)
                ((S s).pos i)).sum := by
          rw [← List.sum_map_mul_left]
          congr 1
          exact List.map_congr_left fun i _ => hsc i
        have e2 : (view.map fun i => weight (.interpolating r xc) (q s - (S s).pos c).norm (q s) (S s) i *
              samplePotential (q s) (S s) i).sum =
            A * A * (view.map fun i =>
              ((Kern.interpolating r xc).withClosest (q t - (S t).pos c).norm).eval (q s)
                ((S s).pos i) * samplePotential (q s) (S s) i).sum := by
          rw [← List.sum_map_mul_left]
          congr 1
          refine List.map_congr_left fun i _ => ?_
          simp only [hsc i]
          ring
        rw [e1, e2, mul_zero, zero_mul, zero_mul, add_zero, add_zero, mul_inv]
        generalize (view.map fun i =>
              ((Kern.interpolating r xc).withClosest (q t - (S t).pos c).norm).eval (q s)
                ((S s).pos i) * samplePotential (q s) (S s) i).sum = X
        generalize (view.map fun i =>
              ((Kern.interpolating r xc).withClosest (q t - (S t).pos c).norm).eval (q s)
                ((S s).pos i)).sum⁻¹ = Y
        rw [mul_mul_mul_comm, mul_inv_cancel₀ hA0, one_mul]
      · have z1 : ∀ i ∈ view,
            weight (.interpolating r xc) (q s - (S s).pos c).norm (q s) (S s) i = 0 := fun i hi =>
          weight_far h.proper (Or.inr h1) rfl (hgt.le.trans (hmin i hi))
        have z2 : ∀ i ∈ view, ((Kern.interpolating r xc).withClosest (q t - (S t).pos c).norm).eval (q s)
              ((S s).pos i) = 0 := fun i hi =>
          weight_far h.proper (Or.inr hpos) rfl (hgt.le.trans (hmin i hi))
        rw [sum_eq_zero z1, sum_eq_zero z2, sum_eq_zero (f := fun i => weight (.interpolating r xc)
          (q s - (S s).pos c).norm (q s) (S s) i * samplePotential (q s) (S s) i)
            fun i hi => by rw [z1 i hi, zero_mul],
          sum_eq_zero (f := fun i => ((Kern.interpolating r xc).withClosest
            (q t - (S t).pos c).norm).eval (q s) ((S s).pos i) * samplePotential (q s) (S s) i)
            fun i hi => by rw [z2 i hi, zero_mul]]
    | _ => exact absurd trivial hf

theorem regular_weighable (h : Regular k P (q t) view (S t) c) :
    closestSample (q t) (S t) view = some c ∧
    (view.map (weight k (q t - (S t).pos c).norm (q t) (S t))).sum +
      backgroundWeight k P.weighted (q t - (S t).pos c).norm ≠ 0 := by
  have hc : closestSample (q t) (S t) view = some c :=
    closestSample_eq h.mem fun i hi hne => by
      rw [← V3.norm_mul_norm, ← V3.norm_mul_norm]
      exact mul_self_lt_mul_self (V3.norm_nonneg _) (h.closest i hi hne)
  refine ⟨hc, ?_⟩
  have hmin := (closestSample_spec hc).2
  have hd : k.Finite ∨ 0 < (q t - (S t).pos c).norm := h.center.imp id norm_pos_of_ne
  have hw : ∀ i ∈ view, 0 ≤ weight k (q t - (S t).pos c).norm (q t) (S t) i := fun i hi =>
    weight_nonneg h.proper hd (hmin i hi)
  have hb : 0 ≤ backgroundWeight k P.weighted (q t - (S t).pos c).norm :=
    backgroundWeight_nonneg h.proper _ fun _ => Or.inr h.edge
  by_cases hout : ∃ r, k.radius = some r ∧ r < (q t - (S t).pos c).norm
  · obtain ⟨r, hk, hr⟩ := hout
    refine (add_pos_of_nonneg_of_pos (sum_nonneg hw) ?_).ne'
    unfold backgroundWeight
    simp only [hk, hr, if_true]
    exact one_pos
  · push Not at hout
    refine (add_pos_of_pos_of_nonneg (sum_pos hw h.mem ?_) hb).ne'
    refine kernel_pos _ (proper_withClosest h.proper hd) _ (V3.norm_nonneg _) ?_ ?_
    · rw [finite_withClosest]; exact hd.imp id fun h => h.ne'
    · rw [radius_withClosest]
      exact fun r hk => lt_of_le_of_ne (hout r hk) (h.edge r hk)

/-- The algebra of the derivative of the potential. -/
theorem jacobian_algebra (s : Finset ℕ) (hc : c ∈ s) (w psi a b e h N G B : ℕ → ℝ)
    (wb fb wsi aq gq : ℝ) (weighted : Bool)
    (hU : weighted = false → aq = 0 ∧ B c = 0 ∧
      (wb = 0 ∨ (∀ i ∈ s, a i = 0) ∧ ∀ i ∈ s, b i = 0)) :
    wsi * (wb * (gq - G c) + fb * (aq - B c) +
        ∑ i ∈ s, ((a i - b i) * psi i + w i * (e i - h i + N i)) -
        (fb * wb + ∑ i ∈ s, w i * psi i) * wsi * (∑ i ∈ s, (a i - b i) + (aq - B c))) =
    (∑ i ∈ s, wsi * (psi i * (a i - w i * (wsi * (∑ j ∈ s, a j + aq))) + w i * e i) +
      ((if weighted = true then fb * wsi * (aq - wb * wsi * (∑ j ∈ s, a j + aq)) else 0) +
        wb * wsi * gq)) +
    ∑ i ∈ s, ((((if i = c then -(wb * wsi * G i) else 0) +
        (if weighted = true then fb * (wb * wsi) * wsi * b i +
          (if i = c then fb * wsi * (1 - wb * wsi) * -B i else 0) else 0)) +
      ((∑ j ∈ s, w j * psi j) * wsi * wsi * (b i - (if i = c then -B i else 0)) -
        wsi * psi i * b i - w i * wsi * h i)) + w i * wsi * N i) := by
  have ind : ∀ f : ℕ → ℝ, ∑ i ∈ s, (if i = c then f i else 0) = f c := fun f => by
    rw [Finset.sum_ite_eq' s c f, if_pos hc]
  have ind' : ∀ (x : ℝ) (f : ℕ → ℝ), ∑ i ∈ s, x * (if i = c then f i else 0) = x * f c := fun x f => by
    rw [← Finset.mul_sum, ind]
  have E1 : ∑ i ∈ s, ((a i - b i) * psi i + w i * (e i - h i + N i)) =
      ∑ i ∈ s, a i * psi i - ∑ i ∈ s, b i * psi i + ∑ i ∈ s, w i * e i - ∑ i ∈ s, w i * h i +
        ∑ i ∈ s, w i * N i := by
    simp only [← Finset.sum_add_distrib, ← Finset.sum_sub_distrib]
    exact Finset.sum_congr rfl fun i _ => by ring
  have E2 : ∑ i ∈ s, (a i - b i) = ∑ i ∈ s, a i - ∑ i ∈ s, b i := Finset.sum_sub_distrib _ _
  rw [E1, E2]
  generalize hA : ∑ i ∈ s, a i = A
  generalize hM : ∑ i ∈ s, w i * psi i = M
  have E3 : ∑ i ∈ s, wsi * (psi i * (a i - w i * (wsi * (A + aq))) + w i * e i) =
      wsi * ∑ i ∈ s, a i * psi i - wsi * wsi * (A + aq) * M + wsi * ∑ i ∈ s, w i * e i := by
    rw [← hM]
    simp only [Finset.mul_sum, ← Finset.sum_add_distrib, ← Finset.sum_sub_distrib]
    exact Finset.sum_congr rfl fun i _ => by ring
  rw [E3]
  cases weighted with
  | true =>
    have E4 : ∑ i ∈ s, ((((if i = c then -(wb * wsi * G i) else 0) +
        (if true = true then fb * (wb * wsi) * wsi * b i +
          (if i = c then fb * wsi * (1 - wb * wsi) * -B i else 0) else 0)) +
      (M * wsi * wsi * (b i - (if i = c then -B i else 0)) -
        wsi * psi i * b i - w i * wsi * h i)) + w i * wsi * N i) =
        -(wb * wsi * G c) + (fb * wsi * (1 - wb * wsi) * -B c) + M * wsi * wsi * B c +
        fb * (wb * wsi) * wsi * ∑ i ∈ s, b i + M * wsi * wsi * ∑ i ∈ s, b i -
        wsi * ∑ i ∈ s, b i * psi i - wsi * ∑ i ∈ s, w i * h i + wsi * ∑ i ∈ s, w i * N i := by
      rw [← ind fun i => -(wb * wsi * G i), ← ind fun i => fb * wsi * (1 - wb * wsi) * -B i,
        ← ind' (M * wsi * wsi) B]
      simp only [Finset.mul_sum, ← Finset.sum_add_distrib, ← Finset.sum_sub_distrib]
      refine Finset.sum_congr rfl fun i _ => ?_
      by_cases hi : i = c
      · simp only [hi, if_true]; ring
      · simp only [hi, if_false, if_true]; ring
    rw [E4]
    simp only [if_true]
    ring
  | false =>
    have E4 : ∑ i ∈ s, ((((if i = c then -(wb * wsi * G i) else 0) +
        (if false = true then fb * (wb * wsi) * wsi * b i +
          (if i = c then fb * wsi * (1 - wb * wsi) * -B i else 0) else 0)) +
      (M * wsi * wsi * (b i - (if i = c then -B i else 0)) -
        wsi * psi i * b i - w i * wsi * h i)) + w i * wsi * N i) =
        -(wb * wsi * G c) + M * wsi * wsi * B c + M * wsi * wsi * ∑ i ∈ s, b i -
        wsi * ∑ i ∈ s, b i * psi i - wsi * ∑ i ∈ s, w i * h i + wsi * ∑ i ∈ s, w i * N i := by
      rw [← ind fun i => -(wb * wsi * G i), ← ind' (M * wsi * wsi) B]
      simp only [Finset.mul_sum, ← Finset.sum_add_distrib, ← Finset.sum_sub_distrib]
      refine Finset.sum_congr rfl fun i _ => ?_
      by_cases hi : i = c
      · simp only [hi, if_true, Bool.false_eq_true, if_false]; ring
      · simp only [hi, if_false, Bool.false_eq_true]; ring
    rw [E4]
    obtain ⟨h1, h2, h3⟩ := hU rfl
    simp only [Bool.false_eq_true, if_false]
    rw [h1, h2]
    rcases h3 with h3 | ⟨h3, h4⟩
    · rw [h3]; ring
    · rw [← hA, Finset.sum_eq_zero h3, Finset.sum_eq_zero h4]; ring

/-- The weights of samples are flat outside the radius. -/
theorem grad_far {k : Kern} (hk : k.Proper) {r : ℝ} (hr : k.radius = some r) {x p : V3 ℝ}
    (hx : r < (x - p).norm) : k.grad x p = 0 := by
  classical
  have hdf : k.df (x - p).norm = 0 := by
    cases k with
    | global eps => cases hr
    | cubic r' => cases hr; simp only [Kern.df, cubicDf]; rw [if_pos hx]
    | smooth r' t => cases hr; simp only [Kern.df, smoothDf]; rw [if_pos hx]
    | approximate r' eps => cases hr; simp only [Kern.df, approximateDf]; rw [if_pos hx]
    | interpolating r' xc =>
      cases hr
      simp only [Kern.df]
      have : 0 < (x - p).norm := hk.1.trans hx
      rw [interpolatingDf_eq _ _ _ hk.1.ne' this.ne', if_pos hx]
  simp only [Kern.grad, hdf, zero_div]
  split
  · ext <;> simp
  · rfl

/-- The Jacobian with respect to the query point, as `query_jacobian_at` computes it from the
background. -/
def queryGradient (b : Bg) : V3 ℝ :=
  (b.view.map (sampleQueryJacobian b (neighborWeightGrad b))).sum + b.queryJacobian

/-- The part of the derivative that comes from the normal of sample `i`. -/
def normalGradient (b : Bg) (i : ℕ) (dn : V3 ℝ) : ℝ :=
  V3.dot (normalMultiplier b i) (M3.mulVec (scaledTangentProjection
    ((1 / (b.S.nml i).norm) • b.S.nml i) (1 / (b.S.nml i).norm)) dn)

/-- The derivative of the potential as the derivative of a weighted average. -/
theorem potential_average (h : Regular k P (q t) view (S t) c) (hq : HasD q q' t)
    (hp : ∀ i ∈ view, HasD (fun s => (S s).pos i) (p' i) t)
    (hn : ∀ i ∈ view, HasD (fun s => (S s).nml i) (n' i) t)
    (hv : ∀ i ∈ view, ∀ s, (S s).value i = (S t).value i) :
    HasDerivAt (fun s => potentialAt (q s) view (S s) k P old)
      (((view.map (weight k (q t - (S t).pos c).norm (q t) (S t))).sum +
          backgroundWeight k P.weighted (q t - (S t).pos c).norm)⁻¹ *
        (backgroundWeight k P.weighted (q t - (S t).pos c).norm *
            V3.dot (bgAt k P (q t) view (S t) c (some old)).fieldGrad (q' - p' c) +
          (bgAt k P (q t) view (S t) c (some old)).fieldValue *
            V3.dot ((bgAt k P (q t) view (S t) c (some old)).bgWeightGrad none) (q' - p' c) +
          (view.map fun i => V3.dot (weightGrad k (q t - (S t).pos c).norm (q t) (S t) i) (q' - p' i) *
              samplePotential (q t) (S t) i + weight k (q t - (S t).pos c).norm (q t) (S t) i *
              (V3.dot ((1 / ((S t).nml i).norm) • (S t).nml i) (q' - p' i) +
                V3.dot (q t - (S t).pos i) (M3.mulVec (scaledTangentProjection
                  ((1 / ((S t).nml i).norm) • (S t).nml i) (1 / ((S t).nml i).norm)) (n' i)))).sum -
          ((bgAt k P (q t) view (S t) c (some old)).fieldValue *
              backgroundWeight k P.weighted (q t - (S t).pos c).norm +
            (view.map fun i => weight k (q t - (S t).pos c).norm (q t) (S t) i *
              samplePotential (q t) (S t) i).sum) *
            ((view.map (weight k (q t - (S t).pos c).norm (q t) (S t))).sum +
              backgroundWeight k P.weighted (q t - (S t).pos c).norm)⁻¹ *
            ((view.map fun i => V3.dot (weightGrad k (q t - (S t).pos c).norm (q t) (S t) i)
                (q' - p' i)).sum +
              V3.dot ((bgAt k P (q t) view (S t) c (some old)).bgWeightGrad none) (q' - p' c)))) t := by
  obtain ⟨hcl, hW⟩ := regular_weighable h
  have hd : k.Finite ∨ 0 < (q t - (S t).pos c).norm := h.center.imp id norm_pos_of_ne
  have hmin := (closestSample_spec hcl).2
  obtain ⟨hwb, hg⟩ := background_hasDeriv (v := some old) h hq (hp c h.mem) (hn c h.mem)
  have hwi : ∀ i ∈ view, HasDerivAt
      (fun s => (k.withClosest (q t - (S t).pos c).norm).eval (q s) ((S s).pos i))
      (V3.dot (weightGrad k (q t - (S t).pos c).norm (q t) (S t) i) (q' - p' i)) t := by
    intro i hi
    refine eval_hasDeriv _ (proper_withClosest h.proper hd) hq (hp i hi) ?_ ?_
    · rw [finite_withClosest]; exact hd.imp id fun h => h.trans_le (hmin i hi)
    · intro r eps hk
      refine h.kink r eps ?_ i hi
      cases k <;> simp_all [Kern.withClosest]
  have hpsi : ∀ i ∈ view, HasDerivAt (fun s => samplePotential (q s) (S s) i)
      (V3.dot ((1 / ((S t).nml i).norm) • (S t).nml i) (q' - p' i) +
        V3.dot (q t - (S t).pos i) (M3.mulVec (scaledTangentProjection
          ((1 / ((S t).nml i).norm) • (S t).nml i) (1 / ((S t).nml i).norm)) (n' i))) t := by
    intro i hi
    have h1 := (unit_dot_hasDeriv (hn i hi) (hq.sub (hp i hi)) (h.normals i hi)).const_add
      ((S t).value i)
    refine h1.congr_of_eventuallyEq (Filter.Eventually.of_forall fun s => ?_)
    simp only [samplePotential, hv i hi s]
  have hav := average_hasDeriv hwi hpsi hg hwb hW
  exact hav.congr_of_eventuallyEq (potential_frozen h hq hp)

/-- The derivative of the potential when the query point, the positions of the samples and their
normals move at the same time. -/
theorem potential_hasDeriv (h : Regular k P (q t) view (S t) c) (hq : HasD q q' t)
    (hp : ∀ i ∈ view, HasD (fun s => (S s).pos i) (p' i) t)
    (hn : ∀ i ∈ view, HasD (fun s => (S s).nml i) (n' i) t)
    (hv : ∀ i ∈ view, ∀ s, (S s).value i = (S t).value i) :
    HasDerivAt (fun s => potentialAt (q s) view (S s) k P old)
      (V3.dot (queryGradient (bgAt k P (q t) view (S t) c none)) q' +
        (view.map fun i =>
          V3.dot (sampleJacobianAt (bgAt k P (q t) view (S t) c none) i) (p' i) +
          normalGradient (bgAt k P (q t) view (S t) c none) i (n' i)).sum) t := by
  obtain ⟨hcl, hW⟩ := regular_weighable h
  have hd : k.Finite ∨ 0 < (q t - (S t).pos c).norm := h.center.imp id norm_pos_of_ne
  have hmin := (closestSample_spec hcl).2
  have hav := potential_average (old := old) h hq hp hn hv
  refine hav.congr_deriv ?_
  have hgr : (bgAt k P (q t) view (S t) c (some old)).fieldGrad =
      (bgAt k P (q t) view (S t) c none).fieldGrad := fieldGrad_eq _ _ _ _
  have hbg : (bgAt k P (q t) view (S t) c (some old)).bgWeightGrad none =
      (bgAt k P (q t) view (S t) c none).bgWeightGrad none := rfl
  have hfv : P.weighted = true → (bgAt k P (q t) view (S t) c (some old)).fieldValue =
      (bgAt k P (q t) view (S t) c none).fieldValue := fun hw => fieldValue_eq _ _ _ _ (h.mixed hw).1
  have hwsi : (bgAt k P (q t) view (S t) c none).weightSumInv =
      ((view.map (weight k (q t - (S t).pos c).norm (q t) (S t))).sum +
        backgroundWeight k P.weighted (q t - (S t).pos c).norm)⁻¹ := weightSumInv_eq _
  have hloc : localPotentialAt (q t) view (S t) k
      (bgAt k P (q t) view (S t) c none).weightSumInv (q t - (S t).pos c).norm =
      (view.map fun i => weight k (q t - (S t).pos c).norm (q t) (S t) i *
        samplePotential (q t) (S t) i).sum * (bgAt k P (q t) view (S t) c none).weightSumInv := rfl
  -- the algebra
  have halg := jacobian_algebra (c := c) view.toFinset (List.mem_toFinset.2 h.mem)
    (weight k (q t - (S t).pos c).norm (q t) (S t)) (samplePotential (q t) (S t))
    (fun i => V3.dot (weightGrad k (q t - (S t).pos c).norm (q t) (S t) i) q')
    (fun i => V3.dot (weightGrad k (q t - (S t).pos c).norm (q t) (S t) i) (p' i))
    (fun i => V3.dot ((1 / ((S t).nml i).norm) • (S t).nml i) q')
    (fun i => V3.dot ((1 / ((S t).nml i).norm) • (S t).nml i) (p' i))
    (fun i => V3.dot (q t - (S t).pos i) (M3.mulVec (scaledTangentProjection
          ((1 / ((S t).nml i).norm) • (S t).nml i) (1 / ((S t).nml i).norm)) (n' i)))
    (fun i => V3.dot (bgAt k P (q t) view (S t) c none).fieldGrad (p' i))
    (fun i => V3.dot ((bgAt k P (q t) view (S t) c none).bgWeightGrad none) (p' i))
    (backgroundWeight k P.weighted (q t - (S t).pos c).norm)
    (bgAt k P (q t) view (S t) c (some old)).fieldValue
    (bgAt k P (q t) view (S t) c none).weightSumInv
    (V3.dot ((bgAt k P (q t) view (S t) c none).bgWeightGrad none) q')
    (V3.dot (bgAt k P (q t) view (S t) c none).fieldGrad q') P.weighted ?_
  · simp only [← list_sum_eq h.nodup] at halg
    refine Eq.trans ?_ (halg.trans ?_)
    · rw [hgr, hbg, hwsi]
      simp only [dot_sub_right]
    · have hps : ∀ i, (S t).value i + V3.dot ((1 / ((S t).nml i).norm) • (S t).nml i)
          (q t - (S t).pos i) = samplePotential (q t) (S t) i := fun i => by
        rw [dot_smul_left]
        unfold samplePotential
        ring
      have h1 : ∀ i, V3.dot (sampleQueryJacobian (bgAt k P (q t) view (S t) c none)
          (neighborWeightGrad (bgAt k P (q t) view (S t) c none)) i) q' =
          (bgAt k P (q t) view (S t) c none).weightSumInv * (samplePotential (q t) (S t) i *
            (V3.dot (weightGrad k (q t - (S t).pos c).norm (q t) (S t) i) q' -
              weight k (q t - (S t).pos c).norm (q t) (S t) i *
              ((bgAt k P (q t) view (S t) c none).weightSumInv *
                ((view.map fun j => V3.dot (weightGrad k (q t - (S t).pos c).norm (q t) (S t) j) q').sum
                  + V3.dot ((bgAt k P (q t) view (S t) c none).bgWeightGrad none) q'))) +
            weight k (q t - (S t).pos c).norm (q t) (S t) i *
              V3.dot ((1 / ((S t).nml i).norm) • (S t).nml i) q') := by
        intro i
        rw [← dot_sum, ← hps i]
        unfold sampleQueryJacobian neighborWeightGrad
        simp only [dot_smul_left, dot_add_left, dot_sub_left]
        rfl
      have h2 : V3.dot (bgAt k P (q t) view (S t) c none).queryJacobian q' =
          (if P.weighted = true then (bgAt k P (q t) view (S t) c (some old)).fieldValue *
            (bgAt k P (q t) view (S t) c none).weightSumInv *
            (V3.dot ((bgAt k P (q t) view (S t) c none).bgWeightGrad none) q' -
              backgroundWeight k P.weighted (q t - (S t).pos c).norm *
                (bgAt k P (q t) view (S t) c none).weightSumInv *
                ((view.map fun j => V3.dot (weightGrad k (q t - (S t).pos c).norm (q t) (S t) j) q').sum
                  + V3.dot ((bgAt k P (q t) view (S t) c none).bgWeightGrad none) q')) else 0) +
          backgroundWeight k P.weighted (q t - (S t).pos c).norm *
            (bgAt k P (q t) view (S t) c none).weightSumInv *
            V3.dot (bgAt k P (q t) view (S t) c none).fieldGrad q' := by
        rw [← dot_sum]
        unfold Bg.queryJacobian
        rw [dot_add_left, dot_smul_left]
        congr 1
        by_cases hw : P.weighted = true
        · rw [if_pos hw, hfv hw, if_pos (by exact hw), dot_smul_left, dot_sub_left, dot_smul_left,
            dot_add_left]
          rfl
        · rw [if_neg hw, if_neg (by exact hw), dot_zero_left]
      have h3 : ∀ i, V3.dot (sampleJacobianAt (bgAt k P (q t) view (S t) c none) i) (p' i) =
          ((if i = c then -(backgroundWeight k P.weighted (q t - (S t).pos c).norm *
              (bgAt k P (q t) view (S t) c none).weightSumInv *
              V3.dot (bgAt k P (q t) view (S t) c none).fieldGrad (p' i)) else 0) +
            (if P.weighted = true then (bgAt k P (q t) view (S t) c (some old)).fieldValue *
              (backgroundWeight k P.weighted (q t - (S t).pos c).norm *
                (bgAt k P (q t) view (S t) c none).weightSumInv) *
              (bgAt k P (q t) view (S t) c none).weightSumInv *
              V3.dot (weightGrad k (q t - (S t).pos c).norm (q t) (S t) i) (p' i) +
              (if i = c then (bgAt k P (q t) view (S t) c (some old)).fieldValue *
                (bgAt k P (q t) view (S t) c none).weightSumInv *
                (1 - backgroundWeight k P.weighted (q t - (S t).pos c).norm *
                  (bgAt k P (q t) view (S t) c none).weightSumInv) *
                -V3.dot ((bgAt k P (q t) view (S t) c none).bgWeightGrad none) (p' i) else 0)
              else 0)) +
          ((view.map fun j => weight k (q t - (S t).pos c).norm (q t) (S t) j *
              samplePotential (q t) (S t) j).sum * (bgAt k P (q t) view (S t) c none).weightSumInv *
              (bgAt k P (q t) view (S t) c none).weightSumInv *
              (V3.dot (weightGrad k (q t - (S t).pos c).norm (q t) (S t) i) (p' i) -
                (if i = c then -V3.dot ((bgAt k P (q t) view (S t) c none).bgWeightGrad none) (p' i)
                  else 0)) -
            (bgAt k P (q t) view (S t) c none).weightSumInv * samplePotential (q t) (S t) i *
              V3.dot (weightGrad k (q t - (S t).pos c).norm (q t) (S t) i) (p' i) -
            weight k (q t - (S t).pos c).norm (q t) (S t) i *
              (bgAt k P (q t) view (S t) c none).weightSumInv *
              V3.dot ((1 / ((S t).nml i).norm) • (S t).nml i) (p' i)) := by
        intro i
        unfold sampleJacobianAt
        rw [dot_add_left]
        congr 1
        · have hcl : ClosestIndex.get (bgAt k P (q t) view (S t) c none).closest = c := rfl
          unfold Bg.sampleJacobian
          rw [hcl, bgWeightGrad_sample, if_pos rfl]
          have hwt : (bgAt k P (q t) view (S t) c none).weighted = P.weighted := rfl
          have hbw : (bgAt k P (q t) view (S t) c none).bgWeight =
            backgroundWeight k P.weighted (q t - (S t).pos c).norm := rfl
          rw [hwt, hbw]
          have hdist : (bgAt k P (q t) view (S t) c none).value.isDistance = true ∨
              (bgAt k P (q t) view (S t) c none).value.isDistance = false ∧
              (bgAt k P (q t) view (S t) c none).fieldGrad = 0 ∧
              (bgAt k P (q t) view (S t) c none).fieldValue = 0 := by
            cases hP : P.fieldType <;>
              simp [bgAt, Bg.newImpl, BgValue.new, hP, BgValue.isDistance, Bg.fieldGrad, Bg.fieldValue]
          have hkg : weightGrad (bgAt k P (q t) view (S t) c none).kernel
              (bgAt k P (q t) view (S t) c none).dist (bgAt k P (q t) view (S t) c none).q
              (bgAt k P (q t) view (S t) c none).S i =
              weightGrad k (q t - (S t).pos c).norm (q t) (S t) i := rfl
          simp only [hkg]
          by_cases hw : P.weighted = true
          · rw [if_neg (by simp [hw]), hfv hw]
            simp only [hw, if_true]
            rcases hdist with h0 | ⟨h0, h00, h01⟩
            · by_cases hi : i = c
              · simp only [h0, hi, and_self, if_true, dot_add_left, dot_smul_left, dot_neg_left]
                ring
              · simp only [hi, and_false, if_false, dot_add_left, dot_smul_left, dot_zero_left, add_zero]
            · rw [h00, h01]
              simp only [h0, Bool.false_eq_true, false_and, if_false, dot_add_left, dot_smul_left,
                dot_zero_left]
              simp
          · rw [if_pos (by simpa using hw)]
            simp only [hw, Bool.false_eq_true, if_false, add_zero]
            rcases hdist with h0 | ⟨h0, h00, h01⟩
            · by_cases hi : i = c
              · simp only [h0, hi, and_self, if_true, dot_smul_left, dot_neg_left]
              · simp only [hi, and_false, if_false, dot_zero_left]
            · rw [h00]
              simp only [h0, Bool.false_eq_true, false_and, if_false, dot_zero_left]
              simp
        · unfold localSampleJacobian
          rw [bgWeightGrad_sample, ← hps i, ← hloc]
          simp only [dot_sub_left, dot_smul_left]
          have : V3.dot (if i = c then -(bgAt k P (q t) view (S t) c none).bgWeightGrad none else 0) (p' i)
              = if i = c then -V3.dot ((bgAt k P (q t) view (S t) c none).bgWeightGrad none) (p' i)
                else 0 := by
            split
            · rw [dot_neg_left]
            · rw [dot_zero_left]
          rw [this]
          rfl
      have h4 : ∀ i, normalGradient (bgAt k P (q t) view (S t) c none) i (n' i) =
          weight k (q t - (S t).pos c).norm (q t) (S t) i *
            (bgAt k P (q t) view (S t) c none).weightSumInv *
            V3.dot (q t - (S t).pos i) (M3.mulVec (scaledTangentProjection
              ((1 / ((S t).nml i).norm) • (S t).nml i) (1 / ((S t).nml i).norm)) (n' i)) := by
        intro i
        unfold normalGradient normalMultiplier
        rw [dot_smul_left]
        rfl
      simp only [h3, h4]
      congr 1
      unfold queryGradient
      rw [dot_add_left, dot_sum, h2]
      congr 2
      exact List.map_congr_left fun i _ => (h1 i).symm
  · intro hw
    have hflat : (bgAt k P (q t) view (S t) c none).flat := Or.inr hw
    have h0 : (bgAt k P (q t) view (S t) c none).bgWeightGrad none = 0 := by
      unfold Bg.bgWeightGrad
      rw [if_pos hflat]
    refine ⟨by rw [h0, dot_zero_left], by rw [h0, dot_zero_left], ?_⟩
    by_cases hout : ∃ r, k.radius = some r ∧ r < (q t - (S t).pos c).norm
    · obtain ⟨r, hk, hr⟩ := hout
      have hz : ∀ i ∈ view, weightGrad k (q t - (S t).pos c).norm (q t) (S t) i = 0 := fun i hi =>
        grad_far (proper_withClosest h.proper hd) ((radius_withClosest _ _).trans hk)
          (hr.trans_le (hmin i hi))
      refine Or.inr ⟨fun i hi => ?_, fun i hi => ?_⟩ <;>
        rw [hz i (List.mem_toFinset.1 hi), dot_zero_left]
    · push Not at hout
      refine Or.inl ?_
      unfold backgroundWeight
      cases hk : k.radius with
      | none => rfl
      | some r => simp only [not_lt.2 (hout r hk), if_false, hw, Bool.false_eq_true]

end Softy.Field
