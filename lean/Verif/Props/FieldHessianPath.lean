import Verif.Props.Contact
import Verif.Lemmas.FieldHessian

/-!
# The Hessians of the potential are the derivatives of its Jacobians

Property C78, first part: the Jacobians along a path.
-/

noncomputable section

namespace Softy.Field

open Softy Softy.Kernel Filter

/-! ## Specification -/

/-- Specification: a configuration at which the potential is expected to be twice differentiable:
regular, with no sample at the radius of the kernel or at the query point. -/
structure Smooth (k : Kern) (P : BgParams) (q : V3 ℝ) (view : List ℕ) (S : Samples) (c : ℕ) :
    Prop extends Regular k P q view S c where
  off : ∀ r, k.radius = some r → ∀ i ∈ view, (q - S.pos i).norm ≠ r
  apart : q ≠ S.pos c

/-! ## Regular configurations stay regular -/

variable {k : Kern} {P : BgParams} {view : List ℕ} {c : ℕ} {t old : ℝ}
  {q : ℝ → V3 ℝ} {S : ℝ → Samples} {q' : V3 ℝ} {p' n' : ℕ → V3 ℝ}

theorem Smooth.pos (h : Smooth k P (q t) view (S t) c) : 0 < (q t - (S t).pos c).norm :=
  norm_pos_of_ne h.apart

theorem ne_of_norm_pos {a b : V3 ℝ} (h : 0 < (a - b).norm) : a ≠ b := by
  rintro rfl
  rw [sub_self] at h
  simp [V3.norm, V3.dot] at h

theorem Smooth.eventually (h : Smooth k P (q t) view (S t) c) (hq : HasD q q' t)
    (hp : ∀ i ∈ view, HasD (fun s => (S s).pos i) (p' i) t)
    (hn : ∀ i ∈ view, HasD (fun s => (S s).nml i) (n' i) t) :
    ∀ᶠ s in nhds t, Smooth k P (q s) view (S s) c := by
  have hcont : ∀ i ∈ view, ContinuousAt (fun s => (q s - (S s).pos i).norm) t := fun i hi =>
    norm_continuous (hq.sub (hp i hi))
  have all : ∀ (p : ℕ → ℝ → Prop), (∀ i ∈ view, ∀ᶠ s in nhds t, p i s) →
      ∀ᶠ s in nhds t, ∀ i ∈ view, p i s := by
    intro p hp
    have : ∀ᶠ s in nhds t, ∀ i ∈ view.toFinset, p i s := by
      rw [Filter.eventually_all_finset]
      exact fun i hi => hp i (List.mem_toFinset.1 hi)
    filter_upwards [this] with s hs i hi
    exact hs i (List.mem_toFinset.2 hi)
  have h1 : ∀ᶠ s in nhds t, ∀ i ∈ view, i ≠ c →
      (q s - (S s).pos c).norm < (q s - (S s).pos i).norm := by
    refine all _ fun i hi => ?_
    by_cases hc : i = c
    · exact Filter.Eventually.of_forall fun s h => absurd hc h
    · filter_upwards [(hcont c h.mem).eventually_lt (hcont i hi) (h.closest i hi hc)] with s hs _
      exact hs
  have h2 : ∀ᶠ s in nhds t, ∀ i ∈ view, ∀ r, k.radius = some r → (q s - (S s).pos i).norm ≠ r := by
    refine all _ fun i hi => ?_
    cases hr : k.radius with
    | none => exact Filter.Eventually.of_forall fun s r h => by cases h
    | some r =>
      filter_upwards [(hcont i hi).eventually_ne (h.off r hr i hi)] with s hs r' hr'
      cases hr'
      exact hs
  have h3 : ∀ᶠ s in nhds t, 0 < (q s - (S s).pos c).norm :=
    (hcont c h.mem).eventually_const_lt h.pos
  have h4 : ∀ᶠ s in nhds t, ∀ i ∈ view, (S s).nml i ≠ 0 := by
    refine all _ fun i hi => ?_
    have hpos : 0 < ((S t).nml i).norm := by
      have := norm_pos_of_ne (h.normals i hi)
      rwa [sub_zero] at this
    filter_upwards [(norm_continuous (hn i hi)).eventually_const_lt hpos] with s hs h0
    rw [h0] at hs
    simp [V3.norm, V3.dot] at hs
  have h5 : ∀ᶠ s in nhds t, P.fieldType = .distanceBased →
      (P.weighted = true ∨ ∃ r, k.radius = some r ∧ r < (q s - (S s).pos c).norm) →
      V3.dot ((S s).nml c) (q s - (S s).pos c) ≠ 0 := by
    by_cases hd : P.fieldType = .distanceBased
    · by_cases hc : P.weighted = true ∨ ∃ r, k.radius = some r ∧ r < (q t - (S t).pos c).norm
      · have hcd := ((hn c h.mem).dot (hq.sub (hp c h.mem))).continuousAt
        filter_upwards [hcd.eventually_ne (h.tangent hd hc)] with s hs _ _
        exact hs
      · push Not at hc
        cases hr : k.radius with
        | none =>
          exact Filter.Eventually.of_forall fun s _ h' => by
            rcases h' with h' | ⟨r, h', _⟩
            · exact absurd h' hc.1
            · cases h'
        | some r =>
          have hlt : (q t - (S t).pos c).norm < r := lt_of_le_of_ne (hc.2 r hr) (h.edge r hr)
          filter_upwards [(hcont c h.mem).eventually_lt_const hlt] with s hs _ h'
          rcases h' with h' | ⟨r', h', h''⟩
          · exact absurd h' hc.1
          · cases h'
            exact absurd h'' (not_lt.2 hs.le)
    · exact Filter.Eventually.of_forall fun s h' => absurd h' hd
  filter_upwards [h1, h2, h3, h4, h5] with s e1 e2 e3 e4 e5
  exact
    { proper := h.proper
      nodup := h.nodup
      mem := h.mem
      closest := e1
      edge := fun r hr => e2 c h.mem r hr
      kink := fun r eps hk i hi => e2 i hi r (by rw [hk]; rfl)
      center := Or.inr (ne_of_norm_pos e3)
      normals := e4
      tangent := e5
      mixed := fun hw => ⟨(h.mixed hw).1, (h.mixed hw).2.1, (h.mixed hw).2.2.1, ne_of_norm_pos e3⟩
      off := fun r hr i hi => e2 i hi r hr
      apart := ne_of_norm_pos e3 }

/-! ## The terms of the average -/

/-- The samples of a view and the background. -/
def terms (view : List ℕ) : List (Option ℕ) := none :: view.map some

section Terms

variable (K k : Kern) (P : BgParams) (q : V3 ℝ) (view : List ℕ) (S : Samples) (c : ℕ)

/-- Weights; `K` is the kernel of the samples. -/
def termW : Option ℕ → ℝ
  | none => backgroundWeight k P.weighted (q - S.pos c).norm
  | some i => K.eval q (S.pos i)

/-- Values. -/
def termPsi : Option ℕ → ℝ
  | none => (bgAt k P q view S c none).fieldValue
  | some i => samplePotential q S i

/-- Derivatives of weights as the query point moves by `e i` relative to sample `i`. -/
def termA (e : ℕ → V3 ℝ) : Option ℕ → ℝ
  | none => V3.dot ((bgAt k P q view S c none).bgWeightGrad none) (e c)
  | some i => V3.dot (K.grad q (S.pos i)) (e i)

/-- Derivatives of values, where the normals change by `m`. -/
def termB (e m : ℕ → V3 ℝ) : Option ℕ → ℝ
  | none => V3.dot (bgAt k P q view S c none).fieldGrad (e c)
  | some i => V3.dot (unitNormal S i) (e i) +
      V3.dot (q - S.pos i) (M3.mulVec (sampleProjection S i) (m i))

/-- Second derivatives of weights. -/
def termAA (e e' : ℕ → V3 ℝ) : Option ℕ → ℝ
  | none => qf (e c) ((bgAt k P q view S c none).bgWeightHess none) (e' c)
  | some i => qf (e i) (K.hess q (S.pos i)) (e' i)

/-- The second derivative of a unit normal as the normal changes by `m` and by `n'`, and `m` by `mm`. -/
def unitNormal2 (S : Samples) (i : ℕ) (m n' mm : V3 ℝ) : V3 ℝ :=
  M3.mulVec (sampleProjection S i) mm - (1 / (S.nml i).norm) •
    (V3.dot (unitNormal S i) n' • M3.mulVec (sampleProjection S i) m +
      V3.dot (unitNormal S i) m • M3.mulVec (sampleProjection S i) n' +
      V3.dot n' (M3.mulVec (sampleProjection S i) m) • unitNormal S i)

/-- Second derivatives of values. -/
def termBB (e m e' n' mm : ℕ → V3 ℝ) : Option ℕ → ℝ
  | none => qf (e c) (bgAt k P q view S c none).fieldHess (e' c)
  | some i => V3.dot (M3.mulVec (sampleProjection S i) (n' i)) (e i) +
      V3.dot (M3.mulVec (sampleProjection S i) (m i)) (e' i) +
      V3.dot (q - S.pos i) (unitNormal2 S i (m i) (n' i) (mm i))

end Terms

theorem fieldValue_none (q : V3 ℝ) (S : Samples) :
    (bgAt k P q view S c (some 0)).fieldValue = (bgAt k P q view S c none).fieldValue := by
  simp only [bgAt, Bg.fieldValue, Bg.newImpl]
  cases P.fieldType <;> rfl

/-- The derivative of the potential at a regular configuration, as the Jacobians give it. -/
theorem jacobian_form {q : V3 ℝ} {x : ℕ → V3 ℝ} {tris : ℕ → Tri} {value : ℕ → ℝ}
    (cl : Option ℕ) (h : Regular k P q view (faceSamples tris x value) c) (uq : V3 ℝ)
    (u : ℕ → V3 ℝ) :
    ∃ Q J, queryJacobianAt q view (faceSamples tris x value) cl k P = some Q ∧
      faceJacobianAt q view (faceSamples tris x value) k tris x P = some J ∧
      V3.dot Q uq + applyBlocks J (faceJacobianCols view tris) u =
        firstForm (terms view)
          (termW (k.withClosest (q - (faceSamples tris x value).pos c).norm) k P q
            (faceSamples tris x value) c)
          (termPsi k P q view (faceSamples tris x value) c)
          (termA (k.withClosest (q - (faceSamples tris x value).pos c).norm) k P q view
            (faceSamples tris x value) c
            fun i => uq - (1 / 3 : ℝ) • (u (tris i).a + u (tris i).b + u (tris i).c))
          (termB k P q view (faceSamples tris x value) c
            (fun i => uq - (1 / 3 : ℝ) • (u (tris i).a + u (tris i).b + u (tris i).c))
            fun i => areaNormalDir x (tris i) u) := by
  -- along a line
  have hx : ∀ v, HasD (fun s => x v + s • u v) (u v) 0 := fun v => HasD.line _ _
  have hx0 : (fun v => x v + (0 : ℝ) • u v) = x := by
    funext v
    ext <;> simp
  have hq : HasD (fun s => q + s • uq) uq 0 := HasD.line _ _
  have hq0 : q + (0 : ℝ) • uq = q := by ext <;> simp
  have hreg : Regular k P ((fun s : ℝ => q + s • uq) 0) view
      (faceSamples tris ((fun (s : ℝ) v => x v + s • u v) 0) value) c := by
    simp only [hx0, hq0]
    exact h
  obtain ⟨Q, J, hQ, hJ, -, hd⟩ := Contact.face_joint (old := 0) (fun s : ℝ => q + s • uq) uq tris
    value (fun (s : ℝ) v => x v + s • u v) u cl hq hx hreg
  have hp : ∀ i ∈ view, HasD (fun s : ℝ => (faceSamples tris (fun v => x v + s • u v) value).pos i)
      ((1 / 3 : ℝ) • (u (tris i).a + u (tris i).b + u (tris i).c)) 0 := fun i _ => by
    have h1 := ((hx (tris i).a).add (hx (tris i).b)).add (hx (tris i).c)
    have h2 := HasD.smul (hasDerivAt_const (0 : ℝ) (1 / 3 : ℝ)) h1
    refine h2.congr ?_
    ext <;> simp
  have h1 := potential_average (old := 0) (q := fun s : ℝ => q + s • uq) (q' := uq)
    (S := fun s : ℝ => faceSamples tris (fun v => x v + s • u v) value)
    (n' := fun i => areaNormalDir ((fun (s : ℝ) v => x v + s • u v) 0) (tris i) u) hreg hq hp
    (fun i _ => areaNormal_hasD (tris i) hx) (fun _ _ _ => rfl)
  have e := hd.unique h1
  simp only [hx0, hq0] at e hQ hJ
  refine ⟨Q, J, hQ, hJ, e.trans ?_⟩
  unfold firstForm terms
  simp only [List.map_cons, List.sum_cons, List.map_map, Function.comp_def, termW, termPsi, termA, termB,
    fieldValue_none]
  rw [fieldGrad_eq (some 0) none, bgWeightGrad_eq (some 0) none]
  simp only [unitNormal, sampleProjection]
  unfold weight weightGrad
  ring

/-! ## The kernel along a path -/

theorem df_scale (r a b x : ℝ) (hr : r ≠ 0) (hx : x ≠ 0) (hb : b ≠ 0) :
    (Kern.interpolating r a).df x = (a / b) * (a / b) * (Kern.interpolating r b).df x := by
  simp only [Kern.df, interpolatingDf_eq _ _ _ hr hx]
  split
  · simp
  · field_simp

theorem grad_scale (r a b : ℝ) (y p : V3 ℝ) (hr : r ≠ 0) (hb : b ≠ 0) :
    (Kern.interpolating r a).grad y p = ((a / b) * (a / b)) • (Kern.interpolating r b).grad y p := by
  classical
  unfold Kern.grad
  by_cases h : (y - p).norm > 0
  · simp only [if_pos h]
    rw [df_scale r a b _ hr h.ne' hb]
    ext <;> simp <;> ring
  · simp only [if_neg h]
    ext <;> simp

/-- Around a smooth configuration, the Jacobian does not depend on how the kernel depends on the
distance of the closest sample. -/
theorem form_frozen (h : Smooth k P (q t) view (S t) c) (hq : HasD q q' t)
    (hp : ∀ i ∈ view, HasD (fun s => (S s).pos i) (p' i) t)
    (hn : ∀ i ∈ view, HasD (fun s => (S s).nml i) (n' i) t) (e : ℕ → V3 ℝ) (m : ℝ → ℕ → V3 ℝ) :
    ∀ᶠ s in nhds t, firstForm (terms view)
        (termW (k.withClosest (q s - (S s).pos c).norm) k P (q s) (S s) c)
        (termPsi k P (q s) view (S s) c)
        (termA (k.withClosest (q s - (S s).pos c).norm) k P (q s) view (S s) c e)
        (termB k P (q s) view (S s) c e (m s)) =
      firstForm (terms view)
        (termW (k.withClosest (q t - (S t).pos c).norm) k P (q s) (S s) c)
        (termPsi k P (q s) view (S s) c)
        (termA (k.withClosest (q t - (S t).pos c).norm) k P (q s) view (S s) c e)
        (termB k P (q s) view (S s) c e (m s)) := by
  by_cases hf : k.Finite
  · refine Filter.Eventually.of_forall fun s => ?_
    rw [withClosest_of_finite hf, withClosest_of_finite hf]
  · filter_upwards [h.eventually hq hp hn] with s hs
    have hpos := h.pos
    have hpos' : 0 < (q s - (S s).pos c).norm := norm_pos_of_ne hs.apart
    cases k with
    | interpolating r xc =>
      have hw : P.weighted = false := by
        cases hw : P.weighted with
        | false => rfl
        | true => exact absurd (h.mixed hw).2.1 hf
      have hr := h.proper.1
      have hcl := (regular_weighable (q := q) (S := S) (t := s) hs.toRegular).1
      have hmin := (closestSample_spec hcl).2
      rcases lt_or_gt_of_ne (hs.edge r rfl) with hlt | hgt
      · set A := (q s - (S s).pos c).norm / (q t - (S t).pos c).norm with hA
        have hA0 : A * A ≠ 0 := by
          have : 0 < A := div_pos hpos' hpos
          positivity
        rw [← firstForm_scale _ (termW ((Kern.interpolating r xc).withClosest
          (q t - (S t).pos c).norm) _ _ _ _ _) _ _ _ (A * A) hA0]
        have e1 : ∀ i ∈ terms view, termW ((Kern.interpolating r xc).withClosest
            (q s - (S s).pos c).norm) (.interpolating r xc) P (q s) (S s) c i =
            A * A * termW ((Kern.interpolating r xc).withClosest (q t - (S t).pos c).norm)
              (.interpolating r xc) P (q s) (S s) c i := by
          rintro (_ | i) -
          · simp only [termW]
            have hb : backgroundWeight (.interpolating r xc) P.weighted (q s - (S s).pos c).norm = 0 := by
              unfold backgroundWeight
              simp only [Kern.radius, not_lt.2 hlt.le, if_false, hw, Bool.false_eq_true]
            rw [hb, mul_zero]
          · simp only [termW, Kern.withClosest, Kern.eval]
            exact interpolating_scale r _ _ _ hpos.ne'
        have e2 : ∀ i ∈ terms view, termA ((Kern.interpolating r xc).withClosest
            (q s - (S s).pos c).norm) (.interpolating r xc) P (q s) view (S s) c e i =
            A * A * termA ((Kern.interpolating r xc).withClosest (q t - (S t).pos c).norm)
              (.interpolating r xc) P (q s) view (S s) c e i := by
          rintro (_ | i) -
          · simp only [termA]
            have hb : (bgAt (.interpolating r xc) P (q s) view (S s) c none).bgWeightGrad none = 0 := by
              unfold Bg.bgWeightGrad
              exact if_pos (Or.inr hw)
            rw [hb, dot_zero_left, mul_zero]
          · simp only [termA, Kern.withClosest]
            rw [grad_scale r _ _ _ _ hr.ne' hpos.ne', dot_smul_left]
        exact firstForm_congr e1 e2 (fun _ _ => Or.inr rfl) (fun _ _ => Or.inr rfl)
          fun _ _ => Or.inr rfl
      · refine firstForm_congr ?_ ?_ (fun _ _ => Or.inr rfl) (fun _ _ => Or.inr rfl)
          fun _ _ => Or.inr rfl
        · rintro (_ | i) hi
          · rfl
          · have hi' : i ∈ view := by simpa [terms] using hi
            have z1 := weight_far (S := S s) (i := i) h.proper (Or.inr hpos') rfl (hgt.le.trans (hmin i hi'))
            have z2 := weight_far (S := S s) (i := i) h.proper (Or.inr hpos) rfl (hgt.le.trans (hmin i hi'))
            exact z1.trans z2.symm
        · rintro (_ | i) hi
          · rfl
          · have hi' : i ∈ view := by simpa [terms] using hi
            have z1 := grad_far (k := .interpolating r (q s - (S s).pos c).norm) ⟨hr, hpos'⟩ rfl
              (lt_of_lt_of_le hgt (hmin i hi'))
            have z2 := grad_far (k := .interpolating r (q t - (S t).pos c).norm) ⟨hr, hpos⟩ rfl
              (lt_of_lt_of_le hgt (hmin i hi'))
            simp only [termA, Kern.withClosest]
            rw [z1, z2]
    | _ => exact absurd trivial hf

/-- The gradient of the kernel along a path of query points and samples. -/
theorem grad_hasD (K : Kern) (hk : K.Proper) {q p : ℝ → V3 ℝ} {q' p' : V3 ℝ} {t : ℝ}
    (hq : HasD q q' t) (hp : HasD p p' t) (h0 : 0 < (q t - p t).norm)
    (hr : ∀ r, K.radius = some r → (q t - p t).norm ≠ r) :
    HasD (fun s => K.grad (q s) (p s)) (M3.mulVec (K.hess (q t) (p t)) (q' - p')) t := by
  have hd : HasD (fun s => q s - p s) (q' - p') t := hq.sub hp
  have e2 : ∀ a b, K.grad a b = K.grad (a - b) 0 := fun a b => by simp only [Kern.grad, sub_zero]
  have e3 : ∀ a b, K.hess a b = K.hess (a - b) 0 := fun a b => by simp only [Kern.hess, sub_zero]
  rw [e3]
  simp only [e2 (q _)]
  refine radial_hessian K _ _ 0 t hd (by rw [sub_zero]; exact h0) ?_
  rw [sub_zero]
  exact (kernel_derivatives K hk _ (Or.inr h0.ne') hr).2

/-! ## Unit normals along a path -/

theorem unitNormal_hasD {m : ℝ → V3 ℝ} {m' : V3 ℝ} (hm : HasD m m' t) (h0 : m t ≠ 0) :
    HasD (fun s => (1 / (m s).norm) • m s)
      (M3.mulVec (scaledTangentProjection ((1 / (m t).norm) • m t) (1 / (m t).norm)) m') t := by
  have hpos : 0 < (m t).norm := by
    have := norm_pos_of_ne h0
    rwa [sub_zero] at this
  have h1 := HasD.smul ((hasDerivAt_const t (1 : ℝ)).fun_div (hm.norm (dot_self_ne hpos)) hpos.ne') hm
  refine h1.congr ?_
  simp only [scaledTangentProjection, M3.mulVec_sub, M3.mulVec_outer, M3.mulVec_diag, dot_smul_left]
  generalize V3.dot (m t) m' = d
  generalize (m t).norm = N at *
  ext <;> simp <;> field_simp <;> ring

theorem projection_hasD {m v : ℝ → V3 ℝ} {m' v' : V3 ℝ} (hm : HasD m m' t) (hv : HasD v v' t)
    (h0 : m t ≠ 0) :
    HasD (fun s => M3.mulVec (scaledTangentProjection ((1 / (m s).norm) • m s) (1 / (m s).norm)) (v s))
      (M3.mulVec (scaledTangentProjection ((1 / (m t).norm) • m t) (1 / (m t).norm)) v' -
        (1 / (m t).norm) •
        (V3.dot ((1 / (m t).norm) • m t) m' •
            M3.mulVec (scaledTangentProjection ((1 / (m t).norm) • m t) (1 / (m t).norm)) (v t) +
          V3.dot ((1 / (m t).norm) • m t) (v t) •
            M3.mulVec (scaledTangentProjection ((1 / (m t).norm) • m t) (1 / (m t).norm)) m' +
          V3.dot m' (M3.mulVec (scaledTangentProjection ((1 / (m t).norm) • m t) (1 / (m t).norm)) (v t)) •
            ((1 / (m t).norm) • m t))) t := by
  have hpos : 0 < (m t).norm := by
    have := norm_pos_of_ne h0
    rwa [sub_zero] at this
  have hN := (hasDerivAt_const t (1 : ℝ)).fun_div (hm.norm (dot_self_ne hpos)) hpos.ne'
  have hu := unitNormal_hasD hm h0
  have h1 := (HasD.smul hN hv).sub (HasD.smul (hu.dot hv) (HasD.smul hN hu))
  have e : ∀ s, M3.mulVec (scaledTangentProjection ((1 / (m s).norm) • m s) (1 / (m s).norm)) (v s) =
      (1 / (m s).norm) • v s - V3.dot ((1 / (m s).norm) • m s) (v s) •
        ((1 / (m s).norm) • ((1 / (m s).norm) • m s)) := fun s => by
    simp only [scaledTangentProjection, M3.mulVec_sub, M3.mulVec_outer, M3.mulVec_diag]
  refine HasD.congr_of_eventuallyEq (h1.congr ?_) (Filter.Eventually.of_forall e)
  simp only [scaledTangentProjection, M3.mulVec_sub, M3.mulVec_outer, M3.mulVec_diag, dot_smul_left,
    dot_smul_right, dot_sub_left, dot_sub_right]
  rw [dot_symm m' (v t), dot_symm m' (m t), dot_symm (v t) m']
  generalize V3.dot (m t) m' = d
  generalize V3.dot m' (v t) = g
  generalize V3.dot (m t) (v t) = f
  generalize (m t).norm = N at *
  ext <;> simp <;> field_simp <;> ring

/-! ## The background along a path -/

/-- The background counts: the query point is away from all samples, or the background is mixed in. -/
def Counts (k : Kern) (P : BgParams) (dist : ℝ) : Prop :=
  (∃ r, k.radius = some r ∧ r < dist) ∨ P.weighted = true

theorem fieldGrad_hasD (h : Smooth k P (q t) view (S t) c) (hq : HasD q q' t)
    (hp : HasD (fun s => (S s).pos c) (p' c) t) (hn : HasD (fun s => (S s).nml c) (n' c) t)
    (hcase : Counts k P (q t - (S t).pos c).norm) :
    HasD (fun s => (bgAt k P (q s) view (S s) c none).fieldGrad)
      (M3.mulVec (bgAt k P (q t) view (S t) c none).fieldHess (q' - p' c)) t := by
  have hd : HasD (fun s => q s - (S s).pos c) (q' - p' c) t := hq.sub hp
  have hpos := h.pos
  have hzero : HasD (fun _ : ℝ => (0 : V3 ℝ)) (M3.mulVec 0 (q' - p' c)) t :=
    (HasD.const (0 : V3 ℝ)).congr (by ext <;> simp [M3.mulVec, V3.dot])
  cases hP : P.fieldType with
  | zero =>
    simp only [bgAt, Bg.fieldHess, Bg.fieldGrad, Bg.newImpl, BgValue.new, hP]
    exact hzero
  | fromInput =>
    simp only [bgAt, Bg.fieldHess, Bg.fieldGrad, Bg.newImpl, BgValue.new, hP]
    exact hzero
  | distanceBased =>
    have htan := h.tangent hP hcase.symm
    have hor := orientation_eventually (k := k) (P := P) (view := view) (c := c) hd hn none htan
    have h1 := HasD.smul (((hasDerivAt_const t (bgAt k P (q t) view (S t) c none).orientation)).fun_div
      (hd.norm (dot_self_ne hpos)) hpos.ne') hd
    have hne : ∀ᶠ s in nhds t, (q s - (S s).pos c).norm ≠ 0 :=
      (norm_continuous hd).eventually_ne hpos.ne'
    refine HasD.congr_of_eventuallyEq (h1.congr ?_) ?_
    · have e : (bgAt k P (q t) view (S t) c none).fieldHess =
          M3.diag ((bgAt k P (q t) view (S t) c none).orientation / (q t - (S t).pos c).norm) -
            M3.outer (((bgAt k P (q t) view (S t) c none).orientation / (q t - (S t).pos c).norm) •
              (q t - (S t).pos c))
              (((bgAt k P (q t) view (S t) c none).orientation / (q t - (S t).pos c).norm) •
              (((bgAt k P (q t) view (S t) c none).orientation / (q t - (S t).pos c).norm) •
                (q t - (S t).pos c))) := by
        conv_lhs => unfold Bg.fieldHess
        simp only [Bg.newImpl, BgValue.new, hP, ClosestIndex.get]
        rw [if_pos hpos.ne']
      have ho : (bgAt k P (q t) view (S t) c none).orientation = 1 ∨
          (bgAt k P (q t) view (S t) c none).orientation = -1 := by
        rw [orientation_eq]
        split
        · exact Or.inr rfl
        · exact Or.inl rfl
      rw [e]
      simp only [M3.mulVec_sub, M3.mulVec_outer, M3.mulVec_diag, dot_smul_left]
      generalize V3.dot (q t - (S t).pos c) (q' - p' c) = g
      generalize (bgAt k P (q t) view (S t) c none).orientation = o at *
      generalize (q t - (S t).pos c).norm = N at *
      rcases ho with rfl | rfl <;> ext <;> simp <;> field_simp <;> ring
    · filter_upwards [hor, hne] with s hs hs0
      rw [← hs]
      conv_lhs => unfold Bg.fieldGrad
      simp only [Bg.newImpl, BgValue.new, hP, ClosestIndex.get]
      rw [if_pos hs0]

theorem bgWeightGrad_hasD (h : Smooth k P (q t) view (S t) c) (hq : HasD q q' t)
    (hp : HasD (fun s => (S s).pos c) (p' c) t) :
    HasD (fun s => (bgAt k P (q s) view (S s) c none).bgWeightGrad none)
      (M3.mulVec ((bgAt k P (q t) view (S t) c none).bgWeightHess none) (q' - p' c)) t := by
  have hd : HasD (fun s => q s - (S s).pos c) (q' - p' c) t := hq.sub hp
  have hcont := norm_continuous hd
  have hpos := h.pos
  by_cases hf : (bgAt k P (q t) view (S t) c none).flat
  · have e1 : (bgAt k P (q t) view (S t) c none).bgWeightHess none = 0 := by
      unfold Bg.bgWeightHess
      rw [if_pos hf]
    have e2 : ∀ᶠ s in nhds t, (bgAt k P (q s) view (S s) c none).bgWeightGrad none = 0 := by
      have : ∀ᶠ s in nhds t, (bgAt k P (q s) view (S s) c none).flat := by
        rw [flat_iff] at hf
        rcases hf with ⟨r, hk, hr⟩ | hw
        · filter_upwards [hcont.eventually_const_lt hr] with s hs
          exact Or.inl ⟨r, hk, hs⟩
        · exact Filter.Eventually.of_forall fun s => Or.inr hw
      filter_upwards [this] with s hs
      unfold Bg.bgWeightGrad
      rw [if_pos hs]
    rw [e1]
    refine HasD.congr_of_eventuallyEq ((HasD.const (0 : V3 ℝ)).congr ?_) e2
    ext <;> simp [M3.mulVec, V3.dot]
  · have hf' := hf
    rw [flat_iff] at hf'
    push Not at hf'
    have hw : P.weighted = true := by simpa using hf'.2
    obtain ⟨hm1, hm2, hm3, hm4⟩ := h.mixed hw
    obtain ⟨r, hk⟩ := Option.ne_none_iff_exists'.1 hm3
    have hlt : (q t - (S t).pos c).norm < r := lt_of_le_of_ne (hf'.1 r hk) (h.edge r hk)
    have hkd := (kernel_derivatives k h.proper (r - (q t - (S t).pos c).norm) (Or.inl hm2)
      (fun r' hr' => by rw [hk] at hr'; cases hr'; linarith)).2
    have h0 := (hkd.comp t ((hd.norm (dot_self_ne hpos)).const_sub r)).fun_div
      (hd.norm (dot_self_ne hpos)) hpos.ne'
    have h1 := HasD.smul h0 hd.neg
    refine HasD.congr_of_eventuallyEq (h1.congr ?_) ?_
    · unfold Bg.bgWeightHess
      rw [if_neg hf]
      simp only [bgAt, Bg.newImpl, Bg.edgeDf, Bg.edgeDdf, hk, Option.map_some, Option.getD_some,
        ClosestIndex.get, M3.mulVec_sub, M3.mulVec_smul, M3.mulVec_outer, M3.mulVec_diag, dot_smul_left,
        Function.comp]
      generalize V3.dot (q t - (S t).pos c) (q' - p' c) = g
      generalize (q t - (S t).pos c).norm = N at *
      generalize k.ddf (r - N) = ddf
      generalize k.df (r - N) = df
      ext <;> simp <;> field_simp <;> ring
    · filter_upwards [hcont.eventually_lt_const hlt] with s hs
      have hfs : ¬ (bgAt k P (q s) view (S s) c none).flat := by
        rw [flat_iff]
        rintro (⟨r', hr', hx⟩ | hx)
        · rw [hk] at hr'
          cases hr'
          exact absurd hx (not_lt.2 hs.le)
        · rw [hw] at hx; cases hx
      unfold Bg.bgWeightGrad
      rw [if_neg hfs]
      simp only [bgAt, Bg.newImpl, Bg.edgeDf, hk, Option.map_some, Option.getD_some, ClosestIndex.get,
        Function.comp]

/-- Where it does not count, the background has no weight. -/
theorem background_null
    (hc : ¬ Counts k P (q t - (S t).pos c).norm) :
    backgroundWeight k P.weighted (q t - (S t).pos c).norm = 0 ∧
    (bgAt k P (q t) view (S t) c none).bgWeightGrad none = 0 ∧
    (bgAt k P (q t) view (S t) c none).bgWeightHess none = 0 := by
  unfold Counts at hc
  push Not at hc
  have hw : P.weighted = false := by simpa using hc.2
  have hf : (bgAt k P (q t) view (S t) c none).flat := Or.inr hw
  refine ⟨?_, ?_, ?_⟩
  · unfold backgroundWeight
    cases hk : k.radius with
    | none => rfl
    | some r => simp only [not_lt.2 (hc.1 r hk), if_false, hw, Bool.false_eq_true]
  · unfold Bg.bgWeightGrad
    rw [if_pos hf]
  · unfold Bg.bgWeightHess
    rw [if_pos hf]

/-! ## The Jacobian along a path -/

/-- The derivative of the Jacobian, with a fixed kernel. -/
theorem form_hasDeriv (h : Smooth k P (q t) view (S t) c) (hq : HasD q q' t)
    (hp : ∀ i ∈ view, HasD (fun s => (S s).pos i) (p' i) t)
    (hn : ∀ i ∈ view, HasD (fun s => (S s).nml i) (n' i) t)
    (hv : ∀ i ∈ view, ∀ s, (S s).value i = (S t).value i) (e : ℕ → V3 ℝ) {m : ℝ → ℕ → V3 ℝ}
    {mm : ℕ → V3 ℝ} (hm : ∀ i ∈ view, HasD (fun s => m s i) (mm i) t) :
    HasDerivAt (fun s => firstForm (terms view)
        (termW (k.withClosest (q t - (S t).pos c).norm) k P (q s) (S s) c)
        (termPsi k P (q s) view (S s) c)
        (termA (k.withClosest (q t - (S t).pos c).norm) k P (q s) view (S s) c e)
        (termB k P (q s) view (S s) c e (m s)))
      (secondForm (terms view)
        (termW (k.withClosest (q t - (S t).pos c).norm) k P (q t) (S t) c)
        (termPsi k P (q t) view (S t) c)
        (termA (k.withClosest (q t - (S t).pos c).norm) k P (q t) view (S t) c e)
        (termB k P (q t) view (S t) c e (m t))
        (termA (k.withClosest (q t - (S t).pos c).norm) k P (q t) view (S t) c fun i => q' - p' i)
        (termB k P (q t) view (S t) c (fun i => q' - p' i) n')
        (termAA (k.withClosest (q t - (S t).pos c).norm) k P (q t) view (S t) c e fun i => q' - p' i)
        (termBB k P (q t) view (S t) c e (m t) (fun i => q' - p' i) n' mm)) t := by
  have hpos := h.pos
  set K := k.withClosest (q t - (S t).pos c).norm with hK
  have hKp : K.Proper := proper_withClosest h.proper (Or.inr hpos)
  obtain ⟨hcl, hW⟩ := regular_weighable h.toRegular
  have hmin := (closestSample_spec hcl).2
  have hposi : ∀ i ∈ view, 0 < (q t - (S t).pos i).norm := fun i hi => hpos.trans_le (hmin i hi)
  have hsum : ((terms view).map (termW K k P (q t) (S t) c)).sum ≠ 0 := by
    simp only [terms, List.map_cons, List.sum_cons, List.map_map, Function.comp_def, termW]
    rw [add_comm]
    exact hW
  have hKi : ∀ i ∈ view, HasDerivAt (fun s => K.eval (q s) ((S s).pos i))
      (V3.dot (K.grad (q t) ((S t).pos i)) (q' - p' i)) t := fun i hi => by
    refine eval_hasDeriv _ hKp hq (hp i hi) (Or.inr (hposi i hi)) ?_
    intro r eps hk
    refine h.off r ?_ i hi
    rw [← radius_withClosest (k := k) (d := (q t - (S t).pos c).norm), ← hK, hk]
    rfl
  have hGi : ∀ i ∈ view, HasD (fun s => K.grad (q s) ((S s).pos i))
      (M3.mulVec (K.hess (q t) ((S t).pos i)) (q' - p' i)) t := fun i hi => by
    refine grad_hasD K hKp hq (hp i hi) (hposi i hi) fun r hr => ?_
    rw [hK, radius_withClosest] at hr
    exact h.off r hr i hi
  have hPi : ∀ i ∈ view, HasDerivAt (fun s => samplePotential (q s) (S s) i)
      (V3.dot (unitNormal (S t) i) (q' - p' i) +
        V3.dot (q t - (S t).pos i) (M3.mulVec (sampleProjection (S t) i) (n' i))) t := by
    intro i hi
    have h1 := (unit_dot_hasDeriv (hn i hi) (hq.sub (hp i hi)) (h.normals i hi)).const_add
      ((S t).value i)
    refine h1.congr_of_eventuallyEq (Filter.Eventually.of_forall fun s => ?_)
    simp only [samplePotential, hv i hi s]
  have hBi : ∀ i ∈ view, HasDerivAt (fun s => V3.dot (unitNormal (S s) i) (e i) +
      V3.dot (q s - (S s).pos i) (M3.mulVec (sampleProjection (S s) i) (m s i)))
      (V3.dot (M3.mulVec (sampleProjection (S t) i) (n' i)) (e i) +
        V3.dot (M3.mulVec (sampleProjection (S t) i) (m t i)) (q' - p' i) +
        V3.dot (q t - (S t).pos i) (unitNormal2 (S t) i (m t i) (n' i) (mm i))) t := by
    intro i hi
    have h1 := (unitNormal_hasD (hn i hi) (h.normals i hi)).dot (HasD.const (e i))
    have h2 := (hq.sub (hp i hi)).dot (projection_hasD (hn i hi) (hm i hi) (h.normals i hi))
    refine (h1.fun_add h2).congr_deriv ?_
    simp only [dot_zero_right, unitNormal2, sampleProjection, unitNormal]
    rw [dot_symm (q' - p' i)]
    ring
  obtain ⟨hwb, -⟩ := background_hasDeriv (v := none) h.toRegular hq (hp c h.mem) (hn c h.mem)
  have hgb := bgWeightGrad_hasD h hq (hp c h.mem)
  by_cases hc : Counts k P (q t - (S t).pos c).norm
  · refine firstForm_hasDeriv (l := terms view)
      (w := fun i s => termW K k P (q s) (S s) c i)
      (psi := fun i s => termPsi k P (q s) view (S s) c i)
      (a := fun i s => termA K k P (q s) view (S s) c e i)
      (b := fun i s => termB k P (q s) view (S s) c e (m s) i) ?_ ?_ ?_ ?_ hsum
    · rintro (_ | i) hi
      · exact hwb
      · exact hKi i (by simpa [terms] using hi)
    · rintro (_ | i) hi
      · exact field_hasDeriv h.toRegular hq (hp c h.mem) (hn c h.mem) none hc
      · exact hPi i (by simpa [terms] using hi)
    · rintro (_ | i) hi
      · refine (hgb.dot (HasD.const (e c))).congr_deriv ?_
        rw [dot_zero_right, add_zero, dot_symm]
        rfl
      · refine ((hGi i (by simpa [terms] using hi)).dot (HasD.const (e i))).congr_deriv ?_
        rw [dot_zero_right, add_zero, dot_symm]
        rfl
    · rintro (_ | i) hi
      · refine ((fieldGrad_hasD h hq (hp c h.mem) (hn c h.mem) hc).dot
          (HasD.const (e c))).congr_deriv ?_
        rw [dot_zero_right, add_zero, dot_symm]
        rfl
      · exact hBi i (by simpa [terms] using hi)
  · -- the background has no weight
    have hcs : ∀ᶠ s in nhds t, ¬ Counts k P (q s - (S s).pos c).norm := by
      have hcont := norm_continuous (hq.sub (hp c h.mem))
      unfold Counts at hc
      push Not at hc
      have hw : P.weighted ≠ true := hc.2
      cases hk : k.radius with
      | none =>
        refine Filter.Eventually.of_forall fun s hx => ?_
        rcases hx with ⟨r, hr, -⟩ | hx
        · rw [hk] at hr; cases hr
        · exact hw hx
      | some r =>
        have hlt : (q t - (S t).pos c).norm < r := lt_of_le_of_ne (hc.1 r hk) (h.edge r hk)
        filter_upwards [hcont.eventually_lt_const hlt] with s hs hx
        rcases hx with ⟨r', hr, hx⟩ | hx
        · rw [hk] at hr
          cases hr
          exact absurd hx (not_lt.2 hs.le)
        · exact hw hx
    have hz := background_null (view := view) hc
    have key := firstForm_hasDeriv (l := terms view)
      (w := fun i s => termW K k P (q s) (S s) c i)
      (psi := fun i s => i.elim 0 fun _ => termPsi k P (q s) view (S s) c i)
      (a := fun i s => termA K k P (q s) view (S s) c e i)
      (b := fun i s => i.elim 0 fun _ => termB k P (q s) view (S s) c e (m s) i)
      (a' := termA K k P (q t) view (S t) c fun i => q' - p' i)
      (b' := fun i => i.elim 0 fun _ => termB k P (q t) view (S t) c (fun i => q' - p' i) n' i)
      (aa := termAA K k P (q t) view (S t) c e fun i => q' - p' i)
      (bb := fun i => i.elim 0 fun _ =>
        termBB k P (q t) view (S t) c e (m t) (fun i => q' - p' i) n' mm i)
      (t := t) ?_ ?_ ?_ ?_ hsum
    · refine (key.congr_deriv ?_).congr_of_eventuallyEq ?_
      · refine secondForm_congr (fun _ _ => rfl) (fun _ _ => rfl) (fun _ _ => rfl) (fun _ _ => rfl) ?_
        rintro (_ | i) -
        · refine Or.inl ⟨hz.1, ?_, ?_, ?_⟩
          · simp only [termA, hz.2.1, dot_zero_left]
          · simp only [termA, hz.2.1, dot_zero_left]
          · simp only [termAA, hz.2.2, qf_zero]
        · exact Or.inr ⟨rfl, rfl, rfl, rfl⟩
      · filter_upwards [hcs, h.eventually hq hp hn] with s hs hsm
        have hz' := background_null (view := view) hs
        refine firstForm_congr (fun _ _ => rfl) (fun _ _ => rfl) ?_ ?_ ?_
        · rintro (_ | i) -
          · refine Or.inl ?_
            simp only [termA, hz'.2.1, dot_zero_left]
          · exact Or.inr rfl
        · rintro (_ | i) -
          · exact Or.inl hz'.1
          · exact Or.inr rfl
        · rintro (_ | i) -
          · exact Or.inl hz'.1
          · exact Or.inr rfl
    · rintro (_ | i) hi
      · exact hwb
      · exact hKi i (by simpa [terms] using hi)
    · rintro (_ | i) hi
      · exact hasDerivAt_const _ _
      · exact hPi i (by simpa [terms] using hi)
    · rintro (_ | i) hi
      · refine (hgb.dot (HasD.const (e c))).congr_deriv ?_
        rw [dot_zero_right, add_zero, dot_symm]
        rfl
      · refine ((hGi i (by simpa [terms] using hi)).dot (HasD.const (e i))).congr_deriv ?_
        rw [dot_zero_right, add_zero, dot_symm]
        rfl
    · rintro (_ | i) hi
      · exact hasDerivAt_const _ _
      · exact hBi i (by simpa [terms] using hi)

end Softy.Field
