import Verif.Model.Friction
import Verif.Lemmas.Calculus

/-!
# C13, C14, C15, C55 — the friction law
-/

noncomputable section

namespace Softy.Friction

open Set Filter Topology

/-! ## C13: the scalar profiles -/

/-- The sliding potential is the antiderivative of the profile times the speed. -/
theorem potential_hasDerivAt (k : Profile) {ε x : ℝ} (hε : 0 < ε) (hx : 0 ≤ x) :
    HasDerivAt (fun x => k.is x ε) (k.s x ε * x) x := by
  cases k with
  | stabilized =>
    simp only [Profile.is, Profile.s, stabilizedPotential, stabilizedProfile]
    have he : 0 < ε * 0.1 := by positivity
    have hne : ε * 0.1 + x ≠ 0 := by positivity
    have h1 : HasDerivAt (fun x => 2 * (ε * 0.1) / (ε * 0.1 + x))
        (-(2 * (ε * 0.1)) / (ε * 0.1 + x) ^ 2) x := by
      have := (hasDerivAt_const x (2 * (ε * 0.1))).div ((hasDerivAt_id' x).const_add (ε * 0.1)) hne
      exact this.congr_deriv (by ring)
    have h2 := (hasDerivAt_id' x).add ((h1.log (by positivity)).const_mul (ε * 0.1))
    refine h2.congr_deriv ?_
    have : x + 0.1 * ε ≠ 0 := by positivity
    field_simp
    ring
  | quadratic =>
    simp only [Profile.is, Profile.s]
    have hp : ∀ y, HasDerivAt (fun x => (x / ε) * (x - (x * x) / (3 * ε)) + ε / 3)
        ((2 - y / ε) / ε * y) y := by
      intro y
      have h1 := (hasDerivAt_id' y).div_const ε
      have h2 := (hasDerivAt_id' y).fun_sub (((hasDerivAt_id' y).fun_mul (hasDerivAt_id' y)).div_const (3 * ε))
      refine ((h1.fun_mul h2).add_const (ε / 3)).congr_deriv ?_
      field_simp
      ring
    rcases lt_trichotomy x ε with h | h | h
    · rw [show quadraticProfile x ε = (2 - x / ε) / ε from if_pos h]
      exact hasDerivAt_of_lt h (hp x) fun y hy => if_pos hy
    · subst h
      rw [show quadraticProfile x x = 1 / x from if_neg (lt_irrefl x), one_div_mul_cancel hε.ne']
      refine hasDerivAt_glue (g := fun y => (y / x) * (y - (y * y) / (3 * x)) + x / 3)
        (h := fun y => y) ((hp x).congr_deriv ?_) (hasDerivAt_id' x) ?_ ?_
      · field_simp; norm_num
      · intro y hy
        rcases hy.lt_or_eq with hy | hy
        · exact if_pos hy
        · subst hy
          simp only [quadraticPotential, lt_irrefl, if_false]
          field_simp
          norm_num
      · intro y hy
        exact if_neg (not_lt.2 hy)
    · rw [show quadraticProfile x ε = 1 / x from if_neg (not_lt.2 h.le),
        one_div_mul_cancel (hε.trans h).ne']
      exact hasDerivAt_of_gt h (hasDerivAt_id' x) fun y hy => if_neg (not_lt.2 hy.le)

/-- The reported profile derivative is the derivative of the profile. -/
theorem profile_hasDerivAt (k : Profile) {ε x : ℝ} (hε : 0 < ε) (hx : 0 ≤ x) :
    HasDerivAt (fun x => k.s x ε) (k.ds x ε) x := by
  cases k with
  | stabilized =>
    simp only [Profile.s, Profile.ds, stabilizedProfile, stabilizedProfileDeriv]
    have hne : x + 0.1 * ε ≠ 0 := by positivity
    have := (hasDerivAt_const x (1 : ℝ)).div ((hasDerivAt_id' x).add_const (0.1 * ε)) hne
    refine this.congr_deriv ?_
    field_simp
    ring
  | quadratic =>
    simp only [Profile.s, Profile.ds]
    have hp : ∀ y, HasDerivAt (fun x => (2 - x / ε) / ε) (-1 / (ε * ε)) y := by
      intro y
      refine ((((hasDerivAt_id' y).div_const ε).const_sub 2).div_const ε).congr_deriv ?_
      field_simp
    have hq : ∀ y, y ≠ 0 → HasDerivAt (fun x : ℝ => 1 / x) (-1 / (y * y)) y := by
      intro y hy
      refine ((hasDerivAt_const y (1 : ℝ)).div (hasDerivAt_id' y) hy).congr_deriv ?_
      field_simp
      ring
    rcases lt_trichotomy x ε with h | h | h
    · rw [show quadraticProfileDeriv x ε = -1 / (ε * ε) from if_pos h]
      exact hasDerivAt_of_lt h (hp x) fun y hy => if_pos hy
    · subst h
      rw [show quadraticProfileDeriv x x = -1 / (x * x) from if_neg (lt_irrefl x)]
      refine hasDerivAt_glue (g := fun y => (2 - y / x) / x) (h := fun y => 1 / y) (hp x)
        (hq x hε.ne') ?_ ?_
      · intro y hy
        rcases hy.lt_or_eq with hy | hy
        · exact if_pos hy
        · subst hy
          simp only [quadraticProfile, lt_irrefl, if_false]
          field_simp
          norm_num
      · intro y hy
        exact if_neg (not_lt.2 hy)
    · rw [show quadraticProfileDeriv x ε = -1 / (x * x) from if_neg (not_lt.2 h.le)]
      exact hasDerivAt_of_gt h (hq x (hε.trans h).ne') fun y hy => if_neg (not_lt.2 hy.le)

/-- The profile is positive. -/
theorem profile_pos (k : Profile) {ε x : ℝ} (hε : 0 < ε) (hx : 0 ≤ x) : 0 < k.s x ε := by
  cases k with
  | stabilized =>
    simp only [Profile.s, stabilizedProfile]
    positivity
  | quadratic =>
    simp only [Profile.s, quadraticProfile]
    split_ifs with h
    · have : x / ε < 1 := (div_lt_one hε).2 h
      apply div_pos _ hε
      linarith
    · push Not at h
      have : 0 < x := hε.trans_le h
      positivity

/-- The force magnitude `s(x)·x` never exceeds one: friction is bounded by the Coulomb
limit. -/
theorem profile_mul_le_one (k : Profile) {ε x : ℝ} (hε : 0 < ε) (hx : 0 ≤ x) :
    k.s x ε * x ≤ 1 := by
  cases k with
  | stabilized =>
    simp only [Profile.s, stabilizedProfile]
    rw [one_div_mul_eq_div, div_le_one (by positivity)]
    linarith [show 0 < 0.1 * ε by positivity]
  | quadratic =>
    simp only [Profile.s, quadraticProfile]
    split_ifs with h
    · have e : (2 - x / ε) / ε * x = 1 - (1 - x / ε) ^ 2 := by field_simp; ring
      rw [e]
      nlinarith [sq_nonneg (1 - x / ε)]
    · push Not at h
      have : x ≠ 0 := (hε.trans_le h).ne'
      rw [one_div_mul_cancel this]

/-- The quadratic profile reaches the Coulomb limit at `ε` and stays there; the stabilized
one approaches it. -/
theorem quadratic_saturates {ε x : ℝ} (hε : 0 < ε) (hx : ε ≤ x) :
    Profile.quadratic.s x ε * x = 1 := by
  simp only [Profile.s, quadraticProfile, not_lt.2 hx, if_false]
  exact one_div_mul_cancel (hε.trans_le hx).ne'

/-- See `quadratic_saturates`: the gap of the stabilized profile is at most `ε / (10 x)`. -/
theorem stabilized_saturates {ε x : ℝ} (hε : 0 < ε) (hx : 0 < x) :
    1 - 0.1 * ε / x ≤ Profile.stabilized.s x ε * x := by
  simp only [Profile.s, stabilizedProfile]
  rw [one_div_mul_eq_div, sub_le_iff_le_add, ← sub_le_iff_le_add', le_div_iff₀ hx]
  have h : 0 < x + 0.1 * ε := by positivity
  have e : (1 - x / (x + 0.1 * ε)) * x = 0.1 * ε * (x / (x + 0.1 * ε)) := by field_simp; ring
  rw [e]
  have : x / (x + 0.1 * ε) ≤ 1 := (div_le_one h).2 (by linarith [show 0 < 0.1 * ε by positivity])
  nlinarith [show 0 < 0.1 * ε by positivity]

/-- Non-vacuity. -/
example : Profile.quadratic.s (1 / 2) 1 * (1 / 2) = 3 / 4 := by
  norm_num [Profile.s, quadraticProfile]

/-! ## C14: dissipation and the Coulomb bound -/

theorem falloff_mem {x w : ℝ} (hx : 0 ≤ x) (hw : 0 ≤ w) :
    0 ≤ falloff x w ∧ falloff x w ≤ 1 := by
  simp only [falloff, gt_iff_lt]
  split_ifs with h1 h2
  · simp
  · push Not at h1
    constructor
    · apply div_nonneg _ h2.le
      have : (2 * x + w) * (x - w) * (x - w) = (2 * x + w) * (x - w) ^ 2 := by ring
      rw [this]
      positivity
    · rw [div_le_one h2]
      nlinarith [mul_nonneg (sq_nonneg x) (show 0 ≤ 3 * w - 2 * x by linarith)]
  · simp

theorem norm_nonneg (v : V2 ℝ) : 0 ≤ v.norm := Real.sqrt_nonneg _

theorem norm_mul_self (v : V2 ℝ) : v.norm * v.norm = v.dot v := by
  unfold V2.norm
  apply Real.mul_self_sqrt
  unfold V2.dot
  nlinarith [mul_self_nonneg v.x, mul_self_nonneg v.y]

/-- Parameters a user may choose: non-negative coefficients, a positive smoothing width. -/
structure Params.Valid (p : Params) : Prop where
  dyn : 0 ≤ p.dynamicFriction
  stat : 0 ≤ p.staticFriction
  visc : 0 ≤ p.viscousFriction
  stri : 0 ≤ p.stribeckVelocity
  eps : 0 < p.epsilon

theorem profile_eq (v : V2 ℝ) (l : ℝ) (p : Params) : profile v l p = eta v l p p.profile.s := by
  unfold profile
  cases p.profile <;> rfl

/-- The friction coefficient in effect at a given speed lies between the static and the
dynamic one. -/
theorem coeff_mem (p : Params) (hp : p.Valid) (v : V2 ℝ) :
    min p.staticFriction p.dynamicFriction ≤
      p.dynamicFriction + (p.staticFriction - p.dynamicFriction) *
        falloff v.norm p.stribeckVelocity ∧
    p.dynamicFriction + (p.staticFriction - p.dynamicFriction) *
        falloff v.norm p.stribeckVelocity ≤ max p.staticFriction p.dynamicFriction := by
  obtain ⟨h0, h1⟩ := falloff_mem (norm_nonneg v) hp.stri
  set h := falloff v.norm p.stribeckVelocity
  have hmin1 := min_le_left p.staticFriction p.dynamicFriction
  have hmin2 := min_le_right p.staticFriction p.dynamicFriction
  have hmax1 := le_max_left p.staticFriction p.dynamicFriction
  have hmax2 := le_max_right p.staticFriction p.dynamicFriction
  constructor <;> nlinarith

/-- **C14 (dissipation).** The friction force `-profile(v)` never does positive work on the
sliding velocity. -/
theorem friction_dissipates (p : Params) (hp : p.Valid) (v : V2 ℝ) (l : ℝ) (hl : 0 ≤ l) :
    V2.dot (-profile v l p) v ≤ 0 := by
  rw [profile_eq]
  have hc := (coeff_mem p hp v).1
  have hmin : 0 ≤ min p.staticFriction p.dynamicFriction := le_min hp.stat hp.dyn
  have hs := profile_pos p.profile hp.eps (norm_nonneg v)
  simp only [eta, V2.dot, V2.neg_x, V2.neg_y, V2.smul_x, V2.smul_y]
  set c := p.dynamicFriction + (p.staticFriction - p.dynamicFriction) *
    falloff v.norm p.stribeckVelocity
  have hg : 0 ≤ l * c * p.profile.s v.norm p.epsilon + p.viscousFriction :=
    add_nonneg (mul_nonneg (mul_nonneg hl (hmin.trans hc)) hs.le) hp.visc
  nlinarith [mul_nonneg hg (mul_self_nonneg v.x), mul_nonneg hg (mul_self_nonneg v.y)]

/-- **C14 (strictness).** A moving contact with a positive normal force and positive friction
loses energy. -/
theorem friction_dissipates_strict (p : Params) (hp : p.Valid) (v : V2 ℝ) (hv : 0 < v.norm)
    (l : ℝ) (hl : 0 < l) (hs : 0 < p.staticFriction) (hd : 0 < p.dynamicFriction) :
    V2.dot (-profile v l p) v < 0 := by
  rw [profile_eq]
  have hc := (coeff_mem p hp v).1
  have hmin : 0 < min p.staticFriction p.dynamicFriction := lt_min hs hd
  have hs := profile_pos p.profile hp.eps (norm_nonneg v)
  have hn := norm_mul_self v
  simp only [V2.dot] at hn
  simp only [eta, V2.dot, V2.neg_x, V2.neg_y, V2.smul_x, V2.smul_y]
  set c := p.dynamicFriction + (p.staticFriction - p.dynamicFriction) *
    falloff v.norm p.stribeckVelocity
  have hg : 0 < l * c * p.profile.s v.norm p.epsilon + p.viscousFriction :=
    add_pos_of_pos_of_nonneg (mul_pos (mul_pos hl (hmin.trans_le hc)) hs) hp.visc
  nlinarith [mul_pos hg (mul_pos hv hv)]

/-- The magnitude of a scaled vector. -/
theorem norm_smul (c : ℝ) (v : V2 ℝ) : (c • v).norm = |c| * v.norm := by
  unfold V2.norm V2.dot
  rw [V2.smul_x, V2.smul_y, show c * v.x * (c * v.x) + c * v.y * (c * v.y) =
    c ^ 2 * (v.x * v.x + v.y * v.y) by ring, Real.sqrt_mul (sq_nonneg c), Real.sqrt_sq_eq_abs]

/-- **C14 (Coulomb bound).** The magnitude of the friction force is at most the larger of the
two coefficients times the normal force, plus the viscous drag. -/
theorem friction_coulomb_viscous (p : Params) (hp : p.Valid) (v : V2 ℝ) (l : ℝ) (hl : 0 ≤ l) :
    (profile v l p).norm ≤
      max p.staticFriction p.dynamicFriction * l + p.viscousFriction * v.norm := by
  rw [profile_eq]
  have hc1 := (coeff_mem p hp v).1
  have hc2 := (coeff_mem p hp v).2
  have hmin : 0 ≤ min p.staticFriction p.dynamicFriction := le_min hp.stat hp.dyn
  have hs := profile_pos p.profile hp.eps (norm_nonneg v)
  have hs1 := profile_mul_le_one p.profile hp.eps (norm_nonneg v)
  simp only [eta]
  set c := p.dynamicFriction + (p.staticFriction - p.dynamicFriction) *
    falloff v.norm p.stribeckVelocity
  set s := p.profile.s v.norm p.epsilon
  have hc0 : 0 ≤ c := hmin.trans hc1
  have hg : 0 ≤ l * c * s + p.viscousFriction :=
    add_nonneg (mul_nonneg (mul_nonneg hl hc0) hs.le) hp.visc
  rw [norm_smul, abs_of_nonneg hg]
  have h1 : l * c * (s * v.norm) ≤ l * c * 1 :=
    mul_le_mul_of_nonneg_left hs1 (mul_nonneg hl hc0)
  have h2 : l * c ≤ l * max p.staticFriction p.dynamicFriction :=
    mul_le_mul_of_nonneg_left hc2 hl
  nlinarith

/-- **C14 (Coulomb bound without viscosity).** -/
theorem friction_coulomb (p : Params) (hp : p.Valid) (hk : p.viscousFriction = 0) (v : V2 ℝ)
    (l : ℝ) (hl : 0 ≤ l) :
    (profile v l p).norm ≤ max p.staticFriction p.dynamicFriction * l := by
  have := friction_coulomb_viscous p hp v l hl
  rwa [hk, zero_mul, add_zero] at this

/-- A contact that does not move feels no friction. -/
theorem friction_rest (p : Params) (l : ℝ) : profile 0 l p = 0 := by
  rw [profile_eq]
  ext <;> simp [eta]

/-- Non-vacuity: with quadratic smoothing and a speed above `ε` the bound is attained. -/
example : ∃ (p : Params) (v : V2 ℝ), p.Valid ∧ p.viscousFriction = 0 ∧
    profile v 2 p = ⟨1, 0⟩ ∧ max p.staticFriction p.dynamicFriction * 2 = 1 := by
  refine ⟨⟨1/2, 1/2, 0, 0, 1, .quadratic⟩, ⟨3, 0⟩, ⟨?_, ?_, ?_, ?_, ?_⟩, rfl, ?_, ?_⟩ <;>
    norm_num
  have hn : (⟨3, 0⟩ : V2 ℝ).norm = 3 := by
    unfold V2.norm V2.dot
    rw [show (3 : ℝ) * 3 + 0 * 0 = 3 ^ 2 by norm_num]
    exact Real.sqrt_sq (by norm_num)
  ext <;> simp [profile, eta, hn, quadraticProfile, falloff] <;> norm_num

/-! ## C15: the Jacobian -/

/-- The derivative the falloff really has. -/
theorem falloff_hasDerivAt {x w : ℝ} (hw : 0 < w) :
    HasDerivAt (fun x => falloff x w) (if x > w then 0 else 6 * x * (x - w) / w ^ 3) x := by
  have hw3 : 0 < w * w * w := by positivity
  have hp : ∀ y, HasDerivAt (fun x => (2 * x + w) * (x - w) * (x - w) / (w * w * w))
      (6 * y * (y - w) / w ^ 3) y := by
    intro y
    have h1 := ((hasDerivAt_id' y).const_mul 2).add_const w
    have h2 := (hasDerivAt_id' y).sub_const w
    refine (((h1.fun_mul h2).fun_mul h2).div_const (w * w * w)).congr_deriv ?_
    field_simp
    ring
  have hle : ∀ y, y ≤ w → falloff y w = (2 * y + w) * (y - w) * (y - w) / (w * w * w) := by
    intro y hy
    simp only [falloff, gt_iff_lt, not_lt.2 hy, if_false, hw3, if_true]
  have hgt : ∀ y, w < y → falloff y w = 0 := by
    intro y hy
    simp only [falloff, gt_iff_lt, hy, if_true]
  rcases lt_trichotomy x w with h | h | h
  · rw [if_neg (not_lt.2 h.le)]
    exact hasDerivAt_of_lt h (hp x) fun y hy => hle y hy.le
  · subst h
    rw [if_neg (lt_irrefl x)]
    refine hasDerivAt_glue (g := fun y => (2 * y + x) * (y - x) * (y - x) / (x * x * x))
      (h := fun _ => 0) (hp x) ((hasDerivAt_const x 0).congr_deriv (by simp)) hle ?_
    intro y hy
    rcases hy.lt_or_eq with hy | hy
    · exact hgt y hy
    · rw [hle y hy.ge, hy]; simp
  · rw [if_pos h]
    exact hasDerivAt_of_gt h (hasDerivAt_const x 0) hgt

theorem falloff_hasDerivAt_zero {x w : ℝ} (hx : w < x) :
    HasDerivAt (fun x => falloff x w) 0 x :=
  hasDerivAt_of_gt hx (hasDerivAt_const x 0) fun y hy => by
    simp only [falloff, gt_iff_lt, hy, if_true]

/-- A velocity that changes in time: `v(t) = (u t, w t)` passes through `v` with rate `d` at
time `t`. -/
structure Path (u w : ℝ → ℝ) (t : ℝ) (v d : V2 ℝ) : Prop where
  ux : u t = v.x
  uy : w t = v.y
  dx : HasDerivAt u d.x t
  dy : HasDerivAt w d.y t

theorem Path.norm_deriv {u w : ℝ → ℝ} {t : ℝ} {v d : V2 ℝ} (h : Path u w t v d)
    (hv : 0 < v.norm) :
    HasDerivAt (fun t => V2.norm ⟨u t, w t⟩) ((v.x * d.x + v.y * d.y) / v.norm) t := by
  unfold V2.norm V2.dot at *
  have h1 := (h.dx.mul h.dx).add (h.dy.mul h.dy)
  have hne : u t * u t + w t * w t ≠ 0 := by
    rw [h.ux, h.uy]
    exact (Real.sqrt_pos.1 hv).ne'
  refine (h1.sqrt hne).congr_deriv ?_
  simp only [Pi.add_apply, Pi.mul_apply, h.ux, h.uy]
  field_simp
  ring

/-- Derivative of the friction law for whatever derivative `dh` the falloff has. -/
theorem eta_path {u w : ℝ → ℝ} {t : ℝ} {v d : V2 ℝ} (h : Path u w t v d) (hv : 0 < v.norm)
    (l : ℝ) (p : Params) (hε : 0 < p.epsilon) (dh : ℝ)
    (hdh : HasDerivAt (fun x => (p.staticFriction - p.dynamicFriction) *
      falloff x p.stribeckVelocity) ((p.staticFriction - p.dynamicFriction) * dh) v.norm) :
    let s := p.profile.s v.norm p.epsilon
    let ds := p.profile.ds v.norm p.epsilon
    let h := falloff v.norm p.stribeckVelocity
    let g := l * (p.dynamicFriction + (p.staticFriction - p.dynamicFriction) * h) * s +
      p.viscousFriction
    let g' := l * ((p.staticFriction - p.dynamicFriction) * dh * s +
      (p.dynamicFriction + (p.staticFriction - p.dynamicFriction) * h) * ds) *
      ((v.x * d.x + v.y * d.y) / v.norm)
    HasDerivAt (fun t => (profile ⟨u t, w t⟩ l p).x) (g' * v.x + g * d.x) t ∧
    HasDerivAt (fun t => (profile ⟨u t, w t⟩ l p).y) (g' * v.y + g * d.y) t := by
  intro s ds hh g g'
  have hn := h.norm_deriv hv
  have hvt : V2.norm ⟨u t, w t⟩ = v.norm := by
    have : (⟨u t, w t⟩ : V2 ℝ) = v := by ext <;> simp [h.ux, h.uy]
    rw [this]
  have hs : HasDerivAt (fun t => p.profile.s (V2.norm ⟨u t, w t⟩) p.epsilon)
      (ds * ((v.x * d.x + v.y * d.y) / v.norm)) t := by
    have h0 := profile_hasDerivAt p.profile hε (norm_nonneg v)
    exact HasDerivAt.comp (h₂ := fun x => p.profile.s x p.epsilon) t (hvt ▸ h0) hn
  have hf : HasDerivAt (fun t => (p.staticFriction - p.dynamicFriction) *
      falloff (V2.norm ⟨u t, w t⟩) p.stribeckVelocity)
      ((p.staticFriction - p.dynamicFriction) * dh * ((v.x * d.x + v.y * d.y) / v.norm)) t :=
    HasDerivAt.comp (h₂ := fun x => (p.staticFriction - p.dynamicFriction) *
      falloff x p.stribeckVelocity) t (hvt ▸ hdh) hn
  have hg : HasDerivAt (fun t => l * (p.dynamicFriction +
      (p.staticFriction - p.dynamicFriction) * falloff (V2.norm ⟨u t, w t⟩) p.stribeckVelocity) *
      p.profile.s (V2.norm ⟨u t, w t⟩) p.epsilon + p.viscousFriction) g' t := by
    refine ((((hf.const_add p.dynamicFriction).const_mul l).mul hs).add_const
      p.viscousFriction).congr_deriv ?_
    simp only [hvt, g', s, ds, hh]
    ring
  have e : ∀ t, profile ⟨u t, w t⟩ l p = eta ⟨u t, w t⟩ l p p.profile.s :=
    fun t => profile_eq _ _ _
  simp only [e, eta, V2.smul_x, V2.smul_y]
  constructor
  · refine (hg.fun_mul h.dx).congr_deriv ?_
    rw [hvt, h.ux]
  · refine (hg.fun_mul h.dy).congr_deriv ?_
    rw [hvt, h.uy]

theorem jacobian_eq (v : V2 ℝ) (l : ℝ) (p : Params) :
    jacobian v l p = etaJac v l p p.profile.s p.profile.ds := by
  unfold jacobian
  cases p.profile <;> rfl

theorem mul_hasDerivAt_of_zero {u G : ℝ → ℝ} {t u' : ℝ} (hu : HasDerivAt u u' t) (h0 : u t = 0)
    (hG : ContinuousAt G t) : HasDerivAt (fun t => G t * u t) (G t * u') t := by
  rw [hasDerivAt_iff_tendsto_slope] at *
  have : slope (fun t => G t * u t) t = fun y => G y * slope u t y := by
    funext y
    simp only [slope_def_field, h0, mul_zero, sub_zero]
    ring
  rw [this]
  exact (hG.tendsto.mono_left nhdsWithin_le_nhds).mul hu

/-- **C15, the part that holds.** Along every differentiable velocity path the friction law
changes at the rate given by the analytic Jacobian, provided the Stribeck term does not
interfere: static and dynamic friction agree, or the Stribeck velocity is one, or the speed
is at or above it (at zero speed: or it is positive). Missing: speeds below a Stribeck
velocity different from one, and zero speed with zero Stribeck velocity; see the two
counterexamples below. -/
theorem jacobian_is_derivative_partial (p : Params) (hp : p.Valid) (l : ℝ) (v d : V2 ℝ)
    (hw : p.staticFriction = p.dynamicFriction ∨
      (0 < v.norm ∧ (p.stribeckVelocity = 1 ∨ p.stribeckVelocity ≤ v.norm)) ∨
      (v.norm = 0 ∧ 0 < p.stribeckVelocity))
    (u w : ℝ → ℝ) (t : ℝ) (h : Path u w t v d) :
    HasDerivAt (fun t => (profile ⟨u t, w t⟩ l p).x) ((jacobian v l p).mulVec d).x t ∧
    HasDerivAt (fun t => (profile ⟨u t, w t⟩ l p).y) ((jacobian v l p).mulVec d).y t := by
  rcases (norm_nonneg v).lt_or_eq with hv | hv
  · -- moving
    have hdh : HasDerivAt (fun x => (p.staticFriction - p.dynamicFriction) *
        falloff x p.stribeckVelocity) ((p.staticFriction - p.dynamicFriction) *
          dfalloff v.norm p.stribeckVelocity) v.norm := by
      rcases hw with hw | ⟨_, hw⟩ | ⟨hw, _⟩
      · simp only [hw, sub_self, zero_mul]
        exact hasDerivAt_const _ _
      · apply HasDerivAt.const_mul
        rcases hw with hw | hw
        · rw [hw]
          refine (falloff_hasDerivAt one_pos).congr_deriv ?_
          simp only [dfalloff]
          norm_num
        · rcases hw.lt_or_eq with hw | hw
          · refine (falloff_hasDerivAt_zero hw).congr_deriv ?_
            simp only [dfalloff, gt_iff_lt, hw, if_true]
          · refine (falloff_hasDerivAt (hw ▸ hv)).congr_deriv ?_
            simp [dfalloff, hw]
      · exact absurd hw hv.ne'
    have := eta_path h hv l p hp.eps _ hdh
    rw [jacobian_eq]
    refine ⟨this.1.congr_deriv ?_, this.2.congr_deriv ?_⟩ <;>
    · simp only [etaJac, gt_iff_lt, hv, if_true, M2.mulVec]
      field_simp
      ring
  · -- at rest
    have hv0 : v.x = 0 ∧ v.y = 0 := by
      have := norm_mul_self v
      rw [← hv] at this
      simp only [V2.dot] at this
      constructor <;> nlinarith [mul_self_nonneg v.x, mul_self_nonneg v.y]
    have hvt : V2.norm ⟨u t, w t⟩ = 0 := by
      have : (⟨u t, w t⟩ : V2 ℝ) = v := by ext <;> simp [h.ux, h.uy]
      rw [this, hv]
    have hnc : ContinuousAt (fun t => V2.norm ⟨u t, w t⟩) t := by
      unfold V2.norm V2.dot
      exact ((h.dx.continuousAt.mul h.dx.continuousAt).add
        (h.dy.continuousAt.mul h.dy.continuousAt)).sqrt
    have hsc : ContinuousAt (fun t => p.profile.s (V2.norm ⟨u t, w t⟩) p.epsilon) t := by
      have h0 := (profile_hasDerivAt p.profile hp.eps le_rfl).continuousAt
      exact ContinuousAt.comp (g := fun x => p.profile.s x p.epsilon) (by rw [hvt]; exact h0) hnc
    have hfc : ContinuousAt (fun t => (p.staticFriction - p.dynamicFriction) *
        falloff (V2.norm ⟨u t, w t⟩) p.stribeckVelocity) t := by
      by_cases he : p.staticFriction = p.dynamicFriction
      · simp only [he, sub_self, zero_mul]
        exact continuousAt_const
      · have hw0 : 0 < p.stribeckVelocity := by
          rcases hw with hw | hw | hw
          · exact absurd hw he
          · exact absurd hv hw.1.ne
          · exact hw.2
        have h0 := (falloff_hasDerivAt (x := 0) hw0).continuousAt
        exact continuousAt_const.mul
          (ContinuousAt.comp (g := fun x => falloff x p.stribeckVelocity) (by rw [hvt]; exact h0) hnc)
    have hG : ContinuousAt (fun t => l * (p.dynamicFriction +
        (p.staticFriction - p.dynamicFriction) * falloff (V2.norm ⟨u t, w t⟩) p.stribeckVelocity) *
        p.profile.s (V2.norm ⟨u t, w t⟩) p.epsilon + p.viscousFriction) t :=
      ((continuousAt_const (y := l)).mul
      ((continuousAt_const (y := p.dynamicFriction)).add hfc)).mul hsc |>.add
      (continuousAt_const (y := p.viscousFriction))
    have e : ∀ t, profile ⟨u t, w t⟩ l p = eta ⟨u t, w t⟩ l p p.profile.s :=
      fun t => profile_eq _ _ _
    simp only [e, eta, V2.smul_x, V2.smul_y]
    rw [jacobian_eq]
    constructor
    · refine (mul_hasDerivAt_of_zero h.dx (by rw [h.ux, hv0.1]) hG).congr_deriv ?_
      simp only [etaJac, gt_iff_lt, ← hv, lt_irrefl, if_false, M2.mulVec, hvt]
      ring
    · refine (mul_hasDerivAt_of_zero h.dy (by rw [h.uy, hv0.2]) hG).congr_deriv ?_
      simp only [etaJac, gt_iff_lt, ← hv, lt_irrefl, if_false, M2.mulVec, hvt]
      ring

/-- Non-vacuity: sliding at speed 3 with Stribeck velocity 1/2. -/
example : ∃ (p : Params) (v d : V2 ℝ) (u w : ℝ → ℝ), p.Valid ∧
    p.staticFriction ≠ p.dynamicFriction ∧ 0 < v.norm ∧ p.stribeckVelocity ≤ v.norm ∧
    Path u w 0 v d ∧ d ≠ 0 := by
  have hn : (⟨3, 0⟩ : V2 ℝ).norm = 3 := by
    unfold V2.norm V2.dot
    rw [show (3 : ℝ) * 3 + 0 * 0 = 3 ^ 2 by norm_num]
    exact Real.sqrt_sq (by norm_num)
  refine ⟨⟨1/2, 1, 0, 1/2, 1, .quadratic⟩, ⟨3, 0⟩, ⟨1, 0⟩, fun t => 3 + t, fun _ => 0,
    ⟨?_, ?_, ?_, ?_, ?_⟩, ?_, ?_, ?_, ⟨?_, ?_, ?_, ?_⟩, ?_⟩ <;> norm_num [hn]
  · exact (hasDerivAt_id' 0).const_add 3
  · exact hasDerivAt_const 0 0
  · intro h
    have := congrArg V2.x h
    simp at this

/-- **C15 violated (Stribeck falloff).** Below a Stribeck velocity of 2 the Jacobian is wrong:
`dfalloff` divides by `w²` where the derivative of the falloff has `w³`. -/
theorem jacobian_falloff_violated : ∃ (p : Params) (v d : V2 ℝ) (u w : ℝ → ℝ),
    p.Valid ∧ 0 < v.norm ∧ Path u w 0 v d ∧
    ¬ HasDerivAt (fun t => (profile ⟨u t, w t⟩ 1 p).x) ((jacobian v 1 p).mulVec d).x 0 := by
  have hn : (⟨1, 0⟩ : V2 ℝ).norm = 1 := by
    unfold V2.norm V2.dot
    norm_num
  have hv : 0 < (⟨1, 0⟩ : V2 ℝ).norm := by rw [hn]; norm_num
  let p : Params := ⟨0, 1, 0, 2, 10, .stabilized⟩
  have hpath : Path (fun t => 1 + t) (fun _ => 0) 0 ⟨1, 0⟩ ⟨1, 0⟩ :=
    ⟨by norm_num, rfl, (hasDerivAt_id' 0).const_add 1, hasDerivAt_const 0 0⟩
  refine ⟨p, ⟨1, 0⟩, ⟨1, 0⟩, _, _, ⟨?_, ?_, ?_, ?_, ?_⟩, hv, hpath, ?_⟩
  · norm_num [p]
  · norm_num [p]
  · norm_num [p]
  · norm_num [p]
  · norm_num [p]
  · intro hbad
    have hgood := (eta_path hpath hv 1 p (by norm_num [p]) (-3 / 4) (by
      apply HasDerivAt.const_mul
      rw [hn]
      refine (falloff_hasDerivAt (w := 2) (by norm_num)).congr_deriv ?_
      norm_num)).1
    have := hbad.unique hgood
    revert this
    rw [jacobian_eq]
    simp only [etaJac, M2.mulVec, hn, Profile.s, Profile.ds, p, stabilizedProfile,
      stabilizedProfileDeriv, falloff, dfalloff]
    norm_num

/-- **C15 violated (at rest).** With zero Stribeck velocity and different coefficients the
Jacobian at rest is not the derivative: the law is zero along a whole line through the
origin, the Jacobian is not. -/
theorem jacobian_rest_violated : ∃ (p : Params) (d : V2 ℝ) (u w : ℝ → ℝ),
    p.Valid ∧ Path u w 0 0 d ∧
    ¬ HasDerivAt (fun t => (profile ⟨u t, w t⟩ 1 p).x) ((jacobian 0 1 p).mulVec d).x 0 := by
  let p : Params := ⟨0, 1, 0, 0, 10, .stabilized⟩
  refine ⟨p, ⟨1, 0⟩, fun t => t, fun _ => 0, ⟨?_, ?_, ?_, ?_, ?_⟩,
    ⟨rfl, rfl, hasDerivAt_id' 0, hasDerivAt_const 0 0⟩, ?_⟩
  · norm_num [p]
  · norm_num [p]
  · norm_num [p]
  · norm_num [p]
  · norm_num [p]
  · intro hbad
    have hzero : (fun t : ℝ => (profile ⟨t, 0⟩ 1 p).x) = fun _ => 0 := by
      funext t
      by_cases ht : t = 0
      · simp [ht, profile, eta, p]
      · have hn : 0 < (⟨t, 0⟩ : V2 ℝ).norm := by
          unfold V2.norm V2.dot
          apply Real.sqrt_pos.2
          have := mul_self_pos.2 ht
          simpa using this
        simp [profile, eta, p, falloff, hn]
    rw [hzero] at hbad
    have := hbad.unique (hasDerivAt_const 0 0)
    revert this
    have hn : (0 : V2 ℝ).norm = 0 := by simp [V2.norm, V2.dot]
    rw [jacobian_eq]
    simp only [etaJac, M2.mulVec, hn, Profile.s, Profile.ds, p, stabilizedProfile,
      stabilizedProfileDeriv, falloff, dfalloff]
    norm_num

/-! ## C55: the lagged friction potential -/

theorem potential_eq (v : V2 ℝ) (l : ℝ) (p : Params) :
    potential v l p = l * p.profile.is v.norm p.epsilon := by
  unfold potential
  cases p.profile <;> rfl

theorem norm_le (v : V2 ℝ) : v.norm ≤ |v.x| + |v.y| := by
  unfold V2.norm V2.dot
  rw [Real.sqrt_le_left (by positivity)]
  nlinarith [abs_mul_abs_self v.x, abs_mul_abs_self v.y, abs_nonneg v.x, abs_nonneg v.y,
    mul_nonneg (abs_nonneg v.x) (abs_nonneg v.y)]

/-- Rate of the friction potential along a velocity path. -/
theorem potential_path {u w : ℝ → ℝ} {t : ℝ} {v d : V2 ℝ} (h : Path u w t v d)
    (l : ℝ) (p : Params) (hε : 0 < p.epsilon) :
    HasDerivAt (fun t => potential ⟨u t, w t⟩ l p)
      (l * p.profile.s v.norm p.epsilon * V2.dot v d) t := by
  have hvt : V2.norm ⟨u t, w t⟩ = v.norm := by
    have : (⟨u t, w t⟩ : V2 ℝ) = v := by ext <;> simp [h.ux, h.uy]
    rw [this]
  simp only [potential_eq]
  have h0 := potential_hasDerivAt p.profile hε (norm_nonneg v)
  rcases (norm_nonneg v).lt_or_eq with hv | hv
  · -- moving
    have hn := h.norm_deriv hv
    refine ((HasDerivAt.comp (h₂ := fun x => p.profile.is x p.epsilon) t (hvt ▸ h0) hn).const_mul
      l).congr_deriv ?_
    rw [hvt]
    simp only [V2.dot]
    field_simp
  · -- at rest
    have hv0 : v.x = 0 ∧ v.y = 0 := by
      have := norm_mul_self v
      rw [← hv] at this
      simp only [V2.dot] at this
      constructor <;> nlinarith [mul_self_nonneg v.x, mul_self_nonneg v.y]
    have e : l * p.profile.s v.norm p.epsilon * V2.dot v d = l * 0 := by
      simp only [V2.dot, hv0.1, hv0.2]
      ring
    rw [e]
    refine HasDerivAt.const_mul l ?_
    rw [← hv, mul_zero] at h0
    rw [hasDerivAt_iff_isLittleO] at h0 ⊢
    simp only [smul_zero, sub_zero, hvt] at h0 ⊢
    rw [← hv]
    have hu := h.dx.isBigO_sub
    have hw := h.dy.isBigO_sub
    rw [h.ux, hv0.1] at hu
    rw [h.uy, hv0.2] at hw
    simp only [sub_zero] at hu hw
    have hO : (fun s => V2.norm ⟨u s, w s⟩) =O[𝓝 t] fun s => s - t := by
      refine Asymptotics.IsBigO.trans (Asymptotics.IsBigO.of_bound 1 (Eventually.of_forall fun s => ?_))
        (hu.norm_left.add hw.norm_left)
      rw [one_mul, Real.norm_of_nonneg (norm_nonneg _), Real.norm_of_nonneg (by positivity)]
      exact norm_le _
    have hc : Tendsto (fun s => V2.norm ⟨u s, w s⟩) (𝓝 t) (𝓝 0) := by
      have hcx := h.dx.continuousAt
      have hcy := h.dy.continuousAt
      have : ContinuousAt (fun s => V2.norm ⟨u s, w s⟩) t := by
        unfold V2.norm V2.dot
        exact ((hcx.mul hcx).add (hcy.mul hcy)).sqrt
      have := this.tendsto
      rwa [hvt, ← hv] at this
    exact (h0.comp_tendsto hc).trans_isBigO hO

/-- **C55, the part that holds.** If both coefficients are one and there is no viscosity, the
lagged friction potential's gradient is the friction law. -/
theorem potential_gradient_partial (p : Params) (hp : p.Valid) (h1 : p.staticFriction = 1)
    (h2 : p.dynamicFriction = 1) (h3 : p.viscousFriction = 0) (l : ℝ) {u w : ℝ → ℝ} {t : ℝ}
    {v d : V2 ℝ} (h : Path u w t v d) :
    HasDerivAt (fun t => potential ⟨u t, w t⟩ l p) (V2.dot (profile v l p) d) t := by
  refine (potential_path h l p hp.eps).congr_deriv ?_
  rw [profile_eq]
  simp only [eta, V2.dot, h1, h2, h3, V2.smul_x, V2.smul_y]
  ring

/-- **C55 violated.** For every friction coefficient other than one the potential's gradient
is not the friction force: the coefficient is missing from the potential. -/
theorem potential_gradient_violated (p : Params) (hp : p.Valid) (μ : ℝ) (hμ : μ ≠ 1)
    (h1 : p.staticFriction = μ) (h2 : p.dynamicFriction = μ) (h3 : p.viscousFriction = 0)
    (l : ℝ) (hl : 0 < l) (v : V2 ℝ) (hv : 0 < v.norm) :
    ¬ HasDerivAt (fun t => potential ⟨v.x + t * v.x, v.y + t * v.y⟩ l p)
      (V2.dot (profile v l p) v) 0 := by
  intro hbad
  have hpath : Path (fun t => v.x + t * v.x) (fun t => v.y + t * v.y) 0 v v :=
    ⟨by simp, by simp, (((hasDerivAt_id' 0).mul_const v.x).const_add v.x).congr_deriv (one_mul _),
      (((hasDerivAt_id' 0).mul_const v.y).const_add v.y).congr_deriv (one_mul _)⟩
  have := hbad.unique (potential_path hpath l p hp.eps)
  rw [profile_eq] at this
  have hs := profile_pos p.profile hp.eps (norm_nonneg v)
  have hvv : 0 < V2.dot v v := by rw [← norm_mul_self]; positivity
  have e : V2.dot (eta v l p p.profile.s) v =
      μ * (l * p.profile.s v.norm p.epsilon * V2.dot v v) := by
    simp only [eta, V2.dot, h1, h2, h3, V2.smul_x, V2.smul_y]
    ring
  rw [e] at this
  have hpos : 0 < l * p.profile.s v.norm p.epsilon * V2.dot v v := by positivity
  apply hμ
  exact mul_right_cancel₀ hpos.ne' (by rw [this, one_mul])

end Softy.Friction
