import Verif.Model.FrictionJacobian
import Verif.Props.ContactBasis
import Verif.Props.ContactDerivative
import Verif.Lemmas.MatCalc

/-!
# Derivatives of contact frames
-/

noncomputable section

namespace Softy.Contact

open Softy Softy.Kernel Softy.Field

/-! ## Rates -/

/-- The rate of a unit vector `e = v / |v|`, where `v` changes at rate `v'` and `l = 1 / |v|`. -/
def unitRate (e : V3 ℝ) (l : ℝ) (v' : V3 ℝ) : V3 ℝ := l • (v' - V3.dot e v' • e)

theorem unitRate_hasD {v : ℝ → V3 ℝ} {v' : V3 ℝ} {t : ℝ} (hv : HasD v v' t) (h0 : v t ≠ 0) :
    HasD (fun s => (v s).normalize) (unitRate (v t).normalize (1 / (v t).norm) v') t := by
  refine (unitNormal_hasD hv h0).congr ?_
  simp only [scaledTangentProjection, M3.mulVec_sub, M3.mulVec_outer, M3.mulVec_diag, unitRate,
    V3.normalize, Field.dot_smul_left]
  ext <;> simp <;> ring

/-- The tangent that belongs to coordinate axis `a`. -/
def tangentAlong (a : ℕ) (n : V3 ℝ) : V3 ℝ := (V3.axis a - n.getN a • n).normalize

/-- The rate of the tangent. -/
def tangentRate (a : ℕ) (n n' : V3 ℝ) : V3 ℝ :=
  unitRate (tangentAlong a n) (1 / (V3.axis a - n.getN a • n).norm) (-(n.getN a • n' + n'.getN a • n))

/-- The frame that belongs to coordinate axis `a`. -/
def frameAlong (a : ℕ) (n : V3 ℝ) : M3 ℝ := ContactBasis.frame n (tangentAlong a n)

/-- The rate of the frame. -/
def frameRate (a : ℕ) (n n' : V3 ℝ) : M3 ℝ :=
  ⟨n', tangentRate a n n', n'.cross (tangentAlong a n) + n.cross (tangentRate a n n')⟩

theorem getN_hasD {n : ℝ → V3 ℝ} {n' : V3 ℝ} {t : ℝ} (h : HasD n n' t) (a : ℕ) :
    HasDerivAt (fun s => (n s).getN a) (n'.getN a) t := by
  unfold V3.getN
  split_ifs
  · exact h.1
  · exact h.2.1
  · exact h.2.2

theorem frameAlong_hasD {n : ℝ → V3 ℝ} {n' : V3 ℝ} {t : ℝ} (h : HasD n n' t) (a : ℕ)
    (h0 : V3.axis a - (n t).getN a • n t ≠ 0) :
    HasDM (fun s => frameAlong a (n s)) (frameRate a (n t) n') t := by
  have ht : HasD (fun s => tangentAlong a (n s)) (tangentRate a (n t) n') t := by
    refine unitRate_hasD (((HasD.const (V3.axis a)).sub (HasD.smul (getN_hasD h a) h)).congr ?_) h0
    ext <;> simp <;> ring
  exact ⟨h, ht, h.cross ht⟩

/-- The rate of the contact normal, where the gradient `g` of the potential changes at rate `g'`. -/
def normalRate (n g g' : V3 ℝ) : V3 ℝ := (-(1 / g.norm)) • (g' - V3.dot n g' • n)

theorem normalRate_hasD {g : ℝ → V3 ℝ} {g' : V3 ℝ} {t : ℝ} (hg : HasD g g' t) (h0 : g t ≠ 0) :
    HasD (fun s => (1 / -(g s).norm) • g s) (normalRate ((1 / -(g t).norm) • g t) (g t) g') t := by
  have h := (unitRate_hasD hg h0).neg
  refine (h.congr_of_eventuallyEq (Filter.Eventually.of_forall fun s => ?_)).congr ?_
  · unfold V3.normalize
    rw [one_div_neg_eq_neg_one_div]
    ext <;> simp
  · unfold normalRate unitRate V3.normalize
    rw [one_div_neg_eq_neg_one_div]
    generalize 1 / (g t).norm = l
    ext <;> simp only [V3.dot, V3.smul_x, V3.smul_y, V3.smul_z, V3.sub_x, V3.sub_y, V3.sub_z, V3.neg_x,
      V3.neg_y, V3.neg_z] <;> ring

/-! ## The products of the code -/

theorem rowN_dot (m : M3 ℝ) (a : ℕ) (w : V3 ℝ) : V3.dot (rowN m a) w = (m.mulVec w).getN a := by
  unfold rowN V3.getN
  split_ifs <;> rfl

theorem normalJac_mulVec (n g w : V3 ℝ) (h : M3 ℝ) :
    ((-(1 / g.norm)) • ((M3.diag 1 - M3.outer n n) * h)).mulVec w = normalRate n g (h.mulVec w) := by
  rw [M3.mulVec_smul, M3.mul_def, M3.mulVec_mul, M3.mulVec_sub, M3.mulVec_diag, M3.mulVec_outer, v3_one]
  rfl

theorem tangentJac_mulVec (n w : V3 ℝ) (a : ℕ) (m : M3 ℝ) :
    ((1 / (V3.axis a - n.getN a • n).norm) • ((M3.diag 1 -
      M3.outer ((1 / (V3.axis a - n.getN a • n).norm) • (V3.axis a - n.getN a • n))
        ((1 / (V3.axis a - n.getN a • n).norm) • (V3.axis a - n.getN a • n))) *
          -(n.getN a • m + M3.outer n (rowN m a)))).mulVec w = tangentRate a n (m.mulVec w) := by
  rw [M3.mulVec_smul, M3.mul_def, M3.mulVec_mul, M3.mulVec_sub, M3.mulVec_diag, M3.mulVec_outer, v3_one,
    M3.mulVec_neg, M3.mulVec_add, M3.mulVec_smul, M3.mulVec_outer, rowN_dot]
  rfl

/-- The rate of the frame that belongs to a rate `g'` of the gradient of the potential. -/
def contactRate (n g g' : V3 ℝ) : M3 ℝ := frameRate ((n.iamax + 1) % 3) n (normalRate n g g')

theorem crossJac_mulVec (n t w : V3 ℝ) (A B : M3 ℝ) :
    (M3.mk (t.z • A.r1 - t.y • A.r2 + n.y • B.r2 - n.z • B.r1)
      (t.x • A.r2 - t.z • A.r0 + n.z • B.r0 - n.x • B.r2)
      (t.y • A.r0 - t.x • A.r1 + n.x • B.r1 - n.y • B.r0)).mulVec w =
        (A.mulVec w).cross t + n.cross (B.mulVec w) := by
  ext <;> simp [M3.mulVec, V3.dot, V3.cross] <;> ring

theorem rows_combine (A B D : M3 ℝ) (m w : V3 ℝ) :
    (m.x • A + m.y • B + m.z • D).mulVec w =
      (M3.mk (A.mulVec w) (B.mulVec w) (D.mulVec w)).transpose.mulVec m := by
  ext <;> simp [M3.mulVec, V3.dot, M3.transpose] <;> ring

theorem rows_project (A B D : M3 ℝ) (m w : V3 ℝ) :
    (M3.mk (A.transpose.mulVec m) (B.transpose.mulVec m) (D.transpose.mulVec m)).mulVec w =
      (M3.mk (A.mulVec w) (B.mulVec w) (D.mulVec w)).mulVec m := by
  ext <;> simp [M3.mulVec, V3.dot, M3.transpose] <;> ring

theorem basisProduct_false (n g m w : V3 ℝ) (h : M3 ℝ) :
    (basisJacobianProduct n g h m false).mulVec w =
      (contactRate n g (h.mulVec w)).transpose.mulVec m := by
  unfold basisJacobianProduct
  simp only [Bool.false_eq_true, if_false]
  rw [rows_combine, crossJac_mulVec, tangentJac_mulVec, normalJac_mulVec]
  rfl

theorem basisProduct_true (n g m w : V3 ℝ) (h : M3 ℝ) :
    (basisJacobianProduct n g h m true).mulVec w = (contactRate n g (h.mulVec w)).mulVec m := by
  unfold basisJacobianProduct
  simp only [if_true]
  rw [rows_project, crossJac_mulVec, tangentJac_mulVec, normalJac_mulVec]
  rfl

theorem normalRate_add (n g a b : V3 ℝ) : normalRate n g (a + b) = normalRate n g a + normalRate n g b := by
  unfold normalRate
  ext <;> simp [V3.dot] <;> ring

theorem normalRate_smul (n g a : V3 ℝ) (c : ℝ) : normalRate n g (c • a) = c • normalRate n g a := by
  unfold normalRate
  ext <;> simp [V3.dot] <;> ring

theorem getN_add (a : ℕ) (v w : V3 ℝ) : (v + w).getN a = v.getN a + w.getN a := by
  unfold V3.getN
  split_ifs <;> rfl

theorem getN_smul (a : ℕ) (c : ℝ) (w : V3 ℝ) : (c • w).getN a = c * w.getN a := by
  unfold V3.getN
  split_ifs <;> rfl

theorem tangentRate_add (i : ℕ) (n a b : V3 ℝ) :
    tangentRate i n (a + b) = tangentRate i n a + tangentRate i n b := by
  unfold tangentRate unitRate
  rw [getN_add]
  ext <;> simp [V3.dot] <;> ring

theorem tangentRate_smul (i : ℕ) (n a : V3 ℝ) (c : ℝ) :
    tangentRate i n (c • a) = c • tangentRate i n a := by
  unfold tangentRate unitRate
  rw [getN_smul]
  ext <;> simp [V3.dot] <;> ring

theorem contactRate_add (n g a b : V3 ℝ) :
    contactRate n g (a + b) = contactRate n g a + contactRate n g b := by
  unfold contactRate frameRate
  rw [normalRate_add, tangentRate_add]
  ext <;> simp [V3.cross] <;> ring

theorem contactRate_smul (n g a : V3 ℝ) (c : ℝ) : contactRate n g (c • a) = c • contactRate n g a := by
  unfold contactRate frameRate
  rw [normalRate_smul, tangentRate_smul]
  ext <;> simp [V3.cross] <;> ring

theorem contactRate_zero (n g : V3 ℝ) : contactRate n g 0 = 0 := by
  have h := contactRate_smul n g 0 0
  have e : (0 : ℝ) • (0 : V3 ℝ) = 0 := by ext <;> simp
  rw [e] at h
  rw [h]
  ext <;> simp

theorem contactRate_listSum {β : Type*} (n g : V3 ℝ) (L : List β) (f : β → V3 ℝ) :
    contactRate n g (L.map f).sum = (L.map fun b => contactRate n g (f b)).sum := by
  induction L with
  | nil => exact contactRate_zero n g
  | cons b L ih => rw [List.map_cons, List.sum_cons, contactRate_add, ih, List.map_cons, List.sum_cons]

/-! ## Friction does not depend on the tangent -/

/-- What friction makes of the components of two velocities in a frame. -/
def tangential (m : M3 ℝ) (v : V3 ℝ) : V2 ℝ := ⟨(m.mulVec v).y, (m.mulVec v).z⟩

theorem frame_dot {n t : V3 ℝ} (h : ContactBasis.IsFrame n t (n.cross t)) (v w : V3 ℝ) :
    V2.dot (tangential (ContactBasis.frame n t) v) (tangential (ContactBasis.frame n t) w) =
      V3.dot v w - V3.dot n v * V3.dot n w := by
  have e : V3.dot ((ContactBasis.frame n t).transpose.mulVec ((ContactBasis.frame n t).mulVec v)) w =
      V3.dot v w := by rw [h.resolve]
  have e2 : V3.dot ((ContactBasis.frame n t).transpose.mulVec ((ContactBasis.frame n t).mulVec v)) w =
      V3.dot n v * V3.dot n w +
        V2.dot (tangential (ContactBasis.frame n t) v) (tangential (ContactBasis.frame n t) w) := by
    simp only [ContactBasis.frame, tangential, M3.mulVec, M3.transpose, V3.dot, V2.dot]
    ring
  linarith

theorem profile_dot (v u : V2 ℝ) (l : ℝ) (p : Friction.Params) :
    V2.dot (Friction.profile v l p) u = (l * (p.dynamicFriction + (p.staticFriction - p.dynamicFriction) *
      Friction.falloff v.norm p.stribeckVelocity) * p.profile.s v.norm p.epsilon + p.viscousFriction) *
        V2.dot v u := by
  rw [Friction.profile_eq]
  simp only [Friction.eta, V2.dot, V2.smul_x, V2.smul_y]
  ring

theorem v2_norm (v : V2 ℝ) : v.norm = Real.sqrt (V2.dot v v) := rfl

/-- The power of friction is the same for all frames with the same normal. -/
theorem profile_frames {n t t' : V3 ℝ} (h : ContactBasis.IsFrame n t (n.cross t))
    (h' : ContactBasis.IsFrame n t' (n.cross t')) (v u : V3 ℝ) (l : ℝ) (p : Friction.Params) :
    V2.dot (Friction.profile (tangential (ContactBasis.frame n t) v) l p)
        (tangential (ContactBasis.frame n t) u) =
      V2.dot (Friction.profile (tangential (ContactBasis.frame n t') v) l p)
        (tangential (ContactBasis.frame n t') u) := by
  simp only [profile_dot, v2_norm, frame_dot h, frame_dot h']

theorem frameAlong_isFrame {n : V3 ℝ} (hn : n.dot n = 1) {a : ℕ} (ha : a < 3) (h : n.getN a ^ 2 < 1) :
    ContactBasis.IsFrame n (tangentAlong a n) (n.cross (tangentAlong a n)) := by
  obtain ⟨h1, h2⟩ := ContactBasis.tangent_raw hn ha
  refine ContactBasis.isFrame_of hn (ContactBasis.normalize_dot (by rw [h1]; linarith)) ?_
  unfold tangentAlong V3.normalize
  generalize V3.axis a - n.getN a • n = w at *
  simp only [V3.dot, V3.smul_x, V3.smul_y, V3.smul_z] at *
  linear_combination (1 / w.norm) * h2

theorem unit_normal_dot {g : V3 ℝ} (h : g ≠ 0) :
    V3.dot ((1 / -g.norm) • g) ((1 / -g.norm) • g) = 1 := by
  have hp : 0 < g.norm := by
    have := norm_pos_of_ne h
    rwa [sub_zero] at this
  have hs := V3.norm_mul_norm g
  simp only [V3.dot, V3.smul_x, V3.smul_y, V3.smul_z] at *
  field_simp
  linarith

end Softy.Contact
