import Verif.Props.FieldWeights
import Verif.Props.Pressure
import Verif.Lemmas.MatCalc

/-!
# Rotations of vectors and of the rows of matrices
-/

noncomputable section

namespace Softy

/-- A rotation: it preserves lengths and orientation. -/
structure Rotation (R : M3 ℝ) : Prop where
  orth : R.transpose * R = M3.diag 1
  det : R.det = 1

namespace Frame

variable {R : M3 ℝ}

theorem rot_zero (R : M3 ℝ) : R.mulVec 0 = 0 := by
  ext <;> simp [M3.mulVec, V3.dot]

theorem rot_neg (R : M3 ℝ) (a : V3 ℝ) : R.mulVec (-a) = -R.mulVec a := by
  ext <;> simp [M3.mulVec, V3.dot] <;> ring

theorem rot_add (R : M3 ℝ) (a b : V3 ℝ) : R.mulVec (a + b) = R.mulVec a + R.mulVec b := M3.mulVec_vadd R a b

theorem rot_sub (R : M3 ℝ) (a b : V3 ℝ) : R.mulVec (a - b) = R.mulVec a - R.mulVec b := M3.mulVec_vsub R a b

theorem rot_smul (R : M3 ℝ) (c : ℝ) (a : V3 ℝ) : R.mulVec (c • a) = c • R.mulVec a := by
  ext <;> simp [M3.mulVec, V3.dot] <;> ring

theorem rot_list_sum (R : M3 ℝ) (l : List (V3 ℝ)) : R.mulVec l.sum = (l.map R.mulVec).sum := by
  induction l with
  | nil => exact rot_zero R
  | cons a l ih => rw [List.sum_cons, rot_add, ih]; rfl

theorem rot_dot (hR : Rotation R) (a b : V3 ℝ) : V3.dot (R.mulVec a) (R.mulVec b) = V3.dot a b :=
  Field.mulVec_dot hR.orth a b

theorem rot_norm (hR : Rotation R) (a : V3 ℝ) : (R.mulVec a).norm = a.norm := by
  simp only [V3.norm, rot_dot hR]

theorem mul_diag_one (a : M3 ℝ) : a * M3.diag 1 = a := by
  ext <;> simp [M3.mul, M3.mulVec, M3.transpose, M3.diag, V3.dot]

theorem diag_one_mul (a : M3 ℝ) : M3.diag 1 * a = a := by
  ext <;> simp [M3.mul, M3.mulVec, M3.transpose, M3.diag, V3.dot]

theorem cof_mul_transpose (a : M3 ℝ) : a.cof * a.transpose = M3.diag a.det := by
  ext <;> simp [M3.mul, M3.mulVec, M3.transpose, M3.diag, V3.dot, M3.cof, V3.cross, M3.det] <;> ring

theorem rot_cof (hR : Rotation R) : R.cof = R := by
  have h : R.cof * (R.transpose * R) = R.cof := by rw [hR.orth, mul_diag_one]
  rw [← M3.mul_assoc', cof_mul_transpose, hR.det, diag_one_mul] at h
  exact h.symm

theorem cross_mulVec (a : M3 ℝ) (u v : V3 ℝ) :
    V3.cross (a.mulVec u) (a.mulVec v) = a.cof.mulVec (V3.cross u v) := by
  ext <;> simp [M3.mulVec, V3.dot, M3.cof, V3.cross] <;> ring

theorem rot_cross (hR : Rotation R) (a b : V3 ℝ) :
    V3.cross (R.mulVec a) (R.mulVec b) = R.mulVec (V3.cross a b) := by
  rw [cross_mulVec, rot_cof hR]

theorem mul_add_right' (a b c : M3 ℝ) : (a + b) * c = a * c + b * c := by
  ext <;> simp [M3.mul, M3.mulVec, M3.transpose, V3.dot] <;> ring

theorem smul_mul' (k : ℝ) (a b : M3 ℝ) : (k • a) * b = k • (a * b) := by
  ext <;> simp [M3.mul, M3.mulVec, M3.transpose, V3.dot] <;> ring

theorem zero_mul' (a : M3 ℝ) : (0 : M3 ℝ) * a = 0 := by
  ext <;> simp [M3.mul, M3.mulVec, M3.transpose, V3.dot]

theorem transpose_mul' (a b : M3 ℝ) : (a * b).transpose = b.transpose * a.transpose := by
  ext <;> simp [M3.mul, M3.mulVec, M3.transpose, V3.dot] <;> ring

theorem rot_orth' (hR : Rotation R) : R * R.transpose = M3.diag 1 := by
  have := cof_mul_transpose R
  rwa [rot_cof hR, hR.det] at this

/-- The inverse of a rotation is a rotation. -/
theorem rot_transpose (hR : Rotation R) : Rotation R.transpose :=
  ⟨rot_orth' hR, by rw [M3.det_transpose, hR.det]⟩

theorem rot_back (hR : Rotation R) (a : V3 ℝ) : R.transpose.mulVec (R.mulVec a) = a := by
  have h := M3.mulVec_mul R.transpose R a
  have h' : M3.mul R.transpose R = M3.diag 1 := hR.orth
  rw [h', M3.mulVec_diag] at h
  rw [← h]
  ext <;> simp

theorem rot_forth (hR : Rotation R) (a : V3 ℝ) : R.mulVec (R.transpose.mulVec a) = a :=
  rot_back (rot_transpose hR) a

/-! ## The rows of a matrix, turned -/

theorem rows_det (hR : Rotation R) (F : M3 ℝ) : (F * R.transpose).det = F.det := by
  rw [M3.det_mul, M3.det_transpose, hR.det, mul_one]

theorem rows_normSq (hR : Rotation R) (F : M3 ℝ) : (F * R.transpose).normSq = F.normSq := by
  show V3.dot (R.mulVec F.r0) (R.mulVec F.r0) + V3.dot (R.mulVec F.r1) (R.mulVec F.r1) +
    V3.dot (R.mulVec F.r2) (R.mulVec F.r2) = _
  simp only [rot_dot hR]
  rfl

theorem rows_cof (hR : Rotation R) (F : M3 ℝ) : (F * R.transpose).cof = F.cof * R.transpose := by
  rw [M3.cof_mul, rot_cof (rot_transpose hR)]

theorem rows_inverseTranspose (hR : Rotation R) (F : M3 ℝ) :
    (F * R.transpose).inverseTranspose = F.inverseTranspose.map (· * R.transpose) := by
  unfold M3.inverseTranspose
  rw [rows_det hR, rows_cof hR]
  split
  · rfl
  · rw [Option.map_some, smul_mul']

/-- The products that occur in the stress differential. -/
theorem rows_gram (hR : Rotation R) (A B C : M3 ℝ) :
    (A * R.transpose) * ((B * R.transpose).transpose * (C * R.transpose)) =
      (A * (B.transpose * C)) * R.transpose := by
  have e : (B * R.transpose).transpose = R * B.transpose := by
    rw [transpose_mul']; rfl
  rw [e, M3.mul_assoc' A, M3.mul_assoc' R, ← M3.mul_assoc' R.transpose R, hR.orth, diag_one_mul,
    M3.mul_assoc' A, M3.mul_assoc' B.transpose]

theorem rows_trace (hR : Rotation R) (B C : M3 ℝ) :
    ((B * R.transpose).transpose * (C * R.transpose)).trace = (B.transpose * C).trace := by
  have e : ∀ B C : M3 ℝ, (B.transpose * C).trace =
      V3.dot B.r0 C.r0 + V3.dot B.r1 C.r1 + V3.dot B.r2 C.r2 := by
    intro B C
    simp [M3.mul, M3.mulVec, M3.transpose, V3.dot, M3.trace]; ring
  rw [e, e]
  show V3.dot (R.mulVec B.r0) (R.mulVec C.r0) + V3.dot (R.mulVec B.r1) (R.mulVec C.r1) +
    V3.dot (R.mulVec B.r2) (R.mulVec C.r2) = _
  simp only [rot_dot hR]

end Frame

end Softy
