import Verif.Model.Vec

/-!
# Small matrices

`tensr`'s `Matrix3`, stored by rows. Only the operations the modelled code uses are defined.
-/

namespace Softy

/-- `tensr::Matrix3`, by rows. -/
@[ext] structure M3 (K : Type*) where
  r0 : V3 K
  r1 : V3 K
  r2 : V3 K
deriving DecidableEq

namespace M3
variable {K : Type*} [CommRing K]

instance : Zero (M3 K) := ⟨⟨0, 0, 0⟩⟩
instance : Add (M3 K) := ⟨fun a b => ⟨a.r0 + b.r0, a.r1 + b.r1, a.r2 + b.r2⟩⟩
instance : Sub (M3 K) := ⟨fun a b => ⟨a.r0 - b.r0, a.r1 - b.r1, a.r2 - b.r2⟩⟩
instance : Neg (M3 K) := ⟨fun a => ⟨-a.r0, -a.r1, -a.r2⟩⟩
instance : SMul K (M3 K) := ⟨fun c a => ⟨c • a.r0, c • a.r1, c • a.r2⟩⟩

@[simp] theorem zero_r0 : (0 : M3 K).r0 = 0 := rfl
@[simp] theorem zero_r1 : (0 : M3 K).r1 = 0 := rfl
@[simp] theorem zero_r2 : (0 : M3 K).r2 = 0 := rfl
@[simp] theorem add_r0 (a b : M3 K) : (a + b).r0 = a.r0 + b.r0 := rfl
@[simp] theorem add_r1 (a b : M3 K) : (a + b).r1 = a.r1 + b.r1 := rfl
@[simp] theorem add_r2 (a b : M3 K) : (a + b).r2 = a.r2 + b.r2 := rfl
@[simp] theorem sub_r0 (a b : M3 K) : (a - b).r0 = a.r0 - b.r0 := rfl
@[simp] theorem sub_r1 (a b : M3 K) : (a - b).r1 = a.r1 - b.r1 := rfl
@[simp] theorem sub_r2 (a b : M3 K) : (a - b).r2 = a.r2 - b.r2 := rfl
@[simp] theorem neg_r0 (a : M3 K) : (-a).r0 = -a.r0 := rfl
@[simp] theorem neg_r1 (a : M3 K) : (-a).r1 = -a.r1 := rfl
@[simp] theorem neg_r2 (a : M3 K) : (-a).r2 = -a.r2 := rfl
@[simp] theorem smul_r0 (c : K) (a : M3 K) : (c • a).r0 = c • a.r0 := rfl
@[simp] theorem smul_r1 (c : K) (a : M3 K) : (c • a).r1 = c • a.r1 := rfl
@[simp] theorem smul_r2 (c : K) (a : M3 K) : (c • a).r2 = c • a.r2 := rfl

/-- Transpose. -/
def transpose (a : M3 K) : M3 K :=
  ⟨⟨a.r0.x, a.r1.x, a.r2.x⟩, ⟨a.r0.y, a.r1.y, a.r2.y⟩, ⟨a.r0.z, a.r1.z, a.r2.z⟩⟩

/-- Product with a column. -/
def mulVec (a : M3 K) (v : V3 K) : V3 K := ⟨V3.dot a.r0 v, V3.dot a.r1 v, V3.dot a.r2 v⟩

/-- Matrix product. -/
def mul (a b : M3 K) : M3 K :=
  ⟨mulVec b.transpose a.r0, mulVec b.transpose a.r1, mulVec b.transpose a.r2⟩

instance : Mul (M3 K) := ⟨mul⟩

/-- The product of a column `a` and a row `b`. -/
def outer (a b : V3 K) : M3 K := ⟨a.x • b, a.y • b, a.z • b⟩

/-- A diagonal matrix with equal entries. -/
def diag (c : K) : M3 K := ⟨⟨c, 0, 0⟩, ⟨0, c, 0⟩, ⟨0, 0, c⟩⟩

/-- `Vector3::skew`: the matrix of the cross product with `v` from the left. -/
def skew (v : V3 K) : M3 K := ⟨⟨0, -v.z, v.y⟩, ⟨v.z, 0, -v.x⟩, ⟨-v.y, v.x, 0⟩⟩

/-- Determinant. -/
def det (a : M3 K) : K := V3.dot a.r0 (V3.cross a.r1 a.r2)

/-- Trace. -/
def trace (a : M3 K) : K := a.r0.x + a.r1.y + a.r2.z

/-- The sum of the squared entries (`norm_squared`). -/
def normSq (a : M3 K) : K := V3.dot a.r0 a.r0 + V3.dot a.r1 a.r1 + V3.dot a.r2 a.r2

/-- The transpose of the cofactor matrix. -/
def adj (a : M3 K) : M3 K :=
  transpose ⟨V3.cross a.r1 a.r2, V3.cross a.r2 a.r0, V3.cross a.r0 a.r1⟩

@[simp] theorem mul_def (a b : M3 K) : a * b = mul a b := rfl

/-- Linear algebra rules used in the proofs. -/
theorem mulVec_add (a b : M3 K) (v : V3 K) : mulVec (a + b) v = mulVec a v + mulVec b v := by
  ext <;> simp [mulVec, V3.dot] <;> ring

theorem mulVec_sub (a b : M3 K) (v : V3 K) : mulVec (a - b) v = mulVec a v - mulVec b v := by
  ext <;> simp [mulVec, V3.dot] <;> ring

theorem mulVec_neg (a : M3 K) (v : V3 K) : mulVec (-a) v = -mulVec a v := by
  ext <;> simp [mulVec, V3.dot] <;> ring

theorem mulVec_smul (c : K) (a : M3 K) (v : V3 K) : mulVec (c • a) v = c • mulVec a v := by
  ext <;> simp [mulVec, V3.dot] <;> ring

theorem mulVec_mul (a b : M3 K) (v : V3 K) : mulVec (mul a b) v = mulVec a (mulVec b v) := by
  ext <;> simp [mulVec, mul, transpose, V3.dot] <;> ring

theorem mulVec_outer (a b v : V3 K) : mulVec (outer a b) v = V3.dot b v • a := by
  ext <;> simp [mulVec, outer, V3.dot] <;> ring

theorem mulVec_skew (a v : V3 K) : mulVec (skew a) v = V3.cross a v := by
  ext <;> simp [mulVec, skew, V3.dot, V3.cross] <;> ring

theorem mulVec_diag (c : K) (v : V3 K) : mulVec (diag c) v = c • v := by
  ext <;> simp [mulVec, diag, V3.dot]

theorem mulVec_vadd (a : M3 K) (v w : V3 K) : mulVec a (v + w) = mulVec a v + mulVec a w := by
  ext <;> simp [mulVec, V3.dot] <;> ring

theorem mulVec_vsub (a : M3 K) (v w : V3 K) : mulVec a (v - w) = mulVec a v - mulVec a w := by
  ext <;> simp [mulVec, V3.dot] <;> ring

theorem mulVec_vsmul (a : M3 K) (c : K) (v : V3 K) : mulVec a (c • v) = c • mulVec a v := by
  ext <;> simp [mulVec, V3.dot] <;> ring

theorem transpose_add (a b : M3 K) : transpose (a + b) = transpose a + transpose b := by
  ext <;> simp [transpose]

theorem transpose_smul (c : K) (a : M3 K) : transpose (c • a) = c • transpose a := by
  ext <;> simp [transpose]

theorem transpose_mul (a b : M3 K) : transpose (mul a b) = mul (transpose b) (transpose a) := by
  ext <;> simp [transpose, mul, mulVec, V3.dot] <;> ring

theorem transpose_outer (a b : V3 K) : transpose (outer a b) = outer b a := by
  ext <;> simp [transpose, outer] <;> ring

theorem transpose_skew (a : V3 K) : transpose (skew a) = -skew a := by
  ext <;> simp [transpose, skew]

theorem transpose_transpose (a : M3 K) : transpose (transpose a) = a := rfl

end M3

end Softy
