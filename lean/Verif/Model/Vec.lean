import Mathlib.Analysis.Real.Sqrt
import Mathlib.Tactic.Ring

/-!
# Small vectors

`tensr`'s `Vector2`/`Vector3` as structures with named components. Only the operations the
modelled code uses are defined. The type of scalars is a parameter, so that models without
square roots can be evaluated on rationals.
-/

namespace Softy

/-- `tensr::Vector2`. -/
@[ext] structure V2 (K : Type*) where
  x : K
  y : K
deriving DecidableEq

/-- `tensr::Vector3`. -/
@[ext] structure V3 (K : Type*) where
  x : K
  y : K
  z : K
deriving DecidableEq

namespace V2
variable {K : Type*} [CommRing K]

instance : Zero (V2 K) := ⟨⟨0, 0⟩⟩
instance : Add (V2 K) := ⟨fun a b => ⟨a.x + b.x, a.y + b.y⟩⟩
instance : Sub (V2 K) := ⟨fun a b => ⟨a.x - b.x, a.y - b.y⟩⟩
instance : Neg (V2 K) := ⟨fun a => ⟨-a.x, -a.y⟩⟩
instance : SMul K (V2 K) := ⟨fun c a => ⟨c * a.x, c * a.y⟩⟩

@[simp] theorem zero_x : (0 : V2 K).x = 0 := rfl
@[simp] theorem zero_y : (0 : V2 K).y = 0 := rfl
@[simp] theorem add_x (a b : V2 K) : (a + b).x = a.x + b.x := rfl
@[simp] theorem add_y (a b : V2 K) : (a + b).y = a.y + b.y := rfl
@[simp] theorem sub_x (a b : V2 K) : (a - b).x = a.x - b.x := rfl
@[simp] theorem sub_y (a b : V2 K) : (a - b).y = a.y - b.y := rfl
@[simp] theorem neg_x (a : V2 K) : (-a).x = -a.x := rfl
@[simp] theorem neg_y (a : V2 K) : (-a).y = -a.y := rfl
@[simp] theorem smul_x (c : K) (a : V2 K) : (c • a).x = c * a.x := rfl
@[simp] theorem smul_y (c : K) (a : V2 K) : (c • a).y = c * a.y := rfl

/-- Dot product. -/
def dot (a b : V2 K) : K := a.x * b.x + a.y * b.y

/-- Euclidean norm (`norm`). -/
noncomputable def norm (a : V2 ℝ) : ℝ := √(dot a a)

end V2

namespace V3
variable {K : Type*} [CommRing K]

instance : Zero (V3 K) := ⟨⟨0, 0, 0⟩⟩
instance : Add (V3 K) := ⟨fun a b => ⟨a.x + b.x, a.y + b.y, a.z + b.z⟩⟩
instance : Sub (V3 K) := ⟨fun a b => ⟨a.x - b.x, a.y - b.y, a.z - b.z⟩⟩
instance : Neg (V3 K) := ⟨fun a => ⟨-a.x, -a.y, -a.z⟩⟩
instance : SMul K (V3 K) := ⟨fun c a => ⟨c * a.x, c * a.y, c * a.z⟩⟩

@[simp] theorem zero_x : (0 : V3 K).x = 0 := rfl
@[simp] theorem zero_y : (0 : V3 K).y = 0 := rfl
@[simp] theorem zero_z : (0 : V3 K).z = 0 := rfl
@[simp] theorem add_x (a b : V3 K) : (a + b).x = a.x + b.x := rfl
@[simp] theorem add_y (a b : V3 K) : (a + b).y = a.y + b.y := rfl
@[simp] theorem add_z (a b : V3 K) : (a + b).z = a.z + b.z := rfl
@[simp] theorem sub_x (a b : V3 K) : (a - b).x = a.x - b.x := rfl
@[simp] theorem sub_y (a b : V3 K) : (a - b).y = a.y - b.y := rfl
@[simp] theorem sub_z (a b : V3 K) : (a - b).z = a.z - b.z := rfl
@[simp] theorem neg_x (a : V3 K) : (-a).x = -a.x := rfl
@[simp] theorem neg_y (a : V3 K) : (-a).y = -a.y := rfl
@[simp] theorem neg_z (a : V3 K) : (-a).z = -a.z := rfl
@[simp] theorem smul_x (c : K) (a : V3 K) : (c • a).x = c * a.x := rfl
@[simp] theorem smul_y (c : K) (a : V3 K) : (c • a).y = c * a.y := rfl
@[simp] theorem smul_z (c : K) (a : V3 K) : (c • a).z = c * a.z := rfl

/-- The additive group laws, so that finite sums of vectors can be formed. -/
instance : AddCommGroup (V3 K) where
  add_assoc a b c := by ext <;> simp [add_assoc]
  zero_add a := by ext <;> simp
  add_zero a := by ext <;> simp
  add_comm a b := by ext <;> simp [add_comm]
  neg_add_cancel a := by ext <;> simp
  sub_eq_add_neg a b := by ext <;> simp [sub_eq_add_neg]
  nsmul := nsmulRec
  zsmul := zsmulRec

/-- Dot product. -/
def dot (a b : V3 K) : K := a.x * b.x + a.y * b.y + a.z * b.z

/-- Cross product. -/
def cross (a b : V3 K) : V3 K :=
  ⟨a.y * b.z - a.z * b.y, a.z * b.x - a.x * b.z, a.x * b.y - a.y * b.x⟩

/-- Scalar triple product `a · (b × c)`. -/
def triple (a b c : V3 K) : K := dot a (cross b c)

/-- Euclidean norm (`norm`). -/
noncomputable def norm (a : V3 ℝ) : ℝ := √(dot a a)

end V3

end Softy
