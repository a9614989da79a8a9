import Verif.Model.Kernel

/-!
# Kernels at infinity

The radius of the global kernel is `f64::INFINITY` (`implicits/src/kernel.rs:639-645`), and
`implicits/src/field/background_field.rs` evaluates the kernel and its derivative at the radius
minus a distance. The reals of the other models have no infinity, so this module has scalars with
the infinities and NaN of IEEE 754, exact otherwise. Signs of zeros are not modelled: a finite
number divided by zero is NaN here, which is never used.
-/

noncomputable section

namespace Softy.Kernel

/-- Floating-point numbers: numbers, infinities (`true` is positive) and NaN. -/
inductive Ext where
  | num (a : ℝ)
  | inf (positive : Bool)
  | nan

namespace Ext

/-- IEEE 754 negation. -/
protected def neg : Ext → Ext
  | num a => num (-a)
  | inf b => inf (!b)
  | nan => nan

/-- IEEE 754 addition: infinities of different signs give NaN. -/
protected def add : Ext → Ext → Ext
  | num a, num b => num (a + b)
  | num _, inf b => inf b
  | inf a, num _ => inf a
  | inf a, inf b => if a = b then inf a else nan
  | _, _ => nan

open Classical in
/-- An infinity times a number: zero gives NaN. -/
protected def infMul (b : Bool) (a : ℝ) : Ext :=
  if a = 0 then nan else inf (b == decide (0 < a))

/-- IEEE 754 multiplication. -/
protected def mul : Ext → Ext → Ext
  | num a, num b => num (a * b)
  | num a, inf b => Ext.infMul b a
  | inf b, num a => Ext.infMul b a
  | inf a, inf b => inf (a == b)
  | _, _ => nan

open Classical in
/-- IEEE 754 division: a number by an infinity is zero, two infinities give NaN. -/
protected def div : Ext → Ext → Ext
  | num a, num b => if b = 0 then nan else num (a / b)
  | num _, inf _ => num 0
  | inf b, num a => Ext.infMul b a
  | _, _ => nan

instance : Neg Ext := ⟨Ext.neg⟩

/-- The scalars of the generic kernels. The value is used for comparisons with the radius of local
kernels only, to which infinities are not passed. -/
instance : Scal Ext where
  add := Ext.add
  sub a b := Ext.add a (Ext.neg b)
  mul := Ext.mul
  div := Ext.div
  ofReal := num
  val := fun
    | num a => a
    | _ => 0

end Ext

/-- `background_field.rs:278-291`, `background_weight`, of a mixed-in background with the global
kernel; the comparison of the radius with the distance is false. -/
def extBgWeight (eps dist : ℝ) : Ext := globalF eps (Ext.inf true - Ext.num dist)

/-- `background_field.rs:297-322`, `background_weight_gradient`, with respect to the query point
(lines 315-321), of a mixed-in background with the global kernel: one component of the vector. -/
def extBgWeightGrad (eps dist disp : ℝ) : Ext :=
  -Ext.num disp * (globalDf eps (Ext.inf true - Ext.num dist) / Ext.num dist)

end Softy.Kernel
