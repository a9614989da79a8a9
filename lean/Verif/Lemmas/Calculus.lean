import Mathlib.Analysis.Calculus.Deriv.Mul
import Mathlib.Analysis.Calculus.Deriv.Add
import Mathlib.Analysis.Calculus.Deriv.Inv
import Mathlib.Analysis.Calculus.Deriv.Pow
import Mathlib.Analysis.Calculus.Deriv.Comp
import Mathlib.Analysis.SpecialFunctions.Sqrt
import Mathlib.Analysis.SpecialFunctions.Log.Deriv
import Verif.Prelude

/-! Calculus helpers: gluing derivatives of piecewise functions. -/

namespace Softy

open Set Filter Topology

/-- A function that agrees with `g` up to `a` and with `h` from `a` on has the common
derivative of `g` and `h` at `a`. -/
theorem hasDerivAt_glue {f g h : ℝ → ℝ} {a f' : ℝ} (hg : HasDerivAt g f' a)
    (hh : HasDerivAt h f' a) (eg : ∀ x ≤ a, f x = g x) (eh : ∀ x, a ≤ x → f x = h x) :
    HasDerivAt f f' a := by
  have h1 : HasDerivWithinAt f f' (Iic a) a :=
    hg.hasDerivWithinAt.congr (fun x hx => eg x hx) (eg a le_rfl)
  have h2 : HasDerivWithinAt f f' (Ici a) a :=
    hh.hasDerivWithinAt.congr (fun x hx => eh x hx) (eh a le_rfl)
  have := h1.union h2
  rwa [Iic_union_Ici, hasDerivWithinAt_univ] at this

/-- Derivative of a function that agrees with `g` below `a`, at a point below `a`. -/
theorem hasDerivAt_of_lt {f g : ℝ → ℝ} {a x f' : ℝ} (hx : x < a) (hg : HasDerivAt g f' x)
    (eg : ∀ y < a, f y = g y) : HasDerivAt f f' x :=
  hg.congr_of_eventuallyEq (by
    filter_upwards [Iio_mem_nhds hx] with y hy using eg y hy)

/-- Derivative of a function that agrees with `g` above `a`, at a point above `a`. -/
theorem hasDerivAt_of_gt {f g : ℝ → ℝ} {a x f' : ℝ} (hx : a < x) (hg : HasDerivAt g f' x)
    (eg : ∀ y, a < y → f y = g y) : HasDerivAt f f' x :=
  hg.congr_of_eventuallyEq (by
    filter_upwards [Ioi_mem_nhds hx] with y hy using eg y hy)

end Softy
