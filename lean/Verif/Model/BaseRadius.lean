import Verif.Model.Neighborhood
import Verif.Model.Contact

/-!
# The radius of implicit surfaces

Model of the functions of `implicits/src/field/builder.rs` and `implicits/src/field.rs` that choose the
radius of the kernel of an implicit surface from its triangles. The radius is computed once, when the
surface is built; no later function changes it.
-/

noncomputable section

namespace Softy.Neighborhood

open Softy Softy.Field

/-- `tri.centroid()` (crate `geo`). -/
def centroid (x : ℕ → V3 ℝ) (t : Tri) : V3 ℝ := (1 / 3 : ℝ) • (x t.a + x t.b + x t.c)

/-- The inner maximum of `compute_base_radius` (`builder.rs:173-185`). -/
def faceRadiusSq (x : ℕ → V3 ℝ) (t : Tri) : ℝ :=
  let d (i : Fin 3) := V3.dot (x (t.get i) - centroid x t) (x (t.get i) - centroid x t)
  max (max (d 0) (d 1)) (d 2)

/-- `max_by` of a list of numbers: `None` if it is empty. -/
def maxBy : List ℝ → Option ℝ
  | [] => none
  | a :: l => some (l.foldl max a)

/-- `compute_base_radius` (`builder.rs:167-192`), or `none` where it panics. -/
def baseRadius (tris : List Tri) (x : ℕ → V3 ℝ) : Option ℝ :=
  (maxBy (tris.map (faceRadiusSq x))).map Real.sqrt

/-- `LocalMLS::radius` (`field.rs:192-194`). -/
def surfaceRadius (tris : List Tri) (x : ℕ → V3 ℝ) (multiplier : ℝ) : Option ℝ :=
  (baseRadius tris x).map (· * multiplier)

end Softy.Neighborhood
