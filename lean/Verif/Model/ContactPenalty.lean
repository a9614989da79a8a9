import Mathlib.Data.Real.Basic

/-!
# Model of the contact penalty

`softy/src/constraints/penalty_point_contact.rs`, `ContactPenalty`, over the reals.
-/

noncomputable section

namespace Softy.ContactPenalty

/-- `penalty_point_contact.rs:3804-3812`, `ContactPenalty::b`. -/
def b (δ x : ℝ) : ℝ :=
  let d := δ - x
  if d > 0 then d * d * d / δ else 0

/-- `penalty_point_contact.rs:3816-3824`, `ContactPenalty::db`. -/
def db (δ x : ℝ) : ℝ :=
  let d := δ - x
  if d > 0 then -3 * d * d / δ else 0

/-- `penalty_point_contact.rs:3828-3836`, `ContactPenalty::ddb`. -/
def ddb (δ x : ℝ) : ℝ :=
  let d := δ - x
  if d > 0 then 6 * d / δ else 0

/-- `penalty_point_contact.rs:1330-1338`, `update_multipliers`: one multiplier per distance,
`-κ db(d)`. -/
def multipliers (κ δ : ℝ) (dist : List ℝ) : List ℝ := dist.map fun d => -κ * db δ d

end Softy.ContactPenalty
