import Verif.Model.Vec
import Mathlib.Analysis.SpecialFunctions.Log.Basic

/-!
# Model of the friction law

`softy/src/constraints/penalty_point_contact.rs`, the friction profiles and the functions
built from them, over the reals.
-/

noncomputable section

namespace Softy.Friction

/-- `penalty_point_contact.rs:563-568`, `stabilized_sliding_potential`. -/
def stabilizedPotential (x ε : ℝ) : ℝ :=
  let e := ε * 0.1
  x + e * Real.log (2 * e / (e + x))

/-- `penalty_point_contact.rs:573-580`, `quadratic_sliding_potential`. -/
def quadraticPotential (x ε : ℝ) : ℝ :=
  if x < ε then (x / ε) * (x - (x * x) / (3 * ε)) + ε / 3 else x

/-- `penalty_point_contact.rs:590-593`, `stabilized_sliding_profile`. -/
def stabilizedProfile (x ε : ℝ) : ℝ := 1 / (x + 0.1 * ε)

/-- `penalty_point_contact.rs:602-610`, `quadratic_sliding_profile`. -/
def quadraticProfile (x ε : ℝ) : ℝ := if x < ε then (2 - x / ε) / ε else 1 / x

/-- `penalty_point_contact.rs:614-617`, `stabilized_sliding_profile_derivative`. -/
def stabilizedProfileDeriv (x ε : ℝ) : ℝ :=
  let denom := x + 0.1 * ε;
  -1 / (denom * denom)

/-- `penalty_point_contact.rs:621-628`, `quadratic_sliding_profile_derivative`. -/
def quadraticProfileDeriv (x ε : ℝ) : ℝ := if x < ε then -1 / (ε * ε) else -1 / (x * x)

/-- `penalty_point_contact.rs:659-672`, `falloff`. -/
def falloff (x w : ℝ) : ℝ :=
  if x > w then 0
  else
    let xmw := x - w
    let w3 := w * w * w
    if w3 > 0 then (2 * x + w) * xmw * xmw / w3 else 1

/-- `penalty_point_contact.rs:679-692`, `dfalloff`. -/
def dfalloff (x w : ℝ) : ℝ :=
  if x > w then 0
  else
    let w2 := w * w
    if w2 > 0 then 6 * x * (x - w) / w2 else 0

/-- `penalty_point_contact.rs:805-808`, `FrictionProfile`. -/
inductive Profile
  | stabilized
  | quadratic

/-- `penalty_point_contact.rs:1444-1463`, `FrictionParams`; the flags `lagged` and
`incomplete_jacobian` select code paths elsewhere and are left out. -/
structure Params where
  dynamicFriction : ℝ
  staticFriction : ℝ
  viscousFriction : ℝ
  stribeckVelocity : ℝ
  epsilon : ℝ
  profile : Profile

/-- `penalty_point_contact.rs:1466-1468`, `FrictionParams::is_none`. -/
def Params.isNone (p : Params) : Prop :=
  p.dynamicFriction = 0 ∧ p.staticFriction = 0 ∧ p.viscousFriction = 0

/-- `tensr::Matrix2`, entries `[[xx, xy], [yx, yy]]`. -/
structure M2 where
  xx : ℝ
  xy : ℝ
  yx : ℝ
  yy : ℝ

/-- Matrix-vector product of `Matrix2`. -/
def M2.mulVec (m : M2) (v : V2 ℝ) : V2 ℝ := ⟨m.xx * v.x + m.xy * v.y, m.yx * v.x + m.yy * v.y⟩

/-- `penalty_point_contact.rs:698-730`, `eta_int`. -/
def etaInt (v : V2 ℝ) (factor : ℝ) (p : Params) (is : ℝ → ℝ → ℝ) : ℝ :=
  factor * is v.norm p.epsilon

/-- `penalty_point_contact.rs:738-766`, `eta`. -/
def eta (v : V2 ℝ) (factor : ℝ) (p : Params) (s : ℝ → ℝ → ℝ) : V2 ℝ :=
  let h := falloff v.norm p.stribeckVelocity
  (factor * (p.dynamicFriction + (p.staticFriction - p.dynamicFriction) * h) *
    s v.norm p.epsilon + p.viscousFriction) • v

/-- `penalty_point_contact.rs:770-802`, `eta_jac`. -/
def etaJac (v : V2 ℝ) (factor : ℝ) (p : Params) (s ds : ℝ → ℝ → ℝ) : M2 :=
  let s := s v.norm p.epsilon
  let ds := ds v.norm p.epsilon
  let h := falloff v.norm p.stribeckVelocity
  let dh := dfalloff v.norm p.stribeckVelocity
  let diag := p.viscousFriction +
    (p.dynamicFriction + (p.staticFriction - p.dynamicFriction) * h) * s * factor
  if v.norm > 0 then
    let c := (p.dynamicFriction * ds +
      (p.staticFriction - p.dynamicFriction) * (dh * s + h * ds)) * (factor / v.norm)
    ⟨diag + v.x * c * v.x, v.x * c * v.y, v.y * c * v.x, diag + v.y * c * v.y⟩
  else ⟨diag, 0, 0, diag⟩

/-- `penalty_point_contact.rs:821-838`, `FrictionProfile::potential`. -/
def potential (v : V2 ℝ) (factor : ℝ) (p : Params) : ℝ :=
  match p.profile with
  | .stabilized => etaInt v factor p stabilizedPotential
  | .quadratic => etaInt v factor p quadraticPotential

/-- `penalty_point_contact.rs:846-860`, `FrictionProfile::profile`. -/
def profile (v : V2 ℝ) (factor : ℝ) (p : Params) : V2 ℝ :=
  match p.profile with
  | .stabilized => eta v factor p stabilizedProfile
  | .quadratic => eta v factor p quadraticProfile

/-- `penalty_point_contact.rs:864-886`, `FrictionProfile::jacobian`. -/
def jacobian (v : V2 ℝ) (factor : ℝ) (p : Params) : M2 :=
  match p.profile with
  | .stabilized => etaJac v factor p stabilizedProfile stabilizedProfileDeriv
  | .quadratic => etaJac v factor p quadraticProfile quadraticProfileDeriv

/-- The potential, profile and derivative functions a `FrictionProfile` selects, as scalar
functions of the speed (the three `match` statements above). -/
def Profile.is : Profile → ℝ → ℝ → ℝ
  | .stabilized => stabilizedPotential
  | .quadratic => quadraticPotential

/-- See `Profile.is`. -/
def Profile.s : Profile → ℝ → ℝ → ℝ
  | .stabilized => stabilizedProfile
  | .quadratic => quadraticProfile

/-- See `Profile.is`. -/
def Profile.ds : Profile → ℝ → ℝ → ℝ
  | .stabilized => stabilizedProfileDeriv
  | .quadratic => quadraticProfileDeriv

end Softy.Friction
