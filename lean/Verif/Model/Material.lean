import Verif.Prelude
import Mathlib.Data.Real.Basic
import Mathlib.Tactic.Linarith
import Mathlib.Tactic.FieldSimp

/-!
# Model of materials

`softy/src/objects/material.rs`. Numbers are reals.
-/

noncomputable section

namespace Softy.Material

/-! ## Elasticity parameters -/

/-- `material.rs:446-450`, `ElasticityModel`. -/
inductive Model where
  | stableNeoHookean | neoHookean
deriving DecidableEq

/-- `material.rs:458-488`, `ElasticityParameters`. -/
inductive Params where
  | lame (lambda mu : ℝ)
  | youngPoisson (young poisson : ℝ)
  | bulkShear (bulk shear : ℝ)

/-- `material.rs:492-500`, `ElasticityParameters::lambda`. -/
def Params.lambda : Params → ℝ
  | .lame l _ => l
  | .youngPoisson young poisson => young * poisson / (1 + poisson) * (1 - 2 * poisson)
  | .bulkShear bulk shear => bulk - 2 * shear / 3

/-- `material.rs:502-510`, `ElasticityParameters::mu`. -/
def Params.mu : Params → ℝ
  | .lame _ m => m
  | .youngPoisson young poisson => young / (2 * (1 + poisson))
  | .bulkShear _ shear => shear

/-- `material.rs:515-518`, `ElasticityParameters::to_lame`. -/
def Params.toLame (p : Params) : Params := .lame p.lambda p.mu

/-- `material.rs:452-456`, `Elasticity`. -/
structure Elasticity where
  model : Model
  parameters : Params

/-- `material.rs:557-563`, `Elasticity::lame`: the parameters used in the energies. -/
def Elasticity.lame (e : Elasticity) : ℝ × ℝ :=
  match e.model with
  | .neoHookean => (e.parameters.lambda, e.parameters.mu)
  | .stableNeoHookean =>
    (e.parameters.lambda + 5 * e.parameters.mu / 6, 4 * e.parameters.mu / 3)

/-! ## Shell materials -/

/-- `material.rs:20-41`, `DeformableProperties`. -/
structure Deformable where
  elasticity : Option Elasticity := none
  density : Option ℝ := none
  damping : ℝ := 0

/-- `material.rs:64-76`, `SoftShellProperties`. -/
structure SoftShell where
  bendingStiffness : Option ℝ := none
  deformable : Deformable := {}

/-- `material.rs:8-17`, `MaterialBase`. -/
structure Base (Q : Type) where
  id : ℕ
  properties : Q

/-- `material.rs:55-59`, `RigidProperties`. -/
structure Rigid where
  density : ℝ

/-- `material.rs:109-113`, `ShellMaterial`. -/
inductive Shell where
  | fixed (m : Base Unit)
  | rigid (m : Base Rigid)
  | soft (m : Base SoftShell)

/-- `material.rs:368-371`, `SoftShellMaterial::with_density`. -/
def softWithDensity (m : Base SoftShell) (d : ℝ) : Base SoftShell :=
  { m with properties := { m.properties with
      deformable := { m.properties.deformable with density := some d } } }

/-- `material.rs:356-359`, `SoftShellMaterial::with_elasticity`. -/
def softWithElasticity (m : Base SoftShell) (e : Elasticity) : Base SoftShell :=
  { m with properties := { m.properties with
      deformable := { m.properties.deformable with elasticity := some e } } }

/-- `material.rs:362-365`, `SoftShellMaterial::with_damping`. -/
def softWithDamping (m : Base SoftShell) (d : ℝ) : Base SoftShell :=
  { m with properties := { m.properties with
      deformable := { m.properties.deformable with damping := d } } }

/-- `material.rs:375-378`, `SoftShellMaterial::with_bending_stiffness`. -/
def softWithBending (m : Base SoftShell) (k : ℝ) : Base SoftShell :=
  { m with properties := { m.properties with bendingStiffness := some k } }

/-- `material.rs:171-175`, `From<FixedMaterial> for SoftShellMaterial`. -/
def fixedToSoft (m : Base Unit) : Base SoftShell := ⟨m.id, {}⟩

/-- `material.rs:177-182`, `From<RigidMaterial> for SoftShellMaterial`. -/
def rigidToSoft (m : Base Rigid) : Base SoftShell :=
  softWithDensity ⟨m.id, {}⟩ m.properties.density

/-- `ShellMaterial` as a soft shell, as all the setters but the one of density do. -/
def Shell.toSoft : Shell → Base SoftShell
  | .fixed m => fixedToSoft m
  | .rigid m => rigidToSoft m
  | .soft m => m

/-- `material.rs:243-245`, `ShellMaterial::new`. -/
def Shell.new (id : ℕ) : Shell := .fixed ⟨id, ()⟩

/-- `material.rs:250-257`, `ShellMaterial::with_elasticity` (with `299-301`, `329-331`, `356-359`). -/
def Shell.withElasticity (m : Shell) (e : Elasticity) : Shell :=
  .soft (softWithElasticity m.toSoft e)

/-- `material.rs:262-269`, `ShellMaterial::with_damping`. -/
def Shell.withDamping (m : Shell) (d : ℝ) : Shell := .soft (softWithDamping m.toSoft d)

/-- `material.rs:274-280`, `ShellMaterial::with_density`. -/
def Shell.withDensity (m : Shell) (d : ℝ) : Shell :=
  match m with
  | .fixed m => .rigid ⟨m.id, ⟨d⟩⟩
  | .rigid m => .rigid { m with properties := ⟨d⟩ }
  | .soft m => .soft (softWithDensity m d)

/-- `material.rs:285-292`, `ShellMaterial::with_bending_stiffness`. -/
def Shell.withBending (m : Shell) (k : ℝ) : Shell := .soft (softWithBending m.toSoft k)

/-! ## Solid materials -/

/-- `material.rs:79-88`, `SolidProperties`. -/
structure Solid where
  volumePreservation : Bool := false
  deformable : Deformable := {}

/-- `material.rs:387-402`: the setters of `SolidMaterial`. -/
inductive SolidOp where
  | elasticity (e : Elasticity)
  | density (d : ℝ)
  | damping (d : ℝ)
  | volume (b : Bool)

/-- `material.rs:387-402`. -/
def Base.applySolid (m : Base Solid) : SolidOp → Base Solid
  | .elasticity e => { m with properties := { m.properties with
      deformable := { m.properties.deformable with elasticity := some e } } }
  | .density d => { m with properties := { m.properties with
      deformable := { m.properties.deformable with density := some d } } }
  | .damping d => { m with properties := { m.properties with
      deformable := { m.properties.deformable with damping := d } } }
  | .volume b => { m with properties := { m.properties with volumePreservation := b } }

/-- `material.rs:406-411`, `SolidMaterial::model`. -/
def solidModel (m : Base Solid) : Model :=
  match m.properties.deformable.elasticity with
  | some e => e.model
  | none => .neoHookean

end Softy.Material
