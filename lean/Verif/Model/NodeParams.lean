import Verif.Model.Hooke
import Verif.Model.PluginScene
import Verif.Model.TimeIntegration

/-!
# Model of the Houdini node: what its parameters turn into

`build_sim_params` in `softy-hdk/hdk/src/SOP_Softy.C:714-945` reads the parameters of the node, and
`softy-hdk/src/api.rs:88-348` turns them into the settings, the materials and the contacts of the
solver. The parameters are those of the interface in `SOP_Softy.C:46-640`; their documentation is
`softy-hdk/hdk/src/hdk_softy.txt`.

Numbers are reals: that the node rounds to single precision is not modelled. Values of menus that the
interface does not offer are not modelled. Fields of the structs that C++ leaves alone have the
default value zero that `cxx` gives them.
-/

noncomputable section

namespace Softy.Node

open Material

/-! ## Materials -/

/-- The menu "Object Type": `SOP_Softy.C:99-110`. -/
inductive ObjectType where
  | solid | shell | rigid
deriving DecidableEq

/-- The menu "Stiffness Type": `SOP_Softy.C:150-162`. -/
inductive StiffnessType where
  | shearBulk | youngPoisson
deriving DecidableEq

/-- The parameters of one material: `SOP_Softy.C:91-204`. -/
structure UiMaterial where
  objectType : ObjectType
  model : Model
  stiffnessType : StiffnessType
  shape : ℝ
  volume : ℝ
  young : ℝ
  poisson : ℝ
  bending : ℝ
  density : ℝ
  damping : ℝ

/-- `MaterialProperties`: `softy-hdk/src/lib.rs:130-138`. -/
structure Properties where
  objectType : ObjectType
  model : Model
  bulk : ℝ
  shear : ℝ
  bending : ℝ
  density : ℝ
  damping : ℝ

/-- The two moduli: `SOP_Softy.C:752-766`. -/
def moduli (u : UiMaterial) : ℝ × ℝ :=
  match u.stiffnessType with
  | .shearBulk => (u.volume * 1000, u.shape * 1000)
  | .youngPoisson =>
    let nu := u.poisson
    let E := u.young * 1000
    (E / (3 * (1 - 2 * nu)), E / (2 * (1 + nu)))

/-- One material of `build_sim_params`: `SOP_Softy.C:724-772`. -/
def properties (u : UiMaterial) : Properties :=
  { objectType := u.objectType
    model := u.model
    bulk := (moduli u).1
    shear := (moduli u).2
    bending := u.bending
    density := u.density
    damping := u.damping }

/-- `softy::Material`: `objects/material.rs:99-106`. -/
inductive LibMaterial where
  | fixed (m : Base Unit)
  | rigid (m : Base Rigid)
  | solid (m : Base Solid)
  | shell (m : Base SoftShell)

/-- The closure in `build_material_library`: `api.rs:219-268`. `Elasticity::from_bulk_shear` uses the
neo-Hookean model (`material.rs:541-543`). -/
def libMaterial (volumeConstraint : Bool) (idx : ℕ) (p : Properties) : LibMaterial :=
  match p.objectType with
  | .solid =>
    .solid (((((⟨idx + 1, {}⟩ : Base Solid).applySolid
      (.elasticity ⟨p.model, .bulkShear p.bulk p.shear⟩)).applySolid
      (.volume volumeConstraint)).applySolid (.density p.density)).applySolid (.damping p.damping))
  | .shell =>
    .shell (softWithDamping (softWithDensity (softWithBending (softWithElasticity ⟨idx + 1, {}⟩
      ⟨.neoHookean, .bulkShear p.bulk p.shear⟩) p.bending) p.density) p.damping)
  | .rigid => .rigid ⟨idx + 1, ⟨p.density⟩⟩

/-- `build_material_library`: `api.rs:204-273`. -/
def library (volumeConstraint : Bool) (us : List UiMaterial) : List LibMaterial :=
  .fixed ⟨0, ()⟩ :: us.mapIdx fun idx u => libMaterial volumeConstraint idx (properties u)

/-- The material as `Model/Mesh.lean` sees it. -/
def LibMaterial.toMesh : LibMaterial → Mesh.Material
  | .fixed _ => .fixed
  | .rigid _ => .rigid
  | .solid m => .solid (match solidModel m with
      | .neoHookean => .neoHookean
      | .stableNeoHookean => .stableNeoHookean) m.properties.deformable.density
  | .shell m => .softShell m.properties.deformable.density

/-- The material of a cell with the given `mtl_id`: `normalize_id` (`builder.rs:316-322`) and
`materials[mtl_id as usize]` (`tetsolid.rs:26`, `trishell.rs:31`). -/
def cellMaterial (volumeConstraint : Bool) (us : List UiMaterial) (id : ℤ) : Option LibMaterial :=
  (library volumeConstraint us)[(Mesh.normalizeId (library volumeConstraint us).length id).toNat]?

/-- The gradient of the elastic energy of a tetrahedron with the rest shape `X` and the given
`mtl_id`, without attributes for its stiffness: `tetsolid.rs:345-379`. A tetrahedron whose material
is not a solid is no element, and has no elastic forces. -/
def tetGradient (volumeConstraint : Bool) (us : List UiMaterial) (id : ℤ) (X x : Tet.Verts) :
    Option Tet.Verts :=
  match cellMaterial volumeConstraint us id with
  | some (.solid m) => Hooke.solidGradient X {} m x
  | _ => some 0

/-- The elastic energy of a tetrahedron, as in `tetGradient`: `tetsolid.rs:435-443` with the energy
of the model. -/
def tetEnergy (volumeConstraint : Bool) (us : List UiMaterial) (id : ℤ) (X x : Tet.Verts) :
    Option ℝ :=
  match cellMaterial volumeConstraint us id with
  | some (.solid m) =>
    match Hooke.solidElem X {} m with
    | none => none
    | some r =>
      match solidModel m with
      | .neoHookean => Tet.nhEnergy (r.at x)
      | .stableNeoHookean => Tet.snhEnergy (r.at x)
  | _ => some 0

/-- The gradient of the membrane energy of a triangle with the given `mtl_id`, without attributes:
`trishell.rs:53-154`. `none` if its material is not a shell: `ObjectMaterialMismatch`. -/
def triGradient (volumeConstraint : Bool) (us : List UiMaterial) (id : ℤ) (X x : Tri.Verts) :
    Option Tri.Verts :=
  match cellMaterial volumeConstraint us id with
  | some (.shell m) => Hooke.shellGradient X {} m x
  | _ => none

/-! ## Contacts -/

/-- The menu "Kernel": `SOP_Softy.C:257-269`. -/
inductive KernelMenu where
  | smooth | approximate | cubic | global
deriving DecidableEq

/-- The parameters of one frictional contact: `SOP_Softy.C:243-405`. The collider ids are the
numbers in the string. The parameters of friction are those that `FrictionParams` of
`Model/ContactSetup.lean` has. -/
structure UiContact where
  object : ℕ
  colliders : List ℕ
  kernel : KernelMenu
  radiusMult : ℝ
  smoothTol : ℝ
  offset : ℝ
  tolerance : ℝ
  useFixed : Bool
  friction : Bool
  dynamicCof : ℝ
  staticCof : ℝ
  viscous : ℝ

/-- `SOP_Softy.C:876-932` and `get_frictional_contacts`: `api.rs:274-348`. -/
def contactParm (c : UiContact) : PluginScene.ContactParm :=
  { params :=
      { kernel := match c.kernel with
          | .smooth => .smooth c.radiusMult c.smoothTol
          | .approximate => .approximate c.radiusMult c.smoothTol
          | .cubic => .cubic c.radiusMult
          | .global => .global c.smoothTol
        offset := c.offset
        tolerance := c.tolerance
        stiffness := 1 / c.tolerance
        friction := if c.friction then ⟨c.dynamicCof, c.staticCof, c.viscous⟩ else ⟨0, 0, 0⟩ }
    object := c.object
    colliders := c.colliders
    useFixed := c.useFixed }

/-! ## Settings of the solver -/

/-- The menu "Solver Type": `SOP_Softy.C:455-466`. -/
inductive SolverMenu where
  | newton | adaptiveNewton | trustRegion

/-- The menu "Line Search": `SOP_Softy.C:468-481`. -/
inductive SearchMenu where
  | none | backtracking | assisted | contactAssisted

/-- The menu "Time Integration": `SOP_Softy.C:504-518`. -/
inductive IntegrationMenu where
  | BE | TR | BDF2 | TRBDF2 | TRBDF2U | SDIRK2

/-- The menu "Preconditioner": `SOP_Softy.C:492-502`; also the `Preconditioner` of the solver. -/
inductive Preconditioner where
  | none | incompleteJacobi | approximateJacobi

/-- The parameters of the node for the solver: `SOP_Softy.C:409-638`. The tolerances come with their
toggles. -/
structure UiSolver where
  timeStep : ℝ
  gravity : ℝ
  logFile : String
  solverType : SolverMenu
  lineSearch : SearchMenu
  backtrackingCoeff : ℝ
  preconditioner : Preconditioner
  integration : IntegrationMenu
  velocityClearFrequency : ℝ
  innerTolerance : ℝ
  maxInnerIterations : ℕ
  residual : Bool × ℝ
  acceleration : Bool × ℝ
  velocity : Bool × ℝ
  maxOuterIterations : ℕ
  derivativeTest : ℕ
  contactIterations : ℕ
  projectHessians : Bool

/-- `fem::nl::SolverType`. -/
inductive SolverType where
  | newton | adaptiveNewton

/-- `fem::nl::LineSearch`: `newton.rs:2258-2283`. -/
inductive LineSearch where
  | backtracking (c rho : ℝ)
  | assisted (c rho : ℝ)
  | contactAssisted (c rho : ℝ)
  | none

/-- `LineSearch::with_step_factor`: `newton.rs:2310-2318`. -/
def LineSearch.withStepFactor (l : LineSearch) (rho : ℝ) : LineSearch :=
  match l with
  | .backtracking c _ => .backtracking c rho
  | .assisted c _ => .assisted c rho
  | .contactAssisted c _ => .contactAssisted c rho
  | .none => .none

/-- `LinearSolver`. -/
inductive LinearSolver where
  | iterative (tolerance : ℝ) (maxIterations : ℕ)
  | direct

/-- `fem::nl::SimParams`: `softy/src/fem/nl.rs`. -/
structure SimParams where
  timeStep : Option ℝ
  gravity : V3 ℝ
  velocityClearFrequency : ℝ
  residualTolerance : Option ℝ
  velocityTolerance : Option ℝ
  accelerationTolerance : Option ℝ
  maxIterations : ℕ
  linsolve : LinearSolver
  lineSearch : LineSearch
  solverType : SolverType
  derivativeTest : ℕ
  contactIterations : ℕ
  integration : TimeInt.TimeIntegration
  preconditioner : Preconditioner
  logFile : Option String
  projectHessians : Bool

/-- `SOP_Softy.C:774-784`: the coefficient is only read if the line search uses it. -/
def stepFactor (s : UiSolver) : ℝ :=
  match s.lineSearch with
  | .backtracking => s.backtrackingCoeff
  | .assisted => s.backtrackingCoeff
  | .contactAssisted => s.backtrackingCoeff
  | .none => 0.5

/-- `From<TimeIntegration>`: `api.rs:88-101`. -/
def integrationOf : IntegrationMenu → TimeInt.TimeIntegration
  | .TR => .TR
  | .BDF2 => .BDF2
  | .TRBDF2 => .TRBDF2 0.5
  | .TRBDF2U => .TRBDF2 (2 - √2)
  | .SDIRK2 => .SDIRK2
  | .BE => .BE

/-- `SOP_Softy.C:786-853` and `Into<SimParams>`: `api.rs:113-202`. -/
def simParams (s : UiSolver) : SimParams :=
  open Classical in
  { timeStep := if s.timeStep > 0 then some s.timeStep else none
    gravity := ⟨0, -s.gravity, 0⟩
    velocityClearFrequency := s.velocityClearFrequency
    residualTolerance := if s.residual.1 then some s.residual.2 else none
    velocityTolerance := if s.velocity.1 then some s.velocity.2 else none
    accelerationTolerance := if s.acceleration.1 then some s.acceleration.2 else none
    maxIterations := s.maxOuterIterations
    linsolve := if s.innerTolerance > 0 ∧ s.maxInnerIterations > 0 then
      .iterative s.innerTolerance s.maxInnerIterations else .direct
    lineSearch := (match s.lineSearch with
      | .assisted => LineSearch.assisted 1e-4 0.9
      | .contactAssisted => LineSearch.contactAssisted 1e-4 0.9
      | .backtracking => LineSearch.backtracking 1e-4 0.9
      | .none => LineSearch.none).withStepFactor (stepFactor s)
    solverType := match s.solverType with
      | .adaptiveNewton => .adaptiveNewton
      | _ => .newton
    derivativeTest := s.derivativeTest
    contactIterations := s.contactIterations
    integration := integrationOf s.integration
    preconditioner := s.preconditioner
    logFile := if s.logFile.isEmpty then none else some s.logFile
    projectHessians := s.projectHessians }

end Softy.Node
