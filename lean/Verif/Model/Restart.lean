import Verif.Model.VelocityClear

/-!
# Building a solver from a mesh, and reading the mesh back

`SolverBuilder::build_problem` (`softy/src/fem/nl/solver/builder.rs:646-850`) and `NLProblem::mesh`
(`softy/src/fem/nl/problem.rs:300-386`), as far as they pass on the state of a simulation: what a new solver takes from
the attributes of its mesh, and what the mesh read from a solver holds. `V` are the vertices of the mesh, `C` its cells
and `CV` its pairs of a cell and one of its vertices.

Forces are any function of positions and velocities, which stands for elasticity, damping, gravity and volume
constraints. Contacts are not modelled here, nor the bending of shells, whose angles (`trishell.rs:484-500`) remember
full turns. Casts between `f32` and `f64` do not round.
-/

noncomputable section

namespace Softy.Restart

open TimeInt VelocityClear

/-- Three coordinates. -/
abbrev R3 := Fin 3 → ℝ

/-- The values of an attribute of a mesh with their type (`attrib_defines.rs:30-60`). -/
inductive Data (κ : Type) where
  | f32x3 (d : κ → R3)
  | f64x3 (d : κ → R3)
  | f32 (d : κ → ℝ)
  | f64 (d : κ → ℝ)
  | int (d : κ → ℤ)

variable {V CV C : Type}

/-- A mesh: its topology, its positions, and attributes by name on vertices, cell vertices and cells. -/
@[ext] structure Mesh (V CV C : Type) where
  corner : CV → V
  pos : V → R3
  vattr : String → Option (Data V)
  cvattr : String → Option (Data CV)
  cattr : String → Option (Data C)

/-- `builder.rs:546-580`, `init_cell_vertex_ref_pos_attribute`: the reference positions. `none` is the error of
`attrib_or_insert_data` (crate `meshx`) for an attribute `ref_cv` of another type. -/
def initRef (m : Mesh V CV C) : Option (CV → R3) :=
  match m.cvattr "ref_cv" with
  | some (.f32x3 d) => some d
  | some _ => none
  | none =>
    match m.vattr "ref" with
    | some (.f32x3 d) => some fun c => d (m.corner c)
    | _ => some fun c => m.pos (m.corner c)

/-- `builder.rs:519-543`, `init_velocity_attribute`. -/
def initVel (m : Mesh V CV C) : V → R3 :=
  match m.vattr "vel" with
  | some (.f64x3 d) => d
  | some (.f32x3 d) => d
  | _ => fun _ _ => 0

/-- The other attributes of vertices a solver is built from (`builder.rs:271-370` and `459-516`,
`objects.rs:26-43`). -/
def readV : List String := ["src_idx", "fixed", "mtl_id", "obj_id"]

/-- The other attributes of cell vertices a solver is built from (`trishell.rs:386-400`). -/
def readCV : List String := ["ref_angle"]

/-- The attributes of cells a solver is built from (`builder.rs:271-370`, `objects.rs:91-209`, `tetsolid.rs:95-158`,
`trishell.rs:91-154`). -/
def readC : List String := ["mtl_id", "obj_id", "density", "lambda", "mu", "damping", "bend", "vol_zone_id"]

/-- What the elements, masses and constraints of a solver are built from: the topology, reference positions, and the
attributes above. Positions of the mesh are not used (`state.rs:553-640`, `tetsolid.rs:95-158`, `trishell.rs:91-154`,
`volume_change_penalty.rs:69-134`). -/
structure Seen (V CV C : Type) where
  corner : CV → V
  ref : CV → R3
  vattr : {n : String // n ∈ readV} → Option (Data V)
  cvattr : {n : String // n ∈ readCV} → Option (Data CV)
  cattr : {n : String // n ∈ readC} → Option (Data C)

/-- `builder.rs:662-690`. -/
def seen (m : Mesh V CV C) (ref : CV → R3) : Seen V CV C :=
  ⟨m.corner, ref, fun n => m.vattr n, fun n => m.cvattr n, fun n => m.cattr n⟩

/-- The physics of a simulation: vertices that are not fixed, masses, and forces on all vertices. -/
structure Phys (V : Type) where
  free : V → Bool
  mass : V → ℝ
  force : (V × Fin 3 → ℝ) → (V × Fin 3 → ℝ) → V × Fin 3 → ℝ

/-- The state of a solver (`problem.rs:150-190`). -/
structure State (V CV C : Type) where
  /-- `original_mesh` -/
  orig : Mesh V CV C
  /-- What the elements are built from. -/
  basis : Seen V CV C
  /-- Degrees of freedom, and the positions and velocities of fixed vertices. -/
  dof : V × Fin 3 → Dof
  /-- `vtx.next`, which `mesh` reads. -/
  shown : V × Fin 3 → GState
  /-- `initial_point`, where the next solve starts (`solver.rs:252`). -/
  guess : V × Fin 3 → ℝ
  /-- `iteration_count` (`solver.rs:209`). -/
  count : ℕ

/-- The settings of a solver, which do not come from the mesh. -/
structure Config (V CV C : Type) where
  ti : TimeIntegration
  dt : ℝ
  freq : ℝ
  physics : Seen V CV C → Phys V
  /-- Masses, forces, residuals and other data that `mesh` reports about the state of a simulation. -/
  report : String → Phys V → (V × Fin 3 → Dof) → (V × Fin 3 → GState) → Data V

/-- `builder.rs:646-930`: the original mesh is that before attributes are initialized (655-656); the state starts with the
positions and velocities of the mesh, twice (`state.rs:258-281` and `553-640`), and no force (829); the first solve starts
at these velocities (884). -/
def build (m : Mesh V CV C) : Option (State V CV C) :=
  (initRef m).map fun ref =>
    { orig := m
      basis := seen m ref
      dof := fun i => Dof.fresh (m.pos i.1 i.2) (initVel m i.1 i.2)
      shown := fun i => ⟨m.pos i.1 i.2, initVel m i.1 i.2⟩
      guess := fun i => initVel m i.1 i.2
      count := 0 }

/-- One stage of `Solver::step` (`solver.rs:243-405`) with the nonlinear solver replaced by its contract, as
`TimeInt.SystemStageSolves`. Fixed vertices stay. -/
def Stage (s : SingleStep) (p : Phys V) (dt : ℝ) (D D' : V × Fin 3 → Dof) : Prop :=
  ∃ v : V × Fin 3 → ℝ,
    let q := fun i => if p.free i.1 then integrateStep s (D i) (v i) dt else (D i).cur.q
    let w := fun i => if p.free i.1 then v i else (D i).cur.dq
    ∀ i, if p.free i.1 then
        residual s (p.mass i.1) dt (D i) (v i) (-(p.force q w i)) = 0 ∧
          D' i = advance (D i) (q i) (v i) (-(p.force q w i))
      else D' i = D i

/-- The stages `k`, `k + 1`, … of a step (`solver.rs:243-405`). Every stage is committed (`solver.rs:124-156`): the mesh
shows it, the next solve starts at its velocities, and velocities are cleared afterwards, only in the degrees of freedom
(`solver.rs:332-334` and `391-393`, `state.rs:1392-1400`). -/
def Stages (cfg : Config V CV C) (p : Phys V) (clr : Bool) : ℕ → ℕ → State V CV C → State V CV C → Prop
  | 0, _, s, s' => s' = s
  | n + 1, k, s, s' => ∃ D1,
      Stage (cfg.ti.stepIntegrator k).1 p (cfg.dt * (cfg.ti.stepIntegrator k).2) s.dof D1 ∧
      Stages cfg p clr n (k + 1)
        { s with
          dof := if clr then fun i => if p.free i.1 then clear (D1 i) else D1 i else D1
          shown := fun i => (D1 i).cur
          guess := fun i => (D1 i).cur.dq } s'

/-- A successful call of `Solver::step` (`solver.rs:207-407`). -/
def Step (cfg : Config V CV C) (s s' : State V CV C) : Prop :=
  Stages cfg (cfg.physics s.basis) (clears cfg.freq cfg.dt (s.count + 1)) cfg.ti.numStages 0
    { s with count := s.count + 1 } s'

/-- Successful calls of `Solver::step`, one after another. -/
def Run (cfg : Config V CV C) : ℕ → State V CV C → State V CV C → Prop
  | 0, s, s' => s' = s
  | n + 1, s, s' => ∃ s1, Step cfg s s1 ∧ Run cfg n s1 s'

/-- Attributes of vertices that `mesh` writes besides `p64` and `vel` (`problem.rs:366-385`, `compute_residual_on_mesh`,
`compute_distance_potential`, `compute_frictional_contact_data`). -/
def reported : List String := ["net_force", "state_idx", "mass", "residual", "potential", "contact", "friction"]

/-- `problem.rs:300-386`, `mesh`. -/
def exported (cfg : Config V CV C) (s : State V CV C) : Mesh V CV C :=
  let pos : V → R3 := fun v k => (s.shown (v, k)).q
  { s.orig with
    pos := pos
    vattr := fun n =>
      if n = "p64" then some (.f64x3 pos)
      else if n = "vel" then some (.f64x3 fun v k => (s.shown (v, k)).dq)
      else if n ∈ reported then some (cfg.report n (cfg.physics s.basis) s.dof s.shown)
      else s.orig.vattr n }

end Softy.Restart
