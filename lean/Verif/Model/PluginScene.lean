import Verif.Model.Scene
import Verif.Model.ContactSetup

/-!
# Model of the Houdini node: simulating live and exporting a scene

`softy-hdk/src/api.rs` and `softy-hdk/hdk/src/SOP_Softy.C`; the scene that is exported is played
by `softy/src/scene.rs`.

Positions are real vectors: that the node compares and stores single precision is not modelled.
Parameters and materials are values of arbitrary types, since both ways convert them with the same
functions (`api.rs:113-203`, `api.rs:204-273`). Cells and their attributes are not modelled: both
ways reverse triangles once (`api.rs:353`, `api.rs:434`). Writing the scene to a file and reading
it back are not modelled. Attributes of the input do not change over time.
-/

noncomputable section

namespace Softy.PluginScene

open Softy Scene

/-- A point. -/
abbrev R3 := Fin 3 → ℝ

/-- The positions of all points. -/
abbrev Pts := List R3

/-! ## What the solver is built from -/

/-- `ZoneParams`: `zone_pressurizations`, `compression_coefficients`, `hessian_approximation`. -/
structure Zones where
  pressurizations : List ℝ
  compression : List ℝ
  hessian : List Bool

/-- An entry of `frictional_contacts` of the node (`api.rs:274-348`): one object and any number of
colliders. -/
structure ContactParm where
  params : Setup.Params
  object : ℕ
  colliders : List ℕ
  useFixed : Bool

/-- The parameters of the node. `dynamic` is `time_step.is_some()`. -/
structure Node (Sim Mat : Type) where
  sim : Sim
  dynamic : Bool
  materials : List Mat
  contacts : List ContactParm
  pressurizations : List ℝ
  compression : List ℝ
  hessian : List ℕ

/-- The input of the node apart from positions: attributes of points, and the attribute "p64" with
positions in double precision if there is one. -/
structure Geometry where
  attrs : Attrs
  p64 : Option Pts

/-- What a `SolverBuilder` holds when `build` is called (`builder.rs:30-36`). -/
structure Built (Sim Mat : Type) where
  sim : Sim
  materials : List Mat
  contacts : List Setup.Request
  zones : Zones
  attrs : String → Option Attr
  positions : Pts

variable {Sim Mat S : Type}

/-- `objects.rs:26-42`, `init_mesh_source_index_attribute`: an existing attribute is kept. -/
def initSource (n : ℕ) (attrs : String → Option Attr) : String → Option Attr :=
  if attrs "src_idx" = none then
    fun name => if name = "src_idx" then some ⟨.usize, (List.range n).map Int.ofNat⟩ else attrs name
  else attrs

/-- A solver: it can be built, given positions of its points, and make a step. Each of these can
fail. -/
structure Engine (Sim Mat S : Type) where
  build : Built Sim Mat → Option S
  update : Pts → S → Option S
  step : S → Option S

/-- `builder.rs:655-664`: `build` starts with initializing source indices. -/
def Engine.start (E : Engine Sim Mat S) (b : Built Sim Mat) : Option S :=
  E.build { b with attrs := initSource b.positions.length b.attrs }

/-! ## Live simulation -/

/-- `api.rs:503-513`: contacts of the node are added to the builder one by one. -/
def liveContacts (dynamic : Bool) (cs : List ContactParm) : List Setup.Request :=
  cs.foldl (fun l c => c.colliders.foldl
    (fun l j => Setup.addWithFixed dynamic l c.params (c.object, j) c.useFixed) l) []

/-- `api.rs:515-524`: `map(|&x| x != 0)`. -/
def zonesOf (node : Node Sim Mat) : Zones :=
  ⟨node.pressurizations, node.compression, node.hessian.map fun x => decide (x ≠ 0)⟩

/-- `api.rs:468-530`, `register_new_solver`, and `api.rs:432-437`, `set_mesh`: positions are taken
from "p64" if it is there. -/
def liveBuilt (node : Node Sim Mat) (geo : Geometry) (positions : Pts) : Built Sim Mat :=
  let positions := match geo.p64 with
    | some p => overwrite positions p
    | none => positions
  { sim := node.sim
    materials := node.materials
    contacts := liveContacts node.dynamic node.contacts
    zones := zonesOf node
    attrs := initSource positions.length (getAttr geo.attrs)
    positions := positions }

/-- `SOP_Softy.C:965-1046` and `api.rs:556-585`, `step`: one cook of the node with the input
`positions`. Without a solver, one is built from the input and makes a step; otherwise the solver
is given the points of the input before its step. -/
def cook (E : Engine Sim Mat S) (node : Node Sim Mat) (geo : Geometry) (positions : Pts) :
    Option S → Option S
  | none => (E.start (liveBuilt node geo positions)).bind E.step
  | some s => (E.update positions s).bind E.step

/-- Cooks for `n` frames from frame `k` on, up to the first that fails: the states of the solver
after each of them. -/
def cooks (E : Engine Sim Mat S) (node : Node Sim Mat) (geo : Geometry) (input : ℕ → Pts) :
    (n k : ℕ) → Option S → List S
  | 0, _, _ => []
  | n + 1, k, s =>
    match cook E node geo (input k) s with
    | none => []
    | some s => s :: cooks E node geo input n (k + 1) (some s)

/-! ## Export -/

/-- `length2()` of a difference. -/
def dist2 (a b : R3) : ℝ := ∑ i, (a i - b i) ^ 2

/-- `SOP_Softy.C:1117-1130`: `norm_squared` and the new `prev_pos`. -/
def compare : Pts → Pts → ℝ × Pts
  | p :: ps, q :: qs => (dist2 p q + (compare ps qs).1, q :: (compare ps qs).2)
  | ps, _ => (0, ps)

open Classical in
/-- `SOP_Softy.C:1107-1143`: the loop over `n` frames from frame `begin_frame + k` on. `input k` is
the input at that frame, `none` if it cannot be locked. -/
def exportLoop (input : ℕ → Option Pts) :
    (n k : ℕ) → Pts → SceneData R3 → Except Panic (SceneData R3)
  | 0, _, _, s => .ok s
  | n + 1, k, prev, s =>
    match input k with
    | none => exportLoop input n (k + 1) prev s
    | some q =>
      if (compare prev q).1 ≤ 0 then exportLoop input n (k + 1) (compare prev q).2 s
      else
        match s.addKeyframe k q with
        | .error e => .error e
        | .ok s => exportLoop input n (k + 1) (compare prev q).2 s

/-- `SOP_Softy.C:1048-1143`, `exportConfig`, the mesh and its animation: `now` are the positions of
the input at the frame at which the export is started, `frames` is the number of frames from
`begin_frame` to `end_frame`. -/
def exportData (geo : Geometry) (now : Pts) (input : ℕ → Option Pts) (frames : ℕ) :
    Except Panic (SceneData R3) :=
  exportLoop input frames 0 now (SceneData.new geo.attrs now)

/-- `SceneConfig` (`scene.rs:439-444`). -/
structure Config (Sim Mat : Type) where
  sim : Sim
  dynamic : Bool
  materials : List Mat
  contacts : List Setup.Request
  zones : Zones

open Classical in
/-- `scene.rs:493-509`, `add_frictional_contact` of a scene. -/
def sceneAdd (dynamic : Bool) (l : List Setup.Request) (params : Setup.Params) (ids : ℕ × ℕ)
    (useFixed : Bool) : List Setup.Request :=
  if params.friction.IsNone ∨ dynamic then l ++ [⟨params, ids.1, ids.2, useFixed⟩] else l

/-- `api.rs:349-385`, `new_scene`, without the mesh. -/
def exportConfig (node : Node Sim Mat) : Config Sim Mat :=
  { sim := node.sim
    dynamic := node.dynamic
    materials := node.materials
    contacts := node.contacts.foldl (fun l c => c.colliders.foldl
      (fun l j => sceneAdd node.dynamic l c.params (c.object, j) c.useFixed) l) []
    zones := zonesOf node }

/-! ## Playing the scene -/

/-- `scene.rs:719-733` and `scene.rs:389-419`, `build_mesh`: what the solver of a scene is built
from. -/
def sceneBuilt (c : Config Sim Mat) (s : SceneData R3) (first : Pts) : Built Sim Mat :=
  { sim := c.sim
    materials := c.materials
    contacts := c.contacts.foldl
      (fun l r => Setup.addWithFixed c.dynamic l r.params (r.object, r.collider) r.useFixed) []
    zones := c.zones
    attrs := getAttr s.topo.vertexAttrs
    positions := first }

/-- `scene.rs:743-768`: the loop of `run_with` (`Scene.playLoop`) with a solver: its states after
each step. -/
def play (E : Engine Sim Mat S) (s : SceneData R3) : (n frame index : ℕ) → Pts → S → List S
  | 0, _, _, _, _ => []
  | n + 1, frame, index, anim, st =>
    match E.step st with
    | none => []
    | some st =>
      match s.animation[index]? with
      | none => st :: play E s n (frame + 1) index anim st
      | some k =>
        if k.frame ≤ frame + 1 then
          let anim := updatePositions s.topo k.frame k.positions anim
          match E.update anim st with
          | none => [st]
          | some st' => st :: play E s n (frame + 1) (index + 1) anim st'
        else st :: play E s n (frame + 1) index anim st

/-- `scene.rs:714-772`, `run_with`: the states of the solver after each step. -/
def runScene (E : Engine Sim Mat S) (c : Config Sim Mat) (s : SceneData R3) (steps : ℕ) : List S :=
  match s.animation.head? with
  | none => []
  | some k =>
    match E.start (sceneBuilt c s k.positions) with
    | none => []
    | some st => play E s steps 1 1 k.positions st

end Softy.PluginScene
