import Verif.Model.Mesh
import Verif.Model.Contact

/-!
# Setting up contacts

Model of the parts of `softy/src/fem/nl/solver/builder.rs` that collect the contacts a user asks for and
build them: `add_frictional_contact*` (lines 69-112), `build_frictional_contact_constraints` (148-266)
and lines 706-725 of `build_problem`, with the checks of `PointContactConstraint::new`
(`constraints/point_contact.rs:132-230, 252-273`).

The functions of the crates `meshx` and `geo` that handle meshes are not part of the repository. They are
modelled by their documented behaviour: `partition_slice` numbers the distinct values in the order in
which they first occur, `split_by_cell_partition` and `split_into_typed_meshes` distribute the cells and
give each piece the vertices of its cells, `merge_iter` concatenates, `sort_vertices_by_key` is a stable
sort which renumbers the faces, `fuse_vertices_by_attrib` replaces vertices with the same value by one.
The boundary of a set of tetrahedra (`surface_trimesh`) is a given function. Real numbers stand for floats.
-/

noncomputable section

namespace Softy.Setup

open Softy Mesh

/-! ## What the user asks for -/

/-- `FrictionParams`: `penalty_point_contact.rs:1443-1462`, the coefficients. -/
structure FrictionParams where
  dynamic : ℝ
  static : ℝ
  viscous : ℝ

/-- `FrictionParams::is_none`: `penalty_point_contact.rs:1465-1467`. -/
def FrictionParams.IsNone (f : FrictionParams) : Prop := f.dynamic = 0 ∧ f.static = 0 ∧ f.viscous = 0

/-- `KernelType`: `implicits/src/kernel.rs:11-30`. -/
inductive KernelType where
  | interpolating (radiusMultiplier : ℝ)
  | smooth (radiusMultiplier tolerance : ℝ)
  | approximate (radiusMultiplier tolerance : ℝ)
  | cubic (radiusMultiplier : ℝ)
  | global (tolerance : ℝ)
  | hrbf

/-- `FrictionalContactParams`: `penalty_point_contact.rs:1486-1504`. -/
structure Params where
  kernel : KernelType
  offset : ℝ
  stiffness : ℝ
  tolerance : ℝ
  friction : FrictionParams

/-- `FrictionalContactParams::default`: `penalty_point_contact.rs:1506-1519`. -/
def Params.default : Params := ⟨.approximate 1 0.00001, 0, 0, 0, ⟨0, 0, 0⟩⟩

/-- An entry of `frictional_contacts`. -/
structure Request where
  params : Params
  object : ℕ
  collider : ℕ
  useFixed : Bool

open Classical in
/-- `add_frictional_contact_with_fixed`: lines 100-112. `dynamic` is `sim_params.time_step.is_some()`. -/
def addWithFixed (dynamic : Bool) (l : List Request) (params : Params) (ids : ℕ × ℕ)
    (useFixed : Bool) : List Request :=
  if params.friction.IsNone ∨ dynamic then l ++ [⟨params, ids.1, ids.2, useFixed⟩] else l

/-- `add_frictional_contact`: lines 80-86. -/
def add (dynamic : Bool) (l : List Request) (params : Params) (ids : ℕ × ℕ) : List Request :=
  addWithFixed dynamic l params ids true

/-- `add_frictional_contact_ignore_fixed`: lines 90-96. -/
def addIgnoreFixed (dynamic : Bool) (l : List Request) (params : Params) (ids : ℕ × ℕ) :
    List Request :=
  addWithFixed dynamic l params ids false

/-! ## Surfaces of objects -/

/-- The distinct values of a list in the order in which they first occur. -/
def firsts {α : Type} [DecidableEq α] : List α → List α
  | [] => []
  | a :: l => a :: (firsts l).filter fun b => decide (b ≠ a)

/-- `partition_slice` (crate `geo`): the part of each entry. -/
def partition (ids : List ℤ) : List ℕ := ids.map fun id => (firsts ids).idxOf id

/-- `partition_slice`: the number of parts. -/
def numParts (ids : List ℤ) : ℕ := (firsts ids).length

/-- `id_map`: lines 165-169. The cast of an `i32` to `usize` wraps around. -/
def idMap (ids : List ℤ) : List ℕ :=
  ((partition ids).zip ids).foldl (fun m p => m.set p.1 (p.2 % 2 ^ 64).toNat)
    (List.replicate (numParts ids) 0)

/-- `split_by_cell_partition`: line 171. The cells of each part. -/
def split (cells : List Cell) (ids : List ℤ) : List (List Cell) :=
  (List.range (numParts ids)).map fun k =>
    ((cells.zip (partition ids)).filter fun c => decide (c.2 = k)).map Prod.fst

/-- A `TriMesh` with its original vertex indices: the index and the position of each vertex, and the
vertices of each face. -/
structure TriMesh where
  verts : List (ℕ × V3 ℝ)
  faces : List (Fin 3 → ℕ)

/-- The mesh of some triangles of the simulated mesh, with the vertices of these triangles. The order of
the vertices does not matter, as they are sorted next. -/
def trianglesOf (x : ℕ → V3 ℝ) (tris : List (Fin 3 → ℕ)) : TriMesh :=
  let vs := firsts (tris.flatMap fun t => [t 0, t 1, t 2])
  ⟨vs.map fun i => (i, x i), tris.map fun t i => vs.idxOf (t i)⟩

/-- `TriMesh::merge_iter` (line 178) of two meshes. -/
def TriMesh.merge (a b : TriMesh) : TriMesh :=
  ⟨a.verts ++ b.verts, a.faces ++ b.faces.map fun f i => a.verts.length + f i⟩

/-- The stable order of `sort_vertices_by_key`: entry `i` is the old index of the vertex that moves to
`i`. -/
def TriMesh.order (m : TriMesh) : List ℕ :=
  (List.range m.verts.length).mergeSort fun a b =>
    decide (((m.verts[a]?).map Prod.fst).getD 0 ≤ ((m.verts[b]?).map Prod.fst).getD 0)

/-- `sort_vertices_by_key(|i| orig_vertex_index[i])`: lines 185-191. -/
def TriMesh.sort (m : TriMesh) : TriMesh :=
  ⟨gather m.order m.verts, m.faces.map fun f i => m.order.idxOf (f i)⟩

/-- The position of vertices that are fused: lines 196-203. -/
def average (ps : List (V3 ℝ)) : V3 ℝ :=
  ps.foldl (fun acc p => acc + (1 / (ps.length : ℝ)) • p) 0

/-- `fuse_vertices_by_attrib`: lines 193-205. -/
def TriMesh.fuse (m : TriMesh) : TriMesh :=
  let keys := firsts (m.verts.map Prod.fst)
  ⟨keys.map fun k => (k, average ((m.verts.filter fun v => decide (v.1 = k)).map Prod.snd)),
    m.faces.map fun f i => keys.idxOf (((m.verts[f i]?).map Prod.fst).getD 0)⟩

/-- The tetrahedra among some cells: `TypedMesh::Tet` (line 181). -/
def tetsOf (cells : List Cell) : List (Fin 4 → ℕ) :=
  (cells.filter fun c => decide (c.ty = .tetrahedron)).map fun c i => c.verts.getD i 0

/-- The triangles among some cells: `TypedMesh::Tri` (line 182). -/
def trisOf (cells : List Cell) : List (Fin 3 → ℕ) :=
  (cells.filter fun c => decide (c.ty = .triangle)).map fun c i => c.verts.getD i 0

/-- The surface of one object: lines 175-206. -/
def surfaceMesh (surface : List (Fin 4 → ℕ) → List (Fin 3 → ℕ)) (x : ℕ → V3 ℝ) (cells : List Cell) :
    TriMesh :=
  ((trianglesOf x (surface (tetsOf cells))).merge (trianglesOf x (trisOf cells))).sort.fuse

/-- `object_surface_meshes_vec`: lines 172-208. -/
def surfaceMeshes (surface : List (Fin 4 → ℕ) → List (Fin 3 → ℕ)) (x : ℕ → V3 ℝ) (cells : List Cell)
    (ids : List ℤ) : List (ℕ × TriMesh) :=
  (idMap ids).zip ((split cells ids).map (surfaceMesh surface x))

/-! ## Contacts -/

/-- How setting up contacts can fail. -/
inductive Failure where
  /-- An error of the mesh attributes. -/
  | attribute
  /-- `Error::UnimplementedFeature`, "Self contacts". -/
  | selfContact
  /-- `Error::ContactObjectIdError`. -/
  | unknownObject (id : ℕ)
  /-- `Error::InvalidImplicitSurface`. -/
  | invalidSurface
  /-- `Error::MissingMassData`. -/
  | missingMass
  /-- A panic. -/
  | panic
deriving DecidableEq

/-- `ContactSurface`: `constraints/mod.rs:20-31`. Rigid surfaces are never built here. -/
structure Surface where
  mesh : TriMesh
  fixed : Bool

/-- `build_contact_surface`: lines 212-233. The last entry with a key is the one that is kept in a hash
map. -/
def contactSurface (surfaces : List (ℕ × TriMesh)) (types : List VertexType) (id : ℕ) :
    Except Failure Surface :=
  match surfaces.reverse.lookup id with
  | none => .error (.unknownObject id)
  | some m => .ok ⟨m, m.faces.all fun f => (List.finRange 3).all fun i =>
      decide (types[((m.verts[f i]?).map Prod.fst).getD 0]? = some .fixed)⟩

/-- The parts of a contact that are determined here. The stiffness is `none` if it is not a finite
number. -/
structure Contact where
  object : Surface
  collider : Surface
  offset : ℝ
  stiffness : Option ℝ
  tolerance : ℝ
  /-- `include_fixed` of both object ids: lines 248-255. Nothing reads it. -/
  includeFixed : Bool

open Classical in
/-- Lines 242-245. -/
def initialStiffness (p : Params) : Option ℝ :=
  if p.stiffness ≤ 0 then (if p.tolerance = 0 then none else some (1 / p.tolerance))
  else some p.stiffness

open Classical in
/-- Whether `build_mls` returns an implicit surface: `implicits/src/field/builder.rs:400-417, 355-393` and
`build_base` (220-330) for face samples of a triangle mesh. -/
def implicit (k : KernelType) (m : TriMesh) : Bool :=
  match k with
  | .hrbf => false
  | .global _ => !m.faces.isEmpty
  | .interpolating c => decide (c ≠ 0) && !m.faces.isEmpty
  | .smooth c _ => decide (c ≠ 0) && !m.faces.isEmpty
  | .approximate c _ => decide (c ≠ 0) && !m.faces.isEmpty
  | .cubic c => decide (c ≠ 0) && !m.faces.isEmpty

/-- One contact: lines 237-263, with `PointContactConstraint::new`. -/
def buildContact (surfaces : List (ℕ × TriMesh)) (types : List VertexType) (r : Request) :
    Except Failure Contact :=
  match contactSurface surfaces types r.object with
  | .error e => .error e
  | .ok object =>
    match contactSurface surfaces types r.collider with
    | .error e => .error e
    | .ok collider =>
      if implicit r.params.kernel object.mesh = false then .error .invalidSurface
      else if object.fixed && collider.fixed then .error .missingMass
      else .ok ⟨object, collider, r.params.offset, initialStiffness r.params, r.params.tolerance,
        r.useFixed⟩

/-- All contacts: lines 235-265. The first failure is returned. -/
def buildAll (surfaces : List (ℕ × TriMesh)) (types : List VertexType) :
    List Request → Except Failure (List Contact)
  | [] => .ok []
  | r :: l =>
    match buildContact surfaces types r with
    | .error e => .error e
    | .ok c =>
      match buildAll surfaces types l with
      | .error e => .error e
      | .ok cs => .ok (c :: cs)

/-- `build_problem`: `init_object_id_attribute` (line 671), the check for self contacts (706-711) and
`build_frictional_contact_constraints` (148-266, 719-725). The cells are those of the mesh whose vertices
were sorted, and `types` are the types of these vertices. -/
def setup (surface : List (Fin 4 → ℕ) → List (Fin 3 → ℕ)) (objectIds : Attrs) (cells : List Cell)
    (types : List VertexType) (x : ℕ → V3 ℝ) (requests : List Request) : Except Failure (List Contact) :=
  match initObjectId objectIds with
  | .error _ => .error .attribute
  | .ok a =>
    if requests.any fun r => decide (r.object = r.collider) then .error .selfContact
    else match a.onCells with
      | some ⟨.i32, ids⟩ => buildAll (surfaceMeshes surface x cells ids) types requests
      | _ => .error .panic

/-- The contact that the solver uses: `PenaltyPointContactConstraint::new`
(`penalty_point_contact.rs:1631-1680`) keeps the original indices of both surfaces. The implicit surface
with its kernel, sample values and neighborhoods is computed from the positions. Indices that do not occur
are mapped to the last vertex. -/
def Contact.pair (C : Contact) (kappa : ℝ) (value : ℕ → ℝ) (kernel : Kernel.Kern)
    (nbrs : List (List ℕ)) (closest : ℕ → ℕ) : Softy.Contact.Pair :=
  let idx (m : TriMesh) (j : ℕ) : ℕ := (((m.verts[j]?).getD (m.verts.getLastD (0, 0)))).1
  { tris := fun s =>
      let f := (C.object.mesh.faces[s]?).getD (C.object.mesh.faces.getLastD fun _ => 0)
      ⟨f 0, f 1, f 2⟩
    value, kernel, nbrs, closest
    surf := idx C.object.mesh
    coll := idx C.collider.mesh
    objectFixed := C.object.fixed
    colliderFixed := C.collider.fixed
    offset := C.offset
    delta := C.tolerance
    kappa }

end Softy.Setup
