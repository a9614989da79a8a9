import Verif.Prelude
import Mathlib.Data.Real.Basic

/-!
# Model of the preparation of the input mesh

`softy/src/fem/nl/solver/builder.rs:268-516` (attribute normalisation),
`softy/src/fem/nl/state.rs:425-643, 1470-1503` (vertex types, vertex order, vertex masses),
`softy/src/objects/tetsolid.rs:49-190`, `softy/src/objects/trishell.rs:53-180` (elements),
`softy/src/fem/nl/problem.rs:225-240` (reported positions).

The mesh container (`meshx`) is not part of the repository. It is modelled by its documented
behaviour: a cell attribute has one value per cell, a vertex attribute one value per vertex,
inserting data of another length is an error, `sort_vertices_by_key` is a stable sort which
permutes vertices with their attributes and renumbers the cells. Volumes and areas of reference
elements are given numbers, and real numbers stand for floats. Elasticity and damping
parameters are not modelled.
-/

noncomputable section

namespace Softy.Mesh

/-- How building can fail: an `Err` returned to the user, or a panic. -/
inductive Fault where
  | err
  | panic
deriving DecidableEq

/-! ## Attributes -/

/-- Element type of an attribute. `other` stands for all types the builder does not look at. -/
inductive AttrType where
  | i8 | i32 | i64 | u8 | u32 | u64 | other
deriving DecidableEq

/-- Smallest and largest value of each type. -/
def AttrType.range : AttrType → ℤ × ℤ
  | .i8 => (-2 ^ 7, 2 ^ 7 - 1)
  | .i32 => (-2 ^ 31, 2 ^ 31 - 1)
  | .i64 => (-2 ^ 63, 2 ^ 63 - 1)
  | .u8 => (0, 2 ^ 8 - 1)
  | .u32 => (0, 2 ^ 32 - 1)
  | .u64 => (0, 2 ^ 64 - 1)
  | .other => (0, 0)

/-- An attribute on vertices or on cells. -/
structure IntAttr where
  ty : AttrType
  vals : List ℤ

/-- Every value fits the type. -/
def IntAttr.WF (a : IntAttr) : Prop := ∀ v ∈ a.vals, a.ty.range.1 ≤ v ∧ v ≤ a.ty.range.2

/-- `T::try_from(id).unwrap_or(0)` into the type `t`. -/
def convert (t : AttrType) (v : ℤ) : ℤ := if t.range.1 ≤ v ∧ v ≤ t.range.2 then v else 0

/-- Attributes of one name, on cells and on vertices, with the sizes of the mesh. -/
structure Attrs where
  numVerts : ℕ
  numCells : ℕ
  onCells : Option IntAttr
  onVerts : Option IntAttr

/-- `insert_attrib_data::<i32, VertexIndex>`. -/
def insertOnVerts (a : Attrs) (vals : List ℤ) : Except Fault Attrs :=
  if a.onVerts.isSome ∨ vals.length ≠ a.numVerts then .error .err
  else .ok { a with onVerts := some ⟨.i32, vals⟩ }

/-- `builder.rs:316-322`, `normalize_id`. -/
def normalizeId (numMaterials : ℕ) (id : ℤ) : ℤ := if id ≥ numMaterials then 0 else max id 0

/-- `builder.rs:312-367`, `init_material_id_attribute`. The attribute is converted from `u8` and
`u32`; from any other type but `i32` it is replaced by zeros. -/
def initMaterialId (numMaterials : ℕ) (a : Attrs) : Except Fault Attrs :=
  match a.onCells with
  | some ⟨.i32, ids⟩ => .ok { a with onCells := some ⟨.i32, ids.map (normalizeId numMaterials)⟩ }
  | some ⟨.u8, ids⟩ =>
    insertOnVerts { a with onCells := none }
      (ids.map fun id => normalizeId numMaterials (convert .i32 id))
  | some ⟨.u32, ids⟩ =>
    insertOnVerts { a with onCells := none }
      (ids.map fun id => normalizeId numMaterials (convert .i32 id))
  | _ => .ok { a with onCells := some ⟨.i32, List.replicate a.numCells 0⟩ }

/-- `builder.rs:271-306`, `init_object_id_attribute`. -/
def initObjectId (a : Attrs) : Except Fault Attrs :=
  match a.onCells with
  | some ⟨.i32, ids⟩ => .ok { a with onCells := some ⟨.i32, ids.map (max · 0)⟩ }
  | some ⟨.u8, ids⟩ =>
    insertOnVerts { a with onCells := none } (ids.map fun id => max (convert .i32 id) 0)
  | some ⟨.u32, ids⟩ =>
    insertOnVerts { a with onCells := none } (ids.map fun id => max (convert .i32 id) 0)
  | _ => .ok { a with onCells := some ⟨.i32, List.replicate a.numCells 0⟩ }

/-- `builder.rs:460-466`, `normalize_id` of the fixed attribute. -/
def normalizeFixed (id : ℤ) : ℤ := if id ≠ 0 then 1 else 0

/-- `builder.rs:459-516`, `init_fixed_attribute`: the values of the `i8` attribute it leaves. -/
def initFixed (numVerts : ℕ) (a : Option IntAttr) : List ℤ :=
  match a with
  | some ⟨.i8, vals⟩ => vals.map normalizeFixed
  | some ⟨.i32, vals⟩ => vals.map fun v => normalizeFixed (convert .i8 v)
  | some ⟨.i64, vals⟩ => vals.map fun v => normalizeFixed (convert .i8 v)
  | some ⟨.u8, vals⟩ => vals.map fun v => normalizeFixed (convert .i8 v)
  | some ⟨.u32, vals⟩ => vals.map fun v => normalizeFixed (convert .i8 v)
  | some ⟨.u64, vals⟩ => vals.map fun v => normalizeFixed (convert .i8 v)
  | _ => List.replicate numVerts 0

/-! ## Vertex types -/

/-- `state.rs:425-432`, `VertexType`. -/
inductive VertexType where
  | free | rigid | fixed | ignored
deriving DecidableEq

/-- The derived order of `VertexType`. -/
def VertexType.rank : VertexType → ℕ
  | .free => 0
  | .rigid => 1
  | .fixed => 2
  | .ignored => 3

/-- `objects/material.rs`, `ElasticityModel`. -/
inductive ElasticityModel where
  | neoHookean | stableNeoHookean
deriving DecidableEq

/-- `objects/material.rs`, `Material`, with the optional density. -/
inductive Material where
  | rigid
  | solid (model : ElasticityModel) (density : Option ℝ)
  | softShell (density : Option ℝ)
  | fixed

/-- `meshx` cell types. -/
inductive CellType where
  | triangle | tetrahedron
deriving DecidableEq

/-- Number of vertices of a cell. -/
def CellType.size : CellType → ℕ
  | .triangle => 3
  | .tetrahedron => 4

/-- A cell: its type, its vertices, the area or signed volume of its reference element, the
density from the density attribute if the mesh has one, and its (normalised) material id. -/
structure Cell where
  ty : CellType
  verts : List ℕ
  measure : ℝ
  density : Option ℝ
  mtl : ℤ

/-- `tetsolid.rs:355-357` and `trishell.rs`, `is_valid_cell`: one of the two holds. -/
def Cell.valid (c : Cell) : Prop := c.verts.length = c.ty.size

instance (c : Cell) : Decidable c.valid := inferInstanceAs (Decidable (_ = _))

/-- `state.rs:471-484`. -/
def fixedTypes (fixed : List ℤ) : List VertexType :=
  fixed.map fun x => if x > 0 then .fixed else .ignored

/-- `state.rs:490-494` and `508-512`: mark the vertices of a cell that have no type yet. -/
def markCell (t : VertexType) (vt : List VertexType) (verts : List ℕ) : List VertexType :=
  verts.foldl (fun vt i => vt.modify i fun x => if x = .ignored then t else x) vt

/-- Condition `state.rs:489`. -/
def Material.isRigid : Material → Bool
  | .rigid => true
  | _ => false

/-- Condition `state.rs:504`. -/
def Material.isSoft : Material → Bool
  | .solid _ _ => true
  | .softShell _ => true
  | _ => false

/-- `state.rs:488-496`. -/
def markRigid (cells : List (Cell × Material)) (vt : List VertexType) : List VertexType :=
  cells.foldl (fun vt c => if c.2.isRigid then markCell .rigid vt c.1.verts else vt) vt

/-- `state.rs:499-515`. -/
def markFree (cells : List (Cell × Material)) (vt : List VertexType) : List VertexType :=
  cells.foldl (fun vt c =>
    if c.2.isSoft ∧ c.1.valid then markCell .free vt c.1.verts else vt) vt

/-- `materials[mtl_id.max(0) as usize]` for all cells; `none` if one lookup panics. -/
def withMaterials (cells : List Cell) (materials : List Material) : Option (List (Cell × Material)) :=
  cells.mapM fun c => (materials[(max c.mtl 0).toNat]?).map fun m => (c, m)

/-- `state.rs:466-516`: the type of every vertex, in the original order. -/
def vertexTypes (fixed : List ℤ) (cells : List (Cell × Material)) : List VertexType :=
  markFree cells (markRigid cells (fixedTypes fixed))

/-! ## Vertex order -/

/-- The stable order of `sort_vertices_by_key` (`state.rs:518`): entry `i` is the old index of
the vertex that moves to `i`. -/
def sortOrder (vt : List VertexType) : List ℕ :=
  (List.range vt.length).mergeSort fun a b =>
    decide ((vt[a]?.getD .ignored).rank ≤ (vt[b]?.getD .ignored).rank)

/-- Vertex data in the new order. -/
def gather {α : Type*} (order : List ℕ) (l : List α) : List α := order.filterMap (l[·]?)

/-- `sort_vertices_by_key` renumbers the vertices of a cell. -/
def renumber (order : List ℕ) (c : Cell) : Cell := { c with verts := c.verts.map order.idxOf }

/-- `vertex_type.sort()` (`state.rs:519`). -/
def sortTypes (vt : List VertexType) : List VertexType :=
  vt.mergeSort fun a b => decide (a.rank ≤ b.rank)

/-- `state.rs:132`: the number of vertices which are degrees of freedom. -/
def numDofs (vt : List VertexType) : ℕ := (vt.takeWhile fun t => decide (t.rank < 2)).length

/-! ## Elements and masses -/

/-- One entry of `TetElements` or `TriangleElements`. -/
structure Element where
  verts : List ℕ
  measure : ℝ
  density : ℝ

/-- `tetsolid.rs:67-70`, `trishell.rs:66-68`: not all vertices are fixed. -/
def someNotFixed (vt : List VertexType) (c : Cell) : Bool :=
  c.verts.any fun i => decide (vt[i]? ≠ some .fixed)

/-- `tetsolid.rs:63-77`: whether a cell is an element of the given model. -/
def isTet (model : ElasticityModel) (vt : List VertexType) (c : Cell × Material) : Bool :=
  match c.2 with
  | .solid m _ => decide (m = model) && decide (c.1.ty = .tetrahedron) && decide c.1.valid &&
      someNotFixed vt c.1
  | _ => false

/-- `trishell.rs:63-74`: whether a cell is a triangle element. The material does not matter. -/
def isTri (vt : List VertexType) (c : Cell × Material) : Bool :=
  decide (c.1.ty = .triangle) && decide c.1.valid && someNotFixed vt c.1

/-- `tetsolid.rs:81-92`: density of an element. -/
def tetDensity (c : Cell × Material) : Option ℝ :=
  match c.1.density with
  | some d => some d
  | none =>
    match c.2 with
    | .solid _ d => d
    | _ => none

/-- `trishell.rs:78-89`: density of a triangle. -/
def triDensity (c : Cell × Material) : Option ℝ :=
  match c.1.density with
  | some d => some d
  | none =>
    match c.2 with
    | .softShell d => d
    | _ => none

/-- An element of a cell; an inverted or degenerate reference element
(`tetsolid.rs:180-188`, `trishell.rs:171-178`) and a missing density are errors. -/
def mkElement (density : Cell × Material → Option ℝ) (c : Cell × Material) : Option Element :=
  match density c with
  | some d => if c.1.measure ≤ 0 then none else some ⟨c.1.verts, c.1.measure, d⟩
  | none => none

/-- `tetsolid.rs:49-158`. -/
def tetElements (model : ElasticityModel) (vt : List VertexType) (cells : List (Cell × Material)) :
    Option (List Element) :=
  (cells.filter (isTet model vt)).mapM (mkElement tetDensity)

/-- `trishell.rs:53-154`. -/
def triElements (vt : List VertexType) (cells : List (Cell × Material)) : Option (List Element) :=
  (cells.filter (isTri vt)).mapM (mkElement triDensity)

/-- Body of the loops `state.rs:1477-1500`: `share` is the part of the element's mass each of its
vertices receives. -/
def addMass (share : ℝ → ℝ) (masses : List ℝ) (e : Element) : List ℝ :=
  e.verts.foldl (fun m i => m.modify i (· + share (e.measure * e.density))) masses

/-- `state.rs:1488`. -/
def tetShare (m : ℝ) : ℝ := 0.25 * m

/-- `state.rs:1498`. -/
def triShare (m : ℝ) : ℝ := m / 3

/-- `state.rs:1470-1503`, `compute_vertex_masses`. -/
def vertexMasses (nh snh tris : List Element) (n : ℕ) : List ℝ :=
  tris.foldl (addMass triShare) ((nh ++ snh).foldl (addMass tetShare) (List.replicate n 0))

/-! ## State -/

/-- `state.rs:608-613`: inverse masses of all vertices, `none` for the infinite inverse of a
zero mass. -/
def massInv (masses : List ℝ) (numFree n : ℕ) : List (Option ℝ) :=
  (masses.take numFree).map (fun m => if m = 0 then none else some (1 / m)) ++
    List.replicate (n - numFree) (some 0)

/-- A vertex with position and velocity (`ParticleState`). -/
structure Particle (P : Type*) where
  pos : P
  vel : P

/-- The parts of `State` (`state.rs`) and `NLProblem` used below. -/
structure State (P : Type*) where
  cur : List (Particle P)
  next : List (Particle P)
  origIndex : List ℕ
  types : List VertexType
  cells : List Cell
  massInv : List (Option ℝ)

/-- The user's mesh: positions, velocities, source indices if given, fixed and material
attributes, cells. -/
structure Input (P : Type*) where
  verts : List (Particle P)
  source : Option (List ℕ)
  fixed : Option IntAttr
  mtl : Attrs
  cells : List Cell

/-- Write the normalised material ids into the cells; `none` if the attribute is not on the
cells, so that `attrib_iter::<_, CellIndex>` fails (`tetsolid.rs:57`). -/
def assignMaterials (a : Attrs) (cells : List Cell) : Option (List Cell) :=
  match a.onCells with
  | some ids => some ((cells.zip ids.vals).map fun c => { c.1 with mtl := c.2 })
  | none => none

variable {P : Type*}

/-- `objects.rs:26-42`, `init_mesh_source_index_attribute`: an existing attribute is kept. -/
def sourceIndex (m : Input P) : List ℕ := m.source.getD (List.range m.verts.length)

/-- `builder.rs:664-675` up to the sort: the cells with their materials and the type of every
vertex, both in the original order. -/
def prepare (materials : List Material) (m : Input P) :
    Except Fault (List (Cell × Material) × List VertexType) :=
  match initMaterialId materials.length m.mtl with
  | .error f => .error f
  | .ok mtl =>
    match assignMaterials mtl m.cells with
    | none => .error .err
    | some cells =>
      match withMaterials cells materials with
      | none => .error .panic
      | some mcells => .ok (mcells, vertexTypes (initFixed m.verts.length m.fixed) mcells)

/-- `state.rs:535-643`, `try_from_mesh_and_materials`, on the sorted mesh. -/
def mkState (verts : List (Particle P)) (orig : List ℕ) (types : List VertexType)
    (mcells : List (Cell × Material)) : Option (State P) :=
  match tetElements .neoHookean types mcells, tetElements .stableNeoHookean types mcells,
      triElements types mcells with
  | some nh, some snh, some tris =>
    some { cur := verts, next := verts, origIndex := orig, types := types,
           cells := mcells.map Prod.fst,
           massInv := massInv (vertexMasses nh snh tris verts.length) (types.count .free)
             verts.length }
  | _, _, _ => none

/-- `builder.rs:646-701`: building the state from the user's mesh. Contacts and volume
constraints are not modelled. -/
def build (materials : List Material) (m : Input P) : Except Fault (State P) :=
  match prepare materials m with
  | .error f => .error f
  | .ok (mcells, vt) =>
    let order := sortOrder vt
    let orig := gather order (sourceIndex m)
    -- `builder.rs:678-684`: `state_vertex_indices[orig_idx]` panics out of range.
    if orig.any fun i => decide (m.verts.length ≤ i) then .error .panic
    else
      match mkState (gather order m.verts) orig (sortTypes vt)
          (mcells.map fun c => (renumber order c.1, c.2)) with
      | none => .error .err
      | some s => if numDofs s.types = 0 then .error .err else .ok s

/-- `problem.rs:225-240`, `vertex_positions`. `zero` fills the output first. -/
def vertexPositions (zero : P) (s : State P) : List P :=
  (s.origIndex.zip s.next).foldl (fun out a => out.set a.1 a.2.pos)
    (List.replicate s.next.length zero)

/-- `state.rs:77-85` and `783-790`: copy the degrees of freedom to the vertices. -/
def updateVertices (s : State P) (q : List (Particle P)) : State P :=
  { s with next := (s.next.zip (q.take (numDofs s.types))).map Prod.snd ++
      s.next.drop (min q.length (numDofs s.types)) }

/-- `state.rs:1182-1250`, `update_fixed_vertices`, on one vertex. `rate x₁ x₀` is
`(x₁ - x₀) / dt`. -/
def updateFixedCur (rate : P → P → P) (t : VertexType) (cur next : Particle P) : Particle P :=
  if t = .fixed then ⟨next.pos, rate next.pos cur.pos⟩ else cur

/-- `state.rs:1220-1248` on one vertex. -/
def updateFixedNext (rate : P → P → P) (newPos : List P) (t : VertexType) (orig : ℕ)
    (next : Particle P) : Particle P :=
  if t = .fixed then
    match newPos[orig]? with
    | some p => ⟨p, rate p next.pos⟩
    | none => next
  else next

/-- `state.rs:1182-1250`, `update_fixed_vertices`. All lists have one entry per vertex. -/
def updateFixed (rate : P → P → P) (newPos : List P) (s : State P) : State P :=
  { s with
    cur := List.zipWith (fun t c => updateFixedCur rate t c.1 c.2) s.types (s.cur.zip s.next)
    next := List.zipWith (fun t a => updateFixedNext rate newPos t a.1 a.2) s.types
      (s.origIndex.zip s.next) }

end Softy.Mesh
