import Mathlib.Data.Real.Basic
import Mathlib.Data.List.Perm.Basic

/-!
# Meshes for glTF files

Model of `softy-eval/src/main.rs:49-193, 231-250, 325-342`: how softy-eval turns the mesh of a frame into the
triangle mesh that is written to a glTF file. Meshes are lists of positions and cells with named attributes.
A result `none` is a panic. `f64` values are real numbers and `r32` rounds them to `f32`.

`surface_trimesh` and `merge` are functions of the crate `geo` and are modelled by their documented meaning.
-/

namespace Softy.Gltf

/-- Types of attribute elements. -/
inductive Ty
  | vec64 | vec32 | f64 | f32 | i32 | u32 | other
  deriving DecidableEq

/-- Attribute elements. A scalar is `none` if it is infinite or not a number. -/
inductive Value
  | vec (x y z : ℝ)
  | scalar (x : Option ℝ)
  | int (z : ℤ)
  | other (n : ℕ)

/-- `geo::attrib::Attribute` with direct data. -/
structure Attrib where
  type : Ty
  data : List Value

/-- `AttribDict`. -/
abbrev Dict := List (String × Attrib)

/-- `geo::Mesh`, `TriMesh` and `TetMesh`. -/
structure Mesh where
  pos : List (ℝ × ℝ × ℝ)
  cells : List (List ℕ)
  vattrs : Dict
  cattrs : Dict

/-! ## Conversion of attributes -/

/-- `convert_attrib` (lines 232-250) for element types `T` and `U`. -/
def convertAttrib (m : Mesh) (name : String) (T U : Ty) (f : Value → Value) : Option Mesh :=
  match m.vattrs.lookup name with
  | none => none
  | some A =>
    if A.type = T then
      some { m with vattrs := m.vattrs.filter (fun e => e.1 ≠ name) ++ [(name, ⟨U, A.data.map f⟩)] }
    else none

/-- `|[x, y, z]| [x as f32, y as f32, z as f32]`: line 328. -/
def vecTo32 (r32 : ℝ → ℝ) : Value → Value
  | .vec x y z => .vec (r32 x) (r32 y) (r32 z)
  | v => v

/-- Lines 333-337. -/
def massTo32 (r32 : ℝ → ℝ) : Value → Value
  | .scalar none => .scalar (some (-1))
  | .scalar (some x) => .scalar (some (r32 x))
  | v => v

/-- `u32::try_from(x).unwrap_or(0)`: line 340. -/
def toU32 : Value → Value
  | .int z => if 0 ≤ z then .int z else .int 0
  | v => v

/-- Lines 326-330. -/
def convertVecs (r32 : ℝ → ℝ) : List String → Mesh → Option Mesh
  | [], m => some m
  | n :: ns, m => (convertAttrib m n .vec64 .vec32 (vecTo32 r32)).bind (convertVecs r32 ns)

/-- Lines 339-341. -/
def convertInts : List String → Mesh → Option Mesh
  | [], m => some m
  | n :: ns, m => (convertAttrib m n .i32 .u32 toU32).bind (convertInts ns)

/-- Lines 325-341. -/
def convertAll (r32 : ℝ → ℝ) (m : Mesh) : Option Mesh :=
  (convertVecs r32 ["vel", "friction", "residual", "contact"] m).bind fun m =>
    (convertAttrib m "mass" .f64 .f32 (massTo32 r32)).bind fun m =>
      convertInts ["fixed", "animated"] m

/-! ## Triangles and tetrahedra -/

/-- `tri_vertex_map[i] = 0`, which panics out of bounds. -/
def markOne (map : List ℤ) (i : ℕ) : Option (List ℤ) :=
  if i < map.length then some (map.set i 0) else none

/-- Lines 93-103 for cells with `k` vertices. -/
def mark (n k : ℕ) (cells : List (List ℕ)) : Option (List ℤ) :=
  cells.foldlM (fun map cell => if cell.length = k then cell.foldlM markOne map else some map)
    (List.replicate n (-1))

/-- Lines 105-120 for one of the maps: numbers of vertices that are kept, and their positions. -/
def number (r32 : ℝ → ℝ) : List ℤ → List (ℝ × ℝ × ℝ) → ℕ → List ℤ × List (ℝ × ℝ × ℝ)
  | z :: zs, (x, y, w) :: ps, k =>
    if z > -1 then
      let r := number r32 zs ps (k + 1)
      ((k : ℤ) :: r.1, (r32 x, r32 y, r32 w) :: r.2)
    else
      let r := number r32 zs ps k
      (z :: r.1, r.2)
  | zs, _, _ => (zs, [])

/-- `usize::try_from(tvm[a]).expect("positive integer")`: lines 127-129. -/
def index (map : List ℤ) (a : ℕ) : Option ℕ :=
  match map[a]? with
  | none => none
  | some z => if 0 ≤ z then some z.toNat else none

/-- Lines 150-154: values at vertices that are kept. -/
def pick (map : List ℤ) (old : List Value) : List Value :=
  (map.zip old).filterMap fun p => if p.1 ≠ -1 then some p.2 else none

/-- Lines 73-77: values of cells with `k` vertices. -/
def pickCells (k : ℕ) (cells : List (List ℕ)) (old : List Value) : List Value :=
  (cells.zip old).filterMap fun p => if p.1.length = k then some p.2 else none

/-- The mesh of all cells with `k` vertices: lines 55-190, which do this for 3 and 4 vertices alongside. -/
def part (r32 : ℝ → ℝ) (k : ℕ) (m : Mesh) : Option Mesh :=
  (mark m.pos.length k m.cells).bind fun marks =>
    let r := number r32 marks m.pos 0
    ((m.cells.filter fun c => c.length = k).mapM fun c : List ℕ => c.mapM (index r.1)).map fun cells =>
      { pos := r.2
        cells := cells
        vattrs := m.vattrs.map fun e => (e.1, ⟨e.2.type, pick r.1 e.2.data⟩)
        cattrs := m.cattrs.map fun e => (e.1, ⟨e.2.type, pickCells k m.cells e.2.data⟩) }

/-! ## Surface of tetrahedra -/

/-- Faces of a tetrahedron, opposite to each vertex. -/
def tetFaces : List ℕ → List (List ℕ)
  | [a, b, c, d] => [[b, d, c], [a, c, d], [a, d, b], [a, b, c]]
  | _ => []

/-- Faces of tetrahedra, each with the tag of its tetrahedron. -/
def allFaces {α : Type} (tets : List (List ℕ × α)) : List (List ℕ × α) :=
  tets.flatMap fun t => (tetFaces t.1).map fun f => (f, t.2)

/-- The faces that belong to one tetrahedron only. -/
def boundary {α : Type} (tets : List (List ℕ × α)) : List (List ℕ × α) :=
  (allFaces tets).filter fun f => (allFaces tets).countP (fun g => g.1.isPerm f.1) = 1

/-- `TetMesh::surface_trimesh` of `geo`: the boundary triangles with the vertices they use. Vertex attributes
are kept, and attributes of a tetrahedron are copied to its faces. The order of triangles and vertices is not
that of `geo`. -/
def surfaceTrimesh (m : Mesh) : Option Mesh :=
  let b := boundary m.cells.zipIdx
  part id 3
    { m with
      cells := b.map fun f => f.1
      cattrs := m.cattrs.map fun e => (e.1, ⟨e.2.type, b.filterMap fun f => e.2.data[f.2]?⟩) }

/-- A default element: `Default::default()`. -/
def Ty.default : Ty → Value
  | .vec64 | .vec32 => .vec 0 0 0
  | .f64 | .f32 => .scalar (some 0)
  | .i32 | .u32 => .int 0
  | .other => .other 0

/-- The elements that merging adds to an attribute of type `T`: those of the other mesh with `n` elements, or
default values. -/
def added (n : ℕ) (T : Ty) : Option Attrib → List Value
  | some B => if B.type = T then B.data else List.replicate n T.default
  | none => List.replicate n T.default

/-- Attributes of merged meshes with `na` and `nb` elements. -/
def mergeDict (na nb : ℕ) (a b : Dict) : Dict :=
  (a.map fun e => (e.1, ⟨e.2.type, e.2.data ++ added nb e.2.type (b.lookup e.1)⟩)) ++
  (b.filter fun e => (a.lookup e.1).isNone).map fun e =>
    (e.1, ⟨e.2.type, List.replicate na e.2.type.default ++ e.2.data⟩)

/-- `TriMesh::merge` of `geo`. -/
def merge (a b : Mesh) : Mesh where
  pos := a.pos ++ b.pos
  cells := a.cells ++ b.cells.map fun c => c.map fun i => a.pos.length + i
  vattrs := mergeDict a.pos.length b.pos.length a.vattrs b.vattrs
  cattrs := mergeDict a.cells.length b.cells.length a.cattrs b.cattrs

/-- `trimesh_from_mesh`: lines 49-193. -/
def trimeshFromMesh (r32 : ℝ → ℝ) (m : Mesh) : Option Mesh :=
  (part r32 3 m).bind fun tri =>
    (part r32 4 m).bind fun tet =>
      (surfaceTrimesh tet).map fun s => merge tri s

/-- The mesh of one frame of a glTF file: lines 325-342. -/
def exportFrame (r32 : ℝ → ℝ) (m : Mesh) : Option Mesh :=
  (convertAll r32 m).bind (trimeshFromMesh r32)

end Softy.Gltf
