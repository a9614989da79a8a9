import Mathlib.Data.Real.Basic
import Mathlib.Data.List.Basic

/-!
# The C interface of implicit surfaces

Model of `cimplicits/src/lib.rs` lines 193-676. Arrays are lists; sizes that do not match the memory behind a
pointer, and negative sizes, are outside of the model. What the functions of crate `implicits` compute is an
input. A pointer is `none` (null) or an address; undefined behaviour is the value `none` of a call.
-/

namespace Softy.CInterface

/-- `as usize` of a `c_int`. -/
def toUsize (n : ℤ) : ℕ := (n % 2 ^ 64).toNat

/-- `as c_int` of a `usize`. -/
def toInt (n : ℕ) : ℤ := ((n : ℤ) + 2 ^ 31) % 2 ^ 32 - 2 ^ 31

/-- `chunks_exact(3)`, and `cast_slice` to triples of an array whose size is a multiple of three. -/
def triples {α : Type} : List α → List (α × α × α)
  | a :: b :: c :: l => (a, b, c) :: triples l
  | _ => []

/-- `TriMesh::new`. -/
structure Mesh where
  positions : List (ℝ × ℝ × ℝ)
  faces : List (ℕ × ℕ × ℕ)

/-- `iso_create_trimesh`: lines 208-228. `none` is the failed assertion. -/
def createMesh (coords : List ℝ) (indices : List ℤ) : Option Mesh :=
  if coords.length % 3 = 0 then
    some ⟨triples coords, (triples indices).map fun f => (toUsize f.1, toUsize f.2.1, toUsize f.2.2)⟩
  else none

/-- The loop of `impl_jac_indices!`, lines 374-377, over the arrays for rows and columns. -/
def writeIndices : List ℤ → List ℤ → List (ℕ × ℕ) → List ℤ × List ℤ
  | _ :: rows, _ :: cols, e :: l =>
    let w := writeIndices rows cols l
    (toInt e.1 :: w.1, toInt e.2 :: w.2)
  | rows, cols, _ => (rows, cols)

/-- `impl_num_jac_entries!`: lines 361-365. -/
def numEntries (entries : List (ℕ × ℕ)) : ℤ := toInt entries.length

/-- `impl_jac_indices!`: lines 367-380. The first component is the value that is returned. -/
def jacobianIndices (entries : List (ℕ × ℕ)) (rows cols : List ℤ) : ℤ × List ℤ × List ℤ :=
  (0, writeIndices rows cols entries)

/-- `iso_num_surface_hessian_product_entries`: lines 533-538. `none` is a surface without Hessian. -/
def numHessian (entries : Option (List (ℕ × ℕ))) : ℤ := toInt ((entries.map List.length).getD 0)

/-- `iso_surface_hessian_product_indices`: lines 546-566. -/
def hessianIndices (entries : Option (List (ℕ × ℕ))) (rows cols : List ℤ) : ℤ × List ℤ × List ℤ :=
  match entries with
  | some l => (0, writeIndices rows cols l)
  | none => (1, rows, cols)

/-- The loops of `iso_neighborhood_indices`: lines 628-642. -/
def number : ℕ → List ℕ → List ℤ
  | _, [] => []
  | i, s :: l => if s ≠ 0 then toInt i :: number (i + 1) l else -1 :: number i l

/-- `iso_neighborhood_indices`: lines 616-643. `none` is the failed assertion. -/
def neighborhoodIndices (num : ℕ) (sizes : List ℕ) : Option (List ℤ) :=
  if num = sizes.length then some (number 0 sizes) else none

/-! ## Handles -/

/-- What a handle can point to: lines 194-204. -/
inductive Kind
  | mesh
  | surface
  | topo
  deriving DecidableEq

/-- The memory: the boxes that are live. -/
structure Heap where
  live : List (ℕ × Kind)
  next : ℕ

namespace Heap

/-- `Box::into_raw(Box::new(..))`. -/
def alloc (h : Heap) (k : Kind) : ℕ × Heap := (h.next, ⟨(h.next, k) :: h.live, h.next + 1⟩)

/-- `Box::from_raw`, which is defined for live boxes of the right type only, and frees the box. -/
def take (h : Heap) (k : Kind) (a : ℕ) : Option Heap :=
  if (a, k) ∈ h.live then some { h with live := h.live.erase (a, k) } else none

/-- `&*pointer`. -/
def deref (h : Heap) (k : Kind) : Option ℕ → Option Unit
  | some a => if (a, k) ∈ h.live then some () else none
  | none => none

/-- `iso_free_trimesh`, `iso_free_implicit_surface` and `iso_free_query_topology`: lines 232-236, 255-259 and
283-287. -/
def free (h : Heap) (k : Kind) : Option ℕ → Option Heap
  | some a => h.take k a
  | none => some h

/-- `iso_create_trimesh`: lines 208-228. -/
def createTrimesh (h : Heap) : Option ℕ × Heap := (some (h.alloc .mesh).1, (h.alloc .mesh).2)

/-- `iso_create_implicit_surface`: lines 240-251. `ok` says if the surface can be built from the mesh. -/
def createSurface (h : Heap) (mesh : Option ℕ) (ok : Bool) : Option (Option ℕ × Heap) :=
  (h.deref .mesh mesh).map fun _ =>
    if ok then (some (h.alloc .surface).1, (h.alloc .surface).2) else (none, h)

/-- `iso_query_topology`: lines 266-279. -/
def queryTopology (h : Heap) : Option ℕ → Option (Option ℕ × Heap)
  | some a => (h.take .surface a).map fun h => (some (h.alloc .topo).1, (h.alloc .topo).2)
  | none => some (none, h)

/-- The functions that use a query topology, for example `iso_compute_potential`: lines 291-306. -/
def compute (h : Heap) (topo : Option ℕ) : Option Unit := h.deref .topo topo

end Heap

end Softy.CInterface
