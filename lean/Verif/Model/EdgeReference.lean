import Verif.Model.InteriorEdge

/-!
# The reference shape of a bending element

Model of `softy/src/objects/interior_edge.rs:68-101, 153-171` and of its use in
`softy/src/objects/trishell.rs:371-382`.
-/

noncomputable section

namespace Softy.IEdge

open Softy V3

/-- `normalized`: a vector divided by its length. -/
def unit (v : V3 ℝ) : V3 ℝ := v.norm⁻¹ • v

/-- `interior_edge.rs:162-171`, `ref_length`. -/
def Edge.refLength (e : Edge) (refPos : ℕ → ℕ → V3 ℝ) : ℝ :=
  ((e.vert0 refPos 1 - e.vert0 refPos 0).norm + (e.vert1 refPos 1 - e.vert1 refPos 0).norm) * 0.5

/-- `interior_edge.rs:76-101`, `tile_span`. The assertions are only checked by debug builds: edges of length zero
are excluded by hypotheses of the theorems. -/
def Edge.tileSpan (e : Edge) (refPos : ℕ → ℕ → V3 ℝ) : ℝ :=
  let f0x0 := e.vert0 refPos 0
  let f0x1 := e.vert0 refPos 1
  let f0x2 := e.vert0 refPos 2
  let f1x1 := e.vert1 refPos 0
  let f1x0 := e.vert1 refPos 1
  let f1x3 := e.vert1 refPos 2
  let f0e0 := unit (f0x1 - f0x0)
  let f1e0 := unit (f1x1 - f1x0)
  let h0 := (cross (f0x2 - f0x0) f0e0).norm
  let h1 := (cross (f1x3 - f1x0) f1e0).norm
  (h0 + h1) / 6

/-- `trishell.rs:373-381`: what the field `ref_length` of a bending element is. Its two triangles are not both
degenerate by hypotheses of the theorems. -/
def Edge.refShape (e : Edge) (refPos : ℕ → ℕ → V3 ℝ) : ℝ := e.refLength refPos / e.tileSpan refPos

end Softy.IEdge
