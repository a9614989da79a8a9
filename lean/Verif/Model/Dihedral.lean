import Verif.Model.InteriorEdge

/-!
# Model of dihedral elements

`softy/src/objects/trishell.rs`, `DihedralElements::try_from_mesh_and_materials`: pruning of edges
without bending stiffness and renumbering of the triangles.
-/

namespace Softy.Dihedral

open IEdge

/-- `trishell.rs:444-451`: `retain` driven by an iterator over the stiffnesses; `none` is the panic
of `unwrap` when it ends early. -/
def retainBy {α : Type} : List ℚ → List α → Option (List α)
  | _, [] => some []
  | [], _ :: _ => none
  | b :: bs, a :: as =>
    match retainBy bs as with
    | none => none
    | some l => some (if b ≠ 0 then a :: l else l)

/-- The parallel vectors of `DihedralElements` (`trishell.rs:334-356`), before faces are
renumbered. Numbers are rationals; they are only copied and compared with zero. -/
structure Elems where
  dihedrals : List Edge
  refAngles : List ℚ
  angles : List ℚ
  refLength : List ℚ
  stiffness : List ℚ

/-- `trishell.rs:435-439`: the average of the stiffnesses of the two faces. -/
def averages (cellStiffness : List ℚ) : List Edge → Option (List ℚ)
  | [] => some []
  | e :: l =>
    match cellStiffness[e.f0]?, cellStiffness[e.f1]?, averages cellStiffness l with
    | some a, some b, some r => some (0.5 * (a + b) :: r)
    | _, _, _ => none

/-- `trishell.rs:444-459`: pruning, with the assertions. -/
def prune (e : Elems) : Option Elems :=
  match retainBy e.stiffness e.dihedrals, retainBy e.stiffness e.angles,
      retainBy e.stiffness e.refAngles, retainBy e.stiffness e.refLength with
  | some d, some a, some r, some l =>
    let s := e.stiffness.filter (fun b => b ≠ 0)
    if d.length = s.length ∧ d.length = a.length ∧ d.length = r.length ∧ d.length = l.length then
      some ⟨d, r, a, l, s⟩
    else none
  | _, _, _, _ => none

/-- The state of the renumbering loop: `triangle_map`, `triangles`, `orig_cell_indices`. -/
structure Renum where
  map : List (Option ℕ)
  triangles : List (ℕ × ℕ × ℕ)
  orig : List ℕ

/-- `trishell.rs:469-484`: one face; `none` is an index out of bounds. Dihedrals refer to triangles
only (`detected_are_triangles`), so that cells of other kinds are left out (`none`). -/
def renumFace (cells : List Cell) (s : Renum) (f : ℕ) : Option (ℕ × Renum) :=
  match s.map[f]? with
  | none => none
  | some (some i) => some (i, s)
  | some none =>
    match cells[f]? with
    | some (.tri a b c) =>
      some (s.triangles.length,
        ⟨s.map.set f (some s.triangles.length), s.triangles ++ [(a, b, c)], s.orig ++ [f]⟩)
    | _ => none

/-- `trishell.rs:468-485`, the loop over the dihedrals. -/
def renumber (cells : List Cell) : Renum → List Edge → Option (List Edge × Renum)
  | s, [] => some ([], s)
  | s, e :: l =>
    match renumFace cells s e.f0 with
    | none => none
    | some (i, s1) =>
      match renumFace cells s1 e.f1 with
      | none => none
      | some (j, s2) =>
        match renumber cells s2 l with
        | none => none
        | some (es, s3) => some ({ e with f0 := i, f1 := j } :: es, s3)

/-- `trishell.rs:463-467`: the initial state. -/
def Renum.init (cells : List Cell) : Renum := ⟨List.replicate cells.length none, [], []⟩

/-- `trishell.rs:435-498`: the elements and the renumbering from the edges, their reference angles,
angles and lengths, and the bending stiffness of the cells. -/
def build (cells : List Cell) (cellStiffness : List ℚ) (es : List Edge)
    (refAngles angles refLength : List ℚ) : Option (Elems × Renum) :=
  match averages cellStiffness es with
  | none => none
  | some s =>
    match prune ⟨es, refAngles, angles, refLength, s⟩ with
    | none => none
    | some e =>
      match renumber cells (Renum.init cells) e.dihedrals with
      | none => none
      | some (d, r) => some ({ e with dihedrals := d }, r)

end Softy.Dihedral
