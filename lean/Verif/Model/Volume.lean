import Verif.Model.Objective

/-!
# Volume change penalty

Model of `softy/src/constraints/volume_change_penalty.rs`, and of its use in
`softy/src/fem/nl/problem.rs`. Positions are functions of the vertex number; vectors of all
coordinates are functions of `3 * vertex + component`. Divisions by zero are excluded by
hypotheses of the theorems.
-/

noncomputable section

namespace Softy.Volume

open Softy Assembly

/-- `VolumeChangePenalty`: volume_change_penalty.rs lines 17-43. -/
structure Penalty where
  topo : List (Fin 3 → ℕ)
  restVolume : ℝ
  pressurization : ℝ
  compression : ℝ
  approx : Bool

/-- `PRESSURE_ATM`: line 15. -/
def pressureAtm : ℝ := 101325

/-- `compute_signed_volume_from_topo`: lines 206-215. -/
def signedVolume (topo : List (Fin 3 → ℕ)) (x : ℕ → V3 ℝ) : ℝ :=
  (topo.map fun t => V3.dot (x (t 0)) (V3.cross (x (t 1)) (x (t 2)))).sum / 6

namespace Penalty

variable (P : Penalty)

/-- `dv` of lines 239, 338 and 429. -/
def dv (x : ℕ → V3 ℝ) : ℝ := signedVolume P.topo x / (P.pressurization * P.restVolume) - 1

/-- `compute_penalty`: lines 232-242. -/
def energy (x : ℕ → V3 ℝ) : ℝ :=
  pressureAtm * P.restVolume *
    (P.dv x * P.dv x * P.pressurization / (P.compression * 2) + 1)

/-- The normals `c` of lines 343 and 434. -/
def normals (t : Fin 3 → ℕ) (x : ℕ → V3 ℝ) : Fin 3 → V3 ℝ :=
  ![V3.cross (x (t 1)) (x (t 2)), V3.cross (x (t 2)) (x (t 0)), V3.cross (x (t 0)) (x (t 1))]

/-- The columns of `penalty_jacobian_indices_iter`: lines 318-330. -/
def jacobianIndices : List ℕ :=
  P.topo.flatMap fun t => (List.finRange 3).flatMap fun vi =>
    (List.finRange 3).map fun j => 3 * t vi + j.val

/-- `penalty_jacobian_values_iter`: lines 333-353. -/
def jacobianValues (x : ℕ → V3 ℝ) : List ℝ :=
  let factor := pressureAtm * P.dv x / (P.compression * 6)
  P.topo.flatMap fun t => (List.finRange 3).flatMap fun vi =>
    (List.finRange 3).map fun j => (normals t x vi).get j * factor

/-- `force[col] += val`. -/
def addScalars : List (ℕ × ℝ) → (ℕ → ℝ) → (ℕ → ℝ)
  | [], F => F
  | (i, a) :: l, F => addScalars l (Function.update F i (F i + a))

/-- `subtract_pressure_force`: lines 249-257. -/
def subtractForce (x : ℕ → V3 ℝ) (F : ℕ → ℝ) : ℕ → ℝ :=
  addScalars (P.jacobianIndices.zip (P.jacobianValues x)) F

/-- `penalty_jacobian_size`: lines 260-262. -/
def jacobianSize : ℕ := 3 * 3 * P.topo.length

/-- `penalty_hessian_size`: lines 280-286. -/
def hessianSize : ℕ :=
  6 * 2 * 3 * P.topo.length + if P.approx then 0 else P.jacobianSize * P.jacobianSize

/-- `skew`: lines 364-370. -/
def skew (x : V3 ℝ) : M3 ℝ := ⟨⟨0, x.z, -x.y⟩, ⟨-x.z, 0, x.x⟩, ⟨x.y, -x.x, 0⟩⟩

/-- `penalty_hessian_iter`: lines 376-393, without the vertex numbers: row, column, the vertex `vi`
of the column and the offset `off` to that of the row. -/
def hessianIter : List (Fin 3 × Fin 3 × Fin 3 × Fin 3) :=
  (List.finRange 3).flatMap fun vi => [(1 : Fin 3), 2].flatMap fun off =>
    (List.finRange 3).flatMap fun c =>
      ((List.finRange 3).filter fun r => decide (r ≠ c)).map fun r => (r, c, vi, off)

/-- `penalty_hessian_indices_iter`: lines 395-421. The sum of the local vertex numbers is modulo
three, as is that of numbers in `Fin 3`. -/
def hessianIndices : List (ℕ × ℕ) :=
  P.topo.flatMap fun t =>
    (hessianIter.map fun e => (3 * t (e.2.2.1 + e.2.2.2) + e.1.val, 3 * t e.2.2.1 + e.2.1.val)) ++
      if P.approx then [] else
        P.topo.flatMap fun u => (List.finRange 3).flatMap fun vi => (List.finRange 3).flatMap fun vj =>
          (List.finRange 3).flatMap fun i => (List.finRange 3).map fun j =>
            (3 * t vi + i.val, 3 * u vj + j.val)

/-- `penalty_hessian_values_iter`: lines 423-465, with `lambda[0] = 1`, and the scale of
`penalty_hessian_values`: lines 292-309. -/
def hessianValues (x : ℕ → V3 ℝ) (scale : ℝ) : List ℝ :=
  let dv := P.dv x
  let factor := pressureAtm / (P.compression * 6)
  (P.topo.flatMap fun t =>
    (hessianIter.map fun e =>
      let vjn := e.2.2.1 + e.2.2.2 + e.2.2.2
      let factor := if e.2.2.2 = 1 then factor else -factor
      factor * 1 * (skew (x (t vjn))).at e.2.1 e.1 * dv) ++
      if P.approx then [] else
        P.topo.flatMap fun u => (List.finRange 3).flatMap fun vi => (List.finRange 3).flatMap fun vj =>
          (List.finRange 3).flatMap fun i => (List.finRange 3).map fun j =>
            (normals t x vi).get i * (normals u x vj).get j * 1 * factor
              / (P.pressurization * P.restVolume * 6)).map (· * scale)

end Penalty

/-! ## Zones of a mesh -/

/-- What `try_from_mesh` uses of a cell: its vertices, the reference positions of its vertices, its
zone and its kind, given by the type of the cell and its material. -/
inductive CellKind where
  /-- a tetrahedron of a solid material -/
  | solid (verts : Fin 4 → ℕ) (ref : Fin 4 → V3 ℝ)
  /-- a triangle of a soft shell -/
  | shell (verts : Fin 3 → ℕ)
  /-- anything else -/
  | other

/-- `Tetrahedron::signed_volume` (crate `geo`): a sixth of the determinant of the matrix of the edges
to the last vertex. -/
def tetVolume (p : Fin 4 → V3 ℝ) : ℝ :=
  V3.dot (p 0 - p 3) (V3.cross (p 1 - p 3) (p 2 - p 3)) / 6

/-- What a cell adds to the rest volume: lines 102-139. -/
def restStep (x : ℕ → V3 ℝ) (s : ℝ) : CellKind → ℝ
  | .solid _ ref => s + tetVolume ref
  | .shell v => s - tetVolume ![0, x (v 0), x (v 1), x (v 2)]
  | .other => s

/-- The rest volume of a zone: lines 82-141. -/
def restVolume (cells : List CellKind) (x : ℕ → V3 ℝ) : ℝ := cells.foldl (restStep x) 0

/-- `vtx0.into_option().map(…)`: lines 150-152. -/
def CellKind.tet : CellKind → Option (Fin 4 → ℕ)
  | .solid v _ => some v
  | _ => none

/-- The triangle of a cell whose first vertex is invalid: lines 156-162. -/
def CellKind.tri : CellKind → Option (Fin 3 → ℕ)
  | .shell v => some v
  | _ => none

/-- Whether the cell is one of `zone_cells` in its zone: lines 101-140. -/
def CellKind.used : CellKind → Bool
  | .other => false
  | _ => true

/-- `surface_topo` of a zone: lines 147-163, for the function `surface` of the crate `geo`
(`TetMesh::surface_topo_from_tets`). -/
def zoneTopo (surface : List (Fin 4 → ℕ) → List (Fin 3 → ℕ)) (cells : List CellKind) :
    List (Fin 3 → ℕ) :=
  surface (cells.filterMap CellKind.tet) ++ cells.filterMap CellKind.tri

/-- `zone_params`: default parameters are used for zones without their own (lines 168-179). Zones are
numbered from one; a negative number wraps around and has no entry. -/
def zoneParam {α : Type} (params : List α) (dflt : α) (zone : ℤ) : α :=
  if 0 < zone then params.getD (zone - 1).toNat dflt else dflt

/-- The penalty of one zone, or `none` if it is zone 0 or has no cells: lines 77-182. -/
def zonePenalty (surface : List (Fin 4 → ℕ) → List (Fin 3 → ℕ)) (cells : List (ℤ × CellKind))
    (x : ℕ → V3 ℝ) (pressurizations compressions : List ℝ) (approx : List Bool) (zone : ℤ) :
    Option Penalty :=
  if zone = 0 then none
  else
    let zoneCells := (cells.filter fun c => decide (c.1 = zone) && c.2.used).map Prod.snd
    if zoneCells.isEmpty then none
    else some
      { topo := zoneTopo surface zoneCells
        restVolume := restVolume zoneCells x
        pressurization := zoneParam pressurizations 1 zone
        compression := zoneParam compressions 1 zone
        approx := zoneParam approx true zone }

/-- Remove consecutive duplicates: `Vec::dedup`. -/
def dedup : List ℤ → List ℤ
  | [] => []
  | [a] => [a]
  | a :: b :: l => if a = b then dedup (b :: l) else a :: dedup (b :: l)

/-- `try_from_mesh`: lines 58-185, for a mesh with zone numbers. -/
def tryFromMesh (surface : List (Fin 4 → ℕ) → List (Fin 3 → ℕ)) (cells : List (ℤ × CellKind))
    (x : ℕ → V3 ℝ) (pressurizations compressions : List ℝ) (approx : List Bool) : List Penalty :=
  (dedup ((cells.map Prod.fst).mergeSort fun a b => decide (a ≤ b))).filterMap
    (zonePenalty surface cells x pressurizations compressions approx)

end Softy.Volume
