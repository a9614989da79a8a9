import Verif.Model.Field

/-!
# Potentials at many points

Model of `potential`, `potential_par`, `potential_par_interrupt` and `local_potential` of
`implicits/src/field/query.rs`, and of `compute_potential_on_mesh` of `implicits/src/field.rs`.

Loops over query points run in parallel. The only state that their tasks share is that of the function
`interrupt`: each task calls it once, before it does anything else, and then reads and writes the values of its own
query point. Hence an execution is given by the order of these calls and their answers. The attributes `tangents` and
`alt_potential` are not modelled.
-/

noncomputable section

namespace Softy.Field

open Softy Softy.Kernel

/-! ## Parallel loops -/

/-- The loops `query.rs:902-921` and `field.rs:616-746`: `order` is the order in which tasks call `interrupt`, and
`poll n` is the answer to call `n`. A task that is interrupted returns an error; `reduce` with `and` (`query.rs:921`,
`field.rs:746`) gives success if all tasks succeed, and does not stop other tasks. -/
def parLoop {α : Type} (f : ℕ → α → α) (poll : ℕ → Bool) : ℕ → List ℕ → List α → List α × Bool
  | _, [], s => (s, true)
  | n, i :: l, s =>
    if poll n then ((parLoop f poll (n + 1) l s).1, false)
    else parLoop f poll (n + 1) l (s.modify i (f i))

/-! ## Queries -/

/-- What `QueryTopo` (`query.rs:16-30`) holds: the samples, the kernel, the parameters of the background, and the
neighborhood of each query point that it was made for. -/
structure Topo where
  S : Samples
  k : Kern
  P : BgParams
  views : List (List ℕ)

namespace Topo

variable (T : Topo)

/-- The task of query point `i`: `compute_potential_at` for points with a neighborhood, none otherwise, as `zip!` stops
at the end of the shortest list. -/
def task (qs : List (V3 ℝ)) (i : ℕ) (old : ℝ) : ℝ :=
  match qs[i]?, T.views[i]? with
  | some q, some v => potentialAt q v T.S T.k T.P old
  | _, _ => old

/-- `compute_potential` (`query.rs:853-881`), called by `potential` (785-796); `none` where the assertion fails. -/
def potential (qs : List (V3 ℝ)) (field : List ℝ) : Option (List ℝ) :=
  if T.views.length = field.length then some (field.mapIdx (T.task qs)) else none

/-- The tasks that run: as many as there are points with neighborhoods. -/
def numTasks (qs : List (V3 ℝ)) : ℕ := min qs.length T.views.length

/-- `compute_potential_par` (`query.rs:883-922`), called by `potential_par_interrupt` (811-835), and, with a function
that always answers `false`, by `potential_par` (798-809). -/
def potentialPar (poll : ℕ → Bool) (order : List ℕ) (qs : List (V3 ℝ)) (field : List ℝ) : Option (List ℝ × Bool) :=
  if T.views.length = field.length then some (parLoop (T.task qs) poll 0 order field) else none

/-- The points that `compute_local_potential` visits (`query.rs:943-944`). -/
def visited (qs : List (V3 ℝ)) : List (V3 ℝ × List ℕ) := (qs.zip T.views).filter fun p => !p.2.isEmpty

/-- `compute_local_potential` (`query.rs:924-956`), called by `local_potential` (838-850). -/
def localPotential (qs : List (V3 ℝ)) (field : List ℝ) : List ℝ :=
  field.mapIdx fun j old =>
    match (T.visited qs)[j]? with
    | some p => potentialAt p.1 p.2 T.S T.k T.P old
    | none => old

/-- `nonempty_neighborhood_indices` (`query.rs:476-497`). -/
def nonemptyIndices : List ℕ := (List.range T.views.length).filter fun i => !(T.views.getD i []).isEmpty

end Topo

/-! ## Meshes -/

/-- The attribute `potential` of the mesh: absent, of a type that can be cast to `f32`, or of another type. -/
inductive PotentialAttrib where
  | absent
  | numeric (values : ℕ → ℝ)
  | other

/-- The values at the start: `field.rs:575-588`. -/
def PotentialAttrib.init : PotentialAttrib → ℕ → ℝ
  | .absent, _ => 0
  | .numeric v, i => v i
  | .other, _ => 0

/-- What is written to the attributes of a vertex. -/
structure MeshVertex where
  potential : ℝ
  numNeighbors : ℤ
  neighbors : List ℤ
  bgWeight : ℝ
  weightSum : ℝ
  normal : V3 ℝ

/-- The values before the loop: `field.rs:575-616`. -/
def MeshVertex.init (old : ℝ) : MeshVertex := ⟨old, 0, List.replicate 11 (-1), 0, 0, 0⟩

/-- `out_normal`: `field.rs:688-716`; `n` is the number of samples. The sum of the gradients of weights is over all
samples. -/
def meshNormal (b : Bg) (n : ℕ) : V3 ℝ :=
  let sumGrad := b.weightSumInv • ((List.range n).map (weightGrad b.kernel b.dist b.q b.S)).sum
  (b.view.map fun i =>
    let wn := weight b.kernel b.dist b.q b.S i * b.weightSumInv
    let gn := b.weightSumInv • weightGrad b.kernel b.dist b.q b.S i - wn • sumGrad
    V3.dot (b.q - b.S.pos i) (b.S.nml i) • gn + wn • b.S.nml i).sum

/-- The surface, with the neighborhood and the closest sample that `QueryTopo::new` (`query.rs:36-107`) finds for each
point. -/
structure MeshSurface where
  S : Samples
  count : ℕ
  k : Kern
  P : BgParams
  reach : V3 ℝ → List ℕ
  near : V3 ℝ → ℕ

/-- The task of a vertex at `q`: `field.rs:646-743`. Values are rounded to single precision by `rnd`. -/
def MeshSurface.vertex (M : MeshSurface) (rnd : ℝ → ℝ) (q : V3 ℝ) (o : MeshVertex) : MeshVertex :=
  let view := M.reach q
  let b := Bg.global q view M.S (M.near q) M.k M.P (some o.potential)
  let background := rnd (b.weightSumInv * b.weightedField)
  { potential :=
      if view.isEmpty then background
      else rnd (background + rnd (localPotentialAt q view M.S M.k b.weightSumInv b.dist))
    numNeighbors := view.length
    neighbors := (view.take 11).map (fun i : ℕ => (i : ℤ)) ++ o.neighbors.drop (view.take 11).length
    bgWeight := rnd b.bgWeight
    weightSum := rnd b.weightSum
    normal := if view.isEmpty then o.normal else
      let n := meshNormal b M.count
      ⟨rnd n.x, rnd n.y, rnd n.z⟩ }

/-- The task of vertex `i`. -/
def MeshSurface.task (M : MeshSurface) (rnd : ℝ → ℝ) (pos : List (V3 ℝ)) (i : ℕ) (o : MeshVertex) : MeshVertex :=
  match pos[i]? with
  | some q => M.vertex rnd q o
  | none => o

/-- `compute_on_mesh` (`field.rs:558-762`), for `compute_potential_on_mesh` (857-870): the attributes are set whether or
not the loop was interrupted (749-759). -/
def MeshSurface.computeOnMesh (M : MeshSurface) (rnd : ℝ → ℝ) (poll : ℕ → Bool) (order : List ℕ) (pos : List (V3 ℝ))
    (a : PotentialAttrib) : List MeshVertex × Bool :=
  parLoop (M.task rnd pos) poll 0 order ((List.range pos.length).map fun i => MeshVertex.init (a.init i))

/-- The queries for the vertices of the mesh. -/
def MeshSurface.topo (M : MeshSurface) (pos : List (V3 ℝ)) : Topo := ⟨M.S, M.k, M.P, pos.map M.reach⟩

end Softy.Field
