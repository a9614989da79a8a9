import Verif.Model.SurfaceQuery
import Verif.Model.FieldMesh

/-!
# What a query says about its neighborhoods

Model of the accessors of `QueryTopo` in `implicits/src/field/query.rs:194-252`.
-/

noncomputable section

namespace Softy.NeighborReport

open Softy Softy.Kernel Softy.Field Softy.SurfaceQuery

/-- `nonempty_neighborhood_indices_impl` (`query.rs:477-486`). -/
def nonemptyIndices (l : List (List ℕ)) : List ℕ :=
  (l.zipIdx.filter fun p => !p.1.isEmpty).map (·.2)

/-- `nonempty_neighborhood_indices` (`query.rs:206-215`). -/
def nonempty (Q : Query) : List ℕ :=
  match Q.sampleType with
  | .vertex => nonemptyIndices Q.cache.extended
  | .face => nonemptyIndices Q.cache.trivial

/-- `neighborhood_sizes` (`query.rs:218-223`). -/
def sizes (Q : Query) : List ℕ :=
  match Q.sampleType with
  | .vertex => Q.cache.extended.map List.length
  | .face => Q.cache.trivial.map List.length

/-- The indices that `neighborhood_vertex_indices` (`query.rs:226-249`) collects in a hash set. -/
def collected (Q : Query) : List ℕ :=
  match Q.sampleType with
  | .vertex => Q.cache.trivial.flatten
  | .face => Q.cache.trivial.flatten.flatMap fun j => [(Q.tris j).a, (Q.tris j).b, (Q.tris j).c]

/-- `neighborhood_vertex_indices` (`query.rs:226-249`): `r` is a result, in any order in which the hash set may be
read. -/
def VertexIndices (Q : Query) (r : List ℕ) : Prop := r.Perm (collected Q).dedup

/-- The samples of the surface with vertices at `x`, `field.rs:297-330`, `update_samples`, which
`update_surface` (`query.rs:299-304`) calls; the query keeps its neighborhoods. -/
def samplesAt (Q : Query) (x : ℕ → V3 ℝ) : Samples :=
  match Q.sampleType with
  | .vertex => vertexSamples Q.faces x Q.S.vel Q.S.value
  | .face => faceSamples Q.tris x Q.S.value

/-- The query after `update_surface` with vertices at `x`. -/
def moved (Q : Query) (x : ℕ → V3 ℝ) : Query := { Q with S := samplesAt Q x, x := x }

/-- What the potential is computed from (`query.rs:853-956`). -/
def topo (Q : Query) : Field.Topo := ⟨Q.S, Q.kernel, Q.params, Q.cache.trivial⟩

end Softy.NeighborReport
