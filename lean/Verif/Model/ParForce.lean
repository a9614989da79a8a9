import Mathlib.Algebra.Group.Basic
import Mathlib.Algebra.Group.Pi.Basic
import Mathlib.Algebra.BigOperators.Group.List.Basic

/-!
# Model of the parallel accumulation of contact forces

`softy/src/constraints/penalty_point_contact.rs:2292-2333`, `subtract_constraint_force_par`,
with the chunking of `implicits/src/field/jacobian.rs`.

Forces live in an arbitrary commutative group `V` (exact arithmetic). The contributions of a
query point, computed by the implicit surface from that point alone, are a parameter
`contrib : index → point → list of (vertex, j · λ)`; both versions of the loop call the same
code for one point.
-/

namespace Softy.ParForce

variable {Q V : Type*} [AddCommGroup V]

/-- One contribution `(col, j * lambda[row])`. -/
abbrev Op (V : Type*) := ℕ × V

/-- `penalty_point_contact.rs:2233` and `2320`: `f[col] -= j * lambda[row]`. -/
def subtractOp (f : ℕ → V) (o : Op V) : ℕ → V := Function.update f o.1 (f o.1 - o.2)

/-- The contributions in the order of the sequential iterator: query points in order
(`implicits/src/field/jacobian.rs`, `*_iter_impl`). -/
def seqOps (contrib : ℕ → Q → List (Op V)) (qs : List Q) : List (Op V) :=
  qs.zipIdx.flatMap fun q => contrib q.2 q.1

/-- `penalty_point_contact.rs:2224-2235`, `subtract_constraint_force`: the surface
contributions followed by the collider ones. -/
def subtractSeq (surf coll : ℕ → Q → List (Op V)) (qs : List Q) (f : ℕ → V) : ℕ → V :=
  (seqOps surf qs ++ seqOps coll qs).foldl subtractOp f

/-- `jacobian.rs:189` and `673`: `(query_points.len() + num_chunks - 1) / num_chunks`. -/
def chunkSize (len workers : ℕ) : ℕ := (len + workers - 1) / workers

/-- `slice::par_chunks`: consecutive pieces of length `k`, the last one possibly shorter. -/
def parChunks (k : ℕ) (l : List Q) : List (List Q) :=
  (List.range ((l.length + k - 1) / k)).map fun i => (l.drop (i * k)).take k

/-- `jacobian.rs:200-239` and `678-707`: what worker `w` does, in order. Workers are zipped
with the chunks; a worker without a chunk does nothing, chunks beyond the number of workers
are dropped. The row index is `chunk_idx * chunk_size + local_idx`. -/
def workerOps (contrib : ℕ → Q → List (Op V)) (qs : List Q) (workers w : ℕ) : List (Op V) :=
  let k := chunkSize qs.length workers
  if w < workers then
    match (parChunks k qs)[w]? with
    | some c => c.zipIdx.flatMap fun q => contrib (w * k + q.2) q.1
    | none => []
  else []

/-- One step of the parallel loop: worker `e.1` applies `e.2` to its own workspace. -/
def stepWs (ws : ℕ → ℕ → V) (e : ℕ × Op V) : ℕ → ℕ → V :=
  Function.update ws e.1 (subtractOp (ws e.1) e.2)

/-- `schedule` is an interleaving of the sequences `ops w`: every worker performs exactly its
own operations, in its own order. -/
def IsSchedule (ops : ℕ → List (Op V)) (schedule : List (ℕ × Op V)) : Prop :=
  ∀ w, (schedule.filter fun e => e.1 == w).map Prod.snd = ops w

/-- `penalty_point_contact.rs:2325-2332`: add the workspaces into `f`, one after another. -/
def merge (workers : ℕ) (ws : ℕ → ℕ → V) (f : ℕ → V) : ℕ → V :=
  (List.range workers).foldl (fun f w => fun c => f c + ws w c) f

/-- `penalty_point_contact.rs:2292-2333`, `subtract_constraint_force_par`, for one
interleaving of the surface loop and one of the collider loop (the first loop is joined
before the second starts). `par_chunks` panics on chunks of size zero, that is for an empty
list of query points: `none`. -/
def subtractPar (workers : ℕ) (qs : List Q) (s1 s2 : List (ℕ × Op V)) (f : ℕ → V) :
    Option (ℕ → V) :=
  if chunkSize qs.length workers = 0 then none
  else
    let ws0 : ℕ → ℕ → V := fun _ _ => 0
    some (merge workers ((s1 ++ s2).foldl stepWs ws0) f)

end Softy.ParForce
