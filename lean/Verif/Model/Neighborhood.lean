import Verif.Model.Field
import Verif.Model.ContactJacobian

/-!
# Cached neighborhoods of query points

Model of `implicits/src/field/neighbor_cache.rs`, of `QueryTopo::reset` in
`implicits/src/field/query.rs`, and of the padding of neighborhoods that
`softy/src/constraints/penalty_point_contact.rs` derives from velocities.

The hash function of the standard library is a parameter with values below `2 ^ 64`, and so are the
two queries of the spatial tree (crate `rstar`), whose contracts are stated with the theorems. A
`BTreeSet` of indices is modelled as a sorted list without duplicates. Parallel loops compute
independent entries and join flags with `or`, in any order. `none` stands for a panic.
-/

noncomputable section

namespace Softy.Neighborhood

open Softy Softy.Field

/-- `Vec::resize(n, d)`. -/
def resize {α : Type*} (l : List α) (n : ℕ) (d : α) : List α :=
  l.take n ++ List.replicate (n - l.length) d

/-- `neighbor_cache.rs:6-33`, `compute_closest_set`: whether the set changed, and the new set. -/
def computeClosest (Q : List (V3 ℝ)) (closest : V3 ℝ → ℕ) (set : List ℕ) : Bool × List ℕ :=
  let changed := decide (Q.length ≠ set.length)
  let r := (Q.zip (resize set Q.length 0)).map fun p => (decide (p.2 ≠ closest p.1), closest p.1)
  (changed || r.any (·.1), r.map (·.2))

/-- `neighbor_cache.rs:96-125`, `compute_trivial_set`. -/
def computeTrivial (hash : List ℕ → Fin (2 ^ 64)) (Q : List (V3 ℝ)) (neigh : V3 ℝ → List ℕ)
    (cache : List (List ℕ)) : Bool × List (List ℕ) :=
  let changed := decide (Q.length ≠ cache.length)
  let r := (Q.zip (resize cache Q.length [])).map fun p =>
    (decide (hash p.2 ≠ hash (neigh p.1)), neigh p.1)
  (changed || r.any (·.1), r.map (·.2))

/-- Insertion into a `BTreeSet`. -/
def insertSorted (a : ℕ) : List ℕ → List ℕ
  | [] => [a]
  | b :: l => if a < b then a :: b :: l else if a = b then b :: l else b :: insertSorted a l

/-- Elements of a `BTreeSet` after inserting all elements of a list. -/
def sortedSet (l : List ℕ) : List ℕ := l.foldl (fun s a => insertSorted a s) []

/-- The two loops of `compute_dual_topo`: the triangle with index `t` is added to its corners. -/
def pushTri (d : List (List ℕ)) (T : Tri) (t : ℕ) : List (List ℕ) :=
  [T.a, T.b, T.c].foldl (fun d v => d.modify v (· ++ [t])) d

/-- `builder.rs:148-162`, `compute_dual_topo`. Corners out of range, where the code panics, are left
out. -/
def computeDual (n : ℕ) (tris : List Tri) : List (List ℕ) :=
  if tris = [] then []
  else tris.zipIdx.foldl (fun d p => pushTri d p.1 p.2) (List.replicate n [])

/-- Corners of all triangles around a vertex,
`dual_topo[pt].iter().flat_map(|&tri| tri_topo[tri].iter())`; `none` if an index is out of range. -/
def ring (tris : List Tri) (dual : List (List ℕ)) (pt : ℕ) : Option (List ℕ) :=
  dual[pt]? >>= fun ts => (ts.mapM fun t => tris[t]?).map fun l => l.flatMap fun T => [T.a, T.b, T.c]

/-- The closure of `compute_extended_set` (lines 165-174): the extended set of one query point. -/
def extend (tris : List Tri) (dual : List (List ℕ)) (ty : SampleType) (triv : List ℕ) :
    Option (List ℕ) :=
  if ty = .vertex ∧ dual ≠ [] then
    (triv.mapM (ring tris dual)).map fun rings => sortedSet (triv ++ rings.flatten)
  else some (sortedSet triv)

/-- `neighbor_cache.rs:135-183`, `compute_extended_set`; `none` also where it returns `None`, as its
caller unwraps the result. -/
def computeExtended (hash : List ℕ → Fin (2 ^ 64)) (Q : List (V3 ℝ)) (tris : List Tri)
    (dual : List (List ℕ)) (ty : SampleType) (triv ext : List (List ℕ)) :
    Option (Bool × List (List ℕ)) :=
  if triv.length ≠ Q.length then none
  else
    let changed := decide (Q.length ≠ ext.length)
    ((triv.zip (resize ext Q.length [])).mapM fun p =>
      (extend tris dual ty p.1).map fun e => (decide (hash p.2 ≠ hash e), e)).map fun r =>
        (changed || r.any (·.1), r.map (·.2))

/-- `neighbor_cache.rs:42-52`, `Neighborhood`. -/
structure Nbh where
  closest : List ℕ
  trivial : List (List ℕ)
  extended : List (List ℕ)
  deriving DecidableEq

/-- `neighbor_cache.rs:55-61`, `new`. -/
def Nbh.new : Nbh := ⟨[], [], []⟩

/-- `neighbor_cache.rs:187-210`, `compute_neighborhoods`. The flags are joined without shortcut, so
that all three sets are computed. -/
def computeNeighborhoods (hash : List ℕ → Fin (2 ^ 64)) (Q : List (V3 ℝ)) (neigh : V3 ℝ → List ℕ)
    (closest : V3 ℝ → ℕ) (tris : List Tri) (dual : List (List ℕ)) (ty : SampleType) (N : Nbh) :
    Option (Bool × Nbh) :=
  let c := computeClosest Q closest N.closest
  let t := computeTrivial hash Q neigh N.trivial
  (computeExtended hash Q tris dual ty t.2 N.extended).map fun e =>
    (c.1 || t.1 || e.1, ⟨c.2, t.2, e.2⟩)

/-- `query.rs:56-106`, `reset` of a local surface: `locate r2 q` and `nearest q` are the queries of
the spatial tree. -/
def reset (hash : List ℕ → Fin (2 ^ 64)) (locate : ℝ → V3 ℝ → List ℕ) (nearest : V3 ℝ → ℕ)
    (radius maxStep : ℝ) (tris : List Tri) (dual : List (List ℕ)) (ty : SampleType)
    (Q : List (V3 ℝ)) (N : Nbh) : Option (Bool × Nbh) :=
  computeNeighborhoods hash Q (locate ((radius + maxStep) * (radius + maxStep))) nearest tris dual ty N

/-! ## Padding of neighborhoods in contact constraints -/

open ContactBasis ContactJacobian

/-- The parts of a contact constraint that the functions below use. The radius of a global surface is
infinite, `none`. -/
structure StepBound (nv ns nk nc : ℕ) where
  /-- `contact_jacobian`, with the index maps that its product needs. -/
  jac : Option (Jac nv ns nk nc)
  basis : ContactBasis
  radius : Option ℝ
  maxStep : ℝ

variable {nv ns nk nc : ℕ}

/-- `max_by` with a default: lines 1788-1789 and 1831-1832. -/
def maxOrZero : List ℝ → ℝ
  | [] => 0
  | x :: l => l.foldl max x

/-- Lines 1775-1791 and 1818-1834: the largest normal velocity over all contacts; `none` where the
frame of a contact is missing. -/
def maxNormalVelocity (J : Jac nv ns nk nc) (basis : ContactBasis) (vel : Fin nv → V3 ℝ) :
    Option ℝ :=
  ((List.finRange nc).mapM fun i => (basis.toContactCoordinates (mul J vel i) i).map V3.x).map maxOrZero

/-- `penalty_point_contact.rs:1767-1800`, `max_step_violated`. -/
def maxStepViolated (s : StepBound nv ns nk nc) (vel : Fin nv → V3 ℝ) (dt : ℝ) : Option Bool :=
  open Classical in
  match s.jac with
  | none => some false
  | some J => (maxNormalVelocity J s.basis vel).map fun v =>
    match s.radius with
    | none => false
    | some r => decide (v * dt > s.maxStep + r)

/-- `penalty_point_contact.rs:1808-1840`, `compute_max_step`. -/
def computeMaxStep (s : StepBound nv ns nk nc) (vel : Fin nv → V3 ℝ) (dt : ℝ) : Option ℝ :=
  match s.jac with
  | none => some 0
  | some J => (maxNormalVelocity J s.basis vel).map fun v =>
    match s.radius with
    | none => 0
    | some r => max 0 (1001 / 1000 * (v * dt) - r)

/-- `penalty_point_contact.rs:1802-1806`, `set_max_step`, with `query.rs:275-279`: global surfaces
have no padding. -/
def setMaxStep (s : StepBound nv ns nk nc) (step : ℝ) : StepBound nv ns nk nc :=
  match s.radius with
  | none => s
  | some _ => { s with maxStep := step }

end Softy.Neighborhood
