import Verif.Model.Vec
import Mathlib.Algebra.Order.Field.Basic

/-!
# Model of the contact and friction line-search assists

`softy/src/constraints/penalty_point_contact.rs:2067-2221` and
`softy/src/fem/nl/problem/assisted_line_search.rs`.

Scalars are an ordered field. Reading the vertex of a contact is an index lookup on both
forces; the model attaches the squared norms of the two forces to the contact.
-/

namespace Softy.LineSearchAssist

variable {K : Type*} [Field K] [LinearOrder K] [IsStrictOrderedRing K]

/-- What the contact loop reads about one contact: the distance before (`d1`) and at the
trial point (`d2`), and the squared residual norms at its vertex. -/
structure Contact (K : Type*) where
  d1 : K
  d2 : K
  f1 : K
  f2 : K

/-- `penalty_point_contact.rs:2099` and `2105`: the contact would be penetrated and the
residual grows. -/
def triggers (delta : K) (c : Contact K) : Prop := c.d1 > delta ∧ c.d2 ≤ 0 ∧ c.f2 > c.f1

instance (delta : K) (c : Contact K) : Decidable (triggers delta c) := by
  unfold triggers; infer_instance

/-- `penalty_point_contact.rs:2106`, `candidate_alpha`. -/
def candidate (delta : K) (c : Contact K) : K := (c.d1 - 1 / 2 * delta) / (c.d1 - c.d2)

/-- Body of the loop, `penalty_point_contact.rs:2098-2110`. -/
def contactStep (delta : K) (alpha : K) (c : Contact K) : K :=
  if triggers delta c then min alpha (candidate delta c) else alpha

/-- `penalty_point_contact.rs:2067-2114`, `assist_line_search_for_contact`, after the
distances have been computed. -/
def assistContact (delta alpha : K) (cs : List (Contact K)) : K := cs.foldl (contactStep delta) alpha

/-- A contact constraint: its tolerance and its contacts. -/
abbrev Constraint (K : Type*) := K × List (Contact K)

/-- Body of the loop `assisted_line_search.rs:74-85`. -/
def problemStep (alpha : K) (fc : Constraint K) : K := min alpha (assistContact fc.1 alpha fc.2)

/-- `assisted_line_search.rs:33-87`, `assist_line_search_for_contact` of the problem. -/
def problemAssist (alpha : K) (fcs : List (Constraint K)) : K := fcs.foldl problemStep alpha

/-- The distances of a constraint as cached in its contact state, together with what is
needed to compute them: `dist` maps vertex positions to distances
(`penalty_point_contact.rs:1233-1241`). -/
structure ContactState (X K : Type*) where
  dist : X → List K
  cached : List K

/-- `penalty_point_contact.rs:1720-1727` followed by `1233-1241`: `update_state` and
`update_distance_potential`. -/
def ContactState.update {X : Type*} (s : ContactState X K) (x : X) : ContactState X K :=
  { s with cached := s.dist x }

/-- `penalty_point_contact.rs:2067-2114` with its side effect on the contact state: stash the
cached distances, recompute them at `posNext`, compare. `f1`, `f2` are the squared residual
norms per contact. -/
def ContactState.assist {X : Type*} (s : ContactState X K) (delta alpha : K) (posNext : X)
    (f1 f2 : List K) : K × ContactState X K :=
  let s' := s.update posNext
  let cs := List.zipWith (fun (d : K × K) (f : K × K) => (⟨d.1, d.2, f.1, f.2⟩ : Contact K))
    (s.cached.zip s'.cached) (f1.zip f2)
  (assistContact delta alpha cs, s')

/-- `newton.rs:1462-1488`, the part of the Newton iteration around the contact assist: the
state is first updated to the full step (`problem.update_state(x, ..)` with `x` already
incremented, which moves the vertices and recomputes the cached distances,
`problem.rs:2861-2889`), then the assist is called with the vertex positions of the state. -/
def newtonAssist {X : Type*} (s : ContactState X K) (delta : K) (full : X) (f1 f2 : List K) : K :=
  ((s.update full).assist delta 1 full f1 f2).1

/-! ## Friction -/

/-- What the friction loop reads about a contact: distance, tangential velocity and search
direction (in the frame of the previous iterate) and the squared residual norms. -/
structure Sliding (K : Type*) where
  d2 : K
  v : V2 K
  p : V2 K
  f1 : K
  f2 : K

/-- `1e-10`, `penalty_point_contact.rs:2147`. -/
def alphaMin : K := 1 / 10 ^ 10

/-- `penalty_point_contact.rs:2194-2217`: the step suggested by one contact, if any. -/
def frictionCandidate (delta alpha : K) (c : Sliding K) : Option K :=
  if c.d2 ≤ delta ∧ c.f2 > c.f1 then
    let pDotV := alpha * c.p.dot c.v
    let vDotV := c.v.dot c.v
    if pDotV ≤ -vDotV then
      let cand := -vDotV / pDotV
      if cand < alpha ∧ cand > alphaMin then some cand else none
    else none
  else none

/-- `penalty_point_contact.rs:2116-2221`, `assist_line_search_for_friction`: sum and number of
the accepted steps. -/
def assistFriction (delta alpha : K) (cs : List (Sliding K)) : K × ℕ :=
  let l := cs.filterMap (frictionCandidate delta alpha)
  (l.sum, l.length)

/-- `assisted_line_search.rs:91-168`: average over all contacts of all constraints. Each
constraint carries whether it has friction. -/
def problemFriction (alpha : K) (fcs : List (Bool × K × List (Sliding K))) : K :=
  if fcs.any (fun fc => fc.1) then
    let rs := fcs.map fun fc => if fc.1 then assistFriction fc.2.1 alpha fc.2.2 else (0, 0)
    let total := (rs.map Prod.fst).sum
    let num := (rs.map Prod.snd).sum
    if 0 < num then total / num else alpha
  else alpha

end Softy.LineSearchAssist
