import Verif.Lemmas.SurfaceQuery
import Verif.Props.FieldSecond
import Verif.Props.SurfaceVelocity

/-!
# C112: derivatives of the potential at many query points are the same in every form

Specification: a sparse matrix is a list of entries, each with a row and a column. A row of it is
applied to a vector by adding the entries of the row times the components that their columns name.
The potential at a query point changes as its row of the Jacobian says.
-/

noncomputable section

namespace Softy.SurfaceQuery

open Softy Softy.Kernel Softy.Field

/-- Specification: component `c` of vectors that are stored one after the other. -/
def flat (v : ℕ → V3 ℝ) (c : ℕ) : ℝ :=
  match c % 3 with
  | 0 => (v (c / 3)).x
  | 1 => (v (c / 3)).y
  | _ => (v (c / 3)).z

/-- Specification: row `i` of a sparse matrix, applied to a vector. -/
def rowSum (es : List ((ℕ × ℕ) × ℝ)) (i : ℕ) (v : ℕ → ℝ) : ℝ :=
  ((es.filter fun e => e.1.1 = i).map fun e => e.2 * v e.1.2).sum

/-- Specification: the bilinear form of a symmetric matrix of which the lower triangle is given. -/
def symForm (es : List ((ℕ × ℕ) × ℝ)) (u w : ℕ → ℝ) : ℝ :=
  (es.map fun e => if e.1.1 = e.1.2 then e.2 * (u e.1.1 * w e.1.2)
    else e.2 * (u e.1.1 * w e.1.2 + u e.1.2 * w e.1.1)).sum

/-- Specification: there is one closest sample for each neighborhood. -/
def Query.Complete (Q : Query) : Prop := Q.cache.closest.length = Q.cache.trivial.length

/-! ## Rows -/

theorem flat_zero (v : ℕ → V3 ℝ) (i : ℕ) : flat v (3 * i) = (v i).x := by
  unfold flat
  rw [show 3 * i % 3 = 0 by omega, show 3 * i / 3 = i by omega]
  rfl

theorem flat_one (v : ℕ → V3 ℝ) (i : ℕ) : flat v (3 * i + 1) = (v i).y := by
  unfold flat
  rw [show (3 * i + 1) % 3 = 1 by omega, show (3 * i + 1) / 3 = i by omega]
  rfl

theorem flat_two (v : ℕ → V3 ℝ) (i : ℕ) : flat v (3 * i + 2) = (v i).z := by
  unfold flat
  rw [show (3 * i + 2) % 3 = 2 by omega, show (3 * i + 2) / 3 = i by omega]
  rfl

theorem rowSum_append (a b : List ((ℕ × ℕ) × ℝ)) (i : ℕ) (v : ℕ → ℝ) :
    rowSum (a ++ b) i v = rowSum a i v + rowSum b i v := by
  unfold rowSum
  rw [List.filter_append, List.map_append, List.sum_append]

theorem rowSum_other {es : List ((ℕ × ℕ) × ℝ)} {i : ℕ} {v : ℕ → ℝ} (h : ∀ e ∈ es, e.1.1 ≠ i) :
    rowSum es i v = 0 := by
  unfold rowSum
  rw [List.filter_eq_nil_iff.2 (by simpa using h)]
  rfl

/-- The row of a list of rows. -/
theorem rowSum_rows {α : Type} (F : α × ℕ → List ((ℕ × ℕ) × ℝ)) (hF : ∀ p, ∀ e ∈ F p, e.1.1 = p.2)
    (v : ℕ → ℝ) : ∀ (l : List α) (n i : ℕ) (a : α), l[i]? = some a →
      rowSum ((l.zipIdx n).flatMap F) (n + i) v = rowSum (F (a, n + i)) (n + i) v := by
  intro l
  induction l with
  | nil => intro n i a h; simp at h
  | cons b l ih =>
    intro n i a h
    rw [List.zipIdx_cons, List.flatMap_cons, rowSum_append]
    cases i with
    | zero =>
      simp only [List.getElem?_cons_zero, Option.some.injEq] at h
      subst h
      rw [Nat.add_zero, rowSum_other (es := (l.zipIdx (n + 1)).flatMap F), add_zero]
      intro e he
      obtain ⟨p, hp, he⟩ := List.mem_flatMap.1 he
      rw [hF p e he]
      have := List.le_snd_of_mem_zipIdx hp
      omega
    | succ i =>
      rw [List.getElem?_cons_succ] at h
      have := ih (n + 1) i a h
      rw [show n + 1 + i = n + (i + 1) by omega] at this
      rw [this, rowSum_other (es := F (b, n)), zero_add]
      intro e he
      rw [hF _ e he]
      show n ≠ _
      omega

/-- A block of a row, applied to vectors. -/
theorem rowSum_block (i c : ℕ) (g : V3 ℝ) (v : ℕ → V3 ℝ) :
    rowSum (((List.range 3).map fun j => (i, 3 * c + j)).zip (coords g)) i (flat v) =
      V3.dot g (v c) := by
  show rowSum [((i, 3 * c + 0), g.x), ((i, 3 * c + 1), g.y), ((i, 3 * c + 2), g.z)] i (flat v) = _
  simp [rowSum, flat_zero, flat_one, flat_two, V3.dot]
  ring

namespace Query

variable (Q : Query)

/-! ## Jacobian with respect to query points -/

/-- The row of query point `i`. -/
def pointRow (p : (V3 ℝ × List ℕ × ℕ) × ℕ) : List (ℕ × ℕ × V3 ℝ) :=
  if p.1.2.1.isEmpty then [] else [(p.2, p.2, Q.jacobianAt p.1.1 p.1.2.1 p.1.2.2)]

/-- All rows, in order. -/
theorem indexed_rows (points : List (V3 ℝ)) :
    Q.queryIndexedPar points = (Q.zipped points).zipIdx.flatMap Q.pointRow := by
  unfold queryIndexedPar queryBlockIndicesPar queryBlocksPar zipped
  generalize Q.cache.trivial = T
  generalize Q.cache.closest = C
  suffices H : ∀ (T : List (List ℕ)) (C : List ℕ) (points : List (V3 ℝ)) (n : ℕ),
      (((T.zipIdx n).map fun p => (p.2, p.2, p.1.length)).zip
        ((points.zip (T.zip C)).map fun p => if (false || !p.2.1.isEmpty) = true then
          some (Q.jacobianAt p.1 p.2.1 p.2.2) else none)).filterMap (fun p =>
            p.2.map fun b => (p.1.1, p.1.2.1, b)) =
        ((points.zip (T.zip C)).zipIdx n).flatMap Q.pointRow from H T C points 0
  intro T
  induction T with
  | nil => intro C points n; simp
  | cons t T ih =>
    intro C points n
    cases C with
    | nil => simp
    | cons c C =>
      cases points with
      | nil => simp
      | cons q points =>
        simp only [List.zipIdx_cons, List.zip_cons_cons, List.map_cons, List.filterMap_cons,
          List.flatMap_cons]
        rw [ih C points (n + 1)]
        unfold pointRow
        cases h : t.isEmpty <;> simp

theorem sequential_rows (points : List (V3 ℝ)) :
    (Q.queryBlockIndices.zip (Q.queryBlocks false points)).map (fun p => (p.1.1, p.1.2, p.2)) =
      (Q.zipped points).zipIdx.flatMap Q.pointRow := by
  unfold queryBlockIndices queryBlocks zipped
  generalize Q.cache.trivial = T
  generalize Q.cache.closest = C
  suffices H : ∀ (T : List (List ℕ)) (C : List ℕ) (points : List (V3 ℝ)) (n : ℕ),
      ((((T.zipIdx n).filter fun p => !p.1.isEmpty).map fun p => (p.2, p.2)).zip
        (((points.zip (T.zip C)).filter fun p => (false || !p.2.1.isEmpty)).map
          fun p => Q.jacobianAt p.1 p.2.1 p.2.2)).map (fun p => (p.1.1, p.1.2, p.2)) =
        ((points.zip (T.zip C)).zipIdx n).flatMap Q.pointRow from H T C points 0
  intro T
  induction T with
  | nil => intro C points n; simp
  | cons t T ih =>
    intro C points n
    cases C with
    | nil => simp
    | cons c C =>
      cases points with
      | nil => simp
      | cons q points =>
        simp only [List.zipIdx_cons, List.zip_cons_cons, List.filter_cons, List.flatMap_cons]
        rw [← ih C points (n + 1)]
        unfold pointRow
        cases h : t.isEmpty <;> simp

/-- C112: the Jacobian with respect to query points is the same block by block, whether it is taken
from sequential iterators of indices and blocks or from the parallel iterator. -/
theorem query_parallel (points : List (V3 ℝ)) :
    Q.queryIndexedPar points =
      (Q.queryBlockIndices.zip (Q.queryBlocks false points)).map fun p => (p.1.1, p.1.2, p.2) := by
  rw [indexed_rows, sequential_rows]

/-- C112: the parallel version in chunks calls its function once for each block, in the order of query
points from workspace to workspace, for any number of workspaces. -/
theorem query_chunks (points : List (V3 ℝ)) (w : ℕ) {t e : List (List ℕ)} {c : List ℕ}
    (hQ : Q.cache = .loc t c e) (hw : w ≠ 0) (hp : points ≠ []) :
    ∃ calls, Q.queryChunks points w = some calls ∧ calls.length = w ∧
      calls.flatten = Q.queryIndexedPar points := by
  have hs : chunkSize points.length w ≠ 0 := fun h =>
    hp (List.length_eq_zero_iff.1 ((chunkSize_zero _ _ hw).1 h))
  refine ⟨_, by unfold queryChunks; rw [hQ]; dsimp only; rw [if_neg (by simp [hw, hs])],
    perWorkspace_length, ?_⟩
  generalize hsz : chunkSize points.length w = size at hs
  have hcov : points.length ≤ size * w := hsz ▸ chunkSize_covers _ _ hw
  rw [perWorkspace_flatten, indexed_rows]
  · have hz : Q.zipped points = points.zip (t.zip c) := by unfold zipped; rw [hQ]; rfl
    rw [hz]
    have := chunks_zipIdx hs Q.pointRow _ (points.zip (t.zip c)) 0 le_rfl
    rw [zero_mul] at this
    rw [← this, ← List.flatMap_def,
      ← chunks_zipWith hs points.length points (t.zip c) le_rfl, ← chunks_zipWith hs t.length t c le_rfl]
    rw [← List.map_uncurry_zip_eq_zipWith, ← List.map_uncurry_zip_eq_zipWith, List.zip_map_right, List.map_map,
      List.zipIdx_map, List.flatMap_map]
    refine List.flatMap_congr fun p _ => ?_
    rw [List.map_eq_flatMap, flatMap_filter]
    refine List.flatMap_congr fun q _ => ?_
    unfold pointRow
    cases h : q.1.2.1.isEmpty <;> simp
  · rw [List.length_map, List.length_zipIdx, List.length_zip]
    exact le_trans (min_le_left _ _) (chunks_length hs w points hcov)

/-- C112: without query points or workspaces the version in chunks panics, and so it does for global
kernels. -/
theorem query_chunks_panics (points : List (V3 ℝ)) (w : ℕ) :
    Q.queryChunks points w = none ↔ w = 0 ∨ points = [] ∨ ∃ s c, Q.cache = .glob s c := by
  constructor
  · intro h
    by_contra hn
    push Not at hn
    cases hQ : Q.cache with
    | loc t c e =>
      obtain ⟨calls, hc, -⟩ := Q.query_chunks points w hQ hn.1 hn.2.1
      rw [hc] at h
      cases h
    | glob s c => exact hn.2.2 s c hQ
  · rintro (rfl | rfl | ⟨s, c, h⟩)
    · unfold queryChunks; cases Q.cache <;> simp
    · unfold queryChunks
      cases Q.cache with
      | glob s c => rfl
      | loc t c e =>
        by_cases hw : w = 0
        · simp [hw]
        · dsimp only
          exact if_pos (Or.inr ((chunkSize_zero _ _ hw).2 rfl))
    · unfold queryChunks; rw [h]

/-- C112: numbers of entries: as many indices and values as the query says. -/
theorem query_lengths (points : List (V3 ℝ)) (hQ : Q.Complete)
    (hp : points.length = Q.numQueryPoints) :
    Q.queryIndices.length = Q.numQueryEntries ∧ (Q.queryValues points).length = Q.numQueryEntries := by
  have h1 : Q.queryBlockIndices.length = Q.numNeighborhoods := by
    unfold queryBlockIndices numNeighborhoods
    rw [List.length_map]
    conv_rhs => rw [← zipIdx_fst Q.cache.trivial 0]
    rw [List.filter_map, List.length_map]
    rfl
  have h2 : (Q.queryBlocks false points).length = Q.numNeighborhoods := by
    unfold queryBlocks numNeighborhoods zipped
    rw [List.length_map]
    have e : Q.cache.trivial = (points.zip (Q.cache.trivial.zip Q.cache.closest)).map fun p => p.2.1 := by
      rw [show (fun p : V3 ℝ × List ℕ × ℕ => p.2.1) = Prod.fst ∘ Prod.snd from rfl, ← List.map_map,
        List.map_snd_zip (by rw [List.length_zip, hp]; exact min_le_left _ _),
        List.map_fst_zip hQ.ge]
    conv_rhs => rw [e]
    rw [List.filter_map, List.length_map]
    simp only [Bool.false_or]
    rfl
  constructor
  · unfold queryIndices numQueryEntries
    rw [← h1]
    generalize Q.queryBlockIndices = l
    induction l with
    | nil => rfl
    | cons a l ih => rw [List.flatMap_cons, List.length_append, ih]; simp; omega
  · unfold queryValues numQueryEntries
    rw [coords_length, h2, mul_comm]

/-- C112: values that are written to a buffer of the right length are those of the iterator. -/
theorem query_fill (points : List (V3 ℝ)) (buffer : List ℝ) (hQ : Q.Complete)
    (hp : points.length = Q.numQueryPoints) (hb : buffer.length = Q.numQueryEntries) :
    Q.queryFillValues points buffer = some (Q.queryValues points) := by
  obtain ⟨-, hv⟩ := Q.query_lengths points hQ hp
  have hv' : 3 * (Q.queryBlocks false points).length = Q.numQueryEntries := by
    rw [← hv]; exact (coords_length _).symm
  obtain ⟨b, hb', hl⟩ := arrays_some (Q.queryBlocks false points).length buffer (by omega)
  unfold queryFillValues queryFill
  rw [hb', Option.map_some, SurfaceVelocity.fill_all hl.symm]
  rfl

/-- C112: with a buffer of any length, the parallel version for all query points writes what the
sequential one writes. -/
theorem query_full_parallel (points buffer : List (V3 ℝ)) :
    Q.queryFillPar true points buffer = Q.queryFill true points buffer := by
  unfold queryFillPar queryFill queryBlocks queryBlocksPar
  generalize Q.zipped points = L
  simp only [Bool.true_or, List.filter_true, if_true]
  rw [List.length_map]
  unfold SurfaceVelocity.Query.fill
  rw [List.length_map]
  congr 1
  induction L generalizing buffer with
  | nil => simp
  | cons a L ih =>
    cases buffer with
    | nil => simp
    | cons b buffer => simp [ih]

/-- Entries of the Jacobian with respect to query points, by rows. -/
theorem query_entries (points : List (V3 ℝ)) :
    Q.queryIndices.zip (Q.queryValues points) = (Q.zipped points).zipIdx.flatMap fun p =>
      (Q.pointRow p).flatMap fun b =>
        ((List.range 3).map fun j => (b.1, 3 * b.2.1 + j)).zip (coords b.2.2) := by
  rw [← List.flatMap_assoc, ← sequential_rows]
  unfold queryIndices queryValues
  generalize Q.queryBlockIndices = A
  generalize Q.queryBlocks false points = B
  induction A generalizing B with
  | nil => simp
  | cons a A ih =>
    cases B with
    | nil => simp
    | cons b B =>
      rw [List.flatMap_cons, List.flatMap_cons, List.zip_append (by simp [coords]), ih, List.zip_cons_cons,
        List.map_cons, List.flatMap_cons]

/-- The row of a query point, applied to vectors. -/
theorem query_row (points : List (V3 ℝ)) (v : ℕ → V3 ℝ) (hQ : Q.Complete) (i : ℕ) (q : V3 ℝ)
    (view : List ℕ) (hi : points[i]? = some q) (hv : Q.cache.trivial[i]? = some view) :
    rowSum (Q.queryIndices.zip (Q.queryValues points)) i (flat v) =
      if view.isEmpty then 0 else V3.dot (Q.jacobianAt q view (Q.cache.closest.getD i 0)) (v i) := by
  rw [query_entries]
  have hil : i < Q.cache.closest.length := by
    rw [hQ]
    exact (List.getElem?_eq_some_iff.1 hv).1
  have hz : (Q.zipped points)[i]? = some (q, view, Q.cache.closest[i]) := by
    unfold zipped
    rw [List.getElem?_zip_eq_some]
    refine ⟨hi, ?_⟩
    rw [List.getElem?_zip_eq_some]
    exact ⟨hv, List.getElem?_eq_getElem hil⟩
  have := rowSum_rows (fun p => (Q.pointRow p).flatMap fun b =>
      ((List.range 3).map fun j => (b.1, 3 * b.2.1 + j)).zip (coords b.2.2)) (by
    intro p e he
    obtain ⟨b, hb, he⟩ := List.mem_flatMap.1 he
    unfold pointRow at hb
    split at hb
    · cases hb
    · rw [List.mem_singleton] at hb
      subst hb
      obtain ⟨j, -, hj⟩ := List.mem_map.1 (List.of_mem_zip he).1
      rw [← hj]) (flat v) (Q.zipped points) 0 i _ hz
  rw [zero_add] at this
  rw [this]
  unfold pointRow
  dsimp only
  by_cases hvw : view = []
  · subst hvw
    rw [show ([] : List ℕ).isEmpty = true from rfl, if_pos rfl, if_pos rfl]
    rfl
  · rw [List.isEmpty_eq_false_iff.2 hvw, if_neg (by simp), if_neg (by simp), List.flatMap_singleton,
      rowSum_block, List.getD_eq_getElem _ _ hil]

/-- C112: the entries of the Jacobian with respect to query points are derivatives: as the query points
move, the potential at point `i` changes as row `i` says, for every query point; rows of points without
samples around them are empty, and their potential does not change. -/
theorem query_derivative (points : ℝ → List (V3 ℝ)) (v : ℕ → V3 ℝ) (t : ℝ) (old : ℝ)
    (hQ : Q.Complete) (i : ℕ) (q : ℝ → V3 ℝ)
    (view : List ℕ) (hi : ∀ s, (points s)[i]? = some (q s)) (hv : Q.cache.trivial[i]? = some view)
    (hq : HasD q (v i) t)
    (hreg : view ≠ [] → ∃ c, Regular Q.kernel Q.params (q t) view Q.S c) :
    HasDerivAt (fun s => potentialAt (q s) view Q.S Q.kernel Q.params old)
      (rowSum (Q.queryIndices.zip (Q.queryValues (points t))) i (flat v)) t := by
  rw [Q.query_row (points t) v hQ i (q t) view (hi t) hv]
  by_cases hvw : view = []
  · subst hvw
    rw [show ([] : List ℕ).isEmpty = true from rfl, if_pos rfl]
    exact hasDerivAt_const t old
  · rw [List.isEmpty_eq_false_iff.2 hvw, if_neg (by simp)]
    obtain ⟨c, hc⟩ := hreg hvw
    obtain ⟨J, hJ, hd⟩ := query_jacobian (old := old) q (v i) Q.S (some (Q.cache.closest.getD i 0)) hc hq
    unfold jacobianAt
    rw [hJ]
    exact hd

/-! ## Jacobian with respect to the vertices of the surface -/

theorem surfaceAt_length (q : V3 ℝ) {view : List ℕ} (h : view ≠ []) :
    (Q.surfaceAt q view).length = (Q.surfaceCols view).length := by
  obtain ⟨c, hc⟩ := closestSample_isSome (q := q) (S := Q.S) (l := view) h
  unfold surfaceAt surfaceCols
  cases Q.sampleType with
  | vertex =>
    dsimp only
    unfold vertexJacobianAt
    rw [local_eq none hc, Option.map_some, Option.getD_some, List.length_map]
  | face =>
    dsimp only
    unfold faceJacobianAt faceJacobianCols
    rw [local_eq none hc, Option.map_some, Option.getD_some, List.length_flatMap, List.length_flatMap]
    simp only [List.length_map]

/-- Blocks of a row, with their indices, in one list. -/
theorem surfaceRow_zip (row : ℕ) (q : V3 ℝ) (view : List ℕ) :
    (((Q.surfaceCols view).map fun c => (row, c)).zip (Q.surfaceAt q view)).map
      (fun p => (p.1.1, p.1.2, p.2)) = Q.surfaceRow row q view := by
  unfold surfaceRow
  rw [List.zip_map_left, List.map_map]
  rfl

theorem surface_zip (points : List (V3 ℝ)) (hp : Q.surfaceNbrs.length ≤ points.length) :
    Q.surfaceBlockIndices.zip (Q.surfaceBlocks points) =
      ((points.zip Q.surfaceNbrs).zipIdx.filter fun p => !p.1.2.isEmpty).flatMap fun p =>
        ((Q.surfaceCols p.1.2).map fun c => (p.2, c)).zip (Q.surfaceAt p.1.1 p.1.2) := by
  unfold surfaceBlockIndices surfaceBlocks
  rw [indices_points hp, values_points, SurfaceVelocity.zip_flatMap]
  intro p hp
  have := (List.mem_filter.1 hp).2
  rw [List.length_map, Q.surfaceAt_length]
  simpa using this

/-- C112: the Jacobian with respect to vertices of the surface is the same block by block, whether it is
taken from sequential iterators of indices and blocks or from the parallel iterator. -/
theorem surface_parallel (points : List (V3 ℝ)) (hp : Q.surfaceNbrs.length ≤ points.length) :
    Q.surfaceIndexedPar points = (Q.surfaceBlockIndices.zip (Q.surfaceBlocks points)).map
      fun p => (p.1.1, p.1.2, p.2) := by
  rw [Q.surface_zip points hp, List.map_flatMap]
  unfold surfaceIndexedPar
  refine List.flatMap_congr fun p _ => ?_
  rw [surfaceRow_zip]

/-- C112: the version in chunks calls its function once for each block, in the order of query points
from workspace to workspace, for any number of workspaces, where samples are on faces. -/
theorem surface_chunks (points : List (V3 ℝ)) (w : ℕ) {t e : List (List ℕ)} {c : List ℕ}
    (hQ : Q.cache = .loc t c e) (hS : Q.sampleType = .face) (hw : w ≠ 0) (hp : points ≠ []) :
    ∃ calls, Q.surfaceChunks points w = some calls ∧ calls.length = w ∧
      calls.flatten = Q.surfaceIndexedPar points := by
  have hs : chunkSize points.length w ≠ 0 := fun h =>
    hp (List.length_eq_zero_iff.1 ((chunkSize_zero _ _ hw).1 h))
  refine ⟨_, by unfold surfaceChunks; rw [hQ, hS]; dsimp only; rw [if_neg (by simp [hw, hs])],
    perWorkspace_length, ?_⟩
  generalize hsz : chunkSize points.length w = size at hs
  have hcov : points.length ≤ size * w := hsz ▸ chunkSize_covers _ _ hw
  rw [perWorkspace_flatten]
  · unfold surfaceIndexedPar
    have hz : Q.surfaceNbrs = t := by unfold surfaceNbrs; rw [hS, hQ]; rfl
    rw [hz, flatMap_filter]
    have := chunks_zipIdx hs (fun p : (V3 ℝ × List ℕ) × ℕ => if (!p.1.2.isEmpty) = true then
      Q.surfaceRow p.2 p.1.1 p.1.2 else []) _ (points.zip t) 0 le_rfl
    rw [zero_mul] at this
    rw [← this, ← List.flatMap_def, ← chunks_zipWith hs points.length points t le_rfl]
    rw [← List.map_uncurry_zip_eq_zipWith, List.zipIdx_map, List.flatMap_map]
    refine List.flatMap_congr fun p _ => ?_
    rw [flatMap_filter]
    rfl
  · rw [List.length_map, List.length_zipIdx, List.length_zip]
    exact le_trans (min_le_left _ _) (chunks_length hs w points hcov)

/-- C112: the version in chunks panics without query points or workspaces, for samples at vertices and
for global kernels. -/
theorem surface_chunks_panics (points : List (V3 ℝ)) (w : ℕ) :
    Q.surfaceChunks points w = none ↔
      w = 0 ∨ points = [] ∨ Q.sampleType = .vertex ∨ ∃ s c, Q.cache = .glob s c := by
  constructor
  · intro h
    by_contra hn
    push Not at hn
    have hS : Q.sampleType = .face := by
      cases hS : Q.sampleType with
      | face => rfl
      | vertex => exact absurd hS hn.2.2.1
    cases hQ : Q.cache with
    | loc t c e =>
      obtain ⟨calls, hc, -⟩ := Q.surface_chunks points w hQ hS hn.1 hn.2.1
      rw [hc] at h
      cases h
    | glob s c => exact hn.2.2.2 s c hQ
  · intro h
    unfold surfaceChunks
    cases hS : Q.sampleType with
    | vertex => rfl
    | face =>
      cases hQ : Q.cache with
      | glob s c => rfl
      | loc t c e =>
        dsimp only
        rw [if_pos]
        rcases h with h | h | h | ⟨s, c, h⟩
        · exact Or.inl h
        · by_cases hw : w = 0
          · exact Or.inl hw
          · subst h
            exact Or.inr ((chunkSize_zero _ _ hw).2 rfl)
        · rw [hS] at h; cases h
        · rw [hQ] at h; cases h

theorem range_flatMap_length {α β : Type} (l : List α) (f : α → ℕ → β) :
    (l.flatMap fun a => (List.range 3).map (f a)).length = 3 * l.length := by
  induction l with
  | nil => rfl
  | cons a l ih => rw [List.flatMap_cons, List.length_append, ih]; simp; omega

/-- C112: numbers of entries: as many indices and values as the query says. -/
theorem surface_lengths (points : List (V3 ℝ)) (hp : points.length = Q.surfaceNbrs.length) :
    Q.surfaceIndices.length = Q.numSurfaceEntries ∧
      (Q.surfaceValues points).length = Q.numSurfaceEntries := by
  have hcols : ∀ view, (Q.surfaceCols view).length = view.length * Q.pointsPerSample := by
    intro view
    unfold surfaceCols pointsPerSample
    cases Q.sampleType with
    | vertex => simp
    | face =>
      dsimp only
      unfold faceJacobianCols
      rw [List.length_flatMap]
      simp
  have h1 : 3 * Q.surfaceBlockIndices.length = Q.numSurfaceEntries := by
    unfold surfaceBlockIndices numSurfaceEntries
    rw [List.length_flatMap]
    simp only [List.length_map, hcols]
    generalize Q.pointsPerSample = m
    suffices H : ∀ (T : List (List ℕ)) (n : ℕ),
        (((T.zipIdx n).filter fun p => !p.1.isEmpty).map fun p => p.1.length * m).sum =
          (T.map List.length).sum * m by
      rw [H]; ring
    intro T
    induction T with
    | nil => intro n; simp
    | cons t T ih =>
      intro n
      rw [List.zipIdx_cons, List.filter_cons, List.map_cons, List.sum_cons, add_mul, ← ih (n + 1)]
      cases t <;> simp
  have h2 : (Q.surfaceBlocks points).length = Q.surfaceBlockIndices.length := by
    unfold surfaceBlocks surfaceBlockIndices
    rw [indices_points hp.ge, values_points, List.length_flatMap, List.length_flatMap]
    congr 1
    refine List.map_congr_left fun p hp => ?_
    have := (List.mem_filter.1 hp).2
    rw [List.length_map, Q.surfaceAt_length]
    simpa using this
  constructor
  · unfold surfaceIndices
    rw [range_flatMap_length, h1]
  · unfold surfaceValues
    rw [coords_length, h2, h1]

/-- C112: values that are written to a buffer of the right length are those of the iterator. -/
theorem surface_fill (points : List (V3 ℝ)) (buffer : List ℝ)
    (hp : points.length = Q.surfaceNbrs.length) (hb : buffer.length = Q.numSurfaceEntries) :
    Q.surfaceFillValues points buffer = some (Q.surfaceValues points) := by
  obtain ⟨-, hv⟩ := Q.surface_lengths points hp
  have hv' : 3 * (Q.surfaceBlocks points).length = Q.numSurfaceEntries := by
    rw [← hv]; exact (coords_length _).symm
  obtain ⟨b, hb', hl⟩ := arrays_some (Q.surfaceBlocks points).length buffer (by omega)
  unfold surfaceFillValues
  rw [hb', Option.map_some, SurfaceVelocity.fill_all hl.symm]
  rfl

/-- C112: indices that are written to buffers of the right length are those of the iterator. -/
theorem surface_fill_indices (points : List (V3 ℝ)) (rows cols : List ℕ)
    (hp : points.length = Q.surfaceNbrs.length) (hr : rows.length = Q.numSurfaceEntries)
    (hc : cols.length = Q.numSurfaceEntries) :
    Q.surfaceFillIndices rows cols =
      (Q.surfaceIndices.map Prod.fst, Q.surfaceIndices.map Prod.snd) := by
  have e : ((Q.surfaceNbrs.zipIdx.filter fun p => !p.1.isEmpty).flatMap fun p =>
      (Q.surfaceCols p.1).flatMap fun c => (List.range 3).map fun i => (p.2, 3 * c + i)) =
      Q.surfaceIndices := by
    unfold surfaceIndices surfaceBlockIndices
    rw [List.flatMap_assoc]
    refine List.flatMap_congr fun p _ => ?_
    rw [List.flatMap_map]
  obtain ⟨hl, -⟩ := Q.surface_lengths points hp
  unfold surfaceFillIndices
  rw [e, hr, hc, min_self]
  dsimp only
  rw [List.take_of_length_le hl.le, SurfaceVelocity.fill_all (by rw [List.length_map, hl, hr]),
    SurfaceVelocity.fill_all (by rw [List.length_map, hl, hc])]

theorem zip_groups {α β : Type} (F : α → List β) (G : V3 ℝ → List ℝ) (hF : ∀ a, (F a).length = 3)
    (hG : ∀ g, (G g).length = 3) : ∀ (A : List α) (B : List (V3 ℝ)),
    (A.flatMap F).zip (B.flatMap G) = (A.zip B).flatMap fun p => (F p.1).zip (G p.2) := by
  intro A
  induction A with
  | nil => intro B; simp
  | cons a A ih =>
    intro B
    cases B with
    | nil => simp
    | cons b B =>
      rw [List.flatMap_cons, List.flatMap_cons, List.zip_append (by rw [hF, hG]), ih, List.zip_cons_cons,
        List.flatMap_cons]

/-- Row `i` of the Jacobian with respect to vertices. -/
theorem surface_row (points : List (V3 ℝ)) (hp : Q.surfaceNbrs.length ≤ points.length)
    (v : ℕ → V3 ℝ) (i : ℕ) (q : V3 ℝ) (view : List ℕ) (hi : points[i]? = some q)
    (hv : Q.surfaceNbrs[i]? = some view) :
    rowSum (Q.surfaceIndices.zip (Q.surfaceValues points)) i (flat v) =
      if view.isEmpty then 0 else applyBlocks (Q.surfaceAt q view) (Q.surfaceCols view) v := by
  unfold surfaceIndices surfaceValues
  rw [zip_groups _ _ (by simp) (by simp [coords]), Q.surface_zip points hp, flatMap_filter,
    List.flatMap_assoc]
  have hz : (points.zip Q.surfaceNbrs)[i]? = some (q, view) := by
    rw [List.getElem?_zip_eq_some]
    exact ⟨hi, hv⟩
  have := rowSum_rows (fun p : (V3 ℝ × List ℕ) × ℕ =>
      (if (!p.1.2.isEmpty) = true then
        ((Q.surfaceCols p.1.2).map fun c => (p.2, c)).zip (Q.surfaceAt p.1.1 p.1.2) else []).flatMap
      fun b => ((List.range 3).map fun j => (b.1.1, 3 * b.1.2 + j)).zip (coords b.2)) (by
    intro p e he
    obtain ⟨b, hb, he⟩ := List.mem_flatMap.1 he
    split at hb
    · obtain ⟨j, -, hj⟩ := List.mem_map.1 (List.of_mem_zip he).1
      obtain ⟨c, -, hc⟩ := List.mem_map.1 (List.of_mem_zip hb).1
      rw [← hj, ← hc]
    · cases hb) (flat v) (points.zip Q.surfaceNbrs) 0 i _ hz
  rw [zero_add] at this
  rw [this]
  dsimp only
  cases hvw : view.isEmpty with
  | true => simp [rowSum]
  | false =>
    simp only [Bool.not_false, if_true, Bool.false_eq_true, if_false]
    generalize Q.surfaceCols view = A
    generalize Q.surfaceAt q view = B
    unfold applyBlocks
    induction A generalizing B with
    | nil => simp [rowSum]
    | cons a A ih =>
      cases B with
      | nil => simp [rowSum]
      | cons b B =>
        rw [List.map_cons, List.zip_cons_cons, List.flatMap_cons, rowSum_append, ih,
          List.zipWith_cons_cons, List.sum_cons, rowSum_block]

/-- C112 for samples on faces: the entries of the Jacobian with respect to vertices are derivatives: as
the vertices move, the potential at query point `i` changes as row `i` says. -/
theorem surface_derivative_faces (points : List (V3 ℝ)) (x : ℝ → ℕ → V3 ℝ) (x' : ℕ → V3 ℝ)
    (value : ℕ → ℝ) (t old : ℝ) (hS : Q.sampleType = .face) (hx : ∀ v, HasD (fun s => x s v) (x' v) t)
    (hQx : Q.x = x t) (hQS : Q.S = faceSamples Q.tris (x t) value)
    (hp : points.length = Q.numQueryPoints) (i : ℕ) (q : V3 ℝ) (view : List ℕ)
    (hi : points[i]? = some q) (hv : Q.cache.trivial[i]? = some view)
    (hreg : view ≠ [] → ∃ c, Regular Q.kernel Q.params q view Q.S c) :
    HasDerivAt (fun s => potentialAt q view (faceSamples Q.tris (x s) value) Q.kernel Q.params old)
      (rowSum (Q.surfaceIndices.zip (Q.surfaceValues points)) i (flat x')) t := by
  have hn : Q.surfaceNbrs = Q.cache.trivial := by unfold surfaceNbrs; rw [hS]
  rw [Q.surface_row points (by rw [hn, hp]; exact le_rfl) x' i q view hi (by rw [hn]; exact hv)]
  by_cases hvw : view = []
  · subst hvw
    exact hasDerivAt_const t old
  · rw [List.isEmpty_eq_false_iff.2 hvw, if_neg (by simp)]
    obtain ⟨c, hc⟩ := hreg hvw
    rw [hQS] at hc
    obtain ⟨J, hJ, -, hd⟩ := face_jacobian (old := old) q Q.tris value x x' hx hc
    unfold surfaceAt surfaceCols
    rw [hS]
    dsimp only
    rw [hQx, hQS, hJ]
    exact hd

/-- Regular configurations stay regular when samples other than the closest are left out. -/
theorem _root_.Softy.SurfaceQuery.regular_sub {k : Kern} {P : BgParams} {q : V3 ℝ} {view ext : List ℕ}
    {S : Samples} {c : ℕ} (h : Regular k P q ext S c) (hd : view.Nodup) (hs : ∀ i ∈ view, i ∈ ext)
    (hc : c ∈ view) : Regular k P q view S c where
  proper := h.proper
  nodup := hd
  mem := hc
  closest := fun i hi => h.closest i (hs i hi)
  edge := h.edge
  kink := fun r e hk i hi => h.kink r e hk i (hs i hi)
  center := h.center
  normals := fun i hi => h.normals i (hs i hi)
  tangent := h.tangent
  mixed := h.mixed

/-- C112 for samples at vertices: the same, where `view` are the samples in the radius, from which the
potential is computed, and `ext` the samples in the radius and around them, which have columns. -/
theorem surface_derivative_vertices (points : List (V3 ℝ)) (x : ℝ → ℕ → V3 ℝ) (x' : ℕ → V3 ℝ)
    (vel : ℕ → V3 ℝ) (value : ℕ → ℝ) (t old : ℝ) (hS : Q.sampleType = .vertex)
    (hx : ∀ v, HasD (fun s => x s v) (x' v) t)
    (hQS : Q.S = vertexSamples Q.faces (x t) vel value)
    (hp : Q.cache.extended.length ≤ points.length) (i : ℕ) (q : V3 ℝ) (view ext : List ℕ)
    (hi : points[i]? = some q) (he : Q.cache.extended[i]? = some ext)
    (hnd : view.Nodup) (hsub : ∀ j ∈ view, j ∈ ext)
    (hout : ∀ j ∈ ext, j ∉ view → ∃ r, Q.kernel.radius = some r ∧ r < (q - x t j).norm)
    (hin : ∃ j ∈ view, ∀ r, Q.kernel.radius = some r → (q - x t j).norm < r)
    (hd : ∀ T ∈ Q.faces, T.Distinct)
    (hview : ∀ T ∈ Q.faces, (∀ v, T.Has v → v ∈ ext) ∨
      ∃ r, Q.kernel.radius = some r ∧ ∀ v, T.Has v → r ≤ (q - x t v).norm)
    (hreg : ∃ c, Regular Q.kernel Q.params q ext Q.S c) :
    HasDerivAt
      (fun s => potentialAt q view (vertexSamples Q.faces (x s) vel value) Q.kernel Q.params old)
      (rowSum (Q.surfaceIndices.zip (Q.surfaceValues points)) i (flat x')) t := by
  have hn : Q.surfaceNbrs = Q.cache.extended := by unfold surfaceNbrs; rw [hS]
  obtain ⟨c, hc⟩ := hreg
  rw [Q.surface_row points (by rw [hn]; exact hp) x' i q ext hi (by rw [hn]; exact he)]
  have hne : ext ≠ [] := fun h => by have := hc.mem; rw [h] at this; cases this
  rw [List.isEmpty_eq_false_iff.2 hne, if_neg (by simp)]
  rw [hQS] at hc
  obtain ⟨J, hJ, -, hder⟩ := vertex_jacobian (old := old) q Q.faces vel value x x' hx hd hview hc
  have e : applyBlocks (Q.surfaceAt q ext) (Q.surfaceCols ext) x' = applyBlocks J ext x' := by
    unfold surfaceAt surfaceCols
    rw [hS]
    dsimp only
    rw [hQS, hJ]
    rfl
  rw [e]
  refine hder.congr_of_eventuallyEq ?_
  -- the closest sample is in the radius
  have hcv : c ∈ view := by
    by_contra hcv
    obtain ⟨r, hr, hlt⟩ := hout c hc.mem hcv
    obtain ⟨j, hj, hjr⟩ := hin
    have h1 := hjr r hr
    have h2 : (q - x t c).norm ≤ (q - x t j).norm := by
      by_cases hjc : j = c
      · rw [hjc]
      · exact (hc.closest j (hsub j hj) hjc).le
    exact absurd (h2.trans_lt h1) (not_lt.2 hlt.le)
  let p : ℕ → Bool := fun j => decide (j ∈ view)
  have hperm : view.Perm (ext.filter p) := by
    refine (List.perm_ext_iff_of_nodup hnd (hc.nodup.filter _)).2 fun j => ?_
    rw [List.mem_filter]
    exact ⟨fun h => ⟨hsub j h, by simpa [p] using h⟩, fun h => by simpa [p] using h.2⟩
  have hq : HasD (fun _ : ℝ => q) 0 t := HasD.const q
  have hpos : ∀ j ∈ ext, HasD (fun s => (vertexSamples Q.faces (x s) vel value).pos j) (x' j) t :=
    fun j _ => hx j
  have hcont : ∀ j, ContinuousAt (fun s => (q - x s j).norm) t := fun j =>
    norm_continuous (hq.sub (hx j))
  have all : ∀ (l : List ℕ) (P : ℕ → ℝ → Prop), (∀ j ∈ l, ∀ᶠ s in nhds t, P j s) →
      ∀ᶠ s in nhds t, ∀ j ∈ l, P j s := by
    intro l P hP
    have : ∀ᶠ s in nhds t, ∀ j ∈ l.toFinset, P j s := by
      rw [Filter.eventually_all_finset]
      exact fun j hj => hP j (List.mem_toFinset.1 hj)
    filter_upwards [this] with s hs j hj
    exact hs j (List.mem_toFinset.2 hj)
  have h1 := closest_eventually (q := fun _ => q) (S := fun s => vertexSamples Q.faces (x s) vel value)
    (regular_sub hc hnd hsub hcv) hq fun j hj => hpos j (hsub j hj)
  have h2 := closest_eventually (q := fun _ => q) (S := fun s => vertexSamples Q.faces (x s) vel value)
    (regular_sub hc (hc.nodup.filter p) (fun j hj => (List.mem_filter.1 hj).1)
      (hperm.mem_iff.1 hcv)) hq fun j hj => hpos j (List.mem_filter.1 hj).1
  have h3 : ∀ᶠ s in nhds t, ∀ j ∈ ext, p j = false →
      ∃ r, Q.kernel.radius = some r ∧ r ≤ (q - x s j).norm := by
    refine all _ _ fun j hj => ?_
    by_cases hjv : j ∈ view
    · exact Filter.Eventually.of_forall fun s h => absurd hjv (by simpa [p] using h)
    · obtain ⟨r, hr, hlt⟩ := hout j hj hjv
      filter_upwards [(hcont j).eventually_const_lt hlt] with s hs _
      exact ⟨r, hr, hs.le⟩
  obtain ⟨j, hj, hjr⟩ := hin
  have h4 : ∀ᶠ s in nhds t, ∀ r, Q.kernel.radius = some r → (q - x s j).norm < r := by
    cases hr : Q.kernel.radius with
    | none => exact Filter.Eventually.of_forall fun s r h => by cases h
    | some r =>
      filter_upwards [(hcont j).eventually_lt_const (hjr r hr)] with s hs r' hr'
      cases hr'
      exact hs
  have h5 : ∀ᶠ s in nhds t, Q.kernel.Finite ∨ ∀ j ∈ ext, q ≠ x s j := by
    rcases hc.center with h | h
    · exact Filter.Eventually.of_forall fun s => Or.inl h
    · have hpc : 0 < (q - x t c).norm := norm_pos_of_ne h
      have : ∀ᶠ s in nhds t, ∀ j ∈ ext, 0 < (q - x s j).norm := by
        refine all _ _ fun j hj => ?_
        refine (hcont j).eventually_const_lt ?_
        by_cases hjc : j = c
        · rw [hjc]; exact hpc
        · exact hpc.trans (hc.closest j hj hjc)
      filter_upwards [this] with s hs
      exact Or.inr fun j hj => ne_of_norm_pos (hs j hj)
  filter_upwards [h1, h2, h3, h4, h5] with s e1 e2 e3 e4 e5
  rw [← potential_superset Q.kernel hc.proper Q.params q ext _ old p e5 e3 ⟨j, hsub j hj, e4⟩,
    potentialAt_eq e1, potentialAt_eq e2, (hperm.map _).sum_eq, (hperm.map fun i =>
      weight Q.kernel (q - (vertexSamples Q.faces (x s) vel value).pos c).norm q
        (vertexSamples Q.faces (x s) vel value) i *
        samplePotential q (vertexSamples Q.faces (x s) vel value) i).sum_eq]
  rfl

end Query

end Softy.SurfaceQuery
