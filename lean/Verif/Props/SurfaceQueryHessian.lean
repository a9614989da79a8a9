import Verif.Props.SurfaceQuery
import Verif.Props.ContactHessian

/-!
# C112: second derivatives of the potential at many query points

Specification: the rows of the Jacobian, each times the multiplier of its query point, change as the
entries of the lower triangle of a symmetric matrix say.
-/

noncomputable section

namespace Softy.SurfaceQuery

open Softy Softy.Kernel Softy.Field

/-- Specification: the multipliers of all query points, when multipliers are given for the query points
that have samples around them. -/
def spread : List (List ℕ) → List ℝ → List ℝ
  | [], _ => []
  | [] :: T, m => 0 :: spread T m
  | (_ :: _) :: T, [] => 0 :: spread T []
  | (_ :: _) :: T, a :: m => a :: spread T m

theorem spread_length : ∀ (T : List (List ℕ)) (m : List ℝ), (spread T m).length = T.length
  | [], _ => rfl
  | [] :: T, m => by rw [spread, List.length_cons, List.length_cons, spread_length T m]
  | (_ :: _) :: T, [] => by rw [spread, List.length_cons, List.length_cons, spread_length T []]
  | (_ :: _) :: T, a :: m => by rw [spread, List.length_cons, List.length_cons, spread_length T m]

/-- If all points have samples around them, then multipliers are those given. -/
theorem spread_full : ∀ (T : List (List ℕ)) (m : List ℝ), (∀ v ∈ T, v ≠ []) → m.length = T.length →
    spread T m = m
  | [], [], _, _ => rfl
  | [], _ :: _, _, h => by simp at h
  | [] :: T, m, h, _ => absurd rfl (h [] (by simp))
  | (_ :: _) :: T, [], _, h => by simp at h
  | (_ :: _) :: T, a :: m, h, hl => by
    rw [spread, spread_full T m (fun v hv => h v (List.mem_cons_of_mem _ hv)) (by simpa using hl)]

/-- Multipliers that are all one. -/
theorem spread_ones : ∀ (T : List (List ℕ)) (n i : ℕ), (T.filter fun v => !v.isEmpty).length ≤ n →
    i < T.length → T.getD i [] ≠ [] → (spread T (List.replicate n 1)).getD i 0 = 1
  | [], _, _, _, h, _ => by simp at h
  | [] :: T, n, 0, _, _, h => by simp at h
  | [] :: T, n, i + 1, h, hi, hv => by
    rw [spread, List.getD_cons_succ]
    exact spread_ones T n i (by simpa using h) (by simpa using hi) (by simpa using hv)
  | (_ :: _) :: T, 0, _, h, _, _ => by simp at h
  | (_ :: _) :: T, n + 1, 0, _, _, _ => by rw [List.replicate_succ, spread, List.getD_cons_zero]
  | (_ :: _) :: T, n + 1, i + 1, h, hi, hv => by
    rw [List.replicate_succ, spread, List.getD_cons_succ]
    exact spread_ones T n i (by simpa using h) (by simpa using hi) (by simpa using hv)

/-- Multipliers are taken by those who pass the filter. -/
theorem spread_zip {α : Type} (g : α → List ℕ) : ∀ (l : List α) (m : List ℝ),
    (l.filter fun a => !(g a).isEmpty).length ≤ m.length →
      (l.filter fun a => !(g a).isEmpty).zip m =
        (l.zip (spread (l.map g) m)).filter fun p => !(g p.1).isEmpty := by
  intro l
  induction l with
  | nil => intro m _; simp
  | cons a l ih =>
    intro m hm
    rw [List.map_cons]
    cases hg : g a with
    | nil =>
      rw [List.filter_cons, hg] at hm ⊢
      rw [spread, List.zip_cons_cons, List.filter_cons]
      simp only [hg, List.isEmpty_nil, Bool.not_true, Bool.false_eq_true, if_false] at hm ⊢
      exact ih m hm
    | cons j v =>
      cases m with
      | nil => simp [hg] at hm
      | cons b m =>
        rw [List.filter_cons, hg] at hm ⊢
        rw [spread, List.zip_cons_cons, List.filter_cons]
        simp only [hg, List.isEmpty_cons, Bool.not_false, if_true, List.length_cons,
          List.zip_cons_cons] at hm ⊢
        rw [ih m (by omega)]

theorem list_range {α : Type} (l : List α) (d : α) :
    l = (List.range l.length).map fun i => l.getD i d := by
  refine List.ext_getElem (by simp) fun i h1 h2 => ?_
  simp [h1]

theorem zipIdx_range {α : Type} (l : List α) (d : α) :
    l.zipIdx = (List.range l.length).map fun i => (l.getD i d, i) := by
  refine List.ext_getElem (by simp) fun i h1 h2 => ?_
  simp at h1
  simp [h1]

theorem zip_range {α β : Type} {P : List α} {T : List β} (h : T.length ≤ P.length) (d : α) (e : β) :
    P.zip T = (List.range T.length).map fun i => (P.getD i d, T.getD i e) := by
  refine List.ext_getElem (by simp [h]) fun i h1 h2 => ?_
  have : i < T.length := by simpa using h2
  have : i < P.length := by omega
  simp [*]

theorem zip_flatMap {α β γ : Type} (A : List α) (F : α → List β) (G : α → List γ)
    (h : ∀ a, (F a).length = (G a).length) :
    (A.flatMap F).zip (A.flatMap G) = A.flatMap fun a => (F a).zip (G a) := by
  induction A with
  | nil => rfl
  | cons a A ih => rw [List.flatMap_cons, List.flatMap_cons, List.flatMap_cons, List.zip_append (h a), ih]

theorem filter_flatMap' {α β : Type} (A : List α) (F : α → List β) (p : β → Bool) :
    (A.flatMap F).filter p = A.flatMap fun a => (F a).filter p := by
  induction A with
  | nil => rfl
  | cons a A ih => rw [List.flatMap_cons, List.flatMap_cons, List.filter_append, ih]

theorem sum_filter {α : Type} (l : List α) (p : α → Bool) (f : α → ℝ) :
    ((l.filter p).map f).sum = (l.map fun a => if p a then f a else 0).sum := by
  induction l with
  | nil => rfl
  | cons a l ih =>
    rw [List.filter_cons, List.map_cons, List.sum_cons]
    by_cases h : p a
    · rw [if_pos h, if_pos h, List.map_cons, List.sum_cons, ih]
    · rw [if_neg h, if_neg h, ih, zero_add]

theorem sum_map_neg' {α : Type} (l : List α) (f : α → ℝ) :
    (l.map fun a => -f a).sum = -(l.map f).sum := by
  induction l with
  | nil => simp
  | cons a l ih => rw [List.map_cons, List.sum_cons, List.map_cons, List.sum_cons, ih, neg_add]

theorem symForm_flatMap {α : Type} (l : List α) (f : α → List ((ℕ × ℕ) × ℝ)) (u w : ℕ → ℝ) :
    symForm (l.flatMap f) u w = (l.map fun a => symForm (f a) u w).sum := by
  induction l with
  | nil => rfl
  | cons a l ih =>
    rw [List.flatMap_cons, List.map_cons, List.sum_cons, ← ih]
    unfold symForm
    rw [List.map_append, List.sum_append]

namespace Query

variable (Q : Query)

theorem lower_length : lowerIndices.length = 6 := rfl

/-- Query points that have samples around them. -/
def active : List ℕ :=
  (List.range Q.cache.trivial.length).filter fun i => !(Q.cache.trivial.getD i []).isEmpty

theorem active_length : Q.active.length = Q.numNeighborhoods := by
  unfold active numNeighborhoods
  conv_rhs => rw [list_range Q.cache.trivial []]
  rw [List.filter_map, List.length_map]
  rfl

/-- The visited points and their multipliers. -/
theorem visited (points : List (V3 ℝ)) (mult : List ℝ) (hp : Q.cache.trivial.length ≤ points.length)
    (hm : Q.numNeighborhoods ≤ mult.length) :
    (((points.zip Q.cache.trivial).zipIdx).filter fun p => !p.1.2.isEmpty).zip mult =
      Q.active.map fun i => (((points.getD i 0, Q.cache.trivial.getD i []), i),
        (spread Q.cache.trivial mult).getD i 0) := by
  have e : (points.zip Q.cache.trivial).zipIdx = (List.range Q.cache.trivial.length).map fun i =>
      ((points.getD i 0, Q.cache.trivial.getD i []), i) := by
    rw [zipIdx_range _ ((0 : V3 ℝ), ([] : List ℕ)), List.length_zip, min_eq_right hp]
    refine List.map_congr_left fun i hi => ?_
    rw [List.mem_range] at hi
    have : i < points.length := by omega
    rw [List.getD_eq_getElem _ _ (by rw [List.length_zip]; omega), List.getD_eq_getElem _ _ hi,
      List.getD_eq_getElem _ _ this, List.getElem_zip]
  have hl : (((points.zip Q.cache.trivial).zipIdx).filter fun p => !p.1.2.isEmpty).length =
      Q.numNeighborhoods := by
    rw [← Q.active_length, e, List.filter_map, List.length_map]
    rfl
  rw [spread_zip (fun p : (V3 ℝ × List ℕ) × ℕ => p.1.2) _ _ (by rw [hl]; exact hm)]
  have e2 : ((points.zip Q.cache.trivial).zipIdx).map (fun p => p.1.2) = Q.cache.trivial := by
    rw [e, List.map_map]
    exact (list_range _ _).symm
  rw [e2, e]
  conv_lhs => rw [list_range (spread Q.cache.trivial mult) 0, spread_length]
  rw [List.zip_map', List.filter_map]
  rfl

/-- The points alone. -/
theorem visited_fst (points : List (V3 ℝ)) (mult : List ℝ) (hp : Q.cache.trivial.length ≤ points.length)
    (hm : Q.numNeighborhoods ≤ mult.length) :
    ((points.zip Q.cache.trivial).filter fun p => !p.2.isEmpty).zip mult =
      Q.active.map fun i => ((points.getD i 0, Q.cache.trivial.getD i []),
        (spread Q.cache.trivial mult).getD i 0) := by
  have h := congrArg (List.map fun p => (p.1.1, p.2)) (Q.visited points mult hp hm)
  rw [List.map_map] at h
  refine Eq.trans ?_ h
  conv_lhs => rw [← zipIdx_fst (points.zip Q.cache.trivial) 0]
  rw [List.filter_map, ← List.map_id mult, List.zip_map, List.map_id]
  rfl

/-- C112: the indices of the blocks are the points that have samples around them. -/
theorem query_hessian_block_indices : Q.queryHessianBlockIndices = Q.active := by
  unfold queryHessianBlockIndices active
  rw [zipIdx_range _ [], List.filter_map, List.map_map]
  exact List.map_id _

theorem queryHessianBlocks_eq (points : List (V3 ℝ)) (mult : List ℝ)
    (hp : Q.cache.trivial.length ≤ points.length) (hm : Q.numNeighborhoods ≤ mult.length) :
    Q.queryHessianBlocks points mult = Q.active.map fun i => (i,
      (spread Q.cache.trivial mult).getD i 0 • (queryHessianAt (points.getD i 0)
        (Q.cache.trivial.getD i []) Q.S Q.kernel Q.params).getD 0) := by
  unfold queryHessianBlocks
  rw [Q.visited points mult hp hm, List.map_map]
  rfl

/-- C112: indices and values of the Hessian with respect to query points have the documented number, and
filling a buffer stores the values times the scale. -/
theorem query_hessian_lengths (points : List (V3 ℝ)) (mult : List ℝ)
    (hp : Q.cache.trivial.length ≤ points.length) (hm : Q.numNeighborhoods ≤ mult.length) :
    Q.queryHessianIndices.length = Q.numQueryHessianEntries ∧
      (Q.queryHessianValues points mult).length = Q.numQueryHessianEntries ∧
      ∀ scale buffer, buffer.length = Q.numQueryHessianEntries →
        Q.queryHessianFill points mult scale buffer =
          (Q.queryHessianValues points mult).map fun v => v * scale := by
  have h1 : Q.queryHessianIndices.length = Q.numQueryHessianEntries := by
    unfold queryHessianIndices numQueryHessianEntries
    rw [query_hessian_block_indices, ← active_length, List.length_flatMap]
    simp only [List.length_map, lower_length, List.map_const', List.sum_replicate, smul_eq_mul]
  have h2 : (Q.queryHessianValues points mult).length = Q.numQueryHessianEntries := by
    unfold queryHessianValues numQueryHessianEntries
    rw [Q.queryHessianBlocks_eq points mult hp hm, List.length_flatMap, ← active_length]
    simp only [List.length_map, lower_length, List.map_const', List.sum_replicate, smul_eq_mul]
  refine ⟨h1, h2, fun scale buffer hb => ?_⟩
  unfold queryHessianFill SurfaceVelocity.Query.fill
  rw [List.take_of_length_le (by rw [List.length_map, h2, hb]),
    List.drop_of_length_le (by rw [List.length_map, h2, hb]), List.append_nil]

/-- The six entries of a symmetric block. -/
theorem lower_form (i : ℕ) (m : M3 ℝ) (h : ∀ a b, qf a m b = qf b m a) (u w : ℕ → V3 ℝ) :
    symForm ((lowerIndices.map fun p => (3 * i + p.1, 3 * i + p.2)).zip
      (lowerIndices.map fun p => entry m p.1 p.2)) (flat u) (flat w) = qf (u i) m (w i) := by
  have e : lowerIndices = [(0, 0), (1, 0), (1, 1), (2, 0), (2, 1), (2, 2)] := rfl
  have h01 : m.r0.y = m.r1.x := by
    have := h ⟨1, 0, 0⟩ ⟨0, 1, 0⟩
    simpa [qf, M3.mulVec, V3.dot] using this
  have h02 : m.r0.z = m.r2.x := by
    have := h ⟨1, 0, 0⟩ ⟨0, 0, 1⟩
    simpa [qf, M3.mulVec, V3.dot] using this
  have h12 : m.r1.z = m.r2.y := by
    have := h ⟨0, 1, 0⟩ ⟨0, 0, 1⟩
    simpa [qf, M3.mulVec, V3.dot] using this
  rw [e]
  simp [symForm, flat_zero, flat_one, flat_two, entry, coords, qf, M3.mulVec, V3.dot, h01, h02, h12]
  ring

theorem queryHessian_symm {k : Kern} {P : BgParams} {q : V3 ℝ} {view : List ℕ} {S : Samples} {c : ℕ}
    (h : Smooth k P q view S c) (a b : V3 ℝ) :
    qf a ((queryHessianAt q view S k P).getD 0) b = qf b ((queryHessianAt q view S k P).getD 0) a := by
  obtain ⟨hcl, -⟩ := regular_weighable (q := fun _ => q) (S := fun _ => S) (t := 0) h.toRegular
  unfold queryHessianAt
  rw [local_eq none hcl, Option.map_some, Option.getD_some]
  exact (query_form h a b).trans ((pathForm_symm _ _ _ _ _).trans (query_form h b a).symm)

/-- C112: the Hessian with respect to query points: as the query points move, the rows of the Jacobian
times the multipliers change as the entries of the lower triangle say. -/
theorem query_hessian_derivative (points : ℝ → List (V3 ℝ)) (q' u : ℕ → V3 ℝ) (mult : List ℝ) (t : ℝ)
    (hQ : Q.Complete) (hp : ∀ s, (points s).length = Q.cache.trivial.length)
    (hm : Q.numNeighborhoods ≤ mult.length)
    (hq : ∀ i < Q.cache.trivial.length, HasD (fun s => (points s).getD i 0) (q' i) t)
    (hreg : ∀ i < Q.cache.trivial.length, Q.cache.trivial.getD i [] ≠ [] →
      ∃ c, Smooth Q.kernel Q.params ((points t).getD i 0) (Q.cache.trivial.getD i []) Q.S c) :
    HasDerivAt (fun s => ((List.range Q.cache.trivial.length).map fun i =>
        (spread Q.cache.trivial mult).getD i 0 *
          rowSum (Q.queryIndices.zip (Q.queryValues (points s))) i (flat u)).sum)
      (symForm (Q.queryHessianIndices.zip (Q.queryHessianValues (points t) mult)) (flat u) (flat q')) t := by
  unfold queryHessianIndices queryHessianValues
  rw [query_hessian_block_indices, Q.queryHessianBlocks_eq _ mult (by rw [hp]) hm, List.flatMap_map,
    zip_flatMap _ _ _ (by simp), symForm_flatMap]
  unfold active
  rw [sum_filter]
  refine sum_hasDeriv fun i hi => ?_
  rw [List.mem_range] at hi
  have hrow : ∀ s, rowSum (Q.queryIndices.zip (Q.queryValues (points s))) i (flat u) =
      if (Q.cache.trivial.getD i []).isEmpty then 0 else
        V3.dot (Q.jacobianAt ((points s).getD i 0) (Q.cache.trivial.getD i [])
          (Q.cache.closest.getD i 0)) (u i) := by
    intro s
    refine Q.query_row (points s) u hQ i _ _ ?_ ?_
    · rw [List.getD_eq_getElem _ _ (by rw [hp]; exact hi)]
      exact List.getElem?_eq_getElem _
    · rw [List.getD_eq_getElem _ _ hi]
      exact List.getElem?_eq_getElem _
  simp only [hrow]
  by_cases hv : Q.cache.trivial.getD i [] = []
  · simp only [hv, List.isEmpty_nil, if_true, mul_zero, Bool.not_true, Bool.false_eq_true, if_false]
    exact hasDerivAt_const _ _
  · simp only [List.isEmpty_eq_false_iff.2 hv, Bool.false_eq_true, if_false, Bool.not_false, if_true]
    obtain ⟨c, hc⟩ := hreg i hi hv
    have hsym : ∀ a b : V3 ℝ, qf a ((spread Q.cache.trivial mult).getD i 0 •
        (queryHessianAt ((points t).getD i 0) (Q.cache.trivial.getD i []) Q.S Q.kernel
          Q.params).getD 0) b = qf b ((spread Q.cache.trivial mult).getD i 0 •
        (queryHessianAt ((points t).getD i 0) (Q.cache.trivial.getD i []) Q.S Q.kernel
          Q.params).getD 0) a := by
      intro a b
      rw [qf_smul, qf_smul, queryHessian_symm hc]
    rw [lower_form i _ hsym u q', qf_smul]
    obtain ⟨H, hH, hd⟩ := query_hessian (fun s => (points s).getD i 0) (q' i) Q.S
      (some (Q.cache.closest.getD i 0)) hc (hq i hi)
    rw [hH, Option.getD_some]
    refine HasDerivAt.const_mul _ ?_
    have := (hd.dot (HasD.const (u i)))
    unfold jacobianAt
    refine this.congr_deriv ?_
    unfold qf
    rw [dot_zero_right, dot_symm]
    ring

/-! ## Surface -/

/-- The scalar entries of blocks of the lower triangle. -/
def blockEntries (b : HBlock) : List ((ℕ × ℕ) × ℝ) :=
  (allIndices.filter fun p => 3 * b.col + p.2 ≤ 3 * b.row + p.1).map fun p =>
    ((3 * b.row + p.1, 3 * b.col + p.2), entry b.val p.1 p.2)

theorem block_form (b : HBlock) (h : b.col ≤ b.row) (u w : ℕ → V3 ℝ) :
    symForm (blockEntries b) (flat u) (flat w) =
      (if b.row = b.col then qf (u b.row) b.val (w b.col)
        else qf (u b.row) b.val (w b.col) + qf (w b.row) b.val (u b.col)) +
      if b.row = b.col then
        (b.val.r1.x - b.val.r0.y) * ((u b.row).x * (w b.row).y) +
          (b.val.r2.x - b.val.r0.z) * ((u b.row).x * (w b.row).z) +
          (b.val.r2.y - b.val.r1.z) * ((u b.row).y * (w b.row).z) else 0 := by
  unfold blockEntries
  rcases Nat.lt_or_eq_of_le h with hlt | heq
  · have e : (allIndices.filter fun p => 3 * b.col + p.2 ≤ 3 * b.row + p.1) =
        [(0, 0), (0, 1), (0, 2), (1, 0), (1, 1), (1, 2), (2, 0), (2, 1), (2, 2)] := by
      rw [List.filter_eq_self.2]
      · rfl
      · intro p hp
        have : p.2 ≤ 2 := by
          unfold allIndices at hp
          simp only [List.mem_flatMap, List.mem_map, List.mem_range] at hp
          obtain ⟨r, -, c, hc, rfl⟩ := hp
          show c ≤ 2
          omega
        simp only [decide_eq_true_eq]
        omega
    rw [e]
    have hne : b.row ≠ b.col := by omega
    simp only [if_neg hne]
    have hs : ∀ r < 3, ∀ c < 3, 3 * b.row + r ≠ 3 * b.col + c := by intro r _ c _; omega
    simp only [symForm, List.map_cons, List.map_nil, List.sum_cons, List.sum_nil, add_zero]
    rw [if_neg (show ¬3 * b.row = 3 * b.col by omega), if_neg (show ¬3 * b.row = 3 * b.col + 1 by omega),
      if_neg (show ¬3 * b.row = 3 * b.col + 2 by omega), if_neg (show ¬3 * b.row + 1 = 3 * b.col by omega),
      if_neg (hs 1 (by omega) 1 (by omega)), if_neg (hs 1 (by omega) 2 (by omega)),
      if_neg (show ¬3 * b.row + 2 = 3 * b.col by omega), if_neg (hs 2 (by omega) 1 (by omega)),
      if_neg (hs 2 (by omega) 2 (by omega))]
    simp [flat_zero, flat_one, flat_two, entry, coords, qf, M3.mulVec, V3.dot]
    ring
  · have e : (allIndices.filter fun p => 3 * b.col + p.2 ≤ 3 * b.row + p.1) =
        [(0, 0), (1, 0), (1, 1), (2, 0), (2, 1), (2, 2)] := by
      rw [heq]
      simp only [Nat.add_le_add_iff_left]
      rfl
    rw [e, heq]
    simp [symForm, flat_zero, flat_one, flat_two, entry, coords, qf, M3.mulVec, V3.dot]
    ring

/-- If the bilinear form of blocks is symmetric, then it is the form of the entries in the lower
triangle. -/
theorem entries_form (B : List HBlock) (hl : ∀ b ∈ B, b.col ≤ b.row)
    (hs : ∀ u w, quadBlocks B u w = quadBlocks B w u) (u w : ℕ → V3 ℝ) :
    symForm (B.flatMap blockEntries) (flat u) (flat w) = quadBlocks B u w := by
  have skew : ∀ U W : ℕ → V3 ℝ, (B.map fun b => if b.row = b.col then
      qf (U b.row) b.val (W b.row) - qf (W b.row) b.val (U b.row) else 0).sum = 0 := by
    intro U W
    have := hs U W
    rw [← sub_eq_zero, quadBlocks_eq, quadBlocks_eq, sub_eq_add_neg, ← sum_map_neg',
      ← List.sum_map_add] at this
    refine Eq.trans ?_ this
    congr 1
    refine List.map_congr_left fun b _ => ?_
    by_cases h : b.row = b.col
    · rw [if_pos h, if_pos h, if_pos h, ← h]
      ring
    · rw [if_neg h, if_neg h, if_neg h]
      ring
  have h1 := skew (fun _ => ⟨0, 1, 0⟩) fun v => ⟨(u v).x * (w v).y, 0, 0⟩
  have h2 := skew (fun _ => ⟨0, 0, 1⟩) fun v => ⟨(u v).x * (w v).z, 0, 0⟩
  have h3 := skew (fun _ => ⟨0, 0, 1⟩) fun v => ⟨0, (u v).y * (w v).z, 0⟩
  rw [symForm_flatMap, quadBlocks_eq]
  rw [List.map_congr_left fun b hb => block_form b (hl b hb) u w, List.sum_map_add]
  have h := congrArg₂ (· + ·) (congrArg₂ (· + ·) h1 h2) h3
  rw [← List.sum_map_add, ← List.sum_map_add, add_zero, add_zero] at h
  rw [add_eq_left]
  refine Eq.trans ?_ h
  congr 1
  refine List.map_congr_left fun b _ => ?_
  by_cases hb : b.row = b.col
  · simp only [if_pos hb]
    simp [qf, M3.mulVec, V3.dot]
    ring
  · simp [if_neg hb]

/-- C112: blocks of the Hessian with respect to vertices come in the order of their indices. -/
theorem surface_hessian_block_indices (points : List (V3 ℝ)) (mult : List ℝ)
    (hp : Q.cache.trivial.length ≤ points.length) (hm : Q.numNeighborhoods ≤ mult.length) :
    (Q.surfaceHessianBlocks points mult).map (fun B => B.map fun b => (b.row, b.col)) =
      Q.surfaceHessianBlockIndices := by
  unfold surfaceHessianBlocks surfaceHessianBlockIndices
  cases Q.sampleType with
  | vertex => rfl
  | face =>
    dsimp only
    rw [Option.map_some, Q.visited_fst points mult hp hm, List.flatMap_map, List.map_flatMap]
    congr 1
    conv_rhs => rw [list_range Q.cache.trivial [], List.flatMap_map]
    unfold active
    rw [flatMap_filter]
    congr 1
    funext i
    cases hv : Q.cache.trivial.getD i [] with
    | nil => exact (Contact.Pair.faceIndices_nil _ _).symm
    | cons j v =>
      obtain ⟨B, hB⟩ := Contact.Pair.faceHessian_isSome (points.getD i 0) (j :: v) Q.S Q.kernel Q.tris Q.x Q.params
        ((spread Q.cache.trivial mult).getD i 0) (by simp)
      rw [hB]
      exact face_hessian_indices _ _ _ _ _ _ _ _ _ hB

theorem surface_entries (points : List (V3 ℝ)) (mult : List ℝ)
    (hp : Q.cache.trivial.length ≤ points.length) (hm : Q.numNeighborhoods ≤ mult.length)
    (B : List HBlock) (hB : Q.surfaceHessianBlocks points mult = some B) :
    ∃ idx vals, Q.surfaceHessianIndices = some idx ∧ Q.surfaceHessianValues points mult = some vals ∧
      idx.length = vals.length ∧ idx.zip vals = B.flatMap blockEntries := by
  have hi := Q.surface_hessian_block_indices points mult hp hm
  rw [hB, Option.map_some] at hi
  unfold surfaceHessianIndices surfaceHessianValues
  rw [← hi, hB]
  refine ⟨_, _, rfl, rfl, ?_, ?_⟩ <;> dsimp only
  · rw [List.flatMap_map, filter_flatMap', List.length_flatMap, List.length_flatMap]
    congr 1
    refine List.map_congr_left fun b _ => ?_
    rw [List.filter_map, List.length_map, List.length_map]
    rfl
  · rw [List.flatMap_map, filter_flatMap', zip_flatMap]
    · congr 1
      funext b
      unfold blockEntries
      rw [List.filter_map]
      exact List.zip_map'
    · intro b
      rw [List.filter_map, List.length_map, List.length_map]
      rfl

/-- C112: indices and values of the Hessian with respect to vertices have the same number, which is the
reported number, and filling a buffer stores the values times the scale. -/
theorem surface_hessian_lengths (hS : Q.sampleType = .face) (points : List (V3 ℝ)) (mult : List ℝ)
    (hp : Q.cache.trivial.length ≤ points.length) (hm : Q.numNeighborhoods ≤ mult.length) :
    ∃ n idx vals, Q.numSurfaceHessianEntries = some n ∧ Q.surfaceHessianIndices = some idx ∧
      Q.surfaceHessianValues points mult = some vals ∧ idx.length = n ∧ vals.length = n ∧
      (∀ p ∈ idx, p.2 ≤ p.1) ∧
      (∀ rows cols, rows.length = n → cols.length = n →
        Q.surfaceHessianFillIndices rows cols = some (some (idx.map Prod.fst, idx.map Prod.snd))) ∧
      ∀ scale buffer, buffer.length = n →
        Q.surfaceHessianFill points mult scale buffer = some (vals.map fun v => v * scale) := by
  obtain ⟨B, hB⟩ : ∃ B, Q.surfaceHessianBlocks points mult = some B := by
    unfold surfaceHessianBlocks
    rw [hS]
    exact ⟨_, rfl⟩
  obtain ⟨idx, vals, h1, h2, h3, -⟩ := Q.surface_entries points mult hp hm B hB
  have hlow : ∀ p ∈ idx, p.2 ≤ p.1 := by
    unfold surfaceHessianIndices at h1
    obtain ⟨l, -, rfl⟩ := Option.map_eq_some_iff.1 h1
    intro p hp
    simpa using (List.mem_filter.1 hp).2
  refine ⟨idx.length, idx, vals, ?_, h1, h2, rfl, h3.symm, hlow, ?_, ?_⟩
  · unfold numSurfaceHessianEntries
    rw [h1]
    rfl
  · intro rows cols hr hc
    unfold surfaceHessianFillIndices SurfaceVelocity.Query.fill
    rw [h1, Option.map_some, if_pos ⟨hr.ge, hc.ge⟩]
    rw [List.take_of_length_le (by rw [List.length_map, hr]),
      List.drop_of_length_le (by rw [List.length_map, hr]), List.append_nil,
      List.take_of_length_le (by rw [List.length_map, hc]),
      List.drop_of_length_le (by rw [List.length_map, hc]), List.append_nil]
  · intro scale buffer hb
    unfold surfaceHessianFill SurfaceVelocity.Query.fill
    rw [h2, Option.map_some, List.take_of_length_le (by rw [List.length_map, ← h3, hb]),
      List.drop_of_length_le (by rw [List.length_map, ← h3, hb]), List.append_nil]

/-- C112: for samples at vertices there are no Hessians with respect to vertices. -/
theorem surface_hessian_unsupported (hS : Q.sampleType = .vertex) (points : List (V3 ℝ))
    (mult : List ℝ) : Q.numSurfaceHessianEntries = none ∧ Q.surfaceHessianIndices = none ∧
      Q.surfaceHessianValues points mult = none := by
  have h : Q.surfaceHessianBlockIndices = none := by
    unfold surfaceHessianBlockIndices
    rw [hS]
  have h' : Q.surfaceHessianBlocks points mult = none := by
    unfold surfaceHessianBlocks
    rw [hS]
  unfold numSurfaceHessianEntries surfaceHessianIndices surfaceHessianValues
  rw [h, h']
  exact ⟨rfl, rfl, rfl⟩

theorem faceHessian_symm {k : Kern} {P : BgParams} {q : V3 ℝ} {view : List ℕ} {S : Samples} {c : ℕ}
    (h : Smooth k P q view S c) (tris : ℕ → Tri) (x : ℕ → V3 ℝ) (lam : ℝ) (u w : ℕ → V3 ℝ) :
    quadBlocks ((faceHessianAt q view S k tris x P lam).getD []) u w =
      quadBlocks ((faceHessianAt q view S k tris x P lam).getD []) w u := by
  obtain ⟨hcl, -⟩ := regular_weighable (q := fun _ => q) (S := fun _ => S) (t := 0) h.toRegular
  rw [faceHessian_eq tris x lam hcl, Option.getD_some, quad_scale, quad_scale]
  congr 1
  have e : (fun i => areaNormalDir w (tris i) u) = fun i => areaNormalDir u (tris i) w := by
    funext i
    unfold areaNormalDir areaNormalGrad
    ext <;> simp [M3.mulVec, M3.skew, V3.dot] <;> ring
  refine (surface_form h x tris u w).trans (Eq.trans ?_ (surface_form h x tris w u).symm)
  rw [e]
  exact pathForm_symm _ _ _ _ _

/-- Specification: the query of the surface with the vertices elsewhere. -/
def at_ (x : ℕ → V3 ℝ) (value : ℕ → ℝ) : Query := { Q with S := faceSamples Q.tris x value, x := x }

/-- C112: the Hessian with respect to vertices: as the vertices move, the rows of the Jacobian times
the multipliers change as the entries of the lower triangle say. -/
theorem surface_hessian_derivative (points : List (V3 ℝ)) (x : ℝ → ℕ → V3 ℝ) (x' u : ℕ → V3 ℝ)
    (value : ℕ → ℝ) (mult : List ℝ) (t : ℝ) (hS : Q.sampleType = .face)
    (hx : ∀ v, HasD (fun s => x s v) (x' v) t)
    (hp : Q.cache.trivial.length ≤ points.length) (hm : Q.numNeighborhoods ≤ mult.length)
    (hreg : ∀ i < Q.cache.trivial.length, Q.cache.trivial.getD i [] ≠ [] →
      ∃ c, Smooth Q.kernel Q.params (points.getD i 0) (Q.cache.trivial.getD i [])
        (faceSamples Q.tris (x t) value) c) :
    ∃ idx vals, (Q.at_ (x t) value).surfaceHessianIndices = some idx ∧
      (Q.at_ (x t) value).surfaceHessianValues points mult = some vals ∧
      HasDerivAt (fun s => ((List.range Q.cache.trivial.length).map fun i =>
        (spread Q.cache.trivial mult).getD i 0 * rowSum ((Q.at_ (x s) value).surfaceIndices.zip
          ((Q.at_ (x s) value).surfaceValues points)) i (flat u)).sum)
      (symForm (idx.zip vals) (flat u) (flat x')) t := by
  have hBs : (Q.at_ (x t) value).surfaceHessianBlocks points mult = some (Q.active.flatMap fun i =>
      (faceHessianAt (points.getD i 0) (Q.cache.trivial.getD i []) (faceSamples Q.tris (x t) value)
        Q.kernel Q.tris (x t) Q.params ((spread Q.cache.trivial mult).getD i 0)).getD []) := by
    unfold surfaceHessianBlocks
    rw [show (Q.at_ (x t) value).sampleType = .face from hS]
    dsimp only
    rw [show (Q.at_ (x t) value).cache = Q.cache from rfl, Q.visited_fst points mult hp hm,
      List.flatMap_map]
    rfl
  obtain ⟨idx, vals, h1, h2, -, h4⟩ := (Q.at_ (x t) value).surface_entries points mult hp hm _ hBs
  refine ⟨idx, vals, h1, h2, ?_⟩
  rw [h4]
  have hact : ∀ i ∈ Q.active, i < Q.cache.trivial.length ∧ Q.cache.trivial.getD i [] ≠ [] := by
    intro i hi
    unfold active at hi
    rw [List.mem_filter, List.mem_range] at hi
    exact ⟨hi.1, fun e => by rw [e] at hi; simp at hi⟩
  rw [entries_form]
  · rw [Contact.Pair.quadBlocks_flatMap]
    unfold active
    rw [sum_filter]
    refine sum_hasDeriv fun i hi => ?_
    rw [List.mem_range] at hi
    have hn : ∀ s, (Q.at_ (x s) value).surfaceNbrs = Q.cache.trivial := by
      intro s
      unfold surfaceNbrs
      rw [show (Q.at_ (x s) value).sampleType = .face from hS]
      rfl
    have hrow : ∀ s, rowSum ((Q.at_ (x s) value).surfaceIndices.zip
        ((Q.at_ (x s) value).surfaceValues points)) i (flat u) =
        if (Q.cache.trivial.getD i []).isEmpty then 0 else
          applyBlocks ((faceJacobianAt (points.getD i 0) (Q.cache.trivial.getD i [])
            (faceSamples Q.tris (x s) value) Q.kernel Q.tris (x s) Q.params).getD [])
            (faceJacobianCols (Q.cache.trivial.getD i []) Q.tris) u := by
      intro s
      rw [(Q.at_ (x s) value).surface_row points (by rw [hn]; exact hp) u i (points.getD i 0)
        (Q.cache.trivial.getD i [])]
      · unfold surfaceAt surfaceCols
        rw [show (Q.at_ (x s) value).sampleType = .face from hS]
        rfl
      · rw [List.getD_eq_getElem _ _ (by omega)]
        exact List.getElem?_eq_getElem _
      · rw [hn, List.getD_eq_getElem _ _ hi]
        exact List.getElem?_eq_getElem _
    simp only [hrow]
    by_cases hv : Q.cache.trivial.getD i [] = []
    · simp only [hv, List.isEmpty_nil, if_true, mul_zero, Bool.not_true, Bool.false_eq_true, if_false]
      exact hasDerivAt_const _ _
    · simp only [List.isEmpty_eq_false_iff.2 hv, Bool.false_eq_true, if_false, Bool.not_false, if_true]
      obtain ⟨c, hc⟩ := hreg i hi hv
      obtain ⟨B, hB, hd⟩ := surface_hessian (points.getD i 0) Q.tris value x x' hx hc
        ((spread Q.cache.trivial mult).getD i 0)
      rw [hB, Option.getD_some]
      exact hd u
  · intro b hb
    obtain ⟨i, hi, hb⟩ := List.mem_flatMap.1 hb
    obtain ⟨B, hB⟩ := Contact.Pair.faceHessian_isSome (points.getD i 0) (Q.cache.trivial.getD i [])
      (faceSamples Q.tris (x t) value) Q.kernel Q.tris (x t) Q.params
      ((spread Q.cache.trivial mult).getD i 0) (hact i hi).2
    rw [hB] at hb
    exact face_hessian_lower _ _ _ _ _ _ _ _ _ hB b hb
  · intro a b
    rw [Contact.Pair.quadBlocks_flatMap, Contact.Pair.quadBlocks_flatMap]
    congr 1
    refine List.map_congr_left fun i hi => ?_
    obtain ⟨c, hc⟩ := hreg i (hact i hi).1 (hact i hi).2
    exact faceHessian_symm hc _ _ _ _ _

/-! ## Mixed -/

theorem visited_length (points : List (V3 ℝ)) (hp : Q.cache.trivial.length ≤ points.length) :
    (((points.zip Q.cache.trivial).zipIdx).filter fun p => !p.1.2.isEmpty).length =
      Q.numNeighborhoods := by
  unfold numNeighborhoods
  conv_rhs => rw [← zip_snd hp, ← zipIdx_fst (points.zip Q.cache.trivial) 0]
  rw [List.map_map, List.filter_map, List.length_map]
  rfl

/-- C112: blocks of the mixed Hessian come in the order of their indices. -/
theorem mixed_block_indices (points : List (V3 ℝ)) (mult : Option (List ℝ))
    (hp : Q.cache.trivial.length ≤ points.length)
    (hm : ∀ m, mult = some m → Q.numNeighborhoods ≤ m.length) :
    (Q.mixedBlocks points mult).map (fun B => B.map fun b => (b.1, b.2.1)) = Q.mixedIndices := by
  unfold mixedBlocks mixedIndices
  cases Q.sampleType with
  | vertex => rfl
  | face =>
    dsimp only
    have hl := Q.visited_length points hp
    rw [hl, Option.map_some, Q.visited points _ hp]
    · rw [List.flatMap_map, List.map_flatMap, zipIdx_range _ [], List.filter_map, List.flatMap_map]
      congr 1
      refine List.flatMap_congr fun i hi => ?_
      have hne : Q.cache.trivial.getD i [] ≠ [] := by
        intro e
        unfold active at hi
        rw [List.mem_filter, e] at hi
        simp at hi
      obtain ⟨M, hM⟩ := Contact.Pair.mixedHessian_isSome (points.getD i 0) (Q.cache.trivial.getD i [])
        Q.S Q.kernel Q.tris Q.x Q.params ((spread Q.cache.trivial
          (mult.getD (List.replicate Q.numNeighborhoods 1))).getD i 0) hne
      dsimp only
      rw [hM, Option.getD_some, List.map_map, ← (mixed_hessian_indices _ _ _ _ _ _ _ _ _ hM).1,
        List.map_map]
      rfl
    · cases mult with
      | none => simp
      | some m => exact hm m rfl

/-- C112 for mixed derivatives, where the background adds nothing to the potential: as the vertices
move, the gradient at each query point changes as the blocks of its row say.
Missing: the full property does not ask for `Silent`; see `mixed_hessian_violated`. -/
theorem mixed_derivative_partial (points : List (V3 ℝ)) (x : ℝ → ℕ → V3 ℝ) (x' : ℕ → V3 ℝ)
    (value : ℕ → ℝ) (t : ℝ) (hS : Q.sampleType = .face) (hx : ∀ v, HasD (fun s => x s v) (x' v) t)
    (hp : Q.cache.trivial.length ≤ points.length) (i : ℕ) (hi : i < Q.cache.trivial.length) (cl : ℕ)
    (hreg : Q.cache.trivial.getD i [] ≠ [] →
      ∃ c, Smooth Q.kernel Q.params (points.getD i 0) (Q.cache.trivial.getD i [])
        (faceSamples Q.tris (x t) value) c ∧ Silent Q.kernel Q.params
          (points.getD i 0 - (faceSamples Q.tris (x t) value).pos c).norm) :
    ∃ M, (Q.at_ (x t) value).mixedBlocks points none = some M ∧
      HasD (fun s => if Q.cache.trivial.getD i [] = [] then 0 else
          (Q.at_ (x s) value).jacobianAt (points.getD i 0) (Q.cache.trivial.getD i []) cl)
        (((M.filter fun b => b.1 = i).map fun b => M3.mulVec b.2.2 (x' b.2.1)).sum) t := by
  have hM : (Q.at_ (x t) value).mixedBlocks points none = some (Q.active.flatMap fun i =>
      ((sampleQueryHessianAt (points.getD i 0) (Q.cache.trivial.getD i [])
        (faceSamples Q.tris (x t) value) Q.kernel Q.tris (x t) Q.params
        ((spread Q.cache.trivial (List.replicate Q.numNeighborhoods 1)).getD i 0)).getD []).map
        fun b => (i, b.1, b.2)) := by
    unfold mixedBlocks
    rw [show (Q.at_ (x t) value).sampleType = .face from hS]
    dsimp only
    rw [show (Q.at_ (x t) value).cache = Q.cache from rfl, Q.visited_length points hp,
      Q.visited points _ hp (by simp), List.flatMap_map]
    rfl
  refine ⟨_, hM, ?_⟩
  rw [filter_flatMap']
  have hsel : ∀ j ∈ Q.active, (((sampleQueryHessianAt (points.getD j 0) (Q.cache.trivial.getD j [])
        (faceSamples Q.tris (x t) value) Q.kernel Q.tris (x t) Q.params
        ((spread Q.cache.trivial (List.replicate Q.numNeighborhoods 1)).getD j 0)).getD []).map
        fun b => (j, b.1, b.2)).filter (fun b => b.1 = i) = if j = i then
      (((sampleQueryHessianAt (points.getD i 0) (Q.cache.trivial.getD i [])
        (faceSamples Q.tris (x t) value) Q.kernel Q.tris (x t) Q.params
        ((spread Q.cache.trivial (List.replicate Q.numNeighborhoods 1)).getD i 0)).getD []).map
        fun b => (i, b.1, b.2)) else [] := by
    intro j _
    by_cases h : j = i
    · subst h
      rw [if_pos rfl, List.filter_eq_self]
      intro b hb
      obtain ⟨c, -, rfl⟩ := List.mem_map.1 hb
      simp
    · rw [if_neg h, List.filter_eq_nil_iff]
      intro b hb
      obtain ⟨c, -, rfl⟩ := List.mem_map.1 hb
      simpa using h
  rw [List.flatMap_congr hsel]
  have hone : ∀ (l : List ℕ) (L : List (ℕ × ℕ × M3 ℝ)), l.Nodup →
      (l.flatMap fun j => if j = i then L else []) = if i ∈ l then L else [] := by
    intro l L hl
    induction l with
    | nil => rfl
    | cons j l ih =>
      rw [List.nodup_cons] at hl
      rw [List.flatMap_cons, ih hl.2]
      by_cases h : j = i
      · subst h
        rw [if_pos rfl, if_neg hl.1, if_pos (by simp), List.append_nil]
      · rw [if_neg h, List.nil_append]
        by_cases h2 : i ∈ l
        · rw [if_pos h2, if_pos (List.mem_cons_of_mem _ h2)]
        · rw [if_neg h2, if_neg (by simp [h2, Ne.symm h])]
  rw [hone Q.active _ (List.nodup_range.filter _)]
  by_cases hv : Q.cache.trivial.getD i [] = []
  · rw [if_neg (by unfold active; rw [List.mem_filter, hv]; simp)]
    simp only [if_pos hv]
    exact HasD.const 0
  · rw [if_pos (by
      unfold active
      rw [List.mem_filter, List.mem_range]
      exact ⟨hi, by rw [List.isEmpty_eq_false_iff.2 hv]; rfl⟩)]
    simp only [if_neg hv]
    obtain ⟨c, hc, hs⟩ := hreg hv
    obtain ⟨M, hM', hd⟩ := mixed_hessian_partial (points.getD i 0) Q.tris value x x' (some cl) hx hc hs
    rw [spread_ones Q.cache.trivial Q.numNeighborhoods i le_rfl hi hv, hM', Option.getD_some, List.map_map]
    exact hd

end Query

end Softy.SurfaceQuery
