import Verif.Props.Neighborhood

/-!
# Neighborhoods over time

Properties C42 (hash collisions), C51 (step bound) and C73: padded neighborhoods stay valid.
-/

noncomputable section

namespace Softy.Neighborhood

open Softy Softy.Field Softy.Kernel

/-! ## The spatial tree -/

/-- Specification of the queries of the spatial tree over the first `count` samples. -/
structure IsTree (S : Samples) (count : ℕ) (locate : ℝ → V3 ℝ → List ℕ) (nearest : V3 ℝ → ℕ) :
    Prop where
  nodup : ∀ r2 q, (locate r2 q).Nodup
  mem : ∀ r2 q i, i ∈ locate r2 q ↔ i < count ∧ V3.dot (q - S.pos i) (q - S.pos i) ≤ r2
  nearest_lt : ∀ q, nearest q < count
  nearest_le : ∀ q, ∀ i < count,
    V3.dot (q - S.pos (nearest q)) (q - S.pos (nearest q)) ≤ V3.dot (q - S.pos i) (q - S.pos i)

open Classical in
/-- A tree over any samples that has sample `c` as the closest one of the origin. -/
def listTree (S : Samples) (count : ℕ) (r2 : ℝ) (q : V3 ℝ) : List ℕ :=
  (List.range count).filter fun i => decide (V3.dot (q - S.pos i) (q - S.pos i) ≤ r2)

open Classical in
def listNearest (S : Samples) (count : ℕ) (q : V3 ℝ) : ℕ :=
  if q = 0 then 0 else (closestSample q S (List.range count)).getD 0

theorem listTree_isTree (S : Samples) (count : ℕ) (hc : 0 < count) (h0 : S.pos 0 = 0) :
    IsTree S count (listTree S count) (listNearest S count) := by
  have hne : List.range count ≠ [] := by simp; omega
  refine ⟨fun r2 q => List.Nodup.filter _ List.nodup_range, fun r2 q i => by simp [listTree], fun q => ?_,
    fun q i hi => ?_⟩
  · unfold listNearest
    split
    · exact hc
    · obtain ⟨c, h⟩ := closestSample_isSome (q := q) (S := S) hne
      rw [h]
      simpa using (closestSample_spec h).1
  · unfold listNearest
    split
    · rename_i hq
      rw [hq, h0]
      simpa [V3.dot] using V3.dot_self_nonneg (0 - S.pos i)
    · obtain ⟨c, h⟩ := closestSample_isSome (q := q) (S := S) hne
      rw [h]
      have := (closestSample_spec h).2 i (by simpa using hi)
      rw [← V3.norm_mul_norm, ← V3.norm_mul_norm]
      exact mul_self_le_mul_self (V3.norm_nonneg _) this

/-! ## Collisions -/

/-- The first `m` samples are at the origin and all others far away. -/
def splitSamples (m : ℕ) : Samples where
  pos i := if i < m then 0 else ⟨2, 0, 0⟩
  nml _ := ⟨0, 0, 1⟩
  vel _ := 0
  value _ := 0

theorem listTree_split (m k : ℕ) : listTree (splitSamples m) (m + k) ((1 + 0) * (1 + 0)) 0 =
    List.range m := by
  unfold listTree
  rw [List.range_add, List.filter_append]
  have h1 : (List.range m).filter (fun i => decide (V3.dot (0 - (splitSamples m).pos i)
      (0 - (splitSamples m).pos i) ≤ (1 + 0) * (1 + 0))) = List.range m := by
    refine List.filter_eq_self.2 fun i hi => ?_
    rw [List.mem_range] at hi
    simp [splitSamples, hi, V3.dot]
  have h2 : ((List.range k).map (m + ·)).filter (fun i => decide (V3.dot (0 - (splitSamples m).pos i)
      (0 - (splitSamples m).pos i) ≤ (1 + 0) * (1 + 0))) = [] := by
    refine List.filter_eq_nil_iff.2 fun i hi => ?_
    obtain ⟨j, -, rfl⟩ := List.mem_map.1 hi
    simp [splitSamples, V3.dot]
    norm_num
  rw [h1, h2, List.append_nil]

/-- C42 fails for every hash function: there are two positions of the samples of a surface with
different neighborhoods of the same query point such that computing the neighborhoods for the second
ones after the first ones reports no change. -/
theorem missed_change_violated (hash : List ℕ → Fin (2 ^ 64)) :
    ∃ (S S' : Samples) (count : ℕ) (N N' : Nbh) (ch : Bool),
      IsTree S count (listTree S count) (listNearest S count) ∧
      IsTree S' count (listTree S' count) (listNearest S' count) ∧
      reset hash (listTree S count) (listNearest S count) 1 0 [] [] .face [0] Nbh.new = some (ch, N) ∧
      reset hash (listTree S' count) (listNearest S' count) 1 0 [] [] .face [0] N = some (false, N') ∧
      N.trivial ≠ N'.trivial := by
  obtain ⟨a, b, hab, hh⟩ := Finite.exists_ne_map_eq_of_infinite
    (fun m : ℕ => (hash (List.range (m + 1)), hash (sortedSet (List.range (m + 1)))))
  simp only [Prod.mk.injEq] at hh
  have hres : ∀ (m k : ℕ) (N : Nbh), reset hash (listTree (splitSamples m) (m + k))
      (listNearest (splitSamples m) (m + k)) 1 0 [] [] .face [0] N =
      some ((computeClosest [0] (listNearest (splitSamples m) (m + k)) N.closest).1 ||
        (computeTrivial hash [0] (fun _ => List.range m) N.trivial).1 ||
        (decide (1 ≠ N.extended.length) || ([List.range m].zip (resize N.extended 1 [])).any
          (fun p => decide (hash p.2 ≠ hash (sortedSet p.1)))),
        ⟨[0], [List.range m], [sortedSet (List.range m)]⟩) := by
    intro m k N
    have hn : listNearest (splitSamples m) (m + k) 0 = 0 := by simp [listNearest]
    have ht : computeTrivial hash [0] (listTree (splitSamples m) (m + k) ((1 + 0) * (1 + 0))) N.trivial =
        computeTrivial hash [0] (fun _ => List.range m) N.trivial := by
      unfold computeTrivial
      have : ∀ p ∈ List.zip [(0 : V3 ℝ)] (resize N.trivial [(0 : V3 ℝ)].length []),
          (decide (hash p.2 ≠ hash (listTree (splitSamples m) (m + k) ((1 + 0) * (1 + 0)) p.1)),
            listTree (splitSamples m) (m + k) ((1 + 0) * (1 + 0)) p.1) =
          (decide (hash p.2 ≠ hash (List.range m)), List.range m) := by
        rintro ⟨p1, p2⟩ hp
        have := (List.of_mem_zip hp).1
        rw [List.mem_singleton] at this
        subst this
        simp only [listTree_split]
      simp only
      rw [List.map_congr_left this]
    unfold reset computeNeighborhoods
    simp only
    rw [ht, computeTrivial_set, computeClosest_set,
      computeExtended_set hash [0] [] [] .face _ N.extended sortedSet (by simp)
        (fun l _ => by simp [extend])]
    simp [hn]
  refine ⟨splitSamples (a + 1), splitSamples (b + 1), (a + 1) + (b + 1),
    ⟨[0], [List.range (a + 1)], [sortedSet (List.range (a + 1))]⟩,
    ⟨[0], [List.range (b + 1)], [sortedSet (List.range (b + 1))]⟩, _,
    listTree_isTree _ _ (by omega) (by simp [splitSamples]),
    listTree_isTree _ _ (by omega) (by simp [splitSamples]), hres _ _ _, ?_, ?_⟩
  · rw [Nat.add_comm (a + 1) (b + 1), hres]
    have hn : listNearest (splitSamples (b + 1)) (b + 1 + (a + 1)) 0 = 0 := by simp [listNearest]
    simp [computeClosest, computeTrivial, resize, hn, hh.1, hh.2]
  · simp only [ne_eq, List.cons.injEq, and_true]
    intro h
    have := congrArg List.length h
    simp at this
    exact hab this

/-! ## Padding -/

theorem dot_le_norm (a b : V3 ℝ) : V3.dot a b ≤ a.norm * b.norm := by
  have h : V3.dot a b * V3.dot a b ≤ (a.norm * b.norm) * (a.norm * b.norm) := by
    have : (a.norm * b.norm) * (a.norm * b.norm) = V3.dot a a * V3.dot b b := by
      rw [← V3.norm_mul_norm, ← V3.norm_mul_norm]; ring
    rw [this]
    simp only [V3.dot]
    nlinarith [sq_nonneg (a.x * b.y - a.y * b.x), sq_nonneg (a.x * b.z - a.z * b.x),
      sq_nonneg (a.y * b.z - a.z * b.y)]
  exact (le_abs_self _).trans
    (abs_le_of_sq_le_sq (by simpa [sq] using h) (mul_nonneg (V3.norm_nonneg _) (V3.norm_nonneg _)))

theorem norm_triangle (a b : V3 ℝ) : (a + b).norm ≤ a.norm + b.norm := by
  have h : (a + b).norm * (a + b).norm ≤ (a.norm + b.norm) * (a.norm + b.norm) := by
    have e : V3.dot (a + b) (a + b) = V3.dot a a + 2 * V3.dot a b + V3.dot b b := by
      simp [V3.dot]; ring
    rw [V3.norm_mul_norm, e, ← V3.norm_mul_norm, ← V3.norm_mul_norm b]
    nlinarith [dot_le_norm a b]
  exact abs_le_of_sq_le_sq (by simpa [sq] using h) (add_nonneg (V3.norm_nonneg _) (V3.norm_nonneg _)) |>
    (le_abs_self _).trans

/-- C73. Neighborhoods computed with a padding contain, for every later position of query point and
samples with relative motions within the padding, all samples within the radius. -/
theorem padded_neighborhood (S S' : Samples) (count : ℕ) (locate : ℝ → V3 ℝ → List ℕ)
    (nearest : V3 ℝ → ℕ) (hT : IsTree S count locate nearest) (radius maxStep : ℝ) (hr : 0 ≤ radius)
    (q q' : V3 ℝ) (hm : ∀ i < count, ((q' - S'.pos i) - (q - S.pos i)).norm ≤ maxStep) (i : ℕ)
    (hi : i < count) (hd : (q' - S'.pos i).norm ≤ radius) :
    i ∈ locate ((radius + maxStep) * (radius + maxStep)) q := by
  rw [hT.mem]
  refine ⟨hi, ?_⟩
  have h0 := hm i hi
  have h1 : (q - S.pos i).norm ≤ radius + maxStep := by
    have e : q - S.pos i = (q' - S'.pos i) + -((q' - S'.pos i) - (q - S.pos i)) := by abel
    have hn : ∀ v : V3 ℝ, (-v).norm = v.norm := fun v => by simp [V3.norm, V3.dot]
    have := norm_triangle (q' - S'.pos i) (-((q' - S'.pos i) - (q - S.pos i)))
    rw [← e, hn] at this
    linarith
  rw [← V3.norm_mul_norm]
  exact mul_self_le_mul_self (V3.norm_nonneg _) h1

/-- Views that contain the same samples within the radius give the same potential, when the background
is not mixed in and at least one sample is within the radius. -/
theorem potential_inside (k : Kern) (hk : k.Proper) (ty : BgType) (q : V3 ℝ) (view view' : List ℕ)
    (S : Samples) (old old' : ℝ) (r : ℝ) (hr : k.radius = some r)
    (hn : view.Nodup) (hn' : view'.Nodup) (hcen : k.Finite ∨ ∀ i ∈ view, q ≠ S.pos i)
    (hsame : ∀ i, (q - S.pos i).norm < r → (i ∈ view ↔ i ∈ view'))
    (hne : ∃ i ∈ view, (q - S.pos i).norm < r) :
    potentialAt q view S k ⟨ty, false⟩ old = potentialAt q view' S k ⟨ty, false⟩ old' := by
  classical
  obtain ⟨j, hj, hjr⟩ := hne
  have hj' := (hsame j hjr).1 hj
  obtain ⟨c, hc⟩ := closestSample_isSome (q := q) (S := S) (l := view) (by rintro rfl; simp at hj)
  obtain ⟨c', hc'⟩ := closestSample_isSome (q := q) (S := S) (l := view') (by rintro rfl; simp at hj')
  obtain ⟨hm, hmin⟩ := closestSample_spec hc
  obtain ⟨hm', hmin'⟩ := closestSample_spec hc'
  have hcr := (hmin j hj).trans_lt hjr
  have hcr' := (hmin' j hj').trans_lt hjr
  have hdist : (q - S.pos c').norm = (q - S.pos c).norm :=
    le_antisymm (hmin' c ((hsame c hcr).1 hm)) (hmin c' ((hsame c' hcr').2 hm'))
  have hd : k.Finite ∨ 0 < (q - S.pos c).norm := hcen.imp id fun h => norm_pos_of_ne (h c hm)
  have hb : backgroundWeight k false (q - S.pos c).norm = 0 := by
    unfold backgroundWeight
    simp only [hr, not_lt.2 hcr.le, if_false, Bool.false_eq_true]
  let p : ℕ → Bool := fun i => decide ((q - S.pos i).norm < r)
  have hperm : (view.filter p).Perm (view'.filter p) := by
    refine (List.perm_ext_iff_of_nodup (hn.filter _) (hn'.filter _)).2 fun i => ?_
    simp only [List.mem_filter, p, decide_eq_true_eq]
    exact ⟨fun h => ⟨(hsame i h.2).1 h.1, h.2⟩, fun h => ⟨(hsame i h.2).2 h.1, h.2⟩⟩
  have hz : ∀ i, p i = false → weight k (q - S.pos c).norm q S i = 0 := fun i h => by
    simp only [p, decide_eq_false_iff_not, not_lt] at h
    exact weight_far hk hd hr h
  have hs : ∀ f : ℕ → ℝ, (∀ i, p i = false → f i = 0) → (view.map f).sum = (view'.map f).sum := by
    intro f hf
    rw [← sum_filter_of_zero p fun i _ h => hf i h, ← sum_filter_of_zero (l := view') p fun i _ h => hf i h]
    exact (hperm.map f).sum_eq
  rw [potentialAt_eq hc, potentialAt_eq hc', hdist, hb,
    hs (fun i => weight k (q - S.pos c).norm q S i * samplePotential q S i)
      fun i h => by rw [hz i h, zero_mul],
    hs (weight k (q - S.pos c).norm q S) hz]
  simp

/-- C73. The potential computed with neighborhoods that were cached before the motion is the potential
computed with neighborhoods computed after the motion, at query points with a sample within the
radius. -/
theorem cached_potential (k : Kern) (hk : k.Proper) (ty : BgType) (r maxStep : ℝ)
    (hr : k.radius = some r) (hr0 : 0 ≤ r) (S S' : Samples) (count : ℕ)
    (locate locate' : ℝ → V3 ℝ → List ℕ) (nearest nearest' : V3 ℝ → ℕ)
    (hT : IsTree S count locate nearest) (hT' : IsTree S' count locate' nearest')
    (q q' : V3 ℝ) (hm : ∀ i < count, ((q' - S'.pos i) - (q - S.pos i)).norm ≤ maxStep)
    (hcen : k.Finite ∨ ∀ i < count, q' ≠ S'.pos i)
    (hne : ∃ i < count, (q' - S'.pos i).norm < r) (old old' : ℝ) :
    potentialAt q' (locate ((r + maxStep) * (r + maxStep)) q) S' k ⟨ty, false⟩ old =
      potentialAt q' (locate' (r * r) q') S' k ⟨ty, false⟩ old' := by
  have hin : ∀ i, i < count → (q' - S'.pos i).norm < r →
      i ∈ locate ((r + maxStep) * (r + maxStep)) q := fun i hi h =>
    padded_neighborhood S S' count locate nearest hT r maxStep hr0 q q' hm i hi h.le
  refine potential_inside k hk ty q' _ _ S' old old' r hr (hT.nodup _ _) (hT'.nodup _ _) ?_ ?_ ?_
  · exact hcen.imp id fun h i hi => h i ((hT.mem _ _ _).1 hi).1
  · intro i h
    refine ⟨fun hi => ?_, fun hi => hin i ((hT'.mem _ _ _).1 hi).1 h⟩
    rw [hT'.mem]
    refine ⟨((hT.mem _ _ _).1 hi).1, ?_⟩
    rw [← V3.norm_mul_norm]
    exact mul_self_le_mul_self (V3.norm_nonneg _) h.le
  · obtain ⟨i, hi, h⟩ := hne
    exact ⟨i, hin i hi h, h⟩

/-- C73 for derivatives of surfaces sampled at vertices: the extended neighborhood of a padded
neighborhood is a view as `vertex_jacobian` needs it, after every motion within the padding. -/
theorem extended_view (k : Kern) (r maxStep : ℝ) (hr : k.radius = some r) (hr0 : 0 ≤ r)
    (S S' : Samples) (count : ℕ) (locate : ℝ → V3 ℝ → List ℕ) (nearest : V3 ℝ → ℕ)
    (hT : IsTree S count locate nearest) (q q' : V3 ℝ)
    (hm : ∀ i < count, ((q' - S'.pos i) - (q - S.pos i)).norm ≤ maxStep) (tris : List Tri)
    (hc : ∀ T ∈ tris, ∀ v, T.Has v → v < count) (ext : List ℕ)
    (he : IsExtended tris .vertex (locate ((r + maxStep) * (r + maxStep)) q) ext) :
    ext.Nodup ∧ ∀ T ∈ tris, (∀ v, T.Has v → v ∈ ext) ∨
      ∃ r, k.radius = some r ∧ ∀ v, T.Has v → r ≤ (q' - S'.pos v).norm := by
  refine ⟨he.1.imp fun h => ne_of_lt h, fun T hT' => ?_⟩
  by_cases h : ∃ v, T.Has v ∧ (q' - S'.pos v).norm ≤ r
  · obtain ⟨i, hi, hd⟩ := h
    refine Or.inl fun v hv => (he.2 v).2 (Or.inr ⟨rfl, T, hT', hv, i, ?_, hi⟩)
    exact padded_neighborhood S S' count locate nearest hT r maxStep hr0 q q' hm i (hc T hT' i hi) hd
  · push Not at h
    exact Or.inr ⟨r, hr, fun v hv => (h v hv).le⟩

/-- C73 fails outside the radius: there the potential depends on the padding. A sample that is cached
determines the background, but if it is not cached the potential is left as it was. -/
theorem cached_background_violated (k : Kern) (hk : k.Proper) (hr : k.radius = some 1) (old : ℝ) :
    (∀ maxStep, 1 / 2 ≤ maxStep → potentialAt ⟨0, 0, 3 / 2⟩
      (listTree (splitSamples 1) 1 ((1 + maxStep) * (1 + maxStep)) ⟨0, 0, 3 / 2⟩)
      (splitSamples 1) k ⟨.distanceBased, false⟩ old = 3 / 2) ∧
    potentialAt ⟨0, 0, 3 / 2⟩ (listTree (splitSamples 1) 1 ((1 + 0) * (1 + 0)) ⟨0, 0, 3 / 2⟩)
      (splitSamples 1) k ⟨.distanceBased, false⟩ old = old := by
  classical
  have hp : (splitSamples 1).pos 0 = 0 := by simp [splitSamples]
  have hd : V3.dot ((⟨0, 0, 3 / 2⟩ : V3 ℝ) - (splitSamples 1).pos 0)
      (⟨0, 0, 3 / 2⟩ - (splitSamples 1).pos 0) = 9 / 4 := by
    rw [hp]; simp [V3.dot]; norm_num
  have hnorm : ((⟨0, 0, 3 / 2⟩ : V3 ℝ) - (splitSamples 1).pos 0).norm = 3 / 2 := by
    unfold V3.norm
    rw [hd, show (9 / 4 : ℝ) = 3 / 2 * (3 / 2) by norm_num, Real.sqrt_mul_self (by norm_num)]
  constructor
  · intro m hm
    have hview : listTree (splitSamples 1) 1 ((1 + m) * (1 + m)) ⟨0, 0, 3 / 2⟩ = [0] := by
      unfold listTree
      have : List.range 1 = [0] := rfl
      rw [this, List.filter_cons_of_pos, List.filter_nil]
      rw [hd]
      simp only [decide_eq_true_eq]
      nlinarith
    rw [hview, potentialAt_eq (c := 0) rfl]
    have hw : weight k (3 / 2) ⟨0, 0, 3 / 2⟩ (splitSamples 1) 0 = 0 :=
      weight_far hk (Or.inr (by norm_num)) hr (by rw [hnorm]; norm_num)
    have hb : backgroundWeight k false (3 / 2) = 1 := by
      unfold backgroundWeight
      simp only [hr]
      rw [if_pos (by norm_num)]
    have hf : (Bg.newImpl ⟨0, 0, 3 / 2⟩ [0] (splitSamples 1) (.loc 0) k ⟨.distanceBased, false⟩
        (some old)).fieldValue = 3 / 2 := by
      have : ((⟨0, 0, 3 / 2⟩ : V3 ℝ) - (splitSamples 1).pos 0) = ⟨0, 0, 3 / 2⟩ := by
        rw [hp, sub_zero]
      simp only [Bg.newImpl, BgValue.new, Bg.fieldValue, Bg.orientation, ClosestIndex.get, hnorm]
      rw [this, if_neg, mul_one]
      simp [splitSamples, V3.dot]
      norm_num
    simp only [hnorm, List.map_cons, List.map_nil, List.sum_cons, List.sum_nil, hw, hb, hf]
    norm_num
  · have hview : listTree (splitSamples 1) 1 ((1 + 0) * (1 + 0)) ⟨0, 0, 3 / 2⟩ = [] := by
      unfold listTree
      have : List.range 1 = [0] := rfl
      rw [this, List.filter_cons_of_neg, List.filter_nil]
      rw [hd]
      simp only [decide_eq_true_eq]
      norm_num
    rw [hview]
    rfl

/-! ## Step bound -/

open ContactBasis ContactJacobian

variable {nv ns nk nc : ℕ}

theorem maxOrZero_spec (l : List ℝ) : (∀ x ∈ l, x ≤ maxOrZero l) ∧ (maxOrZero l ∈ l ∨ l = [] ∧ maxOrZero l = 0) := by
  have key : ∀ (l : List ℝ) (a : ℝ), a ≤ l.foldl max a ∧ (∀ x ∈ l, x ≤ l.foldl max a) ∧
      (l.foldl max a = a ∨ l.foldl max a ∈ l) := by
    intro l
    induction l with
    | nil => intro a; simp
    | cons b l ih =>
      intro a
      obtain ⟨h1, h2, h3⟩ := ih (max a b)
      rw [List.foldl_cons]
      refine ⟨(le_max_left a b).trans h1, fun x hx => ?_, ?_⟩
      · rcases List.mem_cons.1 hx with rfl | hx
        · exact (le_max_right a x).trans h1
        · exact h2 x hx
      · rcases h3 with h3 | h3
        · rw [h3]
          rcases max_choice a b with h | h
          · exact Or.inl h
          · exact Or.inr (by rw [h]; simp)
        · exact Or.inr (List.mem_cons_of_mem _ h3)
  cases l with
  | nil => simp [maxOrZero]
  | cons a l =>
    obtain ⟨h1, h2, h3⟩ := key l a
    refine ⟨fun x hx => ?_, Or.inl ?_⟩
    · rcases List.mem_cons.1 hx with rfl | hx
      · exact h1
      · exact h2 x hx
    · show l.foldl max a ∈ a :: l
      rcases h3 with h3 | h3
      · rw [h3]; simp
      · exact List.mem_cons_of_mem _ h3

/-- C51. After the step bound has been recomputed for a velocity and a time step, no violation is
reported for the same velocity and time step. -/
theorem max_step_covers (s : StepBound nv ns nk nc) (vel : Fin nv → V3 ℝ) (dt m : ℝ)
    (hr : ∀ r, s.radius = some r → 0 ≤ r) (h : computeMaxStep s vel dt = some m) :
    0 ≤ m ∧ maxStepViolated (setMaxStep s m) vel dt = some false := by
  classical
  obtain ⟨jac, basis, radius, step⟩ := s
  cases jac with
  | none =>
    cases h
    refine ⟨le_rfl, ?_⟩
    cases radius <;> rfl
  | some J =>
    simp only [computeMaxStep, Option.map_eq_some_iff] at h
    obtain ⟨v, hv, h⟩ := h
    cases radius with
    | none =>
      simp only at h
      subst h
      refine ⟨le_rfl, ?_⟩
      simp [setMaxStep, maxStepViolated, hv]
    | some r =>
      simp only at h
      subst h
      refine ⟨le_max_left _ _, ?_⟩
      have h0 := hr r rfl
      simp only [setMaxStep, maxStepViolated, hv, Option.map_some]
      refine congrArg some (decide_eq_false (not_lt.2 ?_))
      rcases le_total (v * dt) 0 with hneg | hpos
      · have := le_max_left 0 (1001 / 1000 * (v * dt) - r)
        linarith
      · have := le_max_right 0 (1001 / 1000 * (v * dt) - r)
        linarith

/-- C51. The answer that the step bound is not violated means that no contact separates by more than
the radius and the padding together: `n` is the normal of contact `i`. -/
theorem max_step_meaning (J : Jac nv ns nk nc) (basis : ContactBasis) (r step : ℝ)
    (vel : Fin nv → V3 ℝ) (dt : ℝ) (hdt : 0 ≤ dt)
    (h : maxStepViolated ⟨some J, basis, some r, step⟩ vel dt = some false) (i : Fin nc) :
    ∃ n, basis.normals[(i : ℕ)]? = some n ∧ V3.dot n (mul J vel i) * dt ≤ step + r := by
  classical
  simp only [maxStepViolated, Option.map_eq_some_iff, decide_eq_false_iff_not, not_lt] at h
  obtain ⟨v, hv, h⟩ := h
  unfold maxNormalVelocity at hv
  rw [Option.map_eq_some_iff] at hv
  obtain ⟨l, hl, rfl⟩ := hv
  have h2 := List.forall₂_iff_get.1 (mapM_some hl)
  have hi : (i : ℕ) < (List.finRange nc).length := by simp
  have h3 := h2.2 i hi (h2.1 ▸ hi)
  simp only [List.get_eq_getElem, List.getElem_finRange, Option.map_eq_some_iff] at h3
  obtain ⟨w, hw, hx⟩ := h3
  unfold toContactCoordinates contactBasisMatrix at hw
  simp only [Fin.cast_mk, Fin.eta] at hw
  cases hn : basis.normals[(i : ℕ)]? with
  | none => rw [hn] at hw; cases hw
  | some n =>
    cases ht : basis.tangents[(i : ℕ)]? with
    | none => rw [hn, ht] at hw; cases hw
    | some t =>
      rw [hn, ht] at hw
      cases hw
      refine ⟨n, rfl, ?_⟩
      have hmem : V3.dot n (mul J vel i) ∈ l := by
        have : l[(i : ℕ)]'(h2.1 ▸ hi) = V3.dot n (mul J vel i) := hx.symm
        rw [← this]
        exact List.getElem_mem _
      exact (mul_le_mul_of_nonneg_right ((maxOrZero_spec l).1 _ hmem) hdt).trans h

/-- A surface vertex (0) below a collider vertex (1), with one contact. -/
def dropJac : Jac 2 1 1 1 := ⟨[(0, 0, M3.diag 1)], fun _ => 0, fun _ => 1, fun _ => 0⟩

/-- The frame of a contact with a horizontal surface: normals point into the surface
(`point_contact.rs:931-951`). -/
def dropBasis : ContactBasis := updateFromNormals [⟨0, 0, -1⟩]

/-- Vertex velocities: the surface rests, the collider falls. -/
def dropVel (V : ℝ) : Fin 2 → V3 ℝ := fun i => if i = 0 then 0 else ⟨0, 0, -V⟩

theorem drop_normalVelocity (V : ℝ) : maxNormalVelocity dropJac dropBasis (dropVel V) = some (-V) := by
  have hr : List.finRange 1 = [0] := rfl
  have hm : mul dropJac (dropVel V) 0 = ⟨0, 0, V⟩ := by
    have h1 : ((1 : Fin 2) = 0) = False := by simp
    ext <;> simp [mul, matMul, dropJac, dropVel, M3.mulVec, M3.diag, V3.dot, h1]
  unfold maxNormalVelocity
  rw [hr]
  simp [hm, toContactCoordinates, contactBasisMatrix, dropBasis, updateFromNormals, frame, M3.mulVec,
    V3.dot, maxOrZero]

/-- C51: the bound does cover separating motion. -/
example : computeMaxStep ⟨some dropJac, dropBasis, some 1, 0⟩ (dropVel (-1000)) 1 = some 1000 ∧
    maxStepViolated ⟨some dropJac, dropBasis, some 1, 0⟩ (dropVel (-1000)) 1 = some true ∧
    maxStepViolated ⟨some dropJac, dropBasis, some 1, 1000⟩ (dropVel (-1000)) 1 = some false := by
  simp only [computeMaxStep, maxStepViolated, drop_normalVelocity]
  norm_num

/-- C74 fails: a collider may approach the surface at any speed, and neither is a violation of the
step bound reported nor the padding of the neighborhoods enlarged, no matter how small radius and
padding are. -/
theorem approach_violated (V dt r step : ℝ) (hV : 0 ≤ V) (hdt : 0 ≤ dt) (hr : 0 ≤ r)
    (hs : 0 ≤ step) :
    (mul dropJac (dropVel V) 0).norm * dt = V * dt ∧
    maxStepViolated ⟨some dropJac, dropBasis, some r, step⟩ (dropVel V) dt = some false ∧
    computeMaxStep ⟨some dropJac, dropBasis, some r, step⟩ (dropVel V) dt = some 0 := by
  have hvd := mul_nonneg hV hdt
  refine ⟨?_, ?_, ?_⟩
  · have hm : mul dropJac (dropVel V) 0 = ⟨0, 0, V⟩ := by
      have h1 : ((1 : Fin 2) = 0) = False := by simp
      ext <;> simp [mul, matMul, dropJac, dropVel, M3.mulVec, M3.diag, V3.dot, h1]
    rw [hm]
    simp [V3.norm, V3.dot, Real.sqrt_mul_self hV]
  · simp only [maxStepViolated, drop_normalVelocity, Option.map_some]
    exact congrArg some (decide_eq_false (not_lt.2 (by linarith)))
  · simp only [computeMaxStep, drop_normalVelocity, Option.map_some]
    rw [max_eq_left (by linarith)]

/-- C74: reports are confined to separation. If every contact approaches or slides, no violation is
reported. -/
theorem no_report_of_approach (J : Jac nv ns nk nc) (basis : ContactBasis) (r step : ℝ)
    (vel : Fin nv → V3 ℝ) (dt : ℝ) (hdt : 0 ≤ dt) (hr : 0 ≤ r) (hs : 0 ≤ step) (b : Bool)
    (happ : ∀ (i : Fin nc) (n : V3 ℝ), basis.normals[(i : ℕ)]? = some n → V3.dot n (mul J vel i) ≤ 0)
    (h : maxStepViolated ⟨some J, basis, some r, step⟩ vel dt = some b) : b = false := by
  classical
  simp only [maxStepViolated, Option.map_eq_some_iff] at h
  obtain ⟨v, hv, rfl⟩ := h
  refine decide_eq_false (not_lt.2 ?_)
  have hv0 : v ≤ 0 := by
    unfold maxNormalVelocity at hv
    rw [Option.map_eq_some_iff] at hv
    obtain ⟨l, hl, rfl⟩ := hv
    rcases (maxOrZero_spec l).2 with hmem | ⟨-, h0⟩
    · obtain ⟨k, hk, he⟩ := List.getElem_of_mem hmem
      have h2 := List.forall₂_iff_get.1 (mapM_some hl)
      have hk' : k < (List.finRange nc).length := h2.1 ▸ hk
      have h3 := h2.2 k hk' hk
      simp only [List.get_eq_getElem, List.getElem_finRange, Option.map_eq_some_iff] at h3
      obtain ⟨w, hw, hx⟩ := h3
      rw [← he, ← hx]
      unfold toContactCoordinates contactBasisMatrix at hw
      have hk2 : k < nc := by simpa using hk'
      have hcast : (Fin.cast (List.length_finRange (n := nc)) ⟨k, hk'⟩) = (⟨k, hk2⟩ : Fin nc) := rfl
      rw [hcast] at hw
      cases hn : basis.normals[k]? with
      | none => rw [hn] at hw; cases hw
      | some n =>
        cases ht : basis.tangents[k]? with
        | none => rw [hn, ht] at hw; cases hw
        | some t =>
          rw [hn, ht] at hw
          cases hw
          exact happ ⟨k, hk2⟩ n hn
    · exact h0.le
  have := mul_nonneg_of_nonpos_of_nonpos hv0 (neg_nonpos.2 hdt)
  linarith

/-- C74 fails for the step as well: a solution that moves contacts by more than the padding is
committed, and the step succeeds, if no contact is violated at its end. -/
theorem max_step_committed_violated :
    ∃ (env : Solver.Env ℝ ℝ) (par : Solver.Params) (s : Solver.Sim ℝ ℝ) (ω : ℕ → Solver.Outcome ℝ)
      (rs : List Solver.StageResult),
      (ω 0).maxStep = true ∧ 1 < par.contactIterations ∧
      (Solver.step env par ω (fun _ => true) s).result = some rs ∧
      (Solver.step env par ω (fun _ => true) s).solves = 1 ∧
      (Solver.step env par ω (fun _ => true) s).sim.state =
        env.advance .BE s.timeStep s.state (ω 0).solution ∧
      (ω 0).solution ≠ 0 := by
  have hstep : ∃ rs sim, Solver.step (X := ℝ) ⟨0, fun _ dt x v => x + dt * v, id⟩ ⟨5, .BE, 10⟩
      (fun _ => ⟨.success, 2, [], true⟩) (fun _ => true) ⟨0, 0, 1, .BE, [], [], 0⟩ =
      ⟨1, sim, some rs⟩ ∧ sim.state = 0 + 1 * 2 := by
    have hr : List.range 1 = [0] := rfl
    unfold Solver.step
    simp only [Softy.TimeInt.TimeIntegration.numStages, hr, Solver.stages, if_true, Softy.TimeInt.TimeIntegration.stepIntegrator]
    rw [Solver.contactLoop]
    simp [Solver.contactViolation, Solver.contactConstraint, Solver.minBy, Solver.relax, Solver.commit]
  obtain ⟨rs, sim, hs, hst⟩ := hstep
  refine ⟨⟨0, fun _ dt x v => x + dt * v, id⟩, ⟨5, .BE, 10⟩, ⟨0, 0, 1, .BE, [], [], 0⟩,
    fun _ => ⟨.success, 2, [], true⟩, rs, rfl, by norm_num, ?_, ?_, ?_, by norm_num⟩
  · rw [hs]
  · rw [hs]
  · rw [hs, hst]

/-! ## Cases that meet the hypotheses -/

/-- The samples of `splitSamples 1` after a step along the normal. -/
def movedSamples : Samples := { splitSamples 1 with pos := fun i => (splitSamples 1).pos i + ⟨0, 0, 1⟩ }

open Classical in
/-- A tree over any samples. -/
theorem exists_tree (S : Samples) (count : ℕ) (hc : 0 < count) :
    ∃ nearest, IsTree S count (listTree S count) nearest := by
  have hne : List.range count ≠ [] := by simp; omega
  refine ⟨fun q => (closestSample q S (List.range count)).getD 0,
    fun r2 q => List.Nodup.filter _ List.nodup_range, fun r2 q i => by simp [listTree], fun q => ?_,
    fun q i hi => ?_⟩
  · obtain ⟨c, h⟩ := closestSample_isSome (q := q) (S := S) hne
    rw [h]
    simpa using (closestSample_spec h).1
  · obtain ⟨c, h⟩ := closestSample_isSome (q := q) (S := S) hne
    rw [h]
    have := (closestSample_spec h).2 i (by simpa using hi)
    rw [← V3.norm_mul_norm, ← V3.norm_mul_norm]
    exact mul_self_le_mul_self (V3.norm_nonneg _) this

theorem norm_z (z : ℝ) : (⟨0, 0, z⟩ : V3 ℝ).norm = |z| := by
  simp [V3.norm, V3.dot, Real.sqrt_mul_self_eq_abs]

/-- `cached_potential` and `padded_neighborhood`: the query point is at first outside of the radius
and the sample moves towards it, within the padding. -/
example (old : ℝ) : potentialAt ⟨0, 0, 3 / 2⟩
      (listTree (splitSamples 1) 1 ((1 + 1) * (1 + 1)) ⟨0, 0, 3 / 2⟩) movedSamples (.cubic 1)
      ⟨.distanceBased, false⟩ old =
    potentialAt ⟨0, 0, 3 / 2⟩ (listTree movedSamples 1 (1 * 1) ⟨0, 0, 3 / 2⟩) movedSamples (.cubic 1)
      ⟨.distanceBased, false⟩ 0 ∧ 0 ∉ listTree (splitSamples 1) 1 (1 * 1) ⟨0, 0, 3 / 2⟩ := by
  obtain ⟨n1, h1⟩ := exists_tree (splitSamples 1) 1 one_pos
  obtain ⟨n2, h2⟩ := exists_tree movedSamples 1 one_pos
  constructor
  · refine cached_potential (.cubic 1) (by exact one_pos) .distanceBased 1 1 rfl zero_le_one _ _ 1 _ _ n1 n2 h1 h2
      ⟨0, 0, 3 / 2⟩ ⟨0, 0, 3 / 2⟩ ?_ (Or.inl trivial) ⟨0, one_pos, ?_⟩ old 0
    · intro i hi
      obtain rfl : i = 0 := by omega
      have : ((⟨0, 0, 3 / 2⟩ : V3 ℝ) - movedSamples.pos 0 - (⟨0, 0, 3 / 2⟩ - (splitSamples 1).pos 0)) =
          ⟨0, 0, -1⟩ := by
        ext <;> simp [movedSamples, splitSamples]
      rw [this, norm_z]
      simp
    · have : ((⟨0, 0, 3 / 2⟩ : V3 ℝ) - movedSamples.pos 0) = ⟨0, 0, 1 / 2⟩ := by
        ext <;> simp [movedSamples, splitSamples]
        norm_num
      rw [this, norm_z, abs_of_pos (by norm_num)]
      norm_num
  · rw [h1.mem]
    simp [splitSamples, V3.dot]
    norm_num

/-- `extended_view`: a triangle with one corner in the padded neighborhood. -/
example : ∃ ext, extend [⟨0, 1, 2⟩] (computeDual 3 [⟨0, 1, 2⟩]) .vertex
      (listTree (splitSamples 1) 3 ((1 + 0) * (1 + 0)) 0) = some ext ∧
    IsExtended [⟨0, 1, 2⟩] .vertex (listTree (splitSamples 1) 3 ((1 + 0) * (1 + 0)) 0) ext := by
  have : listTree (splitSamples 1) 3 ((1 + 0) * (1 + 0)) 0 = [0] := by
    rw [show (3 : ℕ) = 1 + 2 from rfl, listTree_split]
    rfl
  rw [this]
  exact extend_spec [⟨0, 1, 2⟩] 3 .vertex [0] fun _ i hi => by
    rw [List.mem_singleton] at hi
    omega

end Softy.Neighborhood
