import Verif.Model.BaseRadius
import Verif.Props.NeighborhoodStep
import Verif.Props.Contact

/-!
# C83: contact surfaces have no holes
-/

noncomputable section

namespace Softy.Neighborhood

open Softy Softy.Field

/-! ## Specification -/

/-- A point of a triangle. -/
def OnFace (x : ℕ → V3 ℝ) (t : Tri) (q : V3 ℝ) : Prop :=
  ∃ a b c : ℝ, 0 ≤ a ∧ 0 ≤ b ∧ 0 ≤ c ∧ a + b + c = 1 ∧ q = a • x t.a + b • x t.b + c • x t.c

/-- The triangles as a function of their numbers. -/
def triFn (tris : List Tri) (i : ℕ) : Tri := (tris[i]?).getD ⟨0, 0, 0⟩

/-- The center of a triangle. -/
def faceCenter (x : ℕ → V3 ℝ) (t : Tri) : V3 ℝ := (1 / 3 : ℝ) • (x t.a + x t.b + x t.c)

/-- Positions that keep all distances. -/
def Rigid (x x' : ℕ → V3 ℝ) : Prop := ∀ i j, (x' i - x' j).norm = (x i - x j).norm

/-! ## The base radius -/

theorem centroid_eq (x : ℕ → V3 ℝ) (t : Tri) : centroid x t = faceCenter x t := by
  ext <;> simp [centroid, faceCenter]

theorem foldl_max_ge (l : List ℝ) (a : ℝ) : a ≤ l.foldl max a ∧ ∀ b ∈ l, b ≤ l.foldl max a := by
  induction l generalizing a with
  | nil => simp
  | cons c l ih =>
    obtain ⟨h1, h2⟩ := ih (max a c)
    refine ⟨(le_max_left a c).trans h1, fun b hb => ?_⟩
    rcases List.mem_cons.1 hb with rfl | hb
    · exact (le_max_right _ _).trans h1
    · exact h2 b hb

theorem foldl_max_mem (l : List ℝ) (a : ℝ) : l.foldl max a = a ∨ l.foldl max a ∈ l := by
  induction l generalizing a with
  | nil => simp
  | cons c l ih =>
    rw [List.foldl_cons]
    rcases ih (max a c) with h | h
    · rcases max_choice a c with e | e
      · left; rw [h, e]
      · right; rw [h, e]; exact List.mem_cons_self
    · right; exact List.mem_cons_of_mem _ h

theorem maxBy_spec (l : List ℝ) (m : ℝ) (h : maxBy l = some m) : m ∈ l ∧ ∀ b ∈ l, b ≤ m := by
  cases l with
  | nil => cases h
  | cons a l =>
    simp only [maxBy, Option.some.injEq] at h
    subst h
    refine ⟨?_, ?_⟩
    · rcases foldl_max_mem l a with e | e
      · rw [e]; exact List.mem_cons_self
      · exact List.mem_cons_of_mem _ e
    · intro b hb
      rcases List.mem_cons.1 hb with rfl | hb
      · exact (foldl_max_ge l b).1
      · exact (foldl_max_ge l a).2 b hb

theorem faceRadiusSq_ge (x : ℕ → V3 ℝ) (t : Tri) (i : Fin 3) :
    (x (t.get i) - centroid x t).norm ^ 2 ≤ faceRadiusSq x t := by
  rw [sq, V3.norm_mul_norm]
  unfold faceRadiusSq
  fin_cases i
  · exact (le_max_left _ _).trans (le_max_left _ _)
  · exact (le_max_right _ _).trans (le_max_left _ _)
  · exact le_max_right _ _

theorem faceRadiusSq_mem (x : ℕ → V3 ℝ) (t : Tri) :
    ∃ i, faceRadiusSq x t = (x (t.get i) - centroid x t).norm ^ 2 := by
  unfold faceRadiusSq
  simp only [sq, V3.norm_mul_norm]
  rcases max_choice (max (V3.dot (x (t.get 0) - centroid x t) (x (t.get 0) - centroid x t))
      (V3.dot (x (t.get 1) - centroid x t) (x (t.get 1) - centroid x t)))
      (V3.dot (x (t.get 2) - centroid x t) (x (t.get 2) - centroid x t)) with h | h
  · rw [h]
    rcases max_choice (V3.dot (x (t.get 0) - centroid x t) (x (t.get 0) - centroid x t))
      (V3.dot (x (t.get 1) - centroid x t) (x (t.get 1) - centroid x t)) with g | g
    · exact ⟨0, g⟩
    · exact ⟨1, g⟩
  · exact ⟨2, h⟩

/-- C83: the base radius is the greatest distance of a vertex of a face from the center of that face. It is
computed for every surface that has faces. -/
theorem base_radius (tris : List Tri) (x : ℕ → V3 ℝ) :
    (tris ≠ [] → ∃ r, baseRadius tris x = some r) ∧
    ∀ r, baseRadius tris x = some r →
      (∀ t ∈ tris, ∀ i, (x (t.get i) - faceCenter x t).norm ≤ r) ∧
      ∃ t ∈ tris, ∃ i, (x (t.get i) - faceCenter x t).norm = r := by
  simp only [← centroid_eq]
  constructor
  · intro h
    obtain ⟨t, l, rfl⟩ := List.exists_cons_of_ne_nil h
    exact ⟨_, rfl⟩
  · intro r h
    unfold baseRadius at h
    rw [Option.map_eq_some_iff] at h
    obtain ⟨m, hm, rfl⟩ := h
    obtain ⟨h1, h2⟩ := maxBy_spec _ _ hm
    constructor
    · intro t ht i
      refine Real.le_sqrt_of_sq_le ?_
      exact (faceRadiusSq_ge x t i).trans (h2 _ (List.mem_map.2 ⟨t, ht, rfl⟩))
    · obtain ⟨t, ht, rfl⟩ := List.mem_map.1 h1
      obtain ⟨i, hi⟩ := faceRadiusSq_mem x t
      exact ⟨t, ht, i, by rw [hi, Real.sqrt_sq (V3.norm_nonneg _)]⟩

/-! ## Points of faces -/

theorem norm_smul_nonneg (a : ℝ) (ha : 0 ≤ a) (v : V3 ℝ) : (a • v).norm = a * v.norm := by
  unfold V3.norm
  have : V3.dot (a • v) (a • v) = a ^ 2 * V3.dot v v := by simp [V3.dot]; ring
  rw [this, Real.sqrt_mul (sq_nonneg a), Real.sqrt_sq ha]

theorem onFace_near (x : ℕ → V3 ℝ) (t : Tri) (q : V3 ℝ) (hq : OnFace x t q) (r : ℝ)
    (h : ∀ i, (x (t.get i) - centroid x t).norm ≤ r) : (q - centroid x t).norm ≤ r := by
  obtain ⟨a, b, c, ha, hb, hc, habc, rfl⟩ := hq
  have e : a • x t.a + b • x t.b + c • x t.c - centroid x t =
      (a • (x t.a - centroid x t) + b • (x t.b - centroid x t)) + c • (x t.c - centroid x t) := by
    have hc' : c = 1 - a - b := by linarith
    subst hc'
    ext <;> simp <;> ring
  rw [e]
  refine (norm_triangle _ _).trans ((add_le_add_left (norm_triangle _ _) _).trans ?_)
  rw [norm_smul_nonneg a ha, norm_smul_nonneg b hb, norm_smul_nonneg c hc]
  have h0 : (x t.a - centroid x t).norm ≤ r := h 0
  have h1 : (x t.b - centroid x t).norm ≤ r := h 1
  have h2 : (x t.c - centroid x t).norm ≤ r := h 2
  calc a * (x t.a - centroid x t).norm + b * (x t.b - centroid x t).norm +
        c * (x t.c - centroid x t).norm ≤ a * r + b * r + c * r :=
        add_le_add (add_le_add (mul_le_mul_of_nonneg_left h0 ha) (mul_le_mul_of_nonneg_left h1 hb))
          (mul_le_mul_of_nonneg_left h2 hc)
    _ = r := by rw [← add_mul, ← add_mul, habc, one_mul]

/-- C83, while no face is greater than the radius: every point of every face is close to the sample of that
face, so that the neighborhood of a collider vertex on the surface is not empty. -/
theorem surface_covered_partial (tris : List Tri) (x : ℕ → V3 ℝ) (value : ℕ → ℝ)
    (locate : ℝ → V3 ℝ → List ℕ) (nearest : V3 ℝ → ℕ)
    (hT : IsTree (faceSamples (triFn tris) x value) tris.length locate nearest) (radius maxStep : ℝ)
    (hm : 0 ≤ maxStep)
    (h : ∀ t ∈ tris, ∀ i, (x (t.get i) - faceCenter x t).norm ≤ radius)
    (s : ℕ) (hs : s < tris.length) (q : V3 ℝ) (hq : OnFace x (tris[s]) q) :
    s ∈ locate ((radius + maxStep) * (radius + maxStep)) q := by
  simp only [← centroid_eq] at h
  rw [hT.mem]
  refine ⟨hs, ?_⟩
  have hpos : (faceSamples (triFn tris) x value).pos s = centroid x tris[s] := by
    simp only [faceSamples, triFn, List.getElem?_eq_getElem hs]
    rfl
  rw [hpos, ← V3.norm_mul_norm]
  have := onFace_near x _ q hq radius (h _ (List.getElem_mem hs))
  exact mul_self_le_mul_self (V3.norm_nonneg _) (by linarith)

/-- C83, where the surface was built, for multipliers of at least one. -/
theorem surface_covered_built (tris : List Tri) (x : ℕ → V3 ℝ) (value : ℕ → ℝ)
    (locate : ℝ → V3 ℝ → List ℕ) (nearest : V3 ℝ → ℕ)
    (hT : IsTree (faceSamples (triFn tris) x value) tris.length locate nearest)
    (multiplier radius maxStep : ℝ) (hmul : 1 ≤ multiplier)
    (hr : surfaceRadius tris x multiplier = some radius) (hm : 0 ≤ maxStep)
    (s : ℕ) (hs : s < tris.length) (q : V3 ℝ) (hq : OnFace x (tris[s]) q) :
    s ∈ locate ((radius + maxStep) * (radius + maxStep)) q := by
  unfold surfaceRadius at hr
  rw [Option.map_eq_some_iff] at hr
  obtain ⟨r, hr, rfl⟩ := hr
  obtain ⟨h1, t, -, i, h2⟩ := (base_radius tris x).2 r hr
  have hr0 : 0 ≤ r := by rw [← h2]; exact V3.norm_nonneg _
  refine surface_covered_partial tris x value locate nearest hT _ maxStep hm (fun t ht i => ?_) s hs q hq
  exact (h1 t ht i).trans (by nlinarith)

/-- The distance of a vertex from the center of its face is determined by the lengths of the edges. -/
theorem centroid_norm_sq (x : ℕ → V3 ℝ) (t : Tri) (i : Fin 3) :
    9 * (x (t.get i) - centroid x t).norm ^ 2 =
      2 * (x (t.get i) - x (t.get (i + 1))).norm ^ 2 + 2 * (x (t.get i) - x (t.get (i + 2))).norm ^ 2 -
        (x (t.get (i + 1)) - x (t.get (i + 2))).norm ^ 2 := by
  simp only [sq, V3.norm_mul_norm]
  fin_cases i <;> simp [Tri.get, centroid, V3.dot] <;> ring

theorem rigid_radius (x x' : ℕ → V3 ℝ) (h : Rigid x x') (t : Tri) (i : Fin 3) :
    (x' (t.get i) - centroid x' t).norm = (x (t.get i) - centroid x t).norm := by
  have h1 := centroid_norm_sq x t i
  have h2 := centroid_norm_sq x' t i
  rw [h, h, h] at h2
  have : (x' (t.get i) - centroid x' t).norm ^ 2 = (x (t.get i) - centroid x t).norm ^ 2 := by linarith
  exact (sq_eq_sq₀ (V3.norm_nonneg _) (V3.norm_nonneg _)).1 this

/-- C83, while the object moves rigidly from where the surface was built. -/
theorem surface_covered_rigid (tris : List Tri) (x x' : ℕ → V3 ℝ) (hx : Rigid x x') (value : ℕ → ℝ)
    (locate : ℝ → V3 ℝ → List ℕ) (nearest : V3 ℝ → ℕ)
    (hT : IsTree (faceSamples (triFn tris) x' value) tris.length locate nearest)
    (multiplier radius maxStep : ℝ) (hmul : 1 ≤ multiplier)
    (hr : surfaceRadius tris x multiplier = some radius) (hm : 0 ≤ maxStep)
    (s : ℕ) (hs : s < tris.length) (q : V3 ℝ) (hq : OnFace x' (tris[s]) q) :
    s ∈ locate ((radius + maxStep) * (radius + maxStep)) q := by
  unfold surfaceRadius at hr
  rw [Option.map_eq_some_iff] at hr
  obtain ⟨r, hr, rfl⟩ := hr
  obtain ⟨h1, t, -, i, h2⟩ := (base_radius tris x).2 r hr
  have hr0 : 0 ≤ r := by rw [← h2]; exact V3.norm_nonneg _
  refine surface_covered_partial tris x' value locate nearest hT _ maxStep hm (fun t ht i => ?_) s hs q hq
  rw [← centroid_eq, rigid_radius x x' hx, centroid_eq]
  exact (h1 t ht i).trans (by nlinarith)

/-! ## Stretched surfaces -/

/-- One triangle of size `s`. -/
def stretched (s : ℝ) : ℕ → V3 ℝ
  | 1 => ⟨s, 0, 0⟩
  | 2 => ⟨0, s, 0⟩
  | 3 => ⟨0.8 * s, 0.1 * s, 0⟩
  | _ => 0

theorem stretched_radius : baseRadius [⟨0, 1, 2⟩] (stretched 1) = some (√5 / 3) := by
  have h0 : V3.dot (stretched 1 0 - centroid (stretched 1) ⟨0, 1, 2⟩)
      (stretched 1 0 - centroid (stretched 1) ⟨0, 1, 2⟩) = 2 / 9 := by
    norm_num [stretched, centroid, V3.dot]
  have h1 : V3.dot (stretched 1 1 - centroid (stretched 1) ⟨0, 1, 2⟩)
      (stretched 1 1 - centroid (stretched 1) ⟨0, 1, 2⟩) = 5 / 9 := by
    norm_num [stretched, centroid, V3.dot]
  have h2 : V3.dot (stretched 1 2 - centroid (stretched 1) ⟨0, 1, 2⟩)
      (stretched 1 2 - centroid (stretched 1) ⟨0, 1, 2⟩) = 5 / 9 := by
    norm_num [stretched, centroid, V3.dot]
  have : faceRadiusSq (stretched 1) ⟨0, 1, 2⟩ = 5 / 9 := by
    unfold faceRadiusSq
    simp only [Tri.get]
    rw [h0, h1, h2]
    norm_num
  simp only [baseRadius, List.map_cons, List.map_nil, maxBy, List.foldl_nil, Option.map_some, this]
  rw [Real.sqrt_div (by norm_num), show (9 : ℝ) = 3 ^ 2 by norm_num, Real.sqrt_sq (by norm_num)]

theorem stretched_on (s : ℝ) : OnFace (stretched s) ⟨0, 1, 2⟩ (stretched s 3) := by
  refine ⟨0.1, 0.8, 0.1, by norm_num, by norm_num, by norm_num, by norm_num, ?_⟩
  ext <;> simp [stretched]

theorem stretched_dist (s : ℝ) :
    V3.dot (stretched s 3 - centroid (stretched s) ⟨0, 1, 2⟩)
      (stretched s 3 - centroid (stretched s) ⟨0, 1, 2⟩) = 0.49 * (5 / 9) * s ^ 2 := by
  simp [stretched, centroid, V3.dot]
  ring

/-- The contact of the triangle with vertex 3, which touches it. -/
def touching (k : Kernel.Kern) (nbrs : List (List ℕ)) (delta kappa : ℝ) : Softy.Contact.Pair where
  tris := triFn [⟨0, 1, 2⟩]
  value := fun _ => 0
  kernel := k
  nbrs := nbrs
  closest := fun _ => 0
  surf := id
  coll := fun _ => 3
  objectFixed := false
  colliderFixed := false
  offset := 0
  delta := delta
  kappa := kappa

/-- Non-vacuity: the hypotheses of `surface_covered_built` hold for the triangle of size one, and vertex 3
on it finds the sample of the triangle. -/
example : ∃ locate nearest,
    IsTree (faceSamples (triFn [⟨0, 1, 2⟩]) (stretched 1) fun _ => 0) 1 locate nearest ∧
    0 ∈ locate ((√5 / 3 + 0) * (√5 / 3 + 0)) (stretched 1 3) := by
  obtain ⟨nearest, hT⟩ :=
    exists_tree (faceSamples (triFn [⟨0, 1, 2⟩]) (stretched 1) fun _ => 0) 1 (by norm_num)
  refine ⟨_, nearest, hT, ?_⟩
  exact surface_covered_built [⟨0, 1, 2⟩] (stretched 1) (fun _ => 0) _ nearest hT 1 (√5 / 3) 0 le_rfl
    (by rw [surfaceRadius, stretched_radius]; simp) le_rfl 0 (by simp) _ (stretched_on 1)

/-- C83, violated: the radius is computed when the surface is built and does not grow with it. For every
multiplier and padding, a surface that is stretched far enough has holes: vertex 3 lies on the triangle at
all sizes, but once the triangle is large its neighborhood is empty, and the contact neither costs energy
nor exerts a force, whatever its stiffness and tolerance. -/
theorem surface_hole_violated (multiplier maxStep : ℝ) (hmul : 1 ≤ multiplier) (hstep : 0 ≤ maxStep)
    (hash : List ℕ → Fin (2 ^ 64)) :
    ∃ r, surfaceRadius [⟨0, 1, 2⟩] (stretched 1) multiplier = some r ∧
    ∃ size : ℝ, 1 ≤ size ∧ OnFace (stretched size) ⟨0, 1, 2⟩ (stretched size 3) ∧
      ∀ locate nearest,
        IsTree (faceSamples (triFn [⟨0, 1, 2⟩]) (stretched size) fun _ => 0) 1 locate nearest →
      ∃ changed N, reset hash locate nearest r maxStep [⟨0, 1, 2⟩] (computeDual 3 [⟨0, 1, 2⟩]) .face
          [stretched size 3] Nbh.new = some (changed, N) ∧ N.trivial = [[]] ∧
        ∀ k delta kappa, (touching k N.trivial delta kappa).energy (stretched size) = 0 ∧
          ∀ f, (touching k N.trivial delta kappa).subtractForce (stretched size) f = f := by
  refine ⟨√5 / 3 * multiplier, by rw [surfaceRadius, stretched_radius]; rfl,
    2 * (multiplier + 2 * maxStep), by linarith, stretched_on _, ?_⟩
  intro locate nearest hT
  have h5 : (2 : ℝ) ≤ √5 := by
    rw [show (2 : ℝ) = √4 by rw [show (4 : ℝ) = 2 ^ 2 by norm_num, Real.sqrt_sq (by norm_num)]]
    exact Real.sqrt_le_sqrt (by norm_num)
  have h5' : √5 * √5 = 5 := Real.mul_self_sqrt (by norm_num)
  have hloc : locate ((√5 / 3 * multiplier + maxStep) * (√5 / 3 * multiplier + maxStep))
      (stretched (2 * (multiplier + 2 * maxStep)) 3) = [] := by
    rw [List.eq_nil_iff_forall_not_mem]
    intro i hi
    rw [hT.mem] at hi
    obtain ⟨hi1, hi2⟩ := hi
    have : i = 0 := by omega
    subst this
    have hpos : (faceSamples (triFn [⟨0, 1, 2⟩]) (stretched (2 * (multiplier + 2 * maxStep)))
        fun _ => 0).pos 0 = centroid (stretched (2 * (multiplier + 2 * maxStep))) ⟨0, 1, 2⟩ := rfl
    rw [hpos, stretched_dist] at hi2
    have hle : √5 / 3 * multiplier + maxStep ≤ √5 / 3 * (multiplier + 1.5 * maxStep) := by nlinarith
    have hsq : (√5 / 3 * multiplier + maxStep) * (√5 / 3 * multiplier + maxStep) ≤
        5 / 9 * (multiplier + 1.5 * maxStep) ^ 2 := by
      have h0 : 0 ≤ √5 / 3 * multiplier + maxStep := by positivity
      refine (mul_self_le_mul_self h0 hle).trans (le_of_eq ?_)
      linear_combination (multiplier + 1.5 * maxStep) ^ 2 / 9 * h5'
    nlinarith
  have hdual : computeDual 3 [⟨0, 1, 2⟩] = [[0], [0], [0]] := by decide
  refine ⟨true, ⟨[nearest (stretched (2 * (multiplier + 2 * maxStep)) 3)], [[]], [[]]⟩, ?_, rfl, ?_⟩
  · simp [reset, computeNeighborhoods, computeClosest, computeTrivial, computeExtended, Nbh.new, resize,
      hloc, extend, hdual, sortedSet]
  · intro k delta kappa
    constructor
    · simp [Softy.Contact.Pair.energy, Softy.Contact.Pair.distances, Softy.Contact.Pair.potentials, touching]
    · intro f
      simp [Softy.Contact.Pair.subtractForce, Softy.Contact.Pair.blocks, Softy.Contact.Pair.objectBlocks,
        Softy.Contact.Pair.colliderBlocks, Softy.Contact.Pair.surfaceIndices,
        Softy.Contact.Pair.queryIndices, Softy.Contact.Pair.active, touching]

end Softy.Neighborhood
