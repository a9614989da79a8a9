import Verif.Model.EdgeReference
import Verif.Props.EdgeBending
import Verif.Lemmas.Rotation

/-!
# C108: the reference shape of bending elements

The energy of a bending element is weighted by a number that the solver computes once from the positions at rest:
the length of the edge by the span of its neighborhood, as in "Discrete Shells" (Grinspun et al. 2003), which the
code refers to.
-/

noncomputable section

namespace Softy.IEdge

open Softy V3

/-! ## Specification -/

/-- `h` is the height of the triangle `a b p` over its edge from `a` to `b`: the smallest distance of `p` from a
point of the line through `a` and `b`. -/
def IsHeight (h : ℝ) (p a b : V3 ℝ) : Prop := IsLeast {d | ∃ t : ℝ, d = (p - (a + t • (b - a))).norm} h

/-- The area of a triangle. -/
def area (a b c : V3 ℝ) : ℝ := (cross (b - a) (c - a)).norm / 2

/-- The corners of the two triangles at rest: the ends of the edge and the corner opposite to it. -/
structure Hinge where
  a0 : V3 ℝ
  b0 : V3 ℝ
  c0 : V3 ℝ
  a1 : V3 ℝ
  b1 : V3 ℝ
  c1 : V3 ℝ

/-- Reads the corners of a hinge from the positions at rest. -/
def Edge.hinge (e : Edge) (refPos : ℕ → ℕ → V3 ℝ) : Hinge :=
  ⟨e.vert0 refPos 0, e.vert0 refPos 1, e.vert0 refPos 2, e.vert1 refPos 0, e.vert1 refPos 1, e.vert1 refPos 2⟩

/-! ## Heights -/

theorem norm_sq (v : V3 ℝ) : v.norm ^ 2 = dot v v := by
  unfold V3.norm
  exact Real.sq_sqrt (by simp only [dot]; nlinarith [mul_self_nonneg v.x, mul_self_nonneg v.y, mul_self_nonneg v.z])

theorem norm_nonneg' (v : V3 ℝ) : 0 ≤ v.norm := Real.sqrt_nonneg _

theorem norm_pos' {v : V3 ℝ} (h : v ≠ 0) : 0 < v.norm := by
  refine lt_of_le_of_ne (norm_nonneg' v) fun h0 => h ?_
  have h1 := norm_sq v
  rw [← h0] at h1
  simp only [dot] at h1
  have hx : v.x = 0 := by nlinarith [mul_self_nonneg v.x, mul_self_nonneg v.y, mul_self_nonneg v.z]
  have hy : v.y = 0 := by nlinarith [mul_self_nonneg v.x, mul_self_nonneg v.y, mul_self_nonneg v.z]
  have hz : v.z = 0 := by nlinarith [mul_self_nonneg v.x, mul_self_nonneg v.y, mul_self_nonneg v.z]
  ext <;> assumption

theorem norm_scaled (k : ℝ) (hk : 0 ≤ k) (v : V3 ℝ) : (k • v).norm = k * v.norm := by
  have h : (k • v).norm ^ 2 = (k * v.norm) ^ 2 := by
    rw [norm_sq, mul_pow, norm_sq]
    simp only [dot, smul_x, smul_y, smul_z]
    ring
  exact (pow_left_inj₀ (norm_nonneg' _) (mul_nonneg hk (norm_nonneg' v)) two_ne_zero).1 h

theorem norm_neg' (v : V3 ℝ) : (-v).norm = v.norm := by
  simp [V3.norm, dot]

/-- The height times the length of the base. -/
theorem cross_unit (w d : V3 ℝ) : (cross w (unit d)).norm = d.norm⁻¹ * (cross w d).norm := by
  have h : cross w (unit d) = d.norm⁻¹ • cross w d := by
    unfold unit
    ext <;> simp [cross] <;> ring
  rw [h, norm_scaled _ (inv_nonneg.2 (norm_nonneg' d))]

/-- What the code computes is the distance from a line. -/
theorem isHeight_cross (p a d : V3 ℝ) (hd : d ≠ 0) : IsHeight ((cross (p - a) (unit d)).norm) p a (a + d) := by
  have hn := norm_pos' hd
  have hs : a + d - a = d := add_sub_cancel_left a d
  have key : ∀ t : ℝ, d.norm ^ 2 * (p - (a + t • d)).norm ^ 2 =
      (cross (p - a) d).norm ^ 2 + (dot (p - a) d - t * d.norm ^ 2) ^ 2 := by
    intro t
    rw [norm_sq, norm_sq, norm_sq]
    simp only [dot, cross, sub_x, sub_y, sub_z, add_x, add_y, add_z, smul_x, smul_y, smul_z]
    ring
  have hu : ((cross (p - a) (unit d)).norm) ^ 2 * d.norm ^ 2 = (cross (p - a) d).norm ^ 2 := by
    rw [cross_unit, mul_pow, inv_pow]
    field_simp
  constructor
  · refine ⟨dot (p - a) d / d.norm ^ 2, ?_⟩
    rw [hs]
    have h := key (dot (p - a) d / d.norm ^ 2)
    rw [div_mul_cancel₀ _ (pow_ne_zero 2 hn.ne'), sub_self, zero_pow two_ne_zero, add_zero, ← hu, mul_comm] at h
    exact ((pow_left_inj₀ (norm_nonneg' _) (norm_nonneg' _) two_ne_zero).1
      (mul_right_cancel₀ (pow_ne_zero 2 hn.ne') h)).symm
  · rintro x ⟨t, rfl⟩
    rw [hs]
    have h := key t
    rw [← hu] at h
    refine (pow_le_pow_iff_left₀ (norm_nonneg' _) (norm_nonneg' _) two_ne_zero).1 ?_
    have h2 : 0 < d.norm ^ 2 := by positivity
    nlinarith [sq_nonneg (dot (p - a) d - t * d.norm ^ 2)]

/-! ## What the code computes -/

theorem tileSpan_eq (e : Edge) (X : ℕ → ℕ → V3 ℝ) : e.tileSpan X =
    ((cross ((e.hinge X).c0 - (e.hinge X).a0) (unit ((e.hinge X).b0 - (e.hinge X).a0))).norm +
      (cross ((e.hinge X).c1 - (e.hinge X).b1) (unit ((e.hinge X).a1 - (e.hinge X).b1))).norm) / 6 := rfl

/-- C108: the span of an edge is a third of the mean height of its two triangles. -/
theorem span_heights (e : Edge) (X : ℕ → ℕ → V3 ℝ) (h0 : (e.hinge X).a0 ≠ (e.hinge X).b0)
    (h1 : (e.hinge X).a1 ≠ (e.hinge X).b1) : ∃ k0 k1 : ℝ,
    IsHeight k0 (e.hinge X).c0 (e.hinge X).a0 (e.hinge X).b0 ∧
    IsHeight k1 (e.hinge X).c1 (e.hinge X).b1 (e.hinge X).a1 ∧
    e.tileSpan X = (k0 + k1) / 2 / 3 := by
  have e0 := isHeight_cross (e.hinge X).c0 (e.hinge X).a0 ((e.hinge X).b0 - (e.hinge X).a0)
    (sub_ne_zero.2 h0.symm)
  have e1 := isHeight_cross (e.hinge X).c1 (e.hinge X).b1 ((e.hinge X).a1 - (e.hinge X).b1)
    (sub_ne_zero.2 h1)
  rw [add_sub_cancel] at e0 e1
  refine ⟨_, _, e0, e1, ?_⟩
  rw [tileSpan_eq]
  ring

/-- The height by the area. -/
theorem height_area (a b c : V3 ℝ) (h : a ≠ b) :
    (cross (c - a) (unit (b - a))).norm = 2 * area a b c / (b - a).norm := by
  rw [cross_unit]
  have : cross (c - a) (b - a) = -cross (b - a) (c - a) := by
    ext <;> simp [cross] <;> ring
  rw [this, norm_neg']
  unfold area
  ring

theorem area_swap (a b c : V3 ℝ) : area b a c = area a b c := by
  unfold area
  have : cross (a - b) (c - b) = -cross (b - a) (c - a) := by
    ext <;> simp [cross] <;> ring
  rw [this, norm_neg']

theorem norm_swap (a b : V3 ℝ) : (a - b).norm = (b - a).norm := by
  rw [← neg_sub, norm_neg']

/-- C108: the weight of a bending element, for an edge of the lengths `l0` and `l1` in its triangles, of the areas
`A0` and `A1`. -/
theorem shape_areas (e : Edge) (X : ℕ → ℕ → V3 ℝ) (h0 : (e.hinge X).a0 ≠ (e.hinge X).b0)
    (h1 : (e.hinge X).a1 ≠ (e.hinge X).b1) {l0 l1 A0 A1 : ℝ}
    (hl0 : l0 = ((e.hinge X).b0 - (e.hinge X).a0).norm) (hl1 : l1 = ((e.hinge X).b1 - (e.hinge X).a1).norm)
    (hA0 : A0 = area (e.hinge X).a0 (e.hinge X).b0 (e.hinge X).c0)
    (hA1 : A1 = area (e.hinge X).a1 (e.hinge X).b1 (e.hinge X).c1) :
    e.refShape X = 3 * ((l0 + l1) / 2) / (A0 / l0 + A1 / l1) := by
  have hl : e.refLength X = (l0 + l1) / 2 := by
    rw [hl0, hl1]
    show (((e.hinge X).b0 - (e.hinge X).a0).norm + ((e.hinge X).b1 - (e.hinge X).a1).norm) * 0.5 = _
    ring
  unfold Edge.refShape
  rw [hl, tileSpan_eq, height_area _ _ _ h0, height_area _ _ _ h1.symm, area_swap (e.hinge X).a1, ← hA0, ← hA1,
    norm_swap (e.hinge X).a1, ← hl0, ← hl1]
  rw [show (2 * A0 / l0 + 2 * A1 / l1) / 6 = (A0 / l0 + A1 / l1) / 3 by ring, div_div_eq_mul_div, mul_comm]

/-- C108: the weight of "Discrete Shells": three times the square of the length of the edge by the area of its two
triangles. -/
theorem shape_discrete_shells (e : Edge) (X : ℕ → ℕ → V3 ℝ) (h0 : (e.hinge X).a0 ≠ (e.hinge X).b0) {l : ℝ}
    (hl0 : l = ((e.hinge X).b0 - (e.hinge X).a0).norm) (hl1 : l = ((e.hinge X).b1 - (e.hinge X).a1).norm) :
    e.refShape X = 3 * l ^ 2 / (area (e.hinge X).a0 (e.hinge X).b0 (e.hinge X).c0 +
      area (e.hinge X).a1 (e.hinge X).b1 (e.hinge X).c1) := by
  have hl : 0 < l := by
    rw [hl0]
    exact norm_pos' (sub_ne_zero.2 h0.symm)
  have h1 : (e.hinge X).a1 ≠ (e.hinge X).b1 := by
    intro h
    rw [h, sub_self] at hl1
    simp [V3.norm, dot] at hl1
    exact hl.ne' hl1
  rw [shape_areas e X h0 h1 hl0 hl1 rfl rfl, ← add_div, add_self_div_two, div_div_eq_mul_div]
  ring

/-- C108: the weight is positive, unless both triangles are degenerate. -/
theorem shape_pos (e : Edge) (X : ℕ → ℕ → V3 ℝ) (h0 : (e.hinge X).a0 ≠ (e.hinge X).b0)
    (h1 : (e.hinge X).a1 ≠ (e.hinge X).b1)
    (h : 0 < area (e.hinge X).a0 (e.hinge X).b0 (e.hinge X).c0 ∨
      0 < area (e.hinge X).a1 (e.hinge X).b1 (e.hinge X).c1) : 0 < e.refShape X := by
  have l0 := norm_pos' (sub_ne_zero.2 h0.symm)
  have l1 := norm_pos' (sub_ne_zero.2 h1.symm)
  have a0 : 0 ≤ area (e.hinge X).a0 (e.hinge X).b0 (e.hinge X).c0 := div_nonneg (norm_nonneg' _) (by norm_num)
  have a1 : 0 ≤ area (e.hinge X).a1 (e.hinge X).b1 (e.hinge X).c1 := div_nonneg (norm_nonneg' _) (by norm_num)
  rw [shape_areas e X h0 h1 rfl rfl rfl rfl]
  refine div_pos (by linarith) ?_
  rcases h with h | h
  · exact add_pos_of_pos_of_nonneg (div_pos h l0) (div_nonneg a1 l1.le)
  · exact add_pos_of_nonneg_of_pos (div_nonneg a0 l0.le) (div_pos h l1)

/-- C108: the weight depends neither on which triangle is the first, nor on the direction in which the edge is
passed: two hinges with the same triangles have the same weight. -/
theorem shape_symmetric (e e' : Edge) (X X' : ℕ → ℕ → V3 ℝ) (h0 : (e.hinge X).a0 ≠ (e.hinge X).b0)
    (h1 : (e.hinge X).a1 ≠ (e.hinge X).b1)
    (h : e'.hinge X' = ⟨(e.hinge X).a1, (e.hinge X).b1, (e.hinge X).c1, (e.hinge X).a0, (e.hinge X).b0,
        (e.hinge X).c0⟩ ∨
      e'.hinge X' = ⟨(e.hinge X).b0, (e.hinge X).a0, (e.hinge X).c0, (e.hinge X).a1, (e.hinge X).b1,
        (e.hinge X).c1⟩) : e'.refShape X' = e.refShape X := by
  rw [shape_areas e X h0 h1 rfl rfl rfl rfl]
  rcases h with h | h
  · rw [shape_areas e' X' (by rw [h]; exact h1) (by rw [h]; exact h0) rfl rfl rfl rfl, h]
    simp only
    rw [add_comm ((e.hinge X).b1 - (e.hinge X).a1).norm, add_comm (area (e.hinge X).a1 _ _ / _)]
  · rw [shape_areas e' X' (by rw [h]; exact h0.symm) (by rw [h]; exact h1) rfl rfl rfl rfl, h]
    simp only
    rw [area_swap, norm_swap (e.hinge X).a0]

/-- C108: the weight does not depend on where the triangles are and how they are turned. They may be turned and
moved independently, as pieces of a pattern are. -/
theorem shape_rigid (e : Edge) (X X' : ℕ → ℕ → V3 ℝ) (R0 R1 : M3 ℝ) (t0 t1 : V3 ℝ) (hR0 : Softy.Rotation R0)
    (hR1 : Softy.Rotation R1) (h : e.hinge X' = ⟨R0.mulVec (e.hinge X).a0 + t0, R0.mulVec (e.hinge X).b0 + t0,
      R0.mulVec (e.hinge X).c0 + t0, R1.mulVec (e.hinge X).a1 + t1, R1.mulVec (e.hinge X).b1 + t1,
      R1.mulVec (e.hinge X).c1 + t1⟩)
    (h0 : (e.hinge X).a0 ≠ (e.hinge X).b0) (h1 : (e.hinge X).a1 ≠ (e.hinge X).b1) :
    e.refShape X' = e.refShape X := by
  have hn (R : M3 ℝ) (hR : Softy.Rotation R) (t a b : V3 ℝ) : (R.mulVec b + t - (R.mulVec a + t)).norm =
      (b - a).norm := by
    rw [add_sub_add_right_eq_sub, ← Frame.rot_sub, Frame.rot_norm hR]
  have ha (R : M3 ℝ) (hR : Softy.Rotation R) (t a b c : V3 ℝ) :
      area (R.mulVec a + t) (R.mulVec b + t) (R.mulVec c + t) = area a b c := by
    unfold area
    rw [add_sub_add_right_eq_sub, add_sub_add_right_eq_sub, ← Frame.rot_sub, ← Frame.rot_sub,
      Frame.rot_cross hR, Frame.rot_norm hR]
  have hne (R : M3 ℝ) (hR : Softy.Rotation R) (t a b : V3 ℝ) (h : a ≠ b) : R.mulVec a + t ≠ R.mulVec b + t := by
    intro h'
    have h1 := norm_pos' (sub_ne_zero.2 h)
    rw [← hn R hR t, h', sub_self] at h1
    simp [V3.norm, dot] at h1
  rw [shape_areas e X h0 h1 rfl rfl rfl rfl,
    shape_areas e X' (by rw [h]; exact hne R0 hR0 _ _ _ h0) (by rw [h]; exact hne R1 hR1 _ _ _ h1) rfl rfl rfl rfl,
    h]
  simp only [hn R0 hR0, hn R1 hR1, ha R0 hR0, ha R1 hR1]

/-! ## Examples -/

theorem exEdge_hinge : exEdge.hinge (fun f i => exPos (exFaces true f i)) =
    ⟨⟨0, 0, 0⟩, ⟨1, 0, 0⟩, ⟨0, 1, 0⟩, ⟨1, 0, 0⟩, ⟨0, 0, 0⟩, ⟨0, -1, 1⟩⟩ := rfl

/-- Two triangles at a common edge. -/
example : exEdge.refShape (fun f i => exPos (exFaces true f i)) = 3 * 1 ^ 2 /
    (area ⟨0, 0, 0⟩ ⟨1, 0, 0⟩ ⟨0, 1, 0⟩ + area ⟨1, 0, 0⟩ ⟨0, 0, 0⟩ ⟨0, -1, 1⟩) :=
  shape_discrete_shells exEdge _ (by rw [exEdge_hinge]; intro h; simpa using congrArg V3.x h)
    (by rw [exEdge_hinge]; simp [V3.norm, dot]) (by rw [exEdge_hinge]; simp [V3.norm, dot])

/-- Its weight is `6 / (1 + √2)`. -/
example : exEdge.refShape (fun f i => exPos (exFaces true f i)) = 6 / (1 + √2) := by
  rw [shape_discrete_shells exEdge _ (by rw [exEdge_hinge]; intro h; simpa using congrArg V3.x h) (l := 1)
    (by rw [exEdge_hinge]; simp [V3.norm, dot]) (by rw [exEdge_hinge]; simp [V3.norm, dot]), exEdge_hinge]
  have h0 : area ⟨0, 0, 0⟩ ⟨1, 0, 0⟩ ⟨0, 1, 0⟩ = 1 / 2 := by
    norm_num [area, V3.norm, cross, dot]
  have h1 : area ⟨1, 0, 0⟩ ⟨0, 0, 0⟩ ⟨0, -1, 1⟩ = √2 / 2 := by
    norm_num [area, V3.norm, cross, dot]
  simp only [h0, h1]
  rw [← add_div, one_pow, div_div_eq_mul_div]
  norm_num

end Softy.IEdge
