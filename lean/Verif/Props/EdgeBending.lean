import Verif.Props.EdgeHessian

/-!
# Bending energy (C41) and the rest state of shells (C61)
-/

noncomputable section

namespace Softy.IEdge

open V3

/-- Where the tracked angle does not jump it differs from the angle between the faces by a
constant. -/
theorem wrapAngle_locally (ref : ℝ) (f : ℝ → ℝ) (t : ℝ) (hf : ContinuousAt f t)
    (h : |f t - projectAngle ref| ≠ Real.pi) :
    ∃ c, ∀ᶠ s in nhds t, wrapAngle ref (f s) = f s + c := by
  have hp := Real.pi_pos
  have hd : ContinuousAt (fun s => f s - projectAngle ref) t := hf.sub continuousAt_const
  rcases lt_trichotomy (f t - projectAngle ref) (-Real.pi) with h1 | h1 | h1
  · refine ⟨ref - projectAngle ref + 2 * Real.pi, ?_⟩
    filter_upwards [hd.eventually_lt continuousAt_const h1] with s hs
    unfold wrapAngle
    simp only
    rw [if_pos hs]
    ring
  · exact absurd (by rw [h1, abs_neg, abs_of_pos hp]) h
  · rcases lt_trichotomy (f t - projectAngle ref) Real.pi with h2 | h2 | h2
    · refine ⟨ref - projectAngle ref, ?_⟩
      filter_upwards [hd.eventually_lt continuousAt_const h2,
        continuousAt_const.eventually_lt hd h1] with s hs hs'
      unfold wrapAngle
      simp only
      rw [if_neg (not_lt.mpr hs'.le), if_neg (not_lt.mpr hs.le)]
      ring
    · exact absurd (by rw [h2, abs_of_pos hp]) h
    · refine ⟨ref - projectAngle ref - 2 * Real.pi, ?_⟩
      filter_upwards [continuousAt_const.eventually_lt hd h2] with s hs
      unfold wrapAngle
      simp only
      rw [if_neg (by linarith), if_pos hs]
      ring

theorem hasDerivAt_incremental (e : Edge) (faces : ℕ → ℕ → ℕ) (hs : e.Shared faces)
    (p : ℝ → ℕ → V3 ℝ) (d : ℕ → V3 ℝ) (t : ℝ) (hp : ∀ v, HasD (fun s => p s v) (d v) t)
    (h0 : e.normal0 (p t) faces ≠ 0) (h1 : e.normal1 (p t) faces ≠ 0)
    (hf : e.edgeAngle (p t) faces ≠ -Real.pi) (prev : ℝ)
    (hw : |e.edgeAngle (p t) faces - projectAngle prev| ≠ Real.pi) :
    HasDerivAt (fun s => e.incrementalAngle prev (p s) faces)
      ((e.gradient (p t) faces).pair e faces d) t := by
  have hd := gradient_is_derivative e faces hs p d t hp h0 h1 hf
  obtain ⟨c, hc⟩ := wrapAngle_locally prev (fun s => e.edgeAngle (p s) faces) t hd.continuousAt hw
  exact (hd.add_const c).congr_of_eventuallyEq hc

/-- **C41**, for the bending energy. Along every motion the rate of change of the bending energy is
given by the reported gradient (the force is its negative), unless a triangle is degenerate, the
triangles are folded onto each other, or the angle is exactly half a turn from the last one. -/
theorem bending_gradient (b : Bending) (e : Edge) (faces : ℕ → ℕ → ℕ) (hs : e.Shared faces)
    (p : ℝ → ℕ → V3 ℝ) (d : ℕ → V3 ℝ) (t : ℝ) (hp : ∀ v, HasD (fun s => p s v) (d v) t)
    (h0 : e.normal0 (p t) faces ≠ 0) (h1 : e.normal1 (p t) faces ≠ 0)
    (hf : e.edgeAngle (p t) faces ≠ -Real.pi)
    (hw : |e.edgeAngle (p t) faces - projectAngle b.prevTheta| ≠ Real.pi) :
    HasDerivAt (fun s => b.energy e (p s) faces) ((b.gradient e (p t) faces).pair e faces d) t := by
  have hd := hasDerivAt_incremental e faces hs p d t hp h0 h1 hf b.prevTheta hw
  have hs' := hd.sub_const b.refTheta
  have := ((hs'.const_mul (0.5 * b.refShape * b.stiffness)).fun_mul hs')
  refine this.congr_deriv ?_
  simp only [Bending.gradient, Bending.angleDerivative, Grad.pair, dot_smul_left]
  ring

/-- Specification: the product of the symmetric 12×12 matrix of a dihedral element with four
vectors. -/
def BHess.mulVec (h : BHess) (w0 w1 w2 w3 : V3 ℝ) : Grad where
  d0 := (h.main.mulVec w0 w1 w2 w3).d0
  d1 := (h.main.mulVec w0 w1 w2 w3).d1
  d2 := (h.main.mulVec w0 w1 w2 w3).d2 + h.h32.transpose.mulVec w3
  d3 := (h.main.mulVec w0 w1 w2 w3).d3 + h.h32.mulVec w2

theorem full_add_scale (l m : Low) (c : ℝ) (w : V3 ℝ) :
    (l.add (m.scale c)).full.mulVec w = l.full.mulVec w + c • m.full.mulVec w := by
  ext <;> simp [Low.add, Low.scale, Low.full, M3.mulVec, dot] <;> ring

theorem full_outer (k : ℝ) (g w : V3 ℝ) :
    (lower (M3.outer g (k • g))).full.mulVec w = (k * dot g w) • g := by
  ext <;> simp [lower, Low.full, M3.outer, M3.mulVec, dot] <;> ring

theorem outer_mulVec (k : ℝ) (g f w : V3 ℝ) :
    (M3.outer g (k • f)).mulVec w = (k * dot f w) • g := by
  ext <;> simp [M3.outer, M3.mulVec, dot] <;> ring

theorem outer_transpose_mulVec (k : ℝ) (g f w : V3 ℝ) :
    (M3.outer g (k • f)).transpose.mulVec w = (k * dot g w) • f := by
  ext <;> simp [M3.outer, M3.mulVec, M3.transpose, dot] <;> ring

/-- The change of the bending force is given by the reported Hessian. -/
theorem bending_hessian (b : Bending) (e : Edge) (faces : ℕ → ℕ → ℕ) (hs : e.Shared faces)
    (p : ℝ → ℕ → V3 ℝ) (d : ℕ → V3 ℝ) (t : ℝ) (hp : ∀ v, HasD (fun s => p s v) (d v) t)
    (h0 : e.normal0 (p t) faces ≠ 0) (h1 : e.normal1 (p t) faces ≠ 0)
    (hf : e.edgeAngle (p t) faces ≠ -Real.pi)
    (hw : |e.edgeAngle (p t) faces - projectAngle b.prevTheta| ≠ Real.pi) :
    let g := (b.hessian e (p t) faces).mulVec (d (e.vert0 faces 0)) (d (e.vert0 faces 1))
      (d (e.vert0 faces 2)) (d (e.vert1 faces 2))
    HasD (fun s => (b.gradient e (p s) faces).d0) g.d0 t ∧
      HasD (fun s => (b.gradient e (p s) faces).d1) g.d1 t ∧
      HasD (fun s => (b.gradient e (p s) faces).d2) g.d2 t ∧
      HasD (fun s => (b.gradient e (p s) faces).d3) g.d3 t := by
  intro g
  have hd := hasDerivAt_incremental e faces hs p d t hp h0 h1 hf b.prevTheta hw
  obtain ⟨g0, g1, g2, g3⟩ := hessian_is_derivative e faces hs p d t hp h0 h1
  have hdw : HasDerivAt (fun s => b.angleDerivative e (p s) faces)
      (b.refShape * b.stiffness * (e.gradient (p t) faces).pair e faces d) t :=
    (hd.sub_const b.refTheta).const_mul (b.refShape * b.stiffness)
  have ts : ∀ (c : ℝ) (m n : M3 ℝ), (m + c • n).transpose = m.transpose + c • n.transpose := by
    intro c m n; rw [M3.transpose_add, M3.transpose_smul]
  refine ⟨(HasD.smul hdw g0).congr ?_, (HasD.smul hdw g1).congr ?_, (HasD.smul hdw g2).congr ?_,
    (HasD.smul hdw g3).congr ?_⟩
  all_goals
    simp only [g, BHess.mulVec, Hess.mulVec, Bending.hessian, full_add_scale, full_outer, ts,
      M3.mulVec_add, M3.mulVec_smul, outer_mulVec, outer_transpose_mulVec, Grad.pair]
    ext <;> simp only [add_x, add_y, add_z, smul_x, smul_y, smul_z] <;> ring

/-! ## C61: the rest state -/

theorem cross_cross_norm (e0 e1 e2 : V3 ℝ) :
    (cross (cross e0 e1) (cross e2 e0)).norm = e0.norm * |dot e2 (cross e0 e1)| := by
  have h : cross (cross e0 e1) (cross e2 e0) = (-dot e2 (cross e0 e1)) • e0 := by
    ext <;> simp [cross, dot] <;> ring
  have hn : ∀ (c : ℝ) (v : V3 ℝ), (c • v).norm = |c| * v.norm := by
    intro c v
    unfold V3.norm
    rw [← Real.sqrt_sq_eq_abs, ← Real.sqrt_mul (sq_nonneg c)]
    congr 1
    simp only [dot, smul_x, smul_y, smul_z]; ring
  rw [h, hn, abs_neg, mul_comm]

theorem atan2_neg (y x : ℝ) (hy : y ≠ 0) : atan2 (-y) x = -atan2 y x := by
  unfold atan2
  have : (⟨x, -y⟩ : ℂ) = (starRingEnd ℂ) ⟨x, y⟩ := by
    apply Complex.ext <;> simp
  rw [this, Complex.arg_conj, if_neg]
  intro h
  exact hy (Complex.arg_eq_pi_iff.mp h).2

theorem signed_atan2 (L T x : ℝ) (hL : T ≠ 0 → L ≠ 0) :
    atan2 (L * |T|) x * -signum T = -atan2 (L * T) x := by
  unfold signum
  split
  · rename_i h
    rw [abs_of_neg h, mul_neg L T, atan2_neg _ _ (mul_ne_zero (hL h.ne) h.ne)]
    ring
  · rename_i h
    push Not at h
    rw [abs_of_nonneg h]
    ring

theorem norm_ne_zero_of_triple {a b c : V3 ℝ} (h : dot c (cross a b) ≠ 0) : a.norm ≠ 0 := by
  intro h'
  apply h
  have : a = 0 := V3.dot_self_eq_zero.mp (by rw [← V3.norm_mul_norm, h', mul_zero])
  rw [this]
  simp [dot, cross]

/-- The reference angle in terms of the edge and the tangents, with the normal of face 1 as it is
stored. -/
theorem refAngle_eq (e : Edge) (pos : ℕ → V3 ℝ) (faces : ℕ → ℕ → ℕ) (hs : e.Shared faces) :
    e.refAngle (fun f i => pos (faces f i)) =
      let an1 := areaNormal (pos (faces e.f1 0)) (pos (faces e.f1 1)) (pos (faces e.f1 2))
      atan2 (cross (e.normal0 pos faces) an1).norm (dot (e.normal0 pos faces) an1) *
        -signum (dot an1 (e.face0Tangent pos faces)) := by
  have hv : e.vert0 faces 0 = faces e.f0 e.s0 := by
    unfold Edge.vert0; rw [add_zero, Nat.mod_eq_of_lt hs.s0]
  have ht : e.vert0 (fun f i => pos (faces f i)) 2 - e.vert0 (fun f i => pos (faces f i)) 0 =
      e.face0Tangent pos faces := by
    unfold Edge.face0Tangent
    rw [← hv]; rfl
  unfold Edge.refAngle
  simp only
  rw [if_pos, ht]
  · rfl
  · have c : ∀ v, e.vert0 (fun f i => pos (faces f i)) v = pos (e.vert0 faces v) := fun _ => rfl
    have c' : ∀ v, e.vert1 (fun f i => pos (faces f i)) v = pos (e.vert1 faces v) := fun _ => rfl
    simp only [c, c']
    rcases hs.same with ⟨h1, h2⟩ | ⟨h1, h2⟩
    · right; rw [h1, h2]; exact ⟨rfl, rfl⟩
    · left; rw [h1, h2]; exact ⟨rfl, rfl⟩

/-- Specification: the faces are oriented consistently, they traverse the edge in opposite
directions. -/
def Edge.Consistent (e : Edge) (faces : ℕ → ℕ → ℕ) : Prop :=
  e.vert1 faces 0 = e.vert0 faces 1 ∧ e.vert1 faces 1 = e.vert0 faces 0

theorem stored_normal1 (e : Edge) (pos : ℕ → V3 ℝ) (faces : ℕ → ℕ → ℕ) (hs : e.Shared faces) :
    areaNormal (pos (faces e.f1 0)) (pos (faces e.f1 1)) (pos (faces e.f1 2)) =
      open Classical in
      if e.Consistent faces then e.normal1 pos faces else -e.normal1 pos faces := by
  unfold Edge.normal1 Edge.isOriented
  split
  · rename_i h
    rw [if_pos]
    simp only [decide_eq_true_eq]
    rw [h.1]; exact hs.ne
  · rename_i h
    rcases hs.same with h' | h'
    · exact absurd h' h
    · rw [if_neg (by simp [h'.1]), areaNormal_swap]

/-- The angle at rest equals the angle between the faces, for consistently oriented faces. -/
theorem refAngle_consistent (e : Edge) (pos : ℕ → V3 ℝ) (faces : ℕ → ℕ → ℕ) (hs : e.Shared faces)
    (hc : e.Consistent faces) :
    e.refAngle (fun f i => pos (faces f i)) = e.edgeAngle pos faces := by
  rw [refAngle_eq e pos faces hs]
  simp only
  rw [stored_normal1 e pos faces hs, if_pos hc]
  unfold Edge.edgeAngle
  simp only [normal0_eq e pos faces hs.s0, normal1_eq e pos faces hs]
  rw [cross_cross_norm]
  have ht : dot (cross (e.face1Tangent pos faces) (e.edgeVector pos faces))
      (e.face0Tangent pos faces) = dot (e.face1Tangent pos faces)
        (cross (e.edgeVector pos faces) (e.face0Tangent pos faces)) := by
    simp only [dot, cross]; ring
  rw [ht]
  exact signed_atan2 _ _ _ norm_ne_zero_of_triple

theorem incremental_self (e : Edge) (pos : ℕ → V3 ℝ) (faces : ℕ → ℕ → ℕ) :
    e.incrementalAngle (e.edgeAngle pos faces) pos faces = e.edgeAngle pos faces :=
  incremental_angle_unique e _ _ pos faces 0 (by simp) (by simpa using Real.pi_pos)

/-- **C61** (partial: faces that are oriented consistently). A shell whose reference positions are
its current positions has no bending energy and no bending forces. -/
theorem rest_state_partial (e : Edge) (pos : ℕ → V3 ℝ) (faces : ℕ → ℕ → ℕ) (hs : e.Shared faces)
    (hc : e.Consistent faces) (refShape stiffness : ℝ) :
    let b := Bending.make e (fun f i => pos (faces f i)) pos faces refShape stiffness
    b.energy e pos faces = 0 ∧ b.gradient e pos faces = ⟨0, 0, 0, 0⟩ := by
  intro b
  have h : e.incrementalAngle b.prevTheta pos faces - b.refTheta = 0 := by
    simp only [b, Bending.make, incremental_self, refAngle_consistent e pos faces hs hc, sub_self]
  have hz : ∀ v : V3 ℝ, (0 : ℝ) • v = 0 := by intro v; ext <;> simp
  constructor
  · unfold Bending.energy
    simp only [h, mul_zero]
  · unfold Bending.gradient Bending.angleDerivative
    simp only [h, mul_zero, hz]

theorem atan2_flip (y x : ℝ) (h : 0 < y) : atan2 y (-x) = Real.pi - atan2 y x := by
  unfold atan2
  have h1 : (⟨-x, y⟩ : ℂ) = -(starRingEnd ℂ) ⟨x, y⟩ := by
    apply Complex.ext <;> simp
  have him : 0 < (⟨x, y⟩ : ℂ).im := h
  have h2 : Complex.arg ((starRingEnd ℂ) ⟨x, y⟩) = -Complex.arg ⟨x, y⟩ := by
    rw [Complex.arg_conj, if_neg]
    intro h'
    exact him.ne' (Complex.arg_eq_pi_iff.mp h').2
  rw [h1, Complex.arg_neg_eq_arg_add_pi_of_im_neg, h2]
  · ring
  · simpa using h

/-- **C61** is violated for faces that are not oriented consistently: the reference angle is off by
half a turn, at every non-degenerate pair of triangles. -/
theorem rest_angle_violated (e : Edge) (pos : ℕ → V3 ℝ) (faces : ℕ → ℕ → ℕ) (hs : e.Shared faces)
    (hc : ¬e.Consistent faces) (h0 : e.normal0 pos faces ≠ 0) (h1 : e.normal1 pos faces ≠ 0) :
    |e.edgeAngle pos faces - e.refAngle (fun f i => pos (faces f i))| = Real.pi := by
  have hp := Real.pi_pos
  have hnn := identity_norm (e.edgeVector pos faces) (e.face0Tangent pos faces)
    (e.face1Tangent pos faces)
  rw [← normal0_eq e pos faces hs.s0, ← normal1_eq e pos faces hs] at hnn
  have hcc := cross_cross_norm (e.edgeVector pos faces) (e.face0Tangent pos faces)
    (e.face1Tangent pos faces)
  rw [← normal0_eq e pos faces hs.s0, ← normal1_eq e pos faces hs] at hcc
  have ht : dot (-e.normal1 pos faces) (e.face0Tangent pos faces) =
      -dot (e.face1Tangent pos faces) (e.normal0 pos faces) := by
    rw [normal0_eq e pos faces hs.s0, normal1_eq e pos faces hs]
    simp only [dot, cross, neg_x, neg_y, neg_z]; ring
  have hpos : 0 < dot (e.normal0 pos faces) (e.normal0 pos faces) *
      dot (e.normal1 pos faces) (e.normal1 pos faces) := by
    refine mul_pos (lt_of_le_of_ne (V3.dot_self_nonneg _) ?_)
      (lt_of_le_of_ne (V3.dot_self_nonneg _) ?_)
    · exact fun h => h0 (V3.dot_self_eq_zero.mp h.symm)
    · exact fun h => h1 (V3.dot_self_eq_zero.mp h.symm)
  have hneg : (cross (e.normal0 pos faces) (-e.normal1 pos faces)).norm =
      (cross (e.normal0 pos faces) (e.normal1 pos faces)).norm := by
    have : cross (e.normal0 pos faces) (-e.normal1 pos faces) =
        -cross (e.normal0 pos faces) (e.normal1 pos faces) := by
      ext <;> simp [cross] <;> ring
    rw [this]
    unfold V3.norm
    rw [dot_neg_neg]
  have hdn : dot (e.normal0 pos faces) (-e.normal1 pos faces) =
      -dot (e.normal0 pos faces) (e.normal1 pos faces) := by
    simp only [dot, neg_x, neg_y, neg_z]; ring
  have hL : dot (e.face1Tangent pos faces) (e.normal0 pos faces) ≠ 0 →
      0 < (e.edgeVector pos faces).norm := by
    intro h
    rw [normal0_eq e pos faces hs.s0] at h
    exact lt_of_le_of_ne (V3.norm_nonneg _) (norm_ne_zero_of_triple h).symm
  rw [refAngle_eq e pos faces hs]
  simp only
  rw [stored_normal1 e pos faces hs, if_neg hc, hneg, hcc, hdn, ht]
  unfold Edge.edgeAngle
  simp only
  rw [← hnn] at hpos
  generalize dot (e.normal0 pos faces) (e.normal1 pos faces) = x at *
  generalize dot (e.face1Tangent pos faces) (e.normal0 pos faces) = T at *
  generalize (e.edgeVector pos faces).norm = L at *
  unfold signum
  rcases lt_trichotomy T 0 with h | h | h
  · rw [if_neg (by linarith), abs_of_neg h, mul_neg L T,
      atan2_flip _ _ (by nlinarith [hL h.ne]), atan2_neg _ _ (by nlinarith [hL h.ne])]
    rw [show -atan2 (L * T) x - (Real.pi - -atan2 (L * T) x) * -1 = Real.pi by ring, abs_of_pos hp]
  · rw [h]
    simp only [neg_zero, lt_self_iff_false, if_false, abs_zero, mul_zero]
    rw [h] at hpos
    have hx : x ≠ 0 := by
      rintro rfl
      simp at hpos
    have az : ∀ z : ℝ, atan2 0 z = if z < 0 then Real.pi else 0 := by
      intro z
      unfold atan2
      split
      · rename_i hz
        rw [Complex.arg_eq_pi_iff]; exact ⟨hz, rfl⟩
      · rename_i hz
        rw [Complex.arg_eq_zero_iff]; exact ⟨not_lt.mp hz, rfl⟩
    rw [az, az]
    rcases lt_or_gt_of_ne hx with h' | h'
    · rw [if_pos h', if_neg (by linarith)]; simp [abs_of_pos hp]
    · rw [if_neg (by linarith), if_pos (by linarith)]; simp [abs_of_pos hp]
  · rw [if_pos (by linarith), abs_of_pos h, atan2_flip _ _ (by nlinarith [hL h.ne'])]
    rw [show -atan2 (L * T) x - (Real.pi - atan2 (L * T) x) * - -1 = -Real.pi by ring, abs_neg,
      abs_of_pos hp]

/-- **C61** is violated: such a shell at rest stores the energy of a half turn at the edge. -/
theorem rest_energy_violated (e : Edge) (pos : ℕ → V3 ℝ) (faces : ℕ → ℕ → ℕ) (hs : e.Shared faces)
    (hc : ¬e.Consistent faces) (h0 : e.normal0 pos faces ≠ 0) (h1 : e.normal1 pos faces ≠ 0)
    (refShape stiffness : ℝ) :
    (Bending.make e (fun f i => pos (faces f i)) pos faces refShape stiffness).energy e pos faces =
      refShape * stiffness * Real.pi ^ 2 / 2 := by
  have h := rest_angle_violated e pos faces hs hc h0 h1
  have hsq : (e.edgeAngle pos faces - e.refAngle (fun f i => pos (faces f i))) ^ 2 =
      Real.pi ^ 2 := by rw [← sq_abs, h]
  unfold Bending.energy
  simp only [Bending.make, incremental_self]
  linear_combination 0.5 * refShape * stiffness * hsq

/-! Two triangles bent along the edge from vertex 0 to vertex 1, oriented consistently and not. -/

/-- Vertices of the two faces. -/
def exFaces (b : Bool) (f i : ℕ) : ℕ :=
  match f, i with
  | 0, 0 => 0
  | 0, 1 => 1
  | 0, _ => 2
  | _, 0 => if b then 1 else 0
  | _, 1 => if b then 0 else 1
  | _, _ => 3

/-- Positions. -/
def exPos : ℕ → V3 ℝ
  | 0 => ⟨0, 0, 0⟩
  | 1 => ⟨1, 0, 0⟩
  | 2 => ⟨0, 1, 0⟩
  | _ => ⟨0, -1, 1⟩

/-- The edge. -/
def exEdge : Edge := ⟨0, 1, 0, 0⟩

theorem ex_shared (b : Bool) : exEdge.Shared (exFaces b) ∧
    (exEdge.Consistent (exFaces b) ↔ b = true) := by
  cases b
  · exact ⟨⟨by decide, by decide, by decide, by decide⟩,
      by simp [Edge.Consistent, exEdge, exFaces, Edge.vert0, Edge.vert1]⟩
  · exact ⟨⟨by decide, by decide, by decide, by decide⟩,
      by simp [Edge.Consistent, exEdge, exFaces, Edge.vert0, Edge.vert1]⟩

theorem ex_normals (b : Bool) : exEdge.normal0 exPos (exFaces b) = ⟨0, 0, 1⟩ ∧
    exEdge.normal1 exPos (exFaces b) = ⟨0, 1, 1⟩ := by
  rw [normal0_eq _ _ _ (ex_shared b).1.s0, normal1_eq _ _ _ (ex_shared b).1]
  constructor <;> ext <;> simp [Edge.edgeVector, Edge.face0Tangent, Edge.face1Tangent, exEdge,
    exFaces, Edge.vert0, Edge.vert1, exPos, cross]

theorem ex_angle (b : Bool) : exEdge.edgeAngle exPos (exFaces b) ≠ -Real.pi := by
  unfold Edge.edgeAngle atan2
  simp only
  rw [ne_eq, neg_inj, Complex.arg_eq_pi_iff, (ex_normals b).1, (ex_normals b).2]
  intro h
  have := h.1
  norm_num [dot] at this

/-- The hypotheses of `gradient_is_derivative`, `hessian_is_derivative`, `bending_gradient` and
`bending_hessian` are met, with any velocities. -/
theorem ex_bending (d : ℕ → V3 ℝ) (b : Bending)
    (hb : b.prevTheta = exEdge.edgeAngle exPos (exFaces true)) :
    (∀ v, HasD (fun s => exPos v + s • d v) (d v) 0) ∧ exEdge.Shared (exFaces true) ∧
      exEdge.normal0 exPos (exFaces true) ≠ 0 ∧ exEdge.normal1 exPos (exFaces true) ≠ 0 ∧
      exEdge.edgeAngle exPos (exFaces true) ≠ -Real.pi ∧
      |exEdge.edgeAngle exPos (exFaces true) - projectAngle b.prevTheta| ≠ Real.pi := by
  refine ⟨fun v => HasD.line _ _, (ex_shared true).1, ?_, ?_, ex_angle true, ?_⟩
  · rw [(ex_normals true).1]
    intro h
    have := congrArg V3.z h
    norm_num at this
  · rw [(ex_normals true).2]
    intro h
    have := congrArg V3.z h
    norm_num at this
  · rw [hb]
    obtain ⟨⟨k, hk⟩, h1, h2⟩ := projectAngle_spec (exEdge.edgeAngle exPos (exFaces true))
    obtain ⟨h3, h4⟩ := edgeAngle_range exEdge exPos (exFaces true)
    have hp := Real.pi_pos
    rw [hk]
    intro h
    have hk' : |(k : ℝ)| * (2 * Real.pi) = Real.pi := by
      rw [show exEdge.edgeAngle exPos (exFaces true) -
        (exEdge.edgeAngle exPos (exFaces true) + k * (2 * Real.pi)) = -(k * (2 * Real.pi)) by ring,
        abs_neg, abs_mul, abs_of_pos (by linarith : (0 : ℝ) < 2 * Real.pi)] at h
      exact h
    have : 2 * |k| = 1 := by
      have h5 : (2 * |(k : ℝ)| - 1) * Real.pi = 0 := by linarith
      rcases mul_eq_zero.mp h5 with h6 | h6
      · have : (2 * ((|k| : ℤ) : ℝ)) = 1 := by push_cast; linarith
        exact_mod_cast this
      · exact absurd h6 hp.ne'
    omega

/-- The hypotheses of `rest_angle_violated` are met. -/
example : exEdge.Shared (exFaces false) ∧ ¬exEdge.Consistent (exFaces false) ∧
    exEdge.normal0 exPos (exFaces false) = ⟨0, 0, 1⟩ :=
  ⟨(ex_shared false).1, fun h => by simpa using (ex_shared false).2.mp h, (ex_normals false).1⟩

end Softy.IEdge
