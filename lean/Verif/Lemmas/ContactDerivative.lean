import Verif.Model.ContactDerivative
import Verif.Props.FieldSecond

/-!
# Lemmas for derivatives of the contact Jacobian
-/

noncomputable section

namespace Softy.Contact

open Softy Softy.Kernel Softy.Field

theorem eq_of_dot {a b : V3 ℝ} (h : ∀ d, V3.dot d a = V3.dot d b) : a = b := by
  have hx := h ⟨1, 0, 0⟩
  have hy := h ⟨0, 1, 0⟩
  have hz := h ⟨0, 0, 1⟩
  simp only [V3.dot, one_mul, zero_mul, add_zero, zero_add] at hx hy hz
  ext <;> assumption

/-! ## Rotations -/

/-- The sign of the rotation. -/
def side (tr : Bool) : ℝ := if tr then -1 else 1

/-- The derivative of the rotated vector as normal and gradient change by `n'` and `g'`. -/
def rodDir (n g n' g' b : V3 ℝ) (e : ℝ) : V3 ℝ :=
  let u := V3.cross n g
  let u' := V3.cross n' g + V3.cross n g'
  let f := (1 + V3.dot n g)⁻¹
  e • V3.cross u' b + f • (V3.cross u' (V3.cross u b) + V3.cross u (V3.cross u' b)) -
    (f * f * (V3.dot n' g + V3.dot n g')) • V3.cross u (V3.cross u b)

theorem qf_rod (n g b w m : V3 ℝ) (A G : M3 ℝ) (tr : Bool) :
    qf w (rodriguesJacobianProduct n g A G (V3.dot n g) b tr) m =
      V3.dot (rodDir n g (G.transpose.mulVec w) (A.transpose.mulVec w) b (side tr)) m := by
  have hf : (if 1 + V3.dot n g = 0 then (0 : ℝ) else 1 / (1 + V3.dot n g)) = (1 + V3.dot n g)⁻¹ := by
    split
    · rename_i h; rw [h, inv_zero]
    · rw [one_div]
  unfold rodriguesJacobianProduct rodDir side
  simp only [hf]
  generalize (1 + V3.dot n g)⁻¹ = f
  cases tr <;>
  · simp [qf, M3.mulVec, M3.outer, M3.transpose, V3.dot, V3.cross]
    ring

theorem rodDir_zero (n g b : V3 ℝ) (e : ℝ) : rodDir n g 0 0 b e = 0 := by
  unfold rodDir
  ext <;> simp [V3.dot, V3.cross]

theorem rodDir_add (n g n1 n2 g1 g2 b : V3 ℝ) (e : ℝ) :
    rodDir n g (n1 + n2) (g1 + g2) b e = rodDir n g n1 g1 b e + rodDir n g n2 g2 b e := by
  unfold rodDir
  generalize (1 + V3.dot n g)⁻¹ = f
  ext <;> simp [V3.dot, V3.cross] <;> ring

theorem rodDir_sum {ι : Type*} (l : List ι) (n g : V3 ℝ) (N G : ι → V3 ℝ) (b : V3 ℝ) (e : ℝ) (m : V3 ℝ) :
    (l.map fun v => V3.dot (rodDir n g (N v) (G v) b e) m).sum =
      V3.dot (rodDir n g (l.map N).sum (l.map G).sum b e) m := by
  induction l with
  | nil => simp [rodDir_zero, V3.dot]
  | cons v l ih =>
    simp only [List.map_cons, List.sum_cons, rodDir_add, Field.dot_add_left, ih]

theorem rotation_eq (n g b : V3 ℝ) (tr : Bool) (h : V3.dot n g ≠ -1) :
    (sampleRotation n g tr).mulVec b = b + side tr • V3.cross (V3.cross n g) b +
      (1 + V3.dot n g)⁻¹ • V3.cross (V3.cross n g) (V3.cross (V3.cross n g) b) := by
  unfold sampleRotation rodrigues side
  simp only [if_pos h]
  cases tr
  · simp only [Bool.false_eq_true, if_false, M3.mulVec_add, M3.mulVec_smul, M3.mul_def, M3.mulVec_mul,
      M3.mulVec_skew, M3.mulVec_diag, one_div, one_smul]
    ext <;> simp
  · simp only [if_true, M3.mulVec_add, M3.mulVec_smul, M3.mul_def, M3.mulVec_mul,
      M3.mulVec_skew, M3.mulVec_diag, one_div]
    ext <;> simp [V3.cross] <;> ring

theorem rotation_hasD {n g : ℝ → V3 ℝ} {n' g' : V3 ℝ} {t : ℝ} (hn : HasD n n' t) (hg : HasD g g' t)
    (b : V3 ℝ) (tr : Bool) (h : V3.dot (n t) (g t) ≠ -1) :
    HasD (fun s => (sampleRotation (n s) (g s) tr).mulVec b)
      (rodDir (n t) (g t) n' g' b (side tr)) t := by
  have hd := hn.dot hg
  have hev := hd.continuousAt.eventually_ne h
  have h1 : (1 : ℝ) + V3.dot (n t) (g t) ≠ 0 := fun h0 => h (by linarith)
  have hu := hn.cross hg
  have hub := hu.cross (HasD.const (t := t) b)
  have huub := hu.cross hub
  have hf := (hd.const_add 1).fun_inv h1
  have := ((HasD.const (t := t) b).add (HasD.smul (hasDerivAt_const t (side tr)) hub)).add
    (HasD.smul hf huub)
  refine HasD.congr_of_eventuallyEq (this.congr ?_) (hev.mono fun s hs => rotation_eq _ _ _ _ hs)
  unfold rodDir
  have hi : ((1 : ℝ) + V3.dot (n t) (g t)) ^ 2 ≠ 0 := pow_ne_zero _ h1
  have e : ∀ y : ℝ, -y / (1 + V3.dot (n t) (g t)) ^ 2 =
      -((1 + V3.dot (n t) (g t))⁻¹ * (1 + V3.dot (n t) (g t))⁻¹ * y) := fun y => by
    field_simp
  rw [e]
  generalize (1 + V3.dot (n t) (g t))⁻¹ = f
  generalize V3.dot n' (g t) + V3.dot (n t) g' = y
  ext <;> simp [V3.cross] <;> ring

theorem rotation_transpose (n g a b : V3 ℝ) :
    V3.dot a ((sampleRotation n g false).mulVec b) = V3.dot ((sampleRotation n g true).mulVec a) b := by
  by_cases h : V3.dot n g = -1
  · unfold sampleRotation rodrigues
    simp only [h, ne_eq, not_true_eq_false, if_false, M3.mulVec_diag, dot_smul_left, dot_smul_right]
  · rw [rotation_eq _ _ _ _ h, rotation_eq _ _ _ _ h]
    generalize (1 + V3.dot n g)⁻¹ = f
    simp [V3.dot, V3.cross, side]
    ring

/-! ## Normal weights -/

theorem normalKernel_hasDeriv {n g : ℝ → V3 ℝ} {n' g' : V3 ℝ} {t : ℝ} (hn : HasD n n' t)
    (hg : HasD g g' t) : HasDerivAt (fun s => normalKernel (n s) (g s))
      ((1 / 2) * (1 + V3.dot (n t) (g t)) * (V3.dot n' (g t) + V3.dot (n t) g')) t := by
  have h := ((hn.dot hg).const_add 1).const_mul (1 / 2)
  refine (h.fun_mul h).congr_deriv ?_
  ring

theorem normalKernel_nonneg (n g : V3 ℝ) : 0 ≤ normalKernel n g := mul_self_nonneg _

theorem normalKernel_pos {n g : V3 ℝ} (h : V3.dot n g ≠ -1) : 0 < normalKernel n g := by
  refine mul_self_pos.2 fun h0 => h ?_
  linarith

theorem nmlSumInv_eq {k : Kern} {dist : ℝ} {q : V3 ℝ} {view : List ℕ} {S : Samples} {g : V3 ℝ}
    (h : ∀ i ∈ view, 0 ≤ weight k dist q S i) : weightNmlSumInv k dist q view S g =
      ((view.map fun i => weight k dist q S i * normalKernel (unitNormal S i) g).sum)⁻¹ := by
  have h0 := sum_nonneg (l := view) (f := fun i => weight k dist q S i * normalKernel (unitNormal S i) g)
    fun i hi => mul_nonneg (h i hi) (normalKernel_nonneg _ _)
  unfold weightNmlSumInv
  simp only
  split
  · rw [one_div]
  · rename_i hn
    rw [le_antisymm (not_lt.1 hn) h0, inv_zero]

/-! ## Entries for the vertices of the surface -/

section Entries

variable (b : Bg) (x : ℕ → V3 ℝ) (tris : ℕ → Tri) (g : V3 ℝ)

/-- The change of the unit normal of a sample. -/
def nmlDir (w : ℕ → V3 ℝ) (s : ℕ) : V3 ℝ :=
  M3.mulVec (sampleProjection b.S s) (areaNormalDir x (tris s) w)

/-- The change of the gradient of the potential. -/
def gradDir (w : ℕ → V3 ℝ) : V3 ℝ :=
  ((neighborhoodVerts b.view tris).map fun v => (jacobianGradientPhi b x tris v).mulVec (w v)).sum

/-- Half of one plus the cosine. -/
def half (s : ℕ) : ℝ := (1 / 2) * (1 + V3.dot (unitNormal b.S s) g)

/-- The change of the weight of a sample with its normal kernel. -/
def weightDir (w : ℕ → V3 ℝ) (s : ℕ) : ℝ :=
  -normalKernel (unitNormal b.S s) g * V3.dot (weightGrad b.kernel b.dist b.q b.S s) (mean tris w s) +
    weight b.kernel b.dist b.q b.S s * half b g s *
      (V3.dot (nmlDir b x tris w s) g + V3.dot (unitNormal b.S s) (gradDir b x tris w))

theorem nodup_neighborhood (view : List ℕ) : (neighborhoodVerts view tris).Nodup := nodup_firstSeen _ _

theorem vertexNml_sum (hb : ∀ s, b.bgWeightGrad (some s) = 0) (w : ℕ → V3 ℝ) :
    ((neighborhoodVerts b.view tris).map fun v => V3.dot (vertexNmlWeightGrad b x tris g v) (w v)).sum =
      weightNmlSumInv b.kernel b.dist b.q b.view b.S g *
        (b.view.map fun s => weightDir b x tris g w s).sum := by
  set wsi := weightNmlSumInv b.kernel b.dist b.q b.view b.S g with hw
  set F := (b.view.map fun s => (weight b.kernel b.dist b.q b.S s *
    ((1 / 2) * (1 + V3.dot (unitNormal b.S s) g))) • unitNormal b.S s).sum with hF
  have hV := nodup_neighborhood tris b.view
  -- the corners
  have hc : ∀ s ∈ b.view, ((neighborhoodVerts b.view tris).map fun v => ((List.finRange 3).map fun j =>
      if (tris s).get j = v then V3.dot (-((normalKernel (unitNormal b.S s) g * ((1 / 3) * wsi)) •
          weightGrad b.kernel b.dist b.q b.S s) +
        (faceUnitNormalGrad x tris b.S s j).mulVec ((weight b.kernel b.dist b.q b.S s * wsi *
          ((1 / 2) * (1 + V3.dot (unitNormal b.S s) g))) • g)) (w v) else 0).sum).sum =
      wsi * (-normalKernel (unitNormal b.S s) g *
          V3.dot (weightGrad b.kernel b.dist b.q b.S s) (mean tris w s) +
        weight b.kernel b.dist b.q b.S s * half b g s * V3.dot (nmlDir b x tris w s) g) := by
    intro s hs
    rw [sum_comm]
    have e : ((List.finRange 3).map fun j => ((neighborhoodVerts b.view tris).map fun v =>
        if (tris s).get j = v then V3.dot (-((normalKernel (unitNormal b.S s) g * ((1 / 3) * wsi)) •
          weightGrad b.kernel b.dist b.q b.S s) +
        (faceUnitNormalGrad x tris b.S s j).mulVec ((weight b.kernel b.dist b.q b.S s * wsi *
          ((1 / 2) * (1 + V3.dot (unitNormal b.S s) g))) • g)) (w v) else 0).sum) =
        (List.finRange 3).map fun j => V3.dot (-((normalKernel (unitNormal b.S s) g * ((1 / 3) * wsi)) •
          weightGrad b.kernel b.dist b.q b.S s) +
        (faceUnitNormalGrad x tris b.S s j).mulVec ((weight b.kernel b.dist b.q b.S s * wsi *
          ((1 / 2) * (1 + V3.dot (unitNormal b.S s) g))) • g)) (w ((tris s).get j)) := by
      refine List.map_congr_left fun j _ => ?_
      rw [← sum_single hV (corner_mem_cols tris hs j) fun v =>
        V3.dot (-((normalKernel (unitNormal b.S s) g * ((1 / 3) * wsi)) •
          weightGrad b.kernel b.dist b.q b.S s) +
        (faceUnitNormalGrad x tris b.S s j).mulVec ((weight b.kernel b.dist b.q b.S s * wsi *
          ((1 / 2) * (1 + V3.dot (unitNormal b.S s) g))) • g)) (w v)]
      congr 1
      refine List.map_congr_left fun v _ => ?_
      simp only [eq_comm]
    rw [e]
    have h1 := unitGrad_sum b x tris w s g
    have h2 := mean_dot tris w s (weightGrad b.kernel b.dist b.q b.S s)
    rw [corner_sum] at h1 h2 ⊢
    simp only [Field.dot_add_left, dot_neg_left, dot_smul_left, M3.mulVec_vsmul]
    unfold nmlDir half
    rw [dot_symm (M3.mulVec _ _) g, ← h1]
    linear_combination (-(normalKernel (unitNormal b.S s) g * wsi) / 3) * h2
  -- the gradient
  have hg : ((neighborhoodVerts b.view tris).map fun v =>
      V3.dot ((jacobianGradientPhi b x tris v).transpose.mulVec (wsi • F)) (w v)).sum =
      wsi * (b.view.map fun s => weight b.kernel b.dist b.q b.S s * half b g s *
        V3.dot (unitNormal b.S s) (gradDir b x tris w)).sum := by
    have e : ∀ v, V3.dot ((jacobianGradientPhi b x tris v).transpose.mulVec (wsi • F)) (w v) =
        wsi * V3.dot F ((jacobianGradientPhi b x tris v).mulVec (w v)) := fun v => by
      rw [← dot_smul_left]
      simp only [M3.transpose, M3.mulVec, V3.dot]
      ring
    simp only [e]
    rw [List.sum_map_mul_left, ← dot_sum_right]
    congr 1
    rw [hF, dot_sum]
    congr 1
    refine List.map_congr_left fun s _ => ?_
    rw [dot_smul_left]
    rfl
  have e : ((neighborhoodVerts b.view tris).map fun v =>
      V3.dot (vertexNmlWeightGrad b x tris g v) (w v)) =
      (neighborhoodVerts b.view tris).map fun v =>
        V3.dot ((jacobianGradientPhi b x tris v).transpose.mulVec (wsi • F)) (w v) +
        (b.view.map fun s => ((List.finRange 3).map fun j =>
          if (tris s).get j = v then V3.dot (-((normalKernel (unitNormal b.S s) g * ((1 / 3) * wsi)) •
          weightGrad b.kernel b.dist b.q b.S s) +
        (faceUnitNormalGrad x tris b.S s j).mulVec ((weight b.kernel b.dist b.q b.S s * wsi *
          ((1 / 2) * (1 + V3.dot (unitNormal b.S s) g))) • g)) (w v) else 0).sum).sum := by
    refine List.map_congr_left fun v hv => ?_
    unfold vertexNmlWeightGrad
    simp only [if_pos hv, Field.dot_add_left, ← hw, ← hF, hb, sub_zero]
    congr 1
    rw [dot_sum]
    congr 1
    refine List.map_congr_left fun s _ => ?_
    rw [dot_sum]
    congr 1
    refine List.map_congr_left fun j _ => ?_
    split
    · simp only [Field.dot_add_left]
    · exact dot_zero_left _
  rw [e, List.sum_map_add, hg, sum_comm, List.map_congr_left hc, List.sum_map_mul_left, ← mul_add,
    ← List.sum_map_add]
  congr 2
  refine List.map_congr_left fun s _ => ?_
  unfold weightDir
  ring

/-- The entries of a sample, applied to motions of the vertices. -/
theorem sampleProduct_sum (s : ℕ) (hs : s ∈ b.view) (hd : (tris s).Distinct) (wsi : ℝ)
    (mult m : V3 ℝ) (tr : Bool) (w : ℕ → V3 ℝ) :
    ((sampleContactProduct b x tris g wsi s mult tr).map fun e => qf (w e.1) e.2 m).sum =
      (wsi * weightDir b x tris g w s - weight b.kernel b.dist b.q b.S s * wsi *
          normalKernel (unitNormal b.S s) g * ((neighborhoodVerts b.view tris).map fun v =>
            V3.dot (vertexNmlWeightGrad b x tris g v) (w v)).sum) *
        V3.dot ((sampleRotation (unitNormal b.S s) g tr).mulVec mult) m +
      weight b.kernel b.dist b.q b.S s * wsi * normalKernel (unitNormal b.S s) g *
        V3.dot (rodDir (unitNormal b.S s) g (nmlDir b x tris w s) (gradDir b x tris w) mult (side tr)) m := by
  have hV := nodup_neighborhood tris b.view
  have hN : ((neighborhoodVerts b.view tris).map fun v =>
      M3.mulVec (M3.transpose (vertexNormalGrad b x tris s v)) (w v)).sum = nmlDir b x tris w s := by
    refine eq_of_dot fun d => ?_
    rw [dot_sum_right]
    unfold nmlDir
    rw [← unitGrad_sum, ← position_sum hV (tris s) hd (corner_mem_cols tris hs)
      fun j v => V3.dot ((faceUnitNormalGrad x tris b.S s j).mulVec d) (w v)]
    congr 1
    refine List.map_congr_left fun v _ => ?_
    unfold vertexNormalGrad
    cases (tris s).position v with
    | none => simp [M3.mulVec, M3.transpose, V3.dot]
    | some j =>
      simp only [M3.mulVec, M3.transpose, V3.dot]
      ring
  have h1 := mean_dot tris w s (weightGrad b.kernel b.dist b.q b.S s)
  have h2 := unitGrad_sum b x tris w s g
  unfold sampleContactProduct
  simp only [List.map_append, List.sum_append, List.map_map, Function.comp_def, qf_outer, qf_add, qf_smul,
    qf_rod, M3.transpose_transpose, dot_smul_left, dot_neg_left]
  rw [List.sum_map_add, List.sum_map_add, List.sum_map_mul_left (l := neighborhoodVerts b.view tris)]
  rw [rodDir_sum, hN]
  have h3 : ((neighborhoodVerts b.view tris).map fun v => (1 / 2 * (1 + V3.dot (unitNormal b.S s) g) *
      (weight b.kernel b.dist b.q b.S s * wsi) *
      V3.dot ((jacobianGradientPhi b x tris v).transpose.mulVec (unitNormal b.S s)) (w v)) *
      V3.dot ((sampleRotation (unitNormal b.S s) g tr).mulVec mult) m).sum =
      1 / 2 * (1 + V3.dot (unitNormal b.S s) g) * (weight b.kernel b.dist b.q b.S s * wsi) *
        V3.dot (unitNormal b.S s) (gradDir b x tris w) *
      V3.dot ((sampleRotation (unitNormal b.S s) g tr).mulVec mult) m := by
    rw [List.sum_map_mul_right, List.sum_map_mul_left]
    unfold gradDir
    rw [dot_sum_right]
    congr 4
    funext v
    simp only [M3.mulVec, M3.transpose, V3.dot]
    ring
  have h4 : ((neighborhoodVerts b.view tris).map fun v => weight b.kernel b.dist b.q b.S s * wsi *
      normalKernel (unitNormal b.S s) g * -V3.dot (vertexNmlWeightGrad b x tris g v) (w v) *
      V3.dot ((sampleRotation (unitNormal b.S s) g tr).mulVec mult) m).sum =
      weight b.kernel b.dist b.q b.S s * wsi * normalKernel (unitNormal b.S s) g *
        -((neighborhoodVerts b.view tris).map fun v =>
          V3.dot (vertexNmlWeightGrad b x tris g v) (w v)).sum *
      V3.dot ((sampleRotation (unitNormal b.S s) g tr).mulVec mult) m := by
    rw [List.sum_map_mul_right, List.sum_map_mul_left]
    simp only [← neg_one_mul (V3.dot _ _)]
    rw [List.sum_map_mul_left, neg_one_mul]
  rw [h3, h4]
  change _ + (_ + _ * V3.dot (rodDir _ _ _ (gradDir b x tris w) _ _) _ + _) + _ = _
  simp only [corner_sum] at h1 h2 ⊢
  unfold weightDir half nmlDir
  rw [dot_symm (M3.mulVec _ _) g, ← h2]
  linear_combination (-(normalKernel (unitNormal b.S s) g * wsi) / 3 *
    V3.dot ((sampleRotation (unitNormal b.S s) g tr).mulVec mult) m) * h1

end Entries

end Softy.Contact
