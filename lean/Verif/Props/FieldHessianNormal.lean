import Verif.Props.FieldHessianSample

/-!
# The part of the Hessian that comes from the normals of the samples
-/

noncomputable section

namespace Softy.Field

open Softy Softy.Kernel Filter

variable {k : Kern} {P : BgParams} {view : List ℕ} {c : ℕ} {q : V3 ℝ} {S : Samples}

/-! ## Matrices of a triangle -/

theorem dot_areaGrad (x : ℕ → V3 ℝ) (T : Tri) (j : Fin 3) (a b : V3 ℝ) :
    V3.dot a (M3.mulVec (areaNormalGrad x T j) b) = -V3.dot (M3.mulVec (areaNormalGrad x T j) a) b := by
  rw [← dot_areaNormalGrad, M3.mulVec_neg, dot_neg_left]

theorem dot_projection (S : Samples) (i : ℕ) (a b : V3 ℝ) :
    V3.dot a (M3.mulVec (sampleProjection S i) b) = V3.dot (M3.mulVec (sampleProjection S i) a) b :=
  (dot_tangentProjection _ _ _ _).symm

theorem hessianProduct_symm (j i : Fin 3) (l a b : V3 ℝ) :
    qf a (areaNormalHessianProduct j i l) b = qf b (areaNormalHessianProduct i j l) a := by
  fin_cases j <;> fin_cases i <;>
    simp [areaNormalHessianProduct, qf, M3.mulVec, M3.skew, V3.dot] <;> ring

theorem hessianProduct_sum (T : Tri) (l : V3 ℝ) (u w : ℕ → V3 ℝ) :
    ((List.finRange 3).map fun j => ((List.finRange 3).map fun i =>
      qf (u (T.get j)) (areaNormalHessianProduct j i l) (w (T.get i))).sum).sum =
    -V3.dot l (areaNormalDir w T u) := by
  simp only [corner_sum, areaNormalHessianProduct, Tri.get]
  simp [areaNormalDir, areaNormalGrad, qf, M3.mulVec, M3.skew, V3.dot]
  ring

theorem areaNormalDir_eq (x : ℕ → V3 ℝ) (T : Tri) (u : ℕ → V3 ℝ) (v : V3 ℝ) :
    V3.dot (areaNormalDir x T u) v = ((List.finRange 3).map fun j =>
      V3.dot (M3.mulVec (areaNormalGrad x T j) (u (T.get j))) v).sum := by
  rw [corner_sum]
  simp only [areaNormalDir, dot_add_left, Tri.get]

theorem areaNormalDir_symm (x w : ℕ → V3 ℝ) (T : Tri) : areaNormalDir x T w = areaNormalDir w T x := by
  unfold areaNormalDir areaNormalGrad
  simp only [M3.mulVec_skew]
  ext <;> simp [V3.cross] <;> ring

/-- The motion of the sample along the change of its unit normal. -/
def chV (b : Bg) (x : ℕ → V3 ℝ) (tris : ℕ → Tri) (u : ℕ → V3 ℝ) (i : ℕ) : ℝ :=
  V3.dot (b.q - b.S.pos i) (M3.mulVec (sampleProjection b.S i) (areaNormalDir x (tris i) u))

theorem unitGrad_sum (b : Bg) (x : ℕ → V3 ℝ) (tris : ℕ → Tri) (u : ℕ → V3 ℝ) (s : ℕ) (d : V3 ℝ) :
    ((List.finRange 3).map fun i => V3.dot (M3.mulVec (faceUnitNormalGrad x tris b.S s i) d)
      (u ((tris s).get i))).sum =
    V3.dot d (M3.mulVec (sampleProjection b.S s) (areaNormalDir x (tris s) u)) := by
  rw [dot_projection, dot_symm, areaNormalDir_eq]
  congr 1
  refine List.map_congr_left fun i _ => ?_
  unfold faceUnitNormalGrad
  simp only [M3.mul_def, M3.mulVec_mul]
  rw [dot_areaNormalGrad]
  exact dot_symm _ _

/-! ## Coupling of normals and weights -/

theorem mean_dot (tris : ℕ → Tri) (u : ℕ → V3 ℝ) (i : ℕ) (g : V3 ℝ) :
    ((List.finRange 3).map fun j => V3.dot g (u ((tris i).get j))).sum =
      3 * V3.dot g (mean tris u i) := by
  rw [corner_sum]
  simp only [mean, dot_smul_right, dot_add_right, Tri.get]
  ring

theorem coupling_corners (f g : Fin 3 → ℝ) (f' g' : Fin 3 → ℝ) (a : ℝ) :
    ((List.finRange 3).map fun i => ((List.finRange 3).map fun j =>
      a * (f i * g j) + a * (f' i * g' j)).sum).sum =
      a * (((List.finRange 3).map f).sum * ((List.finRange 3).map g).sum) +
        a * (((List.finRange 3).map f').sum * ((List.finRange 3).map g').sum) := by
  simp only [corner_sum]
  ring

theorem coupling_quad (b : Bg) (x : ℕ → V3 ℝ) (tris : ℕ → Tri) (u w : ℕ → V3 ℝ) :
    quadBlocks (couplingHessian b x tris) u w =
      (b.view.map fun l => b.weightSumInv *
        (chV b x tris u l * chW b tris w l + chV b x tris w l * chW b tris u l)).sum -
      b.weightSumInv * b.weightSumInv *
        ((b.view.map fun i => wt b i * chV b x tris u i).sum *
          (b.view.map fun i => chB b tris w i + chW b tris w i).sum +
        (b.view.map fun i => wt b i * chV b x tris w i).sum *
          (b.view.map fun i => chB b tris u i + chW b tris u i).sum) := by
  unfold couplingHessian
  rw [quad_flatMap]
  have h1 : ∀ l, quadBlocks ((List.finRange 3).flatMap fun i => (List.finRange 3).map fun j =>
      orderedBlock ((tris l).get i) ((tris l).get j) ((b.weightSumInv * (1 / 3)) • M3.outer
        (M3.mulVec (faceUnitNormalGrad x tris b.S l i) (b.q - b.S.pos l))
        (-weightGrad b.kernel b.dist b.q b.S l))) u w =
      b.weightSumInv *
        (chV b x tris u l * chW b tris w l + chV b x tris w l * chW b tris u l) := by
    intro l
    rw [quad_flatMap]
    simp only [quad_map, quad_ordered, qf_smul, qf_outer]
    rw [coupling_corners, unitGrad_sum, unitGrad_sum, mean_dot, mean_dot, dot_neg_left, dot_neg_left]
    unfold chV chW
    ring
  have h2 : ∀ l k', quadBlocks ((List.finRange 3).flatMap fun i => (List.finRange 3).map fun j =>
        orderedBlock ((tris k').get i) ((tris l).get j)
          ((weight b.kernel b.dist b.q b.S k' * b.weightSumInv * b.weightSumInv * (1 / 3)) • M3.outer
          (M3.mulVec (-faceUnitNormalGrad x tris b.S k' i) (b.q - b.S.pos k'))
          (-weightGrad b.kernel b.dist b.q b.S l + b.bgWeightGrad (some l)))) u w =
      -(b.weightSumInv * b.weightSumInv * (wt b k' *
        (chV b x tris u k' * (chB b tris w l + chW b tris w l) +
          chV b x tris w k' * (chB b tris u l + chW b tris u l)))) := by
    intro l k'
    rw [quad_flatMap]
    simp only [quad_map, quad_ordered, qf_smul, qf_outer, M3.mulVec_neg, dot_neg_left]
    have := coupling_corners
      (fun i => -V3.dot (M3.mulVec (faceUnitNormalGrad x tris b.S k' i) (b.q - b.S.pos k'))
        (u ((tris k').get i)))
      (fun j => V3.dot (-weightGrad b.kernel b.dist b.q b.S l + b.bgWeightGrad (some l))
        (w ((tris l).get j)))
      (fun i => -V3.dot (M3.mulVec (faceUnitNormalGrad x tris b.S k' i) (b.q - b.S.pos k'))
        (w ((tris k').get i)))
      (fun j => V3.dot (-weightGrad b.kernel b.dist b.q b.S l + b.bgWeightGrad (some l))
        (u ((tris l).get j)))
      (weight b.kernel b.dist b.q b.S k' * b.weightSumInv * b.weightSumInv * (1 / 3))
    rw [this]
    have hn : ∀ f : Fin 3 → ℝ, ((List.finRange 3).map fun i => -f i).sum =
        -((List.finRange 3).map f).sum := by
      intro f
      simp only [corner_sum]
      ring
    rw [hn, hn, unitGrad_sum, unitGrad_sum, mean_dot, mean_dot, dot_add_left, dot_add_left,
      dot_neg_left, dot_neg_left]
    unfold chV chW chB wt
    ring
  simp only [quad_append, quad_flatMap b.view, h1, h2]
  rw [List.sum_map_add, sub_eq_add_neg]
  congr 1
  have e : ∀ l, (b.view.map fun k' => -(b.weightSumInv * b.weightSumInv * (wt b k' *
        (chV b x tris u k' * (chB b tris w l + chW b tris w l) +
          chV b x tris w k' * (chB b tris u l + chW b tris u l))))).sum =
      (chB b tris w l + chW b tris w l) * (-(b.weightSumInv * b.weightSumInv) *
        (b.view.map fun k' => wt b k' * chV b x tris u k').sum) +
      (chB b tris u l + chW b tris u l) * (-(b.weightSumInv * b.weightSumInv) *
        (b.view.map fun k' => wt b k' * chV b x tris w k').sum) := by
    intro l
    rw [← List.sum_map_mul_left, ← List.sum_map_mul_left, ← List.sum_map_mul_left,
      ← List.sum_map_mul_left, ← List.sum_map_add]
    congr 1
    refine List.map_congr_left fun i _ => ?_
    ring
  simp only [e]
  rw [List.sum_map_add, List.sum_map_mul_right, List.sum_map_mul_right]
  ring

/-! ## Second derivatives of the normals -/

theorem zipWith_map_self {α β γ δ : Type*} (l : List α) (f : α → β) (g : α → γ) (h : β → γ → δ) :
    List.zipWith h (l.map f) (l.map g) = l.map fun i => h (f i) (g i) := by
  induction l with
  | nil => rfl
  | cons i l ih => simp [ih]

theorem zipWith_flatMap {α β γ δ ε : Type*} (l : List α) (m : α → List ε) (f : α → ε → β)
    (g : α → ε → γ) (h : β → γ → δ) :
    List.zipWith h (l.flatMap fun s => (m s).map (f s)) (l.flatMap fun s => (m s).map (g s)) =
      l.flatMap fun s => (m s).map fun i => h (f s i) (g s i) := by
  induction l with
  | nil => rfl
  | cons s l ih =>
    simp only [List.flatMap_cons]
    rw [List.zipWith_append (by simp), ih, zipWith_map_self]

/-- The matrices of `normal_hessian_at` for two corners. -/
def cornerBlock (b : Bg) (x : ℕ → V3 ℝ) (tris : ℕ → Tri) (s : ℕ) (j i : Fin 3) : M3 ℝ :=
  let n := unitNormal b.S s
  let proj := sampleProjection b.S s
  let mult := normalMultiplier b s
  let projMult := M3.mulVec proj mult
  let prod := V3.dot n mult • proj + M3.outer projMult n + M3.outer n projMult
  ((1 / (b.S.nml s).norm) • (areaNormalGrad x (tris s) j * prod * areaNormalGrad x (tris s) i) -
      areaNormalHessianProduct j i projMult) -
    (weight b.kernel b.dist b.q b.S s * b.weightSumInv * (1 / 3)) •
      (proj * areaNormalGrad x (tris s) i - areaNormalGrad x (tris s) j * proj)

theorem qf_cornerBlock (b : Bg) (x : ℕ → V3 ℝ) (tris : ℕ → Tri) (s : ℕ) (j i : Fin 3) (y z : V3 ℝ) :
    qf y (cornerBlock b x tris s j i) z =
      -(1 / (b.S.nml s).norm) * (V3.dot (unitNormal b.S s) (normalMultiplier b s) *
          qf (M3.mulVec (areaNormalGrad x (tris s) j) y) (sampleProjection b.S s)
            (M3.mulVec (areaNormalGrad x (tris s) i) z) +
        V3.dot (M3.mulVec (areaNormalGrad x (tris s) j) y)
            (M3.mulVec (sampleProjection b.S s) (normalMultiplier b s)) *
          V3.dot (M3.mulVec (areaNormalGrad x (tris s) i) z) (unitNormal b.S s) +
        V3.dot (M3.mulVec (areaNormalGrad x (tris s) j) y) (unitNormal b.S s) *
          V3.dot (M3.mulVec (areaNormalGrad x (tris s) i) z)
            (M3.mulVec (sampleProjection b.S s) (normalMultiplier b s))) -
      qf y (areaNormalHessianProduct j i
        (M3.mulVec (sampleProjection b.S s) (normalMultiplier b s))) z -
      weight b.kernel b.dist b.q b.S s * b.weightSumInv * (1 / 3) *
        (V3.dot (M3.mulVec (areaNormalGrad x (tris s) i) z) (M3.mulVec (sampleProjection b.S s) y) +
          V3.dot (M3.mulVec (areaNormalGrad x (tris s) j) y)
            (M3.mulVec (sampleProjection b.S s) z)) := by
  unfold cornerBlock
  simp only [qf_sub, qf_smul]
  have e1 : qf y (areaNormalGrad x (tris s) j * (V3.dot (unitNormal b.S s) (normalMultiplier b s) •
        sampleProjection b.S s +
        M3.outer (M3.mulVec (sampleProjection b.S s) (normalMultiplier b s)) (unitNormal b.S s) +
        M3.outer (unitNormal b.S s) (M3.mulVec (sampleProjection b.S s) (normalMultiplier b s))) *
        areaNormalGrad x (tris s) i) z =
      -(V3.dot (unitNormal b.S s) (normalMultiplier b s) *
          qf (M3.mulVec (areaNormalGrad x (tris s) j) y) (sampleProjection b.S s)
            (M3.mulVec (areaNormalGrad x (tris s) i) z) +
        V3.dot (M3.mulVec (areaNormalGrad x (tris s) j) y)
            (M3.mulVec (sampleProjection b.S s) (normalMultiplier b s)) *
          V3.dot (M3.mulVec (areaNormalGrad x (tris s) i) z) (unitNormal b.S s) +
        V3.dot (M3.mulVec (areaNormalGrad x (tris s) j) y) (unitNormal b.S s) *
          V3.dot (M3.mulVec (areaNormalGrad x (tris s) i) z)
            (M3.mulVec (sampleProjection b.S s) (normalMultiplier b s))) := by
    unfold qf
    simp only [M3.mul_def, M3.mulVec_mul]
    rw [dot_areaGrad]
    simp only [M3.mulVec_add, M3.mulVec_smul, M3.mulVec_outer, dot_add_right, dot_smul_right]
    rw [dot_symm (unitNormal b.S s) (M3.mulVec (areaNormalGrad x (tris s) i) z),
      dot_symm (M3.mulVec (sampleProjection b.S s) (normalMultiplier b s))
        (M3.mulVec (areaNormalGrad x (tris s) i) z)]
    ring
  have e2 : qf y (sampleProjection b.S s * areaNormalGrad x (tris s) i) z =
      V3.dot (M3.mulVec (areaNormalGrad x (tris s) i) z) (M3.mulVec (sampleProjection b.S s) y) := by
    unfold qf
    rw [M3.mul_def, M3.mulVec_mul, dot_projection, dot_symm]
  have e3 : qf y (areaNormalGrad x (tris s) j * sampleProjection b.S s) z =
      -V3.dot (M3.mulVec (areaNormalGrad x (tris s) j) y) (M3.mulVec (sampleProjection b.S s) z) := by
    unfold qf
    rw [M3.mul_def, M3.mulVec_mul, dot_areaGrad]
  rw [e1, e2, e3]
  ring

theorem cornerBlock_symm (b : Bg) (x : ℕ → V3 ℝ) (tris : ℕ → Tri) (s : ℕ) (j i : Fin 3) (y z : V3 ℝ) :
    qf y (cornerBlock b x tris s j i) z = qf z (cornerBlock b x tris s i j) y := by
  rw [qf_cornerBlock, qf_cornerBlock, hessianProduct_symm]
  have : qf (M3.mulVec (areaNormalGrad x (tris s) j) y) (sampleProjection b.S s)
      (M3.mulVec (areaNormalGrad x (tris s) i) z) =
      qf (M3.mulVec (areaNormalGrad x (tris s) i) z) (sampleProjection b.S s)
        (M3.mulVec (areaNormalGrad x (tris s) j) y) := by
    unfold qf
    rw [dot_projection, dot_symm]
  rw [this]
  ring

theorem dot_unitNormal2 (S : Samples) (i : ℕ) (d m n' mm : V3 ℝ) :
    V3.dot d (unitNormal2 S i m n' mm) =
      V3.dot mm (M3.mulVec (sampleProjection S i) d) - 1 / (S.nml i).norm *
        (V3.dot (unitNormal S i) n' * V3.dot m (M3.mulVec (sampleProjection S i) d) +
          V3.dot (unitNormal S i) m * V3.dot n' (M3.mulVec (sampleProjection S i) d) +
          V3.dot n' (M3.mulVec (sampleProjection S i) m) * V3.dot (unitNormal S i) d) := by
  unfold unitNormal2
  simp only [dot_sub_right, dot_smul_right, dot_add_right]
  rw [dot_projection S i d mm, dot_projection S i d m, dot_projection S i d n',
    dot_symm _ mm, dot_symm (M3.mulVec (sampleProjection S i) d) m,
    dot_symm (M3.mulVec (sampleProjection S i) d) n', dot_symm d]

/-- Sum of the blocks of one sample over all pairs of corners. -/
theorem corner_quad (b : Bg) (x : ℕ → V3 ℝ) (tris : ℕ → Tri) (s : ℕ) (u w : ℕ → V3 ℝ) :
    ((List.finRange 3).map fun j => ((List.finRange 3).map fun i =>
      qf (u ((tris s).get j)) (cornerBlock b x tris s j i) (w ((tris s).get i))).sum).sum =
    b.weightSumInv * wt b s * (V3.dot (b.q - b.S.pos s) (unitNormal2 b.S s
        (areaNormalDir x (tris s) u) (areaNormalDir x (tris s) w) (areaNormalDir w (tris s) u)) -
      (V3.dot (M3.mulVec (sampleProjection b.S s) (areaNormalDir x (tris s) w)) (mean tris u s) +
        V3.dot (M3.mulVec (sampleProjection b.S s) (areaNormalDir x (tris s) u)) (mean tris w s))) := by
  have hp := hessianProduct_sum (tris s)
    (M3.mulVec (sampleProjection b.S s) (normalMultiplier b s)) u w
  rw [dot_unitNormal2]
  have hm : M3.mulVec (sampleProjection b.S s) (normalMultiplier b s) =
      (wt b s * b.weightSumInv) • M3.mulVec (sampleProjection b.S s) (b.q - b.S.pos s) := by
    unfold normalMultiplier
    rw [M3.mulVec_vsmul]
    rfl
  have hn : V3.dot (unitNormal b.S s) (normalMultiplier b s) =
      wt b s * b.weightSumInv * V3.dot (unitNormal b.S s) (b.q - b.S.pos s) := by
    unfold normalMultiplier
    rw [dot_smul_right]
    rfl
  have h1 : V3.dot (areaNormalDir w (tris s) u)
      (M3.mulVec (sampleProjection b.S s) (b.q - b.S.pos s)) * (wt b s * b.weightSumInv) =
      -((List.finRange 3).map fun j => ((List.finRange 3).map fun i =>
        qf (u ((tris s).get j)) (areaNormalHessianProduct j i
          (M3.mulVec (sampleProjection b.S s) (normalMultiplier b s))) (w ((tris s).get i))).sum).sum := by
    rw [hp, hm, dot_smul_left, dot_symm]
    ring
  have h2 : ∀ v : ℕ → V3 ℝ, ∀ y, V3.dot (M3.mulVec (sampleProjection b.S s)
      (areaNormalDir x (tris s) v)) y =
      V3.dot (areaNormalDir x (tris s) v) (M3.mulVec (sampleProjection b.S s) y) :=
    fun v y => (dot_projection _ _ _ _).symm
  have h3 : ∀ v : ℕ → V3 ℝ, V3.dot (unitNormal b.S s) (areaNormalDir x (tris s) v) =
      V3.dot (areaNormalDir x (tris s) v) (unitNormal b.S s) := fun v => dot_symm _ _
  have h4 : V3.dot (areaNormalDir x (tris s) w)
      (M3.mulVec (sampleProjection b.S s) (areaNormalDir x (tris s) u)) =
      ((List.finRange 3).map fun j => ((List.finRange 3).map fun i =>
        qf (M3.mulVec (areaNormalGrad x (tris s) j) (u ((tris s).get j))) (sampleProjection b.S s)
          (M3.mulVec (areaNormalGrad x (tris s) i) (w ((tris s).get i)))).sum).sum := by
    rw [dot_projection, dot_symm]
    simp only [corner_sum, areaNormalDir, qf, M3.mulVec_vadd, dot_add_left, dot_add_right, Tri.get,
      ← dot_projection]
    ring
  have h5 : ∀ v z : ℕ → V3 ℝ, V3.dot (areaNormalDir x (tris s) v)
      (M3.mulVec (sampleProjection b.S s) (mean tris z s)) =
      (1 / 3) * ((List.finRange 3).map fun j => ((List.finRange 3).map fun i =>
        V3.dot (M3.mulVec (areaNormalGrad x (tris s) j) (v ((tris s).get j)))
          (M3.mulVec (sampleProjection b.S s) (z ((tris s).get i)))).sum).sum := by
    intro v z
    simp only [corner_sum, areaNormalDir, mean, M3.mulVec_vsmul, M3.mulVec_vadd, dot_smul_right,
      dot_add_left, dot_add_right, Tri.get]
    ring
  rw [h2, h2, h3, h3, h4, h5, h5, mul_sub, mul_sub, mul_comm (b.weightSumInv * wt b s)
    (V3.dot (areaNormalDir w (tris s) u) _), mul_comm b.weightSumInv, h1]
  simp only [areaNormalDir_eq, corner_sum, qf_cornerBlock, hm, hn, dot_smul_right]
  generalize ((1 : ℝ) / (b.S.nml s).norm) = N
  have hw : weight b.kernel b.dist b.q b.S s = wt b s := rfl
  rw [hw]
  ring

theorem zip_quad (b : Bg) (x : ℕ → V3 ℝ) (tris : ℕ → Tri) (u w : ℕ → V3 ℝ) :
    quadBlocks (List.zipWith (fun s n => (⟨s.row, s.col, n.val - s.val⟩ : HBlock))
      (symmetricNormalJacobian b x tris) (normalHessianProducts b x tris)) u w =
    (b.view.map fun s => b.weightSumInv * wt b s * (V3.dot (b.q - b.S.pos s) (unitNormal2 b.S s
        (areaNormalDir x (tris s) u) (areaNormalDir x (tris s) w) (areaNormalDir w (tris s) u)) -
      (V3.dot (M3.mulVec (sampleProjection b.S s) (areaNormalDir x (tris s) w)) (mean tris u s) +
        V3.dot (M3.mulVec (sampleProjection b.S s) (areaNormalDir x (tris s) u))
          (mean tris w s)))).sum := by
  unfold symmetricNormalJacobian normalHessianProducts
  rw [zipWith_flatMap, quad_flatMap]
  congr 1
  refine List.map_congr_left fun s _ => ?_
  rw [← corner_quad]
  unfold lowerCorners
  rw [List.map_flatMap, quad_flatMap, ← lower_sum (List.finRange 3) (fun i => (tris s).get i)]
  congr 1
  refine List.map_congr_left fun j _ => ?_
  rw [List.map_map, quad_map]
  congr 1
  refine List.map_congr_left fun i _ => ?_
  simp only [Function.comp]
  rw [quad_single]
  have e : qf (w ((tris s).get j)) (cornerBlock b x tris s j i) (u ((tris s).get i)) =
      qf (u ((tris s).get i)) (cornerBlock b x tris s i j) (w ((tris s).get j)) :=
    cornerBlock_symm _ _ _ _ _ _ _ _
  rw [← e]
  rfl

theorem secondForm_values {ι : Type*} (l : List ι) (w psi a b a' b' aa bb v v' x : ι → ℝ) :
    secondForm l w psi a (fun i => b i + v i) a' (fun i => b' i + v' i) aa (fun i => bb i + x i) =
      secondForm l w psi a b a' b' aa bb +
        (((l.map w).sum)⁻¹ * (l.map fun i => a i * v' i + a' i * v i + w i * x i).sum -
        ((l.map w).sum)⁻¹ * ((l.map w).sum)⁻¹ *
          ((l.map fun i => w i * v i).sum * (l.map a').sum +
            (l.map fun i => w i * v' i).sum * (l.map a).sum)) := by
  unfold secondForm
  have e1 : (l.map fun i => aa i * psi i + a i * (b' i + v' i) + a' i * (b i + v i) +
      w i * (bb i + x i)).sum =
      (l.map fun i => aa i * psi i + a i * b' i + a' i * b i + w i * bb i).sum +
        (l.map fun i => a i * v' i + a' i * v i + w i * x i).sum := by
    rw [← List.sum_map_add]
    congr 1
    refine List.map_congr_left fun i _ => ?_
    ring
  have e2 : ∀ a b v : ι → ℝ, (l.map fun i => a i * psi i + w i * (b i + v i)).sum =
      (l.map fun i => a i * psi i + w i * b i).sum + (l.map fun i => w i * v i).sum := by
    intro a b v
    rw [← List.sum_map_add]
    congr 1
    refine List.map_congr_left fun i _ => ?_
    ring
  rw [e1, e2, e2]
  ring

/-- Changes of values that come from changes of normals. -/
def turnV (q : V3 ℝ) (S : Samples) (m : ℕ → V3 ℝ) : Option ℕ → ℝ
  | none => 0
  | some i => V3.dot (q - S.pos i) (M3.mulVec (sampleProjection S i) (m i))

/-- Second changes of values that come from changes of normals. -/
def turnX (q : V3 ℝ) (S : Samples) (e m e' n' mm : ℕ → V3 ℝ) : Option ℕ → ℝ
  | none => 0
  | some i => V3.dot (M3.mulVec (sampleProjection S i) (n' i)) (e i) +
      V3.dot (M3.mulVec (sampleProjection S i) (m i)) (e' i) +
      V3.dot (q - S.pos i) (unitNormal2 S i (m i) (n' i) (mm i))

theorem termB_turn (e m : ℕ → V3 ℝ) : termB k P q view S c e m =
    fun i => termB k P q view S c e (fun _ => 0) i + turnV q S m i := by
  funext i
  cases i with
  | none => simp [termB, turnV]
  | some i => simp only [termB, turnV, projection_zero, dot_zero_right, add_zero]

theorem termBB_turn (e m e' n' mm : ℕ → V3 ℝ) : termBB k P q view S c e m e' n' mm =
    fun i => termBB k P q view S c e (fun _ => 0) e' (fun _ => 0) (fun _ => 0) i +
      turnX q S e m e' n' mm i := by
  funext i
  cases i with
  | none => simp [termBB, turnX]
  | some i => simp only [termBB, turnX, projection_zero, unitNormal2_zero, dot_zero_right,
      dot_zero_left, add_zero, zero_add]

/-- The blocks of the surface are the second derivative of the average as the vertices move. -/
theorem surface_form (h : Smooth k P q view S c) (x : ℕ → V3 ℝ) (tris : ℕ → Tri) (u w : ℕ → V3 ℝ) :
    quadBlocks (normalHessianAt (bgAt k P q view S c none) x tris ++
      (sampleHessianAt (bgAt k P q view S c none)).flatMap (vertexBlocks tris)) u w =
      secondForm (terms view) (termW (k.withClosest (q - S.pos c).norm) k P q S c)
        (termPsi k P q view S c)
        (termA (k.withClosest (q - S.pos c).norm) k P q view S c fun i => -mean tris u i)
        (termB k P q view S c (fun i => -mean tris u i) fun i => areaNormalDir x (tris i) u)
        (termA (k.withClosest (q - S.pos c).norm) k P q view S c fun i => -mean tris w i)
        (termB k P q view S c (fun i => -mean tris w i) fun i => areaNormalDir x (tris i) w)
        (termAA (k.withClosest (q - S.pos c).norm) k P q view S c (fun i => -mean tris u i)
          fun i => -mean tris w i)
        (termBB k P q view S c (fun i => -mean tris u i) (fun i => areaNormalDir x (tris i) u)
          (fun i => -mean tris w i) (fun i => areaNormalDir x (tris i) w)
          fun i => areaNormalDir w (tris i) u) := by
  classical
  rw [quad_append, sample_form h, termB_turn _ fun i => areaNormalDir x (tris i) u,
    termB_turn _ fun i => areaNormalDir x (tris i) w, termBB_turn _ fun i => areaNormalDir x (tris i) u,
    secondForm_values, add_comm]
  congr 1
  unfold normalHessianAt
  rw [quad_append, zip_quad, coupling_quad]
  set b := bgAt k P q view S c none with hb
  unfold terms
  simp only [List.map_cons, List.sum_cons, List.map_map, Function.comp_def, termW, termA, turnV, turnX,
    mul_zero, add_zero, zero_add]
  have hwsi : b.weightSumInv = (backgroundWeight k P.weighted (q - S.pos c).norm +
      (view.map fun i => (k.withClosest (q - S.pos c).norm).eval q (S.pos i)).sum)⁻¹ := by
    rw [add_comm]
    exact weightSumInv_eq _
  rw [← hwsi]
  have hview : b.view = view := rfl
  have hA : ∀ v : ℕ → V3 ℝ, ∀ i, V3.dot ((k.withClosest (q - S.pos c).norm).grad q (S.pos i))
      (-mean tris v i) = chW b tris v i := fun v i => dot_neg' _ _
  have hw' : ∀ i, (k.withClosest (q - S.pos c).norm).eval q (S.pos i) = wt b i := fun _ => rfl
  have hV : ∀ v : ℕ → V3 ℝ, ∀ i, V3.dot (q - S.pos i) (M3.mulVec (sampleProjection S i)
      (areaNormalDir x (tris i) v)) = chV b x tris v i := fun _ _ => rfl
  have hBc : ∀ v : ℕ → V3 ℝ, V3.dot (b.bgWeightGrad none) (-mean tris v c) = chB b tris v c := by
    intro v
    unfold chB
    rw [hb, bgWeightGrad_sample, if_pos rfl, dot_neg', dot_neg_left]
  have hB : ∀ v : ℕ → V3 ℝ, (view.map fun i => chB b tris v i).sum = chB b tris v c := by
    intro v
    rw [← sum_single h.nodup h.mem fun i => chB b tris v i]
    congr 1
    refine List.map_congr_left fun i _ => ?_
    split
    · rfl
    · unfold chB
      rw [hb, bgWeightGrad_sample, if_neg (by assumption), dot_zero_left]
  simp only [← hb]
  simp only [hA, hw', hV, hBc, hview, dot_neg']
  have hs : ∀ v : ℕ → V3 ℝ, (view.map fun i => chB b tris v i + chW b tris v i).sum =
      chB b tris v c + (view.map fun i => chW b tris v i).sum := by
    intro v
    rw [List.sum_map_add, hB]
  rw [hs, hs, ← add_sub_assoc, ← List.sum_map_add]
  congr 1
  rw [← List.sum_map_mul_left]
  congr 1
  refine List.map_congr_left fun i _ => ?_
  have hq : b.q - b.S.pos i = q - S.pos i := rfl
  have hS : b.S = S := rfl
  rw [hq, hS]
  ring

end Softy.Field
