import Verif.Props.FieldHessianPath

/-!
# The Hessians of the potential are the derivatives of its Jacobians

Property C78.
-/

noncomputable section

namespace Softy.Field

open Softy Softy.Kernel Filter

variable {k : Kern} {P : BgParams} {view : List ℕ} {c : ℕ} {q : V3 ℝ} {S : Samples}

/-! ## Where the background matters -/

theorem hess_far {k : Kern} (hk : k.Proper) {r : ℝ} (hr : k.radius = some r) {x p : V3 ℝ}
    (hx : r < (x - p).norm) : k.hess x p = 0 := by
  classical
  have hdf : k.df (x - p).norm = 0 ∧ k.ddf (x - p).norm = 0 := by
    cases k with
    | global eps => cases hr
    | cubic r' => cases hr; simp only [Kern.df, cubicDf, Kern.ddf, cubicDdf]; simp [hx]
    | smooth r' t => cases hr; simp only [Kern.df, smoothDf, Kern.ddf, smoothDdf]; simp [hx]
    | approximate r' eps =>
      cases hr; simp only [Kern.df, approximateDf, Kern.ddf, approximateDdf]; simp [hx]
    | interpolating r' xc =>
      cases hr
      simp only [Kern.df, Kern.ddf]
      have : 0 < (x - p).norm := hk.1.trans hx
      rw [interpolatingDf_eq _ _ _ hk.1.ne' this.ne', interpolatingDdf_eq _ _ _ hk.1.ne' this.ne',
        if_pos hx, if_pos hx]
      exact ⟨rfl, rfl⟩
  simp only [Kern.hess, hdf.1, hdf.2]
  split
  · ext <;> simp
  · rfl

/-- A background that is not mixed in counts only where all samples are far. -/
theorem Smooth.unweighted (h : Smooth k P q view S c) (hw : P.weighted = false) :
    (bgAt k P q view S c none).bgWeightGrad none = 0 ∧
    (bgAt k P q view S c none).bgWeightHess none = 0 ∧
    (backgroundWeight k P.weighted (q - S.pos c).norm = 0 ∨
      ∀ i ∈ view, weight k (q - S.pos c).norm q S i = 0 ∧
        weightGrad k (q - S.pos c).norm q S i = 0 ∧ weightHess k (q - S.pos c).norm q S i = 0) := by
  have hf : (bgAt k P q view S c none).flat := Or.inr hw
  have hpos : 0 < (q - S.pos c).norm := norm_pos_of_ne h.apart
  refine ⟨?_, ?_, ?_⟩
  · unfold Bg.bgWeightGrad
    rw [if_pos hf]
  · unfold Bg.bgWeightHess
    rw [if_pos hf]
  · by_cases hc : Counts k P (q - S.pos c).norm
    · right
      obtain ⟨r, hk, hr⟩ : ∃ r, k.radius = some r ∧ r < (q - S.pos c).norm := by
        rcases hc with hc | hc
        · exact hc
        · rw [hw] at hc; cases hc
      have hcl := (regular_weighable (q := fun _ => q) (S := fun _ => S) (t := 0) h.toRegular).1
      have hmin := (closestSample_spec hcl).2
      have hKp := proper_withClosest h.proper (d := (q - S.pos c).norm) (Or.inr hpos)
      have hKr : (k.withClosest (q - S.pos c).norm).radius = some r := by
        rw [radius_withClosest]; exact hk
      intro i hi
      have hri : r < (q - S.pos i).norm := hr.trans_le (hmin i hi)
      exact ⟨weight_far h.proper (Or.inr hpos) hk hri.le, grad_far hKp hKr hri, hess_far hKp hKr hri⟩
    · left
      exact (background_null (q := fun _ => q) (S := fun _ => S) (t := 0) (view := view) hc).1

/-! ## Query points -/

theorem query_algebra (l : List ℕ) (w psi a b a' b' aa : ℕ → ℝ) (N N' NN : ℝ) :
    (l.map fun i => b i * a' i + a i * b' i - w i * (b i * N' + N * b' i) -
      psi i * (N * a' i + a i * N') - w i * (psi i * NN) +
      psi i * (N * (2 * w i * N') + aa i)).sum =
    (l.map fun i => aa i * psi i + a i * b' i + a' i * b i).sum -
      (l.map fun i => a i * psi i + w i * b i).sum * N' -
      (l.map fun i => a' i * psi i + w i * b' i).sum * N -
      (l.map fun i => w i * psi i).sum * NN + 2 * (l.map fun i => w i * psi i).sum * N * N' := by
  induction l with
  | nil => simp
  | cons i l ih =>
    simp only [List.map_cons, List.sum_cons]
    rw [ih]
    ring

theorem projection_zero (S : Samples) (i : ℕ) : M3.mulVec (sampleProjection S i) 0 = 0 := by
  ext <;> simp [M3.mulVec, V3.dot]

theorem unitNormal2_zero (S : Samples) (i : ℕ) : unitNormal2 S i 0 0 0 = 0 := by
  unfold unitNormal2
  rw [projection_zero]
  ext <;> simp [V3.dot]

theorem value_eq (b : Bg) (i : ℕ) : b.S.value i + V3.dot (unitNormal b.S i) (b.q - b.S.pos i) =
    samplePotential b.q b.S i := by
  unfold unitNormal samplePotential
  rw [dot_smul_left]
  ring

/-- The Hessian with respect to the query point is the second derivative of the average. -/
theorem query_form (h : Smooth k P q view S c) (uq wq : V3 ℝ) :
    qf uq ((bgAt k P q view S c none).weightSumInv •
        (view.map (sampleQueryHessian (bgAt k P q view S c none)
          (neighborWeightGrad (bgAt k P q view S c none))
          (neighborWeightHess (bgAt k P q view S c none)))).sum +
        (bgAt k P q view S c none).queryHessian) wq =
      secondForm (terms view) (termW (k.withClosest (q - S.pos c).norm) k P q S c)
        (termPsi k P q view S c)
        (termA (k.withClosest (q - S.pos c).norm) k P q view S c fun _ => uq)
        (termB k P q view S c (fun _ => uq) fun _ => 0)
        (termA (k.withClosest (q - S.pos c).norm) k P q view S c fun _ => wq)
        (termB k P q view S c (fun _ => wq) fun _ => 0)
        (termAA (k.withClosest (q - S.pos c).norm) k P q view S c (fun _ => uq) fun _ => wq)
        (termBB k P q view S c (fun _ => uq) (fun _ => 0) (fun _ => wq) (fun _ => 0) fun _ => 0) := by
  have hun := h.unweighted
  unfold secondForm terms
  simp only [List.map_cons, List.sum_cons, List.map_map, Function.comp_def, termW, termPsi, termA, termB,
    termAA, termBB, projection_zero, unitNormal2_zero, dot_zero_right, dot_zero_left, add_zero, mul_zero]
  set b := bgAt k P q view S c none with hb
  have hwsi : b.weightSumInv = (backgroundWeight k P.weighted (q - S.pos c).norm +
      (view.map fun i => (k.withClosest (q - S.pos c).norm).eval q (S.pos i)).sum)⁻¹ := by
    rw [add_comm]
    exact weightSumInv_eq _
  rw [← hwsi]
  have hN : ∀ v, V3.dot (neighborWeightGrad b) v = b.weightSumInv *
      (V3.dot (b.bgWeightGrad none) v +
        (view.map fun i => V3.dot ((k.withClosest (q - S.pos c).norm).grad q (S.pos i)) v).sum) := by
    intro v
    unfold neighborWeightGrad
    rw [dot_smul_left, dot_add_left, dot_sum, add_comm]
    rfl
  have hNN : qf uq (neighborWeightHess b) wq = b.weightSumInv *
      (qf uq (b.bgWeightHess none) wq +
        (view.map fun i => qf uq ((k.withClosest (q - S.pos c).norm).hess q (S.pos i)) wq).sum) := by
    unfold neighborWeightHess
    rw [qf_smul, qf_add, qf_sum, add_comm]
    rfl
  have h1 : ∀ i, qf uq (sampleQueryHessian b (neighborWeightGrad b) (neighborWeightHess b) i) wq =
      V3.dot (unitNormal S i) uq * V3.dot ((k.withClosest (q - S.pos c).norm).grad q (S.pos i)) wq +
      V3.dot ((k.withClosest (q - S.pos c).norm).grad q (S.pos i)) uq * V3.dot (unitNormal S i) wq -
      (k.withClosest (q - S.pos c).norm).eval q (S.pos i) *
        (V3.dot (unitNormal S i) uq * V3.dot (neighborWeightGrad b) wq +
          V3.dot (neighborWeightGrad b) uq * V3.dot (unitNormal S i) wq) -
      samplePotential q S i * (V3.dot (neighborWeightGrad b) uq *
          V3.dot ((k.withClosest (q - S.pos c).norm).grad q (S.pos i)) wq +
        V3.dot ((k.withClosest (q - S.pos c).norm).grad q (S.pos i)) uq *
          V3.dot (neighborWeightGrad b) wq) -
      (k.withClosest (q - S.pos c).norm).eval q (S.pos i) *
        (samplePotential q S i * qf uq (neighborWeightHess b) wq) +
      samplePotential q S i * (V3.dot (neighborWeightGrad b) uq *
          (2 * (k.withClosest (q - S.pos c).norm).eval q (S.pos i) * V3.dot (neighborWeightGrad b) wq) +
        qf uq ((k.withClosest (q - S.pos c).norm).hess q (S.pos i)) wq) := by
    intro i
    have hv := value_eq b i
    simp only [unitNormal, dot_smul_left] at hv
    simp only [sampleQueryHessian, hv, qf_add, qf_sub, qf_smul, qf_symOuter, qf_outer, dot_smul_left,
      unitNormal]
    rfl
  rw [qf_add, qf_smul, qf_sum]
  simp only [h1, query_algebra]
  have h2 : qf uq b.queryHessian wq = b.weightSumInv *
      (backgroundWeight k P.weighted (q - S.pos c).norm * qf uq b.fieldHess wq +
        if P.weighted then
          V3.dot b.fieldGrad uq * V3.dot (b.bgWeightGrad none) wq +
            V3.dot (b.bgWeightGrad none) uq * V3.dot b.fieldGrad wq -
          backgroundWeight k P.weighted (q - S.pos c).norm *
            (V3.dot (neighborWeightGrad b) uq * V3.dot b.fieldGrad wq +
              V3.dot b.fieldGrad uq * V3.dot (neighborWeightGrad b) wq) -
          b.fieldValue * (V3.dot (neighborWeightGrad b) uq * V3.dot (b.bgWeightGrad none) wq +
              V3.dot (b.bgWeightGrad none) uq * V3.dot (neighborWeightGrad b) wq) +
          2 * b.fieldValue * backgroundWeight k P.weighted (q - S.pos c).norm *
            V3.dot (neighborWeightGrad b) uq * V3.dot (neighborWeightGrad b) wq +
          b.fieldValue * qf uq (b.bgWeightHess none) wq -
          backgroundWeight k P.weighted (q - S.pos c).norm * b.fieldValue *
            qf uq (neighborWeightHess b) wq
        else 0) := by
    have e1 : b.weighted = P.weighted := rfl
    have e2 : b.bgWeight = backgroundWeight k P.weighted (q - S.pos c).norm := rfl
    unfold Bg.queryHessian neighborWeightGrad neighborWeightHess
    rw [e1, e2]
    cases P.weighted with
    | false => simp only [Bool.false_eq_true, if_false, qf_smul, add_zero]
    | true =>
      simp only [if_true, qf_add, qf_sub, qf_smul, qf_symOuter, qf_outer, dot_smul_left]
      ring
  rw [h2, hNN, hN uq, hN wq]
  cases hw : P.weighted with
  | true =>
    simp only [if_true]
    ring
  | false =>
    obtain ⟨g1, g2, g3⟩ := hun hw
    rw [hw] at g3
    simp only [Bool.false_eq_true, if_false, g1, g2, dot_zero_left, qf_zero]
    rcases g3 with g3 | g3
    · rw [g3]
      ring
    · have z1 : (view.map fun i => V3.dot ((k.withClosest (q - S.pos c).norm).grad q (S.pos i)) uq).sum
          = 0 := sum_eq_zero fun i hi => by
        have := (g3 i hi).2.1
        simp only [weightGrad] at this
        rw [this, dot_zero_left]
      have z2 : (view.map fun i => V3.dot ((k.withClosest (q - S.pos c).norm).grad q (S.pos i)) wq).sum
          = 0 := sum_eq_zero fun i hi => by
        have := (g3 i hi).2.1
        simp only [weightGrad] at this
        rw [this, dot_zero_left]
      have z3 : (view.map fun i => qf uq ((k.withClosest (q - S.pos c).norm).hess q (S.pos i)) wq).sum
          = 0 := sum_eq_zero fun i hi => by
        have := (g3 i hi).2.2
        simp only [weightHess] at this
        rw [this, qf_zero]
      rw [z1, z2, z3]
      ring

/-! ## Symmetric matrices given by their lower triangular part -/

open Classical in
/-- Specification: the bilinear form of a symmetric matrix whose lower triangular part is a sum of
blocks. A block off the diagonal also counts for its mirror image. -/
def quadBlocks (B : List HBlock) (u w : ℕ → V3 ℝ) : ℝ :=
  (B.map fun h => if h.row = h.col then V3.dot (u h.row) (M3.mulVec h.val (w h.col))
    else V3.dot (u h.row) (M3.mulVec h.val (w h.col)) +
      V3.dot (u h.col) (M3.mulVec h.val.transpose (w h.row))).sum

open Classical in
theorem quadBlocks_eq (B : List HBlock) (u w : ℕ → V3 ℝ) :
    quadBlocks B u w = (B.map fun h => if h.row = h.col then qf (u h.row) h.val (w h.col)
      else qf (u h.row) h.val (w h.col) + qf (w h.row) h.val (u h.col)).sum := by
  unfold quadBlocks
  congr 1
  refine List.map_congr_left fun h _ => ?_
  have := qf_transpose (u h.col) (w h.row) h.val
  unfold qf at *
  rw [this]

theorem quad_append (B C : List HBlock) (u w : ℕ → V3 ℝ) :
    quadBlocks (B ++ C) u w = quadBlocks B u w + quadBlocks C u w := by
  unfold quadBlocks
  rw [List.map_append, List.sum_append]

theorem quad_nil (u w : ℕ → V3 ℝ) : quadBlocks [] u w = 0 := rfl

theorem sum_flatMap {α β : Type*} (l : List α) (g : α → List β) (f : β → ℝ) :
    ((l.flatMap g).map f).sum = (l.map fun i => ((g i).map f).sum).sum := by
  induction l with
  | nil => rfl
  | cons i l ih => simp only [List.flatMap_cons, List.map_append, List.sum_append, ih, List.map_cons,
      List.sum_cons]

theorem sum_filter {α : Type*} (l : List α) (p : α → Prop) [DecidablePred p] (f : α → ℝ) :
    ((l.filter fun i => p i).map f).sum = (l.map fun i => if p i then f i else 0).sum := by
  induction l with
  | nil => rfl
  | cons i l ih =>
    by_cases h : p i
    · rw [List.filter_cons_of_pos (by simpa using h)]
      simp only [List.map_cons, List.sum_cons, ih, if_pos h]
    · rw [List.filter_cons_of_neg (by simpa using h)]
      simp only [List.map_cons, List.sum_cons, ih, if_neg h, zero_add]

theorem quad_flatMap {α : Type*} (l : List α) (g : α → List HBlock) (u w : ℕ → V3 ℝ) :
    quadBlocks (l.flatMap g) u w = (l.map fun i => quadBlocks (g i) u w).sum := sum_flatMap _ _ _

theorem quad_map {α : Type*} (l : List α) (g : α → HBlock) (u w : ℕ → V3 ℝ) :
    quadBlocks (l.map g) u w = (l.map fun i => quadBlocks [g i] u w).sum := by
  unfold quadBlocks
  rw [List.map_map]
  congr 1
  refine List.map_congr_left fun i _ => ?_
  simp only [Function.comp, List.map_cons, List.map_nil, List.sum_cons, List.sum_nil, add_zero]

theorem quad_scale (a : ℝ) (B : List HBlock) (u w : ℕ → V3 ℝ) :
    quadBlocks (B.map fun h => ⟨h.row, h.col, a • h.val⟩) u w = a * quadBlocks B u w := by
  rw [quadBlocks_eq, quadBlocks_eq, List.map_map, ← List.sum_map_mul_left]
  congr 1
  refine List.map_congr_left fun h _ => ?_
  simp only [Function.comp, qf_smul]
  split <;> ring

theorem quad_single (r c : ℕ) (m : M3 ℝ) (u w : ℕ → V3 ℝ) : quadBlocks [⟨r, c, m⟩] u w =
    open Classical in if r = c then qf (u r) m (w c) else qf (u r) m (w c) + qf (w r) m (u c) := by
  rw [quadBlocks_eq]
  simp

theorem quad_ordered (r c : ℕ) (m : M3 ℝ) (u w : ℕ → V3 ℝ) :
    quadBlocks [orderedBlock r c m] u w = qf (u r) m (w c) + qf (w r) m (u c) := by
  unfold orderedBlock
  rcases lt_trichotomy r c with h | h | h
  · rw [if_neg (by omega), if_pos h, quad_single, if_neg (by omega), qf_transpose, qf_transpose]
    ring
  · subst h
    rw [if_neg (by omega), if_neg (by omega), quad_single, if_pos rfl, qf_add, qf_transpose]
  · rw [if_pos h, quad_single, if_neg (by omega)]

/-- Pairs in a triangle and their mirror images are all pairs. -/
theorem lower_sum {α : Type*} (l : List α) (key : α → ℕ) (F : α → α → ℝ) :
    (l.map fun j => ((l.filter fun i => key i ≤ key j).map fun i =>
      if key j = key i then F j i else F j i + F i j).sum).sum =
    (l.map fun j => (l.map fun i => F j i).sum).sum := by
  have h1 : ∀ j i, (if key i ≤ key j then if key j = key i then F j i else F j i + F i j else 0) =
      (if key i ≤ key j then F j i else 0) + if key i < key j then F i j else 0 := by
    intro j i
    rcases lt_trichotomy (key i) (key j) with h | h | h
    · rw [if_pos h.le, if_neg (by omega), if_pos h.le, if_pos h]
    · rw [if_pos h.le, if_pos h.symm, if_pos h.le, if_neg (by omega), add_zero]
    · rw [if_neg (by omega), if_neg (by omega), if_neg (by omega), add_zero]
  simp only [sum_filter, h1]
  simp only [List.sum_map_add]
  rw [sum_comm l l fun j i => if key i < key j then F i j else 0]
  simp only [← List.sum_map_add]
  congr 1
  refine List.map_congr_left fun j _ => ?_
  congr 1
  refine List.map_congr_left fun i _ => ?_
  by_cases h : key i ≤ key j
  · rw [if_pos h, if_neg (by omega), add_zero]
  · rw [if_neg h, if_pos (by omega), zero_add]

/-- The same for two lists, with both triangles. -/
theorem lower_sum2 {α β : Type*} (l : List α) (m : List β) (kl : α → ℕ) (km : β → ℕ)
    (F G : α → β → ℝ) :
    (l.map fun i => ((m.filter fun j => km j ≤ kl i).map fun j =>
      if kl i = km j then F i j else F i j + G i j).sum).sum +
    (m.map fun j => ((l.filter fun i => kl i ≤ km j).map fun i =>
      if km j = kl i then G i j else G i j + F i j).sum).sum =
    (l.map fun i => (m.map fun j => F i j + G i j).sum).sum := by
  simp only [sum_filter]
  rw [sum_comm m l, ← List.sum_map_add]
  congr 1
  refine List.map_congr_left fun i _ => ?_
  rw [← List.sum_map_add]
  congr 1
  refine List.map_congr_left fun j _ => ?_
  rcases lt_trichotomy (kl i) (km j) with h | h | h
  · rw [if_neg (by omega), if_pos h.le, if_neg (by omega)]
    ring
  · rw [if_pos h.ge, if_pos h, if_pos h.le, if_pos h.symm]
  · rw [if_pos h.le, if_neg (by omega), if_neg (by omega)]
    ring

theorem sum_single (hv : view.Nodup) {i : ℕ} (hi : i ∈ view) (f : ℕ → ℝ) :
    (view.map fun j => if j = i then f j else 0).sum = f i := by
  rw [list_sum_eq hv, Finset.sum_ite_eq', if_pos (List.mem_toFinset.2 hi)]

/-- Pairs of different samples. -/
theorem offDiagonal_sum (hv : view.Nodup) (g : ℕ → ℕ → ℝ) :
    ((offDiagonal view).map fun p => g p.1 p.2 + g p.2 p.1).sum =
      (view.map fun j => (view.map fun i => g j i).sum).sum - (view.map fun i => g i i).sum := by
  unfold offDiagonal
  rw [sum_flatMap]
  simp only [List.map_map, Function.comp_def]
  have h0 : ∀ i : ℕ, ((view.filter fun j => i < j).map fun j => g j i + g i j).sum =
      (view.map fun j => if i < j then g j i else 0).sum +
      (view.map fun j => if i < j then g i j else 0).sum := by
    intro i
    rw [sum_filter, ← List.sum_map_add]
    congr 1
    refine List.map_congr_left fun j _ => ?_
    split <;> simp
  simp only [h0]
  rw [List.sum_map_add, sum_comm view view fun i j => if i < j then g j i else 0, ← List.sum_map_add]
  have h1 : (view.map fun i => g i i).sum =
      (view.map fun i => (view.map fun j => if j = i then g i j else 0).sum).sum := by
    congr 1
    refine List.map_congr_left fun i hi => ?_
    rw [sum_single hv hi]
  rw [h1, eq_sub_iff_add_eq, ← List.sum_map_add]
  congr 1
  refine List.map_congr_left fun i _ => ?_
  rw [← List.sum_map_add, ← List.sum_map_add]
  congr 1
  refine List.map_congr_left fun j _ => ?_
  rcases lt_trichotomy i j with h | h | h
  · rw [if_neg (by omega), if_pos h, if_neg (by omega)]
    ring
  · rw [if_neg (by omega), if_neg (by omega), if_pos h.symm]
    ring
  · rw [if_pos h, if_neg (by omega), if_neg (by omega)]
    ring

/-! ## From samples to vertices -/

/-- The mean of the corners of a triangle. -/
def mean (tris : ℕ → Tri) (u : ℕ → V3 ℝ) (i : ℕ) : V3 ℝ :=
  (1 / 3 : ℝ) • (u (tris i).a + u (tris i).b + u (tris i).c)

theorem corner_sum (f : Fin 3 → ℝ) : ((List.finRange 3).map f).sum = f 0 + f 1 + f 2 := by
  have hfin : List.finRange 3 = [0, 1, 2] := rfl
  simp [hfin]
  ring

theorem mean_quad (tris : ℕ → Tri) (u w : ℕ → V3 ℝ) (j i : ℕ) (m : M3 ℝ) :
    ((List.finRange 3).map fun a => ((List.finRange 3).map fun b =>
      (1 / 9 : ℝ) * qf (u ((tris j).get a)) m (w ((tris i).get b))).sum).sum =
    qf (mean tris u j) m (mean tris w i) := by
  simp only [corner_sum, Tri.get, mean, qf_smul_left, qf_smul_right, qf_add_left, qf_add_right]
  ring

theorem quad_diagonal (tris : ℕ → Tri) (u w : ℕ → V3 ℝ) (i : ℕ) (m : M3 ℝ)
    (hm : ∀ a b, qf a m b = qf b m a) :
    quadBlocks (vertexBlocks tris ⟨i, i, m⟩) u w = qf (mean tris u i) m (mean tris w i) := by
  unfold vertexBlocks
  rw [if_neg (lt_irrefl i), List.append_nil]
  unfold samplesToVertices
  rw [quad_flatMap, ← mean_quad]
  simp only [quad_map, quad_single]
  rw [← lower_sum (List.finRange 3) (tris i).get fun a b =>
    (1 / 9 : ℝ) * qf (u ((tris i).get a)) m (w ((tris i).get b))]
  congr 1
  refine List.map_congr_left fun a _ => ?_
  congr 1
  refine List.map_congr_left fun b _ => ?_
  simp only [qf_smul]
  rw [hm (w ((tris i).get a))]

theorem quad_off (tris : ℕ → Tri) (u w : ℕ → V3 ℝ) (j i : ℕ) (hij : i < j) (m : M3 ℝ) :
    quadBlocks (vertexBlocks tris ⟨j, i, m⟩) u w =
      qf (mean tris u j) m (mean tris w i) + qf (mean tris w j) m (mean tris u i) := by
  unfold vertexBlocks
  rw [if_pos hij, quad_append]
  unfold samplesToVertices
  rw [quad_flatMap, quad_flatMap, ← mean_quad, ← mean_quad]
  simp only [quad_map, quad_single]
  have e : ∀ (f g : Fin 3 → Fin 3 → ℝ), ((List.finRange 3).map fun a => ((List.finRange 3).map fun b =>
      f a b).sum).sum + ((List.finRange 3).map fun a => ((List.finRange 3).map fun b => g a b).sum).sum =
      ((List.finRange 3).map fun a => ((List.finRange 3).map fun b => f a b + g a b).sum).sum := by
    intro f g
    simp only [List.sum_map_add]
  rw [e, ← lower_sum2 (List.finRange 3) (List.finRange 3) (tris j).get (tris i).get
    (fun a b => (1 / 9 : ℝ) * qf (u ((tris j).get a)) m (w ((tris i).get b)))
    (fun a b => (1 / 9 : ℝ) * qf (w ((tris j).get a)) m (u ((tris i).get b)))]
  simp only [qf_smul, qf_transpose]

end Softy.Field
