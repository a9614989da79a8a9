import Verif.Props.FieldHessianNormal

/-!
# Mixed second derivatives: query point and vertices
-/

noncomputable section

namespace Softy.Field

open Softy Softy.Kernel Filter

variable {k : Kern} {P : BgParams} {view : List ℕ} {c : ℕ} {q : V3 ℝ} {S : Samples}

/-! ## Columns -/

theorem mem_firstSeen (l seen : List ℕ) (v : ℕ) : v ∈ firstSeen seen l ↔ v ∈ l ∧ v ∉ seen := by
  induction l generalizing seen with
  | nil => simp [firstSeen]
  | cons a l ih =>
    unfold firstSeen
    by_cases ha : a ∈ seen
    · rw [if_pos ha, ih]
      constructor
      · exact fun h => ⟨List.mem_cons_of_mem _ h.1, h.2⟩
      · rintro ⟨h1, h2⟩
        rcases List.mem_cons.1 h1 with rfl | h1
        · exact absurd ha h2
        · exact ⟨h1, h2⟩
    · rw [if_neg ha, List.mem_cons, ih, List.mem_cons, List.mem_cons]
      constructor
      · rintro (rfl | ⟨h1, h2⟩)
        · exact ⟨Or.inl rfl, ha⟩
        · exact ⟨Or.inr h1, fun h => h2 (Or.inr h)⟩
      · rintro ⟨h1 | h1, h2⟩
        · exact Or.inl h1
        · by_cases hva : v = a
          · exact Or.inl hva
          · exact Or.inr ⟨h1, fun h => h.elim hva h2⟩

theorem nodup_firstSeen (l seen : List ℕ) : (firstSeen seen l).Nodup := by
  induction l generalizing seen with
  | nil => simp [firstSeen]
  | cons a l ih =>
    unfold firstSeen
    by_cases ha : a ∈ seen
    · rw [if_pos ha]
      exact ih seen
    · rw [if_neg ha]
      refine List.nodup_cons.2 ⟨fun h => ?_, ih _⟩
      exact ((mem_firstSeen _ _ _).1 h).2 List.mem_cons_self

theorem corner_mem_cols (tris : ℕ → Tri) {i : ℕ} (hi : i ∈ view) (j : Fin 3) :
    (tris i).get j ∈ firstSeen [] (faceJacobianCols view tris) := by
  rw [mem_firstSeen]
  refine ⟨?_, by simp⟩
  unfold faceJacobianCols
  exact List.mem_flatMap.2 ⟨i, hi, List.mem_map.2 ⟨j, List.mem_finRange j, rfl⟩⟩

/-- Sums over the columns of what each corner adds to its vertex. -/
theorem column_sum {V : List ℕ} (hV : V.Nodup) (tris : ℕ → Tri) (l : List ℕ)
    (hl : ∀ i ∈ l, ∀ j, (tris i).get j ∈ V) (f : ℕ → ℕ → ℝ) :
    (V.map fun v => (l.map fun s => ((List.finRange 3).map fun j =>
      if (tris s).get j = v then f s v else 0).sum).sum).sum =
    (l.map fun s => ((List.finRange 3).map fun j => f s ((tris s).get j)).sum).sum := by
  rw [sum_comm]
  congr 1
  refine List.map_congr_left fun s hs => ?_
  rw [sum_comm]
  congr 1
  refine List.map_congr_left fun j _ => ?_
  rw [← sum_single hV (hl s hs j) (f s)]
  congr 1
  refine List.map_congr_left fun v _ => ?_
  simp only [eq_comm]

theorem position_sum {V : List ℕ} (hV : V.Nodup) (T : Tri) (hT : T.Distinct)
    (hl : ∀ j, T.get j ∈ V) (F : Fin 3 → ℕ → ℝ) :
    (V.map fun v => match T.position v with
      | none => 0
      | some j => F j v).sum = ((List.finRange 3).map fun j => F j (T.get j)).sum := by
  classical
  have h := corners_sum hV T hT (f := fun v => match T.position v with
      | none => 0
      | some j => F j v) (by
    rintro v (rfl | rfl | rfl)
    · exact hl 0
    · exact hl 1
    · exact hl 2)
  have e : (V.map fun v => match T.position v with
      | none => 0
      | some j => F j v) = V.map fun v => if T.Has v then (match T.position v with
      | none => 0
      | some j => F j v) else 0 := by
    refine List.map_congr_left fun v _ => ?_
    by_cases hv : T.Has v
    · rw [if_pos hv]
    · rw [if_neg hv]
      unfold Tri.Has at hv
      push Not at hv
      simp [Tri.position, hv.1.symm, hv.2.1.symm, hv.2.2.symm]
  rw [e, h, corner_sum]
  obtain ⟨hab, hbc, hca⟩ := hT
  simp [Tri.position, Tri.get, hab, hbc, hca.symm]

/-! ## Changes of the weights -/

theorem dot_sum_list (l : List (V3 ℝ)) (y : V3 ℝ) : V3.dot l.sum y = (l.map fun v => V3.dot v y).sum := by
  have := dot_sum l id y
  simpa using this

theorem qf_sum_list (u w : V3 ℝ) (l : List (M3 ℝ)) : qf u l.sum w = (l.map fun m => qf u m w).sum := by
  have := qf_sum u w l id
  simpa using this

theorem qf_neg_right (u w : V3 ℝ) (m : M3 ℝ) : qf u m (-w) = -qf u m w := by
  simp only [qf, V3.dot, M3.mulVec, V3.neg_x, V3.neg_y, V3.neg_z]
  ring

theorem vertexGrad_sum (b : Bg) {V : List ℕ} (hV : V.Nodup) (tris : ℕ → Tri)
    (hl : ∀ i ∈ b.view, ∀ j, (tris i).get j ∈ V) (w : ℕ → V3 ℝ) :
    (V.map fun v => V3.dot (vertexWeightGrad b tris v) (w v)).sum =
      b.weightSumInv * (b.view.map fun s => chB b tris w s + chW b tris w s).sum := by
  have h := column_sum hV tris b.view hl fun s v => -((1 / 3) * b.weightSumInv *
    V3.dot (weightGrad b.kernel b.dist b.q b.S s - b.bgWeightGrad (some s)) (w v))
  have e : (V.map fun v => V3.dot (vertexWeightGrad b tris v) (w v)).sum =
      (V.map fun v => (b.view.map fun s => ((List.finRange 3).map fun j =>
        if (tris s).get j = v then -((1 / 3) * b.weightSumInv *
          V3.dot (weightGrad b.kernel b.dist b.q b.S s - b.bgWeightGrad (some s)) (w v))
        else 0).sum).sum).sum := by
    congr 1
    refine List.map_congr_left fun v _ => ?_
    unfold vertexWeightGrad
    rw [dot_neg_left, dot_sum_list, sum_flatMap]
    simp only [List.map_map, Function.comp_def, sum_filter, dot_smul_left]
    rw [← neg_one_mul, ← List.sum_map_mul_left]
    congr 1
    refine List.map_congr_left fun s _ => ?_
    rw [← List.sum_map_mul_left]
    congr 1
    refine List.map_congr_left fun j _ => ?_
    split <;> simp
  rw [e, h, ← List.sum_map_mul_left]
  congr 1
  refine List.map_congr_left fun s _ => ?_
  simp only [corner_sum]
  unfold chB chW mean
  simp only [dot_sub_left, dot_smul_right, dot_add_right, Tri.get]
  ring

theorem vertexHess_sum (b : Bg) {V : List ℕ} (hV : V.Nodup) (tris : ℕ → Tri)
    (hl : ∀ i ∈ b.view, ∀ j, (tris i).get j ∈ V) (u : V3 ℝ) (w : ℕ → V3 ℝ) :
    (V.map fun v => qf u (vertexWeightHess b tris v) (w v)).sum =
      -(b.weightSumInv * (b.view.map fun s =>
        qf u (weightHess b.kernel b.dist b.q b.S s) (mean tris w s) +
          qf u (b.bgWeightHess (some s)) (mean tris w s)).sum) := by
  have h := column_sum hV tris b.view hl fun s v => -((1 / 3) * b.weightSumInv *
    qf u (weightHess b.kernel b.dist b.q b.S s + b.bgWeightHess (some s)) (w v))
  have e : (V.map fun v => qf u (vertexWeightHess b tris v) (w v)).sum =
      (V.map fun v => (b.view.map fun s => ((List.finRange 3).map fun j =>
        if (tris s).get j = v then -((1 / 3) * b.weightSumInv *
          qf u (weightHess b.kernel b.dist b.q b.S s + b.bgWeightHess (some s)) (w v))
        else 0).sum).sum).sum := by
    congr 1
    refine List.map_congr_left fun v _ => ?_
    unfold vertexWeightHess
    rw [qf_neg, qf_sum_list, sum_flatMap]
    simp only [List.map_map, Function.comp_def, sum_filter, qf_smul]
    rw [← neg_one_mul, ← List.sum_map_mul_left]
    congr 1
    refine List.map_congr_left fun s _ => ?_
    rw [← List.sum_map_mul_left]
    congr 1
    refine List.map_congr_left fun j _ => ?_
    split <;> simp
  rw [e, h, ← neg_mul, ← List.sum_map_mul_left]
  congr 1
  refine List.map_congr_left fun s _ => ?_
  simp only [corner_sum]
  unfold mean
  simp only [qf_add, qf_smul_right, qf_add_right, Tri.get]
  ring

/-! ## The blocks -/

/-- What a block of the mixed Hessian gives for a sample: the part of all vertices. -/
def mixedAll (b : Bg) (u : V3 ℝ) (s : ℕ) (D DD : ℝ) : ℝ :=
  -(ps b s * (b.weightSumInv * (V3.dot (weightGrad b.kernel b.dist b.q b.S s) u -
      wt b s * V3.dot (neighborWeightGrad b) u)) +
    b.weightSumInv * (wt b s * V3.dot (unitNormal b.S s) u)) * D +
  b.weightSumInv * (ps b s * (wt b s * (V3.dot (neighborWeightGrad b) u * D - DD)))

/-- The part of the corners of the sample. -/
def mixedCorner (b : Bg) (x : ℕ → V3 ℝ) (tris : ℕ → Tri) (u : V3 ℝ) (s : ℕ) (j : Fin 3) (y : V3 ℝ) : ℝ :=
  b.weightSumInv * (V3.dot (weightGrad b.kernel b.dist b.q b.S s) u -
      wt b s * V3.dot (neighborWeightGrad b) u) *
    (V3.dot (M3.mulVec (faceUnitNormalGrad x tris b.S s j) (b.q - b.S.pos s)) y -
      1 / 3 * V3.dot (unitNormal b.S s) y) +
  b.weightSumInv * (1 / 3 * (ps b s * (-qf u (weightHess b.kernel b.dist b.q b.S s) y +
      V3.dot (neighborWeightGrad b) u * V3.dot (weightGrad b.kernel b.dist b.q b.S s) y)) -
    V3.dot (unitNormal b.S s) u * (1 / 3 * V3.dot (weightGrad b.kernel b.dist b.q b.S s) y) +
    wt b s * V3.dot (M3.mulVec (faceUnitNormalGrad x tris b.S s j) u) y)

theorem qf_component (b : Bg) (x : ℕ → V3 ℝ) (tris : ℕ → Tri) (v s : ℕ) (u y : V3 ℝ) :
    qf u (sampleQueryHessianComponent b x tris v s) y =
      mixedAll b u s (V3.dot (vertexWeightGrad b tris v) y) (qf u (vertexWeightHess b tris v) y) +
      match (tris s).position v with
      | none => 0
      | some j => mixedCorner b x tris u s j y := by
  have hv := value_eq b s
  unfold sampleQueryHessianComponent
  cases (tris s).position v with
  | none =>
    simp only [hv, qf_add, qf_sub, qf_smul, qf_outer, dot_neg_left, dot_add_left, dot_smul_left,
      dot_sub_left]
    unfold mixedAll wt ps
    ring
  | some j =>
    simp only [hv, qf_add, qf_sub, qf_neg, qf_smul, qf_outer, dot_neg_left, dot_add_left, dot_smul_left,
      dot_sub_left, qf_transpose]
    unfold mixedAll mixedCorner wt ps
    have : qf y (faceUnitNormalGrad x tris b.S s j) u =
      V3.dot (M3.mulVec (faceUnitNormalGrad x tris b.S s j) u) y := dot_symm _ _
    rw [this]
    ring

theorem mixedCorner_sum (b : Bg) (x : ℕ → V3 ℝ) (tris : ℕ → Tri) (u : V3 ℝ) (s : ℕ) (w : ℕ → V3 ℝ) :
    ((List.finRange 3).map fun j => mixedCorner b x tris u s j (w ((tris s).get j))).sum =
    b.weightSumInv * (V3.dot (weightGrad b.kernel b.dist b.q b.S s) u -
        wt b s * V3.dot (neighborWeightGrad b) u) * (chV b x tris w s - chN b tris w s) +
    b.weightSumInv * (ps b s * (-qf u (weightHess b.kernel b.dist b.q b.S s) (mean tris w s) -
        V3.dot (neighborWeightGrad b) u * chW b tris w s) +
      V3.dot (unitNormal b.S s) u * chW b tris w s +
      wt b s * V3.dot (M3.mulVec (sampleProjection b.S s) (areaNormalDir x (tris s) w)) u) := by
  have h1 := unitGrad_sum b x tris w s (b.q - b.S.pos s)
  have h2 := unitGrad_sum b x tris w s u
  rw [dot_symm (M3.mulVec (sampleProjection b.S s) (areaNormalDir x (tris s) w)) u, ← h2]
  unfold chV chN chW
  rw [← h1]
  simp only [corner_sum, mixedCorner, mean, dot_smul_right, dot_add_right, qf_smul_right, qf_add_right,
    Tri.get]
  ring

theorem mixedAll_sum (b : Bg) (u : V3 ℝ) (s : ℕ) (V : List ℕ) (f g : ℕ → ℝ) :
    (V.map fun v => mixedAll b u s (f v) (g v)).sum = mixedAll b u s (V.map f).sum (V.map g).sum := by
  unfold mixedAll
  induction V with
  | nil => simp
  | cons v V ih =>
    simp only [List.map_cons, List.sum_cons]
    rw [ih]
    ring

/-- The background adds nothing to the potential: its value is zero, or it does not count. -/
def Silent (k : Kern) (P : BgParams) (dist : ℝ) : Prop :=
  P.fieldType ≠ .distanceBased ∨ ¬ Counts k P dist

theorem mixed_algebra (l : List ℕ) (wsi w0 psi0 a0 b0 a0' b0' aa0 bb0 : ℝ)
    (w psi a b a' b' aa bb : ℕ → ℝ)
    (h0 : (w0 = 0 ∧ a0 = 0 ∧ a0' = 0 ∧ aa0 = 0) ∨ (psi0 = 0 ∧ b0 = 0 ∧ b0' = 0 ∧ bb0 = 0)) :
    (l.map fun s => -(psi s * (wsi * (a s - w s * (wsi * ((l.map a).sum + a0)))) + wsi * (w s * b s)) *
        (wsi * (a0' + (l.map a').sum)) +
      wsi * (psi s * (w s * (wsi * ((l.map a).sum + a0) * (wsi * (a0' + (l.map a').sum)) -
        wsi * ((l.map aa).sum + aa0)))) +
      (wsi * (a s - w s * (wsi * ((l.map a).sum + a0))) * b' s +
        wsi * (psi s * (aa s - wsi * ((l.map a).sum + a0) * a' s) + b s * a' s + w s * bb s))).sum =
    wsi * (aa0 * psi0 + a0 * b0' + a0' * b0 + w0 * bb0 +
        (l.map fun i => aa i * psi i + a i * b' i + a' i * b i + w i * bb i).sum) -
      wsi * wsi * (a0 * psi0 + w0 * b0 + (l.map fun i => a i * psi i + w i * b i).sum) *
        (a0' + (l.map a').sum) -
      wsi * wsi * (a0' * psi0 + w0 * b0' + (l.map fun i => a' i * psi i + w i * b' i).sum) *
        (a0 + (l.map a).sum) -
      wsi * wsi * (w0 * psi0 + (l.map fun i => w i * psi i).sum) * (aa0 + (l.map aa).sum) +
      2 * (wsi * wsi * wsi) * (w0 * psi0 + (l.map fun i => w i * psi i).sum) * (a0 + (l.map a).sum) *
        (a0' + (l.map a').sum) := by
  generalize (l.map a).sum = A
  generalize (l.map a').sum = A'
  generalize (l.map aa).sum = AA
  have key : ∀ m : List ℕ,
    (m.map fun s => -(psi s * (wsi * (a s - w s * (wsi * (A + a0)))) + wsi * (w s * b s)) *
        (wsi * (a0' + A')) +
      wsi * (psi s * (w s * (wsi * (A + a0) * (wsi * (a0' + A')) - wsi * (AA + aa0)))) +
      (wsi * (a s - w s * (wsi * (A + a0))) * b' s +
        wsi * (psi s * (aa s - wsi * (A + a0) * a' s) + b s * a' s + w s * bb s))).sum =
    wsi * (m.map fun i => aa i * psi i + a i * b' i + a' i * b i + w i * bb i).sum -
      wsi * wsi * (m.map fun i => a i * psi i + w i * b i).sum * (a0' + A') -
      wsi * wsi * (m.map fun i => a' i * psi i + w i * b' i).sum * (a0 + A) -
      wsi * wsi * (m.map fun i => w i * psi i).sum * (aa0 + AA) +
      2 * (wsi * wsi * wsi) * (m.map fun i => w i * psi i).sum * (a0 + A) * (a0' + A') := by
    intro m
    induction m with
    | nil => simp
    | cons i m ih =>
      simp only [List.map_cons, List.sum_cons]
      rw [ih]
      ring
  rw [key]
  rcases h0 with ⟨r1, r2, r3, r4⟩ | ⟨r1, r2, r3, r4⟩
  · subst r1 r2 r3 r4
    ring
  · subst r1 r2 r3 r4
    ring

theorem unitNormal2_left (S : Samples) (i : ℕ) (n' : V3 ℝ) : unitNormal2 S i 0 n' 0 = 0 := by
  unfold unitNormal2
  rw [projection_zero, dot_zero_right, dot_zero_right]
  ext <;> simp

/-- The blocks of the mixed Hessian are the second derivative of the average as the query point and the
vertices move, where the background adds nothing. -/
theorem mixed_form (h : Smooth k P q view S c) (hs : Silent k P (q - S.pos c).norm) (x : ℕ → V3 ℝ)
    (tris : ℕ → Tri) (hd : ∀ i ∈ view, (tris i).Distinct) (u : V3 ℝ) (w : ℕ → V3 ℝ) :
    ((firstSeen [] (faceJacobianCols view tris)).map fun v => qf u
      (view.map (sampleQueryHessianComponent (bgAt k P q view S c none) x tris v)).sum (w v)).sum =
      secondForm (terms view) (termW (k.withClosest (q - S.pos c).norm) k P q S c)
        (termPsi k P q view S c)
        (termA (k.withClosest (q - S.pos c).norm) k P q view S c fun _ => u)
        (termB k P q view S c (fun _ => u) fun _ => 0)
        (termA (k.withClosest (q - S.pos c).norm) k P q view S c fun i => -mean tris w i)
        (termB k P q view S c (fun i => -mean tris w i) fun i => areaNormalDir x (tris i) w)
        (termAA (k.withClosest (q - S.pos c).norm) k P q view S c (fun _ => u) fun i => -mean tris w i)
        (termBB k P q view S c (fun _ => u) (fun _ => 0) (fun i => -mean tris w i)
          (fun i => areaNormalDir x (tris i) w) fun _ => 0) := by
  classical
  set b := bgAt k P q view S c none with hb
  set V := firstSeen [] (faceJacobianCols view tris) with hVd
  have hV : V.Nodup := nodup_firstSeen _ _
  have hl : ∀ i ∈ view, ∀ j, (tris i).get j ∈ V := fun i hi j => corner_mem_cols tris hi j
  have hview : b.view = view := rfl
  have hB : ∀ f : ℕ → ℝ, (∀ i, i ≠ c → f i = 0) → (view.map f).sum = f c := by
    intro f hf
    rw [← sum_single h.nodup h.mem f]
    congr 1
    refine List.map_congr_left fun i _ => ?_
    split
    · rfl
    · exact hf i (by assumption)
  have hBc : V3.dot (b.bgWeightGrad none) (-mean tris w c) = chB b tris w c := by
    unfold chB
    rw [hb, bgWeightGrad_sample, if_pos rfl, dot_neg', dot_neg_left]
  have hD : (V.map fun v => V3.dot (vertexWeightGrad b tris v) (w v)).sum = b.weightSumInv *
      (V3.dot (b.bgWeightGrad none) (-mean tris w c) + (view.map fun s => chW b tris w s).sum) := by
    rw [vertexGrad_sum b hV tris hl, List.sum_map_add, hview, hBc, hB fun s => chB b tris w s]
    intro i hi
    unfold chB
    rw [hb, bgWeightGrad_sample, if_neg hi, dot_zero_left]
  have hDD : (V.map fun v => qf u (vertexWeightHess b tris v) (w v)).sum = b.weightSumInv *
      ((view.map fun s => -qf u (weightHess b.kernel b.dist b.q b.S s) (mean tris w s)).sum +
        -qf u (b.bgWeightHess none) (mean tris w c)) := by
    rw [vertexHess_sum b hV tris hl, List.sum_map_add, hview,
      hB fun s => qf u (b.bgWeightHess (some s)) (mean tris w s)]
    · have : (view.map fun s => -qf u (weightHess b.kernel b.dist b.q b.S s) (mean tris w s)).sum =
          -(view.map fun s => qf u (weightHess b.kernel b.dist b.q b.S s) (mean tris w s)).sum := by
        have := sum_sub view (fun _ => 0) fun s => qf u (weightHess b.kernel b.dist b.q b.S s) (mean tris w s)
        simpa using this
      rw [this, hb, bgWeightHess_sample, if_pos rfl]
      ring
    · intro i hi
      rw [hb, bgWeightHess_sample, if_neg hi, qf_zero]
  have hα : V3.dot (neighborWeightGrad b) u = b.weightSumInv *
      ((view.map fun s => V3.dot (weightGrad b.kernel b.dist b.q b.S s) u).sum +
        V3.dot (b.bgWeightGrad none) u) := by
    unfold neighborWeightGrad
    rw [dot_smul_left, dot_add_left, dot_sum, hview]
  -- sum over columns
  have hsum : (V.map fun v => qf u (view.map (sampleQueryHessianComponent b x tris v)).sum (w v)).sum =
      (view.map fun s => mixedAll b u s (V.map fun v => V3.dot (vertexWeightGrad b tris v) (w v)).sum
          (V.map fun v => qf u (vertexWeightHess b tris v) (w v)).sum +
        ((List.finRange 3).map fun j => mixedCorner b x tris u s j (w ((tris s).get j))).sum).sum := by
    simp only [qf_sum]
    rw [sum_comm]
    congr 1
    refine List.map_congr_left fun s hs' => ?_
    simp only [qf_component]
    rw [List.sum_map_add]
    congr 1
    · exact mixedAll_sum _ _ _ _ _ _
    · exact position_sum hV (tris s) (hd s hs') (hl s hs') fun j v => mixedCorner b x tris u s j (w v)
  rw [hsum, hD, hDD]
  simp only [mixedCorner_sum]
  unfold mixedAll
  rw [hα]
  have h0 : (backgroundWeight k P.weighted (q - S.pos c).norm = 0 ∧ V3.dot (b.bgWeightGrad none) u = 0 ∧
      V3.dot (b.bgWeightGrad none) (-mean tris w c) = 0 ∧
      -qf u (b.bgWeightHess none) (mean tris w c) = 0) ∨
      (b.fieldValue = 0 ∧ V3.dot b.fieldGrad u = 0 ∧ V3.dot b.fieldGrad (-mean tris w c) = 0 ∧
        qf u b.fieldHess (-mean tris w c) = 0) := by
    rcases hs with hs | hs
    · right
      have : b.value.isDistance = false := by
        rw [hb]
        simp only [bgAt, Bg.newImpl]
        cases hP : P.fieldType <;> simp_all [BgValue.new, BgValue.isDistance]
      obtain ⟨g1, g2, g3⟩ := field_trivial q S this
      rw [← hb] at g1 g2 g3
      rw [g1, g2, g3]
      simp [dot_zero_left, qf_zero]
    · left
      obtain ⟨g1, g2, g3⟩ := background_null (q := fun _ => q) (S := fun _ => S) (t := 0) (view := view) hs
      rw [← hb] at g2 g3
      rw [g1, g2, g3]
      simp [dot_zero_left, qf_zero]
  refine (mixed_algebra view b.weightSumInv _ _ _ _ _ _ _ _ (wt b) (ps b)
    (fun s => V3.dot (weightGrad b.kernel b.dist b.q b.S s) u)
    (fun s => V3.dot (unitNormal b.S s) u) (fun s => chW b tris w s)
    (fun s => chV b x tris w s - chN b tris w s)
    (fun s => -qf u (weightHess b.kernel b.dist b.q b.S s) (mean tris w s))
    (fun s => V3.dot (M3.mulVec (sampleProjection b.S s) (areaNormalDir x (tris s) w)) u) h0).trans ?_
  unfold secondForm terms
  simp only [List.map_cons, List.sum_cons, List.map_map, Function.comp_def, termW, termPsi, termA, termB,
    termAA, termBB, projection_zero, unitNormal2_left, dot_zero_right, dot_zero_left, add_zero]
  have hwsi : b.weightSumInv = (backgroundWeight k P.weighted (q - S.pos c).norm +
      (view.map fun i => (k.withClosest (q - S.pos c).norm).eval q (S.pos i)).sum)⁻¹ := by
    rw [add_comm]
    exact weightSumInv_eq _
  rw [← hwsi]
  have hA : ∀ i, V3.dot ((k.withClosest (q - S.pos c).norm).grad q (S.pos i)) (-mean tris w i) =
      chW b tris w i := fun i => dot_neg' _ _
  have hA' : ∀ i, V3.dot ((k.withClosest (q - S.pos c).norm).grad q (S.pos i)) u =
      V3.dot (weightGrad b.kernel b.dist b.q b.S i) u := fun _ => rfl
  have hN : ∀ i, V3.dot (unitNormal S i) (-mean tris w i) = -chN b tris w i := fun i => dot_neg' _ _
  have hN' : ∀ i, V3.dot (unitNormal S i) u = V3.dot (unitNormal b.S i) u := fun _ => rfl
  have hAA : ∀ i, qf u ((k.withClosest (q - S.pos c).norm).hess q (S.pos i)) (-mean tris w i) =
      -qf u (weightHess b.kernel b.dist b.q b.S i) (mean tris w i) := fun i => qf_neg_right _ _ _
  have hw' : ∀ i, (k.withClosest (q - S.pos c).norm).eval q (S.pos i) = wt b i := fun _ => rfl
  have hp' : ∀ i, samplePotential q S i = ps b i := fun _ => rfl
  have hV' : ∀ i, V3.dot (q - S.pos i) (M3.mulVec (sampleProjection S i)
      (areaNormalDir x (tris i) w)) = chV b x tris w i := fun _ => rfl
  have hP : ∀ i, M3.mulVec (sampleProjection S i) (areaNormalDir x (tris i) w) =
      M3.mulVec (sampleProjection b.S i) (areaNormalDir x (tris i) w) := fun _ => rfl
  simp only [← hb]
  simp only [hA, hA', hN, hN', hAA, hw', hp', hV', qf_neg_right, neg_add_eq_sub]
  rfl

end Softy.Field
