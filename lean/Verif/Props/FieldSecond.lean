import Verif.Props.FieldHessianMixed

/-!
# C78: Hessians of the potential

The Hessians of the potential are the derivatives of its Jacobians.
-/

noncomputable section

namespace Softy.Field

open Softy Softy.Kernel Filter

variable {k : Kern} {P : BgParams} {view : List ℕ} {c : ℕ} {t : ℝ}

/-! ## Directions add up -/

section Split

variable {K : Kern} {q : V3 ℝ} {S : Samples}

theorem termA_add (e f : ℕ → V3 ℝ) : termA K k P q view S c (fun i => e i + f i) =
    fun i => termA K k P q view S c e i + termA K k P q view S c f i := by
  funext i
  cases i <;> simp only [termA, dot_add_right]

theorem termB_add (e f m n : ℕ → V3 ℝ) :
    termB k P q view S c (fun i => e i + f i) (fun i => m i + n i) =
      fun i => termB k P q view S c e m i + termB k P q view S c f n i := by
  funext i
  cases i <;> simp only [termB, dot_add_right, M3.mulVec_vadd]
  ring

theorem termAA_add_left (e f e' : ℕ → V3 ℝ) : termAA K k P q view S c (fun i => e i + f i) e' =
    fun i => termAA K k P q view S c e e' i + termAA K k P q view S c f e' i := by
  funext i
  cases i <;> simp only [termAA, qf_add_left]

theorem termAA_add_right (e e' f' : ℕ → V3 ℝ) : termAA K k P q view S c e (fun i => e' i + f' i) =
    fun i => termAA K k P q view S c e e' i + termAA K k P q view S c e f' i := by
  funext i
  cases i <;> simp only [termAA, qf_add_right]

theorem unitNormal2_add_left (S : Samples) (i : ℕ) (m n n' mm nn : V3 ℝ) :
    unitNormal2 S i (m + n) n' (mm + nn) = unitNormal2 S i m n' mm + unitNormal2 S i n n' nn := by
  unfold unitNormal2
  simp only [M3.mulVec_vadd, dot_add_right]
  ext <;> simp <;> ring

theorem unitNormal2_symm (S : Samples) (i : ℕ) (m n' mm : V3 ℝ) :
    unitNormal2 S i m n' mm = unitNormal2 S i n' m mm := by
  unfold unitNormal2
  rw [dot_projection, dot_symm (M3.mulVec (sampleProjection S i) n') m]
  congr 2
  ext <;> simp <;> ring

theorem unitNormal2_add_right (S : Samples) (i : ℕ) (m n' l' mm nn : V3 ℝ) :
    unitNormal2 S i m (n' + l') (mm + nn) = unitNormal2 S i m n' mm + unitNormal2 S i m l' nn := by
  rw [unitNormal2_symm, unitNormal2_add_left, unitNormal2_symm, unitNormal2_symm S i l']

theorem termBB_add_left (e f m n e' n' mm nn : ℕ → V3 ℝ) :
    termBB k P q view S c (fun i => e i + f i) (fun i => m i + n i) e' n' (fun i => mm i + nn i) =
      fun i => termBB k P q view S c e m e' n' mm i + termBB k P q view S c f n e' n' nn i := by
  funext i
  cases i
  · simp only [termBB, qf_add_left]
  · simp only [termBB, dot_add_right, dot_add_left, M3.mulVec_vadd, unitNormal2_add_left]
    ring

theorem termBB_add_right (e m e' f' n' l' mm nn : ℕ → V3 ℝ) :
    termBB k P q view S c e m (fun i => e' i + f' i) (fun i => n' i + l' i) (fun i => mm i + nn i) =
      fun i => termBB k P q view S c e m e' n' mm i + termBB k P q view S c e m f' l' nn i := by
  funext i
  cases i
  · simp only [termBB, qf_add_right]
  · simp only [termBB, dot_add_right, dot_add_left, M3.mulVec_vadd, unitNormal2_add_right]
    ring

theorem termAA_symm (e e' : ℕ → V3 ℝ) : termAA K k P q view S c e e' = termAA K k P q view S c e' e := by
  funext i
  cases i
  · simp only [termAA]
    exact bgWeightHess_symm _ _ _ _
  · simp only [termAA]
    exact hess_symm _ _ _ _ _

theorem termBB_symm (e m e' n' mm : ℕ → V3 ℝ) :
    termBB k P q view S c e m e' n' mm = termBB k P q view S c e' n' e m mm := by
  funext i
  cases i
  · simp only [termBB]
    exact fieldHess_symm _ _ _
  · simp only [termBB]
    rw [unitNormal2_symm]
    ring

/-- The second derivative of the average in two directions. -/
def pathForm (K k : Kern) (P : BgParams) (q : V3 ℝ) (view : List ℕ) (S : Samples) (c : ℕ)
    (e m e' n' mm : ℕ → V3 ℝ) : ℝ :=
  secondForm (terms view) (termW K k P q S c) (termPsi k P q view S c) (termA K k P q view S c e)
    (termB k P q view S c e m) (termA K k P q view S c e') (termB k P q view S c e' n')
    (termAA K k P q view S c e e') (termBB k P q view S c e m e' n' mm)

theorem pathForm_add_left (e f m n e' n' mm nn : ℕ → V3 ℝ) :
    pathForm K k P q view S c (fun i => e i + f i) (fun i => m i + n i) e' n' (fun i => mm i + nn i) =
      pathForm K k P q view S c e m e' n' mm + pathForm K k P q view S c f n e' n' nn := by
  unfold pathForm
  rw [termA_add, termB_add, termAA_add_left, termBB_add_left, secondForm_add_left]

theorem pathForm_symm (e m e' n' mm : ℕ → V3 ℝ) :
    pathForm K k P q view S c e m e' n' mm = pathForm K k P q view S c e' n' e m mm := by
  unfold pathForm
  rw [secondForm_symm, termAA_symm, termBB_symm]

theorem pathForm_add_right (e m e' f' n' l' mm nn : ℕ → V3 ℝ) :
    pathForm K k P q view S c e m (fun i => e' i + f' i) (fun i => n' i + l' i) (fun i => mm i + nn i) =
      pathForm K k P q view S c e m e' n' mm + pathForm K k P q view S c e m f' l' nn := by
  rw [pathForm_symm, pathForm_add_left, pathForm_symm, pathForm_symm f']

end Split

/-! ## Query points -/

theorem query_jacobian_form {q : V3 ℝ} {S : Samples} (cl : Option ℕ) (h : Regular k P q view S c)
    (uq : V3 ℝ) :
    ∃ Q, queryJacobianAt q view S cl k P = some Q ∧ V3.dot Q uq =
      firstForm (terms view) (termW (k.withClosest (q - S.pos c).norm) k P q S c)
        (termPsi k P q view S c) (termA (k.withClosest (q - S.pos c).norm) k P q view S c fun _ => uq)
        (termB k P q view S c (fun _ => uq) fun _ => 0) := by
  have hq : HasD (fun s => q + s • uq) uq 0 := HasD.line _ _
  have hq0 : q + (0 : ℝ) • uq = q := by ext <;> simp
  have hreg : Regular k P ((fun s : ℝ => q + s • uq) 0) view S c := by
    simp only [hq0]
    exact h
  obtain ⟨Q, hQ, hd⟩ := query_jacobian (old := 0) (fun s : ℝ => q + s • uq) uq S cl hreg hq
  have h1 := potential_average (old := 0) (q := fun s : ℝ => q + s • uq) (q' := uq) (S := fun _ => S)
    (p' := fun _ => 0) (n' := fun _ => 0) hreg hq (fun _ _ => HasD.const _) (fun _ _ => HasD.const _)
    (fun _ _ _ => rfl)
  have e := hd.unique h1
  simp only [hq0] at e hQ
  refine ⟨Q, hQ, e.trans ?_⟩
  unfold firstForm terms
  simp only [List.map_cons, List.sum_cons, List.map_map, Function.comp_def, termW, termPsi, termA, termB,
    fieldValue_none]
  rw [fieldGrad_eq (some 0) none, bgWeightGrad_eq (some 0) none]
  simp only [unitNormal, sampleProjection]
  unfold weight weightGrad
  simp only [sub_zero]
  ring

/-- C78 for query points: the Hessian with respect to the query point is the derivative of the Jacobian
with respect to the query point, as the query point moves. -/
theorem query_hessian (q : ℝ → V3 ℝ) (q' : V3 ℝ) (S : Samples) (cl : Option ℕ)
    (h : Smooth k P (q t) view S c) (hq : HasD q q' t) :
    ∃ H, queryHessianAt (q t) view S k P = some H ∧
      HasD (fun s => (queryJacobianAt (q s) view S cl k P).getD 0) (M3.mulVec H q') t := by
  obtain ⟨hcl, -⟩ := regular_weighable (q := q) (S := fun _ => S) (t := t) h.toRegular
  refine ⟨_, by unfold queryHessianAt; rw [local_eq none hcl]; rfl, ?_⟩
  set H : M3 ℝ := _ with hH
  have key : ∀ uq, HasDerivAt (fun s => V3.dot uq ((queryJacobianAt (q s) view S cl k P).getD 0))
      (V3.dot uq (M3.mulVec H q')) t := by
    intro uq
    have hform := query_form h uq q'
    have hev := h.eventually (q := q) (S := fun _ => S) (p' := fun _ => 0) (n' := fun _ => 0) hq
      (fun _ _ => HasD.const _) (fun _ _ => HasD.const _)
    have hfr := form_frozen (q := q) (S := fun _ => S) (p' := fun _ => 0) (n' := fun _ => 0) h hq
      (fun _ _ => HasD.const _) (fun _ _ => HasD.const _) (fun _ => uq) fun _ _ => 0
    have hd := form_hasDeriv (q := q) (S := fun _ => S) (p' := fun _ => 0) (n' := fun _ => 0) h hq
      (fun _ _ => HasD.const _) (fun _ _ => HasD.const _) (fun _ _ _ => rfl) (fun _ => uq)
      (m := fun _ _ => 0) (mm := fun _ => 0) (fun _ _ => HasD.const _)
    simp only [sub_zero] at hd
    rw [← hform] at hd
    refine hd.congr_of_eventuallyEq ?_
    filter_upwards [hev, hfr] with s hs hf
    obtain ⟨Q, hQ, e⟩ := query_jacobian_form cl hs.toRegular uq
    rw [hQ, Option.getD_some, dot_symm, e]
    exact hf
  refine ⟨?_, ?_, ?_⟩
  · simpa [V3.dot] using key ⟨1, 0, 0⟩
  · simpa [V3.dot] using key ⟨0, 1, 0⟩
  · simpa [V3.dot] using key ⟨0, 0, 1⟩

/-! ## Surfaces -/

theorem means_eq (tris : ℕ → Tri) (u : ℕ → V3 ℝ) (uq : V3 ℝ) :
    (fun i => uq - (1 / 3 : ℝ) • (u (tris i).a + u (tris i).b + u (tris i).c)) =
      fun i => uq + -mean tris u i := by
  funext i
  rw [sub_eq_add_neg]
  rfl

theorem mulVec_hasD (m : M3 ℝ) {f : ℝ → V3 ℝ} {f' : V3 ℝ} (hf : HasD f f' t) :
    HasD (fun s => M3.mulVec m (f s)) (M3.mulVec m f') t := by
  have key : ∀ r : V3 ℝ, HasDerivAt (fun s => V3.dot r (f s)) (V3.dot r f') t := fun r => by
    refine ((HasD.const r).dot hf).congr_deriv ?_
    rw [dot_zero_left, zero_add]
  exact ⟨key _, key _, key _⟩

/-- The derivative of the Jacobians as query point and vertices move. -/
theorem jacobian_path (q : ℝ → V3 ℝ) (q' : V3 ℝ) (tris : ℕ → Tri) (value : ℕ → ℝ)
    (x : ℝ → ℕ → V3 ℝ) (x' : ℕ → V3 ℝ) (cl : Option ℕ) (hq : HasD q q' t)
    (hx : ∀ v, HasD (fun s => x s v) (x' v) t)
    (h : Smooth k P (q t) view (faceSamples tris (x t) value) c) (uq : V3 ℝ) (u : ℕ → V3 ℝ) :
    HasDerivAt (fun s =>
        V3.dot ((queryJacobianAt (q s) view (faceSamples tris (x s) value) cl k P).getD 0) uq +
        applyBlocks ((faceJacobianAt (q s) view (faceSamples tris (x s) value) k tris (x s) P).getD [])
          (faceJacobianCols view tris) u)
      (pathForm (k.withClosest (q t - (faceSamples tris (x t) value).pos c).norm) k P (q t) view
        (faceSamples tris (x t) value) c
        (fun i => uq + -mean tris u i) (fun i => 0 + areaNormalDir (x t) (tris i) u)
        (fun i => q' + -mean tris x' i) (fun i => 0 + areaNormalDir (x t) (tris i) x')
        fun i => 0 + areaNormalDir x' (tris i) u) t := by
  have hp : ∀ i ∈ view, HasD (fun s => (faceSamples tris (x s) value).pos i) (mean tris x' i) t :=
    fun i _ => by
      have h1 := ((hx (tris i).a).add (hx (tris i).b)).add (hx (tris i).c)
      have h2 := HasD.smul (hasDerivAt_const t (1 / 3 : ℝ)) h1
      refine h2.congr ?_
      ext <;> simp [mean]
  have hn : ∀ i ∈ view, HasD (fun s => (faceSamples tris (x s) value).nml i)
      (areaNormalDir (x t) (tris i) x') t := fun i _ => areaNormal_hasD (tris i) hx
  have hm : ∀ i ∈ view, HasD (fun s => areaNormalDir (x s) (tris i) u)
      (areaNormalDir x' (tris i) u) t := fun i _ => by
    have e : ∀ s, areaNormalDir (x s) (tris i) u = areaNormalDir u (tris i) (x s) := fun s =>
      areaNormalDir_symm _ _ _
    have e' : areaNormalDir x' (tris i) u = areaNormalDir u (tris i) x' := areaNormalDir_symm _ _ _
    simp only [e, e']
    exact ((mulVec_hasD _ (hx _)).add (mulVec_hasD _ (hx _))).add (mulVec_hasD _ (hx _))
  have hev := h.eventually (q := q) (S := fun s => faceSamples tris (x s) value) hq hp hn
  have hfr := form_frozen (q := q) (S := fun s => faceSamples tris (x s) value) h hq hp hn
    (fun i => uq + -mean tris u i) fun s i => areaNormalDir (x s) (tris i) u
  have hd := form_hasDeriv (q := q) (S := fun s => faceSamples tris (x s) value) h hq hp hn
    (fun _ _ _ => rfl) (fun i => uq + -mean tris u i) (m := fun s i => areaNormalDir (x s) (tris i) u)
    (mm := fun i => areaNormalDir x' (tris i) u) hm
  simp only [sub_eq_add_neg q'] at hd
  simp only [zero_add]
  refine HasDerivAt.congr_of_eventuallyEq hd ?_
  filter_upwards [hev, hfr] with s hs hf
  obtain ⟨Q, J, hQ, hJ, e⟩ := jacobian_form cl hs.toRegular uq u
  rw [hQ, hJ, Option.getD_some, Option.getD_some, e, means_eq]
  exact hf

theorem faceHessian_eq {q : V3 ℝ} {S : Samples} (tris : ℕ → Tri) (x : ℕ → V3 ℝ) (lam : ℝ)
    (h : closestSample q S view = some c) : faceHessianAt q view S k tris x P lam =
      some ((normalHessianAt (bgAt k P q view S c none) x tris ++
        (sampleHessianAt (bgAt k P q view S c none)).flatMap (vertexBlocks tris)).map fun h =>
          ⟨h.row, h.col, lam • h.val⟩) := by
  unfold faceHessianAt
  rw [local_eq none h]
  rfl

/-- Corners of triangles that span an area are different vertices. -/
theorem distinct_of_area (tris : ℕ → Tri) (x : ℕ → V3 ℝ) (value : ℕ → ℝ) (i : ℕ)
    (h : (faceSamples tris x value).nml i ≠ 0) : (tris i).Distinct := by
  refine ⟨fun e => h ?_, fun e => h ?_, fun e => h ?_⟩
  · simp only [faceSamples, areaNormal, e, sub_self]
    ext <;> simp [V3.cross]
  · simp only [faceSamples, areaNormal, e]
    ext <;> simp [V3.cross] <;> ring
  · simp only [faceSamples, areaNormal, e, sub_self]
    ext <;> simp [V3.cross]

/-- C78 for surfaces: the Hessian with respect to the vertices is the derivative of the Jacobian with
respect to the vertices, as the vertices move. -/
theorem surface_hessian (q : V3 ℝ) (tris : ℕ → Tri) (value : ℕ → ℝ) (x : ℝ → ℕ → V3 ℝ)
    (x' : ℕ → V3 ℝ) (hx : ∀ v, HasD (fun s => x s v) (x' v) t)
    (h : Smooth k P q view (faceSamples tris (x t) value) c) (lam : ℝ) :
    ∃ B, faceHessianAt q view (faceSamples tris (x t) value) k tris (x t) P lam = some B ∧
      ∀ u, HasDerivAt (fun s => lam * applyBlocks
          ((faceJacobianAt q view (faceSamples tris (x s) value) k tris (x s) P).getD [])
          (faceJacobianCols view tris) u)
        (quadBlocks B u x') t := by
  obtain ⟨hcl, -⟩ := regular_weighable (q := fun _ => q) (S := fun s => faceSamples tris (x s) value)
    (t := t) h.toRegular
  refine ⟨_, faceHessian_eq tris (x t) lam hcl, fun u => ?_⟩
  rw [quad_scale, surface_form h]
  have := (jacobian_path (t := t) (fun _ => q) 0 tris value x x' none (HasD.const q) hx h 0 u).const_mul
    lam
  simp only [dot_zero_right, zero_add] at this
  exact this

/-- The action of the columns of the mixed Hessian. -/
def applyMixed (M : List (ℕ × M3 ℝ)) (w : ℕ → V3 ℝ) : V3 ℝ :=
  (M.map fun p => M3.mulVec p.2 (w p.1)).sum

theorem dot_applyMixed (V : List ℕ) (m : ℕ → M3 ℝ) (lam : ℝ) (u : V3 ℝ) (w : ℕ → V3 ℝ) :
    V3.dot u (applyMixed (V.map fun v => (v, lam • m v)) w) =
      lam * (V.map fun v => qf u (m v) (w v)).sum := by
  unfold applyMixed
  rw [dot_sum_right, List.map_map, ← List.sum_map_mul_left]
  congr 1
  refine List.map_congr_left fun v _ => ?_
  simp only [Function.comp]
  exact qf_smul _ _ _ _

theorem mixedHessian_eq {q : V3 ℝ} {S : Samples} (tris : ℕ → Tri) (x : ℕ → V3 ℝ) (lam : ℝ)
    (h : closestSample q S view = some c) : sampleQueryHessianAt q view S k tris x P lam =
      some ((firstSeen [] (faceJacobianCols view tris)).map fun v => (v, lam • (view.map
        (sampleQueryHessianComponent (bgAt k P q view S c none) x tris v)).sum)) := by
  unfold sampleQueryHessianAt
  rw [local_eq none h]
  rfl

/-- C78 for the query point and the surface together, where the background adds nothing to the
potential or the multiplier is zero: the three Hessians are the derivatives of the Jacobians as query point and vertices move.
Missing: the full property does not ask for `Silent`; see `mixed_hessian_violated`. -/
theorem joint_hessian_partial (q : ℝ → V3 ℝ) (q' : V3 ℝ) (tris : ℕ → Tri) (value : ℕ → ℝ)
    (x : ℝ → ℕ → V3 ℝ) (x' : ℕ → V3 ℝ) (cl : Option ℕ) (hq : HasD q q' t)
    (hx : ∀ v, HasD (fun s => x s v) (x' v) t)
    (h : Smooth k P (q t) view (faceSamples tris (x t) value) c)
    (lam : ℝ) (hs : lam = 0 ∨ Silent k P (q t - (faceSamples tris (x t) value).pos c).norm) :
    ∃ H M B, queryHessianAt (q t) view (faceSamples tris (x t) value) k P = some H ∧
      sampleQueryHessianAt (q t) view (faceSamples tris (x t) value) k tris (x t) P lam = some M ∧
      faceHessianAt (q t) view (faceSamples tris (x t) value) k tris (x t) P lam = some B ∧
      ∀ uq u, HasDerivAt (fun s => lam * (V3.dot
          ((queryJacobianAt (q s) view (faceSamples tris (x s) value) cl k P).getD 0) uq +
        applyBlocks ((faceJacobianAt (q s) view (faceSamples tris (x s) value) k tris (x s) P).getD [])
          (faceJacobianCols view tris) u))
        (lam * V3.dot uq (M3.mulVec H q') + V3.dot uq (applyMixed M x') + V3.dot q' (applyMixed M u) +
          quadBlocks B u x') t := by
  obtain ⟨hcl, -⟩ := regular_weighable (q := q) (S := fun s => faceSamples tris (x s) value)
    (t := t) h.toRegular
  have hd : ∀ i ∈ view, (tris i).Distinct := fun i hi => distinct_of_area tris (x t) value i
    (h.normals i hi)
  refine ⟨_, _, _, by unfold queryHessianAt; rw [local_eq none hcl]; rfl,
    mixedHessian_eq tris (x t) lam hcl, faceHessian_eq tris (x t) lam hcl, fun uq u => ?_⟩
  refine ((jacobian_path (t := t) q q' tris value x x' cl hq hx h uq u).const_mul lam).congr_deriv ?_
  rw [quad_scale, dot_applyMixed, dot_applyMixed]
  rcases hs with rfl | hs
  · simp
  rw [surface_form h, mixed_form h hs _ _ hd, mixed_form h hs _ _ hd]
  have hqq := query_form h uq q'
  unfold qf at hqq
  rw [hqq, pathForm_add_left]
  have e1 := pathForm_add_right (K := k.withClosest (q t - (faceSamples tris (x t) value).pos c).norm)
    (k := k) (P := P) (q := q t) (view := view) (S := faceSamples tris (x t) value) (c := c)
    (fun _ => uq) (fun _ => 0) (fun _ => q') (fun i => -mean tris x' i) (fun _ => 0)
    (fun i => areaNormalDir (x t) (tris i) x') (fun _ => 0) fun _ => 0
  have e2 := pathForm_add_right (K := k.withClosest (q t - (faceSamples tris (x t) value).pos c).norm)
    (k := k) (P := P) (q := q t) (view := view) (S := faceSamples tris (x t) value) (c := c)
    (fun i => -mean tris u i) (fun i => areaNormalDir (x t) (tris i) u) (fun _ => q')
    (fun i => -mean tris x' i) (fun _ => 0)
    (fun i => areaNormalDir (x t) (tris i) x') (fun _ => 0) fun i => areaNormalDir x' (tris i) u
  simp only [zero_add, add_zero] at e1 e2 ⊢
  rw [e1, e2, pathForm_symm (fun i => -mean tris u i) _ (fun _ => q')]
  unfold pathForm
  ring

theorem applyMixed_zero (M : List (ℕ × M3 ℝ)) : applyMixed M (fun _ => 0) = 0 := by
  unfold applyMixed
  induction M with
  | nil => rfl
  | cons p M ih =>
    simp only [List.map_cons, List.sum_cons]
    rw [ih]
    ext <;> simp [M3.mulVec, V3.dot]

theorem quadBlocks_zero (B : List HBlock) (w : ℕ → V3 ℝ) : quadBlocks B (fun _ => 0) w = 0 := by
  unfold quadBlocks
  simp only [dot_zero_left, add_zero, ite_self]
  induction B with
  | nil => rfl
  | cons h B ih => simp only [List.map_cons, List.sum_cons, ih, add_zero]

theorem applyBlocks_zero (J : List (V3 ℝ)) (cols : List ℕ) : applyBlocks J cols (fun _ => 0) = 0 := by
  unfold applyBlocks
  simp only [dot_zero_right]
  induction J generalizing cols with
  | nil => simp
  | cons g J ih =>
    cases cols with
    | nil => simp
    | cons v cols => simp only [List.zipWith_cons_cons, List.sum_cons, ih, add_zero]

/-- C78 for mixed derivatives, where the background adds nothing to the potential: the mixed Hessian is
the derivative of the Jacobian with respect to the query point, as the vertices move.
Missing: the full property does not ask for `Silent`; see `mixed_hessian_violated`. -/
theorem mixed_hessian_partial (q : V3 ℝ) (tris : ℕ → Tri) (value : ℕ → ℝ) (x : ℝ → ℕ → V3 ℝ)
    (x' : ℕ → V3 ℝ) (cl : Option ℕ) (hx : ∀ v, HasD (fun s => x s v) (x' v) t)
    (h : Smooth k P q view (faceSamples tris (x t) value) c)
    (hs : Silent k P (q - (faceSamples tris (x t) value).pos c).norm) :
    ∃ M, sampleQueryHessianAt q view (faceSamples tris (x t) value) k tris (x t) P 1 = some M ∧
      HasD (fun s => (queryJacobianAt q view (faceSamples tris (x s) value) cl k P).getD 0)
        (applyMixed M x') t := by
  obtain ⟨H, M, B, -, hM, -, hd⟩ := joint_hessian_partial (fun _ => q) 0 tris value x x' cl (HasD.const q)
    hx h 1 (.inr hs)
  refine ⟨M, hM, ?_⟩
  have key : ∀ uq, HasDerivAt (fun s => V3.dot uq
      ((queryJacobianAt q view (faceSamples tris (x s) value) cl k P).getD 0))
      (V3.dot uq (applyMixed M x')) t := by
    intro uq
    have := hd uq fun _ => 0
    simp only [applyMixed_zero, quadBlocks_zero, applyBlocks_zero, projection_zero, dot_zero_left,
      add_zero, one_mul] at this
    have e0 : M3.mulVec H 0 = 0 := by ext <;> simp [M3.mulVec, V3.dot]
    rw [e0, dot_zero_right, zero_add] at this
    simp only [dot_symm _ uq] at this
    exact this
  refine ⟨?_, ?_, ?_⟩
  · simpa [V3.dot] using key ⟨1, 0, 0⟩
  · simpa [V3.dot] using key ⟨0, 1, 0⟩
  · simpa [V3.dot] using key ⟨0, 0, 1⟩

/-! ## Indices -/

theorem ordered_indices (r c : ℕ) (m : M3 ℝ) :
    ((orderedBlock r c m).row, (orderedBlock r c m).col) = orderedIndices r c := by
  unfold orderedBlock orderedIndices
  rcases lt_trichotomy r c with h | h | h
  · rw [if_neg (by omega), if_pos h, if_neg (by omega)]
  · subst h
    simp
  · rw [if_pos h, if_pos (by omega)]

theorem samplesToVertices_indices (tris : ℕ → Tri) (h : HBlock) :
    (samplesToVertices tris h).map (fun b => (b.row, b.col)) =
      samplesToVerticesIndices tris h.row h.col := by
  unfold samplesToVertices samplesToVerticesIndices
  simp only [List.map_flatMap, List.map_map, Function.comp_def]

theorem vertexBlocks_indices (tris : ℕ → Tri) (h : HBlock) :
    (vertexBlocks tris h).map (fun b => (b.row, b.col)) =
      samplesToVerticesIndices tris h.row h.col ++
        if h.row > h.col then samplesToVerticesIndices tris h.col h.row else [] := by
  unfold vertexBlocks
  rw [List.map_append, samplesToVertices_indices]
  congr 1
  by_cases hc : h.col < h.row
  · rw [if_pos hc, if_pos hc, samplesToVertices_indices]
  · rw [if_neg hc, if_neg hc]
    rfl

/-- The values of the Hessian of the surface come in the order of the reported indices. -/
theorem face_hessian_indices (q : V3 ℝ) (view : List ℕ) (S : Samples) (k : Kern) (tris : ℕ → Tri)
    (x : ℕ → V3 ℝ) (P : BgParams) (lam : ℝ) (B : List HBlock)
    (h : faceHessianAt q view S k tris x P lam = some B) :
    B.map (fun b => (b.row, b.col)) = faceHessianIndices view tris P.weighted := by
  unfold faceHessianAt at h
  obtain ⟨b, hb, rfl⟩ := Option.map_eq_some_iff.1 h
  have hview : b.view = view ∧ b.weighted = P.weighted := by
    unfold Bg.local at hb
    cases hc : closestSample q S view with
    | none => rw [hc] at hb; cases hb
    | some c =>
      rw [hc] at hb
      cases hb
      exact ⟨rfl, rfl⟩
  obtain ⟨hview, hw⟩ := hview
  simp only [List.map_map, Function.comp_def, List.map_append]
  unfold faceHessianIndices
  simp only
  congr 1
  · unfold normalHessianAt symmetricNormalJacobian normalHessianProducts couplingHessian
    rw [zipWith_flatMap]
    simp only [List.map_append, List.map_flatMap, List.map_map, Function.comp_def, hview,
      ordered_indices]
    congr 1
    unfold lowerCorners samplesToVerticesIndices
    simp only [List.map_flatMap, List.map_map, Function.comp_def]
  · have hl : sampleHessianAt b = (b.view.map (fun i => ⟨i, i, sampleHessianDiagonal b
          (localPotentialAt b.q b.view b.S b.kernel b.weightSumInv b.dist) i⟩) ++
        (offDiagonal b.view).map (fun p => ⟨p.1, p.2, sampleHessianOffDiagonal b
          (localPotentialAt b.q b.view b.S b.kernel b.weightSumInv b.dist) p.1 p.2⟩)) ++
        (b.view.map (fun i => (⟨i, i, b.hessianDiagonal i⟩ : HBlock)) ++
          if b.weighted then (offDiagonal b.view).map fun p =>
            (⟨p.1, p.2, b.hessianOffDiagonal p.1 p.2⟩ : HBlock) else []) := by
      rw [← bgBlocks_eq]
      rfl
    have hi : (sampleHessianAt b).map (fun h => (h.row, h.col)) =
        sampleHessianIndices view ++ bgHessianIndices P.weighted view := by
      rw [hl]
      unfold sampleHessianIndices bgHessianIndices
      simp only [List.map_append, List.map_map, Function.comp_def, hview, hw]
      have e1 : ∀ l : List (ℕ × ℕ), l.map (fun p => (p.1, p.2)) = l := fun l => by
        induction l with
        | nil => rfl
        | cons p l ih => simp
      rw [e1]
      congr 2
      cases P.weighted with
      | false => rfl
      | true =>
        simp only [if_true, List.map_map, Function.comp_def]
        rw [e1]
    rw [← hi, List.map_flatMap, List.flatMap_map]
    congr 1
    funext h
    exact vertexBlocks_indices tris h

/-- The Hessian of the surface has blocks in its lower triangle only. -/
theorem face_hessian_lower (q : V3 ℝ) (view : List ℕ) (S : Samples) (k : Kern) (tris : ℕ → Tri)
    (x : ℕ → V3 ℝ) (P : BgParams) (lam : ℝ) (B : List HBlock)
    (h : faceHessianAt q view S k tris x P lam = some B) : ∀ b ∈ B, b.col ≤ b.row := by
  have hi := face_hessian_indices q view S k tris x P lam B h
  have hall : ∀ p ∈ faceHessianIndices view tris P.weighted, p.2 ≤ p.1 := by
    have hs : ∀ r c, ∀ p ∈ samplesToVerticesIndices tris r c, p.2 ≤ p.1 := by
      intro r c p hp
      unfold samplesToVerticesIndices at hp
      simp only [List.mem_flatMap, List.mem_map, List.mem_filter] at hp
      obtain ⟨i, -, j, ⟨-, hj⟩, rfl⟩ := hp
      simpa using hj
    have ho : ∀ r c, (orderedIndices r c).2 ≤ (orderedIndices r c).1 := by
      intro r c
      unfold orderedIndices
      split <;> simp <;> omega
    intro p hp
    unfold faceHessianIndices at hp
    simp only [List.mem_append, List.mem_flatMap, List.mem_map] at hp
    rcases hp with (⟨s, -, hp⟩ | ⟨s, -, hp⟩) | ⟨r, -, hp⟩
    · exact hs _ _ _ hp
    · rcases hp with ⟨i, -, j, -, rfl⟩ | ⟨s', -, j, -, i, -, rfl⟩
      · exact ho _ _
      · exact ho _ _
    · rcases hp with hp | hp
      · exact hs _ _ _ hp
      · split at hp
        · exact hs _ _ _ hp
        · cases hp
  intro b hb
  exact hall (b.row, b.col) (hi ▸ List.mem_map.2 ⟨b, hb, rfl⟩)

/-- The values of the mixed Hessian come in the order of the reported indices, which are different. -/
theorem mixed_hessian_indices (q : V3 ℝ) (view : List ℕ) (S : Samples) (k : Kern) (tris : ℕ → Tri)
    (x : ℕ → V3 ℝ) (P : BgParams) (lam : ℝ) (M : List (ℕ × M3 ℝ))
    (h : sampleQueryHessianAt q view S k tris x P lam = some M) :
    M.map Prod.fst = sampleQueryHessianIndices view tris ∧ (M.map Prod.fst).Nodup := by
  unfold sampleQueryHessianAt at h
  obtain ⟨b, hb, rfl⟩ := Option.map_eq_some_iff.1 h
  have e : ((firstSeen [] (faceJacobianCols view tris)).map fun v => (v, lam • (view.map
      (sampleQueryHessianComponent b x tris v)).sum)).map Prod.fst =
      firstSeen [] (faceJacobianCols view tris) := by
    simp [Function.comp_def]
  rw [e]
  exact ⟨rfl, nodup_firstSeen _ _⟩

/-! ## Outside the support of the kernel -/

/-- Where all samples are out of reach, the mixed Hessian is zero. -/
theorem mixed_hessian_far {q : V3 ℝ} {S : Samples} (h : Smooth k P q view S c) (hw : P.weighted = false)
    {r : ℝ} (hr : k.radius = some r) (hd : r < (q - S.pos c).norm) (tris : ℕ → Tri) (x x' : ℕ → V3 ℝ)
    (lam : ℝ) (M : List (ℕ × M3 ℝ)) (hM : sampleQueryHessianAt q view S k tris x P lam = some M) :
    applyMixed M x' = 0 := by
  obtain ⟨hcl, -⟩ := regular_weighable (q := fun _ => q) (S := fun _ => S) (t := 0) h.toRegular
  rw [mixedHessian_eq tris x lam hcl] at hM
  obtain ⟨g1, g2, g3⟩ := h.unweighted hw
  have hfar : ∀ i ∈ view, weight k (q - S.pos c).norm q S i = 0 ∧
      weightGrad k (q - S.pos c).norm q S i = 0 ∧ weightHess k (q - S.pos c).norm q S i = 0 := by
    rcases g3 with g3 | g3
    · unfold backgroundWeight at g3
      rw [hr] at g3
      simp only [if_pos hd] at g3
      norm_num at g3
    · exact g3
  have key : ∀ u, V3.dot u (applyMixed M x') = 0 := by
    intro u
    rw [← Option.some.inj hM, dot_applyMixed]
    refine mul_eq_zero_of_right _ (sum_eq_zero fun v _ => ?_)
    rw [qf_sum]
    refine sum_eq_zero fun s hs => ?_
    obtain ⟨f1, f2, f3⟩ := hfar s hs
    rw [qf_component]
    have e1 : wt (bgAt k P q view S c none) s = 0 := f1
    have e2 : weightGrad (bgAt k P q view S c none).kernel (bgAt k P q view S c none).dist
      (bgAt k P q view S c none).q (bgAt k P q view S c none).S s = 0 := f2
    have e3 : weightHess (bgAt k P q view S c none).kernel (bgAt k P q view S c none).dist
      (bgAt k P q view S c none).q (bgAt k P q view S c none).S s = 0 := f3
    have a1 : ∀ D DD, mixedAll (bgAt k P q view S c none) u s D DD = 0 := fun D DD => by
      unfold mixedAll
      rw [e1, e2, dot_zero_left]
      ring
    have a2 : ∀ j y, mixedCorner (bgAt k P q view S c none) x tris u s j y = 0 := fun j y => by
      unfold mixedCorner
      rw [e1, e2, e3, dot_zero_left, dot_zero_left, qf_zero]
      ring
    rw [a1]
    cases (tris s).position v with
    | none => simp
    | some j => simp [a2]
  ext
  · simpa [V3.dot] using key ⟨1, 0, 0⟩
  · simpa [V3.dot] using key ⟨0, 1, 0⟩
  · simpa [V3.dot] using key ⟨0, 0, 1⟩

/-- Where all samples are out of reach, the second derivative is that of the background. -/
theorem pathForm_far {q : V3 ℝ} {S : Samples} (h : Smooth k P q view S c) (hw : P.weighted = false)
    {r : ℝ} (hr : k.radius = some r) (hd : r < (q - S.pos c).norm) (e m e' n' mm : ℕ → V3 ℝ) :
    pathForm (k.withClosest (q - S.pos c).norm) k P q view S c e m e' n' mm =
      qf (e c) (bgAt k P q view S c none).fieldHess (e' c) := by
  obtain ⟨g1, g2, g3⟩ := h.unweighted hw
  have hb : backgroundWeight k P.weighted (q - S.pos c).norm = 1 := by
    unfold backgroundWeight
    rw [hr]
    simp only [if_pos hd]
  have hfar : ∀ i ∈ view, weight k (q - S.pos c).norm q S i = 0 ∧
      weightGrad k (q - S.pos c).norm q S i = 0 ∧ weightHess k (q - S.pos c).norm q S i = 0 := by
    rcases g3 with g3 | g3
    · rw [hb] at g3
      norm_num at g3
    · exact g3
  have hwi : ∀ i ∈ view, (k.withClosest (q - S.pos c).norm).eval q (S.pos i) = 0 := fun i hi => (hfar i hi).1
  have hgi : ∀ i ∈ view, (k.withClosest (q - S.pos c).norm).grad q (S.pos i) = 0 := fun i hi =>
    (hfar i hi).2.1
  have hhi : ∀ i ∈ view, (k.withClosest (q - S.pos c).norm).hess q (S.pos i) = 0 := fun i hi =>
    (hfar i hi).2.2
  unfold pathForm secondForm terms
  simp only [List.map_cons, List.sum_cons, List.map_map, Function.comp_def, termW, termA, termAA, g1, g2,
    dot_zero_left, qf_zero, hb]
  rw [sum_eq_zero (f := fun i => (k.withClosest (q - S.pos c).norm).eval q (S.pos i)) hwi,
    sum_eq_zero (f := fun i => V3.dot ((k.withClosest (q - S.pos c).norm).grad q (S.pos i)) (e i))
      fun i hi => by rw [hgi i hi, dot_zero_left],
    sum_eq_zero (f := fun i => V3.dot ((k.withClosest (q - S.pos c).norm).grad q (S.pos i)) (e' i))
      fun i hi => by rw [hgi i hi, dot_zero_left],
    sum_eq_zero (f := fun i => qf (e i) ((k.withClosest (q - S.pos c).norm).hess q (S.pos i)) (e' i))
      fun i hi => by rw [hhi i hi, qf_zero],
    sum_eq_zero (f := fun i => qf (e i) ((k.withClosest (q - S.pos c).norm).hess q (S.pos i)) (e' i) *
        termPsi k P q view S c (some i) +
      V3.dot ((k.withClosest (q - S.pos c).norm).grad q (S.pos i)) (e i) *
        termB k P q view S c e' n' (some i) +
      V3.dot ((k.withClosest (q - S.pos c).norm).grad q (S.pos i)) (e' i) *
        termB k P q view S c e m (some i) +
      (k.withClosest (q - S.pos c).norm).eval q (S.pos i) * termBB k P q view S c e m e' n' mm (some i))
      fun i hi => by rw [hwi i hi, hgi i hi, hhi i hi, qf_zero, dot_zero_left, dot_zero_left]; ring]
  simp only [termBB]
  ring

/-! ## Examples -/

theorem demo_nml (i : ℕ) : (faceSamples (fun _ => demoTri) demoVerts fun _ => 0).nml i = ⟨0, 0, 9⟩ := by
  ext <;> simp [faceSamples, demoTri, demoVerts, areaNormal, V3.cross]
  norm_num

theorem demo_disp (a : ℝ) : (⟨1, 1, a⟩ : V3 ℝ) -
    (faceSamples (fun _ => demoTri) demoVerts fun _ => 0).pos 0 = ⟨0, 0, a⟩ := by
  ext <;> simp [faceSamples, demoTri, demoVerts]

theorem demo_norm (a : ℝ) (ha : 0 < a) : ((⟨1, 1, a⟩ : V3 ℝ) -
    (faceSamples (fun _ => demoTri) demoVerts fun _ => 0).pos 0).norm = a := by
  rw [demo_disp]
  simp only [V3.norm, V3.dot, mul_zero, zero_add]
  exact Real.sqrt_mul_self ha.le

/-- A point above a triangle. -/
theorem demo_smooth (a : ℝ) (ha : 0 < a) (h1 : a ≠ 1) (w : Bool) :
    Smooth (.cubic 1) ⟨.distanceBased, w⟩ ⟨1, 1, a⟩ [0]
      (faceSamples (fun _ => demoTri) demoVerts fun _ => 0) 0 := by
  have hne : (⟨1, 1, a⟩ : V3 ℝ) ≠ (faceSamples (fun _ => demoTri) demoVerts fun _ => 0).pos 0 := by
    refine ne_of_norm_pos ?_
    rw [demo_norm a ha]
    exact ha
  refine { proper := one_pos, nodup := by simp, mem := by simp, closest := ?_, edge := ?_, kink := ?_,
           center := Or.inl trivial, normals := ?_, tangent := ?_, mixed := ?_, off := ?_,
           apart := hne }
  · intro i hi h; simp at hi; exact absurd hi h
  · intro r hr; cases hr; rw [demo_norm a ha]; exact h1
  · intro r eps h; cases h
  · intro i _; rw [demo_nml]; intro h; have := congrArg V3.z h; norm_num at this
  · intro _ _; rw [demo_nml, demo_disp]; simp [V3.dot]; exact ha.ne'
  · intro _; exact ⟨by simp, trivial, by simp [Kern.radius], hne⟩
  · intro r hr i hi
    cases hr
    simp at hi
    subst hi
    rw [demo_norm a ha]
    exact h1

example : ∃ H, queryHessianAt ⟨1, 1, 1 / 2⟩ [0] (faceSamples (fun _ => demoTri) demoVerts fun _ => 0)
    (.cubic 1) ⟨.distanceBased, true⟩ = some H ∧
    HasD (fun s : ℝ => (queryJacobianAt (⟨1, 1, 1 / 2⟩ + s • ⟨1, 2, 3⟩) [0]
      (faceSamples (fun _ => demoTri) demoVerts fun _ => 0) none (.cubic 1)
      ⟨.distanceBased, true⟩).getD 0) (M3.mulVec H ⟨1, 2, 3⟩) 0 := by
  have e : (⟨1, 1, 1 / 2⟩ : V3 ℝ) + (0 : ℝ) • ⟨1, 2, 3⟩ = ⟨1, 1, 1 / 2⟩ := by ext <;> simp
  have := query_hessian (t := 0) (fun s : ℝ => (⟨1, 1, 1 / 2⟩ : V3 ℝ) + s • ⟨1, 2, 3⟩) ⟨1, 2, 3⟩
    (faceSamples (fun _ => demoTri) demoVerts fun _ => 0) none
    (by simp only [e]; exact demo_smooth (1 / 2) (by norm_num) (by norm_num) true) (HasD.line _ _)
  simpa only [e] using this

theorem demo_line (d : ℕ → V3 ℝ) : (fun v => demoVerts v + (0 : ℝ) • d v) = demoVerts := by
  funext v; ext <;> simp

example : ∃ B, faceHessianAt ⟨1, 1, 1 / 2⟩ [0] (faceSamples (fun _ => demoTri) demoVerts fun _ => 0)
    (.cubic 1) (fun _ => demoTri) demoVerts ⟨.distanceBased, true⟩ 3 = some B ∧
    ∀ u, HasDerivAt (fun s : ℝ => 3 * applyBlocks ((faceJacobianAt ⟨1, 1, 1 / 2⟩ [0]
      (faceSamples (fun _ => demoTri) (fun v => demoVerts v + s • (⟨0, v, 1⟩ : V3 ℝ)) fun _ => 0)
      (.cubic 1) (fun _ => demoTri) (fun v => demoVerts v + s • (⟨0, v, 1⟩ : V3 ℝ))
      ⟨.distanceBased, true⟩).getD []) (faceJacobianCols [0] fun _ => demoTri) u)
      (quadBlocks B u fun v => ⟨0, v, 1⟩) 0 := by
  have := surface_hessian (t := 0) (k := .cubic 1) (P := ⟨.distanceBased, true⟩) (view := [0]) (c := 0)
    ⟨1, 1, 1 / 2⟩ (fun _ => demoTri) (fun _ => 0)
    (fun s v => demoVerts v + s • (⟨0, v, 1⟩ : V3 ℝ)) (fun v => ⟨0, v, 1⟩) (fun v => HasD.line _ _)
    (by rw [demo_line]; exact demo_smooth (1 / 2) (by norm_num) (by norm_num) true) 3
  rwa [demo_line] at this

theorem demo_silent : Silent (.cubic 1) ⟨.distanceBased, false⟩ ((⟨1, 1, 1 / 2⟩ : V3 ℝ) -
    (faceSamples (fun _ => demoTri) demoVerts fun _ => 0).pos 0).norm := by
  right
  rintro (⟨r, hr, h⟩ | h)
  · cases hr
    rw [demo_norm _ (by norm_num)] at h
    norm_num at h
  · cases h

example : ∃ M, sampleQueryHessianAt ⟨1, 1, 1 / 2⟩ [0]
    (faceSamples (fun _ => demoTri) demoVerts fun _ => 0) (.cubic 1) (fun _ => demoTri) demoVerts
    ⟨.distanceBased, false⟩ 1 = some M ∧
    HasD (fun s : ℝ => (queryJacobianAt ⟨1, 1, 1 / 2⟩ [0]
      (faceSamples (fun _ => demoTri) (fun v => demoVerts v + s • (⟨0, v, 1⟩ : V3 ℝ)) fun _ => 0) none
      (.cubic 1) ⟨.distanceBased, false⟩).getD 0) (applyMixed M fun v => ⟨0, v, 1⟩) 0 := by
  have := mixed_hessian_partial (t := 0) (k := .cubic 1) (P := ⟨.distanceBased, false⟩) (view := [0])
    (c := 0) ⟨1, 1, 1 / 2⟩ (fun _ => demoTri) (fun _ => 0)
    (fun s v => demoVerts v + s • (⟨0, v, 1⟩ : V3 ℝ)) (fun v => ⟨0, v, 1⟩) none (fun v => HasD.line _ _)
    (by rw [demo_line]; exact demo_smooth (1 / 2) (by norm_num) (by norm_num) false)
    (by rw [demo_line]; exact demo_silent)
  rwa [demo_line] at this

/-- C78 fails for mixed derivatives where only the background counts: a triangle moves sideways below a
point out of its reach. The Jacobian with respect to the query point turns, but the mixed Hessian is
zero. -/
theorem mixed_hessian_violated :
    ∃ M v, sampleQueryHessianAt ⟨1, 1, 2⟩ [0]
      (faceSamples (fun _ => demoTri) demoVerts fun _ => 0) (.cubic 1) (fun _ => demoTri) demoVerts
      ⟨.distanceBased, false⟩ 1 = some M ∧
    HasD (fun s : ℝ => (queryJacobianAt ⟨1, 1, 2⟩ [0]
      (faceSamples (fun _ => demoTri) (fun v => demoVerts v + s • (⟨1, 0, 0⟩ : V3 ℝ)) fun _ => 0) none
      (.cubic 1) ⟨.distanceBased, false⟩).getD 0) v 0 ∧ v ≠ applyMixed M fun _ => ⟨1, 0, 0⟩ := by
  have hS := demo_smooth 2 (by norm_num) (by norm_num) false
  have hfar : (1 : ℝ) < ((⟨1, 1, 2⟩ : V3 ℝ) -
      (faceSamples (fun _ => demoTri) demoVerts fun _ => 0).pos 0).norm := by
    rw [demo_norm 2 (by norm_num)]
    norm_num
  obtain ⟨hcl, -⟩ := regular_weighable (q := fun _ => (⟨1, 1, 2⟩ : V3 ℝ))
    (S := fun _ => faceSamples (fun _ => demoTri) demoVerts fun _ => 0) (t := 0) hS.toRegular
  have hM := mixedHessian_eq (k := .cubic 1) (P := ⟨.distanceBased, false⟩) (fun _ => demoTri) demoVerts
    1 hcl
  have hz := mixed_hessian_far hS rfl (r := 1) rfl hfar (fun _ => demoTri) demoVerts
    (fun _ => ⟨1, 0, 0⟩) 1 _ hM
  set H := (bgAt (.cubic 1) ⟨.distanceBased, false⟩ ⟨1, 1, 2⟩ [0]
    (faceSamples (fun _ => demoTri) demoVerts fun _ => 0) 0 none).fieldHess with hH
  have key : ∀ uq, HasDerivAt (fun s : ℝ => V3.dot ((queryJacobianAt ⟨1, 1, 2⟩ [0]
      (faceSamples (fun _ => demoTri) (fun v => demoVerts v + s • (⟨1, 0, 0⟩ : V3 ℝ)) fun _ => 0) none
      (.cubic 1) ⟨.distanceBased, false⟩).getD 0) uq) (V3.dot uq (M3.mulVec H ⟨-1, 0, 0⟩)) 0 := by
    intro uq
    have := jacobian_path (t := 0) (k := .cubic 1) (P := ⟨.distanceBased, false⟩) (view := [0]) (c := 0)
      (fun _ => ⟨1, 1, 2⟩) 0 (fun _ => demoTri) (fun _ => 0)
      (fun s v => demoVerts v + s • (⟨1, 0, 0⟩ : V3 ℝ)) (fun _ => ⟨1, 0, 0⟩) none (HasD.const _)
      (fun v => HasD.line _ _) (by rw [demo_line]; exact hS) uq fun _ => 0
    simp only [applyBlocks_zero, add_zero] at this
    rw [demo_line, pathForm_far hS rfl (r := 1) rfl hfar] at this
    refine this.congr_deriv ?_
    rw [← hH]
    unfold qf
    have e1 : uq + -mean (fun _ => demoTri) (fun _ => 0) 0 = uq := by ext <;> simp [mean]
    have e2 : (0 : V3 ℝ) + -mean (fun _ => demoTri) (fun _ => ⟨1, 0, 0⟩) 0 = ⟨-1, 0, 0⟩ := by
      ext <;> simp [mean] <;> norm_num
    rw [e1, e2]
  refine ⟨_, M3.mulVec H ⟨-1, 0, 0⟩, hM, ⟨?_, ?_, ?_⟩, ?_⟩
  · simpa [V3.dot] using key ⟨1, 0, 0⟩
  · simpa [V3.dot] using key ⟨0, 1, 0⟩
  · simpa [V3.dot] using key ⟨0, 0, 1⟩
  · rw [hz]
    intro h0
    have hx := congrArg V3.x h0
    have hdist : (bgAt (.cubic 1) ⟨.distanceBased, false⟩ ⟨1, 1, 2⟩ [0]
        (faceSamples (fun _ => demoTri) demoVerts fun _ => 0) 0 none).dist = 2 := demo_norm 2 (by norm_num)
    have hdisp : (bgAt (.cubic 1) ⟨.distanceBased, false⟩ ⟨1, 1, 2⟩ [0]
        (faceSamples (fun _ => demoTri) demoVerts fun _ => 0) 0 none).disp = ⟨0, 0, 2⟩ := demo_disp 2
    have ho : (bgAt (.cubic 1) ⟨.distanceBased, false⟩ ⟨1, 1, 2⟩ [0]
        (faceSamples (fun _ => demoTri) demoVerts fun _ => 0) 0 none).orientation = 1 := by
      rw [orientation_eq]
      rw [demo_nml, demo_disp, if_neg]
      norm_num [V3.dot]
    rw [hH] at hx
    unfold Bg.fieldHess at hx
    have hval : (bgAt (.cubic 1) ⟨.distanceBased, false⟩ ⟨1, 1, 2⟩ [0]
        (faceSamples (fun _ => demoTri) demoVerts fun _ => 0) 0 none).value = .signedDistance := rfl
    rw [hval] at hx
    simp only [hdist, hdisp, ho] at hx
    norm_num [M3.mulVec, M3.diag, M3.outer, V3.dot] at hx

end Softy.Field
