import Verif.Props.FieldJacobian

/-!
# Jacobians of the potential for query points, samples and surface vertices

Property C69, for the functions that return Jacobians. The change of the potential is the sum of the
blocks of the Jacobian, each applied to the velocity of the vertex that the block's column names.
-/

noncomputable section

namespace Softy.Field

open Softy Softy.Kernel Filter

variable {k : Kern} {P : BgParams} {view : List ℕ} {c : ℕ} {t old : ℝ}

/-- Specification: the blocks `J`, in columns `cols`, applied to velocities `x'`. -/
def applyBlocks (J : List (V3 ℝ)) (cols : List ℕ) (x' : ℕ → V3 ℝ) : ℝ :=
  (List.zipWith (fun g v => V3.dot g (x' v)) J cols).sum

theorem local_eq {q : V3 ℝ} {S : Samples} (v : Option ℝ) (h : closestSample q S view = some c) :
    Bg.local q view S k P v = some (bgAt k P q view S c v) := by
  unfold Bg.local
  rw [h]

theorem new_eq {q : V3 ℝ} {S : Samples} (v : Option ℝ) (cl : Option ℕ)
    (h : closestSample q S view = some c) :
    Bg.new q view S cl k P v = some (bgAt k P q view S c v) := by
  cases cl with
  | none => exact local_eq v h
  | some i =>
    unfold Bg.new Bg.global
    rw [h]

/-! ## Query points -/

/-- C69 for query points: the Jacobian with respect to the query point is the derivative of the
potential as the query point moves. -/
theorem query_jacobian (q : ℝ → V3 ℝ) (q' : V3 ℝ) (S : Samples) (cl : Option ℕ)
    (h : Regular k P (q t) view S c) (hq : HasD q q' t) :
    ∃ J, queryJacobianAt (q t) view S cl k P = some J ∧
      HasDerivAt (fun s => potentialAt (q s) view S k P old) (V3.dot J q') t := by
  obtain ⟨hcl, -⟩ := regular_weighable (q := q) (S := fun _ => S) (t := t) h
  refine ⟨queryGradient (bgAt k P (q t) view S c none), ?_, ?_⟩
  · unfold queryJacobianAt
    rw [new_eq none cl hcl]
    rfl
  · have := potential_hasDeriv (old := old) (S := fun _ => S) (p' := fun _ => 0) (n' := fun _ => 0) h hq
      (fun i _ => HasD.const _) (fun i _ => HasD.const _) (fun _ _ _ => rfl)
    refine this.congr_deriv ?_
    rw [sum_eq_zero, add_zero]
    intro i _
    have : ∀ m : M3 ℝ, M3.mulVec m 0 = 0 := fun m => by ext <;> simp [M3.mulVec, V3.dot]
    rw [dot_zero_right, normalGradient, this, dot_zero_right, add_zero]

/-! ## Samples -/

/-- C69 for samples: the Jacobian with respect to the positions of the samples is the derivative of
the potential as the samples move without turning. -/
theorem sample_jacobian (q : V3 ℝ) (S : ℝ → Samples) (p' : ℕ → V3 ℝ)
    (h : Regular k P q view (S t) c) (hp : ∀ i ∈ view, HasD (fun s => (S s).pos i) (p' i) t)
    (hn : ∀ i ∈ view, ∀ s, (S s).nml i = (S t).nml i)
    (hv : ∀ i ∈ view, ∀ s, (S s).value i = (S t).value i) :
    ∃ b, Bg.local q view (S t) k P none = some b ∧
      HasDerivAt (fun s => potentialAt q view (S s) k P old)
        (applyBlocks (view.map (sampleJacobianAt b)) view p') t := by
  obtain ⟨hcl, -⟩ := regular_weighable (q := fun _ => q) (S := S) h
  refine ⟨bgAt k P q view (S t) c none, local_eq none hcl, ?_⟩
  have := potential_hasDeriv (old := old) (q := fun _ => q) (n' := fun _ => 0) h (HasD.const _) hp
    (fun i hi => by simp only [hn i hi]; exact HasD.const _) hv
  refine this.congr_deriv ?_
  rw [dot_zero_right, zero_add, applyBlocks, List.zipWith_map_left, List.zipWith_self]
  congr 1
  refine List.map_congr_left fun i _ => ?_
  have : ∀ m : M3 ℝ, M3.mulVec m 0 = 0 := fun m => by ext <;> simp [M3.mulVec, V3.dot]
  rw [normalGradient, this, dot_zero_right, add_zero]

/-! ## Surfaces sampled at faces -/

/-- Derivative of the area normal as the corners move. -/
def areaNormalDir (x : ℕ → V3 ℝ) (T : Tri) (x' : ℕ → V3 ℝ) : V3 ℝ :=
  M3.mulVec (areaNormalGrad x T 0) (x' T.a) + M3.mulVec (areaNormalGrad x T 1) (x' T.b) +
    M3.mulVec (areaNormalGrad x T 2) (x' T.c)

theorem areaNormal_hasD {x : ℝ → ℕ → V3 ℝ} {x' : ℕ → V3 ℝ} (T : Tri)
    (hx : ∀ v, HasD (fun s => x s v) (x' v) t) :
    HasD (fun s => areaNormal (x s T.a) (x s T.b) (x s T.c)) (areaNormalDir (x t) T x') t := by
  refine (((hx T.b).sub (hx T.a)).cross ((hx T.c).sub (hx T.a))).congr ?_
  unfold areaNormalDir areaNormalGrad
  simp only [M3.mulVec_skew]
  ext <;> simp [V3.cross] <;> ring

theorem dot_skew (u a b : V3 ℝ) :
    V3.dot (M3.mulVec (-M3.skew u) a) b = V3.dot a (M3.mulVec (M3.skew u) b) := by
  rw [M3.mulVec_neg, M3.mulVec_skew, M3.mulVec_skew]
  simp [V3.dot, V3.cross]
  ring

theorem dot_areaNormalGrad (x : ℕ → V3 ℝ) (T : Tri) (j : Fin 3) (a b : V3 ℝ) :
    V3.dot (M3.mulVec (-areaNormalGrad x T j) a) b =
      V3.dot a (M3.mulVec (areaNormalGrad x T j) b) := by
  fin_cases j <;> exact dot_skew _ _ _

theorem dot_tangentProjection (n a b : V3 ℝ) (s : ℝ) :
    V3.dot (M3.mulVec (scaledTangentProjection n s) a) b =
      V3.dot a (M3.mulVec (scaledTangentProjection n s) b) := by
  unfold scaledTangentProjection
  simp only [M3.mulVec_sub, M3.mulVec_outer, M3.mulVec_diag, dot_sub_left, dot_sub_right, dot_smul_left,
    dot_smul_right]
  rw [dot_symm n b, dot_symm a n, dot_symm b n]
  ring

theorem applyBlocks_append (J J' : List (V3 ℝ)) (C C' : List ℕ) (x' : ℕ → V3 ℝ)
    (h : J.length = C.length) :
    applyBlocks (J ++ J') (C ++ C') x' = applyBlocks J C x' + applyBlocks J' C' x' := by
  unfold applyBlocks
  rw [List.zipWith_append h, List.sum_append]

theorem applyBlocks_flatMap (l : List ℕ) (f : ℕ → List (V3 ℝ)) (g : ℕ → List ℕ) (x' : ℕ → V3 ℝ)
    (h : ∀ i, (f i).length = (g i).length) :
    applyBlocks (l.flatMap f) (l.flatMap g) x' = (l.map fun i => applyBlocks (f i) (g i) x').sum := by
  induction l with
  | nil => rfl
  | cons i l ih =>
    rw [List.flatMap_cons, List.flatMap_cons, applyBlocks_append _ _ _ _ _ (h i), ih, List.map_cons,
      List.sum_cons]

/-- C69 for surfaces sampled at their faces: the Jacobian with respect to the vertices of the surface
is the derivative of the potential as the vertices move, and the samples with them. -/
theorem face_jacobian (q : V3 ℝ) (tris : ℕ → Tri) (value : ℕ → ℝ) (x : ℝ → ℕ → V3 ℝ) (x' : ℕ → V3 ℝ)
    (hx : ∀ v, HasD (fun s => x s v) (x' v) t)
    (h : Regular k P q view (faceSamples tris (x t) value) c) :
    ∃ J, faceJacobianAt q view (faceSamples tris (x t) value) k tris (x t) P = some J ∧
      J.length = (faceJacobianCols view tris).length ∧
      HasDerivAt (fun s => potentialAt q view (faceSamples tris (x s) value) k P old)
        (applyBlocks J (faceJacobianCols view tris) x') t := by
  obtain ⟨hcl, -⟩ := regular_weighable (q := fun _ => q) (S := fun s => faceSamples tris (x s) value) (t := t) h
  unfold faceJacobianAt
  rw [local_eq none hcl]
  refine ⟨_, rfl, ?_, ?_⟩
  · unfold faceJacobianCols
    simp only [List.length_flatMap, List.length_map]
  have := potential_hasDeriv (old := old) (q := fun _ => q)
    (S := fun s => faceSamples tris (x s) value)
    (p' := fun i => (1 / 3 : ℝ) • (x' (tris i).a + x' (tris i).b + x' (tris i).c))
    (n' := fun i => areaNormalDir (x t) (tris i) x') h (HasD.const _)
    (fun i _ => by
      have h1 := ((hx (tris i).a).add (hx (tris i).b)).add (hx (tris i).c)
      have h2 := HasD.smul (hasDerivAt_const t (1 / 3 : ℝ)) h1
      refine h2.congr ?_
      ext <;> simp)
    (fun i _ => areaNormal_hasD (tris i) hx) (fun _ _ _ => rfl)
  refine this.congr_deriv ?_
  unfold faceJacobianCols
  rw [dot_zero_right, zero_add, applyBlocks_flatMap _ _ _ _ fun i => by simp]
  congr 1
  refine List.map_congr_left fun i _ => ?_
  have hfin : List.finRange 3 = [0, 1, 2] := rfl
  simp only [applyBlocks, hfin, List.map_cons, List.map_nil, List.zipWith_cons_cons, List.zipWith_nil_left,
    List.sum_cons, List.sum_nil, add_zero, dot_add_left, dot_smul_left, dot_smul_right, dot_add_right,
    faceUnitNormalGrad, M3.mul_def, M3.mulVec_mul, dot_areaNormalGrad, dot_tangentProjection, Tri.get]
  have hS : (bgAt k P q view (faceSamples tris (x t) value) c none).S = faceSamples tris (x t) value := rfl
  unfold normalGradient areaNormalDir
  simp only [M3.mulVec_vadd, dot_add_right, hS]
  ring

/-! ## Surfaces sampled at vertices -/

theorem sum_comm {α β : Type*} (l : List α) (m : List β) (f : α → β → ℝ) :
    (l.map fun i => (m.map (f i)).sum).sum = (m.map fun j => (l.map fun i => f i j).sum).sum := by
  induction l with
  | nil => simp
  | cons i l ih => simp only [List.map_cons, List.sum_cons, ih, List.sum_map_add]

/-- Specification: the corners of a triangle are three different vertices. -/
def Tri.Distinct (T : Tri) : Prop := T.a ≠ T.b ∧ T.b ≠ T.c ∧ T.c ≠ T.a

/-- Corner of a triangle. -/
def Tri.Has (T : Tri) (v : ℕ) : Prop := v = T.a ∨ v = T.b ∨ v = T.c

open Classical in
theorem dualTopo_sum (tris : List Tri) (hd : ∀ T ∈ tris, T.Distinct) (v : ℕ) (f : Tri → ℝ) :
    ((dualTopo tris v).map f).sum = (tris.map fun T => if T.Has v then f T else 0).sum := by
  induction tris with
  | nil => rfl
  | cons T l ih =>
    have h1 : dualTopo (T :: l) v = (([T.a, T.b, T.c].filter (· = v)).map fun _ => T) ++ dualTopo l v :=
      rfl
    rw [h1, List.map_append, List.sum_append, ih fun T hT => hd T (List.mem_cons_of_mem _ hT),
      List.map_cons, List.sum_cons]
    congr 1
    obtain ⟨hab, hbc, hca⟩ := hd T List.mem_cons_self
    unfold Tri.Has
    by_cases ha : T.a = v
    · subst ha
      simp [hab.symm, hca]
    · by_cases hb : T.b = v
      · subst hb
        simp [hab, hbc.symm, hab.symm]
      · by_cases hc : T.c = v
        · subst hc
          simp [ha, hb]
        · simp [ha, hb, hc, Ne.symm ha, Ne.symm hb, Ne.symm hc]

open Classical in
theorem corners_sum (hv : view.Nodup) (T : Tri) (hd : T.Distinct)
    (hin : ∀ v, T.Has v → v ∈ view) (f : ℕ → ℝ) :
    (view.map fun i => if T.Has i then f i else 0).sum = f T.a + f T.b + f T.c := by
  obtain ⟨hab, hbc, hca⟩ := hd
  rw [list_sum_eq hv]
  have : ∀ i, (if T.Has i then f i else 0) =
      (if i = T.a then f i else 0) + (if i = T.b then f i else 0) + (if i = T.c then f i else 0) := by
    intro i
    unfold Tri.Has
    by_cases ha : i = T.a
    · subst ha; simp [hab, hca.symm]
    · by_cases hb : i = T.b
      · subst hb; simp [hab.symm, hbc]
      · simp [ha, hb]
  simp only [this, Finset.sum_add_distrib, Finset.sum_ite_eq', List.mem_toFinset]
  rw [if_pos (hin _ (Or.inl rfl)), if_pos (hin _ (Or.inr (Or.inl rfl))),
    if_pos (hin _ (Or.inr (Or.inr rfl)))]

theorem projectedMultiplier_dot (b : Bg) (i : ℕ) (dn : V3 ℝ) :
    V3.dot (projectedMultiplier b i) dn = normalGradient b i dn := by
  unfold projectedMultiplier normalGradient scaledTangentProjection
  simp only [M3.mulVec_sub, M3.mulVec_outer, M3.mulVec_diag, dot_sub_left, dot_sub_right, dot_smul_left,
    dot_smul_right]
  rw [dot_symm (normalMultiplier b i) (b.S.nml i)]
  ring

theorem vertexNormal_hasD {x : ℝ → ℕ → V3 ℝ} {x' : ℕ → V3 ℝ} (tris : List Tri) (v : ℕ)
    (hx : ∀ v, HasD (fun s => x s v) (x' v) t) :
    HasD (fun s => vertexNormal tris (x s) v)
      (tris.map fun T => if v = T.a ∨ v = T.b ∨ v = T.c then areaNormalDir (x t) T x' else 0).sum t := by
  induction tris with
  | nil => exact HasD.const 0
  | cons T l ih =>
    have h1 : HasD (fun s => (if v = T.a ∨ v = T.b ∨ v = T.c then
        areaNormal (x s T.a) (x s T.b) (x s T.c) else 0))
        (if v = T.a ∨ v = T.b ∨ v = T.c then areaNormalDir (x t) T x' else 0) t := by
      split
      · exact areaNormal_hasD T hx
      · exact HasD.const 0
    simpa [vertexNormal, List.map_cons, List.sum_cons] using h1.add ih

/-- C69 for surfaces sampled at their vertices: the Jacobian with respect to the vertices of the
surface is the derivative of the potential as the vertices move and the area weighted normals with
them. The view is one that `compute_extended_set` makes: all corners of a triangle are in it, unless all of them are
beyond the radius. -/
theorem vertex_jacobian (q : V3 ℝ) (tris : List Tri) (vel : ℕ → V3 ℝ) (value : ℕ → ℝ)
    (x : ℝ → ℕ → V3 ℝ) (x' : ℕ → V3 ℝ) (hx : ∀ v, HasD (fun s => x s v) (x' v) t)
    (hd : ∀ T ∈ tris, T.Distinct)
    (hview : ∀ T ∈ tris, (∀ v, T.Has v → v ∈ view) ∨
      ∃ r, k.radius = some r ∧ ∀ v, T.Has v → r ≤ (q - x t v).norm)
    (h : Regular k P q view (vertexSamples tris (x t) vel value) c) :
    ∃ J, vertexJacobianAt q view (vertexSamples tris (x t) vel value) k tris P = some J ∧
      J.length = view.length ∧
      HasDerivAt (fun s => potentialAt q view (vertexSamples tris (x s) vel value) k P old)
        (applyBlocks J view x') t := by
  classical
  obtain ⟨hcl, -⟩ := regular_weighable (q := fun _ => q) (S := fun s => vertexSamples tris (x s) vel value) (t := t) h
  have hcen : k.Finite ∨ 0 < (q - x t c).norm := h.center.imp id norm_pos_of_ne
  unfold vertexJacobianAt
  rw [local_eq none hcl]
  refine ⟨_, rfl, by simp, ?_⟩
  have := potential_hasDeriv (old := old) (q := fun _ => q)
    (S := fun s => vertexSamples tris (x s) vel value)
    (p' := x')
    (n' := fun i => (tris.map fun T : Tri => if i = T.a ∨ i = T.b ∨ i = T.c then
      areaNormalDir (x t) T x' else 0).sum) h (HasD.const _)
    (fun i _ => hx i)
    (fun i _ => vertexNormal_hasD tris i hx) (fun _ _ _ => rfl)
  refine this.congr_deriv ?_
  set b := bgAt k P q view (vertexSamples tris (x t) vel value) c none with hb
  rw [dot_zero_right, zero_add, applyBlocks, List.zipWith_map_left, List.zipWith_self]
  simp only [dot_add_left, List.sum_map_add]
  congr 1
  -- multipliers of far vertices
  have hfar : ∀ T ∈ tris, ¬ (∀ v, T.Has v → v ∈ view) → ∀ v, T.Has v → projectedMultiplier b v = 0 := by
    intro T hT hn v hv
    obtain ⟨r, hr, hfar⟩ := (hview T hT).resolve_left hn
    have hw : weight b.kernel b.dist b.q b.S v = 0 := by
      have := weight_far (q := q) (S := vertexSamples tris (x t) vel value) (i := v)
        (d := (q - x t c).norm) h.proper hcen hr (hfar v hv)
      exact this
    have hm : normalMultiplier b v = 0 := by
      unfold normalMultiplier
      rw [hw, zero_mul]
      ext <;> simp
    unfold projectedMultiplier
    rw [hm]
    ext <;> simp [M3.mulVec, V3.dot]
  -- the multiplier of a triangle
  let pm : Tri → V3 ℝ := fun T => projectedMultiplier b T.a + projectedMultiplier b T.b +
    projectedMultiplier b T.c
  have hlhs : (view.map fun i => normalGradient b i (tris.map fun T =>
      if i = T.a ∨ i = T.b ∨ i = T.c then areaNormalDir (x t) T x' else 0).sum).sum =
      (tris.map fun T => V3.dot (pm T) (areaNormalDir (x t) T x')).sum := by
    simp only [← projectedMultiplier_dot, dot_sum_right]
    rw [sum_comm]
    congr 1
    refine List.map_congr_left fun T hT => ?_
    have e : ∀ i, V3.dot (projectedMultiplier b i)
        (if i = T.a ∨ i = T.b ∨ i = T.c then areaNormalDir (x t) T x' else 0) =
        if T.Has i then V3.dot (projectedMultiplier b i) (areaNormalDir (x t) T x') else 0 := by
      intro i
      unfold Tri.Has
      split
      · rfl
      · exact dot_zero_right _
    simp only [e]
    by_cases hin : ∀ v, T.Has v → v ∈ view
    · rw [corners_sum h.nodup T (hd T hT) hin, dot_add_left, dot_add_left]
    · have hz := hfar T hT hin
      rw [sum_eq_zero]
      · show _ = V3.dot (_ + _ + _) _
        rw [hz _ (Or.inl rfl), hz _ (Or.inr (Or.inl rfl)), hz _ (Or.inr (Or.inr rfl))]
        simp [V3.dot]
      · intro i _
        split
        · rename_i hi
          rw [hz i hi, dot_zero_left]
        · rfl
  rw [hlhs]
  have hrhs : ∀ v, V3.dot (vertexNormalGradProduct b tris v) (x' v) =
      (tris.map fun T => if T.Has v then
        V3.dot (pm T) (M3.mulVec (((T.position v).map fun j => areaNormalGrad (x t) T j).getD 0) (x' v))
        else 0).sum := by
    intro v
    unfold vertexNormalGradProduct
    rw [dot_sum, dualTopo_sum tris hd]
    congr 1
    refine List.map_congr_left fun T hT => ?_
    obtain ⟨hab, hbc, hca⟩ := hd T hT
    by_cases hv : T.Has v
    · rw [if_pos hv, if_pos hv]
      have hpm : projectedMultiplier b v +
          (([T.a, T.b, T.c].filter (· ≠ v)).map (projectedMultiplier b)).sum = pm T := by
        rcases hv with rfl | rfl | rfl
        · simp [hab.symm, hca, pm, add_assoc]
        · simp [hab, hbc.symm, pm]
          abel
        · simp [hca.symm, hbc, pm]
          abel
      simp only [hpm]
      rw [← M3.mulVec_neg]
      have hpos : ∃ j, T.position v = some j := by
        unfold Tri.position
        split
        · exact ⟨_, rfl⟩
        · split
          · exact ⟨_, rfl⟩
          · split
            · exact ⟨_, rfl⟩
            · rename_i h1 h2 h3
              rcases hv with rfl | rfl | rfl
              · exact absurd rfl h1
              · exact absurd rfl h2
              · exact absurd rfl h3
      obtain ⟨j, hj⟩ := hpos
      rw [hj]
      exact dot_areaNormalGrad (x t) T j _ _
    · rw [if_neg hv, if_neg hv]
  simp only [hrhs]
  rw [sum_comm]
  congr 1
  refine List.map_congr_left fun T hT => ?_
  obtain ⟨hab, hbc, hca⟩ := hd T hT
  by_cases hin : ∀ v, T.Has v → v ∈ view
  · rw [corners_sum h.nodup T (hd T hT) hin fun v => V3.dot (pm T) (M3.mulVec
      (((T.position v).map fun j => areaNormalGrad (x t) T j).getD 0) (x' v))]
    unfold areaNormalDir
    rw [dot_add_right, dot_add_right]
    simp [Tri.position, hab, hbc, hca.symm]
  · have hz := hfar T hT hin
    have hpm : pm T = 0 := by
      show _ + _ + _ = _
      rw [hz _ (Or.inl rfl), hz _ (Or.inr (Or.inl rfl)), hz _ (Or.inr (Or.inr rfl))]
      simp
    rw [hpm, dot_zero_left, sum_eq_zero]
    intro i _
    split
    · exact dot_zero_left _
    · rfl

/-! ## Cases that meet the hypotheses -/

/-- A right triangle. -/
def demoVerts (i : ℕ) : V3 ℝ := if i = 0 then 0 else if i = 1 then ⟨3, 0, 0⟩ else ⟨0, 3, 0⟩

def demoTri : Tri := ⟨0, 1, 2⟩

theorem demo_face : Regular (.cubic 1) ⟨.distanceBased, true⟩ ⟨1, 1, 1 / 2⟩ [0]
    (faceSamples (fun _ => demoTri) demoVerts fun _ => 0) 0 := by
  have hp : (⟨1, 1, 1 / 2⟩ : V3 ℝ) - (faceSamples (fun _ => demoTri) demoVerts fun _ => 0).pos 0 =
      ⟨0, 0, 1 / 2⟩ := by
    ext <;> simp [faceSamples, demoTri, demoVerts]
  have hn : ∀ i, (faceSamples (fun _ => demoTri) demoVerts fun _ => 0).nml i = ⟨0, 0, 9⟩ := fun i => by
    ext <;> simp [faceSamples, demoTri, demoVerts, areaNormal, V3.cross]
    norm_num
  have hnorm : ((⟨1, 1, 1 / 2⟩ : V3 ℝ) -
      (faceSamples (fun _ => demoTri) demoVerts fun _ => 0).pos 0).norm = 1 / 2 := by
    rw [hp]
    simp only [V3.norm, V3.dot, mul_zero, zero_add]
    rw [Real.sqrt_mul_self (by norm_num)]
  have hne : (⟨1, 1, 1 / 2⟩ : V3 ℝ) ≠ (faceSamples (fun _ => demoTri) demoVerts fun _ => 0).pos 0 := by
    intro h
    rw [h, sub_self] at hp
    have := congrArg V3.z hp
    norm_num at this
  constructor
  · exact one_pos
  · simp
  · simp
  · intro i hi h; simp at hi; exact absurd hi h
  · intro r hr; cases hr; rw [hnorm]; norm_num
  · intro r eps h; cases h
  · exact Or.inl trivial
  · intro i _; rw [hn]; intro h; have := congrArg V3.z h; norm_num at this
  · intro _ _; rw [hn, hp]; simp [V3.dot]
  · intro _; exact ⟨by decide, trivial, by simp [Kern.radius], hne⟩

example : ∃ J, faceJacobianAt ⟨1, 1, 1 / 2⟩ [0] (faceSamples (fun _ => demoTri) demoVerts fun _ => 0)
    (.cubic 1) (fun _ => demoTri) demoVerts ⟨.distanceBased, true⟩ = some J ∧
      J.length = (faceJacobianCols [0] fun _ => demoTri).length ∧
      HasDerivAt (fun s : ℝ => potentialAt ⟨1, 1, 1 / 2⟩ [0]
        (faceSamples (fun _ => demoTri) (fun v => demoVerts v + s • (⟨0, 0, v⟩ : V3 ℝ)) fun _ => 0)
        (.cubic 1) ⟨.distanceBased, true⟩ 0)
        (applyBlocks J (faceJacobianCols [0] fun _ => demoTri) fun v => ⟨0, 0, v⟩) 0 := by
  have e : (fun v => demoVerts v + (0 : ℝ) • (⟨0, 0, v⟩ : V3 ℝ)) = demoVerts := by
    funext v; ext <;> simp
  have := face_jacobian (k := .cubic 1) (P := ⟨.distanceBased, true⟩) (view := [0]) (c := 0) (t := 0)
    (old := 0) ⟨1, 1, 1 / 2⟩ (fun _ => demoTri) (fun _ => 0)
    (fun s v => demoVerts v + s • (⟨0, 0, v⟩ : V3 ℝ)) (fun v => ⟨0, 0, v⟩) (fun v => HasD.line _ _)
    (by rw [e]; exact demo_face)
  rwa [e] at this

example : ∀ T ∈ [demoTri], (∀ v, T.Has v → v ∈ [0, 1, 2]) ∧ T.Distinct := by
  intro T hT
  simp at hT
  subst hT
  refine ⟨?_, by decide, by decide, by decide⟩
  rintro v (rfl | rfl | rfl) <;> decide

theorem demo_vertex : Regular (.cubic 10) ⟨.distanceBased, false⟩ ⟨1, 1 / 2, 1⟩ [0, 1, 2]
    (vertexSamples [demoTri] demoVerts (fun _ => 0) fun _ => 0) 0 := by
  have hn : ∀ i ∈ [0, 1, 2], (vertexSamples [demoTri] demoVerts (fun _ => 0) fun _ => 0).nml i =
      ⟨0, 0, 9⟩ := by
    intro i hi
    have : (vertexSamples [demoTri] demoVerts (fun _ => 0) fun _ => 0).nml i =
        areaNormal (demoVerts 0) (demoVerts 1) (demoVerts 2) := by
      simp only [List.mem_cons, List.not_mem_nil, or_false] at hi
      simp only [vertexSamples, vertexNormal, List.map_cons, List.map_nil, List.sum_cons, List.sum_nil,
        add_zero, demoTri]
      rw [if_pos hi]
    rw [this]
    ext <;> simp [demoVerts, areaNormal, V3.cross]
    norm_num
  have hpos : ∀ i, (vertexSamples [demoTri] demoVerts (fun _ => 0) fun _ => 0).pos i = demoVerts i :=
    fun _ => rfl
  have hc : ((⟨1, 1 / 2, 1⟩ : V3 ℝ) - demoVerts 0).norm = 3 / 2 := by
    simp only [V3.norm, V3.dot, demoVerts, if_true, V3.sub_x, V3.sub_y, V3.sub_z, V3.zero_x, V3.zero_y,
      V3.zero_z]
    rw [show ((1 - 0) * (1 - 0) + (1 / 2 - 0) * (1 / 2 - 0) + (1 - 0) * (1 - 0) : ℝ) = 3 / 2 * (3 / 2) by
      norm_num, Real.sqrt_mul_self (by norm_num)]
  constructor
  · show (0 : ℝ) < 10
    norm_num
  · decide
  · simp
  · intro i hi h
    simp only [List.mem_cons, List.not_mem_nil, or_false] at hi
    rw [hpos, hpos]
    refine Real.sqrt_lt_sqrt (V3.dot_self_nonneg _) ?_
    rcases hi with rfl | rfl | rfl
    · exact absurd rfl h
    · simp [demoVerts, V3.dot]; norm_num
    · simp [demoVerts, V3.dot]; norm_num
  · intro r hr; cases hr; rw [hpos, hc]; norm_num
  · intro r eps h; cases h
  · exact Or.inl trivial
  · intro i hi; rw [hn i hi]; intro h; have := congrArg V3.z h; norm_num at this
  · rintro _ (h | ⟨r, hr, h⟩)
    · cases h
    · cases hr; rw [hpos, hc] at h; norm_num at h
  · intro h; cases h

/-! ## Given backgrounds that are mixed in -/

/-- C69 fails for a given background that is mixed in: the Jacobian is computed as if the given
background were zero, although the potential changes with the weight of the background. -/
theorem weighted_input_violated :
    ∃ J, queryJacobianAt ⟨1, 0, 0⟩ [0] demoSamples none (.cubic 2) ⟨.fromInput, true⟩ = some J ∧
    V3.dot J ⟨1, 0, 0⟩ = 0 ∧
    HasDerivAt (fun s : ℝ => potentialAt (⟨1, 0, 0⟩ + s • ⟨1, 0, 0⟩) [0] demoSamples (.cubic 2)
      ⟨.fromInput, true⟩ 1) (3 / 4) 0 := by
  classical
  refine ⟨queryGradient (bgAt (.cubic 2) ⟨.fromInput, true⟩ ⟨1, 0, 0⟩ [0] demoSamples 0 none), ?_, ?_, ?_⟩
  · unfold queryJacobianAt
    rw [new_eq (c := 0) none none rfl]
    rfl
  · have hn : V3.dot ((1 / (demoSamples.nml 0).norm) • demoSamples.nml 0) ⟨1, 0, 0⟩ = 0 := by
      simp [demoSamples, V3.dot]
    have hd : V3.dot ((1 / (demoSamples.nml 0).norm) • demoSamples.nml 0)
        (⟨1, 0, 0⟩ - demoSamples.pos 0) = 0 := by
      simp [demoSamples, V3.dot]
    have hv : demoSamples.value 0 = 0 := rfl
    simp only [queryGradient, bgAt, Bg.newImpl, List.map_cons, List.map_nil, List.sum_cons, List.sum_nil,
      add_zero, dot_add_left, sampleQueryJacobian, dot_smul_left, Bg.queryJacobian, Bg.fieldValue,
      Bg.fieldGrad, BgValue.new, if_true, Option.getD_none, zero_mul, dot_zero_left, mul_zero] at hn hd ⊢
    rw [hv, hd, hn]
    simp
  · have hf : HasDerivAt (fun s : ℝ => 1 - 3 * ((1 - s) * (1 - s)) / 4 + (1 - s) * (1 - s) * (1 - s) / 4)
        (3 / 4) 0 := by
      have h1 : HasDerivAt (fun s : ℝ => 1 - s) (-1) 0 := by
        simpa using (hasDerivAt_id (0 : ℝ)).const_sub 1
      have h2 := h1.fun_mul h1
      have h3 := h2.fun_mul h1
      have h4 := (((h2.const_mul 3).div_const 4).const_sub 1).fun_add (h3.div_const 4)
      refine h4.congr_deriv ?_
      norm_num
    refine hf.congr_of_eventuallyEq ?_
    filter_upwards [Ioo_mem_nhds (show (-1 : ℝ) < 0 by norm_num) (show (0 : ℝ) < 1 by norm_num)] with s hs
    have hp : (⟨1, 0, 0⟩ + s • ⟨1, 0, 0⟩ : V3 ℝ) - demoSamples.pos 0 = ⟨1 + s, 0, 0⟩ := by
      ext <;> simp [demoSamples]
    have hnorm : ((⟨1, 0, 0⟩ + s • ⟨1, 0, 0⟩ : V3 ℝ) - demoSamples.pos 0).norm = 1 + s := by
      rw [hp, norm_axis, abs_of_pos (by linarith [hs.1])]
    have hpsi : samplePotential (⟨1, 0, 0⟩ + s • ⟨1, 0, 0⟩ : V3 ℝ) demoSamples 0 = 0 := by
      unfold samplePotential
      rw [hp]
      simp [demoSamples, V3.dot]
    have hw : weight (.cubic 2) (1 + s) (⟨1, 0, 0⟩ + s • ⟨1, 0, 0⟩ : V3 ℝ) demoSamples 0 =
        1 - 3 * ((1 + s) * (1 + s)) / 4 + (1 + s) * (1 + s) * (1 + s) / 4 := by
      simp only [weight, Kern.withClosest, Kern.eval, hnorm, Kern.f, cubicF_eq]
      rw [if_neg (by linarith [hs.2])]
      ring
    have hwb : backgroundWeight (.cubic 2) true (1 + s) =
        1 - 3 * ((1 - s) * (1 - s)) / 4 + (1 - s) * (1 - s) * (1 - s) / 4 := by
      simp only [backgroundWeight, Kern.radius, Kern.f, cubicF_eq, if_true]
      rw [if_neg (by linarith [hs.2]), if_neg (by linarith [hs.1])]
      ring
    rw [potentialAt_eq (c := 0) rfl]
    simp only [hnorm, List.map_cons, List.map_nil, List.sum_cons, List.sum_nil, add_zero, hw, hwb, hpsi,
      mul_zero, zero_mul]
    have hsum : (1 - 3 * ((1 + s) * (1 + s)) / 4 + (1 + s) * (1 + s) * (1 + s) / 4 +
        (1 - 3 * ((1 - s) * (1 - s)) / 4 + (1 - s) * (1 - s) * (1 - s) / 4) : ℝ) = 1 := by ring
    rw [hsum]
    simp [Bg.newImpl, BgValue.new, Bg.fieldValue]

end Softy.Field
