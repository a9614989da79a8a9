import Verif.Model.Pressure
import Verif.Props.Volume

/-!
# C66, C68 with volume constraints
-/

noncomputable section

namespace Softy.Volume

open Softy Assembly Fem

/-! ## Specification -/

/-- All elements and zones are made of the first `N` vertices. -/
structure Sealed.Within (S : Sealed) (N : ℕ) : Prop where
  base : S.toProblem.Within N
  volumes : ∀ P ∈ S.volumes, Volume.Within P.topo N

/-! ## Lemmas -/

/-- The forces of all zones. -/
def Sealed.pressure (S : Sealed) (x : ℕ → V3 ℝ) (i : ℕ) : V3 ℝ :=
  (S.volumes.map fun P => P.forces x i).sum

theorem foldl_energy (l : List Penalty) (x : ℕ → V3 ℝ) (e : ℝ) :
    l.foldl (fun e P => e + P.energy x) e = e + (l.map fun P => P.energy x).sum := by
  induction l generalizing e with
  | nil => simp
  | cons P l ih => rw [List.foldl_cons, ih, List.map_cons, List.sum_cons]; ring

theorem foldl_force (l : List Penalty) (x : ℕ → V3 ℝ) (F : ℕ → ℝ) (i : ℕ) :
    l.foldl (fun r P => P.subtractForce x r) F i =
      F i + (l.map fun P => P.factor x * coord (vertexNormal P.topo x) i).sum := by
  induction l generalizing F with
  | nil => simp
  | cons P l ih =>
    rw [List.foldl_cons, ih, List.map_cons, List.sum_cons, subtractForce_eq]
    ring

theorem pressure_coord (l : List Penalty) (x : ℕ → V3 ℝ) (i : ℕ) :
    coord (fun j => (l.map fun P => P.forces x j).sum) i =
      (l.map fun P => P.factor x * coord (vertexNormal P.topo x) i).sum := by
  induction l with
  | nil => exact coord_zero i
  | cons P l ih =>
    simp only [List.map_cons, List.sum_cons]
    rw [coord_add', ih]
    congr 1
    have : P.forces x = fun j => P.factor x • vertexNormal P.topo x j :=
      funext fun j => forces_eq P x j
    rw [this, coord_smul]

theorem Sealed.force_eq (S : Sealed) (x v : ℕ → V3 ℝ) (dqdv : ℝ) (f : ℕ → V3 ℝ)
    (h : S.toProblem.force x v dqdv = some f) :
    S.force x v dqdv = some fun i => f i + S.pressure x i := by
  unfold Sealed.force
  rw [h, Option.map_some]
  congr 1
  rw [← toVec_coord fun i => f i + S.pressure x i]
  congr 1
  funext i
  rw [foldl_force, ofVec_eq, coord_add']
  unfold Sealed.pressure
  rw [pressure_coord]

theorem Sealed.force_inv (S : Sealed) (x v : ℕ → V3 ℝ) (dqdv : ℝ) (g : ℕ → V3 ℝ)
    (h : S.force x v dqdv = some g) :
    ∃ f, S.toProblem.force x v dqdv = some f ∧ g = fun i => f i + S.pressure x i := by
  cases hf : S.toProblem.force x v dqdv with
  | none => simp [Sealed.force, hf] at h
  | some f =>
    refine ⟨f, rfl, ?_⟩
    rw [S.force_eq x v dqdv f hf, Option.some.injEq] at h
    exact h.symm

/-- The residual is that of the elements plus the pressure. -/
theorem Sealed.residual_eq (S : Sealed) (fm pm : ℝ) (prev v0 x v r f : ℕ → V3 ℝ)
    (h : S.toProblem.residual fm pm prev v0 x v = some (r, f)) :
    S.residual fm pm prev v0 x v =
      some (fun i => r i + (S.dt * fm) • S.pressure x i, fun i => f i + S.pressure x i) := by
  classical
  cases hf : S.toProblem.force x v (S.dt * fm) with
  | none => simp [Problem.residual, hf] at h
  | some f' =>
    obtain ⟨r', h', hr⟩ := Fem.residual_eq S.toProblem fm pm prev v0 x v f' hf
    rw [h, Option.some.injEq, Prod.mk.injEq] at h'
    obtain ⟨rfl, rfl⟩ := h'
    simp only [Sealed.residual, S.force_eq x v _ f hf, Option.map_some, Option.some.injEq,
      Prod.mk.injEq, and_true]
    funext i
    rw [hr]
    by_cases hs : S.isStatic
    · simp only [if_pos hs, add_zero]
      by_cases hp : pm > 0
      · simp only [if_pos hp, smul_add, smul_smul, mul_comm pm]
        abel
      · simp only [if_neg hp, add_zero, smul_add]
    · simp only [if_neg hs, momentumDiff_eq]
      by_cases hp : pm > 0
      · simp only [if_pos hp, smul_add, smul_smul, mul_comm pm]
        abel
      · simp only [if_neg hp, add_zero, smul_add]
        abel

theorem Sealed.residual_inv (S : Sealed) (fm pm : ℝ) (prev v0 x v r f : ℕ → V3 ℝ)
    (h : S.residual fm pm prev v0 x v = some (r, f)) :
    ∃ r' f', S.toProblem.residual fm pm prev v0 x v = some (r', f') ∧
      r = (fun i => r' i + (S.dt * fm) • S.pressure x i) ∧ f = fun i => f' i + S.pressure x i := by
  cases hf : S.toProblem.force x v (S.dt * fm) with
  | none => simp [Sealed.residual, Sealed.force, hf] at h
  | some f' =>
    obtain ⟨r', h', -⟩ := Fem.residual_eq S.toProblem fm pm prev v0 x v f' hf
    refine ⟨r', f', h', ?_⟩
    rw [S.residual_eq fm pm prev v0 x v r' f' h', Option.some.injEq, Prod.mk.injEq] at h
    exact ⟨h.1.symm, h.2.symm⟩

theorem Sealed.objective_eq (S : Sealed) (N : ℕ) (fm pm : ℝ) (prev v0 x v : ℕ → V3 ℝ) (W : ℝ)
    (h : S.toProblem.objective N fm pm prev v0 x v = some W) :
    S.objective N fm pm prev v0 x v = some (W + (S.volumes.map fun P => P.energy x).sum) := by
  classical
  simp only [Problem.objective] at h
  cases he : S.toProblem.energy x v (S.dt * fm) with
  | none => simp [he] at h
  | some e =>
    rw [he, Option.map_some, Option.some.injEq] at h
    simp only [Sealed.objective, Sealed.energy, he, Option.map_some, foldl_energy, Option.some.injEq]
    rw [← h]
    split_ifs <;> ring

theorem place_hasD (x0 : ℕ → V3 ℝ) (q : ℝ) (v : ℝ → ℕ → V3 ℝ) (w : ℕ → V3 ℝ) (t : ℝ)
    (hv : ∀ i, HasD (fun s => v s i) (w i) t) (i : ℕ) :
    HasD (fun s => place x0 q (v s) i) (q • w i) t := by
  refine ((HasD.const (x0 i)).add (HasD.smul (hasDerivAt_const t q) (hv i))).congr ?_
  rw [zero_smul, zero_add, zero_add]

theorem listSum_hasDerivAt {ι : Type} (l : List ι) (f : ι → ℝ → ℝ) (f' : ι → ℝ) (t : ℝ)
    (h : ∀ a ∈ l, HasDerivAt (f a) (f' a) t) :
    HasDerivAt (fun s => (l.map fun a => f a s).sum) (l.map f').sum t := by
  induction l with
  | nil => exact hasDerivAt_const t 0
  | cons a l ih =>
    simp only [List.map_cons, List.sum_cons]
    exact (h a List.mem_cons_self).fun_add (ih fun b hb => h b (List.mem_cons_of_mem _ hb))

theorem rowMul_smul (T : List ((ℕ × ℕ) × ℝ)) (c : ℝ) (x : ℕ → ℝ) (i : ℕ) :
    rowMul T (fun j => c * x j) i = c * rowMul T x i := by
  unfold rowMul
  rw [← List.sum_map_mul_left]
  congr 1
  refine List.map_congr_left fun e _ => ?_
  split_ifs <;> ring

theorem zip_flatMap' {ι α β : Type} (l : List ι) (f : ι → List α) (g : ι → List β)
    (h : ∀ a, (f a).length = (g a).length) :
    (l.flatMap f).zip (l.flatMap g) = l.flatMap fun a => (f a).zip (g a) := by
  induction l with
  | nil => rfl
  | cons a l ih => rw [List.flatMap_cons, List.flatMap_cons, List.zip_append (h a), ih, List.flatMap_cons]

theorem storedEntry_append (T U : List ((ℕ × ℕ) × ℝ)) (k : ℕ × ℕ) :
    Sparse.storedEntry (T ++ U) k = Sparse.storedEntry T k + Sparse.storedEntry U k := by
  simp [Sparse.storedEntry]

theorem hessian_within (P : Penalty) (N : ℕ) (hN : Within P.topo N) :
    ∀ p ∈ P.hessianIndices, p.1 < 3 * N ∧ p.2 < 3 * N := by
  intro p hp
  unfold Penalty.hessianIndices at hp
  obtain ⟨t, ht, hp⟩ := List.mem_flatMap.1 hp
  rcases List.mem_append.1 hp with hp | hp
  · obtain ⟨e, -, rfl⟩ := List.mem_map.1 hp
    have h1 := hN t ht (e.2.2.1 + e.2.2.2)
    have h2 := hN t ht e.2.2.1
    have h3 := e.1.isLt
    have h4 := e.2.1.isLt
    constructor
    · simp only; omega
    · simp only; omega
  · split_ifs at hp
    · cases hp
    · obtain ⟨u, hu, hp⟩ := List.mem_flatMap.1 hp
      obtain ⟨vi, -, hp⟩ := List.mem_flatMap.1 hp
      obtain ⟨vj, -, hp⟩ := List.mem_flatMap.1 hp
      obtain ⟨i, -, hp⟩ := List.mem_flatMap.1 hp
      obtain ⟨j, -, rfl⟩ := List.mem_map.1 hp
      have h1 := hN t ht vi
      have h2 := hN u hu vj
      constructor
      · simp only; omega
      · simp only; omega

theorem lengths (P : Penalty) (x : ℕ → V3 ℝ) (scale : ℝ) :
    P.hessianIndices.length = (P.hessianValues x scale).length :=
  (hessian_size P x scale).1.trans (hessian_size P x scale).2.1.symm

/-! ## Theorems -/

/-- C66. With volume constraints, the residual is the derivative of the objective with respect to the
velocities. -/
theorem sealed_objective_derivative (S : Sealed) (N : ℕ) (hN : S.Within N) (hT : 0 ≤ S.timeStep)
    (hP : ∀ P ∈ S.volumes, P.Proper)
    (fm pm : ℝ) (hfm : 0 < fm) (prev v0 x0 : ℕ → V3 ℝ) (v : ℝ → ℕ → V3 ℝ) (w : ℕ → V3 ℝ) (t : ℝ)
    (hv : ∀ i, HasD (fun s => v s i) (w i) t)
    (hs : S.toProblem.Smooth (place x0 (S.dt * fm) (v t))) :
    ∃ (W : ℝ → ℝ) (r f : ℕ → V3 ℝ),
      (∀ᶠ s in nhds t,
        S.objective N fm pm prev v0 (place x0 (S.dt * fm) (v s)) (v s) = some (W s)) ∧
      S.residual fm pm prev v0 (place x0 (S.dt * fm) (v t)) (v t) = some (r, f) ∧
      HasDerivAt W (∑ i ∈ Finset.range N, V3.dot (r i) (w i)) t := by
  obtain ⟨W, r, f, h1, h2, h3⟩ := objective_derivative S.toProblem N hN.base hT fm pm hfm prev v0 x0 v w
    t hv hs
  refine ⟨fun s => W s + (S.volumes.map fun P => P.energy (place x0 (S.dt * fm) (v s))).sum, _, _, ?_,
    S.residual_eq fm pm prev v0 _ _ r f h2, ?_⟩
  · exact h1.mono fun s hs => S.objective_eq N fm pm prev v0 _ _ _ hs
  · have h4 := listSum_hasDerivAt S.volumes (fun P s => P.energy (place x0 (S.dt * fm) (v s)))
      (fun P => ∑ i ∈ Finset.range N, V3.dot (P.forces (place x0 (S.dt * fm) (v t)) i)
        ((S.dt * fm) • w i)) t fun P hm =>
      force_derivative P (hP P hm) N (hN.volumes P hm) _ _ t (place_hasD x0 _ v w t hv)
    refine (h3.fun_add h4).congr_deriv ?_
    simp only [dot_add_left, Finset.sum_add_distrib]
    congr 1
    unfold Sealed.pressure
    generalize S.volumes = l
    induction l with
    | nil => simp [V3.dot]
    | cons P l ih =>
      simp only [List.map_cons, List.sum_cons, smul_add, dot_add_left, Finset.sum_add_distrib]
      rw [ih]
      congr 1
      refine Finset.sum_congr rfl fun i _ => ?_
      simp only [V3.dot, V3.smul_x, V3.smul_y, V3.smul_z]
      ring

/-- The Jacobian with volume constraints times a vector. -/
theorem sealed_jacobian_mul (S : Sealed) (N : ℕ) (hN : S.Within N) (hD : S.toProblem.Distinct)
    (x v w : ℕ → V3 ℝ) (q fmul : ℝ) (i : ℕ) :
    ∑ j ∈ Finset.range (3 * N), Sparse.storedEntry (S.jacobianIndices.zip
        (S.jacobianValues x v q fmul)) (i, j) * coord w j =
    ∑ j ∈ Finset.range (3 * N), Sparse.storedEntry (S.toProblem.jacobianIndices.zip
        (S.toProblem.jacobianValues x v q fmul)) (i, j) * coord w j +
      (S.volumes.map fun P => rowMul (P.triplets x (q * fmul)) (coord w) i).sum := by
  have hz : S.jacobianIndices.zip (S.jacobianValues x v q fmul) =
      S.toProblem.jacobianIndices.zip (S.toProblem.jacobianValues x v q fmul) ++
        S.volumes.flatMap fun P => P.triplets x (q * fmul) := by
    unfold Sealed.jacobianIndices Sealed.jacobianValues
    have hl := jacobian_size S.toProblem hD x v q fmul
    rw [List.zip_append (hl.1.trans hl.2.symm), zip_flatMap' _ _ _ fun P => lengths P _ _, mul_one]
    rfl
  rw [hz]
  simp only [storedEntry_append, add_mul, Finset.sum_add_distrib]
  congr 1
  rw [← rowMul_flatMap, rowMul_stored _ _ _ (3 * N)]
  intro e he
  obtain ⟨P, hP, he⟩ := List.mem_flatMap.1 he
  exact (hessian_within P N (hN.volumes P hP) e.1 (List.of_mem_zip (a := e.1) (b := e.2) he).1).2

theorem sealed_jacobian_aux (S : Sealed) (N : ℕ) (hN : S.Within N) (hD : S.toProblem.Distinct)
    (hT : 0 ≤ S.timeStep) (fm pm : ℝ) (hfm : 0 < fm)
    (prev v0 x0 : ℕ → V3 ℝ) (v : ℝ → ℕ → V3 ℝ) (w : ℕ → V3 ℝ) (t : ℝ)
    (hv : ∀ i, HasD (fun s => v s i) (w i) t)
    (hs : S.toProblem.Smooth (place x0 (S.dt * fm) (v t)))
    (hV : ∀ P ∈ S.volumes, ∀ (i : ℕ), HasDerivAt (fun s => (S.dt * fm * (S.dt * fm)) *
      P.subtractForce (place x0 (S.dt * fm) (v s)) (fun _ => 0) i)
      (rowMul (P.triplets (place x0 (S.dt * fm) (v t)) (S.dt * fm * (S.dt * fm)))
        (coord fun i => (S.dt * fm) • w i) i) t) :
    ∃ r : ℝ → ℕ → V3 ℝ,
      (∀ᶠ s in nhds t, ∃ f,
        S.residual fm pm prev v0 (place x0 (S.dt * fm) (v s)) (v s) = some (r s, f)) ∧
      ∀ i, HasDerivAt (fun s => coord (r s) i)
        (∑ j ∈ Finset.range (3 * N), Sparse.storedEntry (S.jacobianIndices.zip
          (S.jacobianValues (place x0 (S.dt * fm) (v t)) (v t) (S.dt * fm) (S.dt * fm))) (i, j)
          * coord w j) t := by
  obtain ⟨r, h1, h2⟩ := jacobian_derivative S.toProblem N hN.base hD hT fm pm hfm prev v0 x0 v w t hv hs
  have hq : S.dt * fm ≠ 0 := (mul_pos (dt_pos S.toProblem hT) hfm).ne'
  refine ⟨fun s i => r s i + (S.dt * fm) • S.pressure (place x0 (S.dt * fm) (v s)) i, ?_, fun i => ?_⟩
  · refine h1.mono fun s ⟨f, hf⟩ => ⟨_, S.residual_eq fm pm prev v0 _ _ _ f hf⟩
  · rw [sealed_jacobian_mul S N hN hD]
    have h4 := listSum_hasDerivAt S.volumes (fun P s => S.dt * fm *
      (P.factor (place x0 (S.dt * fm) (v s)) *
        coord (vertexNormal P.topo (place x0 (S.dt * fm) (v s))) i))
      (fun P => rowMul (P.triplets (place x0 (S.dt * fm) (v t)) (S.dt * fm * (S.dt * fm)))
        (coord w) i) t fun P hm => by
        have := (hV P hm i).const_mul (S.dt * fm)⁻¹
        rw [coord_smul, rowMul_smul, inv_mul_cancel_left₀ hq] at this
        refine this.congr_of_eventuallyEq (Filter.Eventually.of_forall fun s => ?_)
        simp only [subtractForce_eq, zero_add]
        rw [mul_assoc (S.dt * fm), inv_mul_cancel_left₀ hq]
    refine ((h2 i).fun_add h4).congr_of_eventuallyEq (Filter.Eventually.of_forall fun s => ?_)
    simp only
    rw [coord_add', coord_smul]
    simp only
    unfold Sealed.pressure
    rw [pressure_coord, List.sum_map_mul_left]

/-- C66. With volume constraints whose full Hessian is used, the Jacobian that is assembled is the
derivative of the residual with respect to the velocities. -/
theorem sealed_jacobian_derivative (S : Sealed) (N : ℕ) (hN : S.Within N) (hD : S.toProblem.Distinct)
    (hT : 0 ≤ S.timeStep) (hA : ∀ P ∈ S.volumes, P.approx = false) (fm pm : ℝ) (hfm : 0 < fm)
    (prev v0 x0 : ℕ → V3 ℝ) (v : ℝ → ℕ → V3 ℝ) (w : ℕ → V3 ℝ) (t : ℝ)
    (hv : ∀ i, HasD (fun s => v s i) (w i) t)
    (hs : S.toProblem.Smooth (place x0 (S.dt * fm) (v t))) :
    ∃ r : ℝ → ℕ → V3 ℝ,
      (∀ᶠ s in nhds t, ∃ f,
        S.residual fm pm prev v0 (place x0 (S.dt * fm) (v s)) (v s) = some (r s, f)) ∧
      ∀ i, HasDerivAt (fun s => coord (r s) i)
        (∑ j ∈ Finset.range (3 * N), Sparse.storedEntry (S.jacobianIndices.zip
          (S.jacobianValues (place x0 (S.dt * fm) (v t)) (v t) (S.dt * fm) (S.dt * fm))) (i, j)
          * coord w j) t :=
  sealed_jacobian_aux S N hN hD hT fm pm hfm prev v0 x0 v w t hv hs fun P hm i =>
    hessian_derivative P (hA P hm) _ _ t (place_hasD x0 _ v w t hv) _ _ i

/-- C66. With the sparse approximation of the Hessian of the zones, which is the default, the Jacobian
is the derivative of the residual along all changes of the velocities that keep the volumes of the
zones. -/
theorem sealed_jacobian_approx (S : Sealed) (N : ℕ) (hN : S.Within N) (hD : S.toProblem.Distinct)
    (hT : 0 ≤ S.timeStep) (fm pm : ℝ) (hfm : 0 < fm)
    (prev v0 x0 : ℕ → V3 ℝ) (v : ℝ → ℕ → V3 ℝ) (w : ℕ → V3 ℝ) (t : ℝ)
    (hv : ∀ i, HasD (fun s => v s i) (w i) t)
    (hs : S.toProblem.Smooth (place x0 (S.dt * fm) (v t)))
    (hV : ∀ P ∈ S.volumes,
      HasDerivAt (fun s => signedVolume P.topo (place x0 (S.dt * fm) (v s))) 0 t) :
    ∃ r : ℝ → ℕ → V3 ℝ,
      (∀ᶠ s in nhds t, ∃ f,
        S.residual fm pm prev v0 (place x0 (S.dt * fm) (v s)) (v s) = some (r s, f)) ∧
      ∀ i, HasDerivAt (fun s => coord (r s) i)
        (∑ j ∈ Finset.range (3 * N), Sparse.storedEntry (S.jacobianIndices.zip
          (S.jacobianValues (place x0 (S.dt * fm) (v t)) (v t) (S.dt * fm) (S.dt * fm))) (i, j)
          * coord w j) t :=
  sealed_jacobian_aux S N hN hD hT fm pm hfm prev v0 x0 v w t hv hs fun P hm i =>
    hessian_approx_derivative P _ _ t (place_hasD x0 _ v w t hv) (hV P hm) _ _ i

/-- C66. With volume constraints the number of entries of the Jacobian is as announced, and no entry
is outside of the matrix. -/
theorem sealed_jacobian_size (S : Sealed) (N : ℕ) (hN : S.Within N) (hD : S.toProblem.Distinct)
    (x v : ℕ → V3 ℝ) (dqdv fmul : ℝ) :
    S.jacobianIndices.length = S.nnz ∧ (S.jacobianValues x v dqdv fmul).length = S.nnz ∧
    ∀ p ∈ S.jacobianIndices, p.1 < 3 * N ∧ p.2 < 3 * N := by
  have hf : ∀ (l : List Penalty) (n : ℕ), l.foldl (fun n P => n + P.hessianSize) n =
      n + (l.map Penalty.hessianSize).sum := by
    intro l
    induction l with
    | nil => intro n; simp
    | cons P l ih => intro n; rw [List.foldl_cons, ih, List.map_cons, List.sum_cons]; ring
  have hl := jacobian_size S.toProblem hD x v dqdv fmul
  refine ⟨?_, ?_, ?_⟩
  · unfold Sealed.jacobianIndices Sealed.nnz
    rw [List.length_append, hl.1, hf, List.length_flatMap]
    congr 2
    exact List.map_congr_left fun P _ => (hessian_size P x 1).1
  · unfold Sealed.jacobianValues Sealed.nnz
    rw [List.length_append, hl.2, hf, List.length_flatMap]
    congr 2
    exact List.map_congr_left fun P _ => (hessian_size P x _).2.1
  · intro p hp
    rcases List.mem_append.1 hp with hp | hp
    · exact (jacobian_symmetric S.toProblem N hN.base hD x v dqdv fmul).1 p hp
    · obtain ⟨P, hP, hp⟩ := List.mem_flatMap.1 hp
      exact hessian_within P N (hN.volumes P hP) p hp

theorem pressure_total (S : Sealed) (N : ℕ) (hN : S.Within N) (hC : ∀ P ∈ S.volumes, Closed P.topo)
    (x : ℕ → V3 ℝ) : ∑ i ∈ Finset.range N, S.pressure x i = 0 := by
  have hW := hN.volumes
  unfold Sealed.pressure
  generalize S.volumes = l at hC hW
  induction l with
  | nil => simp
  | cons P l ih =>
    simp only [List.map_cons, List.sum_cons, Finset.sum_add_distrib]
    rw [ih (fun Q hQ => hC Q (List.mem_cons_of_mem _ hQ)) (fun Q hQ => hW Q (List.mem_cons_of_mem _ hQ)),
      force_balance P (hC P List.mem_cons_self) N (hW P List.mem_cons_self), add_zero]

/-- C68. With closed zones under pressure too, the sum of all forces is the weight of the scene. -/
theorem sealed_total_force (S : Sealed) (N : ℕ) (hN : S.Within N) (hp : S.Paired)
    (hC : ∀ P ∈ S.volumes, Closed P.topo) (x v : ℕ → V3 ℝ)
    (dqdv : ℝ) (f : ℕ → V3 ℝ) (h : S.force x v dqdv = some f) :
    ∑ i ∈ Finset.range N, f i = -(S.totalMass • S.gravity) := by
  obtain ⟨f', h', rfl⟩ := S.force_inv x v dqdv f h
  rw [Finset.sum_add_distrib, pressure_total S N hN hC, add_zero]
  exact total_force S.toProblem N hN.base hp x v dqdv f' h'

/-- C68. Where the residual of a scene with closed zones under pressure vanishes, the momentum of the
scene changes by the impulse of gravity over the time step. -/
theorem sealed_momentum_conserved (S : Sealed) (N : ℕ) (hN : S.Within N) (hp : S.Paired)
    (hC : ∀ P ∈ S.volumes, Closed P.topo) (fm pm : ℝ)
    (hpm : 0 ≤ pm) (h1 : fm + pm = 1) (hs : ¬ S.isStatic) (prev v0 x v f xp vp : ℕ → V3 ℝ) (qp : ℝ)
    (hprev : S.force xp vp qp = some prev) (r : ℕ → V3 ℝ) (hr : ∀ i, i < N → r i = 0)
    (h : S.residual fm pm prev v0 x v = some (r, f)) :
    S.momentum N v - S.momentum N v0 = S.timeStep • (S.totalMass • S.gravity) := by
  obtain ⟨r', f', h', rfl, rfl⟩ := S.residual_inv fm pm prev v0 x v r f h
  have ht := total_residual S.toProblem N hN.base hp fm pm hpm hs prev v0 x v r' f' h'
  have hr0 : ∑ i ∈ Finset.range N, r' i = 0 := by
    have : ∑ i ∈ Finset.range N, (r' i + (S.dt * fm) • S.pressure x i) = 0 :=
      Finset.sum_eq_zero fun i hi => hr i (Finset.mem_range.1 hi)
    rw [Finset.sum_add_distrib, ← Finset.smul_sum, pressure_total S N hN hC, smul_zero, add_zero] at this
    exact this
  rw [hr0, sealed_total_force S N hN hp hC xp vp qp prev hprev] at ht
  have hdt : S.dt = S.timeStep := if_neg hs
  rw [hdt] at ht
  have hfm : fm = 1 - pm := by linarith
  subst hfm
  have e : S.momentum N v - S.momentum N v0 = (S.timeStep * (1 - pm)) • (S.totalMass • S.gravity)
      + (pm * S.timeStep) • (S.totalMass • S.gravity) := by
    rw [smul_neg] at ht
    generalize (S.timeStep * (1 - pm)) • (S.totalMass • S.gravity) = A at *
    generalize (pm * S.timeStep) • (S.totalMass • S.gravity) = B at *
    generalize S.momentum N v - S.momentum N v0 = C at *
    have : C - A - B = 0 := by rw [ht]; abel
    have e2 : C = (C - A - B) + (A + B) := by abel
    rw [e2, this, zero_add]
  rw [e, ← add_smul]
  congr 1
  ring

/-! ## Example -/

/-- The problem of `Props/Motion.lean` with the tetrahedron `0, 1, 2, 3` as a zone. -/
def exSealed (approx : Bool) : Sealed := { exProblem with volumes := [exPenalty approx] }

theorem exSealed_within (a : Bool) : (exSealed a).Within 4 := by
  refine ⟨ex_within, fun P hP => ?_⟩
  simp only [exSealed, List.mem_singleton] at hP
  subst hP
  intro t ht n
  simp only [exPenalty, tetFaces, List.mem_cons, List.not_mem_nil, or_false] at ht
  rcases ht with rfl | rfl | rfl | rfl <;> fin_cases n <;> simp

theorem exSealed_closed (a : Bool) : ∀ P ∈ (exSealed a).volumes, Closed P.topo := by
  intro P hP
  simp only [exSealed, List.mem_singleton] at hP
  subst hP
  exact surface_closed (tets := [![0, 1, 2, 3]]) fun f _ _ => by simp [exPenalty]

/-- The hypotheses of the derivative theorems hold for this problem. -/
example : (∀ P ∈ (exSealed false).volumes, P.Proper ∧ P.approx = false) ∧
    (exSealed false).toProblem.Distinct ∧ (exSealed false).toProblem.Smooth IEdge.exPos ∧
    0 ≤ (exSealed false).timeStep := by
  refine ⟨fun P hP => ?_, ex_distinct, ex_smooth, by norm_num [exSealed, exProblem]⟩
  simp only [exSealed, List.mem_singleton] at hP
  subst hP
  simp [Penalty.Proper, exPenalty]

/-- The zone of the example is under pressure: there is a force on the first vertex. -/
example : (exSealed true).pressure IEdge.exPos 0 ≠ 0 := by
  intro h
  have hx := congrArg V3.x h
  simp only [Sealed.pressure, exSealed, List.map_cons, List.map_nil, List.sum_cons, List.sum_nil,
    add_zero, forces_eq, V3.smul_x, V3.zero_x] at hx
  have h3 : List.finRange 3 = [0, 1, 2] := rfl
  simp only [Penalty.factor, Penalty.dv, signedVolume, exPenalty, tetFaces, vertexNormal, zipCell,
    vertexSum, V3.dot, V3.cross, pressureAtm, Penalty.normals, h3, Matrix.cons_val,
    List.map_cons, List.map_nil, List.sum_cons, List.sum_nil, List.flatMap_cons, List.flatMap_nil,
    List.cons_append, List.nil_append, List.append_nil] at hx
  norm_num [IEdge.exPos] at hx

end Softy.Volume
