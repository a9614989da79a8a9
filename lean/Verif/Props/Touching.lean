import Verif.Model.Touching
import Verif.Props.Pressure
import Verif.Props.ContactHessian

/-!
# C81: the problem with contacts
-/

noncomputable section

namespace Softy.Contact

open Softy Assembly Fem Softy.Field

/-! ## Specification -/

/-- All elements, zones and contacts are made of the vertices of the problem, and what is fixed is not
moved by the solver. -/
structure Touching.Within (S : Touching) : Prop where
  base : S.toSealed.Within S.numVertices
  object : ∀ C ∈ S.contacts, ∀ j, C.surf j < S.numVertices
  collider : ∀ C ∈ S.contacts, ∀ i, C.coll i < S.numVertices
  fixedObject : ∀ C ∈ S.contacts, C.objectFixed = true → ∀ j, S.numActive ≤ C.surf j
  fixedCollider : ∀ C ∈ S.contacts, C.colliderFixed = true → ∀ i, S.numActive ≤ C.coll i
  separate : ∀ C ∈ S.contacts, C.Separate

/-- The potential of every contact has a derivative at `x`. -/
def Touching.Regular (S : Touching) (x : ℕ → V3 ℝ) : Prop :=
  ∀ C ∈ S.contacts, ∃ c : List ℕ × ℕ → ℕ, ∀ p ∈ C.active,
    Field.Regular C.kernel params (C.query x p.2) p.1 (C.samples x) (c p)

/-- The potential of every contact has a second derivative at `x`, and contacts that exert forces are
within the radius of the kernel. -/
def Touching.Smooth (S : Touching) (x : ℕ → V3 ℝ) : Prop :=
  ∀ C ∈ S.contacts, ∃ c : List ℕ × ℕ → ℕ, ∀ p ∈ C.active,
    Field.Smooth C.kernel params (C.query x p.2) p.1 (C.samples x) (c p) ∧
    (C.distance x p < C.delta → ∀ r, C.kernel.radius = some r →
      (C.query x p.2 - (C.samples x).pos (c p)).norm ≤ r)

/-! ## Lemmas -/

namespace Touching

variable (S : Touching)

/-- What all contacts add to the residual. -/
def contactForce (x : ℕ → V3 ℝ) (i : ℕ) : V3 ℝ :=
  (S.contacts.map fun C => C.subtractForce x (fun _ => 0) i).sum

theorem foldl_contactForce (l : List Pair) (x r : ℕ → V3 ℝ) (i : ℕ) :
    l.foldl (fun r C => C.subtractForce x r) r i =
      r i + (l.map fun C => C.subtractForce x (fun _ => 0) i).sum := by
  induction l generalizing r with
  | nil => simp
  | cons C l ih =>
    rw [List.foldl_cons, ih, List.map_cons, List.sum_cons, C.contact_force_adds x r i]
    abel

theorem foldl_contactEnergy (l : List Pair) (x : ℕ → V3 ℝ) (e : ℝ) :
    l.foldl (fun e C => e + C.energy x) e = e + (l.map fun C => C.energy x).sum := by
  induction l generalizing e with
  | nil => simp
  | cons P l ih => rw [List.foldl_cons, ih, List.map_cons, List.sum_cons]; ring

theorem force_eq (x v : ℕ → V3 ℝ) (dqdv : ℝ) (f : ℕ → V3 ℝ)
    (h : S.toSealed.force x v dqdv = some f) :
    S.force x v dqdv = some fun i => f i + S.contactForce x i := by
  unfold force
  rw [h, Option.map_some]
  congr 1
  funext i
  exact foldl_contactForce _ _ _ _

theorem force_inv (x v : ℕ → V3 ℝ) (dqdv : ℝ) (g : ℕ → V3 ℝ) (h : S.force x v dqdv = some g) :
    ∃ f, S.toSealed.force x v dqdv = some f ∧ g = fun i => f i + S.contactForce x i := by
  cases hf : S.toSealed.force x v dqdv with
  | none => simp [force, hf] at h
  | some f =>
    refine ⟨f, rfl, ?_⟩
    rw [S.force_eq x v dqdv f hf, Option.some.injEq] at h
    exact h.symm

theorem residual_eq (fm pm : ℝ) (prev v0 x v r f : ℕ → V3 ℝ)
    (h : S.toSealed.residual fm pm prev v0 x v = some (r, f)) :
    S.residual fm pm prev v0 x v =
      some (fun i => r i + (S.dt * fm) • S.contactForce x i, fun i => f i + S.contactForce x i) := by
  classical
  cases hf : S.toSealed.force x v (S.dt * fm) with
  | none => simp [Volume.Sealed.residual, hf] at h
  | some f' =>
    simp only [Volume.Sealed.residual, hf, Option.map_some, Option.some.injEq, Prod.mk.injEq] at h
    obtain ⟨rfl, rfl⟩ := h
    simp only [residual, S.force_eq x v _ f' hf, Option.map_some, Option.some.injEq,
      Prod.mk.injEq, and_true]
    funext i
    by_cases hs : S.isStatic
    · simp only [if_pos hs]
      by_cases hp : pm > 0
      · simp only [if_pos hp, smul_add, smul_smul]
        abel
      · simp only [if_neg hp, smul_add]
    · simp only [if_neg hs, momentumDiff_eq]
      by_cases hp : pm > 0
      · simp only [if_pos hp, smul_add, smul_smul]
        abel
      · simp only [if_neg hp, smul_add]
        abel

theorem residual_inv (fm pm : ℝ) (prev v0 x v r f : ℕ → V3 ℝ)
    (h : S.residual fm pm prev v0 x v = some (r, f)) :
    ∃ r' f', S.toSealed.residual fm pm prev v0 x v = some (r', f') ∧
      r = (fun i => r' i + (S.dt * fm) • S.contactForce x i) ∧
      f = fun i => f' i + S.contactForce x i := by
  cases hf : S.toSealed.residual fm pm prev v0 x v with
  | none =>
    cases hg : S.toSealed.force x v (S.dt * fm) with
    | none => simp [residual, force, hg] at h
    | some g => simp [Volume.Sealed.residual, hg] at hf
  | some p =>
    obtain ⟨r', f'⟩ := p
    refine ⟨r', f', rfl, ?_⟩
    rw [S.residual_eq fm pm prev v0 x v r' f' hf, Option.some.injEq, Prod.mk.injEq] at h
    exact ⟨h.1.symm, h.2.symm⟩

theorem objective_eq (fm pm : ℝ) (prev v0 x v : ℕ → V3 ℝ) (W : ℝ)
    (h : S.toSealed.objective S.numVertices fm pm prev v0 x v = some W) :
    S.objective fm pm prev v0 x v = some (W + (S.contacts.map fun C => C.energy x).sum) := by
  classical
  simp only [Volume.Sealed.objective] at h
  cases he : S.toSealed.energy x v (S.dt * fm) with
  | none => simp [he] at h
  | some e =>
    rw [he, Option.map_some, Option.some.injEq] at h
    simp only [objective, energy, he, Option.map_some, foldl_contactEnergy, Option.some.injEq]
    rw [← h]
    split_ifs <;> ring

/-- The power that the contacts add to the residual. -/
theorem contactForce_power (x w : ℕ → V3 ℝ) (N : ℕ) (q : ℝ) :
    ∑ i ∈ Finset.range N, V3.dot (q • S.contactForce x i) (w i) =
      (S.contacts.map fun C => -C.forcePower x (fun i => q • w i) N).sum := by
  unfold contactForce
  generalize S.contacts = l
  induction l with
  | nil => simp [V3.dot]
  | cons C l ih =>
    simp only [List.map_cons, List.sum_cons, smul_add, Fem.dot_add_left, Finset.sum_add_distrib]
    rw [ih]
    congr 1
    unfold Pair.forcePower
    rw [← Finset.sum_neg_distrib]
    refine Finset.sum_congr rfl fun i _ => ?_
    simp [V3.dot]
    ring

theorem take_all {α : Type} (l : List α) (n : ℕ) (h : l.length ≤ n) : l.take n = l :=
  List.take_of_length_le h

/-- The buffers are large enough. -/
theorem indices_fold (x : ℕ → V3 ℝ) (l : List Pair) (M : ℕ) (a : List (ℕ × ℕ)) (n : ℕ)
    (hn : l.foldl (fun n C => n + (2 * (S.contactIndices x C).length -
      ((S.contactIndices x C).filter fun k => k.2 = k.1).length)) n ≤ M) (ha : a.length ≤ n) :
    l.foldl (fun b C => b ++ (S.contactIndices x C).take (M - b.length)) a =
      a ++ l.flatMap (S.contactIndices x) ∧ (a ++ l.flatMap (S.contactIndices x)).length ≤ M := by
  induction l generalizing a n with
  | nil => simp only [List.foldl_nil] at hn; simp; omega
  | cons C l ih =>
    simp only [List.foldl_cons] at hn ⊢
    have hf : ((S.contactIndices x C).filter fun k => k.2 = k.1).length ≤
      (S.contactIndices x C).length := List.length_filter_le _ _
    have hmono : ∀ (l : List Pair) (n : ℕ), n ≤ l.foldl (fun n C => n + (2 *
        (S.contactIndices x C).length -
        ((S.contactIndices x C).filter fun k => k.2 = k.1).length)) n := by
      intro l
      induction l with
      | nil => intro n; exact le_refl _
      | cons D l ih => intro n; rw [List.foldl_cons]; exact le_trans (Nat.le_add_right _ _) (ih _)
    have h1 := (hmono l _).trans hn
    rw [take_all _ _ (by omega)]
    have := ih (a ++ S.contactIndices x C) _ hn (by rw [List.length_append]; omega)
    rw [List.flatMap_cons, ← List.append_assoc]
    exact this

theorem values_fold (l : List Pair) (f : Pair → List ℝ) (M : ℕ) (a : List ℝ)
    (h : (a ++ l.flatMap f).length ≤ M) :
    l.foldl (fun b C => b ++ (f C).take (M - b.length)) a = a ++ l.flatMap f := by
  induction l generalizing a with
  | nil => simp
  | cons C l ih =>
    rw [List.flatMap_cons, ← List.append_assoc] at h ⊢
    rw [List.foldl_cons, take_all _ _ (by simp only [List.length_append] at h; omega)]
    exact ih _ h

theorem contactIndices_length (x y : ℕ → V3 ℝ) (C : Pair) (hC : C.Separate) :
    (C.hessianEntries x S.numVertices S.numActive).length = (S.contactIndices x C).length := by
  have := congrArg List.length (C.contact_hessian_indices hC x S.numVertices S.numActive)
  rwa [List.length_map] at this

theorem jacobian_triplets (hN : S.Within) (hD : S.toProblem.Distinct) (x v : ℕ → V3 ℝ) (q fmul : ℝ) :
    (S.jacobianIndices x).length ≤ S.nnz x ∧
    (S.jacobianValues x v q fmul).length = (S.jacobianIndices x).length ∧
    S.jacobianIndices x = S.toSealed.jacobianIndices ++ S.contacts.flatMap (S.contactIndices x) ∧
    (S.jacobianIndices x).zip (S.jacobianValues x v q fmul) =
      S.toSealed.jacobianIndices.zip (S.toSealed.jacobianValues x v q fmul) ++
        S.contacts.flatMap fun C => (C.hessianEntries x S.numVertices S.numActive).map fun e =>
          (e.1, -q * fmul * 1 * e.2) := by
  have hz := Volume.sealed_jacobian_size S.toSealed S.numVertices hN.base hD x v q fmul
  obtain ⟨hi, hle⟩ := S.indices_fold x S.contacts (S.nnz x) S.toSealed.jacobianIndices
    S.toSealed.nnz (le_refl _) hz.1.le
  have hidx : S.jacobianIndices x = S.toSealed.jacobianIndices ++
    S.contacts.flatMap (S.contactIndices x) := hi
  have hlen : (S.toSealed.jacobianValues x v q fmul ++ S.contacts.flatMap fun C =>
      (C.hessianEntries x S.numVertices S.numActive).map fun e => -q * fmul * 1 * e.2).length =
      (S.jacobianIndices x).length := by
    rw [hidx, List.length_append, List.length_append, hz.2.1, hz.1, List.length_flatMap,
      List.length_flatMap]
    congr 2
    refine List.map_congr_left fun C hC => ?_
    rw [List.length_map, S.contactIndices_length x x C (hN.separate C hC)]
  have hval : S.jacobianValues x v q fmul = S.toSealed.jacobianValues x v q fmul ++
      S.contacts.flatMap fun C =>
        (C.hessianEntries x S.numVertices S.numActive).map fun e => -q * fmul * 1 * e.2 :=
    values_fold S.contacts _ _ _ hlen.le
  refine ⟨hidx ▸ hle, by rw [hval, hlen], hidx, ?_⟩
  rw [hval, hidx, List.zip_append (hz.1.trans hz.2.1.symm)]
  congr 1
  have hsep := hN.separate
  generalize S.contacts = l at hsep
  induction l with
  | nil => rfl
  | cons C l ih =>
    rw [List.flatMap_cons, List.flatMap_cons, List.flatMap_cons, List.zip_append (by
      rw [List.length_map, S.contactIndices_length x x C (hsep C List.mem_cons_self)]),
      ih fun D hD => hsep D (List.mem_cons_of_mem _ hD)]
    congr 1
    have := C.contact_hessian_indices (hsep C List.mem_cons_self) x S.numVertices S.numActive
    unfold contactIndices
    rw [← this, List.zip_map']

end Touching

theorem flat_eq_coord (u : ℕ → V3 ℝ) : flat u = coord u := rfl

/-- A vector with a single coordinate. -/
def unitAt (i : ℕ) (v : ℕ) : V3 ℝ :=
  if v = i / 3 then ⟨if i % 3 = 0 then 1 else 0, if i % 3 = 1 then 1 else 0,
    if i % 3 = 2 then 1 else 0⟩ else 0

theorem coord_unitAt (i j : ℕ) : coord (unitAt i) j = if j = i then 1 else 0 := by
  unfold coord unitAt
  have h3 := Nat.mod_lt j (show 0 < 3 by norm_num)
  have h4 := Nat.mod_lt i (show 0 < 3 by norm_num)
  have hj : j % 3 = 0 ∨ j % 3 = 1 ∨ j % 3 = 2 := by omega
  have hi : i % 3 = 0 ∨ i % 3 = 1 ∨ i % 3 = 2 := by omega
  by_cases hd : j / 3 = i / 3
  · rw [if_pos hd]
    by_cases he : j = i
    · subst he
      rw [if_pos rfl]
      rcases hj with hj | hj | hj <;> simp [hj, V3.get]
    · rw [if_neg he]
      have hm : i % 3 ≠ j % 3 := by omega
      rcases hj with hj | hj | hj <;> rw [hj] at hm <;> simp [hj, V3.get, hm]
  · rw [if_neg hd, if_neg (fun h => hd (by rw [h]))]
    generalize (⟨j % 3, _⟩ : Fin 3) = k
    fin_cases k <;> rfl

theorem dot_unitAt (f : ℕ → V3 ℝ) (N i : ℕ) (hi : i < 3 * N) :
    ∑ v ∈ Finset.range N, V3.dot (f v) (unitAt i v) = coord f i := by
  have hv : i / 3 < N := by omega
  rw [Finset.sum_eq_single_of_mem (i / 3) (Finset.mem_range.2 hv)]
  · unfold unitAt coord
    rw [if_pos rfl]
    have h4 := Nat.mod_lt i (show 0 < 3 by norm_num)
    have hi : i % 3 = 0 ∨ i % 3 = 1 ∨ i % 3 = 2 := by omega
    rcases hi with hi | hi | hi <;> simp [V3.dot, hi, V3.get]
  · intro v _ hne
    unfold unitAt
    rw [if_neg hne]
    simp [V3.dot]

theorem entryForm_unitAt (E : List (Sparse.Key × ℝ)) (w : ℕ → ℝ) (i : ℕ) :
    entryForm E (coord (unitAt i)) w = Volume.rowMul E w i := by
  unfold entryForm Volume.rowMul
  congr 1
  refine List.map_congr_left fun e _ => ?_
  rw [coord_unitAt]
  split_ifs <;> ring

theorem coord_neg' (f : ℕ → V3 ℝ) (i : ℕ) : coord (fun v => -f v) i = -coord f i := by
  unfold coord
  generalize (⟨i % 3, _⟩ : Fin 3) = k
  fin_cases k <;> rfl

theorem rowMul_append (T U : List ((ℕ × ℕ) × ℝ)) (x : ℕ → ℝ) (i : ℕ) :
    Volume.rowMul (T ++ U) x i = Volume.rowMul T x i + Volume.rowMul U x i := by
  simp [Volume.rowMul]

theorem rowMul_scaled (T : List ((ℕ × ℕ) × ℝ)) (c : ℝ) (x : ℕ → ℝ) (i : ℕ) :
    Volume.rowMul (T.map fun e => (e.1, c * e.2)) x i = c * Volume.rowMul T x i := by
  unfold Volume.rowMul
  rw [← List.sum_map_mul_left, List.map_map]
  congr 1
  refine List.map_congr_left fun e _ => ?_
  simp only [Function.comp]
  split_ifs <;> ring

theorem coord_contactForce (l : List Pair) (x : ℕ → V3 ℝ) (i : ℕ) :
    coord (fun v => (l.map fun C => C.subtractForce x (fun _ => 0) v).sum) i =
      (l.map fun C => coord (C.subtractForce x fun _ => 0) i).sum := by
  induction l with
  | nil => exact Volume.coord_zero i
  | cons P l ih =>
    simp only [List.map_cons, List.sum_cons]
    rw [Volume.coord_add', ih]

/-! ## Theorems -/

/-- C81: with contacts, the residual is the derivative of the objective with respect to the velocities
of the vertices that may move. -/
theorem contact_objective_derivative (S : Touching) (hN : S.Within) (hT : 0 ≤ S.timeStep)
    (hP : ∀ P ∈ S.volumes, P.Proper) (fm pm : ℝ) (hfm : 0 < fm) (prev v0 x0 : ℕ → V3 ℝ)
    (v : ℝ → ℕ → V3 ℝ) (w : ℕ → V3 ℝ) (t : ℝ) (hv : ∀ i, HasD (fun s => v s i) (w i) t)
    (hw : ∀ i, S.numActive ≤ i → w i = 0)
    (hs : S.toProblem.Smooth (place x0 (S.dt * fm) (v t)))
    (hc : S.Regular (place x0 (S.dt * fm) (v t))) :
    ∃ (W : ℝ → ℝ) (r f : ℕ → V3 ℝ),
      (∀ᶠ s in nhds t, S.objective fm pm prev v0 (place x0 (S.dt * fm) (v s)) (v s) = some (W s)) ∧
      S.residual fm pm prev v0 (place x0 (S.dt * fm) (v t)) (v t) = some (r, f) ∧
      HasDerivAt W (∑ i ∈ Finset.range S.numVertices, V3.dot (r i) (w i)) t := by
  obtain ⟨W, r, f, h1, h2, h3⟩ := Volume.sealed_objective_derivative S.toSealed S.numVertices hN.base hT
    hP fm pm hfm prev v0 x0 v w t hv hs
  refine ⟨fun s => W s + (S.contacts.map fun C => C.energy (place x0 (S.dt * fm) (v s))).sum, _, _, ?_,
    S.residual_eq fm pm prev v0 _ _ r f h2, ?_⟩
  · exact h1.mono fun s hs => S.objective_eq fm pm prev v0 _ _ _ hs
  · have h4 := Volume.listSum_hasDerivAt S.contacts (fun C s => C.energy (place x0 (S.dt * fm) (v s)))
      (fun C => -C.forcePower (place x0 (S.dt * fm) (v t)) (fun i => (S.dt * fm) • w i)
        S.numVertices) t fun C hm => by
        obtain ⟨c, hc⟩ := hc C hm
        exact C.contact_force_gradient (fun s => place x0 (S.dt * fm) (v s)) _ t S.numVertices c
          (hN.object C hm) (hN.collider C hm) (Volume.place_hasD x0 _ v w t hv)
          (fun h j => by rw [hw _ (hN.fixedObject C hm h j), smul_zero])
          (fun h i => by rw [hw _ (hN.fixedCollider C hm h i), smul_zero]) hc
    refine (h3.fun_add h4).congr_deriv ?_
    simp only [Fem.dot_add_left, Finset.sum_add_distrib]
    congr 1
    exact (S.contactForce_power _ w _ _).symm

/-- The rows of the Jacobian, applied to a motion of the vertices that may move. -/
theorem Touching.jacobian_row (S : Touching) (hN : S.Within) (hD : S.toProblem.Distinct)
    (hNM : S.numActive ≤ S.numVertices) (x v w : ℕ → V3 ℝ) (hw : ∀ i, S.numActive ≤ i → w i = 0)
    (q fmul : ℝ) (i : ℕ) :
    ∑ j ∈ Finset.range (3 * S.numActive), Sparse.storedEntry
        ((S.jacobianIndices x).zip (S.jacobianValues x v q fmul)) (i, j)
          * coord w j =
        ∑ j ∈ Finset.range (3 * S.numVertices), Sparse.storedEntry
        (S.toSealed.jacobianIndices.zip
          (S.toSealed.jacobianValues x v q fmul)) (i, j) * coord w j +
        (S.contacts.map fun C => -q * fmul * 1 * Volume.rowMul
          (C.hessianEntries x S.numVertices S.numActive) (coord w) i).sum := by
  have hz := (S.jacobian_triplets hN hD x v q fmul).2.2.2
  rw [hz]
  simp only [Volume.storedEntry_append, add_mul, Finset.sum_add_distrib]
  congr 1
  · refine Finset.sum_subset (fun j hj => ?_) fun j _ hj => ?_
    · rw [Finset.mem_range] at hj ⊢; omega
    · rw [Finset.mem_range, not_lt] at hj
      have : coord w j = 0 := by
        unfold coord
        rw [hw _ (by omega)]
        generalize (⟨j % 3, _⟩ : Fin 3) = k
        fin_cases k <;> rfl
      rw [this, mul_zero]
  · rw [Volume.rowMul_stored _ _ _ (3 * S.numActive)]
    · generalize S.contacts = l
      induction l with
      | nil => rfl
      | cons C l ih =>
        rw [List.flatMap_cons, rowMul_append, ih, List.map_cons, List.sum_cons, rowMul_scaled]
    · intro e he
      obtain ⟨C, -, he⟩ := List.mem_flatMap.1 he
      obtain ⟨e', he', rfl⟩ := List.mem_map.1 he
      exact (C.contact_hessian_bounds x _ _ e' he').2

theorem contact_jacobian_aux (S : Touching) (hN : S.Within) (hD : S.toProblem.Distinct)
    (fm pm : ℝ) (prev v0 x0 : ℕ → V3 ℝ) (v : ℝ → ℕ → V3 ℝ) (w : ℕ → V3 ℝ) (t : ℝ)
    (hv : ∀ i, HasD (fun s => v s i) (w i) t) (hw : ∀ i, S.numActive ≤ i → w i = 0)
    (hNM : S.numActive ≤ S.numVertices)
    (hc : S.Smooth (place x0 (S.dt * fm) (v t)))
    (hbase : ∃ r : ℝ → ℕ → V3 ℝ,
      (∀ᶠ s in nhds t, ∃ f,
        S.toSealed.residual fm pm prev v0 (place x0 (S.dt * fm) (v s)) (v s) = some (r s, f)) ∧
      ∀ i, HasDerivAt (fun s => coord (r s) i)
        (∑ j ∈ Finset.range (3 * S.numVertices), Sparse.storedEntry (S.toSealed.jacobianIndices.zip
          (S.toSealed.jacobianValues (place x0 (S.dt * fm) (v t)) (v t) (S.dt * fm) (S.dt * fm))) (i, j)
          * coord w j) t) :
    ∃ r : ℝ → ℕ → V3 ℝ,
      (∀ᶠ s in nhds t, ∃ f,
        S.residual fm pm prev v0 (place x0 (S.dt * fm) (v s)) (v s) = some (r s, f)) ∧
      ∀ i, i < 3 * S.numActive → HasDerivAt (fun s => coord (r s) i)
        (∑ j ∈ Finset.range (3 * S.numActive), Sparse.storedEntry
          ((S.jacobianIndices (place x0 (S.dt * fm) (v t))).zip
            (S.jacobianValues (place x0 (S.dt * fm) (v t)) (v t) (S.dt * fm) (S.dt * fm))) (i, j)
          * coord w j) t := by
  obtain ⟨r, h1, h2⟩ := hbase
  refine ⟨fun s i => r s i + (S.dt * fm) • S.contactForce (place x0 (S.dt * fm) (v s)) i, ?_,
    fun i hi => ?_⟩
  · exact h1.mono fun s ⟨f, hf⟩ => ⟨_, S.residual_eq fm pm prev v0 _ _ _ f hf⟩
  · generalize hx : place x0 (S.dt * fm) (v t) = x at *
    have hsum := S.jacobian_row hN hD hNM x (v t) w hw (S.dt * fm) (S.dt * fm) i
    rw [hsum]
    have h4 := Volume.listSum_hasDerivAt S.contacts (fun C s => S.dt * fm *
      coord (C.subtractForce (place x0 (S.dt * fm) (v s)) fun _ => 0) i)
      (fun C => -(S.dt * fm) * (S.dt * fm) * 1 * Volume.rowMul
          (C.hessianEntries x S.numVertices S.numActive) (coord w) i) t fun C hm => by
        obtain ⟨c, hc⟩ := hc C hm
        have := C.contact_hessian_partial (hN.separate C hm) (fun s => place x0 (S.dt * fm) (v s))
          (unitAt i) (fun i => (S.dt * fm) • w i) t S.numVertices S.numActive c (hN.object C hm)
          (hN.collider C hm) (Volume.place_hasD x0 _ v w t hv)
          (fun u hu => by
            unfold unitAt
            rw [if_neg (by omega)])
          (fun u hu => by rw [hw u hu, smul_zero]) (hN.fixedObject C hm) (hN.fixedCollider C hm)
          (fun p hp => by rw [hx]; exact (hc p hp).1) (fun p hp => by rw [hx]; exact (hc p hp).2)
        rw [hx, flat_eq_coord, flat_eq_coord, entryForm_unitAt, coord_smul, Volume.rowMul_smul] at this
        have hfp : (fun s => C.forcePower (place x0 (S.dt * fm) (v s)) (unitAt i) S.numVertices) =
            fun s => -coord (C.subtractForce (place x0 (S.dt * fm) (v s)) fun _ => 0) i := by
          funext s
          unfold Pair.forcePower
          rw [dot_unitAt (fun v' => -C.subtractForce _ (fun _ => 0) v') _ _ (by omega), coord_neg']
        rw [hfp] at this
        refine (this.const_mul (-(S.dt * fm))).congr_of_eventuallyEq
          (Filter.Eventually.of_forall fun s => ?_) |>.congr_deriv ?_
        · simp only; ring
        · ring
    refine ((h2 i).fun_add h4).congr_of_eventuallyEq (Filter.Eventually.of_forall fun s => ?_)
    simp only
    rw [Volume.coord_add', coord_smul]
    simp only
    unfold Touching.contactForce
    rw [coord_contactForce, List.sum_map_mul_left]

/-- C81: with contacts, the Jacobian that is assembled is the derivative of the residual with respect to
the velocities of the vertices that may move.
Missing: contacts outside of the radius of the kernel must not exert a force (`Touching.Smooth`; C79
fails for them). -/
theorem contact_jacobian_derivative_partial (S : Touching) (hN : S.Within) (hD : S.toProblem.Distinct)
    (hT : 0 ≤ S.timeStep) (hA : ∀ P ∈ S.volumes, P.approx = false) (fm pm : ℝ) (hfm : 0 < fm)
    (prev v0 x0 : ℕ → V3 ℝ) (v : ℝ → ℕ → V3 ℝ) (w : ℕ → V3 ℝ) (t : ℝ)
    (hv : ∀ i, HasD (fun s => v s i) (w i) t) (hw : ∀ i, S.numActive ≤ i → w i = 0)
    (hNM : S.numActive ≤ S.numVertices)
    (hs : S.toProblem.Smooth (place x0 (S.dt * fm) (v t)))
    (hc : S.Smooth (place x0 (S.dt * fm) (v t))) :
    ∃ r : ℝ → ℕ → V3 ℝ,
      (∀ᶠ s in nhds t, ∃ f,
        S.residual fm pm prev v0 (place x0 (S.dt * fm) (v s)) (v s) = some (r s, f)) ∧
      ∀ i, i < 3 * S.numActive → HasDerivAt (fun s => coord (r s) i)
        (∑ j ∈ Finset.range (3 * S.numActive), Sparse.storedEntry
          ((S.jacobianIndices (place x0 (S.dt * fm) (v t))).zip
            (S.jacobianValues (place x0 (S.dt * fm) (v t)) (v t) (S.dt * fm) (S.dt * fm))) (i, j)
          * coord w j) t := by
  exact contact_jacobian_aux S hN hD fm pm prev v0 x0 v w t hv hw hNM hc
    (Volume.sealed_jacobian_derivative S.toSealed S.numVertices hN.base hD hT hA
      fm pm hfm prev v0 x0 v w t hv hs)

/-- C81: with the sparse approximation of the Hessian of the zones, which is the default, the Jacobian is
the derivative of the residual along all changes of the velocities that keep the volumes of the zones.
Missing: as in `contact_jacobian_derivative_partial`. -/
theorem contact_jacobian_approx_partial (S : Touching) (hN : S.Within) (hD : S.toProblem.Distinct)
    (hT : 0 ≤ S.timeStep) (fm pm : ℝ) (hfm : 0 < fm)
    (prev v0 x0 : ℕ → V3 ℝ) (v : ℝ → ℕ → V3 ℝ) (w : ℕ → V3 ℝ) (t : ℝ)
    (hv : ∀ i, HasD (fun s => v s i) (w i) t) (hw : ∀ i, S.numActive ≤ i → w i = 0)
    (hNM : S.numActive ≤ S.numVertices)
    (hs : S.toProblem.Smooth (place x0 (S.dt * fm) (v t)))
    (hV : ∀ P ∈ S.volumes,
      HasDerivAt (fun s => Volume.signedVolume P.topo (place x0 (S.dt * fm) (v s))) 0 t)
    (hc : S.Smooth (place x0 (S.dt * fm) (v t))) :
    ∃ r : ℝ → ℕ → V3 ℝ,
      (∀ᶠ s in nhds t, ∃ f,
        S.residual fm pm prev v0 (place x0 (S.dt * fm) (v s)) (v s) = some (r s, f)) ∧
      ∀ i, i < 3 * S.numActive → HasDerivAt (fun s => coord (r s) i)
        (∑ j ∈ Finset.range (3 * S.numActive), Sparse.storedEntry
          ((S.jacobianIndices (place x0 (S.dt * fm) (v t))).zip
            (S.jacobianValues (place x0 (S.dt * fm) (v t)) (v t) (S.dt * fm) (S.dt * fm))) (i, j)
          * coord w j) t :=
  contact_jacobian_aux S hN hD fm pm prev v0 x0 v w t hv hw hNM hc
    (Volume.sealed_jacobian_approx S.toSealed S.numVertices hN.base hD hT
      fm pm hfm prev v0 x0 v w t hv hs hV)

/-- C81: the number of entries of the Jacobian is at most what was announced, each entry has a value,
and no entry of a contact is outside of the matrix. -/
theorem contact_jacobian_size (S : Touching) (hN : S.Within) (hD : S.toProblem.Distinct)
    (hNM : S.numActive ≤ S.numVertices) (x v : ℕ → V3 ℝ) (dqdv fmul : ℝ) :
    (S.jacobianIndices x).length ≤ S.nnz x ∧
    (S.jacobianValues x v dqdv fmul).length = (S.jacobianIndices x).length ∧
    ∀ p ∈ S.jacobianIndices x, p.1 < 3 * S.numVertices ∧ p.2 < 3 * S.numVertices := by
  obtain ⟨h1, h2, h3, -⟩ := S.jacobian_triplets hN hD x v dqdv fmul
  refine ⟨h1, h2, fun p hp => ?_⟩
  rw [h3] at hp
  rcases List.mem_append.1 hp with hp | hp
  · exact (Volume.sealed_jacobian_size S.toSealed S.numVertices hN.base hD x v dqdv fmul).2.2 p hp
  · obtain ⟨C, hC, hp⟩ := List.mem_flatMap.1 hp
    unfold Touching.contactIndices at hp
    rw [← C.contact_hessian_indices (hN.separate C hC)] at hp
    obtain ⟨e, he, rfl⟩ := List.mem_map.1 hp
    have := C.contact_hessian_bounds x _ _ e he
    omega

theorem contactForce_total (S : Touching) (hN : S.Within) (x : ℕ → V3 ℝ)
    (hobj : ∀ C ∈ S.contacts, C.objectFixed = false) (hcol : ∀ C ∈ S.contacts, C.colliderFixed = false)
    (hc : S.Regular x) :
    ∑ i ∈ Finset.range S.numVertices, S.contactForce x i = 0 := by
  have h1 := hN.object
  have h2 := hN.collider
  unfold Touching.Regular at hc
  unfold Touching.contactForce
  generalize S.contacts = l at hobj hcol hc h1 h2
  induction l with
  | nil => simp
  | cons C l ih =>
    simp only [List.map_cons, List.sum_cons, Finset.sum_add_distrib]
    obtain ⟨c, hc'⟩ := hc C List.mem_cons_self
    rw [(C.contact_momentum x S.numVertices c (h1 C List.mem_cons_self) (h2 C List.mem_cons_self)
      (hobj C List.mem_cons_self) (hcol C List.mem_cons_self) hc').1, zero_add]
    exact ih (fun D hD => hobj D (List.mem_cons_of_mem _ hD)) (fun D hD => hcol D (List.mem_cons_of_mem _ hD))
      (fun D hD => hc D (List.mem_cons_of_mem _ hD)) (fun D hD => h1 D (List.mem_cons_of_mem _ hD))
      (fun D hD => h2 D (List.mem_cons_of_mem _ hD))

/-- C81: in a scene in which nothing is fixed, contacts do not change the sum of all forces. -/
theorem contact_total_force (S : Touching) (hN : S.Within) (hp : S.Paired)
    (hC : ∀ P ∈ S.volumes, Volume.Closed P.topo) (x v : ℕ → V3 ℝ)
    (hobj : ∀ C ∈ S.contacts, C.objectFixed = false) (hcol : ∀ C ∈ S.contacts, C.colliderFixed = false)
    (hc : S.Regular x) (dqdv : ℝ) (f : ℕ → V3 ℝ) (h : S.force x v dqdv = some f) :
    ∑ i ∈ Finset.range S.numVertices, f i = -(S.totalMass • S.gravity) := by
  obtain ⟨f', h', rfl⟩ := S.force_inv x v dqdv f h
  rw [Finset.sum_add_distrib, contactForce_total S hN x hobj hcol hc, add_zero]
  exact Volume.sealed_total_force S.toSealed S.numVertices hN.base hp hC x v dqdv f' h'

/-- C81: where the residual of a scene in which nothing is fixed vanishes, the momentum of the scene
changes by the impulse of gravity over the time step, whatever objects collide. -/
theorem contact_momentum_conserved (S : Touching) (hN : S.Within) (hp : S.Paired)
    (hC : ∀ P ∈ S.volumes, Volume.Closed P.topo)
    (hobj : ∀ C ∈ S.contacts, C.objectFixed = false) (hcol : ∀ C ∈ S.contacts, C.colliderFixed = false)
    (fm pm : ℝ) (hpm : 0 ≤ pm) (h1 : fm + pm = 1) (hs : ¬ S.isStatic)
    (prev v0 x v f xp vp : ℕ → V3 ℝ) (qp : ℝ) (hc : S.Regular x) (hcp : S.Regular xp)
    (hprev : S.force xp vp qp = some prev) (r : ℕ → V3 ℝ) (hr : ∀ i, i < S.numVertices → r i = 0)
    (h : S.residual fm pm prev v0 x v = some (r, f)) :
    S.momentum S.numVertices v - S.momentum S.numVertices v0 =
      S.timeStep • (S.totalMass • S.gravity) := by
  obtain ⟨r1, f1, h1', rfl, -⟩ := S.residual_inv fm pm prev v0 x v r f h
  obtain ⟨r', f', h', rfl, -⟩ := S.toSealed.residual_inv fm pm prev v0 x v r1 f1 h1'
  have ht := total_residual S.toProblem S.numVertices hN.base.base hp fm pm hpm hs prev v0 x v r' f' h'
  have hr0 : ∑ i ∈ Finset.range S.numVertices, r' i = 0 := by
    have : ∑ i ∈ Finset.range S.numVertices, (r' i + (S.dt * fm) • S.toSealed.pressure x i +
        (S.dt * fm) • S.contactForce x i) = 0 :=
      Finset.sum_eq_zero fun i hi => hr i (Finset.mem_range.1 hi)
    rw [Finset.sum_add_distrib, Finset.sum_add_distrib, ← Finset.smul_sum, ← Finset.smul_sum,
      Volume.pressure_total S.toSealed S.numVertices hN.base hC, contactForce_total S hN x hobj hcol hc,
      smul_zero, add_zero, add_zero] at this
    exact this
  rw [hr0, contact_total_force S hN hp hC xp vp hobj hcol hcp qp prev hprev] at ht
  have hdt : S.dt = S.timeStep := if_neg hs
  rw [hdt] at ht
  have hfm : fm = 1 - pm := by linarith
  subst hfm
  have e : S.momentum S.numVertices v - S.momentum S.numVertices v0 =
      (S.timeStep * (1 - pm)) • (S.totalMass • S.gravity)
      + (pm * S.timeStep) • (S.totalMass • S.gravity) := by
    rw [smul_neg] at ht
    generalize (S.timeStep * (1 - pm)) • (S.totalMass • S.gravity) = A at *
    generalize (pm * S.timeStep) • (S.totalMass • S.gravity) = B at *
    generalize S.momentum S.numVertices v - S.momentum S.numVertices v0 = D at *
    have : D - A - B = 0 := by rw [ht]; abel
    have e2 : D = (D - A - B) + (A + B) := by abel
    rw [e2, this, zero_add]
  rw [e, ← add_smul]
  congr 1
  ring

/-! ## Examples -/

/-- A soft tetrahedron with the vertices `0, 1, 2, 4`. -/
def exTet : Volume.Sealed where
  nh := []
  nhDensity := []
  snh := [⟨![0, 1, 2, 4], ⟨⟨⟨1, 0, 0⟩, ⟨0, 1, 0⟩, ⟨0, 1, 1⟩⟩, 1 / 6, 2, 1⟩, 1⟩]
  snhDensity := [500]
  shell := ⟨[], [], fun _ _ => 0⟩
  shellDensity := []
  gravity := ⟨0, -981 / 100, 0⟩
  timeStep := 1 / 60
  volumes := []

theorem exTet_within : exTet.Within 5 := by
  refine ⟨⟨?_, ?_, ?_⟩, ?_⟩
  · intro e he; simp [exTet] at he
  · intro e he n
    simp only [exTet, List.mem_singleton] at he
    subst he
    fin_cases n <;> simp
  · exact ⟨fun e he => by simp [exTet] at he, fun e he => by simp [exTet] at he⟩
  · intro P hP; simp [exTet] at hP

theorem exTet_distinct : exTet.toProblem.Distinct := by
  refine ⟨?_, ?_, ?_, ?_⟩
  · intro e he; simp [exTet] at he
  · intro e he
    simp only [exTet, List.mem_singleton] at he
    subst he
    intro a b
    revert a b
    decide
  · intro e he; simp [exTet] at he
  · intro e he; simp [exTet] at he

theorem exTet_smooth (x : ℕ → V3 ℝ) : exTet.toProblem.Smooth x := by
  refine ⟨?_, ?_, ?_⟩
  · intro e he; simp [exTet] at he
  · intro e he
    simp only [exTet, List.mem_singleton] at he
    subst he
    simp only [Ready]
    norm_num
  · exact ⟨fun e he => by simp [exTet] at he, fun e he => by simp [exTet] at he⟩

/-- A face of the tetrahedron and a vertex of another object above it. -/
def exTouch (C : Pair) : Touching := { exTet with contacts := [C], numVertices := 5, numActive := 5 }

theorem exTouch_within (C : Pair) (h1 : ∀ j, C.surf j < 5) (h2 : ∀ i, C.coll i < 5)
    (h3 : C.objectFixed = false) (h4 : C.colliderFixed = false) (h5 : C.Separate) :
    (exTouch C).Within := by
  have hC : ∀ D ∈ (exTouch C).contacts, D = C := fun D hD => by simpa [exTouch] using hD
  refine ⟨exTet_within, ?_, ?_, ?_, ?_, ?_⟩
  · intro D hD; rw [hC D hD]; exact h1
  · intro D hD; rw [hC D hD]; exact h2
  · intro D hD; rw [hC D hD, h3]; simp
  · intro D hD; rw [hC D hD, h4]; simp
  · intro D hD; rw [hC D hD]; exact h5

theorem demo_touching : (exTouch demo).Within :=
  exTouch_within demo demo_surf demo_coll rfl rfl demo_separate

theorem demo_touching_smooth : (exTouch demo).Smooth demoX := by
  intro C hC
  have : C = demo := by simpa [exTouch] using hC
  subst this
  exact ⟨fun _ => 0, fun p hp => ⟨demo_contact_smooth p hp, demo_within p hp⟩⟩

theorem demo_touching_regular : (exTouch demo).Regular demoX := by
  intro C hC
  have : C = demo := by simpa [exTouch] using hC
  subst this
  exact ⟨fun _ => 0, demo_regular⟩

/-- The hypotheses of the theorems above hold for this problem. -/
example : (exTouch demo).toProblem.Distinct ∧ (exTouch demo).toProblem.Smooth demoX ∧
    (exTouch demo).Paired ∧ 0 ≤ (exTouch demo).timeStep ∧ ¬ (exTouch demo).isStatic := by
  refine ⟨exTet_distinct, exTet_smooth _, fun e he => by simp [exTouch, exTet] at he, ?_, ?_⟩ <;>
    norm_num [exTouch, exTet, Problem.isStatic]

theorem dot_coord (a b : ℕ → V3 ℝ) (N : ℕ) :
    ∑ i ∈ Finset.range N, V3.dot (a i) (b i) =
      ∑ j ∈ Finset.range (3 * N), coord a j * coord b j := by
  induction N with
  | zero => simp
  | succ N ih =>
    rw [Finset.sum_range_succ, ih, show 3 * (N + 1) = 3 * N + 1 + 1 + 1 by ring, Finset.sum_range_succ,
      Finset.sum_range_succ, Finset.sum_range_succ]
    have h0 : ∀ p : ℕ → V3 ℝ, coord p (3 * N) = (p N).x := fun p => coord_vertex p N 0
    have h1 : ∀ p : ℕ → V3 ℝ, coord p (3 * N + 1) = (p N).y := fun p => coord_vertex p N 1
    have h2 : ∀ p : ℕ → V3 ℝ, coord p (3 * N + 1 + 1) = (p N).z := fun p => coord_vertex p N 2
    simp only [h0, h1, h2, V3.dot]
    ring

theorem entryForm_rows (E : List (Sparse.Key × ℝ)) (u w : ℕ → ℝ) (n : ℕ)
    (h : ∀ e ∈ E, e.1.1 < n) :
    ∑ i ∈ Finset.range n, u i * Volume.rowMul E w i = entryForm E u w := by
  induction E with
  | nil => simp [Volume.rowMul, entryForm]
  | cons e E ih =>
    have := ih fun e' he' => h e' (List.mem_cons_of_mem _ he')
    simp only [Volume.rowMul, entryForm, List.map_cons, List.sum_cons, mul_add,
      Finset.sum_add_distrib] at this ⊢
    rw [this]
    congr 1
    rw [Finset.sum_eq_single_of_mem e.1.1 (Finset.mem_range.2 (h e List.mem_cons_self))]
    · rw [if_pos rfl]; ring
    · intro j _ hj
      rw [if_neg (Ne.symm hj), mul_zero]

/-- C81 fails for contacts outside of the radius of the kernel: the residual changes in another way than
the Jacobian says. -/
theorem contact_jacobian_violated :
    ∃ (S : Touching) (x0 u w : ℕ → V3 ℝ) (r : ℝ → ℕ → V3 ℝ) (d : ℝ),
      S.Within ∧ S.toProblem.Distinct ∧ S.volumes = [] ∧ 0 < S.timeStep ∧
      S.numActive = S.numVertices ∧ (∀ i, S.numActive ≤ i → w i = 0) ∧ S.toProblem.Smooth x0 ∧
      (∀ C ∈ S.contacts, ∀ p ∈ C.active,
        Field.Smooth C.kernel params (C.query x0 p.2) p.1 (C.samples x0) 0) ∧
      (∀ᶠ s in nhds 0, ∃ f, S.residual 1 0 (fun _ => 0) (fun _ => 0)
        (place x0 (S.dt * 1) fun i => s • w i) (fun i => s • w i) = some (r s, f)) ∧
      HasDerivAt (fun s => ∑ i ∈ Finset.range S.numVertices, V3.dot (u i) (r s i)) d 0 ∧
      d ≠ ∑ i ∈ Finset.range (3 * S.numActive), coord u i *
        ∑ j ∈ Finset.range (3 * S.numActive), Sparse.storedEntry
          ((S.jacobianIndices x0).zip
            (S.jacobianValues x0 (fun _ => 0) (S.dt * 1) (S.dt * 1))) (i, j) * coord w j := by
  obtain ⟨C, x, u, w, v, h5, h3, h4, h1, h2, hu, hw, hsm, hd, hne⟩ := contact_hessian_violated
  have hN := exTouch_within C h1 h2 h3 h4 h5
  have hq0 : (exTouch C).dt * 1 ≠ 0 := by
    have : (exTouch C).dt = 1 / 60 := if_neg (by norm_num [exTouch, exTet, Problem.isStatic])
    rw [this]; norm_num
  have hz : place x ((exTouch C).dt * 1) (fun i => (0 : ℝ) • w i) = x := by
    funext i; simp [place]
  have hz' : (fun i => (0 : ℝ) • w i) = fun _ => 0 := by funext i; simp
  obtain ⟨r, hr, hb⟩ := Volume.sealed_jacobian_derivative (exTouch C).toSealed 5 exTet_within
    exTet_distinct (by norm_num [exTouch, exTet]) (fun P hP => by simp [exTouch, exTet] at hP) 1 0
    one_pos (fun _ => 0) (fun _ => 0) x (fun s i => s • w i) w 0
    (fun i => by simpa using HasD.line (0 : V3 ℝ) (w i)) (exTet_smooth _)
  rw [hz, hz'] at hb
  have hrow := fun i => (exTouch C).jacobian_row hN exTet_distinct (le_refl 5) x (fun _ => 0) w hw
    ((exTouch C).dt * 1) ((exTouch C).dt * 1) i
  generalize hq : (exTouch C).dt * 1 = q at *
  have hcf : ∀ y i, (exTouch C).contactForce y i = C.subtractForce y (fun _ => 0) i := by
    intro y i; simp [Touching.contactForce, exTouch]
  have hsum : HasDerivAt (fun s => ∑ i ∈ Finset.range 15, coord u i * coord (r s) i)
      (∑ i ∈ Finset.range 15, coord u i * ∑ j ∈ Finset.range (3 * 5), Sparse.storedEntry
        ((exTouch C).toSealed.jacobianIndices.zip
          ((exTouch C).toSealed.jacobianValues x (fun _ => 0) q q)) (i, j) * coord w j) 0 := by
    have := HasDerivAt.fun_sum (u := Finset.range 15) fun i _ => (hb i).const_mul (coord u i)
    exact this
  have hpow : HasDerivAt (fun s : ℝ => C.forcePower (place x q fun i => s • w i) u 5) (v * q) 0 := by
    have hin : HasDerivAt (fun s : ℝ => s * q) q 0 := by simpa using (hasDerivAt_id (0 : ℝ)).mul_const q
    have hd' : HasDerivAt (fun s => C.forcePower (fun i => x i + s • w i) u 5) v ((0 : ℝ) * q) := by
      rw [zero_mul]; exact hd
    have := hd'.comp (0 : ℝ) hin
    refine this.congr_of_eventuallyEq (Filter.Eventually.of_forall fun s => ?_)
    simp only [Function.comp]
    congr 1
    funext i
    unfold place
    rw [smul_smul, mul_comm]
  refine ⟨exTouch C, x, u, w, fun s i => r s i + q • (exTouch C).contactForce
    (place x q fun i => s • w i) i, v * q * (-q) + ∑ i ∈ Finset.range 15, coord u i * ∑ j ∈ Finset.range (3 * 5),
      Sparse.storedEntry ((exTouch C).toSealed.jacobianIndices.zip
          ((exTouch C).toSealed.jacobianValues x (fun _ => 0) q q)) (i, j) * coord w j, hN, exTet_distinct, rfl, by norm_num [exTouch, exTet], rfl, hw,
    exTet_smooth _, ?_, ?_, ?_, ?_⟩
  · intro D hD
    have : D = C := by simpa [exTouch] using hD
    subst this
    exact hsm
  · rw [hq]
    refine hr.mono fun s ⟨f, hf⟩ =>
      ⟨fun i => f i + (exTouch C).contactForce (place x q fun i => s • w i) i, ?_⟩
    rw [(exTouch C).residual_eq 1 0 _ _ _ _ _ f hf, hq]
  · refine ((hpow.mul_const (-q)).fun_add hsum).congr_of_eventuallyEq
      (Filter.Eventually.of_forall fun s => ?_)
    show ∑ i ∈ Finset.range 5, _ = _
    have hdc : ∑ i ∈ Finset.range 15, coord u i * coord (r s) i =
      ∑ i ∈ Finset.range 5, V3.dot (u i) (r s i) := (dot_coord u (r s) 5).symm
    simp only [hdc]
    unfold Pair.forcePower
    rw [Finset.sum_mul, ← Finset.sum_add_distrib]
    refine Finset.sum_congr rfl fun i _ => ?_
    simp only [hcf]
    simp [V3.dot]
    ring
  · intro h
    apply hne
    rw [hq] at h
    simp only [hrow, mul_add, Finset.sum_add_distrib] at h
    have hE := entryForm_rows (C.hessianEntries x 5 5) (coord u) (coord w) 15
      fun e he => (C.contact_hessian_bounds x 5 5 e he).1
    rw [flat_eq_coord, flat_eq_coord, ← hE]
    have hl : ∑ i ∈ Finset.range (3 * (exTouch C).numActive), coord u i *
        ((exTouch C).contacts.map fun C' => -q * q * 1 * Volume.rowMul (C'.hessianEntries x
          (exTouch C).numVertices (exTouch C).numActive) (coord w) i).sum =
        -q * q * ∑ i ∈ Finset.range 15, coord u i * Volume.rowMul (C.hessianEntries x 5 5) (coord w) i := by
      rw [Finset.mul_sum]
      refine Finset.sum_congr rfl fun i _ => ?_
      simp [exTouch]
      ring
    rw [hl] at h
    have h' : v * q * (-q) = -q * q * ∑ i ∈ Finset.range 15, coord u i *
        Volume.rowMul (C.hessianEntries x 5 5) (coord w) i := by
      have e : (∑ i ∈ Finset.range 15, coord u i * ∑ j ∈ Finset.range (3 * 5),
        Sparse.storedEntry ((exTouch C).toSealed.jacobianIndices.zip
          ((exTouch C).toSealed.jacobianValues x (fun _ => 0) q q)) (i, j) * coord w j) =
        ∑ i ∈ Finset.range (3 * (exTouch C).numActive), coord u i *
          ∑ j ∈ Finset.range (3 * (exTouch C).numVertices),
        Sparse.storedEntry ((exTouch C).toSealed.jacobianIndices.zip
          ((exTouch C).toSealed.jacobianValues x (fun _ => 0) q q)) (i, j) * coord w j := rfl
      rw [← e] at h
      linarith
    have hqq : q * q ≠ 0 := mul_ne_zero hq0 hq0
    have := mul_left_cancel₀ hqq (show q * q * v = q * q * ∑ i ∈ Finset.range 15, coord u i *
        Volume.rowMul (C.hessianEntries x 5 5) (coord w) i by linarith)
    exact this

end Softy.Contact
