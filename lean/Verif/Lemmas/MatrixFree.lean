import Verif.Model.MatrixFree
import Verif.Props.Gripping

/-!
# Lemmas: matrix-free products
-/

noncomputable section

namespace Softy.Contact

open Softy Assembly Fem Softy.Field

/-! ## The cached matrix -/

/-- The matrix that is stored after the values were computed again. -/
theorem Cache.mul_refreshed (keys : List Sparse.Key) (n : ℕ) (vals : List ℝ) (hl : vals.length = keys.length)
    (stale : Bool) (p : ℕ → ℝ) (i : ℕ) (hi : i < n) :
    Cache.mul ⟨keys, n, Sparse.reassemble (Sparse.mapping (fun k : Fin keys.length => keys.get k) n)
      fun k => vals.getD k.val 0, stale⟩ p i =
      ∑ j ∈ Finset.range n, Sparse.storedEntry (keys.zip vals) (i, j) * p j := by
  set key : Fin keys.length → Sparse.Key := fun k => keys.get k with hkey
  set new : Fin keys.length → ℝ := fun k => vals.getD k.val 0 with hnew
  have h0 : Cache.mul ⟨keys, n, Sparse.reassemble (Sparse.mapping key n) new, stale⟩ p i =
      (((Sparse.compress key new n).filter fun e => e.1.1 = i).map fun e => e.2 * p e.1.2).sum := by
    rw [← Sparse.reassemble_full key (fun _ => 0) new n]
    unfold Cache.mul
    change (((Sparse.compress key (fun _ => (0 : ℝ)) n).zipIdx.filter _).map _).sum = _
    generalize Sparse.compress key (fun _ => (0 : ℝ)) n = L
    generalize Sparse.reassemble (Sparse.mapping key n) new = st
    have : (L.map Prod.fst).zip ((List.range L.length).map st) =
        L.zipIdx.map fun e => (e.1.1, st e.2) := by
      apply List.ext_getElem
      · simp
      · intro k h1 h2
        simp
    rw [this, List.filter_map, List.map_map]
    rfl
  have h1 : ∀ j ∈ Finset.range n, Sparse.storedEntry (keys.zip vals) (i, j) * p j =
      Sparse.storedEntry (Sparse.compress key new n) (i, j) * p j := by
    intro j hj
    rw [Sparse.compress_entry key new n (i, j) ⟨hi, Finset.mem_range.1 hj⟩, Sparse.tripletEntry,
      Sparse.storedEntry]
    congr 1
    rw [← List.sum_ofFn]
    congr 1
    apply List.ext_get
    · simp [hl]
    · intro k h2 h3
      simp only [List.length_map, List.length_zip] at h2
      have hk : k < vals.length := by omega
      simp [hkey, hnew, hk]
  rw [h0, Finset.sum_congr rfl h1]
  have hr : ∀ e ∈ Sparse.compress key new n, e.1.1 < n ∧ e.1.2 < n := fun e he =>
    ((Sparse.compress_stored_iff key new n e.1).1 ⟨e, he, rfl⟩).1
  generalize Sparse.compress key new n = L at hr
  induction L with
  | nil => simp [Sparse.storedEntry]
  | cons e L ih =>
    have ih := ih fun e he => hr e (List.mem_cons_of_mem _ he)
    have he := (hr e List.mem_cons_self).2
    simp only [Sparse.storedEntry_cons, add_mul, Finset.sum_add_distrib]
    rw [← ih]
    by_cases h : e.1.1 = i
    · rw [List.filter_cons_of_pos (by simpa using h), List.map_cons, List.sum_cons]
      congr 1
      rw [Finset.sum_eq_single e.1.2]
      · rw [if_pos (show e.1 = (i, e.1.2) from Prod.ext h rfl)]
      · intro j _ hj
        rw [if_neg (fun hh => hj (by rw [hh])), zero_mul]
      · intro hh
        exact absurd (Finset.mem_range.2 he) hh
    · rw [List.filter_cons_of_neg (by simpa using h)]
      rw [Finset.sum_eq_zero, zero_add]
      intro j _
      rw [if_neg (fun hh => h (by rw [hh])), zero_mul]

/-! ## Forces of constraints -/

theorem Gripping.constraintForce_eq (S : Gripping) (x v : Vel) (i : ℕ) :
    S.constraintForce x v i = S.pressure x i + S.contactForce x i + S.frictionForce x v i := by
  unfold Gripping.constraintForce
  rw [Gripping.foldl_friction, Touching.foldl_contactForce]
  congr 2
  rw [← congrFun (Volume.toVec_coord fun i => S.pressure x i) i]
  congr 1
  funext j
  rw [Volume.foldl_force]
  unfold Volume.Sealed.pressure
  rw [Volume.pressure_coord, zero_add]

/-- The residual is that of the elements, plus the forces of the constraints. -/
theorem Gripping.residual_split (S : Gripping) (fm pm : ℝ) (prev v0 x v r f : ℕ → V3 ℝ)
    (h : S.toProblem.residual fm pm prev v0 x v = some (r, f)) :
    ∃ g, S.residual fm pm prev v0 x v =
      some (fun i => r i + (S.dt * fm) • S.constraintForce x v i, g) := by
  have h1 := S.toSealed.residual_eq fm pm prev v0 x v r f h
  have h2 := S.toTouching.residual_eq fm pm prev v0 x v _ _ h1
  refine ⟨_, (S.residual_eq fm pm prev v0 x v _ _ h2).trans
    (congrArg some (congrArg (fun a => (a, _)) ?_))⟩
  funext i
  rw [S.constraintForce_eq, smul_add, smul_add]
  abel

theorem elastic_length (P : Problem) (x v : ℕ → V3 ℝ) (q fmul : ℝ) :
    (P.jacobianValues x v q fmul).length = P.jacobianIndices.length := by
  unfold Problem.jacobianValues Problem.jacobianIndices Sparse.mirrorValues Sparse.mirrorIndices
  have hl := lower_length P x v q fmul
  simp only [List.length_append, List.length_take, List.length_map, hl]
  congr 2
  generalize P.lowerIndices = I at *
  generalize P.lowerValues x v q fmul = V at *
  induction I generalizing V with
  | nil => simp
  | cons a I ih =>
    cases V with
    | nil => simp at hl
    | cons b V =>
      have := ih V (by simpa using hl)
      simp only [List.zip_cons_cons, List.filter_cons]
      split_ifs
      · simp [this]
      · exact this

end Softy.Contact
