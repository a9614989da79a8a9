import Verif.Model.MCP
import Verif.Prelude

/-!
# C06, C07, C08 — the mixed complementarity wrapper
-/

noncomputable section

namespace Softy.MCP

/-- Specification: `x` solves the box-constrained complementarity problem for `f`:
every component is within its bounds, a positive residual is only allowed at the lower
bound and a negative residual only at the upper bound. -/
def Solves {n : ℕ} (l u : Fin n → EReal) (x f : Fin n → ℝ) : Prop :=
  ∀ i, l i ≤ x i ∧ (x i : EReal) ≤ u i ∧
    (0 < f i → (x i : EReal) = l i) ∧ (f i < 0 → (x i : EReal) = u i)

theorem sub_nonneg_iff (x : ℝ) (b : EReal) : 0 ≤ (x : EReal) - b ↔ b ≤ x := by
  induction b with
  | bot => simp
  | top => simp
  | coe b => norm_cast; exact sub_nonneg

theorem sub_nonpos_iff (x : ℝ) (b : EReal) : (x : EReal) - b ≤ 0 ↔ (x : EReal) ≤ b := by
  induction b with
  | bot => simp
  | top => simp
  | coe b => norm_cast; exact sub_nonpos

theorem sub_eq_zero_iff' (x : ℝ) (b : EReal) : (x : EReal) - b = 0 ↔ (x : EReal) = b := by
  constructor
  · intro h
    exact le_antisymm ((sub_nonpos_iff x b).1 h.le) ((sub_nonneg_iff x b).1 h.ge)
  · intro h
    exact le_antisymm ((sub_nonpos_iff x b).2 h.le) ((sub_nonneg_iff x b).2 h.ge)

/-- **C06.** The wrapper's residual vanishes exactly at the solutions of the
complementarity problem. -/
theorem residual_zero_iff {n : ℕ} (l u : Fin n → EReal) (hlu : ∀ i, l i ≤ u i)
    (x f : Fin n → ℝ) : (∀ i, residual l u x f i = 0) ↔ Solves l u x f := by
  refine forall_congr' fun i => ?_
  unfold residual
  constructor
  · intro h
    have h1 : 0 ≤ (x i : EReal) - l i := h ▸ min_le_right _ _
    have hl := (sub_nonneg_iff _ _).1 h1
    rcases min_choice (max (f i : EReal) ((x i : EReal) - u i)) ((x i : EReal) - l i) with e | e
    · rw [e] at h
      have h2 : (x i : EReal) - u i ≤ 0 := h ▸ le_max_right _ _
      have hf : (f i : EReal) ≤ 0 := h ▸ le_max_left _ _
      refine ⟨hl, (sub_nonpos_iff _ _).1 h2, ?_, ?_⟩
      · intro hp
        exact absurd (by exact_mod_cast hf) (not_le.2 hp)
      · intro hn
        have : (f i : EReal) < 0 := by exact_mod_cast hn
        rcases max_choice (f i : EReal) ((x i : EReal) - u i) with e' | e'
        · rw [e'] at h; exact absurd h this.ne
        · rw [e'] at h; exact (sub_eq_zero_iff' _ _).1 h
    · rw [e] at h
      have hx := (sub_eq_zero_iff' _ _).1 h
      refine ⟨hl, hx ▸ hlu i, fun _ => hx, ?_⟩
      intro hn
      have h3 : (x i : EReal) - l i ≤ max (f i : EReal) ((x i : EReal) - u i) := e ▸ min_le_left _ _
      rw [h] at h3
      have : (f i : EReal) < 0 := by exact_mod_cast hn
      rcases le_max_iff.1 h3 with h4 | h4
      · exact absurd h4 (not_le.2 this)
      · exact le_antisymm (hx ▸ hlu i) ((sub_nonneg_iff _ _).1 h4)
  · rintro ⟨hl, hu, hp, hn⟩
    have h1 := (sub_nonneg_iff _ _).2 hl
    have h2 := (sub_nonpos_iff _ _).2 hu
    rcases lt_trichotomy (f i) 0 with h | h | h
    · have hx := (sub_eq_zero_iff' _ _).2 (hn h)
      have : (f i : EReal) < 0 := by exact_mod_cast h
      rw [hx, max_eq_right this.le, min_eq_left h1]
    · rw [h]
      simp only [EReal.coe_zero]
      rw [max_eq_left h2, min_eq_left h1]
    · have hx := (sub_eq_zero_iff' _ _).2 (hp h)
      have : (0 : EReal) < (f i : EReal) := by exact_mod_cast h
      rw [hx, min_eq_right (this.le.trans (le_max_left _ _))]

/-- The bounds hypothesis is met by a half-line (non-penetration) problem and the residual
is really zero at a contact solution and non-zero elsewhere. -/
example : (∀ i : Fin 1, (fun _ => (0 : EReal)) i ≤ (fun _ => (⊤ : EReal)) i) ∧
    Solves (n := 1) (fun _ => 0) (fun _ => ⊤) (fun _ => 0) (fun _ => 3) ∧
    ¬ Solves (n := 1) (fun _ => 0) (fun _ => ⊤) (fun _ => 1) (fun _ => 3) := by
  refine ⟨fun _ => le_top, fun i => ⟨?_, ?_, ?_, ?_⟩, ?_⟩
  · simp
  · simp
  · simp
  · intro h; norm_num at h
  · intro h
    have := (h 0).2.2.1 (by norm_num)
    norm_num at this

/-! ## C08 -/

/-- Bounds of an unconstrained problem. -/
def unboundedL {n : ℕ} : Fin n → EReal := fun _ => ⊥
def unboundedU {n : ℕ} : Fin n → EReal := fun _ => ⊤

/-- **C08.** Without bounds the residual is the wrapped residual. -/
theorem residual_unbounded {n : ℕ} (x f : Fin n → ℝ) (i : Fin n) :
    residual unboundedL unboundedU x f i = (f i : EReal) := by
  simp [residual, unboundedL, unboundedU]

theorem not_active_unbounded {x r : ℝ} : ¬ Active ⊥ ⊤ (x : EReal) (r : EReal) := by
  simp [Active]

/-- **C08.** Without bounds the Jacobian values are the wrapped values. -/
theorem jacobianValues_unbounded {n : ℕ} (x r : Fin n → ℝ) (seen : Fin n → Bool)
    (ts : List (ℕ × ℕ × ℝ)) :
    jacobianValues unboundedL unboundedU (fun i => (x i : EReal)) (fun i => (r i : EReal)) seen ts
      = ts := by
  induction ts generalizing seen with
  | nil => rfl
  | cons t ts ih =>
    obtain ⟨i, j, v⟩ := t
    simp only [jacobianValues, unboundedL, unboundedU, not_active_unbounded, if_false]
    split <;> exact congrArg _ (ih seen)

/-- **C08.** Without bounds the Jacobian product is the wrapped product. -/
theorem jacobianProduct_unbounded {n : ℕ} (x r jp : Fin n → ℝ) (i : Fin n) :
    jacobianProduct unboundedL unboundedU (fun i => (x i : EReal)) (fun i => (r i : EReal)) jp i
      = (jp i : EReal) := by
  simp [jacobianProduct, unboundedL, unboundedU]

/-! ## C07 -/

/-- Specification: component `i` of the product of a triplet matrix with `p`; duplicate
triplets add up, and triplets whose column is out of range contribute nothing. -/
def tripletMul {n : ℕ} (ts : List (ℕ × ℕ × ℝ)) (p : Fin n → ℝ) (i : Fin n) : ℝ :=
  (ts.map fun t => if t.1 = (i : ℕ) then (if h : t.2.1 < n then t.2.2 * p ⟨t.2.1, h⟩ else 0) else 0).sum

/-- Specification: the matrix has a diagonal entry in row `i`. -/
def HasDiagonal (ts : List (ℕ × ℕ × ℝ)) (i : ℕ) : Prop := ∃ v, (i, i, v) ∈ ts

theorem tripletMul_cons {n : ℕ} (t : ℕ × ℕ × ℝ) (ts : List (ℕ × ℕ × ℝ)) (p : Fin n → ℝ)
    (i : Fin n) : tripletMul (t :: ts) p i =
      (if t.1 = (i : ℕ) then (if h : t.2.1 < n then t.2.2 * p ⟨t.2.1, h⟩ else 0) else 0) +
        tripletMul ts p i := by
  simp [tripletMul]

theorem tripletMul_nil {n : ℕ} (p : Fin n → ℝ) (i : Fin n) : tripletMul [] p i = 0 := rfl

/-- Specification: the residual of a row is above the distance to the upper bound and below the
distance to the lower bound, so that no bound is active. -/
def Between (l u x r : EReal) : Prop := x - u < r ∧ r < x - l

theorem not_active_iff (l u x r : EReal) : ¬ Active l u x r ↔ Between l u x r := by
  unfold Active Between
  rw [not_or, not_le, not_le]

/-- **C07 (values, inactive rows).** Rows away from the bounds are the wrapped rows. -/
theorem jacobianValues_inactive_row {n : ℕ} (l u : Fin n → EReal) (x r : Fin n → EReal)
    (seen : Fin n → Bool) (ts : List (ℕ × ℕ × ℝ)) (p : Fin n → ℝ) (i : Fin n)
    (hi : Between (l i) (u i) (x i) (r i)) :
    tripletMul (jacobianValues l u x r seen ts) p i = tripletMul ts p i := by
  rw [← not_active_iff] at hi
  induction ts generalizing seen with
  | nil => rfl
  | cons t ts ih =>
    obtain ⟨a, b, v⟩ := t
    simp only [jacobianValues]
    by_cases h : a < n ∧ b < n
    · rw [dif_pos h]
      by_cases ha : Active (l ⟨a, h.1⟩) (u ⟨a, h.1⟩) (x ⟨a, h.1⟩) (r ⟨a, h.1⟩)
      · have hne : a ≠ (i : ℕ) := by
          rintro rfl; exact hi ha
        simp only [ha, if_true]
        split_ifs <;> simp only [tripletMul_cons, hne, if_false, ih]
      · simp only [ha, if_false, tripletMul_cons, ih]
    · rw [dif_neg h]
      simp only [tripletMul_cons, ih]

theorem active_row_aux {n : ℕ} (l u : Fin n → EReal) (x r : Fin n → EReal)
    (seen : Fin n → Bool) (ts : List (ℕ × ℕ × ℝ)) (p : Fin n → ℝ) (i : Fin n)
    (hi : Active (l i) (u i) (x i) (r i)) :
    (seen i = true → tripletMul (jacobianValues l u x r seen ts) p i = 0) ∧
    (seen i = false → HasDiagonal ts i →
      tripletMul (jacobianValues l u x r seen ts) p i = p i) := by
  induction ts generalizing seen with
  | nil =>
    refine ⟨fun _ => rfl, fun _ h => ?_⟩
    obtain ⟨v, h⟩ := h
    cases h
  | cons t ts ih =>
    obtain ⟨a, b, v⟩ := t
    by_cases hai : a = (i : ℕ)
    · subst hai
      by_cases hb : b < n
      · have hdiag : HasDiagonal ((↑i, b, v) :: ts) i → b ≠ i → HasDiagonal ts i := by
          rintro ⟨w, hw⟩ hne
          rcases List.mem_cons.1 hw with e | e
          · simp only [Prod.mk.injEq] at e; exact absurd e.2.1.symm hne
          · exact ⟨w, e⟩
        simp only [jacobianValues, i.2, hb, and_self, dite_true, Fin.eta, hi, if_true]
        by_cases hbi : (i : ℕ) = b
        · subst hbi
          constructor
          · intro hs
            simp only [hs, reduceCtorEq, and_false, if_false]
            simp only [tripletMul_cons, if_true, i.2, dite_true, zero_mul, zero_add]
            exact (ih seen).1 hs
          · intro hs _
            simp only [hs, and_self, if_true]
            simp only [tripletMul_cons, if_true, i.2, dite_true, one_mul, Fin.eta]
            rw [(ih _).1 (by simp)]
            simp
        · simp only [hbi, false_and, if_false, tripletMul_cons, if_true, hb, dite_true, zero_mul,
            zero_add]
          exact ⟨(ih seen).1, fun hs hd => (ih seen).2 hs (hdiag hd (Ne.symm hbi))⟩
      · have hdiag : HasDiagonal ((↑i, b, v) :: ts) i → HasDiagonal ts i := by
          rintro ⟨w, hw⟩
          rcases List.mem_cons.1 hw with e | e
          · simp only [Prod.mk.injEq] at e
            exact absurd (e.2.1 ▸ i.2) hb
          · exact ⟨w, e⟩
        simp only [jacobianValues, hb, and_false, dite_false, tripletMul_cons, if_true, zero_add]
        exact ⟨(ih seen).1, fun hs hd => (ih seen).2 hs (hdiag hd)⟩
    · have hdiag : HasDiagonal ((a, b, v) :: ts) i → HasDiagonal ts i := by
        rintro ⟨w, hw⟩
        rcases List.mem_cons.1 hw with e | e
        · simp only [Prod.mk.injEq] at e; exact absurd e.1.symm hai
        · exact ⟨w, e⟩
      have hup : ∀ (h : a < n), Function.update seen ⟨a, h⟩ true i = seen i := by
        intro h
        rw [Function.update_of_ne]
        intro e; exact hai (by rw [e])
      simp only [jacobianValues]
      by_cases h : a < n ∧ b < n
      · rw [dif_pos h]
        split_ifs
        · simp only [tripletMul_cons, hai, if_false, zero_add]
          have := ih (Function.update seen ⟨a, h.1⟩ true)
          rw [hup h.1] at this
          exact ⟨this.1, fun hs hd => this.2 hs (hdiag hd)⟩
        · simp only [tripletMul_cons, hai, if_false, zero_add]
          exact ⟨(ih seen).1, fun hs hd => (ih seen).2 hs (hdiag hd)⟩
        · simp only [tripletMul_cons, hai, if_false, zero_add]
          exact ⟨(ih seen).1, fun hs hd => (ih seen).2 hs (hdiag hd)⟩
      · rw [dif_neg h]
        simp only [tripletMul_cons, hai, if_false, zero_add]
        exact ⟨(ih seen).1, fun hs hd => (ih seen).2 hs (hdiag hd)⟩

/-- **C07 (values, active rows).** On an active bound the row becomes exactly the identity
row, even when the diagonal is split over repeated triplets, as long as the wrapped
structure has a diagonal entry there. -/
theorem jacobianValues_active_row {n : ℕ} (l u : Fin n → EReal) (x r : Fin n → EReal)
    (ts : List (ℕ × ℕ × ℝ)) (p : Fin n → ℝ) (i : Fin n)
    (hi : ¬ Between (l i) (u i) (x i) (r i)) (hd : HasDiagonal ts i) :
    tripletMul (jacobianValues l u x r (fun _ => false) ts) p i = p i :=
  (active_row_aux l u x r (fun _ => false) ts p i
    (by rw [← not_active_iff, not_not] at hi; exact hi)).2 rfl hd

/-- The wrapper does not touch the sparsity structure. -/
theorem jacobianValues_structure {n : ℕ} (l u : Fin n → EReal) (x r : Fin n → EReal)
    (seen : Fin n → Bool) (ts : List (ℕ × ℕ × ℝ)) :
    (jacobianValues l u x r seen ts).map (fun t => (t.1, t.2.1)) =
      ts.map (fun t => (t.1, t.2.1)) := by
  induction ts generalizing seen with
  | nil => rfl
  | cons t ts ih =>
    obtain ⟨a, b, v⟩ := t
    simp only [jacobianValues]
    split_ifs <;> simp [ih]

/-- Non-vacuity: a 2×2 problem whose first variable is at its lower bound and whose diagonal
is stored twice. -/
example : ¬ Between (0 : EReal) ⊤ ((0 : ℝ) : EReal) ((0 : ℝ) : EReal) ∧
    HasDiagonal [(0, 0, 2), (0, 1, 5), (0, 0, 3), (1, 1, (7 : ℝ))] 0 := by
  constructor
  · simp [Between]
  · exact ⟨2, by simp⟩

/-- **C07, full statement.** The Jacobian product equals the product of the Jacobian values
with the vector. -/
def ProductMatchesValues {n : ℕ} (l u : Fin n → EReal) (x r : Fin n → EReal)
    (ts : List (ℕ × ℕ × ℝ)) (p : Fin n → ℝ) (i : Fin n) : Prop :=
  jacobianProduct l u x r (tripletMul ts p) i =
    (tripletMul (jacobianValues l u x r (fun _ => false) ts) p i : EReal)

/-- **C07 (partial).** The product and the values agree on rows away from their bounds. What
is missing is the active rows, where the code is wrong (`jacobianProduct_active_violated`). -/
theorem jacobianProduct_inactive_partial {n : ℕ} (l u : Fin n → EReal) (x r : Fin n → EReal)
    (ts : List (ℕ × ℕ × ℝ)) (p : Fin n → ℝ) (i : Fin n)
    (hi : Between (l i) (u i) (x i) (r i)) : ProductMatchesValues l u x r ts p i := by
  unfold ProductMatchesValues
  rw [jacobianValues_inactive_row _ _ _ _ _ _ _ _ hi]
  simp only [jacobianProduct, not_le.mpr hi.1, not_le.mpr hi.2, if_false]

/-- **C07 (characterisation).** On a row at its upper bound the product agrees with the
values only by accident, when `p` happens to equal the distance to the bound. -/
theorem jacobianProduct_upper_iff {n : ℕ} (l u : Fin n → EReal) (x r : Fin n → EReal)
    (ts : List (ℕ × ℕ × ℝ)) (p : Fin n → ℝ) (i : Fin n) (hd : HasDiagonal ts i)
    (hi : r i ≤ x i - u i) :
    ProductMatchesValues l u x r ts p i ↔ x i - u i = (p i : EReal) := by
  unfold ProductMatchesValues
  rw [jacobianValues_active_row l u x r ts p i (fun h => absurd hi (not_le.mpr h.1)) hd]
  simp only [jacobianProduct, hi, if_true]

/-- **C07 is violated.** At an active bound the product writes the distance to the bound
instead of the component of `p`: here the matrix row is the identity row, `p = 5`, and the
product returns `0`. -/
theorem jacobianProduct_active_violated :
    ¬ ProductMatchesValues (n := 1) (fun _ => 0) (fun _ => ⊤) (fun _ => ((0 : ℝ) : EReal))
      (residual (fun _ => 0) (fun _ => ⊤) (fun _ => 0) (fun _ => 3)) [(0, 0, 2)] (fun _ => 5) 0 := by
  unfold ProductMatchesValues
  have hr : residual (n := 1) (fun _ => 0) (fun _ => ⊤) (fun _ => 0) (fun _ => 3) 0 = 0 := by
    have h3 : (0 : EReal) ≤ ((3 : ℝ) : EReal) := by exact_mod_cast (by norm_num : (0 : ℝ) ≤ 3)
    simp [residual, h3]
  rw [jacobianValues_active_row _ _ _ _ _ _ _ (by rw [hr]; simp [Between]) ⟨2, by simp⟩]
  simp only [jacobianProduct, hr]
  norm_num
  intro h
  have : ((0 : ℝ) : EReal) = ((5 : ℝ) : EReal) := by simpa using h
  have := EReal.coe_eq_coe_iff.1 this
  norm_num at this

end Softy.MCP
