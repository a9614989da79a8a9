import Verif.Model.Field
import Verif.Props.Kernel
import Mathlib.Analysis.Calculus.Deriv.Add
import Mathlib.Algebra.BigOperators.Ring.Finset
import Mathlib.Algebra.BigOperators.Group.List.Basic
import Mathlib.Topology.Order.OrderClosed

/-!
# Lemmas on the potential field
-/

noncomputable section

namespace Softy.Field

open Softy Softy.Kernel

/-! ## Closest sample -/

theorem closestFrom_eq {q : V3 ℝ} {S : Samples} {c : ℕ} :
    ∀ (l : List ℕ) (best : ℕ), c ∈ best :: l →
      (∀ i ∈ best :: l, i ≠ c →
        V3.dot (q - S.pos c) (q - S.pos c) < V3.dot (q - S.pos i) (q - S.pos i)) →
      closestFrom q S best l = c := by
  intro l
  induction l with
  | nil =>
    intro best hc _
    simp only [List.mem_singleton] at hc
    exact hc.symm
  | cons i l ih =>
    intro best hc hmin
    simp only [closestFrom]
    by_cases hb : best = c
    · subst hb
      have hn : ¬ V3.dot (q - S.pos i) (q - S.pos i) < V3.dot (q - S.pos best) (q - S.pos best) := by
        by_cases hi : i = best
        · subst hi; exact lt_irrefl _
        · exact not_lt.2 (hmin i (by simp) hi).le
      rw [if_neg hn]
      refine ih best (by simp) fun j hj hne => hmin j ?_ hne
      simp only [List.mem_cons] at hj ⊢
      tauto
    · by_cases hi : i = c
      · subst hi
        rw [if_pos (hmin best (by simp) hb)]
        exact ih i (by simp) fun j hj hne => hmin j (List.mem_cons_of_mem _ hj) hne
      · have hcl : c ∈ l := by
          simp only [List.mem_cons] at hc
          rcases hc with h | h | h
          · exact absurd h.symm hb
          · exact absurd h.symm hi
          · exact h
        split
        · exact ih i (List.mem_cons_of_mem _ hcl) fun j hj hne =>
            hmin j (List.mem_cons_of_mem _ hj) hne
        · refine ih best (List.mem_cons_of_mem _ hcl) fun j hj hne => hmin j ?_ hne
          simp only [List.mem_cons] at hj ⊢
          tauto

theorem closestSample_eq {q : V3 ℝ} {S : Samples} {c : ℕ} {l : List ℕ} (hc : c ∈ l)
    (hmin : ∀ i ∈ l, i ≠ c →
      V3.dot (q - S.pos c) (q - S.pos c) < V3.dot (q - S.pos i) (q - S.pos i)) :
    closestSample q S l = some c := by
  cases l with
  | nil => simp at hc
  | cons i l => simp only [closestSample, closestFrom_eq l i hc hmin]

/-- The closest sample is in the view and no sample of the view is closer. -/
theorem closestFrom_spec {q : V3 ℝ} {S : Samples} :
    ∀ (l : List ℕ) (best : ℕ), closestFrom q S best l ∈ best :: l ∧ ∀ i ∈ best :: l,
      V3.dot (q - S.pos (closestFrom q S best l)) (q - S.pos (closestFrom q S best l)) ≤
        V3.dot (q - S.pos i) (q - S.pos i) := by
  intro l
  induction l with
  | nil => intro best; simp [closestFrom]
  | cons j l ih =>
    intro best
    simp only [closestFrom]
    split
    · rename_i h
      obtain ⟨h1, h2⟩ := ih j
      refine ⟨List.mem_cons_of_mem _ h1, fun i hi => ?_⟩
      rcases List.mem_cons.1 hi with rfl | hi
      · exact (h2 j (by simp)).trans h.le
      · exact h2 i hi
    · rename_i h
      obtain ⟨h1, h2⟩ := ih best
      refine ⟨?_, fun i hi => ?_⟩
      · rcases List.mem_cons.1 h1 with h1 | h1
        · rw [h1]; simp
        · exact List.mem_cons_of_mem _ (List.mem_cons_of_mem _ h1)
      · simp only [List.mem_cons] at hi
        rcases hi with rfl | rfl | hi
        · exact h2 _ (by simp)
        · exact (h2 best (by simp)).trans (not_lt.1 h)
        · exact h2 i (List.mem_cons_of_mem _ hi)

theorem closestSample_spec {q : V3 ℝ} {S : Samples} {c : ℕ} {l : List ℕ}
    (h : closestSample q S l = some c) :
    c ∈ l ∧ ∀ i ∈ l, (q - S.pos c).norm ≤ (q - S.pos i).norm := by
  cases l with
  | nil => simp [closestSample] at h
  | cons j l =>
    simp only [closestSample, Option.some.injEq] at h
    subst h
    obtain ⟨h1, h2⟩ := closestFrom_spec (q := q) (S := S) l j
    exact ⟨h1, fun i hi => Real.sqrt_le_sqrt (h2 i hi)⟩

theorem closestSample_isSome {q : V3 ℝ} {S : Samples} {l : List ℕ} (h : l ≠ []) :
    ∃ c, closestSample q S l = some c := by
  cases l with
  | nil => exact absurd rfl h
  | cons j l => exact ⟨_, rfl⟩

/-! ## Sums -/

theorem dot_zero_left (v : V3 ℝ) : V3.dot 0 v = 0 := by simp [V3.dot]
theorem dot_zero_right (v : V3 ℝ) : V3.dot v 0 = 0 := by simp [V3.dot]
theorem dot_add_left (a b v : V3 ℝ) : V3.dot (a + b) v = V3.dot a v + V3.dot b v := by
  simp [V3.dot]; ring
theorem dot_sub_left (a b v : V3 ℝ) : V3.dot (a - b) v = V3.dot a v - V3.dot b v := by
  simp [V3.dot]; ring
theorem dot_neg_left (a v : V3 ℝ) : V3.dot (-a) v = -V3.dot a v := by
  simp [V3.dot]; ring
theorem dot_smul_left (c : ℝ) (a v : V3 ℝ) : V3.dot (c • a) v = c * V3.dot a v := by
  simp [V3.dot]; ring
theorem dot_add_right (a b v : V3 ℝ) : V3.dot v (a + b) = V3.dot v a + V3.dot v b := by
  simp [V3.dot]; ring
theorem dot_sub_right (a b v : V3 ℝ) : V3.dot v (a - b) = V3.dot v a - V3.dot v b := by
  simp [V3.dot]; ring
theorem dot_smul_right (c : ℝ) (a v : V3 ℝ) : V3.dot v (c • a) = c * V3.dot v a := by
  simp [V3.dot]; ring
theorem dot_neg_right (a v : V3 ℝ) : V3.dot v (-a) = -V3.dot v a := by
  simp [V3.dot]; ring
theorem dot_symm (a b : V3 ℝ) : V3.dot a b = V3.dot b a := by
  simp only [V3.dot]; ring

theorem dot_sum {ι : Type*} (l : List ι) (f : ι → V3 ℝ) (v : V3 ℝ) :
    V3.dot (l.map f).sum v = (l.map fun i => V3.dot (f i) v).sum := by
  induction l with
  | nil => simp [dot_zero_left]
  | cons i l ih => simp only [List.map_cons, List.sum_cons, dot_add_left, ih]

theorem dot_sum_right {ι : Type*} (l : List ι) (f : ι → V3 ℝ) (v : V3 ℝ) :
    V3.dot v (l.map f).sum = (l.map fun i => V3.dot v (f i)).sum := by
  rw [dot_symm, dot_sum]
  simp only [dot_symm]

theorem sum_hasDeriv {ι : Type*} {l : List ι} {f : ι → ℝ → ℝ} {f' : ι → ℝ} {t : ℝ}
    (h : ∀ i ∈ l, HasDerivAt (f i) (f' i) t) :
    HasDerivAt (fun s => (l.map fun i => f i s).sum) (l.map f').sum t := by
  induction l with
  | nil => simpa using hasDerivAt_const t (0 : ℝ)
  | cons i l ih =>
    simp only [List.map_cons, List.sum_cons]
    exact (h i (by simp)).fun_add (ih fun j hj => h j (List.mem_cons_of_mem _ hj))

theorem list_sum_eq {l : List ℕ} (hl : l.Nodup) (f : ℕ → ℝ) :
    (l.map f).sum = ∑ i ∈ l.toFinset, f i := (List.sum_toFinset f hl).symm

theorem sum_eq_zero {l : List ℕ} {f : ℕ → ℝ} (h : ∀ i ∈ l, f i = 0) : (l.map f).sum = 0 := by
  induction l with
  | nil => rfl
  | cons i l ih =>
    simp only [List.map_cons, List.sum_cons]
    rw [h i (by simp), ih fun j hj => h j (List.mem_cons_of_mem _ hj), add_zero]

theorem sum_nonneg {l : List ℕ} {f : ℕ → ℝ} (h : ∀ i ∈ l, 0 ≤ f i) : 0 ≤ (l.map f).sum := by
  induction l with
  | nil => simp
  | cons i l ih =>
    simp only [List.map_cons, List.sum_cons]
    exact add_nonneg (h i (by simp)) (ih fun j hj => h j (List.mem_cons_of_mem _ hj))

theorem sum_pos {l : List ℕ} {f : ℕ → ℝ} {c : ℕ} (h : ∀ i ∈ l, 0 ≤ f i) (hc : c ∈ l) (hp : 0 < f c) :
    0 < (l.map f).sum := by
  induction l with
  | nil => simp at hc
  | cons i l ih =>
    simp only [List.map_cons, List.sum_cons]
    have h' : ∀ j ∈ l, 0 ≤ f j := fun j hj => h j (List.mem_cons_of_mem _ hj)
    rcases List.mem_cons.1 hc with rfl | hc
    · exact add_pos_of_pos_of_nonneg hp (sum_nonneg h')
    · exact add_pos_of_nonneg_of_pos (h i (by simp)) (ih h' hc)

/-! ## Quotient -/

/-- The derivative of a weighted average. -/
theorem average_hasDeriv {l : List ℕ} {w psi : ℕ → ℝ → ℝ} {w' psi' : ℕ → ℝ} {g wb : ℝ → ℝ}
    {g' wb' t : ℝ} (hw : ∀ i ∈ l, HasDerivAt (w i) (w' i) t)
    (hpsi : ∀ i ∈ l, HasDerivAt (psi i) (psi' i) t) (hg : HasDerivAt g g' t)
    (hwb : HasDerivAt wb wb' t) (hW : (l.map fun i => w i t).sum + wb t ≠ 0) :
    HasDerivAt (fun s => g s * ((l.map fun i => w i s).sum + wb s)⁻¹ +
        (l.map fun i => w i s * psi i s).sum * ((l.map fun i => w i s).sum + wb s)⁻¹)
      (((l.map fun i => w i t).sum + wb t)⁻¹ *
        (g' + (l.map fun i => w' i * psi i t + w i t * psi' i).sum -
          (g t + (l.map fun i => w i t * psi i t).sum) * ((l.map fun i => w i t).sum + wb t)⁻¹ *
            ((l.map w').sum + wb'))) t := by
  have h1 := (sum_hasDeriv hw).fun_add hwb
  have h2 := sum_hasDeriv (l := l) (f := fun i s => w i s * psi i s)
    (f' := fun i => w' i * psi i t + w i t * psi' i) fun i hi => (hw i hi).fun_mul (hpsi i hi)
  have h3 := h1.fun_inv hW
  refine ((hg.fun_mul h3).fun_add (h2.fun_mul h3)).congr_deriv ?_
  generalize (l.map fun i => w i t).sum + wb t = W at *
  generalize (l.map fun i => w' i * psi i t + w i t * psi' i).sum = X
  generalize (l.map w').sum + wb' = Y
  generalize (l.map fun i => w i t * psi i t).sum = Z
  field_simp
  ring

/-! ## Weights -/

/-- A kernel is positive inside its radius. -/
theorem kernel_pos (k : Kern) (hk : k.Proper) (x : ℝ) (hx : 0 ≤ x) (h0 : k.Finite ∨ x ≠ 0)
    (hr : ∀ r, k.radius = some r → x < r) : 0 < k.f x := by
  classical
  have cub : ∀ r x : ℝ, 0 < r → 0 ≤ x → x < r →
      0 < 1 - 3 * x * x / (r * r) + 2 * x * x * x / (r * r * r) := by
    intro r x hr hx h
    have e : 1 - 3 * x * x / (r * r) + 2 * x * x * x / (r * r * r) =
        (1 - x / r) ^ 2 * (1 + 2 * (x / r)) := by field_simp; ring
    rw [e]
    have : x / r < 1 := (div_lt_one hr).2 h
    have : 0 < 1 - x / r := by linarith
    positivity
  cases k with
  | global eps =>
    have : 0 < eps := hk
    simp only [Kern.f, globalF_eq]
    have : 0 < x * x + eps * eps := by positivity
    positivity
  | cubic r =>
    have h := hr r rfl
    simp only [Kern.f, cubicF_eq]
    rw [if_neg (not_lt.2 h.le)]
    exact cub r x hk hx h
  | interpolating r xc =>
    have h := hr r rfl
    have hx0 : 0 < x := lt_of_le_of_ne hx (Ne.symm (h0.resolve_left id))
    obtain ⟨h1, h2⟩ := hk
    simp only [Kern.f, interpolatingF_eq]
    rw [if_neg (not_lt.2 h.le)]
    have h3 := cub r x h1 hx h
    have h4 : x / r < 1 := (div_lt_one h1).2 h
    have h5 : 0 < x / r := by positivity
    have h6 : x / r * (x / r) < 1 := by nlinarith
    have h7 : 0 < 1 / (x / r * (x / r)) - 1 := by
      rw [sub_pos, lt_div_iff₀ (by positivity)]; linarith
    positivity
  | smooth r t =>
    have h := hr r rfl
    obtain ⟨h1, h2⟩ := hk
    simp only [Kern.f, smoothF]
    rw [if_neg (not_lt.2 h.le)]
    have h3 := cub r x h1 hx h
    have e : 2 * (x / r * (x / r) * (x / r)) - 3 * (x / r * (x / r)) + 1 =
        1 - 3 * x * x / (r * r) + 2 * x * x * x / (r * r * r) := by field_simp; ring
    rw [e]
    have : 0 < t + x / r * (x / r) := add_pos_of_pos_of_nonneg h2 (mul_self_nonneg _)
    positivity
  | approximate r eps =>
    have h := hr r rfl
    obtain ⟨h1, h2⟩ := hk
    simp only [Kern.f, approximateF]
    rw [if_neg (not_lt.2 h.le)]
    have h4 : x / r < 1 := (div_lt_one h1).2 h
    have h5 : 0 ≤ x / r := by positivity
    have h6 : x / r * (x / r) < 1 := by nlinarith
    have h7 : 1 / ((1 + eps) * (1 + eps)) <
        1 / (x / r * (x / r) + eps) * (1 / (x / r * (x / r) + eps)) := by
      rw [one_div_mul_one_div]
      apply one_div_lt_one_div_of_lt (by positivity)
      nlinarith [mul_self_nonneg (x / r)]
    have : 0 < 1 / (x / r * (x / r) + eps) * (1 / (x / r * (x / r) + eps)) -
        1 / ((1 + eps) * (1 + eps)) := by linarith
    positivity

theorem proper_withClosest {k : Kern} (hk : k.Proper) {d : ℝ} (hd : k.Finite ∨ 0 < d) :
    (k.withClosest d).Proper := by
  cases k with
  | interpolating r xc => exact ⟨hk.1, hd.resolve_left id⟩
  | _ => exact hk

theorem radius_withClosest (k : Kern) (d : ℝ) : (k.withClosest d).radius = k.radius := by
  cases k <;> rfl

theorem finite_withClosest (k : Kern) (d : ℝ) : (k.withClosest d).Finite ↔ k.Finite := by
  cases k <;> exact Iff.rfl

theorem withClosest_of_finite {k : Kern} (hk : k.Finite) (d : ℝ) : k.withClosest d = k := by
  cases k with
  | interpolating r xc => exact hk.elim
  | _ => rfl

/-- The distance of the closest sample scales all weights of the interpolating kernel. -/
theorem interpolating_scale (r a b x : ℝ) (hb : b ≠ 0) :
    (Kern.interpolating r a).f x = (a / b) * (a / b) * (Kern.interpolating r b).f x := by
  simp only [Kern.f, interpolatingF_eq]
  split
  · simp
  · field_simp

theorem weight_nonneg {k : Kern} (hk : k.Proper) {q : V3 ℝ} {S : Samples} {i : ℕ} {d : ℝ}
    (hd : k.Finite ∨ 0 < d) (hi : d ≤ (q - S.pos i).norm) : 0 ≤ weight k d q S i := by
  refine kernel_nonneg _ (proper_withClosest hk hd) _ (V3.norm_nonneg _) ?_
  rw [finite_withClosest]
  exact hd.imp id fun h => (h.trans_le hi).ne'

theorem weight_far {k : Kern} (hk : k.Proper) {q : V3 ℝ} {S : Samples} {i : ℕ} {d r : ℝ}
    (hd : k.Finite ∨ 0 < d) (hr : k.radius = some r) (hi : r ≤ (q - S.pos i).norm) :
    weight k d q S i = 0 :=
  kernel_support _ (proper_withClosest hk hd) r _ ((radius_withClosest k d).trans hr) hi

theorem weightSumInv_eq (b : Bg) : b.weightSumInv = b.weightSum⁻¹ := by
  unfold Bg.weightSumInv
  split
  · rename_i h; rw [h, inv_zero]
  · rw [one_div]

theorem backgroundWeight_nonneg {k : Kern} (hk : k.Proper) (weighted : Bool) {d : ℝ}
    (hf : weighted = true → k.Finite ∨ ∀ r, k.radius = some r → d ≠ r) :
    0 ≤ backgroundWeight k weighted d := by
  unfold backgroundWeight
  cases hr : k.radius with
  | none => exact le_refl _
  | some r =>
    simp only
    split
    · exact zero_le_one
    · rename_i h
      split
      · rename_i hw
        refine kernel_nonneg k hk _ (by linarith) ?_
        rcases hf hw with h1 | h1
        · exact Or.inl h1
        · exact Or.inr (sub_ne_zero.2 (Ne.symm (h1 r hr)))
      · exact le_refl _

end Softy.Field
