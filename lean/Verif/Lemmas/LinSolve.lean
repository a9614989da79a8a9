import Verif.Model.LinSolve
import Mathlib.Analysis.InnerProductSpace.Symmetric
import Mathlib.LinearAlgebra.FiniteDimensional.Lemmas
import Mathlib.Tactic.Linarith
import Mathlib.Tactic.FieldSimp
import Mathlib.Tactic.LinearCombination

/-! Invariants of the loops of the linear solvers. -/

noncomputable section

open scoped Classical
open scoped RealInnerProductSpace

namespace Softy.LinSolve

variable {V : Type*} [NormedAddCommGroup V] [InnerProductSpace ℝ V]

/-- What the head of the conjugate residual loop keeps. -/
structure CrInv (A : V →ₗ[ℝ] V) (b : V) (s : CrState V) : Prop where
  hr : s.r = b - A s.x
  hap : s.ap = A s.p
  hrar : s.rar = ⟪s.r, A s.r⟫
  hrap : ⟪s.r, s.ap⟫ = s.rar

theorem eps64_pos : 0 < eps64 := by unfold eps64; positivity

theorem crPoisoned_spec (stop : ℕ → Bool) (maxIter k : ℕ) :
    (crPoisoned (V := V) stop maxIter k).x = none ∧
    (crPoisoned (V := V) stop maxIter k).status ≠ .success ∧
    (crPoisoned (V := V) stop maxIter k).iterations ≤ max (k + 1) maxIter := by
  induction h : maxIter - k using Nat.strong_induction_on generalizing k with
  | _ n ih =>
    rw [crPoisoned]
    split_ifs with h1 h2
    · simp
    · simp
    · have := ih (maxIter - (k + 1)) (by omega) (k + 1) rfl
      refine ⟨this.1, this.2.1, this.2.2.trans ?_⟩
      omega

theorem cr_step_r {r ap : V} {rar : ℝ} (h : ⟪r, ap⟫ = rar) (hne : ⟪ap, ap⟫ ≠ 0) :
    ⟪r - (rar / ⟪ap, ap⟫) • ap, ap⟫ = 0 := by
  rw [inner_sub_left, inner_smul_left, h]
  simp only [conj_trivial]
  rw [div_mul_cancel₀ _ hne, sub_self]

theorem cr_step_norm {r ap : V} {rar : ℝ} (h : ⟪r, ap⟫ = rar) (hne : ⟪ap, ap⟫ ≠ 0) :
    ‖r - (rar / ⟪ap, ap⟫) • ap‖ ≤ ‖r‖ := by
  have h0 := cr_step_r h hne
  set a := rar / ⟪ap, ap⟫
  set r' := r - a • ap with hr'
  have e : r = r' + a • ap := by rw [hr']; abel
  have : ⟪r, r⟫ = ⟪r', r'⟫ + a ^ 2 * ⟪ap, ap⟫ := by
    rw [e, inner_add_left, inner_add_right, inner_add_right, inner_smul_left, inner_smul_right,
      inner_smul_right, inner_smul_left, real_inner_comm r' ap, h0]
    simp only [conj_trivial]; ring
  have hn : 0 ≤ ⟪ap, ap⟫ := real_inner_self_nonneg
  rw [real_inner_self_eq_norm_sq, real_inner_self_eq_norm_sq] at this
  have : ‖r'‖ ^ 2 ≤ ‖r‖ ^ 2 := by rw [this]; nlinarith [sq_nonneg a]
  exact (sq_le_sq₀ (norm_nonneg _) (norm_nonneg _)).1 this

theorem CrInv.step {A : V →ₗ[ℝ] V} {b : V} {s : CrState V} (h : CrInv A b s)
    (hne : ⟪s.ap, s.ap⟫ ≠ 0) {k : ℕ} (β : ℝ) :
    let a := s.rar / ⟪s.ap, s.ap⟫
    let r := s.r - a • s.ap
    CrInv A b ⟨s.x + a • s.p, r, r + β • s.p, A r + β • s.ap, ⟪r, A r⟫, k⟩ := by
  intro a r
  refine ⟨?_, ?_, rfl, ?_⟩
  · simp only [r, h.hr, map_add, map_smul, h.hap]; abel
  · simp only [map_add, map_smul, h.hap]
  · simp only [inner_add_right, inner_smul_right]
    rw [cr_step_r h.hrap hne]; ring

/-- What every result of the conjugate residual loop satisfies. -/
theorem crLoop_spec {A : V →ₗ[ℝ] V} {stop : ℕ → Bool} {b : V} {tol : ℝ} {maxIter : ℕ}
    (s : CrState V) (h : CrInv A b s) :
    (∀ x', (crLoop A stop b tol maxIter s).x = some x' →
      (crLoop A stop b tol maxIter s).residual = some ‖b - A x'‖ ∧ ‖b - A x'‖ ≤ ‖s.r‖) ∧
    ((crLoop A stop b tol maxIter s).status = .success →
      ∃ x', (crLoop A stop b tol maxIter s).x = some x' ∧
        ‖b - A x'‖ ^ 2 < tol * tol * ‖b‖ ^ 2) ∧
    (crLoop A stop b tol maxIter s).iterations ≤ max (s.iterations + 1) maxIter := by
  induction hn : maxIter - s.iterations using Nat.strong_induction_on generalizing s with
  | _ n ih =>
    rw [crLoop]
    by_cases hne : ⟪s.ap, s.ap⟫ = 0
    · rw [if_pos hne]
      have := crPoisoned_spec (V := V) stop maxIter s.iterations
      exact ⟨fun x' hx => by simp [this.1] at hx, fun hs => absurd hs this.2.1, this.2.2⟩
    rw [if_neg hne]
    have hle := cr_step_norm h.hrap hne
    have hinv := fun β k => h.step hne (k := k) β
    set a := s.rar / ⟪s.ap, s.ap⟫ with ha
    set r := s.r - a • s.ap with hr
    have hres : r = b - A (s.x + a • s.p) := (hinv 0 0).hr
    dsimp only
    split_ifs with h1 h2 h3 h4
    · refine ⟨fun x' hx => ?_, fun _ => ⟨_, rfl, ?_⟩, by simp⟩
      · obtain rfl := Option.some.inj hx
        exact ⟨congrArg (fun v => some ‖v‖) hres, by rw [← hres]; exact hle⟩
      · rw [← hres]; exact h1
    · refine ⟨fun x' hx => ?_, fun hs => by simp at hs, by simp⟩
      obtain rfl := Option.some.inj hx
      exact ⟨congrArg (fun v => some ‖v‖) hres, by rw [← hres]; exact hle⟩
    · refine ⟨fun x' hx => ?_, fun hs => by simp at hs, by simp⟩
      obtain rfl := Option.some.inj hx
      exact ⟨congrArg (fun v => some ‖v‖) hres, by rw [← hres]; exact hle⟩
    · have := crPoisoned_spec (V := V) stop maxIter (s.iterations + 1)
      refine ⟨fun x' hx => by simp [this.1] at hx, fun hs => absurd hs this.2.1,
        this.2.2.trans ?_⟩
      omega
    · have := ih (maxIter - (s.iterations + 1)) (by omega) _
        (hinv (⟪r, A r⟫ / s.rar) (s.iterations + 1)) rfl
      refine ⟨fun x' hx => ?_, this.2.1, this.2.2.trans ?_⟩
      · have := this.1 x' hx
        exact ⟨this.1, this.2.trans hle⟩
      · simp only; omega

/-! ### Finite termination -/

/-- Conjugacy of the residual and the direction with all earlier directions. `T` is the span of
the images of the earlier directions. -/
structure CrConj (A : V →ₗ[ℝ] V) (s : CrState V) (T : Submodule ℝ V) : Prop where
  rT : ∀ t ∈ T, ⟪s.r, t⟫ = 0
  apT : ∀ t ∈ T, ⟪s.ap, t⟫ = 0
  ar : A s.r ∈ T ⊔ Submodule.span ℝ {s.ap}
  aT : ∀ t ∈ T, A t ∈ T ⊔ Submodule.span ℝ {s.ap}
  dim : s.iterations ≤ Module.finrank ℝ T

theorem CrConj.step [FiniteDimensional ℝ V] {A : V →ₗ[ℝ] V} (hsym : A.IsSymmetric) {b : V}
    {s : CrState V} {T : Submodule ℝ V}
    (hi : CrInv A b s) (h : CrConj A s T) (hne : ⟪s.ap, s.ap⟫ ≠ 0) (hrar : s.rar ≠ 0) :
    let a := s.rar / ⟪s.ap, s.ap⟫
    let r := s.r - a • s.ap
    let β := ⟪r, A r⟫ / s.rar
    CrConj A ⟨s.x + a • s.p, r, r + β • s.p, A r + β • s.ap, ⟪r, A r⟫, s.iterations + 1⟩
      (T ⊔ Submodule.span ℝ {s.ap}) := by
  intro a r β
  have ha : a ≠ 0 := div_ne_zero hrar hne
  have h0 : ⟪r, s.ap⟫ = 0 := cr_step_r hi.hrap hne
  have hrT : ∀ t ∈ T ⊔ Submodule.span ℝ {s.ap}, ⟪r, t⟫ = 0 := by
    intro t ht
    obtain ⟨t₁, h₁, t₂, h₂, rfl⟩ := Submodule.mem_sup.1 ht
    obtain ⟨c, rfl⟩ := Submodule.mem_span_singleton.1 h₂
    rw [inner_add_right, inner_smul_right, h0]
    simp only [r, inner_sub_left, inner_smul_left, h.rT t₁ h₁, h.apT t₁ h₁]
    simp
  have hself : s.ap ∈ T ⊔ Submodule.span ℝ {s.ap} :=
    Submodule.mem_sup_right (Submodule.mem_span_singleton_self _)
  have har' : A r ∈ (T ⊔ Submodule.span ℝ {s.ap}) ⊔ Submodule.span ℝ {A r + β • s.ap} := by
    have e : A r = (A r + β • s.ap) - β • s.ap := by abel
    rw [e]
    exact Submodule.sub_mem _
      (Submodule.mem_sup_right (by rw [← e]; exact Submodule.mem_span_singleton_self _))
      (Submodule.mem_sup_left (Submodule.smul_mem _ _ hself))
  have hap : s.ap = a⁻¹ • (s.r - r) := by
    simp only [r, sub_sub_cancel, smul_smul, inv_mul_cancel₀ ha, one_smul]
  refine ⟨hrT, ?_, har', ?_, ?_⟩
  · intro t ht
    obtain ⟨t₁, h₁, t₂, h₂, rfl⟩ := Submodule.mem_sup.1 ht
    obtain ⟨c, rfl⟩ := Submodule.mem_span_singleton.1 h₂
    have e₁ : ⟪A r + β • s.ap, t₁⟫ = 0 := by
      rw [inner_add_left, inner_smul_left, h.apT t₁ h₁, hsym r t₁, hrT _ (h.aT t₁ h₁)]; simp
    have e₃ : ⟪A r, s.ap⟫ = -(a⁻¹ * ⟪r, A r⟫) := by
      have : ⟪A r, s.ap⟫ = a⁻¹ * (⟪A r, s.r⟫ - ⟪A r, r⟫) := by
        conv_lhs => rw [hap]
        rw [inner_smul_right, inner_sub_right]
      rw [this, hsym r s.r, hrT _ h.ar, real_inner_comm r (A r)]; ring
    have e₂ : ⟪A r + β • s.ap, s.ap⟫ = 0 := by
      rw [inner_add_left, inner_smul_left, e₃]
      simp only [conj_trivial, β, a, inv_div]
      field_simp
      ring
    show ⟪A r + β • s.ap, t₁ + c • s.ap⟫ = 0
    rw [inner_add_right, inner_smul_right, e₁, e₂]; ring
  · intro t ht
    obtain ⟨t₁, h₁, t₂, h₂, rfl⟩ := Submodule.mem_sup.1 ht
    obtain ⟨c, rfl⟩ := Submodule.mem_span_singleton.1 h₂
    have : A s.ap ∈ (T ⊔ Submodule.span ℝ {s.ap}) ⊔ Submodule.span ℝ {A r + β • s.ap} := by
      have e : A s.ap = a⁻¹ • (A s.r - A r) := by
        conv_lhs => rw [hap]
        rw [map_smul, map_sub]
      rw [e]
      exact Submodule.smul_mem _ _ (Submodule.sub_mem _ (Submodule.mem_sup_left h.ar) har')
    rw [map_add, map_smul]
    exact Submodule.add_mem _ (Submodule.mem_sup_left (h.aT t₁ h₁)) (Submodule.smul_mem _ _ this)
  · have hlt : T < T ⊔ Submodule.span ℝ {s.ap} := by
      refine lt_of_le_of_ne le_sup_left ?_
      intro he
      rw [← he] at hself
      exact hne (h.apT _ hself)
    have := Submodule.finrank_lt_finrank_of_lt hlt
    have := h.dim
    show s.iterations + 1 ≤ _
    omega

/-- The conjugate residual loop on a symmetric positive definite system ends with success. -/
theorem crLoop_converges [FiniteDimensional ℝ V] {A : V →ₗ[ℝ] V} (hsym : A.IsSymmetric)
    (hpos : ∀ x, x ≠ 0 → 0 < ⟪x, A x⟫) {stop : ℕ → Bool} (hstop : ∀ k, stop k = false)
    {b : V} {tol : ℝ} (hb : b ≠ 0) (htol : 0 < tol) {maxIter : ℕ}
    (hmax : Module.finrank ℝ V ≤ maxIter) (s : CrState V) (T : Submodule ℝ V) (hi : CrInv A b s)
    (hc : CrConj A s T) (hr0 : s.r ≠ 0) :
    (crLoop A stop b tol maxIter s).status = .success ∧
      (crLoop A stop b tol maxIter s).iterations ≤ Module.finrank ℝ V := by
  induction hn : maxIter - s.iterations using Nat.strong_induction_on generalizing s T with
  | _ n ih =>
    have hrar : s.rar ≠ 0 := by rw [hi.hrar]; exact (hpos _ hr0).ne'
    have hne : ⟪s.ap, s.ap⟫ ≠ 0 := by
      intro h0
      have h0' : s.ap = 0 := inner_self_eq_zero.1 h0
      have := hi.hrap
      rw [h0', inner_zero_right] at this
      exact hrar this.symm
    have hk : s.iterations < Module.finrank ℝ V := by
      have h1 := hc.dim
      have hT : T ≠ ⊤ := by
        intro hT
        have := hc.rT s.r (by rw [hT]; trivial)
        exact hr0 (inner_self_eq_zero.1 this)
      have := Submodule.finrank_lt hT
      omega
    rw [crLoop, if_neg hne]
    have hinv := fun β k => hi.step hne (k := k) β
    have hconj := hc.step hsym hi hne hrar
    set a := s.rar / ⟪s.ap, s.ap⟫ with ha
    set r := s.r - a • s.ap with hr
    dsimp only
    by_cases h1 : ‖r‖ ^ 2 < tol * tol * ‖b‖ ^ 2
    · rw [if_pos h1]
      exact ⟨rfl, hk⟩
    have hr' : r ≠ 0 := by
      intro h0
      apply h1
      have := norm_pos_iff.2 hb
      have : 0 < tol * tol * ‖b‖ ^ 2 := by positivity
      simpa [h0] using this
    have hk' : s.iterations + 1 < Module.finrank ℝ V := by
      have h1 := hconj.dim
      simp only at h1
      have hT : T ⊔ Submodule.span ℝ {s.ap} ≠ ⊤ := by
        intro hT
        have := hconj.rT r (by rw [hT]; trivial)
        exact hr' (inner_self_eq_zero.1 this)
      have := Submodule.finrank_lt hT
      omega
    rw [if_neg h1, if_neg (by omega), hstop, if_neg (by simp), if_neg hrar]
    exact ih (maxIter - (s.iterations + 1)) (by omega) _ _
      (hinv (⟪r, A r⟫ / s.rar) (s.iterations + 1)) hconj hr' rfl

/-! ### BiCGSTAB -/

/-- What the head of the BiCGSTAB loop keeps. -/
structure BiInv (A : V →ₗ[ℝ] V) (b : V) (s : BiState V) : Prop where
  hv : s.v = A s.y
  hr : s.stale = false → s.r = b - A s.x

theorem restartV_spec {A : V →ₗ[ℝ] V} {stop : ℕ → Bool} {b : V} {s s₁ : BiState V} {q : ℝ}
    (h : restartV A stop s = some (s₁, q)) (hi : BiInv A b s) :
    BiInv A b s₁ ∧ s₁.x = s.x ∧ s₁.v = s.v ∧ s₁.y = s.y := by
  unfold restartV at h
  split_ifs at h
  · obtain ⟨rfl, rfl⟩ := by simpa only [Option.some.injEq, Prod.mk.injEq] using h
    exact ⟨⟨hi.hv, by simp⟩, rfl, rfl, rfl⟩
  · obtain ⟨rfl, rfl⟩ := by simpa only [Option.some.injEq, Prod.mk.injEq] using h
    exact ⟨hi, rfl, rfl, rfl⟩

theorem resetR0s_spec {A : V →ₗ[ℝ] V} {stop : ℕ → Bool} {b : V} {s s₁ : BiState V} {q : ℝ}
    (h : resetR0s A stop b s = some (s₁, q)) (hr : s.stale = false → s.r = b - A s.x) :
    s₁.x = s.x ∧ (s₁.stale = false → s₁.r = b - A s₁.x) := by
  unfold resetR0s at h
  split_ifs at h
  · obtain ⟨rfl, rfl⟩ := by simpa only [Option.some.injEq, Prod.mk.injEq] using h
    exact ⟨rfl, fun _ => rfl⟩
  · obtain ⟨rfl, rfl⟩ := by simpa only [Option.some.injEq, Prod.mk.injEq] using h
    exact ⟨rfl, hr⟩

/-- What every result of the BiCGSTAB loop satisfies. -/
theorem biLoop_spec {A : V →ₗ[ℝ] V} {K : ℕ → V → V} {stop : ℕ → Bool} {b : V} {tolSq : ℝ}
    {maxIter : ℕ} (s : BiState V) (hi : BiInv A b s) :
    ((biLoop A K stop b tolSq maxIter s).status = .success →
      ∃ x' ρ, (biLoop A K stop b tolSq maxIter s).x = some x' ∧
        (biLoop A K stop b tolSq maxIter s).residual = some ρ ∧ ρ ^ 2 ≤ tolSq ∧
        ((biLoop A K stop b tolSq maxIter s).stale = false → ρ = ‖b - A x'‖)) ∧
    ((biLoop A K stop b tolSq maxIter s).status = .maximumIterationsExceeded →
      maxIter ≤ (biLoop A K stop b tolSq maxIter s).iterations ∧
      ∃ x' ρ, (biLoop A K stop b tolSq maxIter s).x = some x' ∧
        (biLoop A K stop b tolSq maxIter s).residual = some ρ ∧ tolSq < ρ ^ 2 ∧
        ((biLoop A K stop b tolSq maxIter s).stale = false → ρ = ‖b - A x'‖)) ∧
    (biLoop A K stop b tolSq maxIter s).iterations ≤ max s.iterations maxIter := by
  induction hn : maxIter - s.iterations using Nat.strong_induction_on generalizing s with
  | _ n ih =>
    rw [biLoop]
    split
    · simp
    rename_i s₁ q h₁
    obtain ⟨hi₁, hx₁, hv₁, hy₁⟩ := restartV_spec h₁ hi
    by_cases hq : q = 0
    · rw [if_pos hq]; simp
    rw [if_neg hq]
    dsimp only
    set α := s.rho / q
    set sv := s₁.r - α • s.v with hsv
    have hsvr : s₁.stale = false → sv = b - A (s.x + α • s.y) := by
      intro h0
      rw [hsv, hi₁.hr h0, hx₁, map_add, map_smul, hi.hv]; abel
    by_cases h2 : ‖sv‖ ^ 2 ≤ tolSq
    · rw [if_pos h2]
      refine ⟨fun _ => ⟨_, _, rfl, rfl, h2, fun h0 => ?_⟩, by simp, by simp⟩
      rw [← hsvr h0]
    rw [if_neg h2]
    by_cases h3 : stop s₁.calls = true
    · rw [if_pos h3]; simp
    rw [if_neg h3]
    set z := K s.precs sv
    by_cases h4 : ⟪A z, A z⟫ > 0
    swap
    · rw [if_neg h4]; simp
    rw [if_pos h4]
    set w := ⟪sv, A z⟫ / ⟪A z, A z⟫
    set r := sv - w • A z with hr
    have hrr : s₁.stale = false → r = b - A (s.x + α • s.y + w • z) := by
      intro h0
      rw [hr, hsvr h0, map_add A (s.x + α • s.y), map_smul]; abel
    by_cases h5 : ‖r‖ ^ 2 ≤ tolSq
    · rw [if_pos h5]
      refine ⟨fun _ => ⟨_, _, rfl, rfl, h5, fun h0 => ?_⟩, by simp, by simp⟩
      rw [← hrr h0]
    rw [if_neg h5]
    by_cases h6 : s.iterations ≥ maxIter
    · rw [dif_pos h6]
      refine ⟨by simp, fun _ => ⟨h6, _, _, rfl, rfl, not_le.1 h5, fun h0 => ?_⟩, by simp⟩
      rw [← hrr h0]
    rw [dif_neg h6]
    split
    · simp
    rename_i s₃ rhoNew h₃
    obtain ⟨hx₃, hr₃⟩ := resetR0s_spec h₃ (by simpa using hrr)
    by_cases h7 : s.rho = 0 ∨ w = 0
    · rw [if_pos h7]
      split_ifs
      · simp
      · refine ⟨by simp, by simp, ?_⟩
        simp only; omega
    rw [if_neg h7]
    by_cases h8 : stop s₃.calls = true
    · rw [if_pos h8]; simp
    rw [if_neg h8]
    obtain ⟨g1, g2, g3⟩ := ih (maxIter - (s.iterations + 1)) (by omega) _
      (show BiInv A b { s₃ with
          v := A (K (s.precs + 1) (s₃.r + ((rhoNew / s.rho) * (α / w)) • (s.p - w • s.v)))
          p := s₃.r + ((rhoNew / s.rho) * (α / w)) • (s.p - w • s.v)
          y := K (s.precs + 1) (s₃.r + ((rhoNew / s.rho) * (α / w)) • (s.p - w • s.v))
          rho := rhoNew
          iterations := s.iterations + 1
          calls := s₃.calls + 1
          precs := s.precs + 2 } from ⟨rfl, hr₃⟩) rfl
    refine ⟨g1, g2, g3.trans ?_⟩
    simp only; omega

end Softy.LinSolve
