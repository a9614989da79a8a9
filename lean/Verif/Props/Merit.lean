import Verif.Model.Merit

/-!
# C129: which merit function the line search looks at
-/

noncomputable section

namespace Softy.Merit

open Softy

/-! ## Specification -/

/-- A contact has friction: some coefficient is not zero. -/
def Contact.Frictional (c : Contact) : Prop :=
  c.friction.dynamic ≠ 0 ∨ c.friction.static ≠ 0 ∨ c.friction.viscous ≠ 0

/-! ## Lemmas -/

theorem frictional_iff (c : Contact) : c.Frictional ↔ ¬ c.friction.IsNone := by
  unfold Contact.Frictional Setup.FrictionParams.IsNone
  tauto

theorem mem_foldl (dynamic : Bool) (calls l : List Contact) (c : Contact) :
    c ∈ calls.foldl (register dynamic) l ↔ c ∈ l ∨ c ∈ calls ∧ (dynamic = true ∨ ¬ c.Frictional) := by
  induction calls generalizing l with
  | nil => simp
  | cons d calls ih =>
    rw [List.foldl_cons, ih, register, List.mem_cons]
    split_ifs with h
    · rw [List.mem_append, List.mem_singleton]
      constructor
      · rintro ((h1 | rfl) | h1)
        · exact Or.inl h1
        · refine Or.inr ⟨Or.inl rfl, ?_⟩
          rw [frictional_iff, not_not]
          tauto
        · exact Or.inr ⟨Or.inr h1.1, h1.2⟩
      · rintro (h1 | ⟨rfl | h1, h2⟩)
        · exact Or.inl (Or.inl h1)
        · exact Or.inl (Or.inr rfl)
        · exact Or.inr ⟨h1, h2⟩
    · constructor
      · rintro (h1 | h1)
        · exact Or.inl h1
        · exact Or.inr ⟨Or.inr h1.1, h1.2⟩
      · rintro (h1 | ⟨rfl | h1, h2⟩)
        · exact Or.inl h1
        · rw [frictional_iff, not_not] at h2
          exact absurd h2.symm h
        · exact Or.inr ⟨h1, h2⟩

theorem use_iff (project : Bool) (l : List Contact) :
    useObjMerit project l = true ↔ project = true ∧ ∀ c ∈ l, c.Frictional → c.lagged = true := by
  rw [useObjMerit, Bool.and_eq_true, List.all_eq_true, and_comm]
  refine and_congr_right fun _ => forall₂_congr fun c _ => ?_
  rw [frictional_iff]
  split_ifs with h <;> simp [h]

/-! ## Theorems -/

/-- C129. In a simulation over time, for all calls of the user that register contacts: the line search looks at the
objective if element Hessians are projected and friction is lagged in all contacts that have any. Otherwise it looks
at half of the squared norm of the residual. -/
theorem merit_dynamic {n nnz : ℕ} (R : Precond.Raw n nnz) (project : Bool) (calls : List Contact)
    (precond : Fin n → ℝ) (iterative : Bool) (tol : Precond.Tol) (eps : List ℝ) (x r : Fin n → ℝ) :
    ((project = true ∧ ∀ c ∈ calls, c.Frictional → c.lagged = true) →
      merit R project true calls precond iterative tol eps x r = R.objective eps x) ∧
    (¬ (project = true ∧ ∀ c ∈ calls, c.Frictional → c.lagged = true) →
      merit R project true calls precond iterative tol eps x r = some ((∑ i, r i * r i) / 2)) := by
  have h : useObjMerit project (contacts true calls) = true ↔
      project = true ∧ ∀ c ∈ calls, c.Frictional → c.lagged = true := by
    rw [use_iff]
    simp [contacts, mem_foldl]
  refine ⟨fun hc => ?_, fun hc => ?_⟩
  · simp only [merit, Precond.scaled, h.2 hc, if_true]
  · have hf : useObjMerit project (contacts true calls) = false := by
      rw [← Bool.not_eq_true, h]
      exact hc
    simp only [merit, Precond.scaled, hf, Precond.normSq]
    norm_num
    ring

/-- C129. Without a time step friction has no effect on the choice, as contacts with friction are not simulated. -/
theorem merit_static {n nnz : ℕ} (R : Precond.Raw n nnz) (project : Bool) (calls : List Contact)
    (precond : Fin n → ℝ) (iterative : Bool) (tol : Precond.Tol) (eps : List ℝ) (x r : Fin n → ℝ) :
    merit R project false calls precond iterative tol eps x r =
      if project = true then R.objective eps x else some ((∑ i, r i * r i) / 2) := by
  have h : useObjMerit project (contacts false calls) = project := by
    rw [Bool.eq_iff_iff, use_iff]
    refine and_iff_left fun c hc hf => ?_
    rw [contacts, mem_foldl] at hc
    simp at hc
    exact absurd hf hc.2
  cases project
  · simp only [merit, Precond.scaled, h, Precond.normSq]
    norm_num
    ring
  · simp only [merit, Precond.scaled, h, if_true]

/-- C129. The order in which contacts are registered does not matter. -/
theorem merit_order {n nnz : ℕ} (R : Precond.Raw n nnz) (project dynamic : Bool) {calls calls' : List Contact}
    (hp : calls.Perm calls') (precond : Fin n → ℝ) (iterative : Bool) (tol : Precond.Tol) (eps : List ℝ)
    (x r : Fin n → ℝ) :
    merit R project dynamic calls precond iterative tol eps x r =
      merit R project dynamic calls' precond iterative tol eps x r := by
  have h : useObjMerit project (contacts dynamic calls) = useObjMerit project (contacts dynamic calls') := by
    rw [Bool.eq_iff_iff, use_iff, use_iff]
    simp only [contacts, mem_foldl, hp.mem_iff]
  rw [merit, merit, h]

/-! ## The cases occur -/

/-- A contact without friction, one with lagged friction and one with friction that is not lagged. -/
example : ¬ (⟨⟨0, 0, 0⟩, false⟩ : Contact).Frictional ∧ (⟨⟨0.5, 0, 0⟩, true⟩ : Contact).Frictional ∧
    (∀ c ∈ [(⟨⟨0, 0, 0⟩, false⟩ : Contact), ⟨⟨0.5, 0, 0⟩, true⟩], c.Frictional → c.lagged = true) ∧
    ¬ (∀ c ∈ [(⟨⟨0, 0, 0⟩, false⟩ : Contact), ⟨⟨0, 0, 0.1⟩, false⟩], c.Frictional → c.lagged = true) := by
  refine ⟨by simp [Contact.Frictional], Or.inl (by norm_num), ?_, fun h => ?_⟩
  · simp [Contact.Frictional]
  · exact absurd (h ⟨⟨0, 0, 0.1⟩, false⟩ (by simp) (Or.inr (Or.inr (by norm_num)))) (by simp)

end Softy.Merit
