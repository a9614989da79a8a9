import Verif.Model.Solver
import Verif.Props.ContactPenalty
import Verif.Prelude

/-!
# C20, C21, C22, C56 — the simulation step
-/

noncomputable section

namespace Softy.Solver

open TimeInt

variable {X V : Type*}

/-! ## Induction over the contact loop -/

/-- A solve after which the step goes on. -/
def Outcome.usable (o : Outcome V) : Prop :=
  o.status = .success ∨ o.status = .maximumIterationsExceeded

theorem loop_ind (env : Env X V) (par : Params) (ω : ℕ → Outcome V)
    (P : ℕ → ℤ → Sim X V → StageResult → LoopResult X V → Prop)
    (hfail : ∀ k ci s st, ¬ (ω k).usable → P k ci s st ⟨k + 1, ci, s, none⟩)
    (hlast : ∀ k ci s st, (ω k).usable → ci ≤ 0 →
      P k ci s st ⟨k + 1, ci - 1, commit env par s (ω k).solution,
        some { st with results := st.results ++ [.maximumContactIterationsExceeded] }⟩)
    (hviol : ∀ k ci s st r, (ω k).usable → 0 < ci →
      (contactViolation env.numVertices s.fcs (ω k).cached).violation > 0 →
      P (k + 1) (ci - 1) (bump s (contactViolation env.numVertices s.fcs (ω k).cached))
        (record st (ω k) (contactViolation env.numVertices s.fcs (ω k).cached)) r →
      P k ci s st r)
    (hgood : ∀ k ci s st, (ω k).usable → 0 < ci →
      ¬ (contactViolation env.numVertices s.fcs (ω k).cached).violation > 0 →
      P k ci s st ⟨k + 1, ci - 1,
        commit env par (relax s (contactViolation env.numVertices s.fcs (ω k).cached))
          (ω k).solution,
        some (record st (ω k) (contactViolation env.numVertices s.fcs (ω k).cached))⟩) :
    ∀ k ci s st, P k ci s st (contactLoop env par ω k ci s st) := by
  intro k ci
  induction hn : ci.toNat using Nat.strong_induction_on generalizing k ci with
  | _ n ih =>
    intro s st
    rw [contactLoop]
    simp only
    split_ifs with h1 h2 h3
    · exact hlast k ci s st h1 (by omega)
    · exact hviol k ci s st _ h1 (by omega) h3
        (ih (ci - 1).toNat (by omega) (k + 1) (ci - 1) rfl _ _)
    · exact hgood k ci s st h1 (by omega) h3
    · exact hfail k ci s st h1

/-- Induction over the stages: a relation between the solver before and after that holds for
the preparation of a stage and for the contact loop holds for the whole step. -/
theorem stages_rel (env : Env X V) (par : Params) (ω : ℕ → Outcome V) (jacOk : ℕ → Bool)
    (trueStep : ℝ) (R : Sim X V → Sim X V → Prop) (hrefl : ∀ s, R s s)
    (htrans : ∀ a b c, R a b → R b c → R a c)
    (hprep : ∀ s i t, R s { s with integration := i, timeStep := t })
    (hloop : ∀ k ci s st, R s (contactLoop env par ω k ci s st).sim) :
    ∀ l k ci s acc, R s (stages env par ω jacOk trueStep l k ci s acc).sim := by
  intro l
  induction l with
  | nil => intro k ci s acc; exact hrefl s
  | cons stage rest ih =>
    intro k ci s acc
    simp only [stages]
    refine htrans _ _ _ (hprep s (par.integrator.stepIntegrator stage).1
      (trueStep * (par.integrator.stepIntegrator stage).2)) ?_
    split_ifs with h
    · have hl := hloop k ci { s with
          integration := (par.integrator.stepIntegrator stage).1
          timeStep := trueStep * (par.integrator.stepIntegrator stage).2 }
          ⟨(par.integrator.stepIntegrator stage).1, [], 0, 0⟩
      split
      · exact htrans _ _ _ hl (ih _ _ _ _)
      · exact hl
    · exact hrefl _

/-! ## C20: number of solves -/

theorem loop_count (env : Env X V) (par : Params) (ω : ℕ → Outcome V) (k : ℕ) (ci : ℤ)
    (s : Sim X V) (st : StageResult) :
    let r := contactLoop env par ω k ci s st
    match r.stage with
    | some st' => (r.solves : ℤ) = k + (ci - r.iters) ∧ min ci 0 - 1 ≤ r.iters ∧
        st'.results.length = st.results.length + (r.solves - k) ∧ k < r.solves
    | none => (r.solves : ℤ) = k + (ci - r.iters) + 1 ∧ min ci 0 ≤ r.iters ∧ r.iters ≤ ci := by
  apply loop_ind env par ω (fun k ci _ st r => match r.stage with
    | some st' => (r.solves : ℤ) = k + (ci - r.iters) ∧ min ci 0 - 1 ≤ r.iters ∧
        st'.results.length = st.results.length + (r.solves - k) ∧ k < r.solves
    | none => (r.solves : ℤ) = k + (ci - r.iters) + 1 ∧ min ci 0 ≤ r.iters ∧ r.iters ≤ ci)
  · intro k ci s st _
    refine ⟨?_, ?_, ?_⟩ <;> simp
  · intro k ci s st _ h
    refine ⟨?_, ?_, ?_, ?_⟩
    · push_cast; ring
    · simp only; omega
    · simp
    · simp
  · intro k ci s st r _ hci _ ih
    revert ih
    cases r.stage with
    | some st' =>
      rintro ⟨h1, h2, h3, h4⟩
      simp only [record, List.length_append, List.length_cons, List.length_nil] at h3
      refine ⟨?_, ?_, ?_, ?_⟩
      · push_cast at h1; omega
      · omega
      · omega
      · omega
    | none =>
      rintro ⟨h1, h2, h3⟩
      refine ⟨?_, ?_, ?_⟩
      · push_cast at h1; omega
      · omega
      · omega
  · intro k ci s st _ hci _
    refine ⟨?_, ?_, ?_, ?_⟩
    · push_cast; ring
    · simp only; omega
    · simp [record]
    · simp

theorem stages_count (env : Env X V) (par : Params) (ω : ℕ → Outcome V) (jacOk : ℕ → Bool)
    (trueStep : ℝ) (l : List ℕ) (k : ℕ) (ci : ℤ) (s : Sim X V) (acc : List StageResult) :
    ((stages env par ω jacOk trueStep l k ci s acc).solves : ℤ) ≤ k + max ci 0 + l.length := by
  induction l generalizing k ci s acc with
  | nil => simp only [stages, List.length_nil, Nat.cast_zero, add_zero]; omega
  | cons stage rest ih =>
    simp only [stages, List.length_cons]
    split_ifs with h
    · have hl := loop_count env par ω k ci { s with
          integration := (par.integrator.stepIntegrator stage).1
          timeStep := trueStep * (par.integrator.stepIntegrator stage).2 }
          ⟨(par.integrator.stepIntegrator stage).1, [], 0, 0⟩
      simp only at hl
      split at hl
      · rename_i st' heq
        rw [heq]
        have := ih (contactLoop env par ω k ci { s with
          integration := (par.integrator.stepIntegrator stage).1
          timeStep := trueStep * (par.integrator.stepIntegrator stage).2 }
          ⟨(par.integrator.stepIntegrator stage).1, [], 0, 0⟩).solves
          (contactLoop env par ω k ci { s with
          integration := (par.integrator.stepIntegrator stage).1
          timeStep := trueStep * (par.integrator.stepIntegrator stage).2 }
          ⟨(par.integrator.stepIntegrator stage).1, [], 0, 0⟩).iters
          (contactLoop env par ω k ci { s with
          integration := (par.integrator.stepIntegrator stage).1
          timeStep := trueStep * (par.integrator.stepIntegrator stage).2 }
          ⟨(par.integrator.stepIntegrator stage).1, [], 0, 0⟩).sim (acc ++ [st'])
        push_cast
        omega
      · rename_i heq
        rw [heq]
        push_cast
        omega
    · simp only; push_cast; omega

/-- **C20** One call to `step` performs at most `contact_iterations` plus the number of stages
nonlinear solves, whatever the solves return. -/
theorem step_solves_bounded (env : Env X V) (par : Params) (ω : ℕ → Outcome V)
    (jacOk : ℕ → Bool) (s : Sim X V) :
    (step env par ω jacOk s).solves ≤ par.contactIterations + par.integrator.numStages := by
  have := stages_count env par ω jacOk s.timeStep (List.range par.integrator.numStages) 0
    par.contactIterations { s with iterationCount := s.iterationCount + 1 } []
  unfold step
  simp only [List.length_range] at this ⊢
  push_cast at this
  omega

theorem stages_results (env : Env X V) (par : Params) (ω : ℕ → Outcome V) (jacOk : ℕ → Bool)
    (trueStep : ℝ) (l : List ℕ) (k : ℕ) (ci : ℤ) (s : Sim X V) (acc rs : List StageResult)
    (h : (stages env par ω jacOk trueStep l k ci s acc).result = some rs) :
    ∃ new, rs = acc ++ new ∧ new.length = l.length ∧ (∀ r ∈ new, r.results ≠ []) ∧
      (stages env par ω jacOk trueStep l k ci s acc).solves =
        k + (new.map fun r => r.results.length).sum := by
  induction l generalizing k ci s acc with
  | nil =>
    simp only [stages, Option.some.injEq] at h
    exact ⟨[], by simp [h], rfl, by simp, by simp [stages]⟩
  | cons stage rest ih =>
    simp only [stages] at h ⊢
    split_ifs at h with hj
    · rw [if_pos hj]
      have hl := loop_count env par ω k ci { s with
          integration := (par.integrator.stepIntegrator stage).1
          timeStep := trueStep * (par.integrator.stepIntegrator stage).2 }
          ⟨(par.integrator.stepIntegrator stage).1, [], 0, 0⟩
      simp only at hl
      generalize contactLoop env par ω k ci { s with
          integration := (par.integrator.stepIntegrator stage).1
          timeStep := trueStep * (par.integrator.stepIntegrator stage).2 }
          ⟨(par.integrator.stepIntegrator stage).1, [], 0, 0⟩ = r at h hl ⊢
      cases hr : r.stage with
      | none => simp [hr] at h
      | some st =>
        simp only [hr] at h hl ⊢
        obtain ⟨new, h1, h2, h3, h4⟩ := ih _ _ _ _ h
        obtain ⟨-, -, l3, l4⟩ := hl
        simp only [List.length_nil, zero_add] at l3
        refine ⟨st :: new, by simp [h1], by simp [h2], ?_, ?_⟩
        · intro x hx
          rcases List.mem_cons.1 hx with rfl | hx
          · intro h0
            rw [h0, List.length_nil] at l3
            omega
          · exact h3 x hx
        · rw [h4, List.map_cons, List.sum_cons, l3]
          omega

/-- **C20 (report)** A successful step reports one result per stage, at least one solve in each
stage, and exactly the solves it performed. -/
theorem step_reports_solves (env : Env X V) (par : Params) (ω : ℕ → Outcome V)
    (jacOk : ℕ → Bool) (s : Sim X V) (rs : List StageResult)
    (h : (step env par ω jacOk s).result = some rs) :
    rs.length = par.integrator.numStages ∧ (∀ r ∈ rs, r.results ≠ []) ∧
      (step env par ω jacOk s).solves = (rs.map fun r => r.results.length).sum := by
  unfold step at h ⊢
  obtain ⟨new, h1, h2, h3, h4⟩ := stages_results _ _ _ _ _ _ _ _ _ _ _ h
  simp only [List.nil_append] at h1
  subst h1
  exact ⟨by simpa using h2, h3, by simpa using h4⟩

/-! ## C21: stiffness bookkeeping -/

/-- Every constraint has the stiffness of its twin. -/
def Synced (s : Sim X V) : Prop := s.fcs.map Fc.stiffness = s.fcsAd

theorem map_modify_stiffness (l : List Fc) (i : ℕ) (c : ℝ) :
    (l.modify i fun fc => { fc with stiffness := fc.stiffness * c }).map Fc.stiffness =
      (l.map Fc.stiffness).modify i fun k => k * c := by
  induction l generalizing i with
  | nil => cases i <;> simp
  | cons a t ih => cases i <;> simp [ih]

theorem bump_synced {s : Sim X V} (h : Synced s) (cv : ContactViolation) : Synced (bump s cv) := by
  unfold Synced bump at *
  simp only
  rw [map_modify_stiffness, h]

theorem zip_map_left (l : List Fc) (f : Fc → Fc) :
    ((l.zip (l.map Fc.stiffness)).map fun a => f a.1) = l.map f := by
  induction l with
  | nil => rfl
  | cons a t ih => simp only [List.map_cons, List.zip_cons_cons, ih]

theorem relax_of_synced {s : Sim X V} (h : Synced s) (cv : ContactViolation) :
    (relax s cv).fcs = (if cv.largestPenalty = 0 then s.fcs.map relaxFc else s.fcs) ∧
      Synced (relax s cv) := by
  unfold Synced relax at *
  split_ifs with hp
  · simp only
    have hlen : s.fcsAd.length = s.fcs.length := by rw [← h, List.length_map]
    rw [hlen, List.drop_length, ← hlen, List.drop_length, ← h]
    simp only [List.append_nil]
    refine ⟨zip_map_left _ _, ?_⟩
    rw [zip_map_left]
    generalize s.fcs = l
    induction l with
    | nil => rfl
    | cons a t ih =>
      simp only [List.map_cons, List.zip_cons_cons, List.cons.injEq]
      refine ⟨?_, ih⟩
      unfold relaxFc relaxAd
      split_ifs <;> rfl
  · exact ⟨rfl, h⟩

theorem loop_synced (env : Env X V) (par : Params) (ω : ℕ → Outcome V) (k : ℕ) (ci : ℤ)
    (s : Sim X V) (st : StageResult) (h : Synced s) :
    Synced (contactLoop env par ω k ci s st).sim := by
  revert h
  apply loop_ind env par ω (fun _ _ s _ r => Synced s → Synced r.sim)
  · intro k ci s st _ h; exact h
  · intro k ci s st _ _ h; exact h
  · intro k ci s st r _ _ _ ih h
    exact ih (bump_synced h _)
  · intro k ci s st _ _ _ h
    exact (relax_of_synced h _).2

theorem step_synced (env : Env X V) (par : Params) (ω : ℕ → Outcome V) (jacOk : ℕ → Bool)
    (s : Sim X V) (h : Synced s) : Synced (step env par ω jacOk s).sim := by
  unfold step
  exact stages_rel env par ω jacOk _ (fun a b => Synced a → Synced b) (fun _ h => h)
    (fun _ _ _ h1 h2 h => h2 (h1 h)) (fun _ _ _ h => h)
    (fun k ci s st h => loop_synced env par ω k ci s st h) _ _ _ _ _ h

/-- **C21 (sync)** After any history of steps, failed or not, every contact constraint has the
same stiffness as its automatic-differentiation twin. -/
theorem run_synced (env : Env X V) (par : Params)
    (os : List ((ℕ → Outcome V) × (ℕ → Bool))) (s : Sim X V) (h : Synced s) :
    Synced (run env par os s) := by
  induction os generalizing s with
  | nil => exact h
  | cons o os ih => exact ih _ (step_synced env par o.1 o.2 s h)

/-- How stiffnesses may change: `Moves n a b` says that `b` is obtained from `a` by `n`
increases of one stiffness by a factor of at least two and any number of relaxations, each of
which halves some of the stiffnesses that exceed `100 / tolerance`. -/
inductive Moves : ℕ → List Fc → List Fc → Prop
  | refl (l : List Fc) : Moves 0 l l
  | increase {n : ℕ} {a b : List Fc} (i : ℕ) (c : ℝ) (hc : 2 ≤ c) (h : Moves n a b) :
      Moves (n + 1) a (b.modify i fun fc => { fc with stiffness := fc.stiffness * c })
  | relax {n : ℕ} {a b b' : List Fc} (h : Moves n a b)
      (hr : List.Forall₂ (fun fc fc' => fc' = fc ∨
        (fc.stiffness > 100 / fc.tolerance ∧ fc' = { fc with stiffness := fc.stiffness / 2 }))
        b b') : Moves n a b'

theorem Moves.trans {m n : ℕ} {a b c : List Fc} (h1 : Moves m a b) (h2 : Moves n b c) :
    Moves (m + n) a c := by
  induction h2 with
  | refl => exact h1
  | increase i c hc _ ih => exact (ih h1).increase i c hc
  | relax _ hr ih => exact (ih h1).relax hr

theorem relax_forall (l : List Fc) : List.Forall₂ (fun fc fc' => fc' = fc ∨
    (fc.stiffness > 100 / fc.tolerance ∧ fc' = { fc with stiffness := fc.stiffness / 2 }))
    l (l.map relaxFc) := by
  induction l with
  | nil => exact .nil
  | cons a t ih =>
    rw [List.map_cons]
    refine .cons ?_ ih
    unfold relaxFc
    split_ifs with h
    · right
      refine ⟨?_, rfl⟩
      unfold relaxable at h
      norm_num at h ⊢
      exact h
    · left; rfl

theorem Moves.relax_step {n : ℕ} {a : List Fc} {s : Sim X V} (h : Moves n a s.fcs)
    (hs : Synced s) (cv : ContactViolation) : Moves n a (Solver.relax s cv).fcs := by
  rw [(relax_of_synced hs cv).1]
  split_ifs
  · exact h.relax (relax_forall _)
  · exact h

theorem loop_moves (env : Env X V) (par : Params) (ω : ℕ → Outcome V) (k : ℕ) (ci : ℤ)
    (s : Sim X V) (st : StageResult) (h : Synced s) :
    ∃ n, Moves n s.fcs (contactLoop env par ω k ci s st).sim.fcs ∧
      ∀ st', (contactLoop env par ω k ci s st).stage = some st' →
        st'.contactViolations = st.contactViolations + n := by
  revert h
  apply loop_ind env par ω (fun _ _ s st r => Synced s → ∃ n, Moves n s.fcs r.sim.fcs ∧
    ∀ st', r.stage = some st' → st'.contactViolations = st.contactViolations + n)
  · intro k ci s st _ h
    exact ⟨0, .refl _, by simp⟩
  · intro k ci s st _ _ h
    refine ⟨0, .refl _, ?_⟩
    rintro st' ⟨⟩
    rfl
  · intro k ci s st r _ _ hv ih h
    obtain ⟨n, h1, h2⟩ := ih (bump_synced h _)
    refine ⟨1 + n, Moves.trans ?_ h1, ?_⟩
    · exact (Moves.refl s.fcs).increase _ _ (le_max_right _ _)
    · intro st' hst
      rw [h2 st' hst]
      simp only [record, if_pos hv]
      omega
  · intro k ci s st _ _ hv h
    refine ⟨0, (Moves.refl s.fcs).relax_step h _, ?_⟩
    rintro st' ⟨⟩
    simp only [record, if_neg hv]

theorem stages_moves (env : Env X V) (par : Params) (ω : ℕ → Outcome V) (jacOk : ℕ → Bool)
    (trueStep : ℝ) (l : List ℕ) (k : ℕ) (ci : ℤ) (s : Sim X V) (acc : List StageResult)
    (h : Synced s) :
    ∃ n, Moves n s.fcs (stages env par ω jacOk trueStep l k ci s acc).sim.fcs ∧
      ∀ rs, (stages env par ω jacOk trueStep l k ci s acc).result = some rs →
        (rs.map StageResult.contactViolations).sum =
          (acc.map StageResult.contactViolations).sum + n := by
  induction l generalizing k ci s acc with
  | nil =>
    refine ⟨0, .refl _, ?_⟩
    intro rs hrs
    simp only [stages, Option.some.injEq] at hrs
    simp [hrs]
  | cons stage rest ih =>
    simp only [stages]
    split_ifs with hj
    · obtain ⟨n, h1, h2⟩ := loop_moves env par ω k ci { s with
          integration := (par.integrator.stepIntegrator stage).1
          timeStep := trueStep * (par.integrator.stepIntegrator stage).2 }
          ⟨(par.integrator.stepIntegrator stage).1, [], 0, 0⟩ h
      have hs := loop_synced env par ω k ci { s with
          integration := (par.integrator.stepIntegrator stage).1
          timeStep := trueStep * (par.integrator.stepIntegrator stage).2 }
          ⟨(par.integrator.stepIntegrator stage).1, [], 0, 0⟩ h
      generalize contactLoop env par ω k ci { s with
          integration := (par.integrator.stepIntegrator stage).1
          timeStep := trueStep * (par.integrator.stepIntegrator stage).2 }
          ⟨(par.integrator.stepIntegrator stage).1, [], 0, 0⟩ = r at h1 h2 hs ⊢
      cases hr : r.stage with
      | none => exact ⟨n, h1, by simp⟩
      | some st =>
        obtain ⟨m, h3, h4⟩ := ih r.solves r.iters r.sim (acc ++ [st]) hs
        refine ⟨n + m, h1.trans h3, ?_⟩
        intro rs hrs
        rw [h4 rs hrs]
        have := h2 st hr
        simp only [zero_add] at this
        simp [this, add_assoc]
    · exact ⟨0, .refl _, by simp⟩

/-- **C21 (moves)** In every step the stiffnesses change only by increases by at least a factor
of two, as many as violations are reported, and by relaxations of stiffnesses above
`100 / tolerance`. -/
theorem step_moves (env : Env X V) (par : Params) (ω : ℕ → Outcome V) (jacOk : ℕ → Bool)
    (s : Sim X V) (h : Synced s) :
    ∃ n, Moves n s.fcs (step env par ω jacOk s).sim.fcs ∧
      ∀ rs, (step env par ω jacOk s).result = some rs →
        (rs.map StageResult.contactViolations).sum = n := by
  unfold step
  obtain ⟨n, h1, h2⟩ := stages_moves env par ω jacOk s.timeStep
    (List.range par.integrator.numStages) 0 par.contactIterations
    { s with iterationCount := s.iterationCount + 1 } [] h
  exact ⟨n, h1, fun rs hrs => by simpa using h2 rs hrs⟩

/-- Lower bound preserved by all moves. -/
theorem Moves.lower {n : ℕ} {a b : List Fc} (h : Moves n a b) (ha : ∀ fc ∈ a, 0 ≤ fc.stiffness)
    (hat : ∀ fc ∈ a, 0 < fc.tolerance) :
    List.Forall₂ (fun fc fc' => fc'.tolerance = fc.tolerance ∧
      min fc.stiffness (50 / fc.tolerance) ≤ fc'.stiffness) a b := by
  induction h with
  | refl l =>
    induction l with
    | nil => exact .nil
    | cons x t ih =>
      exact .cons ⟨rfl, min_le_left _ _⟩ (ih (fun fc h => ha fc (List.mem_cons_of_mem _ h))
        (fun fc h => hat fc (List.mem_cons_of_mem _ h)))
  | increase i c hc _ ih =>
    rename_i a b hm
    have := ih ha hat
    clear ih hm
    induction this generalizing i with
    | nil => cases i <;> exact .nil
    | @cons x y l l' hxy hl ih =>
      have hx := ha x List.mem_cons_self
      have hxt := hat x List.mem_cons_self
      cases i with
      | zero =>
        refine .cons ⟨hxy.1, ?_⟩ hl
        have h0 : 0 ≤ min x.stiffness (50 / x.tolerance) := le_min hx (by positivity)
        have hy : 0 ≤ y.stiffness := h0.trans hxy.2
        simp only
        nlinarith [hxy.2]
      | succ i =>
        exact .cons hxy (ih i (fun fc h => ha fc (List.mem_cons_of_mem _ h))
          (fun fc h => hat fc (List.mem_cons_of_mem _ h)))
  | relax _ hr ih =>
    rename_i a b b' hm
    have := ih ha hat
    clear ih ha hat hm
    induction hr generalizing a with
    | nil => cases this; exact .nil
    | @cons y z l l' hyz _ ih =>
      cases this with
      | @cons x _ la _ hxy hl =>
        refine .cons ?_ (ih hl)
        rcases hyz with rfl | ⟨h1, rfl⟩
        · exact hxy
        · refine ⟨hxy.1, (min_le_right _ _).trans ?_⟩
          simp only
          rw [hxy.1] at h1
          have : (100 : ℝ) / x.tolerance = 2 * (50 / x.tolerance) := by ring
          linarith

/-- **C21 (lower bound)** After any history of steps no stiffness is below the smaller of its
initial value and `50 / tolerance`, half the threshold for relaxation. -/
theorem run_stiffness_lower (env : Env X V) (par : Params)
    (os : List ((ℕ → Outcome V) × (ℕ → Bool))) (s : Sim X V) (h : Synced s)
    (hk : ∀ fc ∈ s.fcs, 0 ≤ fc.stiffness) (ht : ∀ fc ∈ s.fcs, 0 < fc.tolerance) :
    List.Forall₂ (fun fc fc' => fc'.tolerance = fc.tolerance ∧
      min fc.stiffness (50 / fc.tolerance) ≤ fc'.stiffness) s.fcs (run env par os s).fcs := by
  have : ∃ n, Moves n s.fcs (run env par os s).fcs := by
    clear hk ht
    induction os generalizing s with
    | nil => exact ⟨0, .refl _⟩
    | cons o os ih =>
      obtain ⟨n, h1, -⟩ := step_moves env par o.1 o.2 s h
      obtain ⟨m, h2⟩ := ih _ (step_synced env par o.1 o.2 s h)
      exact ⟨n + m, h1.trans h2⟩
  obtain ⟨n, hn⟩ := this
  exact hn.lower hk ht

/-! ## Detection of penetration -/

theorem foldl_min (t : List (ℝ × ℕ)) (a : ℝ × ℕ) :
    let m := t.foldl (fun m b => if b.1 < m.1 then b else m) a
    (m = a ∨ m ∈ t) ∧ m.1 ≤ a.1 ∧ ∀ b ∈ t, m.1 ≤ b.1 := by
  induction t generalizing a with
  | nil => simp
  | cons c t ih =>
    simp only [List.foldl_cons]
    obtain ⟨h1, h2, h3⟩ := ih (if c.1 < a.1 then c else a)
    refine ⟨?_, ?_, ?_⟩
    · rcases h1 with h1 | h1
      · rw [h1]
        split_ifs
        · exact Or.inr List.mem_cons_self
        · exact Or.inl rfl
      · exact Or.inr (List.mem_cons_of_mem _ h1)
    · refine h2.trans ?_
      split_ifs with h
      · exact h.le
      · exact le_rfl
    · intro b hb
      rcases List.mem_cons.1 hb with rfl | hb
      · refine h2.trans ?_
        split_ifs with h
        · exact le_rfl
        · exact not_lt.1 h
      · exact h3 b hb

theorem minBy_spec {l : List (ℝ × ℕ)} {m : ℝ × ℕ} (h : minBy l = some m) :
    m ∈ l ∧ ∀ b ∈ l, m.1 ≤ b.1 := by
  cases l with
  | nil => simp [minBy] at h
  | cons a t =>
    simp only [minBy, Option.some.injEq] at h
    obtain ⟨h1, h2, h3⟩ := foldl_min t a
    rw [h] at h1 h2 h3
    refine ⟨?_, ?_⟩
    · rcases h1 with h1 | h1
      · rw [h1]; exact List.mem_cons_self
      · exact List.mem_cons_of_mem _ h1
    · intro b hb
      rcases List.mem_cons.1 hb with rfl | hb
      · exact h2
      · exact h3 b hb

theorem minBy_none {l : List (ℝ × ℕ)} (h : minBy l = none) : l = [] := by
  cases l with
  | nil => rfl
  | cons a t => simp [minBy] at h

theorem violation_pos_iff (n : ℕ) (fcs : List Fc) (cached : List (List ℝ)) :
    (contactViolation n fcs cached).violation > 0 ↔
      ∃ a ∈ contactConstraint n fcs cached, a.1 < 0 := by
  unfold contactViolation
  cases hm : minBy (contactConstraint n fcs cached) with
  | none => rw [minBy_none hm]; simp
  | some m =>
    obtain ⟨h1, h2⟩ := minBy_spec hm
    simp only [gt_iff_lt, lt_max_iff, lt_irrefl, false_or, neg_pos]
    exact ⟨fun h => ⟨m, h1, h⟩, fun ⟨a, ha, h⟩ => (h2 a ha).trans_lt h⟩

theorem foldl_set_length (l : List (ℕ × ℝ)) (out : List ℝ) :
    (l.foldl (fun out a => out.set a.1 a.2) out).length = out.length := by
  induction l generalizing out with
  | nil => rfl
  | cons a t ih => rw [List.foldl_cons, ih, List.length_set]

theorem foldl_set_notin (l : List (ℕ × ℝ)) (out : List ℝ) (j : ℕ) (h : ∀ a ∈ l, a.1 ≠ j) :
    (l.foldl (fun out a => out.set a.1 a.2) out)[j]? = out[j]? := by
  induction l generalizing out with
  | nil => rfl
  | cons a t ih =>
    rw [List.foldl_cons, ih _ fun b hb => h b (List.mem_cons_of_mem _ hb),
      List.getElem?_set_ne (h a List.mem_cons_self)]

theorem foldl_set_mem (l : List (ℕ × ℝ)) (out : List ℝ) (hn : (l.map Prod.fst).Nodup)
    (hlt : ∀ a ∈ l, a.1 < out.length) (a : ℕ × ℝ) (ha : a ∈ l) :
    (l.foldl (fun out a => out.set a.1 a.2) out)[a.1]? = some a.2 := by
  induction l generalizing out with
  | nil => simp at ha
  | cons b t ih =>
    rw [List.foldl_cons]
    rw [List.map_cons, List.nodup_cons] at hn
    rcases List.mem_cons.1 ha with rfl | ha
    · rw [foldl_set_notin, List.getElem?_set_self (hlt a List.mem_cons_self)]
      intro c hc he
      exact hn.1 (he ▸ List.mem_map_of_mem hc)
    · exact ih _ hn.2 (fun c hc => by
        rw [List.length_set]; exact hlt c (List.mem_cons_of_mem _ hc)) ha

/-- Collider vertices carry their potential, all other vertices zero. -/
theorem cachedDistance_spec (n : ℕ) (idx : List ℕ) (cached : List ℝ) (hn : idx.Nodup)
    (hlt : ∀ i ∈ idx, i < n) (hlen : cached.length = idx.length) :
    (cachedDistance n idx cached).length = n ∧
    (∀ a ∈ idx.zip cached, (cachedDistance n idx cached)[a.1]? = some a.2) ∧
    ∀ j < n, j ∉ idx → (cachedDistance n idx cached)[j]? = some 0 := by
  have hmap : (idx.zip cached).map Prod.fst = idx :=
    List.map_fst_zip (by omega)
  unfold cachedDistance
  refine ⟨by rw [foldl_set_length, List.length_replicate], ?_, ?_⟩
  · intro a ha
    refine foldl_set_mem _ _ (by rw [hmap]; exact hn) ?_ a ha
    intro b hb
    rw [List.length_replicate]
    exact hlt _ (List.of_mem_zip hb).1
  · intro j hj hnot
    rw [foldl_set_notin]
    · simp [hj]
    · intro a ha he
      exact hnot (he ▸ (List.of_mem_zip ha).1)

/-- What a well-formed configuration looks like: the collider vertices are distinct vertices
and there is one potential value per collider vertex. -/
def WellFormed (n : ℕ) (fcs : List Fc) (cached : List (List ℝ)) : Prop :=
  List.Forall₂ (fun fc c => fc.colliderIdx.Nodup ∧ (∀ i ∈ fc.colliderIdx, i < n) ∧
    c.length = fc.colliderIdx.length) fcs cached

theorem mem_contactConstraint (n : ℕ) (fcs : List Fc) (cached : List (List ℝ)) (a : ℝ × ℕ) :
    a ∈ contactConstraint n fcs cached ↔ ∃ (h1 : a.2 < fcs.length) (h2 : a.2 < cached.length),
      a.1 ∈ cachedDistance n fcs[a.2].colliderIdx cached[a.2] := by
  unfold contactConstraint
  rw [List.mem_flatMap]
  constructor
  · rintro ⟨b, hb, ha⟩
    obtain ⟨i, hi, rfl⟩ := List.mem_iff_getElem.1 hb
    simp only [List.getElem_zip, List.getElem_zipIdx, zero_add] at ha
    obtain ⟨d, hd, rfl⟩ := List.mem_map.1 ha
    simp only [List.length_zip, List.length_zipIdx, lt_min_iff] at hi
    exact ⟨hi.1, hi.2, hd⟩
  · rintro ⟨h1, h2, h⟩
    refine ⟨((fcs[a.2], a.2), cached[a.2]), ?_, List.mem_map.2 ⟨a.1, h, rfl⟩⟩
    rw [List.mem_iff_getElem]
    refine ⟨a.2, by simp [h1, h2], by simp⟩

/-- A penetration is reported exactly if the cached potential is negative at some collider
vertex of some constraint. -/
theorem violation_iff_penetration (n : ℕ) (fcs : List Fc) (cached : List (List ℝ))
    (hw : WellFormed n fcs cached) :
    (contactViolation n fcs cached).violation > 0 ↔ ∃ c ∈ cached, ∃ d ∈ c, d < 0 := by
  rw [violation_pos_iff]
  unfold WellFormed at hw
  rw [List.forall₂_iff_get] at hw
  obtain ⟨hlen, hw⟩ := hw
  constructor
  · rintro ⟨a, ha, hlt⟩
    obtain ⟨h1, h2, hd⟩ := (mem_contactConstraint _ _ _ _).1 ha
    obtain ⟨w1, w2, w3⟩ := hw a.2 h1 h2
    simp only [List.get_eq_getElem] at w1 w2 w3
    obtain ⟨s1, s2, s3⟩ := cachedDistance_spec n _ _ w1 w2 w3
    obtain ⟨j, hj, he⟩ := List.mem_iff_getElem.1 hd
    rw [s1] at hj
    by_cases hmem : j ∈ fcs[a.2].colliderIdx
    · obtain ⟨m, hm, hmj⟩ := List.mem_iff_getElem.1 hmem
      have hz : (fcs[a.2].colliderIdx[m], cached[a.2][m]'(by omega)) ∈
          fcs[a.2].colliderIdx.zip cached[a.2] := by
        rw [List.mem_iff_getElem]
        exact ⟨m, by simp [w3, hm], by simp⟩
      have := s2 _ hz
      simp only [hmj] at this
      rw [List.getElem?_eq_getElem (by omega), he] at this
      have he2 : a.1 = cached[a.2][m]'(by omega) := by simpa using this
      exact ⟨cached[a.2], List.getElem_mem h2, _, List.getElem_mem _, he2 ▸ hlt⟩
    · have := s3 j hj hmem
      rw [List.getElem?_eq_getElem (by omega), he] at this
      have : a.1 = 0 := by simpa using this
      rw [this] at hlt
      exact absurd hlt (lt_irrefl _)
  · rintro ⟨c, hc, d, hd, hlt⟩
    obtain ⟨i, hi, rfl⟩ := List.mem_iff_getElem.1 hc
    obtain ⟨m, hm, rfl⟩ := List.mem_iff_getElem.1 hd
    obtain ⟨w1, w2, w3⟩ := hw i (by omega) hi
    simp only [List.get_eq_getElem] at w1 w2 w3
    obtain ⟨s1, s2, s3⟩ := cachedDistance_spec n _ _ w1 w2 w3
    refine ⟨(cached[i][m], i), (mem_contactConstraint _ _ _ _).2 ⟨by omega, hi, ?_⟩, hlt⟩
    have hz : ((fcs[i]'(by omega)).colliderIdx[m]'(by omega), cached[i][m]) ∈
        (fcs[i]'(by omega)).colliderIdx.zip cached[i] := by
      rw [List.mem_iff_getElem]
      exact ⟨m, by simp [hm, ← w3], by simp⟩
    exact List.mem_of_getElem? (s2 _ hz)

/-- A violated constraint gets at least four times stiffer: the bump ratio is at least four for
every penetration. -/
theorem violation_bumpRatio (n : ℕ) (fcs : List Fc) (cached : List (List ℝ))
    (ht : ∀ fc ∈ fcs, 0 < fc.tolerance) (h : (contactViolation n fcs cached).violation > 0) :
    (contactViolation n fcs cached).index < fcs.length ∧
      4 ≤ (contactViolation n fcs cached).bumpRatio := by
  unfold contactViolation at h ⊢
  cases hm : minBy (contactConstraint n fcs cached) with
  | none => simp [hm] at h
  | some m =>
    obtain ⟨h1, h2⟩ := minBy_spec hm
    obtain ⟨hi, -, -⟩ := (mem_contactConstraint _ _ _ _).1 h1
    simp only [hm, gt_iff_lt, lt_max_iff, lt_irrefl, false_or, neg_pos] at h ⊢
    refine ⟨hi, ?_⟩
    have hpos := ht _ (List.getElem_mem hi)
    rw [List.getElem?_eq_getElem hi, Option.map_some, Option.getD_some]
    generalize fcs[m.2].tolerance = δ at hpos
    rw [ContactPenalty.db_of_lt (by linarith), ContactPenalty.db_of_lt (by linarith)]
    have e : -3 * (δ - m.1) ^ 2 / δ / (-3 * (δ - 0.5 * δ) ^ 2 / δ) = 4 * ((δ - m.1) / δ) ^ 2 := by
      have : δ - 0.5 * δ ≠ 0 := by
        have : δ - 0.5 * δ = δ / 2 := by ring
        rw [this]; positivity
      field_simp
      ring
    rw [e]
    have : 1 ≤ (δ - m.1) / δ := by rw [le_div_iff₀ hpos]; linarith
    nlinarith

/-- **C21 (relaxation never happens)** Whenever some contact constraint has a vertex that is
not on its collider, for instance a vertex of its own implicit surface, the penalty reported as
largest is positive, so stiffnesses are never relaxed, even if every collider vertex is far
outside the tolerance. -/
theorem relax_dead (s : Sim X V) (n : ℕ) (cached : List (List ℝ))
    (hw : WellFormed n s.fcs cached) (ht : ∀ fc ∈ s.fcs, 0 < fc.tolerance) (fc : Fc)
    (hfc : fc ∈ s.fcs) (v : ℕ) (hv : v < n) (hnot : v ∉ fc.colliderIdx) :
    relax s (contactViolation n s.fcs cached) = s := by
  unfold relax
  rw [if_neg]
  unfold WellFormed at hw
  rw [List.forall₂_iff_get] at hw
  obtain ⟨hlen, hw⟩ := hw
  obtain ⟨i, hi, rfl⟩ := List.mem_iff_getElem.1 hfc
  obtain ⟨w1, w2, w3⟩ := hw i hi (by omega)
  simp only [List.get_eq_getElem] at w1 w2 w3
  obtain ⟨s1, s2, s3⟩ := cachedDistance_spec n _ _ w1 w2 w3
  have hmem : ((0 : ℝ), i) ∈ contactConstraint n s.fcs cached :=
    (mem_contactConstraint _ _ _ _).2 ⟨hi, by omega, List.mem_of_getElem? (s3 v hv hnot)⟩
  unfold contactViolation
  cases hm : minBy (contactConstraint n s.fcs cached) with
  | none => rw [minBy_none hm] at hmem; simp at hmem
  | some m =>
    obtain ⟨h1, h2⟩ := minBy_spec hm
    obtain ⟨hj, -, -⟩ := (mem_contactConstraint _ _ _ _).1 h1
    have hpos := ht _ (List.getElem_mem hj)
    have hle : m.1 ≤ 0 := h2 _ hmem
    simp only
    rw [List.getElem?_eq_getElem hj, Option.map_some, Option.getD_some,
      ((ContactPenalty.b_eq_zero_iff _ m.1 hpos).1)]
    linarith

/-- `point_contact.rs:1053-1101`, `compute_nonlinear_constraint`: the constraint values the
penalty is computed from are the cached potentials minus the contact offset, for the query
points with a neighborhood. -/
def constraintValues (offset : ℝ) (sizes : List ℕ) (cached : List ℝ) : List ℝ :=
  ((sizes.zip cached).filter fun a => a.1 ≠ 0).map fun a => a.2 - offset

/-- With a contact offset the test for penetration looks at other numbers than the penalty: a
collider can be inside the offset surface, with a negative constraint value, and no violation
is reported. -/
theorem violation_offset_violated :
    ∃ (fc : Fc) (offset : ℝ) (cached : List ℝ), WellFormed 2 [fc] [cached] ∧
      (∃ d ∈ constraintValues offset [1] cached, d < 0) ∧
      ¬ (contactViolation 2 [fc] [cached]).violation > 0 := by
  refine ⟨⟨1, [1], 1⟩, 1, [1 / 2], ?_, ⟨1 / 2 - 1, ?_, by norm_num⟩, ?_⟩
  · unfold WellFormed
    refine .cons ⟨by simp, by simp, by simp⟩ .nil
  · simp [constraintValues]
  · rw [violation_iff_penetration]
    · push Not
      intro c hc d hd
      simp only [List.mem_singleton] at hc
      subst hc
      simp only [List.mem_singleton] at hd
      subst hd
      norm_num
    · unfold WellFormed
      refine .cons ⟨by simp, by simp, by simp⟩ .nil

/-! ## C56: what a step commits -/

/-- The collider indices of the constraints. -/
def colliders (fcs : List Fc) : List (List ℕ) := fcs.map Fc.colliderIdx

theorem contactConstraint_congr (n : ℕ) {fcs fcs' : List Fc} (h : colliders fcs = colliders fcs')
    (cached : List (List ℝ)) : contactConstraint n fcs cached = contactConstraint n fcs' cached := by
  unfold contactConstraint colliders at *
  have hlen : fcs.length = fcs'.length := by simpa using congrArg List.length h
  have hz : fcs.zipIdx.zip cached = (fcs'.zipIdx.zip cached).zipWith
      (fun a fc => ((fc, a.1.2), a.2)) fcs := by
    apply List.ext_getElem
    · simp [hlen]
    · intro i h1 h2
      simp
  have key : ∀ (l : List ((Fc × ℕ) × List ℝ)) (m : List Fc), l.length ≤ m.length →
      (∀ i (h1 : i < l.length) (h2 : i < m.length), l[i].1.1.colliderIdx = m[i].colliderIdx) →
      ((l.zipWith (fun a fc => ((fc, a.1.2), a.2)) m).flatMap fun a =>
        (cachedDistance n a.1.1.colliderIdx a.2).map fun d => (d, a.1.2)) =
      l.flatMap fun a => (cachedDistance n a.1.1.colliderIdx a.2).map fun d => (d, a.1.2) := by
    intro l
    induction l with
    | nil => intro m _ _; simp
    | cons a t ih =>
      intro m hm hi
      cases m with
      | nil => simp at hm
      | cons b m =>
        simp only [List.zipWith_cons_cons, List.flatMap_cons]
        have h0 := hi 0 (by simp) (by simp)
        simp only [List.getElem_cons_zero] at h0
        rw [ih m (by simpa using hm) fun i h1 h2 => by
          have := hi (i + 1) (by simpa using h1) (by simpa using h2)
          simpa using this, h0]
  rw [hz]
  apply key
  · simp [hlen]
  · intro i h1 h2
    simp only [List.getElem_zip, List.getElem_zipIdx]
    have := congrArg (fun l => l[i]?) h
    simp only [List.getElem?_map] at this
    rw [List.getElem?_eq_getElem h2, List.getElem?_eq_getElem (by omega)] at this
    simpa using this.symm

theorem violation_congr (n : ℕ) {fcs fcs' : List Fc} (h : colliders fcs = colliders fcs')
    (cached : List (List ℝ)) :
    (contactViolation n fcs cached).violation = (contactViolation n fcs' cached).violation := by
  unfold contactViolation
  rw [contactConstraint_congr n h]
  cases minBy (contactConstraint n fcs' cached) <;> rfl

theorem colliders_bump (s : Sim X V) (cv : ContactViolation) :
    colliders (bump s cv).fcs = colliders s.fcs := by
  unfold colliders bump
  simp only
  generalize s.fcs = l
  generalize cv.index = i
  induction l generalizing i with
  | nil => cases i <;> rfl
  | cons a t ih => cases i <;> simp [ih]

theorem colliders_relax (s : Sim X V) (cv : ContactViolation) :
    colliders (relax s cv).fcs = colliders s.fcs := by
  unfold colliders relax
  split_ifs
  · simp only
    generalize s.fcs = l
    generalize s.fcsAd = m
    induction l generalizing m with
    | nil => simp
    | cons a t ih =>
      cases m with
      | nil => simp
      | cons b m =>
        simp only [List.zip_cons_cons, List.map_cons, List.length_cons, List.drop_succ_cons,
          List.cons_append, ih]
        congr 1
        unfold relaxFc
        split_ifs <;> rfl
  · rfl

/-- The committed state after accepting the unknowns `x` with integrator `i` and step `dt`. -/
def committed (env : Env X V) (clear : Bool) (i : SingleStep) (dt : ℝ) (state : X) (x : V) : X :=
  if clear then env.clearVelocities (env.advance i dt state x) else env.advance i dt state x

/-- What one contact loop does to the committed state. -/
theorem loop_commits (env : Env X V) (par : Params) (ω : ℕ → Outcome V) (k : ℕ) (ci : ℤ)
    (s : Sim X V) (st : StageResult) :
    let r := contactLoop env par ω k ci s st
    r.sim.timeStep = s.timeStep ∧ r.sim.integration = s.integration ∧
    r.sim.iterationCount = s.iterationCount ∧ colliders r.sim.fcs = colliders s.fcs ∧
    match r.stage with
    | none => r.sim.state = s.state ∧ r.sim.initialPoint = s.initialPoint
    | some st' => ∃ k', k ≤ k' ∧ k' + 1 = r.solves ∧ (ω k').usable ∧
        r.sim.initialPoint = (ω k').solution ∧
        r.sim.state = committed env (s.iterationCount % par.clearSteps = 0) s.integration
          s.timeStep s.state (ω k').solution ∧
        (st'.results.getLast? = some .maximumContactIterationsExceeded ∨
          (contactViolation env.numVertices s.fcs (ω k').cached).violation ≤ 0 ∧
            st'.results.getLast? = some (ω k').status) := by
  apply loop_ind env par ω (fun k _ s _ r =>
    r.sim.timeStep = s.timeStep ∧ r.sim.integration = s.integration ∧
    r.sim.iterationCount = s.iterationCount ∧ colliders r.sim.fcs = colliders s.fcs ∧
    match r.stage with
    | none => r.sim.state = s.state ∧ r.sim.initialPoint = s.initialPoint
    | some st' => ∃ k', k ≤ k' ∧ k' + 1 = r.solves ∧ (ω k').usable ∧
        r.sim.initialPoint = (ω k').solution ∧
        r.sim.state = committed env (s.iterationCount % par.clearSteps = 0) s.integration
          s.timeStep s.state (ω k').solution ∧
        (st'.results.getLast? = some .maximumContactIterationsExceeded ∨
          (contactViolation env.numVertices s.fcs (ω k').cached).violation ≤ 0 ∧
            st'.results.getLast? = some (ω k').status))
  · intro k ci s st _
    exact ⟨rfl, rfl, rfl, rfl, rfl, rfl⟩
  · intro k ci s st hu _
    refine ⟨rfl, rfl, rfl, rfl, k, le_rfl, rfl, hu, rfl, ?_, Or.inl (by simp)⟩
    simp [commit, committed]
  · intro k ci s st r _ _ hv ih
    obtain ⟨h1, h2, h3, h4, h5⟩ := ih
    refine ⟨h1, h2, h3, h4.trans (colliders_bump _ _), ?_⟩
    revert h5
    cases r.stage with
    | none => exact fun h => h
    | some st' =>
      rintro ⟨k', a1, a2, a3, a4, a5, a6⟩
      refine ⟨k', by omega, a2, a3, a4, a5, ?_⟩
      rcases a6 with a6 | a6
      · exact Or.inl a6
      · right
        rwa [violation_congr _ (colliders_bump s _)] at a6
  · intro k ci s st hu _ hv
    have hrel : (relax s (contactViolation env.numVertices s.fcs (ω k).cached)).state = s.state ∧
        (relax s (contactViolation env.numVertices s.fcs (ω k).cached)).timeStep = s.timeStep ∧
        (relax s (contactViolation env.numVertices s.fcs (ω k).cached)).integration =
          s.integration ∧
        (relax s (contactViolation env.numVertices s.fcs (ω k).cached)).iterationCount =
          s.iterationCount := by
      unfold relax
      split_ifs <;> exact ⟨rfl, rfl, rfl, rfl⟩
    obtain ⟨r1, r2, r3, r4⟩ := hrel
    refine ⟨r2, r3, r4, colliders_relax _ _, k, le_rfl, rfl, hu, rfl, ?_,
      Or.inr ⟨not_lt.1 hv, by simp [record]⟩⟩
    simp [commit, committed, r1, r2, r3, r4]

/-- The history of commits of a step. `Commits env ω clear n colliders dt ti l x v rs x' v'`:
going through the stages `l`, each stage commits the unknowns of one usable solve `ω k`,
advancing the state with the integrator and step size of the stage; unless the stage reports
that contact iterations were exhausted, that solve had no collider vertex with negative
potential. -/
inductive Commits (env : Env X V) (ω : ℕ → Outcome V) (clear : Bool) (fcs : List Fc) (dt : ℝ)
    (ti : TimeIntegration) : List ℕ → ℕ → X → V → List StageResult → X → V → Prop
  | nil (k : ℕ) (x : X) (v : V) : Commits env ω clear fcs dt ti [] k x v [] x v
  | cons {stage : ℕ} {rest : List ℕ} {k₀ : ℕ} {x x' : X} {v v' : V} {st : StageResult}
      {rs : List StageResult} (k : ℕ) (hk : k₀ ≤ k) (hu : (ω k).usable)
      (hpen : st.results.getLast? = some .maximumContactIterationsExceeded ∨
        ∀ a ∈ contactConstraint env.numVertices fcs (ω k).cached, 0 ≤ a.1)
      (hrest : Commits env ω clear fcs dt ti rest (k + 1)
        (committed env clear (ti.stepIntegrator stage).1 (dt * (ti.stepIntegrator stage).2) x
          (ω k).solution) (ω k).solution rs x' v') :
      Commits env ω clear fcs dt ti (stage :: rest) k₀ x v (st :: rs) x' v'

theorem Commits.congr {env : Env X V} {ω : ℕ → Outcome V} {clear : Bool} {fcs fcs' : List Fc}
    (hc : colliders fcs = colliders fcs') {dt : ℝ} {ti : TimeIntegration} {l : List ℕ} {k : ℕ}
    {x x' : X} {v v' : V} {rs : List StageResult}
    (h : Commits env ω clear fcs dt ti l k x v rs x' v') :
    Commits env ω clear fcs' dt ti l k x v rs x' v' := by
  induction h with
  | nil => exact .nil _ _ _
  | cons k hk hu hpen _ ih => exact .cons k hk hu (by rwa [← contactConstraint_congr _ hc]) ih

theorem stages_commits (env : Env X V) (par : Params) (ω : ℕ → Outcome V) (jacOk : ℕ → Bool)
    (trueStep : ℝ) (l : List ℕ) (k : ℕ) (ci : ℤ) (s : Sim X V) (acc rs : List StageResult)
    (h : (stages env par ω jacOk trueStep l k ci s acc).result = some rs) :
    ∃ new, rs = acc ++ new ∧
      Commits env ω (s.iterationCount % par.clearSteps = 0) s.fcs trueStep par.integrator l k
        s.state s.initialPoint new
        (stages env par ω jacOk trueStep l k ci s acc).sim.state
        (stages env par ω jacOk trueStep l k ci s acc).sim.initialPoint := by
  induction l generalizing k ci s acc with
  | nil =>
    simp only [stages, Option.some.injEq] at h
    exact ⟨[], by simp [h], .nil _ _ _⟩
  | cons stage rest ih =>
    simp only [stages] at h ⊢
    split_ifs at h with hj
    rw [if_pos hj]
    have hl := loop_commits env par ω k ci { s with
        integration := (par.integrator.stepIntegrator stage).1
        timeStep := trueStep * (par.integrator.stepIntegrator stage).2 }
        ⟨(par.integrator.stepIntegrator stage).1, [], 0, 0⟩
    simp only at hl
    generalize contactLoop env par ω k ci { s with
        integration := (par.integrator.stepIntegrator stage).1
        timeStep := trueStep * (par.integrator.stepIntegrator stage).2 }
        ⟨(par.integrator.stepIntegrator stage).1, [], 0, 0⟩ = r at h hl ⊢
    obtain ⟨-, -, l3, l4, l5⟩ := hl
    cases hr : r.stage with
    | none => simp [hr] at h
    | some st =>
      simp only [hr] at h l5 ⊢
      obtain ⟨k', a1, a2, a3, a4, a5, a6⟩ := l5
      obtain ⟨new, b1, b2⟩ := ih _ _ _ _ h
      refine ⟨st :: new, by simp [b1], .cons k' a1 a3 ?_ ?_⟩
      · rcases a6 with a6 | ⟨a6, -⟩
        · exact Or.inl a6
        · right
          intro a ha
          by_contra hlt
          push Not at hlt
          exact absurd ((violation_pos_iff _ _ _).2 ⟨a, ha, hlt⟩) (not_lt.2 a6)
      · rw [l3, a4, a5] at b2
        rw [a2]
        exact b2.congr l4

/-- **C56** A successful step advances the committed state exactly once per stage, each time
with the unknowns of a usable solve, with the integrator and step size of that stage; unless a
stage reports that contact iterations were exhausted, the committed solve has no collider
vertex with negative potential. The next step starts from the last committed unknowns. -/
theorem step_commits (env : Env X V) (par : Params) (ω : ℕ → Outcome V) (jacOk : ℕ → Bool)
    (s : Sim X V) (rs : List StageResult) (h : (step env par ω jacOk s).result = some rs) :
    Commits env ω ((s.iterationCount + 1) % par.clearSteps = 0) s.fcs s.timeStep par.integrator
      (List.range par.integrator.numStages) 0 s.state s.initialPoint rs
      (step env par ω jacOk s).sim.state (step env par ω jacOk s).sim.initialPoint := by
  unfold step at h ⊢
  obtain ⟨new, h1, h2⟩ := stages_commits _ _ _ _ _ _ _ _ _ _ _ h
  simp only [List.nil_append] at h1
  subst h1
  exact h2

/-! ## C22: failed steps -/

theorem stages_timeStep (env : Env X V) (par : Params) (ω : ℕ → Outcome V) (jacOk : ℕ → Bool)
    (trueStep : ℝ) (l : List ℕ) (last : ℕ) (k : ℕ) (ci : ℤ) (s : Sim X V)
    (acc rs : List StageResult)
    (h : (stages env par ω jacOk trueStep (l ++ [last]) k ci s acc).result = some rs) :
    (stages env par ω jacOk trueStep (l ++ [last]) k ci s acc).sim.timeStep =
      trueStep * (par.integrator.stepIntegrator last).2 := by
  induction l generalizing k ci s acc with
  | nil =>
    simp only [List.nil_append, stages] at h ⊢
    split_ifs at h with hj
    rw [if_pos hj]
    have hl := loop_commits env par ω k ci { s with
        integration := (par.integrator.stepIntegrator last).1
        timeStep := trueStep * (par.integrator.stepIntegrator last).2 }
        ⟨(par.integrator.stepIntegrator last).1, [], 0, 0⟩
    simp only at hl
    generalize contactLoop env par ω k ci { s with
        integration := (par.integrator.stepIntegrator last).1
        timeStep := trueStep * (par.integrator.stepIntegrator last).2 }
        ⟨(par.integrator.stepIntegrator last).1, [], 0, 0⟩ = r at h hl ⊢
    cases hr : r.stage <;> exact hl.1
  | cons stage rest ih =>
    simp only [List.cons_append, stages] at h ⊢
    split_ifs at h with hj
    rw [if_pos hj]
    generalize contactLoop env par ω k ci { s with
        integration := (par.integrator.stepIntegrator stage).1
        timeStep := trueStep * (par.integrator.stepIntegrator stage).2 }
        ⟨(par.integrator.stepIntegrator stage).1, [], 0, 0⟩ = r at h ⊢
    cases hr : r.stage with
    | none => simp [hr] at h
    | some st =>
      simp only [hr] at h ⊢
      exact ih _ _ _ _ h

/-- A successful step leaves the time step as it was, for every integrator. -/
theorem step_ok_timeStep (env : Env X V) (par : Params) (ω : ℕ → Outcome V) (jacOk : ℕ → Bool)
    (s : Sim X V) (rs : List StageResult) (h : (step env par ω jacOk s).result = some rs) :
    (step env par ω jacOk s).sim.timeStep = s.timeStep := by
  unfold step at h ⊢
  simp only at h ⊢
  have hfac : ∃ l last, List.range par.integrator.numStages = l ++ [last] ∧
      (par.integrator.stepIntegrator last).2 = 1 := by
    cases par.integrator with
    | BE => exact ⟨[], 0, rfl, rfl⟩
    | TR => exact ⟨[], 0, rfl, rfl⟩
    | BDF2 => exact ⟨[], 0, rfl, rfl⟩
    | TRBDF2 t => exact ⟨[0], 1, rfl, by simp [TimeIntegration.stepIntegrator]⟩
    | SDIRK2 => exact ⟨[0], 1, rfl, by simp [TimeIntegration.stepIntegrator]⟩
  obtain ⟨l, last, h1, h2⟩ := hfac
  rw [h1] at h ⊢
  rw [stages_timeStep _ _ _ _ _ _ _ _ _ _ _ _ h, h2, mul_one]

/-- **C22** (partial: only for integrators with a single stage) A failed step leaves the
committed state, the unknowns to start from and the time step as they were. -/
theorem step_failed_unchanged_partial (env : Env X V) (par : Params)
    (hone : par.integrator.numStages = 1) (ω : ℕ → Outcome V) (jacOk : ℕ → Bool) (s : Sim X V)
    (h : (step env par ω jacOk s).result = none) :
    (step env par ω jacOk s).sim.state = s.state ∧
    (step env par ω jacOk s).sim.initialPoint = s.initialPoint ∧
    (step env par ω jacOk s).sim.timeStep = s.timeStep := by
  have hfac : (par.integrator.stepIntegrator 0).2 = 1 := by
    revert hone
    cases par.integrator <;> simp [TimeIntegration.numStages, TimeIntegration.stepIntegrator]
  unfold step at h ⊢
  rw [hone] at h ⊢
  simp only [List.range_one, stages] at h ⊢
  by_cases hj : jacOk 0
  · rw [if_pos hj] at h ⊢
    have hl := loop_commits env par ω 0 par.contactIterations { s with
        iterationCount := s.iterationCount + 1
        integration := (par.integrator.stepIntegrator 0).1
        timeStep := s.timeStep * (par.integrator.stepIntegrator 0).2 }
        ⟨(par.integrator.stepIntegrator 0).1, [], 0, 0⟩
    simp only at hl
    generalize contactLoop env par ω 0 par.contactIterations { s with
        iterationCount := s.iterationCount + 1
        integration := (par.integrator.stepIntegrator 0).1
        timeStep := s.timeStep * (par.integrator.stepIntegrator 0).2 }
        ⟨(par.integrator.stepIntegrator 0).1, [], 0, 0⟩ = r at h hl ⊢
    obtain ⟨l1, -, -, -, l5⟩ := hl
    cases hr : r.stage with
    | none =>
      simp only [hr] at l5 ⊢
      exact ⟨l5.1, l5.2, by rw [l1, hfac, mul_one]⟩
    | some st => simp [hr] at h
  · rw [if_neg hj]
    exact ⟨rfl, rfl, by simp [hfac]⟩

/-- An oracle whose first solve fails. -/
def failing (x : V) : ℕ → Outcome V := fun _ => ⟨.failed, x, [], false⟩

theorem step_failing (env : Env X V) (par : Params) (x : V) (s : Sim X V) :
    (step env par (failing x) (fun _ => true) s).result = none ∧
    (step env par (failing x) (fun _ => true) s).sim.timeStep =
      s.timeStep * (par.integrator.stepIntegrator 0).2 := by
  have h : ∃ n, List.range par.integrator.numStages = 0 :: n := by
    cases par.integrator <;> exact ⟨_, rfl⟩
  obtain ⟨n, hn⟩ := h
  unfold step
  simp only
  rw [hn]
  simp only [stages, if_true]
  rw [contactLoop]
  simp [failing]

/-- **C22 (violated, time step)** With a two-stage integrator a failed solve leaves the scaled
time step of its stage behind, and failures compound: after `n` failed TR-BDF2 steps the solver
integrates with `t^n` times the requested time step. -/
theorem failed_timeStep_violated (env : Env X V) (par : Params) (t : ℝ)
    (hti : par.integrator = .TRBDF2 t) (x : V) (n : ℕ) (s : Sim X V) :
    (run env par (List.replicate n (failing x, fun _ => true)) s).timeStep = s.timeStep * t ^ n := by
  induction n generalizing s with
  | zero => simp [run]
  | succ n ih =>
    rw [List.replicate_succ, run, ih, (step_failing env par x s).2, hti]
    simp only [TimeIntegration.stepIntegrator, Nat.zero_mod, if_true]
    ring

/-- The time step after one failed step differs from the requested one. -/
example : ∃ (env : Env ℝ ℝ) (par : Params) (s : Sim ℝ ℝ) (ω : ℕ → Outcome ℝ),
    (step env par ω (fun _ => true) s).result = none ∧
      (step env par ω (fun _ => true) s).sim.timeStep ≠ s.timeStep := by
  refine ⟨⟨0, fun _ dt x v => x + dt * v, id⟩, ⟨5, .TRBDF2 (1 / 2), 10⟩,
    ⟨0, 0, 1, .BE, [], [], 0⟩, failing 0, (step_failing _ _ _ _).1, ?_⟩
  rw [(step_failing _ _ _ _).2]
  norm_num [TimeIntegration.stepIntegrator]

/-- **C22 (violated, state)** When the second stage fails the first one stays committed: the
positions have moved although the step reports an error. -/
theorem failed_state_violated :
    ∃ (env : Env ℝ ℝ) (par : Params) (s : Sim ℝ ℝ) (ω : ℕ → Outcome ℝ),
      (step env par ω (fun _ => true) s).result = none ∧
        (step env par ω (fun _ => true) s).sim.state ≠ s.state := by
  refine ⟨⟨0, fun _ dt x v => x + dt * v, id⟩, ⟨5, .TRBDF2 (1 / 2), 10⟩,
    ⟨0, 0, 1, .BE, [], [], 0⟩,
    fun k => ⟨if k = 0 then .success else .failed, 2, [], false⟩, ?_⟩
  have hr : List.range 2 = [0, 1] := rfl
  unfold step
  simp only [TimeIntegration.numStages, hr, stages, if_true]
  have h0 : ∀ (env : Env ℝ ℝ) (par : Params) (s : Sim ℝ ℝ) (st : StageResult), s.fcs = [] →
      s.fcsAd = [] →
      contactLoop env par (fun k => ⟨if k = 0 then .success else .failed, 2, [], false⟩) 0 5 s st =
        ⟨1, 4, commit env par s 2, some { st with results := st.results ++ [.success] }⟩ := by
    intro env par s st h h'
    rw [contactLoop]
    simp [contactViolation, contactConstraint, h, h', minBy, record, relax, commit]
  have h1 : ∀ (env : Env ℝ ℝ) (par : Params) (ci : ℤ) (s : Sim ℝ ℝ) (st : StageResult),
      contactLoop env par (fun k => ⟨if k = 0 then .success else .failed, 2, [], false⟩) 1 ci s st =
        ⟨2, ci, s, none⟩ := by
    intro env par ci s st
    rw [contactLoop]
    simp
  have h0' := h0 ⟨0, fun _ dt x v => x + dt * v, id⟩ ⟨5, .TRBDF2 (1 / 2), 10⟩
  simp only [Nat.cast_ofNat]
  rw [h0' _ _ rfl rfl]
  simp only [h1]
  refine ⟨trivial, ?_⟩
  norm_num [commit, TimeIntegration.stepIntegrator]

/-! ## A concrete step

One vertex, one contact constraint. The first solve penetrates, the second does not: the step
succeeds after two solves, with the stiffness raised sixteen times and the second solution
committed. -/

/-- The two solves of the example. -/
def exampleSolves : ℕ → Outcome ℝ := fun k =>
  ⟨.success, k, [[if k = 0 then -1 else 2]], false⟩

theorem example_step :
    step (X := ℝ) ⟨1, fun _ dt x v => x + dt * v, id⟩ ⟨5, .BE, 10⟩ exampleSolves (fun _ => true)
      ⟨0, 0, 1, .BE, [⟨1, [0], 1⟩], [1], 0⟩ =
    ⟨2, ⟨1, 1, 1, .BE, [⟨1, [0], 16⟩], [16], 1⟩, some [⟨.BE, [.success, .success], 1, 0⟩]⟩ := by
  have c0 : ∀ k : ℝ, contactViolation 1 [⟨1, [0], k⟩] [[-1]] = ⟨16, 1, 8, 0⟩ := by
    intro k
    norm_num [contactViolation, contactConstraint, cachedDistance, minBy, List.zipIdx,
      ContactPenalty.b, ContactPenalty.db]
  have c1 : ∀ k : ℝ, (contactViolation 1 [⟨1, [0], k⟩] [[2]]).violation = 0 := by
    intro k
    norm_num [contactViolation, contactConstraint, cachedDistance, minBy, List.zipIdx,
      ContactPenalty.b, ContactPenalty.db]
  have hr : List.range 1 = [0] := rfl
  have hrel : ¬ relaxable ⟨1, [0], 16⟩ := by norm_num [relaxable]
  unfold step
  simp only [TimeIntegration.numStages, hr, stages, if_true, TimeIntegration.stepIntegrator]
  rw [contactLoop]
  norm_num [exampleSolves, c0, bump, record]
  rw [contactLoop]
  norm_num [exampleSolves, c1, record, relax, relaxFc, relaxAd, hrel, commit]

/-- The hypotheses of `step_commits`, `run_synced` and `violation_bumpRatio` are met by it. -/
example : ∃ (env : Env ℝ ℝ) (par : Params) (s : Sim ℝ ℝ) (rs : List StageResult),
    Synced s ∧ (step env par exampleSolves (fun _ => true) s).result = some rs ∧
    WellFormed env.numVertices s.fcs [[-1]] ∧ (∀ fc ∈ s.fcs, 0 < fc.tolerance) ∧
    (contactViolation env.numVertices s.fcs [[-1]]).violation > 0 := by
  refine ⟨⟨1, fun _ dt x v => x + dt * v, id⟩, ⟨5, .BE, 10⟩,
    ⟨0, 0, 1, .BE, [⟨1, [0], 1⟩], [1], 0⟩, _, ?_, by rw [example_step], ?_, by simp, ?_⟩
  · simp [Synced]
  · exact .cons ⟨by simp, by simp, by simp⟩ .nil
  · rw [violation_iff_penetration]
    · simp
    · exact .cons ⟨by simp, by simp, by simp⟩ .nil

/-- Hypotheses of `relax_dead`: two vertices, one of them on the collider, far away. -/
example : ∃ (s : Sim ℝ ℝ) (fc : Fc), fc ∈ s.fcs ∧ WellFormed 2 s.fcs [[100]] ∧
    (∀ fc ∈ s.fcs, 0 < fc.tolerance) ∧ 1 ∉ fc.colliderIdx ∧ relaxable fc := by
  refine ⟨⟨0, 0, 1, .BE, [⟨1, [0], 1000⟩], [1000], 0⟩, ⟨1, [0], 1000⟩, by simp,
    .cons ⟨by simp, by simp, by simp⟩ .nil, by simp, by simp, ?_⟩
  norm_num [relaxable]

end Softy.Solver
