import Verif.Model.StepReport
import Verif.Props.Solver

/-!
# C116 — the report of a step is truthful
-/

noncomputable section

namespace Softy.StepReport

open Solver TimeInt

variable {X V : Type*}

/-! ## Specification -/

/-- A solve left a vertex inside a collider: some potential is negative. -/
def Penetrates (o : Outcome V) : Prop := ∃ c ∈ o.cached, ∃ d ∈ c, d < 0

/-- The number of solves that `p` holds of, among the `n` solves from number `k` on. -/
def countSolves (p : ℕ → Prop) [DecidablePred p] (k n : ℕ) : ℕ :=
  ((List.range n).map (k + ·)).countP (fun j => decide (p j))

open Classical in
/-- What a truthful report of a stage says, if the stage started with solve number `k` of the
step and the step may make `budget` solves before it gives up resolving contacts.

* every solve but the last ended with a penetration, and so was repeated;
* the results are the statuses of the solves, in order, except for a solve beyond the budget;
* the last solve left no penetration, or it was beyond the budget, and then it is reported so;
* violations are counted among the solves within the budget. -/
structure Truthful (ω : ℕ → Outcome V) (budget k : ℕ) (st : StageResult) : Prop where
  some_solve : 0 < st.results.length
  usable : ∀ j < st.results.length, (ω (k + j)).usable
  repeated : ∀ j, j + 1 < st.results.length → Penetrates (ω (k + j)) ∧ k + j < budget
  status : ∀ j, ∀ h : j < st.results.length, st.results[j] =
    if k + j < budget then (ω (k + j)).status else .maximumContactIterationsExceeded
  resolved : k + st.results.length ≤ budget → ¬ Penetrates (ω (k + st.results.length - 1))
  contact : st.contactViolations =
    countSolves (fun j => Penetrates (ω j) ∧ j < budget) k st.results.length
  maxStep : st.maxStepViolations =
    countSolves (fun j => (ω j).maxStep = true ∧ j < budget) k st.results.length

/-! ## One stage -/

theorem countSolves_cons (p : ℕ → Prop) [DecidablePred p] (k n : ℕ) :
    countSolves p k (n + 1) = (if p k then 1 else 0) + countSolves p (k + 1) n := by
  unfold countSolves
  rw [List.range_succ_eq_map]
  simp only [List.map_cons, List.map_map, add_zero, List.countP_cons, decide_eq_true_eq]
  rw [add_comm]
  congr 2
  apply List.map_congr_left
  intro a _
  simp only [Function.comp]
  omega

open Classical in
/-- The part of the report that the contact loop adds from solve `k` on. -/
theorem loop_report (env : Env X V) (par : Params) (ω : ℕ → Outcome V) (B : ℕ) (fcs : List Fc)
    (hw : ∀ j, WellFormed env.numVertices fcs (ω j).cached) (k : ℕ) (ci : ℤ) (s : Sim X V)
    (st : StageResult) (hc : colliders s.fcs = colliders fcs) (hci : (k : ℤ) + ci = B) :
    let r := contactLoop env par ω k ci s st
    ∀ st', r.stage = some st' → ∃ new : StageResult, Truthful ω B k new ∧
      new.integration = st.integration ∧ st'.integration = st.integration ∧
      st'.results = st.results ++ new.results ∧
      st'.contactViolations = st.contactViolations + new.contactViolations ∧
      st'.maxStepViolations = st.maxStepViolations + new.maxStepViolations ∧
      r.solves = k + new.results.length ∧ (r.solves : ℤ) + r.iters = B := by
  have hpen : ∀ (s : Sim X V) (j : ℕ), colliders s.fcs = colliders fcs →
      ((contactViolation env.numVertices s.fcs (ω j).cached).violation > 0 ↔
        Penetrates (ω j)) := by
    intro s j h
    rw [violation_congr _ h]
    exact violation_iff_penetration _ _ _ (hw j)
  revert hc hci
  apply loop_ind env par ω (fun k ci s st r =>
    colliders s.fcs = colliders fcs → (k : ℤ) + ci = B →
    ∀ st', r.stage = some st' → ∃ new : StageResult, Truthful ω B k new ∧
      new.integration = st.integration ∧ st'.integration = st.integration ∧
      st'.results = st.results ++ new.results ∧
      st'.contactViolations = st.contactViolations + new.contactViolations ∧
      st'.maxStepViolations = st.maxStepViolations + new.maxStepViolations ∧
      r.solves = k + new.results.length ∧ (r.solves : ℤ) + r.iters = B)
  · intro k ci s st _ _ _ st' h
    simp at h
  · intro k ci s st hu hle hc hB st' h
    simp only [Option.some.injEq] at h
    subst h
    have hk : ¬ k < B := by omega
    refine ⟨⟨st.integration, [.maximumContactIterationsExceeded], 0, 0⟩, ?_, rfl, rfl, rfl, rfl,
      rfl, rfl, by push_cast; omega⟩
    refine ⟨by simp, ?_, ?_, ?_, ?_, ?_, ?_⟩
    · intro j hj
      simp only [List.length_cons, List.length_nil, zero_add, Nat.lt_one_iff] at hj
      subst hj
      exact hu
    · intro j hj
      simp at hj
    · intro j hj
      simp only [List.length_cons, List.length_nil, zero_add, Nat.lt_one_iff] at hj
      subst hj
      simp [hk]
    · intro h
      simp only [List.length_cons, List.length_nil] at h
      omega
    · simp [countSolves, hk]
    · simp [countSolves, hk]
  · intro k ci s st r hu hpos hv ih hc hB st' h
    obtain ⟨new, t, h1, h2, h3, h4, h5, h6, h7⟩ :=
      ih ((colliders_bump s _).trans hc) (by push_cast; omega) st' h
    have hk : k < B := by omega
    have hp := (hpen s k hc).1 hv
    refine ⟨⟨st.integration, (ω k).status :: new.results, 1 + new.contactViolations,
      (if (ω k).maxStep then 1 else 0) + new.maxStepViolations⟩, ?_, rfl, h2, ?_, ?_, ?_, ?_, h7⟩
    · refine ⟨by simp, ?_, ?_, ?_, ?_, ?_, ?_⟩
      · intro j hj
        rcases j with _ | j
        · exact hu
        · have := t.usable j (by simpa using hj)
          rwa [show k + (j + 1) = k + 1 + j by omega]
      · intro j hj
        rcases j with _ | j
        · exact ⟨hp, hk⟩
        · have := t.repeated j (by simpa using hj)
          rwa [show k + (j + 1) = k + 1 + j by omega]
      · intro j hj
        rcases j with _ | j
        · simp [hk]
        · have := t.status j (by simpa using hj)
          rw [show k + (j + 1) = k + 1 + j by omega]
          simpa using this
      · intro h
        simp only [List.length_cons] at h ⊢
        have := t.resolved (by omega)
        rwa [show k + (new.results.length + 1) - 1 = k + 1 + new.results.length - 1 by omega]
      · simp only [List.length_cons]
        rw [countSolves_cons, if_pos ⟨hp, hk⟩, t.contact]
      · simp only [List.length_cons]
        rw [countSolves_cons, t.maxStep]
        simp [hk]
    · rw [h3]
      simp [record]
    · rw [h4]
      simp only [record, if_pos hv]
      omega
    · rw [h5]
      simp only [record]
      omega
    · rw [h6]
      simp only [List.length_cons]
      omega
  · intro k ci s st hu hpos hv hc hB st' h
    simp only [Option.some.injEq] at h
    subst h
    have hk : k < B := by omega
    have hp : ¬ Penetrates (ω k) := fun h => hv ((hpen s k hc).2 h)
    refine ⟨⟨st.integration, [(ω k).status], 0, if (ω k).maxStep then 1 else 0⟩, ?_, rfl, rfl, rfl,
      ?_, rfl, rfl, by push_cast; omega⟩
    · refine ⟨by simp, ?_, ?_, ?_, ?_, ?_, ?_⟩
      · intro j hj
        simp only [List.length_cons, List.length_nil, zero_add, Nat.lt_one_iff] at hj
        subst hj
        exact hu
      · intro j hj
        simp at hj
      · intro j hj
        simp only [List.length_cons, List.length_nil, zero_add, Nat.lt_one_iff] at hj
        subst hj
        simp [hk]
      · intro _
        simpa using hp
      · simp [countSolves, hp]
      · simp only [List.length_cons, List.length_nil]
        rw [countSolves_cons]
        simp [countSolves, hk]
    · simp [record, hv]

/-- The number of solves in the first `i` stages. -/
def solvesBefore (rs : List StageResult) (i : ℕ) : ℕ :=
  ((rs.take i).map fun r => r.results.length).sum

theorem stages_report (env : Env X V) (par : Params) (ω : ℕ → Outcome V) (jacOk : ℕ → Bool)
    (B : ℕ) (fcs : List Fc) (hw : ∀ j, WellFormed env.numVertices fcs (ω j).cached)
    (trueStep : ℝ) (l : List ℕ) (k : ℕ) (ci : ℤ) (s : Sim X V) (acc rs : List StageResult)
    (hc : colliders s.fcs = colliders fcs) (hci : (k : ℤ) + ci = B)
    (h : (stages env par ω jacOk trueStep l k ci s acc).result = some rs) :
    ∃ new, rs = acc ++ new ∧ new.length = l.length ∧
      (∀ i, ∀ hi : i < new.length, Truthful ω B (k + solvesBefore new i) new[i]) ∧
      (∀ i, ∀ hi : i < new.length, ∀ hl : i < l.length,
        new[i].integration = (par.integrator.stepIntegrator l[i]).1) := by
  induction l generalizing k ci s acc with
  | nil =>
    simp only [stages, Option.some.injEq] at h
    exact ⟨[], by simp [h], rfl, by simp, by simp⟩
  | cons stage rest ih =>
    simp only [stages] at h
    split_ifs at h with hj
    have hl := loop_report env par ω B fcs hw k ci { s with
        integration := (par.integrator.stepIntegrator stage).1
        timeStep := trueStep * (par.integrator.stepIntegrator stage).2 }
        ⟨(par.integrator.stepIntegrator stage).1, [], 0, 0⟩ hc hci
    have hcol := (loop_commits env par ω k ci { s with
        integration := (par.integrator.stepIntegrator stage).1
        timeStep := trueStep * (par.integrator.stepIntegrator stage).2 }
        ⟨(par.integrator.stepIntegrator stage).1, [], 0, 0⟩).2.2.2.1
    simp only at hl hcol
    generalize contactLoop env par ω k ci { s with
        integration := (par.integrator.stepIntegrator stage).1
        timeStep := trueStep * (par.integrator.stepIntegrator stage).2 }
        ⟨(par.integrator.stepIntegrator stage).1, [], 0, 0⟩ = r at h hl hcol
    cases hr : r.stage with
    | none => simp [hr] at h
    | some st =>
      simp only [hr] at h
      obtain ⟨nw, t, a1, a2, a3, a4, a5, a6, a7⟩ := hl st hr
      have hst : st = nw := by
        cases st
        cases nw
        simp only [List.nil_append, zero_add] at a1 a2 a3 a4 a5
        subst a1 a2 a3 a4 a5
        rfl
      subst hst
      obtain ⟨new, b1, b2, b3, b4⟩ := ih _ _ _ _ (hcol.trans hc) a7 h
      refine ⟨st :: new, by simp [b1], by simp [b2], ?_, ?_⟩
      · intro i hi
        rcases i with _ | i
        · simpa [solvesBefore] using t
        · have := b3 i (by simpa using hi)
          rw [a6] at this
          simpa [solvesBefore, add_assoc] using this
      · intro i hi hl
        rcases i with _ | i
        · exact a2
        · simpa using b4 i (by simpa using hi) (by simpa using hl)

/-! ## C116 -/

/-- **C116** The report of a successful step has one entry for each stage of the time
integration, in order, and each entry is a truthful account of the solves of its stage, where
the solves of the step are numbered through and the first `contact_iterations` of them are
within the budget. -/
theorem step_report_partial (env : Env X V) (par : Params) (ω : ℕ → Outcome V)
    (jacOk : ℕ → Bool) (s : Sim X V) (rs : List StageResult)
    (hw : ∀ j, WellFormed env.numVertices s.fcs (ω j).cached)
    (h : (step env par ω jacOk s).result = some rs) :
    rs.length = par.integrator.numStages ∧
    ∀ i, ∀ hi : i < rs.length, rs[i].integration = (par.integrator.stepIntegrator i).1 ∧
      Truthful ω par.contactIterations (solvesBefore rs i) rs[i] := by
  unfold step at h
  obtain ⟨new, h1, h2, h3, h4⟩ := stages_report env par ω jacOk par.contactIterations s.fcs hw
    s.timeStep _ 0 par.contactIterations { s with iterationCount := s.iterationCount + 1 } [] rs
    rfl (by simp) h
  simp only [List.nil_append] at h1
  subst h1
  refine ⟨by simpa using h2, fun i hi => ⟨?_, ?_⟩⟩
  · have := h4 i hi (by rw [← h2]; exact hi)
    simpa using this
  · simpa using h3 i hi

theorem count_repeated (p : ℕ → Prop) [DecidablePred p] (k n : ℕ) (h : ∀ j < n, p (k + j)) (hl : ¬ p (k + n)) :
    countSolves p k (n + 1) = n := by
  induction n generalizing k with
  | zero =>
    rw [countSolves_cons, if_neg (by simpa using hl)]
    simp [countSolves]
  | succ n ih =>
    rw [countSolves_cons, if_pos (by simpa using h 0 (by omega)), ih (k + 1)]
    · omega
    · intro j hj
      rw [show k + 1 + j = k + (j + 1) by omega]
      exact h _ (by omega)
    · rwa [show k + 1 + n = k + (n + 1) by omega]

/-- **C116 (additional solves)** In every stage of a successful step the number of contact
violations is the number of additional solves. -/
theorem step_report_additional (env : Env X V) (par : Params) (ω : ℕ → Outcome V)
    (jacOk : ℕ → Bool) (s : Sim X V) (rs : List StageResult)
    (hw : ∀ j, WellFormed env.numVertices s.fcs (ω j).cached)
    (h : (step env par ω jacOk s).result = some rs) :
    ∀ st ∈ rs, st.results.length = st.contactViolations + 1 := by
  intro st hst
  obtain ⟨i, hi, rfl⟩ := List.mem_iff_getElem.1 hst
  obtain ⟨-, t⟩ := (step_report_partial env par ω jacOk s rs hw h).2 i hi
  obtain ⟨n, hn⟩ : ∃ n, rs[i].results.length = n + 1 := ⟨_, (Nat.succ_pred t.some_solve.ne').symm⟩
  rw [hn, t.contact, hn]
  congr 1
  symm
  refine @count_repeated _ (_) _ _ ?_ ?_
  · intro j hj
    exact t.repeated j (by omega)
  · rintro ⟨hp, hb⟩
    refine t.resolved (by omega) ?_
    rwa [hn]

/-- **C116 (first result)** `first_solve_result` never panics on the report of a step. It is the
status of the first solve, unless contact iterations are switched off. -/
theorem step_report_first (env : Env X V) (par : Params) (ω : ℕ → Outcome V)
    (jacOk : ℕ → Bool) (s : Sim X V) (rs : List StageResult)
    (hw : ∀ j, WellFormed env.numVertices s.fcs (ω j).cached)
    (h : (step env par ω jacOk s).result = some rs) :
    firstSolveResult rs = some (if 0 < par.contactIterations then (ω 0).status
      else .maximumContactIterationsExceeded) := by
  obtain ⟨hl, ht⟩ := step_report_partial env par ω jacOk s rs hw h
  have h0 : 0 < rs.length := by
    rw [hl]
    cases par.integrator <;> simp [TimeIntegration.numStages]
  obtain ⟨-, t⟩ := ht 0 h0
  have hs := t.status 0 t.some_solve
  simp only [solvesBefore, List.take_zero, List.map_nil, List.sum_nil, add_zero] at hs
  unfold firstSolveResult
  rw [List.getElem?_eq_getElem h0]
  simp only
  rw [List.getElem?_eq_getElem t.some_solve, hs]

/-- **C116 (accepted solves)** A stage whose last result is that of the solver committed a
solution without penetration. -/
theorem step_report_resolved (env : Env X V) (par : Params) (ω : ℕ → Outcome V)
    (jacOk : ℕ → Bool) (s : Sim X V) (rs : List StageResult)
    (hw : ∀ j, WellFormed env.numVertices s.fcs (ω j).cached)
    (h : (step env par ω jacOk s).result = some rs) (i : ℕ) (hi : i < rs.length)
    (hlast : rs[i].results.getLast? ≠ some .maximumContactIterationsExceeded) :
    ¬ Penetrates (ω (solvesBefore rs (i + 1) - 1)) := by
  obtain ⟨-, t⟩ := (step_report_partial env par ω jacOk s rs hw h).2 i hi
  have hs : solvesBefore rs (i + 1) = solvesBefore rs i + rs[i].results.length := by
    unfold solvesBefore
    rw [List.take_succ_eq_append_getElem hi]
    simp only [List.map_append, List.map_cons, List.map_nil, List.sum_append, List.sum_cons,
      List.sum_nil, add_zero]
  rw [hs]
  apply t.resolved
  by_contra hb
  apply hlast
  rw [List.getLast?_eq_getElem?, List.getElem?_eq_getElem (by have := t.some_solve; omega),
    t.status, if_neg (by have := t.some_solve; omega)]

/-! ### What the report does not say -/

/-- A scene without contacts whose solves all succeed. -/
def quiet : ℕ → Outcome ℝ := fun _ => ⟨.success, 0, [], false⟩

/-- **C116 (violated)** In a scene without any contact and with one contact iteration, a step of
two stages reports that it ran out of contact iterations: the budget is one for the step, and
each stage takes from it. -/
theorem report_exhausted_violated :
    (step (X := ℝ) ⟨1, fun _ dt x v => x + dt * v, id⟩ ⟨1, .SDIRK2, 10⟩ quiet (fun _ => true)
      ⟨0, 0, 1, .BE, [], [], 0⟩).result =
    some [⟨.BE, [.success], 0, 0⟩, ⟨.SDIRK2, [.maximumContactIterationsExceeded], 0, 0⟩] := by
  have c : contactViolation 1 [] [] = ⟨0, 0, 0, 0⟩ := by
    simp [contactViolation, contactConstraint, minBy]
  have hr : List.range 2 = [0, 1] := rfl
  unfold step
  simp only [TimeIntegration.numStages, hr, stages, if_true, TimeIntegration.stepIntegrator]
  rw [contactLoop]
  norm_num [quiet, c, record, relax, commit]
  rw [contactLoop]
  norm_num [quiet, c, record, relax, commit]

/-- One vertex inside the collider after every solve. -/
def stuck : ℕ → Outcome ℝ := fun _ => ⟨.maximumIterationsExceeded, 0, [[-1]], true⟩

/-- **C116 (violated)** A step that commits a penetrating solution, of a solve that did not
converge, in a step too large for the neighborhoods, reports no contact violation, no violation
of the maximum step and not that it did not converge. To the plugin it is a success. -/
theorem report_silent_violated :
    let o := step (X := ℝ) ⟨1, fun _ dt x v => x + dt * v, id⟩ ⟨0, .BE, 10⟩ stuck (fun _ => true)
      ⟨0, 0, 1, .BE, [⟨1, [0], 1⟩], [1], 0⟩
    o.result = some [⟨.BE, [.maximumContactIterationsExceeded], 0, 0⟩] ∧
    Penetrates (stuck 0) ∧ (stuck 0).maxStep = true ∧
    (stuck 0).status = .maximumIterationsExceeded ∧
    SimResult.ofStep o.result =
      .success [⟨.BE, [.maximumContactIterationsExceeded], 0, 0⟩] := by
  have hr : List.range 1 = [0] := rfl
  have key : (step (X := ℝ) ⟨1, fun _ dt x v => x + dt * v, id⟩ ⟨0, .BE, 10⟩ stuck
      (fun _ => true) ⟨0, 0, 1, .BE, [⟨1, [0], 1⟩], [1], 0⟩).result =
      some [⟨.BE, [.maximumContactIterationsExceeded], 0, 0⟩] := by
    unfold step
    simp only [TimeIntegration.numStages, hr, stages, if_true, TimeIntegration.stepIntegrator]
    rw [contactLoop]
    norm_num [stuck]
  refine ⟨key, ⟨[-1], by simp [stuck], -1, by simp, by norm_num⟩, rfl, rfl, ?_⟩
  rw [key]
  rfl

/-! ### Contacts -/

/-- **C116 (contacts)** With positive stiffness and tolerance, the reported number of contacts
is the number of constrained points closer than the tolerance, and at most the reported number
of points in proximity. -/
theorem report_contacts (cs : List Contact) (h : ∀ c ∈ cs, 0 < c.stiffness ∧ 0 < c.tolerance) :
    numContacts cs =
      (cs.map fun c => c.dist.countP fun d => decide (d < c.tolerance)).sum ∧
    numContacts cs ≤ numInProximity cs := by
  have h1 : numContacts cs =
      (cs.map fun c => c.dist.countP fun d => decide (d < c.tolerance)).sum := by
    unfold numContacts
    congr 1
    apply List.map_congr_left
    intro c hc
    obtain ⟨hk, hd⟩ := h c hc
    unfold ContactPenalty.multipliers
    rw [List.countP_map]
    congr 1
    funext d
    simp only [Function.comp, gt_iff_lt, decide_eq_decide]
    unfold ContactPenalty.db
    simp only
    split_ifs with hpos
    · constructor
      · intro _
        linarith
      · intro hlt
        have hp : 0 < c.tolerance - d := by linarith
        have : 0 < c.stiffness * (3 * ((c.tolerance - d) * (c.tolerance - d)) / c.tolerance) := by
          positivity
        calc (0 : ℝ) < _ := this
          _ = _ := by ring
    · constructor
      · intro h0
        simp at h0
      · intro hlt
        exact absurd (sub_pos.2 hlt) hpos
  refine ⟨h1, ?_⟩
  rw [h1]
  unfold numInProximity
  apply List.sum_le_sum
  intro c _
  exact List.countP_le_length

/-! ### The log -/

/-- What the plugin's log should contain after a history of calls that starts with `n` calls
done: the reports of the calls that succeeded, each with the number of its call. -/
def expectedLog : ℕ → List SimResult → List Entry
  | _, [] => []
  | n, .success r :: rest => (n + 1, r) :: expectedLog (n + 1) rest
  | n, _ :: rest => expectedLog (n + 1) rest

theorem step_iterationCount (env : Env X V) (par : Params) (ω : ℕ → Outcome V)
    (jacOk : ℕ → Bool) (s : Sim X V) :
    (step env par ω jacOk s).sim.iterationCount = s.iterationCount + 1 := by
  unfold step
  have := stages_rel env par ω jacOk s.timeStep (fun a b => b.iterationCount = a.iterationCount)
    (fun _ => rfl) (fun _ _ _ h1 h2 => h2.trans h1) (fun _ _ _ => rfl)
    (fun k ci s st => (loop_commits env par ω k ci s st).2.2.1)
  simpa using this (List.range par.integrator.numStages) 0 par.contactIterations
    { s with iterationCount := s.iterationCount + 1 } []

/-- **C116 (log)** If the log file exists, then after any history of calls it has its old
content followed by the report of every call that succeeded, in order, under the number of the
call; every call returns what its step reports. -/
theorem log_complete (env : Env X V) (par : Params) (os : List ((ℕ → Outcome V) × (ℕ → Bool)))
    (s : Sim X V) (old : List Entry) :
    let r := pluginRun env par os s ⟨true, some old⟩
    r.2.1.content = some (old ++ expectedLog s.iterationCount r.2.2) ∧
    r.2.2.length = os.length ∧ r.1 = run env par os s := by
  induction os generalizing s old with
  | nil => exact ⟨by simp [pluginRun, expectedLog], rfl, rfl⟩
  | cons o os ih =>
    have hc := step_iterationCount env par o.1 o.2 s
    simp only [pluginRun, pluginSolve, run]
    cases hr : (step env par o.1 o.2 s).result with
    | some r =>
      simp only [logResult, if_true, hc]
      obtain ⟨h1, h2, h3⟩ := ih (step env par o.1 o.2 s).sim (old ++ [(s.iterationCount + 1, r)])
      refine ⟨?_, by simp [h2], h3⟩
      rw [h1, hc]
      simp [SimResult.ofStep, expectedLog]
    | none =>
      obtain ⟨h1, h2, h3⟩ := ih (step env par o.1 o.2 s).sim old
      refine ⟨?_, by simp [h2], h3⟩
      simp only
      rw [h1, hc]
      simp [SimResult.ofStep, expectedLog]

/-- **C116 (log)** Logging succeeds exactly if nothing is to be logged, which leaves the file as it is, or
the report is added at the end of the file under its number. -/
theorem log_result (log : Log) (frame : ℕ) (r : List StageResult) :
    (logResult log frame r).2 = true ↔ (log.enabled = false ∧ (logResult log frame r).1 = log) ∨
      ∃ c, log.enabled = true ∧ log.content = some c ∧
        (logResult log frame r).1.content = some (c ++ [(frame, r)]) := by
  obtain ⟨e, c⟩ := log
  cases e <;> cases c <;> simp [logResult]

/-- **C116 (violated)** If the log file does not exist, nothing is ever logged, whatever the
history, and the calls return the same as otherwise. -/
theorem log_missing_violated (env : Env X V) (par : Params)
    (os : List ((ℕ → Outcome V) × (ℕ → Bool))) (s : Sim X V) (old : List Entry) :
    (pluginRun env par os s ⟨true, none⟩).2.1.content = none ∧
    (pluginRun env par os s ⟨true, none⟩).2.2 = (pluginRun env par os s ⟨true, some old⟩).2.2 := by
  induction os generalizing s old with
  | nil => exact ⟨rfl, rfl⟩
  | cons o os ih =>
    simp only [pluginRun, pluginSolve]
    cases hr : (step env par o.1 o.2 s).result with
    | some r =>
      simp only [logResult, if_true]
      obtain ⟨h1, h2⟩ := ih (step env par o.1 o.2 s).sim
        (old ++ [((step env par o.1 o.2 s).sim.iterationCount, r)])
      exact ⟨h1, by rw [h2]⟩
    | none =>
      obtain ⟨h1, h2⟩ := ih (step env par o.1 o.2 s).sim old
      exact ⟨h1, by rw [h2]⟩

/-! ### Examples -/

/-- The step of `example_step` meets the hypotheses: two solves, one contact violation. -/
example : ∃ (env : Env ℝ ℝ) (par : Params) (s : Sim ℝ ℝ),
    (step env par exampleSolves (fun _ => true) s).result =
      some [⟨.BE, [.success, .success], 1, 0⟩] ∧
    (∀ j, WellFormed env.numVertices s.fcs (exampleSolves j).cached) ∧
    Penetrates (exampleSolves 0) ∧ ¬ Penetrates (exampleSolves 1) := by
  refine ⟨⟨1, fun _ dt x v => x + dt * v, id⟩, ⟨5, .BE, 10⟩,
    ⟨0, 0, 1, .BE, [⟨1, [0], 1⟩], [1], 0⟩, by rw [example_step], ?_, ?_, ?_⟩
  · intro j
    exact .cons ⟨by simp, by simp, by simp⟩ .nil
  · exact ⟨[-1], by simp [exampleSolves], -1, by simp, by norm_num⟩
  · rintro ⟨c, hc, d, hd, hlt⟩
    simp only [exampleSolves, one_ne_zero, if_false, List.mem_singleton] at hc
    subst hc
    simp only [List.mem_singleton] at hd
    subst hd
    norm_num at hlt

/-- A failed call between two successful ones leaves a gap in the numbers of the log. -/
example (r : List StageResult) :
    expectedLog 0 [.success r, .error, .success r] = [(1, r), (3, r)] := rfl

/-- Three constrained points in two constraints, two of them closer than the tolerance. -/
example : numContacts [⟨10, 1, [0.5, 2]⟩, ⟨5, 0.1, [-1]⟩] = 2 ∧
    numInProximity [⟨10, 1, [0.5, 2]⟩, ⟨5, 0.1, [-1]⟩] = 3 := by
  constructor
  · rw [(report_contacts _ (by simp; norm_num)).1]
    norm_num [List.countP_cons]
  · simp [numInProximity]

end Softy.StepReport
