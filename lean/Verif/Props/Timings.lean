import Verif.Model.Timings
import Mathlib.Tactic.Ring
import Mathlib.Tactic.Linarith
import Mathlib.Algebra.Order.BigOperators.Group.List
import Mathlib.Algebra.Order.Archimedean.Basic

/-!
# C125: the times reported for a solve are those of this solve
-/

namespace Softy.Timing

/-! ## Specification: what a call spends on what -/

/-- The time spent on elastic forces and gravity. -/
def energyOf : Call → ℕ
  | .residual e _ _ => e
  | _ => 0

/-- The forces of zones, contacts and friction that a call computes. -/
def forcesOf : Call → List Forces
  | .residual _ f _ => [f]
  | .product _ _ _ f _ _ _ _ => [f]
  | _ => []

/-- The contacts that a call updates. -/
def updatesOf : Call → List Update
  | .update us _ => us
  | .product _ us _ _ _ _ _ _ => us
  | _ => []

/-- The values of the Jacobian that a call computes. -/
def valuesOf : Call → List Values
  | .values v => [v]
  | .product (some p) _ _ _ _ _ _ _ => [p.1]
  | _ => []

/-- The time spent on preconditioners. -/
def preconditionerOf : Call → ℕ
  | .preconditioner t => t
  | _ => 0

/-- The call is a product with the Jacobian. -/
def IsProduct : Call → Prop
  | .product _ _ _ _ _ _ _ _ => True
  | _ => False

/-- The time that a solve spends on values of the Jacobian. -/
def jacobianTime (s : Solve) : ℕ := ((s.calls.flatMap valuesOf).map Values.time).sum

/-! ## Sums -/

theorem foldUpdate (us : List Update) (r : Residual) : us.foldl Residual.addUpdate r =
    { r with
      updateState := r.updateState + (us.map Update.state).sum
      updateDistance := r.updateDistance + (us.map Update.distance).sum
      updateGradient := r.updateGradient + (us.map Update.gradient).sum
      updateMultipliers := r.updateMultipliers + (us.map Update.multipliers).sum
      updateBasis := r.updateBasis + (us.map Update.basis).sum
      details := r.details + (us.map Update.details).sum } := by
  induction us generalizing r with
  | nil => simp
  | cons u us ih =>
    rw [List.foldl_cons, ih]
    simp [Residual.addUpdate, add_assoc]

theorem foldCalls {M : Type} [AddMonoid M] (φ : Clocks → M) (g : Call → M)
    (h : ∀ c k, φ (c.run k) = φ c + g k) (l : List Call) (c : Clocks) :
    φ (l.foldl Clocks.run c) = φ c + (l.map g).sum := by
  induction l generalizing c with
  | nil => simp
  | cons k l ih => rw [List.foldl_cons, ih, h, List.map_cons, List.sum_cons, add_assoc]

theorem sum_flatMap {α β M : Type} [AddMonoid M] (l : List α) (f : α → List β) (g : β → M) :
    ((l.flatMap f).map g).sum = (l.map fun a => ((f a).map g).sum).sum := by
  induction l with
  | nil => rfl
  | cons a l ih => simp [ih]

/-- C125. The times for elastic forces, for updates of contacts, for forces of zones, contacts and friction,
and for preconditioners are those of the calls of the solve, whatever was done before. -/
theorem residual_times_partial (s : Solve) (c : Clocks) (h : s.returned = false) :
    let r := (s.run c).1.residual
    r.energyGradient = (s.calls.map energyOf).sum ∧
    r.updateState = ((s.calls.flatMap updatesOf).map Update.state).sum ∧
    r.updateDistance = ((s.calls.flatMap updatesOf).map Update.distance).sum ∧
    r.updateGradient = ((s.calls.flatMap updatesOf).map Update.gradient).sum ∧
    r.updateMultipliers = ((s.calls.flatMap updatesOf).map Update.multipliers).sum ∧
    r.updateBasis = ((s.calls.flatMap updatesOf).map Update.basis).sum ∧
    r.details = ((s.calls.flatMap updatesOf).map Update.details).sum ∧
    r.volumeForce = ((s.calls.flatMap forcesOf).map fun f => f.volumes.sum).sum ∧
    r.contactForce = ((s.calls.flatMap forcesOf).map fun f => f.contacts.sum).sum ∧
    r.frictionForce = ((s.calls.flatMap forcesOf).map fun f => f.frictions.sum).sum ∧
    r.preconditioner = (s.calls.map preconditionerOf).sum := by
  simp only [Solve.run, h, Bool.false_eq_true, if_false, sum_flatMap]
  refine ⟨?_, ?_, ?_, ?_, ?_, ?_, ?_, ?_, ?_, ?_, ?_⟩
  · rw [foldCalls (fun c => c.residual.energyGradient) energyOf]
    · exact Nat.zero_add _
    · rintro c (_ | _ | _ | ⟨_ | _, _, _, _, _, _, _, _⟩ | _) <;>
        simp [Clocks.run, energyOf, foldUpdate, Residual.addForces, Clocks.addValues]
  · rw [foldCalls (fun c => c.residual.updateState) fun k => ((updatesOf k).map Update.state).sum]
    · exact Nat.zero_add _
    · rintro c (_ | _ | _ | ⟨_ | _, _, _, _, _, _, _, _⟩ | _) <;>
        simp [Clocks.run, updatesOf, foldUpdate, Residual.addForces, Clocks.addValues]
  · rw [foldCalls (fun c => c.residual.updateDistance) fun k => ((updatesOf k).map Update.distance).sum]
    · exact Nat.zero_add _
    · rintro c (_ | _ | _ | ⟨_ | _, _, _, _, _, _, _, _⟩ | _) <;>
        simp [Clocks.run, updatesOf, foldUpdate, Residual.addForces, Clocks.addValues]
  · rw [foldCalls (fun c => c.residual.updateGradient) fun k => ((updatesOf k).map Update.gradient).sum]
    · exact Nat.zero_add _
    · rintro c (_ | _ | _ | ⟨_ | _, _, _, _, _, _, _, _⟩ | _) <;>
        simp [Clocks.run, updatesOf, foldUpdate, Residual.addForces, Clocks.addValues]
  · rw [foldCalls (fun c => c.residual.updateMultipliers)
      fun k => ((updatesOf k).map Update.multipliers).sum]
    · exact Nat.zero_add _
    · rintro c (_ | _ | _ | ⟨_ | _, _, _, _, _, _, _, _⟩ | _) <;>
        simp [Clocks.run, updatesOf, foldUpdate, Residual.addForces, Clocks.addValues]
  · rw [foldCalls (fun c => c.residual.updateBasis) fun k => ((updatesOf k).map Update.basis).sum]
    · exact Nat.zero_add _
    · rintro c (_ | _ | _ | ⟨_ | _, _, _, _, _, _, _, _⟩ | _) <;>
        simp [Clocks.run, updatesOf, foldUpdate, Residual.addForces, Clocks.addValues]
  · rw [foldCalls (fun c => c.residual.details) fun k => ((updatesOf k).map Update.details).sum]
    · exact zero_add _
    · rintro c (_ | _ | _ | ⟨_ | _, _, _, _, _, _, _, _⟩ | _) <;>
        simp [Clocks.run, updatesOf, foldUpdate, Residual.addForces, Clocks.addValues]
  · rw [foldCalls (fun c => c.residual.volumeForce)
      fun k => ((forcesOf k).map fun f => f.volumes.sum).sum]
    · exact Nat.zero_add _
    · rintro c (_ | _ | _ | ⟨_ | _, _, _, _, _, _, _, _⟩ | _) <;>
        simp [Clocks.run, forcesOf, foldUpdate, Residual.addForces, Clocks.addValues]
  · rw [foldCalls (fun c => c.residual.contactForce)
      fun k => ((forcesOf k).map fun f => f.contacts.sum).sum]
    · exact Nat.zero_add _
    · rintro c (_ | _ | _ | ⟨_ | _, _, _, _, _, _, _, _⟩ | _) <;>
        simp [Clocks.run, forcesOf, foldUpdate, Residual.addForces, Clocks.addValues]
  · rw [foldCalls (fun c => c.residual.frictionForce)
      fun k => ((forcesOf k).map fun f => f.frictions.sum).sum]
    · exact zero_add _
    · rintro c (_ | _ | _ | ⟨_ | _, _, _, _, _, _, _, _⟩ | _) <;>
        simp [Clocks.run, forcesOf, foldUpdate, Residual.addForces, Clocks.addValues]
  · rw [foldCalls (fun c => c.residual.preconditioner) preconditionerOf]
    · exact Nat.zero_add _
    · rintro c (_ | _ | _ | ⟨_ | _, _, _, _, _, _, _, _⟩ | _) <;>
        simp [Clocks.run, preconditionerOf, foldUpdate, Residual.addForces, Clocks.addValues]

/-! ## The Jacobian -/

theorem jacobian_fold (l : List Call) (c : Clocks) :
    (l.foldl Clocks.run c).residual.jacobian.total =
      c.residual.jacobian.total + ((l.flatMap valuesOf).map Values.time).sum := by
  rw [sum_flatMap, foldCalls (fun c => c.residual.jacobian.total)
    fun k => ((valuesOf k).map Values.time).sum]
  rintro c (_ | _ | _ | ⟨_ | _, _, _, _, _, _, _, _⟩ | _) <;>
    simp [Clocks.run, valuesOf, foldUpdate, Residual.addForces, Clocks.addValues]

theorem friction_fold (l : List Call) (c : Clocks) :
    (l.foldl Clocks.run c).friction =
      c.friction + ((l.flatMap valuesOf).map fun v => v.frictions.sum).sum := by
  rw [sum_flatMap, foldCalls (fun c => c.friction) fun k => ((valuesOf k).map fun v => v.frictions.sum).sum]
  rintro c (_ | _ | _ | ⟨_ | _, _, _, _, _, _, _, _⟩ | _) <;>
    simp [Clocks.run, valuesOf, Clocks.addValues]

theorem run_clocks (s : Solve) (c : Clocks) :
    (s.run c).2 = s.calls.foldl Clocks.run ⟨c.residual.clear, c.friction⟩ := by
  unfold Solve.run
  simp only
  split_ifs <;> rfl

theorem history_times (l : List Solve) (c : Clocks) :
    (l.foldl (fun c s => (s.run c).2) c).residual.jacobian.total =
        c.residual.jacobian.total + (l.map jacobianTime).sum ∧
      (l.foldl (fun c s => (s.run c).2) c).friction = c.friction +
        (l.map fun s => ((s.calls.flatMap valuesOf).map fun v => v.frictions.sum).sum).sum := by
  induction l generalizing c with
  | nil => simp
  | cons s l ih =>
    simp only [List.foldl_cons, List.map_cons, List.sum_cons]
    rw [(ih _).1, (ih _).2, run_clocks, jacobian_fold, friction_fold, ← add_assoc, ← add_assoc]
    exact ⟨rfl, rfl⟩

/-- C125 is false: the times for the values of the Jacobian, and for its parts that friction needs, are
those of all solves since the simulation was built. -/
theorem jacobian_times_violated (l : List Solve) (s : Solve) (h : s.returned = false) :
    (s.run (history l)).1.residual.jacobian.total = (l.map jacobianTime).sum + jacobianTime s ∧
      (s.run (history l)).1.frictionJacobian =
        (l.map fun s => ((s.calls.flatMap valuesOf).map fun v => v.frictions.sum).sum).sum +
          ((s.calls.flatMap valuesOf).map fun v => v.frictions.sum).sum := by
  obtain ⟨h1, h2⟩ := history_times l Clocks.new
  simp only [Solve.run, h, Bool.false_eq_true, if_false]
  rw [jacobian_fold, friction_fold]
  unfold history
  refine ⟨?_, ?_⟩
  · show (l.foldl (fun c s => (s.run c).2) Clocks.new).residual.jacobian.total + _ = _
    rw [h1]
    exact congrArg (· + jacobianTime s) (Nat.zero_add _)
  · show (l.foldl (fun c s => (s.run c).2) Clocks.new).friction + _ = _
    rw [h2]
    exact congrArg (· + _) (zero_add _)

/-- C125 is false: a solve that computes the values of a Jacobian, if it is repeated often enough, reports
more time for this than for all of the solve. -/
theorem jacobian_exceeds_violated (s : Solve) (h : s.returned = false) (hj : 0 < jacobianTime s) :
    ∃ n, ∀ m ≥ n, let t := (s.run (history (List.replicate m s))).1
      t.total < t.residual.jacobian.total := by
  refine ⟨s.time, fun m hm => ?_⟩
  simp only
  rw [(jacobian_times_violated _ s h).1]
  have ht : (s.run (history (List.replicate m s))).1.total = s.time := by
    simp only [Solve.run, h, Bool.false_eq_true, if_false]
  rw [ht, List.map_replicate, List.sum_replicate, nsmul_eq_mul, Nat.cast_id]
  nlinarith

/-! ## The balance equation -/

/-- The part of a call that counts toward the time for the balance equation. -/
def balanceOf : Call → ℕ
  | .residual e f rest => (Call.residual e f rest).time
  | .values v => v.time
  | .product stale us rest f scale dof read mul =>
    (Call.product stale us rest f scale dof read mul).time + stale.elim 0 fun p => p.1.time
  | _ => 0

theorem balance_fold (s : Solve) (c : Clocks) (h : s.returned = false) :
    (s.run c).1.residual.total = (s.calls.map balanceOf).sum := by
  simp only [Solve.run, h, Bool.false_eq_true, if_false]
  rw [foldCalls (fun c => c.residual.total) balanceOf]
  · exact Nat.zero_add _
  · rintro c (_ | _ | _ | ⟨_ | _, _, _, _, _, _, _, _⟩ | _) <;>
      simp [Clocks.run, balanceOf, foldUpdate, Residual.addForces, Clocks.addValues, Call.time]
    omega

theorem calls_le (l : List Call) (h : ∀ k ∈ l, ¬IsProduct k) :
    (l.map balanceOf).sum ≤ (l.map Call.time).sum := by
  refine List.sum_le_sum fun k hk => ?_
  have := h k hk
  cases k <;> simp_all [balanceOf, Call.time, IsProduct]

theorem linear_le (L : Linear) : (L.calls.map Call.time).sum ≤ L.time := by
  cases L with
  | iterative ps other =>
    simp only [Linear.calls, Linear.time, List.map_map]
    refine (List.sum_le_sum (g := fun p => p.1.time + p.2) fun p _ => ?_).trans (Nat.le_add_right _ _)
    exact Nat.le_add_right _ _
  | direct v a k b d o =>
    simp only [Linear.calls, Linear.time, List.map_cons, List.sum_cons, Call.time]
    omega
  | failed v a k b d =>
    simp only [Linear.calls, Linear.time, List.map_cons, List.sum_cons, Call.time]
    omega

theorem iteration_le (it : Iteration) : (it.calls.map Call.time).sum ≤ it.time := by
  have := linear_le it.linear
  unfold Iteration.calls Iteration.time Iteration.searchTime
  rw [List.map_append, List.sum_append]
  split_ifs
  · simpa using this
  · simp only [List.map_append, List.sum_append]
    omega

theorem solve_le (s : Solve) : (s.calls.map Call.time).sum ≤ s.time := by
  unfold Solve.calls Solve.time
  rw [List.map_append, List.sum_append, sum_flatMap]
  have : (s.iterations.map fun it => (it.calls.map Call.time).sum).sum ≤
      (s.iterations.map Iteration.time).sum := List.sum_le_sum fun it _ => iteration_le it
  omega

/-- C125. With a direct solver, and without the check of derivatives, the time for the balance equation is at most that for the solve. -/
theorem balance_direct_partial (s : Solve) (c : Clocks) (h : s.returned = false)
    (hd : ∀ k ∈ s.calls, ¬IsProduct k) : (s.run c).1.residual.total ≤ (s.run c).1.total := by
  rw [balance_fold s c h]
  refine (calls_le _ hd).trans ((solve_le s).trans (le_of_eq ?_))
  simp only [Solve.run, h, Bool.false_eq_true, if_false]

/-- A solve with one iteration of an iterative solver, which computes new values once. -/
def exIterative : Solve where
  indices := 1
  start := [.residual 2 ⟨[], [1], [fun _ => 1]⟩ 0]
  iterations := [⟨.iterative [(.product (some (⟨40, 1, 0, 5, 4, [fun _ => 1]⟩, 1)) [] 0 ⟨[], [1], [fun _ => 1]⟩ 0
    1 1 1, 0)] 2, [.residual 2 ⟨[], [1], [fun _ => 1]⟩ 0], [], 1, 0, [], 0⟩]
  rest := 1
  returned := false

/-- C125 is false: a product with the Jacobian counts the time for its new values twice, so that with an
iterative solver the balance equation can take longer than the solve of which it is a part, in a simulation
that has just been built. -/
theorem balance_twice_violated :
    (exIterative.run Clocks.new).1.total < (exIterative.run Clocks.new).1.residual.total := by
  rw [balance_fold _ _ rfl]
  decide

/-! ## Newton's method -/

theorem report_fold (l : List Iteration) (t : Report) :
    let t' := l.foldl Report.add t
    t'.linearSolve + t'.lineSearch ≤ t.linearSolve + t.lineSearch + (l.map Iteration.time).sum ∧
      t'.directSolve + t'.jacobianValues + t'.debugInfo + t'.jacobianProduct + t.linearSolve ≤
        t.directSolve + t.jacobianValues + t.debugInfo + t.jacobianProduct + t'.linearSolve := by
  induction l generalizing t with
  | nil => simp
  | cons it l ih =>
    simp only [List.foldl_cons, List.map_cons, List.sum_cons] at ih ⊢
    obtain ⟨h1, h2⟩ := ih (t.add it)
    have : (t.add it).linearSolve + (t.add it).lineSearch ≤ t.linearSolve + t.lineSearch + it.time ∧
        (t.add it).directSolve + (t.add it).jacobianValues + (t.add it).debugInfo +
            (t.add it).jacobianProduct + t.linearSolve ≤
          t.directSolve + t.jacobianValues + t.debugInfo + t.jacobianProduct + (t.add it).linearSolve := by
      obtain ⟨L, full, search, sr, assist, after, rest⟩ := it
      cases L <;> simp only [Report.add, Iteration.time, Linear.isFailed, Linear.time, if_true,
        Bool.false_eq_true, if_false] <;> constructor <;> omega
    exact ⟨by omega, by omega⟩

/-- C125. The times for the structure of the Jacobian, for linear solves and for the line search add up to
no more than that of the solve; those for the parts of linear solves add up to no more than these. -/
theorem newton_times_partial (s : Solve) (c : Clocks) (h : s.returned = false) :
    let t := (s.run c).1
    t.jacobianIndices + t.linearSolve + t.lineSearch ≤ t.total ∧
      t.directSolve + t.jacobianValues + t.debugInfo + t.jacobianProduct ≤ t.linearSolve := by
  obtain ⟨h1, h2⟩ := report_fold s.iterations Report.new
  simp only [Solve.run, h, Bool.false_eq_true, if_false, Solve.time]
  simp only [Report.new] at h1 h2 ⊢
  exact ⟨by omega, by omega⟩

/-- C125 is false: a linear solve that fails is not counted. The solve below reports no time for linear
solves, although it spends time on nothing else. -/
theorem failed_linear_violated (v : Values) (scale debug solve : ℕ) (c : Clocks) :
    let s : Solve := ⟨0, [], [⟨.failed v scale [] debug solve, [], [], 0, 0, [], 0⟩], 0, false⟩
    let t := (s.run c).1
    t.total = v.time + scale + debug + solve ∧ t.linearSolve = 0 ∧ t.jacobianValues = 0 ∧
      t.directSolve = 0 := by
  refine ⟨?_, rfl, rfl, rfl⟩
  simp [Solve.run, Solve.time, Iteration.time, Linear.time, Linear.isFailed]

/-- C125 is false: solves that end with a status for an empty Jacobian or for a failed check of derivatives
report no time at all, nor any for residuals. -/
theorem returned_violated (s : Solve) (c : Clocks) (h : s.returned = true) :
    (s.run c).1.total = 0 ∧ (s.run c).1.residual.total = 0 ∧ (s.run c).1.jacobianIndices = 0 := by
  have key : ∀ (l : List Iteration) (t : Report), (l.foldl Report.add t).total = t.total ∧
      (l.foldl Report.add t).residual = t.residual ∧
      (l.foldl Report.add t).jacobianIndices = t.jacobianIndices := by
    intro l
    induction l with
    | nil => intro t; exact ⟨rfl, rfl, rfl⟩
    | cons it l ih =>
      intro t
      have h3 : (t.add it).total = t.total ∧ (t.add it).residual = t.residual ∧
          (t.add it).jacobianIndices = t.jacobianIndices := by
        unfold Report.add
        split <;> exact ⟨rfl, rfl, rfl⟩
      rw [List.foldl_cons, (ih _).1, (ih _).2.1, (ih _).2.2]
      exact h3
  obtain ⟨h1, h2, h3⟩ := key s.iterations Report.new
  simp only [Solve.run, h, if_true]
  rw [h1, h2, h3]
  exact ⟨rfl, rfl, rfl⟩

/-! ## The hypotheses are met -/

/-- A solve with two iterations of a direct solver. -/
def exDirect : Solve where
  indices := 3
  start := [.update [⟨5, 1, 1, 1, 1, fun _ => 0⟩] 1, .preconditioner 1, .residual 2 ⟨[1], [1], [fun _ => 1]⟩ 1]
  iterations :=
    [⟨.direct ⟨4, 1, 1, 5, 4, [fun _ => 1]⟩ 1 [] 0 7 1, [.residual 2 ⟨[1], [1], [fun _ => 1]⟩ 1],
        [.update [] 0, .residual 2 ⟨[1], [1], [fun _ => 1]⟩ 1], 1, 0, [], 1⟩,
      ⟨.direct ⟨4, 1, 1, 5, 4, [fun _ => 1]⟩ 1 [] 0 7 1, [.residual 2 ⟨[1], [1], [fun _ => 1]⟩ 1], [], 1, 0, [], 1⟩]
  rest := 2
  returned := false

example : exDirect.returned = false ∧ 0 < jacobianTime exDirect ∧ ∀ k ∈ exDirect.calls, ¬IsProduct k := by
  refine ⟨rfl, by decide, ?_⟩
  intro k hk
  simp only [exDirect, Solve.calls, Iteration.calls, Linear.calls, Linear.isFailed, List.flatMap_cons,
    List.flatMap_nil, List.mem_append, List.mem_cons, List.not_mem_nil, or_false, Bool.false_eq_true,
    if_false] at hk
  rcases hk with (rfl | rfl | rfl) | (rfl | (rfl | (rfl | rfl))) | rfl | rfl <;> exact not_false

end Softy.Timing
