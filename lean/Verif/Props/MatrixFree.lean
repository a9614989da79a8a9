import Verif.Lemmas.MatrixFree

/-!
# C93: products with the Jacobian that are computed without assembling it

An iterative linear solver is given a function that multiplies a vector by the Jacobian. The values for the
elements are cached from one product to the next; the forces of the constraints are differentiated along the
vector by automatic differentiation of a second copy of them, the twin.

Theorems are about all products of a simulation: any number of steps, stages, solves, iterations, line searches and
products, in any state at the start.
-/

noncomputable section

namespace Softy.Contact

open Softy Assembly Fem Softy.Field Filter

/-! ## Specification -/

/-- The last iteration of a solve does not write debug data. -/
def Solve.Clean (s : Solve) : Prop :=
  ∀ t, s.iterations.getLast? = some t → ∀ q, t.search = some q → q.dump = none

/-- The friction epsilons do not change during a solve: `adaptive_epsilon` is not used. -/
def Solve.FixedEpsilon (s : Solve) : Prop :=
  s.start = none ∧ ∀ t ∈ s.iterations, t.reduce = none

/-- No solve that is repeated, with the same neighbors, ends with debug data. -/
def Stage.Clean (g : Stage) : Prop :=
  ∀ a ∈ g.solves, a.2.refresh = none → a.1.Clean

/-- `adaptive_epsilon` is not used. -/
def Stage.FixedEpsilon (g : Stage) : Prop :=
  (∀ a ∈ g.solves, a.1.FixedEpsilon) ∧ g.lastSolve.FixedEpsilon

/-- The largest step is not exceeded: no search for neighbors during a stage. -/
def Stage.FixedNeighbors (g : Stage) : Prop :=
  (∀ a ∈ g.solves, a.2.refresh = none) ∧ g.lastAfter.refresh = none

/-- Velocities that change from `v` in direction `p`. -/
def alongLine (v p : Vel) (s : ℝ) : Vel := fun j => v j + s • p j

/-- The forces of the constraints have derivatives along `p`. -/
def Setting.ForcesDifferentiable (E : Setting) (v p : Vel) : Prop :=
  ∀ i < 3 * E.problem.numActive, DifferentiableAt ℝ (fun s : ℝ =>
    coord (E.problem.constraintForce (place E.x0 (E.problem.dt * E.fm) (alongLine v p s)) (alongLine v p s)) i) 0

/-- The result of a product is the derivative of the residual along its vector, in every coordinate that is solved
for. -/
def Record.IsDerivative (r : Record) : Prop :=
  ∀ (pm : ℝ) (prev v0 : Vel), ∃ f : ℝ → Vel,
    (∀ᶠ s in nhds (0 : ℝ), ∃ g, r.env.problem.residual r.env.fm pm prev v0
      (place r.env.x0 (r.env.problem.dt * r.env.fm) (alongLine r.v r.p s)) (alongLine r.v r.p s) = some (f s, g)) ∧
    ∀ i < 3 * r.env.problem.numActive, HasDerivAt (fun s : ℝ => coord (f s) i) (r.out i) 0

/-- The problem is one that can be solved: its indices are in range, vertices of elements are distinct, elements are
not inverted, and the vector does not move fixed vertices. -/
structure Record.Proper (r : Record) : Prop where
  within : r.env.problem.Within
  distinct : r.env.problem.toProblem.Distinct
  time : 0 ≤ r.env.problem.timeStep
  factor : 0 < r.env.fm
  active : r.env.problem.numActive ≤ r.env.problem.numVertices
  fixed : ∀ i, r.env.problem.numActive ≤ i → r.p i = 0
  smooth : r.env.problem.toProblem.Smooth (place r.env.x0 (r.env.problem.dt * r.env.fm) r.v)

/-! ## Which matrix is used -/

/-- The product uses the values of the elements at its own velocity. -/
def Record.Current (r : Record) : Prop :=
  ∀ i < 3 * r.env.problem.numActive, r.out i = r.env.dualPart r.v r.p i +
    ∑ j ∈ Finset.range (3 * r.env.problem.numActive), Sparse.storedEntry
      (r.env.problem.toProblem.jacobianIndices.zip (r.env.elasticValues r.v)) (i, j) * coord r.p j

namespace Machine

/-- The cache has the pattern of the problem. -/
def Pattern (m : Machine) : Prop :=
  m.cache.keys = m.env.problem.toProblem.jacobianIndices ∧ m.cache.size = 3 * m.env.problem.numActive

/-- The values will be computed before they are used. -/
def Stale (m : Machine) : Prop := m.Pattern ∧ m.cache.stale = true

/-- Values that are not computed again are those at `x`. -/
def Kept (m : Machine) (x : Vel) : Prop :=
  m.Pattern ∧ (m.cache.stale = true ∨ m.cache.storage = Sparse.reassemble
    (Sparse.mapping m.cache.key m.cache.size) fun k => (m.env.elasticValues x).getD k.val 0)

/-- The next product at `x` uses the values at `x`. -/
def Fresh (m : Machine) (x : Vel) : Prop := m.Kept x ∧ m.vel = x

theorem Stale.kept {m : Machine} (h : m.Stale) (x : Vel) : m.Kept x := ⟨h.1, Or.inl h.2⟩

/-- All products are right, and the state at the end satisfies `Q`. -/
def Ensures (m : Machine) (cs : List Call) (Q : Machine → Prop) : Prop :=
  (∀ r ∈ (m.run cs).2, r.Current) ∧ Q (m.run cs).1

theorem run_append (m : Machine) (cs ds : List Call) :
    m.run (cs ++ ds) = (((m.run cs).1.run ds).1, (m.run cs).2 ++ ((m.run cs).1.run ds).2) := by
  induction cs generalizing m with
  | nil => simp [run]
  | cons c cs ih => simp only [List.cons_append, run, ih, List.append_assoc]

theorem Ensures.append {m : Machine} {cs ds : List Call} {R Q : Machine → Prop} (h1 : m.Ensures cs R)
    (h2 : ∀ m', R m' → m'.Ensures ds Q) : m.Ensures (cs ++ ds) Q := by
  have h := h2 _ h1.2
  refine ⟨?_, ?_⟩
  · rw [run_append]
    intro r hr
    rcases List.mem_append.1 hr with hr | hr
    · exact h1.1 r hr
    · exact h.1 r hr
  · rw [run_append]
    exact h.2

theorem Ensures.cons {m : Machine} {c : Call} {ds : List Call} {R Q : Machine → Prop} (h1 : m.Ensures [c] R)
    (h2 : ∀ m', R m' → m'.Ensures ds Q) : m.Ensures (c :: ds) Q := h1.append h2

theorem Ensures.mono {m : Machine} {cs : List Call} {R Q : Machine → Prop} (h : m.Ensures cs R)
    (hq : ∀ m', R m' → Q m') : m.Ensures cs Q := ⟨h.1, hq _ h.2⟩

theorem ensures_nil {m : Machine} {Q : Machine → Prop} (h : Q m) : m.Ensures [] Q :=
  ⟨fun r hr => by simp [run] at hr, h⟩

theorem ensures_silent {m : Machine} {c : Call} {Q : Machine → Prop} (h : (m.exec c).2 = [])
    (hq : Q (m.exec c).1) : m.Ensures [c] Q :=
  ⟨fun r hr => by simp [run, h] at hr, hq⟩

theorem ensures_map {α : Type} {f : α → List Call} {Q : Machine → Prop}
    (hf : ∀ a m, Q m → m.Ensures (f a) Q) (l : List α) (m : Machine) (h : Q m) : m.Ensures (l.flatMap f) Q := by
  induction l generalizing m with
  | nil => exact ensures_nil h
  | cons a l ih => exact (hf a m h).append fun m' h' => ih m' h'

theorem ensures_map' {α : Type} {f : α → Call} {Q : Machine → Prop}
    (hf : ∀ a m, Q m → m.Ensures [f a] Q) (l : List α) (m : Machine) (h : Q m) : m.Ensures (l.map f) Q := by
  have := ensures_map (f := fun a => [f a]) hf l m h
  rwa [← List.map_eq_flatMap] at this

theorem product_ensures {m : Machine} {x : Vel} (h : m.Fresh x) (p : Vel) :
    m.Ensures [.product x p] fun m' => m'.Fresh x := by
  obtain ⟨⟨⟨hk, hs⟩, hc⟩, rfl⟩ := h
  have hst : (m.cache.refresh (m.env.elasticValues m.vel)).storage = Sparse.reassemble
      (Sparse.mapping m.cache.key m.cache.size) fun k => (m.env.elasticValues m.vel).getD k.val 0 := by
    unfold Cache.refresh
    split_ifs with hh
    · rfl
    · exact hc.resolve_left hh
  have hkey : (m.cache.refresh (m.env.elasticValues m.vel)).keys = m.cache.keys := by
    unfold Cache.refresh; split_ifs <;> rfl
  have hsize : (m.cache.refresh (m.env.elasticValues m.vel)).size = m.cache.size := by
    unfold Cache.refresh; split_ifs <;> rfl
  refine ⟨fun r hr => ?_, ⟨⟨hkey.trans hk, hsize.trans hs⟩, Or.inr ?_⟩, rfl⟩
  · have : r = (m.product m.vel p).2 := by simpa [run, exec] using hr
    subst this
    intro i hi
    change _ + _ = _
    congr 1
    have hlen : (m.env.elasticValues m.vel).length = m.cache.keys.length := by
      rw [hk]; exact elastic_length _ _ _ _ _
    have hmul := Cache.mul_refreshed m.cache.keys m.cache.size (m.env.elasticValues m.vel) hlen
      (m.cache.refresh (m.env.elasticValues m.vel)).stale (Problem.ofVec p) i (by rw [hs]; exact hi)
    have hc' : m.cache.refresh (m.env.elasticValues m.vel) = ⟨m.cache.keys, m.cache.size,
        Sparse.reassemble (Sparse.mapping m.cache.key m.cache.size) fun k =>
          (m.env.elasticValues m.vel).getD k.val 0, (m.cache.refresh (m.env.elasticValues m.vel)).stale⟩ := by
      rw [← hst]
      generalize m.cache.refresh (m.env.elasticValues m.vel) = c at hkey hsize
      obtain ⟨a, b, c, d⟩ := c
      simp only at hkey hsize
      subst hkey hsize
      rfl
    rw [hc']
    refine hmul.trans ?_
    rw [hk, hs]
    refine Finset.sum_congr rfl fun j _ => ?_
    rw [ofVec_eq]
    rfl
  · have : (m.run [.product m.vel p]).1.cache = m.cache.refresh (m.env.elasticValues m.vel) := rfl
    rw [this]
    have hm : (m.run [.product m.vel p]).1.env = m.env := rfl
    rw [hm]
    by_cases hh : m.cache.stale = true
    · have e : m.cache.refresh (m.env.elasticValues m.vel) = { m.cache with
          storage := Sparse.reassemble (Sparse.mapping m.cache.key m.cache.size) fun k =>
            (m.env.elasticValues m.vel).getD k.val 0
          stale := false } := if_pos hh
      rw [e]
      rfl
    · have e : m.cache.refresh (m.env.elasticValues m.vel) = m.cache := if_neg hh
      rw [e]
      exact hc.resolve_left hh

theorem products_ensures {m : Machine} {x : Vel} (h : m.Fresh x) (l : List Vel) :
    m.Ensures (l.map fun p => .product x p) fun m' => m'.Fresh x :=
  ensures_map' (fun p _ h => product_ensures h p) l m h

theorem update_fresh {m : Machine} {x : Vel} (h : m.Kept x) : m.Ensures [.update x] fun m' => m'.Fresh x :=
  ensures_silent rfl ⟨h, rfl⟩

theorem update_kept {m : Machine} {x : Vel} (h : m.Kept x) (y : Vel) :
    m.Ensures [.update y] fun m' => m'.Kept x := ensures_silent rfl h

theorem update_stale {m : Machine} (h : m.Stale) (y : Vel) :
    m.Ensures [.update y] fun m' => m'.Stale ∧ m'.vel = y := ensures_silent rfl ⟨h, rfl⟩

theorem update_pattern {m : Machine} (h : m.Pattern) (y : Vel) : m.Ensures [.update y] Pattern :=
  ensures_silent rfl h

theorem invalidate_stale {m : Machine} (h : m.Pattern) : m.Ensures [.invalidate] Stale :=
  ensures_silent rfl ⟨h, rfl⟩

theorem invalidate_stale' {m : Machine} {y : Vel} (h : m.Pattern) (hy : m.vel = y) :
    m.Ensures [.invalidate] fun m' => m'.Stale ∧ m'.vel = y :=
  ensures_silent rfl ⟨⟨h, rfl⟩, hy⟩

theorem indices_stale (m : Machine) : m.Ensures [.indices] Stale := ensures_silent rfl ⟨⟨rfl, rfl⟩, rfl⟩

/-- Updates of a state with stale values. -/
theorem updates_stale {m : Machine} {y : Vel} (h : m.Stale) (hy : m.vel = y) (l : List Vel) :
    m.Ensures (l.map fun z => .update z) fun m' => m'.Stale ∧ m'.vel = l.getLastD y := by
  induction l generalizing m y with
  | nil => exact ensures_nil ⟨h, hy⟩
  | cons a l ih =>
    refine Ensures.cons (update_stale h a) fun m' h' => ?_
    refine (ih h'.1 h'.2).mono fun m'' h'' => ⟨h''.1, h''.2.trans ?_⟩
    rw [List.getLastD_cons]

theorem dump_ensures {m : Machine} (h : m.Pattern) (d : Dump) (prev x : Vel) :
    m.Ensures (d.calls prev x) fun m' => m'.Fresh x := by
  unfold Dump.calls
  refine Ensures.append (R := fun m' => m'.Pattern) (Ensures.append (R := fun m' => m'.Fresh prev) (Ensures.append
    (R := fun m' => m'.Fresh prev) (Ensures.append (R := fun m' => m'.Kept prev) (Ensures.append
    (invalidate_stale h) fun m' h' => ensures_map ?_ _ _ (h'.kept prev)) fun m' h' => update_fresh h')
    fun m' h' => products_ensures h' _) fun m' h' => ensures_map' (fun y _ h => update_pattern h y) _ _ h'.1.1) ?_
  · intro q m' h'
    refine Ensures.append (R := fun m' => m'.Fresh prev)
      (Ensures.cons (update_kept h' q.1) fun _ h => update_fresh h) fun m'' h'' => ?_
    exact (products_ensures h'' _).mono fun _ h => h.1
  · intro m' h'
    exact (invalidate_stale h').cons fun m' h' => (update_fresh (h'.kept x)).cons fun m' h' =>
      product_ensures h' _

theorem primals_fresh {m : Machine} {x : Vel} (h : m.Fresh x) (l : List (Cons → Cons)) :
    m.Ensures (l.map fun f => .primal f) fun m' => m'.Fresh x :=
  ensures_map' (fun _ _ h => ensures_silent rfl h) l m h

theorem primals_stale {m : Machine} {x : Vel} (h : m.Stale ∧ m.vel = x) (l : List (Cons → Cons)) :
    m.Ensures (l.map fun f => .primal f) fun m' => m'.Stale ∧ m'.vel = x :=
  ensures_map' (fun _ _ h => ensures_silent rfl h) l m h

/-- An iteration: at its end, the values are stale, unless it wrote debug data. -/
theorem iteration_ensures {m : Machine} {x : Vel} (h : m.Fresh x) (t : Iteration) :
    m.Ensures (t.calls x) fun m' => m'.Fresh t.result ∧
      ((∀ q, t.search = some q → q.dump = none) → m'.Stale) := by
  unfold Iteration.calls Iteration.products
  have h0 : m.Ensures ((t.directions.map fun p => .product x p) ++ (t.slope.toList.map fun p => .product x p) ++
      [.invalidate, .update t.full]) fun m' => m'.Stale ∧ m'.vel = t.full :=
    ((products_ensures h _).append fun m' h' => products_ensures h' _).append fun m' h' =>
      (invalidate_stale h'.1.1).cons fun m' h' => update_stale h' t.full
  by_cases hd : ∀ q, t.search = some q → q.dump = none
  · refine Ensures.mono (R := fun m' => m'.Stale ∧ m'.vel = t.result) ((h0.append
      (Q := fun m' => m'.Stale ∧ m'.vel = t.result) fun m' h' => ?_).append
      fun m' h' => primals_stale h' _) fun m' h' => ⟨⟨h'.1.kept _, h'.2⟩, fun _ => h'.1⟩
    unfold Iteration.searchCalls Iteration.result
    cases hs : t.search with
    | none => exact ensures_nil h'
    | some q =>
      simp only [hd q hs, List.append_nil]
      exact (updates_stale h'.1 h'.2 q.trials).append fun m' h' => invalidate_stale' h'.1.1 h'.2
  · refine Ensures.mono (R := fun m' => m'.Fresh t.result) ((h0.append
      (Q := fun m' => m'.Fresh t.result) fun m' h' => ?_).append
      fun m' h' => primals_fresh h' _) fun m' h' => ⟨h', fun hh => absurd hh hd⟩
    push Not at hd
    obtain ⟨q, hs, hd⟩ := hd
    obtain ⟨d, hd⟩ := Option.ne_none_iff_exists'.1 hd
    unfold Iteration.searchCalls
    simp only [hs, hd]
    exact ((updates_stale h'.1 h'.2 q.trials).append fun m' h' => invalidate_stale' h'.1.1 h'.2).append
      fun m' h' => dump_ensures h'.1.1 d x t.result

theorem iterations_ensures {m : Machine} {x : Vel} (h : m.Fresh x) (hst : m.Stale) (ts : List Iteration) :
    m.Ensures (iterationCalls x ts) fun m' => m'.Fresh ((ts.map Iteration.result).getLastD x) ∧
      ((∀ t, ts.getLast? = some t → ∀ q, t.search = some q → q.dump = none) → m'.Stale) := by
  suffices hh : ∀ (ts : List Iteration) (m : Machine) (x : Vel) (P : Prop), m.Fresh x → (P → m.Stale) →
      m.Ensures (iterationCalls x ts) fun m' => m'.Fresh ((ts.map Iteration.result).getLastD x) ∧
        ((P ∨ ts ≠ []) → (∀ t, ts.getLast? = some t → ∀ q, t.search = some q → q.dump = none) → m'.Stale) from
    (hh ts m x True h fun _ => hst).mono fun m' h' => ⟨h'.1, h'.2 (Or.inl trivial)⟩
  clear h hst m x ts
  intro ts
  induction ts with
  | nil =>
    intro m x P h hP
    exact ensures_nil ⟨h, fun hh _ => hP (hh.resolve_right fun h => h rfl)⟩
  | cons t ts ih =>
    intro m x P h hP
    refine (iteration_ensures h t).append fun m' h' =>
      (ih m' t.result (∀ q, t.search = some q → q.dump = none) h'.1 h'.2).mono fun m'' h'' => ⟨?_, ?_⟩
    · rw [List.map_cons, List.getLastD_cons]
      exact h''.1
    · intro _ hl
      cases ts with
      | nil => exact h''.2 (Or.inl (hl t rfl)) (by simp)
      | cons u ts => exact h''.2 (Or.inr (by simp)) fun a ha => hl a (by rwa [List.getLast?_cons_cons])

theorem solve_ensures {m : Machine} (s : Solve) (fresh : Bool) (h : fresh = false → m.Stale) :
    m.Ensures (s.calls fresh) fun m' => m'.Fresh s.last ∧ (s.Clean → m'.Stale) := by
  unfold Solve.calls Solve.last Solve.first
  refine Ensures.append (R := fun m' => m'.Stale ∧ m'.vel = s.guesses.getLastD s.guess) (Ensures.append
    (Ensures.append (R := Stale) (Ensures.append (R := fun m' => fresh = false → m'.Stale)
      (ensures_map' (fun _ _ h => ensures_silent rfl h) _ _ h) fun m' h' => ?_) fun m' h' => update_stale h' s.guess)
    fun m' h' => updates_stale h'.1 h'.2 _) fun m' h' => iterations_ensures ⟨h'.1.kept _, h'.2⟩ h'.1 _
  cases fresh with
  | false => exact ensures_nil (h' rfl)
  | true => exact indices_stale m'

theorem after_ensures {m : Machine} (a : After) (h : m.Stale ∨ a.refresh.isSome = true) :
    m.Ensures a.calls fun m' => a.refresh.isSome = false → m'.Stale := by
  unfold After.calls
  refine Ensures.append (R := fun m' => a.refresh.isSome = false → m'.Stale)
    (ensures_map' (fun _ _ h => ensures_silent rfl h) _ _ fun hh => h.resolve_right (by simp [hh])) fun m' h' =>
    ensures_map' (fun _ _ h => ensures_silent rfl h) _ _ h'

theorem solves_ensures (l : List (Solve × After)) (s : Solve) (fresh : Bool) (m : Machine)
    (h : fresh = false → m.Stale) (hl : ∀ a ∈ l, a.2.refresh = none → a.1.Clean) :
    m.Ensures (solveCalls fresh l s) fun m' => m'.Fresh s.last := by
  induction l generalizing fresh m with
  | nil => exact (solve_ensures s fresh h).mono fun _ h => h.1
  | cons a l ih =>
    refine Ensures.append (Ensures.append (solve_ensures a.1 fresh h) fun m' h' => after_ensures a.2 ?_)
      fun m' h' => ih _ m' h' fun b hb => hl b (List.mem_cons_of_mem _ hb)
    cases hr : a.2.refresh with
    | none => exact Or.inl (h'.2 (hl a List.mem_cons_self hr))
    | some f => exact Or.inr rfl

theorem stage_ensures (m : Machine) (g : Stage) (h : g.Clean) : m.Ensures g.calls fun _ => True := by
  unfold Stage.calls
  refine Ensures.append (Ensures.append (Ensures.append (R := fun _ => True) ?_ fun m' _ =>
    solves_ensures g.solves g.lastSolve true m' (by simp) h) fun m' h' => products_ensures h' _) fun m' h' => ?_
  · exact (ensures_silent (Q := fun _ => True) rfl trivial).cons fun _ _ =>
      (ensures_silent (Q := fun _ => True) rfl trivial).cons fun _ _ => ensures_silent rfl trivial
  · unfold After.calls
    exact Ensures.append (R := fun _ => True) (ensures_map' (fun _ _ h => ensures_silent rfl h) _ _ trivial)
      fun m' h' => ensures_map' (fun _ _ h => ensures_silent rfl h) _ _ trivial

theorem simulation_ensures (m : Machine) (ts : List TimeStep) (h : ∀ t ∈ ts, ∀ g ∈ t.stages, g.Clean) :
    m.Ensures (simulationCalls ts) fun _ => True := by
  unfold simulationCalls
  induction ts generalizing m with
  | nil => exact ensures_nil trivial
  | cons t ts ih =>
    refine Ensures.append (R := fun _ => True) ?_ fun m' _ => ih m' fun t ht => h t (List.mem_cons_of_mem _ ht)
    refine (ensures_silent (Q := fun _ => True) rfl trivial).cons fun m' _ => ?_
    have hg := h t List.mem_cons_self
    clear h ih
    generalize t.stages = l at hg
    induction l generalizing m' with
    | nil => exact ensures_nil trivial
    | cons g l ih =>
      exact (stage_ensures m' g (hg g List.mem_cons_self)).append fun m'' _ =>
        ih m'' fun g hh => hg g (List.mem_cons_of_mem _ hh)

/-! ## The twin -/

/-- Calls that keep the twin the same as the constraints. -/
def Synced : Call → Prop
  | .primal _ => False
  | _ => True

theorem run_synced (m : Machine) (hm : m.env.twin = m.env.problem.cons) (cs : List Call)
    (h : ∀ c ∈ cs, Synced c) : ∀ r ∈ (m.run cs).2, r.env.twin = r.env.problem.cons := by
  induction cs generalizing m with
  | nil => simp [run]
  | cons c cs ih =>
    intro r hr
    have hc := h c List.mem_cons_self
    have ht : ∀ m', (m.exec c).1 = m' → m'.env.twin = m'.env.problem.cons := by
      rintro m' rfl
      cases c with
      | primal f => exact hc.elim
      | both f => exact congrArg f hm
      | _ => exact hm
    rcases List.mem_append.1 hr with hr | hr
    · cases c with
      | product v p =>
        have : r = (m.product v p).2 := by simpa [exec] using hr
        rw [this]
        exact hm
      | _ => simp [exec] at hr
    · exact ih _ (ht _ rfl) (fun c hc => h c (List.mem_cons_of_mem _ hc)) r hr

end Machine

theorem Iteration.synced (t : Iteration) (h : t.reduce = none) (x : Vel) : ∀ c ∈ t.calls x, Machine.Synced c := by
  intro c hc
  unfold Iteration.calls Iteration.products Iteration.searchCalls at hc
  rw [h] at hc
  cases hs : t.search with
  | none =>
    simp only [hs, List.mem_append, List.mem_map, List.mem_cons, List.not_mem_nil, or_false,
      Option.toList_none, List.map_nil] at hc
    rcases hc with (⟨_, _, rfl⟩ | ⟨_, _, rfl⟩) | rfl | rfl <;> trivial
  | some q =>
    cases hd : q.dump with
    | none =>
      simp only [hs, hd, List.mem_append, List.mem_map, List.mem_cons, List.not_mem_nil, or_false,
        Option.toList_none, List.map_nil] at hc
      rcases hc with ((⟨_, _, rfl⟩ | ⟨_, _, rfl⟩) | rfl | rfl) | ⟨_, _, rfl⟩ | rfl <;> trivial
    | some d =>
      simp only [hs, hd, Dump.calls, List.mem_append, List.mem_map, List.mem_cons, List.not_mem_nil, or_false,
        Option.toList_none, List.map_nil, List.mem_flatMap] at hc
      rcases hc with ((⟨_, _, rfl⟩ | ⟨_, _, rfl⟩) | rfl | rfl) | (⟨_, _, rfl⟩ | rfl) |
        (((((rfl | ⟨_, _, (rfl | rfl) | ⟨_, _, rfl⟩⟩) | rfl) | ⟨_, _, rfl⟩) | ⟨_, _, rfl⟩) |
          rfl | rfl | rfl) <;> trivial

theorem iterationCalls_synced (ts : List Iteration) (h : ∀ t ∈ ts, t.reduce = none) (x : Vel) :
    ∀ c ∈ iterationCalls x ts, Machine.Synced c := by
  induction ts generalizing x with
  | nil => simp [iterationCalls]
  | cons t ts ih =>
    intro c hc
    rcases List.mem_append.1 hc with hc | hc
    · exact t.synced (h t List.mem_cons_self) x c hc
    · exact ih (fun t ht => h t (List.mem_cons_of_mem _ ht)) _ c hc

theorem Solve.synced (s : Solve) (h : s.FixedEpsilon) (fresh : Bool) : ∀ c ∈ s.calls fresh, Machine.Synced c := by
  intro c hc
  unfold Solve.calls at hc
  rw [h.1] at hc
  rcases List.mem_append.1 hc with hc | hc
  · cases fresh <;>
    · simp only [Option.toList_none, List.map_nil, List.mem_append, List.mem_map, List.mem_cons, List.not_mem_nil,
        or_false, false_or, if_true, Bool.false_eq_true, if_false] at hc
      rcases hc with hc | ⟨_, _, rfl⟩
      · rcases hc with rfl | rfl <;> trivial
      · trivial
  · exact iterationCalls_synced _ h.2 _ c hc

theorem After.synced (a : After) (h : a.refresh = none) : ∀ c ∈ a.calls, Machine.Synced c := by
  intro c hc
  unfold After.calls at hc
  rw [h] at hc
  simp only [Option.toList_none, List.map_nil, List.append_nil, List.mem_map] at hc
  obtain ⟨_, _, rfl⟩ := hc
  trivial

theorem solveCalls_synced (l : List (Solve × After)) (s : Solve) (h : ∀ a ∈ l, a.1.FixedEpsilon)
    (hn : ∀ a ∈ l, a.2.refresh = none) (hs : s.FixedEpsilon) (fresh : Bool) :
    ∀ c ∈ solveCalls fresh l s, Machine.Synced c := by
  induction l generalizing fresh with
  | nil => exact s.synced hs fresh
  | cons a l ih =>
    intro c hc
    rcases List.mem_append.1 hc with hc | hc
    · rcases List.mem_append.1 hc with hc | hc
      · exact a.1.synced (h a List.mem_cons_self) fresh c hc
      · exact a.2.synced (hn a List.mem_cons_self) c hc
    · exact ih (fun b hb => h b (List.mem_cons_of_mem _ hb)) (fun b hb => hn b (List.mem_cons_of_mem _ hb)) _ c hc

theorem Stage.synced (g : Stage) (h : g.FixedEpsilon) (hn : g.FixedNeighbors) : ∀ c ∈ g.calls, Machine.Synced c := by
  intro c hc
  unfold Stage.calls at hc
  simp only [List.mem_append, List.mem_cons, List.not_mem_nil, or_false, List.mem_map] at hc
  rcases hc with (((rfl | rfl | rfl) | hc) | ⟨_, _, rfl⟩) | hc
  · trivial
  · trivial
  · trivial
  · exact solveCalls_synced _ _ h.1 hn.1 h.2 _ c hc
  · trivial
  · exact g.lastAfter.synced hn.2 c hc

/-! ## Theorems -/

/-- **C93, the cache.** In every product of a simulation, the part for the elements is the Jacobian of the elements at
the velocity of the product: values are never used after the iterate has changed.
Missing: solves that are repeated after one that ended by writing debug data (`dump_violated`). -/
theorem matrix_free_current_partial (m : Machine) (ts : List TimeStep)
    (hc : ∀ t ∈ ts, ∀ g ∈ t.stages, g.Clean) :
    ∀ r ∈ (m.run (simulationCalls ts)).2, ∀ i < 3 * r.env.problem.numActive,
      r.out i = deriv (fun s : ℝ => r.env.problem.dt * r.env.fm * coord
          ((r.env.problem.withCons r.env.twin).constraintForce
            (place r.env.x0 (r.env.problem.dt * r.env.fm) (alongLine r.v r.p s)) (alongLine r.v r.p s)) i) 0 +
        ∑ j ∈ Finset.range (3 * r.env.problem.numActive), Sparse.storedEntry
          (r.env.problem.toProblem.jacobianIndices.zip (r.env.problem.toProblem.jacobianValues
            (place r.env.x0 (r.env.problem.dt * r.env.fm) r.v) r.v
            (r.env.problem.dt * r.env.fm) (r.env.problem.dt * r.env.fm))) (i, j) * coord r.p j := by
  intro r hr i hi
  have := (Machine.simulation_ensures m ts hc).1 r hr i hi
  rw [this]
  congr 1
  unfold Setting.dualPart
  simp only [ofVec_eq]
  rfl

/-- **C93, the twin.** Without adaptive epsilons and without a search for neighbors during a stage, the constraints
that are differentiated are those that are simulated.
Missing: adaptive epsilons and steps that are too large (`epsilon_violated`, `neighbors_violated`). -/
theorem matrix_free_twin_partial (m : Machine) (hm : m.env.twin = m.env.problem.cons) (ts : List TimeStep)
    (he : ∀ t ∈ ts, ∀ g ∈ t.stages, g.FixedEpsilon) (hn : ∀ t ∈ ts, ∀ g ∈ t.stages, g.FixedNeighbors) :
    ∀ r ∈ (m.run (simulationCalls ts)).2, r.env.twin = r.env.problem.cons := by
  refine Machine.run_synced m hm _ fun c hc => ?_
  obtain ⟨t, ht, hc⟩ := List.mem_flatMap.1 hc
  rcases List.mem_cons.1 hc with rfl | hc
  · trivial
  · obtain ⟨g, hg, hc⟩ := List.mem_flatMap.1 hc
    exact g.synced (he t ht g hg) (hn t ht g hg) c hc

theorem Record.isDerivative (r : Record) (hcur : r.Current) (htw : r.env.twin = r.env.problem.cons)
    (hp : r.Proper) (hd : r.env.ForcesDifferentiable r.v r.p) : r.IsDerivative := by
  intro pm prev v0
  have hv : ∀ i, HasD (fun s => alongLine r.v r.p s i) (r.p i) 0 := fun i => by
    refine ((HasD.const (r.v i)).add (HasD.smul (hasDerivAt_id (0 : ℝ)) (HasD.const (r.p i)))).congr ?_
    rw [one_smul, smul_zero, add_zero, zero_add]
  have h0 : alongLine r.v r.p 0 = r.v := by
    funext j; unfold alongLine; rw [zero_smul, add_zero]
  obtain ⟨f, h1, h2⟩ := jacobian_derivative r.env.problem.toProblem r.env.problem.numVertices
    hp.within.base.base.base hp.distinct hp.time r.env.fm pm hp.factor prev v0 r.env.x0 (alongLine r.v r.p) r.p 0 hv
    (by rw [h0]; exact hp.smooth)
  refine ⟨fun s i => f s i + (r.env.problem.dt * r.env.fm) • r.env.problem.constraintForce
    (place r.env.x0 (r.env.problem.dt * r.env.fm) (alongLine r.v r.p s)) (alongLine r.v r.p s) i, ?_, ?_⟩
  · filter_upwards [h1] with s hs
    obtain ⟨g, hs⟩ := hs
    exact r.env.problem.residual_split r.env.fm pm prev v0 _ _ _ _ hs
  · intro i hi
    have hcc : ∀ s : ℝ, coord (fun i => f s i + (r.env.problem.dt * r.env.fm) • r.env.problem.constraintForce
        (place r.env.x0 (r.env.problem.dt * r.env.fm) (alongLine r.v r.p s)) (alongLine r.v r.p s) i) i =
        coord (f s) i + (r.env.problem.dt * r.env.fm) * coord (r.env.problem.constraintForce
          (place r.env.x0 (r.env.problem.dt * r.env.fm) (alongLine r.v r.p s)) (alongLine r.v r.p s)) i := by
      intro s
      rw [Volume.coord_add', coord_smul]
    simp only [hcc]
    refine ((h2 i).add ((hd i hi).const_mul _).hasDerivAt).congr_deriv ?_
    rw [hcur i hi, add_comm, h0]
    congr 1
    · unfold Setting.dualPart
      rw [htw]
      simp only [ofVec_eq]
      rfl
    · have hsub : Finset.range (3 * r.env.problem.numActive) ⊆ Finset.range (3 * r.env.problem.numVertices) :=
        Finset.range_subset_range.2 (by have := hp.active; omega)
      refine (Finset.sum_subset hsub fun j _ hj => ?_).symm
      have : coord r.p j = 0 := by
        unfold coord
        rw [hp.fixed (j / 3) (by rw [Finset.mem_range] at hj; omega)]
        generalize (⟨j % 3, _⟩ : Fin 3) = k
        fin_cases k <;> rfl
      rw [this, mul_zero]

/-! ## Forces that have derivatives -/

theorem listSum_differentiableAt {ι : Type} (l : List ι) (f : ι → ℝ → ℝ) (t : ℝ)
    (h : ∀ a ∈ l, DifferentiableAt ℝ (f a) t) : DifferentiableAt ℝ (fun s => (l.map fun a => f a s).sum) t :=
  (Volume.listSum_hasDerivAt l f (fun a => deriv (f a) t) t fun a ha => (h a ha).hasDerivAt).differentiableAt

theorem Gripping.forces_differentiable (S : Gripping) (hN : S.Within) (hNM : S.numActive ≤ S.numVertices)
    (x0 : Vel) (q : ℝ) (v p : Vel) (hp : ∀ i, S.numActive ≤ i → p i = 0)
    (hc : S.toTouching.Smooth (place x0 q v)) (i : ℕ) (hi : i < 3 * S.numActive) :
    DifferentiableAt ℝ (fun s : ℝ => coord (fun j => S.pressure (place x0 q (alongLine v p s)) j +
      S.contactForce (place x0 q (alongLine v p s)) j) i) 0 := by
  have hv : ∀ i, HasD (fun s => alongLine v p s i) (p i) 0 := fun i => HasD.line _ _
  have h0 : alongLine v p 0 = v := by
    funext j; unfold alongLine; rw [zero_smul, add_zero]
  simp only [Volume.coord_add']
  refine DifferentiableAt.fun_add ?_ ?_
  · unfold Volume.Sealed.pressure
    simp only [Volume.pressure_coord]
    refine listSum_differentiableAt S.volumes _ 0 fun P _ => ?_
    have := Volume.force_rate P (fun s => place x0 q (alongLine v p s)) _ 0
      (Volume.place_hasD x0 q _ p 0 hv) (fun _ => 0) i
    simp only [Volume.subtractForce_eq, zero_add] at this
    exact this.differentiableAt
  · unfold Touching.contactForce
    simp only [coord_contactForce]
    refine listSum_differentiableAt S.contacts _ 0 fun C hm => ?_
    obtain ⟨c, hc⟩ := hc C hm
    have := C.contact_hessian_partial (hN.base.separate C hm) (fun s => place x0 q (alongLine v p s))
      (unitAt i) (fun i => q • p i) 0 S.numVertices S.numActive c (hN.base.object C hm)
      (hN.base.collider C hm) (Volume.place_hasD x0 _ _ p 0 hv)
      (fun u hu => by
        unfold unitAt
        rw [if_neg (by omega)])
      (fun u hu => by rw [hp u hu, smul_zero]) (hN.base.fixedObject C hm) (hN.base.fixedCollider C hm)
      (fun p hp => by rw [h0]; exact (hc p hp).1) (fun p hp => by rw [h0]; exact (hc p hp).2)
    have hfp : (fun s => C.forcePower (place x0 q (alongLine v p s)) (unitAt i) S.numVertices) =
        fun s => -coord (C.subtractForce (place x0 q (alongLine v p s)) fun _ => 0) i := by
      funext s
      unfold Pair.forcePower
      rw [dot_unitAt (fun v' => -C.subtractForce _ (fun _ => 0) v') _ _ (by omega), coord_neg']
    rw [hfp] at this
    simpa using this.neg.differentiableAt

/-- The forces of the constraints have derivatives where contacts and friction have (C81, C90), whatever the
approximations of their Jacobians are. -/
theorem Setting.forces_differentiable (E : Setting) (v p : Vel) (hN : E.problem.Within)
    (hNM : E.problem.numActive ≤ E.problem.numVertices) (hp : ∀ i, E.problem.numActive ≤ i → p i = 0)
    (hc : E.problem.toTouching.Smooth (place E.x0 (E.problem.dt * E.fm) v))
    (hf : E.problem.Steady (place E.x0 (E.problem.dt * E.fm) v) v) : E.ForcesDifferentiable v p := by
  intro i hi
  have hv : ∀ i, HasD (fun s => alongLine v p s i) (p i) 0 := fun i => HasD.line _ _
  have h0 : alongLine v p 0 = v := by
    funext j; unfold alongLine; rw [zero_smul, add_zero]
  have e : ∀ x w : Vel, coord (E.problem.constraintForce x w) i =
      coord (fun j => E.problem.pressure x j + E.problem.contactForce x j) i +
        coord (E.problem.frictionForce x w) i := by
    intro x w
    rw [← Volume.coord_add']
    exact congrArg (fun f => coord f i) (funext fun j => E.problem.constraintForce_eq x w j)
  simp only [e]
  refine DifferentiableAt.fun_add (E.problem.forces_differentiable hN hNM _ _ v p hp hc i hi) ?_
  unfold Gripping.frictionForce
  simp only [Gripping.coord_frictionForce]
  exact listSum_differentiableAt E.problem.grips _ 0 fun G hG =>
    (E.problem.friction_row hN G hG hNM (fun s => place E.x0 (E.problem.dt * E.fm) (alongLine v p s)) _ p
      (E.problem.dt * E.fm) 0 (Gripping.place_hasD _ _ hv) hv hp (by rw [h0]; exact hf) i hi).differentiableAt

/-- Two products that are the derivative of the same residual are equal. -/
theorem Record.isDerivative_unique (r r' : Record) (h : r.IsDerivative) (h' : r'.IsDerivative)
    (he : r'.env.problem = r.env.problem) (hx : r'.env.x0 = r.env.x0) (hf : r'.env.fm = r.env.fm) (hv : r'.v = r.v)
    (hp : r'.p = r.p) (i : ℕ) (hi : i < 3 * r.env.problem.numActive) : r'.out i = r.out i := by
  obtain ⟨f, h1, h2⟩ := h 0 (fun _ => 0) fun _ => 0
  obtain ⟨f', h1', h2'⟩ := h' 0 (fun _ => 0) fun _ => 0
  rw [he, hx, hf, hv, hp] at h1'
  refine HasDerivAt.unique (h2' i (by rw [he]; exact hi)) ((h2 i hi).congr_of_eventuallyEq ?_)
  filter_upwards [h1, h1'] with s ⟨g, hs⟩ ⟨g', hs'⟩
  rw [hs', Option.some.injEq, Prod.mk.injEq] at hs
  rw [hs.1]

/-- **C93.** In a simulation without debug data, without adaptive epsilons and without a search for neighbors
during a stage, every product with the Jacobian that is computed without assembling it is the derivative of the
residual along its vector: whatever the products, iterations, line searches and repeated solves before it were,
also for zones with approximate Jacobians, viscous friction and friction with incomplete Jacobians.
Missing: the three cases above, where it is false. -/
theorem matrix_free_derivative_partial (m : Machine) (hm : m.env.twin = m.env.problem.cons) (ts : List TimeStep)
    (hc : ∀ t ∈ ts, ∀ g ∈ t.stages, g.Clean)
    (he : ∀ t ∈ ts, ∀ g ∈ t.stages, g.FixedEpsilon) (hn : ∀ t ∈ ts, ∀ g ∈ t.stages, g.FixedNeighbors)
    (r : Record) (hr : r ∈ (m.run (simulationCalls ts)).2) (hp : r.Proper)
    (hd : r.env.ForcesDifferentiable r.v r.p) : r.IsDerivative :=
  r.isDerivative ((Machine.simulation_ensures m ts hc).1 r hr) (matrix_free_twin_partial m hm ts he hn r hr) hp hd

/-- **C93.** Where the assembled Jacobian is the derivative of the residual (C90), the product is the product with
the assembled Jacobian, whatever the positions `y` and velocities `u` were when its indices were computed.
Missing: as above, and as in C90. -/
theorem matrix_free_assembled_partial (m : Machine) (hm : m.env.twin = m.env.problem.cons) (ts : List TimeStep)
    (hc : ∀ t ∈ ts, ∀ g ∈ t.stages, g.Clean)
    (he : ∀ t ∈ ts, ∀ g ∈ t.stages, g.FixedEpsilon) (hn : ∀ t ∈ ts, ∀ g ∈ t.stages, g.FixedNeighbors)
    (r : Record) (hr : r ∈ (m.run (simulationCalls ts)).2) (hp : r.Proper)
    (hA : ∀ P ∈ r.env.problem.volumes, P.approx = false)
    (ht : r.env.problem.toTouching.Smooth (place r.env.x0 (r.env.problem.dt * r.env.fm) r.v))
    (hf : r.env.problem.Steady (place r.env.x0 (r.env.problem.dt * r.env.fm) r.v) r.v) (y u : Vel) :
    ∀ i < 3 * r.env.problem.numActive, r.out i = ∑ j ∈ Finset.range (3 * r.env.problem.numActive),
      Sparse.storedEntry ((r.env.problem.jacobianIndices y u).zip (r.env.problem.jacobianValues
        (place r.env.x0 (r.env.problem.dt * r.env.fm) r.v) r.v (r.env.problem.dt * r.env.fm)
        (r.env.problem.dt * r.env.fm) (r.env.problem.jacobianIndices y u).length)) (i, j) * coord r.p j := by
  have h := matrix_free_derivative_partial m hm ts hc he hn r hr hp
    (r.env.forces_differentiable r.v r.p hp.within hp.active hp.fixed ht hf)
  have h0 : alongLine r.v r.p 0 = r.v := by
    funext j; unfold alongLine; rw [zero_smul, add_zero]
  have h' : (Record.mk r.env r.v r.p fun i => ∑ j ∈ Finset.range (3 * r.env.problem.numActive),
      Sparse.storedEntry ((r.env.problem.jacobianIndices y u).zip (r.env.problem.jacobianValues
        (place r.env.x0 (r.env.problem.dt * r.env.fm) r.v) r.v (r.env.problem.dt * r.env.fm)
        (r.env.problem.dt * r.env.fm) (r.env.problem.jacobianIndices y u).length)) (i, j) *
          coord r.p j).IsDerivative := by
    intro pm prev v0
    have := grip_jacobian_derivative_partial r.env.problem hp.within hp.distinct hp.time hA r.env.fm pm hp.factor
      prev v0 r.env.x0 y u (alongLine r.v r.p) r.p 0 (fun i => HasD.line _ _) hp.fixed hp.active
      (by rw [h0]; exact hp.smooth) (by rw [h0]; exact ht) (by rw [h0]; exact hf)
    rw [h0] at this
    exact this
  exact fun i hi => (Record.isDerivative_unique r _ h h' rfl rfl rfl rfl rfl i hi).symm

end Softy.Contact
