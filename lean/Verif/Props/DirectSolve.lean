import Verif.Lemmas.DirectSolve
import Verif.Props.MatrixFreeWitness

/-!
# C115: linear systems of the direct solver

The direct solver keeps the positions of the entries of the Jacobian, the compressed matrix and the setup of the
library from one linear solve to the next. Theorems are about all linear solves of a simulation: any number of
steps, stages, solves and iterations, with contacts that come and go, in any state at the start.
-/

noncomputable section

namespace Softy.DirectSolve

open Softy Fem Contact Softy.Field Assembly

/-! ## Specification -/

/-- The contact is the same, but for its stiffness. -/
def PairRetuned (A B : Pair) : Prop := ∃ k, B = { A with kappa := k }

/-- The friction is the same, but for the stiffness of the contact and the epsilon of friction. -/
def GripRetuned : Grip → Grip → Prop
  | .lagged A, .lagged B => ∃ k e, B = { A with
      pair := { A.pair with kappa := k }, params := { A.params with epsilon := e } }
  | .current A, .current B => ∃ k e, B = { A with
      pair := { A.pair with kappa := k }, params := { A.params with epsilon := e } }
  | _, _ => False

/-- The constraints are the same, but for stiffness and epsilons. -/
def Retuned (A B : Cons) : Prop :=
  List.Forall₂ PairRetuned A.contacts B.contacts ∧ List.Forall₂ GripRetuned A.grips B.grips

/-- A change of the constraints, if there is one, is a change of stiffness and epsilons. -/
def Retunes (f : Option (Cons → Cons)) : Prop := ∀ g, f = some g → ∀ A, Retuned A (g A)

/-- Solves change epsilons at most. -/
structure Solve.Usual (s : Solve) : Prop where
  start : Retunes s.start
  reduce : ∀ t ∈ s.iterations, Retunes t.reduce

/-- Between solves stiffness changes. Neighbors are searched for only where `refresh` says so: this may change
the constraints in any way. -/
structure Stage.Usual (g : Stage) : Prop where
  solves : ∀ b ∈ g.solves, b.1.Usual ∧ Retunes b.2.bump
  last : g.lastSolve.Usual

/-- In all stages of a step. -/
def TimeStep.Usual (t : TimeStep) : Prop := ∀ g ∈ t.stages, g.Usual

/-- There are elastic elements: tetrahedra of one of both kinds, or triangles or bending edges with entries in the
Jacobian. -/
def Elastic (P : Fem.Problem) : Prop := P.nh ≠ [] ∨ P.snh ≠ [] ∨ P.shell.indices (0, 0) ≠ []

/-- There are elastic elements, and vertices that can move. -/
def Machine.HasElements (m : Machine) : Prop :=
  Elastic m.env.problem.toProblem ∧ m.env.problem.numActive ≠ 0

/-- The problem is one that can be solved: its indices are in range, and vertices of elements are distinct. -/
structure Proper (S : Gripping) : Prop where
  within : S.Within
  distinct : S.toProblem.Distinct
  active : S.numActive ≤ S.numVertices

/-- The Jacobian of the problem at the velocity `v`: the values at all positions, added up. -/
def jacobian (E : Setting) (v : Vel) (i j : ℕ) : ℝ :=
  Sparse.storedEntry ((E.problem.jacobianIndices (place E.x0 (E.problem.dt * E.fm) v) v).zip
    (E.problem.jacobianValues (place E.x0 (E.problem.dt * E.fm) v) v (E.problem.dt * E.fm)
      (E.problem.dt * E.fm)
      (E.problem.jacobianIndices (place E.x0 (E.problem.dt * E.fm) v) v).length)) (i, j)

/-- The matrix of a linear solve is that of the problem as it is, at the current iterate, with scaled rows: nothing
is left of other contacts, other positions and other velocities. The library is given each position once, and the
product in the line search is one with this matrix. -/
def Record.Current (r : Record) : Prop :=
  ∃ A, r.matrix = some A ∧ (A.map Prod.fst).Nodup ∧
    (∀ e ∈ A, e.1.1 < 3 * r.env.problem.numActive ∧ e.1.2 < 3 * r.env.problem.numActive) ∧
    (∀ i < 3 * r.env.problem.numActive, ∀ j < 3 * r.env.problem.numActive,
      Sparse.storedEntry A (i, j) = r.precond i * jacobian r.env r.v i j) ∧
    ∀ i < 3 * r.env.problem.numActive, r.slope i =
      ∑ j ∈ Finset.range (3 * r.env.problem.numActive),
        r.precond i * jacobian r.env r.v i j * coord r.direction j

/-! ## Positions of entries -/

theorem gripRetuned_keys {A B : Grip} (h : GripRetuned A B) (x y u v : ℕ → V3 ℝ) (q q' : ℝ) (N n : ℕ) :
    (B.entries x u q N n).map (fun e => e.1) = (A.entries y v q' N n).map fun e => e.1 := by
  cases A with
  | lagged A =>
    cases B with
    | current B => exact h.elim
    | lagged B =>
      obtain ⟨k, e, rfl⟩ := h
      have := frictionEntries_stiff A.pair k { A.params with epsilon := e } A.params Iff.rfl A.x A.x u v N n
      exact this
  | current A =>
    cases B with
    | lagged B => exact h.elim
    | current B =>
      obtain ⟨k, e, rfl⟩ := h
      have := currentEntries_stiff A.pair k { A.params with epsilon := e } A.params Iff.rfl A.incomplete
        x y u v q q' N n
      exact this

theorem pattern_retuned (S : Gripping) {B : Cons} (h : Retuned S.cons B) (x y u v : ℕ → V3 ℝ) :
    (S.withCons B).jacobianIndices x u = S.jacobianIndices y v := by
  rw [(grip_pattern (S.withCons B) x y u v).1]
  have hidx : ∀ A C : Pair, PairRetuned A C →
      (S.withCons B).toTouching.contactIndices y C = S.toTouching.contactIndices y A := by
    rintro A C ⟨k, rfl⟩
    rfl
  have hn : (S.withCons B).toTouching.nnz y = S.toTouching.nnz y :=
    (foldl_related (R := PairRetuned) (fun A C hA s => by rw [hidx A C hA]) h.1 _).symm
  have hkeys : ∀ A C : Grip, GripRetuned A C → (C.entries y v (S.withCons B).dt
      (S.withCons B).numVertices (S.withCons B).numActive).map (fun e => e.1) =
      (A.entries y v S.dt S.numVertices S.numActive).map fun e => e.1 :=
    fun A C hA => gripRetuned_keys hA y y v v _ _ _ _
  have hlen : ∀ A C : Grip, GripRetuned A C → (C.entries y v (S.withCons B).dt
      (S.withCons B).numVertices (S.withCons B).numActive).length =
      (A.entries y v S.dt S.numVertices S.numActive).length := fun A C hA => by
    simpa using congrArg List.length (hkeys A C hA)
  have hN : (S.withCons B).nnz y v = S.nnz y v := by
    unfold Gripping.nnz
    rw [hn]
    exact (foldl_related (R := GripRetuned) (fun A C hA s => by rw [hlen A C hA]) h.2 _).symm
  have hT : (S.withCons B).toTouching.jacobianIndices y = S.toTouching.jacobianIndices y := by
    unfold Touching.jacobianIndices
    exact (foldl_related (R := PairRetuned) (fun A C hA s => by rw [hidx A C hA, hn]) h.1 _).symm
  unfold Gripping.jacobianIndices
  rw [hN, hT]
  exact (foldl_related (R := GripRetuned) (fun A C hA s => by rw [hkeys A C hA]) h.2 _).symm

theorem foldl_append_ne {α β : Type*} (f : List β → α → List β) (l : List α) (s : List β) (h : s ≠ []) :
    l.foldl (fun l a => l ++ f l a) s ≠ [] := by
  induction l generalizing s with
  | nil => exact h
  | cons a l ih => exact ih _ (by simp [h])

theorem tetIndices_ne {es : List TetElem} (h : es ≠ []) : tetIndices es (0, 0) ≠ [] := by
  cases es with
  | nil => exact absurd rfl h
  | cons e es =>
    unfold tetIndices
    rw [List.flatMap_cons]
    intro hn
    have := (List.append_eq_nil_iff.1 hn).1
    rw [List.map_eq_nil_iff] at this
    have hl := congrArg List.length this
    revert hl
    decide

theorem elastic_ne (P : Fem.Problem) (h : Elastic P) : P.jacobianIndices ≠ [] := by
  unfold Fem.Problem.jacobianIndices Sparse.mirrorIndices Fem.Problem.lowerIndices
  intro hn
  simp only [List.append_eq_nil_iff] at hn
  rcases h with h | h | h
  · exact tetIndices_ne h hn.1.1.1.1
  · exact tetIndices_ne h hn.1.1.1.2
  · exact h hn.1.1.2

theorem indices_ne (S : Gripping) (h : Elastic S.toProblem) (y u : ℕ → V3 ℝ) :
    S.jacobianIndices y u ≠ [] := by
  unfold Gripping.jacobianIndices
  refine foldl_append_ne (fun l (G : Grip) => ((G.entries y u S.dt S.numVertices S.numActive).map fun e => e.1).take
    (S.nnz y u - l.length)) _ _ ?_
  unfold Touching.jacobianIndices
  refine foldl_append_ne (fun l (C : Pair) => (S.toTouching.contactIndices y C).take (S.toTouching.nnz y - l.length)) _ _ ?_
  unfold Volume.Sealed.jacobianIndices
  simp [elastic_ne _ h]

/-! ## Invariants -/

variable {pl : Platform}

/-- The workspace belongs to the problem. -/
structure Ready (pl : Platform) (m : Machine) : Prop where
  built : Built pl m.n m.ws
  keys : ∀ y u, m.ws.keys = m.env.problem.jacobianIndices y u

/-- Linear solves are right if the problem is. -/
def Good (rs : List Record) : Prop := ∀ r ∈ rs, Proper r.env.problem → r.Current

theorem Good.append {a b : List Record} (ha : Good a) (hb : Good b) : Good (a ++ b) := fun r hr =>
  (List.mem_append.1 hr).elim (ha r) (hb r)

theorem good_nil : Good [] := fun _ h => by simp at h

theorem Ready.change? {m : Machine} (h : Ready pl m) {f : Option (Cons → Cons)} (hf : Retunes f) :
    Ready pl (m.change? f) := by
  cases f with
  | none => exact h
  | some g =>
    refine ⟨h.built, fun y u => ?_⟩
    show m.ws.keys = _
    rw [h.keys y u]
    exact (pattern_retuned m.env.problem (hf g rfl m.env.problem.cons) y y u u).symm

theorem change?_n (m : Machine) (f : Option (Cons → Cons)) : (m.change? f).n = m.n := by
  cases f <;> rfl

theorem change?_vel (m : Machine) (f : Option (Cons → Cons)) : (m.change? f).vel = m.vel := by
  cases f <;> rfl

theorem change?_elements {m : Machine} (f : Option (Cons → Cons)) (h : m.HasElements) :
    (m.change? f).HasElements := by
  cases f <;> exact h

theorem linear_ready {m : Machine} (h : Ready pl m) (precond : ℕ → ℝ) (x d : Vel) :
    Ready pl (m.linearSolve pl precond x d).1 := by
  obtain ⟨hb, hk, -⟩ := h.built.solve m.values precond
  exact ⟨hb, fun y u => hk.trans (h.keys y u)⟩

theorem linear_current {m : Machine} {x : Vel} (h : Ready pl m) (hx : m.vel = x) (precond : ℕ → ℝ) (d : Vel)
    (hP : Proper m.env.problem) : (m.linearSolve pl precond x d).2.Current := by
  obtain ⟨hb, hk, A, hA, hj, hnd, hlt, hent⟩ := h.built.solve m.values precond
  subst hx
  have hl : m.ws.vals.length = (m.env.problem.jacobianIndices (m.env.positions m.vel) m.vel).length := by
    rw [h.built.length, ← h.keys]
  have hv : m.values.length = m.ws.keys.length := by
    unfold Machine.values
    rw [hl, h.keys (m.env.positions m.vel) m.vel]
    exact (m.env.problem.jacobian_triplets hP.within hP.distinct _ _ _ _ _ _).2.1
  have hJ : ∀ i < m.n, ∀ j < m.n, Sparse.storedEntry A (i, j) = precond i * jacobian m.env m.vel i j := by
    intro i hi j hj
    rw [hent (i, j) hi hj, h.built.write _ hv]
    unfold jacobian Machine.values
    rw [hl, h.keys (m.env.positions m.vel) m.vel]
    rfl
  refine ⟨A, hA, hnd, hlt, hJ, fun i hi => ?_⟩
  show (m.ws.solve pl m.n m.values precond).1.mul pl (Problem.ofVec d) i = _
  rw [mul_entry _ pl m.n, hj]
  · refine Finset.sum_congr rfl fun j hj' => ?_
    rw [hJ i hi j (Finset.mem_range.1 hj'), ofVec_eq]
    rfl
  · intro e he
    have : (layout pl.transpose e.1, e.2) ∈ A := by
      rw [← hj]
      exact List.mem_map_of_mem he
    exact (hlt _ this).2

theorem points_last (t : Iteration) (v : Vel) : t.points.getLastD v = t.result := by
  unfold Iteration.points Iteration.result
  cases t.dump with
  | none =>
    rw [Option.map_none, Option.getD_none, List.append_nil, List.getLastD_cons]
  | some d =>
    rw [Option.map_some, Option.getD_some, ← List.append_assoc, List.getLastD_concat]

theorem iterate_good (precond : ℕ → ℝ) (ts : List Iteration) (hts : ∀ t ∈ ts, Retunes t.reduce) (x : Vel)
    (m : Machine) (h : Ready pl m) (hx : m.vel = x) (he : m.HasElements) :
    Good (iterate pl precond ts x m).2 ∧ Ready pl (iterate pl precond ts x m).1 ∧
      (iterate pl precond ts x m).1.HasElements := by
  induction ts generalizing x m with
  | nil => exact ⟨good_nil, h, he⟩
  | cons t ts ih =>
    have hr : Ready pl (t.run pl precond x m).1 :=
      Ready.change? (m := (m.linearSolve pl precond x t.direction).1.updates t.points)
        ⟨(linear_ready h precond x t.direction).built, (linear_ready h precond x t.direction).keys⟩
        (hts t List.mem_cons_self)
    have hv : (t.run pl precond x m).1.vel = t.result := by
      unfold Iteration.run
      rw [change?_vel]
      exact points_last t (m.linearSolve pl precond x t.direction).1.vel
    obtain ⟨h1, h2, h3⟩ := ih (fun t ht => hts t (List.mem_cons_of_mem _ ht)) t.result _ hr hv
      (change?_elements _ he)
    refine ⟨?_, h2, h3⟩
    intro r hr
    rcases List.mem_cons.1 hr with rfl | hr
    · exact linear_current h hx precond t.direction
    · exact h1 r hr

theorem body_good (s : Solve) (hs : s.Usual) (m : Machine) (h : Ready pl m) (he : m.HasElements) :
    Good (s.body pl m).2.1 ∧ Ready pl (s.body pl m).1 ∧ (s.body pl m).1.HasElements := by
  have hk : (m.updates (s.guess :: s.guesses)).ws.keys.isEmpty = false := by
    have := h.built.nonempty
    show m.ws.keys.isEmpty = false
    simpa using this
  unfold Solve.body
  simp only [hk, Bool.false_eq_true, if_false]
  refine iterate_good s.precond s.iterations hs.reduce _ _ ⟨h.built, h.keys⟩ ?_ he
  show (s.guess :: s.guesses).getLastD m.vel = s.guesses.getLastD s.guess
  exact List.getLastD_cons

theorem indices_ready (m : Machine) (he : m.HasElements) (hok : (m.indices pl).2 = true) :
    Ready pl (m.indices pl).1 := by
  obtain ⟨hb, hk⟩ := update_built pl m.n m.ws _ (indices_ne m.env.problem he.1 (m.env.positions m.vel) m.vel) hok
  exact ⟨hb, fun y u => hk.trans (grip_pattern m.env.problem _ y _ u).1⟩

theorem run_good (s : Solve) (hs : s.Usual) (fresh : Bool) (m : Machine) (h : fresh = false → Ready pl m)
    (he : m.HasElements) :
    Good (s.run pl fresh m).2.1 ∧ ((s.run pl fresh m).2.2 = .done → Ready pl (s.run pl fresh m).1) ∧
      (s.run pl fresh m).1.HasElements := by
  have hn : m.n ≠ 0 := by
    unfold Machine.n
    have := he.2
    omega
  unfold Solve.run
  rw [if_neg hn]
  cases fresh with
  | false =>
    obtain ⟨h1, h2, h3⟩ := body_good s hs _ ((h rfl).change? hs.start) (change?_elements s.start he)
    exact ⟨h1, fun _ => h2, h3⟩
  | true =>
    simp only [if_true]
    split_ifs with hok
    · obtain ⟨h1, h2, h3⟩ := body_good s hs _ (indices_ready _ (change?_elements s.start he) hok)
        (change?_elements s.start he)
      exact ⟨h1, fun _ => h2, h3⟩
    · exact ⟨good_nil, fun h => (by cases h), change?_elements s.start he⟩

theorem solves_good (l : List (Solve × After)) (s : Solve) (a : After) (hl : ∀ b ∈ l, b.1.Usual ∧ Retunes b.2.bump)
    (hs : s.Usual) (fresh : Bool) (m : Machine) (h : fresh = false → Ready pl m) (he : m.HasElements) :
    Good (solves pl fresh l s a m).2.1 ∧ (solves pl fresh l s a m).1.HasElements := by
  induction l generalizing fresh m with
  | nil =>
    obtain ⟨h1, h2, h3⟩ := run_good s hs fresh m h he
    unfold solves
    dsimp only
    split_ifs with hd
    · exact ⟨h1, change?_elements _ (change?_elements _ h3)⟩
    · exact ⟨h1, h3⟩
  | cons b l ih =>
    obtain ⟨hb, hl⟩ := List.forall_mem_cons.1 hl
    obtain ⟨h1, h2, h3⟩ := run_good b.1 hb.1 fresh m h he
    unfold solves
    dsimp only
    split_ifs with hd
    · obtain ⟨h4, h5⟩ := ih hl b.2.refresh.isSome
        (((b.1.run pl fresh m).1.change? b.2.bump).change? b.2.refresh) (fun hf => by
          rw [Option.isSome_eq_false_iff, Option.isNone_iff_eq_none] at hf
          rw [hf]
          exact (h2 hd).change? hb.2) (change?_elements _ (change?_elements _ h3))
      exact ⟨h1.append h4, h5⟩
    · exact ⟨h1, h3⟩

theorem stages_good (l : List Stage) (hl : ∀ g ∈ l, g.Usual) (m : Machine) (he : m.HasElements) :
    Good (stages pl l m).2.1 ∧ (stages pl l m).1.HasElements := by
  induction l generalizing m with
  | nil => exact ⟨good_nil, he⟩
  | cons g l ih =>
    obtain ⟨hg, hl⟩ := List.forall_mem_cons.1 hl
    obtain ⟨h1, h2⟩ := solves_good (pl := pl) g.solves g.lastSolve g.lastAfter hg.solves hg.last true
      (((m.enter g.timeStep g.x0 g.fm).change g.advance).updates [g.initial]) (fun h => (by cases h)) he
    unfold stages
    dsimp only
    split_ifs with hd
    · obtain ⟨h3, h4⟩ := ih hl _ h2
      exact ⟨h1.append h3, h4⟩
    · exact ⟨h1, h2⟩

theorem simulate_good (ts : List TimeStep) (hts : ∀ t ∈ ts, t.Usual) (m : Machine) (he : m.HasElements) :
    Good (simulate pl ts m).2.1 := by
  induction ts generalizing m with
  | nil => exact good_nil
  | cons t ts ih =>
    obtain ⟨ht, hts⟩ := List.forall_mem_cons.1 hts
    obtain ⟨h1, h2⟩ := stages_good (pl := pl) t.stages ht (m.change t.set) he
    exact h1.append (ih hts _ h2)

/-! ## Theorems -/

/-- **C115.** On every platform, whatever contacts came and went before, and whatever was left in the workspace by
earlier solves, every linear system that is solved is that of the current problem at the current iterate. -/
theorem direct_system (pl : Platform) (ts : List TimeStep) (hts : ∀ t ∈ ts, t.Usual) (m : Machine)
    (he : m.HasElements) : ∀ r ∈ (simulate pl ts m).2.1, Proper r.env.problem → r.Current :=
  simulate_good ts hts m he

theorem line_hasD (v p : Vel) (i : ℕ) : HasD (fun s : ℝ => v i + s • p i) (p i) 0 := by
  refine ⟨?_, ?_, ?_⟩
  · exact (((hasDerivAt_id (0 : ℝ)).mul_const (p i).x).const_add (v i).x).congr_deriv (one_mul _)
  · exact (((hasDerivAt_id (0 : ℝ)).mul_const (p i).y).const_add (v i).y).congr_deriv (one_mul _)
  · exact (((hasDerivAt_id (0 : ℝ)).mul_const (p i).z).const_add (v i).z).congr_deriv (one_mul _)

/-- **C115.** The matrix of every linear solve is the derivative of the residual with respect to the velocities that
are solved for, with rows scaled by the preconditioner.
Missing: as in C90, and zones with the sparse approximation of their Hessian. -/
theorem direct_derivative_partial (pl : Platform) (ts : List TimeStep) (hts : ∀ t ∈ ts, t.Usual) (m : Machine)
    (he : m.HasElements) (r : Record) (hr : r ∈ (simulate pl ts m).2.1) (hP : Proper r.env.problem)
    (hT : 0 ≤ r.env.problem.timeStep) (hA : ∀ Z ∈ r.env.problem.volumes, Z.approx = false) (hfm : 0 < r.env.fm)
    (hs : r.env.problem.toProblem.Smooth (r.env.positions r.v))
    (hc : r.env.problem.toTouching.Smooth (r.env.positions r.v))
    (hf : r.env.problem.Steady (r.env.positions r.v) r.v) (pm : ℝ) (prev v0 : Vel) :
    ∃ A, r.matrix = some A ∧ ∀ p : Vel, (∀ i, r.env.problem.numActive ≤ i → p i = 0) →
      ∃ res : ℝ → Vel,
        (∀ᶠ s in nhds (0 : ℝ), ∃ f, r.env.problem.residual r.env.fm pm prev v0
          (r.env.positions fun i => r.v i + s • p i) (fun i => r.v i + s • p i) = some (res s, f)) ∧
        ∀ i < 3 * r.env.problem.numActive, HasDerivAt (fun s => r.precond i * coord (res s) i)
          (∑ j ∈ Finset.range (3 * r.env.problem.numActive), Sparse.storedEntry A (i, j) * coord p j) 0 := by
  obtain ⟨A, hA', -, -, hent, -⟩ := direct_system pl ts hts m he r hr hP
  refine ⟨A, hA', fun p hp => ?_⟩
  have hz : (fun i => r.v i + (0 : ℝ) • p i) = r.v := by
    funext i
    simp
  obtain ⟨res, h1, h2⟩ := grip_jacobian_derivative_partial r.env.problem hP.within hP.distinct hT hA r.env.fm pm hfm
    prev v0 r.env.x0 (r.env.positions r.v) r.v (fun s i => r.v i + s • p i) p 0
    (fun i => line_hasD r.v p i) hp hP.active (by rw [hz]; exact hs) (by rw [hz]; exact hc) (by rw [hz]; exact hf)
  refine ⟨res, h1, fun i hi => ?_⟩
  have := (h2 i hi).const_mul (r.precond i)
  refine this.congr_deriv ?_
  rw [Finset.mul_sum]
  refine Finset.sum_congr rfl fun j hj => ?_
  rw [hent i hi j (Finset.mem_range.1 hj), hz]
  unfold jacobian
  exact (mul_assoc _ _ _).symm

/-! ## Failures -/

/-- What the library does if it refuses every matrix that it is set up with. -/
theorem refused_steps (pl : Platform) (P : Workspace → Prop)
    (hP : ∀ w n keys, keys ≠ [] → P w → (w.update pl n keys).2 = false ∧ P (w.update pl n keys).1)
    (ts : List TimeStep) (hts : ∀ t ∈ ts, t.stages ≠ []) (m : Machine) (he : m.HasElements) (hm : P m.ws) :
    (simulate pl ts m).2 = ([], List.replicate ts.length .failedToInitializeJacobian) := by
  have hrun : ∀ (s : Solve) (m : Machine), m.HasElements → P m.ws →
      ∃ m', s.run pl true m = (m', [], .failedToInitializeJacobian) ∧ m'.HasElements ∧ P m'.ws := by
    intro s m he hm
    have hn : m.n ≠ 0 := by
      unfold Machine.n
      have := he.2
      omega
    have hw : P (m.change? s.start).ws := by
      cases h : s.start <;> exact hm
    have he' := change?_elements s.start he
    obtain ⟨h1, h2⟩ := hP (m.change? s.start).ws (m.change? s.start).n _
      (indices_ne _ he'.1 ((m.change? s.start).env.positions (m.change? s.start).vel) (m.change? s.start).vel) hw
    refine ⟨((m.change? s.start).indices pl).1, ?_, he', h2⟩
    unfold Solve.run
    rw [if_neg hn]
    have h1 : ((m.change? s.start).indices pl).2 = false := h1
    simp [h1]
  have hstage : ∀ (g : Stage) (m : Machine), m.HasElements → P m.ws →
      ∃ m', g.run pl m = (m', [], .failedToInitializeJacobian) ∧ m'.HasElements ∧ P m'.ws := by
    intro g m he hm
    unfold Stage.run
    cases hg : g.solves with
    | nil =>
      obtain ⟨m', h, h2⟩ := hrun g.lastSolve
        (((m.enter g.timeStep g.x0 g.fm).change g.advance).updates [g.initial]) he hm
      refine ⟨m', ?_, h2⟩
      simp [solves, h]
    | cons b l =>
      obtain ⟨m', h, h2⟩ := hrun b.1
        (((m.enter g.timeStep g.x0 g.fm).change g.advance).updates [g.initial]) he hm
      refine ⟨m', ?_, h2⟩
      simp [solves, h]
  induction ts generalizing m with
  | nil => rfl
  | cons t ts ih =>
    obtain ⟨ht, hts⟩ := List.forall_mem_cons.1 hts
    obtain ⟨g, l, hg⟩ := List.exists_cons_of_ne_nil ht
    obtain ⟨m', h, he', hm'⟩ := hstage g (m.change t.set) he hm
    have hrt : t.run pl m = (m', [], .failedToInitializeJacobian) := by
      unfold TimeStep.run
      rw [hg]
      simp [stages, h]
    have := ih hts m' he' hm'
    simp only [simulate, hrt, this, List.nil_append, List.length_cons, List.replicate_succ]

/-- **C115.** Without a library nothing is solved: every step fails, and says why. -/
theorem direct_no_library (ts : List TimeStep) (hts : ∀ t ∈ ts, t.stages ≠ []) (m : Machine) (he : m.HasElements) :
    (simulate noLibrary ts m).2.1 = [] ∧
      (simulate noLibrary ts m).2.2 = List.replicate ts.length .failedToInitializeJacobian := by
  rw [refused_steps noLibrary (fun _ => True) (fun w n keys hk _ => ⟨?_, trivial⟩) ts hts m he trivial]
  · exact ⟨rfl, rfl⟩
  · simp [Workspace.update, hk, noLibrary]

theorem pruneSum_zero (l : List (Sparse.Key × ℝ)) (h : ∀ e ∈ l, e.2 = 0) : ∀ e ∈ Sparse.pruneSum l, e.2 = 0 := by
  induction l using Sparse.pruneSum.induct with
  | case1 => simp [Sparse.pruneSum]
  | case2 a => simpa [Sparse.pruneSum] using h
  | case3 a b t hab ih =>
    rw [Sparse.pruneSum, if_pos hab]
    refine ih (List.forall_mem_cons.2 ⟨?_, fun e he => h e (by simp [he])⟩)
    simp [h a (by simp), h b (by simp)]
  | case4 a b t hab ih =>
    rw [Sparse.pruneSum, if_neg hab]
    refine List.forall_mem_cons.2 ⟨h a (by simp), ih fun e he => h e (List.mem_cons_of_mem _ he)⟩

/-- **C115 (conditional finding).** The library is set up before the values of the Jacobian are known: the first matrix
that it is given has the right positions, and zeros everywhere. A library that refuses such a matrix, which is
singular, refuses it in every step: nothing is ever solved, whatever the Jacobian is. -/
theorem direct_singular_violated (pl : Platform) (hz : ∀ n A, (∀ e ∈ A, e.2 = 0) → pl.new n A = false)
    (ts : List TimeStep) (hts : ∀ t ∈ ts, t.stages ≠ []) (m : Machine) (hm : m.ws = .init) (he : m.HasElements) :
    (simulate pl ts m).2.1 = [] ∧
      (simulate pl ts m).2.2 = List.replicate ts.length .failedToInitializeJacobian := by
  rw [refused_steps pl (fun w => ∀ x ∈ w.vals, x = 0) (fun w n keys hk hw => ?_) ts hts m he
    (by rw [hm]; simp [Workspace.init])]
  · exact ⟨rfl, rfl⟩
  · have hv : ∀ x ∈ resize keys.length w.vals, x = 0 := by
      intro x hx
      unfold resize at hx
      rcases List.mem_append.1 hx with h | h
      · exact hw x (List.mem_of_mem_take h)
      · exact (List.mem_replicate.1 h).2
    have hr : pl.new n (Sparse.compress (fun k : Fin keys.length => layout pl.transpose (keys.get k))
        (fun k => (resize keys.length w.vals).getD k.val 0) n) = false := by
      refine hz _ _ (pruneSum_zero _ fun e he => ?_)
      obtain ⟨k, -, rfl⟩ := List.mem_map.1 he
      show (resize keys.length w.vals).getD k.val 0 = 0
      rw [List.getD_eq_getElem?_getD]
      cases h : (resize keys.length w.vals)[k.val]? with
      | none => rfl
      | some x => exact hv x (List.mem_of_getElem? h)
    have hk' : keys.isEmpty = false := by simpa using hk
    unfold Workspace.update
    simp only [hk', hr, Bool.false_eq_true, if_false]
    exact ⟨trivial, hv⟩

/-- **C115.** If the library takes every matrix, then there is always something to solve, and the Jacobian is always
initialized. -/
theorem direct_available (pl : Platform) (hnew : ∀ n A, pl.new n A = true) (ts : List TimeStep)
    (hts : ∀ t ∈ ts, t.Usual) (m : Machine) (he : m.HasElements) :
    ∀ o ∈ (simulate pl ts m).2.2, o = .done ∨ o = .otherError := by
  have hbody : ∀ (s : Solve) (m : Machine), m.ws.keys ≠ [] →
      (s.body pl m).2.2 = .done ∨ (s.body pl m).2.2 = .otherError := by
    intro s m h
    have hk : (m.updates (s.guess :: s.guesses)).ws.keys.isEmpty = false := by
      show m.ws.keys.isEmpty = false
      simpa using h
    unfold Solve.body
    simp only [hk, Bool.false_eq_true, if_false]
    cases s.error <;> simp
  have hrun : ∀ (s : Solve) (fresh : Bool) (m : Machine), s.Usual → (fresh = false → Ready pl m) → m.HasElements →
      (s.run pl fresh m).2.2 = .done ∨ (s.run pl fresh m).2.2 = .otherError := by
    intro s fresh m hs h he
    have hn : m.n ≠ 0 := by
      unfold Machine.n
      have := he.2
      omega
    unfold Solve.run
    rw [if_neg hn]
    cases fresh with
    | false => exact hbody s _ ((h rfl).change? hs.start).built.nonempty
    | true =>
      have he' := change?_elements s.start he
      have hok : ((m.change? s.start).indices pl).2 = true := by
        unfold Machine.indices Workspace.update
        dsimp only
        split_ifs with h1 h2
        · rfl
        · rfl
        · exact absurd (hnew _ _) h2
      simp only [if_true, hok]
      exact hbody s _ (indices_ready _ he' hok).built.nonempty
  have hsolves : ∀ (l : List (Solve × After)) (s : Solve) (a : After),
      (∀ b ∈ l, b.1.Usual ∧ Retunes b.2.bump) → s.Usual → ∀ (fresh : Bool) (m : Machine),
      (fresh = false → Ready pl m) → m.HasElements →
      (solves pl fresh l s a m).2.2 = .done ∨ (solves pl fresh l s a m).2.2 = .otherError := by
    intro l s a
    induction l with
    | nil =>
      intro _ hs fresh m h he
      unfold solves
      dsimp only
      split_ifs with hd
      · exact .inl rfl
      · exact hrun s fresh m hs h he
    | cons b l ih =>
      intro hl hs fresh m h he
      obtain ⟨hb, hl⟩ := List.forall_mem_cons.1 hl
      obtain ⟨h1, h2, h3⟩ := run_good b.1 hb.1 fresh m h he
      unfold solves
      dsimp only
      split_ifs with hd
      · refine ih hl hs b.2.refresh.isSome _ (fun hf => ?_) (change?_elements _ (change?_elements _ h3))
        rw [Option.isSome_eq_false_iff, Option.isNone_iff_eq_none] at hf
        rw [hf]
        exact (h2 hd).change? hb.2
      · exact hrun b.1 fresh m hb.1 h he
  have hstages : ∀ (l : List Stage) (m : Machine), (∀ g ∈ l, g.Usual) → m.HasElements →
      (stages pl l m).2.2 = .done ∨ (stages pl l m).2.2 = .otherError := by
    intro l
    induction l with
    | nil => exact fun _ _ _ => .inl rfl
    | cons g l ih =>
      intro m hl he
      obtain ⟨hg, hl⟩ := List.forall_mem_cons.1 hl
      have h1 := hsolves g.solves g.lastSolve g.lastAfter hg.solves hg.last true
        (((m.enter g.timeStep g.x0 g.fm).change g.advance).updates [g.initial]) (fun h => (by cases h)) he
      obtain ⟨-, h2⟩ := solves_good (pl := pl) g.solves g.lastSolve g.lastAfter hg.solves hg.last true
        (((m.enter g.timeStep g.x0 g.fm).change g.advance).updates [g.initial]) (fun h => (by cases h)) he
      unfold stages
      dsimp only
      split_ifs with hd
      · exact ih _ hl h2
      · exact h1
  induction ts generalizing m with
  | nil => exact fun o h => by simp [simulate] at h
  | cons t ts ih =>
    obtain ⟨ht, hts⟩ := List.forall_mem_cons.1 hts
    obtain ⟨-, h2⟩ := stages_good (pl := pl) t.stages ht (m.change t.set) he
    exact List.forall_mem_cons.2 ⟨hstages t.stages (m.change t.set) ht he, ih hts _ h2⟩

/-! ## Examples -/

/-- A free tetrahedron, before its first step. -/
def exMachine : Machine :=
  ⟨⟨looseTet, looseTet.cons, Projection.corner, 1⟩, still, .init⟩

/-- A stage with two solves. The first has two iterations, and is followed by a change of stiffness. -/
def exStage : Stage where
  timeStep := 1
  x0 := Projection.corner
  fm := 1
  advance := id
  initial := still
  solves := [(⟨none, still, [], fun _ => 2,
    [⟨Projection.push, Projection.push, [still], none, none⟩,
      ⟨Projection.push, still, [], some [Projection.push], none⟩], false⟩, ⟨some id, none⟩)]
  lastSolve := ⟨none, still, [], fun _ => 2, [⟨Projection.push, still, [], none, none⟩], false⟩
  lastAfter := ⟨none, none⟩

theorem exMachine_elements : exMachine.HasElements := by
  refine ⟨.inl ?_, ?_⟩
  · simp [exMachine, looseTet, Projection.dampedProblem]
  · show (4 : ℕ) ≠ 0
    norm_num

theorem id_retunes : Retunes (some id) := by
  rintro g hg A
  obtain rfl : id = g := by simpa using hg
  have h1 : ∀ l : List Pair, List.Forall₂ PairRetuned l l := fun l =>
    List.forall₂_same.2 fun A _ => ⟨A.kappa, rfl⟩
  have h2 : ∀ l : List Grip, List.Forall₂ GripRetuned l l := fun l =>
    List.forall₂_same.2 fun A _ => by
      cases A with
      | lagged A => exact ⟨A.pair.kappa, A.params.epsilon, rfl⟩
      | current A => exact ⟨A.pair.kappa, A.params.epsilon, rfl⟩
  exact ⟨h1 _, h2 _⟩

theorem exStep_usual : ∀ t ∈ [(⟨id, [exStage]⟩ : TimeStep)], t.Usual := by
  intro t ht g hg
  rw [List.mem_singleton] at ht
  subst ht
  rw [List.mem_singleton] at hg
  subst hg
  refine ⟨fun b hb => ?_, fun g hg => (by cases hg), fun t ht => ?_⟩
  · rw [List.mem_singleton.1 hb]
    refine ⟨⟨fun g hg => (by cases hg), fun t ht => ?_⟩, id_retunes⟩
    rcases List.mem_cons.1 ht with rfl | ht
    · exact fun g hg => (by cases hg)
    · rw [List.mem_singleton.1 ht]
      exact fun g hg => (by cases hg)
  · rw [List.mem_singleton.1 ht]
    exact fun g hg => (by cases hg)

theorem loose_proper : Proper looseTet :=
  ⟨loose_within, Projection.damped_distinct 0, le_refl 4⟩

theorem mac_run (s : Solve) (m : Machine) (he : m.HasElements) :
    (s.run mac true m).2.1 = (iterate mac s.precond s.iterations (s.guesses.getLastD s.guess)
      (((m.change? s.start).indices mac).1.updates (s.guess :: s.guesses))).2 := by
  have hn : m.n ≠ 0 := by
    unfold Machine.n
    have := he.2
    omega
  have he' := change?_elements s.start he
  have hok : ((m.change? s.start).indices mac).2 = true := by
    unfold Machine.indices Workspace.update
    dsimp only
    split_ifs with h1 h2
    · rfl
    · rfl
    · exact absurd rfl h2
  have hk : (((m.change? s.start).indices mac).1.updates (s.guess :: s.guesses)).ws.keys.isEmpty = false := by
    have := (indices_ready _ he' hok).built.nonempty
    show ((m.change? s.start).indices mac).1.ws.keys.isEmpty = false
    simpa using this
  unfold Solve.run
  rw [if_neg hn]
  simp only [if_true, hok]
  unfold Solve.body
  simp only [hk, Bool.false_eq_true, if_false]

/-- A linear system of the example. -/
theorem exMachine_run : ∃ r ∈ (simulate mac [⟨id, [exStage]⟩] exMachine).2.1,
    r.env = ⟨looseTet, looseTet.cons, Projection.corner, 1⟩ ∧ r.v = still ∧ (r.precond = fun _ => 2) ∧
      r.direction = Projection.push := by
  have h := mac_run ⟨none, still, [], fun _ => 2, [⟨Projection.push, Projection.push, [still], none, none⟩,
    ⟨Projection.push, still, [], some [Projection.push], none⟩], false⟩
    (((exMachine.enter 1 Projection.corner 1).change id).updates [still]) exMachine_elements
  have hm : ∀ r, r ∈ (Solve.run ⟨none, still, [], fun _ => 2,
      [⟨Projection.push, Projection.push, [still], none, none⟩,
        ⟨Projection.push, still, [], some [Projection.push], none⟩], false⟩ mac true
      (((exMachine.enter 1 Projection.corner 1).change id).updates [still])).2.1 →
      r ∈ (simulate mac [⟨id, [exStage]⟩] exMachine).2.1 := by
    intro r hr
    unfold simulate TimeStep.run
    dsimp only
    refine List.mem_append_left _ ?_
    unfold stages
    dsimp only
    have hg : r ∈ (exStage.run mac (exMachine.change id)).2.1 := by
      unfold Stage.run exStage
      dsimp only
      unfold solves
      dsimp only
      split_ifs
      · exact List.mem_append_left _ hr
      · exact hr
    split_ifs
    · exact List.mem_append_left _ hg
    · exact hg
  refine ⟨_, hm _ (by rw [h]; exact List.mem_cons_self), rfl, rfl, rfl, rfl⟩

/-- Theorems apply to the example: its linear systems are solved, with the derivative of the residual. -/
example : ∃ r ∈ (simulate mac [⟨id, [exStage]⟩] exMachine).2.1, Proper r.env.problem ∧ r.Current ∧
    (∀ Z ∈ r.env.problem.volumes, Z.approx = false) ∧ 0 ≤ r.env.problem.timeStep ∧ 0 < r.env.fm ∧
    r.env.problem.toProblem.Smooth (r.env.positions r.v) ∧ r.env.problem.toTouching.Smooth (r.env.positions r.v) ∧
    r.env.problem.Steady (r.env.positions r.v) r.v := by
  obtain ⟨r, hr, he, hv, -, -⟩ := exMachine_run
  have hP : Proper r.env.problem := by
    rw [he]
    exact loose_proper
  have hx : place Projection.corner (looseTet.dt * 1) still = Projection.corner := by
    funext i
    ext <;> simp [place, still]
  refine ⟨r, hr, hP, direct_system mac _ exStep_usual exMachine exMachine_elements r hr hP, ?_, ?_, ?_, ?_, ?_, ?_⟩
  · rw [he]
    simp [looseTet]
  · rw [he]
    exact zero_le_one
  · rw [he]
    exact one_pos
  · rw [he, hv]
    show (Projection.dampedProblem 0).Smooth (place Projection.corner (looseTet.dt * 1) still)
    rw [hx]
    exact Projection.damped_smooth 0
  · rw [he]
    intro C hC
    simp [looseTet] at hC
  · rw [he]
    exact ⟨fun L hL => by simp [looseTet] at hL, fun F hF => by simp [looseTet] at hF⟩

/-- A library that takes only matrices with an entry that is not zero. -/
def picky : Platform := ⟨false, fun _ A => A.any fun e => decide (e.2 ≠ 0)⟩

example : (simulate picky [⟨id, [exStage]⟩, ⟨id, [exStage]⟩] exMachine).2.2 =
    [.failedToInitializeJacobian, .failedToInitializeJacobian] := by
  refine (direct_singular_violated picky (fun n A h => ?_) _ (by simp) exMachine rfl exMachine_elements).2
  simpa [picky] using h

example : (simulate noLibrary [⟨id, [exStage]⟩] exMachine).2.2 = [.failedToInitializeJacobian] :=
  (direct_no_library _ (by simp) exMachine exMachine_elements).2

example : ∀ o ∈ (simulate mac [⟨id, [exStage]⟩] exMachine).2.2, o = .done ∨ o = .otherError :=
  direct_available mac (fun _ _ => rfl) _ exStep_usual exMachine exMachine_elements

end Softy.DirectSolve
