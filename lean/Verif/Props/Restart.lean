import Verif.Model.Restart
import Verif.Props.VelocityClear
import Verif.Props.Hooke
import Mathlib.Tactic.Linarith
import Mathlib.Tactic.Ring
import Mathlib.Tactic.FieldSimp
import Mathlib.Tactic.NormNum

/-!
# C101 — continuing a simulation from the mesh read from it
-/

noncomputable section

namespace Softy.Restart

open TimeInt VelocityClear

variable {V CV C : Type}

/-! ## Specification -/

/-- The mesh carries its rest shape: an attribute with reference positions on cell vertices or on vertices. -/
def HasRestShape (m : Mesh V CV C) : Prop :=
  (∃ d, m.cvattr "ref_cv" = some (.f32x3 d)) ∨
    m.cvattr "ref_cv" = none ∧ ∃ d, m.vattr "ref" = some (.f32x3 d)

/-- The mesh carries no rest shape: its positions are the rest shape. -/
def NoRestShape (m : Mesh V CV C) : Prop := m.cvattr "ref_cv" = none ∧ m.vattr "ref" = none

/-- Velocities are never cleared. -/
def NoClearing (cfg : Config V CV C) : Prop := cfg.freq ≤ 0 ∨ cfg.dt = 0

/-- A solver with the given settings is built from the mesh `M` and makes `n` successful steps, after which its state is
`s`. -/
def Reached (cfg : Config V CV C) (M : Mesh V CV C) (n : ℕ) (s : State V CV C) : Prop :=
  ∃ s0, build M = some s0 ∧ Run cfg n s0 s

/-- The meshes that can be read after `k` further successful steps. -/
def Reads (cfg : Config V CV C) (k : ℕ) (s : State V CV C) : Set (Mesh V CV C) :=
  {N | ∃ t, Run cfg k s t ∧ exported cfg t = N}

/-! ## A stage depends on the current state only -/

theorem stage_congr {p : Phys V} {dt : ℝ} {D E D1 : V × Fin 3 → Dof} (hc : ∀ i, (D i).cur = (E i).cur)
    (hx : ∀ i, p.free i.1 = false → D i = E i) (h : Stage .BE p dt D D1) : Stage .BE p dt E D1 := by
  obtain ⟨v, hv⟩ := h
  have eq : ∀ i, integrateStep .BE (E i) (v i) dt = integrateStep .BE (D i) (v i) dt := by
    intro i
    simp only [integrateStep, beStep, hc i]
  refine ⟨v, fun i => ?_⟩
  have hi := hv i
  simp only [eq, ← hc] at hi ⊢
  cases hf : p.free i.1
  · simp only [hf, Bool.false_eq_true, if_false] at hi ⊢
    rw [hi, hx i hf]
  · simp only [hf, if_true] at hi ⊢
    refine ⟨?_, ?_⟩
    · rw [← hi.1]
      simp [TimeInt.residual, SingleStep.explicitFactor, curVertexVel, lerpVel, curWeights, hc i]
    · rw [hi.2]
      simp [advance, hc i]

/-- The parts of two states that steps of backward Euler and SDIRK2 depend on. -/
structure Alike (cfg : Config V CV C) (s t : State V CV C) : Prop where
  basis : s.basis = t.basis
  cur : ∀ i, (s.dof i).cur = (t.dof i).cur
  fixed : ∀ i, (cfg.physics s.basis).free i.1 = false → s.dof i = t.dof i

theorem Alike.symm {cfg : Config V CV C} {s t : State V CV C} (h : Alike cfg s t) : Alike cfg t s :=
  ⟨h.basis.symm, fun i => (h.cur i).symm, fun i hi => (h.fixed i (by rw [h.basis]; exact hi)).symm⟩

/-- A state with the original mesh and the count of another one. -/
def as (t r : State V CV C) (n : ℕ) : State V CV C := { t with orig := r.orig, count := n }

theorem step_alike {cfg : Config V CV C} (hti : cfg.ti = .BE ∨ cfg.ti = .SDIRK2) {s r t : State V CV C}
    (ha : Alike cfg s r) (hs : clears cfg.freq cfg.dt (s.count + 1) = false)
    (hr : clears cfg.freq cfg.dt (r.count + 1) = false) (h : Step cfg s t) : Step cfg r (as t r (r.count + 1)) := by
  unfold Step at h ⊢
  rw [hs] at h
  rw [hr, ← ha.basis]
  rcases hti with e | e <;> rw [e] at h ⊢
  · simp only [TimeIntegration.numStages, Stages, e, TimeIntegration.stepIntegrator] at h ⊢
    obtain ⟨D1, h1, rfl⟩ := h
    refine ⟨D1, stage_congr ha.cur ha.fixed h1, ?_⟩
    simp only [as, ha.basis]
  · simp only [TimeIntegration.numStages, Stages, e, TimeIntegration.stepIntegrator] at h ⊢
    obtain ⟨D1, h1, D2, h2, rfl⟩ := h
    refine ⟨D1, stage_congr ha.cur ha.fixed h1, D2, h2, ?_⟩
    simp only [as, ha.basis]

theorem stages_count (cfg : Config V CV C) (p : Phys V) (clr : Bool) (n k : ℕ) (s t : State V CV C)
    (h : Stages cfg p clr n k s t) : t.count = s.count ∧ t.orig = s.orig ∧ t.basis = s.basis := by
  induction n generalizing k s with
  | zero =>
    obtain rfl := h
    exact ⟨rfl, rfl, rfl⟩
  | succ n ih =>
    obtain ⟨D1, -, h⟩ := h
    have := ih (k + 1) _ h
    exact this

theorem step_count {cfg : Config V CV C} {s t : State V CV C} (h : Step cfg s t) :
    t.count = s.count + 1 ∧ t.orig = s.orig ∧ t.basis = s.basis := stages_count _ _ _ _ _ _ _ h

theorem run_count {cfg : Config V CV C} {n : ℕ} {s t : State V CV C} (h : Run cfg n s t) :
    t.count = s.count + n ∧ t.orig = s.orig ∧ t.basis = s.basis := by
  induction n generalizing s with
  | zero =>
    obtain rfl := h
    exact ⟨rfl, rfl, rfl⟩
  | succ n ih =>
    obtain ⟨s1, h1, h⟩ := h
    obtain ⟨a, b, c⟩ := ih h
    obtain ⟨a', b', c'⟩ := step_count h1
    exact ⟨by omega, b.trans b', c.trans c'⟩

theorem run_alike {cfg : Config V CV C} (hti : cfg.ti = .BE ∨ cfg.ti = .SDIRK2) (hf : NoClearing cfg) {k : ℕ}
    {s r t : State V CV C} (ha : Alike cfg s r) (hs : s.count + (k + 1) < 2 ^ 32 - 1) (hr : r.count + (k + 1) < 2 ^ 32 - 1)
    (h : Run cfg (k + 1) s t) : Run cfg (k + 1) r (as t r (r.count + (k + 1))) := by
  induction k generalizing s r with
  | zero =>
    obtain ⟨s1, h1, rfl⟩ := h
    exact ⟨_, step_alike hti ha (clear_never _ _ hf _ (by omega) (by omega))
      (clear_never _ _ hf _ (by omega) (by omega)) h1, rfl⟩
  | succ k ih =>
    obtain ⟨s1, h1, h⟩ := h
    have h1' := step_alike hti ha (clear_never _ _ hf _ (by omega) (by omega))
      (clear_never _ _ hf _ (by omega) (by omega)) h1
    refine ⟨_, h1', ?_⟩
    have := ih (s := s1) (r := as s1 r (r.count + 1)) ⟨rfl, fun _ => rfl, fun _ _ => rfl⟩
      (by rw [(step_count h1).1]; omega) (by simp only [as]; omega) h
    have e : r.count + (k + 1 + 1) = (as s1 r (r.count + 1)).count + (k + 1) := by
      simp only [as]
      omega
    rw [e]
    exact this

/-! ## What a mesh holds -/

/-- A state as a solver leaves it after steps in which velocities are not cleared. -/
structure Plain (cfg : Config V CV C) (s : State V CV C) : Prop where
  shown : ∀ i, s.shown i = (s.dof i).cur
  guess : ∀ i, s.guess i = (s.dof i).cur.dq
  fixed : ∀ i, (cfg.physics s.basis).free i.1 = false → s.dof i = Dof.fresh (s.dof i).cur.q (s.dof i).cur.dq

theorem stages_plain (cfg : Config V CV C) (n k : ℕ) (s t : State V CV C) (hs : Plain cfg s)
    (h : Stages cfg (cfg.physics s.basis) false n k s t) : Plain cfg t := by
  induction n generalizing k s with
  | zero =>
    obtain rfl := h
    exact hs
  | succ n ih =>
    obtain ⟨D1, ⟨v, hv⟩, h⟩ := h
    refine ih (k + 1) { s with dof := D1, shown := fun i => (D1 i).cur, guess := fun i => (D1 i).cur.dq }
      ⟨fun _ => rfl, fun _ => rfl, fun i hi => ?_⟩ h
    have := hv i
    have hi' : (cfg.physics s.basis).free i.1 = false := hi
    simp only [hi', Bool.false_eq_true, if_false] at this
    show D1 i = Dof.fresh (D1 i).cur.q (D1 i).cur.dq
    rw [this]
    exact hs.fixed i hi'

theorem run_plain {cfg : Config V CV C} (hf : NoClearing cfg) {n : ℕ} {s t : State V CV C} (hs : Plain cfg s)
    (hc : s.count + n < 2 ^ 32 - 1) (h : Run cfg n s t) : Plain cfg t := by
  induction n generalizing s with
  | zero =>
    obtain rfl := h
    exact hs
  | succ n ih =>
    obtain ⟨s1, h1, h⟩ := h
    have e := (step_count h1).1
    unfold Step at h1
    rw [clear_never _ _ hf _ (by omega) (by omega)] at h1
    refine ih (stages_plain cfg _ _ { s with count := s.count + 1 } _ ?_ h1) (by omega) h
    exact ⟨hs.shown, hs.guess, hs.fixed⟩

theorem build_plain (cfg : Config V CV C) {M : Mesh V CV C} {s : State V CV C} (h : build M = some s) :
    Plain cfg s ∧ s.count = 0 ∧ s.orig = M ∧ ∃ ref, initRef M = some ref ∧ s.basis = seen M ref := by
  unfold build at h
  rw [Option.map_eq_some_iff] at h
  obtain ⟨ref, h1, rfl⟩ := h
  exact ⟨⟨fun _ => rfl, fun _ => rfl, fun _ _ => rfl⟩, rfl, rfl, ref, h1, rfl⟩

theorem exported_vel (cfg : Config V CV C) (s : State V CV C) (v : V) (k : Fin 3) :
    initVel (exported cfg s) v k = (s.shown (v, k)).dq := by
  simp [initVel, exported]

/-- Writing results to a mesh does not change the attributes a solver reads. -/
theorem seen_exported (cfg : Config V CV C) (s : State V CV C) (ref : CV → R3) :
    seen (exported cfg s) ref = seen s.orig ref := by
  unfold seen exported
  simp only [Seen.mk.injEq, true_and, and_true]
  funext n
  obtain ⟨n, hn⟩ := n
  simp only [readV, List.mem_cons, List.not_mem_nil, or_false] at hn
  rcases hn with rfl | rfl | rfl | rfl <;> simp [reported]

theorem initRef_exported (cfg : Config V CV C) (s : State V CV C) (h : HasRestShape s.orig) :
    initRef (exported cfg s) = initRef s.orig := by
  rcases h with ⟨d, h⟩ | ⟨h, d, h'⟩ <;> simp [initRef, exported, reported, h]
  simp [h']

theorem initRef_exported_none (cfg : Config V CV C) (s : State V CV C) (h : NoRestShape s.orig) :
    initRef (exported cfg s) = some fun c => (exported cfg s).pos (s.orig.corner c) := by
  obtain ⟨h, h'⟩ := h
  simp [initRef, exported, reported, h, h']

/-- A mesh read from a solver shows the same whatever results were in the original mesh. -/
theorem exported_as (cfg : Config V CV C) (t s r : State V CV C) (n : ℕ) (ht : t.orig = s.orig)
    (hr : r.orig = exported cfg s) : exported cfg (as t r n) = exported cfg t := by
  ext1
  · simp [as, exported, ht, hr]
  · simp [as, exported]
  · funext n
    simp only [as, exported, hr, ht]
    by_cases h1 : n = "p64"
    · simp [h1]
    by_cases h2 : n = "vel"
    · simp [h2]
    by_cases h3 : n ∈ reported
    · simp [h1, h2, h3]
    · simp [h1, h2, h3]
  · simp [as, exported, ht, hr]
  · simp [as, exported, ht, hr]

/-- The solver built from the mesh read from another one, whose mesh has a rest shape or not. -/
theorem rebuild {cfg : Config V CV C} {M : Mesh V CV C} (s : State V CV C) (ho : s.orig = M) {ref : CV → R3}
    (h : initRef (exported cfg s) = some ref) : ∃ r, build (exported cfg s) = some r ∧ r.orig = exported cfg s ∧
      r.basis = seen M ref ∧ r.count = 0 ∧ (∀ i, r.shown i = s.shown i) ∧ (∀ i, r.guess i = (s.shown i).dq) ∧
      ∀ i, r.dof i = Dof.fresh (s.shown i).q (s.shown i).dq := by
  unfold build
  rw [h]
  refine ⟨_, rfl, rfl, ?_, rfl, fun i => ?_, fun i => ?_, fun i => ?_⟩
  · show seen (exported cfg s) ref = seen M ref
    rw [seen_exported, ho]
  · show (⟨(exported cfg s).pos i.1 i.2, initVel (exported cfg s) i.1 i.2⟩ : GState) = s.shown i
    rw [exported_vel]
    rfl
  · show initVel (exported cfg s) i.1 i.2 = (s.shown i).dq
    rw [exported_vel]
  · show Dof.fresh ((exported cfg s).pos i.1 i.2) (initVel (exported cfg s) i.1 i.2) = _
    rw [exported_vel]
    rfl

/-! ## A new solver -/

/-- C101: a new solver shows the positions of the mesh and its velocities in either precision, zero without such an
attribute. -/
theorem start_shown (cfg : Config V CV C) (M : Mesh V CV C) (s : State V CV C) (h : build M = some s) :
    (exported cfg s).pos = M.pos ∧
      (∀ d, M.vattr "vel" = some (.f64x3 d) ∨ M.vattr "vel" = some (.f32x3 d) →
        (exported cfg s).vattr "vel" = some (.f64x3 d)) ∧
      (M.vattr "vel" = none → (exported cfg s).vattr "vel" = some (.f64x3 fun _ _ => 0)) := by
  unfold build at h
  rw [Option.map_eq_some_iff] at h
  obtain ⟨ref, -, rfl⟩ := h
  refine ⟨rfl, fun d hd => ?_, fun hd => ?_⟩
  · rcases hd with hd | hd <;> simp [exported, initVel, hd]
  · simp [exported, initVel, hd]

/-- C101: the rest shape of a cell is that of the attribute on cell vertices, which may differ between cells at the same
vertex, else that of the attribute on vertices, else the mesh. -/
theorem start_rest (M : Mesh V CV C) (s : State V CV C) (h : build M = some s) :
    (∀ d, M.cvattr "ref_cv" = some (.f32x3 d) → s.basis.ref = d) ∧
      (∀ d, M.cvattr "ref_cv" = none → M.vattr "ref" = some (.f32x3 d) → s.basis.ref = fun c => d (M.corner c)) ∧
      (NoRestShape M → s.basis.ref = fun c => M.pos (M.corner c)) := by
  unfold build at h
  rw [Option.map_eq_some_iff] at h
  obtain ⟨ref, hr, rfl⟩ := h
  refine ⟨fun d hd => ?_, fun d hn hd => ?_, fun hn => ?_⟩
  · simp only [initRef, hd, Option.some.injEq] at hr
    rw [← hr]
    rfl
  · simp only [initRef, hn, hd, Option.some.injEq] at hr
    rw [← hr]
    rfl
  · simp only [initRef, hn.1, hn.2, Option.some.injEq] at hr
    rw [← hr]
    rfl

/-- C101: a solver is built from every mesh with or without a rest shape. -/
theorem start_built (M : Mesh V CV C) (h : HasRestShape M ∨ NoRestShape M) : ∃ s, build M = some s := by
  unfold build
  rcases h with (⟨d, h⟩ | ⟨h, d, h'⟩) | ⟨h, h'⟩
  · simp [initRef, h]
  · simp [initRef, h, h']
  · simp [initRef, h, h']

/-! ## Continuing from the mesh -/

/-- C101 (partial): let the mesh of a simulation carry its rest shape, let velocities not be cleared and let steps be
those of backward Euler or SDIRK2. After any number of steps, a solver can be built from the mesh read, it starts with the
same positions, the same velocities and the same initial guess, and after each number of further steps precisely the
meshes can be read that could be read without the restart. Missing: meshes without a rest shape, the other integrators
and the clearing of velocities, for all of which this is false; contacts; the bending of shells. -/
theorem restart_partial (cfg : Config V CV C) (hti : cfg.ti = .BE ∨ cfg.ti = .SDIRK2) (hf : NoClearing cfg)
    (M : Mesh V CV C) (hM : HasRestShape M) (n : ℕ) (s : State V CV C) (hs : Reached cfg M n s) (hn : n < 2 ^ 32 - 1) :
    ∃ r, build (exported cfg s) = some r ∧ (exported cfg r).pos = (exported cfg s).pos ∧
      (exported cfg r).vattr "vel" = (exported cfg s).vattr "vel" ∧ r.guess = s.guess ∧
      ∀ k, 0 < k → n + k < 2 ^ 32 - 1 → Reads cfg k r = Reads cfg k s := by
  obtain ⟨s0, h0, hrun⟩ := hs
  obtain ⟨hp, hc, ho, ref, hr, hb⟩ := build_plain cfg h0
  obtain ⟨e1, e2, e3⟩ := run_count hrun
  have hp' := run_plain hf hp (by omega) hrun
  rw [ho] at e2
  rw [hb] at e3
  have hr' : initRef (exported cfg s) = some ref := by
    rw [initRef_exported cfg s (by rw [e2]; exact hM), e2, hr]
  obtain ⟨r, a1, a2, a3, a4, a5, a6, a7⟩ := rebuild s e2 hr'
  have ha : Alike cfg s r := by
    refine ⟨e3.trans a3.symm, fun i => ?_, fun i hi => ?_⟩
    · rw [a7 i, ← hp'.shown i]
      rfl
    · rw [a7 i, hp'.shown i]
      exact hp'.fixed i hi
  refine ⟨r, a1, ?_, ?_, ?_, fun k hk hnk => ?_⟩
  · funext v k
    simp [exported, a5]
  · simp [exported, a5]
  · funext i
    rw [a6, hp'.guess, hp'.shown]
  · obtain ⟨k, rfl⟩ : ∃ j, k = j + 1 := ⟨k - 1, by omega⟩
    ext N
    constructor
    · rintro ⟨t, ht, rfl⟩
      refine ⟨_, run_alike hti hf ha.symm (by omega) (by omega) ht, ?_⟩
      have hto := (run_count ht).2.1
      have : t = as (as t s (s.count + (k + 1))) r t.count := by
        simp only [as, ← hto]
      conv_rhs => rw [this]
      exact (exported_as cfg (as t s (s.count + (k + 1))) s r _ rfl a2).symm
    · rintro ⟨t, ht, rfl⟩
      exact ⟨_, run_alike hti hf ha (by omega) (by omega) ht,
        exported_as cfg t s r _ (run_count ht).2.1 a2⟩

/-- A vertex on a spring to its reference position. -/
def springConfig (ti : TimeIntegration) : Config Unit Unit Unit where
  ti := ti
  dt := 1
  freq := 0
  physics b := ⟨fun _ => true, fun _ => 1, fun q _ i => b.ref () i.2 - q i⟩
  report _ _ _ _ := .int fun _ => 0

/-- The mesh of the spring, away from its rest shape. -/
def springMesh : Mesh Unit Unit Unit :=
  ⟨id, fun _ _ => 1, fun n => if n = "ref" then some (.f32x3 fun _ _ => 0) else none, fun _ => none, fun _ => none⟩

/-- The spring moves towards its rest shape, and it can be read again after each further step. -/
example : HasRestShape springMesh ∧ NoClearing (springConfig .BE) ∧
    ∃ s, Reached (springConfig .BE) springMesh 1 s ∧ (exported (springConfig .BE) s).pos = (fun _ _ => 1 / 2) ∧
      ∀ k, (Reads (springConfig .BE) k s).Nonempty := by
  have next : ∀ s : State Unit Unit Unit, ∃ t, Step (springConfig .BE) s t := by
    intro s
    unfold Step
    generalize clears (springConfig .BE).freq (springConfig .BE).dt (s.count + 1) = c
    refine ⟨_, fun i => advance (s.dof i) ((s.basis.ref () i.2 + (s.dof i).cur.q + (s.dof i).cur.dq) / 2)
      ((s.basis.ref () i.2 - (s.dof i).cur.q + (s.dof i).cur.dq) / 2)
      (-(s.basis.ref () i.2 - (s.basis.ref () i.2 + (s.dof i).cur.q + (s.dof i).cur.dq) / 2)),
      ⟨fun i => (s.basis.ref () i.2 - (s.dof i).cur.q + (s.dof i).cur.dq) / 2, fun i => ?_⟩, rfl⟩
    have e : (s.basis.ref () i.2 - (s.dof i).cur.q + (s.dof i).cur.dq) / 2 + (s.dof i).cur.q =
      (s.basis.ref () i.2 + (s.dof i).cur.q + (s.dof i).cur.dq) / 2 := by ring
    simp only [springConfig, if_true, TimeIntegration.stepIntegrator, integrateStep, beStep, mul_one, e]
    refine ⟨?_, trivial⟩
    simp only [TimeInt.residual, SingleStep.explicitFactor, SingleStep.implicitFactor, curVertexVel, lerpVel, curWeights,
      lt_irrefl, if_false]
    ring
  have runs : ∀ (k : ℕ) (s : State Unit Unit Unit), ∃ t, Run (springConfig .BE) k s t := by
    intro k
    induction k with
    | zero => exact fun s => ⟨s, rfl⟩
    | succ k ih =>
      intro s
      obtain ⟨s1, h1⟩ := next s
      obtain ⟨t, h⟩ := ih s1
      exact ⟨t, s1, h1, h⟩
  have hb : build springMesh = some
      { orig := springMesh
        basis := seen springMesh fun _ _ => 0
        dof := fun _ => Dof.fresh 1 0
        shown := fun _ => ⟨1, 0⟩
        guess := fun _ => 0
        count := 0 } := by
    simp [build, initRef, initVel, springMesh]
  have hc : clears (springConfig .BE).freq (springConfig .BE).dt (0 + 1) = false :=
    clear_never _ _ (.inl le_rfl) _ (by norm_num) (by norm_num)
  refine ⟨.inr ⟨rfl, fun _ _ => 0, by simp [springMesh]⟩, .inl le_rfl,
    { orig := springMesh
      basis := seen springMesh fun _ _ => 0
      dof := fun _ => ⟨⟨1, 0⟩, ⟨1 / 2, -1 / 2⟩, 1 / 2⟩
      shown := fun _ => ⟨1 / 2, -1 / 2⟩
      guess := fun _ => -1 / 2
      count := 1 }, ⟨_, hb, _, ?_, rfl⟩, rfl, fun k => ?_⟩
  · unfold Step
    simp only
    rw [hc]
    show Stages (springConfig .BE) _ false 1 0 _ _
    refine ⟨fun _ => ⟨⟨1, 0⟩, ⟨1 / 2, -1 / 2⟩, 1 / 2⟩, ⟨fun _ => -1 / 2, fun i => ?_⟩, rfl⟩
    norm_num [springConfig, TimeIntegration.stepIntegrator, integrateStep, beStep, Dof.fresh, TimeInt.residual,
      SingleStep.explicitFactor, SingleStep.implicitFactor, curVertexVel, lerpVel, curWeights, seen, advance]
  · obtain ⟨t, ht⟩ := runs k
      { orig := springMesh
        basis := seen springMesh fun _ _ => 0
        dof := fun _ => ⟨⟨1, 0⟩, ⟨1 / 2, -1 / 2⟩, 1 / 2⟩
        shown := fun _ => ⟨1 / 2, -1 / 2⟩
        guess := fun _ => -1 / 2
        count := 1 }
    exact ⟨_, t, ht, rfl⟩

/-! ## Disagreements -/

/-- C101 (violated): if the mesh carries no rest shape, as most do, neither does the mesh read from the solver: the
restarted simulation takes the deformed shape for the rest shape. -/
theorem rest_shape_violated (cfg : Config V CV C) (M : Mesh V CV C) (hM : NoRestShape M) (n : ℕ) (s : State V CV C)
    (hs : Reached cfg M n s) :
    s.basis.ref = (fun c => M.pos (M.corner c)) ∧
      ∃ r, build (exported cfg s) = some r ∧ r.basis.ref = fun c => (exported cfg s).pos (M.corner c) := by
  obtain ⟨s0, h0, hrun⟩ := hs
  obtain ⟨hp, hc, ho, ref, hr, hb⟩ := build_plain cfg h0
  obtain ⟨e1, e2, e3⟩ := run_count hrun
  rw [ho] at e2
  rw [hb] at e3
  have hi := initRef_exported_none cfg s (by rw [e2]; exact hM)
  constructor
  · obtain ⟨h1, h2⟩ := hM
    simp only [initRef, h1, h2, Option.some.injEq] at hr
    rw [e3, ← hr]
    rfl
  · obtain ⟨r, a1, a2, a3, -⟩ := rebuild s e2 hi
    refine ⟨r, a1, ?_⟩
    rw [a3, e2]
    rfl

/-! ### A tetrahedron -/

/-- Positions as vectors. -/
def verts (x : Fin 4 → R3) : Tet.Verts := fun i => ⟨x i 0, x i 1, x i 2⟩

/-- A coordinate of a vector. -/
def coord (v : V3 ℝ) (k : Fin 3) : ℝ := ![v.x, v.y, v.z] k

/-- A solid of one tetrahedron of the given material and masses of vertices, with nothing but elastic forces: those the
reference positions give. Backward Euler. -/
def tetConfig (m : Material.Base Material.Solid) (mass dt : ℝ) : Config (Fin 4) (Fin 4) Unit where
  ti := .BE
  dt := dt
  freq := 0
  physics b :=
    { free := fun _ => true
      mass := fun _ => mass
      force := fun q _ i =>
        match Hooke.solidGradient (verts b.ref) {} m (verts fun v k => q (v, k)) with
        | some g => -coord (g i.1) i.2
        | none => 0 }
  report _ _ _ _ := .int fun _ => 0

/-- A tetrahedron with positions and velocities. -/
def tetMesh (X v : Fin 4 → R3) : Mesh (Fin 4) (Fin 4) Unit :=
  ⟨id, X, fun n => if n = "vel" then some (.f64x3 v) else none, fun _ => none, fun _ => none⟩

/-- The elastic forces on a tetrahedron according to a solver. -/
def elastic (m : Material.Base Material.Solid) (mass dt : ℝ) (s : State (Fin 4) (Fin 4) Unit) (x : Fin 4 → R3) :
    Fin 4 × Fin 3 → ℝ :=
  ((tetConfig m mass dt).physics s.basis).force (fun i => x i.1 i.2) 0

/-- C101 (violated): for every tetrahedron at rest and every other shape of positive volume there are initial velocities
with which a step deforms the one to the other, and in the simulation restarted from the mesh no elastic forces are left,
whatever they were before. -/
theorem relaxed_violated (m : Material.Base Material.Solid) (e : Material.Elasticity)
    (hm : m.properties.deformable.elasticity = some e) (hl : 0 < e.lame.1) (mass dt : ℝ) (hmass : mass ≠ 0) (hdt : dt ≠ 0)
    (X x : Fin 4 → R3) (hx : 0 < Volume.tetVolume (verts x)) :
    ∃ v s r, Reached (tetConfig m mass dt) (tetMesh X v) 1 s ∧ (exported (tetConfig m mass dt) s).pos = x ∧
      build (exported (tetConfig m mass dt) s) = some r ∧
      (∀ g, Hooke.solidGradient (verts X) {} m (verts x) = some g →
        elastic m mass dt s x = fun i => -coord (g i.1) i.2) ∧
      elastic m mass dt r x = 0 := by
  set cfg := tetConfig m mass dt with hcfg
  set F : Fin 4 × Fin 3 → ℝ := fun i =>
    match Hooke.solidGradient (verts X) {} m (verts x) with
    | some g => -coord (g i.1) i.2
    | none => 0 with hF
  set u : Fin 4 → R3 := fun v k => (x v k - X v k) / dt with hu
  set v0 : Fin 4 → R3 := fun v k => u v k - dt * F (v, k) / mass with hv0
  have hM : NoRestShape (tetMesh X v0) := ⟨rfl, rfl⟩
  have hb : build (tetMesh X v0) = some
      { orig := tetMesh X v0
        basis := seen (tetMesh X v0) X
        dof := fun i => Dof.fresh (X i.1 i.2) (v0 i.1 i.2)
        shown := fun i => ⟨X i.1 i.2, v0 i.1 i.2⟩
        guess := fun i => v0 i.1 i.2
        count := 0 } := by
    simp [build, initRef, initVel, tetMesh]
  have hc : clears cfg.freq cfg.dt (0 + 1) = false := clear_never _ _ (.inl le_rfl) _ (by norm_num) (by norm_num)
  have hq : ∀ i : Fin 4 × Fin 3, u i.1 i.2 * (dt * 1) + X i.1 i.2 = x i.1 i.2 := by
    intro i
    simp only [hu]
    field_simp
    ring
  have hr : Reached cfg (tetMesh X v0) 1
      { orig := tetMesh X v0
        basis := seen (tetMesh X v0) X
        dof := fun i => ⟨⟨X i.1 i.2, v0 i.1 i.2⟩, ⟨x i.1 i.2, u i.1 i.2⟩, -F i⟩
        shown := fun i => ⟨x i.1 i.2, u i.1 i.2⟩
        guess := fun i => u i.1 i.2
        count := 1 } := by
    refine ⟨_, hb, _, ?_, rfl⟩
    unfold Step
    simp only
    rw [hc]
    show Stages cfg _ false 1 0 _ _
    refine ⟨fun i => ⟨⟨X i.1 i.2, v0 i.1 i.2⟩, ⟨x i.1 i.2, u i.1 i.2⟩, -F i⟩, ⟨fun i => u i.1 i.2, fun i => ?_⟩, rfl⟩
    simp only [hcfg, tetConfig, if_true, TimeIntegration.stepIntegrator, integrateStep, beStep, Dof.fresh, hq]
    constructor
    · simp only [TimeInt.residual, SingleStep.explicitFactor, SingleStep.implicitFactor, curVertexVel, lerpVel, curWeights,
        lt_irrefl, if_false, hv0]
      show -F i * _ + _ = 0
      field_simp
      ring
    · rfl
  obtain ⟨-, r, hr1, hr2⟩ := rest_shape_violated cfg _ hM 1 _ hr
  refine ⟨v0, _, r, hr, rfl, hr1, fun g hg => ?_, ?_⟩
  · funext i
    show (match Hooke.solidGradient (verts X) {} m (verts x) with
      | some g => -coord (g i.1) i.2
      | none => 0) = _
    rw [hg]
  · have hr3 : r.basis.ref = x := hr2
    have h := Hooke.solid_responds (X := verts x) (a := {}) (m := m) (l := e.lame.1) (u := e.lame.2) hx
      (by simp [Hooke.elemLambda, hm]) (by simp [Hooke.elemMu, hm])
    have h0 : Hooke.solidGradient (verts x) {} m (verts x) = some 0 := by
      cases hmod : Material.solidModel m with
      | neoHookean => exact (h.1 hmod).1
      | stableNeoHookean => exact (h.2 hmod hl).1
    funext i
    show (match Hooke.solidGradient (verts r.basis.ref) {} m (verts x) with
      | some g => -coord (g i.1) i.2
      | none => 0) = _
    rw [hr3, h0]
    obtain ⟨i, k⟩ := i
    fin_cases k <;> simp [coord]

/-- A tetrahedron stretched to twice its size pulls back before the restart. -/
example : ∃ (m : Material.Base Material.Solid) (e : Material.Elasticity) (X x : Fin 4 → R3) (g : Tet.Verts),
    m.properties.deformable.elasticity = some e ∧ 0 < e.lame.1 ∧ 0 < Volume.tetVolume (verts X) ∧
    0 < Volume.tetVolume (verts x) ∧ Hooke.solidGradient (verts X) {} m (verts x) = some g ∧ (g 0).x = 349 / 78 := by
  set X : Fin 4 → R3 := ![![1, 0, 0], ![0, 1, 0], ![0, 0, 1], ![0, 0, 0]] with hX
  have hv : Volume.tetVolume (verts X) = 1 / 6 := by
    simp [Volume.tetVolume, V3.dot, V3.cross, verts, hX]
  have hv' : Volume.tetVolume (verts fun i k => 2 * X i k) = 4 / 3 := by
    simp [Volume.tetVolume, V3.dot, V3.cross, verts, hX]
    norm_num
  have hs : Tet.shape (verts X) = ⟨⟨1, 0, 0⟩, ⟨0, 1, 0⟩, ⟨0, 0, 1⟩⟩ := by
    ext <;> simp [Tet.shape, verts, hX]
  have hs' : Tet.shape (verts fun i k => 2 * X i k) = ⟨⟨2, 0, 0⟩, ⟨0, 2, 0⟩, ⟨0, 0, 2⟩⟩ := by
    ext <;> simp [Tet.shape, verts, hX]
  refine ⟨⟨1, false, some ⟨.stableNeoHookean, .bulkShear (7 / 8) (3 / 4)⟩, some 1, 0⟩,
    ⟨.stableNeoHookean, .bulkShear (7 / 8) (3 / 4)⟩, X, fun i k => 2 * X i k, ?_⟩
  obtain ⟨D, hD⟩ := Hooke.refTet_pos (X := verts X) (by rw [hv]; norm_num)
  have hD1 := (Hooke.refTet_some hD).2.2
  have hD2 : D = ⟨⟨1, 0, 0⟩, ⟨0, 1, 0⟩, ⟨0, 0, 1⟩⟩ := by
    rw [hs] at hD1
    have h := hD1
    simp only [M3.ext_iff, V3.ext_iff] at h ⊢
    simpa [M3.mul_def, M3.mul, M3.diag, M3.mulVec, M3.transpose, V3.dot] using h
  have hg : Hooke.solidGradient (verts X) {}
      ⟨1, false, some ⟨.stableNeoHookean, .bulkShear (7 / 8) (3 / 4)⟩, some 1, 0⟩ (verts fun i k => 2 * X i k) =
      Tet.snhGradient ⟨⟨⟨2, 0, 0⟩, ⟨0, 2, 0⟩, ⟨0, 0, 2⟩⟩, ⟨⟨1, 0, 0⟩, ⟨0, 1, 0⟩, ⟨0, 0, 1⟩⟩, 1 / 6, 1, 1⟩ := by
    have : Hooke.solidElem (verts X) {} ⟨1, false, some ⟨.stableNeoHookean, .bulkShear (7 / 8) (3 / 4)⟩, some 1, 0⟩ =
        some ⟨⟨⟨1, 0, 0⟩, ⟨0, 1, 0⟩, ⟨0, 0, 1⟩⟩, 1 / 6, 1, 1⟩ := by
      simp only [Hooke.solidElem, hD, Hooke.elemLambda, Hooke.elemMu, Option.map_some, Material.Elasticity.lame,
        Material.Params.lambda, Material.Params.mu, hv, hD2]
      norm_num
    simp only [Hooke.solidGradient, this, Material.solidModel, Tet.Ref.at, hs']
  have hgx : ∃ g, Tet.snhGradient ⟨⟨⟨2, 0, 0⟩, ⟨0, 2, 0⟩, ⟨0, 0, 2⟩⟩, ⟨⟨1, 0, 0⟩, ⟨0, 1, 0⟩, ⟨0, 0, 1⟩⟩, 1 / 6, 1, 1⟩ =
      some g ∧ (g 0).x = 349 / 78 := by
    unfold Tet.snhGradient
    rw [if_neg one_ne_zero]
    refine ⟨_, rfl, ?_⟩
    simp [Tet.spread, Tet.Elem.F, M3.mul_def, M3.mul, M3.normSq, M3.det, M3.cof, M3.transpose, M3.mulVec, V3.dot,
      V3.cross]
    norm_num
  obtain ⟨g, h1, h2⟩ := hgx
  refine ⟨g, rfl, ?_, by rw [hv]; norm_num, by rw [hv']; norm_num, hg.trans h1, h2⟩
  simp only [Material.Elasticity.lame, Material.Params.lambda, Material.Params.mu]
  norm_num

/-! ### One vertex -/

/-- A vertex without elements in a constant field of force. -/
def pointConfig (ti : TimeIntegration) (dt freq mass : ℝ) (g : R3) : Config Unit Empty Empty where
  ti := ti
  dt := dt
  freq := freq
  physics _ := ⟨fun _ => true, fun _ => mass, fun _ _ i => g i.2⟩
  report _ _ _ _ := .int fun _ => 0

/-- A vertex with its velocity. -/
def pointMesh (q v : R3) : Mesh Unit Empty Empty :=
  ⟨nofun, fun _ => q, fun n => if n = "vel" then some (.f64x3 fun _ => v) else none, fun _ => none, fun _ => none⟩

/-- There are such meshes, and in all of them the vertex is at `q`. -/
def PositionIn (S : Set (Mesh Unit Empty Empty)) (q : R3) : Prop := S.Nonempty ∧ ∀ N ∈ S, N.pos () = q

/-- There are such meshes, and in all of them the vertex has the velocity `v`. -/
def VelocityIn (S : Set (Mesh Unit Empty Empty)) (v : R3) : Prop :=
  S.Nonempty ∧ ∀ N ∈ S, N.vattr "vel" = some (.f64x3 fun _ => v)

/-- What a stage makes of a degree of freedom under the force `g`. -/
def nextDof (s : SingleStep) (mass dt g : ℝ) (d : Dof) : Dof :=
  let v := curVertexVel s d - TimeInt.residual s mass dt d (curVertexVel s d) (-g) / mass
  advance d (integrateStep s d v dt) v (-g)

theorem residual_root (s : SingleStep) (mass dt g : ℝ) (hm : mass ≠ 0) (d : Dof) (v : ℝ) :
    TimeInt.residual s mass dt d v (-g) = 0 ↔
      v = curVertexVel s d - TimeInt.residual s mass dt d (curVertexVel s d) (-g) / mass := by
  simp only [TimeInt.residual, sub_self, mul_zero, add_zero]
  generalize (if s.explicitFactor > 0 then (-g * s.implicitFactor + d.prevForce * s.explicitFactor) * dt
    else -g * (dt * s.implicitFactor)) = A
  rw [eq_sub_iff_add_eq, ← sub_eq_zero (a := v + A / mass)]
  constructor
  · intro h
    field_simp
    linarith
  · intro h
    field_simp at h
    linarith

theorem stage_point (s : SingleStep) (mass dt : ℝ) (hm : mass ≠ 0) (g : R3) (D D' : Unit × Fin 3 → Dof) :
    Stage s ⟨fun _ => true, fun _ => mass, fun _ _ i => g i.2⟩ dt D D' ↔
      D' = fun i => nextDof s mass dt (g i.2) (D i) := by
  constructor
  · rintro ⟨v, hv⟩
    funext i
    have hi := hv i
    simp only [if_true] at hi
    rw [residual_root s mass dt _ hm] at hi
    rw [hi.2]
    simp only [nextDof, ← hi.1]
  · rintro rfl
    refine ⟨fun i => curVertexVel s (D i) - TimeInt.residual s mass dt (D i) (curVertexVel s (D i)) (-(g i.2)) / mass,
      fun i => ?_⟩
    simp only [if_true]
    exact ⟨(residual_root s mass dt _ hm _ _).mpr rfl, rfl⟩

/-- What stages make of a degree of freedom under the force `g`. -/
def after (ti : TimeIntegration) (mass dt g : ℝ) (clr : Bool) : ℕ → ℕ → Dof → Dof × GState
  | 0, _, d => (d, d.cur)
  | 1, k, d =>
    let d1 := nextDof (ti.stepIntegrator k).1 mass (dt * (ti.stepIntegrator k).2) g d
    (if clr then clear d1 else d1, d1.cur)
  | n + 2, k, d =>
    let d1 := nextDof (ti.stepIntegrator k).1 mass (dt * (ti.stepIntegrator k).2) g d
    after ti mass dt g clr (n + 1) (k + 1) (if clr then clear d1 else d1)

theorem stages_point (ti : TimeIntegration) (dt freq mass : ℝ) (hm : mass ≠ 0) (g : R3) (clr : Bool) (n k : ℕ)
    (s t : State Unit Empty Empty) (b : Seen Unit Empty Empty) :
    Stages (pointConfig ti dt freq mass g) ((pointConfig ti dt freq mass g).physics b) clr (n + 1) k s t ↔
      t = { s with
        dof := fun i => (after ti mass dt (g i.2) clr (n + 1) k (s.dof i)).1
        shown := fun i => (after ti mass dt (g i.2) clr (n + 1) k (s.dof i)).2
        guess := fun i => (after ti mass dt (g i.2) clr (n + 1) k (s.dof i)).2.dq } := by
  induction n generalizing k s with
  | zero =>
    rw [Stages]
    constructor
    · rintro ⟨D1, h1, h2⟩
      have h1' := (stage_point _ _ _ hm _ _ _).mp h1
      subst h1'
      rw [show t = _ from h2]
      cases clr <;> simp [after, pointConfig]
    · rintro rfl
      refine ⟨_, (stage_point _ _ _ hm _ _ _).mpr rfl, ?_⟩
      cases clr <;> simp [after, pointConfig, Stages]
  | succ n ih =>
    rw [Stages]
    constructor
    · rintro ⟨D1, h1, h2⟩
      have h1' := (stage_point _ _ _ hm _ _ _).mp h1
      subst h1'
      rw [ih] at h2
      rw [h2]
      cases clr <;> simp [after, pointConfig]
    · rintro rfl
      refine ⟨_, (stage_point _ _ _ hm _ _ _).mpr rfl, ?_⟩
      rw [ih]
      cases clr <;> simp [after, pointConfig]

/-- What a step makes of a degree of freedom. -/
def stepped (ti : TimeIntegration) (mass dt g : ℝ) (clr : Bool) (d : Dof) : Dof × GState :=
  after ti mass dt g clr ti.numStages 0 d

theorem step_point (ti : TimeIntegration) (dt freq mass : ℝ) (hm : mass ≠ 0) (g : R3) (s t : State Unit Empty Empty) :
    Step (pointConfig ti dt freq mass g) s t ↔
      t = { s with
        dof := fun i => (stepped ti mass dt (g i.2) (clears freq dt (s.count + 1)) (s.dof i)).1
        shown := fun i => (stepped ti mass dt (g i.2) (clears freq dt (s.count + 1)) (s.dof i)).2
        guess := fun i => (stepped ti mass dt (g i.2) (clears freq dt (s.count + 1)) (s.dof i)).2.dq
        count := s.count + 1 } := by
  obtain ⟨n, hn⟩ : ∃ n, ti.numStages = n + 1 := by cases ti <;> exact ⟨_, rfl⟩
  unfold Step stepped
  rw [show (pointConfig ti dt freq mass g).ti.numStages = n + 1 from hn, hn]
  exact stages_point ti dt freq mass hm g _ n 0 _ t _

/-- Positions and velocities read after one more step. -/
theorem reads_point (ti : TimeIntegration) (dt freq mass : ℝ) (hm : mass ≠ 0) (g : R3) (s : State Unit Empty Empty) :
    PositionIn (Reads (pointConfig ti dt freq mass g) 1 s)
        (fun k => (stepped ti mass dt (g k) (clears freq dt (s.count + 1)) (s.dof ((), k))).2.q) ∧
      VelocityIn (Reads (pointConfig ti dt freq mass g) 1 s)
        (fun k => (stepped ti mass dt (g k) (clears freq dt (s.count + 1)) (s.dof ((), k))).2.dq) := by
  have hne : (Reads (pointConfig ti dt freq mass g) 1 s).Nonempty :=
    ⟨_, _, ⟨_, (step_point ti dt freq mass hm g s _).mpr rfl, rfl⟩, rfl⟩
  refine ⟨⟨hne, ?_⟩, hne, ?_⟩
  all_goals
    rintro N ⟨t, ⟨t', h, rfl⟩, rfl⟩
    rw [step_point ti dt freq mass hm g s t] at h
    subst h
    simp [exported]

/-- A simulation of a vertex, its state after a step, and the solver restarted from the mesh read then. -/
theorem point_restart (ti : TimeIntegration) (dt freq mass : ℝ) (hm : mass ≠ 0) (g q v : R3) :
    ∃ s r, Reached (pointConfig ti dt freq mass g) (pointMesh q v) 1 s ∧
      build (exported (pointConfig ti dt freq mass g) s) = some r ∧ s.count = 1 ∧ r.count = 0 ∧
      (∀ k, s.dof ((), k) = (stepped ti mass dt (g k) (clears freq dt 1) (Dof.fresh (q k) (v k))).1) ∧
      (∀ k, s.shown ((), k) = (stepped ti mass dt (g k) (clears freq dt 1) (Dof.fresh (q k) (v k))).2) ∧
      ∀ k, r.dof ((), k) = Dof.fresh (s.shown ((), k)).q (s.shown ((), k)).dq := by
  have hb : build (pointMesh q v) = some
      { orig := pointMesh q v
        basis := seen (pointMesh q v) nofun
        dof := fun i => Dof.fresh (q i.2) (v i.2)
        shown := fun i => ⟨q i.2, v i.2⟩
        guess := fun i => v i.2
        count := 0 } := by
    have : initRef (pointMesh q v) = some nofun := by
      simp only [initRef, pointMesh, String.reduceEq, if_false, Option.some.injEq]
      funext c
      exact c.elim
    rw [build, this]
    rfl
  have hr : Reached (pointConfig ti dt freq mass g) (pointMesh q v) 1 _ :=
    ⟨_, hb, _, (step_point ti dt freq mass hm g _ _).mpr rfl, rfl⟩
  obtain ⟨r, a1, -, -, a4, -, -, a7⟩ := rebuild (cfg := pointConfig ti dt freq mass g) (M := pointMesh q v) _ rfl
    (initRef_exported_none (pointConfig ti dt freq mass g)
      { orig := pointMesh q v
        basis := seen (pointMesh q v) nofun
        dof := fun i => (stepped ti mass dt (g i.2) (clears freq dt 1) (Dof.fresh (q i.2) (v i.2))).1
        shown := fun i => (stepped ti mass dt (g i.2) (clears freq dt 1) (Dof.fresh (q i.2) (v i.2))).2
        guess := fun i => (stepped ti mass dt (g i.2) (clears freq dt 1) (Dof.fresh (q i.2) (v i.2))).2.dq
        count := 1 } ⟨rfl, rfl⟩)
  exact ⟨_, r, hr, a1, rfl, a4, fun _ => rfl, fun _ => rfl, fun k => a7 _⟩

/-- C101 (violated): BDF2 uses the state before the last step, which the mesh does not hold. A vertex that moves without
forces goes eight ninths of the way in its second step (the first one is at fault), but two thirds if the simulation is
restarted. -/
theorem bdf2_restart_violated (mass dt : ℝ) (hm : mass ≠ 0) (q v : R3) :
    ∃ s r, Reached (pointConfig .BDF2 dt 0 mass 0) (pointMesh q v) 1 s ∧
      build (exported (pointConfig .BDF2 dt 0 mass 0) s) = some r ∧
      PositionIn (Reads (pointConfig .BDF2 dt 0 mass 0) 1 s)
        (fun k => (exported (pointConfig .BDF2 dt 0 mass 0) s).pos () k + 8 / 9 * (dt * v k)) ∧
      PositionIn (Reads (pointConfig .BDF2 dt 0 mass 0) 1 r)
        (fun k => (exported (pointConfig .BDF2 dt 0 mass 0) s).pos () k + 2 / 3 * (dt * v k)) := by
  obtain ⟨s, r, h1, h2, c1, c2, h3, h4, h5⟩ := point_restart .BDF2 dt 0 mass hm 0 q v
  have e1 := (reads_point .BDF2 dt 0 mass hm 0 s).1
  have e2 := (reads_point .BDF2 dt 0 mass hm 0 r).1
  have f1 : clears 0 dt 1 = false := clear_never _ _ (.inl le_rfl) _ (by norm_num) (by norm_num)
  have f2 : clears 0 dt 2 = false := clear_never _ _ (.inl le_rfl) _ (by norm_num) (by norm_num)
  refine ⟨s, r, h1, h2, ?_, ?_⟩
  · convert e1 using 1
    funext k
    simp only [exported, c1, h3, h4, f1, f2, stepped, after, nextDof, Dof.fresh, TimeIntegration.stepIntegrator,
      TimeIntegration.numStages, TimeInt.residual, SingleStep.explicitFactor, SingleStep.implicitFactor, curVertexVel,
      lerpVel, curWeights, advance, integrateStep, bdf2Step, mixedBdf2Step, Pi.zero_apply]
    norm_num
    ring
  · convert e2 using 1
    funext k
    simp only [exported, c2, h5, h4, f1, stepped, after, nextDof, Dof.fresh, TimeIntegration.stepIntegrator,
      TimeIntegration.numStages, TimeInt.residual, SingleStep.explicitFactor, SingleStep.implicitFactor, curVertexVel,
      lerpVel, curWeights, advance, integrateStep, bdf2Step, mixedBdf2Step, Pi.zero_apply]
    norm_num
    ring

/-- C101 (violated): the trapezoidal rule uses the force at the end of the last step, which a new solver takes to be zero.
Under a constant force, the next step changes the velocity by half of what it changes without the restart. -/
theorem tr_restart_violated (mass dt : ℝ) (hm : mass ≠ 0) (q v g : R3) :
    ∃ s r w, Reached (pointConfig .TR dt 0 mass g) (pointMesh q v) 1 s ∧ VelocityIn {exported (pointConfig .TR dt 0 mass g) s} w ∧
      build (exported (pointConfig .TR dt 0 mass g) s) = some r ∧
      VelocityIn (Reads (pointConfig .TR dt 0 mass g) 1 s) (fun k => w k + dt * g k / mass) ∧
      VelocityIn (Reads (pointConfig .TR dt 0 mass g) 1 r) (fun k => w k + dt * g k / mass / 2) := by
  obtain ⟨s, r, h1, h2, c1, c2, h3, h4, h5⟩ := point_restart .TR dt 0 mass hm g q v
  have e1 := (reads_point .TR dt 0 mass hm g s).2
  have e2 := (reads_point .TR dt 0 mass hm g r).2
  have f1 : clears 0 dt 1 = false := clear_never _ _ (.inl le_rfl) _ (by norm_num) (by norm_num)
  have f2 : clears 0 dt 2 = false := clear_never _ _ (.inl le_rfl) _ (by norm_num) (by norm_num)
  refine ⟨s, r, fun k => (s.shown ((), k)).dq, h1, ⟨⟨_, rfl⟩, ?_⟩, h2, ?_, ?_⟩
  · rintro N rfl
    simp [exported]
  · convert e1 using 1
    funext k
    simp only [c1, h3, h4, f1, f2, stepped, after, nextDof, Dof.fresh, TimeIntegration.stepIntegrator,
      TimeIntegration.numStages, TimeInt.residual, SingleStep.explicitFactor, SingleStep.implicitFactor, curVertexVel,
      lerpVel, curWeights, advance]
    norm_num
    field_simp
    ring
  · convert e2 using 1
    funext k
    simp only [c2, h5, h4, f1, stepped, after, nextDof, Dof.fresh, TimeIntegration.stepIntegrator,
      TimeIntegration.numStages, TimeInt.residual, SingleStep.explicitFactor, SingleStep.implicitFactor, curVertexVel,
      lerpVel, curWeights, advance]
    norm_num
    field_simp
    ring

/-- C101 (violated): the same for TR-BDF2, whose first stage is the trapezoidal rule: a third of the change is lost. -/
theorem trbdf2_restart_violated (mass dt : ℝ) (hm : mass ≠ 0) (q v g : R3) :
    ∃ s r w, Reached (pointConfig (.TRBDF2 (1 / 2)) dt 0 mass g) (pointMesh q v) 1 s ∧ VelocityIn {exported (pointConfig (.TRBDF2 (1 / 2)) dt 0 mass g) s} w ∧
      build (exported (pointConfig (.TRBDF2 (1 / 2)) dt 0 mass g) s) = some r ∧
      VelocityIn (Reads (pointConfig (.TRBDF2 (1 / 2)) dt 0 mass g) 1 s)
        (fun k => w k + dt * g k / mass) ∧
      VelocityIn (Reads (pointConfig (.TRBDF2 (1 / 2)) dt 0 mass g) 1 r)
        (fun k => w k + 2 / 3 * (dt * g k / mass)) := by
  obtain ⟨s, r, h1, h2, c1, c2, h3, h4, h5⟩ := point_restart (.TRBDF2 (1 / 2)) dt 0 mass hm g q v
  have e1 := (reads_point (.TRBDF2 (1 / 2)) dt 0 mass hm g s).2
  have e2 := (reads_point (.TRBDF2 (1 / 2)) dt 0 mass hm g r).2
  have f1 : clears 0 dt 1 = false := clear_never _ _ (.inl le_rfl) _ (by norm_num) (by norm_num)
  have f2 : clears 0 dt 2 = false := clear_never _ _ (.inl le_rfl) _ (by norm_num) (by norm_num)
  refine ⟨s, r, fun k => (s.shown ((), k)).dq, h1, ⟨⟨_, rfl⟩, ?_⟩, h2, ?_, ?_⟩
  · rintro N rfl
    simp [exported]
  · convert e1 using 1
    funext k
    simp only [c1, h3, h4, f1, f2, stepped, after, nextDof, Dof.fresh, TimeIntegration.stepIntegrator,
      TimeIntegration.numStages, TimeInt.residual, SingleStep.explicitFactor, SingleStep.implicitFactor, curVertexVel,
      lerpVel, curWeights, advance]
    norm_num [SingleStep.explicitFactor, SingleStep.implicitFactor, curWeights]
    field_simp
    ring
  · convert e2 using 1
    funext k
    simp only [c2, h5, h4, f1, stepped, after, nextDof, Dof.fresh, TimeIntegration.stepIntegrator,
      TimeIntegration.numStages, TimeInt.residual, SingleStep.explicitFactor, SingleStep.implicitFactor, curVertexVel,
      lerpVel, curWeights, advance]
    norm_num [SingleStep.explicitFactor, SingleStep.implicitFactor, curWeights]
    field_simp
    ring

/-- C101 (violated): the mesh read after a step in which velocities were cleared shows those before they were cleared.
With backward Euler, a vertex that moves without forces rests from then on, but moves on if the simulation is
restarted. -/
theorem cleared_restart_violated (mass dt : ℝ) (hm : mass ≠ 0) (hdt : 0 < dt) (q v : R3) :
    ∃ s r, Reached (pointConfig .BE dt (1 / dt) mass 0) (pointMesh q v) 1 s ∧
      build (exported (pointConfig .BE dt (1 / dt) mass 0) s) = some r ∧
      PositionIn (Reads (pointConfig .BE dt (1 / dt) mass 0) 1 s)
        ((exported (pointConfig .BE dt (1 / dt) mass 0) s).pos ()) ∧
      PositionIn (Reads (pointConfig .BE dt (1 / dt) mass 0) 1 r)
        (fun k => (exported (pointConfig .BE dt (1 / dt) mass 0) s).pos () k + dt * v k) := by
  obtain ⟨s, r, h1, h2, c1, c2, h3, h4, h5⟩ := point_restart .BE dt (1 / dt) mass hm 0 q v
  have e1 := (reads_point .BE dt (1 / dt) mass hm 0 s).1
  have e2 := (reads_point .BE dt (1 / dt) mass hm 0 r).1
  have f : ∀ n, clears (1 / dt) dt n = true := by
    intro n
    rw [clears_iff, clearSteps_all dt hdt]
    exact one_dvd n
  refine ⟨s, r, h1, h2, ?_, ?_⟩
  · convert e1 using 1
    funext k
    simp [-one_div, exported, h3, h4, f, stepped, after, nextDof, Dof.fresh, TimeIntegration.stepIntegrator, clear,
      TimeIntegration.numStages, TimeInt.residual, SingleStep.explicitFactor, SingleStep.implicitFactor, curVertexVel,
      lerpVel, curWeights, advance, integrateStep, beStep]
  · convert e2 using 1
    funext k
    simp [-one_div, exported, h5, h4, f, stepped, after, nextDof, Dof.fresh, TimeIntegration.stepIntegrator, clear,
      TimeIntegration.numStages, TimeInt.residual, SingleStep.explicitFactor, SingleStep.implicitFactor, curVertexVel,
      lerpVel, curWeights, advance, integrateStep, beStep]
    ring

end Softy.Restart
