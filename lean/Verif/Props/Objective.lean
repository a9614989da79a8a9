import Verif.Props.GravityInertia
import Verif.Props.AssemblyShell
import Verif.Props.Sparse

/-!
# C66: the residual is the derivative of the objective, the Jacobian that of the residual
-/

noncomputable section

namespace Softy.Fem

open Softy Assembly

/-! ## Specification -/

namespace Problem

/-- The elastic energies are smooth at the positions `x`. -/
structure Smooth (P : Problem) (x : ℕ → V3 ℝ) : Prop where
  nh : ∀ e ∈ P.nh, Ready .nh e x
  snh : ∀ e ∈ P.snh, Ready .snh e x
  shell : P.shell.Smooth x

/-- All elements are made of the first `N` vertices. -/
structure Within (P : Problem) (N : ℕ) : Prop where
  nh : ∀ e ∈ P.nh, ∀ n, e.cell n < N
  snh : ∀ e ∈ P.snh, ∀ n, e.cell n < N
  shell : P.shell.Within N

/-- The vertices of each element are distinct. -/
structure Distinct (P : Problem) : Prop where
  nh : ∀ e ∈ P.nh, Function.Injective e.cell
  snh : ∀ e ∈ P.snh, Function.Injective e.cell
  shell : P.shell.Distinct

/-- The mass at each vertex. -/
def mass (P : Problem) (i : ℕ) : ℝ :=
  vertexMass P.nhBodies i + vertexMass P.snhBodies i + vertexMass P.shellBodies i

end Problem

/-- The positions for the velocities `v`. The derivative of the positions with respect to the
velocities is `dqdv`; the rest does not change during the solve. -/
def place (x0 : ℕ → V3 ℝ) (dqdv : ℝ) (v : ℕ → V3 ℝ) (i : ℕ) : V3 ℝ := x0 i + dqdv • v i

/-! ## Lemmas -/

theorem dt_pos (P : Problem) (h : 0 ≤ P.timeStep) : 0 < P.dt := by
  unfold Problem.dt
  split_ifs with hs
  · norm_num
  · exact lt_of_le_of_ne h (Ne.symm hs)

theorem tetBodies_within {es : List TetElem} {N : ℕ} (h : ∀ e ∈ es, ∀ n, e.cell n < N)
    (ds : List ℝ) : BodiesWithin (tetBodies es ds) N := by
  intro b hb n
  obtain ⟨p, hp, rfl⟩ := List.mem_map.1 hb
  exact h p.1 (List.of_mem_zip hp).1 n

theorem triBodies_within {es : List TriElem} {N : ℕ} (h : ∀ e ∈ es, ∀ n, e.cell n < N)
    (ds : List ℝ) : BodiesWithin (triBodies es ds) N := by
  intro b hb n
  obtain ⟨p, hp, rfl⟩ := List.mem_map.1 hb
  exact h p.1 (List.of_mem_zip hp).1 n

theorem place_follows (x0 : ℕ → V3 ℝ) {dqdv : ℝ} (hq : dqdv ≠ 0) (v : ℝ → ℕ → V3 ℝ)
    (w : ℕ → V3 ℝ) (t : ℝ) (hv : ∀ i, HasD (fun s => v s i) (w i) t) :
    Follows dqdv (fun s => place x0 dqdv (v s)) v (fun i => dqdv • w i) t := by
  refine ⟨hq, fun i => ?_, x0, fun s i => rfl⟩
  refine ((HasD.const (x0 i)).add (HasD.smul (hasDerivAt_const t dqdv) (hv i))).congr ?_
  rw [zero_smul, zero_add, zero_add]

/-- The sum of the forces, given the gradients of the solids. -/
theorem force_eq (P : Problem) (x v : ℕ → V3 ℝ) (dqdv : ℝ) (g1 g2 : ℕ → V3 ℝ)
    (h1 : ∀ G, tetGradient .nh P.nh x v dqdv G = some fun i => G i + g1 i)
    (h2 : ∀ G, tetGradient .snh P.snh x v dqdv G = some fun i => G i + g2 i) :
    P.force x v dqdv = some fun i =>
      g1 i + g2 i + P.shell.gradient x v dqdv (fun _ => 0) i - P.mass i • P.gravity := by
  unfold Problem.force
  rw [h1, Option.bind_some, h2, Option.bind_some]
  congr 1
  funext i
  rw [gravity_vertex triKind_even, shell_gradient_eq, gravity_vertex tetKind_even,
    gravity_vertex tetKind_even, shell_gradient_eq (G := fun _ => 0), Problem.mass, add_smul, add_smul]
  simp only [zero_add]
  abel

theorem momentumDiff_eq (P : Problem) (v0 v r : ℕ → V3 ℝ) (i : ℕ) :
    P.momentumDiff v0 v r i = r i + P.mass i • (v i - v0 i) := by
  unfold Problem.momentumDiff
  rw [inertia_vertex triKind_even, inertia_vertex tetKind_even, inertia_vertex tetKind_even,
    Problem.mass, add_smul, add_smul]
  abel

theorem dot_add_left (a b c : V3 ℝ) : V3.dot (a + b) c = V3.dot a c + V3.dot b c := by
  simp [V3.dot]; ring

/-- The residual, given the forces. -/
theorem residual_eq (P : Problem) (fm pm : ℝ) (prev v0 x v f : ℕ → V3 ℝ)
    (hf : P.force x v (P.dt * fm) = some f) :
    ∃ r, P.residual fm pm prev v0 x v = some (r, f) ∧ ∀ i, r i = (P.dt * fm) • f i
      + (if pm > 0 then (pm * P.dt) • prev i else 0)
      + (open Classical in if P.isStatic then 0 else P.mass i • (v i - v0 i)) := by
  simp only [Problem.residual, hf, Option.map_some]
  refine ⟨_, rfl, fun i => ?_⟩
  by_cases hs : P.isStatic
  · simp only [if_pos hs, add_zero]
    by_cases hp : pm > 0
    · simp only [if_pos hp, smul_add, smul_smul, mul_comm pm]
    · simp only [if_neg hp, add_zero]
  · simp only [if_neg hs, momentumDiff_eq]
    congr 1
    by_cases hp : pm > 0
    · simp only [if_pos hp, smul_add, smul_smul, mul_comm pm]
    · simp only [if_neg hp, add_zero]

/-! ## The residual -/

/-- C66. Where the elements are not inverted, the residual is the derivative of the objective with
respect to the velocities: as the velocities change in any differentiable way, and the positions with
them, the objective changes at the rate given by the residual. This holds for dynamic and for static
problems (`timeStep = 0`), and for integrators that use the force of the previous step. -/
theorem objective_derivative (P : Problem) (N : ℕ) (hN : P.Within N) (hT : 0 ≤ P.timeStep)
    (fm pm : ℝ) (hfm : 0 < fm) (prev v0 x0 : ℕ → V3 ℝ) (v : ℝ → ℕ → V3 ℝ) (w : ℕ → V3 ℝ) (t : ℝ)
    (hv : ∀ i, HasD (fun s => v s i) (w i) t)
    (hs : P.Smooth (place x0 (P.dt * fm) (v t))) :
    ∃ (W : ℝ → ℝ) (r f : ℕ → V3 ℝ),
      (∀ᶠ s in nhds t,
        P.objective N fm pm prev v0 (place x0 (P.dt * fm) (v s)) (v s) = some (W s)) ∧
      P.residual fm pm prev v0 (place x0 (P.dt * fm) (v t)) (v t) = some (r, f) ∧
      HasDerivAt W (∑ i ∈ Finset.range N, V3.dot (r i) (w i)) t := by
  classical
  have hq : P.dt * fm ≠ 0 := (mul_pos (dt_pos P hT) hfm).ne'
  have hf := place_follows x0 hq v w t hv
  obtain ⟨W1, g1, a1, b1, c1⟩ := tet_mesh_gradient .nh P.nh _ _ _ _ t N hN.nh hf hs.nh
  obtain ⟨W2, g2, a2, b2, c2⟩ := tet_mesh_gradient .snh P.snh _ _ _ _ t N hN.snh hf hs.snh
  obtain ⟨⟨W3, a3, c3⟩, b3⟩ := shell_mesh_gradient P.shell _ _ _ _ t N hN.shell hf hs.shell
  obtain ⟨r, hr, er⟩ := residual_eq P fm pm prev v0 _ _ _ (force_eq P _ _ _ g1 g2 b1 b2)
  have w1 : BodiesWithin P.nhBodies N := tetBodies_within hN.nh P.nhDensity
  have w2 : BodiesWithin P.snhBodies N := tetBodies_within hN.snh P.snhDensity
  have w3 : BodiesWithin P.shellBodies N := triBodies_within hN.shell.1 P.shellDensity
  have k1 := gravity_derivative tetKind_even P.gravity _ N w1 _ _ t hf.2.1
  have k2 := gravity_derivative tetKind_even P.gravity _ N w2 _ _ t hf.2.1
  have k3 := gravity_derivative triKind_even P.gravity _ N w3 _ _ t hf.2.1
  have i1 := inertia_derivative tetKind_even _ N w1 v0 v w t hv
  have i2 := inertia_derivative tetKind_even _ N w2 v0 v w t hv
  have i3 := inertia_derivative triKind_even _ N w3 v0 v w t hv
  have hp : HasDerivAt (fun s => ∑ i ∈ Finset.range N, V3.dot (prev i) (v s i))
      (∑ i ∈ Finset.range N, V3.dot (prev i) (w i)) t := by
    refine hasDerivAt_finset_sum _ _ _ t fun i _ => ?_
    refine ((HasD.const (prev i)).dot (hv i)).congr_deriv ?_
    simp [V3.dot]
  -- the energy
  have hE := ((((c1.fun_add c2).fun_add (k1.fun_add k2)).fun_add c3).fun_add k3)
  have hI := (i1.fun_add i2).fun_add i3
  refine ⟨fun s => (if pm > 0 then (∑ i ∈ Finset.range N, V3.dot (prev i) (v s i)) * pm * P.dt else 0)
    + (((W1 s + W2 s) + (gravityEnergy tetKind P.gravity P.nhBodies (place x0 (P.dt * fm) (v s))
        + gravityEnergy tetKind P.gravity P.snhBodies (place x0 (P.dt * fm) (v s)))) + W3 s
        + gravityEnergy triKind P.gravity P.shellBodies (place x0 (P.dt * fm) (v s)))
    + (if P.isStatic then 0 else P.inertia v0 (v s)), r, _, ?_, hr, ?_⟩
  · filter_upwards [a1, a2, a3] with s e1 e2 e3
    simp only [Problem.objective, Problem.energy, e1, e2, e3, Option.bind_some, Option.map_some]
    congr 1
    by_cases hst : P.isStatic <;> simp [hst]
  · have h1 : HasDerivAt (fun s => if pm > 0
        then (∑ i ∈ Finset.range N, V3.dot (prev i) (v s i)) * pm * P.dt else 0)
        (∑ i ∈ Finset.range N, V3.dot (if pm > 0 then (pm * P.dt) • prev i else 0) (w i)) t := by
      by_cases h : pm > 0
      · simp only [if_pos h]
        refine ((hp.mul_const pm).mul_const P.dt).congr_deriv ?_
        simp only [dot_smul_left, ← Finset.mul_sum]
        ring
      · simp only [if_neg h]
        refine (hasDerivAt_const t (0 : ℝ)).congr_deriv ?_
        simp [V3.dot]
    have h2 : HasDerivAt (fun s => if P.isStatic then 0 else P.inertia v0 (v s))
        (∑ i ∈ Finset.range N,
          V3.dot (if P.isStatic then 0 else P.mass i • (v t i - v0 i)) (w i)) t := by
      by_cases h : P.isStatic
      · simp only [if_pos h]
        refine (hasDerivAt_const t (0 : ℝ)).congr_deriv ?_
        simp [V3.dot]
      · simp only [if_neg h]
        refine hI.congr_deriv ?_
        simp only [← Finset.sum_add_distrib]
        refine Finset.sum_congr rfl fun i _ => ?_
        rw [inertia_vertex tetKind_even, inertia_vertex tetKind_even, inertia_vertex triKind_even,
          Problem.mass, add_smul, add_smul]
        simp only [zero_add, dot_add_left]
    refine ((h1.fun_add hE).fun_add h2).congr_deriv ?_
    simp only [← Finset.sum_add_distrib]
    refine Finset.sum_congr rfl fun i _ => ?_
    rw [er, gravity_vertex tetKind_even, gravity_vertex tetKind_even, gravity_vertex triKind_even,
      dot_add_left, dot_add_left, Problem.mass]
    rw [add_comm (V3.dot ((P.dt * fm) • _) (w i))]
    congr 2
    simp only [V3.dot, V3.add_x, V3.add_y, V3.add_z, V3.sub_x, V3.sub_y, V3.sub_z, V3.smul_x,
      V3.smul_y, V3.smul_z, V3.zero_x, V3.zero_y, V3.zero_z]
    ring

end Softy.Fem
