import Verif.Props.Touching
import Verif.Props.Sliding

/-!
# C121: angular momentum

Torques are about the origin.
-/

noncomputable section

namespace Softy.Spin

open Softy Assembly Fem Softy.Contact

/-! ## Specification -/

/-- The torque of the forces `f` on the first `N` vertices. -/
def torque (N : ℕ) (x f : ℕ → V3 ℝ) : V3 ℝ := ∑ i ∈ Finset.range N, V3.cross (x i) (f i)

/-- The angular momentum of the first `N` vertices. -/
def angularMomentum (P : Problem) (N : ℕ) (x v : ℕ → V3 ℝ) : V3 ℝ :=
  ∑ i ∈ Finset.range N, P.mass i • V3.cross (x i) (v i)

/-- The torque of gravity. -/
def gravityTorque (P : Problem) (N : ℕ) (x : ℕ → V3 ℝ) : V3 ℝ :=
  ∑ i ∈ Finset.range N, P.mass i • V3.cross (x i) P.gravity

/-- No element is damped. -/
structure Undamped (P : Problem) : Prop where
  nh : ∀ e ∈ P.nh, e.damping = 0
  snh : ∀ e ∈ P.snh, e.damping = 0
  tris : ∀ e ∈ P.shell.tris, e.damping = 0

/-! ## Sums of torques -/

theorem cross_zero (a : V3 ℝ) : V3.cross a 0 = 0 := by ext <;> simp [V3.cross]

theorem cross_add (a b c : V3 ℝ) : V3.cross a (b + c) = V3.cross a b + V3.cross a c := by
  ext <;> simp [V3.cross] <;> ring

theorem cross_sub (a b c : V3 ℝ) : V3.cross a (b - c) = V3.cross a b - V3.cross a c := by
  ext <;> simp [V3.cross] <;> ring

theorem cross_smul (a b : V3 ℝ) (k : ℝ) : V3.cross a (k • b) = k • V3.cross a b := by
  ext <;> simp [V3.cross] <;> ring

theorem torque_add (N : ℕ) (x f g : ℕ → V3 ℝ) :
    torque N x (fun i => f i + g i) = torque N x f + torque N x g := by
  simp only [torque, cross_add, Finset.sum_add_distrib]

theorem torque_sub (N : ℕ) (x f g : ℕ → V3 ℝ) :
    torque N x (fun i => f i - g i) = torque N x f - torque N x g := by
  simp only [torque, cross_sub, Finset.sum_sub_distrib]

theorem torque_smul (N : ℕ) (x f : ℕ → V3 ℝ) (k : ℝ) :
    torque N x (fun i => k • f i) = k • torque N x f := by
  simp only [torque, cross_smul, Finset.smul_sum]

theorem torque_vertexSum (l : List (ℕ × V3 ℝ)) (N : ℕ) (hN : ∀ p ∈ l, p.1 < N) (x : ℕ → V3 ℝ) :
    torque N x (vertexSum l) = (l.map fun p => V3.cross (x p.1) p.2).sum := by
  induction l with
  | nil => simp [torque, vertexSum, cross_zero]
  | cons a l ih =>
    have h := ih fun p hp => hN p (by simp [hp])
    have e : vertexSum (a :: l) = fun i => (if a.1 = i then a.2 else 0) + vertexSum l i := by
      funext i
      simp [vertexSum]
    rw [e, torque_add, h, List.map_cons, List.sum_cons]
    congr 1
    unfold torque
    rw [Finset.sum_eq_single_of_mem a.1 (Finset.mem_range.2 (hN a (by simp)))]
    · simp only [if_true]
    · intro i _ hi
      simp only [if_neg (Ne.symm hi), cross_zero]

theorem torque_flatMap {ι : Type} {m : ℕ} (es : List ι) (cell : ι → Fin m → ℕ)
    (w : ι → Fin m → V3 ℝ) (N : ℕ) (hN : ∀ e ∈ es, ∀ n, cell e n < N) (x : ℕ → V3 ℝ)
    (hw : ∀ e ∈ es, ∑ n, V3.cross (x (cell e n)) (w e n) = 0) :
    torque N x (vertexSum (es.flatMap fun e => zipCell (cell e) (w e))) = 0 := by
  rw [torque_vertexSum]
  · induction es with
    | nil => simp
    | cons e es ih =>
      have h1 : ((zipCell (cell e) (w e)).map fun p => V3.cross (x p.1) p.2).sum =
          ∑ n, V3.cross (x (cell e n)) (w e n) := by
        simp only [zipCell, List.map_map]
        rw [Fin.sum_univ_def]
        rfl
      rw [List.flatMap_cons, List.map_append, List.sum_append, h1, hw e (by simp), zero_add]
      exact ih (fun e' h => hN e' (by simp [h])) fun e' h => hw e' (by simp [h])
  · intro p hp
    obtain ⟨e, he, hp⟩ := List.mem_flatMap.1 hp
    simp only [zipCell, List.mem_map] at hp
    obtain ⟨n, -, rfl⟩ := hp
    exact hN e he n

/-! ## Torques of elements -/

theorem tet_element_torque (M : TetModel) (e : TetElem) (h0 : e.damping = 0) (x v : ℕ → V3 ℝ)
    (dqdv : ℝ) (g : Tet.Verts) (h : e.gradient M x v dqdv = some g) :
    ∑ n, V3.cross (x (e.cell n)) (g n) = 0 := by
  unfold TetElem.gradient at h
  cases hg : M.gradient (e.ref.at (e.pick x)) with
  | none => simp [hg] at h
  | some w =>
    rw [hg, Option.map_some, Option.some.injEq] at h
    have hw : ∑ n, V3.cross (e.pick x n) (w n) = 0 := by
      cases M
      · exact Tet.nh_torque_balance _ _ _ hg
      · exact Tet.snh_torque_balance _ _ _ hg
    have hgw : g = w := by
      rw [← h]
      funext n
      fin_cases n <;> simp [h0]
    rw [hgw]
    exact hw

theorem tet_mesh_torque (M : TetModel) (es : List TetElem) (h0 : ∀ e ∈ es, e.damping = 0)
    (x v : ℕ → V3 ℝ) (dqdv : ℝ) (N : ℕ) (hN : ∀ e ∈ es, ∀ n, e.cell n < N) (G G' : ℕ → V3 ℝ)
    (h : tetGradient M es x v dqdv G = some G') :
    ∃ g : ℕ → V3 ℝ, torque N x g = 0 ∧ ∀ F, tetGradient M es x v dqdv F = some fun i => F i + g i := by
  have hc : ∃ l, collect (es.map fun e => e.gradient M x v dqdv) = some l := by
    cases hl : collect (es.map fun e => e.gradient M x v dqdv) with
    | none => simp [tetGradient, hl] at h
    | some l => exact ⟨l, rfl⟩
  obtain ⟨l, hl⟩ := hc
  have hs := collect_isSome es _ hl
  have hw : ∀ e ∈ es, e.gradient M x v dqdv = some ((e.gradient M x v dqdv).getD 0) := by
    intro e he
    obtain ⟨w, hw⟩ := Option.isSome_iff_exists.1 (hs e he)
    rw [hw, Option.getD_some]
  refine ⟨_, ?_, fun F => tetGradient_eq M es x v dqdv _ hw F⟩
  exact torque_flatMap es (fun e => e.cell) _ N hN x fun e he =>
    tet_element_torque M e (h0 e he) x v dqdv _ (hw e he)

theorem shell_mesh_torque (s : Shell) (h0 : ∀ e ∈ s.tris, e.damping = 0) (x v : ℕ → V3 ℝ) (dqdv : ℝ)
    (N : ℕ) (hN : s.Within N) (hp : ∀ e ∈ s.dihedrals, e.edge.Shared s.faces) :
    torque N x (s.gradient x v dqdv fun _ => 0) = 0 := by
  have e : (s.gradient x v dqdv fun _ => 0) = fun i =>
      vertexSum (s.tris.flatMap fun e => zipCell e.cell (e.localGradient x v dqdv)) i +
        vertexSum (s.dihedrals.flatMap fun e =>
          zipCell (e.cell s.faces) (gradList (e.bending.gradient e.edge x s.faces))) i := by
    funext i
    rw [shell_gradient_eq, zero_add]
  rw [e, torque_add, torque_flatMap s.tris (fun e => e.cell) _ N hN.1,
    torque_flatMap s.dihedrals _ _ N hN.2, add_zero]
  · intro e he
    have h := (IEdge.gradient_equilibrated e.edge x s.faces (hp e he)).2
    rw [Fin.sum_univ_four]
    simp only [gradList, Matrix.cons_val, IEdge.Bending.gradient, Dihedral.cell, cross_smul]
    rw [← smul_add, ← smul_add, ← smul_add, h, smul_zero]
  · intro e he
    have h := Tri.tri_torque_balance e.ref (e.pick x)
    have hd : e.damp x v dqdv = 0 := by
      unfold TriElem.damp
      rw [h0 e he, mul_zero]
      ext <;> simp
    have hl : e.localGradient x v dqdv = Tri.gradient (e.ref.at (e.pick x)) := by
      funext n
      unfold TriElem.localGradient
      rw [hd]
      fin_cases n <;> simp [Tri.spread]
    rw [hl]
    exact h

/-! ## Torques of zones and contacts -/

theorem torque_list {α : Type} (l : List α) (f : α → ℕ → V3 ℝ) (N : ℕ) (x : ℕ → V3 ℝ)
    (h : ∀ a ∈ l, torque N x (f a) = 0) : torque N x (fun i => (l.map fun a => f a i).sum) = 0 := by
  induction l with
  | nil => simp [torque, cross_zero]
  | cons a l ih =>
    simp only [List.map_cons, List.sum_cons]
    rw [torque_add, h a (by simp), ih fun b hb => h b (List.mem_cons_of_mem _ hb), add_zero]

theorem zone_torque (P : Volume.Penalty) (N : ℕ) (hN : Volume.Within P.topo N) (x : ℕ → V3 ℝ) :
    torque N x (P.forces x) = 0 := by
  have e : P.forces x = fun i => P.factor x • Volume.vertexNormal P.topo x i :=
    funext fun i => Volume.forces_eq P x i
  rw [e, torque_smul]
  unfold Volume.vertexNormal
  have := torque_flatMap P.topo (fun t => t) (fun t => Volume.Penalty.normals t x) N hN x fun t _ => by
    simp only [Fin.sum_univ_three, Volume.Penalty.normals, Matrix.cons_val]
    ext <;> simp [V3.cross] <;> ring
  rw [show (fun i => vertexSum (P.topo.flatMap fun t => zipCell t (Volume.Penalty.normals t x)) i) =
    vertexSum (P.topo.flatMap fun t => zipCell t (Volume.Penalty.normals t x)) from rfl, this, smul_zero]

/-! ## C121 -/

theorem problem_torque (P : Problem) (N : ℕ) (hN : P.Within N) (hp : P.Paired) (hu : Undamped P)
    (x v : ℕ → V3 ℝ) (dqdv : ℝ) (f : ℕ → V3 ℝ) (h : P.force x v dqdv = some f) :
    torque N x f = -gravityTorque P N x := by
  have h' := h
  unfold Problem.force at h'
  cases h1 : tetGradient .nh P.nh x v dqdv (fun _ => 0) with
  | none => simp [h1] at h'
  | some G1 =>
    rw [h1, Option.bind_some] at h'
    cases h2 : tetGradient .snh P.snh x v dqdv G1 with
    | none => simp [h2] at h'
    | some G2 =>
      obtain ⟨g1, s1, e1⟩ := tet_mesh_torque _ _ hu.nh _ _ _ N hN.nh _ _ h1
      obtain ⟨g2, s2, e2⟩ := tet_mesh_torque _ _ hu.snh _ _ _ N hN.snh _ _ h2
      have hf := force_eq P x v dqdv g1 g2 e1 e2
      rw [h, Option.some.injEq] at hf
      rw [hf, torque_sub, torque_add, torque_add, s1, s2,
        shell_mesh_torque P.shell hu.tris x v dqdv N hN.shell hp, zero_add, zero_add, zero_sub]
      simp only [torque, gravityTorque, cross_smul]

/-- C121. The forces of solids, shells, volume zones and contacts turn nothing: the torque of all forces
is that of gravity (`f` holds the negative forces), at all positions and velocities. No element is
damped, nothing is fixed, and there is no friction. -/
theorem total_torque_partial (S : Touching) (hN : S.Within) (hp : S.Paired) (hu : Undamped S.toProblem)
    (x v : ℕ → V3 ℝ) (hobj : ∀ C ∈ S.contacts, C.objectFixed = false)
    (hcol : ∀ C ∈ S.contacts, C.colliderFixed = false) (hc : S.Regular x) (dqdv : ℝ)
    (f : ℕ → V3 ℝ) (h : S.force x v dqdv = some f) :
    torque S.numVertices x f = -gravityTorque S.toProblem S.numVertices x := by
  obtain ⟨f1, h1, rfl⟩ := S.force_inv x v dqdv f h
  obtain ⟨f2, h2, rfl⟩ := S.toSealed.force_inv x v dqdv f1 h1
  rw [torque_add, torque_add, problem_torque _ _ hN.base.base hp hu x v dqdv f2 h2]
  have e1 : torque S.numVertices x (S.toSealed.pressure x) = 0 :=
    torque_list S.volumes (fun P => P.forces x) _ x fun P hP => zone_torque P _ (hN.base.volumes P hP) x
  have e2 : torque S.numVertices x (S.contactForce x) = 0 :=
    torque_list S.contacts (fun C => C.subtractForce x fun _ => 0) _ x fun C hC => by
      obtain ⟨c, hc'⟩ := hc C hC
      exact (C.contact_momentum x S.numVertices c (hN.object C hC) (hN.collider C hC) (hobj C hC)
        (hcol C hC) hc').2
  rw [e1, e2, add_zero, add_zero]

/-- What it means that the residual of a step vanishes at a vertex. -/
theorem residual_vertex (S : Touching) (fm pm : ℝ) (hpm : 0 ≤ pm) (hs : ¬ S.isStatic)
    (prev v0 x v r f : ℕ → V3 ℝ) (h : S.residual fm pm prev v0 x v = some (r, f)) :
    S.force x v (S.timeStep * fm) = some f ∧ ∀ i, r i = 0 → S.mass i • (v i - v0 i) =
      -((S.timeStep * fm) • f i) - (S.timeStep * pm) • prev i := by
  classical
  obtain ⟨r1, f1, h1, rfl, rfl⟩ := S.residual_inv fm pm prev v0 x v r f h
  obtain ⟨r2, f2, h2, rfl, rfl⟩ := S.toSealed.residual_inv fm pm prev v0 x v r1 f1 h1
  have hdt : S.dt = S.timeStep := if_neg hs
  cases hf : S.toProblem.force x v (S.dt * fm) with
  | none => simp [Problem.residual, hf] at h2
  | some g =>
    obtain ⟨r3, h3, e3⟩ := Fem.residual_eq S.toProblem fm pm prev v0 x v g hf
    rw [h2, Option.some.injEq, Prod.mk.injEq] at h3
    obtain ⟨rfl, rfl⟩ := h3
    have hprev : ∀ i, (if pm > 0 then (pm * S.timeStep) • prev i else 0) = (pm * S.timeStep) • prev i := by
      intro i
      by_cases hp : pm > 0
      · rw [if_pos hp]
      · have : pm = 0 := le_antisymm (not_lt.1 hp) hpm
        rw [if_neg hp, this, zero_mul, zero_smul]
    rw [hdt] at hf
    refine ⟨S.force_eq x v _ _ (S.toSealed.force_eq x v _ f2 hf), fun i hi => ?_⟩
    simp only [e3, if_neg hs, hdt, hprev] at hi
    have ex := congrArg V3.x hi
    have ey := congrArg V3.y hi
    have ez := congrArg V3.z hi
    simp at ex ey ez
    ext <;> simp <;> linarith

/-- C121. In a step of backward Euler at whose end the residual vanishes, the angular momentum changes by
the impulse of the torque of gravity, and by another amount, which depends on how much the velocities
turn in the step. The full property asks for the first part only. -/
theorem spin_backward_euler_partial (S : Touching) (hN : S.Within) (hp : S.Paired)
    (hu : Undamped S.toProblem) (hobj : ∀ C ∈ S.contacts, C.objectFixed = false)
    (hcol : ∀ C ∈ S.contacts, C.colliderFixed = false) (hs : ¬ S.isStatic)
    (prev v0 x0 x v r f : ℕ → V3 ℝ) (hx : ∀ i, x i = x0 i + S.timeStep • v i) (hc : S.Regular x)
    (h : S.residual 1 0 prev v0 x v = some (r, f)) (hr : ∀ i, i < S.numVertices → r i = 0) :
    angularMomentum S.toProblem S.numVertices x v - angularMomentum S.toProblem S.numVertices x0 v0 =
      S.timeStep • gravityTorque S.toProblem S.numVertices x +
        S.timeStep • ∑ i ∈ Finset.range S.numVertices, S.mass i • V3.cross (v i) (v0 i) := by
  obtain ⟨hf, hv⟩ := residual_vertex S 1 0 le_rfl hs prev v0 x v r f h
  have ht := total_torque_partial S hN hp hu x v hobj hcol hc _ f hf
  rw [← neg_eq_iff_eq_neg.2 ht, smul_neg]
  unfold angularMomentum torque
  rw [← Finset.sum_sub_distrib, Finset.smul_sum, Finset.smul_sum, ← Finset.sum_neg_distrib,
    ← Finset.sum_add_distrib]
  refine Finset.sum_congr rfl fun i hi => ?_
  have e := hv i (hr i (Finset.mem_range.1 hi))
  rw [mul_one, mul_zero, zero_smul, sub_zero] at e
  rw [show S.timeStep • V3.cross (x i) (f i) = V3.cross (x i) (S.timeStep • f i) from
    (cross_smul _ _ _).symm, ← neg_eq_iff_eq_neg.2 e, hx i]
  ext <;> simp [V3.cross] <;> ring

/-- C121. In a step of the trapezoidal rule whose forces at the start (`prev`) were computed for the
positions at the start, the second amount is a quarter of the time step times the torque of the change of
forces (`f` and `prev` hold the negative forces), with the displacements as levers. -/
theorem spin_trapezoidal_partial (S : Touching) (hN : S.Within) (hp : S.Paired)
    (hu : Undamped S.toProblem) (hobj : ∀ C ∈ S.contacts, C.objectFixed = false)
    (hcol : ∀ C ∈ S.contacts, C.colliderFixed = false) (hs : ¬ S.isStatic)
    (prev v0 x0 x v r f : ℕ → V3 ℝ)
    (hx : ∀ i, x i = x0 i + (S.timeStep / 2) • v i + (S.timeStep / 2) • v0 i) (hc : S.Regular x)
    (hc0 : S.Regular x0) (q0 : ℝ) (w0 : ℕ → V3 ℝ) (hprev : S.force x0 w0 q0 = some prev)
    (h : S.residual (1 / 2) (1 / 2) prev v0 x v = some (r, f))
    (hr : ∀ i, i < S.numVertices → r i = 0) :
    angularMomentum S.toProblem S.numVertices x v - angularMomentum S.toProblem S.numVertices x0 v0 =
      (S.timeStep / 2) • gravityTorque S.toProblem S.numVertices x +
        (S.timeStep / 2) • gravityTorque S.toProblem S.numVertices x0 +
        (S.timeStep / 4) • torque S.numVertices (fun i => x i - x0 i) fun i => f i - prev i := by
  obtain ⟨hf, hv⟩ := residual_vertex S (1 / 2) (1 / 2) (by norm_num) hs prev v0 x v r f h
  have ht := total_torque_partial S hN hp hu x v hobj hcol hc _ f hf
  have ht0 := total_torque_partial S hN hp hu x0 w0 hobj hcol hc0 _ prev hprev
  rw [← neg_eq_iff_eq_neg.2 ht, ← neg_eq_iff_eq_neg.2 ht0, smul_neg, smul_neg]
  unfold angularMomentum torque
  rw [← Finset.sum_sub_distrib, Finset.smul_sum, Finset.smul_sum, Finset.smul_sum,
    ← Finset.sum_neg_distrib, ← Finset.sum_neg_distrib, ← Finset.sum_add_distrib,
    ← Finset.sum_add_distrib]
  refine Finset.sum_congr rfl fun i hi => ?_
  have e := hv i (hr i (Finset.mem_range.1 hi))
  have ex := congrArg V3.x e
  have ey := congrArg V3.y e
  have ez := congrArg V3.z e
  have hx1 := congrArg V3.x (hx i)
  have hx2 := congrArg V3.y (hx i)
  have hx3 := congrArg V3.z (hx i)
  simp at ex ey ez hx1 hx2 hx3
  have key : ∀ T m a a0 b b0 u u0 w w0 f p g q : ℝ, a = a0 + T / 2 * u + T / 2 * u0 →
      b = b0 + T / 2 * w + T / 2 * w0 → m * (u - u0) = -(T * (1 / 2) * f) - T * (1 / 2) * p →
      m * (w - w0) = -(T * (1 / 2) * g) - T * (1 / 2) * q →
      m * (a * w - b * u) - m * (a0 * w0 - b0 * u0) =
        -(T / 2 * (a * g - b * f)) + -(T / 2 * (a0 * q - b0 * p)) +
          T / 4 * ((a - a0) * (g - q) - (b - b0) * (f - p)) := by
    intro T m a a0 b b0 u u0 w w0 f p g q h1 h2 h3 h4
    linear_combination (m * (w + w0) / 2) * h1 - (m * (u + u0) / 2) * h2 + ((a + a0) / 2) * h4 -
      ((b + b0) / 2) * h3
  ext
  · simp [V3.cross]
    exact key _ _ _ _ _ _ _ _ _ _ _ _ _ _ hx2 hx3 (by linarith) (by linarith)
  · simp [V3.cross]
    exact key _ _ _ _ _ _ _ _ _ _ _ _ _ _ hx3 hx1 (by linarith) (by linarith)
  · simp [V3.cross]
    exact key _ _ _ _ _ _ _ _ _ _ _ _ _ _ hx1 hx2 (by linarith) (by linarith)

/-! ## Damping -/

/-- A tetrahedron at the unit vectors and the origin, with given damping and density, and without
gravity. -/
def demoProblem (damping density : ℝ) : Problem where
  nh := [⟨![0, 1, 2, 3], ⟨M3.diag 1, 1 / 6, 1, 1⟩, damping⟩]
  nhDensity := [density]
  snh := []
  snhDensity := []
  shell := ⟨[], [], fun _ _ => 0⟩
  shellDensity := []
  gravity := 0
  timeStep := 1

/-- The same as a scene without zones and contacts. -/
def demoScene (damping density : ℝ) : Touching where
  toProblem := demoProblem damping density
  volumes := []
  contacts := []
  numVertices := 4
  numActive := 4

theorem demo_within (c d : ℝ) : (demoScene c d).Within := by
  refine ⟨⟨⟨?_, ?_, ?_, ?_⟩, ?_⟩, ?_, ?_, ?_, ?_, ?_⟩ <;>
    simp only [demoScene, demoProblem, List.not_mem_nil, false_imp_iff, implies_true]
  intro e he
  simp only [List.mem_cons, List.not_mem_nil, or_false] at he
  subst he
  show ∀ n, (![0, 1, 2, 3] : Fin 4 → ℕ) n < 4
  decide

theorem demo_paired (c d : ℝ) : (demoScene c d).Paired := by
  intro e he
  simp [demoScene, demoProblem] at he

/-- The element of the scene. -/
def demoElem (damping : ℝ) : TetElem := ⟨![0, 1, 2, 3], ⟨M3.diag 1, 1 / 6, 1, 1⟩, damping⟩

theorem demo_force (c d q : ℝ) (x v : ℕ → V3 ℝ) (g : Tet.Verts)
    (h : (demoElem c).gradient .nh x v q = some g) :
    ∃ f, (demoScene c d).force x v q = some f ∧ (∀ n : Fin 4, f n.val = g n) ∧
      torque 4 x f = V3.cross (x 0) (g 0) + V3.cross (x 1) (g 1) + V3.cross (x 2) (g 2) +
        V3.cross (x 3) (g 3) := by
  have e1 : ∀ G, tetGradient .nh (demoProblem c d).nh x v q G = some fun i => G i +
      vertexSum (zipCell ![0, 1, 2, 3] g) i := by
    intro G
    have := tetGradient_eq .nh [demoElem c] x v q (fun _ => g) (by simpa using h) G
    rw [List.flatMap_cons, List.flatMap_nil, List.append_nil] at this
    exact this
  have e2 : ∀ G, tetGradient .snh (demoProblem c d).snh x v q G = some fun i => G i + 0 := by
    intro G
    simp [tetGradient, demoProblem, collect, addAll]
  have hf := force_eq (demoProblem c d) x v q _ _ e1 e2
  have hg : ∀ n : Fin 4, vertexSum (zipCell ![0, 1, 2, 3] g) n.val = g n := by
    intro n
    rw [vertexSum_zipCell, Fin.sum_univ_four]
    fin_cases n <;> simp
  refine ⟨fun i => vertexSum (zipCell ![0, 1, 2, 3] g) i, ?_, hg, ?_⟩
  · rw [(demoScene c d).force_eq x v q _ ((demoScene c d).toSealed.force_eq x v q _ hf)]
    congr 1
    funext i
    simp [shell_gradient_eq, demoProblem, demoScene, vertexSum, Volume.Sealed.pressure,
      Touching.contactForce]
  · unfold torque
    simp only [Finset.sum_range_succ, Finset.sum_range_zero, zero_add]
    rw [← hg 0, ← hg 1, ← hg 2, ← hg 3]
    rfl

def demoX : ℕ → V3 ℝ := fun i => if i = 0 then ⟨2, 1, 0⟩ else if i = 1 then ⟨-1, 1, 0⟩ else if i = 2 then ⟨0, 0, 1⟩ else 0

def demoV : ℕ → V3 ℝ := fun i => if i = 0 then ⟨1, 1, 0⟩ else if i = 1 then ⟨-1, 0, 0⟩ else 0

/-- C121 fails with damping: the damping forces of a tetrahedron that turns while it is stretched exert a
torque, although nothing else acts on it. -/
theorem damping_torque_violated : ∃ (S : Touching) (x v f : ℕ → V3 ℝ), S.Within ∧ S.Paired ∧
    S.contacts = [] ∧ S.volumes = [] ∧ S.gravity = 0 ∧ 0 < S.timeStep ∧
    (∀ e ∈ S.nh, 0 < e.damping ∧ 0 < e.ref.mu ∧ 0 < e.ref.lambda ∧ 0 < e.ref.volume) ∧
    S.force x v S.timeStep = some f ∧ torque S.numVertices x f ≠ 0 := by
  have hF : ((demoElem 1).ref.at ((demoElem 1).pick demoX)).F.det = 3 := by
    simp [Tet.Elem.F, Tet.Ref.at, Tet.shape, demoElem, TetElem.pick, demoX, M3.mul_def, M3.mul, M3.mulVec,
      M3.transpose, M3.diag, M3.det, V3.dot, V3.cross]
    norm_num
  have hg := Tet.nhGradient_eq (e := (demoElem 1).ref.at ((demoElem 1).pick demoX)) (by rw [hF]; norm_num)
  have hprev : ((demoElem 1).prev demoX demoV 1).F = M3.diag 1 := by
    ext <;> simp [Tet.Elem.F, TetElem.prev, Tet.Ref.at, Tet.shape, demoElem, TetElem.pick, demoX, demoV,
      M3.mul_def, M3.mul, M3.mulVec, M3.transpose, M3.diag, V3.dot] <;> norm_num
  have hH : TetModel.nh.product ((demoElem 1).prev demoX demoV 1) ((demoElem 1).pick demoV) =
      ⟨⟨1 / 2, 0, 0⟩, ⟨0, 1 / 6, 0⟩, ⟨0, 0, 1 / 6⟩⟩ := by
    show Tet.nhProduct _ _ = _
    have hdet : (M3.diag 1 : M3 ℝ).det = 1 := by simp [M3.det, M3.diag, V3.dot, V3.cross]
    have hinv : (M3.diag 1 : M3 ℝ).inverseTranspose = some (M3.diag 1) := by
      unfold M3.inverseTranspose
      rw [if_neg (by rw [hdet]; norm_num), hdet]
      congr 1
      ext <;> simp [M3.cof, M3.diag, V3.cross]
    unfold Tet.nhProduct
    simp only [hprev, hdet, hinv, zero_lt_one, if_true, Real.log_one]
    ext <;> simp [Tet.Elem.dF, TetElem.prev, Tet.Ref.at, Tet.shape, demoElem, TetElem.pick, demoV,
      M3.mul_def, M3.mul, M3.mulVec, M3.transpose, M3.diag, M3.trace, V3.dot] <;> norm_num
  have htb := Tet.nh_torque_balance _ _ _ hg
  obtain ⟨f, h1, -, h3⟩ := demo_force 1 1 1 demoX demoV _ (by
    unfold TetElem.gradient
    rw [show TetModel.nh.gradient = Tet.nhGradient from rfl, hg, Option.map_some, hH])
  refine ⟨demoScene 1 1, demoX, demoV, f, demo_within _ _, demo_paired _ _, rfl, rfl, rfl, ?_, ?_, h1, ?_⟩
  · show (0 : ℝ) < 1
    norm_num
  · intro e he
    simp only [demoScene, demoProblem, List.mem_cons, List.not_mem_nil, or_false] at he
    subst he
    norm_num
  · intro h0
    have h4 : torque 4 demoX f = 0 := h0
    rw [h3] at h4
    rw [Fin.sum_univ_four] at htb
    revert h4 htb
    generalize Tet.spread _ = G
    intro htb h4
    have h5 := congrArg V3.z h4
    have h6 := congrArg V3.z htb
    simp [demoX, demoElem, TetElem.pick, V3.cross] at h5 h6
    linarith

/-! ## Backward Euler -/

def spinX : ℕ → V3 ℝ := fun i => if i = 0 then ⟨2, 0, 0⟩ else if i = 1 then ⟨0, 1, 0⟩ else if i = 2 then ⟨0, 0, 1⟩ else 0

def spinV : ℕ → V3 ℝ := fun i => if i = 0 then ⟨0, 1, 0⟩ else 0

theorem demo_mass : ∀ i, i < 4 → (demoScene 0 24).mass i = 1 := by
  intro i hi
  have e : (demoScene 0 24).mass i = ∑ n : Fin 4, if (![0, 1, 2, 3] : Fin 4 → ℕ) n = i then
      (1 / 6 * 24 : ℝ) / (4 : ℕ) else 0 := by
    simp [Problem.mass, vertexMass, Problem.nhBodies, Problem.snhBodies, Problem.shellBodies, tetBodies,
      triBodies, demoScene, demoProblem, Body.mass]
  rw [e, Fin.sum_univ_four]
  interval_cases i <;> simp <;> norm_num

theorem demo_moving : ¬ (demoScene 0 24).isStatic := one_ne_zero

theorem demo_undamped (d : ℝ) : Undamped (demoScene 0 d).toProblem := by
  refine ⟨?_, ?_, ?_⟩
  · intro e he
    simp only [demoScene, demoProblem, List.mem_cons, List.not_mem_nil, or_false] at he
    subst he
    rfl
  · intro e he
    simp [demoScene, demoProblem] at he
  · intro e he
    simp [demoScene, demoProblem] at he

/-- Without damping, forces do not depend on velocities. -/
theorem demo_rest_force (d : ℝ) (x : ℕ → V3 ℝ) (hd : 0 < ((demoElem 0).ref.at ((demoElem 0).pick x)).F.det) :
    ∃ f, ∀ v q, (demoScene 0 d).force x v q = some f := by
  have hg := Tet.nhGradient_eq (e := (demoElem 0).ref.at ((demoElem 0).pick x)) hd
  have h1 : ∀ v q, (demoElem 0).gradient .nh x v q = (demoElem 0).gradient .nh x 0 0 := by
    intro v q
    unfold TetElem.gradient
    rw [show TetModel.nh.gradient = Tet.nhGradient from rfl, hg, Option.map_some, Option.map_some]
    simp [demoElem]
  have h0 : ∃ g, (demoElem 0).gradient .nh x 0 0 = some g := by
    unfold TetElem.gradient
    rw [show TetModel.nh.gradient = Tet.nhGradient from rfl, hg, Option.map_some]
    exact ⟨_, rfl⟩
  obtain ⟨g, h0⟩ := h0
  have h2 : ∀ v q, (demoElem 0).gradient .nh x v q = some g := fun v q => (h1 v q).trans h0
  obtain ⟨f, hf, hf', -⟩ := demo_force 0 d 0 x 0 g (h2 _ _)
  refine ⟨f, fun v q => ?_⟩
  rw [← hf]
  have e1 : ∀ v q G, tetGradient .nh (demoProblem 0 d).nh x v q G = some fun i => G i +
      vertexSum (zipCell ![0, 1, 2, 3] g) i := by
    intro v q G
    have := tetGradient_eq .nh [demoElem 0] x v q (fun _ => g) (by simpa using h2 v q) G
    rw [List.flatMap_cons, List.flatMap_nil, List.append_nil] at this
    exact this
  have e2 : ∀ v q G, tetGradient .snh (demoProblem 0 d).snh x v q G = some fun i => G i + 0 := by
    intro v q G
    simp [tetGradient, demoProblem, collect, addAll]
  rw [(demoScene 0 d).force_eq x v q _ ((demoScene 0 d).toSealed.force_eq x v q _
      (force_eq (demoProblem 0 d) x v q _ _ (e1 v q) (e2 v q))),
    (demoScene 0 d).force_eq x 0 0 _ ((demoScene 0 d).toSealed.force_eq x 0 0 _
      (force_eq (demoProblem 0 d) x 0 0 _ _ (e1 0 0) (e2 0 0)))]
  rfl

/-- C121 fails for backward Euler: a tetrahedron on which nothing acts, not even damping, loses angular
momentum in a step at whose end the residual vanishes. -/
theorem backward_euler_spin_violated : ∃ (S : Touching) (x0 v0 x v r f : ℕ → V3 ℝ), S.Within ∧ S.Paired ∧
    Undamped S.toProblem ∧ S.contacts = [] ∧ S.volumes = [] ∧ S.gravity = 0 ∧ 0 < S.timeStep ∧
    (∀ i, i < S.numVertices → 0 < S.mass i) ∧
    (∀ i, x i = x0 i + S.timeStep • v i) ∧ S.residual 1 0 (fun _ => 0) v0 x v = some (r, f) ∧
    (∀ i, i < S.numVertices → r i = 0) ∧
    angularMomentum S.toProblem S.numVertices x v ≠ angularMomentum S.toProblem S.numVertices x0 v0 := by
  have hF : ((demoElem 0).ref.at ((demoElem 0).pick spinX)).F = ⟨⟨2, 0, 0⟩, ⟨0, 1, 0⟩, ⟨0, 0, 1⟩⟩ := by
    ext <;> simp [Tet.Elem.F, Tet.Ref.at, Tet.shape, demoElem, TetElem.pick, spinX, M3.mul_def, M3.mul, M3.mulVec,
      M3.transpose, M3.diag, V3.dot]
  have hdet : ((demoElem 0).ref.at ((demoElem 0).pick spinX)).F.det = 2 := by
    rw [hF]
    simp [M3.det, V3.dot, V3.cross]
  have hg := Tet.nhGradient_eq (e := (demoElem 0).ref.at ((demoElem 0).pick spinX)) (by rw [hdet]; norm_num)
  have hr0 : (Tet.nhMatrix ((demoElem 0).ref.at ((demoElem 0).pick spinX))).r0 =
      ⟨(3 / 2 + Real.log 2 / 2) / 6, 0, 0⟩ := by
    unfold Tet.nhMatrix
    rw [hdet, hF]
    ext <;> simp [Tet.nhStress, Tet.Ref.at, demoElem, M3.mul_def, M3.mul, M3.mulVec, M3.transpose, M3.diag,
      M3.cof, V3.dot, V3.cross]
    ring
  obtain ⟨f, h1, h2, -⟩ := demo_force 0 24 1 spinX spinV _ (by
    unfold TetElem.gradient
    rw [show TetModel.nh.gradient = Tet.nhGradient from rfl, hg, Option.map_some])
  have hm := demo_mass
  have hst := demo_moving
  have hdt : (demoScene 0 24).dt = 1 := if_neg hst
  have hu := demo_undamped 24
  have hx : ∀ i, spinX i = (spinX i - spinV i) + (demoScene 0 24).timeStep • spinV i := by
    intro i
    show spinX i = spinX i - spinV i + (1 : ℝ) • spinV i
    rw [one_smul, sub_add_cancel]
  have hres : (demoScene 0 24).residual 1 0 (fun _ => 0) (fun i => spinV i + f i) spinX spinV =
      some ((demoScene 0 24).momentumDiff (fun i => spinV i + f i) spinV fun i => (1 : ℝ) • f i, f) := by
    unfold Touching.residual
    simp only [hdt, mul_one, h1, Option.map_some, gt_iff_lt, lt_irrefl, if_false, if_neg hst]
  have hz : ∀ i, i < (demoScene 0 24).numVertices → (demoScene 0 24).momentumDiff
      (fun i => spinV i + f i) spinV (fun i => (1 : ℝ) • f i) i = 0 := by
    intro i hi
    rw [momentumDiff_eq, hm i hi]
    simp
  refine ⟨demoScene 0 24, fun i => spinX i - spinV i, fun i => spinV i + f i, spinX, spinV, _, f,
    demo_within _ _, demo_paired _ _, hu, rfl, rfl, rfl, one_pos, fun i hi => ?_, hx, hres, hz, fun h => ?_⟩
  · rw [hm i hi]
    exact one_pos
  · have ht := spin_backward_euler_partial (demoScene 0 24) (demo_within _ _) (demo_paired _ _) hu
      (fun C hC => absurd hC List.not_mem_nil) (fun C hC => absurd hC List.not_mem_nil) hst _ _ _ _ _ _ _ hx
      (fun C hC => absurd hC List.not_mem_nil) hres hz
    have hf0 : f 0 = ⟨(3 / 2 + Real.log 2 / 2) / 6, 0, 0⟩ := by
      rw [← hr0]
      have := h2 0
      simp only [demoElem, zero_mul, zero_smul, add_zero, Matrix.cons_val_zero, Tet.spread] at this
      exact this
    rw [h, sub_self] at ht
    have hg0 : gravityTorque (demoScene 0 24).toProblem 4 spinX = 0 := by
      unfold gravityTorque
      exact Finset.sum_eq_zero fun i _ => by
        rw [show (demoScene 0 24).gravity = 0 from rfl, cross_zero, smul_zero]
    have ht' : (0 : V3 ℝ) = (1 : ℝ) • gravityTorque (demoScene 0 24).toProblem 4 spinX +
      (1 : ℝ) • ∑ i ∈ Finset.range 4, (demoScene 0 24).mass i • V3.cross (spinV i) (spinV i + f i) := ht
    rw [hg0, smul_zero, zero_add, one_smul] at ht'
    simp only [Finset.sum_range_succ, Finset.sum_range_zero, zero_add, hm 0 (by norm_num), hm 1 (by norm_num),
      hm 2 (by norm_num), hm 3 (by norm_num), one_smul] at ht'
    have h3 := congrArg V3.z ht'
    have hl : 0 < Real.log 2 := Real.log_pos (by norm_num)
    simp [spinV, V3.cross, hf0] at h3
    linarith

/-! ## Friction -/

/-- C121 fails with friction: the friction forces between a flat surface and a vertex above it sum to zero,
but they exert a torque, because they act at the centre of the triangle on one side and at the vertex on
the other. -/
theorem friction_torque_violated : ∃ (C : Pair) (ns N : ℕ) (p : Friction.Params) (x v f : ℕ → V3 ℝ),
    C.Distinct ns N ∧ C.Flat x ∧ 0 < C.kappa ∧ 0 < C.delta ∧ p.Valid ∧ C.objectFixed = false ∧
      C.colliderFixed = false ∧ C.frictionForce ns p x v = some f ∧
      ∑ i ∈ Finset.range N, f i = 0 ∧ torque N x f ≠ 0 := by
  have hnorm : ((⟨1 / 2, 1, 1 / 2⟩ : V3 ℝ) - ⟨1, 1, 0⟩).norm < 1 := by
    unfold V3.norm V3.dot
    rw [Real.sqrt_lt' (by norm_num)]
    norm_num
  have hflat := plate_flat 1 (4 / 3) ⟨1 / 2, 1, 1 / 2⟩ hnorm
  obtain ⟨n, hn⟩ := hflat ([0], 0) (by simp [plate_active])
  have hnv : n = ⟨0, 0, 1⟩ := by
    rw [← hn.normals 0 (by simp), plate_samples, plate_normal]
  subst hnv
  set x := plateX ⟨1 / 2, 1, 1 / 2⟩ with hx
  set w : ℕ → V3 ℝ := fun i => V3.cross ⟨0, 0, 1⟩ (x i) with hw
  have hdist : (plate 1 (4 / 3)).distance x ([0], 0) = 1 / 2 := by
    unfold Pair.distance
    rw [hn.potential 0 (1 / 2) fun i _ => by
      rw [plate_samples, plate_pos]
      show (0 : ℝ) + V3.dot ⟨0, 0, 1⟩ ((⟨1 / 2, 1, 1 / 2⟩ : V3 ℝ) - ⟨1, 1, 0⟩) = 1 / 2
      norm_num [V3.dot]]
    show (1 / 2 : ℝ) - 0 = 1 / 2
    norm_num
  have hdb : -(plate 1 (4 / 3)).kappa * ContactPenalty.db (plate 1 (4 / 3)).delta
      ((plate 1 (4 / 3)).distance x ([0], 0)) = 1 := by
    rw [hdist]
    show -(4 / 3 : ℝ) * ContactPenalty.db 1 (1 / 2) = 1
    rw [ContactPenalty.db_of_lt (by norm_num)]
    norm_num
  have hm : (⟨0, 1 / 2, 0⟩ : V3 ℝ).norm = 1 / 2 := by
    unfold V3.norm V3.dot
    rw [show (0 : ℝ) * 0 + 1 / 2 * (1 / 2) + 0 * 0 = 1 / 2 * (1 / 2) by norm_num,
      Real.sqrt_mul_self (by norm_num)]
  have hp : (plate 1 (4 / 3)).pushed x w ([0], 0) = ⟨-1, 1, 0⟩ := by
    obtain ⟨u, hu, h1⟩ := hn.contactJacobian
    have h1 : u 0 = 1 := by simpa using h1
    unfold Pair.pushed
    simp only at hu ⊢
    rw [hu]
    simp only [Option.getD_some, List.map_cons, List.map_nil, List.zip_cons_cons, List.zip_nil_right,
      List.sum_cons, List.sum_nil, add_zero, h1]
    ext <;> simp [hw, hx, Pair.faceVelocity, plate, Field.demoTri, plateX, Field.demoVerts, M3.mulVec, M3.diag, V3.dot, V3.cross]
  have hrw : (plate 1 (4 / 3)).pushed x w ([0], 0) - w ((plate 1 (4 / 3)).coll 0) = ⟨0, 1 / 2, 0⟩ := by
    rw [hp]
    show (⟨-1, 1, 0⟩ : V3 ℝ) - V3.cross ⟨0, 0, 1⟩ ⟨1 / 2, 1, 1 / 2⟩ = _
    ext <;> norm_num [V3.cross]
  have hrel : (plate 1 (4 / 3)).relativeVelocities x w = [⟨0, 1 / 2, 0⟩] := by
    rw [Pair.relativeVelocities_eq, plate_active]
    show [(plate 1 (4 / 3)).pushed x w ([0], 0) - w ((plate 1 (4 / 3)).coll 0)] = _
    rw [hrw]
  have hlam : (plate 1 (4 / 3)).lambda x = [1] := by
    simp only [Pair.lambda, ContactPenalty.multipliers, Pair.distances_eq, plate_active, List.map_cons,
      List.map_nil, hdb]
  have hN : (plate 1 (4 / 3)).contactNormals x = [⟨0, 0, -1⟩] := by
    have hone : (⟨0, 0, 1⟩ : V3 ℝ).norm = 1 := by
      simp [V3.norm, V3.dot]
    simp only [Pair.contactNormals, Pair.queryBlocks, plate_active, List.map_cons, List.map_nil]
    rw [show Field.queryJacobianAt ((plate 1 (4 / 3)).query x 0) [0] ((plate 1 (4 / 3)).samples x)
      (some ((plate 1 (4 / 3)).closest 0)) (plate 1 (4 / 3)).kernel params = some ⟨0, 0, 1⟩ from hn.gradient _]
    simp only [Option.getD_some, hone]
    rw [if_pos one_pos]
    congr 1
    ext <;> simp
  have hcf : (plate 1 (4 / 3)).constraintFriction fullFriction x w = [⟨0, -1, 0⟩] := by
    simp only [Pair.constraintFriction, hrel, Pair.contactBasis, hN, hlam, List.zipIdx_singleton,
      List.map_cons, List.map_nil, List.getD_cons_zero,
      full_friction_level 0 (1 / 2) (by rw [hm]; norm_num), Option.getD_some, hm]
    congr 1
    ext <;> norm_num
  have hf : (plate 1 (4 / 3)).frictionForce 3 fullFriction x w = some ((plate 1 (4 / 3)).transposeMul 3 x
      ((plate 1 (4 / 3)).constraintFriction fullFriction x w)) := by
    unfold Pair.frictionForce
    rw [if_neg (by norm_num [Friction.Params.isNone, fullFriction])]
  refine ⟨plate 1 (4 / 3), 3, 4, fullFriction, x, w, _, plate_distinct _ _, hflat, ?_, ?_,
    fullFriction_valid, rfl, rfl, hf, (plate 1 (4 / 3)).friction_momentum_partial (plate_distinct _ _)
      fullFriction x w _ hflat hf, fun h0 => ?_⟩
  · show (0 : ℝ) < 4 / 3
    norm_num
  · show (0 : ℝ) < 1
    norm_num
  · have ha := (plate 1 (4 / 3)).transposeMul_adjoint (plate_distinct 1 (4 / 3)) x w
      ((plate 1 (4 / 3)).constraintFriction fullFriction x w)
    rw [hrel, hcf] at ha
    rw [hcf] at h0
    have e : ∑ i ∈ Finset.range 4, V3.dot ((plate 1 (4 / 3)).transposeMul 3 x [⟨0, -1, 0⟩] i) (w i) =
        V3.dot (torque 4 x ((plate 1 (4 / 3)).transposeMul 3 x [⟨0, -1, 0⟩])) ⟨0, 0, 1⟩ := by
      unfold torque
      rw [← Pair.dot_total]
      refine Finset.sum_congr rfl fun i _ => ?_
      rw [hw]
      simp [V3.dot, V3.cross]
      ring
    rw [e, h0] at ha
    norm_num [V3.dot] at ha

/-! ## The hypotheses are met -/

/-- Those of `total_torque_partial` and of `spin_backward_euler_partial` are met by the tetrahedron above,
see `backward_euler_spin_violated`; those of `spin_trapezoidal_partial` by the same tetrahedron when it
bounces back. -/
example : ∃ (S : Touching) (prev v0 x0 x v r f : ℕ → V3 ℝ), S.Within ∧ S.Paired ∧ Undamped S.toProblem ∧
    ¬ S.isStatic ∧ (∀ i, x i = x0 i + (S.timeStep / 2) • v i + (S.timeStep / 2) • v0 i) ∧ S.Regular x ∧
    S.Regular x0 ∧ S.force x0 v0 1 = some prev ∧
    S.residual (1 / 2) (1 / 2) prev v0 x v = some (r, f) ∧ ∀ i, i < S.numVertices → r i = 0 := by
  obtain ⟨f, hf⟩ := demo_rest_force 24 spinX (by
    simp [M3.det, V3.cross, Tet.Elem.F, Tet.Ref.at, Tet.shape, demoElem, TetElem.pick, spinX, M3.mul_def,
      M3.mul, M3.mulVec, M3.transpose, M3.diag, V3.dot])
  have hdt : (demoScene 0 24).dt = 1 := if_neg demo_moving
  refine ⟨demoScene 0 24, f, fun i => (1 / 2 : ℝ) • f i, spinX, spinX, fun i => -((1 / 2 : ℝ) • f i),
    (demoScene 0 24).momentumDiff (fun i => (1 / 2 : ℝ) • f i) (fun i => -((1 / 2 : ℝ) • f i))
      fun i => (1 : ℝ) • ((1 / 2 : ℝ) • f i + (1 / 2 : ℝ) • f i), f,
    demo_within _ _, demo_paired _ _, demo_undamped _, demo_moving, fun i => ?_,
    fun C hC => absurd hC List.not_mem_nil, fun C hC => absurd hC List.not_mem_nil, hf _ _, ?_, fun i hi => ?_⟩
  · rw [smul_neg, neg_add_cancel_right]
  · unfold Touching.residual
    simp only [hdt, hf, Option.map_some, if_neg demo_moving]
    rw [if_pos (by norm_num)]
  · rw [momentumDiff_eq, demo_mass i hi]
    ext <;> simp

end Softy.Spin
