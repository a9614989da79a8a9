import Verif.Props.Jacobian

/-!
# C67, C68: momentum of the whole scene, and free fall
-/

noncomputable section

namespace Softy.Fem

open Softy Assembly

/-! ## Specification -/

namespace Problem

/-- The mass of the scene. -/
def totalMass (P : Problem) : ℝ :=
  Fem.totalMass P.nhBodies + Fem.totalMass P.snhBodies + Fem.totalMass P.shellBodies

/-- The momentum of the first `N` vertices. -/
def momentum (P : Problem) (N : ℕ) (v : ℕ → V3 ℝ) : V3 ℝ :=
  ∑ i ∈ Finset.range N, P.mass i • v i

/-- The two faces of each dihedral element share its edge. -/
def Paired (P : Problem) : Prop := ∀ e ∈ P.shell.dihedrals, e.edge.Shared P.shell.faces

/-- All elements have their reference shapes at the positions `x`. -/
structure AtRest (P : Problem) (x : ℕ → V3 ℝ) : Prop where
  nh : ∀ e ∈ P.nh, Tet.AtRest e.ref (e.pick x)
  snh : ∀ e ∈ P.snh, Tet.AtRest e.ref (e.pick x) ∧ 0 < e.ref.lambda
  tris : ∀ e ∈ P.shell.tris, Tri.AtRest e.ref (e.pick x)
  dihedrals : ∀ e ∈ P.shell.dihedrals,
    e.edge.incrementalAngle e.bending.prevTheta x P.shell.faces = e.bending.refTheta

end Problem

/-! ## Sums -/

theorem vertexSum_total (l : List (ℕ × V3 ℝ)) (N : ℕ) (hN : ∀ p ∈ l, p.1 < N) :
    ∑ i ∈ Finset.range N, vertexSum l i = (l.map Prod.snd).sum := by
  induction l with
  | nil => simp [vertexSum]
  | cons a l ih =>
    have h := ih fun p hp => hN p (by simp [hp])
    simp only [vertexSum, List.map_cons, List.sum_cons, Finset.sum_add_distrib] at h ⊢
    rw [h, Finset.sum_ite_eq, if_pos (Finset.mem_range.2 (hN a (by simp)))]

theorem flatMap_total {ι : Type} {m : ℕ} (es : List ι) (cell : ι → Fin m → ℕ)
    (w : ι → Fin m → V3 ℝ) (N : ℕ) (hN : ∀ e ∈ es, ∀ n, cell e n < N)
    (hw : ∀ e ∈ es, ∑ n, w e n = 0) :
    ∑ i ∈ Finset.range N, vertexSum (es.flatMap fun e => zipCell (cell e) (w e)) i = 0 := by
  rw [vertexSum_total]
  · induction es with
    | nil => simp
    | cons e es ih =>
      have h1 : ((zipCell (cell e) (w e)).map Prod.snd).sum = ∑ n, w e n := by
        simp only [zipCell, List.map_map]
        rw [Fin.sum_univ_def]
        rfl
      rw [List.flatMap_cons, List.map_append, List.sum_append, h1, hw e (by simp), zero_add]
      exact ih (fun e' h => hN e' (by simp [h])) fun e' h => hw e' (by simp [h])
  · intro p hp
    obtain ⟨e, he, hp⟩ := List.mem_flatMap.1 hp
    simp only [zipCell, List.mem_map] at hp
    obtain ⟨n, -, rfl⟩ := hp
    exact hN e he n

theorem collect_isSome {ι α : Type} (es : List ι) (f : ι → Option α) {l : List α}
    (h : collect (es.map f) = some l) : ∀ e ∈ es, (f e).isSome := by
  induction es generalizing l with
  | nil => simp
  | cons a es ih =>
    simp only [List.map_cons, collect] at h
    cases ha : f a with
    | none => simp [ha] at h
    | some x =>
      cases hc : collect (es.map f) with
      | none => simp [ha, hc] at h
      | some y =>
        intro e he
        rcases List.mem_cons.1 he with rfl | he
        · simp [ha]
        · exact ih hc e he

/-- The forces of one tetrahedron balance. -/
theorem tet_element_balance (M : TetModel) (e : TetElem) (x v : ℕ → V3 ℝ) (dqdv : ℝ) (g : Tet.Verts)
    (h : e.gradient M x v dqdv = some g) : ∑ n, g n = 0 := by
  unfold TetElem.gradient at h
  cases hg : M.gradient (e.ref.at (e.pick x)) with
  | none => simp [hg] at h
  | some w =>
    rw [hg, Option.map_some, Option.some.injEq] at h
    have hw : ∑ n, w n = 0 := by
      cases M
      · exact Tet.nh_force_balance _ _ _ hg
      · exact Tet.snh_force_balance _ _ _ hg
    rw [← h]
    rw [Fin.sum_univ_four] at hw ⊢
    simp only [Matrix.cons_val]
    rw [← hw]
    abel

theorem tet_mesh_balance (M : TetModel) (es : List TetElem) (x v : ℕ → V3 ℝ) (dqdv : ℝ) (N : ℕ)
    (hN : ∀ e ∈ es, ∀ n, e.cell n < N) (G G' : ℕ → V3 ℝ)
    (h : tetGradient M es x v dqdv G = some G') :
    (∃ g : ℕ → V3 ℝ, ∑ i ∈ Finset.range N, g i = 0 ∧
      ∀ F, tetGradient M es x v dqdv F = some fun i => F i + g i) := by
  have hc : ∃ l, collect (es.map fun e => e.gradient M x v dqdv) = some l := by
    cases hl : collect (es.map fun e => e.gradient M x v dqdv) with
    | none => simp [tetGradient, hl] at h
    | some l => exact ⟨l, rfl⟩
  obtain ⟨l, hl⟩ := hc
  have hs := collect_isSome es _ hl
  have hw : ∀ e ∈ es, e.gradient M x v dqdv = some ((e.gradient M x v dqdv).getD 0) := by
    intro e he
    obtain ⟨w, hw⟩ := Option.isSome_iff_exists.1 (hs e he)
    rw [hw, Option.getD_some]
  refine ⟨_, ?_, fun F => tetGradient_eq M es x v dqdv _ hw F⟩
  exact flatMap_total es (fun e => e.cell) _ N hN fun e he =>
    tet_element_balance M e x v dqdv _ (hw e he)

theorem shell_mesh_balance (s : Shell) (x v : ℕ → V3 ℝ) (dqdv : ℝ) (N : ℕ) (hN : s.Within N)
    (hp : ∀ e ∈ s.dihedrals, e.edge.Shared s.faces) :
    ∑ i ∈ Finset.range N, s.gradient x v dqdv (fun _ => 0) i = 0 := by
  simp only [shell_gradient_eq, zero_add, Finset.sum_add_distrib]
  rw [flatMap_total s.tris (fun e => e.cell) _ N hN.1, flatMap_total s.dihedrals _ _ N hN.2, add_zero]
  · intro e he
    have h := (IEdge.gradient_equilibrated e.edge x s.faces (hp e he)).1
    rw [Fin.sum_univ_four]
    simp only [gradList, Matrix.cons_val, IEdge.Bending.gradient]
    rw [← smul_add, ← smul_add, ← smul_add, h, smul_zero]
  · intro e he
    have h := Tri.tri_force_balance e.ref (e.pick x)
    unfold TriElem.localGradient
    rw [Finset.sum_add_distrib, h, zero_add, Fin.sum_univ_three]
    simp only [Tri.spread, Matrix.cons_val]
    abel

/-! ## Momentum -/

theorem mass_sum (P : Problem) (N : ℕ) (hN : P.Within N) :
    ∑ i ∈ Finset.range N, P.mass i = P.totalMass := by
  simp only [Problem.mass, Finset.sum_add_distrib]
  rw [mass_total P.nhBodies N (tetBodies_within hN.nh _) (by norm_num),
    mass_total P.snhBodies N (tetBodies_within hN.snh _) (by norm_num),
    mass_total P.shellBodies N (triBodies_within hN.shell.1 _) (by norm_num)]
  rfl

/-- C68. The forces of the elements cancel: the sum of all forces is the weight of the scene. -/
theorem total_force (P : Problem) (N : ℕ) (hN : P.Within N) (hp : P.Paired) (x v : ℕ → V3 ℝ)
    (dqdv : ℝ) (f : ℕ → V3 ℝ) (h : P.force x v dqdv = some f) :
    ∑ i ∈ Finset.range N, f i = -(P.totalMass • P.gravity) := by
  have h' := h
  unfold Problem.force at h'
  cases h1 : tetGradient .nh P.nh x v dqdv (fun _ => 0) with
  | none => simp [h1] at h'
  | some G1 =>
    rw [h1, Option.bind_some] at h'
    cases h2 : tetGradient .snh P.snh x v dqdv G1 with
    | none => simp [h2] at h'
    | some G2 =>
      obtain ⟨g1, s1, e1⟩ := tet_mesh_balance _ _ _ _ _ N hN.nh _ _ h1
      obtain ⟨g2, s2, e2⟩ := tet_mesh_balance _ _ _ _ _ N hN.snh _ _ h2
      have hf := force_eq P x v dqdv g1 g2 e1 e2
      rw [h, Option.some.injEq] at hf
      rw [hf]
      simp only [Finset.sum_sub_distrib, Finset.sum_add_distrib]
      rw [s1, s2, shell_mesh_balance P.shell x v dqdv N hN.shell hp, ← Finset.sum_smul,
        mass_sum P N hN]
      simp

/-- C68. The sum of the residual is the change of momentum less the impulse of gravity and of the
previous forces, whatever the positions and velocities. -/
theorem total_residual (P : Problem) (N : ℕ) (hN : P.Within N) (hp : P.Paired) (fm pm : ℝ)
    (hpm : 0 ≤ pm) (hs : ¬ P.isStatic) (prev v0 x v r f : ℕ → V3 ℝ)
    (h : P.residual fm pm prev v0 x v = some (r, f)) :
    ∑ i ∈ Finset.range N, r i = P.momentum N v - P.momentum N v0
      - (P.dt * fm) • (P.totalMass • P.gravity) + (pm * P.dt) • ∑ i ∈ Finset.range N, prev i := by
  classical
  cases hf : P.force x v (P.dt * fm) with
  | none => simp [Problem.residual, hf] at h
  | some f' =>
    obtain ⟨r', h', hr⟩ := residual_eq P fm pm prev v0 x v f' hf
    rw [h, Option.some.injEq, Prod.mk.injEq] at h'
    obtain ⟨rfl, rfl⟩ := h'
    have hprev : ∀ i, (if pm > 0 then (pm * P.dt) • prev i else 0) = (pm * P.dt) • prev i := by
      intro i
      by_cases hp : pm > 0
      · rw [if_pos hp]
      · have : pm = 0 := le_antisymm (not_lt.1 hp) hpm
        rw [if_neg hp, this, zero_mul, zero_smul]
    simp only [hr, hprev, if_neg hs, Finset.sum_add_distrib, ← Finset.smul_sum]
    rw [total_force P N hN hp x v _ f hf]
    simp only [Problem.momentum, smul_sub, Finset.sum_sub_distrib, smul_neg]
    abel

/-- C68. Where the residual vanishes, the momentum of the scene changes by the impulse of gravity
over the time step, however the elements deform. This holds for every integration rule of the form
`forceMul * (new forces) + prevForceMul * (forces of some earlier positions)` with weights that sum to
one, so for backward Euler, the trapezoidal rule and the mixed rules. -/
theorem momentum_conserved (P : Problem) (N : ℕ) (hN : P.Within N) (hp : P.Paired) (fm pm : ℝ)
    (hpm : 0 ≤ pm) (h1 : fm + pm = 1) (hs : ¬ P.isStatic) (prev v0 x v f xp vp : ℕ → V3 ℝ) (qp : ℝ)
    (hprev : P.force xp vp qp = some prev) (r : ℕ → V3 ℝ) (hr : ∀ i, i < N → r i = 0)
    (h : P.residual fm pm prev v0 x v = some (r, f)) :
    P.momentum N v - P.momentum N v0 = P.timeStep • (P.totalMass • P.gravity) := by
  have ht := total_residual P N hN hp fm pm hpm hs prev v0 x v r f h
  rw [Finset.sum_eq_zero fun i hi => hr i (Finset.mem_range.1 hi),
    total_force P N hN hp xp vp qp prev hprev] at ht
  have hdt : P.dt = P.timeStep := if_neg hs
  rw [hdt] at ht
  have hfm : fm = 1 - pm := by linarith
  subst hfm
  have e : P.momentum N v - P.momentum N v0 = (P.timeStep * (1 - pm)) • (P.totalMass • P.gravity)
      + (pm * P.timeStep) • (P.totalMass • P.gravity) := by
    rw [smul_neg] at ht
    generalize (P.timeStep * (1 - pm)) • (P.totalMass • P.gravity) = A at *
    generalize (pm * P.timeStep) • (P.totalMass • P.gravity) = B at *
    generalize P.momentum N v - P.momentum N v0 = C at *
    have : C - A - B = 0 := by rw [ht]; abel
    rw [sub_sub, sub_eq_zero] at this
    exact this
  rw [e, ← add_smul]
  congr 1
  ring

/-! ## Free fall -/

theorem tet_dF_uniform (e : TetElem) (v : ℕ → V3 ℝ) (u : V3 ℝ) (hv : ∀ i, v i = u) (y : Tet.Verts) :
    (e.ref.at y).dF (e.pick v) = 0 := by
  have : Tet.shape (e.pick v) = 0 := by
    ext <;> simp [Tet.shape, TetElem.pick, hv]
  rw [Tet.Elem.dF, this]
  ext <;> simp [M3.mul, M3.transpose, M3.mulVec, V3.dot]

theorem product_uniform (M : TetModel) (e : TetElem) (v : ℕ → V3 ℝ) (u : V3 ℝ)
    (hv : ∀ i, v i = u) (y : Tet.Verts) : M.product (e.ref.at y) (e.pick v) = 0 := by
  have h0 := tet_dF_uniform e v u hv y
  cases M
  · simp only [TetModel.product, Tet.nhProduct, h0]
    split_ifs
    · cases (e.ref.at y).F.inverseTranspose with
      | none => rfl
      | some B =>
        simp only
        ext <;> simp [M3.mul, M3.transpose, M3.mulVec, V3.dot, M3.trace]
    · rfl
  · simp only [TetModel.product, Tet.snhProduct, h0]
    ext <;> simp [M3.mul, M3.transpose, M3.mulVec, V3.dot]

theorem tet_element_rest (M : TetModel) (e : TetElem) (x v : ℕ → V3 ℝ) (u : V3 ℝ)
    (hv : ∀ i, v i = u) (dqdv : ℝ) (hr : Tet.AtRest e.ref (e.pick x))
    (hl : M = .snh → 0 < e.ref.lambda) : e.gradient M x v dqdv = some 0 := by
  have hg : M.gradient (e.ref.at (e.pick x)) = some 0 := by
    cases M
    · exact (Tet.nh_rest _ _ hr).2
    · exact Tet.snh_rest _ _ hr (hl rfl)
  unfold TetElem.gradient TetElem.prev
  rw [hg, Option.map_some]
  simp only [product_uniform M e v u hv]
  congr 1
  funext n
  fin_cases n <;> (ext <;> simp)

theorem tet_mesh_rest (M : TetModel) (es : List TetElem) (x v : ℕ → V3 ℝ) (u : V3 ℝ)
    (hv : ∀ i, v i = u) (dqdv : ℝ) (hr : ∀ e ∈ es, Tet.AtRest e.ref (e.pick x))
    (hl : ∀ e ∈ es, M = .snh → 0 < e.ref.lambda) (G : ℕ → V3 ℝ) :
    tetGradient M es x v dqdv G = some fun i => G i + 0 := by
  rw [tetGradient_eq M es x v dqdv (fun _ => 0)
    (fun e he => tet_element_rest M e x v u hv dqdv (hr e he) (hl e he))]
  congr 1
  funext i
  congr 1
  rw [vertexSum_flatMap]
  apply List.sum_eq_zero
  intro a ha
  obtain ⟨e, -, rfl⟩ := List.mem_map.1 ha
  rw [vertexSum_zipCell]
  simp

theorem shell_mesh_rest (s : Shell) (x v : ℕ → V3 ℝ) (u : V3 ℝ) (hv : ∀ i, v i = u) (dqdv : ℝ)
    (ht : ∀ e ∈ s.tris, Tri.AtRest e.ref (e.pick x))
    (hd : ∀ e ∈ s.dihedrals,
      e.edge.incrementalAngle e.bending.prevTheta x s.faces = e.bending.refTheta) (i : ℕ) :
    s.gradient x v dqdv (fun _ => 0) i = 0 := by
  rw [shell_gradient_eq, vertexSum_flatMap, vertexSum_flatMap]
  have h1 : ∀ a ∈ s.tris.map (fun e => vertexSum (zipCell e.cell (e.localGradient x v dqdv)) i),
      a = 0 := by
    intro a ha
    obtain ⟨e, he, rfl⟩ := List.mem_map.1 ha
    have hg := (Tri.tri_rest _ _ (ht e he)).2
    have hz : (e.ref.at (e.pick x)).dF (e.pick v) = ⟨0, 0⟩ := by
      simp only [Tri.Elem.dF, Tri.shape, TriElem.pick, hv, sub_self, Tri.M22.mul23]
      simp
    have : e.localGradient x v dqdv = 0 := by
      funext n
      unfold TriElem.localGradient TriElem.damp
      rw [hg, hz]
      fin_cases n <;> (ext <;> simp [Tri.spread, Tri.M22.mul23])
    rw [this, vertexSum_zipCell]
    simp
  have h2 : ∀ a ∈ s.dihedrals.map (fun e => vertexSum
      (zipCell (e.cell s.faces) (gradList (e.bending.gradient e.edge x s.faces))) i), a = 0 := by
    intro a ha
    obtain ⟨e, he, rfl⟩ := List.mem_map.1 ha
    have : gradList (e.bending.gradient e.edge x s.faces) = 0 := by
      simp only [IEdge.Bending.gradient, IEdge.Bending.angleDerivative, hd e he, sub_self, mul_zero,
        zero_smul]
      funext n
      fin_cases n <;> rfl
    rw [this, vertexSum_zipCell]
    simp
  rw [List.sum_eq_zero h1, List.sum_eq_zero h2]
  simp

/-- The forces on a scene in its reference shape that moves uniformly are the weights. -/
theorem rest_force (P : Problem) (x v : ℕ → V3 ℝ) (u : V3 ℝ) (hv : ∀ i, v i = u) (dqdv : ℝ)
    (hr : P.AtRest x) : P.force x v dqdv = some fun i => -(P.mass i • P.gravity) := by
  rw [force_eq P x v dqdv (fun _ => 0) (fun _ => 0)
    (tet_mesh_rest .nh P.nh x v u hv dqdv hr.nh fun _ _ h => by cases h)
    (tet_mesh_rest .snh P.snh x v u hv dqdv (fun e he => (hr.snh e he).1)
      fun e he _ => (hr.snh e he).2)]
  congr 1
  funext i
  rw [shell_mesh_rest P.shell x v u hv dqdv hr.tris hr.dihedrals]
  simp

theorem edgeAngle_translate (e : IEdge.Edge) (faces : ℕ → ℕ → ℕ) (x : ℕ → V3 ℝ) (c : V3 ℝ) :
    e.edgeAngle (fun i => x i + c) faces = e.edgeAngle x faces := by
  simp only [IEdge.Edge.edgeAngle, IEdge.Edge.edgeVector, IEdge.Edge.face1Tangent,
    IEdge.Edge.normal0, IEdge.Edge.normal1, IEdge.areaNormal, add_sub_add_right_eq_sub]

/-- An undeformed scene is undeformed wherever it is moved. -/
theorem atRest_translate (P : Problem) (x : ℕ → V3 ℝ) (c : V3 ℝ) (h : P.AtRest x) :
    P.AtRest fun i => x i + c := by
  refine ⟨fun e he => ?_, fun e he => ⟨?_, (h.snh e he).2⟩, fun e he => ?_, fun e he => ?_⟩
  · have := h.nh e he
    simp only [Tet.AtRest, Tet.shape, TetElem.pick, add_sub_add_right_eq_sub] at this ⊢
    exact this
  · have := (h.snh e he).1
    simp only [Tet.AtRest, Tet.shape, TetElem.pick, add_sub_add_right_eq_sub] at this ⊢
    exact this
  · have := h.tris e he
    simp only [Tri.AtRest, Tri.shape, TriElem.pick, add_sub_add_right_eq_sub] at this ⊢
    exact this
  · rw [← h.dihedrals e he]
    unfold IEdge.Edge.incrementalAngle
    rw [edgeAngle_translate]

/-- C67. An undeformed scene falls freely: whatever its damping and stiffness, if all vertices move
with the velocity `u`, then velocities increased by gravity solve the step exactly, and the elements
exert no force on each other. The positions at the end of the step are translated by any `c`; the
integration rule weighs the new and the previous forces with weights that sum to one. -/
theorem free_fall (P : Problem) (fm pm : ℝ) (h1 : fm + pm = 1) (hpm : 0 ≤ pm) (hs : ¬ P.isStatic)
    (u c : V3 ℝ) (x0 x prev : ℕ → V3 ℝ) (q0 : ℝ) (hr0 : P.AtRest x0) (hx : ∀ i, x i = x0 i + c)
    (hprev : P.force x0 (fun _ => u) q0 = some prev) :
    P.residual fm pm prev (fun _ => u) x (fun _ => u + P.timeStep • P.gravity) =
      some (fun _ => 0, fun i => -(P.mass i • P.gravity)) := by
  classical
  have hr : P.AtRest x := by
    have := atRest_translate P x0 c hr0
    rwa [← show x = fun i => x0 i + c from funext hx] at this
  obtain ⟨r, h, e⟩ := residual_eq P fm pm prev (fun _ => u) x (fun _ => u + P.timeStep • P.gravity) _
    (rest_force P x _ (u + P.timeStep • P.gravity) (fun _ => rfl) _ hr)
  rw [rest_force P x0 _ u (fun _ => rfl) q0 hr0, Option.some.injEq] at hprev
  rw [h]
  congr 2
  funext i
  rw [e i, if_neg hs, ← hprev]
  have hdt : P.dt = P.timeStep := if_neg hs
  have hfm : fm = 1 - pm := by linarith
  rw [hdt, hfm]
  by_cases hp : pm > 0
  · rw [if_pos hp]
    ext <;> simp <;> ring
  · have : pm = 0 := le_antisymm (not_lt.1 hp) hpm
    rw [if_neg hp, this]
    ext <;> simp <;> ring

/-! ## The hypotheses are met -/

/-- The reference shapes of the two triangles of `exProblem`. -/
def exTri0 : Tri.Ref := ⟨⟨⟨1, 0⟩, ⟨-1, 1⟩⟩, 1 / 2, 1, 1⟩
def exTri1 : Tri.Ref := ⟨⟨⟨1, -1⟩, ⟨0, (√2)⁻¹⟩⟩, 1 / 2, 1, 1⟩

/-- A tetrahedron of each material and a shell of two triangles with a dihedral element, all damped
and on the same four vertices. -/
def exProblem : Problem where
  nh := [⟨![1, 2, 3, 0], ⟨⟨⟨1, 0, 0⟩, ⟨0, 1, 0⟩, ⟨0, 1, 1⟩⟩, 1 / 6, 1, 1⟩, 1⟩]
  nhDensity := [1000]
  snh := [⟨![1, 2, 3, 0], ⟨⟨⟨1, 0, 0⟩, ⟨0, 1, 0⟩, ⟨0, 1, 1⟩⟩, 1 / 6, 2, 1⟩, 1⟩]
  snhDensity := [500]
  shell := ⟨[⟨![0, 1, 2], exTri0, 1⟩, ⟨![1, 0, 3], exTri1, 1⟩],
    [⟨IEdge.exEdge, ⟨IEdge.exEdge.edgeAngle IEdge.exPos (IEdge.exFaces true),
      IEdge.exEdge.edgeAngle IEdge.exPos (IEdge.exFaces true), 1, 1⟩⟩], IEdge.exFaces true⟩
  shellDensity := [100, 100]
  gravity := ⟨0, -981 / 100, 0⟩
  timeStep := 1 / 60

theorem ex_cell (b : IEdge.Bending) :
    (⟨IEdge.exEdge, b⟩ : Dihedral).cell (IEdge.exFaces true) = ![0, 1, 2, 3] := by
  funext n; fin_cases n <;> rfl

theorem ex_within : exProblem.Within 4 := by
  refine ⟨?_, ?_, ?_, ?_⟩ <;> (intro e he; simp only [exProblem, List.mem_cons, List.not_mem_nil, or_false] at he)
  · subst he; intro n; revert n; decide
  · subst he; intro n; revert n; decide
  · rcases he with rfl | rfl <;> (intro n; revert n; decide)
  · subst he; simp only [exProblem, ex_cell]; intro n; revert n; decide

theorem ex_distinct : exProblem.Distinct := by
  refine ⟨?_, ?_, ?_, ?_⟩ <;> (intro e he; simp only [exProblem, List.mem_cons, List.not_mem_nil, or_false] at he)
  · subst he; intro a b; revert a b; decide
  · subst he; intro a b; revert a b; decide
  · rcases he with rfl | rfl <;> (intro a b; revert a b; decide)
  · subst he; simp only [exProblem, ex_cell]; intro a b; revert a b; decide

theorem ex_atRest : exProblem.AtRest IEdge.exPos := by
  refine ⟨?_, ?_, ?_, ?_⟩ <;> (intro e he; simp only [exProblem, List.mem_cons, List.not_mem_nil, or_false] at he)
  · subst he
    ext <;> simp [Tet.shape, TetElem.pick, IEdge.exPos, M3.mul, M3.mulVec, M3.transpose, V3.dot, M3.diag]
  · subst he
    refine ⟨?_, by norm_num⟩
    ext <;> simp [Tet.shape, TetElem.pick, IEdge.exPos, M3.mul, M3.mulVec, M3.transpose, V3.dot, M3.diag]
  · have h2 : (√2)⁻¹ * (√2)⁻¹ = (1 / 2 : ℝ) := by
      rw [← mul_inv, Real.mul_self_sqrt (by norm_num)]; norm_num
    rcases he with rfl | rfl
    · refine ⟨_, _, rfl, ?_, ?_, ?_⟩ <;>
        simp [Tri.shape, TriElem.pick, IEdge.exPos, V3.dot, exTri0]
    · refine ⟨_, _, rfl, ?_, ?_, ?_⟩ <;>
        simp [Tri.shape, TriElem.pick, IEdge.exPos, V3.dot, exTri1]
      linarith
  · subst he
    exact IEdge.incremental_self _ _ _

theorem ex_smooth : exProblem.Smooth IEdge.exPos := by
  refine ⟨?_, ?_, ?_, ?_⟩ <;> (intro e he; simp only [exProblem, List.mem_cons, List.not_mem_nil, or_false] at he)
  · subst he
    simp only [Ready, Tet.Upright]
    simp [Tet.shape, TetElem.pick, IEdge.exPos, M3.mul, M3.mulVec, M3.transpose, V3.dot, M3.det, V3.cross]
  · subst he
    simp only [Ready]
    norm_num
  · rcases he with rfl | rfl
    · refine ⟨by simp [exTri0, Tri.M22.det], fun h => ?_⟩
      have := congrArg V3.z h
      simp [TriElem.pick, IEdge.exPos, V3.cross] at this
    · refine ⟨by simp [exTri1, Tri.M22.det], fun h => ?_⟩
      have := congrArg V3.z h
      simp [TriElem.pick, IEdge.exPos, V3.cross] at this
  · subst he
    exact (IEdge.ex_bending (fun _ => 0) _ rfl).2

/-- The hypotheses of `free_fall` and `momentum_conserved` are met by a falling shell and solid. -/
example : exProblem.residual (1 / 2) (1 / 2) (fun i => -(exProblem.mass i • exProblem.gravity))
    (fun _ => ⟨1, 2, 3⟩) (fun i => IEdge.exPos i + ⟨1, 1, 1⟩)
    (fun _ => ⟨1, 2, 3⟩ + (1 / 60 : ℝ) • exProblem.gravity) =
      some (fun _ => 0, fun i => -(exProblem.mass i • exProblem.gravity)) :=
  free_fall exProblem _ _ (by norm_num) (by norm_num)
    (by simp [Problem.isStatic, exProblem]) _ ⟨1, 1, 1⟩ IEdge.exPos _ _ 1 ex_atRest (fun _ => rfl)
    (rest_force exProblem _ _ _ (fun _ => rfl) _ ex_atRest)

/-- The hypotheses of `objective_derivative`, `jacobian_derivative` and `newton_matrix_derivative` are
met by the same scene with the position of every vertex changing. -/
example : ∃ (x0 : ℕ → V3 ℝ) (v : ℝ → ℕ → V3 ℝ) (w : ℕ → V3 ℝ), (∀ i, HasD (fun s => v s i) (w i) 0) ∧
    exProblem.Smooth (place x0 (exProblem.dt * 1) (v 0)) ∧ exProblem.Within 4 ∧ exProblem.Distinct ∧
    0 ≤ exProblem.timeStep ∧ ∀ i, w i ≠ 0 := by
  refine ⟨IEdge.exPos, fun s i => 0 + s • ⟨1, i, 0⟩, fun i => ⟨1, i, 0⟩, fun i => HasD.line _ _, ?_,
    ex_within, ex_distinct, by norm_num [exProblem], fun i h => ?_⟩
  · have : place IEdge.exPos (exProblem.dt * 1) (fun i => (0 : V3 ℝ) + (0 : ℝ) • ⟨1, i, 0⟩) = IEdge.exPos := by
      funext i
      unfold place
      simp only [zero_smul, add_zero, smul_zero]
    rw [this]
    exact ex_smooth
  · have := congrArg V3.x h
    simp at this

end Softy.Fem
