import Verif.Props.Touching
import Verif.Props.Gas
import Verif.Props.Newton
import Verif.Props.LaggedFriction
import Verif.Lemmas.NumberingElastic

/-!
# C123: objects that do not touch do not affect each other
-/

noncomputable section

namespace Softy.Apart

open Softy Assembly Fem Contact

/-! ## Specification -/

/-- All elements, zones and contacts of the problem are made of vertices in `s`. -/
structure Only (S : Touching) (s : Set ℕ) : Prop where
  nh : ∀ e ∈ S.nh, ∀ n, e.cell n ∈ s
  snh : ∀ e ∈ S.snh, ∀ n, e.cell n ∈ s
  tris : ∀ e ∈ S.shell.tris, ∀ n, e.cell n ∈ s
  hinges : ∀ e ∈ S.shell.dihedrals, e.edge.s0 < 3 ∧
    ∀ k < 3, S.shell.faces e.edge.f0 k ∈ s ∧ S.shell.faces e.edge.f1 k ∈ s
  zones : ∀ P ∈ S.volumes, ∀ t ∈ P.topo, ∀ n, t n ∈ s
  object : ∀ C ∈ S.contacts, ∀ j, C.surf j ∈ s
  collider : ∀ C ∈ S.contacts, ∀ i, C.coll i ∈ s

/-- All distances of the contact are at least the tolerance at positions `x`. -/
def Idle (x : ℕ → V3 ℝ) (C : Pair) : Prop := ∀ d ∈ C.distances x, C.delta ≤ d

/-- There is a density for each element. -/
structure Complete (S : Touching) : Prop where
  nh : S.nhDensity.length = S.nh.length
  snh : S.snhDensity.length = S.snh.length
  shell : S.shellDensity.length = S.shell.tris.length

/-- The problem `S` is made of what `A` and `B` are made of and of the contacts `between`. Elements
refer to faces of the same mesh; C106 says that numbering does not matter. -/
structure Union (S A B : Touching) (between : List Pair) : Prop where
  nh : S.nh = A.nh ++ B.nh
  nhDensity : S.nhDensity = A.nhDensity ++ B.nhDensity
  snh : S.snh = A.snh ++ B.snh
  snhDensity : S.snhDensity = A.snhDensity ++ B.snhDensity
  tris : S.shell.tris = A.shell.tris ++ B.shell.tris
  shellDensity : S.shellDensity = A.shellDensity ++ B.shellDensity
  dihedrals : S.shell.dihedrals = A.shell.dihedrals ++ B.shell.dihedrals
  faces : A.shell.faces = S.shell.faces ∧ B.shell.faces = S.shell.faces
  volumes : S.volumes = A.volumes ++ B.volumes
  contacts : S.contacts = A.contacts ++ B.contacts ++ between
  gravity : A.gravity = S.gravity ∧ B.gravity = S.gravity
  timeStep : A.timeStep = S.timeStep ∧ B.timeStep = S.timeStep
  numVertices : A.numVertices = S.numVertices ∧ B.numVertices = S.numVertices
  complete : Complete A ∧ Complete B

/-- `A` is on the vertices in `s`, `B` on the others, and at positions `x` they do not touch. -/
structure Separated (S A B : Touching) (s : Set ℕ) (x : ℕ → V3 ℝ) : Prop where
  union : ∃ between, Union S A B between ∧ ∀ C ∈ between, Idle x C
  left : Only A s
  right : Only B sᶜ

open Classical in
/-- A vector for the vertices in `s` and one for the others. -/
def glue (s : Set ℕ) (a b : ℕ → V3 ℝ) (i : ℕ) : V3 ℝ := if i ∈ s then a i else b i

/-! ## Sums -/

theorem vertexSum_off {l : List (ℕ × V3 ℝ)} {i : ℕ} (h : ∀ p ∈ l, p.1 ≠ i) : vertexSum l i = 0 := by
  unfold vertexSum
  refine List.sum_eq_zero fun y hy => ?_
  obtain ⟨p, hp, rfl⟩ := List.mem_map.1 hy
  exact if_neg (h p hp)

theorem cells_off {ι : Type} {m : ℕ} (es : List ι) (cell : ι → Fin m → ℕ) (g : ι → Fin m → V3 ℝ) {i : ℕ}
    (h : ∀ e ∈ es, ∀ n, cell e n ≠ i) :
    vertexSum (es.flatMap fun e => zipCell (cell e) (g e)) i = 0 := by
  refine vertexSum_off fun p hp => ?_
  obtain ⟨e, he, hp⟩ := List.mem_flatMap.1 hp
  obtain ⟨n, -, rfl⟩ := List.mem_map.1 hp
  exact h e he n

/-- What the solids of one kind add at a vertex. -/
def tetSum (M : TetModel) (es : List TetElem) (x v : ℕ → V3 ℝ) (q : ℝ) (i : ℕ) : V3 ℝ :=
  vertexSum (es.flatMap fun e => zipCell e.cell ((e.gradient M x v q).getD 0)) i

/-- The gradients of all solids exist. -/
def Ok (P : Problem) (x v : ℕ → V3 ℝ) (q : ℝ) : Prop :=
  (∀ e ∈ P.nh, (e.gradient .nh x v q).isSome) ∧ ∀ e ∈ P.snh, (e.gradient .snh x v q).isSome

/-- All that is added to the cleared residual. -/
def total (S : Touching) (x v : ℕ → V3 ℝ) (q : ℝ) (i : ℕ) : V3 ℝ :=
  tetSum .nh S.nh x v q i + tetSum .snh S.snh x v q i + S.shell.gradient x v q (fun _ => 0) i
    - S.mass i • S.gravity + S.pressure x i + S.contactForce x i

open Classical in
theorem force_if (S : Touching) (x v : ℕ → V3 ℝ) (q : ℝ) :
    S.force x v q = if Ok S.toProblem x v q then some (total S x v q) else none := by
  have hg : ∀ M es, (∀ e ∈ es, (TetElem.gradient M e x v q).isSome) → ∀ G,
      tetGradient M es x v q G = some fun i => G i + tetSum M es x v q i := by
    intro M es h G
    rw [Numbering.tetGradient_eq, if_pos h]
    congr 1
    funext i
    exact addAll_apply _ _ _
  by_cases hk : Ok S.toProblem x v q
  · rw [if_pos hk]
    have h1 := Fem.force_eq S.toProblem x v q _ _ (hg .nh S.nh hk.1) (hg .snh S.snh hk.2)
    rw [S.force_eq x v q _ (S.toSealed.force_eq x v q _ h1)]
    rfl
  · rw [if_neg hk]
    have : S.toProblem.force x v q = none := by
      unfold Problem.force
      by_cases h1 : ∀ e ∈ S.nh, (e.gradient .nh x v q).isSome
      · have h2 : ¬∀ e ∈ S.snh, (e.gradient .snh x v q).isSome := fun h2 => hk ⟨h1, h2⟩
        rw [hg _ _ h1, Option.bind_some, Numbering.tetGradient_eq, if_neg h2]
        rfl
      · rw [Numbering.tetGradient_eq, if_neg h1]
        rfl
    simp [Touching.force, Volume.Sealed.force, this]

open Classical in
/-- The residual for given forces. -/
def finish (S : Touching) (fm pm : ℝ) (prev v0 v f : ℕ → V3 ℝ) (i : ℕ) : V3 ℝ :=
  (if pm > 0 then S.dt • (fm • f i + pm • prev i) else (S.dt * fm) • f i)
    + if S.isStatic then 0 else S.mass i • (v i - v0 i)

open Classical in
theorem residual_if (S : Touching) (fm pm : ℝ) (prev v0 x v : ℕ → V3 ℝ) :
    S.residual fm pm prev v0 x v = if Ok S.toProblem x v (S.dt * fm) then
      some (finish S fm pm prev v0 v (total S x v (S.dt * fm)), total S x v (S.dt * fm)) else none := by
  unfold Touching.residual
  simp only [force_if]
  by_cases hk : Ok S.toProblem x v (S.dt * fm)
  · simp only [if_pos hk, Option.map_some, Option.some.injEq, Prod.mk.injEq, and_true]
    funext i
    unfold finish
    by_cases hs : S.isStatic
    · simp only [if_pos hs, add_zero]
      split_ifs <;> rfl
    · simp only [if_neg hs, momentumDiff_eq]
      split_ifs <;> rfl
  · simp only [if_neg hk, Option.map_none]

/-! ## The sums of two problems -/

theorem zipped {α : Type} {m : ℕ} (f : α × ℝ → Body m) (es es' : List α) (ds ds' : List ℝ)
    (h : ds.length = es.length) :
    ((es ++ es').zip (ds ++ ds')).map f = (es.zip ds).map f ++ (es'.zip ds').map f := by
  rw [List.zip_append h.symm, List.map_append]

theorem mass_off {S : Touching} {s : Set ℕ} (h : Only S s) {i : ℕ} (hi : i ∉ s) : S.mass i = 0 := by
  have key : ∀ {m : ℕ} (bs : List (Body m)), (∀ b ∈ bs, ∀ n, b.cell n ∈ s) → vertexMass bs i = 0 := by
    intro m bs hb
    unfold vertexMass
    refine List.sum_eq_zero fun y hy => ?_
    obtain ⟨b, hb', rfl⟩ := List.mem_map.1 hy
    exact Finset.sum_eq_zero fun n _ => if_neg fun hn : b.cell n = i => hi (hn ▸ hb b hb' n)
  unfold Problem.mass
  rw [key, key, key, add_zero, add_zero]
  all_goals
    intro b hb n
    obtain ⟨p, hp, rfl⟩ := List.mem_map.1 hb
  · exact h.tris p.1 (List.of_mem_zip hp).1 n
  · exact h.snh p.1 (List.of_mem_zip hp).1 n
  · exact h.nh p.1 (List.of_mem_zip hp).1 n

theorem bodies_union {S A B : Touching} {between : List Pair} (h : Union S A B between) :
    S.nhBodies = A.nhBodies ++ B.nhBodies ∧ S.snhBodies = A.snhBodies ++ B.snhBodies ∧
      S.shellBodies = A.shellBodies ++ B.shellBodies := by
  refine ⟨?_, ?_, ?_⟩
  · unfold Problem.nhBodies tetBodies
    rw [h.nh, h.nhDensity, zipped _ _ _ _ _ h.complete.1.nh]
  · unfold Problem.snhBodies tetBodies
    rw [h.snh, h.snhDensity, zipped _ _ _ _ _ h.complete.1.snh]
  · unfold Problem.shellBodies triBodies
    rw [h.tris, h.shellDensity, zipped _ _ _ _ _ h.complete.1.shell]

theorem mass_union {S A B : Touching} {between : List Pair} (h : Union S A B between) (i : ℕ) :
    S.mass i = A.mass i + B.mass i := by
  obtain ⟨h1, h2, h3⟩ := bodies_union h
  unfold Problem.mass vertexMass
  rw [h1, h2, h3]
  simp only [List.map_append, List.sum_append]
  ring

theorem hinge_cell {faces : ℕ → ℕ → ℕ} {s : Set ℕ} {e : Dihedral}
    (h : ∀ k < 3, faces e.edge.f0 k ∈ s ∧ faces e.edge.f1 k ∈ s) (n : Fin 4) : e.cell faces n ∈ s := by
  have h0 : ∀ k, e.edge.vert0 faces k ∈ s := fun k => (h _ (Nat.mod_lt _ (by norm_num))).1
  have h1 : ∀ k, e.edge.vert1 faces k ∈ s := fun k => (h _ (Nat.mod_lt _ (by norm_num))).2
  fin_cases n
  · exact h0 0
  · exact h0 1
  · exact h0 2
  · exact h1 2

theorem idle_contact {x : ℕ → V3 ℝ} {C : Pair} (h : Idle x C) (f : ℕ → V3 ℝ) :
    C.energy x = 0 ∧ C.subtractForce x f = f := C.contact_force_far x f h

theorem total_off {S : Touching} {s : Set ℕ} (h : Only S s) (x v : ℕ → V3 ℝ) (q : ℝ) {i : ℕ}
    (hi : i ∉ s) : total S x v q i = 0 := by
  have hne : ∀ {j}, j ∈ s → j ≠ i := fun hj e => hi (e ▸ hj)
  have h1 : ∀ M, tetSum M S.nh x v q i = 0 := fun M =>
    cells_off _ (fun e : TetElem => e.cell) _ fun e he n => hne (h.nh e he n)
  have h2 : ∀ M, tetSum M S.snh x v q i = 0 := fun M =>
    cells_off _ (fun e : TetElem => e.cell) _ fun e he n => hne (h.snh e he n)
  have h3 : S.shell.gradient x v q (fun _ => 0) i = 0 := by
    rw [shell_gradient_eq, cells_off _ (fun e : TriElem => e.cell) _ fun e he n => hne (h.tris e he n),
      cells_off _ (fun e : Dihedral => e.cell S.shell.faces) _ fun e he n =>
        hne (hinge_cell (h.hinges e he).2 n)]
    simp
  have h4 : S.pressure x i = 0 := by
    refine List.sum_eq_zero fun y hy => ?_
    obtain ⟨P, hP, rfl⟩ := List.mem_map.1 hy
    rw [Volume.forces_eq, Volume.vertexNormal_eq]
    rw [show (P.topo.map fun t => ∑ n, if t n = i then Volume.Penalty.normals t x n else 0).sum = 0 from
      List.sum_eq_zero fun z hz => by
        obtain ⟨t, ht, rfl⟩ := List.mem_map.1 hz
        exact Finset.sum_eq_zero fun n _ => if_neg (hne (h.zones P hP t ht n)), smul_zero]
  have h5 : S.contactForce x i = 0 := by
    refine List.sum_eq_zero fun y hy => ?_
    obtain ⟨C, hC, rfl⟩ := List.mem_map.1 hy
    exact C.contact_force_others x _ i (Or.inr fun j => hne (h.object C hC j))
      (Or.inr fun j => hne (h.collider C hC j))
  unfold total
  rw [h1, h2, h3, h4, h5, mass_off h hi]
  simp

theorem total_union {S A B : Touching} {between : List Pair} (h : Union S A B between)
    {x : ℕ → V3 ℝ} (hb : ∀ C ∈ between, Idle x C) (v : ℕ → V3 ℝ) (q : ℝ) (i : ℕ) :
    total S x v q i = total A x v q i + total B x v q i := by
  have hz : (between.map fun C => C.subtractForce x (fun _ => 0) i).sum = 0 := by
    refine List.sum_eq_zero fun y hy => ?_
    obtain ⟨C, hC, rfl⟩ := List.mem_map.1 hy
    rw [(idle_contact (hb C hC) _).2]
  unfold total tetSum Volume.Sealed.pressure Touching.contactForce
  rw [mass_union h, shell_gradient_eq, shell_gradient_eq, shell_gradient_eq, h.nh, h.snh, h.tris,
    h.dihedrals, h.volumes, h.contacts, h.faces.1, h.faces.2, h.gravity.1, h.gravity.2]
  simp only [List.flatMap_append, vertexSum_append, List.map_append, List.sum_append, hz, add_smul]
  abel

theorem ok_union {S A B : Touching} {between : List Pair} (h : Union S A B between)
    (x v : ℕ → V3 ℝ) (q : ℝ) :
    Ok S.toProblem x v q ↔ Ok A.toProblem x v q ∧ Ok B.toProblem x v q := by
  unfold Ok
  rw [h.nh, h.snh]
  simp only [List.mem_append, or_imp, forall_and]
  tauto

theorem dt_union {S A B : Touching} {between : List Pair} (h : Union S A B between) :
    A.dt = S.dt ∧ B.dt = S.dt ∧ (A.isStatic ↔ S.isStatic) ∧ (B.isStatic ↔ S.isStatic) := by
  unfold Problem.dt Problem.isStatic
  rw [h.timeStep.1, h.timeStep.2]
  exact ⟨rfl, rfl, Iff.rfl, Iff.rfl⟩

/-! ## Equations of motion -/

/-- C123. The equations that a step solves, and the forces, are for each object those of the object on
its own. They can be evaluated if and only if those of both objects can. -/
theorem residual_apart {S A B : Touching} {s : Set ℕ} {x : ℕ → V3 ℝ} (h : Separated S A B s x)
    (fm pm : ℝ) (prev v0 v r f : ℕ → V3 ℝ) :
    S.residual fm pm prev v0 x v = some (r, f) ↔
      ∃ rA fA rB fB, A.residual fm pm prev v0 x v = some (rA, fA) ∧
        B.residual fm pm prev v0 x v = some (rB, fB) ∧ r = glue s rA rB ∧ f = glue s fA fB := by
  classical
  obtain ⟨⟨between, hu, hb⟩, hA, hB⟩ := h
  obtain ⟨d1, d2, d3, d4⟩ := dt_union hu
  have htot : total S x v (S.dt * fm) = glue s (total A x v (S.dt * fm)) (total B x v (S.dt * fm)) := by
    funext i
    rw [total_union hu hb]
    unfold glue
    split_ifs with hi
    · rw [total_off hB x v _ (fun hc => hc hi), add_zero]
    · rw [total_off hA x v _ hi, zero_add]
  have hfin : finish S fm pm prev v0 v (total S x v (S.dt * fm)) =
      glue s (finish A fm pm prev v0 v (total A x v (S.dt * fm)))
        (finish B fm pm prev v0 v (total B x v (S.dt * fm))) := by
    funext i
    rw [htot]
    unfold finish glue
    rw [mass_union hu]
    simp only [d1, d2, d3, d4]
    by_cases hi : i ∈ s
    · simp only [if_pos hi, mass_off hB (fun hc => hc hi), add_zero]
    · simp only [if_neg hi, mass_off hA hi, zero_add]
  rw [residual_if, residual_if, residual_if, d1, d2]
  by_cases hk : Ok S.toProblem x v (S.dt * fm)
  · obtain ⟨kA, kB⟩ := (ok_union hu x v _).1 hk
    rw [if_pos hk, if_pos kA, if_pos kB, hfin, htot]
    constructor
    · intro e
      rw [Option.some.injEq, Prod.mk.injEq] at e
      exact ⟨_, _, _, _, rfl, rfl, e.1.symm, e.2.symm⟩
    · rintro ⟨rA, fA, rB, fB, eA, eB, rfl, rfl⟩
      rw [Option.some.injEq, Prod.mk.injEq] at eA eB
      rw [← eA.1, ← eA.2, ← eB.1, ← eB.2]
  · rw [if_neg hk]
    refine ⟨fun e => by simp at e, ?_⟩
    rintro ⟨rA, fA, rB, fB, eA, eB, -⟩
    refine absurd ((ok_union hu x v _).2 ⟨?_, ?_⟩) hk
    · by_contra hc
      rw [if_neg hc] at eA
      simp at eA
    · by_contra hc
      rw [if_neg hc] at eB
      simp at eB

/-! ## Locality -/

theorem samples_local (C : Pair) {s : Set ℕ} {x x' : ℕ → V3 ℝ} (hx : ∀ i ∈ s, x i = x' i)
    (ho : ∀ j, C.surf j ∈ s) (hc : ∀ i, C.coll i ∈ s) :
    C.subtractForce x = C.subtractForce x' ∧ C.energy x = C.energy x' := by
  have e1 : (fun j => x (C.surf j)) = fun j => x' (C.surf j) := funext fun j => hx _ (ho j)
  have e2 : C.samples x = C.samples x' := by unfold Pair.samples; rw [e1]
  have e3 : C.query x = C.query x' := funext fun i => hx _ (hc i)
  have e4 : C.distances x = C.distances x' := by
    unfold Pair.distances Pair.potentials
    rw [e2, e3]
  have e5 : C.blocks x = C.blocks x' := by
    unfold Pair.blocks Pair.objectBlocks Pair.colliderBlocks Pair.surfaceBlocks Pair.queryBlocks
    rw [e1, e2, e3]
  have e6 : C.lambda x = C.lambda x' := by unfold Pair.lambda; rw [e4]
  constructor
  · funext f
    unfold Pair.subtractForce
    rw [e5, e6]
  · unfold Pair.energy
    rw [e4]

theorem edge_local (e : IEdge.Edge) {faces : ℕ → ℕ → ℕ} {s : Set ℕ} {x x' : ℕ → V3 ℝ}
    (hx : ∀ i ∈ s, x i = x' i) (h3 : e.s0 < 3) (h : ∀ k < 3, faces e.f0 k ∈ s ∧ faces e.f1 k ∈ s) :
    e.gradient x faces = e.gradient x' faces ∧ e.edgeAngle x faces = e.edgeAngle x' faces := by
  have h0 : ∀ k, x (e.vert0 faces k) = x' (e.vert0 faces k) := fun k =>
    hx _ (h _ (Nat.mod_lt _ (by norm_num))).1
  have h1 : ∀ k, x (e.vert1 faces k) = x' (e.vert1 faces k) := fun k =>
    hx _ (h _ (Nat.mod_lt _ (by norm_num))).2
  have f0 : ∀ k < 3, x (faces e.f0 k) = x' (faces e.f0 k) := fun k hk => hx _ (h k hk).1
  have f1 : ∀ k < 3, x (faces e.f1 k) = x' (faces e.f1 k) := fun k hk => hx _ (h k hk).2
  have n0 : e.normal0 x faces = e.normal0 x' faces := by
    unfold IEdge.Edge.normal0
    rw [f0 0 (by norm_num), f0 1 (by norm_num), f0 2 (by norm_num)]
  have n1 : e.normal1 x faces = e.normal1 x' faces := by
    unfold IEdge.Edge.normal1
    rw [f1 0 (by norm_num), f1 1 (by norm_num), f1 2 (by norm_num)]
  have v : e.edgeVector x faces = e.edgeVector x' faces := by
    unfold IEdge.Edge.edgeVector
    rw [h0, h0]
  have t0 : e.face0Tangent x faces = e.face0Tangent x' faces := by
    unfold IEdge.Edge.face0Tangent
    rw [h0, f0 _ h3]
  have t1 : e.face1Tangent x faces = e.face1Tangent x' faces := by
    unfold IEdge.Edge.face1Tangent
    rw [h0, h1]
  constructor
  · unfold IEdge.Edge.gradient
    rw [n0, n1, v, t0, t1]
  · unfold IEdge.Edge.edgeAngle
    rw [n0, n1, v, t1]

theorem bending_local (e : Dihedral) {faces : ℕ → ℕ → ℕ} {s : Set ℕ} {x x' : ℕ → V3 ℝ}
    (hx : ∀ i ∈ s, x i = x' i) (h : e.edge.s0 < 3 ∧ ∀ k < 3, faces e.edge.f0 k ∈ s ∧ faces e.edge.f1 k ∈ s) :
    e.bending.gradient e.edge x faces = e.bending.gradient e.edge x' faces ∧
      e.bending.energy e.edge x faces = e.bending.energy e.edge x' faces := by
  obtain ⟨h1, h2⟩ := edge_local e.edge hx h.1 h.2
  unfold IEdge.Bending.gradient IEdge.Bending.energy IEdge.Bending.angleDerivative
    IEdge.Edge.incrementalAngle
  rw [h1, h2]
  exact ⟨rfl, rfl⟩

theorem zone_local (P : Volume.Penalty) {s : Set ℕ} {x x' : ℕ → V3 ℝ} (hx : ∀ i ∈ s, x i = x' i)
    (h : ∀ t ∈ P.topo, ∀ n, t n ∈ s) : P.forces x = P.forces x' ∧ P.energy x = P.energy x' := by
  have h1 : Volume.signedVolume P.topo x = Volume.signedVolume P.topo x' := by
    unfold Volume.signedVolume
    congr 2
    refine List.map_congr_left fun t ht => ?_
    rw [hx _ (h t ht 0), hx _ (h t ht 1), hx _ (h t ht 2)]
  have h2 : P.dv x = P.dv x' := by unfold Volume.Penalty.dv; rw [h1]
  constructor
  · funext i
    rw [Volume.forces_eq, Volume.forces_eq, Volume.vertexNormal_eq, Volume.vertexNormal_eq]
    unfold Volume.Penalty.factor
    rw [h2]
    congr 2
    refine List.map_congr_left fun t ht => ?_
    unfold Volume.Penalty.normals
    rw [hx _ (h t ht 0), hx _ (h t ht 1), hx _ (h t ht 2)]
  · unfold Volume.Penalty.energy
    rw [h2]

theorem total_local {S : Touching} {s : Set ℕ} (h : Only S s) {x x' v v' : ℕ → V3 ℝ}
    (hx : ∀ i ∈ s, x i = x' i) (hv : ∀ i ∈ s, v i = v' i) (q : ℝ) :
    (Ok S.toProblem x v q ↔ Ok S.toProblem x' v' q) ∧ total S x v q = total S x' v' q := by
  have ht : ∀ (M : TetModel) (e : TetElem), (∀ n, e.cell n ∈ s) →
      e.gradient M x v q = e.gradient M x' v' q := by
    intro M e he
    have p1 : e.pick x = e.pick x' := funext fun n => hx _ (he n)
    have p2 : e.pick v = e.pick v' := funext fun n => hv _ (he n)
    unfold TetElem.gradient TetElem.prev
    rw [p1, p2]
  have hs : ∀ (M : TetModel) (es : List TetElem), (∀ e ∈ es, ∀ n, e.cell n ∈ s) → ∀ i,
      tetSum M es x v q i = tetSum M es x' v' q i := by
    intro M es he i
    unfold tetSum
    rw [vertexSum_flatMap, vertexSum_flatMap]
    congr 1
    refine List.map_congr_left fun e hm => ?_
    rw [ht M e (he e hm)]
  constructor
  · unfold Ok
    refine and_congr (forall₂_congr fun e he => ?_) (forall₂_congr fun e he => ?_)
    · rw [ht _ e (h.nh e he)]
    · rw [ht _ e (h.snh e he)]
  · funext i
    have hg : S.shell.gradient x v q (fun _ => 0) i = S.shell.gradient x' v' q (fun _ => 0) i := by
      rw [shell_gradient_eq, shell_gradient_eq, vertexSum_flatMap, vertexSum_flatMap, vertexSum_flatMap,
        vertexSum_flatMap]
      congr 3
      · refine List.map_congr_left fun e he => ?_
        have p1 : e.pick x = e.pick x' := funext fun n => hx _ (h.tris e he n)
        have p2 : e.pick v = e.pick v' := funext fun n => hv _ (h.tris e he n)
        unfold TriElem.localGradient TriElem.damp
        rw [p1, p2]
      · refine List.map_congr_left fun e he => ?_
        rw [(bending_local e hx (h.hinges e he)).1]
    have hp : S.pressure x i = S.pressure x' i := by
      unfold Volume.Sealed.pressure
      congr 1
      refine List.map_congr_left fun P hP => ?_
      rw [(zone_local P hx (h.zones P hP)).1]
    have hc : S.contactForce x i = S.contactForce x' i := by
      unfold Touching.contactForce
      congr 1
      refine List.map_congr_left fun C hC => ?_
      rw [(samples_local C hx (h.object C hC) (h.collider C hC)).1]
    unfold total
    rw [hs _ _ h.nh, hs _ _ h.snh, hg, hp, hc]

/-- C123. The equations of an object, and the forces on it, depend on nothing but the positions and
velocities of its own vertices. -/
theorem residual_local {A : Touching} {s : Set ℕ} (h : Only A s) (fm pm : ℝ)
    {prev prev' v0 v0' x x' v v' : ℕ → V3 ℝ} (hp : ∀ i ∈ s, prev i = prev' i)
    (h0 : ∀ i ∈ s, v0 i = v0' i) (hx : ∀ i ∈ s, x i = x' i) (hv : ∀ i ∈ s, v i = v' i)
    {r f : ℕ → V3 ℝ} (hr : A.residual fm pm prev v0 x v = some (r, f)) :
    ∃ r' f', A.residual fm pm prev' v0' x' v' = some (r', f') ∧
      ∀ i ∈ s, r' i = r i ∧ f' i = f i := by
  classical
  obtain ⟨k, t⟩ := total_local h hx hv (A.dt * fm)
  rw [residual_if] at hr
  by_cases hk : Ok A.toProblem x v (A.dt * fm)
  · rw [if_pos hk, Option.some.injEq, Prod.mk.injEq] at hr
    refine ⟨_, _, by rw [residual_if, if_pos (k.1 hk)], fun i hi => ⟨?_, ?_⟩⟩
    · rw [← hr.1, ← t]
      unfold finish
      rw [hp i hi, h0 i hi, hv i hi]
    · rw [← hr.2, ← t]
  · rw [if_neg hk] at hr
    simp at hr

/-- C123. Whatever else there is in the scene, and whatever it does, does not change the equations of an
object that it does not touch: `S` and `S'` are two scenes with the object `A`. -/
theorem others_do_not_matter {S S' A B B' : Touching} {s : Set ℕ} {x x' : ℕ → V3 ℝ}
    (h : Separated S A B s x) (h' : Separated S' A B' s x') (fm pm : ℝ)
    {prev prev' v0 v0' v v' : ℕ → V3 ℝ} (hp : ∀ i ∈ s, prev i = prev' i)
    (h0 : ∀ i ∈ s, v0 i = v0' i) (hx : ∀ i ∈ s, x i = x' i) (hv : ∀ i ∈ s, v i = v' i)
    {r f r' f' : ℕ → V3 ℝ} (hr : S.residual fm pm prev v0 x v = some (r, f))
    (hr' : S'.residual fm pm prev' v0' x' v' = some (r', f')) :
    ∀ i ∈ s, r i = r' i ∧ f i = f' i := by
  intro i hi
  obtain ⟨rA, fA, rB, fB, e1, -, rfl, rfl⟩ := (residual_apart h fm pm prev v0 v r f).1 hr
  obtain ⟨rA', fA', rB', fB', e1', -, rfl, rfl⟩ := (residual_apart h' fm pm prev' v0' v' r' f').1 hr'
  obtain ⟨r2, f2, e2, h2⟩ := residual_local h.left fm pm hp h0 hx hv e1
  rw [e1', Option.some.injEq, Prod.mk.injEq] at e2
  obtain ⟨h3, h4⟩ := h2 i hi
  simp only [glue, if_pos hi]
  rw [e2.1, e2.2]
  exact ⟨h3.symm, h4.symm⟩

/-- C123. Velocities solve the step of the whole scene exactly if those of each object solve the step of
the object on its own. -/
theorem steps_apart {S A B : Touching} {s : Set ℕ} {x : ℕ → V3 ℝ} (h : Separated S A B s x)
    (fm pm : ℝ) (prev v0 v : ℕ → V3 ℝ) :
    (∃ r f, S.residual fm pm prev v0 x v = some (r, f) ∧ ∀ i, r i = 0) ↔
      (∃ r f, A.residual fm pm prev v0 x v = some (r, f) ∧ ∀ i ∈ s, r i = 0) ∧
        ∃ r f, B.residual fm pm prev v0 x v = some (r, f) ∧ ∀ i ∉ s, r i = 0 := by
  constructor
  · rintro ⟨r, f, hr, hz⟩
    obtain ⟨rA, fA, rB, fB, e1, e2, rfl, rfl⟩ := (residual_apart h fm pm prev v0 v r f).1 hr
    refine ⟨⟨rA, fA, e1, fun i hi => ?_⟩, rB, fB, e2, fun i hi => ?_⟩
    · have := hz i
      rwa [glue, if_pos hi] at this
    · have := hz i
      rwa [glue, if_neg hi] at this
  · rintro ⟨⟨rA, fA, e1, z1⟩, rB, fB, e2, z2⟩
    refine ⟨_, _, (residual_apart h fm pm prev v0 v _ _).2 ⟨rA, fA, rB, fB, e1, e2, rfl, rfl⟩, fun i => ?_⟩
    unfold glue
    split_ifs with hi
    · exact z1 i hi
    · exact z2 i hi

/-! ## Energy -/

/-- The sum of two numbers, if both exist. -/
def plus (a b : Option ℝ) : Option ℝ := a.bind fun a => b.map fun b => a + b

theorem plus_comm4 (a b c d : Option ℝ) : plus (plus a b) (plus c d) = plus (plus a c) (plus b d) := by
  cases a <;> cases b <;> cases c <;> cases d <;> simp [plus]
  ring

theorem sumEnergies_append (l l' : List (Option ℝ)) :
    sumEnergies (l ++ l') = plus (sumEnergies l) (sumEnergies l') := by
  induction l with
  | nil => cases h : sumEnergies l' <;> simp [sumEnergies, plus, h]
  | cons a l ih =>
    simp only [List.cons_append, sumEnergies, ih]
    cases a <;> cases h1 : sumEnergies l <;> cases h2 : sumEnergies l' <;> simp [plus]
    ring

/-- The terms of the energy that always exist. -/
def extra (S : Touching) (x : ℕ → V3 ℝ) : ℝ :=
  gravityEnergy tetKind S.gravity S.nhBodies x + gravityEnergy tetKind S.gravity S.snhBodies x
    + (S.shell.dihedrals.map fun e => e.bending.energy e.edge x S.shell.faces).sum
    + gravityEnergy triKind S.gravity S.shellBodies x + (S.volumes.map fun P => P.energy x).sum
    + (S.contacts.map fun C => C.energy x).sum

theorem energy_plus (S : Touching) (x v : ℕ → V3 ℝ) (q : ℝ) :
    S.energy x v q = plus (plus (tetEnergy .nh S.nh x v q) (tetEnergy .snh S.snh x v q))
      (plus (sumEnergies (S.shell.tris.map fun e => e.energy x v q)) (some (extra S x))) := by
  unfold Touching.energy Volume.Sealed.energy Problem.energy Shell.energy
  cases h1 : tetEnergy .nh S.nh x v q <;> cases h2 : tetEnergy .snh S.snh x v q <;>
    cases h3 : sumEnergies (S.shell.tris.map fun e => e.energy x v q) <;> simp [plus, extra]
  rw [Touching.foldl_contactEnergy, Volume.foldl_energy]
  ring

theorem energy_apart {S A B : Touching} {between : List Pair} (h : Union S A B between) {x : ℕ → V3 ℝ}
    (hb : ∀ C ∈ between, Idle x C) (v : ℕ → V3 ℝ) (q : ℝ) :
    S.energy x v q = plus (A.energy x v q) (B.energy x v q) := by
  have hz : (between.map fun C => C.energy x).sum = 0 := by
    refine List.sum_eq_zero fun y hy => ?_
    obtain ⟨C, hC, rfl⟩ := List.mem_map.1 hy
    rw [(idle_contact (hb C hC) 0).1]
  have he : some (extra S x) = plus (some (extra A x)) (some (extra B x)) := by
    obtain ⟨h1, h2, h3⟩ := bodies_union h
    unfold extra gravityEnergy
    rw [h1, h2, h3, h.dihedrals, h.volumes, h.contacts, h.faces.1, h.faces.2, h.gravity.1, h.gravity.2]
    simp only [List.map_append, List.sum_append, hz, plus, Option.bind_some, Option.map_some]
    congr 1
    ring
  rw [energy_plus, energy_plus, energy_plus, he, h.nh, h.snh, h.tris]
  unfold tetEnergy
  simp only [List.map_append, sumEnergies_append]
  rw [plus_comm4 (sumEnergies (A.nh.map _)), plus_comm4 (sumEnergies (A.shell.tris.map _)), plus_comm4]

open Classical in
/-- C123. The objective that the solver minimizes is the sum of those of the objects. Of the forces of
the last step, each object has those on its own vertices. -/
theorem objective_apart {S A B : Touching} {s : Set ℕ} {x : ℕ → V3 ℝ} (h : Separated S A B s x)
    (fm pm : ℝ) (prev v0 v : ℕ → V3 ℝ) (W : ℝ) :
    S.objective fm pm prev v0 x v = some W ↔
      ∃ WA WB, A.objective fm pm (glue s prev 0) v0 x v = some WA ∧
        B.objective fm pm (glue s 0 prev) v0 x v = some WB ∧ W = WA + WB := by
  obtain ⟨⟨between, hu, hb⟩, hA, hB⟩ := h
  obtain ⟨d1, d2, d3, d4⟩ := dt_union hu
  have hi : S.inertia v0 v = A.inertia v0 v + B.inertia v0 v := by
    obtain ⟨h1, h2, h3⟩ := bodies_union hu
    unfold Problem.inertia inertiaEnergy
    rw [h1, h2, h3]
    simp only [List.map_append, List.sum_append]
    ring
  have hp : ∑ i ∈ Finset.range S.numVertices, V3.dot (prev i) (v i) =
      ∑ i ∈ Finset.range S.numVertices, V3.dot (glue s prev 0 i) (v i) +
        ∑ i ∈ Finset.range S.numVertices, V3.dot (glue s 0 prev i) (v i) := by
    rw [← Finset.sum_add_distrib]
    refine Finset.sum_congr rfl fun i _ => ?_
    unfold glue
    split_ifs <;> simp [V3.dot]
  unfold Touching.objective
  simp only [d1, d2, d3, d4, hu.numVertices.1, hu.numVertices.2, energy_apart hu hb, hi, hp]
  generalize A.energy x v (S.dt * fm) = a
  generalize B.energy x v (S.dt * fm) = b
  cases a with
  | none => simp [plus]
  | some a =>
    cases b with
    | none => simp [plus]
    | some b =>
      simp only [plus, Option.bind_some, Option.map_some, Option.some.injEq, exists_eq_left', eq_comm (a := W),
        exists_and_left]
      refine Eq.congr_left ?_
      split_ifs <;> ring

/-! ## The solver -/

/-- Two problems that are solved together, as Newton's method sees them: residuals side by side, merits,
squared norms and slopes summed up, and converged if both are. -/
def beside {V W : Type} (P : Newton.Problem V) (Q : Newton.Problem W) : Newton.Problem (V × W) where
  residual eps x := (P.residual eps x.1, Q.residual eps x.2)
  merit eps x r := plus (P.merit eps x.1 r.1) (Q.merit eps x.2 r.2)
  normSq r := plus (P.normSq r.1) (Q.normSq r.2)
  slope eps x r p := P.slope eps x.1 r.1 p.1 + Q.slope eps x.2 r.2 p.2
  converged x y r := P.converged x.1 y.1 r.1 && Q.converged x.2 y.2 r.2

/-- One unknown with the objective `x² / 2`. -/
def spring : Newton.Problem ℝ where
  residual _ x := x
  merit _ x _ := some (x ^ 2 / 2)
  normSq r := some (r ^ 2)
  slope _ _ r p := r * p
  converged _ _ r := decide (|r| < 1e-3)

/-- One unknown with the objective `-(7 / 8) / (1 + y²)`. -/
def well : Newton.Problem ℝ where
  residual _ y := 7 / 4 * y / (1 + y ^ 2) ^ 2
  merit _ y _ := some (-(7 / 8) / (1 + y ^ 2))
  normSq r := some (r ^ 2)
  slope _ _ r p := r * p
  converged _ _ r := decide (|r| < 1e-3)

/-- The line search of a direct solve with default parameters from `x` along `p`. -/
def search {V : Type} [AddCommGroup V] [Module ℝ V] (P : Newton.Problem V) (x p : V) :
    Option (Newton.Search V) :=
  Newton.lineSearch Newton.defaultConfig P []
    (Newton.testAlpha Newton.defaultConfig P 0 (P.residual [] x) (P.merit [] x (P.residual [] x))
      (P.slope [] x (P.residual [] x) p)) 1 1 x p

/-- **C123 (violated for iterates)** What the solver does with one object depends on the others: the line
search takes one step size for all. On its own, the first problem is solved by one Newton step; next to
the second one, which it has nothing to do with, the same step is cut down to nine tenths. -/
theorem line_search_violated :
    (∀ y, HasDerivAt (fun y : ℝ => -(7 / 8) / (1 + y ^ 2)) (well.residual [] y) y) ∧
    (∀ x, HasDerivAt (fun x : ℝ => x ^ 2 / 2) (spring.residual [] x) x) ∧
    (∃ H, HasDerivAt (spring.residual []) H 1 ∧ H * (-1) = -spring.residual [] 1) ∧
    (∃ H, HasDerivAt (well.residual []) H (1 / 2) ∧ H * (-5 / 2) = -well.residual [] (1 / 2)) ∧
    (∃ ls, search spring 1 (-1) = some ls ∧ ls.passed = true ∧ ls.pt.x = 0 ∧ ls.pt.r = 0) ∧
    ∃ ls, search (beside spring well) (1, 1 / 2) (-1, -5 / 2) = some ls ∧ ls.passed = true ∧
      ls.pt.x.1 = 1 / 10 ∧ ls.pt.r.1 = 1 / 10 := by
  have hw : ∀ y : ℝ, 1 + y ^ 2 ≠ 0 := fun y => by positivity
  have hsq : ∀ y : ℝ, HasDerivAt (fun y : ℝ => 1 + y ^ 2) (2 * y) y := fun y =>
    (((hasDerivAt_id y).fun_pow 2).const_add 1).congr_deriv (by simp)
  refine ⟨fun y => ?_, fun x => ?_, ⟨1, hasDerivAt_id 1, by norm_num [spring]⟩, ⟨28 / 125, ?_, ?_⟩, ?_, ?_⟩
  · refine ((hasDerivAt_const y (-(7 / 8) : ℝ)).fun_div (hsq y) (hw y)).congr_deriv ?_
    simp only [well]
    have := hw y
    field_simp
    ring
  · refine (((hasDerivAt_id x).fun_pow 2).div_const 2).congr_deriv ?_
    simp [spring]
  · refine ((((hasDerivAt_id (1 / 2 : ℝ)).const_mul (7 / 4)).fun_div ((hsq (1 / 2)).fun_pow 2)
      (by norm_num)).congr_deriv ?_)
    norm_num
  · norm_num [well]
  · refine ⟨⟨1, 1, Newton.moveTo spring [] 0, some 0, true, false⟩, ?_, rfl, rfl, rfl⟩
    unfold search Newton.lineSearch
    simp only
    rw [if_neg]
    · norm_num [Newton.moveTo, spring, Newton.defaultConfig]
    · push Not
      intro _
      norm_num [Newton.testAlpha, Newton.defaultConfig, spring, Newton.moveTo, Newton.le']
  · refine ⟨⟨0.9, 2, Newton.moveTo (beside spring well) [] (1 / 10, -7 / 4),
      some (1 / 200 - (7 / 8) / (1 + (-7 / 4) ^ 2)), true, true⟩, ?_, rfl, ?_, ?_⟩
    rotate_left
    · simp [Newton.moveTo]
    · simp [Newton.moveTo, beside, spring]
    unfold search Newton.lineSearch
    simp only
    rw [if_pos]
    · rw [Newton.backtrackLoop]
      simp only
      rw [if_neg, if_neg, Newton.backtrackLoop]
      · simp only
        rw [if_pos]
        · norm_num [Newton.moveTo, beside, spring, well, Newton.defaultConfig, Newton.startAlpha, plus]
        · norm_num [Newton.testAlpha, Newton.defaultConfig, Newton.startAlpha, spring, well, beside, plus,
            Newton.moveTo, Newton.le']
      · norm_num [Newton.defaultConfig, Newton.startAlpha]
      · norm_num [Newton.testAlpha, Newton.defaultConfig, Newton.startAlpha, spring, well, beside, plus,
          Newton.moveTo, Newton.le']
    · refine ⟨by norm_num [Newton.defaultConfig], ?_⟩
      norm_num [Newton.testAlpha, Newton.defaultConfig, spring, well, beside, plus,
        Newton.moveTo, Newton.le']

/-! ## The hypotheses are met -/

/-- The tetrahedron with the vertices `0, 1, 2, 4`. -/
def exLeft : Touching := { exTet with contacts := [], numVertices := 8, numActive := 8 }

/-- Another one with the vertices `3, 5, 6, 7`, whose surface is the boundary of a zone. -/
def exRight : Touching where
  nh := [⟨![3, 5, 6, 7], ⟨M3.diag 1, 1 / 6, 1, 1⟩, 0⟩]
  nhDensity := [1000]
  snh := []
  snhDensity := []
  shell := ⟨[], [], fun _ _ => 0⟩
  shellDensity := []
  gravity := exTet.gravity
  timeStep := exTet.timeStep
  volumes := [⟨[![3, 6, 5], ![3, 5, 7], ![5, 6, 7], ![3, 7, 6]], 1 / 6, 1, 1, true⟩]
  contacts := []
  numVertices := 8
  numActive := 8

/-- Vertex 3 of the second one is within the kernel's radius of a face of the first one, but farther away
than the tolerance. -/
def exGap : Pair := { demo with delta := 1 / 4, coll := fun i => if i = 0 then 5 else 3 }

/-- Both. -/
def exBoth : Touching where
  nh := exRight.nh
  nhDensity := exRight.nhDensity
  snh := exLeft.snh
  snhDensity := exLeft.snhDensity
  shell := ⟨[], [], fun _ _ => 0⟩
  shellDensity := []
  gravity := exTet.gravity
  timeStep := exTet.timeStep
  volumes := exRight.volumes
  contacts := [exGap]
  numVertices := 8
  numActive := 8

theorem exSeparated : Union exBoth exLeft exRight [exGap] ∧ Only exLeft {0, 1, 2, 4} ∧
    Only exRight {0, 1, 2, 4}ᶜ := by
  refine ⟨?_, ?_, ?_⟩
  · constructor <;> first | rfl | exact ⟨rfl, rfl⟩ | exact ⟨⟨rfl, rfl, rfl⟩, ⟨rfl, rfl, rfl⟩⟩
  · constructor <;> simp only [exLeft, exTet, List.not_mem_nil, false_imp_iff, implies_true]
    intro e he
    rw [List.mem_singleton.1 he]
    intro n
    fin_cases n <;> simp
  · constructor <;> simp only [exRight, List.not_mem_nil, false_imp_iff, implies_true]
    · intro e he
      rw [List.mem_singleton.1 he]
      intro n
      fin_cases n <;> simp
    · intro P hP
      rw [List.mem_singleton.1 hP]
      intro t ht n
      simp only [List.mem_cons, List.not_mem_nil, or_false] at ht
      rcases ht with rfl | rfl | rfl | rfl <;> fin_cases n <;> simp

example : Separated exBoth exLeft exRight {0, 1, 2, 4} demoX := by
  refine ⟨⟨[exGap], exSeparated.1, ?_⟩, exSeparated.2.1, exSeparated.2.2⟩
  intro C hC d hd
  rw [List.mem_singleton.1 hC] at hd ⊢
  rw [Pair.distances_eq] at hd
  have ha : exGap.active = [([0], 1)] := rfl
  rw [ha, List.map_singleton, List.mem_singleton] at hd
  have he : exGap.distance demoX ([0], 1) = demo.distance demoX ([0], 1) := rfl
  rw [hd, he, demo_distance]
  norm_num [exGap]

end Softy.Apart
