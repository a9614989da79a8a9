import Verif.Props.ApartGripping

/-!
# C123: the linear system of an object depends on nothing but the object
-/

noncomputable section

namespace Softy.Apart

open Softy Assembly Fem Contact

theorem flatMap_local {α β : Type} {l : List α} {f g : α → List β} (h : ∀ a ∈ l, f a = g a) :
    l.flatMap f = l.flatMap g := List.flatMap_congr h

theorem tetValues_local (M : TetModel) {es : List TetElem} {s : Set ℕ} (h : ∀ e ∈ es, ∀ n, e.cell n ∈ s)
    {x x' v v' : ℕ → V3 ℝ} (hx : ∀ i ∈ s, x i = x' i) (hv : ∀ i ∈ s, v i = v' i) (q scale : ℝ) :
    tetValues M es x v q scale = tetValues M es x' v' q scale := by
  unfold tetValues
  refine flatMap_local fun e he => ?_
  have p1 : e.pick x = e.pick x' := funext fun n => hx _ (h e he n)
  have p2 : e.pick v = e.pick v' := funext fun n => hv _ (h e he n)
  unfold TetElem.hessian TetElem.prev
  rw [p1, p2]

theorem hinge_hessian_local (e : Dihedral) {faces : ℕ → ℕ → ℕ} {s : Set ℕ} {x x' : ℕ → V3 ℝ}
    (hx : ∀ i ∈ s, x i = x' i) (h : e.edge.s0 < 3 ∧ ∀ k < 3, faces e.edge.f0 k ∈ s ∧ faces e.edge.f1 k ∈ s) :
    e.bending.hessian e.edge x faces = e.bending.hessian e.edge x' faces := by
  obtain ⟨g, a⟩ := edge_local e.edge hx h.1 h.2
  have h0 : ∀ k, x (e.edge.vert0 faces k) = x' (e.edge.vert0 faces k) := fun k =>
    hx _ (h.2 _ (Nat.mod_lt _ (by norm_num))).1
  have h1 : ∀ k, x (e.edge.vert1 faces k) = x' (e.edge.vert1 faces k) := fun k =>
    hx _ (h.2 _ (Nat.mod_lt _ (by norm_num))).2
  have f0 : ∀ k < 3, x (faces e.edge.f0 k) = x' (faces e.edge.f0 k) := fun k hk => hx _ (h.2 k hk).1
  have f1 : ∀ k < 3, x (faces e.edge.f1 k) = x' (faces e.edge.f1 k) := fun k hk => hx _ (h.2 k hk).2
  have n0 : e.edge.normal0 x faces = e.edge.normal0 x' faces := by
    unfold IEdge.Edge.normal0
    rw [f0 0 (by norm_num), f0 1 (by norm_num), f0 2 (by norm_num)]
  have n1 : e.edge.normal1 x faces = e.edge.normal1 x' faces := by
    unfold IEdge.Edge.normal1
    rw [f1 0 (by norm_num), f1 1 (by norm_num), f1 2 (by norm_num)]
  have v : e.edge.edgeVector x faces = e.edge.edgeVector x' faces := by
    unfold IEdge.Edge.edgeVector
    rw [h0, h0]
  have t0 : e.edge.face0Tangent x faces = e.edge.face0Tangent x' faces := by
    unfold IEdge.Edge.face0Tangent
    rw [h0, f0 _ h.1]
  have t1 : e.edge.face1Tangent x faces = e.edge.face1Tangent x' faces := by
    unfold IEdge.Edge.face1Tangent
    rw [h0, h1]
  have hh : e.edge.hessian x faces = e.edge.hessian x' faces := by
    unfold IEdge.Edge.hessian
    rw [n0, n1, v, t0, t1]
  unfold IEdge.Bending.hessian IEdge.Bending.angleDerivative IEdge.Edge.incrementalAngle
  rw [g, a, hh]

theorem lowerValues_local {S : Touching} {s : Set ℕ} (h : Only S s) {x x' v v' : ℕ → V3 ℝ}
    (hx : ∀ i ∈ s, x i = x' i) (hv : ∀ i ∈ s, v i = v' i) (q fmul : ℝ) :
    S.lowerValues x v q fmul = S.lowerValues x' v' q fmul := by
  have hs : ∀ scale, S.shell.values x scale = S.shell.values x' scale := by
    intro scale
    unfold Shell.values
    congr 1
    · refine flatMap_local fun e he => ?_
      have p1 : e.pick x = e.pick x' := funext fun n => hx _ (h.tris e he n)
      unfold TriElem.hessian
      rw [p1]
    · refine flatMap_local fun e he => ?_
      rw [hinge_hessian_local e hx (h.hinges e he)]
  unfold Problem.lowerValues
  simp only [tetValues_local _ h.nh hx hv, tetValues_local _ h.snh hx hv, hs]

theorem zoneValues_local (P : Volume.Penalty) {s : Set ℕ} {x x' : ℕ → V3 ℝ} (hx : ∀ i ∈ s, x i = x' i)
    (h : ∀ t ∈ P.topo, ∀ n, t n ∈ s) (scale : ℝ) : P.hessianValues x scale = P.hessianValues x' scale := by
  have h1 : Volume.signedVolume P.topo x = Volume.signedVolume P.topo x' := by
    unfold Volume.signedVolume
    congr 2
    refine List.map_congr_left fun t ht => ?_
    rw [hx _ (h t ht 0), hx _ (h t ht 1), hx _ (h t ht 2)]
  have h2 : P.dv x = P.dv x' := by unfold Volume.Penalty.dv; rw [h1]
  have hn : ∀ t ∈ P.topo, Volume.Penalty.normals t x = Volume.Penalty.normals t x' := by
    intro t ht
    unfold Volume.Penalty.normals
    rw [hx _ (h t ht 0), hx _ (h t ht 1), hx _ (h t ht 2)]
  unfold Volume.Penalty.hessianValues
  rw [h2]
  simp only
  refine congrArg (List.map fun y => y * scale) ?_
  refine flatMap_local fun t ht => ?_
  congr 1
  · refine List.map_congr_left fun e _ => ?_
    rw [hx _ (h t ht _)]
  · split_ifs
    · rfl
    · refine flatMap_local fun u hu => ?_
      rw [hn t ht, hn u hu]

theorem contact_local (C : Pair) {s : Set ℕ} {x x' : ℕ → V3 ℝ} (hx : ∀ i ∈ s, x i = x' i)
    (ho : ∀ j, C.surf j ∈ s) (hc : ∀ i, C.coll i ∈ s) (N m : ℕ) :
    C.gradient x N = C.gradient x' N ∧ C.hessianEntries x N m = C.hessianEntries x' N m := by
  have e1 : (fun j => x (C.surf j)) = fun j => x' (C.surf j) := funext fun j => hx _ (ho j)
  have e2 : C.samples x = C.samples x' := by unfold Pair.samples; rw [e1]
  have e3 : C.query x = C.query x' := funext fun i => hx _ (hc i)
  have e4 : C.distances x = C.distances x' := by
    unfold Pair.distances Pair.potentials
    rw [e2, e3]
  have e5 : C.blocks x = C.blocks x' := by
    unfold Pair.blocks Pair.objectBlocks Pair.colliderBlocks Pair.surfaceBlocks Pair.queryBlocks
    rw [e1, e2, e3]
  have e6 : C.lambda x = C.lambda x' := by unfold Pair.lambda; rw [e4]
  have e7 : C.gradient x N = C.gradient x' N := by unfold Pair.gradient; rw [e5]
  refine ⟨e7, ?_⟩
  unfold Pair.hessianEntries Pair.hessianBlocks Pair.objectHessian Pair.mixedHessian Pair.colliderHessian
  rw [e1, e2, e3, e4, e6, e7]

/-- C123. The matrix of the linear system of an object depends on nothing but the positions and velocities
of its own vertices. -/
theorem jacobian_local {S : Touching} {s : Set ℕ} (h : Only S s) {x x' v v' : ℕ → V3 ℝ}
    (hx : ∀ i ∈ s, x i = x' i) (hv : ∀ i ∈ s, v i = v' i) (q fmul : ℝ) :
    S.jacobianIndices x = S.jacobianIndices x' ∧
      S.jacobianValues x v q fmul = S.jacobianValues x' v' q fmul := by
  have hi : ∀ C ∈ S.contacts, S.contactIndices x C = S.contactIndices x' C := by
    intro C hC
    unfold Touching.contactIndices
    rw [(contact_local C hx (h.object C hC) (h.collider C hC) _ S.numActive).1]
  have hn : S.nnz x = S.nnz x' := by
    unfold Touching.nnz
    refine List.foldl_ext _ _ _ fun n C hC => ?_
    rw [hi C hC]
  have hj : S.jacobianIndices x = S.jacobianIndices x' := by
    unfold Touching.jacobianIndices
    refine List.foldl_ext _ _ _ fun n C hC => ?_
    rw [hi C hC, hn]
  refine ⟨hj, ?_⟩
  have hb : S.toSealed.jacobianValues x v q fmul = S.toSealed.jacobianValues x' v' q fmul := by
    unfold Volume.Sealed.jacobianValues Problem.jacobianValues
    rw [lowerValues_local h hx hv]
    congr 1
    exact flatMap_local fun P hP => zoneValues_local P hx (h.zones P hP) _
  unfold Touching.jacobianValues
  rw [hb, hj]
  refine List.foldl_ext _ _ _ fun n C hC => ?_
  rw [(contact_local C hx (h.object C hC) (h.collider C hC) _ _).2]

theorem grip_entries_local (C : Pair) {s : Set ℕ} {x x' v v' : ℕ → V3 ℝ} (hx : ∀ i ∈ s, x i = x' i)
    (hv : ∀ i ∈ s, v i = v' i) (ho : ∀ j, C.surf j ∈ s) (hc : ∀ i, C.coll i ∈ s) (p : Friction.Params)
    (inc : Bool) (q : ℝ) (N m : ℕ) :
    C.frictionEntries p x v N m = C.frictionEntries p x' v' N m ∧
      C.currentEntries p inc x v q N m = C.currentEntries p inc x' v' q N m := by
  have e1 : (fun j => x (C.surf j)) = fun j => x' (C.surf j) := funext fun j => hx _ (ho j)
  have e2 : C.samples x = C.samples x' := by unfold Pair.samples; rw [e1]
  have e3 : C.query x = C.query x' := funext fun i => hx _ (hc i)
  have e4 : C.distances x = C.distances x' := by
    unfold Pair.distances Pair.potentials
    rw [e2, e3]
  have e5 : C.lambda x = C.lambda x' := by unfold Pair.lambda; rw [e4]
  have e6 : C.contactBlocks x = C.contactBlocks x' := by
    unfold Pair.contactBlocks
    rw [e2, e3]
  have e7 : C.contactNormals x = C.contactNormals x' := by
    unfold Pair.contactNormals Pair.queryBlocks
    rw [e2, e3]
  have e8 : C.contactBasis x = C.contactBasis x' := by unfold Pair.contactBasis; rw [e7]
  have e9 : C.relativeVelocities x v = C.relativeVelocities x' v' := by
    rw [relative_local ho hc x hv]
    unfold Pair.relativeVelocities
    rw [e6]
  have g := (contact_local C hx ho hc N m).1
  have b1 : C.gradientBlocks x N = C.gradientBlocks x' N := by
    unfold Pair.gradientBlocks
    rw [e6]
  have b2 : C.gradientBlock x N = C.gradientBlock x' N := by
    unfold Pair.gradientBlock
    rw [b1]
  have b3 : C.touches x N = C.touches x' N := by
    unfold Pair.touches
    rw [b1]
  have b4 : C.etaBlock p x v = C.etaBlock p x' v' := by
    unfold Pair.etaBlock
    rw [e5, e8, e9]
  have b5 : C.frictionBlocks p x v N = C.frictionBlocks p x' v' N := by
    unfold Pair.frictionBlocks Pair.frictionBlock
    rw [b2, b3, b4, e8]
  have c1 : C.frictionCoordinates p x v = C.frictionCoordinates p x' v' := by
    unfold Pair.frictionCoordinates
    rw [e8, e9]
  have c2 : C.lambdaBlocks p x v q N m = C.lambdaBlocks p x' v' q N m := by
    unfold Pair.lambdaBlocks
    rw [g, b2, b3, c1, e4, e8]
  have c3 : C.physicalFriction p x v q = C.physicalFriction p x' v' q := by
    unfold Pair.physicalFriction
    rw [e5, e8, c1]
  have c4 : C.forceTriplets x = C.forceTriplets x' := by
    unfold Pair.forceTriplets
    rw [e1, e2, e3]
  have c5 : C.velocityTriplets x = C.velocityTriplets x' := by
    unfold Pair.velocityTriplets
    rw [e1, e2, e3]
  have c6 : C.basisTriplets x = C.basisTriplets x' := by
    unfold Pair.basisTriplets Pair.basisJacobian Pair.gradientJacobian
    rw [e1, e2, e3, e7]
  have c7 : C.contactProduct x N = C.contactProduct x' N := by
    unfold Pair.contactProduct
    rw [b2, b3]
  have c8 : (fun j => v (C.surf j)) = fun j => v' (C.surf j) := funext fun j => hv _ (ho j)
  refine ⟨by unfold Pair.frictionEntries; rw [b5], ?_⟩
  unfold Pair.currentEntries Pair.incompleteBlocks Pair.completeBlocks Pair.blocksA Pair.blocksB
    Pair.blocksC Pair.blocksD Pair.jacContactGradient Pair.jacContactJacobian
  rw [b4, b5, c1, c2, c3, c4, c5, c6, c7, c8, e5, e8, e9]

/-- C123. With friction of any kind, too, the matrix of the linear system of an object depends on nothing
but the positions and velocities of its own vertices: those for which its structure was determined, and
those for which its values are computed. -/
theorem grip_jacobian_local {S : Gripping} {s : Set ℕ} (h : GripOnly S s)
    {y y' u u' x x' v v' : ℕ → V3 ℝ} (hy : ∀ i ∈ s, y i = y' i) (hu : ∀ i ∈ s, u i = u' i)
    (hx : ∀ i ∈ s, x i = x' i) (hv : ∀ i ∈ s, v i = v' i) (q fmul : ℝ) (i j : ℕ) :
    gripEntry S y u x v q fmul i j = gripEntry S y' u' x' v' q fmul i j := by
  have he : ∀ G ∈ S.grips, ∀ {a a' b b' : ℕ → V3 ℝ}, (∀ i ∈ s, a i = a' i) → (∀ i ∈ s, b i = b' i) →
      ∀ q, G.entries a b q S.numVertices S.numActive = G.entries a' b' q S.numVertices S.numActive := by
    intro G hG a a' b b' ha hb q
    cases G with
    | lagged L =>
      exact (grip_entries_local L.pair (fun _ _ => rfl) hb (h.object _ hG x) (h.collider _ hG x) L.params
        false q _ _).1
    | current F =>
      exact (grip_entries_local F.pair ha hb (h.object _ hG x) (h.collider _ hG x) F.params
        F.incomplete q _ _).2
  have hn : S.nnz y u = S.nnz y' u' := by
    unfold Gripping.nnz
    have : S.toTouching.nnz y = S.toTouching.nnz y' := by
      unfold Touching.nnz
      refine List.foldl_ext _ _ _ fun n C hC => ?_
      unfold Touching.contactIndices
      rw [(contact_local C hy (h.base.object C hC) (h.base.collider C hC) _ S.numActive).1]
    rw [this]
    exact List.foldl_ext _ _ _ fun n G hG => by rw [he G hG hy hu]
  have hi : S.jacobianIndices y u = S.jacobianIndices y' u' := by
    unfold Gripping.jacobianIndices
    rw [(jacobian_local h.base hy hu q fmul).1, hn]
    exact List.foldl_ext _ _ _ fun n G hG => by rw [he G hG hy hu]
  have hval : ∀ len, S.jacobianValues x v q fmul len = S.jacobianValues x' v' q fmul len := by
    intro len
    unfold Gripping.jacobianValues
    rw [(jacobian_local h.base hx hv q fmul).2]
    exact List.foldl_ext _ _ _ fun n G hG => by rw [he G hG hx hv]
  unfold gripEntry
  rw [hi, hval]

/-! ## The hypotheses are met -/

example : GripOnly exGrips {i | i < 8} := by
  have hs : ∀ j, exGap.surf j ∈ {i | i < 8} := by
    intro j
    simp only [exGap, demo, Set.mem_ofPred_eq]
    split_ifs <;> omega
  have hc : ∀ i, exGap.coll i ∈ {i | i < 8} := by
    intro i
    simp only [exGap, Set.mem_ofPred_eq]
    split_ifs <;> norm_num
  refine ⟨?_, ?_, ?_⟩
  · constructor
    · intro e he
      have : e = ⟨![3, 5, 6, 7], ⟨M3.diag 1, 1 / 6, 1, 1⟩, 0⟩ := by simpa [exGrips, exBoth, exRight] using he
      rw [this]
      intro n
      fin_cases n <;> simp
    · intro e he n
      have := exSeparated.2.1.snh e he n
      simp only [Set.mem_insert_iff, Set.mem_singleton_iff] at this
      rw [Set.mem_ofPred_eq]
      omega
    · intro e he
      simp [exGrips, exBoth] at he
    · intro e he
      simp [exGrips, exBoth] at he
    · intro P hP t ht n
      have hP' : P = ⟨[![3, 6, 5], ![3, 5, 7], ![5, 6, 7], ![3, 7, 6]], 1 / 6, 1, 1, true⟩ := by
        simpa [exGrips, exBoth, exRight] using hP
      rw [hP'] at ht
      simp only [List.mem_cons, List.not_mem_nil, or_false] at ht
      rcases ht with rfl | rfl | rfl | rfl <;> fin_cases n <;> simp
    · intro C hC
      have : C = exGap := by simpa [exGrips, exBoth] using hC
      rw [this]
      exact hs
    · intro C hC
      have : C = exGap := by simpa [exGrips, exBoth] using hC
      rw [this]
      exact hc
  · intro G hG x
    simp only [exGrips, List.mem_cons, List.not_mem_nil, or_false] at hG
    rcases hG with rfl | rfl <;> exact hs
  · intro G hG x
    simp only [exGrips, List.mem_cons, List.not_mem_nil, or_false] at hG
    rcases hG with rfl | rfl <;> exact hc

end Softy.Apart
