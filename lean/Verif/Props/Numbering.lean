import Verif.Lemmas.NumberingFriction
import Verif.Props.Frame
import Verif.Props.Hooke

/-!
# C106: the simulation does not depend on numbers and orders

Vertex `i` of one scene is vertex `σ i` of another one: what belongs to vertex `i` in the first, `x i`, belongs
to vertex `σ i` in the second, `renumber σ x`. Elements, hinges, volume zones, triangles of zones and of
surfaces, contacts, contact points and the samples around them are listed in any order. Two lists are the same
up to their order if `Reordered` holds.
-/

noncomputable section

namespace Softy.Numbering

open Softy Assembly Fem Softy.Contact

variable {σ : Equiv.Perm ℕ}

/-! ## The same scene -/

/-- The same bodies, volume zones and contacts. -/
structure SameTouching (σ : Equiv.Perm ℕ) (S S' : Touching) : Prop where
  sealed : SameSealed σ S.toSealed S'.toSealed
  contacts : Reordered (fun C C' => ∃ τ, SameContact σ τ C C') S.contacts S'.contacts
  numVertices : S'.numVertices = S.numVertices
  numActive : S'.numActive = S.numActive

/-- The same friction of the previous step. -/
structure SameLagged (σ : Equiv.Perm ℕ) (L L' : Lagged) : Prop where
  pair : ∃ τ, SameContact σ τ L.pair L'.pair
  x : L'.x = renumber σ L.x
  params : L'.params = L.params
  distinct : ∃ N, L.pair.Distinct L.ns N
  distinct' : ∃ N, L'.pair.Distinct L'.ns N

/-- The same friction of the current step. -/
structure SameCurrent (σ : Equiv.Perm ℕ) (F F' : Current) : Prop where
  pair : ∃ τ, SameContact σ τ F.pair F'.pair
  params : F'.params = F.params
  distinct : ∃ N, F.pair.Distinct F.ns N
  distinct' : ∃ N, F'.pair.Distinct F'.ns N

/-- The same friction. -/
def SameGrip (σ : Equiv.Perm ℕ) : Grip → Grip → Prop
  | .lagged L, .lagged L' => SameLagged σ L L'
  | .current F, .current F' => SameCurrent σ F F'
  | _, _ => False

/-- The same bodies, volume zones, contacts and friction. -/
structure SameGripping (σ : Equiv.Perm ℕ) (S S' : Gripping) : Prop where
  touching : SameTouching σ S.toTouching S'.toTouching
  grips : Reordered (SameGrip σ) S.grips S'.grips

/-- The same, with lagged friction only. -/
structure SameRubbing (σ : Equiv.Perm ℕ) (S S' : Rubbing) : Prop where
  touching : SameTouching σ S.toTouching S'.toTouching
  frictions : Reordered (SameLagged σ) S.frictions S'.frictions

/-- No point of any contact with friction has to choose between samples. -/
def DefiniteGrip (x : ℕ → V3 ℝ) : Grip → Prop
  | .lagged L => DefiniteContact L.pair L.x
  | .current F => DefiniteContact F.pair x

/-! ## Elements at rest -/

theorem corners_det (π : Equiv.Perm (Fin 4)) : (corners π).det = 1 ∨ (corners π).det = -1 := by
  have key : ∀ a b c d : Fin 4, a ≠ b → a ≠ c → a ≠ d → b ≠ c → b ≠ d → c ≠ d →
      let h (k j : Fin 4) : ℤ := (if k = j then 1 else 0) - if d = j then 1 else 0
      let D : ℤ := h a 0 * (h b 1 * h c 2 - h b 2 * h c 1) + h a 1 * (h b 2 * h c 0 - h b 0 * h c 2) +
        h a 2 * (h b 0 * h c 1 - h b 1 * h c 0)
      D = 1 ∨ D = -1 := by decide
  have ne {i j : Fin 4} (h : i ≠ j) : π i ≠ π j := fun e => h (π.injective e)
  have := key (π 0) (π 1) (π 2) (π 3) (ne (by decide)) (ne (by decide)) (ne (by decide)) (ne (by decide))
    (ne (by decide)) (ne (by decide))
  have hh (k j : Fin 4) : here k j - here (π 3) j =
      (((if k = j then 1 else 0) - if π 3 = j then 1 else 0 : ℤ) : ℝ) := by
    unfold here
    push_cast
    rfl
  simp only [corners, M3.det, V3.dot, V3.cross, hh]
  rcases this with e | e
  · left
    exact_mod_cast e
  · right
    exact_mod_cast e

/-- C106: the data of a tetrahedron at rest, computed with its corners in another order, are those of the same
tetrahedron. -/
theorem numbering_rest_tet (π : Equiv.Perm (Fin 4)) {X : Tet.Verts} {D D' : M3 ℝ × ℝ}
    (h : Hooke.refTet X = some D) (h' : Hooke.refTet (fun i => X (π i)) = some D') (lambda mu : ℝ) :
    SameRest π ⟨D.1, D.2, lambda, mu⟩ ⟨D'.1, D'.2, lambda, mu⟩ := by
  obtain ⟨h1, h2, h3⟩ := Hooke.refTet_some h
  obtain ⟨h1', h2', h3'⟩ := Hooke.refTet_some h'
  refine ⟨⟨X, h3, h3'⟩, ?_, rfl, rfl⟩
  show D'.2 = D.2
  have hd (Y : Tet.Verts) : Volume.tetVolume Y = (Tet.shape Y).det / 6 := by
    simp only [Volume.tetVolume, Tet.shape, M3.det]
  rw [hd] at h1 h1'
  rw [shape_corners, M3.det_mul] at h1'
  rcases corners_det π with e | e <;> rw [e] at h1' <;> linarith

/-- C106: the data of a triangle at rest, computed with its corners in another order, are those of the same
triangle. -/
theorem numbering_rest_tri (π : Equiv.Perm (Fin 3)) {X : Tri.Verts} {D D' : Tri.M22 × ℝ}
    (h : Hooke.refTri X = some D) (h' : Hooke.refTri (fun i => X (π i)) = some D') (lambda mu : ℝ) :
    SameTriRest π ⟨D.1, D.2, lambda, mu⟩ ⟨D'.1, D'.2, lambda, mu⟩ := by
  have key {X : Tri.Verts} {D : Tri.M22 × ℝ} (h : Hooke.refTri X = some D) :
      mul22 D.1 (Hooke.isotropicShape (Tri.shape X)) = one22 ∧ mul22 (Hooke.isotropicShape (Tri.shape X))
        (Hooke.isotropicShape (Tri.shape X)).transpose = (Tri.shape X).mulT (Tri.shape X) ∧
        D.2 = Hooke.triArea X := by
    unfold Hooke.refTri at h
    by_cases ha : Hooke.triArea X ≤ 0
    · simp [ha] at h
    · rw [if_neg ha, Option.some.injEq] at h
      subst h
      have hc : V3.cross (Tri.shape X).r0 (Tri.shape X).r1 ≠ 0 := by
        intro h0
        apply ha
        have h0 : V3.cross (X 0 - X 2) (X 1 - X 2) = 0 := h0
        simp [Hooke.triArea, h0, V3.norm, V3.dot]
      obtain ⟨a, b, haa, hbb, hab, -, hS, hdet⟩ := Hooke.isotropic_frame hc
      refine ⟨inv22_mul hdet, ?_, rfl⟩
      generalize Hooke.isotropicShape (Tri.shape X) = S at hS
      have hg : (⟨a, b⟩ : Tri.M23).mulT ⟨a, b⟩ = one22 := by
        have hba : V3.dot b a = 0 := by rw [← hab]; simp [V3.dot]; ring
        simp only [Tri.M23.mulT, haa, hbb, hab, hba, one22]
      rw [hS, mulT_mul23, hg, mul22_one]
  obtain ⟨h1, h2, h3⟩ := key h
  obtain ⟨h1', h2', h3'⟩ := key h'
  refine ⟨⟨X, _, _, h1, h1', h2, h2'⟩, ?_, rfl, rfl⟩
  show D'.2 = D.2
  rw [h3, h3']
  unfold Hooke.triArea
  congr 1
  have hn (v w : V3 ℝ) (h : v = w ∨ v = -w) : v.norm = w.norm := by
    rcases h with rfl | rfl
    · rfl
    · simp [V3.norm, V3.dot]
  apply hn
  rcases tri_cases π with ⟨h2, ⟨h0, h1⟩ | ⟨h0, h1⟩⟩ | ⟨h2, ⟨h0, h1⟩ | ⟨h0, h1⟩⟩ | ⟨h2, ⟨h0, h1⟩ | ⟨h0, h1⟩⟩ <;>
    simp only [h0, h1, h2] <;>
    first
    | exact .inl trivial
    | (left; ext <;> simp only [V3.cross, V3.sub_x, V3.sub_y, V3.sub_z] <;> ring1)
    | (right; ext <;> simp only [V3.cross, V3.sub_x, V3.sub_y, V3.sub_z, V3.neg_x, V3.neg_y, V3.neg_z] <;> ring1)

/-- The triangle `(0,0,0), (1,0,0), (0,1,0)` meets the hypothesis, whatever corner is the first. -/
example : ∃ D, Hooke.refTri ![0, ⟨1, 0, 0⟩, ⟨0, 1, 0⟩] = some D := by
  refine ⟨_, if_neg ?_⟩
  have : (V3.cross ((0 : V3 ℝ) - ⟨0, 1, 0⟩) (⟨1, 0, 0⟩ - ⟨0, 1, 0⟩)).norm = 1 := by
    norm_num [V3.norm, V3.dot, V3.cross]
  have e : Hooke.triArea ![0, ⟨1, 0, 0⟩, ⟨0, 1, 0⟩] = 1 / 2 := by
    show (V3.cross ((0 : V3 ℝ) - ⟨0, 1, 0⟩) (⟨1, 0, 0⟩ - ⟨0, 1, 0⟩)).norm / 2 = 1 / 2
    rw [this]
  rw [e]
  norm_num

/-! ## Forces -/

/-- Additions in any order. -/
theorem foldl_adds {α : Type} (l : List α) (F : (ℕ → V3 ℝ) → α → ℕ → V3 ℝ)
    (hF : ∀ r a v, F r a v = r v + F (fun _ => 0) a v) (r : ℕ → V3 ℝ) (v : ℕ) :
    l.foldl F r v = r v + (l.map fun a => F (fun _ => 0) a v).sum := by
  induction l generalizing r with
  | nil => simp
  | cons a l ih => rw [List.foldl_cons, ih, hF r a v, List.map_cons, List.sum_cons, add_assoc]

theorem foldl_renumber {α : Type} {R : α → α → Prop} {l l' : List α} (h : Reordered R l l')
    (F F' : (ℕ → V3 ℝ) → α → ℕ → V3 ℝ) (hF : ∀ r a v, F r a v = r v + F (fun _ => 0) a v)
    (hF' : ∀ r a v, F' r a v = r v + F' (fun _ => 0) a v)
    (hR : ∀ a ∈ l, ∀ b, R a b → ∀ r, F' (renumber σ r) b = renumber σ (F r a)) (r : ℕ → V3 ℝ) :
    l'.foldl F' (renumber σ r) = renumber σ (l.foldl F r) := by
  refine renumber_eq fun i => ?_
  rw [foldl_adds _ _ hF, foldl_adds _ _ hF', renumber_apply]
  congr 1
  refine h.sum fun a ha b hab => ?_
  have := congrFun (hR a ha b hab fun _ => 0) (σ i)
  rw [renumber_apply] at this
  exact this

theorem foldl_sum {α : Type} (l : List α) (g : α → ℝ) (e : ℝ) :
    l.foldl (fun e a => e + g a) e = e + (l.map g).sum := by
  induction l generalizing e with
  | nil => simp
  | cons a l ih => rw [List.foldl_cons, ih, List.map_cons, List.sum_cons, add_assoc]

theorem SameTouching.force {S S' : Touching} (h : SameTouching σ S S') {x : ℕ → V3 ℝ}
    (hd : ∀ C ∈ S.contacts, DefiniteContact C x) (v : ℕ → V3 ℝ) (q : ℝ) :
    S'.force (renumber σ x) (renumber σ v) q = (S.force x v q).map (renumber σ) := by
  unfold Touching.force
  rw [h.sealed.force, Option.map_map, Option.map_map]
  congr 1
  funext r
  refine foldl_renumber h.contacts _ _ (fun r C v => C.contact_force_adds x r v)
    (fun r C v => C.contact_force_adds (renumber σ x) r v) (fun C hC C' hCC r => ?_) r
  obtain ⟨τ, hτ⟩ := hCC
  exact hτ.subtractForce (hd C hC) r

theorem SameTouching.energy {S S' : Touching} (h : SameTouching σ S S') {x : ℕ → V3 ℝ}
    (hd : ∀ C ∈ S.contacts, DefiniteContact C x) (v : ℕ → V3 ℝ) (q : ℝ) :
    S'.energy (renumber σ x) (renumber σ v) q = S.energy x v q := by
  unfold Touching.energy
  rw [h.sealed.energy]
  congr 1
  funext e
  rw [foldl_sum, foldl_sum]
  congr 1
  refine h.contacts.sum fun C hC C' hCC => ?_
  obtain ⟨τ, hτ⟩ := hCC
  exact hτ.energy (hd C hC)

theorem friction_adds (C : Pair) (ns : ℕ) (p : Friction.Params) (x v r : ℕ → V3 ℝ) (i : ℕ) :
    C.subtractFriction ns p x v r i = r i + C.subtractFriction ns p x v (fun _ => 0) i := by
  unfold Pair.subtractFriction
  cases C.frictionForce ns p x v with
  | none => simp
  | some g => simp [sub_eq_add_neg]

theorem grip_adds (x v : ℕ → V3 ℝ) (r : ℕ → V3 ℝ) (G : Grip) (i : ℕ) :
    G.subtract x v r i = r i + G.subtract x v (fun _ => 0) i := by
  cases G <;> exact friction_adds _ _ _ _ _ _ _

theorem SameGrip.subtract {G G' : Grip} (h : SameGrip σ G G') {x : ℕ → V3 ℝ} (hd : DefiniteGrip x G)
    (v r : ℕ → V3 ℝ) :
    G'.subtract (renumber σ x) (renumber σ v) (renumber σ r) = renumber σ (G.subtract x v r) := by
  match G, G', h, hd with
  | .lagged L, .lagged L', h, hd =>
    obtain ⟨τ, hτ⟩ := h.pair
    obtain ⟨N, hN⟩ := h.distinct
    obtain ⟨N', hN'⟩ := h.distinct'
    show L'.pair.subtractFriction L'.ns L'.params L'.x _ _ = _
    rw [h.x, h.params]
    exact hτ.subtractFriction hd hN hN' _ v r
  | .current F, .current F', h, hd =>
    obtain ⟨τ, hτ⟩ := h.pair
    obtain ⟨N, hN⟩ := h.distinct
    obtain ⟨N', hN'⟩ := h.distinct'
    show F'.pair.subtractFriction F'.ns F'.params _ _ _ = _
    rw [h.params]
    exact hτ.subtractFriction hd hN hN' _ v r
  | .lagged _, .current _, h, _ => exact h.elim
  | .current _, .lagged _, h, _ => exact h.elim

theorem SameGripping.force {S S' : Gripping} (h : SameGripping σ S S') {x : ℕ → V3 ℝ}
    (hd : ∀ C ∈ S.contacts, DefiniteContact C x) (hg : ∀ G ∈ S.grips, DefiniteGrip x G)
    (v : ℕ → V3 ℝ) (q : ℝ) :
    S'.force (renumber σ x) (renumber σ v) q = (S.force x v q).map (renumber σ) := by
  unfold Gripping.force
  rw [h.touching.force hd, Option.map_map, Option.map_map]
  congr 1
  funext r
  exact foldl_renumber h.grips _ _ (fun r G i => grip_adds x v r G i)
    (fun r G i => grip_adds (renumber σ x) (renumber σ v) r G i)
    (fun G hG G' hGG r => hGG.subtract (hg G hG) v r) r

/-! ## The equations of motion -/

/-- C106: the residual of the equations of motion and the force that is kept for the next step have the same
value at every vertex, whatever its number is and in whatever order elements, hinges, zones and contacts are
listed. Elements may list their corners in any order. Missing: contact points that have to choose between
samples beyond the radius (`numbering_tie_violated`), and shells with neighboring faces that pass their common
edge in the same direction. -/
theorem numbering_residual_partial {S S' : Gripping} (h : SameGripping σ S S') (fm pm : ℝ)
    (prev v0 x v : ℕ → V3 ℝ) (hd : ∀ C ∈ S.contacts, DefiniteContact C x)
    (hg : ∀ G ∈ S.grips, DefiniteGrip x G) :
    S'.residual fm pm (renumber σ prev) (renumber σ v0) (renumber σ x) (renumber σ v) =
      (S.residual fm pm prev v0 x v).map fun p => (renumber σ p.1, renumber σ p.2) := by
  classical
  have hp := h.touching.sealed.problem
  unfold Gripping.residual
  simp only [hp.dt, hp.isStatic]
  rw [h.force hd hg, Option.map_map, Option.map_map]
  congr 1
  funext f
  simp only [Function.comp]
  congr 1
  have hr : (if pm > 0 then fun i => S.dt • (fm • renumber σ f i + pm • renumber σ prev i)
      else fun i => (S.dt * fm) • renumber σ f i) =
      renumber σ (if pm > 0 then fun i => S.dt • (fm • f i + pm • prev i) else fun i => (S.dt * fm) • f i) := by
    split <;> rfl
  rw [hr]
  split
  · rfl
  · exact hp.momentumDiff v0 v _

/-! ## The objective -/

/-- C106: the objective that the solver reports is the same number. -/
theorem numbering_objective_partial {S S' : Rubbing} (h : SameRubbing σ S S')
    (hσ : ∀ i, σ i < S.numVertices ↔ i < S.numVertices) (fm pm : ℝ)
    (prev v0 x v : ℕ → V3 ℝ) (hd : ∀ C ∈ S.contacts, DefiniteContact C x)
    (hf : ∀ L ∈ S.frictions, DefiniteContact L.pair L.x) :
    S'.objective fm pm (renumber σ prev) (renumber σ v0) (renumber σ x) (renumber σ v) =
      S.objective fm pm prev v0 x v := by
  classical
  have hp := h.touching.sealed.problem
  have he : S'.energy (renumber σ x) (renumber σ v) (S.dt * fm) = S.energy x v (S.dt * fm) := by
    unfold Rubbing.energy
    rw [h.touching.energy hd]
    congr 1
    funext e
    rw [foldl_sum, foldl_sum]
    congr 1
    refine h.frictions.sum fun L hL L' hLL => ?_
    obtain ⟨τ, hτ⟩ := hLL.pair
    rw [hLL.x, hLL.params]
    exact hτ.frictionPotential (hf L hL) _ v _
  have hs : ∑ i ∈ Finset.range S.numVertices, V3.dot (renumber σ prev i) (renumber σ v i) =
      ∑ i ∈ Finset.range S.numVertices, V3.dot (prev i) (v i) := by
    refine (Finset.sum_equiv σ (fun i => ?_) fun i _ => ?_).symm
    · rw [Finset.mem_range, Finset.mem_range, hσ]
    · rw [renumber_apply, renumber_apply]
  unfold Rubbing.objective
  simp only [hp.dt, hp.isStatic, h.touching.numVertices, hs, hp.inertia, he]

/-! ## Whole simulations -/

/-- C106: the whole simulation of one scene is, with the numbers changed, a simulation of the other. Vertices
that may move are still those with the lowest numbers. -/
theorem numbering_run_partial {S S' : ℕ → Gripping} (h : ∀ n, SameGripping σ (S n) (S' n))
    (hσ : ∀ n i, σ i < (S n).numActive ↔ i < (S n).numActive) (fm pm : ℝ)
    (x v f : ℕ → ℕ → V3 ℝ) (H : Frame.Run S fm pm x v f)
    (hd : ∀ n, ∀ C ∈ (S n).contacts, DefiniteContact C (x (n + 1)))
    (hg : ∀ n, ∀ G ∈ (S n).grips, DefiniteGrip (x (n + 1)) G) :
    Frame.Run S' fm pm (fun n => renumber σ (x n)) (fun n => renumber σ (v n)) fun n => renumber σ (f n) := by
  constructor
  · intro n
    obtain ⟨r, hr, h0⟩ := H.balance n
    refine ⟨renumber σ r, ?_, fun i hi => ?_⟩
    · rw [numbering_residual_partial (h n) fm pm _ _ _ _ (hd n) (hg n), hr]
      rfl
    · obtain ⟨j, rfl⟩ := σ.surjective i
      rw [(h n).touching.numActive, hσ n] at hi
      rw [renumber_apply]
      exact h0 j hi
  · intro n i
    rw [(h n).touching.sealed.problem.dt]
    exact H.place n (σ.symm i)

/-! ## When the solver stops -/

/-- What the test for convergence knows about a vertex. -/
structure VertexState where
  massInv : Option ℝ
  size : ℝ
  xPrev : V3 ℝ
  x : V3 ℝ
  r : V3 ℝ
  rUnscaled : V3 ℝ

/-- The step is finished. -/
def Finished (dt : ℝ) (ti : TimeInt.SingleStep) (l : List VertexState) (xTol rTol aTol : ℝ) : Prop :=
  Converged.converged dt ti (l.map (·.massInv)) (l.map (·.size)) (l.map (·.xPrev)) (l.map (·.x))
    (l.map (·.r)) (l.map (·.rUnscaled)) xTol rTol aTol

/-- C106: whether a step is finished does not depend on the order of the vertices. -/
theorem numbering_converged (dt : ℝ) (ti : TimeInt.SingleStep) {l l' : List VertexState} (h : l.Perm l')
    (xTol rTol aTol : ℝ) :
    Finished dt ti l' xTol rTol aTol ↔ Finished dt ti l xTol rTol aTol := by
  unfold Finished Converged.converged
  have h1 : Converged.infNorm (l'.map (·.r)) = Converged.infNorm (l.map (·.r)) := by
    unfold Converged.infNorm
    have : RightCommutative fun (m : ℝ) (a : V3 ℝ) => max (max (max m |a.x|) |a.y|) |a.z| :=
      ⟨fun m a b => by simp only [max_left_comm, max_comm]⟩
    exact List.Perm.foldl_eq (f := fun (m : ℝ) (a : V3 ℝ) => max (max (max m |a.x|) |a.y|) |a.z|)
      (h.symm.map fun s => s.r) 0
  have hn (g : VertexState → V3 ℝ) : Converged.norm2 (l'.map g) = Converged.norm2 (l.map g) := by
    unfold Converged.norm2
    rw [((h.symm.map g).map fun a => V3.dot a a).sum_eq]
  have hz (m : List VertexState) : List.zipWith (fun a b => a - b) (m.map (·.xPrev)) (m.map (·.x)) =
      m.map fun s => s.xPrev - s.x := by
    rw [List.zipWith_map, List.zipWith_self]
  have ha (m : List VertexState) (hInv : Option ℝ) : Converged.accelCriterion aTol hInv (m.map (·.rUnscaled))
      (m.map (·.massInv)) (m.map (·.size)) (m.map (·.xPrev)) (m.map (·.x)) ↔
      ∀ s ∈ m, Converged.accelOk aTol hInv s.rUnscaled s.massInv s.size s.x := by
    unfold Converged.accelCriterion
    rw [List.zip_map', List.zip_map', List.zip_map', List.zip_map', List.forall_mem_map]
  rw [h1, hz, hz, hn, hn, ha, ha]
  simp only [h.mem_iff]

/-! ## A tie -/

/-- Two triangles, one of which faces a vertex that is in the middle between them, and too far from them for
their weights. The list is the order in which the search found them. -/
def tie (view : List ℕ) : Pair where
  tris := fun s => if s = 0 then ⟨0, 2, 1⟩ else ⟨3, 5, 4⟩
  value := fun _ => 0
  kernel := .cubic (1 / 2)
  nbrs := [view]
  closest := fun _ => 0
  surf := fun j => if j < 6 then j else 0
  coll := fun _ => 6
  objectFixed := false
  colliderFixed := false
  offset := 0
  delta := 2
  kappa := 1

theorem tie_pos (l : List ℕ) (i : ℕ) :
    ((tie l).samples Frame.slotX).pos i = if i = 0 then ⟨1, 0, 0⟩ else ⟨-1, 0, 0⟩ := by
  by_cases h : i = 0 <;> ext <;>
    simp [h, Pair.samples, Field.faceSamples, tie, Frame.slotX] <;> norm_num

theorem tie_nml (l : List ℕ) (i : ℕ) : ((tie l).samples Frame.slotX).nml i = ⟨-9, 0, 0⟩ := by
  by_cases h : i = 0 <;> ext <;>
    simp [h, Pair.samples, Field.faceSamples, tie, Frame.slotX, Field.areaNormal, V3.cross] <;> norm_num

theorem tie_dist (l : List ℕ) (i : ℕ) : ((0 : V3 ℝ) - ((tie l).samples Frame.slotX).pos i).norm = 1 := by
  have : (0 : V3 ℝ) - ((tie l).samples Frame.slotX).pos i = if i = 0 then ⟨-1, 0, 0⟩ else ⟨1, 0, 0⟩ := by
    rw [tie_pos]
    split <;> ext <;> norm_num
  rw [this]
  split <;> exact Contact.roof_norm _ _ 1 (by norm_num) (by norm_num)

theorem tie_closest (i j : ℕ) :
    Field.closestSample 0 ((tie [i, j]).samples Frame.slotX) [i, j] = some i := by
  have h : ∀ k, V3.dot (0 - ((tie [i, j]).samples Frame.slotX).pos k)
      (0 - ((tie [i, j]).samples Frame.slotX).pos k) = 1 := fun k => by
    rw [← V3.norm_mul_norm, tie_dist, one_mul]
  simp only [Field.closestSample, Field.closestFrom, h, lt_irrefl, if_false]

theorem tie_distance (i j : ℕ) : (tie [i, j]).distance Frame.slotX ([i, j], 0) = if i = 0 then 1 else -1 := by
  unfold Pair.distance Field.potentialAt
  have ho : (tie [i, j]).offset = 0 := rfl
  simp only [show (tie [i, j]).query Frame.slotX 0 = 0 from rfl]
  rw [Field.local_eq (some 0) (tie_closest i j), ho, sub_zero]
  set b := Field.bgAt (tie [i, j]).kernel Contact.params 0 [i, j] ((tie [i, j]).samples Frame.slotX) i (some 0)
    with hb
  have hd : b.dist = 1 := tie_dist _ i
  have hw0 : b.bgWeight = 1 := by
    show Field.backgroundWeight (tie [i, j]).kernel false b.dist = 1
    rw [hd]
    show (if (1 / 2 : ℝ) < 1 then (1 : ℝ) else if false then _ else 0) = 1
    norm_num
  have hz : ∀ k, Field.weight (tie [i, j]).kernel 1 0 ((tie [i, j]).samples Frame.slotX) k = 0 := by
    intro k
    show Kernel.cubicF (1 / 2) ((0 : V3 ℝ) - ((tie [i, j]).samples Frame.slotX).pos k).norm = 0
    rw [tie_dist, Kernel.cubicF_eq, if_pos (by norm_num)]
  have hW : b.weightSum = 1 := by
    show ([i, j].map (Field.weight (tie [i, j]).kernel b.dist 0 ((tie [i, j]).samples Frame.slotX))).sum +
      b.bgWeight = 1
    rw [hw0, hd]
    simp [hz]
  have ho : b.orientation = if i = 0 then 1 else -1 := by
    show (if V3.dot (((tie [i, j]).samples Frame.slotX).nml i)
      ((0 : V3 ℝ) - ((tie [i, j]).samples Frame.slotX).pos i) < 0 then (-1 : ℝ) else 1) = _
    rw [tie_nml, tie_pos]
    by_cases h : i = 0 <;> simp only [h, if_true, if_false] <;> norm_num [V3.dot]
  have hv : b.fieldValue = if i = 0 then 1 else -1 := by
    show b.dist * b.orientation = _
    rw [hd, ho, one_mul]
  simp only [Field.Bg.weightedField, hw0, Field.localPotentialAt, hd, Field.weightSumInv_eq, hW, hv]
  simp [hz]

theorem tie_energy (i j : ℕ) : (tie [i, j]).energy Frame.slotX = if i = 0 then 1 / 2 else 27 / 2 := by
  have ha : (tie [i, j]).active = [([i, j], 0)] := rfl
  unfold Pair.energy
  simp only [Pair.distances_eq, ha, List.map_cons, List.map_nil, tie_distance, List.sum_cons, List.sum_nil]
  show (1 : ℝ) * ContactPenalty.b 2 _ + 0 = _
  by_cases h : i = 0 <;> simp only [h, if_true, if_false] <;> norm_num [ContactPenalty.b]

/-- Nothing but a contact. -/
def tieScene (view : List ℕ) : Rubbing where
  nh := []
  nhDensity := []
  snh := []
  snhDensity := []
  shell := ⟨[], [], fun _ _ => 0⟩
  shellDensity := []
  gravity := 0
  timeStep := 1
  volumes := []
  contacts := [tie view]
  numVertices := 7
  numActive := 7
  frictions := []

theorem tieScene_objective (i j : ℕ) : (tieScene [i, j]).objective 1 0 (fun _ => 0) (fun _ => 0) Frame.slotX
    (fun _ => 0) = some (if i = 0 then 1 / 2 else 27 / 2) := by
  have he : (tieScene [i, j]).toProblem.energy Frame.slotX (fun _ => 0) 1 = some 0 := by
    simp [Problem.energy, tieScene, Assembly.tetEnergy, Shell.energy, Problem.nhBodies, Problem.snhBodies,
      Problem.shellBodies, tetBodies, triBodies, gravityEnergy, sumEnergies]
  have hd : (tieScene [i, j]).dt = 1 := by
    simp [Problem.dt, Problem.isStatic, tieScene]
  have hi : (tieScene [i, j]).inertia (fun _ => 0) (fun _ => 0) = 0 := by
    simp [Problem.inertia, tieScene, Problem.nhBodies, Problem.snhBodies, Problem.shellBodies, tetBodies, triBodies,
      inertiaEnergy]
  have hE : (tieScene [i, j]).energy Frame.slotX (fun _ => 0) 1 = some (if i = 0 then 1 / 2 else 27 / 2) := by
    unfold Rubbing.energy Touching.energy Volume.Sealed.energy
    rw [he]
    simp [tieScene, tie_energy]
  unfold Rubbing.objective
  simp only [hd, hi, mul_one, hE, Option.map_some, gt_iff_lt, lt_irrefl, if_false, zero_add, add_zero, ite_self]

/-- C106 fails where a contact point is equally far from two samples, and so far that neither has a weight:
the one that the search has found first decides on which side of the surface the point is. -/
theorem numbering_tie_violated : ∃ (S S' : Rubbing) (x : ℕ → V3 ℝ), SameRubbing (Equiv.refl ℕ) S S' ∧
    S'.objective 1 0 (fun _ => 0) (fun _ => 0) x (fun _ => 0) ≠
      S.objective 1 0 (fun _ => 0) (fun _ => 0) x (fun _ => 0) := by
  refine ⟨tieScene [0, 1], tieScene [1, 0], Frame.slotX, ⟨⟨⟨⟨?_, ?_, ?_, ?_, ⟨rfl, rfl⟩, ⟨rfl, rfl⟩, ⟨rfl, rfl⟩,
    rfl, rfl⟩, ?_⟩, ?_, rfl, rfl⟩, ?_⟩, ?_⟩
  · exact ⟨[], .nil, .nil⟩
  · exact ⟨[], .nil, .nil⟩
  · exact ⟨[], .nil, .nil⟩
  · exact ⟨[], .nil, .nil⟩
  · exact ⟨[], .nil, .nil⟩
  · refine ⟨[tie [1, 0]], .cons ⟨Equiv.refl ℕ, ?_, fun s => ⟨0, fun j => ?_⟩, fun _ => rfl, rfl, rfl, rfl, rfl, rfl,
      rfl⟩ .nil, .refl _⟩
    · refine ⟨[([1, 0], 0)], .cons ⟨?_, rfl⟩ .nil, .refl _⟩
      exact List.Perm.swap 0 1 []
    · rw [add_zero]
      rfl
  · exact ⟨[], .nil, .nil⟩
  · rw [tieScene_objective, tieScene_objective]
    norm_num

/-! ## The hypotheses can be met -/

/-- The same problem with new numbers and all lists reversed. -/
def relabel (σ : Equiv.Perm ℕ) (P : Problem) : Problem where
  nh := (P.nh.map fun e => { e with cell := fun i => σ (e.cell i) }).reverse
  nhDensity := P.nhDensity.reverse
  snh := (P.snh.map fun e => { e with cell := fun i => σ (e.cell i) }).reverse
  snhDensity := P.snhDensity.reverse
  shell := ⟨(P.shell.tris.map fun e => { e with cell := fun i => σ (e.cell i) }).reverse,
    P.shell.dihedrals.reverse, fun f k => σ (P.shell.faces f k)⟩
  shellDensity := P.shellDensity.reverse
  gravity := P.gravity
  timeStep := P.timeStep

theorem reordered_reverse {α : Type} {R : α → α → Prop} (l : List α) (g : α → α) (h : ∀ a ∈ l, R a (g a)) :
    Reordered R l (l.map g).reverse := by
  refine ⟨l.map g, ?_, (List.reverse_perm _).symm⟩
  rw [List.forall₂_map_right_iff]
  exact List.forall₂_same.2 h

theorem zip_reverse {α β : Type} : ∀ (l : List α) (d : List β), d.length = l.length →
    l.reverse.zip d.reverse = (l.zip d).reverse
  | [], [], _ => rfl
  | a :: l, b :: d, h => by
    have h : d.length = l.length := by simpa using h
    rw [List.reverse_cons, List.reverse_cons, List.zip_append (by simp [h]), zip_reverse l d h]
    simp

theorem dense_reverse {α : Type} {R : α → α → Prop} (l : List α) (d : List ℝ) (hl : d.length = l.length)
    (g : α → α) (h : ∀ a ∈ l, R a (g a)) :
    Reordered (Dense R) (l.zip d) ((l.map g).reverse.zip d.reverse) := by
  have : (l.map g).reverse.zip d.reverse = ((l.zip d).map fun p => (g p.1, p.2)).reverse := by
    rw [zip_reverse _ _ (by simp [hl]), List.zip_map_left]
    rfl
  rw [this]
  exact reordered_reverse _ _ fun p hp => ⟨h _ (List.of_mem_zip hp).1, rfl⟩

/-- The corners of a triangle in a plane. -/
def flat (S : Tri.M22) : Tri.Verts := ![⟨S.r0.x, S.r0.y, 0⟩, ⟨S.r1.x, S.r1.y, 0⟩, 0]

theorem relabel_same (σ : Equiv.Perm ℕ) (P : Problem) (h1 : P.nhDensity.length = P.nh.length)
    (h2 : P.snhDensity.length = P.snh.length) (h3 : P.shellDensity.length = P.shell.tris.length)
    (hd : ∀ d ∈ P.shell.dihedrals, Starts d.edge) (hi : ∀ e ∈ P.shell.tris, e.ref.DXinv.det ≠ 0)
    (hr : ∀ e ∈ P.nh ++ P.snh, ∃ X : Tet.Verts, e.ref.DXinv * Tet.shape X = M3.diag 1) :
    SameProblem σ P (relabel σ P) := by
  have ht : ∀ e ∈ P.nh ++ P.snh, SameTet σ e { e with cell := fun i => σ (e.cell i) } := fun e he => by
    obtain ⟨X, hX⟩ := hr e he
    exact ⟨Equiv.refl _, fun _ => rfl, ⟨⟨X, hX, hX⟩, rfl, rfl, rfl⟩, rfl⟩
  refine ⟨dense_reverse _ _ h1 _ fun e he => ht e (by simp [he]),
    dense_reverse _ _ h2 _ fun e he => ht e (by simp [he]),
    dense_reverse _ _ h3 _ fun e he => ?_, ?_, ⟨h1, by simp [relabel, h1]⟩,
    ⟨h2, by simp [relabel, h2]⟩, ⟨h3, by simp [relabel, h3]⟩, rfl, rfl⟩
  · have h := mul22_one_comm (inv22_mul (hi e he))
    have hX : mul22 e.ref.DXinv.inv e.ref.DXinv.inv.transpose = (Tri.shape (flat e.ref.DXinv.inv)).mulT
        (Tri.shape (flat e.ref.DXinv.inv)) := by
      ext <;> simp [mul22, flat, Tri.shape, Tri.M23.mulT, Tri.M22.transpose, V3.dot]
    exact ⟨Equiv.refl _, fun _ => rfl, ⟨⟨flat e.ref.DXinv.inv, _, _, h, h, hX, hX⟩, rfl, rfl, rfl⟩, rfl⟩
  have := reordered_reverse (R := SameHinge σ P.shell.faces fun f k => σ (P.shell.faces f k)) P.shell.dihedrals id
    fun d h => ⟨rfl, hd d h, hd d h, .inl ⟨fun _ => rfl, fun _ => rfl⟩⟩
  rwa [List.map_id] at this

/-- The same contact with new numbers. -/
def relabelPair (σ : Equiv.Perm ℕ) (C : Pair) : Pair :=
  { C with surf := fun j => σ (C.surf j), coll := fun i => σ (C.coll i) }

theorem relabelPair_same (σ : Equiv.Perm ℕ) (C : Pair) : SameContact σ (Equiv.refl ℕ) C (relabelPair σ C) :=
  ⟨.refl fun p _ => ⟨by simp, rfl⟩, fun s => ⟨0, fun j => by rw [add_zero]; rfl⟩, fun _ => rfl, rfl, rfl, rfl, rfl,
    rfl, rfl⟩

theorem relabelPair_distinct (σ : Equiv.Perm ℕ) {C : Pair} {ns N : ℕ} (h : C.Distinct ns N)
    (hσ : ∀ i, σ i < N ↔ i < N) : (relabelPair σ C).Distinct ns N := by
  refine ⟨h.corner, fun i hi j hj e => h.surf_inj i hi j hj (σ.injective e), ?_,
    fun i j e => h.apart i j (σ.injective e), fun j hj => (hσ _).2 (h.surf_lt j hj),
    fun p hp => (hσ _).2 (h.coll_lt p hp)⟩
  have := h.coll_inj.map σ.injective
  rwa [List.map_map] at this

/-- The same friction with new numbers. -/
def relabelGrip (σ : Equiv.Perm ℕ) : Grip → Grip
  | .lagged L => .lagged { L with pair := relabelPair σ L.pair, x := renumber σ L.x }
  | .current F => .current { F with pair := relabelPair σ F.pair }

/-- The tetrahedron of the contact with friction, with vertices `0` and `3` exchanged, its corners in another
order, and the two kinds of friction in another order. -/
def turned : Gripping where
  nh := []
  nhDensity := []
  snh := [⟨![1, 2, 3, 4], ⟨⟨⟨0, 0, 1⟩, ⟨1, 0, 0⟩, ⟨1, 1, 0⟩⟩, 1 / 6, 2, 1⟩, 1⟩]
  snhDensity := [500]
  shell := ⟨[], [], fun _ _ => 0⟩
  shellDensity := []
  gravity := ⟨0, -981 / 100, 0⟩
  timeStep := 1 / 60
  volumes := []
  contacts := [relabelPair (Equiv.swap 0 3) demo]
  numVertices := 5
  numActive := 5
  grips := ((exGrip (coulomb (3 / 10)) false).grips.map (relabelGrip (Equiv.swap 0 3))).reverse

theorem swap_lt {N a b : ℕ} (ha : a < N) (hb : b < N) (i : ℕ) : Equiv.swap a b i < N ↔ i < N := by
  rw [Equiv.swap_apply_def]
  split
  · simp_all
  · split <;> simp_all

theorem turned_same : SameGripping (Equiv.swap 0 3) (exGrip (coulomb (3 / 10)) false) turned := by
  refine ⟨⟨⟨⟨?_, ?_, ?_, ?_, ⟨rfl, rfl⟩, ⟨rfl, rfl⟩, ⟨rfl, rfl⟩, rfl, rfl⟩, ?_⟩, ?_, rfl, rfl⟩, ?_⟩
  · exact ⟨[], .nil, .nil⟩
  · refine ⟨turned.snh.zip turned.snhDensity, .cons ⟨⟨Equiv.swap 0 1 * Equiv.swap 1 2, ?_, ⟨⟨![⟨1, 0, 0⟩, ⟨0, 1, 0⟩, ⟨0, -1, 1⟩, 0], ?_, ?_⟩, rfl, rfl,
      rfl⟩, rfl⟩, rfl⟩ .nil, .refl _⟩
    · intro i
      fin_cases i <;> simp [Equiv.swap_apply_def]
    · ext <;> simp [exGrip, exTouch, exTet, Tet.shape, M3.mul, M3.diag, M3.transpose, M3.mulVec, V3.dot]
    · ext <;> simp [Tet.shape, M3.mul, M3.diag, M3.transpose, M3.mulVec, V3.dot, Equiv.swap_apply_def]
  · exact ⟨[], .nil, .nil⟩
  · exact ⟨[], .nil, .nil⟩
  · exact ⟨[], .nil, .nil⟩
  · exact ⟨_, .cons ⟨_, relabelPair_same _ _⟩ .nil, .refl _⟩
  · refine reordered_reverse _ _ fun G hG => ?_
    have hd := relabelPair_distinct (Equiv.swap 0 3) demo_distinct (swap_lt (by norm_num) (by norm_num))
    simp only [exGrip, List.mem_cons, List.not_mem_nil, or_false] at hG
    rcases hG with rfl | rfl
    · exact ⟨⟨_, relabelPair_same _ _⟩, rfl, ⟨_, demo_distinct⟩, _, hd⟩
    · exact ⟨⟨_, relabelPair_same _ _⟩, rfl, rfl, ⟨_, demo_distinct⟩, _, hd⟩

theorem demo_definite (x : ℕ → V3 ℝ) : DefiniteContact demo x := by
  intro p hp hne s hs
  right
  intro s' hs'
  have h0 : p.1 = [0] := by
    have : p ∈ [(([] : List ℕ), 0), ([0], 1)] := hp
    simp only [List.mem_cons, List.not_mem_nil, or_false] at this
    rcases this with rfl | rfl
    · exact absurd rfl hne
    · rfl
  have h1 := hs.1
  have h2 := hs'.1
  rw [h0, List.mem_singleton] at h1 h2
  rw [h1, h2]

/-- The hypotheses of `numbering_residual_partial` hold for the tetrahedron and the vertex above it. -/
example (fm pm : ℝ) (prev v0 x v : ℕ → V3 ℝ) :=
  numbering_residual_partial turned_same fm pm prev v0 x v
    (fun C hC => by
      have : C = demo := by simpa [exGrip, exTouch] using hC
      exact this ▸ demo_definite x)
    (fun G hG => by
      simp only [exGrip, List.mem_cons, List.not_mem_nil, or_false] at hG
      rcases hG with rfl | rfl <;> exact demo_definite _)

/-- Those of `numbering_objective_partial` hold for it too. -/
def rubbed (T : Touching) (C : Pair) (x : ℕ → V3 ℝ) : Rubbing :=
  { T with frictions := [⟨C, x, 3, coulomb (3 / 10)⟩] }

example (fm pm : ℝ) (prev v0 x v : ℕ → V3 ℝ) :=
  numbering_objective_partial (S := rubbed (exTouch demo) demo demoX)
    (S' := rubbed turned.toTouching (relabelPair (Equiv.swap 0 3) demo) (renumber (Equiv.swap 0 3) demoX))
    ⟨turned_same.touching, ⟨[⟨relabelPair (Equiv.swap 0 3) demo, renumber (Equiv.swap 0 3) demoX, 3,
      coulomb (3 / 10)⟩], .cons ⟨⟨_, relabelPair_same _ _⟩, rfl, rfl, ⟨_, demo_distinct⟩, _,
      relabelPair_distinct (Equiv.swap 0 3) demo_distinct (swap_lt (by norm_num) (by norm_num))⟩ .nil, .refl _⟩⟩
    (swap_lt (by norm_num [rubbed, exTouch]) (by norm_num [rubbed, exTouch])) fm pm prev v0 x v
    (fun C h => by
      have : C = demo := by simpa [rubbed, exTouch] using h
      exact this ▸ demo_definite x)
    (fun L h => by
      have : L = ⟨demo, demoX, 3, coulomb (3 / 10)⟩ := by simpa [rubbed] using h
      exact this ▸ demo_definite _)

/-- A body with tetrahedra and a shell falls, with other numbers. -/
def fallTurned : Gripping :=
  { toProblem := relabel (Equiv.swap 0 3) exProblem
    volumes := []
    contacts := []
    numVertices := 4
    numActive := 4
    grips := [] }

theorem fallTurned_same : SameGripping (Equiv.swap 0 3) Frame.fallScene fallTurned := by
  refine ⟨⟨⟨relabel_same _ exProblem rfl rfl rfl ?_ ?_ ?_, ⟨[], .nil, .nil⟩⟩, ⟨[], .nil, .nil⟩, rfl, rfl⟩, ⟨[], .nil, .nil⟩⟩
  · intro d hd
    simp only [exProblem, List.mem_singleton] at hd
    subst hd
    exact ⟨by decide, by decide⟩
  · intro e he
    simp only [exProblem, List.mem_cons, List.not_mem_nil, or_false] at he
    rcases he with rfl | rfl <;> norm_num [Tri.M22.det, exTri0, exTri1]
  · intro e he
    simp only [exProblem, List.cons_append, List.nil_append, List.mem_cons, List.not_mem_nil, or_false] at he
    refine ⟨![⟨1, 0, 0⟩, ⟨0, 1, 0⟩, ⟨0, -1, 1⟩, 0], ?_⟩
    rcases he with rfl | rfl <;> ext <;> simp [Tet.shape, M3.mul, M3.diag, M3.transpose, M3.mulVec, V3.dot]

/-- Those of `numbering_run_partial` hold for each of its simulations. -/
example (fm pm : ℝ) (x v f : ℕ → ℕ → V3 ℝ) (H : Frame.Run (fun _ => Frame.fallScene) fm pm x v f) :=
  numbering_run_partial (fun _ => fallTurned_same) (fun _ => swap_lt (by norm_num [Frame.fallScene])
    (by norm_num [Frame.fallScene])) fm pm x v f H (fun _ C hC => by simp [Frame.fallScene] at hC)
    (fun _ G hG => by simp [Frame.fallScene] at hG)

end Softy.Numbering
