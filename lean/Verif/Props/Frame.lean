import Verif.Lemmas.FrameContact
import Verif.Props.Converged

/-!
# C104: the simulation does not depend on the frame of reference

A rigid motion turns the scene by a rotation `R` and shifts it by a vector `c`. The positions of the vertices
become `R x + c` (`move R c x`), velocities and forces become `R v` (`turn R v`), and so does gravity.
Everything else that a problem consists of, its meshes, rest shapes, materials and contacts, has no direction.
-/

noncomputable section

namespace Softy.Frame

open Softy Assembly Fem Softy.Contact

variable {R : M3 ℝ}

/-! ## The problem in the other frame -/

/-- The same bodies, with gravity in the other frame. -/
def problemIn (R : M3 ℝ) (P : Problem) : Problem := { P with gravity := R.mulVec P.gravity }

/-- The same bodies and volume zones. -/
def sealedIn (R : M3 ℝ) (S : Volume.Sealed) : Volume.Sealed :=
  { problemIn R S.toProblem with volumes := S.volumes }

/-- The same bodies, volume zones and contacts. -/
def touchingIn (R : M3 ℝ) (S : Touching) : Touching :=
  { sealedIn R S.toSealed with
    contacts := S.contacts, numVertices := S.numVertices, numActive := S.numActive }

/-- The positions that lagged friction remembers are in the other frame. -/
def laggedIn (R : M3 ℝ) (c : V3 ℝ) (L : Lagged) : Lagged := { L with x := move R c L.x }

/-- The same friction. -/
def gripIn (R : M3 ℝ) (c : V3 ℝ) : Grip → Grip
  | .lagged L => .lagged (laggedIn R c L)
  | .current F => .current F

/-- The same bodies, volume zones, contacts and friction. -/
def grippingIn (R : M3 ℝ) (c : V3 ℝ) (S : Gripping) : Gripping :=
  { touchingIn R S.toTouching with grips := S.grips.map (gripIn R c) }

/-- The same, with lagged friction only. -/
def rubbingIn (R : M3 ℝ) (c : V3 ℝ) (S : Rubbing) : Rubbing :=
  { touchingIn R S.toTouching with frictions := S.frictions.map (laggedIn R c) }

/-- The contact of some friction has a direction everywhere. -/
def GripFacing (x : ℕ → V3 ℝ) : Grip → Prop
  | .lagged L => Facing L.pair L.x
  | .current F => Facing F.pair x

/-! ## Forces -/

theorem turn_zero (R : M3 ℝ) : (fun _ : ℕ => (0 : V3 ℝ)) = turn R fun _ => 0 := by
  funext i
  exact (rot_zero R).symm

theorem move_zero (R : M3 ℝ) (v : ℕ → V3 ℝ) : move R 0 v = turn R v := by
  funext i
  simp [move, turn]

theorem problem_force (hR : Rotation R) (c u : V3 ℝ) (P : Problem) (x v : ℕ → V3 ℝ) (q : ℝ) :
    (problemIn R P).force (move R c x) (move R u v) q = (P.force x v q).map (turn R) := by
  unfold Problem.force
  rw [turn_zero R]
  show (tetGradient .nh P.nh (move R c x) (move R u v) q (turn R fun _ => 0)).bind _ = _
  rw [tetGradient_move hR, ← turn_zero R]
  cases tetGradient .nh P.nh x v q fun _ => 0 with
  | none => rfl
  | some r =>
    simp only [Option.map_some, Option.bind_some]
    show (tetGradient .snh P.snh (move R c x) (move R u v) q (turn R r)).bind _ = _
    rw [tetGradient_move hR]
    cases tetGradient .snh P.snh x v q r with
    | none => rfl
    | some r =>
      simp only [Option.map_some, Option.bind_some]
      congr 1
      show gravityGradient triKind (R.mulVec P.gravity) P.shellBodies
        (P.shell.gradient (move R c x) (move R u v) q
          (gravityGradient tetKind (R.mulVec P.gravity) P.snhBodies
            (gravityGradient tetKind (R.mulVec P.gravity) P.nhBodies (turn R r)))) = _
      rw [gravityGradient_turn, gravityGradient_turn, shell_gradient_move hR, gravityGradient_turn]

theorem problem_momentumDiff (R : M3 ℝ) (u : V3 ℝ) (P : Problem) (v0 v r : ℕ → V3 ℝ) :
    (problemIn R P).momentumDiff (move R u v0) (move R u v) (turn R r) = turn R (P.momentumDiff v0 v r) := by
  unfold Problem.momentumDiff
  show inertiaGradient triKind P.shellBodies (move R u v0) (move R u v)
    (inertiaGradient tetKind P.snhBodies (move R u v0) (move R u v)
      (inertiaGradient tetKind P.nhBodies (move R u v0) (move R u v) (turn R r))) = _
  rw [inertiaGradient_turn, inertiaGradient_turn, inertiaGradient_turn]

theorem sealed_force (hR : Rotation R) (c u : V3 ℝ) (S : Volume.Sealed) (h : Shiftable c S.volumes)
    (x v : ℕ → V3 ℝ) (q : ℝ) :
    (sealedIn R S).force (move R c x) (move R u v) q = (S.force x v q).map (turn R) := by
  have hp := problem_force hR c u S.toProblem x v q
  cases hf : S.toProblem.force x v q with
  | none =>
    rw [hf] at hp
    have h1 : (sealedIn R S).toProblem.force (move R c x) (move R u v) q = none := hp
    simp only [Volume.Sealed.force, hf, h1, Option.map_none]
  | some f =>
    rw [hf, Option.map_some] at hp
    rw [Volume.Sealed.force_eq S x v q f hf,
      Volume.Sealed.force_eq (sealedIn R S) (move R c x) (move R u v) q (turn R f) hp, Option.map_some]
    congr 1
    funext i
    show _ = R.mulVec _
    rw [rot_add]
    congr 1
    show (S.volumes.map fun P => P.forces (move R c x) i).sum =
      R.mulVec (S.volumes.map fun P => P.forces x i).sum
    rw [rot_list_sum, List.map_map]
    congr 1
    exact List.map_congr_left fun P hP => penalty_forces_move hR c P (fun hc => h hc P hP) x i

theorem foldl_turn {α : Type} (l : List α) (f g : (ℕ → V3 ℝ) → α → ℕ → V3 ℝ) (R : M3 ℝ)
    (h : ∀ a ∈ l, ∀ r, f (turn R r) a = turn R (g r a)) (r : ℕ → V3 ℝ) :
    l.foldl f (turn R r) = turn R (l.foldl g r) := by
  induction l generalizing r with
  | nil => rfl
  | cons a l ih =>
    rw [List.foldl_cons, List.foldl_cons, h a (by simp),
      ih (fun b hb => h b (List.mem_cons_of_mem _ hb))]

theorem touching_force (hR : Rotation R) (c u : V3 ℝ) (S : Touching) (h : Shiftable c S.volumes)
    (x v : ℕ → V3 ℝ) (q : ℝ) :
    (touchingIn R S).force (move R c x) (move R u v) q = (S.force x v q).map (turn R) := by
  unfold Touching.force
  show ((sealedIn R S.toSealed).force (move R c x) (move R u v) q).map _ = _
  rw [sealed_force hR c u S.toSealed h, Option.map_map, Option.map_map]
  congr 1
  funext r
  exact foldl_turn S.contacts _ _ R (fun C _ r => subtractForce_move C hR c x r) r

theorem grip_subtract (hR : Rotation R) (c : V3 ℝ) (G : Grip) (x : ℕ → V3 ℝ) (h : GripFacing x G)
    (v r : ℕ → V3 ℝ) : (gripIn R c G).subtract (move R c x) (turn R v) (turn R r) =
      turn R (G.subtract x v r) := by
  cases G with
  | lagged L => exact subtractFriction_move L.pair hR c h L.ns L.params v r
  | current F => exact subtractFriction_move F.pair hR c h F.ns F.params v r

theorem gripping_force (hR : Rotation R) (c : V3 ℝ) (S : Gripping) (h : Shiftable c S.volumes)
    (x v : ℕ → V3 ℝ) (hf : ∀ G ∈ S.grips, GripFacing x G) (q : ℝ) :
    (grippingIn R c S).force (move R c x) (turn R v) q = (S.force x v q).map (turn R) := by
  unfold Gripping.force
  show ((touchingIn R S.toTouching).force (move R c x) (turn R v) q).map
    (fun r => (S.grips.map (gripIn R c)).foldl (fun r G => G.subtract (move R c x) (turn R v) r) r) = _
  rw [← move_zero, touching_force hR c 0 S.toTouching h, Option.map_map, Option.map_map, move_zero]
  congr 1
  funext r
  simp only [Function.comp, List.foldl_map]
  exact foldl_turn S.grips _ _ R (fun G hG r => grip_subtract hR c G x (hf G hG) v r) r

/-! ## The equations of motion -/

/-- C104: the residual of the equations of motion and the force that is kept for the next step, seen from
another frame, are the same vectors, written in the axes of that frame. The frame may be turned and shifted;
if it is shifted then the volume zones are closed, and all contacts with friction have a direction. -/
theorem frame_residual_partial (hR : Rotation R) (c : V3 ℝ) (S : Gripping) (h : Shiftable c S.volumes)
    (fm pm : ℝ) (prev v0 x v : ℕ → V3 ℝ) (hf : ∀ G ∈ S.grips, GripFacing x G) :
    (grippingIn R c S).residual fm pm (turn R prev) (turn R v0) (move R c x) (turn R v) =
      (S.residual fm pm prev v0 x v).map fun p => (turn R p.1, turn R p.2) := by
  classical
  have hforce := gripping_force hR c S h x v hf (S.dt * fm)
  unfold Gripping.residual
  have hdt : (grippingIn R c S).dt = S.dt := rfl
  have hst : (grippingIn R c S).isStatic ↔ S.isStatic := Iff.rfl
  simp only [hdt, hst]
  rw [hforce, Option.map_map, Option.map_map]
  congr 1
  funext f
  simp only [Function.comp]
  congr 1
  have hr : (if pm > 0 then fun i => S.dt • (fm • turn R f i + pm • turn R prev i)
      else fun i => (S.dt * fm) • turn R f i) =
      turn R (if pm > 0 then fun i => S.dt • (fm • f i + pm • prev i) else fun i => (S.dt * fm) • f i) := by
    split <;> funext i <;> simp only [turn, rot_smul, rot_add]
  rw [hr]
  split
  · rfl
  · rw [← move_zero R v0, ← move_zero R v]
    exact problem_momentumDiff R 0 S.toProblem v0 v _

/-- C104: the same if the frame moves with a constant velocity `u`: velocities become `R v + u`. There is no
friction. -/
theorem frame_boost_partial (hR : Rotation R) (c u : V3 ℝ) (S : Touching) (h : Shiftable c S.volumes)
    (fm pm : ℝ) (prev v0 x v : ℕ → V3 ℝ) :
    (touchingIn R S).residual fm pm (turn R prev) (move R u v0) (move R c x) (move R u v) =
      (S.residual fm pm prev v0 x v).map fun p => (turn R p.1, turn R p.2) := by
  classical
  have hforce := touching_force hR c u S h x v (S.dt * fm)
  unfold Touching.residual
  have hdt : (touchingIn R S).dt = S.dt := rfl
  have hst : (touchingIn R S).isStatic ↔ S.isStatic := Iff.rfl
  simp only [hdt, hst]
  rw [hforce, Option.map_map, Option.map_map]
  congr 1
  funext f
  simp only [Function.comp]
  congr 1
  have hr : (if pm > 0 then fun i => S.dt • (fm • turn R f i + pm • turn R prev i)
      else fun i => (S.dt * fm) • turn R f i) =
      turn R (if pm > 0 then fun i => S.dt • (fm • f i + pm • prev i) else fun i => (S.dt * fm) • f i) := by
    split <;> funext i <;> simp only [turn, rot_smul, rot_add]
  rw [hr]
  split
  · rfl
  · exact problem_momentumDiff R u S.toProblem v0 v _

/-! ## The objective -/

/-- The mass of all elements. -/
def totalMass (P : Problem) : ℝ :=
  (P.nhBodies.map fun b => b.measure * b.density).sum + (P.snhBodies.map fun b => b.measure * b.density).sum +
    (P.shellBodies.map fun b => b.measure * b.density).sum

theorem problem_energy (hR : Rotation R) (c u : V3 ℝ) (P : Problem) (x v : ℕ → V3 ℝ) (q : ℝ) :
    (problemIn R P).energy (move R c x) (move R u v) q =
      (P.energy x v q).map fun e => e - totalMass P * V3.dot (R.mulVec P.gravity) c := by
  unfold Problem.energy
  have h1 : tetEnergy .nh (problemIn R P).nh (move R c x) (move R u v) q = tetEnergy .nh P.nh x v q :=
    tetEnergy_move hR c u _ _ x v q
  have h2 : tetEnergy .snh (problemIn R P).snh (move R c x) (move R u v) q = tetEnergy .snh P.snh x v q :=
    tetEnergy_move hR c u _ _ x v q
  have h3 : (problemIn R P).shell.energy (move R c x) (move R u v) q = P.shell.energy x v q :=
    shell_energy_move hR c u _ x v q
  rw [h1, h2, h3]
  cases tetEnergy .nh P.nh x v q with
  | none => rfl
  | some a =>
    cases tetEnergy .snh P.snh x v q with
    | none => rfl
    | some b =>
      cases P.shell.energy x v q with
      | none => rfl
      | some s =>
        simp only [Option.bind_some, Option.map_some]
        congr 1
        have g1 := gravityEnergy_move hR c (tetKind_move R c) P.gravity P.nhBodies x
        have g2 := gravityEnergy_move hR c (tetKind_move R c) P.gravity P.snhBodies x
        have g3 := gravityEnergy_move hR c (triKind_move R c) P.gravity P.shellBodies x
        show a + b + (gravityEnergy tetKind (R.mulVec P.gravity) P.nhBodies (move R c x) +
          gravityEnergy tetKind (R.mulVec P.gravity) P.snhBodies (move R c x)) + s +
            gravityEnergy triKind (R.mulVec P.gravity) P.shellBodies (move R c x) = _
        rw [g1, g2, g3]
        unfold totalMass
        ring

theorem foldl_add_const {α : Type} (l : List α) (f g : α → ℝ) (h : ∀ a ∈ l, f a = g a) (e k : ℝ) :
    l.foldl (fun e a => e + f a) (e - k) = l.foldl (fun e a => e + g a) e - k := by
  induction l generalizing e with
  | nil => rfl
  | cons a l ih =>
    rw [List.foldl_cons, List.foldl_cons, h a (by simp), ← ih (fun b hb => h b (List.mem_cons_of_mem _ hb))]
    congr 1
    ring

theorem touching_energy (hR : Rotation R) (c u : V3 ℝ) (S : Touching) (h : Shiftable c S.volumes)
    (x v : ℕ → V3 ℝ) (q : ℝ) :
    (touchingIn R S).energy (move R c x) (move R u v) q =
      (S.energy x v q).map fun e => e - totalMass S.toProblem * V3.dot (R.mulVec S.gravity) c := by
  unfold Touching.energy Volume.Sealed.energy
  show (((problemIn R S.toProblem).energy (move R c x) (move R u v) q).map _).map _ = _
  rw [problem_energy hR, Option.map_map, Option.map_map, Option.map_map, Option.map_map]
  congr 1
  funext e
  simp only [Function.comp]
  show S.contacts.foldl (fun e C => e + C.energy (move R c x))
    (S.volumes.foldl (fun e P => e + P.energy (move R c x)) _) = _
  rw [foldl_add_const S.volumes _ (fun P => P.energy x)
    fun P hP => penalty_energy_move hR c P (fun hc => h hc P hP) x,
    foldl_add_const S.contacts _ (fun C => C.energy x) fun C _ => contactEnergy_move C hR c x]

theorem rubbing_energy (hR : Rotation R) (c : V3 ℝ) (S : Rubbing) (h : Shiftable c S.volumes)
    (hf : ∀ L ∈ S.frictions, Facing L.pair L.x) (x v : ℕ → V3 ℝ) (q : ℝ) :
    (rubbingIn R c S).energy (move R c x) (turn R v) q =
      (S.energy x v q).map fun e => e - totalMass S.toProblem * V3.dot (R.mulVec S.gravity) c := by
  unfold Rubbing.energy
  show ((touchingIn R S.toTouching).energy (move R c x) (turn R v) q).map
    (fun e => (S.frictions.map (laggedIn R c)).foldl
      (fun e L => e + L.pair.frictionPotential L.params L.x (turn R v) q) e) = _
  have ht := touching_energy hR c 0 S.toTouching h x v q
  rw [move_zero] at ht
  rw [ht, Option.map_map, Option.map_map]
  congr 1
  funext e
  simp only [Function.comp, List.foldl_map]
  exact foldl_add_const S.frictions _ (fun L => L.pair.frictionPotential L.params L.x v q)
    (fun L hL => frictionPotential_move L.pair hR c (hf L hL) L.params v q) _ _

/-- C104: the objective that the solver reports differs between frames by a constant only: the weight of the
scene times the height of the shift. -/
theorem frame_objective_partial (hR : Rotation R) (c : V3 ℝ) (S : Rubbing) (h : Shiftable c S.volumes)
    (hf : ∀ L ∈ S.frictions, Facing L.pair L.x) (fm pm : ℝ) (prev v0 x v : ℕ → V3 ℝ) :
    (rubbingIn R c S).objective fm pm (turn R prev) (turn R v0) (move R c x) (turn R v) =
      (S.objective fm pm prev v0 x v).map fun e =>
        e - totalMass S.toProblem * V3.dot (R.mulVec S.gravity) c := by
  classical
  have he := rubbing_energy hR c S h hf x v (S.dt * fm)
  unfold Rubbing.objective
  have hdt : (rubbingIn R c S).dt = S.dt := rfl
  have hst : (rubbingIn R c S).isStatic ↔ S.isStatic := Iff.rfl
  have hn : (rubbingIn R c S).numVertices = S.numVertices := rfl
  have hi : (rubbingIn R c S).inertia (turn R v0) (turn R v) = S.inertia v0 v := by
    rw [← move_zero, ← move_zero]
    unfold Problem.inertia
    show inertiaEnergy tetKind S.nhBodies (move R 0 v0) (move R 0 v) +
      inertiaEnergy tetKind S.snhBodies (move R 0 v0) (move R 0 v) +
        inertiaEnergy triKind S.shellBodies (move R 0 v0) (move R 0 v) = _
    rw [inertiaEnergy_turn hR, inertiaEnergy_turn hR, inertiaEnergy_turn hR]
  have hs : ∑ i ∈ Finset.range S.numVertices, V3.dot (turn R prev i) (turn R v i) =
      ∑ i ∈ Finset.range S.numVertices, V3.dot (prev i) (v i) :=
    Finset.sum_congr rfl fun i _ => rot_dot hR _ _
  simp only [hdt, hst, hn, hi, hs]
  rw [he, Option.map_map, Option.map_map]
  congr 1
  funext e
  simp only [Function.comp]
  split <;> ring

/-! ## Whole simulations -/

/-- A simulation with the implicit time integrators of one stage. In each step the residual vanishes at all
vertices that are free to move, and positions follow from the velocities. The problems may change: contacts
are updated, and lagged friction remembers positions of earlier steps. -/
structure Run (S : ℕ → Gripping) (fm pm : ℝ) (x v f : ℕ → ℕ → V3 ℝ) : Prop where
  balance : ∀ n, ∃ r, (S n).residual fm pm (f n) (v n) (x (n + 1)) (v (n + 1)) = some (r, f (n + 1)) ∧
    ∀ i, i < (S n).numActive → r i = 0
  place : ∀ n i, x (n + 1) i = x n i + ((S n).dt * fm) • v (n + 1) i + ((S n).dt * pm) • v n i

/-- C104: the whole simulation, seen from another frame, is a simulation of the scene in that frame. -/
theorem frame_run_partial (hR : Rotation R) (c : V3 ℝ) (S : ℕ → Gripping)
    (h : ∀ n, Shiftable c (S n).volumes) (fm pm : ℝ) (x v f : ℕ → ℕ → V3 ℝ) (H : Run S fm pm x v f)
    (hf : ∀ n, ∀ G ∈ (S n).grips, GripFacing (x (n + 1)) G) :
    Run (fun n => grippingIn R c (S n)) fm pm (fun n => move R c (x n)) (fun n => turn R (v n))
      fun n => turn R (f n) := by
  constructor
  · intro n
    obtain ⟨r, hr, h0⟩ := H.balance n
    refine ⟨turn R r, ?_, fun i hi => ?_⟩
    · rw [frame_residual_partial hR c (S n) (h n) fm pm _ _ _ _ (hf n), hr]
      rfl
    · show R.mulVec (r i) = 0
      rw [h0 i hi, rot_zero]
  · intro n i
    show R.mulVec (x (n + 1) i) + c = R.mulVec (x n i) + c + ((S n).dt * fm) • R.mulVec (v (n + 1) i) +
      ((S n).dt * pm) • R.mulVec (v n i)
    rw [H.place n i, rot_add, rot_add, rot_smul, rot_smul]
    abel

/-! ## When the solver stops -/

theorem norm2_turn (hR : Rotation R) (l : List (V3 ℝ)) :
    Converged.norm2 (l.map R.mulVec) = Converged.norm2 l := by
  unfold Converged.norm2
  rw [List.map_map]
  congr 2
  exact List.map_congr_left fun a _ => rot_dot hR a a

/-- C104: the tests of velocities and accelerations, which tell when a step is finished, do not depend on the
axes. All vertices have a mass. -/
theorem frame_converged_partial (hR : Rotation R) (dt : ℝ) (ti : TimeInt.SingleStep)
    (massInv : List (Option ℝ)) (hm : ∀ m ∈ massInv, m ≠ none) (size : List ℝ)
    (xPrev x r rUnscaled : List (V3 ℝ)) (xTol rTol aTol : ℝ) (h : rTol ≤ 0) :
    Converged.converged dt ti massInv size (xPrev.map R.mulVec) (x.map R.mulVec) (r.map R.mulVec)
        (rUnscaled.map R.mulVec) xTol rTol aTol ↔
      Converged.converged dt ti massInv size xPrev x r rUnscaled xTol rTol aTol := by
  unfold Converged.converged
  have h1 : ¬ (rTol > 0) := not_lt.2 h
  have h2 : List.zipWith (fun a b => a - b) (xPrev.map R.mulVec) (x.map R.mulVec) =
      (List.zipWith (fun a b => a - b) xPrev x).map R.mulVec := by
    rw [List.map_zipWith, List.zipWith_map]
    congr 1
    funext a b
    exact (rot_sub R a b).symm
  rw [h2, norm2_turn hR, norm2_turn hR]
  have h3 : ∀ hInv, Converged.accelCriterion aTol hInv (rUnscaled.map R.mulVec) massInv size
      (xPrev.map R.mulVec) (x.map R.mulVec) ↔
      Converged.accelCriterion aTol hInv rUnscaled massInv size xPrev x := by
    intro hInv
    unfold Converged.accelCriterion
    have e : ((((rUnscaled.map R.mulVec).zip massInv).zip size).zip
        ((xPrev.map R.mulVec).zip (x.map R.mulVec))) =
        (((rUnscaled.zip massInv).zip size).zip (xPrev.zip x)).map fun a =>
          (((R.mulVec a.1.1.1, a.1.1.2), a.1.2), (R.mulVec a.2.1, R.mulVec a.2.2)) := by
      rw [List.zip_map, List.zip_map_left, List.zip_map_left, List.zip_map]
      rfl
    rw [e, List.forall_mem_map]
    refine forall₂_congr fun a ha => ?_
    obtain ⟨⟨⟨r, m⟩, s⟩, p, q⟩ := a
    have hmem : m ∈ massInv := (List.of_mem_zip (List.of_mem_zip (List.of_mem_zip ha).1).1).2
    cases m with
    | none => exact absurd rfl (hm _ hmem)
    | some w =>
      cases hInv with
      | none => rfl
      | some k =>
        unfold Converged.accelOk
        simp only [← rot_smul, rot_norm hR]
  rw [h3]
  simp only [h1, false_and]

/-! ## Where it fails -/

/-- A quarter turn about the vertical axis. -/
def quarter : M3 ℝ := ⟨⟨0, -1, 0⟩, ⟨1, 0, 0⟩, ⟨0, 0, 1⟩⟩

theorem quarter_rotation : Rotation quarter := by
  constructor
  · ext <;> simp [quarter, M3.transpose, M3.diag, M3.mul, M3.mulVec, V3.dot]
  · simp [quarter, M3.det, V3.dot, V3.cross]

/-- A turn that takes the first axis to the direction `(3/5, 4/5)`. -/
def tilt : M3 ℝ := ⟨⟨3 / 5, 4 / 5, 0⟩, ⟨-(4 / 5), 3 / 5, 0⟩, ⟨0, 0, 1⟩⟩

theorem tilt_rotation : Rotation tilt := by
  constructor
  · ext <;> simp [tilt, M3.transpose, M3.diag, M3.mul, M3.mulVec, V3.dot] <;> norm_num
  · simp [tilt, M3.det, V3.dot, V3.cross]; norm_num

theorem one_rotation : Rotation (M3.diag 1) := by
  constructor
  · ext <;> simp [M3.transpose, M3.diag, M3.mul, M3.mulVec, V3.dot]
  · simp [M3.diag, M3.det, V3.dot, V3.cross]

/-- Nothing but volume zones, contacts and friction. -/
def bare (volumes : List Volume.Penalty) (grips : List Grip) (N : ℕ) : Gripping where
  nh := []
  nhDensity := []
  snh := []
  snhDensity := []
  shell := ⟨[], [], fun _ _ => 0⟩
  shellDensity := []
  gravity := 0
  timeStep := 1
  volumes := volumes
  contacts := []
  numVertices := N
  numActive := N
  grips := grips

theorem bare_force (V : List Volume.Penalty) (Gs : List Grip) (N : ℕ) (x v : ℕ → V3 ℝ) (q : ℝ) :
    (bare V Gs N).force x v q = some (Gs.foldl (fun r G => G.subtract x v r)
      fun i => (V.map fun P => P.forces x i).sum) := by
  have h0 : (bare V Gs N).toProblem.force x v q = some fun _ => 0 := by
    simp [Problem.force, tetGradient, bare, Problem.nhBodies, Problem.snhBodies, Problem.shellBodies,
      tetBodies, triBodies, gravityGradient, Shell.gradient, collect, addAll]
  have h1 := Volume.Sealed.force_eq (bare V Gs N).toSealed x v q _ h0
  unfold Gripping.force Touching.force
  rw [h1]
  simp only [Option.map_some, zero_add]
  rfl

theorem bare_residual (V : List Volume.Penalty) (Gs : List Grip) (N : ℕ) (prev v0 x v : ℕ → V3 ℝ) :
    ((bare V Gs N).residual 1 0 prev v0 x v).map (fun p => p.2) =
      some (Gs.foldl (fun r G => G.subtract x v r) fun i => (V.map fun P => P.forces x i).sum) := by
  unfold Gripping.residual
  simp only [bare_force, Option.map_some]

theorem bareIn_residual (R : M3 ℝ) (c : V3 ℝ) (V : List Volume.Penalty) (Gs : List Grip) (N : ℕ)
    (prev v0 x v : ℕ → V3 ℝ) :
    ((grippingIn R c (bare V Gs N)).residual 1 0 prev v0 x v).map (fun p => p.2) =
      some ((Gs.map (gripIn R c)).foldl (fun r G => G.subtract x v r)
        fun i => (V.map fun P => P.forces x i).sum) := by
  have : grippingIn R c (bare V Gs N) = bare V (Gs.map (gripIn R c)) N := by
    simp only [grippingIn, touchingIn, sealedIn, problemIn, bare, rot_zero]
  rw [this, bare_residual]

/-- A volume zone with a single triangle. -/
def lid : Volume.Penalty where
  topo := [![0, 1, 2]]
  restVolume := 1
  pressurization := 1
  compression := 1
  approx := false

def lidX (v : ℕ) : V3 ℝ := if v = 1 then ⟨1, 0, 0⟩ else if v = 2 then ⟨0, 1, 0⟩ else 0

theorem lid_forces (x : ℕ → V3 ℝ) : lid.forces x 0 = lid.factor x • V3.cross (x 1) (x 2) := by
  rw [Volume.forces_eq, vertexNormal_eq]
  simp [lid, Fin.sum_univ_three, Volume.Penalty.normals]

/-- C104 fails for volume zones that are not closed: the pressure in an open zone depends on where the origin
is. -/
theorem open_zone_violated : ∃ (S : Gripping) (x : ℕ → V3 ℝ) (c : V3 ℝ),
    S.grips = [] ∧ S.contacts = [] ∧
    (grippingIn (M3.diag 1) c S).residual 1 0 (fun _ => 0) (fun _ => 0) (move (M3.diag 1) c x) (fun _ => 0) ≠
      (S.residual 1 0 (fun _ => 0) (fun _ => 0) x fun _ => 0).map
        fun p => (turn (M3.diag 1) p.1, turn (M3.diag 1) p.2) := by
  refine ⟨bare [lid] [] 3, lidX, ⟨0, 0, 1⟩, rfl, rfl, fun h => ?_⟩
  have h1 := congrArg (fun o => o.map fun p : (ℕ → V3 ℝ) × (ℕ → V3 ℝ) => p.2) h
  simp only [Option.map_map] at h1
  rw [bareIn_residual] at h1
  have h2 : ((bare [lid] [] 3).residual 1 0 (fun _ => 0) (fun _ => 0) lidX fun _ => 0).map
      ((fun p : (ℕ → V3 ℝ) × (ℕ → V3 ℝ) => p.2) ∘
        fun p => (turn (M3.diag 1) p.1, turn (M3.diag 1) p.2)) =
      (((bare [lid] [] 3).residual 1 0 (fun _ => 0) (fun _ => 0) lidX fun _ => 0).map fun p => p.2).map
        (turn (M3.diag 1)) := by
    rw [Option.map_map]
    rfl
  rw [h2, bare_residual] at h1
  simp only [Option.map_some, Option.some.injEq, List.map_nil, List.foldl_nil, List.map_cons, List.sum_cons,
    List.sum_nil, add_zero] at h1
  have h3 := congrArg V3.x (congrFun h1 0)
  have hv : Volume.signedVolume lid.topo (move (M3.diag 1) ⟨0, 0, 1⟩ lidX) = 1 / 6 := by
    have e2 : (![0, 1, 2] : Fin 3 → ℕ) 2 = 2 := rfl
    simp [Volume.signedVolume, lid, move, lidX, V3.cross, M3.mulVec, M3.diag, V3.dot, e2]
  simp only [turn, lid_forces] at h3
  unfold Volume.Penalty.factor Volume.Penalty.dv at h3
  rw [hv] at h3
  norm_num [move, lidX, V3.cross, M3.mulVec, M3.diag, V3.dot, lid, Volume.pressureAtm] at h3

/-! ### A slot -/

/-- Two triangles that face each other, and a vertex in the middle between them. -/
def slot : Pair where
  tris := fun s => if s = 0 then ⟨0, 2, 1⟩ else ⟨3, 4, 5⟩
  value := fun _ => 0
  kernel := .cubic 2
  nbrs := [[0, 1]]
  closest := fun _ => 0
  surf := fun j => if j < 6 then j else 0
  coll := fun _ => 6
  objectFixed := false
  colliderFixed := false
  offset := 0
  delta := 2
  kappa := 1

def slotX (v : ℕ) : V3 ℝ :=
  if v = 0 then ⟨1, 2, 0⟩ else if v = 1 then ⟨1, -1, 3 / 2⟩ else if v = 2 then ⟨1, -1, -3 / 2⟩
  else if v = 3 then ⟨-1, 2, 0⟩ else if v = 4 then ⟨-1, -1, 3 / 2⟩ else if v = 5 then ⟨-1, -1, -3 / 2⟩
  else 0

theorem slot_active : slot.active = [([0, 1], 0)] := rfl

theorem slot_distinct : slot.Distinct 6 7 := by
  constructor
  · intro p hp s hs j
    rw [slot_active, List.mem_singleton] at hp
    subst hp
    show Field.Tri.get (if s = 0 then ⟨0, 2, 1⟩ else ⟨3, 4, 5⟩) j < 6
    split <;> fin_cases j <;> decide
  · intro i hi j hj e
    simpa [slot, hi, hj] using e
  · simp [slot_active]
  · intro i j
    show 6 ≠ if j < 6 then j else 0
    split <;> omega
  · intro j hj
    show (if j < 6 then j else 0) < 7
    split <;> omega
  · intro p _
    show 6 < 7
    omega

theorem slot_pos (i : ℕ) : (slot.samples slotX).pos i = if i = 0 then ⟨1, 0, 0⟩ else ⟨-1, 0, 0⟩ := by
  by_cases h : i = 0 <;> ext <;>
    simp [h, Pair.samples, Field.faceSamples, slot, slotX] <;> norm_num

theorem slot_nml (i : ℕ) : (slot.samples slotX).nml i = if i = 0 then ⟨-9, 0, 0⟩ else ⟨9, 0, 0⟩ := by
  by_cases h : i = 0 <;> ext <;>
    simp [h, Pair.samples, Field.faceSamples, slot, slotX, Field.areaNormal, V3.cross] <;> norm_num

theorem slot_unit (i : ℕ) : (1 / ((slot.samples slotX).nml i).norm) • (slot.samples slotX).nml i =
    if i = 0 then ⟨-1, 0, 0⟩ else ⟨1, 0, 0⟩ := by
  rw [slot_nml]
  by_cases h : i = 0
  · simp only [h, if_true]
    rw [roof_norm _ _ 9 (by norm_num) (by norm_num)]
    ext <;> norm_num
  · simp only [h, if_false]
    rw [roof_norm _ _ 9 (by norm_num) (by norm_num)]
    ext <;> norm_num

theorem slot_disp (i : ℕ) : (0 : V3 ℝ) - (slot.samples slotX).pos i =
    if i = 0 then ⟨-1, 0, 0⟩ else ⟨1, 0, 0⟩ := by
  rw [slot_pos]
  split <;> ext <;> norm_num

theorem slot_dist (i : ℕ) : ((0 : V3 ℝ) - (slot.samples slotX).pos i).norm = 1 := by
  rw [slot_disp]
  split <;> exact roof_norm _ _ 1 (by norm_num) (by norm_num)

theorem slot_weight (i : ℕ) : Field.weight slot.kernel 1 0 (slot.samples slotX) i = 1 / 2 := by
  show Kernel.cubicF 2 ((0 : V3 ℝ) - (slot.samples slotX).pos i).norm = 1 / 2
  rw [slot_dist, Kernel.cubicF_eq, if_neg (by norm_num)]
  norm_num

theorem slot_closest : Field.closestSample 0 (slot.samples slotX) [0, 1] = some 0 := by
  have h : ∀ i, V3.dot (0 - (slot.samples slotX).pos i) (0 - (slot.samples slotX).pos i) = 1 := fun i => by
    rw [← V3.norm_mul_norm, slot_dist, one_mul]
  simp only [Field.closestSample, Field.closestFrom, h, lt_irrefl, if_false]

theorem slot_height (i : ℕ) : V3.dot ((1 / ((slot.samples slotX).nml i).norm) • (slot.samples slotX).nml i)
    (0 - (slot.samples slotX).pos i) = 1 := by
  rw [slot_unit, slot_disp]
  split <;> simp [V3.dot]

/-- In the middle of the slot the distance has no direction. -/
theorem slot_gradient (cl : Option ℕ) :
    Field.queryJacobianAt 0 [0, 1] (slot.samples slotX) cl slot.kernel params = some 0 := by
  unfold Field.queryJacobianAt
  rw [Field.new_eq none cl slot_closest]
  simp only [Option.map_some, Option.some.injEq]
  set b := Field.bgAt slot.kernel params 0 [0, 1] (slot.samples slotX) 0 none with hb
  have hd : b.dist = 1 := slot_dist 0
  have hbw : Field.backgroundWeight slot.kernel false 1 = 0 := by
    show (if (2 : ℝ) < 1 then (1 : ℝ) else if false then _ else 0) = 0
    norm_num
  have hw0 : b.bgWeight = 0 := by
    show Field.backgroundWeight slot.kernel false b.dist = 0
    rw [hd, hbw]
  have hq : b.queryJacobian = 0 := by
    unfold Field.Bg.queryJacobian
    simp only [hw0, show b.weighted = false from rfl, zero_mul]
    ext <;> simp
  obtain ⟨k, hk⟩ : ∃ k : ℝ, ∀ i, Field.weightGrad slot.kernel b.dist 0 (slot.samples slotX) i =
      k • if i = 0 then ⟨-1, 0, 0⟩ else ⟨1, 0, 0⟩ := by
    refine ⟨if (1 : ℝ) > 0 then slot.kernel.df 1 / 1 else 0, fun i => ?_⟩
    rw [hd]
    show slot.kernel.grad 0 ((slot.samples slotX).pos i) = _
    unfold Kernel.Kern.grad
    show (if ((0 : V3 ℝ) - (slot.samples slotX).pos i).norm > 0 then
      (slot.kernel.df ((0 : V3 ℝ) - (slot.samples slotX).pos i).norm /
        ((0 : V3 ℝ) - (slot.samples slotX).pos i).norm) • ((0 : V3 ℝ) - (slot.samples slotX).pos i)
      else 0) = _
    rw [slot_dist, slot_disp]
    by_cases h : i = 0 <;> simp [h]
  have hN : Field.neighborWeightGrad b = 0 := by
    unfold Field.neighborWeightGrad
    have hf : b.flat := Or.inr rfl
    rw [Field.Bg.bgWeightGrad, if_pos hf]
    show b.weightSumInv • (([0, 1].map (Field.weightGrad slot.kernel b.dist 0 (slot.samples slotX))).sum +
      0) = 0
    simp only [List.map_cons, List.map_nil, List.sum_cons, List.sum_nil, hk]
    ext <;> simp
  have hs : ∀ i, Field.sampleQueryJacobian b (Field.neighborWeightGrad b) i =
      (b.weightSumInv * (k + 1 / 2)) • if i = 0 then ⟨-1, 0, 0⟩ else ⟨1, 0, 0⟩ := by
    intro i
    show b.weightSumInv • (((0 : ℝ) + V3.dot ((1 / ((slot.samples slotX).nml i).norm) •
      (slot.samples slotX).nml i) (0 - (slot.samples slotX).pos i)) •
        (Field.weightGrad slot.kernel b.dist 0 (slot.samples slotX) i -
        Field.weight slot.kernel b.dist 0 (slot.samples slotX) i • Field.neighborWeightGrad b) +
        Field.weight slot.kernel b.dist 0 (slot.samples slotX) i •
          ((1 / ((slot.samples slotX).nml i).norm) • (slot.samples slotX).nml i)) = _
    rw [slot_height, slot_unit, hk, hN, hd, slot_weight]
    by_cases h : i = 0 <;> simp only [h, if_true, if_false] <;> ext <;> simp <;> ring
  rw [hq]
  simp only [List.map_cons, List.map_nil, List.sum_cons, List.sum_nil, hs]
  ext <;> simp

theorem slot_queryBlocks : slot.queryBlocks slotX = [0] := by
  unfold Pair.queryBlocks
  rw [slot_active]
  simp only [List.map_cons, List.map_nil]
  rw [show slot.query slotX 0 = 0 from rfl, slot_gradient, Option.getD_some]

theorem slot_normals : slot.contactNormals slotX = [0] := by
  unfold Pair.contactNormals
  rw [slot_queryBlocks]
  simp

theorem slot_distance : slot.distance slotX ([0, 1], 0) = 1 := by
  unfold Pair.distance Field.potentialAt
  have ho : slot.offset = 0 := rfl
  simp only [show slot.query slotX 0 = 0 from rfl]
  rw [Field.local_eq (some 0) slot_closest, ho, sub_zero]
  set b := Field.bgAt slot.kernel params 0 [0, 1] (slot.samples slotX) 0 (some 0) with hb
  have hd : b.dist = 1 := slot_dist 0
  have hw0 : b.bgWeight = 0 := by
    show Field.backgroundWeight slot.kernel false b.dist = 0
    rw [hd]
    show (if (2 : ℝ) < 1 then (1 : ℝ) else if false then _ else 0) = 0
    norm_num
  have hW : b.weightSum = 1 := by
    show ([0, 1].map (Field.weight slot.kernel b.dist 0 (slot.samples slotX))).sum + b.bgWeight = 1
    rw [hw0, hd]
    simp [slot_weight]
    norm_num
  have hs : ∀ i, Field.samplePotential 0 (slot.samples slotX) i = 1 := by
    intro i
    have := slot_height i
    rw [Fem.dot_smul_left, one_div, inv_mul_eq_div] at this
    show (0 : ℝ) + _ = 1
    rw [this, zero_add]
  have hk : b.kernel = slot.kernel := rfl
  simp only [Field.Bg.weightedField, hw0, Field.localPotentialAt, hs, hd, Field.weightSumInv_eq, hW]
  simp [slot_weight]
  norm_num

theorem slot_lambda : slot.lambda slotX = [3 / 2] := by
  simp only [Pair.lambda, ContactPenalty.multipliers, Pair.distances_eq, slot_active, List.map_cons,
    List.map_nil, slot_distance]
  show [-(1 : ℝ) * ContactPenalty.db 2 1] = _
  rw [ContactPenalty.db_of_lt (by norm_num)]
  norm_num

/-- A contact without direction resists sliding along the second axis only. -/
theorem lost_friction (l a b : ℝ) : (ContactBasis.updateFromNormals [0]).contactFriction fullFriction l
    ⟨0, a, b⟩ 0 = some (-(slide fullFriction l |a| • ⟨0, a, 0⟩)) := by
  have ht : ContactBasis.tangentFor 0 = ⟨0, 1, 0⟩ := by
    unfold ContactBasis.tangentFor
    have e : (V3.iamax 0 + 1) % 3 = 1 := by
      norm_num [V3.iamax]
    simp only [e]
    ext <;> simp [V3.normalize, V3.norm, V3.dot, V3.axis, V3.getN]
  have hm : (ContactBasis.updateFromNormals [0]).contactBasisMatrix 0 =
      some (ContactBasis.frame 0 ⟨0, 1, 0⟩) := by
    rw [ContactBasis.matrix_of_lt (by simp)]
    simp [ht]
  have hc : (ContactBasis.frame 0 ⟨0, 1, 0⟩).mulVec ⟨0, a, b⟩ = ⟨0, a, 0⟩ := by
    ext <;> simp [ContactBasis.frame, M3.mulVec, V3.dot, V3.cross]
  have hn : (⟨a, 0⟩ : V2 ℝ).norm = |a| := by
    unfold V2.norm V2.dot
    simp only [mul_zero, add_zero]
    exact Real.sqrt_mul_self_eq_abs a
  simp only [ContactBasis.contactFriction, ContactBasis.toContactCoordinates,
    ContactBasis.fromContactCoordinates, hm, hc, Option.map_some, Option.bind_some, profile_slide, hn]
  congr 1
  ext <;> simp [ContactBasis.frame, M3.transpose, M3.mulVec, V3.dot, V3.cross]

/-- The vertex in the slot moves along its walls, which are at rest. -/
def slotV (v : ℕ) : V3 ℝ := if v = 6 then ⟨0, 0, 1⟩ else 0

/-- A quarter turn about the first axis. -/
def roll : M3 ℝ := ⟨⟨1, 0, 0⟩, ⟨0, 0, -1⟩, ⟨0, 1, 0⟩⟩

theorem roll_rotation : Rotation roll := by
  constructor
  · ext <;> simp [roll, M3.transpose, M3.diag, M3.mul, M3.mulVec, V3.dot]
  · simp [roll, M3.det, V3.dot, V3.cross]

theorem slot_velocities : slot.relativeVelocities slotX slotV = [⟨0, 0, -1⟩] := by
  have h : ∀ j, slotV (slot.surf j) = 0 := by
    intro j
    show (if (if j < 6 then j else 0) = 6 then _ else (0 : V3 ℝ)) = 0
    rw [if_neg (by split <;> omega)]
  unfold Pair.relativeVelocities
  rw [slot_active]
  simp only [List.zipIdx_singleton, List.map_cons, List.map_nil, h, rot_zero]
  rw [List.map_const', List.sum_replicate, smul_zero]
  show [(0 : V3 ℝ) - slotV 6] = _
  congr 1
  ext <;> simp [slotV]

theorem slot_friction : slot.constraintFriction fullFriction slotX slotV = [0] := by
  unfold Pair.constraintFriction Pair.contactBasis
  rw [slot_velocities, slot_normals, slot_lambda]
  simp only [List.zipIdx_singleton, List.map_cons, List.map_nil, List.getD_cons_zero, lost_friction,
    Option.getD_some]
  congr 1
  ext <;> simp

theorem slot_friction_rolled : slot.constraintFriction fullFriction (move roll 0 slotX) (turn roll slotV) =
    [⟨0, -3 / 2, 0⟩] := by
  unfold Pair.constraintFriction Pair.contactBasis
  rw [relativeVelocities_move slot roll_rotation, contactNormals_move slot roll_rotation,
    lambda_move slot roll_rotation, slot_velocities, slot_normals, slot_lambda]
  have h1 : [(⟨0, 0, -1⟩ : V3 ℝ)].map roll.mulVec = [⟨0, 1, 0⟩] := by
    simp [roll, M3.mulVec, V3.dot]
  have h2 : [(0 : V3 ℝ)].map roll.mulVec = [0] := by
    simp [rot_zero]
  rw [h1, h2]
  simp only [List.zipIdx_singleton, List.map_cons, List.map_nil, List.getD_cons_zero, lost_friction,
    Option.getD_some]
  have h3 : slide fullFriction (3 / 2) |1| = 3 / 2 := by
    norm_num [slide, fullFriction, Friction.falloff, Friction.Profile.s, Friction.quadraticProfile]
  rw [h3]
  congr 1
  ext <;> norm_num

/-- C104 fails where a contact has no direction: a vertex slides in the middle of a slot without any friction,
but in a frame with other axes there is friction. -/
theorem slot_violated : ∃ (S : Gripping) (x v : ℕ → V3 ℝ) (R : M3 ℝ), Rotation R ∧ S.volumes = [] ∧
    (grippingIn R 0 S).residual 1 0 (fun _ => 0) (fun _ => 0) (move R 0 x) (turn R v) ≠
      (S.residual 1 0 (fun _ => 0) (fun _ => 0) x v).map fun p => (turn R p.1, turn R p.2) := by
  refine ⟨bare [] [.current ⟨slot, 6, fullFriction, false⟩] 7, slotX, slotV, roll, roll_rotation, rfl,
    fun h => ?_⟩
  have h1 := congrArg (fun o => o.map fun p : (ℕ → V3 ℝ) × (ℕ → V3 ℝ) => p.2) h
  simp only [Option.map_map] at h1
  rw [bareIn_residual] at h1
  have h2 : ((bare [] [.current ⟨slot, 6, fullFriction, false⟩] 7).residual 1 0 (fun _ => 0) (fun _ => 0)
      slotX slotV).map ((fun p : (ℕ → V3 ℝ) × (ℕ → V3 ℝ) => p.2) ∘
        fun p => (turn roll p.1, turn roll p.2)) =
      (((bare [] [.current ⟨slot, 6, fullFriction, false⟩] 7).residual 1 0 (fun _ => 0) (fun _ => 0) slotX
        slotV).map fun p => p.2).map (turn roll) := by
    rw [Option.map_map]
    rfl
  rw [h2, bare_residual] at h1
  simp only [Option.map_some, Option.some.injEq, List.map_nil, List.foldl_nil, List.map_cons, List.sum_nil,
    List.foldl_cons, gripIn, Grip.subtract] at h1
  have hp : ¬ fullFriction.isNone := by norm_num [Friction.Params.isNone, fullFriction]
  have h3 := congrArg V3.y (congrFun h1 6)
  unfold Pair.subtractFriction Pair.frictionForce at h3
  rw [if_neg hp, if_neg hp] at h3
  simp only [turn] at h3
  have c1 := slot.transposeMul_collider slot_distinct slotX (slot.constraintFriction fullFriction slotX slotV)
    (([0, 1], 0), 0) (by simp [slot_active])
  have c2 := slot.transposeMul_collider slot_distinct (move roll 0 slotX)
    (slot.constraintFriction fullFriction (move roll 0 slotX) (turn roll slotV))
    (([0, 1], 0), 0) (by simp [slot_active])
  have hc : slot.coll 0 = 6 := rfl
  simp only [hc] at c1 c2
  rw [c1, slot_friction] at h3
  rw [c2, slot_friction_rolled] at h3
  norm_num [M3.mulVec, V3.dot] at h3

/-- C104 fails for the test of the residual, which looks at single coordinates: the same step is finished in
one frame and not finished in another. -/
theorem converged_violated : ∃ (R : M3 ℝ) (r : List (V3 ℝ)) (rTol : ℝ), Rotation R ∧
    Converged.converged 1 .BE [some 1] [1] [0] [0] r r 0 rTol 0 ∧
    ¬ Converged.converged 1 .BE [some 1] [1] ([0].map R.mulVec) ([0].map R.mulVec) (r.map R.mulVec)
      (r.map R.mulVec) 0 rTol 0 := by
  refine ⟨tilt, [⟨1, 1, 0⟩], 6 / 5, tilt_rotation, ?_, ?_⟩
  · left
    norm_num [Converged.infNorm]
  · unfold Converged.converged
    norm_num [Converged.infNorm, tilt, M3.mulVec, V3.dot]

/-- C104 fails for the test of velocities in a frame that moves: the faster the frame, the sooner the step is
finished. -/
theorem converged_boost_violated : ∃ (u : V3 ℝ) (xPrev x : V3 ℝ) (xTol : ℝ),
    ¬ Converged.converged 1 .BE [some 1] [1] [xPrev] [x] [0] [0] xTol 0 0 ∧
    Converged.converged 1 .BE [some 1] [1] [xPrev + u] [x + u] [0] [0] xTol 0 0 := by
  have h : ∀ a : ℝ, 0 ≤ a → √(a * a) = a := fun a ha => Real.sqrt_mul_self ha
  have h1 : √(1 : ℝ) = 1 := Real.sqrt_one
  refine ⟨⟨10, 0, 0⟩, ⟨1, 0, 0⟩, 0, 1 / 2, ?_, ?_⟩
  · unfold Converged.converged
    norm_num [Converged.norm2, V3.dot]
  · right; left
    have h10 : √(100 : ℝ) = 10 := by
      rw [show (100 : ℝ) = 10 * 10 by norm_num, h 10 (by norm_num)]
    norm_num [Converged.norm2, V3.dot, h10]

/-- C104 fails for friction in a frame that moves: two bodies at rest do not rub against each other, but if
both move with the same velocity they do. -/
theorem friction_boost_violated : ∃ (S : Gripping) (x : ℕ → V3 ℝ) (u : V3 ℝ), S.volumes = [] ∧
    (grippingIn (M3.diag 1) 0 S).residual 1 0 (fun _ => 0) (fun _ => u) x (fun _ => u) ≠
      (S.residual 1 0 (fun _ => 0) (fun _ => 0) x fun _ => 0) := by
  obtain ⟨C, ns, N, p, x, f, u, hd, -, -, -, hp, -, -, -, hf, hc, -⟩ := comoving_violated
  refine ⟨bare [] [.current ⟨C, ns, p, false⟩] N, x, u, rfl, fun h => ?_⟩
  have h1 := congrArg (fun o => o.map fun p : (ℕ → V3 ℝ) × (ℕ → V3 ℝ) => p.2) h
  simp only at h1
  rw [bareIn_residual, bare_residual] at h1
  simp only [Option.some.injEq, List.map_nil, List.foldl_nil, List.map_cons, List.sum_nil,
    List.foldl_cons, gripIn, Grip.subtract] at h1
  have hn : ¬ p.isNone := by
    intro hn
    simp only [Pair.frictionForce, if_pos hn] at hf
    cases hf
  obtain ⟨g, hg⟩ : ∃ g, C.frictionForce ns p x (fun _ => 0) = some g := by
    simp only [Pair.frictionForce, if_neg hn]
    exact ⟨_, rfl⟩
  have hg0 := C.pair_friction_rest ns p x g hg
  unfold Pair.subtractFriction at h1
  rw [hf, hg, hg0] at h1
  have h2 := congrArg V3.x (congrFun h1 (C.coll 0))
  simp only [hc] at h2
  norm_num at h2

/-! ## Examples -/

theorem demo_facing : Facing demo demoX := by
  intro g hg
  have h : demo.queryBlocks demoX = [demo.gradAt demoX 0] := rfl
  rw [h, List.mem_singleton, demo_grad] at hg
  subst hg
  intro h0
  have := congrArg V3.z h0
  norm_num at this

/-- The soft tetrahedron with two kinds of friction, in a frame that is turned and shifted. -/
example (fm pm : ℝ) (prev v0 v : ℕ → V3 ℝ) :
    (grippingIn tilt ⟨1, 2, 3⟩ (exGrip (coulomb (3 / 10)) false)).residual fm pm (turn tilt prev)
        (turn tilt v0) (move tilt ⟨1, 2, 3⟩ demoX) (turn tilt v) =
      ((exGrip (coulomb (3 / 10)) false).residual fm pm prev v0 demoX v).map
        fun p => (turn tilt p.1, turn tilt p.2) := by
  refine frame_residual_partial tilt_rotation _ _ (fun _ P hP => by simp [exGrip, exTouch, exTet] at hP) _ _ _ _
    _ _ fun G hG => ?_
  simp only [exGrip, List.mem_cons, List.not_mem_nil, or_false] at hG
  rcases hG with rfl | rfl
  · exact demo_facing
  · exact demo_facing

/-- Solids, a shell and a closed zone under pressure. -/
example : Shiftable ⟨1, 2, 3⟩ (Volume.exSealed true).volumes := fun _ => Volume.exSealed_closed true

/-- A shell and a solid on their own. -/
def fallScene : Gripping :=
  { exProblem with volumes := [], contacts := [], numVertices := 4, numActive := 4, grips := [] }

theorem fallScene_residual (fm pm : ℝ) (prev v0 x v r f : ℕ → V3 ℝ)
    (h : exProblem.residual fm pm prev v0 x v = some (r, f)) :
    fallScene.residual fm pm prev v0 x v = some (r, f) := by
  have h1 := Volume.Sealed.residual_eq fallScene.toSealed fm pm prev v0 x v r f h
  have h2 := Touching.residual_eq fallScene.toTouching fm pm prev v0 x v _ _ h1
  have h3 := Gripping.residual_eq fallScene fm pm prev v0 x v _ _ h2
  rw [h3]
  congr 2 <;> funext i <;>
    simp [Gripping.frictionForce, Touching.contactForce, Volume.Sealed.pressure, fallScene]

/-- Where the scene is after some steps of falling. -/
def fallShift : ℕ → V3 ℝ
  | 0 => 0
  | n + 1 => fallShift n + (1 / 60 * (1 / 2) : ℝ) • (⟨1, 2, 3⟩ + (((n + 1 : ℕ) : ℝ) / 60) • exProblem.gravity) +
      (1 / 60 * (1 / 2) : ℝ) • (⟨1, 2, 3⟩ + ((n : ℝ) / 60) • exProblem.gravity)

/-- A falling scene is a simulation. -/
theorem fall_run : Run (fun _ => fallScene) (1 / 2) (1 / 2) (fun n i => IEdge.exPos i + fallShift n)
    (fun n _ => ⟨1, 2, 3⟩ + ((n : ℝ) / 60) • exProblem.gravity)
    fun _ i => -(exProblem.mass i • exProblem.gravity) := by
  have hdt : fallScene.dt = 1 / 60 := by
    simp [fallScene, Problem.dt, Problem.isStatic, exProblem]
  refine ⟨fun n => ⟨fun _ => 0, ?_, fun _ _ => rfl⟩, ?_⟩
  · apply fallScene_residual
    have h := free_fall exProblem (1 / 2) (1 / 2) (by norm_num) (by norm_num)
      (by simp [Problem.isStatic, exProblem]) (⟨1, 2, 3⟩ + ((n : ℝ) / 60) • exProblem.gravity)
      (fallShift (n + 1)) IEdge.exPos (fun i => IEdge.exPos i + fallShift (n + 1)) _ 1 ex_atRest
      (fun _ => rfl) (rest_force exProblem _ _ _ (fun _ => rfl) _ ex_atRest)
    rw [← h]
    congr 1
    funext i
    have ht : exProblem.timeStep = 1 / 60 := rfl
    rw [ht]
    ext <;> push_cast <;> simp <;> ring
  · intro n i
    rw [hdt]
    have e : fallShift (n + 1) = fallShift n + (1 / 60 * (1 / 2) : ℝ) •
        (⟨1, 2, 3⟩ + (((n + 1 : ℕ) : ℝ) / 60) • exProblem.gravity) +
        (1 / 60 * (1 / 2) : ℝ) • (⟨1, 2, 3⟩ + ((n : ℝ) / 60) • exProblem.gravity) := rfl
    show IEdge.exPos i + fallShift (n + 1) = _
    rw [e]
    abel

/-- A falling scene, seen from another frame, is a simulation. -/
example : Run (fun _ => grippingIn tilt ⟨1, 2, 3⟩ fallScene) (1 / 2) (1 / 2)
    (fun n => move tilt ⟨1, 2, 3⟩ fun i => IEdge.exPos i + fallShift n)
    (fun n => turn tilt fun _ => ⟨1, 2, 3⟩ + ((n : ℝ) / 60) • exProblem.gravity)
    fun _ => turn tilt fun i => -(exProblem.mass i • exProblem.gravity) :=
  frame_run_partial tilt_rotation ⟨1, 2, 3⟩ (fun _ => fallScene)
    (fun _ _ P hP => by simp [fallScene] at hP) (1 / 2) (1 / 2) (fun n i => IEdge.exPos i + fallShift n)
    (fun n _ => ⟨1, 2, 3⟩ + ((n : ℝ) / 60) • exProblem.gravity)
    (fun _ i => -(exProblem.mass i • exProblem.gravity)) fall_run (fun _ G hG => by simp [fallScene] at hG)

end Softy.Frame
