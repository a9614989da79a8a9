import Verif.Lemmas.UnitsContact
import Verif.Props.Frame
import Verif.Props.Hooke
import Verif.Model.EdgeReference
import Verif.Model.ContactSetup

/-!
# C107: the simulation does not depend on the units of measurement

The code never mentions units of length, time and mass: a user may write a scene in metres or in centimetres, in
seconds or in milliseconds, if all quantities use the same units. `System` tells how many new units one old unit
is. The functions below translate a scene from the old to the new units.
-/

noncomputable section

namespace Softy.Units

open Softy Assembly Fem Softy.Contact

/-! ## Units -/

/-- Other units of length, time and mass: one old unit is so many new units. -/
structure System where
  length : ℝ
  time : ℝ
  mass : ℝ
  length_pos : 0 < length
  time_pos : 0 < time
  mass_pos : 0 < mass

namespace System

variable (U : System)

def velocity : ℝ := U.length / U.time
def acceleration : ℝ := U.length / U.time ^ 2
def force : ℝ := U.mass * U.length / U.time ^ 2
def impulse : ℝ := U.mass * U.length / U.time
def energy : ℝ := U.mass * U.length ^ 2 / U.time ^ 2
/-- Force by area. -/
def pressure : ℝ := U.mass / (U.length * U.time ^ 2)
/-- Force by length. -/
def tension : ℝ := U.mass / U.time ^ 2
def density : ℝ := U.mass / U.length ^ 3
/-- Mass by area. -/
def areaDensity : ℝ := U.mass / U.length ^ 2
/-- Force by speed. -/
def viscosity : ℝ := U.mass / U.time

end System

variable (U : System)

/-! ## The scene in other units -/

/-- The same bodies: solids have Lamé parameters in units of pressure and damping without unit, shells have Lamé
parameters in units of tension, bending stiffness in units of energy and densities by area. -/
def problemIn (P : Problem) : Problem where
  nh := P.nh.map (tetElem U.length U.pressure)
  nhDensity := P.nhDensity.map (U.density * ·)
  snh := P.snh.map (tetElem U.length U.pressure)
  snhDensity := P.snhDensity.map (U.density * ·)
  shell := shell U.length U.tension U.force P.shell
  shellDensity := P.shellDensity.map (U.areaDensity * ·)
  gravity := U.acceleration • P.gravity
  timeStep := U.time * P.timeStep

/-- The same volume zones: the compression is an inverse pressure. -/
def sealedIn (S : Volume.Sealed) : Volume.Sealed :=
  { problemIn U S.toProblem with volumes := S.volumes.map (penalty U.length U.pressure⁻¹) }

/-- The same contacts: the stiffness is a tension. -/
def touchingIn (S : Touching) : Touching :=
  { sealedIn U S.toSealed with
    contacts := S.contacts.map (pair U.length U.tension)
    numVertices := S.numVertices
    numActive := S.numActive }

/-- The same parameters of friction: the speeds are converted, and viscous friction is a force by speed. -/
def frictionIn (p : Friction.Params) : Friction.Params := friction U.velocity U.viscosity p

/-- The same friction of the previous step. -/
def laggedIn (L : Lagged) : Lagged where
  pair := pair U.length U.tension L.pair
  x := scale U.length L.x
  ns := L.ns
  params := frictionIn U L.params

/-- The same friction. -/
def gripIn : Grip → Grip
  | .lagged L => .lagged (laggedIn U L)
  | .current F => .current ⟨pair U.length U.tension F.pair, F.ns, frictionIn U F.params, F.incomplete⟩

/-- The same bodies, volume zones, contacts and friction. -/
def grippingIn (S : Gripping) : Gripping :=
  { touchingIn U S.toTouching with grips := S.grips.map (gripIn U) }

/-- The same, with lagged friction only. -/
def rubbingIn (S : Rubbing) : Rubbing :=
  { touchingIn U S.toTouching with frictions := S.frictions.map (laggedIn U) }

/-! ## Relations between units -/

variable {U}

theorem velocity_pos : 0 < U.velocity := div_pos U.length_pos U.time_pos

theorem force_pos : 0 < U.force :=
  div_pos (mul_pos U.mass_pos U.length_pos) (pow_pos U.time_pos 2)

theorem pressure_pos : 0 < U.pressure :=
  div_pos U.mass_pos (mul_pos U.length_pos (pow_pos U.time_pos 2))

theorem force_pressure : U.length ^ 2 * U.pressure = U.force := by
  have := U.length_pos.ne'
  unfold System.pressure System.force
  field_simp

theorem force_tension : U.force = U.length * U.tension := by
  unfold System.tension System.force
  ring

theorem energy_tension : U.length ^ 2 * U.tension = U.energy := by
  unfold System.tension System.energy
  ring

theorem energy_pressure : U.length ^ 3 * U.pressure = U.energy := by
  have := U.length_pos.ne'
  unfold System.pressure System.energy
  field_simp

theorem force_acceleration : U.mass * U.acceleration = U.force := by
  unfold System.acceleration System.force
  ring

theorem impulse_velocity : U.mass * U.velocity = U.impulse := by
  unfold System.velocity System.impulse
  ring

theorem impulse_force : U.time * U.force = U.impulse := by
  have := U.time_pos.ne'
  unfold System.force System.impulse
  field_simp

theorem viscosity_eq : U.viscosity = U.force / U.velocity := by
  have := U.time_pos.ne'
  have := U.length_pos.ne'
  unfold System.force System.velocity System.viscosity
  field_simp

/-! ## Forces -/

theorem scale_zero (k : ℝ) : (fun _ : ℕ => (0 : V3 ℝ)) = scale k fun _ => 0 := by
  funext i
  exact (smul_zero k).symm

theorem tetBodies_scale (es : List TetElem) (ds : List ℝ) :
    List.Forall₂ (fun b' b : Body 4 => b'.cell = b.cell ∧ b'.measure * b'.density = U.mass * (b.measure * b.density))
      (tetBodies (es.map (tetElem U.length U.pressure)) (ds.map (U.density * ·))) (tetBodies es ds) := by
  unfold tetBodies
  rw [List.zip_map, List.map_map, List.forall₂_map_left_iff, List.forall₂_map_right_iff, List.forall₂_same]
  intro p _
  refine ⟨rfl, ?_⟩
  show U.length ^ 3 * p.1.ref.volume * (U.density * p.2) = U.mass * (p.1.ref.volume * p.2)
  have := U.length_pos.ne'
  unfold System.density
  field_simp

theorem triBodies_scale (es : List TriElem) (ds : List ℝ) :
    List.Forall₂ (fun b' b : Body 3 => b'.cell = b.cell ∧ b'.measure * b'.density = U.mass * (b.measure * b.density))
      (triBodies (es.map (triElem U.length U.tension)) (ds.map (U.areaDensity * ·))) (triBodies es ds) := by
  unfold triBodies
  rw [List.zip_map, List.map_map, List.forall₂_map_left_iff, List.forall₂_map_right_iff, List.forall₂_same]
  intro p _
  refine ⟨rfl, ?_⟩
  show U.length ^ 2 * p.1.ref.area * (U.areaDensity * p.2) = U.mass * (p.1.ref.area * p.2)
  have := U.length_pos.ne'
  unfold System.areaDensity
  field_simp

/-- The same elements, with masses in the other units. -/
def SameMass {m : ℕ} (k : ℝ) (bs' bs : List (Body m)) : Prop :=
  List.Forall₂ (fun b' b : Body m => b'.cell = b.cell ∧ b'.measure * b'.density = k * (b.measure * b.density)) bs' bs

theorem nh_mass (P : Problem) : SameMass U.mass (problemIn U P).nhBodies P.nhBodies := tetBodies_scale _ _

theorem snh_mass (P : Problem) : SameMass U.mass (problemIn U P).snhBodies P.snhBodies := tetBodies_scale _ _

theorem shell_mass (P : Problem) : SameMass U.mass (problemIn U P).shellBodies P.shellBodies :=
  triBodies_scale _ _

theorem lumps {m : ℕ} (K : Kind m) {bs' bs : List (Body m)} {k : ℝ}
    (h : SameMass k bs' bs) : List.Forall₂ (fun b' b => b'.cell = b.cell ∧ b'.lump K = k * b.lump K) bs' bs := by
  refine h.imp fun b' b hb => ⟨hb.1, ?_⟩
  unfold Body.lump
  rw [mul_assoc, hb.2]
  ring

theorem problem_force (P : Problem) (x v : ℕ → V3 ℝ) (q : ℝ) :
    (problemIn U P).force (scale U.length x) (scale U.velocity v) (U.time * q) =
      (P.force x v q).map (scale U.force) := by
  have ha := U.length_pos.ne'
  have hb := U.time_pos.ne'
  have hp := (pressure_pos (U := U)).ne'
  have ht : ∀ (M : TetModel) (es : List TetElem) (G : ℕ → V3 ℝ),
      tetGradient M (es.map (tetElem U.length U.pressure)) (scale U.length x) (scale U.velocity v) (U.time * q)
        (scale U.force G) = (tetGradient M es x v q G).map (scale U.force) := by
    intro M es G
    have h := tetGradient_scale ha hb hp M es x v q G
    rwa [force_pressure] at h
  unfold Problem.force
  rw [scale_zero U.force]
  show (tetGradient .nh (P.nh.map (tetElem U.length U.pressure)) (scale U.length x) (scale U.velocity v) (U.time * q)
    (scale U.force fun _ => 0)).bind _ = _
  rw [ht, ← scale_zero U.force]
  cases tetGradient .nh P.nh x v q fun _ => 0 with
  | none => rfl
  | some r =>
    simp only [Option.map_some, Option.bind_some]
    show (tetGradient .snh (P.snh.map (tetElem U.length U.pressure)) (scale U.length x) (scale U.velocity v)
      (U.time * q) (scale U.force r)).bind _ = _
    rw [ht]
    cases tetGradient .snh P.snh x v q r with
    | none => rfl
    | some r =>
      simp only [Option.map_some, Option.bind_some]
      congr 1
      show gravityGradient triKind (U.acceleration • P.gravity) (problemIn U P).shellBodies
        ((shell U.length U.tension U.force P.shell).gradient (scale U.length x) (scale U.velocity v) (U.time * q)
          (gravityGradient tetKind (U.acceleration • P.gravity) (problemIn U P).snhBodies
            (gravityGradient tetKind (U.acceleration • P.gravity) (problemIn U P).nhBodies (scale U.force r)))) = _
      rw [gravityGradient_scale force_acceleration _ _ P.nhBodies _ (lumps _ (nh_mass P)),
        gravityGradient_scale force_acceleration _ _ P.snhBodies _ (lumps _ (snh_mass P)),
        show scale U.velocity v = scale (U.length / U.time) v from rfl,
        shell_gradient_scale U.length_pos hb force_tension,
        gravityGradient_scale force_acceleration _ _ P.shellBodies _ (lumps _ (shell_mass P))]

theorem problem_momentumDiff (P : Problem) (v0 v r : ℕ → V3 ℝ) :
    (problemIn U P).momentumDiff (scale U.velocity v0) (scale U.velocity v) (scale U.impulse r) =
      scale U.impulse (P.momentumDiff v0 v r) := by
  unfold Problem.momentumDiff
  rw [inertiaGradient_scale impulse_velocity _ P.nhBodies _ (lumps _ (nh_mass P)),
    inertiaGradient_scale impulse_velocity _ P.snhBodies _ (lumps _ (snh_mass P)),
    inertiaGradient_scale impulse_velocity _ P.shellBodies _ (lumps _ (shell_mass P))]

theorem sealed_force (S : Volume.Sealed) (x v : ℕ → V3 ℝ) (q : ℝ) :
    (sealedIn U S).force (scale U.length x) (scale U.velocity v) (U.time * q) =
      (S.force x v q).map (scale U.force) := by
  have hp := problem_force (U := U) S.toProblem x v q
  cases hf : S.toProblem.force x v q with
  | none =>
    rw [hf] at hp
    have h1 : (sealedIn U S).toProblem.force (scale U.length x) (scale U.velocity v) (U.time * q) = none := hp
    simp only [Volume.Sealed.force, hf, h1, Option.map_none]
  | some f =>
    rw [hf, Option.map_some] at hp
    rw [Volume.Sealed.force_eq S x v q f hf,
      Volume.Sealed.force_eq (sealedIn U S) (scale U.length x) (scale U.velocity v) (U.time * q)
        (scale U.force f) hp, Option.map_some]
    congr 1
    funext i
    show _ = U.force • _
    rw [smul_add]
    congr 1
    show ((S.volumes.map (penalty U.length U.pressure⁻¹)).map fun P => P.forces (scale U.length x) i).sum =
      U.force • (S.volumes.map fun P => P.forces x i).sum
    rw [smul_list_sum, List.map_map, List.map_map]
    congr 1
    refine List.map_congr_left fun P _ => penalty_forces_scale U.length_pos.ne' ?_ P x i
    rw [div_inv_eq_mul, force_pressure]

theorem foldl_scale {α : Type} (l : List α) (f g : (ℕ → V3 ℝ) → α → ℕ → V3 ℝ) (k : ℝ)
    (h : ∀ a ∈ l, ∀ r, f (scale k r) a = scale k (g r a)) (r : ℕ → V3 ℝ) :
    l.foldl f (scale k r) = scale k (l.foldl g r) := by
  induction l generalizing r with
  | nil => rfl
  | cons a l ih =>
    rw [List.foldl_cons, List.foldl_cons, h a (by simp),
      ih (fun b hb => h b (List.mem_cons_of_mem _ hb))]

theorem touching_force (S : Touching) (x v : ℕ → V3 ℝ) (q : ℝ) :
    (touchingIn U S).force (scale U.length x) (scale U.velocity v) (U.time * q) =
      (S.force x v q).map (scale U.force) := by
  unfold Touching.force
  show ((sealedIn U S.toSealed).force (scale U.length x) (scale U.velocity v) (U.time * q)).map
    (fun r => (S.contacts.map (pair U.length U.tension)).foldl
      (fun r C => C.subtractForce (scale U.length x) r) r) = _
  rw [sealed_force S.toSealed, Option.map_map, Option.map_map]
  congr 1
  funext r
  simp only [Function.comp, List.foldl_map]
  exact foldl_scale S.contacts _ _ U.force
    (fun C _ r => subtractForce_scale U.tension C U.length_pos (by rw [force_tension, mul_comm]) x r) r

theorem grip_subtract (G : Grip) (x v r : ℕ → V3 ℝ) :
    (gripIn U G).subtract (scale U.length x) (scale U.velocity v) (scale U.force r) =
      scale U.force (G.subtract x v r) := by
  have h : U.force = U.tension * U.length := by rw [force_tension, mul_comm]
  cases G with
  | lagged L =>
    show (pair U.length U.tension L.pair).subtractFriction L.ns (friction U.velocity U.viscosity L.params)
      (scale U.length L.x) (scale U.velocity v) (scale U.force r) = _
    rw [viscosity_eq]
    exact subtractFriction_scale _ _ U.length_pos velocity_pos force_pos h _ _ _ _ _
  | current F =>
    show (pair U.length U.tension F.pair).subtractFriction F.ns (friction U.velocity U.viscosity F.params)
      (scale U.length x) (scale U.velocity v) (scale U.force r) = _
    rw [viscosity_eq]
    exact subtractFriction_scale _ _ U.length_pos velocity_pos force_pos h _ _ _ _ _

theorem gripping_force (S : Gripping) (x v : ℕ → V3 ℝ) (q : ℝ) :
    (grippingIn U S).force (scale U.length x) (scale U.velocity v) (U.time * q) =
      (S.force x v q).map (scale U.force) := by
  unfold Gripping.force
  show ((touchingIn U S.toTouching).force (scale U.length x) (scale U.velocity v) (U.time * q)).map
    (fun r => (S.grips.map (gripIn U)).foldl
      (fun r G => G.subtract (scale U.length x) (scale U.velocity v) r) r) = _
  rw [touching_force S.toTouching, Option.map_map, Option.map_map]
  congr 1
  funext r
  simp only [Function.comp, List.foldl_map]
  exact foldl_scale S.grips _ _ U.force (fun G _ r => grip_subtract G x v r) r

/-! ## The equations of motion -/

theorem static_iff (P : Problem) : (problemIn U P).isStatic ↔ P.isStatic := by
  unfold Problem.isStatic
  show U.time * P.timeStep = 0 ↔ _
  have := U.time_pos.ne'
  simp [this]

theorem dt_scale (P : Problem) (h : P.isStatic → U.time = 1) : (problemIn U P).dt = U.time * P.dt := by
  classical
  unfold Problem.dt
  by_cases hs : P.isStatic
  · rw [if_pos hs, if_pos ((static_iff P).2 hs), h hs, mul_one]
  · rw [if_neg hs, if_neg (mt (static_iff P).1 hs)]
    rfl

/-- C107: the residual of the equations of motion, and the force that is kept for the next step, of a scene in
other units are the same quantities, in units of impulse and of force. A problem without time step (a static
one) has no time: there the unit of time stays. -/
theorem units_residual_partial (S : Gripping) (h : S.isStatic → U.time = 1) (fm pm : ℝ)
    (prev v0 x v : ℕ → V3 ℝ) :
    (grippingIn U S).residual fm pm (scale U.force prev) (scale U.velocity v0) (scale U.length x)
        (scale U.velocity v) =
      (S.residual fm pm prev v0 x v).map fun p => (scale U.impulse p.1, scale U.force p.2) := by
  classical
  have hforce := gripping_force (U := U) S x v (S.dt * fm)
  unfold Gripping.residual
  have hdt : (grippingIn U S).dt = U.time * S.dt := dt_scale S.toProblem h
  have hst : (grippingIn U S).isStatic ↔ S.isStatic := static_iff S.toProblem
  simp only [hdt, hst, mul_assoc U.time]
  rw [hforce, Option.map_map, Option.map_map]
  congr 1
  funext f
  simp only [Function.comp]
  congr 1
  have hr : (if pm > 0 then fun i => (U.time * S.dt) • (fm • scale U.force f i + pm • scale U.force prev i)
      else fun i => (U.time * (S.dt * fm)) • scale U.force f i) = scale U.impulse
      (if pm > 0 then fun i => S.dt • (fm • f i + pm • prev i) else fun i => (S.dt * fm) • f i) := by
    rw [← impulse_force]
    split
    · funext i
      show (U.time * S.dt) • (fm • (U.force • f i) + pm • (U.force • prev i)) =
        (U.time * U.force) • (S.dt • (fm • f i + pm • prev i))
      rw [smul_comm fm U.force, smul_comm pm U.force, ← smul_add, smul_smul, smul_smul]
      congr 1
      ring
    · funext i
      simp only [scale, smul_smul]
      congr 1
      ring
  rw [hr]
  split
  · rfl
  · exact problem_momentumDiff S.toProblem v0 v _

/-! ## The objective -/

theorem problem_energy (P : Problem) (x v : ℕ → V3 ℝ) (q : ℝ) :
    (problemIn U P).energy (scale U.length x) (scale U.velocity v) (U.time * q) =
      (P.energy x v q).map (U.energy * ·) := by
  have ha := U.length_pos.ne'
  have hb := U.time_pos.ne'
  have hp := (pressure_pos (U := U)).ne'
  unfold Problem.energy
  have h1 : tetEnergy .nh (problemIn U P).nh (scale U.length x) (scale U.velocity v) (U.time * q) =
      (tetEnergy .nh P.nh x v q).map (U.energy * ·) := by
    rw [← energy_pressure]
    exact tetEnergy_scale ha hb hp _ _ x v q
  have h2 : tetEnergy .snh (problemIn U P).snh (scale U.length x) (scale U.velocity v) (U.time * q) =
      (tetEnergy .snh P.snh x v q).map (U.energy * ·) := by
    rw [← energy_pressure]
    exact tetEnergy_scale ha hb hp _ _ x v q
  have h3 : (problemIn U P).shell.energy (scale U.length x) (scale U.velocity v) (U.time * q) =
      (P.shell.energy x v q).map (U.energy * ·) := by
    rw [← energy_tension]
    exact shell_energy_scale U.length_pos hb force_tension _ x v q
  rw [h1, h2, h3]
  cases tetEnergy .nh P.nh x v q with
  | none => rfl
  | some a =>
    cases tetEnergy .snh P.snh x v q with
    | none => rfl
    | some b =>
      cases P.shell.energy x v q with
      | none => rfl
      | some s =>
        simp only [Option.bind_some, Option.map_some]
        congr 1
        have he : U.length * U.mass * U.acceleration = U.energy := by
          unfold System.acceleration System.energy
          ring
        have g1 := gravityEnergy_scale he (tetKind_scale _) P.gravity P.nhBodies (problemIn U P).nhBodies
          (nh_mass P) x
        have g2 := gravityEnergy_scale he (tetKind_scale _) P.gravity P.snhBodies (problemIn U P).snhBodies
          (snh_mass P) x
        have g3 := gravityEnergy_scale he (triKind_scale _) P.gravity P.shellBodies (problemIn U P).shellBodies
          (shell_mass P) x
        show U.energy * a + U.energy * b +
          (gravityEnergy tetKind (U.acceleration • P.gravity) (problemIn U P).nhBodies (scale U.length x) +
            gravityEnergy tetKind (U.acceleration • P.gravity) (problemIn U P).snhBodies (scale U.length x)) +
          U.energy * s +
          gravityEnergy triKind (U.acceleration • P.gravity) (problemIn U P).shellBodies (scale U.length x) = _
        rw [g1, g2, g3]
        ring

/-- The energy that the zones have without any pressure. -/
def zoneConstant (U : System) (l : List Volume.Penalty) : ℝ :=
  (l.map fun P => Volume.pressureAtm * P.restVolume * (U.length ^ 3 - U.energy)).sum

theorem foldl_add_scale {α : Type} (l : List α) (f g c : α → ℝ) (k : ℝ) (h : ∀ a ∈ l, f a = k * g a + c a)
    (e d : ℝ) : l.foldl (fun e a => e + f a) (k * e + d) =
      k * l.foldl (fun e a => e + g a) e + (d + (l.map c).sum) := by
  induction l generalizing e d with
  | nil => simp
  | cons a l ih =>
    rw [List.foldl_cons, List.foldl_cons, h a (by simp), List.map_cons, List.sum_cons,
      show k * e + d + (k * g a + c a) = k * (e + g a) + (d + c a) by ring,
      ih (fun b hb => h b (List.mem_cons_of_mem _ hb)), add_assoc d]

theorem touching_energy (S : Touching) (x v : ℕ → V3 ℝ) (q : ℝ) :
    (touchingIn U S).energy (scale U.length x) (scale U.velocity v) (U.time * q) =
      (S.energy x v q).map fun e => U.energy * e + zoneConstant U S.volumes := by
  unfold Touching.energy Volume.Sealed.energy
  show (((problemIn U S.toProblem).energy (scale U.length x) (scale U.velocity v) (U.time * q)).map
    (fun e => (S.volumes.map (penalty U.length U.pressure⁻¹)).foldl
      (fun e P => e + P.energy (scale U.length x)) e)).map
    (fun e => (S.contacts.map (pair U.length U.tension)).foldl
      (fun e C => e + C.energy (scale U.length x)) e) = _
  rw [problem_energy, Option.map_map, Option.map_map, Option.map_map, Option.map_map]
  congr 1
  funext e
  simp only [Function.comp, List.foldl_map]
  have h1 := foldl_add_scale S.volumes
    (fun P => (penalty U.length U.pressure⁻¹ P).energy (scale U.length x)) (fun P => P.energy x)
    (fun P => Volume.pressureAtm * P.restVolume * (U.length ^ 3 - U.energy)) U.energy
    (fun P _ => penalty_energy_scale U.length_pos.ne' (by rw [div_inv_eq_mul, energy_pressure]) P x) e 0
  rw [add_zero, zero_add] at h1
  rw [h1]
  have h2 := foldl_add_scale S.contacts
    (fun C => (pair U.length U.tension C).energy (scale U.length x)) (fun C => C.energy x)
    (fun _ => 0) U.energy
    (fun C _ => by rw [contactEnergy_scale _ _ U.length_pos, add_zero, mul_comm U.tension, energy_tension])
    (S.volumes.foldl (fun e P => e + P.energy x) e) (zoneConstant U S.volumes)
  rw [List.map_const', List.sum_replicate, smul_zero, add_zero] at h2
  exact h2

theorem rubbing_energy (S : Rubbing) (x v : ℕ → V3 ℝ) (q : ℝ) :
    (rubbingIn U S).energy (scale U.length x) (scale U.velocity v) (U.time * q) =
      (S.energy x v q).map fun e => U.energy * e + zoneConstant U S.volumes := by
  unfold Rubbing.energy
  show ((touchingIn U S.toTouching).energy (scale U.length x) (scale U.velocity v) (U.time * q)).map
    (fun e => (S.frictions.map (laggedIn U)).foldl
      (fun e L => e + L.pair.frictionPotential L.params L.x (scale U.velocity v) (U.time * q)) e) = _
  rw [touching_energy, Option.map_map, Option.map_map]
  congr 1
  funext e
  simp only [Function.comp, List.foldl_map]
  have h2 := foldl_add_scale S.frictions
    (fun L => (laggedIn U L).pair.frictionPotential (laggedIn U L).params (laggedIn U L).x (scale U.velocity v)
      (U.time * q)) (fun L => L.pair.frictionPotential L.params L.x v q) (fun _ => 0) U.energy
    (fun L _ => by
      rw [add_zero]
      show (pair U.length U.tension L.pair).frictionPotential (friction U.velocity U.viscosity L.params)
        (scale U.length L.x) (scale U.velocity v) (U.time * q) = _
      rw [viscosity_eq]
      refine frictionPotential_scale _ _ U.length_pos velocity_pos force_pos (by rw [force_tension, mul_comm]) _ _ _
        ?_
      have := U.time_pos.ne'
      unfold System.force System.velocity System.energy
      field_simp) e (zoneConstant U S.volumes)
  rw [List.map_const', List.sum_replicate, smul_zero, add_zero] at h2
  exact h2

/-- C107: the objective that the solver reports is the same energy, in units of energy, apart from a constant
for each volume zone. -/
theorem units_objective_partial (S : Rubbing) (h : S.isStatic → U.time = 1) (fm pm : ℝ)
    (prev v0 x v : ℕ → V3 ℝ) :
    (rubbingIn U S).objective fm pm (scale U.force prev) (scale U.velocity v0) (scale U.length x)
        (scale U.velocity v) =
      (S.objective fm pm prev v0 x v).map fun e => U.energy * e + zoneConstant U S.volumes := by
  classical
  have he := rubbing_energy (U := U) S x v (S.dt * fm)
  unfold Rubbing.objective
  have hdt : (rubbingIn U S).dt = U.time * S.dt := dt_scale S.toProblem h
  have hst : (rubbingIn U S).isStatic ↔ S.isStatic := static_iff S.toProblem
  have hn : (rubbingIn U S).numVertices = S.numVertices := rfl
  have hi : (rubbingIn U S).inertia (scale U.velocity v0) (scale U.velocity v) = U.energy * S.inertia v0 v := by
    have hu : U.mass * U.velocity * U.velocity = U.energy := by
      unfold System.velocity System.energy
      ring
    show (problemIn U S.toProblem).inertia _ _ = _
    unfold Problem.inertia
    rw [inertiaEnergy_scale hu _ S.nhBodies _ (lumps _ (nh_mass S.toProblem)),
      inertiaEnergy_scale hu _ S.snhBodies _ (lumps _ (snh_mass S.toProblem)),
      inertiaEnergy_scale hu _ S.shellBodies _ (lumps _ (shell_mass S.toProblem))]
    ring
  have hs : (∑ i ∈ Finset.range S.numVertices, V3.dot (scale U.force prev i) (scale U.velocity v i)) * pm *
      (U.time * S.dt) =
      U.energy * ((∑ i ∈ Finset.range S.numVertices, V3.dot (prev i) (v i)) * pm * S.dt) := by
    have hu : U.force * U.velocity * U.time = U.energy := by
      have := U.time_pos.ne'
      unfold System.force System.velocity System.energy
      field_simp
    simp only [scale, dot_scale, ← Finset.mul_sum]
    rw [← hu]
    ring
  simp only [hdt, hst, hn, hi, hs, mul_assoc U.time]
  rw [he, Option.map_map, Option.map_map]
  congr 1
  funext e
  simp only [Function.comp]
  split <;> split <;> ring

/-! ## Whole simulations -/

/-- C107: a whole simulation, written in other units, is a simulation of the scene in these units. -/
theorem units_run_partial (S : ℕ → Gripping) (h : ∀ n, (S n).isStatic → U.time = 1) (fm pm : ℝ)
    (x v f : ℕ → ℕ → V3 ℝ) (H : Frame.Run S fm pm x v f) :
    Frame.Run (fun n => grippingIn U (S n)) fm pm (fun n => scale U.length (x n))
      (fun n => scale U.velocity (v n)) fun n => scale U.force (f n) := by
  constructor
  · intro n
    obtain ⟨r, hr, h0⟩ := H.balance n
    refine ⟨scale U.impulse r, ?_, fun i hi => ?_⟩
    · rw [units_residual_partial (S n) (h n), hr]
      rfl
    · show U.impulse • r i = 0
      rw [h0 i hi, smul_zero]
  · intro n i
    have hdt : (grippingIn U (S n)).dt = U.time * (S n).dt := dt_scale (S n).toProblem (h n)
    rw [hdt]
    show U.length • x (n + 1) i = U.length • x n i + (U.time * (S n).dt * fm) • (U.velocity • v (n + 1) i) +
      (U.time * (S n).dt * pm) • (U.velocity • v n i)
    have hu : U.time * U.velocity = U.length := by
      have := U.time_pos.ne'
      unfold System.velocity
      field_simp
    have e : ∀ s : ℝ, U.length * ((S n).dt * s) = U.time * (S n).dt * s * U.velocity := by
      intro s
      rw [← hu]
      ring
    rw [H.place n i, smul_add, smul_add, smul_smul, smul_smul, smul_smul, smul_smul, e, e]

/-! ## Bodies at rest -/

theorem m3_inverse_scale {a : ℝ} (ha : a ≠ 0) (A : M3 ℝ) : (a • A).inverse = A.inverse.map (a⁻¹ • ·) := by
  have hd : (a • A).det = a ^ 3 * A.det := by
    simp only [M3.det, M3.smul_r0, M3.smul_r1, M3.smul_r2, V3.dot, V3.cross, V3.smul_x, V3.smul_y, V3.smul_z]
    ring
  unfold M3.inverse
  by_cases h : A.det = 0
  · rw [if_pos h, if_pos (by rw [hd, h, mul_zero])]
    rfl
  · rw [if_neg h, if_neg (by rw [hd]; exact mul_ne_zero (pow_ne_zero 3 ha) h), Option.map_some]
    congr 1
    have hadj : (a • A).adj = a ^ 2 • A.adj := by
      ext <;> simp [M3.adj, M3.cof, M3.transpose, V3.cross] <;> ring
    rw [hadj, hd, m3_smul_smul, m3_smul_smul]
    congr 1
    field_simp

/-- C107: the data of a tetrahedron at rest, computed from positions in other units, are the data in these
units. -/
theorem units_rest_tet (U : System) (X : Tet.Verts) (lambda mu : ℝ) :
    ((Hooke.refTet fun i => U.length • X i).map fun D =>
        (⟨D.1, D.2, U.pressure * lambda, U.pressure * mu⟩ : Tet.Ref)) =
      (Hooke.refTet X).map fun D => tetRef U.length U.pressure ⟨D.1, D.2, lambda, mu⟩ := by
  have ha := U.length_pos
  have hv : Volume.tetVolume (fun i => U.length • X i) = U.length ^ 3 * Volume.tetVolume X := by
    unfold Volume.tetVolume
    simp only [← smul_sub, cross_scale, dot_scale]
    ring
  unfold Hooke.refTet
  by_cases h : Volume.tetVolume X ≤ 0
  · rw [if_pos h, if_pos (by rw [hv]; exact mul_nonpos_of_nonneg_of_nonpos (by positivity) h)]
    rfl
  · rw [if_neg h, if_neg (by rw [hv]; exact not_le.2 (mul_pos (by positivity) (not_le.1 h))), shape_scale,
      m3_inverse_scale ha.ne', Option.map_map, Option.map_map, Option.map_map, hv]
    rfl

/-- C107: the data of a triangle at rest, computed from positions in other units, are the data in these units. -/
theorem units_rest_tri (U : System) (X : Tri.Verts) (lambda mu : ℝ) :
    ((Hooke.refTri fun i => U.length • X i).map fun D =>
        (⟨D.1, D.2, U.tension * lambda, U.tension * mu⟩ : Tri.Ref)) =
      (Hooke.refTri X).map fun D => triRef U.length U.tension ⟨D.1, D.2, lambda, mu⟩ := by
  have ha := U.length_pos
  have hv : Hooke.triArea (fun i => U.length • X i) = U.length ^ 2 * Hooke.triArea X := by
    unfold Hooke.triArea
    simp only [← smul_sub, cross_scale, norm_scale (mul_pos ha ha).le]
    ring
  unfold Hooke.refTri
  by_cases h : Hooke.triArea X ≤ 0
  · rw [if_pos h, if_pos (by rw [hv]; exact mul_nonpos_of_nonneg_of_nonpos (by positivity) h)]
    rfl
  · rw [if_neg h, if_neg (by rw [hv]; exact not_le.2 (mul_pos (by positivity) (not_le.1 h))), hv,
      Option.map_some, Option.map_some]
    have hc : V3.cross (X 0 - X 2) (X 1 - X 2) ≠ 0 := by
      intro h0
      apply h
      simp [Hooke.triArea, h0, V3.norm, V3.dot]
    obtain ⟨-, -, -, -, -, -, -, hdet⟩ := Hooke.isotropic_frame (S := Tri.shape X) hc
    have hi : Hooke.isotropicShape (Tri.shape fun i => U.length • X i) =
        ⟨⟨U.length * (Hooke.isotropicShape (Tri.shape X)).r0.x, 0⟩,
          ⟨U.length * (Hooke.isotropicShape (Tri.shape X)).r1.x,
            U.length * (Hooke.isotropicShape (Tri.shape X)).r1.y⟩⟩ := by
      rw [triShape_scale]
      have hu : ∀ w : V3 ℝ, (U.length • w).norm⁻¹ • (U.length • w) = w.norm⁻¹ • w := by
        intro w
        rw [norm_scale ha.le, mul_inv, smul_smul]
        congr 1
        field_simp
      unfold Hooke.isotropicShape
      have e0 : (U.length • Tri.shape X).r0 = U.length • (Tri.shape X).r0 := rfl
      have e1 : (U.length • Tri.shape X).r1 = U.length • (Tri.shape X).r1 := rfl
      simp only [e0, e1, hu]
      have e2 : ∀ e w : V3 ℝ, V3.dot e (U.length • w) = U.length * V3.dot e w := by
        intro e w
        have := dot_scale 1 U.length e w
        rwa [one_smul, one_mul] at this
      simp only [e2, mul_smul, ← smul_sub, norm_scale ha.le]
    rw [hi]
    have hz : (Hooke.isotropicShape (Tri.shape X)).r0.y = 0 := rfl
    generalize Hooke.isotropicShape (Tri.shape X) = M at hdet hz
    obtain ⟨⟨p, q⟩, r, s⟩ := M
    simp only at hz
    subst hz
    simp only [Tri.M22.det, zero_mul, sub_zero] at hdet
    have hp : p ≠ 0 := left_ne_zero_of_mul hdet
    have hs : s ≠ 0 := right_ne_zero_of_mul hdet
    simp only [triRef, Tri.M22.inv, Tri.M22.det, zero_mul, sub_zero, Option.some.injEq, Tri.Ref.mk.injEq,
      Tri.M22.mk.injEq, V2.mk.injEq, and_true, true_and]
    refine ⟨⟨?_, ?_⟩, ?_, ?_⟩
    · field_simp
    · simp
    · field_simp
    · field_simp

/-- C107: the angle and the shape of an edge at rest have no units. -/
theorem units_rest_edge (U : System) (e : IEdge.Edge) (X : ℕ → ℕ → V3 ℝ) :
    e.refShape (fun f i => U.length • X f i) = e.refShape X ∧
      e.refAngle (fun f i => U.length • X f i) = e.refAngle X := by
  have ha := U.length_pos
  constructor
  · have hu : ∀ w : V3 ℝ, IEdge.unit (U.length • w) = IEdge.unit w := by
      intro w
      unfold IEdge.unit
      rw [norm_scale ha.le, mul_inv, smul_smul]
      congr 1
      field_simp
    have hc : ∀ v w : V3 ℝ, (V3.cross (U.length • v) w).norm = U.length * (V3.cross v w).norm := by
      intro v w
      have := cross_scale U.length 1 v w
      rw [one_smul, mul_one] at this
      rw [this, norm_scale ha.le]
    unfold IEdge.Edge.refShape IEdge.Edge.refLength IEdge.Edge.tileSpan IEdge.Edge.vert0 IEdge.Edge.vert1
    simp only [← smul_sub, norm_scale ha.le, hu, hc, ← mul_add, mul_assoc U.length, mul_div_assoc U.length]
    rw [← mul_div_assoc]
    exact mul_div_mul_left _ _ ha.ne'
  · have hs : ∀ k : ℝ, 0 < k → ∀ y, IEdge.signum (k * y) = IEdge.signum y := by
      intro k hk y
      unfold IEdge.signum
      have : k * y < 0 ↔ y < 0 := by
        constructor <;> intro h
        · exact (pos_iff_neg_of_mul_neg h).1 hk
        · exact mul_neg_of_pos_of_neg hk h
      simp only [this]
    have hq : ∀ v w : V3 ℝ, U.length • v = U.length • w ↔ v = w := fun v w =>
      ⟨fun h => by
        have := congrArg (U.length⁻¹ • ·) h
        simpa only [smul_smul, inv_mul_cancel₀ ha.ne', one_smul] using this, fun h => by rw [h]⟩
    unfold IEdge.Edge.refAngle IEdge.Edge.vert0 IEdge.Edge.vert1
    simp only [areaNormal_scale, cross_scale, dot_scale, ← smul_sub, hq]
    have h2 : 0 < U.length ^ 2 := by positivity
    rw [norm_scale (by positivity), atan2_scale (by positivity), hs _ (by positivity)]

/-- The parameters of elasticity in other units. Poisson's ratio has no unit. -/
def paramsIn (U : System) : Material.Params → Material.Params
  | .lame lambda mu => .lame (U.pressure * lambda) (U.pressure * mu)
  | .youngPoisson young poisson => .youngPoisson (U.pressure * young) poisson
  | .bulkShear bulk shear => .bulkShear (U.pressure * bulk) (U.pressure * shear)

/-- C107: the Lamé parameters that the solver uses for solids are those of the converted material. -/
theorem units_lame (U : System) (m : Material.Model) (p : Material.Params) :
    Material.Elasticity.lame ⟨m, paramsIn U p⟩ =
      (U.pressure * (Material.Elasticity.lame ⟨m, p⟩).1, U.pressure * (Material.Elasticity.lame ⟨m, p⟩).2) := by
  cases m <;> cases p <;>
    simp only [Material.Elasticity.lame, paramsIn, Material.Params.lambda, Material.Params.mu, Prod.mk.injEq] <;>
    refine ⟨?_, ?_⟩ <;> first | trivial | ring

/-! ## When the solver stops -/

theorem infNorm_scale {k : ℝ} (hk : 0 < k) (r : List (V3 ℝ)) :
    Converged.infNorm (r.map (k • ·)) = k * Converged.infNorm r := by
  have h : ∀ m : ℝ, (r.map (k • ·)).foldl (fun (m : ℝ) (a : V3 ℝ) => max (max (max m |a.x|) |a.y|) |a.z|) (k * m) =
      k * r.foldl (fun (m : ℝ) (a : V3 ℝ) => max (max (max m |a.x|) |a.y|) |a.z|) m := by
    induction r with
    | nil => intro m; rfl
    | cons a r ih =>
      intro m
      rw [List.map_cons, List.foldl_cons, List.foldl_cons, ← ih]
      congr 1
      simp only [V3.smul_x, V3.smul_y, V3.smul_z, abs_mul, abs_of_pos hk, mul_max_of_nonneg _ _ hk.le]
  have := h 0
  rw [mul_zero] at this
  exact this

/-- C107: the tests of residuals and accelerations, which tell when a step is finished, do not depend on the
units. The tolerance of residuals is an impulse, the tolerance of accelerations has no unit. -/
theorem units_converged_partial (U : System) (dt : ℝ) (ti : TimeInt.SingleStep) (massInv : List (Option ℝ))
    (size : List ℝ) (xPrev x r rUnscaled : List (V3 ℝ)) (rTol aTol xTol : ℝ) (h : xTol ≤ 0) :
    Converged.converged (U.time * dt) ti (massInv.map fun m => m.map (U.mass⁻¹ * ·)) (size.map (U.length * ·))
        (xPrev.map (U.velocity • ·)) (x.map (U.velocity • ·)) (r.map (U.impulse • ·))
        (rUnscaled.map (U.impulse • ·)) xTol (U.impulse * rTol) aTol ↔
      Converged.converged dt ti massInv size xPrev x r rUnscaled xTol rTol aTol := by
  have hi : 0 < U.impulse := div_pos (mul_pos U.mass_pos U.length_pos) U.time_pos
  have hv := velocity_pos (U := U)
  have ht := U.time_pos
  have h1 : ¬ (xTol > 0) := not_lt.2 h
  have h2 : U.impulse * rTol > 0 ↔ rTol > 0 := mul_pos_iff_of_pos_left hi
  have h3 : U.impulse * Converged.infNorm r < U.impulse * rTol ↔ Converged.infNorm r < rTol :=
    mul_lt_mul_iff_right₀ hi
  have h4 : Converged.inv (U.time * dt * ti.implicitFactor) =
      (Converged.inv (dt * ti.implicitFactor)).map (U.time⁻¹ * ·) := by
    unfold Converged.inv
    rw [mul_assoc]
    by_cases h0 : dt * ti.implicitFactor = 0
    · rw [if_pos h0, if_pos (by rw [h0, mul_zero])]
      rfl
    · rw [if_neg h0, if_neg (mul_ne_zero ht.ne' h0), Option.map_some, one_div, mul_inv, one_div]
  unfold Converged.converged
  rw [infNorm_scale hi, h2, h3, h4]
  simp only [h1, false_and]
  have h5 : ∀ hInv : Option ℝ, Converged.accelCriterion aTol (hInv.map (U.time⁻¹ * ·))
      (rUnscaled.map (U.impulse • ·)) (massInv.map fun m => m.map (U.mass⁻¹ * ·)) (size.map (U.length * ·))
      (xPrev.map (U.velocity • ·)) (x.map (U.velocity • ·)) ↔
      Converged.accelCriterion aTol hInv rUnscaled massInv size xPrev x := by
    intro hInv
    unfold Converged.accelCriterion
    rw [List.zip_map, List.zip_map, List.zip_map, List.zip_map, List.forall_mem_map]
    refine forall₂_congr fun a ha => ?_
    obtain ⟨⟨⟨r, m⟩, s⟩, p, q⟩ := a
    show Converged.accelOk aTol (hInv.map (U.time⁻¹ * ·)) (U.impulse • r) (m.map (U.mass⁻¹ * ·)) (U.length * s)
      (U.velocity • q) ↔ Converged.accelOk aTol hInv r m s q
    cases m with
    | none =>
      cases hInv with
      | none =>
        show Converged.allNonzero (U.impulse • r) ↔ Converged.allNonzero r
        simp only [Converged.allNonzero, V3.smul_x, V3.smul_y, V3.smul_z, ne_eq, mul_eq_zero, hi.ne', false_or]
      | some k => rfl
    | some w =>
      cases hInv with
      | none => rfl
      | some k =>
        show ((U.mass⁻¹ * w) • (U.impulse • r)).norm ≤
            max (aTol * (U.velocity • q).norm) (aTol * (U.length * s * (U.time⁻¹ * k))) ↔
          (w • r).norm ≤ max (aTol * q.norm) (aTol * (s * k))
        have hm := U.mass_pos.ne'
        have e1 : (U.mass⁻¹ * w) • (U.impulse • r) = U.velocity • (w • r) := by
          rw [smul_smul, smul_smul, ← impulse_velocity]
          congr 1
          field_simp
        have e2 : aTol * (U.length * s * (U.time⁻¹ * k)) = U.velocity * (aTol * (s * k)) := by
          unfold System.velocity
          ring
        have e3 : aTol * (U.velocity * q.norm) = U.velocity * (aTol * q.norm) := by ring
        rw [e1, norm_scale hv.le, norm_scale hv.le, e2, e3, ← mul_max_of_nonneg _ _ hv.le]
        exact mul_le_mul_iff_right₀ hv
  rw [h5]

/-! ## Where it fails -/

/-- A unit of length of half the size. -/
def halves : System := ⟨2, 1, 1, by norm_num, by norm_num, by norm_num⟩

/-- A unit of mass of half the size. -/
def lighter : System := ⟨1, 1, 2, by norm_num, by norm_num, by norm_num⟩

/-- C107 fails for the test of velocities, which compares them to a speed of one: there is no tolerance that has
the same meaning in other units. -/
theorem units_converged_violated : ∃ (U : System) (xTol : ℝ), ∀ xTol' : ℝ, ¬ ∀ xPrev x : V3 ℝ,
    (Converged.converged U.time .BE [some U.mass⁻¹] [U.length] [U.velocity • xPrev] [U.velocity • x] [0] [0]
        xTol' 0 0 ↔
      Converged.converged 1 .BE [some 1] [1] [xPrev] [x] [0] [0] xTol 0 0) := by
  refine ⟨halves, 1, fun T h => ?_⟩
  have hv : halves.velocity = 2 := by norm_num [halves, System.velocity]
  have hn : ∀ a : ℝ, Converged.norm2 [⟨a, 0, 0⟩] = |a| := by
    intro a
    simp only [Converged.norm2, List.map_cons, List.map_nil, List.sum_cons, List.sum_nil, V3.dot, mul_zero,
      add_zero]
    exact Real.sqrt_mul_self_eq_abs a
  have key : ∀ (U V M L : ℝ) (t a b : ℝ), Converged.converged U .BE [some M] [L] [⟨a, 0, 0⟩] [⟨b, 0, 0⟩] [0] [0]
      t 0 0 ↔ t > 0 ∧ |a - b| < t * (|b| + 1) := by
    intro U _ M L t a b
    have e : List.zipWith (fun a b : V3 ℝ => a - b) [⟨a, 0, 0⟩] [⟨b, 0, 0⟩] = [⟨a - b, 0, 0⟩] := by
      simp only [List.zipWith_cons_cons, List.zipWith_nil_left, List.cons.injEq, and_true]
      ext <;> simp
    unfold Converged.converged
    rw [e, hn, hn]
    simp only [gt_iff_lt, lt_irrefl, false_and, false_or, or_false]
  have h' : ∀ a b : ℝ, (T > 0 ∧ |2 * a - 2 * b| < T * (|2 * b| + 1)) ↔
      ((1 : ℝ) > 0 ∧ |a - b| < 1 * (|b| + 1)) := by
    intro a b
    have h0 := h ⟨a, 0, 0⟩ ⟨b, 0, 0⟩
    have e : ∀ c : ℝ, (2 : ℝ) • (⟨c, 0, 0⟩ : V3 ℝ) = ⟨2 * c, 0, 0⟩ := by
      intro c
      ext <;> simp
    rw [hv, e, e, key _ 1, key _ 1] at h0
    exact h0
  have h0 := (h' 0 0).2 (by norm_num)
  have hT := h0.1
  rcases lt_trichotomy T 2 with h2 | h2 | h2
  · have h3 := ((h' (T / 2) 0).2 ⟨one_pos, by
      rw [sub_zero, abs_of_pos (by linarith), abs_zero]; linarith⟩).2
    rw [mul_zero, sub_zero, abs_of_pos (by linarith), abs_zero] at h3
    linarith
  · subst h2
    have h3 := ((h' (7 / 2) 1).1 (by norm_num)).2
    norm_num at h3
  · have h3 := ((h' 1 0).1 ⟨hT, by norm_num; linarith⟩).2
    norm_num at h3

/-- C107 fails for the units that are documented for volume zones: their compression is documented to be given
relative to the pressure of the atmosphere, which is a constant of the code. In units of mass of half the size, and
with the same compression, the force is the same number. -/
theorem units_atmosphere_violated : ∃ (U : System) (S : Gripping) (x : ℕ → V3 ℝ), S.grips = [] ∧ S.contacts = [] ∧
    ({ grippingIn U S with
        volumes := S.volumes.map fun P => { P with restVolume := U.length ^ 3 * P.restVolume } } :
        Gripping).residual 1 0 (fun _ => 0) (fun _ => 0) (scale U.length x) (fun _ => 0) ≠
      (S.residual 1 0 (fun _ => 0) (fun _ => 0) x fun _ => 0).map
        fun p => (scale U.impulse p.1, scale U.force p.2) := by
  refine ⟨lighter, Frame.bare [Frame.lid] [] 3, Frame.lidX, rfl, rfl, fun h => ?_⟩
  have hs : ({ grippingIn lighter (Frame.bare [Frame.lid] [] 3) with
      volumes := (Frame.bare [Frame.lid] [] 3).volumes.map fun P =>
        { P with restVolume := lighter.length ^ 3 * P.restVolume } } : Gripping) =
      Frame.bare [Frame.lid] [] 3 := by
    simp [grippingIn, touchingIn, sealedIn, problemIn, Frame.bare, lighter, shell, Frame.lid]
  have hx : scale lighter.length Frame.lidX = Frame.lidX := by
    funext i
    simp [scale, lighter]
  have hf : lighter.force = 2 := by norm_num [lighter, System.force]
  rw [hs, hx, hf] at h
  have h1 := congrArg (fun o => o.map fun p : (ℕ → V3 ℝ) × (ℕ → V3 ℝ) => p.2) h
  simp only [Option.map_map] at h1
  have h2 : ((Frame.bare [Frame.lid] [] 3).residual 1 0 (fun _ => 0) (fun _ => 0) Frame.lidX fun _ => 0).map
      ((fun p : (ℕ → V3 ℝ) × (ℕ → V3 ℝ) => p.2) ∘
        fun p => (scale lighter.impulse p.1, scale 2 p.2)) =
      (((Frame.bare [Frame.lid] [] 3).residual 1 0 (fun _ => 0) (fun _ => 0) Frame.lidX fun _ => 0).map
        fun p => p.2).map (scale 2) := by
    rw [Option.map_map]
    rfl
  rw [h2, Frame.bare_residual] at h1
  simp only [Option.map_some, Option.some.injEq, List.foldl_nil, List.map_cons, List.map_nil, List.sum_cons,
    List.sum_nil, add_zero] at h1
  have h3 := congrArg V3.z (congrFun h1 0)
  have hv : Volume.signedVolume Frame.lid.topo Frame.lidX = 0 := by
    have e2 : (![0, 1, 2] : Fin 3 → ℕ) 2 = 2 := rfl
    simp [Volume.signedVolume, Frame.lid, Frame.lidX, V3.cross, V3.dot, e2]
  simp only [scale, Frame.lid_forces] at h3
  unfold Volume.Penalty.factor Volume.Penalty.dv at h3
  rw [hv] at h3
  norm_num [Frame.lidX, V3.cross, Frame.lid, Volume.pressureAtm] at h3

/-- Nothing but a shell. -/
def sheet (s : Shell) : Problem where
  nh := []
  nhDensity := []
  snh := []
  snhDensity := []
  shell := s
  shellDensity := []
  gravity := 0
  timeStep := 1

theorem sheet_energy (s : Shell) (x v : ℕ → V3 ℝ) (q : ℝ) : (sheet s).energy x v q = s.energy x v q := by
  simp [sheet, Problem.energy, tetEnergy, sumEnergies, Problem.nhBodies, Problem.snhBodies, Problem.shellBodies,
    tetBodies, triBodies, gravityEnergy]

/-- A fold with a strain of one. -/
def fold : Shell :=
  ⟨[], [⟨IEdge.exEdge, ⟨0, IEdge.exEdge.incrementalAngle 0 IEdge.exPos (IEdge.exFaces true) - 1, 1, 1⟩⟩],
    IEdge.exFaces true⟩

theorem fold_energy : fold.energy IEdge.exPos (fun _ => 0) 1 = some (1 / 2) := by
  norm_num [Shell.energy, fold, sumEnergies, IEdge.Bending.energy]

/-- C107 fails for the units that are documented for the stiffness of bending, those of surface tension: the same
fold has another energy. -/
theorem units_bending_violated : ∃ (U : System) (s : Shell) (x : ℕ → V3 ℝ),
    ({ problemIn U (sheet s) with
        shell := { shell U.length U.tension U.force s with
          dihedrals := s.dihedrals.map fun d =>
            { d with bending := { d.bending with stiffness := U.tension * d.bending.stiffness } } } } :
        Problem).energy (scale U.length x) (fun _ => 0) U.time ≠
      ((sheet s).energy x (fun _ => 0) 1).map (U.energy * ·) := by
  refine ⟨halves, fold, IEdge.exPos, fun h => ?_⟩
  rw [sheet_energy, fold_energy] at h
  have hs : ({ problemIn halves (sheet fold) with
      shell := { shell halves.length halves.tension halves.force fold with
        dihedrals := fold.dihedrals.map fun d =>
          { d with bending := { d.bending with stiffness := halves.tension * d.bending.stiffness } } } } :
      Problem) = sheet fold := by
    simp [problemIn, sheet, shell, fold, halves, System.tension]
  rw [hs, sheet_energy] at h
  have ha : fold.energy (scale halves.length IEdge.exPos) (fun _ => 0) halves.time = some (1 / 2) := by
    have e := edgeAngle_scale (a := halves.length) halves.length_pos IEdge.exEdge IEdge.exPos (IEdge.exFaces true)
    have e' : IEdge.exEdge.incrementalAngle 0 (scale halves.length IEdge.exPos) (IEdge.exFaces true) =
        IEdge.exEdge.incrementalAngle 0 IEdge.exPos (IEdge.exFaces true) := by
      unfold IEdge.Edge.incrementalAngle
      rw [e]
    norm_num [Shell.energy, fold, sumEnergies, IEdge.Bending.energy, e']
  rw [ha] at h
  norm_num [halves, System.energy] at h

/-- A triangle, and a state in which it is stretched along one edge and pressed along another. -/
def patch : Shell := ⟨[⟨![0, 1, 2], ⟨⟨⟨1, 0⟩, ⟨0, 1⟩⟩, 1 / 2, 0, 1⟩, 0⟩], [], fun _ _ => 0⟩

def patchX (v : ℕ) : V3 ℝ := if v = 0 then ⟨2, 0, 0⟩ else if v = 1 then ⟨0, 1 / 2, 0⟩ else 0

theorem patch_energy : patch.energy patchX (fun _ => 0) 1 = some (9 / 16) := by
  have e2 : (![0, 1, 2] : Fin 3 → ℕ) 2 = 2 := rfl
  norm_num [Shell.energy, patch, sumEnergies, TriElem.energy, Tri.energy, Tri.Ref.at, Tri.Elem.C, Tri.Elem.F,
    Tri.M22.mul23, Tri.M23.mulT, Tri.M22.det, Tri.shape, TriElem.pick, patchX, V3.dot, e2, Tri.Elem.dF]

/-- C107 fails for the units that are documented for the elasticity of shells, those of pressure: the same
triangle has another energy. -/
theorem units_shell_violated : ∃ (U : System) (s : Shell) (x : ℕ → V3 ℝ),
    ({ problemIn U (sheet s) with
        shell := { shell U.length U.tension U.force s with tris := s.tris.map (triElem U.length U.pressure) } } :
        Problem).energy (scale U.length x) (fun _ => 0) U.time ≠
      ((sheet s).energy x (fun _ => 0) 1).map (U.energy * ·) := by
  refine ⟨halves, patch, patchX, fun h => ?_⟩
  rw [sheet_energy, patch_energy] at h
  have hs : ({ problemIn halves (sheet patch) with
      shell := { shell halves.length halves.tension halves.force patch with
        tris := patch.tris.map (triElem halves.length halves.pressure) } } : Problem) =
      sheet (shell halves.length halves.pressure (halves.length * halves.pressure) patch) := by
    simp [problemIn, sheet, shell, patch, show halves.time = 1 from rfl]
  have hx : (fun _ : ℕ => (0 : V3 ℝ)) = scale halves.velocity fun _ => 0 := by
    funext i
    simp [scale]
  have ht : halves.time = halves.time * 1 := (mul_one _).symm
  rw [hs, sheet_energy, hx, ht, show halves.velocity = halves.length / halves.time from rfl,
    shell_energy_scale halves.length_pos halves.time_pos.ne' rfl, patch_energy] at h
  norm_num [halves, System.energy, System.pressure] at h

/-- C107 fails for the default stiffness of contacts: it is the inverse of the tolerance, which is a length,
whatever the units are. -/
theorem units_stiffness_violated : ∃ (U : System) (p : Setup.Params), p.stiffness = 0 ∧ p.tolerance > 0 ∧
    Setup.initialStiffness { p with
        stiffness := U.tension * p.stiffness, tolerance := U.length * p.tolerance } ≠
      (Setup.initialStiffness p).map (U.tension * ·) := by
  refine ⟨halves, { Setup.Params.default with tolerance := 1 }, rfl, one_pos, ?_⟩
  norm_num [Setup.initialStiffness, Setup.Params.default, halves, System.tension]

/-- C107 fails for the value of the objective: in a scene with a volume zone the reported energies differ by a
constant. -/
theorem units_objective_violated : ∃ (U : System) (S : Rubbing) (x : ℕ → V3 ℝ), ¬ S.isStatic ∧
    (rubbingIn U S).objective 1 0 (fun _ => 0) (fun _ => 0) (scale U.length x) (fun _ => 0) ≠
      (S.objective 1 0 (fun _ => 0) (fun _ => 0) x fun _ => 0).map (U.energy * ·) := by
  let S : Rubbing := { sheet ⟨[], [], fun _ _ => 0⟩ with
    volumes := [Frame.lid], contacts := [], numVertices := 3, numActive := 3, frictions := [] }
  have hst : ¬ S.isStatic := by simp [S, Problem.isStatic, sheet]
  refine ⟨lighter, S, Frame.lidX, hst, fun h => ?_⟩
  have h1 := units_objective_partial (U := lighter) S (fun _ => rfl) 1 0 (fun _ => 0) (fun _ => 0) Frame.lidX
    fun _ => 0
  have hz : ∀ k : ℝ, scale k (fun _ : ℕ => (0 : V3 ℝ)) = fun _ => 0 := by
    intro k
    funext i
    simp [scale]
  rw [hz, hz, h] at h1
  have h2 : S.objective 1 0 (fun _ => 0) (fun _ => 0) Frame.lidX (fun _ => 0) ≠ none := by
    have e1 : S.energy Frame.lidX (fun _ => 0) (S.dt * 1) ≠ none := by
      unfold Rubbing.energy Touching.energy Volume.Sealed.energy
      have e2 : S.toProblem.energy Frame.lidX (fun _ => 0) (S.dt * 1) = some 0 := by
        show (sheet ⟨[], [], fun _ _ => 0⟩).energy _ _ _ = _
        rw [sheet_energy]
        simp [Shell.energy, sumEnergies]
      rw [e2]
      exact Option.some_ne_none _
    obtain ⟨e, he⟩ := Option.ne_none_iff_exists'.1 e1
    unfold Rubbing.objective
    simp only [he]
    exact Option.some_ne_none _
  obtain ⟨e, he⟩ := Option.ne_none_iff_exists'.1 h2
  rw [he, Option.map_some, Option.map_some, Option.some.injEq] at h1
  norm_num [zoneConstant, S, Frame.lid, Volume.pressureAtm, lighter, System.energy] at h1

/-! ## Examples -/

/-- Centimetres, milliseconds and grams instead of metres, seconds and kilograms. -/
def cgm : System := ⟨100, 1000, 1000, by norm_num, by norm_num, by norm_num⟩

/-- The soft tetrahedron with two kinds of friction, in centimetres, milliseconds and grams. -/
example (fm pm : ℝ) (prev v0 v : ℕ → V3 ℝ) :
    (grippingIn cgm (exGrip (coulomb (3 / 10)) false)).residual fm pm (scale cgm.force prev)
        (scale cgm.velocity v0) (scale cgm.length demoX) (scale cgm.velocity v) =
      ((exGrip (coulomb (3 / 10)) false).residual fm pm prev v0 demoX v).map
        fun p => (scale cgm.impulse p.1, scale cgm.force p.2) :=
  units_residual_partial _ (fun h => absurd h (by simp [Problem.isStatic, exGrip, exTouch, exTet])) fm pm prev v0 demoX v

/-- A solid, a shell and a closed zone under pressure. -/
example (x v : ℕ → V3 ℝ) (q : ℝ) :
    (sealedIn cgm (Volume.exSealed true)).force (scale cgm.length x) (scale cgm.velocity v) (cgm.time * q) =
      ((Volume.exSealed true).force x v q).map (scale cgm.force) :=
  sealed_force _ x v q

/-- A falling scene in centimetres, milliseconds and grams is a simulation. -/
example : Frame.Run (fun _ => grippingIn cgm Frame.fallScene) (1 / 2) (1 / 2)
    (fun n => scale cgm.length fun i => IEdge.exPos i + Frame.fallShift n)
    (fun n => scale cgm.velocity fun _ => ⟨1, 2, 3⟩ + ((n : ℝ) / 60) • exProblem.gravity)
    fun _ => scale cgm.force fun i => -(exProblem.mass i • exProblem.gravity) :=
  units_run_partial (fun _ => Frame.fallScene)
    (fun _ h => absurd h (by simp [Problem.isStatic, Frame.fallScene, exProblem])) (1 / 2) (1 / 2) _ _ _
    Frame.fall_run

end Softy.Units
