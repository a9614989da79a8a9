import Verif.Props.DerivativeTest

/-!
# C109: problems that are rejected although their results are as designed, and errors that are accepted
-/

noncomputable section

namespace Softy.DerivativeTest

open Softy Fem Contact Filter Assembly Volume

/-! ## Zones -/

/-- The surface of the soft tetrahedron as a zone that is at rest. -/
def restZone (approx : Bool) (c : ℝ) : Penalty :=
  { topo := tetFaces ![0, 2, 1, 4], restVolume := 1 / 6, pressurization := 1, compression := c, approx := approx }

/-- The soft tetrahedron with the zone. -/
def zoneTouch (approx : Bool) (c : ℝ) : Touching :=
  { exTet with volumes := [restZone approx c], contacts := [], numVertices := 5, numActive := 5 }

def zoneRub (approx : Bool) (c : ℝ) : Rubbing := { zoneTouch approx c with frictions := [] }

def zoneGrip (approx : Bool) (c : ℝ) : Gripping := { zoneTouch approx c with grips := [] }

/-- The vertices of the tetrahedron. -/
def zoneX : ℕ → V3 ℝ
  | 1 => ⟨1, 0, 0⟩
  | 2 => ⟨0, 1, 0⟩
  | 4 => ⟨0, 0, 1⟩
  | _ => 0

theorem zone_surface (a : Bool) (c : ℝ) : IsSurface (restZone a c).topo [![0, 2, 1, 4]] := fun f _ _ => by
  simp [restZone]

theorem zone_touch_within (a : Bool) (c : ℝ) : (zoneTouch a c).Within := by
  refine ⟨⟨exTet_within.1, fun P hP => ?_⟩, ?_, ?_, ?_, ?_, ?_⟩
  · have : P = restZone a c := by simpa [zoneTouch] using hP
    subst this
    intro t ht n
    simp only [restZone, tetFaces, List.mem_cons, List.not_mem_nil, or_false] at ht
    rcases ht with rfl | rfl | rfl | rfl <;> fin_cases n <;> simp [zoneTouch]
  all_goals simp [zoneTouch]

theorem zone_within (a : Bool) (c : ℝ) : (zoneGrip a c).Within :=
  ⟨zone_touch_within a c, fun L hL => by simp [zoneGrip] at hL, fun F hF => by simp [zoneGrip] at hF⟩

theorem zone_rub_within (a : Bool) (c : ℝ) : (zoneRub a c).Within :=
  ⟨zone_touch_within a c, fun L hL => by simp [zoneRub] at hL, fun F hF => by simp [zoneRub] at hF⟩

theorem zone_dt (a : Bool) (c : ℝ) : (zoneGrip a c).dt = 1 / 60 := by
  have h : (zoneGrip a c).timeStep = 1 / 60 := rfl
  unfold Problem.dt
  rw [if_neg (by unfold Problem.isStatic; rw [h]; norm_num), h]

theorem zone_steady (a : Bool) (c : ℝ) (x v : ℕ → V3 ℝ) : (zoneGrip a c).Steady x v :=
  ⟨fun L hL => by simp [zoneGrip] at hL, fun F hF => by simp [zoneGrip] at hF⟩

theorem zone_proper (a : Bool) (c : ℝ) (hc : 0 < c) : ∀ P ∈ (zoneGrip a c).volumes, P.Proper := by
  intro P hP
  have : P = restZone a c := by simpa [zoneGrip, zoneTouch] using hP
  subst this
  simp [Penalty.Proper, restZone, hc.ne']

/-- The scene as it is tested. -/
def zoneTest (a : Bool) (c : ℝ) : Tested :=
  ofScene (zoneRub a c) (zoneGrip a c) 1 0 (fun _ => 0) (fun _ => 0) zoneX

theorem zone_place (a : Bool) (c : ℝ) : place zoneX ((zoneGrip a c).dt * 1) still = zoneX := by
  funext i
  ext <;> simp [place, still]

theorem zone_gradient (a : Bool) (c : ℝ) (hc : 0 < c) :
    ∃ g, HasGradient (zoneTest a c) still g (coord g) :=
  scene_gradient (zoneRub a c) (zoneGrip a c) rfl (zone_rub_within a c) (by show (0 : ℝ) ≤ 1 / 60; norm_num)
    (le_refl 5) (zone_proper a c hc) (fun L hL => by simp [zoneRub] at hL) 1 0 one_pos _ _ _ _ (exTet_smooth _)
    (fun C hC => by simp [zoneGrip, zoneTouch] at hC)

/-- The residual does not depend on how the Hessian is computed. -/
theorem zone_residual (c : ℝ) (u : ℕ → V3 ℝ) : (zoneTest true c).residual u = (zoneTest false c).residual u := rfl

theorem zone_jacobian (a : Bool) (c : ℝ) (row : ℕ) (hr : row < 15) (col : ℕ) (hcol : col < 15) :
    IsPartial (fun u => ((zoneTest a c).residual u).map fun r => coord r row) still col
      (Sparse.storedEntry ((zoneTest false c).triplets still) (row, col)) := by
  have e : (fun u => ((zoneTest a c).residual u).map fun r => coord r row) =
      fun u => ((zoneTest false c).residual u).map fun r => coord r row := by
    cases a
    · rfl
    · rfl
  rw [e]
  exact scene_jacobian (zoneRub false c) (zoneGrip false c) (zone_within false c) exTet_distinct
    (by show (0 : ℝ) ≤ 1 / 60; norm_num) (le_refl 5) (fun P hP => by
      have : P = restZone false c := by simpa [zoneGrip, zoneTouch] using hP
      subst this
      rfl) 1 0 one_pos _ _ _ _ (exTet_smooth _) (fun C hC => by simp [zoneGrip, zoneTouch] at hC)
    (zone_steady _ _ _ _) row hr col hcol

/-- The normals of the zone. -/
def zoneN : ℕ → V3 ℝ
  | 0 => ⟨-1, -1, -1⟩
  | 1 => ⟨1, 0, 0⟩
  | 2 => ⟨0, 1, 0⟩
  | 4 => ⟨0, 0, 1⟩
  | _ => 0

theorem zone_normal (a : Bool) (c : ℝ) (i : ℕ) (hi : i < 5) :
    vertexNormal (restZone a c).topo zoneX i = zoneN i := by
  interval_cases i <;>
  · unfold vertexNormal vertexSum
    ext <;> simp [restZone, tetFaces, zipCell, Penalty.normals, zoneX, zoneN, V3.cross, List.finRange_succ]

theorem zone_volume (a : Bool) (c : ℝ) : signedVolume (restZone a c).topo zoneX = 1 / 6 := by
  simp [signedVolume, restZone, tetFaces, zoneX, V3.cross, V3.dot]

theorem zone_dv (a : Bool) (c : ℝ) : (restZone a c).dv zoneX = 0 := by
  unfold Penalty.dv
  rw [zone_volume]
  simp [restZone]

/-- The triplets of a scene without contacts and friction. -/
theorem free_triplets (R : Rubbing) (G : Gripping) (h1 : G.grips = []) (h2 : G.contacts = []) (fm pm : ℝ)
    (prev v0 x0 v : ℕ → V3 ℝ) : (ofScene R G fm pm prev v0 x0).triplets v =
      G.toSealed.jacobianIndices.zip
        (G.toSealed.jacobianValues (place x0 (G.dt * fm) v) v (G.dt * fm) (G.dt * fm)) := by
  show (G.jacobianIndices (place x0 (G.dt * fm) v) v).zip (G.jacobianValues (place x0 (G.dt * fm) v) v
    (G.dt * fm) (G.dt * fm) _) = _
  unfold Gripping.jacobianIndices Gripping.jacobianValues Touching.jacobianIndices Touching.jacobianValues
  rw [h1, h2]
  rfl

theorem zone_triplets (a : Bool) (c : ℝ) (i : ℕ) : Sparse.storedEntry ((zoneTest a c).triplets still) (i, 3) =
    Sparse.storedEntry (exTet.toProblem.jacobianIndices.zip
        (exTet.toProblem.jacobianValues zoneX still (1 / 60) (1 / 60))) (i, 3) +
      if a then 0 else 1 / 3600 * (pressureAtm / (c * 6) * coord (vertexNormal (restZone a c).topo zoneX) i) := by
  have h := sealed_jacobian_mul (zoneTouch a c).toSealed 5 (zone_touch_within a c).1 exTet_distinct zoneX still
    (unitAt 3) (1 / 60) (1 / 60) i
  have hm : ∀ f : ℕ → ℝ, ∑ j ∈ Finset.range (3 * 5), f j * coord (unitAt 3) j = f 3 := by
    intro f
    simp [coord_unitAt]
  rw [hm, hm] at h
  have ht : (zoneTest a c).triplets still = (zoneTouch a c).toSealed.jacobianIndices.zip
      ((zoneTouch a c).toSealed.jacobianValues zoneX still (1 / 60) (1 / 60)) := by
    have e := free_triplets (zoneRub a c) (zoneGrip a c) rfl rfl 1 0 (fun _ => 0) (fun _ => 0) zoneX still
    rw [zone_place, zone_dt, mul_one] at e
    exact e
  rw [ht, h]
  congr 1
  have hv : (zoneTouch a c).volumes = [restZone a c] := rfl
  rw [hv, List.map_singleton, List.sum_singleton, triplets_mul]
  have hf : (restZone a c).factor zoneX = 0 := by
    unfold Penalty.factor
    rw [zone_dv]
    simp
  have hd : ((restZone a c).topo.map fun f => ∑ n, V3.dot (Penalty.normals f zoneX n) (unitAt 3 (f n))).sum = 1 := by
    simp [restZone, tetFaces, Penalty.normals, zoneX, unitAt, V3.cross, V3.dot, Fin.sum_univ_three]
  rw [hf, zero_mul, zero_add, hd]
  have ha : (restZone a c).approx = a := rfl
  rw [ha]
  cases a
  · rw [if_neg (by simp), if_neg (by simp), show (restZone false c).compression = c from rfl,
      show (restZone false c).pressurization = 1 from rfl, show (restZone false c).restVolume = 1 / 6 from rfl]
    norm_num
  · simp

theorem zone_coord (a : Bool) (c : ℝ) (i : ℕ) (hi : i < 15) :
    |coord (vertexNormal (restZone a c).topo zoneX) i| ≤ 1 := by
  unfold coord
  rw [zone_normal a c (i / 3) (by omega)]
  interval_cases i <;> simp [zoneN, V3.get]

/-- **C109 is false** of zones with the sparse approximation of the Hessian, which is the default: whenever the
compression of the zone is small enough, the second level rejects a scene at rest, where the other levels accept it
and where the exact Hessian is accepted. Which error is returned depends on whether `./out` can be written. -/
theorem test_volume_violated : ∃ c0 > 0, ∀ c, 0 < c → c ≤ c0 →
    (zoneTest false c).check 2 true still = .ok ∧ (zoneTest true c).check 1 true still = .ok ∧
    ∀ level, 2 ≤ level → (zoneTest true c).check level true still = .failure ∧
      (zoneTest true c).check level false still = .io := by
  set A : ℕ → ℝ := fun i => Sparse.storedEntry (exTet.toProblem.jacobianIndices.zip
        (exTet.toProblem.jacobianValues zoneX still (1 / 60) (1 / 60))) (i, 3) with hA
  set a := ∑ i ∈ Finset.range 15, |A i| with ha
  have ha0 : 0 ≤ a := Finset.sum_nonneg fun _ _ => abs_nonneg _
  refine ⟨101325 / 21600 / (1 + a), by positivity, fun c hc hc0 => ?_⟩
  obtain ⟨g, hg⟩ := zone_gradient true c hc
  obtain ⟨g', hg'⟩ := zone_gradient false c hc
  have ag : ∀ b r e : ℝ, 0 ≤ e → Agree b b r e := fun b r e he => by
    unfold Agree
    rw [sub_self, abs_zero]
    exact le_max_of_le_left he
  have hok : GradientAgrees (zoneTest true c) g (coord g) := fun i _ => ag _ _ _ (by norm_num)
  have hD : HasDerivatives (zoneTest true c) still g (coord g)
      (fun row col => Sparse.storedEntry ((zoneTest false c).triplets still) (row, col)) :=
    ⟨hg, fun row hr col hcol => zone_jacobian true c row hr col hcol⟩
  refine ⟨test_accepts _ still g' (coord g')
    (fun row col => Sparse.storedEntry ((zoneTest false c).triplets still) (row, col))
    ⟨hg', fun row hr col hcol => zone_jacobian false c row hr col hcol⟩ (fun _ _ => rfl) (fun _ _ _ _ => rfl) 2 true,
    (test_gradient _ still g _ hg true).1.2 hok, ?_⟩
  set κ : ℝ := 101325 / 21600 / c with hκ
  have hκa : 1 + a ≤ κ := by
    rw [hκ, le_div_iff₀ hc]
    rwa [le_div_iff₀ (by positivity), mul_comm] at hc0
  set n : ℕ → ℝ := coord (vertexNormal (restZone false c).topo zoneX) with hn
  have hn1 : ∀ i < 15, |n i| ≤ 1 := fun i hi => zone_coord false c i hi
  have hn3 : n 3 = 1 := by
    rw [hn]
    unfold coord
    rw [zone_normal false c _ (by norm_num)]
    simp [zoneN, V3.get]
  have e1 : ∀ i, Sparse.storedEntry ((zoneTest false c).triplets still) (i, 3) = A i + κ * n i := by
    intro i
    rw [zone_triplets, if_neg (by simp)]
    have : pressureAtm = 101325 := rfl
    rw [hκ, this]
    congr 1
    show _ = _ * n i
    rw [← hn]
    generalize n i = m
    field_simp
    ring
  have e2 : ∀ i, Sparse.storedEntry ((zoneTest true c).triplets still) (i, 3) = A i := by
    intro i
    rw [zone_triplets, if_pos rfl, add_zero]
  have hnot : ¬ JacobianAgrees (zoneTest true c) still
      (fun row col => Sparse.storedEntry ((zoneTest false c).triplets still) (row, col)) := by
    intro h
    have h3 := h 3 (by show 3 < 3 * 5; norm_num) 3 (by show 3 < 3 * 5; norm_num)
    have hnn : (zoneTest true c).n = 15 := rfl
    simp only [e1, e2, hnn, hn3, mul_one] at h3
    unfold Agree at h3
    have hk0 : 0 < κ := by linarith
    have hl : |A 3 - (A 3 + κ)| = κ := by
      rw [show A 3 - (A 3 + κ) = -κ by ring, abs_neg, abs_of_pos hk0]
    have hA3 : |A 3| ≤ a := Finset.single_le_sum (f := fun i => |A i|) (fun _ _ => abs_nonneg _)
      (Finset.mem_range.2 (by norm_num : 3 < 15))
    have hsq : Real.sqrt (∑ i ∈ Finset.range 15, (A i + κ * n i) ^ 2) ≤ 15 * (a + κ) := by
      have hb : ∀ i ∈ Finset.range 15, (A i + κ * n i) ^ 2 ≤ (a + κ) ^ 2 := by
        intro i hi
        rw [← sq_abs]
        refine pow_le_pow_left₀ (abs_nonneg _) ?_ 2
        have h1 : |A i| ≤ a := Finset.single_le_sum (f := fun i => |A i|) (fun _ _ => abs_nonneg _) hi
        have h2 : |κ * n i| ≤ κ := by
          rw [abs_mul, abs_of_pos hk0]
          exact mul_le_of_le_one_right hk0.le (hn1 i (Finset.mem_range.1 hi))
        exact (abs_add_le _ _).trans (add_le_add h1 h2)
      have hs := Finset.sum_le_sum hb
      rw [Finset.sum_const, Finset.card_range, nsmul_eq_mul] at hs
      refine Real.sqrt_le_iff.2 ⟨by positivity, hs.trans ?_⟩
      push_cast
      nlinarith [sq_nonneg (a + κ)]
    have hle : 1e-5 * max 1 (Real.sqrt (∑ i ∈ Finset.range 15, (A i + κ * n i) ^ 2)) ≤ 1e-5 * (30 * κ) := by
      refine mul_le_mul_of_nonneg_left (max_le (by linarith) (by linarith)) (by norm_num)
    have hle2 : 1e-6 * max |A 3| |A 3 + κ| ≤ 1e-6 * (2 * κ) := by
      refine mul_le_mul_of_nonneg_left (max_le (by linarith) ?_) (by norm_num)
      have := abs_add_le (A 3) κ
      rw [abs_of_pos hk0] at this
      linarith
    rw [hl] at h3
    have := h3.trans (max_le_max hle hle2)
    rw [le_max_iff] at this
    rcases this with h | h <;> norm_num at h <;> linarith
  intro level hl
  have hg1 : (zoneTest true c).gradientOk still := (gradientOk_iff hg).2 hok
  have hj : ¬ (zoneTest true c).jacobianOk still := fun h => hnot ((jacobianOk_iff hD).1 h)
  unfold Tested.check
  constructor
  · rw [if_neg (by omega), if_neg (by omega)]
    simp [hj]
  · rw [if_neg (by omega), if_neg (by omega)]
    simp [hj]

/-! ## Friction -/

theorem tet_alone (x v : ℕ → V3 ℝ) (q : ℝ) (f : ℕ → V3 ℝ) (h : exTet.toProblem.force x v q = some f) : f 3 = 0 := by
  have h1 : ∀ G, tetGradient .nh exTet.nh x v q G = some fun i => G i + (fun _ => (0 : V3 ℝ)) i := fun G => by
    simp [exTet, tetGradient, collect, addAll]
  set e : TetElem := ⟨![0, 1, 2, 4], ⟨⟨⟨1, 0, 0⟩, ⟨0, 1, 0⟩, ⟨0, 1, 1⟩⟩, 1 / 6, 2, 1⟩, 1⟩ with he
  have hsn : exTet.snh = [e] := rfl
  cases hg : e.gradient .snh x v q with
  | none =>
    have h2 : ∀ G, tetGradient .snh exTet.snh x v q G = none := fun G => by
      simp [hsn, tetGradient, collect, hg]
    unfold Problem.force at h
    rw [h1, Option.bind_some, h2] at h
    simp at h
  | some l =>
    have h2 : ∀ G, tetGradient .snh exTet.snh x v q G =
        some fun i => G i + (fun i => ((zipCell e.cell l).map fun p => if p.1 = i then p.2 else 0).sum) i := fun G => by
      simp only [hsn, tetGradient, collect, hg, List.map_cons, List.map_nil, Option.map_some, List.zip_cons_cons,
        List.zip_nil_right, List.flatMap_cons, List.flatMap_nil, List.append_nil]
      congr 1
      funext i
      exact addAll_apply _ _ _
    have hf := Fem.force_eq exTet.toProblem x v q _ _ h1 h2
    rw [h, Option.some.injEq] at hf
    rw [hf]
    have hm : exTet.toProblem.mass 3 = 0 := by
      unfold Problem.mass vertexMass
      simp [Problem.nhBodies, Problem.snhBodies, Problem.shellBodies, tetBodies, triBodies, exTet, Fin.sum_univ_four]
    have hs : exTet.shell.gradient x v q (fun _ => 0) 3 = 0 := by
      simp [exTet, Shell.gradient, addAll]
    dsimp only
    rw [hm, hs]
    simp [he, zipCell, List.finRange_succ]

theorem contact_upward : (demo.subtractForce demoX (fun _ => 0) 3).x = 0 := by
  have hx : ∀ l : List (V3 ℝ), (∀ a ∈ l, a.x = 0) → l.sum.x = 0 := by
    intro l hl
    induction l with
    | nil => rfl
    | cons a l ih =>
      rw [List.sum_cons, V3.add_x, hl a List.mem_cons_self, ih fun b hb => hl b (List.mem_cons_of_mem _ hb), add_zero]
  unfold Pair.subtractForce
  rw [Pair.foldl_get, V3.sub_x, hx _ ?_]
  · simp
  · intro a ha
    obtain ⟨b, hb, rfl⟩ := List.mem_map.1 ha
    obtain ⟨hb, hcol⟩ := List.mem_filter.1 hb
    have hcol : b.col = 3 := by simpa using hcol
    rw [V3.smul_x]
    rcases List.mem_append.1 hb with hb | hb
    · exfalso
      unfold Pair.objectBlocks at hb
      rw [if_neg (by simp [demo])] at hb
      obtain ⟨p, -, rfl⟩ := List.mem_map.1 hb
      have : (if p.1.2 < 3 then p.1.2 else 0) = 3 := hcol
      split at this <;> omega
    · unfold Pair.colliderBlocks at hb
      rw [if_neg (by simp [demo])] at hb
      obtain ⟨p, hp, rfl⟩ := List.mem_map.1 hb
      have := (List.of_mem_zip hp).2
      unfold Pair.queryBlocks at this
      rw [demo_active, List.map_singleton, List.mem_singleton, demo_flat.gradient, Option.getD_some] at this
      rw [this, mul_zero]

/-- The soft tetrahedron and the vertex that slides above it, with lagged friction only. -/
def slideGrip (p : Friction.Params) : Gripping := { exTouch demo with grips := [.lagged ⟨demo, demoX, 3, p⟩] }

/-- The scene as it is tested. -/
def slideTest (μ : ℝ) : Tested :=
  ofScene (exRub (coulomb μ)) (slideGrip (coulomb μ)) 1 0 (fun _ => 0) (fun _ => 0) slideX

theorem rub_dt (p : Friction.Params) : (exRub p).dt = 1 / 60 := by
  have h : (exRub p).timeStep = 1 / 60 := rfl
  unfold Problem.dt
  rw [if_neg (by unfold Problem.isStatic; rw [h]; norm_num), h]

theorem slide_power (μ : ℝ) : demo.slidePower (coulomb μ) demoX demoV demoV = μ * (3 / 2) := by
  rw [demo.slidePower_eq _ _ _ _ μ rfl rfl rfl, show demo.active.length = 1 from rfl, Finset.sum_range_one, demo_lambda,
    demo_speed, demo_slide]
  have hs : (coulomb μ).profile.s 1 (coulomb μ).epsilon = 1 := by
    norm_num [coulomb, Friction.Profile.s, Friction.quadraticProfile]
  rw [hs]
  norm_num [V2.dot]

/-- The scalar of the residual along which the vertex slides. -/
theorem slide_residual (μ : ℝ) (h0 : 0 < μ) (r f : ℕ → V3 ℝ)
    (h : (exRub (coulomb μ)).residual 1 0 (fun _ => 0) (fun _ => 0) demoX demoV = some (r, f)) :
    coord r 9 = μ / 40 := by
  have hn : ¬ (coulomb μ).isNone := by simp [coulomb, Friction.Params.isNone, h0.ne']
  have hdt := rub_dt (coulomb μ)
  cases hf : exTet.toProblem.force demoX demoV (1 / 60 * 1) with
  | none =>
    exfalso
    have h1 : (exRub (coulomb μ)).toSealed.force demoX demoV ((exRub (coulomb μ)).dt * 1) = none := by
      rw [hdt]
      show (exTet.toProblem.force demoX demoV (1 / 60 * 1)).map _ = none
      rw [hf]
      rfl
    rw [mul_one] at h1
    simp [Rubbing.residual, Rubbing.force, Touching.force, h1] at h
  | some f0 =>
    obtain ⟨r0, hr0, hr⟩ := Fem.residual_eq exTet.toProblem 1 0 (fun _ => 0) (fun _ => 0) demoX demoV f0 (by
      have : exTet.toProblem.dt = 1 / 60 := hdt
      rw [this]
      exact hf)
    have h1 := Sealed.residual_eq (exRub (coulomb μ)).toSealed 1 0 _ _ demoX demoV r0 f0 hr0
    have h2 := (exRub (coulomb μ)).toTouching.residual_eq 1 0 _ _ demoX demoV _ _ h1
    have h3 := (exRub (coulomb μ)).residual_eq 1 0 _ _ demoX demoV _ _ h2
    rw [h, Option.some.injEq, Prod.mk.injEq] at h3
    have hm : exTet.toProblem.mass 3 = 0 := by
      unfold Problem.mass vertexMass
      simp [Problem.nhBodies, Problem.snhBodies, Problem.shellBodies, tetBodies, triBodies, exTet, Fin.sum_univ_four]
    have hr3 : r0 3 = 0 := by
      rw [hr, tet_alone _ _ _ _ hf, hm]
      simp
    have hp3 : (exRub (coulomb μ)).pressure demoX 3 = 0 := by
      unfold Sealed.pressure
      simp [exRub, exTouch, exTet]
    have hc3 : ((exRub (coulomb μ)).contactForce demoX 3).x = 0 := by
      have : (exRub (coulomb μ)).contactForce demoX 3 = demo.subtractForce demoX (fun _ => 0) 3 + 0 := rfl
      rw [this, V3.add_x, contact_upward]
      simp
    have hf3 : ((exRub (coulomb μ)).frictionForce demoV 3).x = μ * (3 / 2) := by
      have e : (exRub (coulomb μ)).frictionForce demoV 3 =
        demo.subtractFriction 3 (coulomb μ) demoX demoV (fun _ => 0) 3 + 0 := rfl
      rw [e, add_zero, ← slide_power μ, ← demo.subtractFriction_power demo_distinct _ hn,
        Finset.sum_eq_single_of_mem 3 (by simp)]
      · simp [demoV, V3.dot]
      · intro i _ hi
        simp [demoV, hi, V3.dot]
    show (r 3).x = _
    rw [h3.1]
    simp only [hr3, hp3, V3.add_x, V3.smul_x, hc3, hf3, hdt, V3.zero_x]
    ring

theorem slide_gradient (μ : ℝ) (h0 : 0 < μ) : ∃ g D, HasGradient (slideTest μ) demoV g D ∧
    coord g 9 = μ / 40 ∧ D 9 = 1 / 40 := by
  classical
  set S := exRub (coulomb μ) with hS
  have hL : S.frictions = [⟨demo, demoX, 3, coulomb μ⟩] := rfl
  have hn : ¬ (coulomb μ).isNone := by simp [coulomb, Friction.Params.isNone, h0.ne']
  have hdt : S.dt = 1 / 60 := rub_dt _
  have hx : place slideX (S.dt * 1) demoV = demoX := by rw [hdt]; exact slideX_place
  have key : ∀ w : ℕ → V3 ℝ, (∀ i, 5 ≤ i → w i = 0) → ∃ (W : ℝ → ℝ) (r f : ℕ → V3 ℝ),
      (∀ᶠ s in nhds 0, S.objective 1 0 (fun _ => 0) (fun _ => 0)
        (place slideX (S.dt * 1) fun k => demoV k + s • w k) (fun k => demoV k + s • w k) = some (W s)) ∧
      S.residual 1 0 (fun _ => 0) (fun _ => 0) demoX demoV = some (r, f) ∧
      HasDerivAt W (∑ i ∈ Finset.range 5, V3.dot (r i) (w i) + (1 - μ) * (S.dt * 1) *
          ∑ k ∈ Finset.range demo.active.length, (demo.lambda demoX).getD k 0 *
            (coulomb μ).profile.s (demo.slide demoX demoV k).norm (coulomb μ).epsilon *
            V2.dot (demo.slide demoX demoV k) (demo.slide demoX w k)) 0 := by
    intro w hw
    have hv0 : (fun k => demoV k + (0 : ℝ) • w k) = demoV := by funext k; rw [zero_smul, add_zero]
    obtain ⟨W, r, f, h2, h3, h4⟩ := S.objective_rate (exRub_within _ (coulomb_valid _ h0.le))
      (by show (0 : ℝ) ≤ 1 / 60; norm_num) (fun P hP => by simp [hS, exRub, exTouch, exTet] at hP) 1 0 one_pos
      (fun _ => 0) (fun _ => 0) slideX (fun s k => demoV k + s • w k) w 0 (fun _ => HasD.line _ _) hw
      (by rw [hv0, hx]; exact exTet_smooth _) (by rw [hv0, hx]; exact demo_touching_regular) (fun L hL' => by
        rw [hL, List.mem_singleton] at hL'
        rw [hL']
        exact Or.inr ⟨rfl, rfl⟩)
    rw [hv0, hx] at h3
    refine ⟨W, r, f, h2, h3, h4.congr_deriv ?_⟩
    rw [hL, List.map_cons, List.map_nil, List.sum_cons, List.sum_nil, add_zero, if_neg hn, hv0]
    rfl
  obtain ⟨-, g, f, -, hg, -⟩ := key 0 fun _ _ => rfl
  have hg9 := slide_residual μ h0 g f hg
  refine ⟨g, fun i => coord g i + (1 - μ) * (S.dt * 1) *
          ∑ k ∈ Finset.range demo.active.length, (demo.lambda demoX).getD k 0 *
            (coulomb μ).profile.s (demo.slide demoX demoV k).norm (coulomb μ).epsilon *
            V2.dot (demo.slide demoX demoV k) (demo.slide demoX (unitAt i) k), ⟨?_, ?_⟩, hg9, ?_⟩
  · show (S.residual 1 0 (fun _ => 0) (fun _ => 0) (place slideX (S.dt * 1) demoV) demoV).map Prod.fst = some g
    rw [hx, hg, Option.map_some]
  · intro i hi
    have hi' : i < 3 * 5 := hi
    obtain ⟨W, r, f', h1, h2, h3⟩ := key (unitAt i) fun k hk => by
      unfold unitAt; rw [if_neg (by omega)]
    rw [hg, Option.some.injEq, Prod.mk.injEq] at h2
    rw [dot_unitAt _ _ _ (by omega), ← h2.1] at h3
    exact ⟨W, h1, h3⟩
  · dsimp only
    rw [← demoV_unit, show demo.active.length = 1 from rfl, Finset.sum_range_one, demo_lambda, demo_speed, demo_slide,
      hg9, hdt]
    have hs : (coulomb μ).profile.s 1 (coulomb μ).epsilon = 1 := by
      norm_num [coulomb, Friction.Profile.s, Friction.quadraticProfile]
    rw [hs]
    simp only [List.getD_cons_zero, V2.dot]
    ring

/-- **C109 is false** of lagged friction: whatever the coefficient of friction is, unless it is none or close to one,
there is a scene that all levels reject. -/
theorem test_friction_violated (μ : ℝ) (h0 : 0 < μ) (h1 : 1e-3 ≤ |μ - 1|) (level : ℕ) (hl : 1 ≤ level) (saved : Bool) :
    (slideTest μ).check level saved demoV ≠ .ok := by
  obtain ⟨g, D, hg, h2, h3⟩ := slide_gradient μ h0
  have hnot : ¬ (slideTest μ).gradientOk demoV := by
    rw [gradientOk_iff hg]
    intro h
    have h9 := h 9 (by show 9 < 3 * 5; norm_num)
    rw [h2, h3] at h9
    unfold Agree at h9
    rw [show μ / 40 - 1 / 40 = (μ - 1) / 40 by ring, abs_div, abs_of_pos (show (0 : ℝ) < 40 by norm_num),
      abs_of_pos (show 0 < μ / 40 by positivity), abs_of_pos (show (0 : ℝ) < 1 / 40 by norm_num)] at h9
    have hm : max (μ / 40) (1 / 40 : ℝ) ≤ (1 + |μ - 1|) / 40 := by
      have := le_abs_self (μ - 1)
      have := abs_nonneg (μ - 1)
      refine max_le ?_ ?_ <;> linarith
    have := h9.trans (max_le_max (le_refl _) (mul_le_mul_of_nonneg_left hm (by norm_num : (0 : ℝ) ≤ 1e-5)))
    rw [le_max_iff] at this
    norm_num at h1
    rcases this with h | h <;> norm_num at h <;> linarith
  unfold Tested.check
  rw [if_neg (by omega)]
  dsimp only
  rw [if_neg hnot]
  split_ifs <;> simp

/-- The hypotheses of `test_scene_partial` hold for a scene with contact and friction. -/
example (level : ℕ) (saved : Bool) : (slideTest 1).check level saved demoV = .ok ∧ ¬ (coulomb 1).isNone ∧
    demo.lambda demoX = [3 / 2] := by
  have hdt : (slideGrip (coulomb 1)).dt = 1 / 60 := rub_dt (coulomb 1)
  have hx : place slideX ((slideGrip (coulomb 1)).dt * 1) demoV = demoX := by rw [hdt]; exact slideX_place
  refine ⟨test_scene_partial _ _ rfl (exRub_within _ (coulomb_valid _ zero_le_one)) ⟨demo_touching, fun L hL => ?_,
    fun F hF => by simp [slideGrip] at hF⟩ exTet_distinct (by show (0 : ℝ) ≤ 1 / 60; norm_num) (le_refl 5)
    (fun P hP => by simp [slideGrip, exTouch, exTet] at hP) (fun P hP => by simp [slideGrip, exTouch, exTet] at hP)
    (fun L hL => ?_) 1 0 one_pos _ _ _ _ (exTet_smooth _) (by rw [hx]; exact demo_touching_regular)
    (by rw [hx]; exact demo_touching_smooth) ⟨fun L hL k _ => ?_, fun F hF => by simp [slideGrip] at hF⟩ level saved,
    by norm_num [coulomb, Friction.Params.isNone], demo_lambda⟩
  · have : L = ⟨demo, demoX, 3, coulomb 1⟩ := by simpa [slideGrip] using hL
    rw [this]
    exact ⟨demo_distinct, coulomb_valid _ zero_le_one⟩
  · have : L = ⟨demo, demoX, 3, coulomb 1⟩ := by simpa [exRub] using hL
    rw [this]
    exact Or.inr ⟨rfl, rfl, rfl⟩
  · have : L = ⟨demo, demoX, 3, coulomb 1⟩ := by simpa [slideGrip] using hL
    rw [this]
    exact Or.inl rfl

/-! ## The test in Newton iterations -/

/-- The entry of the matrix that the triplets assemble. -/
def entry {n nnz : ℕ} (rows cols : Fin nnz → ℕ) (vals : Fin nnz → ℝ) (i j : Fin n) : ℝ :=
  ∑ k, if rows k = i ∧ cols k = j then vals k else 0

/-- **C109.** With a direct solver, an iteration goes on if and only if the assembled matrix agrees with the products
with unit vectors, after both were multiplied by the preconditioner. -/
theorem inner_test {n nnz : ℕ} (precond : Fin n → ℝ) (rows cols : Fin nnz → ℕ) (vals : Fin nnz → ℝ)
    (product : Fin n → Fin n → ℝ) : innerOk precond rows cols vals product ↔
      ∀ i j, Agree (entry rows cols vals i j * precond i) (product j i * precond i) 1e-6 1e-3 := by
  unfold innerOk
  refine forall₂_congr fun i j => ?_
  rw [relativeEq_iff _ _ _ _ (by norm_num), dense_eq _ _ _ ⟨i.2, j.2⟩]
  have e : Sparse.storedEntry (List.ofFn fun k => ((rows k, cols k), Precond.rescaleValues precond rows vals k))
      (i.val, j.val) = entry rows cols vals i j * precond i := by
    unfold Sparse.storedEntry entry
    rw [List.map_ofFn, List.sum_ofFn, Finset.sum_mul]
    refine Finset.sum_congr rfl fun k _ => ?_
    simp only [Function.comp, Prod.mk.injEq]
    by_cases h : rows k = i ∧ cols k = j
    · rw [if_pos h, if_pos h]
      unfold Precond.rescaleValues
      rw [dif_pos (by rw [h.1]; exact i.2)]
      congr 2
      exact Fin.ext h.1
    · rw [if_neg h, if_neg h, zero_mul]
  rw [e]
  rfl

/-- **C109.** If the assembled matrix is the one that products are with, iterations go on, whatever the preconditioner
is. -/
theorem inner_accepts {n nnz : ℕ} (precond : Fin n → ℝ) (rows cols : Fin nnz → ℕ) (vals : Fin nnz → ℝ)
    (product : Fin n → Fin n → ℝ) (h : ∀ i j, product j i = entry rows cols vals i j) :
    innerOk precond rows cols vals product := by
  rw [inner_test]
  intro i j
  rw [h i j]
  unfold Agree
  rw [sub_self, abs_zero]
  exact le_max_of_le_left (by norm_num)

/-- **C109 is false** of the test in iterations: since the tolerances apply to numbers that are multiplied by the
preconditioner, it may accept an error of any size, and may reject one. -/
theorem inner_scaled_violated (M : ℝ) (hM : 0 < M) : ∃ small large : Fin 1 → ℝ,
    (∀ i, 0 < small i ∧ 0 < large i) ∧
    (innerOk small (fun _ : Fin 1 => 0) (fun _ => 0) (fun _ => M) fun _ _ => 0) ∧
    ¬ innerOk large (fun _ : Fin 1 => 0) (fun _ => 0) (fun _ => M) fun _ _ => 0 := by
  have he : ∀ i j : Fin 1, entry (fun _ : Fin 1 => 0) (fun _ => 0) (fun _ => M) i j = M := by
    intro i j
    simp [entry]
  refine ⟨fun _ => 1e-3 / M, fun _ => 1 / M, fun _ => ⟨by positivity, by positivity⟩, ?_, ?_⟩
  · rw [inner_test]
    intro i j
    rw [he]
    unfold Agree
    rw [mul_div_cancel₀ _ hM.ne', zero_mul, sub_zero]
    refine le_max_of_le_left ?_
    rw [abs_of_pos (by norm_num)]
  · rw [inner_test]
    intro h
    have := h 0 0
    rw [he] at this
    unfold Agree at this
    rw [mul_div_cancel₀ _ hM.ne', zero_mul, sub_zero] at this
    norm_num at this

/-- A matrix with an entry from two triplets, and its products. -/
example : innerOk ![2, 3] ![0, 0, 1] ![0, 0, 1] ![1, 4, 7] ![![5, 0], ![0, 7]] :=
  inner_accepts _ _ _ _ _ (by
    intro i j
    fin_cases i <;> fin_cases j <;> simp [entry, Fin.sum_univ_three] <;> norm_num)

end Softy.DerivativeTest
