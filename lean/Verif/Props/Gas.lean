import Verif.Props.Volume

/-!
# C122: volume zones behave as if they were filled by a gas

`P.forces` is what `subtract_pressure_force` adds to a vector, so the force of the zone on vertex `v` is
`-P.forces x v`.
-/

noncomputable section

namespace Softy.Volume

open Softy Assembly Fem

/-! ## Specification -/

/-- The area vector of a triangle: normal to it, as long as its area is large. -/
def areaVector (x : ℕ → V3 ℝ) (t : Fin 3 → ℕ) : V3 ℝ :=
  (1 / 2 : ℝ) • V3.cross (x (t 1) - x (t 0)) (x (t 2) - x (t 0))

/-- What a unit of pressure inside of the surface exerts on vertex `v`: a third of the area vectors of
the triangles at the vertex. -/
def load (topo : List (Fin 3 → ℕ)) (x : ℕ → V3 ℝ) (v : ℕ) : V3 ℝ :=
  (topo.map fun t => ∑ n, if t n = v then (1 / 3 : ℝ) • areaVector x t else 0).sum

/-- The pressure (in Pa) inside of a zone minus that outside if the zone encloses volume `V`: `b` is the
pressurization, `V₀` the rest volume and `k` the compression. -/
def excess (b V₀ k V : ℝ) : ℝ := 101325 / k * (1 - V / (b * V₀))

/-! ## The pressure -/

theorem vertexNormal_eq (topo : List (Fin 3 → ℕ)) (x : ℕ → V3 ℝ) (v : ℕ) :
    vertexNormal topo x v =
      (topo.map fun t => ∑ n, if t n = v then Penalty.normals t x n else 0).sum := by
  unfold vertexNormal
  rw [vertexSum_flatMap]
  simp only [vertexSum_zipCell]

theorem load_eq {topo : List (Fin 3 → ℕ)} (h : Closed topo) (x : ℕ → V3 ℝ) (v : ℕ) :
    (6 : ℝ) • load topo x v = vertexNormal topo x v := by
  let f : ℕ → ℕ → V3 ℝ := fun a b =>
    (if a = v then V3.cross (x a) (x b) else 0) - if b = v then V3.cross (x b) (x a) else 0
  have hz := closed_sum h f fun a b => by simp only [f]; rw [neg_sub]
  have key : ∀ l : List (Fin 3 → ℕ), (6 : ℝ) • load l x v =
      vertexNormal l x v + ((edges l).map fun e => f e.1 e.2).sum := by
    intro l
    rw [vertexNormal_eq]
    unfold load
    induction l with
    | nil => simp [edges]
    | cons t l ih =>
      simp only [edges, List.flatMap_cons, List.map_append, List.sum_append, List.map_cons,
        List.sum_cons, smul_add] at ih ⊢
      rw [ih]
      have : (6 : ℝ) • (∑ n, if t n = v then (1 / 3 : ℝ) • areaVector x t else 0) =
          (∑ n, if t n = v then Penalty.normals t x n else 0) +
            (f (t 0) (t 1) + (f (t 1) (t 2) + (f (t 2) (t 0) + 0))) := by
        simp only [Fin.sum_univ_three, Penalty.normals, Matrix.cons_val, f, areaVector]
        by_cases h0 : t 0 = v <;> by_cases h1 : t 1 = v <;> by_cases h2 : t 2 = v <;>
          simp only [h0, h1, h2, if_true, if_false] <;> ext <;> simp [V3.cross] <;> ring
      rw [this]
      simp only [List.map_nil, List.sum_nil]
      abel
  rw [key, hz, add_zero]

/-- C122. The zone pushes on its closed surface as a uniform pressure does, which depends on the
enclosed volume only. -/
theorem uniform_pressure (P : Penalty) (h : Closed P.topo) (x : ℕ → V3 ℝ) (v : ℕ) :
    -P.forces x v =
      excess P.pressurization P.restVolume P.compression (signedVolume P.topo x) •
        load P.topo x v := by
  rw [forces_eq, ← load_eq h, smul_smul, ← neg_smul]
  congr 1
  unfold Penalty.factor Penalty.dv excess pressureAtm
  ring

theorem excess_pos_iff {b V₀ k V : ℝ} (hb : 0 < b) (h0 : 0 < V₀) (hk : 0 < k) :
    0 < excess b V₀ k V ↔ V < b * V₀ := by
  unfold excess
  rw [mul_pos_iff_of_pos_left (by positivity), sub_pos, div_lt_one (by positivity)]

theorem excess_neg_iff {b V₀ k V : ℝ} (hb : 0 < b) (h0 : 0 < V₀) (hk : 0 < k) :
    excess b V₀ k V < 0 ↔ b * V₀ < V := by
  unfold excess
  rw [← neg_pos, ← mul_neg, mul_pos_iff_of_pos_left (by positivity), neg_sub, sub_pos,
    one_lt_div (by positivity)]

/-- C122. The pressure decreases with the volume, is that of the surroundings exactly at the rest
volume times the pressurization, and is above it for smaller volumes and below it for larger ones. -/
theorem pressure_sign {b V₀ k : ℝ} (hb : 0 < b) (h0 : 0 < V₀) (hk : 0 < k) :
    StrictAnti (excess b V₀ k) ∧ ∀ V,
      (0 < excess b V₀ k V ↔ V < b * V₀) ∧ (excess b V₀ k V = 0 ↔ V = b * V₀) ∧
      (excess b V₀ k V < 0 ↔ b * V₀ < V) := by
  refine ⟨fun V W hVW => ?_, fun V => ⟨excess_pos_iff hb h0 hk, ?_, excess_neg_iff hb h0 hk⟩⟩
  · unfold excess
    refine mul_lt_mul_of_pos_left (sub_lt_sub_left ?_ 1) (by positivity)
    exact div_lt_div_of_pos_right hVW (by positivity)
  · unfold excess
    rw [mul_eq_zero, or_iff_right (by positivity), sub_eq_zero, eq_comm, div_eq_one_iff_eq (by positivity)]

/-- C122. Where the surface yields to the pressure, the volume changes toward the rest volume times the
pressurization. -/
theorem restores_volume (P : Penalty) (hb : 0 < P.pressurization) (h0 : 0 < P.restVolume)
    (hk : 0 < P.compression) (N : ℕ) (hN : Within P.topo N) (x : ℕ → V3 ℝ) (v : ℕ)
    (hv : P.forces x v ≠ 0) :
    ∃ V', HasDerivAt (fun s : ℝ => signedVolume P.topo fun i => x i + s • -P.forces x i) V' 0 ∧
      (signedVolume P.topo x < P.pressurization * P.restVolume → 0 < V') ∧
      (P.pressurization * P.restVolume < signedVolume P.topo x → V' < 0) := by
  have hx : ∀ i, HasD (fun s : ℝ => x i + s • -P.forces x i) (-P.forces x i) 0 := by
    intro i
    have := (HasD.const (t := 0) (x i)).add
      (HasD.smul (hasDerivAt_id (0 : ℝ)) (HasD.const (t := 0) (-P.forces x i)))
    refine this.congr ?_
    ext <;> simp
  have hd := volume_hasDerivAt P.topo _ _ 0 hx
  refine ⟨_, hd, ?_⟩
  simp only [zero_smul, add_zero]
  have hw := normals_work P.topo N hN x fun i => -P.forces x i
  change (_ → 0 < (P.topo.map fun f => ∑ n, V3.dot (Penalty.normals f x n) (-P.forces x (f n))).sum / 6) ∧
    (_ → (P.topo.map fun f => ∑ n, V3.dot (Penalty.normals f x n) (-P.forces x (f n))).sum / 6 < 0)
  rw [← hw]
  have hne : P.factor x ≠ 0 ∧ vertexNormal P.topo x v ≠ 0 := by
    rw [forces_eq] at hv
    exact ⟨fun h => hv (by rw [h, zero_smul]), fun h => hv (by rw [h, smul_zero])⟩
  have hvN : v ∈ Finset.range N := by
    by_contra hc
    apply hne.2
    rw [vertexNormal_eq]
    have : (P.topo.map fun t => ∑ n, if t n = v then Penalty.normals t x n else 0) =
        P.topo.map fun _ => 0 := by
      refine List.map_congr_left fun t ht => Finset.sum_eq_zero fun n _ => ?_
      rw [if_neg]
      intro e
      exact hc (by rw [← e]; exact Finset.mem_range.2 (hN t ht n))
    rw [this]
    simp
  have e : ∑ i ∈ Finset.range N, V3.dot (vertexNormal P.topo x i) (-P.forces x i) =
      -P.factor x * ∑ i ∈ Finset.range N, V3.dot (vertexNormal P.topo x i) (vertexNormal P.topo x i) := by
    rw [Finset.mul_sum]
    refine Finset.sum_congr rfl fun i _ => ?_
    rw [forces_eq]
    simp [V3.dot]
    ring
  have nn : ∀ a : V3 ℝ, 0 ≤ V3.dot a a := fun a => by unfold V3.dot; nlinarith [sq_nonneg a.x, sq_nonneg a.y, sq_nonneg a.z]
  have hpos : 0 < ∑ i ∈ Finset.range N, V3.dot (vertexNormal P.topo x i) (vertexNormal P.topo x i) := by
    refine Finset.sum_pos' (fun i _ => nn _) ⟨v, hvN, ?_⟩
    exact lt_of_le_of_ne (nn _) fun h => hne.2 (V3.dot_self_eq_zero.1 h.symm)
  rw [e]
  have hf : -P.factor x = excess P.pressurization P.restVolume P.compression (signedVolume P.topo x) / 6 := by
    unfold Penalty.factor Penalty.dv excess pressureAtm
    ring
  rw [hf]
  constructor
  · intro h
    have := (excess_pos_iff (k := P.compression) hb h0 hk).2 h
    positivity
  · intro h
    have := (excess_neg_iff (k := P.compression) hb h0 hk).2 h
    have := mul_pos (neg_pos.2 this) hpos
    linarith

/-- C122. The energy is least exactly where the volume is the rest volume times the pressurization, and a
bound of the energy bounds the change of the volume: by less the smaller the compression is. -/
theorem energy_least (P : Penalty) (hb : 0 < P.pressurization) (h0 : 0 < P.restVolume)
    (hk : 0 < P.compression) (x : ℕ → V3 ℝ) :
    101325 * P.restVolume ≤ P.energy x ∧
    (P.energy x = 101325 * P.restVolume ↔
      signedVolume P.topo x = P.pressurization * P.restVolume) ∧
    ∀ E, P.energy x ≤ 101325 * P.restVolume + E →
      (signedVolume P.topo x - P.pressurization * P.restVolume) ^ 2 ≤
        2 * P.compression * (P.pressurization * P.restVolume) * E / 101325 := by
  have e : P.energy x = 101325 * P.restVolume + 101325 *
      (signedVolume P.topo x - P.pressurization * P.restVolume) ^ 2 /
        (2 * P.compression * (P.pressurization * P.restVolume)) := by
    unfold Penalty.energy Penalty.dv pressureAtm
    field_simp
    ring
  rw [e]
  refine ⟨?_, ?_, fun E hE => ?_⟩
  · have : 0 ≤ 101325 * (signedVolume P.topo x - P.pressurization * P.restVolume) ^ 2 /
        (2 * P.compression * (P.pressurization * P.restVolume)) := by positivity
    linarith
  · rw [add_eq_left, div_eq_zero_iff, or_iff_left (by positivity), mul_eq_zero,
      or_iff_right (by norm_num), sq_eq_zero_iff, sub_eq_zero]
  · have h1 : 101325 * (signedVolume P.topo x - P.pressurization * P.restVolume) ^ 2 /
        (2 * P.compression * (P.pressurization * P.restVolume)) ≤ E := by linarith
    rw [div_le_iff₀ (by positivity)] at h1
    rw [le_div_iff₀ (by norm_num)]
    linarith

/-- C122. Smaller compression causes stronger forces: they are inversely proportional to it. -/
theorem compression_forces (P Q : Penalty) (ht : P.topo = Q.topo) (h0 : P.restVolume = Q.restVolume)
    (hb : P.pressurization = Q.pressurization) (hP : 0 < P.compression)
    (hlt : P.compression < Q.compression) (x : ℕ → V3 ℝ) (v : ℕ) :
    P.compression • P.forces x v = Q.compression • Q.forces x v ∧
    (Q.forces x v ≠ 0 →
      V3.dot (Q.forces x v) (Q.forces x v) < V3.dot (P.forces x v) (P.forces x v)) := by
  have hQ : 0 < Q.compression := hP.trans hlt
  have e : P.compression • P.forces x v = Q.compression • Q.forces x v := by
    rw [forces_eq, forces_eq, smul_smul, smul_smul, ht]
    congr 1
    unfold Penalty.factor Penalty.dv
    rw [ht, h0, hb]
    field_simp
  refine ⟨e, fun hne => ?_⟩
  have e2 : P.compression ^ 2 * V3.dot (P.forces x v) (P.forces x v) =
      Q.compression ^ 2 * V3.dot (Q.forces x v) (Q.forces x v) := by
    have := congrArg (fun a => V3.dot a a) e
    simp only [V3.dot, V3.smul_x, V3.smul_y, V3.smul_z] at this ⊢
    linarith
  have hd : 0 < V3.dot (Q.forces x v) (Q.forces x v) := by
    refine lt_of_le_of_ne ?_ fun h => hne (V3.dot_self_eq_zero.1 h.symm)
    unfold V3.dot
    nlinarith [sq_nonneg (Q.forces x v).x, sq_nonneg (Q.forces x v).y, sq_nonneg (Q.forces x v).z]
  have hsq : P.compression ^ 2 < Q.compression ^ 2 := by
    exact pow_lt_pow_left₀ hlt hP.le (by norm_num)
  have h1 : P.compression ^ 2 * V3.dot (Q.forces x v) (Q.forces x v) <
      P.compression ^ 2 * V3.dot (P.forces x v) (P.forces x v) := by
    rw [e2]
    exact mul_lt_mul_of_pos_right hsq hd
  exact lt_of_mul_lt_mul_left h1 (by positivity)

/-! ## The pressure at rest -/

/-- C122. At rest the pressure of a zone of a mesh exceeds that of the surroundings by `1 - 1 / b`
atmospheres over the compression, where `b` is the pressurization. -/
theorem rest_pressure (surface : List (Fin 4 → ℕ) → List (Fin 3 → ℕ)) (cells : List (ℤ × CellKind))
    (x : ℕ → V3 ℝ) (ps cs : List ℝ) (as : List Bool) (n : ℕ) (P : Penalty)
    (hP : zonePenalty surface cells x ps cs as (n + 1 : ℕ) = some P)
    (hs : IsSurface (surface (solids ((cells.filter fun c => decide (c.1 = (n : ℤ) + 1)).map Prod.snd)))
      (solids ((cells.filter fun c => decide (c.1 = (n : ℤ) + 1)).map Prod.snd)))
    (hx : ∀ z v ref, (z, CellKind.solid v ref) ∈ cells → ∀ k, ref k = x (v k))
    (hc : Closed P.topo) (h0 : P.restVolume ≠ 0) (v : ℕ) :
    -P.forces x v = (101325 / cs[n]?.getD 1 * (1 - 1 / ps[n]?.getD 1)) • load P.topo x v := by
  obtain ⟨ht, hr, hp, -⟩ := (zone_penalty surface cells x ps cs as (n + 1 : ℕ)).2 P hP
  obtain ⟨hb, hk, -⟩ := hp n (by push_cast; rfl)
  rw [uniform_pressure P hc]
  congr 1
  have hV : signedVolume P.topo x = P.restVolume := by
    rw [ht, hr, rest_volume surface _ (by simpa using hs) x]
    intro v ref hm
    obtain ⟨⟨z, c⟩, hm, e⟩ := List.mem_map.1 hm
    simp only at e
    subst e
    exact hx z v ref (List.mem_filter.1 hm).1
  unfold excess
  rw [hV, hb, hk]
  congr 2
  rcases eq_or_ne (ps[n]?.getD 1) 0 with h | h
  · rw [h]; simp
  · field_simp

/-! ## What does not hold -/

/-- Positions of the vertices of a tetrahedron of which three edges have length `s`. -/
def corner (s : ℝ) : ℕ → V3 ℝ
  | 1 => ⟨s, 0, 0⟩
  | 2 => ⟨0, s, 0⟩
  | 3 => ⟨0, 0, s⟩
  | _ => 0

/-- A zone enclosed by a shell whose four triangles are given by `topo`. -/
def shellZone (topo : List (Fin 3 → ℕ)) : List (ℤ × CellKind) :=
  topo.map fun t => (1, .shell t)

/-- The outward triangles of the tetrahedron. -/
def outward : List (Fin 3 → ℕ) := [![0, 2, 1], ![0, 3, 2], ![0, 1, 3], ![1, 2, 3]]

/-- The same triangles, inside out. -/
def insideOut : List (Fin 3 → ℕ) := [![0, 1, 2], ![0, 2, 3], ![0, 3, 1], ![1, 3, 2]]

theorem insideOut_closed : Closed insideOut :=
  surface_closed (tets := [![0, 1, 2, 3]]) fun f _ _ => by simp [insideOut, tetFaces]

theorem outward_closed : Closed outward :=
  surface_closed (tets := [![0, 2, 1, 3]]) fun f h _ => by
    simp only [outward, tetFaces, List.map_cons, List.map_nil, List.sum_cons, List.sum_nil,
      Matrix.cons_val, h 1 2 3]
    ring

/-- C122. The pressurization is not the pressure at rest: if the zone of a shell is given a
pressurization of three atmospheres, and the compression of air, the pressure at rest exceeds that of the
surroundings by two thirds of an atmosphere, not by two. -/
theorem rest_pressurization_violated : ∃ P : Penalty,
    zonePenalty (fun _ => []) (shellZone outward) (corner 1) [3] [1] [] 1 = some P ∧
    Closed P.topo ∧ 0 < P.restVolume ∧
    (∀ v, -P.forces (corner 1) v = (2 / 3 * 101325 : ℝ) • load P.topo (corner 1) v) ∧
    load P.topo (corner 1) 0 ≠ 0 := by
  have hz : zonePenalty (fun _ => []) (shellZone outward) (corner 1) [3] [1] [] 1 = some
      { topo := outward, restVolume := 1 / 6, pressurization := 3, compression := 1,
        approx := true } := by
    simp [zonePenalty, shellZone, outward, CellKind.used, CellKind.tri, zoneTopo, zoneParam,
      restVolume, restStep, tetVolume, corner, V3.dot, V3.cross]
    norm_num
  refine ⟨_, hz, outward_closed, by norm_num, fun v => ?_, ?_⟩
  · rw [rest_pressure (fun _ => []) (shellZone outward) (corner 1) [3] [1] [] 0 _ hz ?_ ?_
      outward_closed (by norm_num)]
    · norm_num
    · intro f _ _
      simp [shellZone, outward, solids, CellKind.tet, List.filterMap_cons]
    · intro z v ref hm
      simp [shellZone] at hm
  · intro h
    have := congrArg V3.x h
    simp [load, outward, areaVector, corner, V3.cross, Fin.sum_univ_three] at this

/-- C122. If the triangles of a shell are inside out, the zone collapses or bursts: other volumes
than the rest volume are not penalized but preferred, and the forces on the compressed shell point
inward. -/
theorem inside_out_violated : ∃ P : Penalty,
    zonePenalty (fun _ => []) (shellZone insideOut) (corner 1) [1] [1] [] 1 = some P ∧
    Closed P.topo ∧
    (∀ x, signedVolume P.topo x ≠ signedVolume P.topo (corner 1) → P.energy x < P.energy (corner 1)) ∧
    ∀ s, 0 < s → s < 1 → 0 < (-P.forces (corner s) 0).x ∧ 0 < (-P.forces (corner s) 0).y ∧
      0 < (-P.forces (corner s) 0).z ∧ (-P.forces (corner s) 1).x < 0 := by
  have hz : zonePenalty (fun _ => []) (shellZone insideOut) (corner 1) [1] [1] [] 1 = some
      { topo := insideOut, restVolume := -(1 / 6), pressurization := 1, compression := 1,
        approx := true } := by
    simp [zonePenalty, shellZone, insideOut, CellKind.used, CellKind.tri, zoneTopo, zoneParam,
      restVolume, restStep, tetVolume, corner, V3.dot, V3.cross]
  have hV : ∀ s, signedVolume insideOut (corner s) = -(s ^ 3 / 6) := by
    intro s
    simp [signedVolume, insideOut, corner, V3.dot, V3.cross]
    ring
  refine ⟨_, hz, insideOut_closed, fun x hx => ?_, fun s h0 h1 => ?_⟩
  · simp only [hV] at hx
    simp only [Penalty.energy, Penalty.dv, hV, pressureAtm]
    have : 0 < (signedVolume insideOut x - -(1 ^ 3 / 6)) ^ 2 :=
      lt_of_le_of_ne (sq_nonneg _) fun h => hx (sub_eq_zero.1 (sq_eq_zero_iff.1 h.symm))
    norm_num at this ⊢
    nlinarith
  · rw [uniform_pressure _ insideOut_closed, uniform_pressure _ insideOut_closed]
    simp only [hV]
    have he : 0 < excess 1 (-(1 / 6)) 1 (-(s ^ 3 / 6)) := by
      have : s ^ 3 < 1 := pow_lt_one₀ h0.le h1 (by norm_num)
      unfold excess
      norm_num
      linarith
    generalize excess 1 (-(1 / 6)) 1 (-(s ^ 3 / 6)) = p at he
    simp [load, insideOut, areaVector, corner, V3.cross, Fin.sum_univ_three]
    positivity

/-! ## Examples -/

/-- The zone of a shell around a tetrahedron. -/
def exShell : Penalty :=
  { topo := outward, restVolume := 1 / 6, pressurization := 1, compression := 1, approx := true }

/-- The hypotheses of `restores_volume` hold for a shell compressed to an eighth of its volume. -/
example : Closed exShell.topo ∧ Within exShell.topo 4 ∧ 0 < exShell.pressurization ∧
    0 < exShell.restVolume ∧ 0 < exShell.compression ∧ exShell.forces (corner (1 / 2)) 0 ≠ 0 ∧
    signedVolume exShell.topo (corner (1 / 2)) < exShell.pressurization * exShell.restVolume := by
  refine ⟨outward_closed, ?_, by norm_num [exShell], by norm_num [exShell], by norm_num [exShell], ?_, ?_⟩
  · intro t ht n
    simp only [exShell, outward, List.mem_cons, List.not_mem_nil, or_false] at ht
    rcases ht with rfl | rfl | rfl | rfl <;> fin_cases n <;> simp
  · intro h
    have h1 := uniform_pressure exShell outward_closed (corner (1 / 2)) 0
    rw [h] at h1
    have h2 := congrArg V3.x h1
    simp [exShell, load, outward, areaVector, corner, V3.cross, Fin.sum_univ_three, excess, signedVolume,
      V3.dot] at h2
    norm_num at h2
  · simp [exShell, signedVolume, outward, corner, V3.dot, V3.cross]
    norm_num

end Softy.Volume
