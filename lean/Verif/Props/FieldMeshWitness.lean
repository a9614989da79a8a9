import Verif.Props.FieldMesh

/-!
# Potentials at many points: counterexamples and cases

Property C94.
-/

noncomputable section

namespace Softy.Field

open Softy Softy.Kernel

/-! ## Interrupts -/

/-- One sample at the origin with normal up. -/
def flatSamples : Samples := ⟨fun _ => 0, fun _ => ⟨0, 0, 1⟩, fun _ => 0, fun _ => 0⟩

theorem flat_norm (z : ℝ) (hz : 0 ≤ z) : ((⟨0, 0, z⟩ : V3 ℝ) - 0).norm = z := by
  unfold V3.norm V3.dot
  simp only [V3.sub_x, V3.sub_y, V3.sub_z, V3.zero_x, V3.zero_y, V3.zero_z]
  rw [show ((0 : ℝ) - 0) * (0 - 0) + (0 - 0) * (0 - 0) + (z - 0) * (z - 0) = z * z by ring]
  exact Real.sqrt_mul_self hz

theorem flat_unit : (⟨0, 0, 1⟩ : V3 ℝ).norm = 1 := by
  unfold V3.norm V3.dot
  norm_num

theorem flat_potential (P : BgType) (old : ℝ) :
    potentialAt ⟨0, 0, 1 / 2⟩ [0] flatSamples (.cubic 1) ⟨P, false⟩ old = 1 / 2 := by
  have hc : closestSample ⟨0, 0, 1 / 2⟩ flatSamples [0] = some 0 := rfl
  unfold potentialAt
  rw [local_eq _ hc]
  have hb : (bgAt (.cubic 1) ⟨P, false⟩ ⟨0, 0, 1 / 2⟩ [0] flatSamples 0 (some old)).bgWeight = 0 := by
    change backgroundWeight (.cubic 1) false ((⟨0, 0, 1 / 2⟩ : V3 ℝ) - 0).norm = 0
    rw [flat_norm _ (by norm_num)]
    unfold backgroundWeight
    simp only [Kern.radius]
    norm_num
  have hw : weight (.cubic 1) ((⟨0, 0, 1 / 2⟩ : V3 ℝ) - 0).norm ⟨0, 0, 1 / 2⟩ flatSamples 0 = 1 / 2 := by
    change cubicF 1 ((⟨0, 0, 1 / 2⟩ : V3 ℝ) - 0).norm = 1 / 2
    rw [flat_norm _ (by norm_num)]
    simp only [cubicF, Scal.val, lit, Scal.ofReal]
    norm_num
  have hs : (bgAt (.cubic 1) ⟨P, false⟩ ⟨0, 0, 1 / 2⟩ [0] flatSamples 0 (some old)).weightSumInv = 2 := by
    have : (bgAt (.cubic 1) ⟨P, false⟩ ⟨0, 0, 1 / 2⟩ [0] flatSamples 0 (some old)).weightSum = 1 / 2 := by
      change ([0].map (weight (.cubic 1) ((⟨0, 0, 1 / 2⟩ : V3 ℝ) - 0).norm ⟨0, 0, 1 / 2⟩ flatSamples)).sum +
        (bgAt (.cubic 1) ⟨P, false⟩ ⟨0, 0, 1 / 2⟩ [0] flatSamples 0 (some old)).bgWeight = 1 / 2
      rw [hb, List.map_singleton, List.sum_singleton, hw, add_zero]
    unfold Bg.weightSumInv
    rw [this]
    norm_num
  simp only
  unfold Bg.weightedField localPotentialAt
  rw [hb, hs, List.map_singleton, List.sum_singleton]
  change _ + weight (.cubic 1) ((⟨0, 0, 1 / 2⟩ : V3 ℝ) - 0).norm ⟨0, 0, 1 / 2⟩ flatSamples 0 *
    (0 + V3.dot ⟨0, 0, 1⟩ ((⟨0, 0, 1 / 2⟩ : V3 ℝ) - 0) / (⟨0, 0, 1⟩ : V3 ℝ).norm) * 2 = _
  rw [hw, flat_unit]
  simp [V3.dot]

/-- A query for two points above the sample. -/
def flatTopo : Topo := ⟨flatSamples, .cubic 1, ⟨.zero, false⟩, [[0], [0]]⟩

def flatPoints : List (V3 ℝ) := [⟨0, 0, 1 / 2⟩, ⟨0, 0, 1 / 2⟩]

/-- The code violates the property: a query goes on after `interrupt` answered `true` if `interrupt` answers `false`
again. -/
theorem interrupt_halts_violated : ∃ poll, poll 0 = true ∧ ¬ Halts poll := by
  refine ⟨fun n => n == 0, rfl, fun h => ?_⟩
  have := h flatTopo flatPoints [0, 0] _ _ [0, 1] (List.Perm.refl _) rfl 0 1 1 rfl (by norm_num) rfl
  have e : (parLoop (flatTopo.task flatPoints) (fun n => n == 0) 0 [0, 1] [0, 0]).1[1]? =
      some (potentialAt ⟨0, 0, 1 / 2⟩ [0] flatSamples (.cubic 1) ⟨.zero, false⟩ 0) := rfl
  have := e.symm.trans this
  rw [flat_potential] at this
  norm_num at this

/-- The hypotheses of `potential_par_interrupt` and `interrupt_halts_partial` can be met: the first task computes its
value, the second is interrupted. -/
example : ∃ out ok, flatTopo.potentialPar (fun n => decide (1 ≤ n)) [1, 0] flatPoints [7, 8] = some (out, ok) ∧
    ok = false ∧ out = [7, 1 / 2] := by
  refine ⟨_, _, rfl, rfl, ?_⟩
  have e : (parLoop (flatTopo.task flatPoints) (fun n => decide (1 ≤ n)) 0 [1, 0] [7, 8]).1 =
      [7, potentialAt ⟨0, 0, 1 / 2⟩ [0] flatSamples (.cubic 1) ⟨.zero, false⟩ 8] := rfl
  refine e.trans ?_
  rw [flat_potential]

example : [1, 0].Perm (List.range (flatTopo.numTasks flatPoints)) ∧ flatTopo.views.length = [(7 : ℝ), 8].length ∧
    flatPoints.length ≤ [(7 : ℝ), 8].length := ⟨List.Perm.swap 0 1 [], rfl, le_refl _⟩

/-- A query in which the first of two points has no neighbors. -/
example : ({ flatTopo with views := [[], [0]] } : Topo).nonemptyIndices = [1] := rfl

/-! ## Meshes -/

open Classical in
/-- The sample as a surface with distance based background. -/
def flatSurface : MeshSurface :=
  ⟨flatSamples, 1, .cubic 1, ⟨.distanceBased, false⟩, fun q => if q.norm ≤ 1 then [0] else [], fun _ => 0⟩

theorem flat_reach : flatSurface.reach ⟨0, 0, 1 / 2⟩ = [0] := by
  refine if_pos ?_
  have := flat_norm (1 / 2) (by norm_num)
  rw [sub_zero] at this
  rw [this]
  norm_num

theorem onMesh_exists (M : MeshSurface) (rnd : ℝ → ℝ) (pos : List (V3 ℝ)) (a : PotentialAttrib) :
    ∃ out, OnMesh M rnd pos a out := by
  refine ⟨_, List.range pos.length, List.Perm.refl _, Prod.ext rfl ?_⟩
  exact (mesh_interrupt M rnd pos a (fun _ => false) _ (List.Perm.refl _)).1.2 fun _ _ => rfl

/-- Specification: the potential on a mesh is the potential that queries give at its vertices. -/
def MeshAgrees (M : MeshSurface) : Prop :=
  ∀ (pos : List (V3 ℝ)) (a : PotentialAttrib) (out : List MeshVertex), OnMesh M id pos a out →
    (M.topo pos).potential pos ((List.range pos.length).map a.init) = some (out.map MeshVertex.potential)

/-- The code violates the property: beyond the neighborhoods, where the background field is the distance to the closest
sample, the potential on a mesh is this distance, and queries leave the value that was there. -/
theorem mesh_far_violated : ¬ MeshAgrees flatSurface := by
  intro h
  obtain ⟨out, ho⟩ := onMesh_exists flatSurface id [⟨0, 0, 5⟩] .absent
  have h5 : (⟨0, 0, 5⟩ : V3 ℝ).norm = 5 := by
    have := flat_norm 5 (by norm_num)
    rwa [sub_zero] at this
  have he : flatSurface.reach ⟨0, 0, 5⟩ = [] := if_neg (by rw [h5]; norm_num)
  obtain ⟨o, res, hoi, hres, hri, hp⟩ := mesh_potential_far flatSurface id [⟨0, 0, 5⟩] .absent ho
    (i := 0) rfl he (r := 1) rfl (by
      change 1 < ((⟨0, 0, 5⟩ : V3 ℝ) - 0).norm
      rw [flat_norm 5 (by norm_num)]
      norm_num)
  have := Option.some.inj (hres.symm.trans (h _ _ _ ho))
  rw [this, List.getElem?_map, hoi, Option.map_some, hp] at hri
  have e : (0 : ℝ) = ((⟨0, 0, 5⟩ : V3 ℝ) - 0).norm := by
    have h2 := (Option.some.inj hri).symm
    refine h2.trans (if_neg ?_)
    change ¬ V3.dot ⟨0, 0, 1⟩ ((⟨0, 0, 5⟩ : V3 ℝ) - 0) < 0
    simp [V3.dot]
  rw [flat_norm 5 (by norm_num)] at e
  norm_num at e

theorem flat_regular : Regular (.cubic 1) ⟨.distanceBased, false⟩ ⟨0, 0, 1 / 2⟩ [0] flatSamples 0 where
  proper := one_pos
  nodup := by simp
  mem := by simp
  closest := fun i hi hne => absurd (by simpa using hi) hne
  edge := fun r hr => by
    cases hr
    change ((⟨0, 0, 1 / 2⟩ : V3 ℝ) - 0).norm ≠ 1
    rw [flat_norm _ (by norm_num)]
    norm_num
  kink := fun r eps h => by cases h
  center := Or.inl trivial
  normals := fun i _ h => by
    have := congrArg V3.z h
    simp [flatSamples] at this
  tangent := fun _ h => by
    rcases h with h | ⟨r, hr, h⟩
    · cases h
    · cases hr
      change 1 < ((⟨0, 0, 1 / 2⟩ : V3 ℝ) - 0).norm at h
      rw [flat_norm _ (by norm_num)] at h
      norm_num at h
  mixed := fun h => by cases h

/-- The hypotheses of `mesh_normals_partial`, and of `mesh_potential`, can be met. -/
example : ∃ out o, OnMesh flatSurface id [⟨0, 0, 1 / 2⟩] (.numeric fun _ => 3) out ∧ out[0]? = some o ∧
    ∀ old, HasDerivAt (fun s : ℝ => potentialAt ((⟨0, 0, 1 / 2⟩ : V3 ℝ) + s • ⟨1, 0, 2⟩) [0] flatSamples (.cubic 1)
      ⟨.distanceBased, false⟩ old) (V3.dot o.normal ⟨1, 0, 2⟩) 0 := by
  obtain ⟨out, ho⟩ := onMesh_exists flatSurface id [⟨0, 0, 1 / 2⟩] (.numeric fun _ => 3)
  have e : (⟨0, 0, 1 / 2⟩ : V3 ℝ) + (0 : ℝ) • ⟨1, 0, 2⟩ = ⟨0, 0, 1 / 2⟩ := by ext <;> simp
  obtain ⟨o, hoi, hd⟩ := mesh_normals_partial flatSurface [⟨0, 0, 1 / 2⟩] (.numeric fun _ => 3) ho (i := 0) (c := 0)
    (q := fun s : ℝ => (⟨0, 0, 1 / 2⟩ : V3 ℝ) + s • ⟨1, 0, 2⟩) (q' := ⟨1, 0, 2⟩) (t := 0)
    (by simp only [e]; rfl) (HasD.line _ _)
    (by simp only [e]; rw [flat_reach]; exact flat_regular) rfl
    (by
      intro r hr
      cases hr
      simp only [e]
      change ((⟨0, 0, 1 / 2⟩ : V3 ℝ) - 0).norm ≤ 1
      rw [flat_norm _ (by norm_num)]
      norm_num)
    (fun _ _ => flat_unit) (fun _ _ => rfl)
    (by
      intro j hj
      simp only [e, flat_reach, List.mem_singleton] at hj
      subst hj
      exact Nat.one_pos)
    (by
      intro j hj hn
      simp only [e, flat_reach, List.mem_singleton] at hn
      exact absurd (Nat.lt_one_iff.1 hj) hn)
  refine ⟨out, o, ho, hoi, fun old => ?_⟩
  have := hd old
  simp only [e, flat_reach] at this
  exact this

/-! ## Normals -/

/-- A sheet of two triangles, one in the plane `z = 0` and one, of twice the area, in the plane `y = 0`. -/
def bentVerts : ℕ → V3 ℝ
  | 0 => ⟨0, 0, 0⟩
  | 1 => ⟨2, 0, 0⟩
  | 2 => ⟨1, 3 / 2, 0⟩
  | _ => ⟨1, 0, 3⟩

def bentTris : ℕ → Tri
  | 0 => ⟨0, 1, 2⟩
  | _ => ⟨1, 0, 3⟩

/-- The surface with a sample for each face. -/
def bentSurface : MeshSurface :=
  ⟨faceSamples bentTris bentVerts fun _ => 0, 2, .cubic 2, ⟨.zero, false⟩, fun _ => [0, 1], fun _ => 0⟩

/-- The middle of the edge that the triangles share. -/
def bentPoint : V3 ℝ := ⟨1, 0, 0⟩

theorem bent_pos0 : bentSurface.S.pos 0 = ⟨1, 1 / 2, 0⟩ := by
  ext <;> simp [bentSurface, faceSamples, bentTris, bentVerts] <;> norm_num

theorem bent_pos1 : bentSurface.S.pos 1 = ⟨1, 0, 1⟩ := by
  ext <;> simp [bentSurface, faceSamples, bentTris, bentVerts]
  norm_num

theorem bent_nml0 : bentSurface.S.nml 0 = ⟨0, 0, 3⟩ := by
  ext <;> simp [bentSurface, faceSamples, bentTris, bentVerts, areaNormal, V3.cross]
  norm_num

theorem bent_nml1 : bentSurface.S.nml 1 = ⟨0, 6, 0⟩ := by
  ext <;> simp [bentSurface, faceSamples, bentTris, bentVerts, areaNormal, V3.cross]
  norm_num

theorem bent_norm0 : (bentPoint - bentSurface.S.pos 0).norm = 1 / 2 := by
  rw [bent_pos0]
  unfold V3.norm V3.dot bentPoint
  simp only [V3.sub_x, V3.sub_y, V3.sub_z]
  rw [show ((1 : ℝ) - 1) * (1 - 1) + (0 - 1 / 2) * (0 - 1 / 2) + (0 - 0) * (0 - 0) = (1 / 2) * (1 / 2) by ring]
  exact Real.sqrt_mul_self (by norm_num)

theorem bent_norm1 : (bentPoint - bentSurface.S.pos 1).norm = 1 := by
  rw [bent_pos1]
  unfold V3.norm V3.dot bentPoint
  simp only [V3.sub_x, V3.sub_y, V3.sub_z]
  norm_num

theorem bent_regular : Regular bentSurface.k bentSurface.P bentPoint [0, 1] bentSurface.S 0 where
  proper := two_pos (α := ℝ)
  nodup := by simp
  mem := by simp
  closest := fun i hi hne => by
    have : i = 1 := by simp at hi; omega
    subst this
    rw [bent_norm0, bent_norm1]
    norm_num
  edge := fun r hr => by
    cases hr
    rw [bent_norm0]
    norm_num
  kink := fun r eps h => by cases h
  center := Or.inl trivial
  normals := fun i hi h => by
    have : i = 0 ∨ i = 1 := by simpa using hi
    rcases this with rfl | rfl
    · rw [bent_nml0] at h
      have := congrArg V3.z h
      simp at this
    · rw [bent_nml1] at h
      have := congrArg V3.y h
      simp at this
  tangent := fun h => by cases h
  mixed := fun h => by cases h

theorem bent_weight0 : weight (.cubic 2) (1 / 2) bentPoint bentSurface.S 0 = 27 / 32 := by
  change cubicF 2 (bentPoint - bentSurface.S.pos 0).norm = _
  rw [bent_norm0]
  simp only [cubicF, Scal.val, lit, Scal.ofReal]
  norm_num

theorem bent_weight1 : weight (.cubic 2) (1 / 2) bentPoint bentSurface.S 1 = 1 / 2 := by
  change cubicF 2 (bentPoint - bentSurface.S.pos 1).norm = _
  rw [bent_norm1]
  simp only [cubicF, Scal.val, lit, Scal.ofReal]
  norm_num

theorem bent_inv (v : Option ℝ) :
    (bgAt bentSurface.k bentSurface.P bentPoint [0, 1] bentSurface.S 0 v).weightSumInv = 32 / 43 := by
  have : (bgAt bentSurface.k bentSurface.P bentPoint [0, 1] bentSurface.S 0 v).weightSum = 43 / 32 := by
    change ([0, 1].map (weight (.cubic 2) (bentPoint - bentSurface.S.pos 0).norm bentPoint bentSurface.S)).sum +
      backgroundWeight (.cubic 2) false (bentPoint - bentSurface.S.pos 0).norm = _
    rw [bent_norm0]
    simp only [List.map_cons, List.map_nil, List.sum_cons, List.sum_nil, bent_weight0, bent_weight1, backgroundWeight,
      Kern.radius]
    norm_num
  unfold Bg.weightSumInv
  rw [this]
  norm_num

/-- Specification: the normals on a mesh are parallel to the gradient of the potential: where the normal is
perpendicular to the velocity of a query point, the potential does not change, and conversely. -/
def NormalsParallel (M : MeshSurface) : Prop :=
  ∀ (pos : List (V3 ℝ)) (a : PotentialAttrib) (out : List MeshVertex), OnMesh M id pos a out →
    ∀ (i c : ℕ) (o : MeshVertex) (q q' : V3 ℝ) (d : ℝ), pos[i]? = some q → out[i]? = some o →
      Regular M.k M.P q (M.reach q) M.S c →
      HasDerivAt (fun s : ℝ => potentialAt (q + s • q') (M.reach q) M.S M.k M.P 0) d 0 →
      (d = 0 ↔ V3.dot o.normal q' = 0)

/-- The code violates the property: normals of faces are not of length one, and the normals of a mesh are sums that are
weighted by area, the potential is not. -/
theorem mesh_normals_violated : ¬ NormalsParallel bentSurface := by
  intro h
  obtain ⟨out, ho⟩ := onMesh_exists bentSurface id [bentPoint] .absent
  have hv := onMesh_vertex ho (i := 0) (q := bentPoint) rfl
  obtain ⟨hcl, -⟩ := regular_weighable (q := fun _ => bentPoint) (S := fun _ => bentSurface.S) (t := 0) bent_regular
  have e : bentPoint + (0 : ℝ) • (⟨0, 27, -16⟩ : V3 ℝ) = bentPoint := by ext <;> simp
  obtain ⟨J, hJ, hd⟩ := query_jacobian (k := bentSurface.k) (P := bentSurface.P) (view := [0, 1]) (c := 0) (t := 0)
    (old := 0) (fun s : ℝ => bentPoint + s • (⟨0, 27, -16⟩ : V3 ℝ)) ⟨0, 27, -16⟩ bentSurface.S none
    (by simp only [e]; exact bent_regular) (HasD.line _ _)
  simp only [e] at hJ
  have h0 : V3.dot ⟨0, 0, 3⟩ (bentPoint - bentSurface.S.pos 0) = 0 := by
    rw [bent_pos0]; simp [V3.dot, bentPoint]
  have h1 : V3.dot ⟨0, 6, 0⟩ (bentPoint - bentSurface.S.pos 1) = 0 := by
    rw [bent_pos1]; simp [V3.dot, bentPoint]
  have n0 : (⟨0, 0, 3⟩ : V3 ℝ).norm = 3 := by
    unfold V3.norm V3.dot
    rw [show (0 : ℝ) * 0 + 0 * 0 + 3 * 3 = 3 * 3 by ring]
    exact Real.sqrt_mul_self (by norm_num)
  have n1 : (⟨0, 6, 0⟩ : V3 ℝ).norm = 6 := by
    unfold V3.norm V3.dot
    rw [show (0 : ℝ) * 0 + 6 * 6 + 0 * 0 = 6 * 6 by ring]
    exact Real.sqrt_mul_self (by norm_num)
  have hJ' : J = ⟨0, 16 / 43, 27 / 43⟩ := by
    unfold queryJacobianAt at hJ
    rw [new_eq none none hcl] at hJ
    have hJ := (Option.some.inj hJ).symm
    have hq : (bgAt bentSurface.k bentSurface.P bentPoint [0, 1] bentSurface.S 0 none).queryJacobian = 0 := by
      have hb : (bgAt bentSurface.k bentSurface.P bentPoint [0, 1] bentSurface.S 0 none).bgWeight = 0 := by
        change backgroundWeight (.cubic 2) false (bentPoint - bentSurface.S.pos 0).norm = 0
        rw [bent_norm0]
        simp only [backgroundWeight, Kern.radius]
        norm_num
      have hw : (bgAt bentSurface.k bentSurface.P bentPoint [0, 1] bentSurface.S 0 none).weighted = false := rfl
      unfold Bg.queryJacobian
      simp only [hb, hw, zero_mul]
      ext <;> simp
    refine hJ.trans ?_
    dsimp only
    rw [hq]
    unfold sampleQueryJacobian
    dsimp only
    rw [bent_inv none]
    generalize neighborWeightGrad _ = g
    simp only [List.map_cons, List.map_nil, List.sum_cons, List.sum_nil]
    simp only [bgAt, Bg.newImpl, ClosestIndex.get, bent_norm0]
    rw [show bentSurface.k = .cubic 2 from rfl, bent_weight0, bent_weight1, bent_nml0, bent_nml1, n0, n1]
    have z0 : bentSurface.S.value 0 + V3.dot ((1 / (3 : ℝ)) • (⟨0, 0, 3⟩ : V3 ℝ)) (bentPoint - bentSurface.S.pos 0) =
        0 := by
      rw [dot_smul_left, h0, mul_zero, add_zero]
      rfl
    have z1 : bentSurface.S.value 1 + V3.dot ((1 / (6 : ℝ)) • (⟨0, 6, 0⟩ : V3 ℝ)) (bentPoint - bentSurface.S.pos 1) =
        0 := by
      rw [dot_smul_left, h1, mul_zero, add_zero]
      rfl
    rw [z0, z1]
    ext <;> simp <;> norm_num
  have key := h [bentPoint] .absent out ho 0 0 _ bentPoint ⟨0, 27, -16⟩ _ rfl hv bent_regular hd
  have hz : V3.dot J ⟨0, 27, -16⟩ = 0 := by
    rw [hJ']
    simp only [V3.dot]
    norm_num
  have hn := key.1 hz
  have hnormal : (bentSurface.vertex id bentPoint (MeshVertex.init (PotentialAttrib.init .absent 0))).normal =
      ⟨0, 96 / 43, 81 / 43⟩ := by
    unfold MeshSurface.vertex
    have hr : bentSurface.reach bentPoint = [0, 1] := rfl
    simp only [hr, List.isEmpty_cons, MeshVertex.init, id]
    rw [global_eq _ hcl]
    change meshNormal _ _ = _
    unfold meshNormal
    dsimp only
    rw [bent_inv]
    generalize (32 / 43 : ℝ) • List.sum (α := V3 ℝ) _ = g
    simp only [bgAt, Bg.newImpl, ClosestIndex.get, bent_norm0, List.map_cons, List.map_nil, List.sum_cons,
      List.sum_nil]
    rw [show bentSurface.k = .cubic 2 from rfl, bent_weight0, bent_weight1, bent_nml0, bent_nml1,
      dot_symm (bentPoint - bentSurface.S.pos 0), dot_symm (bentPoint - bentSurface.S.pos 1), h0, h1]
    ext <;> simp <;> norm_num
  rw [hnormal] at hn
  simp only [V3.dot] at hn
  norm_num at hn

end Softy.Field
