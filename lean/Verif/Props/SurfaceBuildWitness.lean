import Verif.Props.SurfaceBuild

/-!
# Building and updating implicit surfaces: where the code differs

Property C95.
-/

noncomputable section

namespace Softy.SurfBuild

open Softy Softy.Field Softy.Kernel

/-! ## Meshes -/

/-- A triangle. -/
def tri1 : TriMesh :=
  ⟨[⟨0, 0, 0⟩, ⟨2, 0, 0⟩, ⟨0, 1, 0⟩], [⟨0, 1, 2⟩], fun _ => none, fun _ => none, fun _ => none⟩

/-- Two points, without triangles. -/
def points2 : TriMesh := ⟨[⟨0, 0, 0⟩, ⟨1, 0, 0⟩], [], fun _ => none, fun _ => none, fun _ => none⟩

/-- Nothing. -/
def empty0 : TriMesh := ⟨[], [], fun _ => none, fun _ => none, fun _ => none⟩

theorem tri1_wf : tri1.WellFormed := by
  refine ⟨fun n l h => (by cases h), fun n l h => (by cases h), fun n l h => (by cases h), fun t ht i => ?_⟩
  simp only [tri1, List.mem_singleton] at ht
  subst ht
  fin_cases i <;> simp [Tri.get, tri1]

theorem points2_wf : points2.WellFormed :=
  ⟨fun n l h => (by cases h), fun n l h => (by cases h), fun n l h => (by cases h), fun t ht => by cases ht⟩

theorem empty0_wf : empty0.WellFormed :=
  ⟨fun n l h => (by cases h), fun n l h => (by cases h), fun n l h => (by cases h), fun t ht => by cases ht⟩

/-! ## Building -/

/-- Hypotheses of `build_partial` are met: a triangle, with the default kernel. -/
example : (Builder.new.trimesh tri1).mesh.WellFormed ∧
    (∀ m, (Builder.new.trimesh tri1).mesh = .triMesh m → (Builder.new.trimesh tri1).sampleType = .vertex → m.pos ≠ [] ∧
      ((Builder.new.trimesh tri1).kernel.multiplier ≠ none → (Builder.new.trimesh tri1).baseRadius = none →
        m.faces ≠ [])) ∧
    ∀ r, IsBaseRadius (Builder.new.trimesh tri1) r → r ≠ 0 := by
  refine ⟨tri1_wf, fun m hm _ => ?_, fun r hr h0 => ?_⟩
  · cases hm
    exact ⟨by simp [tri1], fun _ _ => by simp [tri1]⟩
  · subst h0
    have h := ((Neighborhood.base_radius tri1.faces (at3 tri1.pos)).2 0 hr).1 ⟨0, 1, 2⟩ (by simp [tri1]) 0
    have hz : ((at3 tri1.pos 0 - Neighborhood.faceCenter (at3 tri1.pos) ⟨0, 1, 2⟩)).norm ≤ 0 := h
    have hn : ((at3 tri1.pos 0 - Neighborhood.faceCenter (at3 tri1.pos) ⟨0, 1, 2⟩)).norm = Real.sqrt (5 / 9) := by
      unfold V3.norm
      congr 1
      simp [Neighborhood.faceCenter, at3, tri1, V3.dot]
      norm_num
    rw [hn] at hz
    have : 0 < Real.sqrt (5 / 9 : ℝ) := Real.sqrt_pos.2 (by norm_num)
    linarith

/-- C95 is violated: for a mesh that has vertices but no triangles, sampled at vertices (the default), the builder
panics, also when it is called with the C interface. -/
theorem build_panic_violated :
    points2.WellFormed ∧ points2.pos ≠ [] ∧
    (Builder.new.trimesh points2).buildGeneric = .error .emptyMesh ∧
    ¬ BuildsIfEnough (Builder.new.trimesh points2) ∧
    ∃ p : IsoParams, isoCreate points2 p = .error .emptyMesh := by
  have h1 : (1 : ℝ) ≠ 0 := one_ne_zero
  have hl : (Builder.new.trimesh points2).buildLocal = .error .emptyMesh := by
    unfold Builder.buildLocal
    have : (Builder.new.trimesh points2).kernel.multiplier = some 1 := rfl
    simp only [this, if_neg h1]
    rfl
  have h : (Builder.new.trimesh points2).buildGeneric = .error .emptyMesh := by
    unfold Builder.buildGeneric
    have : (Builder.new.trimesh points2).buildMls = .error .emptyMesh := hl
    simp only [this]
    rfl
  refine ⟨points2_wf, by simp [points2], h, ?_,
    ⟨1 / 100000, 1, 0, .localApproximate, .zero, false, .vertex, 0⟩, ?_⟩
  · rintro ⟨o, ho, -⟩
    rw [h] at ho
    cases ho
  · unfold isoCreate mlsFromTrimesh Builder.buildMls
    have : (IsoParams.toParams ⟨1 / 100000, 1, 0, .localApproximate, .zero, false, .vertex, 0⟩) =
        ⟨.approximate 1 (1 / 100000), ⟨.zero, false⟩, .vertex, 0, none⟩ := by
      unfold IsoParams.toParams
      simp
    rw [this]
    exact hl

/-- C95 is violated: a surface is built with radius zero. -/
theorem build_zero_radius_violated :
    ∃ B : Builder, B.mesh = .triMesh tri1 ∧ tri1.WellFormed ∧ ¬ BuildsIfEnough B ∧
      ∃ s, B.buildMls = .ok (some s) ∧ s.radius = some 0 := by
  let B : Builder := { Builder.new.trimesh tri1 with baseRadius := some 0 }
  have h1 : (1 : ℝ) ≠ 0 := one_ne_zero
  have hk : B.kernel.multiplier = some 1 := rfl
  have hb : ∃ b, B.buildBase = .ok (some b) := by
    have hr := facesInRange_of tri1_wf
    unfold Builder.buildBase
    change ∃ b, (if facesInRange tri1.pos.length tri1.faces = true then _ else _) = _
    rw [if_pos hr]
    exact ⟨_, rfl⟩
  obtain ⟨b, hb⟩ := hb
  have hl : B.buildMls = .ok (some (.loc B.kernel 0 B.maxStep b)) := by
    change B.buildLocal = _
    unfold Builder.buildLocal
    simp only [hk, if_neg h1, hb]
    rfl
  refine ⟨B, rfl, tri1_wf, ?_, _, hl, ?_⟩
  · rintro ⟨o, ho, he⟩
    have hg : B.buildGeneric = .ok (some (.mls (.loc B.kernel 0 B.maxStep b))) := by
      unfold Builder.buildGeneric
      simp only [hl]
      rfl
    rw [hg] at ho
    have := he.1 (by rw [← Except.ok.inj ho]; rfl)
    obtain ⟨r, hr, h0⟩ := this.2 1 hk
    have hr : r = 0 := hr
    rw [hr, zero_mul] at h0
    exact h0 rfl
  · unfold MLS.radius
    dsimp only
    rw [hk]
    simp

/-- C95 is violated: a surface is built from a mesh without vertices, and queries of it panic. -/
theorem build_empty_violated :
    ∃ B : Builder, B.mesh = .triMesh empty0 ∧ empty0.WellFormed ∧ ¬ BuildsIfEnough B ∧
      ∃ s, B.buildMls = .ok (some s) ∧ ∀ q, s.closest [q] = .error .emptyTree := by
  let B : Builder := { Builder.new.trimesh empty0 with kernel := .global 1 }
  have hb : B.buildBase = .ok (some (B.assemble ⟨[], [], [], []⟩ [] [])) := by
    unfold Builder.buildBase
    rfl
  have hl : B.buildMls = .ok (some (.glob B.kernel (B.assemble ⟨[], [], [], []⟩ [] []))) := by
    unfold Builder.buildMls
    change (match B.buildBase with
      | Except.error e => (Except.error e : Except Panic (Option MLS))
      | Except.ok Option.none => Except.ok Option.none
      | Except.ok (some base) => Except.ok (some (MLS.glob B.kernel base))) = _
    rw [hb]
  refine ⟨B, rfl, empty0_wf, ?_, _, hl, fun q => ?_⟩
  · rintro ⟨o, ho, he⟩
    have hg : B.buildGeneric = .ok (some (.mls (.glob B.kernel (B.assemble ⟨[], [], [], []⟩ [] [])))) := by
      unfold Builder.buildGeneric
      simp only [hl]
    rw [hg] at ho
    have := he.1 (by rw [← Except.ok.inj ho]; rfl)
    exact this.1 rfl
  · exact (closest_samples _ [q]).1 ⟨rfl, by simp⟩

/-- The triangle, with the attribute `offsets` that the documentation names. -/
def triOffsets : TriMesh := { tri1 with vertexScalar := fun n => if n = "offsets" then some [1, 1, 1] else none }

/-- C95 is violated: the attribute `offsets` is ignored. -/
theorem build_offsets_violated :
    triOffsets.WellFormed ∧ triOffsets.vertexScalar "offsets" = some [1, 1, 1] ∧
      ∃ b, (Builder.new.trimesh triOffsets).buildBase = .ok (some b) ∧ b.samples.value = [0, 0, 0] := by
  have hw : triOffsets.WellFormed := by
    refine ⟨fun n l h => ?_, tri1_wf.vv, tri1_wf.fs, tri1_wf.range⟩
    unfold triOffsets at h
    dsimp only at h
    split at h
    · cases h
      rfl
    · cases h
  obtain ⟨o, ho, hs, -⟩ := buildBase_ok (Builder.new.trimesh triOffsets) hw
  obtain ⟨b, rfl⟩ := Option.isSome_iff_exists.1 (hs (by change tri1.pos ≠ []; simp [tri1]))
  refine ⟨hw, by simp [triOffsets], b, ho, ?_⟩
  have := (build_vertex_samples _ triOffsets rfl rfl hw (by simp [triOffsets, tri1]) ho).2.2.2.2.2.2.2.2.2.2
    (by simp [triOffsets])
  rw [this]
  rfl

/-! ## Changes -/

/-- The triangle, with velocities. -/
def triMoving : TriMesh :=
  { tri1 with vertexVector := fun n => if n = "V" then some (List.replicate 3 (⟨0, 0, 3⟩ : V3 ℝ)) else none }

theorem triMoving_wf : triMoving.WellFormed := by
  refine ⟨tri1_wf.vs, fun n l h => ?_, tri1_wf.fs, tri1_wf.range⟩
  unfold triMoving at h
  dsimp only at h
  split at h
  · cases h
    rfl
  · cases h

/-- The surface of the triangle with samples at faces. -/
def triFace : Builder := (Builder.new.trimesh triMoving).setSampleType .face

/-- The base of this surface. -/
def triFaceBase : Base :=
  triFace.assemble ⟨[faceCentroid tri1.pos ⟨0, 1, 2⟩], [faceNormal tri1.pos ⟨0, 1, 2⟩],
    [faceVelocity (List.replicate 3 ⟨0, 0, 3⟩) ⟨0, 1, 2⟩], [0]⟩ tri1.pos tri1.faces

theorem triFace_base : triFace.buildBase = .ok (some triFaceBase) := by
  have hV : vertexVelocities triMoving.pos triMoving.vertexVector = List.replicate 3 ⟨0, 0, 3⟩ := by
    unfold vertexVelocities triMoving
    dsimp only
    rw [if_pos rfl]
    rfl
  have e1 : triFace.mesh = .triMesh triMoving := rfl
  have e2 : triFace.sampleType = .face := rfl
  have e3 : triMoving.faces.isEmpty = false := rfl
  unfold Builder.buildBase
  simp only [e1, e2, facesInRange_of triMoving_wf, if_true, e3, hV]
  rfl

theorem triFace_normal : faceNormal tri1.pos ⟨0, 1, 2⟩ = ⟨0, 0, 2⟩ := by
  unfold faceNormal areaNormal
  ext <;> simp [at3, tri1, V3.cross]

/-- C95 is violated: a surface that was reversed is not reversed after an update, although no vertex has moved. -/
theorem update_reverse_violated :
    ∃ (B : Builder) (b : Base), B.buildBase = .ok (some b) ∧
      (b.reverse.update b.verts true).1 = (b.update b.verts true).1 ∧
      (b.reverse.update b.verts true).1.samples.nml = [⟨0, 0, 2⟩] ∧ b.reverse.samples.nml = [⟨0, 0, -2⟩] := by
  refine ⟨triFace, triFaceBase, triFace_base, rfl, ?_, ?_⟩
  · have hv : (updateVerts tri1.pos tri1.pos).1 = tri1.pos := by simp [updateVerts, tri1]
    have e : triFaceBase.verts = tri1.pos := rfl
    have e2 : triFaceBase.sampleType = .face := rfl
    have e3 : triFaceBase.topo = [⟨0, 1, 2⟩] := rfl
    unfold Base.update Base.updateSamples
    simp only [Base.reverse, e, e2, e3, hv, updateTriangleSamples, List.map_cons, List.map_nil, triFace_normal]
  · change [-(faceNormal tri1.pos ⟨0, 1, 2⟩)] = _
    rw [triFace_normal]
    congr 1
    ext <;> simp

/-- C95 is violated: samples at faces have the velocities of the mesh when the surface is built, and unit vectors along
edges after an update, although no vertex has moved. -/
theorem update_velocity_violated :
    ∃ (B : Builder) (b : Base), B.buildBase = .ok (some b) ∧ b.samples.vel = [⟨0, 0, 3⟩] ∧
      (b.update b.verts true).1.verts = b.verts ∧ (b.update b.verts true).1.samples.vel = [⟨1, 0, 0⟩] := by
  have hv : (updateVerts tri1.pos tri1.pos).1 = tri1.pos := by simp [updateVerts, tri1]
  refine ⟨triFace, triFaceBase, triFace_base, ?_, hv, ?_⟩
  · change [faceVelocity _ _] = _
    congr 1
    unfold faceVelocity
    ext <;> simp [at3]
    norm_num
  · have e : triFaceBase.verts = tri1.pos := rfl
    have e2 : triFaceBase.sampleType = .face := rfl
    have e3 : triFaceBase.topo = [⟨0, 1, 2⟩] := rfl
    unfold Base.update Base.updateSamples
    simp only [e, e2, e3, hv, updateTriangleSamples, List.map_cons, List.map_nil]
    congr 1
    have hn : (at3 tri1.pos 1 - at3 tri1.pos 0).norm = 2 := by
      unfold V3.norm
      rw [show V3.dot (at3 tri1.pos 1 - at3 tri1.pos 0) (at3 tri1.pos 1 - at3 tri1.pos 0) = 2 ^ 2 by
        simp [at3, tri1, V3.dot]; norm_num]
      exact Real.sqrt_sq (by norm_num)
    unfold faceTangent
    dsimp only
    rw [hn]
    ext <;> simp [at3, tri1]

/-- Hypotheses of `update_eq_build`, `run_queries` and `build_face_samples` are met, with a history of changes. -/
example : ∃ s : MLS, triFace.buildBase = .ok (some s.base) ∧
    (s.run [.reverse, .update [⟨1, 1, 1⟩] false, .maxStep 1, .radiusMultiplier 2]).base.verts =
      [⟨1, 1, 1⟩, ⟨2, 0, 0⟩, ⟨0, 1, 0⟩] :=
  ⟨.loc (.approximate 1 1) 1 0 triFaceBase, triFace_base, rfl⟩

/-- Hypotheses of `iso_radius` are met. -/
example : ∃ s, isoCreate tri1 ⟨1 / 100000, 2, 3, .localApproximate, .zero, false, .face, 0⟩ = .ok (some s) ∧
    s.radius = some 6 := by
  have hp : (IsoParams.toParams ⟨1 / 100000, 2, 3, .localApproximate, .zero, false, .face, 0⟩) =
      ⟨.approximate 2 (1 / 100000), ⟨.zero, false⟩, .face, 0, some 3⟩ := by
    unfold IsoParams.toParams
    simp
  obtain ⟨o, ho, hs, -⟩ := buildBase_ok ⟨.approximate 2 (1 / 100000), ⟨.zero, false⟩, .triMesh tri1, 0, some 3, .face⟩
    tri1_wf
  obtain ⟨b, rfl⟩ := Option.isSome_iff_exists.1 (hs (by change tri1.faces ≠ []; simp [tri1]))
  refine ⟨.loc (.approximate 2 (1 / 100000)) 3 0 b, ?_, ?_⟩
  · unfold isoCreate mlsFromTrimesh
    rw [hp]
    unfold Builder.buildMls Builder.buildLocal
    have h2 : (2 : ℝ) ≠ 0 := two_ne_zero
    simp only [KernelType.multiplier, if_neg h2, ho]
    rfl
  · simp only [MLS.radius, KernelType.multiplier, Option.map_some]
    norm_num

/-- A history of changes of a local surface for `run_local`. -/
example (b : Base) : lastSet Op.step? 0 [.maxStep 1, .reverse, .radiusMultiplier 2, .maxStep 3, .update [] true] = 3 ∧
    (∃ k' b', (MLS.loc (.smooth 1 5) 7 0 b).run [.maxStep 1, .reverse, .radiusMultiplier 2, .maxStep 3] =
      .loc k' 7 3 b' ∧ k' = .smooth 2 5) := ⟨rfl, _, _, rfl, rfl⟩

/-- Hypotheses of `pointcloud_update` and `pointcloud_builds` are met. -/
example : ∃ b, (Builder.new.vertexMesh ⟨[⟨0, 0, 0⟩], fun _ => none, fun _ => some [⟨0, 0, 1⟩]⟩).buildBase =
    .ok (some b) := ⟨_, rfl⟩

/-- C95. With the defaults of the builder, the surface of a triangle mesh is local and approximates with
radius multiplier one and a tolerance of 1e-5, and reads as far as its radius, without an extra step. -/
theorem default_surface (m : TriMesh) (s : MLS) (h : (Builder.new.trimesh m).buildMls = .ok (some s)) :
    ∃ r b, s = .loc (.approximate 1 (1 / 100000)) r 0 b := by
  have h' : (Builder.new.trimesh m).buildLocal = .ok (some s) := h
  unfold Builder.buildLocal at h'
  split at h'
  · cases h'
  split at h'
  · cases h'
  split at h'
  · cases h'
  · cases h'
  split at h'
  · cases h'
  · cases h'
  exact ⟨_, _, (Option.some.inj (Except.ok.inj h')).symm⟩

end Softy.SurfBuild
