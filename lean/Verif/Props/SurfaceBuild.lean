import Verif.Model.SurfaceBuild
import Verif.Props.BaseRadius

/-!
# Building and updating implicit surfaces

Property C95.
-/

noncomputable section

namespace Softy.SurfBuild

open Softy Softy.Field Softy.Kernel

/-! ## Specification -/

/-- Attributes have a value for each vertex, or face. -/
structure TriMesh.WellFormed (m : TriMesh) : Prop where
  vs : ∀ n l, m.vertexScalar n = some l → l.length = m.pos.length
  vv : ∀ n l, m.vertexVector n = some l → l.length = m.pos.length
  fs : ∀ n l, m.faceScalar n = some l → l.length = m.faces.length
  range : ∀ t ∈ m.faces, ∀ i, t.get i < m.pos.length

/-- Attributes have a value for each point. -/
structure PointCloud.WellFormed (m : PointCloud) : Prop where
  vs : ∀ n l, m.vertexScalar n = some l → l.length = m.pos.length
  vv : ∀ n l, m.vertexVector n = some l → l.length = m.pos.length

def SamplesMesh.WellFormed : SamplesMesh → Prop
  | .triMesh m => m.WellFormed
  | .pointCloud m => m.WellFormed
  | .none => True

/-- Specification: there are sample points, with normals: vertices or triangles of a mesh, or points that have
normals. -/
def HasSamples : SamplesMesh → SampleType → Prop
  | .triMesh m, .vertex => m.pos ≠ []
  | .triMesh m, .face => m.faces ≠ []
  | .pointCloud m, .vertex => m.pos ≠ [] ∧ m.vertexVector "N" ≠ none
  | .pointCloud _, .face => False
  | .none, _ => False

/-- Specification: the radius that is given, or is computed from triangles. -/
def IsBaseRadius (B : Builder) (r : ℝ) : Prop :=
  match B.baseRadius, B.mesh with
  | some r', _ => r = r'
  | none, .triMesh m => Neighborhood.baseRadius m.faces (at3 m.pos) = some r
  | none, _ => False

/-- Specification: there is enough data for the surface: sample points, and a radius that is not zero if the kernel
has one. -/
def Enough (B : Builder) : Prop :=
  HasSamples B.mesh B.sampleType ∧
    ∀ m, B.kernel.multiplier = some m → ∃ r, IsBaseRadius B r ∧ r * m ≠ 0

/-- Specification: `build` gives a surface if there is enough data, and `None` otherwise. -/
def BuildsIfEnough (B : Builder) : Prop :=
  ∃ o, B.buildGeneric = .ok o ∧ (o.isSome ↔ Enough B)

/-- The base of a surface. -/
def Surface.base : Surface → Base
  | .hrbf b => b
  | .mls m => m.base

/-! ## Building -/

theorem facesInRange_of {m : TriMesh} (h : m.WellFormed) : facesInRange m.pos.length m.faces = true := by
  unfold facesInRange
  rw [List.all_eq_true]
  intro t ht
  have := h.range t ht
  have h0 := this 0
  have h1 := this 1
  have h2 := this 2
  simp only [Tri.get] at h0 h1 h2
  simp [h0, h1, h2]

theorem buildBase_ok (B : Builder) (hw : B.mesh.WellFormed) :
    ∃ o, B.buildBase = .ok o ∧ (HasSamples B.mesh B.sampleType → o.isSome) ∧
      (o.isSome → HasSamples B.mesh B.sampleType ∨ ∃ m, B.mesh = .triMesh m ∧ B.sampleType = .vertex ∧ m.pos = []) := by
  unfold Builder.buildBase
  cases hm : B.mesh with
  | none => exact ⟨_, rfl, fun h => by cases hs : B.sampleType <;> simp [HasSamples] at h, fun h => by simp at h⟩
  | pointCloud m =>
    rw [hm] at hw
    cases hs : B.sampleType with
    | face => exact ⟨_, rfl, fun h => by simp [HasSamples] at h, fun h => by simp at h⟩
    | vertex =>
      simp only [reduceCtorEq, if_false]
      cases hn : m.vertexVector "N" with
      | none =>
        have : (vertexNormals m.vertexVector).isEmpty = true := by unfold vertexNormals; rw [hn]; rfl
        rw [if_pos this]
        exact ⟨_, rfl, fun h => by simp [HasSamples, hn] at h, fun h => by simp at h⟩
      | some l =>
        have hl := hw.vv _ _ hn
        have e : vertexNormals m.vertexVector = l := by unfold vertexNormals; rw [hn]; rfl
        rw [e]
        cases l with
        | nil =>
          have : m.pos = [] := List.eq_nil_of_length_eq_zero (by rw [← hl]; rfl)
          exact ⟨_, rfl, fun h => by simp [HasSamples, this] at h, fun h => by simp at h⟩
        | cons a l =>
          refine ⟨_, rfl, fun _ => rfl, fun _ => Or.inl ⟨?_, by rw [hn]; simp⟩⟩
          intro hp
          rw [hp] at hl
          simp at hl
  | triMesh m =>
    rw [hm] at hw
    have hr := facesInRange_of hw
    cases hs : B.sampleType with
    | vertex =>
      simp only [hr, if_true]
      refine ⟨_, rfl, fun _ => rfl, fun _ => ?_⟩
      by_cases hp : m.pos = []
      · exact Or.inr ⟨m, rfl, trivial, hp⟩
      · exact Or.inl hp
    | face =>
      simp only [hr, if_true]
      cases hf : m.faces with
      | nil => exact ⟨_, rfl, fun h => by simp [HasSamples, hf] at h, fun h => by simp at h⟩
      | cons t l =>
        refine ⟨_, rfl, fun _ => rfl, fun _ => Or.inl ?_⟩
        simp [HasSamples, hf]

theorem buildBaseRadius_ok (B : Builder) (h : ∀ m, B.mesh = .triMesh m → B.baseRadius = none → m.faces ≠ []) :
    ∃ o, B.buildBaseRadius = .ok o ∧ (B.mesh ≠ .none → ∀ r, o = some r ↔ IsBaseRadius B r) ∧
      (B.mesh = .none → o = none) := by
  unfold Builder.buildBaseRadius IsBaseRadius
  cases hm : B.mesh with
  | none => exact ⟨_, rfl, fun h => absurd rfl h, fun _ => rfl⟩
  | pointCloud m =>
    refine ⟨_, rfl, fun _ r => ?_, fun h => by cases h⟩
    cases B.baseRadius with
    | none => simp
    | some r' => simp [eq_comm]
  | triMesh m =>
    cases hb : B.baseRadius with
    | some r' => exact ⟨_, rfl, fun _ r => by simp [eq_comm], fun h => by cases h⟩
    | none =>
      obtain ⟨r', hr'⟩ := (Neighborhood.base_radius m.faces (at3 m.pos)).1 (h m hm hb)
      simp only [hr']
      exact ⟨_, rfl, fun _ r => Iff.rfl, fun h => by cases h⟩

/-- C95, in part: builders give a surface if and only if there is enough data, and do not panic, unless a mesh without
triangles is sampled at vertices with a radius that has to be computed, a mesh without vertices is sampled at vertices,
or the radius is zero. -/
theorem build_partial (B : Builder) (hw : B.mesh.WellFormed)
    (h1 : ∀ m, B.mesh = .triMesh m → B.sampleType = .vertex → m.pos ≠ [] ∧
      (B.kernel.multiplier ≠ none → B.baseRadius = none → m.faces ≠ []))
    (h2 : ∀ r, IsBaseRadius B r → r ≠ 0) : BuildsIfEnough B := by
  obtain ⟨o, ho, hs, hs'⟩ := buildBase_ok B hw
  have hsiff : o.isSome ↔ HasSamples B.mesh B.sampleType := by
    refine ⟨fun h => (hs' h).resolve_right ?_, hs⟩
    rintro ⟨m, hm, hv, hp⟩
    exact (h1 m hm hv).1 hp
  have glob : B.kernel.multiplier = none → (o.isSome ↔ Enough B) := fun hk => by
    rw [hsiff]
    exact ⟨fun h => ⟨h, fun m hm => by rw [hk] at hm; cases hm⟩, fun h => h.1⟩
  have loc : ∀ x, B.kernel.multiplier = some x → ∃ o', B.buildLocal = .ok o' ∧ (o'.isSome ↔ Enough B) := by
    intro x hx
    unfold Builder.buildLocal
    simp only [hx, ho]
    split
    · rename_i h0
      refine ⟨_, rfl, ⟨fun h => by simp at h, fun h => ?_⟩⟩
      obtain ⟨r, -, hr⟩ := h.2 x hx
      rw [h0, mul_zero] at hr
      exact absurd rfl hr
    · rename_i h0
      cases o with
      | none =>
        refine ⟨_, rfl, ⟨fun h => by simp at h, fun h => ?_⟩⟩
        have := hsiff.2 h.1
        simp at this
      | some base =>
        have hsome : HasSamples B.mesh B.sampleType := hsiff.1 rfl
        have hne : B.mesh ≠ .none := fun h => by rw [h] at hsome; cases B.sampleType <;> exact hsome
        obtain ⟨o2, ho2, hr, -⟩ := buildBaseRadius_ok B fun m hm hb => by
          cases hv : B.sampleType with
          | vertex => exact (h1 m hm hv).2 (by rw [hx]; simp) hb
          | face => rw [hm, hv] at hsome; exact hsome
        simp only [ho2]
        cases o2 with
        | none =>
          refine ⟨_, rfl, ⟨fun h => by simp at h, fun h => ?_⟩⟩
          obtain ⟨r, hb, -⟩ := h.2 x hx
          exact absurd ((hr hne r).2 hb) (by simp)
        | some r =>
          have hb := (hr hne r).1 rfl
          refine ⟨_, rfl, ⟨fun _ => ⟨hsome, fun m hm => ⟨r, hb, ?_⟩⟩, fun _ => rfl⟩⟩
          rw [hx] at hm
          rw [← Option.some.inj hm]
          exact mul_ne_zero (h2 r hb) h0
  have viaLocal : ∀ x, B.kernel.multiplier = some x → B.buildMls = B.buildLocal →
      ∃ o, (match B.buildMls with
        | .error e => (.error e : Except Panic (Option Surface))
        | .ok Option.none => .ok Option.none
        | .ok (some m) => .ok (some (.mls m))) = .ok o ∧ (o.isSome ↔ Enough B) := by
    intro x hx e
    obtain ⟨o', ho', he⟩ := loc x hx
    rw [e, ho']
    cases o' with
    | none => exact ⟨_, rfl, he⟩
    | some m => exact ⟨_, rfl, he⟩
  unfold BuildsIfEnough Builder.buildGeneric
  cases hk : B.kernel with
  | hrbf =>
    have := glob (by rw [hk]; rfl)
    simp only [ho]
    cases o with
    | none => exact ⟨_, rfl, this⟩
    | some b => exact ⟨_, rfl, this⟩
  | global t =>
    have := glob (by rw [hk]; rfl)
    have e : B.buildMls = match B.buildBase with
        | .error e => .error e
        | .ok Option.none => .ok Option.none
        | .ok (some base) => .ok (some (.glob B.kernel base)) := by
      unfold Builder.buildMls
      simp only [hk]
      rfl
    simp only [e, ho]
    cases o with
    | none => exact ⟨_, rfl, this⟩
    | some b => exact ⟨_, rfl, this⟩
  | interpolating a => exact viaLocal a (by rw [hk]; rfl) (by unfold Builder.buildMls; simp only [hk])
  | smooth a t => exact viaLocal a (by rw [hk]; rfl) (by unfold Builder.buildMls; simp only [hk])
  | approximate a t => exact viaLocal a (by rw [hk]; rfl) (by unfold Builder.buildMls; simp only [hk])
  | cubic a => exact viaLocal a (by rw [hk]; rfl) (by unfold Builder.buildMls; simp only [hk])

/-! ## Samples of a surface that was built -/

theorem buildMls_base (B : Builder) {s : MLS} (h : B.buildMls = .ok (some s)) : B.buildBase = .ok (some s.base) := by
  have loc : B.buildLocal = .ok (some s) → B.buildBase = .ok (some s.base) := by
    intro h
    unfold Builder.buildLocal at h
    split at h
    · cases h
    split at h
    · cases h
    split at h
    · cases h
    · cases h
    rename_i base hb
    split at h
    · cases h
    · cases h
    have := (Option.some.inj (Except.ok.inj h)).symm
    subst this
    exact hb
  unfold Builder.buildMls at h
  split at h
  · cases h
  · split at h
    · cases h
    · cases h
    rename_i base hb
    have := (Option.some.inj (Except.ok.inj h)).symm
    subst this
    exact hb
  · exact loc h

/-- C95: a surface that was built has the samples of `build_vertex_samples` and `build_face_samples`. -/
theorem built_base (B : Builder) {s : Surface} (h : B.buildGeneric = .ok (some s)) :
    B.buildBase = .ok (some s.base) := by
  unfold Builder.buildGeneric at h
  split at h
  · split at h
    · cases h
    · cases h
    rename_i base hb
    have := (Option.some.inj (Except.ok.inj h)).symm
    subst this
    exact hb
  · split at h
    · cases h
    · cases h
    rename_i m hm
    have := (Option.some.inj (Except.ok.inj h)).symm
    subst this
    exact buildMls_base B hm

/-- C95: a surface that was built from a mesh with samples at vertices has the vertices as samples, with the normals
`N` of the mesh or area weighted normals, the velocities `V` or zero, and the offsets `offset` or zero; the search tree
is that of the samples. -/
theorem build_vertex_samples (B : Builder) (m : TriMesh) (hm : B.mesh = .triMesh m) (ht : B.sampleType = .vertex)
    (hw : m.WellFormed) (hp : m.pos ≠ []) {b : Base} (hb : B.buildBase = .ok (some b)) :
    b.verts = m.pos ∧ b.topo = m.faces ∧ b.samples.pos = m.pos ∧ b.keys = m.pos ∧ b.data = m.pos ∧
      (∀ l, m.vertexVector "N" = some l → b.samples.nml = l) ∧
      (m.vertexVector "N" = none → b.samples.nml.length = m.pos.length ∧
        ∀ i < m.pos.length, at3 b.samples.nml i = vertexNormal m.faces (at3 m.pos) i) ∧
      (∀ l, m.vertexVector "V" = some l → b.samples.vel = l) ∧
      (m.vertexVector "V" = none → b.samples.vel = List.replicate m.pos.length 0) ∧
      (∀ l, m.vertexScalar "offset" = some l → b.samples.value = l) ∧
      (m.vertexScalar "offset" = none → b.samples.value = List.replicate m.pos.length 0) := by
  unfold Builder.buildBase at hb
  rw [hm] at hb
  simp only [ht, facesInRange_of hw, if_true] at hb
  have hb := (Option.some.inj (Except.ok.inj hb)).symm
  subst hb
  refine ⟨rfl, rfl, rfl, rfl, rfl, fun l hl => ?_, fun hn => ?_, fun l hl => ?_, fun hn => ?_, fun l hl => ?_,
    fun hn => ?_⟩
  · have hlen := hw.vv _ _ hl
    have hne : l.isEmpty = false := by
      cases l with
      | nil => exact absurd (List.eq_nil_of_length_eq_zero hlen.symm) hp
      | cons => rfl
    simp only [Builder.assemble, newVertexSamples, vertexNormals, hl, Option.getD_some, hne]
    rfl
  · simp only [Builder.assemble, newVertexSamples, vertexNormals, hn, Option.getD_none, List.isEmpty_nil, if_true,
      areaWeightedNormals, List.length_map, List.length_range, true_and]
    intro i hi
    unfold at3
    rw [List.getD_eq_getElem?_getD, List.getElem?_map, List.getElem?_range hi]
    rfl
  · simp only [Builder.assemble, vertexVelocities, hl, Option.getD_some]
  · simp only [Builder.assemble, vertexVelocities, hn, Option.getD_none]
  · simp only [Builder.assemble, newVertexSamples, vertexOffsets, hl, Option.getD_some]
  · simp only [Builder.assemble, newVertexSamples, vertexOffsets, hn, Option.getD_none]

theorem getD_map_tri (faces : List Tri) (f : Tri → V3 ℝ) (i : ℕ) (t : Tri) (h : faces[i]? = some t) :
    at3 (faces.map f) i = f t := by
  unfold at3
  rw [List.getD_eq_getElem?_getD, List.getElem?_map, h]
  rfl

/-- C95: a surface that was built from a mesh with samples at faces has the centers of the faces as samples, with their
area normals, the mean velocities of their corners, and the offsets `offset` of faces or zero; the search tree is that
of the samples. -/
theorem build_face_samples (B : Builder) (m : TriMesh) (hm : B.mesh = .triMesh m) (ht : B.sampleType = .face)
    (hw : m.WellFormed) {b : Base} (hb : B.buildBase = .ok (some b)) :
    b.verts = m.pos ∧ b.topo = m.faces ∧ b.samples.pos.length = m.faces.length ∧ b.keys = b.samples.pos ∧
      b.data = b.samples.pos ∧ b.samples.nml.length = m.faces.length ∧ b.samples.vel.length = m.faces.length ∧
      (∀ i t, m.faces[i]? = some t →
        at3 b.samples.pos i = (1 / 3 : ℝ) • (at3 m.pos t.a + at3 m.pos t.b + at3 m.pos t.c) ∧
        at3 b.samples.nml i = V3.cross (at3 m.pos t.b - at3 m.pos t.a) (at3 m.pos t.c - at3 m.pos t.a) ∧
        (∀ V, m.vertexVector "V" = some V → at3 b.samples.vel i = (1 / 3 : ℝ) • (at3 V t.a + at3 V t.b + at3 V t.c)) ∧
        (m.vertexVector "V" = none → at3 b.samples.vel i = 0)) ∧
      (∀ l, m.faceScalar "offset" = some l → b.samples.value = l) ∧
      (m.faceScalar "offset" = none → b.samples.value = List.replicate m.faces.length 0) := by
  unfold Builder.buildBase at hb
  rw [hm] at hb
  simp only [ht, facesInRange_of hw, if_true] at hb
  split at hb
  · cases hb
  have hb := (Option.some.inj (Except.ok.inj hb)).symm
  subst hb
  refine ⟨rfl, rfl, List.length_map _, rfl, rfl, List.length_map _, List.length_map _, fun i t hi => ⟨?_, ?_, ?_, ?_⟩,
    fun l hl => ?_, fun hn => ?_⟩
  · exact getD_map_tri _ _ i t hi
  · exact getD_map_tri _ _ i t hi
  · intro V hV
    refine (getD_map_tri _ _ i t hi).trans ?_
    simp only [faceVelocity, vertexVelocities, hV, Option.getD_some]
  · intro hV
    refine (getD_map_tri _ _ i t hi).trans ?_
    have h0 : ∀ j, at3 (List.replicate m.pos.length (0 : V3 ℝ)) j = 0 := by
      intro j
      unfold at3
      rw [List.getD_eq_getElem?_getD, List.getElem?_replicate]
      split <;> rfl
    simp only [faceVelocity, vertexVelocities, hV, Option.getD_none, h0]
    ext <;> simp
  · simp only [Builder.assemble, newTriangleSamples, updateTriangleSamples, hl, Option.getD_some]
  · simp only [Builder.assemble, newTriangleSamples, updateTriangleSamples, hn, Option.getD_none]

/-! ## Changes -/

theorem updateVerts_fst : ∀ (v p : List (V3 ℝ)), (updateVerts v p).1 = p.take v.length ++ v.drop p.length
  | [], p => by cases p <;> simp [updateVerts]
  | a :: v, [] => by simp [updateVerts]
  | a :: v, b :: p => by simp [updateVerts, updateVerts_fst v p]

theorem updateVerts_snd : ∀ (v p : List (V3 ℝ)), (updateVerts v p).2 = min v.length p.length
  | [], p => by cases p <;> simp [updateVerts]
  | a :: v, [] => by simp [updateVerts]
  | a :: v, b :: p => by simp [updateVerts, updateVerts_snd v p]

theorem updateSamples_verts (b : Base) : b.updateSamples.verts = b.verts := by
  unfold Base.updateSamples
  split <;> rfl

/-- C95: an update replaces as many positions as are given, and says how many. -/
theorem update_count (b : Base) (pos : List (V3 ℝ)) (rebuild : Bool) :
    (b.update pos rebuild).2 = min b.verts.length pos.length ∧
      (b.update pos rebuild).1.verts = pos.take b.verts.length ++ b.verts.drop pos.length := by
  refine ⟨updateVerts_snd _ _, ?_⟩
  unfold Base.update
  simp only [updateSamples_verts]
  exact updateVerts_fst _ _

/-- What changes do not touch. -/
structure Base.Same (b c : Base) : Prop where
  bg : c.bg = b.bg
  topo : c.topo = b.topo
  count : c.verts.length = b.verts.length
  value : c.samples.value = b.samples.value
  dual : c.dual = b.dual
  sampleType : c.sampleType = b.sampleType
  vel : b.sampleType = .vertex → c.samples.vel = b.samples.vel

theorem Base.Same.refl (b : Base) : b.Same b := ⟨rfl, rfl, rfl, rfl, rfl, rfl, fun _ => rfl⟩

theorem Base.Same.trans {a b c : Base} (h : a.Same b) (h' : b.Same c) : a.Same c :=
  ⟨h'.bg.trans h.bg, h'.topo.trans h.topo, h'.count.trans h.count, h'.value.trans h.value, h'.dual.trans h.dual,
    h'.sampleType.trans h.sampleType, fun e => (h'.vel (h.sampleType.trans e)).trans (h.vel e)⟩

theorem same_reverse (b : Base) : b.Same b.reverse := ⟨rfl, rfl, rfl, rfl, rfl, rfl, fun _ => rfl⟩

theorem same_updateSamples (b : Base) : b.Same b.updateSamples := by
  unfold Base.updateSamples
  split
  · exact ⟨rfl, rfl, rfl, rfl, rfl, rfl, fun _ => rfl⟩
  · rename_i h
    exact ⟨rfl, rfl, rfl, rfl, rfl, rfl, fun e => by rw [h] at e; cases e⟩

theorem same_update (b : Base) (pos : List (V3 ℝ)) (rebuild : Bool) : b.Same (b.update pos rebuild).1 := by
  have hl : (updateVerts b.verts pos).1.length = b.verts.length := by
    rw [updateVerts_fst]
    simp only [List.length_append, List.length_take, List.length_drop]
    omega
  have h1 : b.Same { b with verts := (updateVerts b.verts pos).1 } := ⟨rfl, rfl, hl, rfl, rfl, rfl, fun _ => rfl⟩
  have h2 := h1.trans (same_updateSamples _)
  exact ⟨h2.bg, h2.topo, h2.count, h2.value, h2.dual, h2.sampleType, h2.vel⟩

theorem same_apply (m : MLS) (o : Op) : m.base.Same (m.apply o).base := by
  cases o <;> cases m <;> first | exact same_reverse _ | exact same_update _ _ _ | exact Base.Same.refl _

theorem same_run (ops : List Op) : ∀ m : MLS, m.base.Same (m.run ops).base := by
  induction ops with
  | nil => exact fun m => Base.Same.refl _
  | cons o l ih => exact fun m => (same_apply m o).trans (ih (m.apply o))

theorem run_append (m : MLS) (ops : List Op) (o : Op) : m.run (ops ++ [o]) = (m.run ops).apply o := by
  unfold MLS.run
  rw [List.foldl_append]
  rfl

theorem apply_update_base (m : MLS) (pos : List (V3 ℝ)) (rebuild : Bool) :
    (m.apply (.update pos rebuild)).base = (m.base.update pos rebuild).1 := by
  cases m <;> rfl

/-- The mesh with other positions, and without normals. -/
def TriMesh.moved (m : TriMesh) (pos : List (V3 ℝ)) : TriMesh :=
  { m with pos := pos, vertexVector := fun n => if n = "N" then none else m.vertexVector n }

/-- C95: a surface that was built from a mesh and then changed in any way is, after an update with positions for all
vertices and a new search tree, the surface that is built from the mesh with the new positions and without normals,
except for velocities of samples at faces. -/
theorem update_eq_build (B : Builder) (m : TriMesh) (hm : B.mesh = .triMesh m) (hw : m.WellFormed) {s : MLS}
    (hs : B.buildBase = .ok (some s.base)) (ops : List Op) (pos : List (V3 ℝ)) (hp : pos.length = m.pos.length) :
    ∃ c, ({ B with mesh := .triMesh (m.moved pos) } : Builder).buildBase = .ok (some c) ∧
      (s.run (ops ++ [.update pos true])).base =
        { c with samples := { c.samples with vel := (s.run (ops ++ [.update pos true])).base.samples.vel } } ∧
      (B.sampleType = .vertex → (s.run (ops ++ [.update pos true])).base = c) := by
  have hsame := same_run ops s
  have hw' : (m.moved pos).WellFormed := by
    refine ⟨fun n l h => (hw.vs n l h).trans hp.symm, fun n l h => ?_, hw.fs, fun t ht i => ?_⟩
    · unfold TriMesh.moved at h
      dsimp only at h
      split at h
      · cases h
      · exact (hw.vv n l h).trans hp.symm
    · have := hw.range t ht i
      change t.get i < pos.length
      omega
  have hr := facesInRange_of hw
  have hr' := facesInRange_of hw'
  rw [run_append, apply_update_base]
  generalize (s.run ops).base = b at hsame ⊢
  unfold Builder.buildBase at hs ⊢
  rw [hm] at hs
  have hV : vertexVelocities pos (m.moved pos).vertexVector = vertexVelocities m.pos m.vertexVector := by
    unfold vertexVelocities TriMesh.moved
    dsimp only
    rw [if_neg (by decide), hp]
  have hN : vertexNormals (m.moved pos).vertexVector = [] := by
    unfold vertexNormals TriMesh.moved
    dsimp only
    rw [if_pos rfl]
    rfl
  have hO : vertexOffsets pos (m.moved pos).vertexScalar = vertexOffsets m.pos m.vertexScalar := by
    unfold vertexOffsets TriMesh.moved
    dsimp only
    rw [hp]
  obtain ⟨bbg, btopo, bverts, bsamples, bdual, btype, bkeys, bdata⟩ := b
  obtain ⟨h1, h2, h3, h4, h5, h6, h7⟩ := hsame
  dsimp only at h1 h2 h3 h4 h5 h6 h7 ⊢
  cases ht : B.sampleType with
  | vertex =>
    simp only [ht, hr, if_true] at hs
    have hs := (Option.some.inj (Except.ok.inj hs)).symm
    rw [hs] at h1 h2 h3 h4 h5 h6 h7
    simp only [Builder.assemble, newVertexSamples] at h1 h2 h3 h4 h5 h6 h7
    rw [ht] at h6
    subst h1 h2 h5 h6
    have hpos : (m.moved pos).pos = pos := rfl
    have hfaces : (m.moved pos).faces = m.faces := rfl
    have hv : (updateVerts bverts pos).1 = pos := by
      rw [updateVerts_fst, h3, ← hp, List.take_length, List.drop_of_length_le (by omega), List.append_nil]
    rw [hpos, hfaces] at hr'
    simp only [hpos, hfaces, hr', if_true, hN, List.isEmpty_nil, hV, hO]
    have hb : (Base.update ⟨B.bg, m.faces, bverts, bsamples, dualIndices m.pos.length m.faces, .vertex, bkeys, bdata⟩
        pos true).1 = ⟨B.bg, m.faces, pos, ⟨pos, areaWeightedNormals m.faces pos, bsamples.vel, bsamples.value⟩,
          dualIndices m.pos.length m.faces, .vertex, pos, pos⟩ := by
      unfold Base.update Base.updateSamples
      simp only [hv, if_true]
    rw [hb]
    refine ⟨_, rfl, ?_, fun _ => ?_⟩
    · simp only [Builder.assemble, newVertexSamples, Option.getD_none, h4, ht, hp]
    · simp only [Builder.assemble, newVertexSamples, Option.getD_none, h4, ht, hp, h7 ht]
  | face =>
    simp only [ht, hr, if_true] at hs
    split at hs
    · cases hs
    rename_i hne
    have hs := (Option.some.inj (Except.ok.inj hs)).symm
    rw [hs] at h1 h2 h3 h4 h5 h6 h7
    simp only [Builder.assemble, newTriangleSamples, updateTriangleSamples] at h1 h2 h3 h4 h5 h6 h7
    rw [ht] at h6
    subst h1 h2 h5 h6
    have hpos : (m.moved pos).pos = pos := rfl
    have hfaces : (m.moved pos).faces = m.faces := rfl
    have hv : (updateVerts bverts pos).1 = pos := by
      rw [updateVerts_fst, h3, ← hp, List.take_length, List.drop_of_length_le (by omega), List.append_nil]
    rw [hpos, hfaces] at hr'
    simp only [hpos, hfaces, hr', if_true, hV]
    rw [if_neg hne]
    have hb : (Base.update ⟨B.bg, m.faces, bverts, bsamples, dualIndices m.pos.length m.faces, .face, bkeys, bdata⟩
        pos true).1 = ⟨B.bg, m.faces, pos, ⟨m.faces.map (faceCentroid pos), m.faces.map (faceNormal pos),
          m.faces.map (faceTangent pos), bsamples.value⟩,
          dualIndices m.pos.length m.faces, .face, m.faces.map (faceCentroid pos), m.faces.map (faceCentroid pos)⟩ := by
      unfold Base.update Base.updateSamples updateTriangleSamples
      simp only [hv, if_true]
    rw [hb]
    refine ⟨_, rfl, ?_, fun h => by cases h⟩
    simp only [Builder.assemble, newTriangleSamples, updateTriangleSamples, h4, ht, hp, TriMesh.moved]

/-- C95: without a new search tree, the samples are the same as with one, and the tree is that of the samples if these
were not moved. -/
theorem update_keep_tree (b : Base) (pos : List (V3 ℝ)) :
    (b.update pos false).1.samples = (b.update pos true).1.samples ∧
      (b.update pos false).1.data = (b.update pos true).1.data ∧
      (b.keys = (b.update pos true).1.samples.pos → (b.update pos false).1 = (b.update pos true).1) := by
  have hk : ∀ c : Base, c.updateSamples.keys = c.keys := fun c => by unfold Base.updateSamples; split <;> rfl
  refine ⟨rfl, rfl, fun h => ?_⟩
  unfold Base.update at h ⊢
  simp only [if_true, hk] at h ⊢
  simp only [Bool.false_eq_true, if_false]
  exact congrArg (Base.mk _ _ _ _ _ _ · _) h

/-- C95: reversing twice changes nothing. -/
theorem reverse_reverse (b : Base) : b.reverse.reverse = b := by
  unfold Base.reverse
  simp only [List.map_map]
  have : ((fun n : V3 ℝ => -n) ∘ fun n => -n) = id := by funext n; simp
  rw [this, List.map_id]

/-- C95: surfaces that were built from points without triangles have no normals after an update. -/
theorem pointcloud_update (B : Builder) (m : PointCloud) (hm : B.mesh = .pointCloud m) {b : Base}
    (hb : B.buildBase = .ok (some b)) (pos : List (V3 ℝ)) (rebuild : Bool) :
    ∀ n ∈ (b.update pos rebuild).1.samples.nml, n = 0 := by
  unfold Builder.buildBase at hb
  rw [hm] at hb
  dsimp only at hb
  split at hb
  · cases hb
  rename_i ht
  split at hb
  · cases hb
  have hb := (Option.some.inj (Except.ok.inj hb)).symm
  subst hb
  have ht : B.sampleType = .vertex := by cases h : B.sampleType with
    | vertex => rfl
    | face => exact absurd h ht
  intro n hn
  unfold Base.update Base.updateSamples at hn
  simp only [Builder.assemble, ht, areaWeightedNormals, List.mem_map] at hn
  obtain ⟨i, -, rfl⟩ := hn
  rfl

/-! ## Queries -/

/-- Specification: `i` is a sample that is closest to `q`. -/
def IsClosest (S : List (V3 ℝ)) (q : V3 ℝ) (i : ℕ) : Prop :=
  i < S.length ∧ ∀ j < S.length, (q - at3 S i).norm ≤ (q - at3 S j).norm

theorem nearest_spec (S : List (V3 ℝ)) (q : V3 ℝ) :
    (S ≠ [] → ∃ i, nearest S q = some i ∧ IsClosest S q i) ∧ (S = [] → nearest S q = none) := by
  unfold nearest
  constructor
  · intro h
    have : List.range S.length ≠ [] := by
      intro e
      have := congrArg List.length e
      simp at this
      exact h this
    cases hm : (List.range S.length).argmin fun i => V3.dot (q - at3 S i) (q - at3 S i) with
    | none => exact absurd (List.argmin_eq_none.1 hm) this
    | some i =>
      refine ⟨i, rfl, List.mem_range.1 (List.argmin_mem hm), fun j hj => ?_⟩
      exact Real.sqrt_le_sqrt (List.le_of_mem_argmin (List.mem_range.2 hj) hm)
  · rintro rfl
    rfl

theorem mapM_some {α β : Type} (f : α → Option β) : ∀ l : List α, (∀ a ∈ l, (f a).isSome) →
    ∃ r, l.mapM f = some r ∧ r.length = l.length ∧ ∀ (i : ℕ) a, l[i]? = some a → r[i]? = f a
  | [], _ => ⟨[], rfl, rfl, fun i a h => by simp at h⟩
  | a :: l, h => by
    obtain ⟨r, hr, hl, hi⟩ := mapM_some f l fun b hb => h b (List.mem_cons_of_mem _ hb)
    obtain ⟨x, hx⟩ := Option.isSome_iff_exists.1 (h a List.mem_cons_self)
    refine ⟨x :: r, ?_, by simp [hl], fun i b hb => ?_⟩
    · rw [List.mapM_cons, hx, hr]
      rfl
    · cases i with
      | zero =>
        simp only [List.getElem?_cons_zero, Option.some.injEq] at hb ⊢
        rw [← hb, hx]
      | succ i => exact hi i b (by simpa using hb)

/-- C95: the search for closest samples panics if and only if there are points and no samples; otherwise it finds a
closest sample for each point. -/
theorem closest_samples (s : MLS) (Q : List (V3 ℝ)) :
    (s.base.data = [] ∧ Q ≠ [] → s.closest Q = .error .emptyTree) ∧
    (s.base.data ≠ [] ∨ Q = [] → ∃ l, s.closest Q = .ok l ∧ l.length = Q.length ∧
      ∀ (j : ℕ) q, Q[j]? = some q → ∃ i, l[j]? = some i ∧ IsClosest s.base.data q i) := by
  unfold MLS.closest
  constructor
  · rintro ⟨hd, hQ⟩
    obtain ⟨q, Q, rfl⟩ := List.exists_cons_of_ne_nil hQ
    rw [List.mapM_cons, (nearest_spec _ q).2 hd]
    rfl
  · rintro (hd | rfl)
    · obtain ⟨r, hr, hl, hi⟩ := mapM_some (nearest s.base.data) Q fun q _ => by
        obtain ⟨i, hi, -⟩ := (nearest_spec s.base.data q).1 hd
        rw [hi]
        rfl
      rw [hr]
      refine ⟨r, rfl, hl, fun j q hq => ?_⟩
      obtain ⟨i, hi', hc⟩ := (nearest_spec s.base.data q).1 hd
      exact ⟨i, by rw [hi j q hq, hi'], hc⟩
    · exact ⟨[], rfl, rfl, fun j q h => by simp at h⟩

theorem update_data (b : Base) (pos : List (V3 ℝ)) (rebuild : Bool) :
    (b.update pos rebuild).1.data.length = match b.sampleType with
      | .vertex => b.verts.length
      | .face => b.topo.length := by
  have hl : (updateVerts b.verts pos).1.length = b.verts.length := by
    rw [updateVerts_fst]
    simp only [List.length_append, List.length_take, List.length_drop]
    omega
  unfold Base.update Base.updateSamples
  cases b.sampleType with
  | vertex => exact hl
  | face => exact List.length_map _

/-- C95: no change of a surface that was built from a mesh makes queries fail that did not before. -/
theorem run_queries (B : Builder) (m : TriMesh) (hm : B.mesh = .triMesh m) (hw : m.WellFormed) {s : MLS}
    (hs : B.buildBase = .ok (some s.base)) (ops : List Op) :
    (s.run ops).base.data.length = s.base.data.length := by
  have hb : s.base.data.length = match s.base.sampleType with
      | .vertex => s.base.verts.length
      | .face => s.base.topo.length := by
    have hr := facesInRange_of hw
    unfold Builder.buildBase at hs
    rw [hm] at hs
    cases ht : B.sampleType with
    | vertex =>
      simp only [ht, hr, if_true] at hs
      have hs := (Option.some.inj (Except.ok.inj hs)).symm
      rw [hs]
      simp only [Builder.assemble, ht]
      rfl
    | face =>
      simp only [ht, hr, if_true] at hs
      split at hs
      · cases hs
      have hs := (Option.some.inj (Except.ok.inj hs)).symm
      rw [hs]
      simp only [Builder.assemble, ht]
      exact List.length_map _
  induction ops using List.reverseRecOn with
  | nil => rfl
  | append_singleton ops o ih =>
    rw [run_append]
    have hsame := same_run ops s
    cases o with
    | update pos rebuild =>
      rw [apply_update_base, update_data, hb, hsame.sampleType, hsame.count, hsame.topo]
    | reverse => rw [← ih]; cases s.run ops <;> rfl
    | maxStep x => rw [← ih]; cases s.run ops <;> rfl
    | radiusMultiplier x => rw [← ih]; cases s.run ops <;> rfl

/-! ## Radius and parameters -/

/-- C95: the radius of a surface that was created with the C interface: the radius multiplier times the radius that was
given, or, if this is zero, times the smallest radius with which balls around the centers of triangles contain them. -/
theorem iso_radius (m : TriMesh) (p : IsoParams) {s : MLS} (h : isoCreate m p = .ok (some s)) :
    match p.kernel with
    | .globalInvDist => s.radius = none
    | .globalHrbf => False
    | _ => ∃ r, s.radius = some (r * p.radiusMultiplier) ∧ (p.baseRadius ≠ 0 → r = p.baseRadius) ∧
      (p.baseRadius = 0 →
        (∀ t ∈ m.faces, ∀ i, (at3 m.pos (t.get i) - Neighborhood.faceCenter (at3 m.pos) t).norm ≤ r) ∧
        ∃ t ∈ m.faces, ∃ i, (at3 m.pos (t.get i) - Neighborhood.faceCenter (at3 m.pos) t).norm = r) := by
  have loc : ∀ B : Builder, B.mesh = .triMesh m → B.baseRadius = p.toParams.baseRadius →
      B.kernel.multiplier = some p.radiusMultiplier → B.buildLocal = .ok (some s) →
      ∃ r, s.radius = some (r * p.radiusMultiplier) ∧ (p.baseRadius ≠ 0 → r = p.baseRadius) ∧
      (p.baseRadius = 0 →
        (∀ t ∈ m.faces, ∀ i, (at3 m.pos (t.get i) - Neighborhood.faceCenter (at3 m.pos) t).norm ≤ r) ∧
        ∃ t ∈ m.faces, ∃ i, (at3 m.pos (t.get i) - Neighborhood.faceCenter (at3 m.pos) t).norm = r) := by
    intro B hm hb hk h
    unfold Builder.buildLocal at h
    simp only [hk] at h
    split at h
    · cases h
    split at h
    · cases h
    · cases h
    split at h
    · cases h
    · cases h
    rename_i r hr
    have := (Option.some.inj (Except.ok.inj h)).symm
    subst this
    refine ⟨r, ?_, ?_, ?_⟩
    · unfold MLS.radius
      dsimp only
      rw [hk]
      rfl
    · intro h0
      unfold Builder.buildBaseRadius at hr
      rw [hm, hb] at hr
      simp only [IsoParams.toParams, if_neg h0] at hr
      exact (Option.some.inj (Except.ok.inj hr)).symm
    · intro h0
      unfold Builder.buildBaseRadius at hr
      rw [hm, hb] at hr
      simp only [IsoParams.toParams, if_pos h0] at hr
      split at hr
      · rename_i r' hr'
        obtain rfl := Option.some.inj (Except.ok.inj hr)
        exact (Neighborhood.base_radius m.faces (at3 m.pos)).2 _ hr'
      · cases hr
  unfold isoCreate mlsFromTrimesh Builder.buildMls at h
  cases hk : p.kernel with
  | globalHrbf => simp [IsoParams.toParams, hk] at h
  | globalInvDist =>
    simp only [IsoParams.toParams, hk] at h
    split at h
    · cases h
    · cases h
    · have := (Option.some.inj (Except.ok.inj h)).symm
      rw [this]
      rfl
  | localSmooth =>
    have hk' : p.toParams.kernel = .smooth p.radiusMultiplier p.tolerance := by simp [IsoParams.toParams, hk]
    simp only [hk'] at h
    exact loc _ rfl rfl rfl h
  | localApproximate =>
    have hk' : p.toParams.kernel = .approximate p.radiusMultiplier p.tolerance := by simp [IsoParams.toParams, hk]
    simp only [hk'] at h
    exact loc _ rfl rfl rfl h
  | localCubic =>
    have hk' : p.toParams.kernel = .cubic p.radiusMultiplier := by simp [IsoParams.toParams, hk]
    simp only [hk'] at h
    exact loc _ rfl rfl rfl h
  | localInterpolating =>
    have hk' : p.toParams.kernel = .interpolating p.radiusMultiplier := by simp [IsoParams.toParams, hk]
    simp only [hk'] at h
    exact loc _ rfl rfl rfl h

/-- Specification: the last value that was set. -/
def lastSet (f : Op → Option ℝ) (old : ℝ) : List Op → ℝ
  | [] => old
  | o :: l => lastSet f ((f o).getD old) l

/-- The step that a change sets. -/
def Op.step? : Op → Option ℝ
  | .maxStep s => some s
  | _ => none

/-- The multiplier that a change sets. -/
def Op.multiplier? : Op → Option ℝ
  | .radiusMultiplier x => some x
  | _ => none

/-- Specification: the kernels are the same but for the multiplier, which is `x` for the second. -/
def KernelType.SameBut (k k' : KernelType) (x : ℝ) : Prop :=
  match k with
  | .interpolating _ => k' = .interpolating x
  | .smooth _ t => k' = .smooth x t
  | .approximate _ t => k' = .approximate x t
  | .cubic _ => k' = .cubic x
  | .global t => k' = .global t
  | .hrbf => k' = .hrbf

/-- C95: after any changes the base radius of a local surface is as it was, the largest step and the radius multiplier
are those that were set last, and the kernel is the same otherwise. -/
theorem run_local (ops : List Op) : ∀ (k : KernelType) (x r s : ℝ) (b : Base), k.multiplier = some x →
    ∃ k' b', (MLS.loc k r s b).run ops = .loc k' r (lastSet Op.step? s ops) b' ∧
      k.SameBut k' (lastSet Op.multiplier? x ops) ∧
      ((MLS.loc k r s b).run ops).radius = some (r * lastSet Op.multiplier? x ops) := by
  induction ops with
  | nil =>
    intro k x r s b hk
    refine ⟨k, b, rfl, ?_, ?_⟩
    · cases k <;> simp_all [KernelType.multiplier, KernelType.SameBut, lastSet]
    · simp only [MLS.run, List.foldl_nil, MLS.radius, hk, Option.map_some, lastSet]
  | cons o l ih =>
    intro k x r s b hk
    cases o with
    | reverse => exact ih k x r s b.reverse hk
    | update pos rebuild => exact ih k x r s (b.update pos rebuild).1 hk
    | maxStep t => exact ih k x r t b hk
    | radiusMultiplier y =>
      have hy : (k.withMultiplier y).multiplier = some y := by
        cases k <;> simp_all [KernelType.multiplier, KernelType.withMultiplier]
      obtain ⟨k', b', h1, h2, h3⟩ := ih (k.withMultiplier y) y r s b hy
      refine ⟨k', b', h1, ?_, h3⟩
      change k.SameBut k' (lastSet Op.multiplier? y l)
      cases k <;> simp_all [KernelType.SameBut, KernelType.withMultiplier]

/-- C95: changes of global surfaces only change the samples. -/
theorem run_global (ops : List Op) : ∀ (k : KernelType) (b : Base), ∃ b', (MLS.glob k b).run ops = .glob k b' := by
  induction ops with
  | nil => exact fun k b => ⟨b, rfl⟩
  | cons o l ih =>
    intro k b
    cases o with
    | reverse => exact ih k b.reverse
    | update pos rebuild => exact ih k (b.update pos rebuild).1
    | maxStep t => exact ih k b
    | radiusMultiplier y => exact ih k b

/-- Specification: the surface has the kernel and the largest step of the parameters. -/
def IsoParams.Matches (p : IsoParams) : MLS → Prop
  | .loc k _ step _ => step = p.maxStep ∧
    (p.kernel = .localSmooth ∧ k = .smooth p.radiusMultiplier p.tolerance ∨
      p.kernel = .localApproximate ∧ k = .approximate p.radiusMultiplier p.tolerance ∨
      p.kernel = .localCubic ∧ k = .cubic p.radiusMultiplier ∨
      p.kernel = .localInterpolating ∧ k = .interpolating p.radiusMultiplier)
  | .glob k _ => p.kernel = .globalInvDist ∧ k = .global p.tolerance

/-- C95: a surface that was created with the C interface has the parameters that were given. -/
theorem iso_params (m : TriMesh) (p : IsoParams) {s : MLS} (h : isoCreate m p = .ok (some s)) :
    s.base.bg = ⟨p.background, p.weighted⟩ ∧ s.base.sampleType = p.sampleType ∧
      (⟨p.toParams.kernel, p.toParams.bg, .triMesh m, p.toParams.maxStep, p.toParams.baseRadius, p.sampleType⟩ :
        Builder).buildBase = .ok (some s.base) ∧
      p.Matches s := by
  have hb := buildMls_base _ h
  have hbg : ∀ (B : Builder) (b : Base), B.buildBase = .ok (some b) → b.bg = B.bg ∧ b.sampleType = B.sampleType := by
    intro B b hb
    unfold Builder.buildBase at hb
    split at hb
    · split at hb
      · cases hb
      split at hb
      · cases hb
      have := (Option.some.inj (Except.ok.inj hb)).symm
      subst this
      exact ⟨rfl, rfl⟩
    · split at hb
      · split at hb
        · have := (Option.some.inj (Except.ok.inj hb)).symm
          subst this
          exact ⟨rfl, rfl⟩
        · cases hb
      · split at hb
        · cases hb
        split at hb
        · have := (Option.some.inj (Except.ok.inj hb)).symm
          subst this
          exact ⟨rfl, rfl⟩
        · cases hb
    · cases hb
  have hloc : ∀ B : Builder, B.buildLocal = .ok (some s) → ∃ r, s = .loc B.kernel r B.maxStep s.base := by
    intro B h
    unfold Builder.buildLocal at h
    split at h
    · cases h
    split at h
    · cases h
    split at h
    · cases h
    · cases h
    split at h
    · cases h
    · cases h
    have := (Option.some.inj (Except.ok.inj h)).symm
    exact ⟨_, by rw [this]; rfl⟩
  refine ⟨(hbg _ _ hb).1, (hbg _ _ hb).2, hb, ?_⟩
  unfold isoCreate mlsFromTrimesh Builder.buildMls at h
  cases hk : p.kernel with
  | globalHrbf => simp [IsoParams.toParams, hk] at h
  | globalInvDist =>
    simp only [IsoParams.toParams, hk] at h
    split at h
    · cases h
    · cases h
    · have := (Option.some.inj (Except.ok.inj h)).symm
      rw [this]
      exact ⟨hk, rfl⟩
  | localSmooth =>
    have hk' : p.toParams.kernel = .smooth p.radiusMultiplier p.tolerance := by simp [IsoParams.toParams, hk]
    simp only [hk'] at h
    obtain ⟨r, hs⟩ := hloc _ h
    rw [hs]
    exact ⟨rfl, Or.inl ⟨hk, rfl⟩⟩
  | localApproximate =>
    have hk' : p.toParams.kernel = .approximate p.radiusMultiplier p.tolerance := by simp [IsoParams.toParams, hk]
    simp only [hk'] at h
    obtain ⟨r, hs⟩ := hloc _ h
    rw [hs]
    exact ⟨rfl, Or.inr (Or.inl ⟨hk, rfl⟩)⟩
  | localCubic =>
    have hk' : p.toParams.kernel = .cubic p.radiusMultiplier := by simp [IsoParams.toParams, hk]
    simp only [hk'] at h
    obtain ⟨r, hs⟩ := hloc _ h
    rw [hs]
    exact ⟨rfl, Or.inr (Or.inr (Or.inl ⟨hk, rfl⟩))⟩
  | localInterpolating =>
    have hk' : p.toParams.kernel = .interpolating p.radiusMultiplier := by simp [IsoParams.toParams, hk]
    simp only [hk'] at h
    obtain ⟨r, hs⟩ := hloc _ h
    rw [hs]
    exact ⟨rfl, Or.inr (Or.inr (Or.inr ⟨hk, rfl⟩))⟩

/-- C95: a local surface of points with normals and a radius that is not zero is built, whatever sample type the
parameters have. -/
theorem pointcloud_builds (m : PointCloud) (P : Params) (hw : m.WellFormed) (hp : m.pos ≠ [])
    {N : List (V3 ℝ)} (hn : m.vertexVector "N" = some N) {x r : ℝ} (hk : P.kernel.multiplier = some x) (hx : x ≠ 0)
    (hr : P.baseRadius = some r) :
    ∃ b, mlsFromPointcloud m P = .ok (some (.loc P.kernel r P.maxStep b)) ∧ b.samples.pos = m.pos ∧
      b.samples.nml = N ∧ b.sampleType = .vertex := by
  have hN : N.isEmpty = false := by
    cases N with
    | nil => exact absurd (List.eq_nil_of_length_eq_zero (hw.vv _ _ hn).symm) hp
    | cons => rfl
  have hl : mlsFromPointcloud m P =
      ((⟨P.kernel, P.bg, .none, P.maxStep, P.baseRadius, P.sampleType⟩ : Builder).vertexMesh m).buildLocal := by
    unfold mlsFromPointcloud Builder.buildMls
    cases hk' : P.kernel <;> simp_all [Builder.vertexMesh, KernelType.multiplier]
  rw [hl]
  have e1 : ((⟨P.kernel, P.bg, .none, P.maxStep, P.baseRadius, P.sampleType⟩ : Builder).vertexMesh m).kernel.multiplier =
    some x := hk
  have e2 : vertexNormals m.vertexVector = N := by unfold vertexNormals; rw [hn]; rfl
  unfold Builder.buildLocal
  simp only [e1, if_neg hx]
  unfold Builder.buildBase Builder.buildBaseRadius
  simp only [Builder.vertexMesh, e2, hN, hr]
  exact ⟨_, rfl, rfl, rfl, rfl⟩

end Softy.SurfBuild
