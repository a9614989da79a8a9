import Mathlib.Data.List.MinMax
import Verif.Model.Field
import Verif.Model.BaseRadius

/-!
# Building and updating implicit surfaces

Model of `implicits/src/field/builder.rs`, of the functions of `implicits/src/field.rs` that change a surface, of the
functions of `implicits/src/lib.rs` that build one from parameters, and of `iso_create_implicit_surface` of
`cimplicits/src/lib.rs`.

Scalars are reals, conversions between types of numbers are exact. Attributes of meshes are functions of the name that
give `none` if there is no attribute of this name and type; an attribute has a value for every vertex, or face. Panics
are errors of `Except`. Parallel variants of updates compute the same and are not modelled separately.
-/

noncomputable section

namespace Softy.SurfBuild

open Softy Softy.Field Softy.Kernel

/-! ## Meshes -/

/-- `TriMesh` of `geo`, with the attributes of types `f32` and `[f32; 3]`. -/
structure TriMesh where
  pos : List (V3 ℝ)
  faces : List Tri
  vertexScalar : String → Option (List ℝ)
  vertexVector : String → Option (List (V3 ℝ))
  faceScalar : String → Option (List ℝ)

/-- `PointCloud` of `geo`. -/
structure PointCloud where
  pos : List (V3 ℝ)
  vertexScalar : String → Option (List ℝ)
  vertexVector : String → Option (List (V3 ℝ))

/-- `SamplesMesh` (`builder.rs:6-13`). -/
inductive SamplesMesh where
  | triMesh (m : TriMesh)
  | pointCloud (m : PointCloud)
  | none

/-- `KernelType` (`kernel.rs:8-30`). -/
inductive KernelType where
  | interpolating (multiplier : ℝ)
  | smooth (multiplier tolerance : ℝ)
  | approximate (multiplier tolerance : ℝ)
  | cubic (multiplier : ℝ)
  | global (tolerance : ℝ)
  | hrbf

/-- The radius multiplier of local kernels (`kernel.rs:56-69`). -/
def KernelType.multiplier : KernelType → Option ℝ
  | .interpolating m => some m
  | .smooth m _ => some m
  | .approximate m _ => some m
  | .cubic m => some m
  | .global _ => Option.none
  | .hrbf => Option.none

/-- `with_radius_multiplier` (`kernel.rs:71-85`). -/
def KernelType.withMultiplier (k : KernelType) (m : ℝ) : KernelType :=
  match k with
  | .interpolating _ => .interpolating m
  | .smooth _ t => .smooth m t
  | .approximate _ t => .approximate m t
  | .cubic _ => .cubic m
  | k => k

/-! ## Samples -/

/-- `Samples` (`samples.rs:40-55`). -/
structure SampleSet where
  pos : List (V3 ℝ)
  nml : List (V3 ℝ)
  vel : List (V3 ℝ)
  value : List ℝ

/-- Position of a vertex. -/
def at3 (l : List (V3 ℝ)) (i : ℕ) : V3 ℝ := l.getD i 0

/-- `compute_vertex_area_weighted_normals` of `geo`, for all vertices. -/
def areaWeightedNormals (faces : List Tri) (pos : List (V3 ℝ)) : List (V3 ℝ) :=
  (List.range pos.length).map (vertexNormal faces (at3 pos))

/-- `new_vertex_samples` (`samples.rs:78-103`), with `update_vertex_samples` (105-134). -/
def newVertexSamples (faces : List Tri) (pos : List (V3 ℝ)) (normals : Option (List (V3 ℝ))) (values : List ℝ) :
    SampleSet :=
  ⟨pos, normals.getD (areaWeightedNormals faces pos), List.replicate pos.length 0, values⟩

/-- The iterator of `update_triangle_samples` (`samples.rs:208-212`): centroid. -/
def faceCentroid (pos : List (V3 ℝ)) (t : Tri) : V3 ℝ :=
  (1 / 3 : ℝ) • (at3 pos t.a + at3 pos t.b + at3 pos t.c)

/-- `area_normal` of a face. -/
def faceNormal (pos : List (V3 ℝ)) (t : Tri) : V3 ℝ := areaNormal (at3 pos t.a) (at3 pos t.b) (at3 pos t.c)

/-- `v / v.norm()` for the first edge of a face. -/
def faceTangent (pos : List (V3 ℝ)) (t : Tri) : V3 ℝ :=
  (1 / (at3 pos t.b - at3 pos t.a).norm) • (at3 pos t.b - at3 pos t.a)

/-- `update_triangle_samples` (`samples.rs:194-224`): positions, normals and velocities are overwritten. -/
def updateTriangleSamples (S : SampleSet) (faces : List Tri) (pos : List (V3 ℝ)) : SampleSet :=
  { S with pos := faces.map (faceCentroid pos), nml := faces.map (faceNormal pos), vel := faces.map (faceTangent pos) }

/-- `new_triangle_samples` (`samples.rs:170-192`). -/
def newTriangleSamples (faces : List Tri) (pos : List (V3 ℝ)) (values : List ℝ) : SampleSet :=
  updateTriangleSamples ⟨[], [], [], values⟩ faces pos

/-! ## Surfaces -/

/-- `ImplicitSurfaceBase` (`field.rs:122-154`). Of the search tree, `keys` are the positions for which it was built, and
`data` are the positions that it stores. -/
structure Base where
  bg : BgParams
  topo : List Tri
  verts : List (V3 ℝ)
  samples : SampleSet
  dual : List (List ℕ)
  sampleType : SampleType
  keys : List (V3 ℝ)
  data : List (V3 ℝ)

/-- `MLS` with `LocalMLS` and `GlobalMLS` (`field.rs:156-187, 219-227`). -/
inductive MLS where
  | loc (kernel : KernelType) (baseRadius maxStep : ℝ) (base : Base)
  | glob (kernel : KernelType) (base : Base)

/-- `MLS::base` (`field.rs:449-455`). -/
def MLS.base : MLS → Base
  | .loc _ _ _ b => b
  | .glob _ b => b

/-- `ImplicitSurface` (`field.rs:238-246`). -/
inductive Surface where
  | hrbf (base : Base)
  | mls (m : MLS)

/-- `ImplicitSurfaceBuilder` (`builder.rs:15-23`). -/
structure Builder where
  kernel : KernelType
  bg : BgParams
  mesh : SamplesMesh
  maxStep : ℝ
  baseRadius : Option ℝ
  sampleType : SampleType

/-- A panic. -/
inductive Panic where
  | emptyMesh
  | index
  | emptyTree
  deriving DecidableEq

/-- `ImplicitSurfaceBuilder::new` (`builder.rs:31-47`). -/
def Builder.new : Builder :=
  ⟨.approximate 1 (1 / 100000), ⟨.zero, false⟩, .none, 0, Option.none, .vertex⟩

/-- `vertex_mesh` (`builder.rs:74-78`): also sets the type of samples. -/
def Builder.vertexMesh (B : Builder) (m : PointCloud) : Builder := { B with mesh := .pointCloud m, sampleType := .vertex }

/-- `trimesh` (`builder.rs:93-96`). -/
def Builder.trimesh (B : Builder) (m : TriMesh) : Builder := { B with mesh := .triMesh m }

/-- `sample_type` (`builder.rs:108-111`). -/
def Builder.setSampleType (B : Builder) (ty : SampleType) : Builder := { B with sampleType := ty }

/-- `vertex_offsets_from_mesh` (`builder.rs:119-124`). -/
def vertexOffsets (pos : List (V3 ℝ)) (a : String → Option (List ℝ)) : List ℝ :=
  (a "offset").getD (List.replicate pos.length 0)

/-- `vertex_normals_from_mesh` (`builder.rs:126-135`). -/
def vertexNormals (a : String → Option (List (V3 ℝ))) : List (V3 ℝ) := (a "N").getD []

/-- `vertex_velocities_from_mesh` (`builder.rs:137-143`). -/
def vertexVelocities (pos : List (V3 ℝ)) (a : String → Option (List (V3 ℝ))) : List (V3 ℝ) :=
  (a "V").getD (List.replicate pos.length 0)

/-- Mean velocity of a face (`builder.rs:297-306`). -/
def faceVelocity (vel : List (V3 ℝ)) (t : Tri) : V3 ℝ :=
  (1 / 3 : ℝ) • (at3 vel t.a + at3 vel t.b + at3 vel t.c)

/-- Triangles refer to vertices of the mesh. -/
def facesInRange (n : ℕ) (faces : List Tri) : Bool :=
  faces.all fun t => decide (t.a < n) && decide (t.b < n) && decide (t.c < n)

/-- `compute_dual_topo` (`builder.rs:148-162`), with indices of triangles. -/
def dualIndices (n : ℕ) (faces : List Tri) : List (List ℕ) :=
  if faces.isEmpty then []
  else (List.range n).map fun v => ((List.range faces.length).zip faces).flatMap fun p =>
    ([p.2.a, p.2.b, p.2.c].filter (· = v)).map fun _ => p.1

/-- The end of `build_base` (`builder.rs:321-335`). -/
def Builder.assemble (B : Builder) (samples : SampleSet) (verts : List (V3 ℝ)) (faces : List Tri) : Base :=
  ⟨B.bg, faces, verts, samples, dualIndices verts.length faces, B.sampleType, samples.pos, samples.pos⟩

/-- `build_base` (`builder.rs:217-336`). Indices out of range are found at the latest by `compute_dual_topo`. -/
def Builder.buildBase (B : Builder) : Except Panic (Option Base) :=
  match B.mesh with
  | .pointCloud m =>
    if B.sampleType = .face then .ok Option.none
    else if (vertexNormals m.vertexVector).isEmpty then .ok Option.none
    else .ok (some (B.assemble ⟨m.pos, vertexNormals m.vertexVector, vertexVelocities m.pos m.vertexVector,
      vertexOffsets m.pos m.vertexScalar⟩ m.pos []))
  | .triMesh m =>
    match B.sampleType with
    | .vertex =>
      if facesInRange m.pos.length m.faces then
        let n := vertexNormals m.vertexVector
        let S := newVertexSamples m.faces m.pos (if n.isEmpty then Option.none else some n)
          (vertexOffsets m.pos m.vertexScalar)
        .ok (some (B.assemble { S with vel := vertexVelocities m.pos m.vertexVector } m.pos m.faces))
      else .error .index
    | .face =>
      if m.faces.isEmpty then .ok Option.none
      else if facesInRange m.pos.length m.faces then
        let S := newTriangleSamples m.faces m.pos ((m.faceScalar "offset").getD (List.replicate m.faces.length 0))
        .ok (some (B.assemble
          { S with vel := m.faces.map (faceVelocity (vertexVelocities m.pos m.vertexVector)) } m.pos m.faces))
      else .error .index
  | .none => .ok Option.none

/-- `build_base_radius` (`builder.rs:194-215`). -/
def Builder.buildBaseRadius (B : Builder) : Except Panic (Option ℝ) :=
  match B.mesh with
  | .pointCloud _ => .ok B.baseRadius
  | .triMesh m =>
    match B.baseRadius with
    | some r => .ok (some r)
    | Option.none =>
      match Neighborhood.baseRadius m.faces (at3 m.pos) with
      | some r => .ok (some r)
      | Option.none => .error .emptyMesh
  | .none => .ok Option.none

open Classical in
/-- `build_local_mls` (`builder.rs:353-397`). -/
def Builder.buildLocal (B : Builder) : Except Panic (Option MLS) :=
  match B.kernel.multiplier with
  | Option.none => .ok Option.none
  | some m =>
    if m = 0 then .ok Option.none
    else
      match B.buildBase with
      | .error e => .error e
      | .ok Option.none => .ok Option.none
      | .ok (some base) =>
        match B.buildBaseRadius with
        | .error e => .error e
        | .ok Option.none => .ok Option.none
        | .ok (some r) => .ok (some (.loc B.kernel r B.maxStep base))

/-- `build_mls` (`builder.rs:399-420`). -/
def Builder.buildMls (B : Builder) : Except Panic (Option MLS) :=
  match B.kernel with
  | .hrbf => .ok Option.none
  | .global _ =>
    match B.buildBase with
    | .error e => .error e
    | .ok Option.none => .ok Option.none
    | .ok (some base) => .ok (some (.glob B.kernel base))
  | _ => B.buildLocal

/-- `build_generic` (`builder.rs:338-351`). -/
def Builder.buildGeneric (B : Builder) : Except Panic (Option Surface) :=
  match B.kernel with
  | .hrbf =>
    match B.buildBase with
    | .error e => .error e
    | .ok Option.none => .ok Option.none
    | .ok (some base) => .ok (some (.hrbf base))
  | _ =>
    match B.buildMls with
    | .error e => .error e
    | .ok Option.none => .ok Option.none
    | .ok (some m) => .ok (some (.mls m))

/-! ## Changes -/

/-- `reverse` (`field.rs:264-278`). -/
def Base.reverse (b : Base) : Base := { b with samples := { b.samples with nml := b.samples.nml.map fun n => -n } }

/-- The loop of `update` over vertices (`field.rs:377-381`): the vertices, and how many were updated. -/
def updateVerts : List (V3 ℝ) → List (V3 ℝ) → List (V3 ℝ) × ℕ
  | p :: ps, q :: qs => ((q :: (updateVerts ps qs).1), (updateVerts ps qs).2 + 1)
  | ps, _ => (ps, 0)

/-- `update_samples` (`field.rs:297-330`). -/
def Base.updateSamples (b : Base) : Base :=
  match b.sampleType with
  | .vertex =>
    { b with samples := { b.samples with pos := b.verts, nml := areaWeightedNormals b.topo b.verts } }
  | .face => { b with samples := updateTriangleSamples b.samples b.topo b.verts }

/-- `update` (`field.rs:371-404`): the surface and the number of vertices that were updated. -/
def Base.update (b : Base) (pos : List (V3 ℝ)) (rebuild : Bool) : Base × ℕ :=
  let u := updateVerts b.verts pos
  let b1 := { b with verts := u.1 }.updateSamples
  ({ b1 with keys := if rebuild then b1.samples.pos else b1.keys, data := b1.samples.pos }, u.2)

/-- What can be done with a surface after it was built. -/
inductive Op where
  | reverse
  | update (pos : List (V3 ℝ)) (rebuild : Bool)
  | maxStep (s : ℝ)
  | radiusMultiplier (m : ℝ)

/-- `MLS::reverse`, `update`, `update_max_step` and `update_radius_multiplier` (`field.rs:507-552`). -/
def MLS.apply (m : MLS) : Op → MLS
  | .reverse =>
    match m with
    | .loc k r s b => .loc k r s b.reverse
    | .glob k b => .glob k b.reverse
  | .update pos rebuild =>
    match m with
    | .loc k r s b => .loc k r s (b.update pos rebuild).1
    | .glob k b => .glob k (b.update pos rebuild).1
  | .maxStep s =>
    match m with
    | .loc k r _ b => .loc k r s b
    | .glob k b => .glob k b
  | .radiusMultiplier x =>
    match m with
    | .loc k r s b => .loc (k.withMultiplier x) r s b
    | .glob k b => .glob k b

/-- A sequence of changes. -/
def MLS.run (m : MLS) (ops : List Op) : MLS := ops.foldl MLS.apply m

/-- `MLS::radius` (`field.rs:465-471`); `none` for infinity. -/
def MLS.radius : MLS → Option ℝ
  | .loc k r _ _ => k.multiplier.map (r * ·)
  | .glob _ _ => Option.none

/-! ## Queries -/

/-- The samples as the functions of `Verif.Model.Field` take them. -/
def SampleSet.toSamples (S : SampleSet) : Samples := ⟨at3 S.pos, at3 S.nml, at3 S.vel, fun i => S.value.getD i 0⟩

/-- `nearest_neighbor` of the search tree (crate `rstar`), for trees that were built for the positions they store. -/
def nearest (pos : List (V3 ℝ)) (q : V3 ℝ) : Option ℕ :=
  (List.range pos.length).argmin fun i => V3.dot (q - at3 pos i) (q - at3 pos i)

/-- The closest samples of query points, as `QueryTopo::new` finds them (`query.rs:77-82, 92-104`). -/
def MLS.closest (m : MLS) (Q : List (V3 ℝ)) : Except Panic (List ℕ) :=
  match Q.mapM (nearest m.base.data) with
  | some l => .ok l
  | Option.none => .error .emptyTree

/-! ## Parameters -/

/-- `Params` (`lib.rs:23-30`). -/
structure Params where
  kernel : KernelType
  bg : BgParams
  sampleType : SampleType
  maxStep : ℝ
  baseRadius : Option ℝ

/-- `mls_from_trimesh` (`lib.rs:101-122`): `none` is `Error::Failure`. -/
def mlsFromTrimesh (m : TriMesh) (P : Params) : Except Panic (Option MLS) :=
  (⟨P.kernel, P.bg, .triMesh m, P.maxStep, P.baseRadius, P.sampleType⟩ : Builder).buildMls

/-- `surface_from_trimesh` (`lib.rs:66-89`). -/
def surfaceFromTrimesh (m : TriMesh) (P : Params) : Except Panic (Option Surface) :=
  (⟨P.kernel, P.bg, .triMesh m, P.maxStep, P.baseRadius, P.sampleType⟩ : Builder).buildGeneric

/-- `mls_from_pointcloud` (`lib.rs:133-157`): `vertex_mesh` is called after `sample_type`. -/
def mlsFromPointcloud (m : PointCloud) (P : Params) : Except Panic (Option MLS) :=
  ((⟨P.kernel, P.bg, .none, P.maxStep, P.baseRadius, P.sampleType⟩ : Builder).vertexMesh m).buildMls

/-- `ISO_KernelType` (`cimplicits/src/lib.rs:30-63`). -/
inductive IsoKernel where
  | localSmooth
  | localApproximate
  | localCubic
  | localInterpolating
  | globalInvDist
  | globalHrbf

/-- `ISO_Params` (`cimplicits/src/lib.rs:65-106`). -/
structure IsoParams where
  tolerance : ℝ
  radiusMultiplier : ℝ
  baseRadius : ℝ
  kernel : IsoKernel
  background : BgType
  weighted : Bool
  sampleType : SampleType
  maxStep : ℝ

open Classical in
/-- The conversion of parameters (`cimplicits/src/lib.rs:140-194`). -/
def IsoParams.toParams (p : IsoParams) : Params where
  kernel := match p.kernel with
    | .localSmooth => .smooth p.radiusMultiplier p.tolerance
    | .localInterpolating => .interpolating p.radiusMultiplier
    | .localApproximate => .approximate p.radiusMultiplier p.tolerance
    | .localCubic => .cubic p.radiusMultiplier
    | .globalInvDist => .global p.tolerance
    | .globalHrbf => .hrbf
  bg := ⟨p.background, p.weighted⟩
  sampleType := p.sampleType
  maxStep := p.maxStep
  baseRadius := if p.baseRadius = 0 then Option.none else some p.baseRadius

/-- `iso_create_implicit_surface` (`cimplicits/src/lib.rs:241-256`): `none` is the null pointer. -/
def isoCreate (m : TriMesh) (p : IsoParams) : Except Panic (Option MLS) := mlsFromTrimesh m p.toParams

end Softy.SurfBuild
