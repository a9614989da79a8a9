import Verif.Model.NodeParams
import Verif.Props.Hooke
import Verif.Props.MeshMass
import Verif.Props.ContactSetup

/-!
# C103: the parameters of the Houdini node do what its documentation says
-/

noncomputable section

namespace Softy.Node

open V3 M3 Material Hooke

/-! ## Specification: the documentation of the node -/

/-- The Lamé parameters λ and μ in Pascal, as documented under "Stiffness Type": the stiffnesses of
the node are in kilo-Pascal. -/
def docLame (u : UiMaterial) : ℝ × ℝ :=
  match u.stiffnessType with
  | .shearBulk => (1000 * u.volume - 2 * (1000 * u.shape) / 3, 1000 * u.shape)
  | .youngPoisson =>
    (1000 * u.young * u.poisson / ((1 + u.poisson) * (1 - 2 * u.poisson)),
      1000 * u.young / (2 * (1 + u.poisson)))

/-- Parameters of a physical material. -/
def Physical (u : UiMaterial) : Prop :=
  match u.stiffnessType with
  | .shearBulk => 0 < u.shape ∧ 0 < u.volume
  | .youngPoisson => 0 < u.young ∧ -1 < u.poisson ∧ u.poisson < 1 / 2

/-- The documented energy density of the neo-Hookean model. -/
def psiNH (l m : ℝ) (F : M3 ℝ) : ℝ :=
  m / 2 * ((F.transpose * F).trace - 3) - m * Real.log F.det + l / 2 * Real.log F.det ^ 2

/-- The documented energy density of the stable neo-Hookean model, with its parameters. -/
def psiSNH (l m a : ℝ) (F : M3 ℝ) : ℝ :=
  m / 2 * ((F.transpose * F).trace - 3) - m / 2 * Real.log ((F.transpose * F).trace + 1) +
    l / 2 * (F.det - a) ^ 2

/-- The documented parameters λ and μ of the stable model. -/
def docStable (u : UiMaterial) : ℝ × ℝ :=
  ((docLame u).1 + 5 / 6 * (docLame u).2, 4 / 3 * (docLame u).2)

/-- The documented parameter α of the stable model. -/
def docAlpha (l m : ℝ) : ℝ := 1 + m / l - m * l / 4

/-- The deformation gradient of a stretch along the first axis that contracts the other two by `q`
times the stretch. -/
def stretch (q : ℝ) : M3 ℝ := ⟨⟨1, 0, 0⟩, ⟨0, -q, 0⟩, ⟨0, 0, -q⟩⟩

/-- The gradient of a shear of the first two axes. -/
def shearing : M3 ℝ := ⟨⟨0, 1, 0⟩, ⟨0, 0, 0⟩, ⟨0, 0, 0⟩⟩

/-! ## Materials of cells -/

theorem library_length (vc : Bool) (us : List UiMaterial) :
    (library vc us).length = us.length + 1 := by simp [library]

/-- **C103**, ids: cells with `mtl_id` equal to the 1-based index of a material have this material,
and all other cells are fixed. -/
theorem cell_material (vc : Bool) (us : List UiMaterial) :
    (∀ (i : ℕ) (u : UiMaterial), us[i]? = some u →
      cellMaterial vc us (i + 1) = some (libMaterial vc i (properties u))) ∧
    ∀ id : ℤ, id ≤ 0 ∨ us.length < id → cellMaterial vc us id = some (.fixed ⟨0, ()⟩) := by
  constructor
  · intro i u hu
    have hi : i < us.length := (List.getElem?_eq_some_iff.1 hu).1
    unfold cellMaterial
    rw [library_length, Mesh.normalizeId_valid (by omega) (by push_cast; omega)]
    have : ((i : ℤ) + 1).toNat = i + 1 := by omega
    rw [this, library, List.getElem?_cons_succ, List.getElem?_mapIdx, hu]
    rfl
  · intro id hid
    unfold cellMaterial
    rw [library_length]
    have : (Mesh.normalizeId (us.length + 1) id).toNat = 0 := by
      unfold Mesh.normalizeId
      push_cast
      split <;> omega
    rw [this]
    rfl

theorem moduli_doc {u : UiMaterial} (h : Physical u) :
    (moduli u).1 - 2 * (docLame u).2 / 3 = (docLame u).1 ∧ (moduli u).2 = (docLame u).2 := by
  unfold moduli docLame
  unfold Physical at h
  cases hs : u.stiffnessType with
  | shearBulk => rw [hs] at h; simp only; constructor <;> ring
  | youngPoisson =>
    rw [hs] at h
    obtain ⟨h1, h2, h3⟩ := h
    have a1 : (1 + u.poisson) ≠ 0 := by linarith
    have a2 : (1 - 2 * u.poisson) ≠ 0 := by linarith
    simp only
    constructor
    · field_simp
      ring
    · field_simp

theorem doc_pos {u : UiMaterial} (h : Physical u) :
    0 < bulkOf (docLame u).1 (docLame u).2 ∧ 0 < (docLame u).2 := by
  unfold docLame bulkOf
  unfold Physical at h
  cases hs : u.stiffnessType with
  | shearBulk =>
    rw [hs] at h
    simp only
    constructor <;> linarith [h.1, h.2]
  | youngPoisson =>
    rw [hs] at h
    obtain ⟨h1, h2, h3⟩ := h
    have a1 : 0 < 1 + u.poisson := by linarith
    have a2 : 0 < 1 - 2 * u.poisson := by linarith
    have a3 := a1.ne'
    have a4 := a2.ne'
    simp only
    refine ⟨?_, by positivity⟩
    have : 1000 * u.young * u.poisson / ((1 + u.poisson) * (1 - 2 * u.poisson)) +
        2 * (1000 * u.young / (2 * (1 + u.poisson))) / 3 =
        1000 * u.young / (3 * (1 - 2 * u.poisson)) := by
      obtain ⟨d, hd⟩ : ∃ d, d = 1 - 2 * u.poisson := ⟨_, rfl⟩
      rw [← hd] at a4 ⊢
      field_simp
      rw [hd]
      ring
    rw [this]
    positivity

/-- The material of a solid. -/
def solidOf (vc : Bool) (i : ℕ) (u : UiMaterial) : Base Solid :=
  ⟨i + 1, vc, some ⟨u.model, .bulkShear (moduli u).1 (moduli u).2⟩, some u.density, u.damping⟩

theorem libMaterial_solid {u : UiMaterial} (h : u.objectType = .solid) (vc : Bool) (i : ℕ) :
    libMaterial vc i (properties u) = .solid (solidOf vc i u) := by
  simp [libMaterial, properties, h, Base.applySolid, solidOf]

/-- **C103**, solids: a tetrahedron whose `mtl_id` is the index of a solid material responds to small
deformations by Hooke's law with the documented Lamé parameters, for both elasticity models and both
types of stiffness. -/
theorem solid_response (vc : Bool) (us : List UiMaterial) (i : ℕ) (u : UiMaterial)
    (hu : us[i]? = some u) (ht : u.objectType = .solid) (hp : Physical u) (X : Tet.Verts)
    (hX : 0 < Volume.tetVolume X) :
    Responds (tetGradient vc us (i + 1) X) X (Volume.tetVolume X)
      ((docLame u).1 + 2 * (docLame u).2 / 3) (docLame u).2 := by
  have hm : tetGradient vc us (i + 1) X = solidGradient X {} (solidOf vc i u) := by
    funext x
    unfold tetGradient
    rw [(cell_material vc us).1 i u hu, libMaterial_solid ht]
  obtain ⟨d1, d2⟩ := moduli_doc hp
  obtain ⟨p1, p2⟩ := doc_pos hp
  have h := solid_hooke_partial X (solidOf vc i u) ⟨u.model, .bulkShear (moduli u).1 (moduli u).2⟩ hX
    rfl (by simpa only [Params.lambda, Params.mu, d1, d2] using p1)
    (by simpa only [Params.mu, d2] using p2)
  simp only [Params.lambda, Params.mu, d1, d2] at h
  rw [hm]
  exact h

/-- **C103**, the meaning of the stiffnesses: in Hooke's law with the documented Lamé parameters,
Young's modulus is the ratio of stress and strain of a stretch in one direction, with Poisson's ratio
the contraction in the others; the shape stiffness is the ratio of stress and shear; and the volume
stiffness that of pressure and relative change of volume. All are in kilo-Pascal. -/
theorem stiffness_meaning (u : UiMaterial) (hp : Physical u) (B : M3 ℝ) :
    (u.stiffnessType = .youngPoisson →
      hooke ((docLame u).1 + 2 * (docLame u).2 / 3) (docLame u).2 (stretch u.poisson) B =
        1000 * u.young * B.r0.x) ∧
    (u.stiffnessType = .shearBulk →
      hooke ((docLame u).1 + 2 * (docLame u).2 / 3) (docLame u).2 shearing B =
        1000 * u.shape * (B.r0.y + B.r1.x) ∧
      hooke ((docLame u).1 + 2 * (docLame u).2 / 3) (docLame u).2 (diag 1) B =
        1000 * u.volume * (diag (1 : ℝ)).trace * B.trace) := by
  unfold Physical at hp
  constructor
  · intro hs
    rw [hs] at hp
    obtain ⟨h1, h2, h3⟩ := hp
    have a1 : (1 + u.poisson) ≠ 0 := by linarith
    have a2 : (1 - 2 * u.poisson) ≠ 0 := by linarith
    have e := hooke_lame (docLame u).1 (docLame u).2 (stretch u.poisson) B
    simp only [bulkOf] at e
    rw [e]
    simp only [docLame, hs]
    simp [stretch, frob, trace, transpose, V3.dot, diag]
    field_simp
    ring
  · intro hs
    have e := hooke_lame (docLame u).1 (docLame u).2 shearing B
    have e' := hooke_lame (docLame u).1 (docLame u).2 (diag 1) B
    simp only [bulkOf] at e e'
    rw [e, e']
    simp only [docLame, hs]
    constructor
    · simp [shearing, frob, trace, transpose, V3.dot, diag]
      ring
    · simp [frob, trace, transpose, V3.dot, diag]
      ring

/-! ## Energies -/

theorem trace_transpose_mul (F : M3 ℝ) : (F.transpose * F).trace = F.transpose.normSq := by
  simp [trace, transpose, normSq, mul_def, M3.mul, mulVec, V3.dot]

theorem solidElem_doc {u : UiMaterial} (vc : Bool) (i : ℕ) (hp : Physical u) {X : Tet.Verts}
    (hX : 0 < Volume.tetVolume X) : ∃ D : M3 ℝ, D * Tet.shape X = diag 1 ∧
      solidElem X {} (solidOf vc i u) = some ⟨D, Volume.tetVolume X,
        (Elasticity.lame ⟨u.model, .lame (docLame u).1 (docLame u).2⟩).1,
        (Elasticity.lame ⟨u.model, .lame (docLame u).1 (docLame u).2⟩).2⟩ := by
  obtain ⟨D, hD⟩ := refTet_pos hX
  obtain ⟨d1, d2⟩ := moduli_doc hp
  refine ⟨D, (refTet_some hD).2.2, ?_⟩
  simp only [solidElem, hD, elemLambda, elemMu, solidOf, Option.map_some]
  cases u.model <;> simp only [Elasticity.lame, Params.lambda, Params.mu, d1, d2]

theorem tetEnergy_solid (vc : Bool) (us : List UiMaterial) (i : ℕ) (u : UiMaterial)
    (hu : us[i]? = some u) (ht : u.objectType = .solid) (hp : Physical u) (X x : Tet.Verts)
    (hX : 0 < Volume.tetVolume X) (F : M3 ℝ) (hF : HasGradient X x F) :
    ∃ e : Tet.Elem, e.F = F.transpose ∧ e.volume = Volume.tetVolume X ∧
      e.lambda = (Elasticity.lame ⟨u.model, .lame (docLame u).1 (docLame u).2⟩).1 ∧
      e.mu = (Elasticity.lame ⟨u.model, .lame (docLame u).1 (docLame u).2⟩).2 ∧
      tetEnergy vc us (i + 1) X x =
        match u.model with
        | .neoHookean => Tet.nhEnergy e
        | .stableNeoHookean => Tet.snhEnergy e := by
  obtain ⟨D, hD, he⟩ := solidElem_doc vc i hp hX
  refine ⟨Tet.Ref.at ⟨D, Volume.tetVolume X,
        (Elasticity.lame ⟨u.model, .lame (docLame u).1 (docLame u).2⟩).1,
        (Elasticity.lame ⟨u.model, .lame (docLame u).1 (docLame u).2⟩).2⟩ x,
    dF_eq hD hF, rfl, rfl, rfl, ?_⟩
  have hm : solidModel (solidOf vc i u) = u.model := rfl
  unfold tetEnergy
  rw [(cell_material vc us).1 i u hu, libMaterial_solid ht]
  simp only
  rw [he]
  simp only
  rw [hm]
  cases u.model <;> rfl

/-- **C103**, the neo-Hookean model: the energy of a tetrahedron is its volume times the documented
energy density of the deformation gradient. -/
theorem nh_energy (vc : Bool) (us : List UiMaterial) (i : ℕ) (u : UiMaterial)
    (hu : us[i]? = some u) (ht : u.objectType = .solid) (hm : u.model = .neoHookean)
    (hp : Physical u) (X x : Tet.Verts) (hX : 0 < Volume.tetVolume X) (F : M3 ℝ)
    (hF : HasGradient X x F) (hpos : 0 < F.det) :
    tetEnergy vc us (i + 1) X x =
      some (Volume.tetVolume X * psiNH (docLame u).1 (docLame u).2 F) := by
  obtain ⟨e, h1, h2, h3, h4, h5⟩ := tetEnergy_solid vc us i u hu ht hp X x hX F hF
  rw [h5, hm]
  rw [hm] at h3 h4
  simp only [Elasticity.lame, Params.lambda, Params.mu] at h3 h4
  have hd : e.F.det = F.det := by rw [h1, det_transpose]
  simp only [Tet.nhEnergy]
  rw [if_neg (by rw [hd]; exact not_le.2 hpos), hd, h1, h2, h3, h4, psiNH, trace_transpose_mul]
  refine congrArg some ?_
  ring

/-- **C103**, the stable model: the energy of a tetrahedron is its volume times the documented energy
density with the documented parameters λ and μ, and with α = 1 + μ/λ - μ/(4λ). Missing: the
documented α, see `alpha_violated`. -/
theorem snh_energy_partial (vc : Bool) (us : List UiMaterial) (i : ℕ) (u : UiMaterial)
    (hu : us[i]? = some u) (ht : u.objectType = .solid) (hm : u.model = .stableNeoHookean)
    (hp : Physical u) (X x : Tet.Verts) (hX : 0 < Volume.tetVolume X) (F : M3 ℝ)
    (hF : HasGradient X x F) :
    tetEnergy vc us (i + 1) X x = some (Volume.tetVolume X *
      psiSNH (docStable u).1 (docStable u).2
        (1 + (docStable u).2 / (docStable u).1 - (docStable u).2 / (4 * (docStable u).1)) F) := by
  obtain ⟨e, h1, h2, h3, h4, h5⟩ := tetEnergy_solid vc us i u hu ht hp X x hX F hF
  rw [h5, hm]
  rw [hm] at h3 h4
  simp only [Elasticity.lame, Params.lambda, Params.mu] at h3 h4
  have hl : (docStable u).1 = (docLame u).1 + 5 * (docLame u).2 / 6 := by
    simp only [docStable]; ring
  have hmu : (docStable u).2 = 4 * (docLame u).2 / 3 := by simp only [docStable]; ring
  have hd : e.F.det = F.det := by rw [h1, det_transpose]
  have hl0 : e.lambda ≠ 0 := by
    obtain ⟨p1, p2⟩ := doc_pos hp
    simp only [bulkOf] at p1
    rw [h3]
    intro h
    linarith
  rw [hl, hmu, ← h3, ← h4]
  simp only [Tet.snhEnergy]
  rw [if_neg hl0, hd, h1, h2, psiSNH, trace_transpose_mul]
  refine congrArg some ?_
  field_simp
  ring

/-- **C103 is violated** by the documented α: for every solid with the stable model whose parameter λ
is not one Pascal, the energy is not the documented one. -/
theorem alpha_violated (vc : Bool) (us : List UiMaterial) (i : ℕ) (u : UiMaterial)
    (hu : us[i]? = some u) (ht : u.objectType = .solid) (hm : u.model = .stableNeoHookean)
    (hp : Physical u) (h1 : (docStable u).1 ≠ 1) (X : Tet.Verts) (hX : 0 < Volume.tetVolume X) :
    ∃ (x : Tet.Verts) (F : M3 ℝ), HasGradient X x F ∧ 0 < F.det ∧
      tetEnergy vc us (i + 1) X x ≠ some (Volume.tetVolume X *
        psiSNH (docStable u).1 (docStable u).2 (docAlpha (docStable u).1 (docStable u).2) F) := by
  obtain ⟨p1, p2⟩ := doc_pos hp
  simp only [bulkOf] at p1
  have hl : 0 < (docStable u).1 := by simp only [docStable]; linarith
  have hmu : 0 < (docStable u).2 := by simp only [docStable]; linarith
  have grad : ∀ C : M3 ℝ, HasGradient X (fun i => mulVec C (X i)) C := by
    intro C i j
    ext <;> simp [mulVec, V3.dot] <;> ring
  by_contra hcon
  push Not at hcon
  have key : ∀ t : ℝ, 0 < t → (t ^ 3 - (1 + (docStable u).2 / (docStable u).1 -
      (docStable u).2 / (4 * (docStable u).1))) ^ 2 =
      (t ^ 3 - docAlpha (docStable u).1 (docStable u).2) ^ 2 := by
    intro t ht0
    have hdet : (diag t).det = t ^ 3 := by simp [det, diag, V3.dot, V3.cross]; ring
    have a := hcon _ _ (grad (diag t)) (by rw [hdet]; positivity)
    rw [snh_energy_partial vc us i u hu ht hm hp X _ hX _ (grad (diag t))] at a
    have b := mul_left_cancel₀ hX.ne' (Option.some.inj a)
    simp only [psiSNH, hdet] at b
    have c : (docStable u).1 / 2 * ((t ^ 3 - (1 + (docStable u).2 / (docStable u).1 -
      (docStable u).2 / (4 * (docStable u).1))) ^ 2) = (docStable u).1 / 2 *
      (t ^ 3 - docAlpha (docStable u).1 (docStable u).2) ^ 2 := by linarith
    exact mul_left_cancel₀ (by positivity) c
  have k1 := key 1 one_pos
  have k2 := key 2 two_pos
  have hd : (docStable u).2 / (4 * (docStable u).1) = (docStable u).2 * (docStable u).1 / 4 := by
    unfold docAlpha at k1 k2
    nlinarith
  field_simp at hd
  have : ((docStable u).1 - 1) * ((docStable u).1 + 1) = 0 := by linarith
  rcases mul_eq_zero.1 this with h | h
  · exact h1 (by linarith)
  · linarith

/-! ## Shells -/

/-- The material of a shell. -/
def shellOf (i : ℕ) (u : UiMaterial) : Base SoftShell :=
  ⟨i + 1, some u.bending,
    some ⟨.neoHookean, .bulkShear (moduli u).1 (moduli u).2⟩, some u.density, u.damping⟩

theorem libMaterial_shell {u : UiMaterial} (h : u.objectType = .shell) (vc : Bool) (i : ℕ) :
    libMaterial vc i (properties u) = .shell (shellOf i u) := by
  simp [libMaterial, properties, h, softWithDamping, softWithDensity, softWithBending,
    softWithElasticity, shellOf]

/-- **C103**, shells: a triangle whose `mtl_id` is the index of a shell material responds to small
deformations like a membrane with the documented Lamé parameters. Missing: the documented meaning of
Young's modulus and Poisson's ratio, see `shell_young_violated`. -/
theorem shell_response_partial (vc : Bool) (us : List UiMaterial) (i : ℕ) (u : UiMaterial)
    (hu : us[i]? = some u) (ht : u.objectType = .shell) (hp : Physical u) (X : Tri.Verts)
    (hX : V3.cross (X 0 - X 2) (X 1 - X 2) ≠ 0) :
    MembraneResponds (triGradient vc us (i + 1) X) X (areaOf X) (docLame u).1 (docLame u).2 := by
  have hm : triGradient vc us (i + 1) X = shellGradient X {} (shellOf i u) := by
    funext x
    unfold triGradient
    rw [(cell_material vc us).1 i u hu, libMaterial_shell ht]
  obtain ⟨d1, d2⟩ := moduli_doc hp
  have h := shell_hooke_partial X (shellOf i u)
    ⟨.neoHookean, .bulkShear (moduli u).1 (moduli u).2⟩ hX rfl rfl
  simp only [Params.lambda, Params.mu, d1, d2] at h
  rw [hm]
  exact h

/-- **C103 is violated** by Young's modulus and Poisson's ratio of shells. Stretch a shell in one
direction `a` so that there is no stress in the other: it contracts by ν / (1 - ν) instead of ν times
the stretch, and the ratio of stress and strain is E / (1 - ν²) instead of E. -/
theorem shell_young_violated (u : UiMaterial) (hs : u.stiffnessType = .youngPoisson)
    (hp : Physical u) (hnu : u.poisson ≠ 0) (X : Tri.Verts) (a b : V3 ℝ) (hab : Frame X a b)
    (A : M3 ℝ) (hA : strainIn A a a = 1) (Y : ℝ)
    (hY : ∀ B, planeHooke (docLame u).1 (docLame u).2 a b A B = Y * strainIn B a a) :
    Y = 1000 * u.young / (1 - u.poisson ^ 2) ∧ Y ≠ 1000 * u.young ∧
      strainIn A b b = -(u.poisson / (1 - u.poisson)) ∧ strainIn A b b ≠ -u.poisson := by
  obtain ⟨haa, hbb, hab', -, -⟩ := hab
  unfold Physical at hp
  rw [hs] at hp
  obtain ⟨h1, h2, h3⟩ := hp
  have a1 : (1 + u.poisson) ≠ 0 := by linarith
  have a2 : (1 - 2 * u.poisson) ≠ 0 := by linarith
  have a3 : (1 - u.poisson) ≠ 0 := by linarith
  -- Strains `a ⊗ a` and `b ⊗ b`.
  have outer : ∀ p q c d : V3 ℝ, strainIn ⟨p.x • q, p.y • q, p.z • q⟩ c d =
      (dot c p * dot q d + dot d p * dot q c) / 2 := by
    intro p q c d
    simp [strainIn, mulVec, V3.dot]
    ring
  have hba : dot b a = 0 := by rw [← hab']; simp [V3.dot]; ring
  have e1 := hY ⟨a.x • a, a.y • a, a.z • a⟩
  have e2 := hY ⟨b.x • b, b.y • b, b.z • b⟩
  simp only [planeHooke, outer, haa, hbb, hab', hba, hA] at e1 e2
  simp only [docLame, hs] at e1 e2
  set s := strainIn A b b with hsdef
  have hE : u.young ≠ 0 := h1.ne'
  have e2' : u.poisson * (1 + s) + (1 - 2 * u.poisson) * s = 0 := by
    obtain ⟨d, hd⟩ : ∃ d, d = 1 - 2 * u.poisson := ⟨_, rfl⟩
    rw [← hd] at a2 e2 ⊢
    field_simp at e2
    have h4 : u.young * (u.poisson * (1 + s) + d * s) = 0 := by
      linarith
    exact (mul_eq_zero.1 h4).resolve_left hE
  have hsv : s = -(u.poisson / (1 - u.poisson)) := by
    rw [eq_comm, neg_eq_iff_eq_neg, div_eq_iff a3]
    linarith
  have a4 : (1 - u.poisson ^ 2) ≠ 0 := by
    have : 1 - u.poisson ^ 2 = (1 - u.poisson) * (1 + u.poisson) := by ring
    rw [this]
    exact mul_ne_zero a3 a1
  have hYv : Y = 1000 * u.young / (1 - u.poisson ^ 2) := by
    rw [hsv] at e1
    have : Y = 1000 * u.young * u.poisson / ((1 + u.poisson) * (1 - 2 * u.poisson)) *
        (1 + -(u.poisson / (1 - u.poisson))) + 2 * (1000 * u.young / (2 * (1 + u.poisson))) := by
      linarith
    rw [this, show (1 - u.poisson ^ 2) = (1 - u.poisson) * (1 + u.poisson) by ring]
    clear e1 e2 hY this hsv
    obtain ⟨d, hd⟩ : ∃ d, d = 1 - 2 * u.poisson := ⟨_, rfl⟩
    obtain ⟨c, hc⟩ : ∃ c, c = 1 - u.poisson := ⟨_, rfl⟩
    rw [← hd] at a2 ⊢
    rw [← hc] at a3 ⊢
    field_simp
    rw [hd, hc]
    ring
  refine ⟨hYv, ?_, hsv, ?_⟩
  · rw [hYv, ne_eq, div_eq_iff a4]
    intro h
    have : 1000 * u.young * u.poisson ^ 2 = 0 := by linarith
    rcases mul_eq_zero.1 this with h | h
    · linarith
    · exact hnu (by simpa using h)
  · rw [hsv, ne_eq, neg_inj, div_eq_iff a3]
    intro h
    have : u.poisson * u.poisson = 0 := by linarith
    exact hnu (by simpa using this)

/-- The stretch of `shell_young_violated` exists. -/
theorem shell_stretch (l m : ℝ) (hlm : l + 2 * m ≠ 0) (X : Tri.Verts) (a b : V3 ℝ)
    (hab : Frame X a b) : ∃ (A : M3 ℝ) (Y : ℝ), strainIn A a a = 1 ∧
      ∀ B, planeHooke l m a b A B = Y * strainIn B a a := by
  obtain ⟨haa, hbb, hab', -, -⟩ := hab
  have hba : dot b a = 0 := by rw [← hab']; simp [V3.dot]; ring
  have outer : ∀ (k : ℝ) (c d : V3 ℝ), strainIn ⟨a.x • a + (k * b.x) • b, a.y • a + (k * b.y) • b,
      a.z • a + (k * b.z) • b⟩ c d = dot c a * dot a d + k * (dot c b * dot b d) := by
    intro k c d
    simp [strainIn, mulVec, V3.dot]
    ring
  refine ⟨⟨a.x • a + (-(l / (l + 2 * m)) * b.x) • b, a.y • a + (-(l / (l + 2 * m)) * b.y) • b,
    a.z • a + (-(l / (l + 2 * m)) * b.z) • b⟩, l * (1 + -(l / (l + 2 * m))) + 2 * m, ?_, ?_⟩
  · exact (outer (-(l / (l + 2 * m))) a a).trans (by rw [haa, hab']; ring)
  · intro B
    simp only [planeHooke, outer, haa, hbb, hab', hba]
    field_simp
    ring

/-! ## Static objects -/

section static

open Mesh

variable {P : Type*}

/-- The cells of the mesh with their materials. -/
theorem prepare_mem {materials : List Mesh.Material} {m : Input P} {ids : List ℤ}
    (ha : m.mtl.onCells = some ⟨.i32, ids⟩) {mcells : List (Cell × Mesh.Material)}
    {vt : List VertexType} (hp : prepare materials m = .ok (mcells, vt)) :
    (∀ c ∈ mcells, ∃ (j : ℕ) (d : Cell) (id : ℤ), m.cells[j]? = some d ∧ ids[j]? = some id ∧
      c.1 = { d with mtl := normalizeId materials.length id } ∧
      materials[(normalizeId materials.length id).toNat]? = some c.2) ∧
    ∀ (j : ℕ) (d : Cell) (id : ℤ), m.cells[j]? = some d → ids[j]? = some id →
      ∃ c ∈ mcells, c.1 = { d with mtl := normalizeId materials.length id } ∧
        materials[(normalizeId materials.length id).toNat]? = some c.2 := by
  unfold prepare at hp
  rw [initMaterialId, ha] at hp
  simp only [assignMaterials] at hp
  split at hp
  · cases hp
  · rename_i l hl
    cases hp
    unfold withMaterials at hl
    have hf := mapM_some _ _ _ hl
    have hlen := hf.length_eq
    have hmax : ∀ id : ℤ, max (normalizeId materials.length id) 0 =
        normalizeId materials.length id := by
      intro id
      unfold normalizeId
      split <;> omega
    have hget : ∀ (j : ℕ) (d : Cell) (id : ℤ), m.cells[j]? = some d → ids[j]? = some id →
        ∃ c, mcells[j]? = some c ∧ c.1 = { d with mtl := normalizeId materials.length id } ∧
          materials[(normalizeId materials.length id).toNat]? = some c.2 := by
      intro j d id hd hid
      have h1 : ((m.cells.zip (ids.map (normalizeId materials.length))).map
          fun c => { c.1 with mtl := c.2 })[j]? =
          some { d with mtl := normalizeId materials.length id } := by
        rw [List.getElem?_map, (List.getElem?_zip_eq_some
          (z := (d, normalizeId materials.length id))).2 ⟨hd, by rw [List.getElem?_map, hid]; rfl⟩]
        rfl
      obtain ⟨hj, he⟩ := List.getElem?_eq_some_iff.1 h1
      have hj' : j < mcells.length := hlen ▸ hj
      have h2 := List.forall₂_iff_get.1 hf |>.2 j hj hj'
      simp only [List.get_eq_getElem, he] at h2
      obtain ⟨x, hx, hx'⟩ := Option.map_eq_some_iff.1 h2
      rw [hmax] at hx
      exact ⟨mcells[j], List.getElem?_eq_getElem hj', by rw [← hx'], by rw [hx, ← hx']⟩
    constructor
    · intro c hc
      obtain ⟨j, hj⟩ := List.mem_iff_getElem?.1 hc
      have hjl : j < mcells.length := (List.getElem?_eq_some_iff.1 hj).1
      rw [← hlen, List.length_map, List.length_zip, List.length_map] at hjl
      have hd : m.cells[j]? = some m.cells[j] := List.getElem?_eq_getElem (by omega)
      have hid : ids[j]? = some ids[j] := List.getElem?_eq_getElem (by omega)
      obtain ⟨c', h1, h2, h3⟩ := hget j _ _ hd hid
      rw [hj] at h1
      cases h1
      exact ⟨j, _, _, hd, hid, h2, h3⟩
    · intro j d id hd hid
      obtain ⟨c, h1, h2, h3⟩ := hget j d id hd hid
      exact ⟨c, List.mem_of_getElem? h1, h2, h3⟩

/-- The material of cells with `mtl_id` 0, or with an id without material. -/
theorem static_material (vc : Bool) (us : List UiMaterial) (id : ℤ)
    (h : id ≤ 0 ∨ us.length < id) (x : Mesh.Material)
    (hx : ((library vc us).map LibMaterial.toMesh)[(normalizeId
      ((library vc us).map LibMaterial.toMesh).length id).toNat]? = some x) : x = .fixed := by
  rw [List.length_map, List.getElem?_map] at hx
  have := (cell_material vc us).2 id h
  unfold cellMaterial at this
  rw [this] at hx
  simpa [LibMaterial.toMesh] using hx.symm

/-- **C103**, static objects: the solver never moves a vertex if all its cells have `mtl_id` 0 (or an
id without material). Missing: static triangles must be marked as fixed, see
`static_triangle_violated`. -/
theorem static_partial (vc : Bool) (us : List UiMaterial) (m : Input P) (s : State P) (hm : m.WF)
    (hsrc : m.source = none) (ids : List ℤ) (ha : m.mtl.onCells = some ⟨.i32, ids⟩)
    (hb : build ((library vc us).map LibMaterial.toMesh) m = .ok s) (v : ℕ) (p : Particle P)
    (hp : m.verts[v]? = some p)
    (hv : ∀ (j : ℕ) (c : Cell) (id : ℤ), m.cells[j]? = some c → ids[j]? = some id → v ∈ c.verts →
      id ≤ 0 ∨ us.length < id)
    (zero : P) (steps : List (List (Particle P))) :
    (vertexPositions zero (history (steps.map Op.dofs) s))[v]? = some p.pos := by
  obtain ⟨order, mcells, vt, -, hprep, -, h⟩ := reported_history hm hsrc hb zero (steps.map Op.dofs)
  have hvn : v < m.verts.length := (List.getElem?_eq_some_iff.1 hp).1
  have hlen : (initFixed m.verts.length m.fixed).length = m.verts.length :=
    initFixed_length _ _ hm.fixed
  have hx : (initFixed m.verts.length m.fixed)[v]? =
    some (initFixed m.verts.length m.fixed)[v] := List.getElem?_eq_getElem (by omega)
  have hall : ∀ c ∈ mcells, v ∈ c.1.verts → c.2 = .fixed := by
    intro c hc hvc
    obtain ⟨j, d, id, h1, h2, h3, h4⟩ := (prepare_mem ha hprep).1 c hc
    exact static_material vc us id (hv j d id h1 h2 (by rw [h3] at hvc; exact hvc)) c.2 h4
  have hr : ¬ ∃ c ∈ mcells, c.2.isRigid = true ∧ v ∈ c.1.verts := by
    rintro ⟨c, hc, h1, h2⟩
    rw [hall c hc h2] at h1
    cases h1
  have hs : ¬ ∃ c ∈ mcells, (c.2.isSoft = true ∧ c.1.valid) ∧ v ∈ c.1.verts := by
    rintro ⟨c, hc, ⟨h1, -⟩, h2⟩
    rw [hall c hc h2] at h1
    cases h1
  obtain ⟨t, ht, ht'⟩ : ∃ t, vt[v]? = some t ∧ ¬ (t = .free ∨ t = .rigid) := by
    refine ⟨_, by rw [prepare_types hprep, vertexTypes_get, hx, Option.map_some], ?_⟩
    unfold typeSpec
    rw [if_neg hr, if_neg hs]
    split <;> simp
  rw [(h v p t hp ht).2]
  refine congrArg some ?_
  have : ∀ (l : List (List (Particle P))) (q : P),
      (l.map Op.dofs).foldl (expected t (order.idxOf v) v) q = q := by
    intro l
    induction l with
    | nil => intro q; rfl
    | cons a l ih =>
      intro q
      rw [List.map_cons, List.foldl_cons]
      have : expected t (order.idxOf v) v q (Op.dofs a) = q := by
        simp only [expected]
        rw [if_neg ht']
      rw [this]
      exact ih q
  exact this steps p.pos

theorem initFixed_zero (n : ℕ) (a : Option IntAttr) (v : ℕ)
    (h : ∀ b, a = some b → b.vals[v]? = some 0) (x : ℤ) (hx : (initFixed n a)[v]? = some x) :
    x = 0 := by
  rcases a with - | ⟨ty, vals⟩
  · simp only [initFixed, List.getElem?_replicate] at hx
    split_ifs at hx
    simpa using hx.symm
  · have h0 := h _ rfl
    simp only at h0
    have hc : convert .i8 0 = 0 := by simp [convert, AttrType.range]
    cases ty <;> simp only [initFixed, List.getElem?_map, h0, Option.map_some, hc, normalizeFixed,
      List.getElem?_replicate] at hx <;> first | (simpa using hx.symm) | skip
    split_ifs at hx
    simpa using hx.symm

/-- **C103 is violated** by static triangles: they do require material properties. Whenever a mesh has
a triangle with `mtl_id` 0 (or an id without material) one of whose vertices is not marked as fixed,
no simulation can be started. -/
theorem static_triangle_violated (vc : Bool) (us : List UiMaterial) (m : Input P) (hm : m.WF)
    (ids : List ℤ) (ha : m.mtl.onCells = some ⟨.i32, ids⟩) (j : ℕ) (c : Cell) (id : ℤ)
    (hc : m.cells[j]? = some c) (hid : ids[j]? = some id) (h0 : id ≤ 0 ∨ us.length < id)
    (hty : c.ty = .triangle) (hd : c.density = none) (v : ℕ) (hv : v ∈ c.verts)
    (hf : ∀ a, m.fixed = some a → a.vals[v]? = some 0) (s : State P) :
    build ((library vc us).map LibMaterial.toMesh) m ≠ .ok s := by
  intro hb
  obtain ⟨vt, hbt⟩ := build_ok hb
  have hlen := built_length hm hbt
  obtain ⟨mcells, hprep, hs⟩ := hbt.prep
  obtain ⟨d, hd1', hd1, hd3⟩ := (prepare_mem ha hprep).2 j c id hc hid
  have hfix := static_material vc us id h0 d.2 hd3
  have hcm : c ∈ m.cells := List.mem_of_getElem? hc
  have hvn : v < m.verts.length := (hm.cells c hcm).2 v hv
  have hvt : ∀ t, vt[v]? = some t → t ≠ .fixed := by
    intro t ht he
    rw [prepare_types hprep, vertexTypes_get] at ht
    obtain ⟨x, hx, hx'⟩ := Option.map_eq_some_iff.1 ht
    have := initFixed_zero _ _ v hf x hx
    subst this
    rw [he] at hx'
    unfold typeSpec at hx'
    split_ifs at hx' <;> first | omega | skip
  have hi : (sortOrder vt)[(sortOrder vt).idxOf v]? = some v := by
    have hlt := List.idxOf_lt_length_iff.2 (sortOrder_mem.2 (hlen ▸ hvn) : v ∈ sortOrder vt)
    rw [List.getElem?_eq_getElem hlt, List.getElem_idxOf hlt]
  set d' : Cell × Mesh.Material := (renumber (sortOrder vt) d.1, d.2) with hd'
  have hsnf : someNotFixed (sortTypes vt) d'.1 = true := by
    rw [someNotFixed_iff]
    refine ⟨(sortOrder vt).idxOf v, List.mem_map.2 ⟨v, by rw [hd1]; exact hv, rfl⟩, ?_⟩
    rw [sortTypes_eq, gather_get _ _ fun i hi => sortOrder_mem.1 hi, hi]
    intro h
    exact hvt _ h rfl
  have hvalid : d'.1.valid := by
    have h1 := (hm.cells c hcm).1
    simp only [hd', Cell.valid, renumber, List.length_map, hd1]
    exact h1
  have htri : isTri (sortTypes vt) d' = true := by
    have : d'.1.ty = .triangle := by simp [hd', renumber, hd1, hty]
    simp [isTri, this, hvalid, hsnf]
  have hmem : d' ∈ (mcells.map fun c => (renumber (sortOrder vt) c.1, c.2)).filter
      (isTri (sortTypes vt)) := List.mem_filter.2 ⟨List.mem_map.2 ⟨d, hd1', rfl⟩, htri⟩
  unfold mkState at hs
  split at hs
  · rename_i nh snh tris e1 e2 e3
    unfold triElements at e3
    have hden : triDensity d' = none := by
      simp [triDensity, hd', renumber, hd1, hd, hfix]
    have hnone : mkElement triDensity d' = none := by
      simp only [mkElement, hden]
    obtain ⟨b, -, hb⟩ := mapM_mem e3 hmem
    rw [hnone] at hb
    cases hb
  · cases hs

end static

/-! ## Contacts -/

/-- **C103**, friction: a contact without friction has none, with friction it has the coefficients of
the node; its stiffness is the inverse of its tolerance. -/
theorem contact_friction (c : UiContact) :
    (c.friction = false → (contactParm c).params.friction.IsNone) ∧
    (c.friction = true → (contactParm c).params.friction = ⟨c.dynamicCof, c.staticCof, c.viscous⟩) ∧
    (contactParm c).params.stiffness = 1 / c.tolerance ∧
    (contactParm c).params.offset = c.offset ∧
    (contactParm c).params.tolerance = c.tolerance ∧
    (c.kernel = .smooth → (contactParm c).params.kernel = .smooth c.radiusMult c.smoothTol) ∧
    (c.kernel = .approximate →
      (contactParm c).params.kernel = .approximate c.radiusMult c.smoothTol) ∧
    (c.kernel = .cubic → (contactParm c).params.kernel = .cubic c.radiusMult) ∧
    (c.kernel = .global → (contactParm c).params.kernel = .global c.smoothTol) := by
  refine ⟨fun h => ?_, fun h => ?_, rfl, rfl, rfl, fun h => ?_, fun h => ?_, fun h => ?_,
    fun h => ?_⟩
  · simp [contactParm, h, Setup.FrictionParams.IsNone]
  all_goals simp [contactParm, h]

theorem live_mem (cs : List UiContact) (c : UiContact) (hc : c ∈ cs) (k : ℕ) (hk : k ∈ c.colliders) :
    ∃ r ∈ PluginScene.liveContacts true (cs.map contactParm), r.object = c.object ∧ r.collider = k := by
  have inner : ∀ (q : PluginScene.ContactParm) (js : List ℕ) (l : List Setup.Request),
      js.foldl (fun l j => Setup.addWithFixed true l q.params (q.object, j) q.useFixed) l =
        l ++ js.map fun j => ⟨q.params, q.object, j, q.useFixed⟩ := by
    intro q js
    induction js with
    | nil => intro l; simp
    | cons j js ih =>
      intro l
      rw [List.foldl_cons, ih]
      simp [Setup.addWithFixed]
  have outer : ∀ (qs : List PluginScene.ContactParm) (l : List Setup.Request),
      qs.foldl (fun l c => c.colliders.foldl
        (fun l j => Setup.addWithFixed true l c.params (c.object, j) c.useFixed) l) l =
      l ++ qs.flatMap fun q => q.colliders.map fun j => ⟨q.params, q.object, j, q.useFixed⟩ := by
    intro qs
    induction qs with
    | nil => intro l; simp
    | cons q qs ih =>
      intro l
      rw [List.foldl_cons, inner, ih]
      simp
  unfold PluginScene.liveContacts
  rw [outer, List.nil_append]
  refine ⟨⟨(contactParm c).params, c.object, k, c.useFixed⟩, ?_, rfl, rfl⟩
  rw [List.mem_flatMap]
  exact ⟨contactParm c, List.mem_map_of_mem hc, List.mem_map.2 ⟨k, hk, rfl⟩⟩

/-- **C103 is violated** by the ids of contacts. The interface asks for the "Implicit Material Id" and
the "Point Material Ids" of a contact, but the solver takes them for object ids. A mesh without the
attribute `obj_id` is a single object, so that no contact between any materials can be set up. -/
theorem contact_ids_violated (surface : List (Fin 4 → ℕ) → List (Fin 3 → ℕ)) (a : Mesh.Attrs)
    (ha : a.onCells = none) (cells : List Mesh.Cell) (types : List Mesh.VertexType) (x : ℕ → V3 ℝ)
    (cs : List UiContact) (c : UiContact) (hc : c ∈ cs) (k : ℕ) (hk : k ∈ c.colliders)
    (Cs : List Setup.Contact) :
    Setup.setup surface a cells types x (PluginScene.liveContacts true (cs.map contactParm)) ≠
      .ok Cs := by
  intro h
  have hp := (Setup.contact_setup_possible surface a (by intro ids h; rw [ha] at h; cases h) cells
    types x _).1 ⟨Cs, h⟩
  obtain ⟨r, hr, h1, h2⟩ := live_mem cs c hc k hk
  obtain ⟨hne, hpos⟩ := hp r hr
  have zero : ∀ id : ℕ, Setup.Exists (Setup.given a) id → id = 0 := by
    rintro id ⟨v, hv, he⟩
    simp only [Setup.given, ha] at hv
    have := List.eq_of_mem_replicate hv
    subst this
    simpa using he.symm
  exact hne ((zero _ hpos.object).trans (zero _ hpos.collider).symm)

/-! ## Settings -/

/-- **C103**, settings: gravity points in the negative `y` direction with the given magnitude, the
simulation is static if and only if the time step is not positive, tolerances are used if and only if
they are switched on, and a line search uses the given coefficient. -/
theorem settings (s : UiSolver) :
    (simParams s).gravity = ⟨0, -s.gravity, 0⟩ ∧
    (∀ dt, (simParams s).timeStep = some dt ↔ 0 < s.timeStep ∧ dt = s.timeStep) ∧
    (∀ t, (simParams s).residualTolerance = some t ↔ s.residual = (true, t)) ∧
    (∀ t, (simParams s).velocityTolerance = some t ↔ s.velocity = (true, t)) ∧
    (∀ t, (simParams s).accelerationTolerance = some t ↔ s.acceleration = (true, t)) ∧
    (simParams s).maxIterations = s.maxOuterIterations ∧
    (s.lineSearch = .none → (simParams s).lineSearch = .none) ∧
    (s.lineSearch = .backtracking →
      ∃ c, (simParams s).lineSearch = .backtracking c s.backtrackingCoeff) ∧
    (s.lineSearch = .assisted → ∃ c, (simParams s).lineSearch = .assisted c s.backtrackingCoeff) ∧
    (s.lineSearch = .contactAssisted →
      ∃ c, (simParams s).lineSearch = .contactAssisted c s.backtrackingCoeff) := by
  have tol : ∀ (b : Bool × ℝ) (t : ℝ), (if b.1 = true then some b.2 else none) = some t ↔
      b = (true, t) := by
    rintro ⟨b, r⟩ t
    cases b <;> simp
  refine ⟨rfl, ?_, tol _, tol _, tol _, rfl, ?_, ?_, ?_, ?_⟩
  · intro dt
    simp only [simParams, gt_iff_lt]
    by_cases h : 0 < s.timeStep
    · rw [if_pos h]
      simp [h, eq_comm]
    · rw [if_neg h]
      simp [h]
  all_goals
    intro h
    simp [simParams, h, LineSearch.withStepFactor, stepFactor]

/-- **C103**, menus: methods of time integration, linear solvers and Newton's method, and the other
values that are passed on. -/
theorem menus (s : UiSolver) :
    (s.integration = .BE → (simParams s).integration = .BE) ∧
    (s.integration = .TR → (simParams s).integration = .TR) ∧
    (s.integration = .BDF2 → (simParams s).integration = .BDF2) ∧
    (s.integration = .TRBDF2 → (simParams s).integration = .TRBDF2 (1 / 2)) ∧
    (s.integration = .TRBDF2U → (simParams s).integration = .TRBDF2 (2 - √2)) ∧
    (s.integration = .SDIRK2 → (simParams s).integration = .SDIRK2) ∧
    (s.solverType = .newton → (simParams s).solverType = .newton) ∧
    (s.solverType = .adaptiveNewton → (simParams s).solverType = .adaptiveNewton) ∧
    (0 < s.innerTolerance → 0 < s.maxInnerIterations →
      (simParams s).linsolve = .iterative s.innerTolerance s.maxInnerIterations) ∧
    (s.innerTolerance ≤ 0 ∨ s.maxInnerIterations = 0 → (simParams s).linsolve = .direct) ∧
    (simParams s).preconditioner = s.preconditioner ∧
    (simParams s).velocityClearFrequency = s.velocityClearFrequency ∧
    (simParams s).contactIterations = s.contactIterations ∧
    (simParams s).derivativeTest = s.derivativeTest ∧
    (simParams s).projectHessians = s.projectHessians ∧
    (∀ f, (simParams s).logFile = some f ↔ f = s.logFile ∧ f ≠ "") := by
  refine ⟨?_, ?_, ?_, ?_, ?_, ?_, ?_, ?_, ?_, ?_, rfl, rfl, rfl, rfl, rfl, ?_⟩
  all_goals try
    intro h
    simp [simParams, integrationOf, h]
    done
  · intro h
    simp only [simParams, integrationOf, h]
    norm_num
  · intro h1 h2
    simp [simParams, h1, h2]
  · intro h
    have : ¬ (s.innerTolerance > 0 ∧ s.maxInnerIterations > 0) := by
      rintro ⟨h1, h2⟩
      rcases h with h | h
      · linarith
      · omega
    simp only [simParams]
    rw [if_neg this]
  · intro f
    simp only [simParams]
    by_cases h : s.logFile.isEmpty = true
    · rw [if_pos h]
      rw [String.isEmpty_iff] at h
      rw [h]
      constructor
      · simp
      · rintro ⟨h1, h2⟩
        exact absurd h1 h2
    · rw [if_neg h]
      rw [String.isEmpty_iff] at h
      constructor
      · intro e
        cases e
        exact ⟨rfl, h⟩
      · rintro ⟨rfl, -⟩
        rfl

/-- **C103 is violated** by the solver type "Trust Region": it is Newton's method, with the line search
that the interface hides for it. -/
theorem trust_region_violated (s : UiSolver) :
    simParams { s with solverType := .trustRegion } = simParams { s with solverType := .newton } := rfl

/-! ## Examples -/

/-- A cloth, a block of rubber given by Young's modulus and Poisson's ratio, and a block given by its
moduli. -/
def exampleMaterials : List UiMaterial :=
  [⟨.shell, .stableNeoHookean, .youngPoisson, 10, 1750, 300, 0.3, 0.1, 0.2, 0⟩,
   ⟨.solid, .neoHookean, .youngPoisson, 10, 1750, 1000, 0.25, 0, 1000, 0⟩,
   ⟨.solid, .stableNeoHookean, .shearBulk, 10, 1750, 3.24, 0.49, 0, 1000, 0⟩]

theorem example_physical : ∀ u ∈ exampleMaterials, Physical u := by
  intro u hu
  simp only [exampleMaterials, List.mem_cons, List.not_mem_nil, or_false] at hu
  rcases hu with rfl | rfl | rfl <;> norm_num [Physical]

def unitTet : Tet.Verts := ![⟨1, 0, 0⟩, ⟨0, 1, 0⟩, ⟨0, 0, 1⟩, ⟨0, 0, 0⟩]

theorem unitTet_volume : Volume.tetVolume unitTet = 1 / 6 := by
  simp [unitTet, Volume.tetVolume, V3.dot, V3.cross]

/-- Tetrahedra with `mtl_id` 3 have a bulk modulus of 1750 kPa and a shear modulus of 10 kPa. -/
example (vc : Bool) : Responds (tetGradient vc exampleMaterials 3 unitTet) unitTet (1 / 6)
    1750000 10000 := by
  have h := solid_response vc exampleMaterials 2 _ rfl rfl (example_physical _ (by simp [exampleMaterials]))
    unitTet (by rw [unitTet_volume]; norm_num)
  rw [unitTet_volume] at h
  norm_num [docLame] at h
  exact h

/-- Those with `mtl_id` 2 have λ = μ = 400 kPa, and a stretch of one hundred percent has a stress of
1000 kPa in its direction. -/
example (vc : Bool) : Responds (tetGradient vc exampleMaterials 2 unitTet) unitTet (1 / 6)
      (2000000 / 3) 400000 ∧
    ∀ B, hooke (2000000 / 3) 400000 (stretch 0.25) B = 1000000 * B.r0.x := by
  have hp := example_physical _ (List.mem_of_getElem? (rfl : exampleMaterials[1]? = some _))
  have h := solid_response vc exampleMaterials 1 _ rfl rfl hp unitTet (by rw [unitTet_volume]; norm_num)
  rw [unitTet_volume] at h
  norm_num [docLame] at h
  refine ⟨h, fun B => ?_⟩
  have := (stiffness_meaning _ hp B).1 rfl
  norm_num [docLame] at this
  norm_num
  exact this

/-- The energies of a tetrahedron that is twice as large. -/
example (vc : Bool) :
    tetEnergy vc exampleMaterials 2 unitTet (fun i => mulVec (diag 2) (unitTet i)) =
        some (1 / 6 * psiNH 400000 400000 (diag 2)) ∧
      ∃ W, tetEnergy vc exampleMaterials 3 unitTet (fun i => mulVec (diag 2) (unitTet i)) = some W := by
  have grad : HasGradient unitTet (fun i => mulVec (diag 2) (unitTet i)) (diag 2) := by
    intro i j
    ext <;> simp [mulVec, V3.dot] <;> ring
  constructor
  · have h := nh_energy vc exampleMaterials 1 _ rfl rfl rfl
      (example_physical _ (by simp [exampleMaterials])) unitTet _
      (by rw [unitTet_volume]; norm_num) _ grad (by simp [det, diag, V3.dot, V3.cross])
    rw [unitTet_volume] at h
    norm_num [docLame] at h ⊢
    exact h
  · exact ⟨_, snh_energy_partial vc exampleMaterials 2 _ rfl rfl rfl
      (example_physical _ (by simp [exampleMaterials])) unitTet _
      (by rw [unitTet_volume]; norm_num) _ grad⟩

/-- The documented energy is wrong for the third material. -/
example (vc : Bool) : ∃ (u : UiMaterial) (x : Tet.Verts) (F : M3 ℝ), exampleMaterials[2]? = some u ∧
    HasGradient unitTet x F ∧ 0 < F.det ∧
      tetEnergy vc exampleMaterials 3 unitTet x ≠ some (Volume.tetVolume unitTet *
        psiSNH (docStable u).1 (docStable u).2 (docAlpha (docStable u).1 (docStable u).2) F) := by
  obtain ⟨x, F, h⟩ := alpha_violated vc exampleMaterials 2 _ rfl rfl rfl
    (example_physical _ (by simp [exampleMaterials])) (by norm_num [docStable, docLame]) unitTet
    (by rw [unitTet_volume]; norm_num)
  exact ⟨_, x, F, rfl, h⟩

def unitTri : Tri.Verts := ![⟨1, 0, 0⟩, ⟨0, 1, 0⟩, ⟨0, 0, 0⟩]

/-- Triangles with `mtl_id` 1 are a cloth with a Young's modulus of 300 kPa, but stretching it in one
direction takes 300 / (1 - 0.3²) kPa. -/
example (vc : Bool) : ∃ u, exampleMaterials[0]? = some u ∧ u.young = 300 ∧
    MembraneResponds (triGradient vc exampleMaterials 1 unitTri) unitTri (areaOf unitTri)
      (docLame u).1 (docLame u).2 ∧
    ∃ A, strainIn A ⟨1, 0, 0⟩ ⟨1, 0, 0⟩ = 1 ∧
      ∀ B, planeHooke (docLame u).1 (docLame u).2 ⟨1, 0, 0⟩ ⟨0, 1, 0⟩ A B =
        1000 * 300 / (1 - 0.3 ^ 2) * strainIn B ⟨1, 0, 0⟩ ⟨1, 0, 0⟩ := by
  have hp := example_physical _ (List.mem_of_getElem? (rfl : exampleMaterials[0]? = some _))
  have hf : Frame unitTri ⟨1, 0, 0⟩ ⟨0, 1, 0⟩ := by
    refine ⟨by simp [V3.dot], by simp [V3.dot], by simp [V3.dot], ⟨1, 0, ?_⟩, 0, 1, ?_⟩ <;>
      ext <;> simp [unitTri]
  refine ⟨_, rfl, rfl, shell_response_partial vc exampleMaterials 0 _ rfl rfl hp unitTri
    (by simp [unitTri, V3.cross, V3.ext_iff]), ?_⟩
  obtain ⟨A, Y, hA, hY⟩ := shell_stretch (docLame (⟨.shell, .stableNeoHookean, .youngPoisson, 10, 1750, 300, 0.3, 0.1, 0.2, 0⟩ : UiMaterial)).1
    (docLame (⟨.shell, .stableNeoHookean, .youngPoisson, 10, 1750, 300, 0.3, 0.1, 0.2, 0⟩ : UiMaterial)).2
    (by norm_num [docLame]) unitTri _ _ hf
  refine ⟨A, hA, fun B => ?_⟩
  have := (shell_young_violated _ rfl hp (by norm_num) unitTri _ _ hf A hA Y hY).1
  rw [hY, this]

/-- A soft tetrahedron and a static one that share a face. -/
def twoTets : Mesh.Input ℕ :=
  ⟨[⟨0, 0⟩, ⟨1, 0⟩, ⟨2, 0⟩, ⟨3, 0⟩, ⟨4, 0⟩], none, none, ⟨5, 2, some ⟨.i32, [2, 0]⟩, none⟩,
    [⟨.tetrahedron, [0, 1, 2, 3], 1, none, 0⟩, ⟨.tetrahedron, [1, 2, 3, 4], 1, none, 0⟩]⟩

theorem twoTets_WF : twoTets.WF := by
  constructor <;> simp [twoTets, Mesh.Cell.valid, Mesh.CellType.size]

/-- The solver does not move the last vertex, whatever it computes. -/
example (vc : Bool) (zero : ℕ) : ∃ s,
    Mesh.build ((library vc exampleMaterials).map LibMaterial.toMesh) twoTets = .ok s ∧
    ∀ steps : List (List (Mesh.Particle ℕ)), (Mesh.vertexPositions zero (Mesh.history (steps.map Mesh.Op.dofs) s))[4]? = some 4 := by
  have hb : ∃ s, Mesh.build ((library vc exampleMaterials).map LibMaterial.toMesh) twoTets = .ok s := by
    have hp : Mesh.prepare ((library vc exampleMaterials).map LibMaterial.toMesh) twoTets =
        .ok ([(⟨.tetrahedron, [0, 1, 2, 3], 1, none, 2⟩, .solid .neoHookean (some 1000)),
          (⟨.tetrahedron, [1, 2, 3, 4], 1, none, 0⟩, .fixed)],
          [.free, .free, .free, .free, .ignored]) := by
      simp [Mesh.prepare, twoTets, Mesh.initMaterialId, Mesh.assignMaterials, Mesh.withMaterials,
        Mesh.vertexTypes, Mesh.initFixed, Mesh.fixedTypes, Mesh.markRigid, Mesh.markFree,
        Mesh.markCell, Mesh.Cell.valid, Mesh.CellType.size, List.replicate, List.modify_cons,
        library, exampleMaterials, libMaterial, properties, LibMaterial.toMesh, Base.applySolid,
        solidModel, Mesh.normalizeId, Mesh.Material.isSoft, Mesh.Material.isRigid, softWithDensity,
        softWithDamping, softWithBending, softWithElasticity]
    have ho : Mesh.sortOrder [.free, .free, .free, .free, .ignored] = [0, 1, 2, 3, 4] := by
      simp [Mesh.sortOrder, List.range_succ, List.mergeSort, List.MergeSort.Internal.splitInTwo,
        Mesh.VertexType.rank]
    unfold Mesh.build
    rw [hp]
    simp only [ho, Mesh.sortTypes_eq]
    simp [Mesh.sourceIndex, twoTets, Mesh.gather, List.range_succ, Mesh.mkState, Mesh.tetElements,
      Mesh.triElements, Mesh.isTet, Mesh.isTri, Mesh.numDofs, Mesh.VertexType.rank,
      List.filter_cons, Mesh.renumber, Mesh.Cell.valid, Mesh.CellType.size, Mesh.someNotFixed,
      Mesh.mkElement, Mesh.tetDensity]
    norm_num
    rw [if_neg (by simp)]
    exact ⟨_, rfl⟩
  obtain ⟨s, hs⟩ := hb
  refine ⟨s, hs, fun steps => ?_⟩
  refine static_partial vc exampleMaterials twoTets s twoTets_WF rfl [2, 0] rfl hs 4 ⟨4, 0⟩ rfl ?_
    zero steps
  intro j c id hc hid hv
  match j with
  | 0 =>
    simp only [twoTets, List.getElem?_cons_zero, Option.some.injEq] at hc
    subst hc
    simp at hv
  | 1 =>
    simp at hid
    omega
  | j + 2 => simp at hid

/-- A soft tetrahedron above a static triangle: there is no simulation. -/
example (vc : Bool) (s : Mesh.State ℕ) :
    Mesh.build ((library vc exampleMaterials).map LibMaterial.toMesh)
      ⟨[⟨0, 0⟩, ⟨1, 0⟩, ⟨2, 0⟩, ⟨3, 0⟩, ⟨4, 0⟩, ⟨5, 0⟩, ⟨6, 0⟩], none, none,
        ⟨7, 2, some ⟨.i32, [2, 0]⟩, none⟩,
        [⟨.tetrahedron, [0, 1, 2, 3], 1, none, 0⟩, ⟨.triangle, [4, 5, 6], 1, none, 0⟩]⟩ ≠ .ok s :=
  static_triangle_violated vc exampleMaterials _
    (by constructor <;> simp [Mesh.Cell.valid, Mesh.CellType.size]) [2, 0] rfl 1
    ⟨.triangle, [4, 5, 6], 1, none, 0⟩ 0 rfl rfl (Or.inl le_rfl) rfl rfl 4 (by simp)
    (by simp) s

/-- A contact between the materials 1 and 2 without friction. -/
example (surface : List (Fin 4 → ℕ) → List (Fin 3 → ℕ)) (cells : List Mesh.Cell)
    (types : List Mesh.VertexType) (x : ℕ → V3 ℝ) (Cs : List Setup.Contact) :
    Setup.setup surface ⟨7, 2, none, none⟩ cells types x (PluginScene.liveContacts true
      ([⟨1, [2], .approximate, 1, 0.00001, 0, 0.001, false, false, 0.2, 0.2, 0⟩].map contactParm)) ≠
      .ok Cs :=
  contact_ids_violated surface _ rfl cells types x _ _ List.mem_cons_self 2 (by simp) Cs

end Softy.Node
