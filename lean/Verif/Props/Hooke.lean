import Verif.Model.Hooke
import Verif.Props.TetNhHessian
import Verif.Props.TetSnh
import Verif.Props.TriNhHessian
import Verif.Props.Material
import Verif.Props.ContactBasis

/-!
# C100: small deformations obey Hooke's law with the moduli of the material
-/

noncomputable section

namespace Softy.Hooke

open V3 M3 Material

/-! ## Specification -/

/-- The symmetric part of a displacement gradient: the infinitesimal strain. -/
def strain (A : M3 ℝ) : M3 ℝ := (1 / 2 : ℝ) • (A + A.transpose)

/-- The part of a strain that changes the shape but not the volume. -/
def deviator (E : M3 ℝ) : M3 ℝ := E - diag (E.trace / 3)

/-- Hooke's law in weak form, for one unit of volume: the rate of the work of the stress that belongs
to the displacement gradient `A` on the displacement gradient `B`. The bulk modulus `K` resists
changes of volume and the shear modulus `G` changes of shape. -/
def hooke (K G : ℝ) (A B : M3 ℝ) : ℝ :=
  K * (strain A).trace * (strain B).trace +
    2 * G * M3.frob (deviator (strain A)) (deviator (strain B))

/-- The displacements `d` of the vertices `X` are those of a linear field with gradient `A`. -/
def HasGradient {n : ℕ} (X d : Fin n → V3 ℝ) (A : M3 ℝ) : Prop :=
  ∀ i j, d i - d j = mulVec A (X i - X j)

/-- A solid element with the energy gradient `g` (minus the forces) responds to small deformations
of `X` like a linear elastic body of volume `vol` with bulk modulus `K` and shear modulus `G`: there
are no forces at `X`, and along every differentiable motion through `X` the forces change at the rate
Hooke's law gives. -/
def Responds (g : Tet.Verts → Option Tet.Verts) (X : Tet.Verts) (vol K G : ℝ) : Prop :=
  g X = some 0 ∧
  ∀ (x : ℝ → Tet.Verts) (d : Tet.Verts) (A : M3 ℝ), x 0 = X → Tet.Moves x d 0 → HasGradient X d A →
    ∃ γ : ℝ → Tet.Verts, (∀ᶠ s in nhds (0 : ℝ), g (x s) = some (γ s)) ∧
      ∀ (w : Tet.Verts) (B : M3 ℝ), HasGradient X w B →
        HasDerivAt (fun s : ℝ => Tet.work (γ s) w) (vol * hooke K G A B) 0

/-- The strain of the displacement gradient `A` in the directions `a` and `b`. -/
def strainIn (A : M3 ℝ) (a b : V3 ℝ) : ℝ := (dot a (mulVec A b) + dot b (mulVec A a)) / 2

/-- Hooke's law in weak form in the plane with the orthonormal directions `a` and `b`, with the Lamé
parameters `l` and `m`, for one unit of area. -/
def planeHooke (l m : ℝ) (a b : V3 ℝ) (A B : M3 ℝ) : ℝ :=
  l * (strainIn A a a + strainIn A b b) * (strainIn B a a + strainIn B b b) +
    2 * m * (strainIn A a a * strainIn B a a + 2 * (strainIn A a b * strainIn B a b) +
      strainIn A b b * strainIn B b b)

/-- `a` and `b` are orthonormal and lie in the plane of the triangle `X`. -/
def Frame (X : Tri.Verts) (a b : V3 ℝ) : Prop :=
  dot a a = 1 ∧ dot b b = 1 ∧ dot a b = 0 ∧
    (∃ p q : ℝ, a = p • (X 0 - X 2) + q • (X 1 - X 2)) ∧
    ∃ p q : ℝ, b = p • (X 0 - X 2) + q • (X 1 - X 2)

/-- A triangle with the energy gradient `g` responds to small deformations of `X` like a linear
elastic membrane: there are no forces at `X`, and along every differentiable motion through `X` the
forces change at the rate Hooke's law in its plane gives. Displacements out of the plane have no
effect on this rate. -/
def MembraneResponds (g : Tri.Verts → Option Tri.Verts) (X : Tri.Verts) (area l m : ℝ) : Prop :=
  g X = some 0 ∧
  ∀ (x : ℝ → Tri.Verts) (d : Tri.Verts) (A : M3 ℝ), x 0 = X → Tri.Moves x d 0 → HasGradient X d A →
    ∃ γ : ℝ → Tri.Verts, (∀ s, g (x s) = some (γ s)) ∧
      ∀ (w : Tri.Verts) (B : M3 ℝ) (a b : V3 ℝ), HasGradient X w B → Frame X a b →
        HasDerivAt (fun s : ℝ => Tri.work (γ s) w) (area * planeHooke l m a b A B) 0

/-- The area of a triangle, from the lengths of two edges and the angle between them. -/
def areaOf (X : Tri.Verts) : ℝ :=
  √(dot (X 0 - X 2) (X 0 - X 2) * dot (X 1 - X 2) (X 1 - X 2) - dot (X 0 - X 2) (X 1 - X 2) ^ 2) / 2

/-! ## Lemmas -/

theorem work_hasDerivAt {γ : ℝ → Tet.Verts} {γ' : Tet.Verts} (h : ∀ i, HasD (fun s => γ s i) (γ' i) 0)
    (w : Tet.Verts) : HasDerivAt (fun s : ℝ => Tet.work (γ s) w) (Tet.work γ' w) 0 := by
  have hd : ∀ i, HasDerivAt (fun s : ℝ => dot (γ s i) (w i)) (dot (γ' i) (w i)) 0 := by
    intro i
    obtain ⟨hx, hy, hz⟩ := h i
    exact ((hx.mul_const _).add (hy.mul_const _)).add (hz.mul_const _)
  have := HasDerivAt.fun_sum (u := Finset.univ) fun i _ => hd i
  exact this

/-- The reference element of vertices with positive volume. -/
theorem refTet_some {X : Tet.Verts} {D : M3 ℝ} {v : ℝ} (h : refTet X = some (D, v)) :
    v = Volume.tetVolume X ∧ 0 < v ∧ D * Tet.shape X = diag 1 := by
  unfold refTet at h
  split_ifs at h with h1
  have hd : (Tet.shape X).det = 6 * Volume.tetVolume X := by
    simp only [Volume.tetVolume, Tet.shape, det]
    ring
  have h0 : (Tet.shape X).det ≠ 0 := by rw [hd]; intro h; apply h1; linarith
  simp only [M3.inverse, if_neg h0, Option.map_some, Option.some.injEq, Prod.mk.injEq] at h
  obtain ⟨rfl, rfl⟩ := h
  refine ⟨rfl, not_le.1 h1, ?_⟩
  generalize Tet.shape X = S at h0
  have key : (S.adj : M3 ℝ) * S = diag S.det := by
    ext <;> simp [adj, mul_def, mul, mulVec, transpose, V3.dot, V3.cross, diag, det] <;> ring
  have : (S.det⁻¹ • S.adj) * S = S.det⁻¹ • (S.adj * S) := by
    ext <;> simp [mul_def, mul, mulVec, transpose, V3.dot] <;> ring
  rw [this, key]
  ext <;> simp [diag, h0]

/-- The differential of the deformation gradient is the transposed displacement gradient. -/
theorem dF_eq {X d : Tet.Verts} {A D : M3 ℝ} (hD : D * Tet.shape X = diag 1)
    (h : HasGradient X d A) : D * Tet.shape d = A.transpose := by
  have : Tet.shape d = Tet.shape X * A.transpose := by
    simp only [Tet.shape, h 0 3, h 1 3, h 2 3]
    ext <;> simp [mul_def, mul, mulVec, transpose, V3.dot] <;> ring
  rw [this, ← mul_assoc', hD]
  ext <;> simp [mul_def, mul, mulVec, transpose, V3.dot, diag]

theorem frob_transpose_mul (D P S : M3 ℝ) : frob S (D.transpose * P) = frob (D * S) P := by
  simp only [frob, mul_def, mul, mulVec, transpose, V3.dot]
  ring

/-- Hooke's law with Lamé parameters. -/
theorem hooke_lame (l m : ℝ) (A B : M3 ℝ) :
    hooke (bulkOf l m) m A B = frob B (m • (A + A.transpose) + (l * A.trace) • diag 1) := by
  simp [hooke, bulkOf, strain, deviator, frob, trace, transpose, V3.dot, diag]
  ring

theorem nhProduct_rest {r : Tet.Ref} {X d : Tet.Verts} {A : M3 ℝ} (hD : r.DXinv * Tet.shape X = diag 1)
    (h : HasGradient X d A) : Tet.nhProduct (r.at X) d =
      r.volume • (r.DXinv.transpose * (r.mu • (A + A.transpose) + (r.lambda * A.trace) • diag 1)) := by
  have hF : (r.at X).F = diag 1 := hD
  have hd : (r.at X).dF d = A.transpose := dF_eq hD h
  have h1 : (diag (1 : ℝ)).det = 1 := by simp [det, diag, V3.dot, V3.cross]
  have hc : (diag (1 : ℝ)).cof = diag 1 := by ext <;> simp [diag, cof, V3.cross]
  rw [Tet.nhProduct_eq (by rw [hF, h1]; exact one_pos), hF, hd, h1, hc, Real.log_one]
  have e1 : (r.at X).volume = r.volume := rfl
  have e2 : (r.at X).DXinv = r.DXinv := rfl
  have e3 : (r.at X).mu = r.mu := rfl
  have e4 : (r.at X).lambda = r.lambda := rfl
  rw [e1, e2, e3, e4]
  congr 2
  ext <;> simp [mul_def, mul, mulVec, transpose, V3.dot, diag, trace] <;> ring

theorem snhProduct_rest {r : Tet.Ref} {X d : Tet.Verts} {A : M3 ℝ}
    (hD : r.DXinv * Tet.shape X = diag 1) (h : HasGradient X d A) (hl : r.lambda ≠ 0) :
    Tet.snhProduct (r.at X) d = r.volume • (r.DXinv.transpose *
      ((3 / 4 * r.mu) • (A + A.transpose) + ((r.lambda - 5 / 8 * r.mu) * A.trace) • diag 1)) := by
  have hF : (r.at X).F = diag 1 := hD
  have hd : (r.at X).dF d = A.transpose := dF_eq hD h
  have h1 : (diag (1 : ℝ)).det = 1 := by simp [det, diag, V3.dot, V3.cross]
  have hc : (diag (1 : ℝ)).cof = diag 1 := by ext <;> simp [diag, cof, V3.cross]
  have hn : (diag (1 : ℝ)).normSq = 3 := by simp [normSq, diag, V3.dot]; norm_num
  simp only [Tet.snhProduct]
  rw [Tet.hBlocks_mul, hF, hd, h1, hc, hn]
  have e1 : (r.at X).volume = r.volume := rfl
  have e2 : (r.at X).DXinv = r.DXinv := rfl
  have e3 : (r.at X).mu = r.mu := rfl
  have e4 : (r.at X).lambda = r.lambda := rfl
  rw [e1, e2, e3, e4]
  congr 2
  have e5 : r.lambda * (1 - (1 + 0.75 * r.mu / r.lambda)) = - (3 / 4 * r.mu) := by
    field_simp
    ring
  generalize (1 : ℝ) - (1 + 0.75 * r.mu / r.lambda) = q at e5
  have e6 : ∀ a b : M3 ℝ, r.lambda • (a + q • b) = r.lambda • a + (-(3 / 4 * r.mu)) • b := by
    intro a b
    rw [← e5]
    ext <;> simp <;> ring
  rw [e6]
  ext <;> simp [transpose, V3.dot, diag, trace, V3.cross] <;> ring

theorem upright_rest {r : Tet.Ref} {X : Tet.Verts} (hD : r.DXinv * Tet.shape X = diag 1) :
    Tet.Upright r X := by
  rw [Tet.upright_iff]
  have hF : (r.at X).F = diag 1 := hD
  rw [hF]
  simp [det, diag, V3.dot, V3.cross]

/-- The response of a neo-Hookean element. -/
theorem nh_responds {r : Tet.Ref} {X : Tet.Verts} (hD : r.DXinv * Tet.shape X = diag 1) :
    Responds (fun x => Tet.nhGradient (r.at x)) X r.volume (bulkOf r.lambda r.mu) r.mu := by
  refine ⟨(Tet.nh_rest r X hD).2, fun x d A h0 hx hA => ?_⟩
  obtain ⟨γ, h1, h2⟩ := Tet.nh_product r x d 0 hx (by rw [h0]; exact upright_rest hD)
  refine ⟨γ, h1, fun w B hB => (work_hasDerivAt h2 w).congr_deriv ?_⟩
  rw [h0, nhProduct_rest hD hA, Tet.work_spread, hooke_lame, M3.frob_smul_right,
    frob_transpose_mul, dF_eq hD hB]
  congr 1
  simp [frob, transpose, V3.dot, diag]
  ring

/-- The response of a stable neo-Hookean element. -/
theorem snh_responds {r : Tet.Ref} {X : Tet.Verts} (hD : r.DXinv * Tet.shape X = diag 1)
    (hl : 0 < r.lambda) :
    Responds (fun x => Tet.snhGradient (r.at x)) X r.volume
      (bulkOf (r.lambda - 5 / 8 * r.mu) (3 / 4 * r.mu)) (3 / 4 * r.mu) := by
  refine ⟨Tet.snh_rest r X hD hl, fun x d A h0 hx hA => ?_⟩
  obtain ⟨γ, h1, h2⟩ := Tet.snh_product r x d 0 hx hl
  refine ⟨γ, Filter.Eventually.of_forall h1, fun w B hB => (work_hasDerivAt h2 w).congr_deriv ?_⟩
  rw [h0, snhProduct_rest hD hA hl.ne', Tet.work_spread, hooke_lame, M3.frob_smul_right,
    frob_transpose_mul, dF_eq hD hB]
  congr 1
  simp [frob, transpose, V3.dot, diag]
  ring

theorem refTet_pos {X : Tet.Verts} (hX : 0 < Volume.tetVolume X) :
    ∃ D, refTet X = some (D, Volume.tetVolume X) := by
  have hd : (Tet.shape X).det = 6 * Volume.tetVolume X := by
    simp only [Volume.tetVolume, Tet.shape, det]
    ring
  have h0 : (Tet.shape X).det ≠ 0 := by rw [hd]; intro h; linarith
  refine ⟨(Tet.shape X).det⁻¹ • (Tet.shape X).adj, ?_⟩
  simp only [refTet, if_neg (not_le.2 hX), M3.inverse, if_neg h0, Option.map_some]

/-- The response of an element of a solid, from the parameters it ends up with. -/
theorem solid_responds {X : Tet.Verts} {a : CellAttrs} {m : Base Solid} {l u : ℝ}
    (hX : 0 < Volume.tetVolume X) (hl : elemLambda a m.properties.deformable.elasticity = some l)
    (hu : elemMu a m.properties.deformable.elasticity = some u) :
    (solidModel m = .neoHookean →
      Responds (solidGradient X a m) X (Volume.tetVolume X) (bulkOf l u) u) ∧
    (solidModel m = .stableNeoHookean → 0 < l →
      Responds (solidGradient X a m) X (Volume.tetVolume X)
        (bulkOf (l - 5 / 8 * u) (3 / 4 * u)) (3 / 4 * u)) := by
  obtain ⟨D, hD⟩ := refTet_pos hX
  have h1 := refTet_some hD
  have hs : solidElem X a m = some ⟨D, Volume.tetVolume X, l, u⟩ := by
    simp only [solidElem, hD, hl, hu]
  constructor
  · intro hm
    have : solidGradient X a m =
        fun x => Tet.nhGradient (Tet.Ref.at ⟨D, Volume.tetVolume X, l, u⟩ x) := by
      funext x
      simp only [solidGradient, hs, hm]
    rw [this]
    exact nh_responds (r := ⟨D, Volume.tetVolume X, l, u⟩) h1.2.2
  · intro hm hp
    have : solidGradient X a m =
        fun x => Tet.snhGradient (Tet.Ref.at ⟨D, Volume.tetVolume X, l, u⟩ x) := by
      funext x
      simp only [solidGradient, hs, hm]
    rw [this]
    exact snh_responds (r := ⟨D, Volume.tetVolume X, l, u⟩) h1.2.2 hp

/-! ## Solids -/

/-- **C100**, for solids whose cells have no attributes `lambda` and `mu`: with either elasticity
model, a tetrahedron of a solid material responds to small deformations like a linear elastic body
with the bulk and shear moduli of the material. Missing: cells with attributes, see
`attribute_violated`. -/
theorem solid_hooke_partial (X : Tet.Verts) (m : Base Solid) (e : Elasticity)
    (hX : 0 < Volume.tetVolume X) (he : m.properties.deformable.elasticity = some e)
    (hK : 0 < bulkOf e.parameters.lambda e.parameters.mu) (hG : 0 < e.parameters.mu) :
    Responds (solidGradient X {} m) X (Volume.tetVolume X)
      (bulkOf e.parameters.lambda e.parameters.mu) e.parameters.mu := by
  have h := solid_responds (X := X) (a := {}) (m := m) (l := e.lame.1) (u := e.lame.2) hX
    (by simp [elemLambda, he]) (by simp [elemMu, he])
  have hm : solidModel m = e.model := by simp [solidModel, he]
  rw [hm] at h
  obtain ⟨model, p⟩ := e
  cases model with
  | neoHookean => exact h.1 rfl
  | stableNeoHookean =>
    have hp : 0 < (Elasticity.lame ⟨.stableNeoHookean, p⟩).1 := by
      simp only [bulkOf] at hK hG
      simp only [Elasticity.lame]
      linarith
    have h2 := h.2 rfl hp
    simp only [Elasticity.lame] at h2
    have e1 : 3 / 4 * (4 * p.mu / 3) = p.mu := by ring
    have e2 : p.lambda + 5 * p.mu / 6 - 5 / 8 * (4 * p.mu / 3) = p.lambda := by ring
    rw [e1, e2] at h2
    exact h2

/-- The moduli of the response are unique. -/
theorem responds_unique {g : Tet.Verts → Option Tet.Verts} {X : Tet.Verts} {vol K G K' G' : ℝ}
    (hv : vol ≠ 0) (h : Responds g X vol K G) (h' : Responds g X vol K' G') : K = K' ∧ G = G' := by
  have key : ∀ A B : M3 ℝ, hooke K G A B = hooke K' G' A B := by
    intro A B
    have grad : ∀ C : M3 ℝ, HasGradient X (fun i => mulVec C (X i)) C := by
      intro C i j
      ext <;> simp [mulVec, V3.dot] <;> ring
    have hx : Tet.Moves (fun s i => X i + s • mulVec A (X i)) (fun i => mulVec A (X i)) 0 := by
      intro i
      refine ⟨?_, ?_, ?_⟩
      · simpa using ((hasDerivAt_id (0 : ℝ)).mul_const (mulVec A (X i)).x).const_add (X i).x
      · simpa using ((hasDerivAt_id (0 : ℝ)).mul_const (mulVec A (X i)).y).const_add (X i).y
      · simpa using ((hasDerivAt_id (0 : ℝ)).mul_const (mulVec A (X i)).z).const_add (X i).z
    have h0 : (fun i => X i + (0 : ℝ) • mulVec A (X i)) = X := by
      funext i
      ext <;> simp
    obtain ⟨γ, h1, h2⟩ := h.2 _ _ A h0 hx (grad A)
    obtain ⟨γ', h1', h2'⟩ := h'.2 _ _ A h0 hx (grad A)
    have hg : ∀ᶠ s in nhds (0 : ℝ), γ s = γ' s := by
      filter_upwards [h1, h1'] with s a b
      rw [a] at b
      exact Option.some.inj b
    have d1 := h2 _ B (grad B)
    have d2 := (h2' _ B (grad B)).congr_of_eventuallyEq
      (f₁ := fun s : ℝ => Tet.work (γ s) fun i => mulVec B (X i))
      (hg.mono fun s hs => by simp only [hs])
    exact mul_left_cancel₀ hv (d1.unique d2)
  constructor
  · have := key (diag 1) (diag 1)
    simp [hooke, strain, deviator, frob, trace, transpose, V3.dot, diag] at this
    norm_num at this
    exact this
  · have := key ⟨⟨0, 1, 0⟩, 0, 0⟩ ⟨⟨0, 1, 0⟩, 0, 0⟩
    simp [hooke, strain, deviator, frob, trace, transpose, V3.dot, diag] at this
    norm_num at this
    linarith

/-- **C100** for cells with attributes: a neo-Hookean solid responds with the Lamé parameters in
the attributes. -/
theorem attribute_hooke_partial (X : Tet.Verts) (m : Base Solid) (l u : ℝ)
    (hX : 0 < Volume.tetVolume X) (hm : solidModel m = .neoHookean) :
    Responds (solidGradient X ⟨some l, some u⟩ m) X (Volume.tetVolume X) (bulkOf l u) u :=
  (solid_responds hX rfl rfl).1 hm

/-- **C100 is violated** by the attributes `lambda` and `mu` of cells of stable neo-Hookean solids.
Unlike the parameters of materials they are not converted for the model: for all positive Lamé
parameters in the attributes, the tetrahedron has three quarters of the shear modulus. -/
theorem attribute_violated (X : Tet.Verts) (m : Base Solid) (l u : ℝ)
    (hX : 0 < Volume.tetVolume X) (hm : solidModel m = .stableNeoHookean) (hl : 0 < l) (hu : 0 < u) :
    Responds (solidGradient X ⟨some l, some u⟩ m) X (Volume.tetVolume X)
        (bulkOf (l - 5 / 8 * u) (3 / 4 * u)) (3 / 4 * u) ∧
      ¬ Responds (solidGradient X ⟨some l, some u⟩ m) X (Volume.tetVolume X) (bulkOf l u) u := by
  have h := (solid_responds (X := X) (a := ⟨some l, some u⟩) (m := m) hX rfl rfl).2 hm hl
  refine ⟨h, fun h' => ?_⟩
  have := (responds_unique hX.ne' h h').2
  linarith

/-- A tetrahedron, a stable neo-Hookean material with bulk modulus 1000 and shear modulus 100, and
a motion that shears it. -/
example : ∃ (X : Tet.Verts) (m : Base Solid) (e : Elasticity), 0 < Volume.tetVolume X ∧
    m.properties.deformable.elasticity = some e ∧ e.model = .stableNeoHookean ∧
    0 < bulkOf e.parameters.lambda e.parameters.mu ∧ 0 < e.parameters.mu ∧
    Responds (solidGradient X {} m) X (1 / 6) 1000 100 := by
  have hX : Volume.tetVolume ![⟨1, 0, 0⟩, ⟨0, 1, 0⟩, ⟨0, 0, 1⟩, ⟨0, 0, 0⟩] = 1 / 6 := by
    simp [Volume.tetVolume, V3.dot, V3.cross]
  have h := solid_hooke_partial ![⟨1, 0, 0⟩, ⟨0, 1, 0⟩, ⟨0, 0, 1⟩, ⟨0, 0, 0⟩]
    ⟨1, false, some ⟨.stableNeoHookean, .bulkShear 1000 100⟩, some 1, 0⟩
    ⟨.stableNeoHookean, .bulkShear 1000 100⟩ (by rw [hX]; norm_num) rfl
    (by simp [bulkOf, Params.lambda, Params.mu]) (by simp [Params.mu])
  refine ⟨_, ⟨1, false, some ⟨.stableNeoHookean, .bulkShear 1000 100⟩, some 1, 0⟩,
    ⟨.stableNeoHookean, .bulkShear 1000 100⟩, by rw [hX]; norm_num, rfl, rfl, ?_, ?_, ?_⟩
  · simp [bulkOf, Params.lambda, Params.mu]
  · simp [Params.mu]
  · rw [hX] at h
    have e1 : bulkOf (Params.bulkShear 1000 100).lambda (Params.bulkShear 1000 100).mu = 1000 :=
      (bulk_shear_partial 1000 100).1
    rw [e1] at h
    exact h

/-! ## Shells -/

theorem eq_zero_of_norm {v : V3 ℝ} (h : v.norm = 0) : v = 0 := by
  have hd := V3.norm_mul_norm v
  rw [h] at hd
  simp only [V3.dot] at hd
  have hx : v.x = 0 := by nlinarith [mul_self_nonneg v.x, mul_self_nonneg v.y, mul_self_nonneg v.z]
  have hy : v.y = 0 := by nlinarith [mul_self_nonneg v.x, mul_self_nonneg v.y, mul_self_nonneg v.z]
  have hz : v.z = 0 := by nlinarith [mul_self_nonneg v.x, mul_self_nonneg v.y, mul_self_nonneg v.z]
  ext <;> simp [hx, hy, hz]

/-- The orthonormal rows the reference shape of a triangle is measured with. -/
theorem isotropic_frame {S : Tri.M23} (h : V3.cross S.r0 S.r1 ≠ 0) :
    ∃ a b : V3 ℝ, dot a a = 1 ∧ dot b b = 1 ∧ dot a b = 0 ∧
      (isotropicShape S).inv.mul23 S = ⟨a, b⟩ ∧ S = (isotropicShape S).mul23 ⟨a, b⟩ ∧
      (isotropicShape S).det ≠ 0 := by
  have h0 : S.r0.norm ≠ 0 := by
    intro h0
    apply h
    have : S.r0 = 0 := eq_zero_of_norm h0
    rw [this]
    ext <;> simp [V3.cross]
  set a : V3 ℝ := S.r0.norm⁻¹ • S.r0 with ha
  have haa : dot a a = 1 := by
    have := V3.norm_mul_norm S.r0
    rw [ha]
    have e : dot (S.r0.norm⁻¹ • S.r0) (S.r0.norm⁻¹ • S.r0) =
        S.r0.norm⁻¹ * S.r0.norm⁻¹ * dot S.r0 S.r0 := by
      simp [V3.dot]; ring
    rw [e, ← this]
    field_simp
  have hr0 : S.r0 = S.r0.norm • a := by
    rw [ha]
    ext <;> simp <;> field_simp
  set q : V3 ℝ := S.r1 - dot a S.r1 • a with hq
  have hq0 : q.norm ≠ 0 := by
    intro hz
    apply h
    have hqz : q = 0 := eq_zero_of_norm hz
    have : S.r1 = dot a S.r1 • a := by
      have := congrArg (· + dot a S.r1 • a) hqz
      simp only [hq] at this
      rw [← sub_eq_zero]
      exact hqz
    rw [this, hr0]
    ext <;> simp [V3.cross] <;> ring
  set b : V3 ℝ := q.norm⁻¹ • q with hb
  have hqb : q = q.norm • b := by
    rw [hb]
    ext <;> simp <;> field_simp
  have hbb : dot b b = 1 := by
    have := V3.norm_mul_norm q
    rw [hb]
    have e : dot (q.norm⁻¹ • q) (q.norm⁻¹ • q) = q.norm⁻¹ * q.norm⁻¹ * dot q q := by
      simp [V3.dot]; ring
    rw [e, ← this]
    field_simp
  have haq : dot a q = 0 := by
    have : dot a q = dot a S.r1 - dot a S.r1 * dot a a := by
      simp [hq, V3.dot]; ring
    rw [this, haa]
    ring
  have hab : dot a b = 0 := by
    have : dot a b = q.norm⁻¹ * dot a q := by simp [hb, V3.dot]; ring
    rw [this, haq, mul_zero]
  have hdet : (isotropicShape S).det = S.r0.norm * q.norm := by
    simp only [isotropicShape, Tri.M22.det]
    rw [← ha, ← hq]
    ring
  have hd0 : (isotropicShape S).det ≠ 0 := by rw [hdet]; exact mul_ne_zero h0 hq0
  have hS : S = (isotropicShape S).mul23 ⟨a, b⟩ := by
    have e1 : S.r1 = dot a S.r1 • a + q.norm • b := by
      rw [← hqb, hq]
      ext <;> simp
    have e2 : (isotropicShape S).mul23 ⟨a, b⟩ =
        ⟨S.r0.norm • a, dot a S.r1 • a + q.norm • b⟩ := by
      simp only [isotropicShape]
      rw [← ha, ← hq]
      ext <;> simp [Tri.M22.mul23]
    rw [e2, ← e1, ← hr0]
  refine ⟨a, b, haa, hbb, hab, ?_, hS, hd0⟩
  have inv : ∀ (M : Tri.M22) (N : Tri.M23), M.det ≠ 0 → M.inv.mul23 (M.mul23 N) = N := by
    intro M N hM
    have hM' : M.r0.x * M.r1.y - M.r0.y * M.r1.x ≠ 0 := hM
    ext <;> simp [Tri.M22.inv, Tri.M22.mul23, Tri.M22.det] <;> field_simp <;> ring
  have := inv (isotropicShape S) ⟨a, b⟩ hd0
  rwa [← hS] at this

theorem tri_work_hasDerivAt {γ : ℝ → Tri.Verts} {γ' : Tri.Verts}
    (h : ∀ i, HasD (fun s => γ s i) (γ' i) 0) (w : Tri.Verts) :
    HasDerivAt (fun s : ℝ => Tri.work (γ s) w) (Tri.work γ' w) 0 := by
  have hd : ∀ i, HasDerivAt (fun s : ℝ => dot (γ s i) (w i)) (dot (γ' i) (w i)) 0 := by
    intro i
    obtain ⟨hx, hy, hz⟩ := h i
    exact ((hx.mul_const _).add (hy.mul_const _)).add (hz.mul_const _)
  have := HasDerivAt.fun_sum (u := Finset.univ) fun i _ => hd i
  exact this

/-- The rates of the deformation gradient of a linear displacement field. -/
theorem tri_dF {X d : Tri.Verts} {A : M3 ℝ} {D : Tri.M22} {a b : V3 ℝ}
    (hD : D.mul23 (Tri.shape X) = ⟨a, b⟩) (h : HasGradient X d A) :
    D.mul23 (Tri.shape d) = ⟨mulVec A a, mulVec A b⟩ := by
  have ha : a = (D.mul23 (Tri.shape X)).r0 := by rw [hD]
  have hb : b = (D.mul23 (Tri.shape X)).r1 := by rw [hD]
  rw [ha, hb]
  simp only [Tri.shape, h 0 2, h 1 2]
  ext <;> simp [Tri.M22.mul23, mulVec, V3.dot] <;> ring

/-- A vector in the basis of two orthonormal vectors and their cross product. -/
theorem basis_expand {a b : V3 ℝ} (ha : dot a a = 1) (hb : dot b b = 1) (hab : dot a b = 0)
    (v : V3 ℝ) : v = dot v a • a + dot v b • b + dot v (V3.cross a b) • V3.cross a b := by
  have h := (ContactBasis.isFrame_of ha hb hab).resolve v
  refine h.symm.trans ?_
  ext <;> simp [ContactBasis.frame, mulVec, transpose, V3.dot] <;> ring

/-- The change of the stress of a membrane at rest. -/
theorem product_rest {r : Tri.Ref} {X d : Tri.Verts} {A : M3 ℝ} {a b : V3 ℝ}
    (ha : dot a a = 1) (hb : dot b b = 1) (hab : dot a b = 0)
    (hD : r.DXinv.mul23 (Tri.shape X) = ⟨a, b⟩) (h : HasGradient X d A) :
    Tri.product (r.at X) d = r.area • r.DXinv.transpose.mul23
      ⟨(r.mu * (2 * strainIn A a a) + r.lambda * (strainIn A a a + strainIn A b b)) • a +
        (r.mu * (2 * strainIn A a b)) • b,
       (r.mu * (2 * strainIn A a b)) • a +
        (r.mu * (2 * strainIn A b b) + r.lambda * (strainIn A a a + strainIn A b b)) • b⟩ := by
  have hba : dot b a = 0 := by rw [← hab]; simp only [V3.dot]; ring
  have hF : (r.at X).F = ⟨a, b⟩ := hD
  have hdF : (r.at X).dF d = ⟨mulVec A a, mulVec A b⟩ := tri_dF hD h
  have hC : (r.at X).C = ⟨⟨1, 0⟩, ⟨0, 1⟩⟩ := by
    simp only [Tri.Elem.C, hF, Tri.M23.mulT, ha, hb, hab, hba]
  have hCd : (r.at X).C.det = 1 := by rw [hC]; simp [Tri.M22.det]
  have hinv : (r.at X).C.inv = ⟨⟨1, 0⟩, ⟨0, 1⟩⟩ := by
    rw [hC]; ext <;> simp [Tri.M22.inv, Tri.M22.det]
  have hFi : (⟨⟨1, 0⟩, ⟨0, 1⟩⟩ : Tri.M22).mul23 ⟨a, b⟩ = ⟨a, b⟩ := by
    ext <;> simp [Tri.M22.mul23]
  have hn : Tri.unit (V3.cross a b) = V3.cross a b := by
    have : (V3.cross a b).norm = 1 := by
      have hbb := (ContactBasis.isFrame_of ha hb hab).bb
      have h2 := V3.norm_mul_norm (V3.cross a b)
      rw [hbb] at h2
      nlinarith [V3.norm_nonneg (V3.cross a b)]
    simp only [Tri.unit, this]
    ext <;> simp
  have hpos : 0 < (r.at X).C.det := by rw [hCd]; exact one_pos
  simp only [Tri.product, if_pos hpos]
  rw [hCd, hinv, hF, hdF, hFi, Real.log_one, hn]
  have e1 : (r.at X).area = r.area := rfl
  have e2 : (r.at X).DXinv = r.DXinv := rfl
  have e3 : (r.at X).mu = r.mu := rfl
  have e4 : (r.at X).lambda = r.lambda := rfl
  rw [e1, e2, e3, e4]
  congr 2
  have xa := basis_expand ha hb hab (mulVec A a)
  have xb := basis_expand ha hb hab (mulVec A b)
  have k1 : dot a (mulVec A a) = dot (mulVec A a) a := by simp only [V3.dot]; ring
  have k2 : dot a (mulVec A b) = dot (mulVec A b) a := by simp only [V3.dot]; ring
  have k3 : dot b (mulVec A a) = dot (mulVec A a) b := by simp only [V3.dot]; ring
  have k4 : dot b (mulVec A b) = dot (mulVec A b) b := by simp only [V3.dot]; ring
  have k5 : dot (V3.cross a b) (mulVec A a) = dot (mulVec A a) (V3.cross a b) := by
    simp only [V3.dot]; ring
  have k6 : dot (V3.cross a b) (mulVec A b) = dot (mulVec A b) (V3.cross a b) := by
    simp only [V3.dot]; ring
  simp only [strainIn, Tri.M23.mulT, k1, k2, k3, k4, k5, k6]
  generalize dot (mulVec A a) a = taa at *
  generalize dot (mulVec A a) b = tab at *
  generalize dot (mulVec A b) a = tba at *
  generalize dot (mulVec A b) b = tbb at *
  generalize dot (mulVec A a) (V3.cross a b) = ta at *
  generalize dot (mulVec A b) (V3.cross a b) = tb at *
  rw [xa, xb]
  generalize V3.cross a b = n
  ext <;> simp [Tri.M22.mul23, Tri.M22.transpose, Tri.M22.trace, Tri.M22.mulVec, Tri.outer23,
    V2.dot] <;> ring

/-- The law does not depend on the frame. -/
theorem planeHooke_frame {a b a' b' : V3 ℝ} (l m : ℝ) (A B : M3 ℝ)
    (ha : dot a a = 1) (hb : dot b b = 1) (hab : dot a b = 0)
    (ha' : dot a' a' = 1) (hb' : dot b' b' = 1) (hab' : dot a' b' = 0)
    (h1 : ∃ c s : ℝ, a' = c • a + s • b) (h2 : ∃ c s : ℝ, b' = c • a + s • b) :
    planeHooke l m a' b' A B = planeHooke l m a b A B := by
  obtain ⟨c, s, rfl⟩ := h1
  obtain ⟨c', s', rfl⟩ := h2
  have n1 : ∀ p q p' q' : ℝ, dot (p • a + q • b) (p' • a + q' • b) = p * p' + q * q' := by
    intro p q p' q'
    have : dot (p • a + q • b) (p' • a + q' • b) =
        p * p' * dot a a + (p * q' + q * p') * dot a b + q * q' * dot b b := by
      simp [V3.dot]; ring
    rw [this, ha, hb, hab]; ring
  rw [n1] at ha' hb' hab'
  have hc : c' = -(c * s' - s * c') * s := by linear_combination c * hab' - c' * ha'
  have hs : s' = (c * s' - s * c') * c := by linear_combination s * hab' - s' * ha'
  have hsig : (c * s' - s * c') ^ 2 = 1 := by
    linear_combination (c' * c' + s' * s') * ha' + hb' - (c * c' + s * s') * hab'
  generalize c * s' - s * c' = g at hc hs hsig
  subst hc hs
  have bil : ∀ (C : M3 ℝ) (p q p' q' : ℝ), strainIn C (p • a + q • b) (p' • a + q' • b) =
      p * p' * strainIn C a a + (p * q' + q * p') * strainIn C a b + q * q' * strainIn C b b := by
    intro C p q p' q'
    simp [strainIn, mulVec, V3.dot]
    ring
  simp only [planeHooke, bil]
  generalize strainIn A a a = A1
  generalize strainIn A a b = A2
  generalize strainIn A b b = A3
  generalize strainIn B a a = B1
  generalize strainIn B a b = B2
  generalize strainIn B b b = B3
  have hk : c * c + s * s = 1 := ha'
  have t1 : ∀ x y z : ℝ, c * c * x + (c * s + s * c) * y + s * s * z +
      (-g * s * (-g * s) * x + (-g * s * (g * c) + g * c * (-g * s)) * y + g * c * (g * c) * z) =
      x + z := by
    intro x y z
    have : c * c * x + (c * s + s * c) * y + s * s * z +
        (-g * s * (-g * s) * x + (-g * s * (g * c) + g * c * (-g * s)) * y + g * c * (g * c) * z) =
        (c * c + g ^ 2 * (s * s)) * x + 2 * (c * s) * (1 - g ^ 2) * y +
          (s * s + g ^ 2 * (c * c)) * z := by ring
    rw [this, hsig]
    linear_combination (x + z) * hk
  rw [t1, t1]
  have t2 : (c * c * A1 + (c * s + s * c) * A2 + s * s * A3) *
        (c * c * B1 + (c * s + s * c) * B2 + s * s * B3) +
      2 * ((c * (-g * s) * A1 + (c * (g * c) + s * (-g * s)) * A2 + s * (g * c) * A3) *
        (c * (-g * s) * B1 + (c * (g * c) + s * (-g * s)) * B2 + s * (g * c) * B3)) +
      (-g * s * (-g * s) * A1 + (-g * s * (g * c) + g * c * (-g * s)) * A2 + g * c * (g * c) * A3) *
        (-g * s * (-g * s) * B1 + (-g * s * (g * c) + g * c * (-g * s)) * B2 +
          g * c * (g * c) * B3) = A1 * B1 + 2 * (A2 * B2) + A3 * B3 := by
    have : (c * c * A1 + (c * s + s * c) * A2 + s * s * A3) *
        (c * c * B1 + (c * s + s * c) * B2 + s * s * B3) +
      2 * ((c * (-g * s) * A1 + (c * (g * c) + s * (-g * s)) * A2 + s * (g * c) * A3) *
        (c * (-g * s) * B1 + (c * (g * c) + s * (-g * s)) * B2 + s * (g * c) * B3)) +
      (-g * s * (-g * s) * A1 + (-g * s * (g * c) + g * c * (-g * s)) * A2 + g * c * (g * c) * A3) *
        (-g * s * (-g * s) * B1 + (-g * s * (g * c) + g * c * (-g * s)) * B2 +
          g * c * (g * c) * B3) =
      (c * c * A1 + (c * s + s * c) * A2 + s * s * A3) *
        (c * c * B1 + (c * s + s * c) * B2 + s * s * B3) +
      g ^ 2 * (2 * ((-(c * s) * A1 + (c * c - s * s) * A2 + s * c * A3) *
        (-(c * s) * B1 + (c * c - s * s) * B2 + s * c * B3))) +
      (g ^ 2) ^ 2 * ((s * s * A1 - 2 * (s * c) * A2 + c * c * A3) *
        (s * s * B1 - 2 * (s * c) * B2 + c * c * B3)) := by ring
    rw [this, hsig]
    have : ∀ k : ℝ, c * c + s * s = k → (c * c * A1 + (c * s + s * c) * A2 + s * s * A3) *
        (c * c * B1 + (c * s + s * c) * B2 + s * s * B3) +
      1 * (2 * ((-(c * s) * A1 + (c * c - s * s) * A2 + s * c * A3) *
        (-(c * s) * B1 + (c * c - s * s) * B2 + s * c * B3))) +
      1 ^ 2 * ((s * s * A1 - 2 * (s * c) * A2 + c * c * A3) *
        (s * s * B1 - 2 * (s * c) * B2 + c * c * B3)) = k ^ 2 * (A1 * B1 + 2 * (A2 * B2) + A3 * B3) := by
      rintro k rfl
      ring
    rw [this 1 hk]
    ring
  rw [t2]

theorem triArea_eq (X : Tri.Verts) : triArea X = areaOf X := by
  simp only [triArea, areaOf, V3.norm]
  congr 2
  simp [V3.dot, V3.cross]
  ring

theorem refTri_pos {X : Tri.Verts} (hX : V3.cross (X 0 - X 2) (X 1 - X 2) ≠ 0) :
    refTri X = some ((isotropicShape (Tri.shape X)).inv, triArea X) ∧ 0 < triArea X := by
  have h0 : 0 < triArea X := by
    have : (V3.cross (X 0 - X 2) (X 1 - X 2)).norm ≠ 0 := fun h => hX (eq_zero_of_norm h)
    have := lt_of_le_of_ne (V3.norm_nonneg _) (Ne.symm this)
    simp only [triArea]
    linarith
  exact ⟨by simp only [refTri, if_neg (not_le.2 h0)], h0⟩

/-- The response of a triangle, from the parameters it ends up with. -/
theorem shell_responds {X : Tri.Verts} {a : CellAttrs} {m : Base SoftShell} {l u : ℝ}
    (hX : V3.cross (X 0 - X 2) (X 1 - X 2) ≠ 0)
    (hl : elemLambda a m.properties.deformable.elasticity = some l)
    (hu : elemMu a m.properties.deformable.elasticity = some u) :
    MembraneResponds (shellGradient X a m) X (triArea X) l u := by
  obtain ⟨hR, hpos⟩ := refTri_pos hX
  obtain ⟨p, q, hp, hq, hpq, hD, hS, hdet⟩ := isotropic_frame (S := Tri.shape X) hX
  set r : Tri.Ref := ⟨(isotropicShape (Tri.shape X)).inv, triArea X, l, u⟩ with hr
  have hs : shellElem X a m = some r := by simp only [shellElem, hR, hl, hu, hr]
  have hg : shellGradient X a m = fun x => some (Tri.gradient (r.at x)) := by
    funext x
    simp only [shellGradient, hs, Option.map_some]
  have hD' : r.DXinv.mul23 (Tri.shape X) = ⟨p, q⟩ := hD
  have hprop : Tri.Proper r X := by
    refine ⟨?_, hX⟩
    simp only [hr, Tri.M22.inv]
    generalize isotropicShape (Tri.shape X) = M at hdet
    simp only [Tri.M22.det] at hdet ⊢
    intro h0
    apply hdet
    field_simp at h0
    linarith
  rw [hg]
  refine ⟨by show some (Tri.gradient (r.at X)) = some 0; rw [(Tri.tri_rest r X ⟨p, q, hD', hp, hq, hpq⟩).2], fun x d A h0 hx hA => ?_⟩
  refine ⟨fun s => Tri.gradient (r.at (x s)), fun s => rfl, fun w B e f hB hf => ?_⟩
  have h2 := Tri.tri_product r x d 0 hx (by rw [h0]; exact hprop)
  refine (tri_work_hasDerivAt h2 w).congr_deriv ?_
  obtain ⟨fe, ff, fef, ⟨c1, s1, he⟩, ⟨c2, s2, hf'⟩⟩ := hf
  have hr0 : X 0 - X 2 = (isotropicShape (Tri.shape X)).r0.x • p +
      (isotropicShape (Tri.shape X)).r0.y • q := congrArg Tri.M23.r0 hS
  have hr1 : X 1 - X 2 = (isotropicShape (Tri.shape X)).r1.x • p +
      (isotropicShape (Tri.shape X)).r1.y • q := congrArg Tri.M23.r1 hS
  have inspan : ∀ c s : ℝ, ∃ c' s' : ℝ,
      c • (X 0 - X 2) + s • (X 1 - X 2) = c' • p + s' • q := by
    intro c s
    refine ⟨c * (isotropicShape (Tri.shape X)).r0.x + s * (isotropicShape (Tri.shape X)).r1.x,
      c * (isotropicShape (Tri.shape X)).r0.y + s * (isotropicShape (Tri.shape X)).r1.y, ?_⟩
    rw [hr0, hr1]
    ext <;> simp <;> ring
  rw [planeHooke_frame l u A B hp hq hpq fe ff fef (he ▸ inspan c1 s1) (hf' ▸ inspan c2 s2)]
  rw [h0, product_rest hp hq hpq hD' hA, Tri.work_spread, Tri.frob_smul_right]
  have e1 : r.area = triArea X := rfl
  rw [e1]
  congr 1
  have e2 : ∀ (D : Tri.M22) (P S : Tri.M23),
      Tri.frob S (D.transpose.mul23 P) = Tri.frob (D.mul23 S) P := by
    intro D P S
    simp [Tri.frob, Tri.M22.mul23, Tri.M22.transpose, V3.dot]
    ring
  rw [e2, tri_dF hD' hB]
  have e3 : r.mu = u := rfl
  have e4 : r.lambda = l := rfl
  rw [e3, e4]
  simp only [planeHooke]
  generalize strainIn A p p = A1
  generalize strainIn A p q = A2
  generalize strainIn A q q = A3
  simp [Tri.frob, strainIn, V3.dot]
  ring

/-- **C100**, for soft shells with the neo-Hookean model and no attributes: a triangle in any
position responds to small deformations like a linear elastic membrane with the Lamé parameters of
the material (in plane strain). Missing: the stable neo-Hookean model, see `shell_violated`. -/
theorem shell_hooke_partial (X : Tri.Verts) (m : Base SoftShell) (e : Elasticity)
    (hX : V3.cross (X 0 - X 2) (X 1 - X 2) ≠ 0)
    (he : m.properties.deformable.elasticity = some e) (hm : e.model = .neoHookean) :
    MembraneResponds (shellGradient X {} m) X (areaOf X) e.parameters.lambda e.parameters.mu := by
  rw [← triArea_eq]
  refine shell_responds hX ?_ ?_
  · simp [elemLambda, he, Elasticity.lame, hm]
  · simp [elemMu, he, Elasticity.lame, hm]

/-- **C100** for triangles with attributes. -/
theorem shell_attribute_hooke (X : Tri.Verts) (m : Base SoftShell) (l u : ℝ)
    (hX : V3.cross (X 0 - X 2) (X 1 - X 2) ≠ 0) :
    MembraneResponds (shellGradient X ⟨some l, some u⟩ m) X (areaOf X) l u :=
  triArea_eq X ▸ shell_responds hX rfl rfl

/-- At most one pair of Lamé parameters describes the response of a triangle. -/
theorem membrane_unique {g : Tri.Verts → Option Tri.Verts} {X : Tri.Verts} {l u l' u' : ℝ}
    (hX : V3.cross (X 0 - X 2) (X 1 - X 2) ≠ 0) (h : MembraneResponds g X (areaOf X) l u)
    (h' : MembraneResponds g X (areaOf X) l' u') : l = l' ∧ u = u' := by
  obtain ⟨p, q, hp, hq, hpq, hD, -, -⟩ := isotropic_frame (S := Tri.shape X) hX
  have hf : Frame X p q :=
    ⟨hp, hq, hpq, ⟨_, _, (congrArg Tri.M23.r0 hD).symm⟩, ⟨_, _, (congrArg Tri.M23.r1 hD).symm⟩⟩
  have key : ∀ A B : M3 ℝ, planeHooke l u p q A B = planeHooke l' u' p q A B := by
    intro A B
    have grad : ∀ C : M3 ℝ, HasGradient X (fun i => mulVec C (X i)) C := by
      intro C i j
      ext <;> simp [mulVec, V3.dot] <;> ring
    have hx : Tri.Moves (fun s i => X i + s • mulVec A (X i)) (fun i => mulVec A (X i)) 0 := by
      intro i
      refine ⟨?_, ?_, ?_⟩
      · simpa using ((hasDerivAt_id (0 : ℝ)).mul_const (mulVec A (X i)).x).const_add (X i).x
      · simpa using ((hasDerivAt_id (0 : ℝ)).mul_const (mulVec A (X i)).y).const_add (X i).y
      · simpa using ((hasDerivAt_id (0 : ℝ)).mul_const (mulVec A (X i)).z).const_add (X i).z
    have h0 : (fun i => X i + (0 : ℝ) • mulVec A (X i)) = X := by
      funext i
      ext <;> simp
    obtain ⟨γ, h1, h2⟩ := h.2 _ _ A h0 hx (grad A)
    obtain ⟨γ', h1', h2'⟩ := h'.2 _ _ A h0 hx (grad A)
    have hg : γ = γ' := by
      funext s
      exact Option.some.inj ((h1 s).symm.trans (h1' s))
    subst hg
    have := (h2 _ B p q (grad B) hf).unique (h2' _ B p q (grad B) hf)
    exact mul_left_cancel₀ (triArea_eq X ▸ (refTri_pos hX).2.ne') this
  let O : V3 ℝ → V3 ℝ → M3 ℝ := fun v w => ⟨v.x • w, v.y • w, v.z • w⟩
  have mO : ∀ v w z, mulVec (O v w) z = dot w z • v := by
    intro v w z
    ext <;> simp [O, mulVec, V3.dot] <;> ring
  have hqp : dot q p = 0 := by rw [← hpq]; simp [V3.dot]; ring
  have ds : ∀ (k : ℝ) (v w : V3 ℝ), dot v (k • w) = k * dot v w := by
    intro k v w
    simp [V3.dot]
    ring
  have hu : u = u' := by
    have := key (O p q) (O p q)
    simp only [planeHooke, strainIn, mO, ds, hp, hq, hpq, hqp] at this
    linarith
  have := key (O p p) (O p p)
  simp only [planeHooke, strainIn, mO, ds, hp, hq, hpq, hqp] at this
  rw [hu] at this
  exact ⟨by linarith, hu⟩

/-- **C100 is violated** by soft shells with the stable neo-Hookean model. Their parameters are
converted for the energy of that model, but the neo-Hookean energy is used: every triangle resists
shearing a third more than its material says. -/
theorem shell_violated (X : Tri.Verts) (m : Base SoftShell) (e : Elasticity)
    (hX : V3.cross (X 0 - X 2) (X 1 - X 2) ≠ 0)
    (he : m.properties.deformable.elasticity = some e) (hm : e.model = .stableNeoHookean)
    (hu : 0 < e.parameters.mu) :
    MembraneResponds (shellGradient X {} m) X (areaOf X)
      (e.parameters.lambda + 5 / 6 * e.parameters.mu) (4 / 3 * e.parameters.mu) ∧
    ∀ l, ¬ MembraneResponds (shellGradient X {} m) X (areaOf X) l e.parameters.mu := by
  have h : MembraneResponds (shellGradient X {} m) X (areaOf X)
      (e.parameters.lambda + 5 / 6 * e.parameters.mu) (4 / 3 * e.parameters.mu) := by
    rw [← triArea_eq]
    refine shell_responds hX ?_ ?_
    · simp [elemLambda, he, Elasticity.lame, hm]; try ring
    · simp [elemMu, he, Elasticity.lame, hm]; try ring
  refine ⟨h, fun l h' => ?_⟩
  have := (membrane_unique hX h h').2
  linarith

/-- A triangle in an inclined plane and a shell to which the theorems apply. -/
example : ∃ (X : Tri.Verts) (m : Base SoftShell) (e : Elasticity),
    V3.cross (X 0 - X 2) (X 1 - X 2) ≠ 0 ∧ m.properties.deformable.elasticity = some e ∧
    e.model = .stableNeoHookean ∧ 0 < e.parameters.mu ∧ areaOf X = 9 / 2 ∧
    ¬ MembraneResponds (shellGradient X {} m) X (9 / 2) e.parameters.lambda e.parameters.mu := by
  have hc : V3.cross ((![⟨1, 2, 2⟩, ⟨2, 1, -2⟩, 0] : Tri.Verts) 0 -
      (![⟨1, 2, 2⟩, ⟨2, 1, -2⟩, 0] : Tri.Verts) 2) ((![⟨1, 2, 2⟩, ⟨2, 1, -2⟩, 0] : Tri.Verts) 1 -
      (![⟨1, 2, 2⟩, ⟨2, 1, -2⟩, 0] : Tri.Verts) 2) = ⟨-6, 6, -3⟩ := by
    ext <;> simp [V3.cross] <;> norm_num
  have h0 : (⟨-6, 6, -3⟩ : V3 ℝ) ≠ 0 := fun h => by simpa using congrArg V3.x h
  have ha : areaOf ![⟨1, 2, 2⟩, ⟨2, 1, -2⟩, 0] = 9 / 2 := by
    rw [← triArea_eq, triArea, hc]
    have : V3.norm (⟨-6, 6, -3⟩ : V3 ℝ) = 9 := by
      rw [V3.norm, show V3.dot (⟨-6, 6, -3⟩ : V3 ℝ) ⟨-6, 6, -3⟩ = 9 ^ 2 by simp [V3.dot]; norm_num]
      exact Real.sqrt_sq (by norm_num)
    rw [this]
  have hu : (0 : ℝ) < (Params.bulkShear 1000 100).mu := by simp [Params.mu]
  refine ⟨_, ⟨1, ⟨none, ⟨some ⟨.stableNeoHookean, .bulkShear 1000 100⟩, some 1, 0⟩⟩⟩,
    ⟨.stableNeoHookean, .bulkShear 1000 100⟩, by rw [hc]; exact h0, rfl, rfl, hu, ha, ?_⟩
  rw [← ha]
  exact (shell_violated _ _ _ (by rw [hc]; exact h0) rfl rfl hu).2 _

end Softy.Hooke
