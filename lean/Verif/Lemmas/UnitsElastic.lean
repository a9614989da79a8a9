import Verif.Lemmas.FrameElastic

/-!
# Elastic elements in other units of measurement

In other units all lengths are multiplied by `a`, all times by `b`, and all stresses by `p`.
-/

noncomputable section

namespace Softy.Units

open Softy Assembly Fem

/-- Vectors of all vertices, in units in which they are `k` times as long. -/
def scale (k : ℝ) (x : ℕ → V3 ℝ) : ℕ → V3 ℝ := fun i => k • x i

/-! ## Vectors and matrices -/

theorem dot_scale (k l : ℝ) (a b : V3 ℝ) : V3.dot (k • a) (l • b) = k * l * V3.dot a b := by
  simp [V3.dot]; ring

theorem cross_scale (k l : ℝ) (a b : V3 ℝ) : V3.cross (k • a) (l • b) = (k * l) • V3.cross a b := by
  ext <;> simp [V3.cross] <;> ring

theorem norm_scale {k : ℝ} (hk : 0 ≤ k) (a : V3 ℝ) : (k • a).norm = k * a.norm := by
  unfold V3.norm
  have : V3.dot (k • a) (k • a) = k * k * V3.dot a a := dot_scale k k a a
  rw [this, Real.sqrt_mul (mul_self_nonneg k), Real.sqrt_mul_self hk]

theorem m3_smul_smul (k l : ℝ) (A : M3 ℝ) : k • (l • A) = (k * l) • A := by
  ext <;> simp <;> ring

theorem m3_smul_mul (k l : ℝ) (A B : M3 ℝ) : (k • A) * (l • B) = (k * l) • (A * B) := by
  ext <;> simp [M3.mul, M3.mulVec, M3.transpose, V3.dot] <;> ring

theorem m3_one_smul (A : M3 ℝ) : (1 : ℝ) • A = A := by
  ext <;> simp

theorem m3_transpose_smul (k : ℝ) (A : M3 ℝ) : (k • A).transpose = k • A.transpose := by
  ext <;> simp [M3.transpose]

theorem m3_smul_add (k : ℝ) (A B : M3 ℝ) : k • (A + B) = k • A + k • B := by
  ext <;> simp <;> ring

theorem m3_mulVec_smul (k l : ℝ) (A : M3 ℝ) (v : V3 ℝ) : (k • A).mulVec (l • v) = (k * l) • A.mulVec v := by
  ext <;> simp [M3.mulVec, V3.dot] <;> ring

theorem m3_trace_smul (k : ℝ) (A : M3 ℝ) : (k • A).trace = k * A.trace := by
  simp [M3.trace]; ring

/-! ## Accumulation -/

theorem addAll_scale (k : ℝ) (l : List (ℕ × V3 ℝ)) (G : ℕ → V3 ℝ) :
    addAll (l.map fun p => (p.1, k • p.2)) (scale k G) = scale k (addAll l G) := by
  induction l generalizing G with
  | nil => rfl
  | cons p l ih =>
    obtain ⟨c, g⟩ := p
    simp only [List.map_cons, addAll]
    rw [← ih]
    congr 1
    funext i
    by_cases h : i = c
    · subst h; simp [scale]
    · simp [scale, Function.update_of_ne h]

theorem zipCell_scale {m : ℕ} (k : ℝ) (cell : Fin m → ℕ) (g : Fin m → V3 ℝ) :
    zipCell cell (fun i => k • g i) = (zipCell cell g).map fun p => (p.1, k • p.2) := by
  simp [zipCell]

theorem flatMap_scale {ι : Type} (k : ℝ) (es : List ι) (f f' : ι → List (ℕ × V3 ℝ))
    (h : ∀ e ∈ es, f' e = (f e).map fun p => (p.1, k • p.2)) :
    es.flatMap f' = (es.flatMap f).map fun p => (p.1, k • p.2) := by
  induction es with
  | nil => rfl
  | cons e es ih =>
    rw [List.flatMap_cons, List.flatMap_cons, List.map_append, h e (by simp),
      ih fun e he => h e (List.mem_cons_of_mem _ he)]

theorem sumEnergies_map (k : ℝ) (l : List (Option ℝ)) :
    sumEnergies (l.map (Option.map (k * ·))) = (sumEnergies l).map (k * ·) := by
  induction l with
  | nil => simp [sumEnergies]
  | cons a l ih =>
    simp only [List.map_cons, sumEnergies, ih]
    cases a with
    | none => simp
    | some a =>
      cases sumEnergies l with
      | none => simp
      | some b => simp [mul_add]

/-! ## Tetrahedra -/

/-- The reference data of a tetrahedron: the matrix `DXinv` is an inverse length. -/
def tetRef (a p : ℝ) (r : Tet.Ref) : Tet.Ref :=
  ⟨a⁻¹ • r.DXinv, a ^ 3 * r.volume, p * r.lambda, p * r.mu⟩

/-- A tetrahedral element. The damping has no unit. -/
def tetElem (a p : ℝ) (e : TetElem) : TetElem := { e with ref := tetRef a p e.ref }

/-- An element with its shape. -/
def scaleElem (a p : ℝ) (e : Tet.Elem) : Tet.Elem :=
  ⟨a • e.Dx, a⁻¹ • e.DXinv, a ^ 3 * e.volume, p * e.lambda, p * e.mu⟩

variable {a b p : ℝ}

theorem shape_scale (a : ℝ) (x : Tet.Verts) : Tet.shape (fun i => a • x i) = a • Tet.shape x := by
  unfold Tet.shape
  ext <;> simp <;> ring

theorem spread_scale (k : ℝ) (H : M3 ℝ) : Tet.spread (k • H) = fun i => k • Tet.spread H i := by
  funext i
  fin_cases i
  · rfl
  · rfl
  · rfl
  · show -(k • H.r0) - k • H.r1 - k • H.r2 = k • (-H.r0 - H.r1 - H.r2)
    rw [smul_sub, smul_sub, smul_neg]

theorem scaleElem_F (ha : a ≠ 0) (e : Tet.Elem) : (scaleElem a p e).F = e.F := by
  unfold Tet.Elem.F scaleElem
  rw [m3_smul_mul, inv_mul_cancel₀ ha, m3_one_smul]

theorem scaleElem_dF (s : ℝ) (e : Tet.Elem) (dx : Tet.Verts) :
    (scaleElem a p e).dF (fun i => s • dx i) = (a⁻¹ * s) • e.dF dx := by
  unfold Tet.Elem.dF scaleElem
  rw [shape_scale, m3_smul_mul]

theorem at_scale (a p : ℝ) (r : Tet.Ref) (x : Tet.Verts) :
    (tetRef a p r).at (fun i => a • x i) = scaleElem a p (r.at x) := by
  unfold Tet.Ref.at scaleElem tetRef
  rw [shape_scale]

theorem energy_scale (ha : a ≠ 0) (hp : p ≠ 0) (M : TetModel) (e : Tet.Elem) :
    M.energy (scaleElem a p e) = (M.energy e).map (a ^ 3 * p * ·) := by
  cases M
  · simp only [TetModel.energy, Tet.nhEnergy, scaleElem_F ha]
    split
    · rfl
    · simp only [Option.map_some, scaleElem]
      congr 1
      ring
  · simp only [TetModel.energy, Tet.snhEnergy, scaleElem_F ha]
    by_cases hl : e.lambda = 0
    · have h' : (scaleElem a p e).lambda = 0 := by simp [scaleElem, hl]
      rw [if_pos h', if_pos hl]; rfl
    · have h' : ¬ (scaleElem a p e).lambda = 0 := mul_ne_zero hp hl
      rw [if_neg h', if_neg hl, Option.map_some]
      congr 1
      have hq : 0.75 * (scaleElem a p e).mu / (scaleElem a p e).lambda = 0.75 * e.mu / e.lambda := by
        simp only [scaleElem]
        field_simp
      rw [hq]
      simp only [scaleElem]
      ring

theorem gradient_scale (ha : a ≠ 0) (hp : p ≠ 0) (M : TetModel) (e : Tet.Elem) :
    M.gradient (scaleElem a p e) = (M.gradient e).map fun g i => (a ^ 2 * p) • g i := by
  have key : ∀ P : M3 ℝ, (a ^ 3 * e.volume) • ((a⁻¹ • e.DXinv).transpose * (p • P)) =
      (a ^ 2 * p) • (e.volume • (e.DXinv.transpose * P)) := by
    intro P
    rw [m3_transpose_smul, m3_smul_mul, m3_smul_smul, m3_smul_smul]
    congr 1
    field_simp
  cases M
  · simp only [TetModel.gradient, Tet.nhGradient, scaleElem_F ha]
    by_cases hJ : e.F.det ≤ 0
    · rw [if_pos hJ, if_pos hJ]; rfl
    · rw [if_neg hJ, if_neg hJ]
      cases e.F.inverseTranspose with
      | none => rfl
      | some G =>
        simp only [Option.map_some]
        rw [← spread_scale, ← key]
        have : Tet.nhStress e.F G (Real.log e.F.det) (p * e.lambda) (p * e.mu) =
            p • Tet.nhStress e.F G (Real.log e.F.det) e.lambda e.mu := by
          unfold Tet.nhStress
          rw [m3_smul_add, m3_smul_smul, m3_smul_smul]
          congr 2
          ring
        rw [← this]
        rfl
  · simp only [TetModel.gradient, Tet.snhGradient, scaleElem_F ha]
    by_cases hl : e.lambda = 0
    · have h' : (scaleElem a p e).lambda = 0 := by simp [scaleElem, hl]
      rw [if_pos h', if_pos hl]; rfl
    · have h' : ¬ (scaleElem a p e).lambda = 0 := mul_ne_zero hp hl
      rw [if_neg h', if_neg hl, Option.map_some, ← spread_scale, ← key]
      have hq : 0.75 * (scaleElem a p e).mu / (scaleElem a p e).lambda = 0.75 * e.mu / e.lambda := by
        simp only [scaleElem]
        field_simp
      rw [hq, m3_smul_add, m3_smul_smul, m3_smul_smul, ← mul_assoc, ← mul_assoc]
      rfl

theorem vdot_scale (s : ℝ) (A B : M3 ℝ) : V3.dot A.r0 (s • B).r0 + V3.dot A.r1 (s • B).r1 +
    V3.dot A.r2 (s • B).r2 = s * (V3.dot A.r0 B.r0 + V3.dot A.r1 B.r1 + V3.dot A.r2 B.r2) := by
  simp [V3.dot]; ring

theorem hrow_scale (s : ℝ) (A B C D : M3 ℝ) :
    A.mulVec (s • D).r0 + B.mulVec (s • D).r1 + C.mulVec (s • D).r2 =
      s • (A.mulVec D.r0 + B.mulVec D.r1 + C.mulVec D.r2) := by
  ext <;> simp [M3.mulVec, V3.dot] <;> ring

theorem product_scale (ha : a ≠ 0) (hp : p ≠ 0) (s : ℝ) (M : TetModel) (e : Tet.Elem) (dx : Tet.Verts) :
    M.product (scaleElem a p e) (fun i => s • dx i) = (a * p * s) • M.product e dx := by
  have key : ∀ P : M3 ℝ, (a ^ 3 * e.volume) • ((a⁻¹ • e.DXinv).transpose * ((p * (a⁻¹ * s)) • P)) =
      (a * p * s) • (e.volume • (e.DXinv.transpose * P)) := by
    intro P
    rw [m3_transpose_smul, m3_smul_mul, m3_smul_smul, m3_smul_smul]
    congr 1
    field_simp
  have z : ∀ k : ℝ, k • (0 : M3 ℝ) = 0 := fun k => by ext <;> simp
  cases M
  · simp only [TetModel.product, Tet.nhProduct, scaleElem_F ha, scaleElem_dF]
    by_cases hJ : 0 < e.F.det
    · rw [if_pos hJ, if_pos hJ]
      cases e.F.inverseTranspose with
      | none => simp only [z]
      | some G =>
        simp only
        rw [← key]
        show (a ^ 3 * e.volume) • ((a⁻¹ • e.DXinv).transpose * _) = _
        congr 2
        generalize e.dF dx = D
        simp only [scaleElem]
        ext <;> simp [M3.mul, M3.mulVec, M3.transpose, V3.dot, M3.trace] <;> ring
    · rw [if_neg hJ, if_neg hJ, z]
  · simp only [TetModel.product, Tet.snhProduct, scaleElem_F ha, scaleElem_dF, vdot_scale, hrow_scale]
    rw [← key]
    show (a ^ 3 * e.volume) • ((a⁻¹ • e.DXinv).transpose * _) = _
    congr 2
    have hq : 0.75 * (scaleElem a p e).mu / (scaleElem a p e).lambda = 0.75 * e.mu / e.lambda := by
      simp only [scaleElem]
      exact (by rw [mul_left_comm, mul_div_mul_left _ _ hp])
    rw [hq]
    generalize e.dF dx = D
    generalize M3.mulVec (Tet.hBlocks e.F 0 0) D.r0 + M3.mulVec (Tet.hBlocks e.F 0 1) D.r1 +
      M3.mulVec (Tet.hBlocks e.F 0 2) D.r2 = h0
    generalize M3.mulVec (Tet.hBlocks e.F 1 0) D.r0 + M3.mulVec (Tet.hBlocks e.F 1 1) D.r1 +
      M3.mulVec (Tet.hBlocks e.F 1 2) D.r2 = h1
    generalize M3.mulVec (Tet.hBlocks e.F 2 0) D.r0 + M3.mulVec (Tet.hBlocks e.F 2 1) D.r1 +
      M3.mulVec (Tet.hBlocks e.F 2 2) D.r2 = h2
    generalize V3.dot e.F.r0 D.r0 + V3.dot e.F.r1 D.r1 + V3.dot e.F.r2 D.r2 = d1
    generalize V3.dot e.F.cof.r0 D.r0 + V3.dot e.F.cof.r1 D.r1 + V3.dot e.F.cof.r2 D.r2 = d2
    simp only [scaleElem]
    ext <;> simp <;> ring

theorem prev_scale (hb : b ≠ 0) (e : TetElem) (x v : ℕ → V3 ℝ) (q : ℝ) :
    (tetElem a p e).prev (scale a x) (scale (a / b) v) (b * q) = scaleElem a p (e.prev x v q) := by
  unfold TetElem.prev
  rw [← at_scale]
  show (tetRef a p e.ref).at _ = _
  congr 1
  funext i
  show a • x (e.cell i) - (b * q) • ((a / b) • v (e.cell i)) = a • (x (e.cell i) - q • v (e.cell i))
  rw [smul_sub, smul_smul, smul_smul]
  congr 2
  field_simp

theorem tetElem_energy (ha : a ≠ 0) (hb : b ≠ 0) (hp : p ≠ 0) (M : TetModel) (e : TetElem) (x v : ℕ → V3 ℝ)
    (q : ℝ) : (tetElem a p e).energy M (scale a x) (scale (a / b) v) (b * q) =
      (e.energy M x v q).map (a ^ 3 * p * ·) := by
  unfold TetElem.energy
  have h1 : (tetElem a p e).ref.at ((tetElem a p e).pick (scale a x)) = scaleElem a p (e.ref.at (e.pick x)) :=
    at_scale a p e.ref (e.pick x)
  have h2 : (tetElem a p e).pick (scale (a / b) v) = fun i => (a / b) • e.pick v i := rfl
  rw [h1, h2, energy_scale ha hp, prev_scale hb, Option.map_map, Option.map_map]
  congr 1
  funext c
  simp only [Function.comp]
  rw [product_scale ha hp]
  generalize M.product (e.prev x v q) (e.pick v) = H
  have d : (tetElem a p e).damping = e.damping := rfl
  rw [d]
  have r0 : ∀ k : ℝ, (k • H).r0 = k • H.r0 := fun _ => rfl
  have r1 : ∀ k : ℝ, (k • H).r1 = k • H.r1 := fun _ => rfl
  have r2 : ∀ k : ℝ, (k • H).r2 = k • H.r2 := fun _ => rfl
  simp only [r0, r1, r2, dot_scale]
  field_simp

theorem tetElem_gradient (ha : a ≠ 0) (hb : b ≠ 0) (hp : p ≠ 0) (M : TetModel) (e : TetElem) (x v : ℕ → V3 ℝ)
    (q : ℝ) : (tetElem a p e).gradient M (scale a x) (scale (a / b) v) (b * q) =
      (e.gradient M x v q).map fun g i => (a ^ 2 * p) • g i := by
  unfold TetElem.gradient
  have h1 : (tetElem a p e).ref.at ((tetElem a p e).pick (scale a x)) = scaleElem a p (e.ref.at (e.pick x)) :=
    at_scale a p e.ref (e.pick x)
  have h2 : (tetElem a p e).pick (scale (a / b) v) = fun i => (a / b) • e.pick v i := rfl
  rw [h1, h2, gradient_scale ha hp, prev_scale hb, Option.map_map, Option.map_map]
  congr 1
  funext g i
  simp only [Function.comp]
  rw [product_scale ha hp]
  generalize M.product (e.prev x v q) (e.pick v) = H
  have d : (tetElem a p e).damping = e.damping := rfl
  rw [d]
  have hk : ∀ r : V3 ℝ, (e.damping * (b * q)) • ((a * p * (a / b)) • r) =
      (a ^ 2 * p) • ((e.damping * q) • r) := by
    intro r
    rw [smul_smul, smul_smul]
    congr 1
    field_simp
  have r0 : ∀ k : ℝ, (k • H).r0 = k • H.r0 := fun _ => rfl
  have r1 : ∀ k : ℝ, (k • H).r1 = k • H.r1 := fun _ => rfl
  have r2 : ∀ k : ℝ, (k • H).r2 = k • H.r2 := fun _ => rfl
  simp only [r0, r1, r2, hk]
  fin_cases i <;> simp [smul_add, smul_sub]

theorem tetEnergy_scale (ha : a ≠ 0) (hb : b ≠ 0) (hp : p ≠ 0) (M : TetModel) (es : List TetElem)
    (x v : ℕ → V3 ℝ) (q : ℝ) : tetEnergy M (es.map (tetElem a p)) (scale a x) (scale (a / b) v) (b * q) =
      (tetEnergy M es x v q).map (a ^ 3 * p * ·) := by
  unfold tetEnergy
  rw [← sumEnergies_map, List.map_map, List.map_map]
  congr 1
  exact List.map_congr_left fun e _ => tetElem_energy ha hb hp M e x v q

theorem tetGradient_scale (ha : a ≠ 0) (hb : b ≠ 0) (hp : p ≠ 0) (M : TetModel) (es : List TetElem)
    (x v : ℕ → V3 ℝ) (q : ℝ) (G : ℕ → V3 ℝ) :
    tetGradient M (es.map (tetElem a p)) (scale a x) (scale (a / b) v) (b * q) (scale (a ^ 2 * p) G) =
      (tetGradient M es x v q G).map (scale (a ^ 2 * p)) := by
  unfold tetGradient
  have h : ((es.map (tetElem a p)).map fun e => e.gradient M (scale a x) (scale (a / b) v) (b * q)) =
      (es.map fun e => e.gradient M x v q).map (Option.map fun g i => (a ^ 2 * p) • g i) := by
    rw [List.map_map, List.map_map]
    exact List.map_congr_left fun e _ => tetElem_gradient ha hb hp M e x v q
  rw [h, Frame.collect_map, Option.map_map, Option.map_map]
  congr 1
  funext loc
  simp only [Function.comp]
  rw [← addAll_scale]
  congr 1
  rw [List.zip_map, List.flatMap_map, List.map_flatMap]
  refine List.flatMap_congr fun q _ => ?_
  exact zipCell_scale _ q.1.cell q.2

/-! ## Shells -/

/-- The reference data of a triangle. The Lamé parameters are forces per length. -/
def triRef (a t : ℝ) (r : Tri.Ref) : Tri.Ref :=
  ⟨⟨⟨a⁻¹ * r.DXinv.r0.x, a⁻¹ * r.DXinv.r0.y⟩, ⟨a⁻¹ * r.DXinv.r1.x, a⁻¹ * r.DXinv.r1.y⟩⟩,
    a ^ 2 * r.area, t * r.lambda, t * r.mu⟩

/-- A triangle element. -/
def triElem (a t : ℝ) (e : TriElem) : TriElem := { e with ref := triRef a t e.ref }

/-- A bending element: the reference shape is a ratio of lengths, the stiffness is an energy, the product of a
length and a force. -/
def bending (a f : ℝ) (b : IEdge.Bending) : IEdge.Bending :=
  { b with stiffness := a * f * b.stiffness }

/-- A dihedral element. -/
def dihedral (a f : ℝ) (e : Dihedral) : Dihedral := { e with bending := bending a f e.bending }

/-- A shell, for the unit `t` of membrane stress and the unit `f` of force. -/
def shell (a t f : ℝ) (s : Shell) : Shell :=
  ⟨s.tris.map (triElem a t), s.dihedrals.map (dihedral a f), s.faces⟩

variable {t f : ℝ}

theorem triShape_scale (a : ℝ) (x : Tri.Verts) : Tri.shape (fun i => a • x i) = a • Tri.shape x := by
  ext : 1
  · exact (smul_sub a (x 0) (x 2)).symm
  · exact (smul_sub a (x 1) (x 2)).symm

theorem triF_scale (ha : a ≠ 0) (r : Tri.Ref) (x : Tri.Verts) :
    ((triRef a t r).at fun i => a • x i).F = (r.at x).F := by
  unfold Tri.Elem.F Tri.Ref.at triRef Tri.M22.mul23
  rw [triShape_scale]
  ext <;> simp <;> field_simp

theorem triC_scale (ha : a ≠ 0) (r : Tri.Ref) (x : Tri.Verts) :
    ((triRef a t r).at fun i => a • x i).C = (r.at x).C := by
  unfold Tri.Elem.C
  rw [triF_scale ha]

theorem tri_dF_scale (s : ℝ) (r : Tri.Ref) (y x d : Tri.Verts) :
    ((triRef a t r).at y).dF (fun i => s • d i) = (a⁻¹ * s) • (r.at x).dF d := by
  unfold Tri.Elem.dF Tri.Ref.at triRef Tri.M22.mul23
  rw [triShape_scale]
  ext <;> simp <;> ring

theorem triSpread_scale (k : ℝ) (H : Tri.M23) : Tri.spread (k • H) = fun i => k • Tri.spread H i := by
  funext i
  fin_cases i
  · rfl
  · rfl
  · show -(k • H.r0) - k • H.r1 = k • (-H.r0 - H.r1)
    rw [smul_sub, smul_neg]

theorem triEnergy_scale (ha : a ≠ 0) (r : Tri.Ref) (x : Tri.Verts) :
    Tri.energy ((triRef a t r).at fun i => a • x i) = (Tri.energy (r.at x)).map (a ^ 2 * t * ·) := by
  unfold Tri.energy
  simp only [triC_scale ha]
  split
  · rfl
  · rw [Option.map_some]
    congr 1
    simp only [Tri.Ref.at, triRef]
    ring

theorem triGradient_scale (ha : a ≠ 0) (r : Tri.Ref) (x : Tri.Verts) :
    Tri.gradient ((triRef a t r).at fun i => a • x i) = fun i => (a * t) • Tri.gradient (r.at x) i := by
  unfold Tri.gradient
  simp only [triC_scale ha, triF_scale ha]
  by_cases h : (r.at x).C.det ≤ 0
  · simp only [if_pos h, smul_zero]
  · simp only [if_neg h]
    rw [← triSpread_scale]
    congr 1
    generalize (r.at x).C.inv.mul23 (r.at x).F = G
    generalize (r.at x).F = F
    simp only [Tri.Ref.at, triRef, Tri.M22.mul23, Tri.M22.transpose]
    ext <;> simp <;> field_simp

theorem triElem_energy (ha : a ≠ 0) (hb : b ≠ 0) (e : TriElem) (x v : ℕ → V3 ℝ) (q : ℝ) :
    (triElem a t e).energy (scale a x) (scale (a / b) v) (b * q) = (e.energy x v q).map (a ^ 2 * t * ·) := by
  unfold TriElem.energy
  have h1 : (triElem a t e).ref.at ((triElem a t e).pick (scale a x)) =
      (triRef a t e.ref).at fun i => a • e.pick x i := rfl
  have h2 : (triElem a t e).pick (scale (a / b) v) = fun i => (a / b) • e.pick v i := rfl
  rw [h1, h2, triEnergy_scale ha, tri_dF_scale _ _ _ (e.pick x), Option.map_map, Option.map_map]
  congr 1
  funext c
  simp only [Function.comp]
  generalize (e.ref.at (e.pick x)).dF (e.pick v) = D
  have r0 : ∀ k : ℝ, (k • D).r0 = k • D.r0 := fun _ => rfl
  have r1 : ∀ k : ℝ, (k • D).r1 = k • D.r1 := fun _ => rfl
  simp only [r0, r1, dot_scale]
  simp only [triElem, triRef]
  field_simp

theorem triElem_gradientUpdates (ha : a ≠ 0) (hb : b ≠ 0) (e : TriElem) (x v : ℕ → V3 ℝ) (q : ℝ) :
    (triElem a t e).gradientUpdates (scale a x) (scale (a / b) v) (b * q) =
      (e.gradientUpdates x v q).map fun p => (p.1, (a * t) • p.2) := by
  have h1 : (triElem a t e).ref.at ((triElem a t e).pick (scale a x)) =
      (triRef a t e.ref).at fun i => a • e.pick x i := rfl
  have h2 : (triElem a t e).pick (scale (a / b) v) = fun i => (a / b) • e.pick v i := rfl
  have hd : (triElem a t e).damp (scale a x) (scale (a / b) v) (b * q) = (a * t) • e.damp x v q := by
    unfold TriElem.damp
    rw [h1, h2, tri_dF_scale _ _ _ (e.pick x)]
    generalize (e.ref.at (e.pick x)).dF (e.pick v) = D
    simp only [triElem, triRef, Tri.M22.mul23, Tri.M22.transpose]
    ext <;> simp <;> field_simp
  unfold TriElem.gradientUpdates
  rw [hd, h1, triGradient_scale ha]
  have hc : (triElem a t e).cell = e.cell := rfl
  rw [hc]
  simp only [zipCell_scale, List.map_append]
  simp only [List.map_cons, List.map_nil, Tri.M23.smul_r0, Tri.M23.smul_r1, smul_neg]

theorem areaNormal_scale (a : ℝ) (u v w : V3 ℝ) :
    IEdge.areaNormal (a • u) (a • v) (a • w) = (a ^ 2) • IEdge.areaNormal u v w := by
  unfold IEdge.areaNormal
  ext <;> simp [V3.cross] <;> ring

theorem normal0_scale (a : ℝ) (e : IEdge.Edge) (x : ℕ → V3 ℝ) (faces : ℕ → ℕ → ℕ) :
    e.normal0 (scale a x) faces = (a ^ 2) • e.normal0 x faces := areaNormal_scale a _ _ _

theorem normal1_scale (a : ℝ) (e : IEdge.Edge) (x : ℕ → V3 ℝ) (faces : ℕ → ℕ → ℕ) :
    e.normal1 (scale a x) faces = (a ^ 2) • e.normal1 x faces := by
  unfold IEdge.Edge.normal1
  split
  · exact areaNormal_scale a _ _ _
  · exact areaNormal_scale a _ _ _

theorem edgeVector_scale (a : ℝ) (e : IEdge.Edge) (x : ℕ → V3 ℝ) (faces : ℕ → ℕ → ℕ) :
    e.edgeVector (scale a x) faces = a • e.edgeVector x faces := (smul_sub a _ _).symm

theorem face0Tangent_scale (a : ℝ) (e : IEdge.Edge) (x : ℕ → V3 ℝ) (faces : ℕ → ℕ → ℕ) :
    e.face0Tangent (scale a x) faces = a • e.face0Tangent x faces := (smul_sub a _ _).symm

theorem face1Tangent_scale (a : ℝ) (e : IEdge.Edge) (x : ℕ → V3 ℝ) (faces : ℕ → ℕ → ℕ) :
    e.face1Tangent (scale a x) faces = a • e.face1Tangent x faces := (smul_sub a _ _).symm

theorem atan2_scale {k : ℝ} (hk : 0 < k) (y x : ℝ) : IEdge.atan2 (k * y) (k * x) = IEdge.atan2 y x := by
  unfold IEdge.atan2
  have : (⟨k * x, k * y⟩ : ℂ) = (k : ℂ) * ⟨x, y⟩ := by
    apply Complex.ext <;> simp
  rw [this, Complex.arg_real_mul _ hk]

theorem edgeAngle_scale (ha : 0 < a) (e : IEdge.Edge) (x : ℕ → V3 ℝ) (faces : ℕ → ℕ → ℕ) :
    e.edgeAngle (scale a x) faces = e.edgeAngle x faces := by
  unfold IEdge.Edge.edgeAngle
  simp only [edgeVector_scale, face1Tangent_scale, normal0_scale, normal1_scale, norm_scale ha.le, dot_scale]
  rw [← atan2_scale (show 0 < a ^ 2 * a ^ 2 by positivity)
    ((e.edgeVector x faces).norm * V3.dot (e.face1Tangent x faces) (e.normal0 x faces))]
  have : a * (e.edgeVector x faces).norm *
      (a * a ^ 2 * V3.dot (e.face1Tangent x faces) (e.normal0 x faces)) = a ^ 2 * a ^ 2 *
      ((e.edgeVector x faces).norm * V3.dot (e.face1Tangent x faces) (e.normal0 x faces)) := by ring
  rw [this]

theorem edgeGradient_scale (ha : 0 < a) (e : IEdge.Edge) (x : ℕ → V3 ℝ) (faces : ℕ → ℕ → ℕ) (n : Fin 4) :
    gradList (e.gradient (scale a x) faces) n = a⁻¹ • gradList (e.gradient x faces) n := by
  unfold IEdge.Edge.gradient
  have h2 : a ^ 2 * a ^ 2 ≠ 0 := by positivity
  simp only [edgeVector_scale, face0Tangent_scale, face1Tangent_scale, normal0_scale, normal1_scale,
    norm_scale ha.le, dot_scale, mul_eq_zero, h2, false_or]
  by_cases h : V3.dot (e.normal0 x faces) (e.normal0 x faces) = 0 ∨
      V3.dot (e.normal1 x faces) (e.normal1 x faces) = 0
  · rw [if_pos h, if_pos h]
    fin_cases n <;> exact (smul_zero _).symm
  · rw [if_neg h, if_neg h]
    have ha' := ha.ne'
    push Not at h
    obtain ⟨g0, g1⟩ := h
    simp only [smul_smul, dot_scale]
    generalize V3.dot (e.normal0 x faces) (e.normal0 x faces) = d0 at g0 ⊢
    generalize V3.dot (e.normal1 x faces) (e.normal1 x faces) = d1 at g1 ⊢
    generalize (e.edgeVector x faces).norm = l
    have e4 : ∀ (k : ℝ) (w u : V3 ℝ), V3.dot w (k • u) = k * V3.dot w u := by
      intro k w u
      simp [V3.dot]; ring
    simp only [e4]
    fin_cases n <;> simp only [gradList, Matrix.cons_val, Fin.zero_eta, Fin.mk_one, Fin.reduceFinMk] <;>
      ext <;> simp <;> field_simp

theorem bending_energy_scale (ha : 0 < a) (c : IEdge.Bending) (e : IEdge.Edge) (x : ℕ → V3 ℝ)
    (faces : ℕ → ℕ → ℕ) : (bending a f c).energy e (scale a x) faces = a * f * c.energy e x faces := by
  unfold IEdge.Bending.energy IEdge.Edge.incrementalAngle
  rw [edgeAngle_scale ha]
  simp only [bending]
  ring

theorem bending_gradient_scale (ha : 0 < a) (c : IEdge.Bending) (e : IEdge.Edge) (x : ℕ → V3 ℝ)
    (faces : ℕ → ℕ → ℕ) : gradList ((bending a f c).gradient e (scale a x) faces) =
      fun n => f • gradList (c.gradient e x faces) n := by
  funext n
  have h := edgeGradient_scale ha e x faces
  have h0 := h 0
  have h1 := h 1
  have h2 := h 2
  have h3 := h 3
  simp only [gradList, Matrix.cons_val] at h0 h1 h2 h3
  have hd : (bending a f c).angleDerivative e (scale a x) faces = (a * f) * c.angleDerivative e x faces := by
    unfold IEdge.Bending.angleDerivative IEdge.Edge.incrementalAngle
    rw [edgeAngle_scale ha]
    simp only [bending]
    ring
  have hk : ∀ r : V3 ℝ, (a * f * c.angleDerivative e x faces) • (a⁻¹ • r) =
      f • (c.angleDerivative e x faces • r) := by
    intro r
    rw [smul_smul, smul_smul]
    congr 1
    field_simp
  unfold IEdge.Bending.gradient
  rw [hd]
  fin_cases n <;> simp [gradList, h0, h1, h2, h3, hk]

theorem shell_energy_scale (ha : 0 < a) (hb : b ≠ 0) (hf : f = a * t) (s : Shell) (x v : ℕ → V3 ℝ) (q : ℝ) :
    (shell a t f s).energy (scale a x) (scale (a / b) v) (b * q) = (s.energy x v q).map (a ^ 2 * t * ·) := by
  unfold Shell.energy shell
  have h : ((s.tris.map (triElem a t)).map fun e => e.energy (scale a x) (scale (a / b) v) (b * q)) =
      (s.tris.map fun e => e.energy x v q).map (Option.map (a ^ 2 * t * ·)) := by
    rw [List.map_map, List.map_map]
    exact List.map_congr_left fun e _ => triElem_energy ha.ne' hb e x v q
  have h2 : ((s.dihedrals.map (dihedral a f)).map fun e => e.bending.energy e.edge (scale a x) s.faces).sum =
      a ^ 2 * t * (s.dihedrals.map fun e => e.bending.energy e.edge x s.faces).sum := by
    rw [← List.sum_map_mul_left, List.map_map]
    congr 1
    refine List.map_congr_left fun e _ => ?_
    show (bending a f e.bending).energy e.edge (scale a x) s.faces = _
    rw [bending_energy_scale ha, hf]
    ring
  simp only [h, h2]
  rw [sumEnergies_map, Option.map_map, Option.map_map]
  congr 1
  funext c
  simp only [Function.comp]
  ring

theorem shell_gradient_scale (ha : 0 < a) (hb : b ≠ 0) (hf : f = a * t) (s : Shell) (x v : ℕ → V3 ℝ) (q : ℝ)
    (G : ℕ → V3 ℝ) : (shell a t f s).gradient (scale a x) (scale (a / b) v) (b * q) (scale f G) =
      scale f (s.gradient x v q G) := by
  unfold Shell.gradient shell
  simp only [List.flatMap_map]
  rw [flatMap_scale f s.tris (fun e => e.gradientUpdates x v q) _
    fun e _ => (by rw [hf]; exact triElem_gradientUpdates ha.ne' hb e x v q), addAll_scale]
  rw [flatMap_scale f s.dihedrals (fun e =>
      zipCell (e.cell s.faces) (gradList (e.bending.gradient e.edge x s.faces))) _ fun e _ => ?_, addAll_scale]
  show zipCell (e.cell s.faces) (gradList ((bending a f e.bending).gradient e.edge (scale a x) s.faces)) = _
  rw [bending_gradient_scale ha, zipCell_scale]

/-! ## Gravity and inertia -/

variable {m : ℕ}

theorem gravityGradient_scale {k l f : ℝ} (h : k * l = f) (K : Kind m) (g : V3 ℝ) (bs bs' : List (Body m))
    (hb : List.Forall₂ (fun b' b => b'.cell = b.cell ∧ b'.lump K = k * b.lump K) bs' bs) (G : ℕ → V3 ℝ) :
    gravityGradient K (l • g) bs' (scale f G) = scale f (gravityGradient K g bs G) := by
  unfold gravityGradient
  rw [← addAll_scale]
  congr 1
  induction hb with
  | nil => rfl
  | cons hb _ ih =>
    rw [List.flatMap_cons, List.flatMap_cons, List.map_append, ih, hb.1, hb.2, ← zipCell_scale]
    congr 2
    funext _
    rw [smul_neg, smul_smul, smul_smul, ← h]
    congr 2
    ring

theorem inertiaGradient_scale {k l f : ℝ} (h : k * l = f) (K : Kind m) (bs bs' : List (Body m))
    (hb : List.Forall₂ (fun b' b => b'.cell = b.cell ∧ b'.lump K = k * b.lump K) bs' bs)
    (v0 v G : ℕ → V3 ℝ) :
    inertiaGradient K bs' (scale l v0) (scale l v) (scale f G) = scale f (inertiaGradient K bs v0 v G) := by
  unfold inertiaGradient
  rw [← addAll_scale]
  congr 1
  induction hb with
  | nil => rfl
  | cons hb _ ih =>
    rw [List.flatMap_cons, List.flatMap_cons, List.map_append, ih, hb.1, hb.2, ← zipCell_scale]
    congr 2
    funext i
    simp only [scale]
    rw [← smul_sub, smul_smul, smul_smul, ← h]
    congr 1
    ring

theorem inertiaEnergy_scale {k l f : ℝ} (h : k * l * l = f) (K : Kind m) (bs bs' : List (Body m))
    (hb : List.Forall₂ (fun b' b => b'.cell = b.cell ∧ b'.lump K = k * b.lump K) bs' bs) (v0 v : ℕ → V3 ℝ) :
    inertiaEnergy K bs' (scale l v0) (scale l v) = f * inertiaEnergy K bs v0 v := by
  unfold inertiaEnergy
  induction hb with
  | nil => simp
  | cons hb _ ih =>
    rw [List.map_cons, List.sum_cons, ih, hb.1, hb.2, List.map_cons, List.sum_cons]
    simp only [scale, ← smul_sub, dot_scale, List.sum_map_mul_left]
    rw [← h]
    ring

theorem gravityEnergy_scale {a k l f : ℝ} (h : a * k * l = f) {K : Kind m}
    (hK : ∀ p : Fin m → V3 ℝ, K.centroid (fun i => a • p i) = a • K.centroid p) (g : V3 ℝ)
    (bs bs' : List (Body m))
    (hb : List.Forall₂ (fun b' b => b'.cell = b.cell ∧ b'.measure * b'.density = k * (b.measure * b.density))
      bs' bs) (x : ℕ → V3 ℝ) :
    gravityEnergy K (l • g) bs' (scale a x) = f * gravityEnergy K g bs x := by
  unfold gravityEnergy
  induction hb with
  | nil => simp
  | cons hb _ ih =>
    rename_i b' b0 _ _ _
    rw [List.map_cons, List.sum_cons, ih, hb.1, List.map_cons, List.sum_cons]
    have : (K.centroid fun i => scale a x (b0.cell i)) = a • K.centroid fun i => x (b0.cell i) := hK _
    rw [this, dot_scale, neg_mul, hb.2, ← h]
    ring

theorem tetKind_scale (a : ℝ) (p : Fin 4 → V3 ℝ) :
    tetKind.centroid (fun i => a • p i) = a • tetKind.centroid p := by
  ext <;> simp [tetKind] <;> ring

theorem triKind_scale (a : ℝ) (p : Fin 3 → V3 ℝ) :
    triKind.centroid (fun i => a • p i) = a • triKind.centroid p := by
  show (1.0 / 3.0 : ℝ) • (a • p 0 + a • p 1 + a • p 2) = a • ((1.0 / 3.0 : ℝ) • (p 0 + p 1 + p 2))
  rw [← smul_add, ← smul_add, smul_comm]

end Softy.Units
