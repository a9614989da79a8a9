import Verif.Model.TriElasticity
import Verif.Lemmas.MatCalc
import Verif.Props.TetNh

/-!
# C36: the neo-Hookean triangle
-/

noncomputable section

namespace Softy.Tri

open V3
open Softy.Tet (IsRotation IsOrthogonal)

/-! ## Specification -/

/-- The rate of work of the vertex gradients `g` on the vertex velocities `d`. -/
def work (g d : Verts) : ℝ := ∑ i, dot (g i) (d i)

/-- The vertices move differentiably, with velocities `d` at time `t`. -/
def Moves (x : ℝ → Verts) (d : Verts) (t : ℝ) : Prop := ∀ i, HasD (fun s => x s i) (d i) t

/-- Neither the triangle nor its reference shape is degenerate: the edges are not parallel and the
reference matrix is invertible. -/
def Proper (r : Ref) (x : Verts) : Prop :=
  r.DXinv.det ≠ 0 ∧ V3.cross (x 0 - x 2) (x 1 - x 2) ≠ 0

/-- The triangle is congruent to its reference shape: the edges of the deformed triangle, expressed
in reference coordinates, are orthonormal. -/
def AtRest (r : Ref) (x : Verts) : Prop :=
  ∃ a b : V3 ℝ, r.DXinv.mul23 (shape x) = ⟨a, b⟩ ∧ dot a a = 1 ∧ dot b b = 1 ∧ dot a b = 0

/-- The vertices after a rigid motion. -/
def moved (R : M3 ℝ) (b : V3 ℝ) (x : Verts) : Verts := fun i => M3.mulVec R (x i) + b

/-- The symmetric matrix whose entries on and below the diagonal are those of `h`. Only these are
handed to the solver. -/
def symm (h : Hess) (n k : Fin 3) (row col : Fin 3) : ℝ :=
  if k < n ∨ (k = n ∧ col ≤ row) then h n k row col else h k n col row

/-- The product of that matrix with a displacement of the vertices. -/
def symmMul (h : Hess) (d : Verts) (n : Fin 3) : V3 ℝ :=
  ⟨∑ k, ∑ col, symm h n k 0 col * (d k).get col, ∑ k, ∑ col, symm h n k 1 col * (d k).get col,
    ∑ k, ∑ col, symm h n k 2 col * (d k).get col⟩

/-! ## Curves of 2x3 matrices -/

/-- The curve of matrices `f` has derivative `f'` at time `t`. -/
def HasD2 (f : ℝ → M23) (f' : M23) (t : ℝ) : Prop :=
  HasD (fun s => (f s).r0) f'.r0 t ∧ HasD (fun s => (f s).r1) f'.r1 t

theorem HasD2.mul23 {f : ℝ → M23} {f' : M23} {t : ℝ} (a : M22) (h : HasD2 f f' t) :
    HasD2 (fun s => a.mul23 (f s)) (a.mul23 f') t := by
  have k : ∀ c1 c2 : ℝ, HasD (fun s => c1 • (f s).r0 + c2 • (f s).r1) (c1 • f'.r0 + c2 • f'.r1) t := by
    intro c1 c2
    refine ((HasD.smul (hasDerivAt_const t c1) h.1).add
      (HasD.smul (hasDerivAt_const t c2) h.2)).congr ?_
    ext <;> simp
  exact ⟨k _ _, k _ _⟩

theorem HasD2.add {f g : ℝ → M23} {f' g' : M23} {t : ℝ} (hf : HasD2 f f' t) (hg : HasD2 g g' t) :
    HasD2 (fun s => f s + g s) (f' + g') t := ⟨hf.1.add hg.1, hf.2.add hg.2⟩

theorem HasD2.smul {c : ℝ → ℝ} {c' : ℝ} {f : ℝ → M23} {f' : M23} {t : ℝ} (hc : HasDerivAt c c' t)
    (hf : HasD2 f f' t) : HasD2 (fun s => c s • f s) (c' • f t + c t • f') t :=
  ⟨HasD.smul hc hf.1, HasD.smul hc hf.2⟩

theorem HasD2.const_smul {f : ℝ → M23} {f' : M23} {t : ℝ} (k : ℝ) (hf : HasD2 f f' t) :
    HasD2 (fun s => k • f s) (k • f') t := by
  have h := HasD2.smul (hasDerivAt_const t k) hf
  have e : (0 : ℝ) • f t + k • f' = k • f' := by ext <;> simp
  rwa [e] at h

theorem HasD2.congr {f : ℝ → M23} {f' g' : M23} {t : ℝ} (h : HasD2 f f' t) (e : f' = g') :
    HasD2 f g' t := e ▸ h

theorem HasD2.congr_of_eventuallyEq {f g : ℝ → M23} {f' : M23} {t : ℝ} (hf : HasD2 f f' t)
    (h : ∀ᶠ s in nhds t, g s = f s) : HasD2 g f' t :=
  ⟨hf.1.congr_of_eventuallyEq (h.mono fun s hs => by simp only [hs]),
    hf.2.congr_of_eventuallyEq (h.mono fun s hs => by simp only [hs])⟩

theorem HasD2.spread {f : ℝ → M23} {f' : M23} {t : ℝ} (h : HasD2 f f' t) (i : Fin 3) :
    HasD (fun s => spread (f s) i) (Tri.spread f' i) t := by
  fin_cases i
  · exact h.1
  · exact h.2
  · exact h.1.neg.sub h.2

/-- The sum of the products of the entries. -/
def frob (a b : M23) : ℝ := dot a.r0 b.r0 + dot a.r1 b.r1

theorem frob_mul (a : M22) (b c : M23) : frob (a.mul23 b) c = frob b (a.transpose.mul23 c) := by
  simp [frob, M22.mul23, M22.transpose, V3.dot]; ring

theorem frob_smul_right (k : ℝ) (a b : M23) : frob a (k • b) = k * frob a b := by
  simp [frob, V3.dot]; ring

theorem frob_add_right (a b c : M23) : frob a (b + c) = frob a b + frob a c := by
  simp [frob, V3.dot]; ring

theorem work_spread (H : M23) (d : Verts) : work (spread H) d = frob (shape d) H := by
  simp only [work, spread, Fin.sum_univ_three, frob, shape, V3.dot]
  simp
  ring

theorem Moves.shape {x : ℝ → Verts} {d : Verts} {t : ℝ} (h : Moves x d t) :
    HasD2 (fun s => shape (x s)) (Tri.shape d) t :=
  ⟨(h 0).sub (h 2), (h 1).sub (h 2)⟩

theorem Moves.F {x : ℝ → Verts} {d : Verts} {t : ℝ} (h : Moves x d t) (r : Ref) :
    HasD2 (fun s => (r.at (x s)).F) ((r.at (x t)).dF d) t := h.shape.mul23 r.DXinv

/-- The Gram determinant. -/
theorem C_det (e : Elem) : e.C.det = dot (V3.cross e.F.r0 e.F.r1) (V3.cross e.F.r0 e.F.r1) := by
  simp only [Elem.C, M23.mulT, M22.det, V3.dot, V3.cross]; ring

theorem cross_mul23 (a : M22) (b : M23) :
    V3.cross (a.mul23 b).r0 (a.mul23 b).r1 = a.det • V3.cross b.r0 b.r1 := by
  ext <;> simp [M22.mul23, M22.det, V3.cross] <;> ring

theorem proper_iff (r : Ref) (x : Verts) : Proper r x ↔ 0 < (r.at x).C.det := by
  rw [C_det]
  have : V3.cross (r.at x).F.r0 (r.at x).F.r1 =
      r.DXinv.det • V3.cross (x 0 - x 2) (x 1 - x 2) := cross_mul23 _ _
  rw [this]
  have e : ∀ (c : ℝ) (v : V3 ℝ), dot (c • v) (c • v) = c * c * dot v v := by
    intro c v; simp [V3.dot]; ring
  rw [e]
  constructor
  · rintro ⟨h1, h2⟩
    have : dot (V3.cross (x 0 - x 2) (x 1 - x 2)) (V3.cross (x 0 - x 2) (x 1 - x 2)) ≠ 0 :=
      fun h => h2 (V3.dot_self_eq_zero.1 h)
    have h3 := lt_of_le_of_ne (V3.dot_self_nonneg _) this.symm
    have h4 : 0 < r.DXinv.det * r.DXinv.det := by
      rcases lt_or_gt_of_ne h1 with h | h <;> nlinarith
    positivity
  · intro h
    constructor
    · rintro h1; rw [h1] at h; simp at h
    · rintro h1; rw [h1] at h; simp [V3.dot] at h

/-- The derivative of the Gram determinant. -/
theorem hasDerivAt_det {f : ℝ → M23} {f' : M23} {t : ℝ} (h : HasD2 f f' t) :
    HasDerivAt (fun s => ((f s).mulT (f s)).det)
      (2 * (dot (dot (f t).r1 (f t).r1 • (f t).r0 - dot (f t).r0 (f t).r1 • (f t).r1) f'.r0
        + dot (dot (f t).r0 (f t).r0 • (f t).r1 - dot (f t).r0 (f t).r1 • (f t).r0) f'.r1)) t := by
  have h00 := h.1.dot h.1
  have h11 := h.2.dot h.2
  have h01 := h.1.dot h.2
  have h10 := h.2.dot h.1
  refine ((h00.fun_mul h11).fun_sub (h01.fun_mul h10)).congr_deriv ?_
  simp [V3.dot]
  ring

theorem Moves.proper {x : ℝ → Verts} {d : Verts} {t : ℝ} (h : Moves x d t) (r : Ref)
    (hu : Proper r (x t)) : ∀ᶠ s in nhds t, Proper r (x s) := by
  have hc : ContinuousAt (fun s => (r.at (x s)).C.det) t := (hasDerivAt_det (h.F r)).continuousAt
  rw [proper_iff] at hu
  exact (hc.eventually (lt_mem_nhds hu)).mono fun s hs => (proper_iff r (x s)).2 hs

/-- The energy of a proper triangle as a formula. -/
def value (e : Elem) : ℝ :=
  e.area * 0.5 * (e.mu * (e.C.r0.x + e.C.r1.y - 2 - Real.log e.C.det)
    + 0.25 * e.lambda * Real.log e.C.det * Real.log e.C.det)

/-- The gradient of a proper triangle as a formula. -/
def matrix (e : Elem) : M23 :=
  e.area • e.DXinv.transpose.mul23
    (e.mu • e.F + (e.lambda * (0.5 * Real.log e.C.det) - e.mu) • e.C.inv.mul23 e.F)

theorem energy_eq {e : Elem} (h : 0 < e.C.det) : energy e = some (value e) := by
  simp only [energy, not_le.2 h, if_false, value]

theorem gradient_eq {e : Elem} (h : 0 < e.C.det) : gradient e = spread (matrix e) := by
  simp only [gradient, not_le.2 h, if_false, matrix]

theorem inv_mul23 (F : M23) : (F.mulT F).inv.mul23 F =
    (F.mulT F).det⁻¹ • (⟨dot F.r1 F.r1 • F.r0 - dot F.r0 F.r1 • F.r1,
      dot F.r0 F.r0 • F.r1 - dot F.r0 F.r1 • F.r0⟩ : M23) := by
  have h : dot F.r1 F.r0 = dot F.r0 F.r1 := by simp only [V3.dot]; ring
  simp only [M22.inv, M22.mul23]
  generalize (F.mulT F).det⁻¹ = k
  ext <;> simp [M23.mulT, h] <;> ring

theorem hasDerivAt_value (r : Ref) (x : ℝ → Verts) (d : Verts) (t : ℝ) (hx : Moves x d t)
    (hu : 0 < (r.at (x t)).C.det) :
    HasDerivAt (fun s => value (r.at (x s))) (frob (Tri.shape d) (matrix (r.at (x t)))) t := by
  have hF := hx.F r
  have hD := hasDerivAt_det hF
  have hL := hD.log hu.ne'
  have hI := (hF.1.dot hF.1).fun_add (hF.2.dot hF.2)
  have hv := ((((hI.sub_const 2).fun_sub hL).const_mul r.mu).fun_add
    ((hL.const_mul (0.25 * r.lambda)).fun_mul hL)).const_mul (r.area * 0.5)
  refine hv.congr_deriv ?_
  beta_reduce
  rw [matrix, frob_smul_right]
  have e1 : (r.at (x t)).DXinv = r.DXinv := rfl
  rw [e1, ← frob_mul, frob_add_right, frob_smul_right, frob_smul_right]
  have e2 : r.DXinv.mul23 (Tri.shape d) = (r.at (x t)).dF d := rfl
  have e3 : (r.at (x t)).C = (r.at (x t)).F.mulT (r.at (x t)).F := rfl
  rw [e2, e3, inv_mul23, frob_smul_right]
  rw [e3] at hu
  have e4 : (r.at (x t)).mu = r.mu := rfl
  have e5 : (r.at (x t)).lambda = r.lambda := rfl
  have e6 : (r.at (x t)).area = r.area := rfl
  rw [e4, e5, e6]
  generalize (r.at (x t)).dF d = D at *
  generalize (r.at (x t)).F = F at *
  generalize (F.mulT F).det = J at *
  generalize Real.log J = l at *
  simp only [frob]
  have c0 : dot F.r0 D.r0 = dot D.r0 F.r0 := by simp only [V3.dot]; ring
  have c1 : dot F.r1 D.r1 = dot D.r1 F.r1 := by simp only [V3.dot]; ring
  have c2 : ∀ a b : V3 ℝ, dot a b = dot b a := fun a b => by simp only [V3.dot]; ring
  rw [c0, c1, c2 _ D.r0, c2 _ D.r1]
  generalize dot D.r0 (_ - _) = p
  generalize dot D.r1 (_ - _) = q
  have := hu.ne'
  field_simp
  ring

/-! ## Gradient -/

/-- C36. For a triangle that is not degenerate the gradient is the derivative of the energy: for
every differentiable motion of the vertices the energy changes at the rate at which the gradient
does work on the velocities. -/
theorem tri_gradient (r : Ref) (x : ℝ → Verts) (d : Verts) (t : ℝ) (hx : Moves x d t)
    (hu : Proper r (x t)) :
    ∃ W : ℝ → ℝ, (∀ᶠ s in nhds t, energy (r.at (x s)) = some (W s)) ∧
      HasDerivAt W (work (gradient (r.at (x t))) d) t := by
  refine ⟨fun s => value (r.at (x s)), ?_, ?_⟩
  · exact (hx.proper r hu).mono fun s hs => energy_eq ((proper_iff r _).1 hs)
  · rw [gradient_eq ((proper_iff r _).1 hu), work_spread]
    exact hasDerivAt_value r x d t hx ((proper_iff r _).1 hu)

/-- A differentiable motion of a proper triangle. -/
example : ∃ (r : Ref) (x : ℝ → Verts) (d : Verts), Moves x d 0 ∧ Proper r (x 0) ∧ d ≠ 0 := by
  refine ⟨⟨⟨⟨1, 0⟩, ⟨0, 1⟩⟩, 1, 1, 1⟩, fun s => ![⟨1, 0, 0⟩ + s • ⟨0, 0, 1⟩, ⟨0, 1, 0⟩, ⟨0, 0, 0⟩],
    ![⟨0, 0, 1⟩, 0, 0], ?_, ?_, ?_⟩
  · intro i
    fin_cases i
    · exact HasD.line _ _
    · exact HasD.const _
    · exact HasD.const _
  · refine ⟨by simp [M22.det], fun h => ?_⟩
    have := congrArg V3.z h
    simp [V3.cross] at this
  · intro h
    have := congrArg V3.z (congrFun h 0)
    simp at this

/-- C36. The energy is infinite exactly for degenerate triangles. There the gradient is zero, so
it does not show the infinite energy. -/
theorem tri_infinite (r : Ref) (x : Verts) :
    (energy (r.at x) = none ↔ ¬ Proper r x) ∧ (¬ Proper r x → gradient (r.at x) = 0) := by
  rw [proper_iff]
  by_cases h : 0 < (r.at x).C.det
  · simp [h, energy_eq h]
  · have h' := not_lt.1 h
    simp only [h, not_false_iff, iff_true, forall_const]
    constructor
    · simp only [energy, h', if_true]
    · simp only [gradient, h', if_true]; rfl

/-! ## Balance of forces and torques -/

/-- C36. The membrane forces of a triangle sum to zero. -/
theorem tri_force_balance (r : Ref) (x : Verts) : ∑ i, gradient (r.at x) i = 0 := by
  by_cases h : 0 < (r.at x).C.det
  · rw [gradient_eq h]
    simp only [spread, Fin.sum_univ_three]
    ext <;> simp <;> ring
  · simp [gradient, not_lt.1 h]

/-- C36. The membrane forces of a triangle exert no torque. -/
theorem tri_torque_balance (r : Ref) (x : Verts) :
    ∑ i, V3.cross (x i) (gradient (r.at x) i) = 0 := by
  by_cases h : 0 < (r.at x).C.det
  · rw [gradient_eq h]
    have e1 : ∀ H : M23, ∑ i, V3.cross (x i) (spread H i) =
        V3.cross (Tri.shape x).r0 H.r0 + V3.cross (Tri.shape x).r1 H.r1 := by
      intro H
      simp only [spread, Fin.sum_univ_three, Tri.shape]
      ext <;> simp [V3.cross] <;> ring
    have e2 : ∀ (a : M22) (D P : M23), V3.cross D.r0 (a.transpose.mul23 P).r0
        + V3.cross D.r1 (a.transpose.mul23 P).r1 =
        V3.cross (a.mul23 D).r0 P.r0 + V3.cross (a.mul23 D).r1 P.r1 := by
      intro a D P
      ext <;> simp [M22.transpose, M22.mul23, V3.cross] <;> ring
    rw [e1, matrix]
    have e3 : (r.at x).C = (r.at x).F.mulT (r.at x).F := rfl
    rw [e3, inv_mul23]
    have e4 : r.DXinv.mul23 (Tri.shape x) = (r.at x).F := rfl
    have e5 : ∀ (k : ℝ) (D H : M23), V3.cross D.r0 (k • H).r0 + V3.cross D.r1 (k • H).r1 =
        k • (V3.cross D.r0 H.r0 + V3.cross D.r1 H.r1) := by
      intro k D H; ext <;> simp [V3.cross] <;> ring
    have e6 : (r.at x).DXinv = r.DXinv := rfl
    rw [e5, e6, e2, e4]
    generalize (r.at x).F = F
    generalize (F.mulT F).det⁻¹ = k
    ext <;> simp only [V3.cross, V3.dot, smul_x, smul_y, smul_z, add_x, add_y, add_z, sub_x, sub_y,
      sub_z, M23.add_r0, M23.add_r1, M23.smul_r0, M23.smul_r1, zero_x, zero_y, zero_z] <;> ring
  · simp only [gradient, not_lt.1 h, if_true, Fin.sum_univ_three]
    ext <;> simp [V3.cross]

/-! ## Rigid motions -/

theorem dot_orth {R : M3 ℝ} (hR : IsOrthogonal R) (a b : V3 ℝ) :
    dot (M3.mulVec R a) (M3.mulVec R b) = dot a b := by
  have h1 : dot (M3.mulVec R a) (M3.mulVec R b) = dot a (M3.mulVec (R.transpose * R) b) := by
    simp only [M3.mul_def, M3.mulVec_mul]
    simp only [M3.mulVec, M3.transpose, V3.dot]; ring
  rw [h1, hR, M3.mulVec_diag]
  simp [V3.dot]

theorem F_moved (r : Ref) (R : M3 ℝ) (b : V3 ℝ) (x : Verts) :
    (r.at (moved R b x)).F = ⟨M3.mulVec R (r.at x).F.r0, M3.mulVec R (r.at x).F.r1⟩ := by
  ext <;> simp [Elem.F, Ref.at, M22.mul23, Tri.shape, moved, M3.mulVec, V3.dot] <;> ring

theorem C_moved (r : Ref) (R : M3 ℝ) (b : V3 ℝ) (x : Verts) (hR : IsOrthogonal R) :
    (r.at (moved R b x)).C = (r.at x).C := by
  simp only [Elem.C, F_moved, M23.mulT, dot_orth hR]

/-- C36. Moving the triangle rigidly, even with a reflection, changes neither its energy nor,
except for the same motion, its forces. -/
theorem tri_rigid (r : Ref) (R : M3 ℝ) (b : V3 ℝ) (x : Verts) (hR : IsOrthogonal R) :
    energy (r.at (moved R b x)) = energy (r.at x) ∧
      gradient (r.at (moved R b x)) = fun i => M3.mulVec R (gradient (r.at x) i) := by
  have hC := C_moved r R b x hR
  constructor
  · simp only [energy, hC]; rfl
  · by_cases h : 0 < (r.at x).C.det
    · rw [gradient_eq h, gradient_eq (hC ▸ h)]
      have key : matrix (r.at (moved R b x)) =
          ⟨M3.mulVec R (matrix (r.at x)).r0, M3.mulVec R (matrix (r.at x)).r1⟩ := by
        simp only [matrix, hC]
        rw [F_moved]
        simp only [Ref.at]
        generalize Real.log _ = l
        generalize M22.inv _ = K
        generalize Elem.F _ = F
        ext <;> simp [M22.mul23, M3.mulVec, V3.dot] <;> ring
      rw [key]
      funext i
      fin_cases i
      · simp [spread]
      · simp [spread]
      · ext <;> simp [spread, M3.mulVec, V3.dot] <;> ring
    · have h' : ¬ 0 < (r.at (moved R b x)).C.det := by rwa [hC]
      simp only [gradient, not_lt.1 h, not_lt.1 h', if_true]
      funext i
      ext <;> simp [M3.mulVec, V3.dot]

/-! ## Rest shape -/

/-- C36. A triangle congruent to its reference shape has no energy and no forces. -/
theorem tri_rest (r : Ref) (x : Verts) (h : AtRest r x) :
    energy (r.at x) = some 0 ∧ gradient (r.at x) = 0 := by
  obtain ⟨a, b, hF, ha, hb, hab⟩ := h
  have hF' : (r.at x).F = ⟨a, b⟩ := hF
  have hba : dot b a = 0 := by rw [← hab]; simp only [V3.dot]; ring
  have hC : (r.at x).C = ⟨⟨1, 0⟩, ⟨0, 1⟩⟩ := by
    simp only [Elem.C, hF', M23.mulT, ha, hb, hab, hba]
  have hd : (r.at x).C.det = 1 := by rw [hC]; simp [M22.det]
  have hu : 0 < (r.at x).C.det := by rw [hd]; exact one_pos
  rw [energy_eq hu, gradient_eq hu]
  constructor
  · simp only [value, hd, Real.log_one]
    rw [hC]
    norm_num
  · have hm : matrix (r.at x) = 0 := by
      simp only [matrix, hd, Real.log_one]
      rw [hF']
      have : (r.at x).C.inv.mul23 ⟨a, b⟩ = ⟨a, b⟩ := by
        simp only [M22.inv, hd]
        rw [hC]
        ext <;> simp [M22.mul23]
      rw [this]
      ext <;> simp [M22.mul23]
    rw [hm]
    funext i
    fin_cases i <;> (ext <;> simp [spread])

example : AtRest ⟨⟨⟨1, 0⟩, ⟨0, 1⟩⟩, 1, 1, 1⟩ ![⟨0, 1, 0⟩, ⟨0, 0, 1⟩, ⟨0, 0, 0⟩] := by
  refine ⟨⟨0, 1, 0⟩, ⟨0, 0, 1⟩, ?_, ?_, ?_, ?_⟩
  · ext <;> simp [M22.mul23, Tri.shape]
  all_goals simp [V3.dot]

/-! ## The energy is a measure of strain -/

/-- C36. With non-negative material parameters the energy of a triangle is never negative, and with
a positive shear modulus it is zero only when the triangle is congruent to its reference shape. -/
theorem tri_nonneg (r : Ref) (x : Verts) (W : ℝ) (hW : energy (r.at x) = some W)
    (hv : 0 < r.area) (hm : 0 ≤ r.mu) (hl : 0 ≤ r.lambda) :
    0 ≤ W ∧ (0 < r.mu → W = 0 → AtRest r x) := by
  have hu : 0 < (r.at x).C.det := by
    by_contra hc
    rw [(tri_infinite r x).1.2 (by rwa [proper_iff])] at hW
    exact absurd hW (by simp)
  rw [energy_eq hu] at hW
  obtain rfl := Option.some.inj hW
  have hval : value (r.at x) = r.area * 0.5 * (r.mu * ((r.at x).C.r0.x + (r.at x).C.r1.y - 2
      - Real.log (r.at x).C.det) + 0.25 * r.lambda * Real.log (r.at x).C.det ^ 2) := by
    simp only [value, Ref.at]; ring
  rw [hval]
  set a := (r.at x).F.r0 with ha
  set b := (r.at x).F.r1 with hb
  have hdet : (r.at x).C.det = dot a a * dot b b - dot a b * dot a b := by
    simp only [Elem.C, M23.mulT, M22.det, V3.dot, ← ha, ← hb]; ring
  have hx : (r.at x).C.r0.x = dot a a := rfl
  have hy : (r.at x).C.r1.y = dot b b := rfl
  have hF : r.DXinv.mul23 (Tri.shape x) = ⟨a, b⟩ := rfl
  rw [hx, hy]
  have haa : 0 ≤ dot a a := by simp only [V3.dot]; nlinarith [sq_nonneg a.x, sq_nonneg a.y, sq_nonneg a.z]
  have hbb : 0 ≤ dot b b := by simp only [V3.dot]; nlinarith [sq_nonneg b.x, sq_nonneg b.y, sq_nonneg b.z]
  rw [hdet] at hu ⊢
  generalize hpa : dot a a = p at *
  generalize hqb : dot b b = q at *
  generalize hc : dot a b = c at *
  have hpq : 0 < p * q := by nlinarith [mul_self_nonneg c]
  have hp : 0 < p := lt_of_le_of_ne haa (by rintro rfl; simp at hpq)
  have hq : 0 < q := lt_of_le_of_ne hbb (by rintro rfl; simp at hpq)
  have h1 : Real.log (p * q - c * c) ≤ Real.log (p * q) :=
    Real.log_le_log hu (by nlinarith [mul_self_nonneg c])
  rw [Real.log_mul hp.ne' hq.ne'] at h1
  have h2 := Real.log_le_sub_one_of_pos hp
  have h3 := Real.log_le_sub_one_of_pos hq
  have hA : 0 ≤ r.mu * (p + q - 2 - Real.log (p * q - c * c)) := mul_nonneg hm (by linarith)
  have hB : 0 ≤ 0.25 * r.lambda * Real.log (p * q - c * c) ^ 2 := by positivity
  refine ⟨mul_nonneg (by positivity) (by linarith), fun hmu h0 => ?_⟩
  have h4 : r.mu * (p + q - 2 - Real.log (p * q - c * c)) = 0 := by
    rcases mul_eq_zero.1 h0 with h | h
    · rcases mul_eq_zero.1 h with h | h
      · exact absurd h hv.ne'
      · norm_num at h
    · linarith
  have h5 : p + q - 2 - Real.log (p * q - c * c) = 0 := by
    rcases mul_eq_zero.1 h4 with h | h
    · exact absurd h hmu.ne'
    · exact h
  have hp1 : p = 1 := by
    by_contra hne
    have := Real.log_lt_sub_one_of_pos hp hne
    linarith
  have hq1 : q = 1 := by
    by_contra hne
    have := Real.log_lt_sub_one_of_pos hq hne
    linarith
  subst hp1 hq1
  have h6 : Real.log (1 * 1 - c * c) = 0 := by linarith
  have h7 : (1 : ℝ) * 1 - c * c = 1 := Real.eq_one_of_pos_of_log_eq_zero hu h6
  have hc0 : c = 0 := by
    have : c * c = 0 := by linarith
    simpa using this
  exact ⟨a, b, hF, hpa, hqb, hc.trans hc0⟩

end Softy.Tri
