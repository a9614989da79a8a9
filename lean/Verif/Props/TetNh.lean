import Verif.Lemmas.MatCalc
import Mathlib.Analysis.SpecialFunctions.Log.Basic
import Mathlib.Analysis.SpecialFunctions.Pow.Real

/-!
# C34: the neo-Hookean tetrahedron
-/

noncomputable section

namespace Softy.Tet

open V3 M3

/-! ## Specification -/

/-- The rate of work of the vertex gradients `g` on the vertex velocities `d`. -/
def work (g d : Verts) : ℝ := ∑ i, dot (g i) (d i)

/-- The vertices move differentiably, with velocities `d` at time `t`. -/
def Moves (x : ℝ → Verts) (d : Verts) (t : ℝ) : Prop := ∀ i, HasD (fun s => x s i) (d i) t

/-- The tetrahedron is not inverted and not flat: it has the same orientation as its reference
shape. -/
def Upright (r : Ref) (x : Verts) : Prop := 0 < r.DXinv.det * (shape x).det

/-- The tetrahedron has its reference shape. -/
def AtRest (r : Ref) (x : Verts) : Prop := r.DXinv * shape x = diag 1

/-- The matrix is a rotation. -/
def IsRotation (R : M3 ℝ) : Prop := R.transpose * R = diag 1 ∧ R.det = 1

/-- The matrix is a rotation or a reflection. -/
def IsOrthogonal (R : M3 ℝ) : Prop := R.transpose * R = diag 1

/-- The vertices after a rigid motion. -/
def moved (R : M3 ℝ) (b : V3 ℝ) (x : Verts) : Verts := fun i => mulVec R (x i) + b

/-- The symmetric matrix whose entries on and below the diagonal are those of `h`. Only these are
handed to the solver. -/
def symm (h : Hess) (n k : Fin 4) (row col : Fin 3) : ℝ :=
  if k < n ∨ (k = n ∧ col ≤ row) then h n k row col else h k n col row

/-- The product of that matrix with a displacement of the vertices. -/
def symmMul (h : Hess) (d : Verts) (n : Fin 4) : V3 ℝ :=
  ⟨∑ k, ∑ col, symm h n k 0 col * (d k).get col, ∑ k, ∑ col, symm h n k 1 col * (d k).get col,
    ∑ k, ∑ col, symm h n k 2 col * (d k).get col⟩

/-! ## Lemmas -/

theorem Moves.shape {x : ℝ → Verts} {d : Verts} {t : ℝ} (h : Moves x d t) :
    HasDM (fun s => shape (x s)) (shape d) t :=
  ⟨(h 0).sub (h 3), (h 1).sub (h 3), (h 2).sub (h 3)⟩

theorem Moves.F {x : ℝ → Verts} {d : Verts} {t : ℝ} (h : Moves x d t) (r : Ref) :
    HasDM (fun s => (r.at (x s)).F) ((r.at (x t)).dF d) t := h.shape.mulLeft r.DXinv

theorem work_spread (H : M3 ℝ) (d : Verts) : work (spread H) d = frob (shape d) H := by
  simp only [work, spread, Fin.sum_univ_four, frob, Tet.shape, V3.dot, sub_x, sub_y, sub_z]
  simp
  ring

theorem upright_iff (r : Ref) (x : Verts) : Upright r x ↔ 0 < (r.at x).F.det := by
  simp only [Upright, Elem.F, Ref.at, det_mul]

theorem Moves.upright {x : ℝ → Verts} {d : Verts} {t : ℝ} (h : Moves x d t) (r : Ref)
    (hu : Upright r (x t)) : ∀ᶠ s in nhds t, Upright r (x s) := by
  have hc : ContinuousAt (fun s => (r.at (x s)).F.det) t := ((h.F r).det).continuousAt
  rw [upright_iff] at hu
  exact (hc.eventually (lt_mem_nhds hu)).mono fun s hs => (upright_iff r (x s)).2 hs

/-- The energy of an element that is not inverted, as a formula. -/
def nhValue (e : Elem) : ℝ :=
  e.volume * (0.5 * e.mu * (e.F.normSq - 3) - e.mu * Real.log e.F.det
    + 0.5 * e.lambda * Real.log e.F.det * Real.log e.F.det)

/-- The gradient of an element that is not inverted, as a formula. -/
def nhMatrix (e : Elem) : M3 ℝ :=
  e.volume • (e.DXinv.transpose *
    nhStress e.F (e.F.det⁻¹ • e.F.cof) (Real.log e.F.det) e.lambda e.mu)

theorem nhEnergy_eq {e : Elem} (h : 0 < e.F.det) : nhEnergy e = some (nhValue e) := by
  simp only [nhEnergy, nhValue, not_le.2 h, if_false]

theorem nhGradient_eq {e : Elem} (h : 0 < e.F.det) : nhGradient e = some (spread (nhMatrix e)) := by
  simp only [nhGradient, inverseTranspose, not_le.2 h, h.ne', if_false, nhMatrix]

theorem dxt_cof (a : M3 ℝ) : a.transpose * a.cof = a.det • diag 1 := by
  ext <;> simp [mul, mulVec, transpose, V3.dot, cof, V3.cross, det, diag] <;> ring

theorem frob_add_left (a b c : M3 ℝ) : frob (a + b) c = frob a c + frob b c := by
  rw [frob_comm, frob_add_right, frob_comm c a, frob_comm c b]

theorem frob_smul_left (k : ℝ) (a b : M3 ℝ) : frob (k • a) b = k * frob a b := by
  rw [frob_comm, frob_smul_right, frob_comm]

theorem hasDerivAt_nhValue {f : ℝ → Elem} {Dx' : M3 ℝ} {t : ℝ} (r : Ref)
    (hf : ∀ s, f s = ⟨(f s).Dx, r.DXinv, r.volume, r.lambda, r.mu⟩)
    (hD : HasDM (fun s => (f s).Dx) Dx' t) (h : 0 < (f t).F.det) :
    HasDerivAt (fun s => nhValue (f s)) (frob Dx' (nhMatrix (f t))) t := by
  have hF : HasDM (fun s => (f s).F) (r.DXinv * Dx') t := by
    have := hD.mulLeft r.DXinv
    refine this.congr_of_eventuallyEq (Filter.Eventually.of_forall fun s => ?_)
    simp only [Elem.F]; rw [hf s]
  have hJ := hF.det
  have hL := hJ.log h.ne'
  have hI := hF.normSq
  have hv := ((((hI.sub_const 3).const_mul (0.5 * r.mu)).fun_sub (hL.const_mul r.mu)).fun_add
    ((hL.const_mul (0.5 * r.lambda)).fun_mul hL)).const_mul r.volume
  have he : (fun s => nhValue (f s)) = fun s => r.volume * (0.5 * r.mu * ((f s).F.normSq - 3)
      - r.mu * Real.log (f s).F.det
      + 0.5 * r.lambda * Real.log (f s).F.det * Real.log (f s).F.det) := by
    funext s
    simp only [nhValue]
    rw [hf s]
  rw [he]
  refine hv.congr_deriv ?_
  have hm : nhMatrix (f t) = r.volume • (r.DXinv.transpose *
    nhStress (f t).F ((f t).F.det⁻¹ • (f t).F.cof) (Real.log (f t).F.det) r.lambda r.mu) := by
    simp only [nhMatrix]; rw [hf t]
  rw [hm, frob_smul_right, ← frob_mul, nhStress, frob_add_right, frob_smul_right, frob_smul_right,
    frob_smul_right, frob_comm (f t).F, frob_comm (f t).F.cof]
  have := h.ne'
  field_simp
  ring

/-! ## Gradient -/

/-- C34. Wherever the tetrahedron is not inverted, the energy is finite nearby and the gradient is
its derivative: for every differentiable motion of the four vertices the energy changes at the
rate at which the gradient does work on the velocities. -/
theorem nh_gradient (r : Ref) (x : ℝ → Verts) (d : Verts) (t : ℝ) (hx : Moves x d t)
    (hu : Upright r (x t)) :
    ∃ (W : ℝ → ℝ) (g : Verts), (∀ᶠ s in nhds t, nhEnergy (r.at (x s)) = some (W s)) ∧
      nhGradient (r.at (x t)) = some g ∧ HasDerivAt W (work g d) t := by
  refine ⟨fun s => nhValue (r.at (x s)), spread (nhMatrix (r.at (x t))), ?_, ?_, ?_⟩
  · exact (hx.upright r hu).mono fun s hs => nhEnergy_eq ((upright_iff r _).1 hs)
  · exact nhGradient_eq ((upright_iff r _).1 hu)
  · rw [work_spread]
    exact hasDerivAt_nhValue r (fun s => rfl) hx.shape ((upright_iff r _).1 hu)

/-- C34. The energy is infinite exactly for inverted or flat tetrahedra, and so is the gradient. -/
theorem nh_infinite (r : Ref) (x : Verts) :
    (nhEnergy (r.at x) = none ↔ ¬ Upright r x) ∧ (nhGradient (r.at x) = none ↔ ¬ Upright r x) := by
  rw [upright_iff]
  by_cases h : 0 < (r.at x).F.det
  · simp [h, nhEnergy_eq h, nhGradient_eq h]
  · have h' := not_lt.1 h
    simp only [h, not_false_iff, iff_true]
    constructor
    · simp only [nhEnergy, h', if_true]
    · simp only [nhGradient, h', if_true]

/-- A differentiable, non-inverted motion exists: the unit tetrahedron growing in one direction. -/
example : ∃ (r : Ref) (x : ℝ → Verts) (d : Verts), Moves x d 0 ∧ Upright r (x 0) ∧ d ≠ 0 := by
  refine ⟨⟨diag 1, 1, 1, 1⟩, fun s => ![⟨1, 0, 0⟩ + s • ⟨1, 0, 0⟩, ⟨0, 1, 0⟩, ⟨0, 0, 1⟩, ⟨0, 0, 0⟩],
    ![⟨1, 0, 0⟩, 0, 0, 0], ?_, ?_, ?_⟩
  · intro i
    fin_cases i
    · exact HasD.line _ _
    · exact HasD.const _
    · exact HasD.const _
    · exact HasD.const _
  · simp [Upright, Tet.shape, M3.det, V3.dot, V3.cross, diag]
  · intro h
    have := congrArg V3.x (congrFun h 0)
    simp at this

/-! ## Balance of forces and torques -/

theorem sum_spread (H : M3 ℝ) : ∑ i, spread H i = 0 := by
  simp only [spread, Fin.sum_univ_four]
  ext <;> simp <;> ring

/-- C34. The elastic forces of an element sum to zero. -/
theorem nh_force_balance (r : Ref) (x : Verts) (g : Verts) (h : nhGradient (r.at x) = some g) :
    ∑ i, g i = 0 := by
  have hu : 0 < (r.at x).F.det := by
    rw [← upright_iff]
    by_contra hc
    rw [(nh_infinite r x).2.2 hc] at h
    exact absurd h (by simp)
  rw [nhGradient_eq hu] at h
  obtain rfl := Option.some.inj h
  exact sum_spread _

/-- The torque of spread forces, from the antisymmetric part of `Dxᵀ H`. -/
theorem torque_spread (H : M3 ℝ) (x : Verts)
    (hs : (Tet.shape x).transpose * H = ((Tet.shape x).transpose * H).transpose) :
    ∑ i, V3.cross (x i) (spread H i) = 0 := by
  simp only [spread, Fin.sum_univ_four]
  have h01 := congrArg (fun m => m.r0.y) hs
  have h02 := congrArg (fun m => m.r0.z) hs
  have h12 := congrArg (fun m => m.r1.z) hs
  simp [mul, mulVec, transpose, V3.dot, Tet.shape] at h01 h02 h12
  ext
  · simp [V3.cross]; linear_combination h12
  · simp [V3.cross]; linear_combination -h02
  · simp [V3.cross]; linear_combination h01

theorem gram_symm (F : M3 ℝ) : F.transpose * F = (F.transpose * F).transpose := by
  ext <;> simp [mul, mulVec, transpose, V3.dot] <;> ring

/-- C34. The elastic forces of an element exert no torque. -/
theorem nh_torque_balance (r : Ref) (x : Verts) (g : Verts) (h : nhGradient (r.at x) = some g) :
    ∑ i, V3.cross (x i) (g i) = 0 := by
  have hu : 0 < (r.at x).F.det := by
    rw [← upright_iff]
    by_contra hc
    rw [(nh_infinite r x).2.2 hc] at h
    exact absurd h (by simp)
  rw [nhGradient_eq hu] at h
  obtain rfl := Option.some.inj h
  refine torque_spread _ _ ?_
  set e := r.at x with he
  have hF : e.F.transpose = (Tet.shape x).transpose * e.DXinv.transpose := by
    simp only [Elem.F, mul_def, transpose_mul]; rfl
  have key : (Tet.shape x).transpose * nhMatrix e =
      (e.volume * e.mu) • (e.F.transpose * e.F)
        + (e.volume * (e.lambda * Real.log e.F.det - e.mu) * e.F.det⁻¹ * e.F.det) • diag 1 := by
    rw [nhMatrix, mul_smul', ← mul_assoc', ← hF, nhStress, mul_add', mul_smul', mul_smul', mul_smul',
      dxt_cof]
    ext <;> simp <;> ring
  rw [key, transpose_add, transpose_smul, transpose_smul, ← gram_symm]
  congr 2

/-! ## Rigid motions -/

theorem shape_moved (R : M3 ℝ) (b : V3 ℝ) (x : Verts) :
    Tet.shape (moved R b x) = Tet.shape x * R.transpose := by
  ext <;> simp [Tet.shape, moved, mul, mulVec, transpose, V3.dot] <;> ring

theorem F_moved (r : Ref) (R : M3 ℝ) (b : V3 ℝ) (x : Verts) :
    (r.at (moved R b x)).F = (r.at x).F * R.transpose := by
  simp only [Elem.F, Ref.at, shape_moved, mul_assoc']

theorem normSq_mul_orth (F R : M3 ℝ) (hR : IsOrthogonal R) :
    (F * R.transpose).normSq = F.normSq := by
  have h : ∀ v : V3 ℝ, dot (mulVec R v) (mulVec R v) = dot v v := by
    intro v
    have h1 : dot (mulVec R v) (mulVec R v) = dot v (mulVec (R.transpose * R) v) := by
      simp only [mul_def, mulVec_mul]
      simp only [mulVec, transpose, V3.dot]; ring
    rw [h1, hR, mulVec_diag]
    simp [V3.dot]
  simp only [normSq, mul_def, mul, transpose_transpose, h]

theorem mul_transpose_of_orth {R : M3 ℝ} (hR : IsOrthogonal R) (hd : R.det ≠ 0) :
    R.cof = R.det • R := by
  have h1 : R.transpose * R.cof = R.transpose * (R.det • R) := by
    rw [dxt_cof, mul_smul', hR]
  have h2 : R.cof * (R.transpose * R.cof) = R.cof * (R.transpose * (R.det • R)) := by rw [h1]
  have h3 : R.cof * R.transpose = R.det • diag 1 := by
    ext <;> simp [mul, mulVec, transpose, V3.dot, cof, V3.cross, det, diag] <;> ring
  have one : ∀ a : M3 ℝ, (R.det • diag 1) * a = R.det • a := by
    intro a
    ext <;> simp [mul, mulVec, transpose, V3.dot, diag] <;> ring
  rw [← mul_assoc', ← mul_assoc', h3, one, one] at h2
  have : ∀ a b : M3 ℝ, R.det • a = R.det • b → a = b := by
    intro a b h
    have hc := congrArg (fun m => R.det⁻¹ • m) h
    simp only [smul_smul', inv_mul_cancel₀ hd] at hc
    ext
    all_goals first
      | simpa using congrArg (fun m => m.r0.x) hc
      | simpa using congrArg (fun m => m.r0.y) hc
      | simpa using congrArg (fun m => m.r0.z) hc
      | simpa using congrArg (fun m => m.r1.x) hc
      | simpa using congrArg (fun m => m.r1.y) hc
      | simpa using congrArg (fun m => m.r1.z) hc
      | simpa using congrArg (fun m => m.r2.x) hc
      | simpa using congrArg (fun m => m.r2.y) hc
      | simpa using congrArg (fun m => m.r2.z) hc
  exact this _ _ h2

/-- C34. Rotating and translating a tetrahedron changes neither its energy nor, except for the same
rotation, its forces. -/
theorem nh_rigid (r : Ref) (R : M3 ℝ) (b : V3 ℝ) (x : Verts) (hR : IsRotation R) :
    nhEnergy (r.at (moved R b x)) = nhEnergy (r.at x) ∧
      nhGradient (r.at (moved R b x)) = (nhGradient (r.at x)).map fun g i => mulVec R (g i) := by
  have hdet : (r.at (moved R b x)).F.det = (r.at x).F.det := by
    rw [F_moved, det_mul, det_transpose, hR.2, mul_one]
  constructor
  · have hn : (r.at (moved R b x)).F.normSq = (r.at x).F.normSq := by
      rw [F_moved, normSq_mul_orth _ _ hR.1]
    simp only [nhEnergy, hdet, hn]
    rfl
  · by_cases hu : 0 < (r.at x).F.det
    · rw [nhGradient_eq hu, nhGradient_eq (hdet ▸ hu), Option.map_some]
      congr 1
      have hc : R.transpose.cof = R.transpose := by
        have h1 := mul_transpose_of_orth hR.1 (by rw [hR.2]; exact one_ne_zero)
        have h2 : R.transpose.cof = R.cof.transpose := by
          ext <;> simp [transpose, cof, V3.cross] <;> ring
        rw [h2, h1, hR.2]
        ext <;> simp [transpose]
      have key : nhMatrix (r.at (moved R b x)) = nhMatrix (r.at x) * R.transpose := by
        simp only [nhMatrix, nhStress, hdet]
        rw [F_moved, cof_mul, hc]
        ext <;> simp [mul, mulVec, transpose, V3.dot, Ref.at] <;> ring
      rw [key]
      funext i
      fin_cases i
      · ext <;> simp [spread, mul, mulVec, transpose, V3.dot]
      · ext <;> simp [spread, mul, mulVec, transpose, V3.dot]
      · ext <;> simp [spread, mul, mulVec, transpose, V3.dot]
      · ext <;> simp [spread, mul, mulVec, transpose, V3.dot] <;> ring
    · have h1 := (nh_infinite r x).2.2 (by rwa [upright_iff])
      have h2 := (nh_infinite r (moved R b x)).2.2 (by rw [upright_iff, hdet]; exact hu)
      rw [h1, h2]; rfl

/-- Rotations other than the identity exist, and act on tetrahedra that are not inverted. -/
example : ∃ R : M3 ℝ, IsRotation R ∧ R ≠ diag 1 := by
  refine ⟨⟨⟨0, -1, 0⟩, ⟨1, 0, 0⟩, ⟨0, 0, 1⟩⟩, ⟨?_, ?_⟩, ?_⟩
  · ext <;> simp [mul, mulVec, transpose, V3.dot, diag]
  · simp [det, V3.dot, V3.cross]
  · intro h
    have := congrArg (fun m => m.r0.x) h
    simp [diag] at this

/-! ## Rest shape -/

/-- C34. In its reference shape a tetrahedron has no energy and no forces. -/
theorem nh_rest (r : Ref) (x : Verts) (h : AtRest r x) :
    nhEnergy (r.at x) = some 0 ∧ nhGradient (r.at x) = some 0 := by
  have hF : (r.at x).F = diag 1 := h
  have hd : (diag (1 : ℝ)).det = 1 := by simp [det, diag, V3.dot, V3.cross]
  have hu : 0 < (r.at x).F.det := by rw [hF, hd]; exact one_pos
  rw [nhEnergy_eq hu, nhGradient_eq hu]
  constructor
  · simp only [nhValue, hF, hd, Real.log_one]
    simp [normSq, diag, V3.dot]
    right; right; norm_num
  · congr 1
    have : nhMatrix (r.at x) = 0 := by
      simp only [nhMatrix, nhStress, hF, hd, Real.log_one]
      ext <;> simp [mul, mulVec, transpose, V3.dot, diag, cof, V3.cross]
    rw [this]
    funext i
    fin_cases i <;> (ext <;> simp [spread])

example : AtRest ⟨diag 1, 1, 1, 1⟩ ![⟨1, 0, 0⟩, ⟨0, 1, 0⟩, ⟨0, 0, 1⟩, ⟨0, 0, 0⟩] := by
  simp only [AtRest]
  ext <;> simp [Tet.shape, mul, mulVec, transpose, V3.dot, diag]

/-! ## The energy is never negative -/

theorem cross_normSq_le (a b : V3 ℝ) : dot (V3.cross a b) (V3.cross a b) ≤ dot a a * dot b b := by
  have : dot a a * dot b b - dot (V3.cross a b) (V3.cross a b) = dot a b ^ 2 := by
    simp only [V3.dot, V3.cross]; ring
  nlinarith [sq_nonneg (dot a b)]

/-- Hadamard's inequality, with what is missing from equality. -/
theorem det_sq_le (a : M3 ℝ) : a.det ^ 2 ≤ dot a.r0 a.r0 * dot a.r1 a.r1 * dot a.r2 a.r2 := by
  have h1 : a.det ^ 2 ≤ dot a.r0 a.r0 * dot (V3.cross a.r1 a.r2) (V3.cross a.r1 a.r2) := by
    have h := cross_normSq_le a.r0 (V3.cross a.r1 a.r2)
    have : dot a.r0 a.r0 * dot (V3.cross a.r1 a.r2) (V3.cross a.r1 a.r2) - a.det ^ 2 =
        dot (V3.cross a.r0 (V3.cross a.r1 a.r2)) (V3.cross a.r0 (V3.cross a.r1 a.r2)) := by
      simp only [V3.dot, V3.cross, det]; ring
    nlinarith [dot_self_nonneg (V3.cross a.r0 (V3.cross a.r1 a.r2))]
  have h2 := mul_le_mul_of_nonneg_left (cross_normSq_le a.r1 a.r2) (dot_self_nonneg a.r0)
  linarith

theorem logdet_le {F : M3 ℝ} (h : 0 < F.det) : Real.log F.det ≤ 0.5 * (F.normSq - 3) := by
  have h0 := det_sq_le F
  have hp : 0 < dot F.r0 F.r0 * dot F.r1 F.r1 * dot F.r2 F.r2 := lt_of_lt_of_le (by positivity) h0
  have n0 := dot_self_nonneg F.r0
  have n1 := dot_self_nonneg F.r1
  have n2 := dot_self_nonneg F.r2
  have p0 : 0 < dot F.r0 F.r0 := lt_of_le_of_ne n0 fun hc => by rw [← hc] at hp; simp at hp
  have p1 : 0 < dot F.r1 F.r1 := lt_of_le_of_ne n1 fun hc => by rw [← hc] at hp; simp at hp
  have p2 : 0 < dot F.r2 F.r2 := lt_of_le_of_ne n2 fun hc => by rw [← hc] at hp; simp at hp
  have hl := Real.log_le_log (by positivity) h0
  rw [Real.log_pow, Real.log_mul (by positivity) p2.ne', Real.log_mul p0.ne' p1.ne'] at hl
  have l0 := Real.log_le_sub_one_of_pos p0
  have l1 := Real.log_le_sub_one_of_pos p1
  have l2 := Real.log_le_sub_one_of_pos p2
  simp only [normSq]
  push_cast at hl
  linarith

/-- If there is equality, the rows are orthonormal. -/
theorem gram_of_logdet_eq {F : M3 ℝ} (h : 0 < F.det)
    (he : Real.log F.det = 0.5 * (F.normSq - 3)) : F * F.transpose = diag 1 := by
  have h0 := det_sq_le F
  have hp : 0 < dot F.r0 F.r0 * dot F.r1 F.r1 * dot F.r2 F.r2 := lt_of_lt_of_le (by positivity) h0
  have n0 := dot_self_nonneg F.r0
  have n1 := dot_self_nonneg F.r1
  have n2 := dot_self_nonneg F.r2
  have p0 : 0 < dot F.r0 F.r0 := lt_of_le_of_ne n0 fun hc => by rw [← hc] at hp; simp at hp
  have p1 : 0 < dot F.r1 F.r1 := lt_of_le_of_ne n1 fun hc => by rw [← hc] at hp; simp at hp
  have p2 : 0 < dot F.r2 F.r2 := lt_of_le_of_ne n2 fun hc => by rw [← hc] at hp; simp at hp
  have hl := Real.log_le_log (by positivity) h0
  rw [Real.log_pow, Real.log_mul (by positivity) p2.ne', Real.log_mul p0.ne' p1.ne'] at hl
  have l0 := Real.log_le_sub_one_of_pos p0
  have l1 := Real.log_le_sub_one_of_pos p1
  have l2 := Real.log_le_sub_one_of_pos p2
  have hn : F.normSq = dot F.r0 F.r0 + dot F.r1 F.r1 + dot F.r2 F.r2 := rfl
  push_cast at hl
  have strict : ∀ y : ℝ, 0 < y → Real.log y = y - 1 → y = 1 := by
    intro y hy hly
    by_contra hne
    exact absurd hly (Real.log_lt_sub_one_of_pos hy hne).ne
  have e0 : dot F.r0 F.r0 = 1 := strict _ p0 (by linarith)
  have e1 : dot F.r1 F.r1 = 1 := strict _ p1 (by linarith)
  have e2 : dot F.r2 F.r2 = 1 := strict _ p2 (by linarith)
  have hd : F.det = 1 := by
    have : Real.log F.det = 0 := by rw [he, hn, e0, e1, e2]; norm_num
    rcases Real.log_eq_zero.1 this with h | h | h <;> linarith
  -- the Gram determinant
  have hg : F.det ^ 2 = dot F.r0 F.r0 * (dot F.r1 F.r1 * dot F.r2 F.r2 - dot F.r1 F.r2 ^ 2)
      - dot F.r0 F.r1 * (dot F.r0 F.r1 * dot F.r2 F.r2 - dot F.r1 F.r2 * dot F.r0 F.r2)
      + dot F.r0 F.r2 * (dot F.r0 F.r1 * dot F.r1 F.r2 - dot F.r1 F.r1 * dot F.r0 F.r2) := by
    simp only [det, V3.dot, V3.cross]; ring
  have c12 : dot F.r0 F.r0 * dot (V3.cross F.r1 F.r2) (V3.cross F.r1 F.r2) - F.det ^ 2 =
      dot (V3.cross F.r0 (V3.cross F.r1 F.r2)) (V3.cross F.r0 (V3.cross F.r1 F.r2)) := by
    simp only [V3.dot, V3.cross, det]; ring
  have c12' : dot (V3.cross F.r1 F.r2) (V3.cross F.r1 F.r2) =
      dot F.r1 F.r1 * dot F.r2 F.r2 - dot F.r1 F.r2 ^ 2 := by
    simp only [V3.dot, V3.cross]; ring
  have q12 : dot F.r1 F.r2 = 0 := by
    have := dot_self_nonneg (V3.cross F.r0 (V3.cross F.r1 F.r2))
    rw [← c12, c12', e0, e1, e2, hd] at this
    have h2 : dot F.r1 F.r2 ^ 2 ≤ 0 := by linarith
    exact pow_eq_zero_iff (two_ne_zero) |>.1 (le_antisymm h2 (sq_nonneg _))
  rw [e0, e1, e2, hd, q12] at hg
  have q01 : dot F.r0 F.r1 = 0 := by
    have : dot F.r0 F.r1 ^ 2 ≤ 0 := by nlinarith [sq_nonneg (dot F.r0 F.r2)]
    exact pow_eq_zero_iff (two_ne_zero) |>.1 (le_antisymm this (sq_nonneg _))
  have q02 : dot F.r0 F.r2 = 0 := by
    have : dot F.r0 F.r2 ^ 2 ≤ 0 := by nlinarith [sq_nonneg (dot F.r0 F.r1)]
    exact pow_eq_zero_iff (two_ne_zero) |>.1 (le_antisymm this (sq_nonneg _))
  have comm : ∀ a b : V3 ℝ, dot a b = dot b a := fun a b => by simp only [V3.dot]; ring
  ext
  all_goals simp only [mul_def, mul, mulVec, transpose_transpose, diag]
  all_goals first
    | assumption
    | (rw [comm]; assumption)

/-- C34. With non-negative material parameters the energy of an element is never negative. With a
positive shear modulus it is zero only when the element is a rotated copy of its reference
shape. -/
theorem nh_nonneg (r : Ref) (x : Verts) (W : ℝ) (hW : nhEnergy (r.at x) = some W)
    (hv : 0 < r.volume) (hm : 0 ≤ r.mu) (hl : 0 ≤ r.lambda) :
    0 ≤ W ∧ (0 < r.mu → W = 0 → IsRotation (r.DXinv * Tet.shape x)) := by
  have hu : 0 < (r.at x).F.det := by
    rw [← upright_iff]
    by_contra hc
    rw [(nh_infinite r x).1.2 hc] at hW
    exact absurd hW (by simp)
  rw [nhEnergy_eq hu] at hW
  obtain rfl := Option.some.inj hW
  have h1 := logdet_le hu
  have hval : nhValue (r.at x) = r.volume * (r.mu * (0.5 * ((r.at x).F.normSq - 3)
      - Real.log (r.at x).F.det) + 0.5 * r.lambda * Real.log (r.at x).F.det ^ 2) := by
    simp only [nhValue, Ref.at]; ring
  have hA : 0 ≤ r.mu * (0.5 * ((r.at x).F.normSq - 3) - Real.log (r.at x).F.det) :=
    mul_nonneg hm (by linarith)
  have hB : 0 ≤ 0.5 * r.lambda * Real.log (r.at x).F.det ^ 2 := by positivity
  rw [hval]
  refine ⟨mul_nonneg hv.le (by linarith), fun hmu h0 => ?_⟩
  have h2 : r.mu * (0.5 * ((r.at x).F.normSq - 3) - Real.log (r.at x).F.det) = 0 := by
    rcases mul_eq_zero.1 h0 with h | h
    · exact absurd h hv.ne'
    · linarith
  have h3 : Real.log (r.at x).F.det = 0.5 * ((r.at x).F.normSq - 3) := by
    rcases mul_eq_zero.1 h2 with h | h
    · exact absurd h hmu.ne'
    · linarith
  have hg := gram_of_logdet_eq hu h3
  change IsRotation (r.at x).F
  have hd2 : (r.at x).F.det * (r.at x).F.det = 1 := by
    have := congrArg M3.det hg
    rw [det_mul, det_transpose] at this
    rw [this]
    simp [det, diag, V3.dot, V3.cross]
  have hd : (r.at x).F.det = 1 := by nlinarith
  refine ⟨?_, hd⟩
  have ho : IsOrthogonal (r.at x).F.transpose := by
    simpa only [IsOrthogonal, transpose_transpose] using hg
  have hc := mul_transpose_of_orth ho (by rw [det_transpose, hd]; exact one_ne_zero)
  rw [det_transpose, hd] at hc
  have hc2 : (r.at x).F.transpose.cof = (r.at x).F.cof.transpose := by
    ext <;> simp [transpose, cof, V3.cross] <;> ring
  have hc3 : (r.at x).F.cof = (r.at x).F := by
    rw [hc2] at hc
    have := congrArg M3.transpose hc
    rw [transpose_transpose, transpose_smul, transpose_transpose] at this
    rw [this]
    ext <;> simp
  have := dxt_cof (r.at x).F
  rw [hc3, hd] at this
  rw [this]
  ext <;> simp

end Softy.Tet
