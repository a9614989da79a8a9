import Verif.Props.EdgeAngle

/-!
# The Hessian of the bending angle and the bending energy (C41, C61)
-/

noncomputable section

namespace Softy.IEdge

open V3

theorem HasD.nn {f : ℝ → V3 ℝ} {f' : V3 ℝ} {t : ℝ} (h : HasD f f' t)
    (hne : dot (f t) (f t) ≠ 0) :
    HasD (fun s => (1 / dot (f s) (f s)) • f s) (M3.mulVec (dnn (f t)) f') t := by
  have hd := (h.dot h).fun_inv hne
  have h1 : HasDerivAt (fun s => 1 / dot (f s) (f s))
      (-(dot f' (f t) + dot (f t) f') / dot (f t) (f t) ^ 2) t := by
    simpa only [one_div] using hd
  refine (HasD.smul h1 h).congr ?_
  have hc : dot f' (f t) = dot (f t) f' := by simp only [dot]; ring
  rw [hc, dnn, M3.mulVec_sub, M3.mulVec_diag, M3.mulVec_smul, M3.mulVec_outer]
  have hs : ∀ (c : ℝ) (a b : V3 ℝ), dot (c • a) b = c * dot a b := by
    intro c a b; simp only [dot, smul_x, smul_y, smul_z]; ring
  rw [hs]
  generalize dot (f t) f' = u
  generalize dot (f t) (f t) = w at *
  ext <;> simp <;> field_simp <;> ring

theorem hess_sym_poly (e0 e1 w : V3 ℝ) :
    let A := cross e0 e1
    (-(dot e0 w * dot A A)) • A -
        dot e0 e0 • (dot A A • cross w e1 - (2 * dot A (cross w e1)) • A) =
      (-dot e0 e1) • (dot A A • cross e0 w - (2 * dot A w) • cross e0 A) +
        (dot A w * dot A A) • e0 := by
  intro A
  ext <;> simp [A, dot, cross] <;> ring

theorem dot_smul_left (c : ℝ) (a b : V3 ℝ) : dot (c • a) b = c * dot a b := by
  simp only [dot, smul_x, smul_y, smul_z]; ring

theorem dot_smul_right (c : ℝ) (a b : V3 ℝ) : dot a (c • b) = c * dot a b := by
  simp only [dot, smul_x, smul_y, smul_z]; ring

theorem dot_comm (a b : V3 ℝ) : dot a b = dot b a := by
  simp only [dot]; ring

theorem dnn_mulVec (n w : V3 ℝ) :
    M3.mulVec (dnn n) w =
      (1 / dot n n) • w - (2 * dot n w / (dot n n * dot n n)) • n := by
  rw [dnn, M3.mulVec_sub, M3.mulVec_diag, M3.mulVec_smul, M3.mulVec_outer, dot_smul_left]
  generalize dot n w = u
  generalize dot n n = v
  ext <;> simp <;> ring

theorem dnn_transpose (n : V3 ℝ) : (dnn n).transpose = dnn n := by
  ext <;> simp [dnn, M3.transpose, M3.diag, M3.outer] <;> ring

/-- The part of the block of the edge vector that comes from one face. -/
def face00 (A e0 e1 : V3 ℝ) : M3 ℝ :=
  dot ((1 / e0.norm) • e0) e1 • (dnn A * M3.skew (-e1)) +
    M3.outer ((1 / dot A A) • A)
      ((1 / e0.norm) • (e1 - dot ((1 / e0.norm) • e0) e1 • (1 / e0.norm) • e0))

theorem de01_transpose (e0 e1 w : V3 ℝ) (hL : e0.norm ≠ 0)
    (ha : dot (cross e0 e1) (cross e0 e1) ≠ 0) :
    M3.mulVec (de01 (cross e0 e1) e0 e1).transpose w =
      -((dot e0 w / e0.norm) • (1 / dot (cross e0 e1) (cross e0 e1)) • cross e0 e1 +
        e0.norm • M3.mulVec (dnn (cross e0 e1)) (cross w e1)) := by
  have hp := hess_sym_poly e0 e1 w
  have hLL := V3.norm_mul_norm e0
  simp only at hp
  simp only [de01, M3.transpose_add, M3.transpose_smul, M3.mul_def, M3.transpose_mul,
    M3.transpose_outer, M3.transpose_skew, dnn_transpose, M3.mulVec_add, M3.mulVec_smul,
    M3.mulVec_mul, M3.mulVec_neg, M3.mulVec_skew, M3.mulVec_outer, dnn_mulVec, dot_smul_left]
  generalize cross w e1 = we at *
  generalize cross e0 e1 = A at *
  rw [← hLL] at hp
  generalize e0.norm = L at *
  generalize dot A A = a at *
  generalize dot A w = p at *
  generalize dot A we = q at *
  generalize dot e0 e1 = u at *
  generalize dot e0 w = v at *
  have main : ∀ u v : V3 ℝ, u = v → u.x = v.x ∧ u.y = v.y ∧ u.z = v.z := by
    rintro u _ rfl; exact ⟨rfl, rfl, rfl⟩
  obtain ⟨hx, hy, hz⟩ := main _ _ hp
  ext
  · simp only [cross, add_x, add_y, add_z, sub_x, sub_y, sub_z, neg_x, smul_x, smul_y, smul_z] at *
    field_simp
    linear_combination -hx
  · simp only [cross, add_x, add_y, add_z, sub_x, sub_y, sub_z, neg_y, smul_x, smul_y, smul_z] at *
    field_simp
    linear_combination -hy
  · simp only [cross, add_x, add_y, add_z, sub_x, sub_y, sub_z, neg_z, smul_x, smul_y, smul_z] at *
    field_simp
    linear_combination -hz

variable {e0 e1 e2 : ℝ → V3 ℝ} {d0 d1 d2 : V3 ℝ} {t : ℝ}

theorem norm_ne_zero_of_cross {a b : V3 ℝ} (h : dot (cross a b) (cross a b) ≠ 0) :
    dot a a ≠ 0 ∧ a.norm ≠ 0 := by
  have he0 : dot a a ≠ 0 := by
    intro h'
    apply h
    rw [V3.dot_self_eq_zero.mp h']
    simp [dot, cross]
  refine ⟨he0, fun h' => he0 ?_⟩
  rw [← V3.norm_mul_norm, h', mul_zero]

theorem hasD_face1 (h0 : HasD e0 d0 t) (h1 : HasD e1 d1 t)
    (ha : dot (cross (e0 t) (e1 t)) (cross (e0 t) (e1 t)) ≠ 0) :
    HasD (fun s => (-(e0 s).norm) •
        (1 / dot (cross (e0 s) (e1 s)) (cross (e0 s) (e1 s))) • cross (e0 s) (e1 s))
      (M3.mulVec (de01 (cross (e0 t) (e1 t)) (e0 t) (e1 t)).transpose d0 +
        M3.mulVec (de11 (cross (e0 t) (e1 t)) (e0 t)) d1) t := by
  obtain ⟨he, hL⟩ := norm_ne_zero_of_cross ha
  refine (HasD.smul (h0.norm he).fun_neg (HasD.nn (h0.cross h1) ha)).congr ?_
  rw [de01_transpose _ _ _ hL ha, de11, M3.mul_def, M3.mulVec_smul, M3.mulVec_mul, M3.mulVec_skew,
    M3.mulVec_vadd]
  ext <;> simp <;> ring

theorem hasD_face0 (h0 : HasD e0 d0 t) (h1 : HasD e1 d1 t)
    (ha : dot (cross (e0 t) (e1 t)) (cross (e0 t) (e1 t)) ≠ 0) :
    HasD (fun s => dot (e1 s) ((1 / (e0 s).norm) • e0 s) •
        (1 / dot (cross (e0 s) (e1 s)) (cross (e0 s) (e1 s))) • cross (e0 s) (e1 s))
      (M3.mulVec (face00 (cross (e0 t) (e1 t)) (e0 t) (e1 t)) d0 +
        M3.mulVec (de01 (cross (e0 t) (e1 t)) (e0 t) (e1 t)) d1) t := by
  obtain ⟨he, hL⟩ := norm_ne_zero_of_cross ha
  have hinv : HasDerivAt (fun s => 1 / (e0 s).norm)
      (-(dot (e0 t) d0 / (e0 t).norm) / (e0 t).norm ^ 2) t := by
    simpa only [one_div] using (h0.norm he).fun_inv hL
  have hc := h1.dot (HasD.smul hinv h0)
  refine (HasD.smul hc (HasD.nn (h0.cross h1) ha)).congr ?_
  simp only [face00, de01, M3.mul_def, M3.mulVec_add, M3.mulVec_smul, M3.mulVec_mul, M3.mulVec_skew,
    M3.mulVec_outer, M3.mulVec_vadd]
  have hneg : cross (-(e1 t)) d0 = cross d0 (e1 t) := by ext <;> simp [cross] <;> ring
  rw [hneg, dot_comm ((1 / (e0 t).norm) • e0 t) (e1 t)]
  generalize M3.mulVec (dnn (cross (e0 t) (e1 t))) (cross d0 (e1 t)) = u
  generalize M3.mulVec (dnn (cross (e0 t) (e1 t))) (cross (e0 t) d1) = v
  generalize dot (cross (e0 t) (e1 t)) (cross (e0 t) (e1 t)) = a
  generalize cross (e0 t) (e1 t) = A
  generalize (e0 t).norm = L at *
  ext <;> simp [dot] <;> field_simp <;> ring

theorem face00_sym_poly (e0 e1 : V3 ℝ) :
    let A := cross e0 e1
    let F : M3 ℝ := (dot e0 e0 * dot e0 e1) •
        (dot A A • M3.skew (-e1) - (2 : ℝ) • M3.outer A (cross A (-e1))) +
      dot A A • M3.outer A (dot e0 e0 • e1 - dot e0 e1 • e0)
    F - F.transpose = (dot A A * dot A A) • M3.skew e0 := by
  intro A F
  ext <;> simp [F, A, dot, cross, M3.skew, M3.outer, M3.transpose] <;> ring

theorem face00_eq (e0 e1 : V3 ℝ) (hL : e0.norm ≠ 0)
    (ha : dot (cross e0 e1) (cross e0 e1) ≠ 0) :
    face00 (cross e0 e1) e0 e1 =
      (1 / (e0.norm ^ 3 * (dot (cross e0 e1) (cross e0 e1)) ^ 2)) •
        ((dot e0 e0 * dot e0 e1) • (dot (cross e0 e1) (cross e0 e1) • M3.skew (-e1) -
            (2 : ℝ) • M3.outer (cross e0 e1) (cross (cross e0 e1) (-e1))) +
          dot (cross e0 e1) (cross e0 e1) •
            M3.outer (cross e0 e1) (dot e0 e0 • e1 - dot e0 e1 • e0)) := by
  have hLL := V3.norm_mul_norm e0
  have hmul : dnn (cross e0 e1) * M3.skew (-e1) =
      (1 / dot (cross e0 e1) (cross e0 e1)) • M3.skew (-e1) -
        (2 / (dot (cross e0 e1) (cross e0 e1)) ^ 2) •
          M3.outer (cross e0 e1) (cross (cross e0 e1) (-e1)) := by
    generalize cross e0 e1 = A
    simp only [dnn, M3.mul_def]
    generalize dot A A = a
    ext <;> simp [M3.mul, M3.mulVec, M3.transpose, M3.skew, M3.diag, M3.outer, dot, cross] <;> ring
  rw [face00, hmul, dot_smul_left, ← hLL]
  generalize cross e0 e1 = A at *
  generalize e0.norm = L at *
  generalize dot A A = a at *
  generalize dot e0 e1 = u at *
  ext <;> simp [M3.skew, M3.outer] <;> field_simp <;> ring

theorem face00_antisym (e0 e1 : V3 ℝ) (hL : e0.norm ≠ 0)
    (ha : dot (cross e0 e1) (cross e0 e1) ≠ 0) :
    face00 (cross e0 e1) e0 e1 - (face00 (cross e0 e1) e0 e1).transpose =
      (1 / e0.norm ^ 3) • M3.skew e0 := by
  have h := face00_sym_poly e0 e1
  simp only at h
  rw [face00_eq e0 e1 hL ha, M3.transpose_smul]
  generalize (dot e0 e0 * dot e0 e1) • (dot (cross e0 e1) (cross e0 e1) • M3.skew (-e1) -
            (2 : ℝ) • M3.outer (cross e0 e1) (cross (cross e0 e1) (-e1))) +
          dot (cross e0 e1) (cross e0 e1) •
            M3.outer (cross e0 e1) (dot e0 e0 • e1 - dot e0 e1 • e0) = F at *
  generalize dot (cross e0 e1) (cross e0 e1) = a at *
  have hs : ∀ (c : ℝ) (p q : M3 ℝ), c • p - c • q = c • (p - q) := by
    intro c p q; ext <;> simp <;> ring
  rw [hs, h]
  ext <;> simp [M3.skew] <;> field_simp

theorem de11_sym (e0 e1 : V3 ℝ) (ha : dot (cross e0 e1) (cross e0 e1) ≠ 0) :
    (de11 (cross e0 e1) e0).transpose = de11 (cross e0 e1) e0 := by
  have hp : ∀ A : V3 ℝ, dnn A * M3.skew e0 = (1 / dot A A) • M3.skew e0 -
        (2 / (dot A A) ^ 2) • M3.outer A (cross A e0) := by
    intro A
    simp only [dnn, M3.mul_def]
    generalize dot A A = a
    ext <;> simp [M3.mul, M3.mulVec, M3.transpose, M3.skew, M3.diag, M3.outer, dot, cross] <;> ring
  have hq : dot (cross e0 e1) (cross e0 e1) • M3.skew e0 +
      (-(2 : ℝ)) • M3.outer (cross e0 e1) (cross (cross e0 e1) e0) =
      -(dot (cross e0 e1) (cross e0 e1) • M3.skew e0) +
      (-(2 : ℝ)) • M3.outer (cross (cross e0 e1) e0) (cross e0 e1) := by
    ext <;> simp [M3.skew, M3.outer, dot, cross] <;> ring
  rw [de11, hp, M3.transpose_smul]
  congr 1
  generalize cross (cross e0 e1) e0 = w at *
  generalize cross e0 e1 = A at *
  generalize dot A A = a at *
  have main : ∀ u v : M3 ℝ, u = v → (1 / a ^ 2) • u = (1 / a ^ 2) • v := by
    rintro u _ rfl; rfl
  have h := main _ _ hq
  calc _ = (1 / a ^ 2) • (-(a • M3.skew e0) + (-(2 : ℝ)) • M3.outer w A) := by
        ext <;> simp [M3.transpose, M3.skew, M3.outer] <;> field_simp <;> ring
    _ = _ := by
        rw [← h]
        ext <;> simp [M3.skew, M3.outer] <;> field_simp <;> ring

/-- Specification: the symmetric matrix with a given lower triangle. -/
def Low.full (l : Low) : M3 ℝ :=
  ⟨⟨l.a00, l.a10, l.a20⟩, ⟨l.a10, l.a11, l.a21⟩, ⟨l.a20, l.a21, l.a22⟩⟩

/-- Specification: the product of the symmetric 12×12 matrix whose lower triangle is reported with
four vectors. -/
def Hess.mulVec (h : Hess) (w0 w1 w2 w3 : V3 ℝ) : Grad where
  d0 := h.h0.full.mulVec w0 + h.h10.transpose.mulVec w1 + h.h20.transpose.mulVec w2 +
    h.h30.transpose.mulVec w3
  d1 := h.h10.mulVec w0 + h.h1.full.mulVec w1 + h.h21.transpose.mulVec w2 +
    h.h31.transpose.mulVec w3
  d2 := h.h20.mulVec w0 + h.h21.mulVec w1 + h.h2.full.mulVec w2
  d3 := h.h30.mulVec w0 + h.h31.mulVec w1 + h.h3.full.mulVec w3

theorem full_lower (m : M3 ℝ) (h : m.transpose = m) : (lower m).full = m := by
  have h1 : m.r0.y = m.r1.x := congrArg (fun m : M3 ℝ => m.r1.x) h
  have h2 : m.r0.z = m.r2.x := congrArg (fun m : M3 ℝ => m.r2.x) h
  have h3 : m.r1.z = m.r2.y := congrArg (fun m : M3 ℝ => m.r2.y) h
  ext <;> simp [lower, Low.full, h1, h2, h3]

theorem dnn_neg (a : V3 ℝ) : dnn (-a) = dnn a := by
  have : dot (-a) (-a) = dot a a := by simp [dot]
  simp only [dnn, this]
  ext <;> simp [M3.outer]

theorem cross_anti (a b : V3 ℝ) : cross a b = -cross b a := by
  ext <;> simp [cross] <;> ring

theorem skew_neg (a : V3 ℝ) : M3.skew (-a) = -M3.skew a := by
  ext <;> simp [M3.skew]

theorem mul_neg' (a b : M3 ℝ) : a * -b = -(a * b) := by
  ext <;> simp [M3.mul, M3.mulVec, M3.transpose, dot] <;> ring

theorem dot_neg_neg (a : V3 ℝ) : dot (-a) (-a) = dot a a := by simp [dot]

theorem de02_eq (a e0 e2 : V3 ℝ) : de02 (-a) e0 e2 = -de01 a e0 e2 := by
  simp only [de02, de01, dnn_neg, skew_neg, mul_neg', dot_neg_neg]
  ext <;> simp [M3.outer] <;> ring

theorem de22_eq (a e0 : V3 ℝ) : de22 (-a) e0 = -de11 a e0 := by
  simp only [de22, de11, dnn_neg, skew_neg, mul_neg']
  ext <;> simp

theorem de00_eq (a b e0 e1 e2 : V3 ℝ) :
    de00 a (-b) e0 e1 e2 = face00 a e0 e1 - face00 b e0 e2 := by
  simp only [de00, face00, dnn_neg, skew_neg, mul_neg', dot_neg_neg]
  ext <;> simp [M3.outer] <;> ring

theorem hessian_eq (e : Edge) (pos : ℕ → V3 ℝ) (faces : ℕ → ℕ → ℕ)
    (ha : dot (e.normal0 pos faces) (e.normal0 pos faces) ≠ 0)
    (hb : dot (e.normal1 pos faces) (e.normal1 pos faces) ≠ 0) :
    e.hessian pos faces =
      let an0 := e.normal0 pos faces
      let an1 := e.normal1 pos faces
      let e0 := e.edgeVector pos faces
      let e1 := e.face0Tangent pos faces
      let e2 := e.face1Tangent pos faces
      let d0 := de00 an0 an1 e0 e1 e2
      let d1 := de01 an0 e0 e1
      let d2 := de02 an1 e0 e2
      let d3 := de11 an0 e0
      let d4 := de22 an1 e0
      ⟨lower (d0 + d1 + d1.transpose + d2 + d2.transpose + d3 + d4), lower d0, lower d3, lower d4,
        -d0 - d1 - d2, -d1.transpose - d3, d1.transpose, -d2.transpose - d4, d2.transpose⟩ :=
  if_neg (by push Not; exact ⟨ha, hb⟩)

/-- **C41**, strengthened. Along every motion of the vertices the rate of change of the gradient of
the bending angle is given by the reported Hessian, unless a triangle is degenerate. -/
theorem hessian_is_derivative (e : Edge) (faces : ℕ → ℕ → ℕ) (hs : e.Shared faces)
    (p : ℝ → ℕ → V3 ℝ) (d : ℕ → V3 ℝ) (t : ℝ) (hp : ∀ v, HasD (fun s => p s v) (d v) t)
    (h0 : e.normal0 (p t) faces ≠ 0) (h1 : e.normal1 (p t) faces ≠ 0) :
    let g := (e.hessian (p t) faces).mulVec (d (e.vert0 faces 0)) (d (e.vert0 faces 1))
      (d (e.vert0 faces 2)) (d (e.vert1 faces 2))
    HasD (fun s => (e.gradient (p s) faces).d0) g.d0 t ∧
      HasD (fun s => (e.gradient (p s) faces).d1) g.d1 t ∧
      HasD (fun s => (e.gradient (p s) faces).d2) g.d2 t ∧
      HasD (fun s => (e.gradient (p s) faces).d3) g.d3 t := by
  intro g
  have n0 := fun s => normal0_eq e (p s) faces hs.s0
  have n1 : ∀ s, e.normal1 (p s) faces =
      -cross (e.edgeVector (p s) faces) (e.face1Tangent (p s) faces) := fun s => by
    rw [normal1_eq e (p s) faces hs, cross_anti]
  have d0 : HasD (fun s => e.edgeVector (p s) faces)
      (d (e.vert0 faces 1) - d (e.vert0 faces 0)) t := (hp _).sub (hp _)
  have hv : e.vert0 faces 0 = faces e.f0 e.s0 := by
    unfold Edge.vert0; rw [add_zero, Nat.mod_eq_of_lt hs.s0]
  have d1 : HasD (fun s => e.face0Tangent (p s) faces)
      (d (e.vert0 faces 2) - d (e.vert0 faces 0)) t := by
    rw [hv]; exact (hp _).sub (hp _)
  have d2 : HasD (fun s => e.face1Tangent (p s) faces)
      (d (e.vert1 faces 2) - d (e.vert0 faces 0)) t := (hp _).sub (hp _)
  have ha : dot (e.normal0 (p t) faces) (e.normal0 (p t) faces) ≠ 0 :=
    fun h => h0 (V3.dot_self_eq_zero.mp h)
  have hb : dot (e.normal1 (p t) faces) (e.normal1 (p t) faces) ≠ 0 :=
    fun h => h1 (V3.dot_self_eq_zero.mp h)
  have hg := hessian_eq e (p t) faces ha hb
  have ha' := ha
  have hb' := hb
  rw [n0 t] at ha'
  rw [n1 t, dot_neg_neg] at hb'
  have hev0 : ∀ᶠ s in nhds t, dot (e.normal0 (p s) faces) (e.normal0 (p s) faces) ≠ 0 := by
    have hc : ContinuousAt (fun s => dot (e.normal0 (p s) faces) (e.normal0 (p s) faces)) t := by
      simp only [n0]
      exact ((d0.cross d1).dot (d0.cross d1)).continuousAt
    exact hc.eventually_ne ha
  have hev1 : ∀ᶠ s in nhds t, dot (e.normal1 (p s) faces) (e.normal1 (p s) faces) ≠ 0 := by
    have hc : ContinuousAt (fun s => dot (e.normal1 (p s) faces) (e.normal1 (p s) faces)) t := by
      simp only [n1, dot_neg_neg]
      exact ((d0.cross d2).dot (d0.cross d2)).continuousAt
    exact hc.eventually_ne hb
  have hev := hev0.and hev1
  have A0 := hasD_face0 d0 d1 ha'
  have A1 := hasD_face1 d0 d1 ha'
  have B0 := hasD_face0 d0 d2 hb'
  have B1 := hasD_face1 d0 d2 hb'
  obtain ⟨-, hL⟩ := norm_ne_zero_of_cross ha'
  have s00a := face00_antisym _ _ hL ha'
  have s00b := face00_antisym _ _ hL hb'
  have s11a := de11_sym _ _ ha'
  have s11b := de11_sym _ _ hb'
  have hgd : g = (e.hessian (p t) faces).mulVec (d (e.vert0 faces 0)) (d (e.vert0 faces 1))
      (d (e.vert0 faces 2)) (d (e.vert1 faces 2)) := rfl
  rw [hg] at hgd
  simp only [n0 t, n1 t, de00_eq, de02_eq, de22_eq] at hgd
  generalize face00 (cross (e.edgeVector (p t) faces) (e.face0Tangent (p t) faces))
    (e.edgeVector (p t) faces) (e.face0Tangent (p t) faces) = Fa at *
  generalize face00 (cross (e.edgeVector (p t) faces) (e.face1Tangent (p t) faces))
    (e.edgeVector (p t) faces) (e.face1Tangent (p t) faces) = Fb at *
  generalize de01 (cross (e.edgeVector (p t) faces) (e.face0Tangent (p t) faces))
    (e.edgeVector (p t) faces) (e.face0Tangent (p t) faces) = Ma at *
  generalize de01 (cross (e.edgeVector (p t) faces) (e.face1Tangent (p t) faces))
    (e.edgeVector (p t) faces) (e.face1Tangent (p t) faces) = Mb at *
  generalize de11 (cross (e.edgeVector (p t) faces) (e.face0Tangent (p t) faces))
    (e.edgeVector (p t) faces) = Na at *
  generalize de11 (cross (e.edgeVector (p t) faces) (e.face1Tangent (p t) faces))
    (e.edgeVector (p t) faces) = Nb at *
  have hF : (Fa - Fb).transpose = Fa - Fb := by
    have h := s00a.trans s00b.symm
    have ht : (Fa - Fb).transpose = Fa.transpose - Fb.transpose := by
      ext <;> simp [M3.transpose]
    rw [ht]
    have main : ∀ u v : M3 ℝ, u = v → u.r0 = v.r0 ∧ u.r1 = v.r1 ∧ u.r2 = v.r2 := by
      rintro u _ rfl; exact ⟨rfl, rfl, rfl⟩
    have mv : ∀ u v : V3 ℝ, u = v → u.x = v.x ∧ u.y = v.y ∧ u.z = v.z := by
      rintro u _ rfl; exact ⟨rfl, rfl, rfl⟩
    obtain ⟨m0, m1, m2⟩ := main _ _ h
    obtain ⟨a1, a2, a3⟩ := mv _ _ m0
    obtain ⟨a4, a5, a6⟩ := mv _ _ m1
    obtain ⟨a7, a8, a9⟩ := mv _ _ m2
    simp at a1 a2 a3 a4 a5 a6 a7 a8 a9
    ext <;> simp <;> linarith
  have hN : ∀ m : M3 ℝ, (-m).transpose = -m.transpose := by
    intro m; ext <;> simp [M3.transpose]
  have hD : (Fa - Fb + Ma + Ma.transpose + -Mb + (-Mb).transpose + Na + -Nb).transpose =
      Fa - Fb + Ma + Ma.transpose + -Mb + (-Mb).transpose + Na + -Nb := by
    simp only [M3.transpose_add, hF, hN, M3.transpose_transpose, s11a, s11b]
    ext <;> simp <;> ring
  have hNb : (-Nb).transpose = -Nb := by rw [hN, s11b]
  have hS : ∀ m n : M3 ℝ, (m - n).transpose = m.transpose - n.transpose := by
    intro m n; ext <;> simp [M3.transpose]
  have t10 : (-(Fa - Fb) - Ma - -Mb).transpose = -(Fa - Fb) - Ma.transpose - -Mb.transpose := by
    rw [hS, hS, hN, hF, hN]
  have t20 : (-Ma.transpose - Na).transpose = -Ma - Na := by
    rw [hS, hN, s11a, M3.transpose_transpose]
  have t30 : (-(-Mb).transpose - -Nb).transpose = Mb - -Nb := by
    simp only [hS, hN, M3.transpose_transpose, s11b]
    ext <;> simp
  rw [Hess.mulVec] at hgd
  simp only [full_lower _ hF, full_lower _ hD, full_lower _ hNb, full_lower _ s11a,
    M3.transpose_transpose, t10, t20, t30] at hgd
  have hd1 := A0.sub B0
  have hd2 := A1
  have hd3 := B1.neg
  refine ⟨?_, ?_, ?_, ?_⟩
  · refine (((hd1.add hd2).add hd3).neg.congr_of_eventuallyEq (hev.mono fun s hs' => ?_)).congr ?_
    · simp only [gradient_eq e (p s) faces hs'.1 hs'.2, n0 s, n1 s, dot_neg_neg]
      ext <;> simp <;> ring
    · rw [hgd]
      ext <;> simp [M3.mulVec, M3.transpose, dot] <;> ring
  · refine (hd1.congr_of_eventuallyEq (hev.mono fun s hs' => ?_)).congr ?_
    · simp only [gradient_eq e (p s) faces hs'.1 hs'.2, n0 s, n1 s, dot_neg_neg]
      ext <;> simp <;> ring
    · rw [hgd]
      ext <;> simp [M3.mulVec, M3.transpose, dot] <;> ring
  · refine (hd2.congr_of_eventuallyEq (hev.mono fun s hs' => ?_)).congr ?_
    · simp only [gradient_eq e (p s) faces hs'.1 hs'.2, n0 s]
    · rw [hgd]
      ext <;> simp [M3.mulVec, M3.transpose, dot] <;> ring
  · refine (hd3.congr_of_eventuallyEq (hev.mono fun s hs' => ?_)).congr ?_
    · simp only [gradient_eq e (p s) faces hs'.1 hs'.2, n1 s, dot_neg_neg]
      ext <;> simp
    · rw [hgd]
      ext <;> simp [M3.mulVec, M3.transpose, dot] <;> ring

end Softy.IEdge
