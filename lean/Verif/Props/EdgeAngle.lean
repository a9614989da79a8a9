import Verif.Model.InteriorEdge
import Verif.Lemmas.VecCalc
import Mathlib.Analysis.SpecialFunctions.Complex.LogDeriv
import Mathlib.Tactic.NormNum
import Mathlib.Tactic.IntervalCases

/-!
# Properties of bending angles (C40, C41, C61)
-/

noncomputable section

namespace Softy.IEdge

open V3

/-- Specification: the edge is a side of two triangles, i.e. the sides of the two faces where it
is said to start have the same two distinct vertices, in the same or in opposite order. -/
structure Edge.Shared (e : Edge) (faces : ℕ → ℕ → ℕ) : Prop where
  s0 : e.s0 < 3
  s1 : e.s1 < 3
  ne : e.vert0 faces 0 ≠ e.vert0 faces 1
  same : (e.vert1 faces 0 = e.vert0 faces 1 ∧ e.vert1 faces 1 = e.vert0 faces 0) ∨
    (e.vert1 faces 0 = e.vert0 faces 0 ∧ e.vert1 faces 1 = e.vert0 faces 1)

theorem areaNormal_rot (a b c : V3 ℝ) : areaNormal b c a = areaNormal a b c := by
  ext <;> simp [areaNormal, cross] <;> ring

theorem areaNormal_swap (a b c : V3 ℝ) : areaNormal b a c = -areaNormal a b c := by
  ext <;> simp [areaNormal, cross] <;> ring

theorem normal0_eq (e : Edge) (pos : ℕ → V3 ℝ) (faces : ℕ → ℕ → ℕ) (h : e.s0 < 3) :
    e.normal0 pos faces = cross (e.edgeVector pos faces) (e.face0Tangent pos faces) := by
  obtain ⟨f0, f1, s0, s1⟩ := e
  simp only [Edge.normal0, Edge.edgeVector, Edge.face0Tangent, Edge.vert0] at *
  interval_cases s0 <;> ext <;> simp [areaNormal, cross] <;> ring

theorem normal_rotated (e : Edge) (p : ℕ → ℕ → V3 ℝ) (h : e.s1 < 3) :
    areaNormal (p e.f1 0) (p e.f1 1) (p e.f1 2) =
      areaNormal (e.vert1 p 0) (e.vert1 p 1) (e.vert1 p 2) := by
  obtain ⟨f0, f1, s0, s1⟩ := e
  simp only [Edge.vert1] at *
  interval_cases s1 <;> ext <;> simp [areaNormal, cross] <;> ring

theorem normal1_eq (e : Edge) (pos : ℕ → V3 ℝ) (faces : ℕ → ℕ → ℕ) (h : e.Shared faces) :
    e.normal1 pos faces = cross (e.face1Tangent pos faces) (e.edgeVector pos faces) := by
  have hr := normal_rotated e (fun f i => pos (faces f i)) h.s1
  have e0 : e.vert1 (fun f i => pos (faces f i)) 0 = pos (e.vert1 faces 0) := rfl
  have e1 : e.vert1 (fun f i => pos (faces f i)) 1 = pos (e.vert1 faces 1) := rfl
  have e2 : e.vert1 (fun f i => pos (faces f i)) 2 = pos (e.vert1 faces 2) := rfl
  rw [e0, e1, e2] at hr
  unfold Edge.normal1 Edge.isOriented Edge.face1Tangent Edge.edgeVector
  rcases h.same with ⟨ha, hb⟩ | ⟨ha, hb⟩
  · rw [if_pos (by simpa [ha] using h.ne), hr, ha, hb]
    ext <;> simp [areaNormal, cross] <;> ring
  · rw [if_neg (by simp [ha]), areaNormal_swap, hr, ha, hb]
    ext <;> simp [areaNormal, cross] <;> ring

/-! ## C40: tracking of angles -/

theorem rem_spec (a b : ℝ) (hb : 0 < b) :
    (∃ k : ℤ, rem a b = a - k * b) ∧ |rem a b| < b := by
  have key : ∀ c : ℝ, 0 ≤ c - b * ⌊c / b⌋ ∧ c - b * ⌊c / b⌋ < b := by
    intro c
    have h1 := Int.floor_le (c / b)
    have h2 := Int.lt_floor_add_one (c / b)
    rw [le_div_iff₀ hb] at h1
    rw [div_lt_iff₀ hb] at h2
    constructor <;> nlinarith
  unfold rem
  split
  · refine ⟨⟨⌊a / b⌋, by ring⟩, ?_⟩
    rw [abs_lt]
    have := key a
    constructor <;> linarith
  · refine ⟨⟨-⌊-a / b⌋, by push_cast; ring⟩, ?_⟩
    rw [abs_lt]
    have := key (-a)
    constructor <;> linarith

theorem rem_nonneg (a b : ℝ) (hb : 0 < b) (ha : 0 ≤ a) : 0 ≤ rem a b := by
  unfold rem
  rw [if_pos ha]
  have h1 := Int.floor_le (a / b)
  rw [le_div_iff₀ hb] at h1
  nlinarith

/-- The projection of an angle is an equivalent angle (equal modulo full turns) in `[-π, π)`. -/
theorem projectAngle_spec (a : ℝ) :
    (∃ k : ℤ, projectAngle a = a + k * (2 * Real.pi)) ∧ -Real.pi ≤ projectAngle a ∧
      projectAngle a < Real.pi := by
  have hp := Real.pi_pos
  obtain ⟨⟨k, hk⟩, hb⟩ := rem_spec (a + Real.pi) (2 * Real.pi) (by linarith)
  rw [abs_lt] at hb
  unfold projectAngle
  simp only
  split
  · rename_i h
    exact ⟨⟨-k + 1, by rw [hk]; push_cast; ring⟩, by linarith, by linarith⟩
  · rename_i h
    push Not at h
    exact ⟨⟨-k, by rw [hk]; push_cast; ring⟩, by linarith, by linarith⟩

example : projectAngle (7 * Real.pi) = -Real.pi := by
  have hp := Real.pi_pos
  have h1 : (7 * Real.pi + Real.pi) / (2 * Real.pi) = 4 := by field_simp; norm_num
  have h2 : ⌊(4 : ℝ)⌋ = 4 := by exact_mod_cast Int.floor_intCast (R := ℝ) 4
  have h3 : rem (7 * Real.pi + Real.pi) (2 * Real.pi) = 0 := by
    unfold rem
    rw [if_pos (by linarith), h1, h2]
    push_cast
    ring
  unfold projectAngle
  rw [h3]
  norm_num

theorem edgeAngle_range (e : Edge) (pos : ℕ → V3 ℝ) (faces : ℕ → ℕ → ℕ) :
    -Real.pi ≤ e.edgeAngle pos faces ∧ e.edgeAngle pos faces < Real.pi := by
  unfold Edge.edgeAngle atan2
  have h1 := Complex.neg_pi_lt_arg (⟨dot (e.normal0 pos faces) (e.normal1 pos faces),
    (e.edgeVector pos faces).norm * dot (e.face1Tangent pos faces) (e.normal0 pos faces)⟩)
  have h2 := Complex.arg_le_pi (⟨dot (e.normal0 pos faces) (e.normal1 pos faces),
    (e.edgeVector pos faces).norm * dot (e.face1Tangent pos faces) (e.normal0 pos faces)⟩)
  constructor <;> simp only <;> linarith

/-- **C40.** The tracked angle is equivalent to the current angle between the faces (they differ
by full turns) and lies within half a turn of the angle of the last step. -/
theorem incremental_angle (e : Edge) (ref : ℝ) (pos : ℕ → V3 ℝ) (faces : ℕ → ℕ → ℕ) :
    (∃ k : ℤ, e.incrementalAngle ref pos faces =
        e.edgeAngle pos faces + k * (2 * Real.pi)) ∧
      |e.incrementalAngle ref pos faces - ref| ≤ Real.pi := by
  have hp := Real.pi_pos
  obtain ⟨⟨k, hk⟩, h1, h2⟩ := projectAngle_spec ref
  obtain ⟨h3, h4⟩ := edgeAngle_range e pos faces
  unfold Edge.incrementalAngle wrapAngle
  simp only
  split_ifs with ha hb
  · refine ⟨⟨-k + 1, by rw [hk]; push_cast; ring⟩, ?_⟩
    rw [abs_le]; constructor <;> linarith
  · refine ⟨⟨-k - 1, by rw [hk]; push_cast; ring⟩, ?_⟩
    rw [abs_le]; constructor <;> linarith
  · refine ⟨⟨-k, by rw [hk]; push_cast; ring⟩, ?_⟩
    rw [abs_le]; constructor <;> linarith

/-- Within half a turn the equivalent angle is unique, so the tracked angle follows continuous
motion exactly: if `θ` is any angle equivalent to the current one and less than half a turn from
the last angle, it is the tracked one. -/
theorem incremental_angle_unique (e : Edge) (ref θ : ℝ) (pos : ℕ → V3 ℝ) (faces : ℕ → ℕ → ℕ)
    (k : ℤ) (hθ : θ = e.edgeAngle pos faces + k * (2 * Real.pi)) (h : |θ - ref| < Real.pi) :
    e.incrementalAngle ref pos faces = θ := by
  have hp := Real.pi_pos
  obtain ⟨⟨j, hj⟩, hd⟩ := incremental_angle e ref pos faces
  rw [abs_lt] at h
  rw [abs_le] at hd
  have hkj : e.incrementalAngle ref pos faces - θ = ((j - k : ℤ) : ℝ) * (2 * Real.pi) := by
    rw [hj, hθ]; push_cast; ring
  have hlt : (((j - k : ℤ) : ℝ)) < 1 := by
    by_contra hc
    push Not at hc
    nlinarith
  have hgt : -1 < (((j - k : ℤ) : ℝ)) := by
    by_contra hc
    push Not at hc
    nlinarith
  have h0 : j - k = 0 := by
    have h1 : j - k < 1 := by exact_mod_cast hlt
    have h2 : -1 < j - k := by exact_mod_cast hgt
    omega
  rw [h0] at hkj
  push_cast at hkj
  linarith

/-- `trishell.rs:501-515`, `update_angles` along a history of positions: every committed step
replaces the stored angle by the tracked one. -/
def track (e : Edge) (faces : ℕ → ℕ → ℕ) (a : ℝ) (hist : List (ℕ → V3 ℝ)) : ℝ :=
  hist.foldl (fun a pos => e.incrementalAngle a pos faces) a

/-- **C40**, over histories. Let `θ` be a continuous-in-steps choice of the angle along a motion
(equivalent to the angle between the faces at every step, changing by less than half a turn per
step). Then the stored angle equals `θ` after every step, however many full turns accumulate. -/
theorem track_history (e : Edge) (faces : ℕ → ℕ → ℕ) (pos : ℕ → ℕ → V3 ℝ) (θ : ℕ → ℝ)
    (hθ : ∀ n, ∃ k : ℤ, θ n = e.edgeAngle (pos n) faces + k * (2 * Real.pi))
    (hs : ∀ n, |θ (n + 1) - θ n| < Real.pi) (n : ℕ) :
    track e faces (θ 0) ((List.range n).map fun i => pos (i + 1)) = θ n := by
  induction n with
  | zero => rfl
  | succ n ih =>
    unfold track at ih ⊢
    rw [List.range_succ, List.map_append, List.foldl_append, ih]
    obtain ⟨k, hk⟩ := hθ (n + 1)
    exact incremental_angle_unique e (θ n) (θ (n + 1)) (pos (n + 1)) faces k hk (hs n)

/-! ## C41: the gradient of the angle -/

/-- The derivative of the argument of a point that moves in the plane away from the cut. -/
theorem hasDerivAt_atan2 {x y : ℝ → ℝ} {x' y' t : ℝ} (hx : HasDerivAt x x' t)
    (hy : HasDerivAt y y' t) (h : 0 < x t ∨ y t ≠ 0) :
    HasDerivAt (fun s => atan2 (y s) (x s)) ((x t * y' - y t * x') / (x t ^ 2 + y t ^ 2)) t := by
  have hz : HasDerivAt (fun s => (x s : ℂ) + (y s : ℂ) * Complex.I)
      ((x' : ℂ) + (y' : ℂ) * Complex.I) t :=
    (hx.ofReal_comp).fun_add ((hy.ofReal_comp).mul_const Complex.I)
  have hs : (x t : ℂ) + (y t : ℂ) * Complex.I ∈ Complex.slitPlane := by
    rw [Complex.mem_slitPlane_iff]
    simpa using h
  have hl := (HasDerivAt.clog_real hz hs)
  have him := (Complex.imCLM.hasFDerivAt (x := Complex.log ((x t : ℂ) + (y t : ℂ) * Complex.I))
    ).comp_hasDerivAt t hl
  have hf : (fun s => atan2 (y s) (x s)) =
      (⇑Complex.imCLM ∘ fun s => Complex.log ((x s : ℂ) + (y s : ℂ) * Complex.I)) := by
    funext s
    simp only [Function.comp, Complex.imCLM_apply, Complex.log_im, atan2]
    congr 1
    apply Complex.ext <;> simp
  rw [hf]
  refine him.congr_deriv ?_
  have hne : x t ^ 2 + y t ^ 2 ≠ 0 := by
    rcases h with h | h
    · positivity
    · positivity
  rw [Complex.imCLM_apply, Complex.div_im]
  simp [Complex.normSq_apply]
  field_simp

theorem identity_d0 (e0 e1 e2 d : V3 ℝ) :
    -(dot (cross e0 e1) (cross e2 e0) *
          (dot e0 d * dot e2 (cross e0 e1) + dot e0 e0 * dot e2 (cross d e1)) -
        dot e0 e0 * dot e2 (cross e0 e1) *
          (dot (cross d e1) (cross e2 e0) + dot (cross e0 e1) (cross e2 d))) =
      dot (cross e2 e0) (cross e2 e0) * (dot e1 e0 * dot (cross e0 e1) d) +
        dot (cross e0 e1) (cross e0 e1) * (dot e2 e0 * dot (cross e2 e0) d) := by
  simp only [dot, cross]
  ring

theorem identity_d1 (e0 e1 e2 d : V3 ℝ) :
    dot (cross e0 e1) (cross e2 e0) * dot e2 (cross e0 d) -
        dot e2 (cross e0 e1) * dot (cross e0 d) (cross e2 e0) =
      dot (cross e2 e0) (cross e2 e0) * dot (cross e0 e1) d := by
  simp only [dot, cross]
  ring

theorem identity_d2 (e0 e1 e2 d : V3 ℝ) :
    dot (cross e0 e1) (cross e2 e0) * dot d (cross e0 e1) -
        dot e2 (cross e0 e1) * dot (cross e0 e1) (cross d e0) =
      dot (cross e0 e1) (cross e0 e1) * dot (cross e2 e0) d := by
  simp only [dot, cross]
  ring

theorem identity_norm (e0 e1 e2 : V3 ℝ) :
    dot (cross e0 e1) (cross e2 e0) ^ 2 + dot e0 e0 * dot e2 (cross e0 e1) ^ 2 =
      dot (cross e0 e1) (cross e0 e1) * dot (cross e2 e0) (cross e2 e0) := by
  simp only [dot, cross]
  ring

/-- The angle as a function of the edge and the two tangents. -/
theorem hasDerivAt_angle {e0 e1 e2 : ℝ → V3 ℝ} {d0 d1 d2 : V3 ℝ} {t : ℝ} (h0 : HasD e0 d0 t)
    (h1 : HasD e1 d1 t) (h2 : HasD e2 d2 t)
    (ha : dot (cross (e0 t) (e1 t)) (cross (e0 t) (e1 t)) ≠ 0)
    (hb : dot (cross (e2 t) (e0 t)) (cross (e2 t) (e0 t)) ≠ 0)
    (hc : 0 < dot (cross (e0 t) (e1 t)) (cross (e2 t) (e0 t)) ∨
      dot (e2 t) (cross (e0 t) (e1 t)) ≠ 0) :
    HasDerivAt (fun s => -atan2 ((e0 s).norm * dot (e2 s) (cross (e0 s) (e1 s)))
        (dot (cross (e0 s) (e1 s)) (cross (e2 s) (e0 s))))
      (dot (e1 t) (e0 t) / (e0 t).norm * (dot (cross (e0 t) (e1 t)) d0 /
          dot (cross (e0 t) (e1 t)) (cross (e0 t) (e1 t))) +
        dot (e2 t) (e0 t) / (e0 t).norm * (dot (cross (e2 t) (e0 t)) d0 /
          dot (cross (e2 t) (e0 t)) (cross (e2 t) (e0 t))) -
        (e0 t).norm * (dot (cross (e0 t) (e1 t)) d1 /
          dot (cross (e0 t) (e1 t)) (cross (e0 t) (e1 t))) -
        (e0 t).norm * (dot (cross (e2 t) (e0 t)) d2 /
          dot (cross (e2 t) (e0 t)) (cross (e2 t) (e0 t)))) t := by
  have he0 : dot (e0 t) (e0 t) ≠ 0 := by
    intro h
    apply ha
    rw [V3.dot_self_eq_zero.mp h]
    simp [dot, cross]
  have hL : (e0 t).norm ≠ 0 := by
    intro h
    apply he0
    rw [← V3.norm_mul_norm, h, mul_zero]
  have hA := h0.cross h1
  have hB := h2.cross h0
  have hx := hA.dot hB
  have hy := (h0.norm he0).fun_mul (h2.dot hA)
  have h := (hasDerivAt_atan2 hx hy (hc.imp id fun h => mul_ne_zero hL h)).fun_neg
  refine h.congr_deriv ?_
  have hLL := V3.norm_mul_norm (e0 t)
  have hn := identity_norm (e0 t) (e1 t) (e2 t)
  have hsq : dot (cross (e0 t) (e1 t)) (cross (e2 t) (e0 t)) ^ 2 +
      ((e0 t).norm * dot (e2 t) (cross (e0 t) (e1 t))) ^ 2 =
      dot (cross (e0 t) (e1 t)) (cross (e0 t) (e1 t)) *
        dot (cross (e2 t) (e0 t)) (cross (e2 t) (e0 t)) := by
    rw [← hn, ← hLL]; ring
  have i0 := identity_d0 (e0 t) (e1 t) (e2 t) d0
  have i1 := identity_d1 (e0 t) (e1 t) (e2 t) d1
  have i2 := identity_d2 (e0 t) (e1 t) (e2 t) d2
  have dl : ∀ a b c : V3 ℝ, dot (a + b) c = dot a c + dot b c := by
    intro a b c; simp only [dot, add_x, add_y, add_z]; ring
  have dr : ∀ a b c : V3 ℝ, dot c (a + b) = dot c a + dot c b := by
    intro a b c; simp only [dot, add_x, add_y, add_z]; ring
  rw [hsq]
  simp only [dl, dr]
  rw [← hLL] at i0
  generalize (e0 t).norm = L at *
  generalize dot (cross (e0 t) (e1 t)) (cross (e0 t) (e1 t)) = a at *
  generalize dot (cross (e2 t) (e0 t)) (cross (e2 t) (e0 t)) = b at *
  field_simp
  linear_combination i0 - L ^ 2 * i1 - L ^ 2 * i2

/-- Specification: the change of the vertices of an edge when vertex `v` moves with velocity
`d v`, paired with a gradient. -/
def Grad.pair (g : Grad) (e : Edge) (faces : ℕ → ℕ → ℕ) (d : ℕ → V3 ℝ) : ℝ :=
  dot g.d0 (d (e.vert0 faces 0)) + dot g.d1 (d (e.vert0 faces 1)) +
    dot g.d2 (d (e.vert0 faces 2)) + dot g.d3 (d (e.vert1 faces 2))

theorem gradient_eq (e : Edge) (pos : ℕ → V3 ℝ) (faces : ℕ → ℕ → ℕ)
    (ha : dot (e.normal0 pos faces) (e.normal0 pos faces) ≠ 0)
    (hb : dot (e.normal1 pos faces) (e.normal1 pos faces) ≠ 0) :
    e.gradient pos faces =
      ⟨((e.edgeVector pos faces).norm - dot (e.face0Tangent pos faces)
            ((1 / (e.edgeVector pos faces).norm) • e.edgeVector pos faces)) •
          (1 / dot (e.normal0 pos faces) (e.normal0 pos faces)) • e.normal0 pos faces +
        ((e.edgeVector pos faces).norm - dot (e.face1Tangent pos faces)
            ((1 / (e.edgeVector pos faces).norm) • e.edgeVector pos faces)) •
          (1 / dot (e.normal1 pos faces) (e.normal1 pos faces)) • e.normal1 pos faces,
      dot (e.face0Tangent pos faces)
            ((1 / (e.edgeVector pos faces).norm) • e.edgeVector pos faces) •
          (1 / dot (e.normal0 pos faces) (e.normal0 pos faces)) • e.normal0 pos faces +
        dot (e.face1Tangent pos faces)
            ((1 / (e.edgeVector pos faces).norm) • e.edgeVector pos faces) •
          (1 / dot (e.normal1 pos faces) (e.normal1 pos faces)) • e.normal1 pos faces,
      (-(e.edgeVector pos faces).norm) •
          (1 / dot (e.normal0 pos faces) (e.normal0 pos faces)) • e.normal0 pos faces,
      (-(e.edgeVector pos faces).norm) •
          (1 / dot (e.normal1 pos faces) (e.normal1 pos faces)) • e.normal1 pos faces⟩ :=
  if_neg (by push Not; exact ⟨ha, hb⟩)

/-- **C41**, strengthened. Along every motion of the vertices the rate of change of the bending
angle is given by the reported gradient. The triangles must not be degenerate nor folded onto
each other completely (there the angle jumps from `π` to `-π`). -/
theorem gradient_is_derivative (e : Edge) (faces : ℕ → ℕ → ℕ) (hs : e.Shared faces)
    (p : ℝ → ℕ → V3 ℝ) (d : ℕ → V3 ℝ) (t : ℝ) (hp : ∀ v, HasD (fun s => p s v) (d v) t)
    (h0 : e.normal0 (p t) faces ≠ 0) (h1 : e.normal1 (p t) faces ≠ 0)
    (hf : e.edgeAngle (p t) faces ≠ -Real.pi) :
    HasDerivAt (fun s => e.edgeAngle (p s) faces) ((e.gradient (p t) faces).pair e faces d) t := by
  have n0 := fun s => normal0_eq e (p s) faces hs.s0
  have n1 := fun s => normal1_eq e (p s) faces hs
  have d0 : HasD (fun s => e.edgeVector (p s) faces)
      (d (e.vert0 faces 1) - d (e.vert0 faces 0)) t := (hp _).sub (hp _)
  have hv : e.vert0 faces 0 = faces e.f0 e.s0 := by
    unfold Edge.vert0; rw [add_zero, Nat.mod_eq_of_lt hs.s0]
  have d1 : HasD (fun s => e.face0Tangent (p s) faces)
      (d (e.vert0 faces 2) - d (e.vert0 faces 0)) t := by
    rw [hv]; exact (hp _).sub (hp _)
  have d2 : HasD (fun s => e.face1Tangent (p s) faces)
      (d (e.vert1 faces 2) - d (e.vert0 faces 0)) t := (hp _).sub (hp _)
  have ha : dot (e.normal0 (p t) faces) (e.normal0 (p t) faces) ≠ 0 :=
    fun h => h0 (V3.dot_self_eq_zero.mp h)
  have hb : dot (e.normal1 (p t) faces) (e.normal1 (p t) faces) ≠ 0 :=
    fun h => h1 (V3.dot_self_eq_zero.mp h)
  have hc : 0 < dot (e.normal0 (p t) faces) (e.normal1 (p t) faces) ∨
      dot (e.face1Tangent (p t) faces) (e.normal0 (p t) faces) ≠ 0 := by
    by_contra hcon
    push Not at hcon
    obtain ⟨hx, hy⟩ := hcon
    apply hf
    unfold Edge.edgeAngle atan2
    simp only [hy, mul_zero]
    have hne : dot (e.normal0 (p t) faces) (e.normal1 (p t) faces) ≠ 0 := by
      intro hz
      have := identity_norm (e.edgeVector (p t) faces) (e.face0Tangent (p t) faces)
        (e.face1Tangent (p t) faces)
      rw [← n0 t, ← n1 t, hy, hz] at this
      simp only [ne_eq, OfNat.ofNat_ne_zero, not_false_eq_true, zero_pow, mul_zero, add_zero] at this
      rcases mul_eq_zero.mp this.symm with h | h
      · exact ha h
      · exact hb h
    have hlt : dot (e.normal0 (p t) faces) (e.normal1 (p t) faces) < 0 := lt_of_le_of_ne hx hne
    have : Complex.arg ⟨dot (e.normal0 (p t) faces) (e.normal1 (p t) faces), 0⟩ = Real.pi := by
      rw [Complex.arg_eq_pi_iff]
      exact ⟨hlt, rfl⟩
    rw [this]
  have hfun : (fun s => e.edgeAngle (p s) faces) = fun s =>
      -atan2 ((e.edgeVector (p s) faces).norm * dot (e.face1Tangent (p s) faces)
          (cross (e.edgeVector (p s) faces) (e.face0Tangent (p s) faces)))
        (dot (cross (e.edgeVector (p s) faces) (e.face0Tangent (p s) faces))
          (cross (e.face1Tangent (p s) faces) (e.edgeVector (p s) faces))) := by
    funext s
    rw [← n0 s, ← n1 s]; rfl
  rw [hfun]
  rw [gradient_eq e (p t) faces ha hb]
  rw [n0 t] at ha hc
  rw [n1 t] at hb hc
  refine (hasDerivAt_angle d0 d1 d2 ha hb hc).congr_deriv ?_
  simp only [n0 t, n1 t, Grad.pair]
  generalize dot (cross (e.edgeVector (p t) faces) (e.face0Tangent (p t) faces))
    (cross (e.edgeVector (p t) faces) (e.face0Tangent (p t) faces)) = a
  generalize dot (cross (e.face1Tangent (p t) faces) (e.edgeVector (p t) faces))
    (cross (e.face1Tangent (p t) faces) (e.edgeVector (p t) faces)) = b
  generalize cross (e.edgeVector (p t) faces) (e.face0Tangent (p t) faces) = A
  generalize cross (e.face1Tangent (p t) faces) (e.edgeVector (p t) faces) = B
  simp only [dot, add_x, add_y, add_z, sub_x, sub_y, sub_z, smul_x, smul_y, smul_z]
  ring

/-- **C41.** The gradient of the bending angle yields no net force and no net torque on the four
vertices, for all positions. -/
theorem gradient_equilibrated (e : Edge) (pos : ℕ → V3 ℝ) (faces : ℕ → ℕ → ℕ)
    (hs : e.Shared faces) :
    let g := e.gradient pos faces
    g.d0 + g.d1 + g.d2 + g.d3 = 0 ∧
      cross (pos (e.vert0 faces 0)) g.d0 + cross (pos (e.vert0 faces 1)) g.d1 +
        cross (pos (e.vert0 faces 2)) g.d2 + cross (pos (e.vert1 faces 2)) g.d3 = 0 := by
  intro g
  by_cases hd : dot (e.normal0 pos faces) (e.normal0 pos faces) = 0 ∨
      dot (e.normal1 pos faces) (e.normal1 pos faces) = 0
  · have hg : g = ⟨0, 0, 0, 0⟩ := if_pos hd
    rw [hg]
    constructor <;> ext <;> simp [cross]
  · push Not at hd
    have hg : g = _ := gradient_eq e pos faces hd.1 hd.2
    have n0 := normal0_eq e pos faces hs.s0
    have n1 := normal1_eq e pos faces hs
    have hv : e.vert0 faces 0 = faces e.f0 e.s0 := by
      unfold Edge.vert0; rw [add_zero, Nat.mod_eq_of_lt hs.s0]
    have x1 : pos (e.vert0 faces 1) = pos (e.vert0 faces 0) + e.edgeVector pos faces := by
      unfold Edge.edgeVector; abel
    have x2 : pos (e.vert0 faces 2) = pos (e.vert0 faces 0) + e.face0Tangent pos faces := by
      unfold Edge.face0Tangent; rw [hv]; abel
    have x3 : pos (e.vert1 faces 2) = pos (e.vert0 faces 0) + e.face1Tangent pos faces := by
      unfold Edge.face1Tangent; abel
    have he0 : dot (e.edgeVector pos faces) (e.edgeVector pos faces) ≠ 0 := by
      intro h
      apply hd.1
      rw [n0, V3.dot_self_eq_zero.mp h]
      simp [dot, cross]
    have hLL := V3.norm_mul_norm (e.edgeVector pos faces)
    have hL : (e.edgeVector pos faces).norm ≠ 0 := by
      intro h
      apply he0
      rw [← hLL, h, mul_zero]
    have ha := hd.1
    have hb := hd.2
    rw [n0] at ha
    rw [n1] at hb
    rw [hg, x1, x2, x3]
    simp only [n0, n1]
    generalize pos (e.vert0 faces 0) = x0 at *
    generalize e.edgeVector pos faces = e0 at *
    generalize e.face0Tangent pos faces = e1 at *
    generalize e.face1Tangent pos faces = e2 at *
    generalize e0.norm = L at *
    constructor
    · ext <;> simp only [add_x, add_y, add_z, smul_x, smul_y, smul_z, zero_x, zero_y, zero_z] <;>
        ring
    · -- torque, by the identities `(e0·e1) e0 × A = L² e1 × A` up to multiples of the edge
      generalize hA : dot (cross e0 e1) (cross e0 e1) = a at *
      generalize hB : dot (cross e2 e0) (cross e2 e0) = b at *
      have hdL : dot e1 ((1 / L) • e0) = dot e1 e0 / L := by
        simp only [dot, smul_x, smul_y, smul_z]; ring
      have hdL2 : dot e2 ((1 / L) • e0) = dot e2 e0 / L := by
        simp only [dot, smul_x, smul_y, smul_z]; ring
      rw [hdL, hdL2]
      have t0 : dot e1 e0 • cross e0 (cross e0 e1) - dot e0 e0 • cross e1 (cross e0 e1) =
          (-a) • e0 := by
        rw [← hA]; ext <;> simp [dot, cross] <;> ring
      have t1 : dot e2 e0 • cross e0 (cross e2 e0) - dot e0 e0 • cross e2 (cross e2 e0) =
          b • e0 := by
        rw [← hB]; ext <;> simp [dot, cross] <;> ring
      have main : ∀ u v : V3 ℝ, u = v → u.x = v.x ∧ u.y = v.y ∧ u.z = v.z := by
        rintro u _ rfl; exact ⟨rfl, rfl, rfl⟩
      obtain ⟨t0x, t0y, t0z⟩ := main _ _ t0
      obtain ⟨t1x, t1y, t1z⟩ := main _ _ t1
      rw [← hLL] at t0x t0y t0z t1x t1y t1z
      generalize hp : dot e1 e0 = p at *
      generalize hq : dot e2 e0 = q at *
      ext
      · simp only [cross, add_x, add_y, add_z, sub_x, sub_y, sub_z, smul_x, smul_y, smul_z, zero_x] at *
        field_simp
        linear_combination b * t0x + a * t1x
      · simp only [cross, add_x, add_y, add_z, sub_x, sub_y, sub_z, smul_x, smul_y, smul_z, zero_y] at *
        field_simp
        linear_combination b * t0y + a * t1y
      · simp only [cross, add_x, add_y, add_z, sub_x, sub_y, sub_z, smul_x, smul_y, smul_z, zero_z] at *
        field_simp
        linear_combination b * t0z + a * t1z

end Softy.IEdge
