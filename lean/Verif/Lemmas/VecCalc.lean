import Verif.Model.Vec
import Mathlib.Analysis.SpecialFunctions.Sqrt
import Mathlib.Analysis.Calculus.Deriv.Add
import Mathlib.Analysis.Calculus.Deriv.Mul
import Mathlib.Analysis.Calculus.Deriv.Inv
import Mathlib.Tactic.LinearCombination
import Mathlib.Tactic.FieldSimp

/-!
# Derivatives of curves of vectors
-/

noncomputable section

namespace Softy

open V3

/-- Specification: the curve of vectors `f` has derivative `f'` at time `t`, component by
component. -/
def HasD (f : ℝ → V3 ℝ) (f' : V3 ℝ) (t : ℝ) : Prop :=
  HasDerivAt (fun s => (f s).x) f'.x t ∧ HasDerivAt (fun s => (f s).y) f'.y t ∧
    HasDerivAt (fun s => (f s).z) f'.z t

namespace HasD

variable {f g : ℝ → V3 ℝ} {f' g' : V3 ℝ} {c : ℝ → ℝ} {c' t : ℝ}

theorem const (a : V3 ℝ) : HasD (fun _ => a) 0 t :=
  ⟨hasDerivAt_const _ _, hasDerivAt_const _ _, hasDerivAt_const _ _⟩

theorem add (hf : HasD f f' t) (hg : HasD g g' t) : HasD (fun s => f s + g s) (f' + g') t :=
  ⟨hf.1.fun_add hg.1, hf.2.1.fun_add hg.2.1, hf.2.2.fun_add hg.2.2⟩

theorem sub (hf : HasD f f' t) (hg : HasD g g' t) : HasD (fun s => f s - g s) (f' - g') t :=
  ⟨hf.1.fun_sub hg.1, hf.2.1.fun_sub hg.2.1, hf.2.2.fun_sub hg.2.2⟩

theorem neg (hf : HasD f f' t) : HasD (fun s => -f s) (-f') t :=
  ⟨hf.1.fun_neg, hf.2.1.fun_neg, hf.2.2.fun_neg⟩

theorem smul (hc : HasDerivAt c c' t) (hf : HasD f f' t) :
    HasD (fun s => c s • f s) (c' • f t + c t • f') t :=
  ⟨hc.fun_mul hf.1, hc.fun_mul hf.2.1, hc.fun_mul hf.2.2⟩

theorem congr (hf : HasD f f' t) (h : f' = g') : HasD f g' t := h ▸ hf

theorem dot (hf : HasD f f' t) (hg : HasD g g' t) :
    HasDerivAt (fun s => dot (f s) (g s)) (V3.dot f' (g t) + V3.dot (f t) g') t := by
  have h := ((hf.1.fun_mul hg.1).fun_add (hf.2.1.fun_mul hg.2.1)).fun_add (hf.2.2.fun_mul hg.2.2)
  refine h.congr_deriv ?_
  simp only [V3.dot]
  ring

theorem cross (hf : HasD f f' t) (hg : HasD g g' t) :
    HasD (fun s => cross (f s) (g s)) (V3.cross f' (g t) + V3.cross (f t) g') t := by
  refine ⟨((hf.2.1.fun_mul hg.2.2).fun_sub (hf.2.2.fun_mul hg.2.1)).congr_deriv ?_,
    ((hf.2.2.fun_mul hg.1).fun_sub (hf.1.fun_mul hg.2.2)).congr_deriv ?_,
    ((hf.1.fun_mul hg.2.1).fun_sub (hf.2.1.fun_mul hg.1)).congr_deriv ?_⟩ <;>
  · simp only [V3.cross, add_x, add_y, add_z]
    ring

theorem norm (hf : HasD f f' t) (h : V3.dot (f t) (f t) ≠ 0) :
    HasDerivAt (fun s => (f s).norm) (V3.dot (f t) f' / (f t).norm) t := by
  have h1 := (hf.dot hf).sqrt h
  refine h1.congr_deriv ?_
  have : V3.dot f' (f t) = V3.dot (f t) f' := by simp only [V3.dot]; ring
  rw [this]
  simp only [V3.norm]
  ring

/-- Motion along a straight line. -/
theorem line (a d : V3 ℝ) : HasD (fun s => a + s • d) d t := by
  have h : ∀ p q : ℝ, HasDerivAt (fun s => p + s * q) q t := fun p q => by
    simpa using ((hasDerivAt_id t).mul_const q).const_add p
  exact ⟨h _ _, h _ _, h _ _⟩

theorem congr_of_eventuallyEq (hf : HasD f f' t) (h : ∀ᶠ s in nhds t, g s = f s) :
    HasD g f' t :=
  ⟨hf.1.congr_of_eventuallyEq (h.mono fun s hs => by simp only [hs]),
    hf.2.1.congr_of_eventuallyEq (h.mono fun s hs => by simp only [hs]),
    hf.2.2.congr_of_eventuallyEq (h.mono fun s hs => by simp only [hs])⟩

end HasD

theorem V3.norm_mul_norm (a : V3 ℝ) : a.norm * a.norm = dot a a := by
  unfold V3.norm
  exact Real.mul_self_sqrt (by unfold V3.dot; nlinarith [sq_nonneg a.x, sq_nonneg a.y, sq_nonneg a.z])

theorem V3.norm_nonneg (a : V3 ℝ) : 0 ≤ a.norm := Real.sqrt_nonneg _

theorem V3.dot_self_nonneg (a : V3 ℝ) : 0 ≤ dot a a := by
  unfold V3.dot; nlinarith [sq_nonneg a.x, sq_nonneg a.y, sq_nonneg a.z]

theorem V3.dot_self_eq_zero {a : V3 ℝ} : dot a a = 0 ↔ a = 0 := by
  constructor
  · intro h
    have hx : a.x * a.x = 0 := by
      unfold V3.dot at h; nlinarith [sq_nonneg a.x, sq_nonneg a.y, sq_nonneg a.z]
    have hy : a.y * a.y = 0 := by
      unfold V3.dot at h; nlinarith [sq_nonneg a.x, sq_nonneg a.y, sq_nonneg a.z]
    have hz : a.z * a.z = 0 := by
      unfold V3.dot at h; nlinarith [sq_nonneg a.x, sq_nonneg a.y, sq_nonneg a.z]
    ext
    · simpa using hx
    · simpa using hy
    · simpa using hz
  · rintro rfl
    simp [V3.dot]

end Softy
