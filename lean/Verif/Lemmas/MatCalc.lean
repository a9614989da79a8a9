import Verif.Lemmas.VecCalc
import Verif.Model.TetElasticity
import Mathlib.Analysis.SpecialFunctions.Log.Deriv

/-!
# Derivatives of curves of matrices
-/

noncomputable section

namespace Softy

open V3

/-- The sum of the products of the entries. -/
def M3.frob {K : Type*} [CommRing K] (a b : M3 K) : K :=
  dot a.r0 b.r0 + dot a.r1 b.r1 + dot a.r2 b.r2

/-- The curve of matrices `f` has derivative `f'` at time `t`. -/
def HasDM (f : ℝ → M3 ℝ) (f' : M3 ℝ) (t : ℝ) : Prop :=
  HasD (fun s => (f s).r0) f'.r0 t ∧ HasD (fun s => (f s).r1) f'.r1 t ∧
    HasD (fun s => (f s).r2) f'.r2 t

namespace HasDM
variable {f g : ℝ → M3 ℝ} {f' g' : M3 ℝ} {c : ℝ → ℝ} {c' t : ℝ}

theorem const (a : M3 ℝ) : HasDM (fun _ => a) 0 t := ⟨HasD.const _, HasD.const _, HasD.const _⟩

theorem add (hf : HasDM f f' t) (hg : HasDM g g' t) : HasDM (fun s => f s + g s) (f' + g') t :=
  ⟨hf.1.add hg.1, hf.2.1.add hg.2.1, hf.2.2.add hg.2.2⟩

theorem smul (hc : HasDerivAt c c' t) (hf : HasDM f f' t) :
    HasDM (fun s => c s • f s) (c' • f t + c t • f') t :=
  ⟨hc |> (HasD.smul · hf.1), hc |> (HasD.smul · hf.2.1), hc |> (HasD.smul · hf.2.2)⟩

theorem _root_.HasDerivAt.smul' (hc : HasDerivAt c c' t) (hf : HasDM f f' t) :
    HasDM (fun s => c s • f s) (c' • f t + c t • f') t := smul hc hf

theorem const_smul (k : ℝ) (hf : HasDM f f' t) : HasDM (fun s => k • f s) (k • f') t := by
  have h := smul (hasDerivAt_const t k) hf
  have e : (0 : ℝ) • f t + k • f' = k • f' := by ext <;> simp
  rwa [e] at h

theorem congr (hf : HasDM f f' t) (h : f' = g') : HasDM f g' t := h ▸ hf

theorem mulLeft (a : M3 ℝ) (hf : HasDM f f' t) : HasDM (fun s => a * f s) (a * f') t := by
  have key : ∀ v : V3 ℝ, HasD (fun s => M3.mulVec (f s).transpose v) (M3.mulVec f'.transpose v) t := by
    intro v
    obtain ⟨⟨a0, a1, a2⟩, ⟨b0, b1, b2⟩, ⟨c0, c1, c2⟩⟩ := hf
    refine ⟨?_, ?_, ?_⟩
    · exact ((a0.mul_const v.x).fun_add (b0.mul_const v.y)).fun_add (c0.mul_const v.z)
    · exact ((a1.mul_const v.x).fun_add (b1.mul_const v.y)).fun_add (c1.mul_const v.z)
    · exact ((a2.mul_const v.x).fun_add (b2.mul_const v.y)).fun_add (c2.mul_const v.z)
  exact ⟨key _, key _, key _⟩

theorem frob (hf : HasDM f f' t) (hg : HasDM g g' t) :
    HasDerivAt (fun s => M3.frob (f s) (g s)) (M3.frob f' (g t) + M3.frob (f t) g') t := by
  have h := ((hf.1.dot hg.1).fun_add (hf.2.1.dot hg.2.1)).fun_add (hf.2.2.dot hg.2.2)
  refine h.congr_deriv ?_
  simp only [M3.frob]
  ring

theorem normSq (hf : HasDM f f' t) :
    HasDerivAt (fun s => (f s).normSq) (2 * M3.frob (f t) f') t := by
  refine (hf.frob hf).congr_deriv ?_
  simp only [M3.frob, V3.dot]
  ring

theorem det (hf : HasDM f f' t) :
    HasDerivAt (fun s => (f s).det) (M3.frob (f t).cof f') t := by
  refine (hf.1.dot (hf.2.1.cross hf.2.2)).congr_deriv ?_
  simp only [M3.frob, M3.cof, V3.dot, V3.cross, add_x, add_y, add_z]
  ring

theorem cof (hf : HasDM f f' t) :
    HasDM (fun s => (f s).cof)
      ⟨V3.cross f'.r1 (f t).r2 + V3.cross (f t).r1 f'.r2,
        V3.cross f'.r2 (f t).r0 + V3.cross (f t).r2 f'.r0,
        V3.cross f'.r0 (f t).r1 + V3.cross (f t).r0 f'.r1⟩ t :=
  ⟨hf.2.1.cross hf.2.2, hf.2.2.cross hf.1, hf.1.cross hf.2.1⟩

theorem congr_of_eventuallyEq (hf : HasDM f f' t) (h : ∀ᶠ s in nhds t, g s = f s) :
    HasDM g f' t :=
  ⟨hf.1.congr_of_eventuallyEq (h.mono fun s hs => by simp only [hs]),
    hf.2.1.congr_of_eventuallyEq (h.mono fun s hs => by simp only [hs]),
    hf.2.2.congr_of_eventuallyEq (h.mono fun s hs => by simp only [hs])⟩

end HasDM

namespace M3

theorem frob_add_right (a b c : M3 ℝ) : frob a (b + c) = frob a b + frob a c := by
  simp only [frob, V3.dot, add_r0, add_r1, add_r2, add_x, add_y, add_z]; ring

theorem frob_smul_right (k : ℝ) (a b : M3 ℝ) : frob a (k • b) = k * frob a b := by
  simp only [frob, V3.dot, smul_r0, smul_r1, smul_r2, smul_x, smul_y, smul_z]; ring

theorem frob_comm (a b : M3 ℝ) : frob a b = frob b a := by
  simp only [frob, V3.dot]; ring

/-- Moving a factor to the other side. -/
theorem frob_mul (a b c : M3 ℝ) : frob (a * b) c = frob b (a.transpose * c) := by
  simp only [frob, mul_def, mul, mulVec, transpose, V3.dot]; ring

theorem det_mul (a b : M3 ℝ) : (a * b).det = a.det * b.det := by
  simp only [det, mul_def, mul, mulVec, transpose, V3.dot, V3.cross]; ring

theorem det_transpose (a : M3 ℝ) : a.transpose.det = a.det := by
  simp only [det, transpose, V3.dot, V3.cross]; ring

theorem normSq_eq_frob (a : M3 ℝ) : a.normSq = frob a a := rfl

theorem mul_assoc' (a b c : M3 ℝ) : a * b * c = a * (b * c) := by
  ext <;> simp [mul, mulVec, transpose, V3.dot] <;> ring

theorem cof_mul (a b : M3 ℝ) : (a * b).cof = a.cof * b.cof := by
  ext <;> simp [mul, mulVec, transpose, V3.dot, cof, V3.cross] <;> ring

theorem mul_smul' (k : ℝ) (a b : M3 ℝ) : a * (k • b) = k • (a * b) := by
  ext <;> simp [mul, mulVec, transpose, V3.dot] <;> ring

theorem smul_smul' (k l : ℝ) (a : M3 ℝ) : k • l • a = (k * l) • a := by
  ext <;> simp <;> ring

theorem mul_add' (a b c : M3 ℝ) : a * (b + c) = a * b + a * c := by
  ext <;> simp [mul, mulVec, transpose, V3.dot] <;> ring

end M3

end Softy
