import Verif.Props.TriNh

/-!
# C36: second derivatives of the neo-Hookean triangle
-/

noncomputable section

namespace Softy.Tri

open V3

/-! ## Lemmas -/

/-- The numerator of `C⁻¹ F`. -/
def numer (F : M23) : M23 :=
  ⟨dot F.r1 F.r1 • F.r0 - dot F.r0 F.r1 • F.r1, dot F.r0 F.r0 • F.r1 - dot F.r0 F.r1 • F.r0⟩

/-- The derivative of the numerator. -/
def numer' (F D : M23) : M23 :=
  ⟨(2 * dot F.r1 D.r1) • F.r0 + dot F.r1 F.r1 • D.r0
      - ((dot D.r0 F.r1 + dot F.r0 D.r1) • F.r1 + dot F.r0 F.r1 • D.r1),
    (2 * dot F.r0 D.r0) • F.r1 + dot F.r0 F.r0 • D.r1
      - ((dot D.r0 F.r1 + dot F.r0 D.r1) • F.r0 + dot F.r0 F.r1 • D.r0)⟩

theorem hasD2_numer {f : ℝ → M23} {f' : M23} {t : ℝ} (h : HasD2 f f' t) :
    HasD2 (fun s => numer (f s)) (numer' (f t) f') t := by
  have h00 := h.1.dot h.1
  have h11 := h.2.dot h.2
  have h01 := h.1.dot h.2
  constructor
  · refine ((HasD.smul h11 h.1).sub (HasD.smul h01 h.2)).congr ?_
    ext <;> simp [numer', V3.dot] <;> left <;> ring
  · refine ((HasD.smul h00 h.2).sub (HasD.smul h01 h.1)).congr ?_
    ext <;> simp [numer', V3.dot] <;> left <;> ring

/-- The product rule for `C⁻¹ F`, without denominators. -/
theorem numer_key (F D : M23) :
    (F.mulT F).det • numer' F D - (2 * (dot (numer F).r0 D.r0 + dot (numer F).r1 D.r1)) • numer F =
      (⟨(dot F.r1 F.r1 * dot (V3.cross F.r0 F.r1) D.r0
            - dot F.r0 F.r1 * dot (V3.cross F.r0 F.r1) D.r1) • V3.cross F.r0 F.r1
          - (dot (numer F).r0 D.r0 • (numer F).r0 + dot (numer F).r0 D.r1 • (numer F).r1),
        (dot F.r0 F.r0 * dot (V3.cross F.r0 F.r1) D.r1
            - dot F.r0 F.r1 * dot (V3.cross F.r0 F.r1) D.r0) • V3.cross F.r0 F.r1
          - (dot (numer F).r1 D.r0 • (numer F).r0 + dot (numer F).r1 D.r1 • (numer F).r1)⟩ : M23) := by
  ext <;> simp [numer, numer', V3.dot, V3.cross, M23.mulT, M22.det] <;> ring

theorem unit_mul (v : V3 ℝ) (h : dot v v ≠ 0) (a : V3 ℝ) :
    dot (unit v) a • unit v = (dot v v)⁻¹ • (dot v a • v) := by
  have hn : v.norm ≠ 0 := by
    intro h0
    have := V3.norm_mul_norm v
    rw [h0] at this
    simp at this
    exact h this.symm
  have : (dot v v)⁻¹ = v.norm⁻¹ * v.norm⁻¹ := by rw [← V3.norm_mul_norm v, mul_inv]
  rw [this]
  ext <;> simp [unit, V3.dot] <;> ring

/-- The derivative of `C⁻¹ F` in the direction `D`, as it appears in the code. -/
def dG (F D : M23) : M23 :=
  let G := (F.mulT F).inv.mul23 F
  let n := unit (V3.cross F.r0 F.r1)
  outer23 ((F.mulT F).inv.transpose.mulVec ⟨dot n D.r0, dot n D.r1⟩) n
    - (D.mulT G).transpose.mul23 G

theorem hasD2_G {f : ℝ → M23} {f' : M23} {t : ℝ} (h : HasD2 f f' t)
    (hu : 0 < ((f t).mulT (f t)).det) :
    HasD2 (fun s => ((f s).mulT (f s)).inv.mul23 (f s)) (dG (f t) f') t := by
  have e : (fun s => ((f s).mulT (f s)).inv.mul23 (f s)) =
      fun s => ((f s).mulT (f s)).det⁻¹ • numer (f s) := by
    funext s; exact inv_mul23 (f s)
  rw [e]
  refine (HasD2.smul ((hasDerivAt_det h).fun_inv hu.ne') (hasD2_numer h)).congr ?_
  have hdet : ((f t).mulT (f t)).det =
      dot (V3.cross (f t).r0 (f t).r1) (V3.cross (f t).r0 (f t).r1) := by
    simp only [M23.mulT, M22.det, V3.dot, V3.cross]; ring
  have key := numer_key (f t) f'
  have hn := unit_mul (V3.cross (f t).r0 (f t).r1) (by rw [← hdet]; exact hu.ne')
  simp only [← hdet] at hn
  have hG := inv_mul23 (f t)
  change _ = ((f t).mulT (f t)).det⁻¹ • numer (f t) at hG
  simp only [dG, hG]
  generalize unit (V3.cross (f t).r0 (f t).r1) = n at *
  have hout : outer23 (((f t).mulT (f t)).inv.transpose.mulVec ⟨dot n f'.r0, dot n f'.r1⟩) n =
      ((f t).mulT (f t)).det⁻¹ •
      (⟨dot (f t).r1 (f t).r1 • (dot n f'.r0 • n) - dot (f t).r0 (f t).r1 • (dot n f'.r1 • n),
        dot (f t).r0 (f t).r0 • (dot n f'.r1 • n) - dot (f t).r0 (f t).r1 • (dot n f'.r0 • n)⟩
        : M23) := by
    have h10 : dot (f t).r1 (f t).r0 = dot (f t).r0 (f t).r1 := by simp only [V3.dot]; ring
    simp only [M22.inv, M22.mulVec, outer23]
    generalize ((f t).mulT (f t)).det⁻¹ = k
    ext <;> simp [M22.transpose, M23.mulT, V2.dot, h10] <;> ring
  rw [hout, hn, hn]
  have hJ := hu.ne'
  have e0 : dot (dot (f t).r1 (f t).r1 • (f t).r0 - dot (f t).r0 (f t).r1 • (f t).r1) f'.r0
        + dot (dot (f t).r0 (f t).r0 • (f t).r1 - dot (f t).r0 (f t).r1 • (f t).r0) f'.r1 =
      dot (numer (f t)).r0 f'.r0 + dot (numer (f t)).r1 f'.r1 := rfl
  rw [e0]
  have hmt : ((f'.mulT (((f t).mulT (f t)).det⁻¹ • numer (f t))).transpose.mul23
      (((f t).mulT (f t)).det⁻¹ • numer (f t))) =
      (((f t).mulT (f t)).det⁻¹ * ((f t).mulT (f t)).det⁻¹) •
        (⟨dot (numer (f t)).r0 f'.r0 • (numer (f t)).r0 + dot (numer (f t)).r0 f'.r1 • (numer (f t)).r1,
          dot (numer (f t)).r1 f'.r0 • (numer (f t)).r0 + dot (numer (f t)).r1 f'.r1 • (numer (f t)).r1⟩
          : M23) := by
    generalize ((f t).mulT (f t)).det⁻¹ = k
    generalize numer (f t) = N
    ext <;> simp [M22.transpose, M23.mulT, M22.mul23, V3.dot] <;> ring
  rw [hmt]
  generalize dot (V3.cross (f t).r0 (f t).r1) f'.r0 = p0 at *
  generalize dot (V3.cross (f t).r0 (f t).r1) f'.r1 = p1 at *
  generalize V3.cross (f t).r0 (f t).r1 = c at *
  generalize dot (numer (f t)).r0 f'.r0 = q00 at *
  generalize dot (numer (f t)).r0 f'.r1 = q01 at *
  generalize dot (numer (f t)).r1 f'.r0 = q10 at *
  generalize dot (numer (f t)).r1 f'.r1 = q11 at *
  generalize dot (f t).r0 (f t).r0 = g00 at *
  generalize dot (f t).r0 (f t).r1 = g01 at *
  generalize dot (f t).r1 (f t).r1 = g11 at *
  generalize numer (f t) = N at *
  generalize numer' (f t) f' = N' at *
  generalize ((f t).mulT (f t)).det = J at *
  have k0x := congrArg (fun m => m.r0.x) key
  have k0y := congrArg (fun m => m.r0.y) key
  have k0z := congrArg (fun m => m.r0.z) key
  have k1x := congrArg (fun m => m.r1.x) key
  have k1y := congrArg (fun m => m.r1.y) key
  have k1z := congrArg (fun m => m.r1.z) key
  simp at k0x k0y k0z k1x k1y k1z
  ext
  · simp; field_simp; linear_combination k0x
  · simp; field_simp; linear_combination k0y
  · simp; field_simp; linear_combination k0z
  · simp; field_simp; linear_combination k1x
  · simp; field_simp; linear_combination k1y
  · simp; field_simp; linear_combination k1z

theorem hasD2_matrix (r : Ref) (x : ℝ → Verts) (d : Verts) (t : ℝ) (hx : Moves x d t)
    (hu : 0 < (r.at (x t)).C.det) :
    HasD2 (fun s => matrix (r.at (x s))) (product (r.at (x t)) d) t := by
  have hF := hx.F r
  have hG := hasD2_G hF hu
  have hL := (hasDerivAt_det hF).log (show ((r.at (x t)).F.mulT (r.at (x t)).F).det ≠ 0 from hu.ne')
  have hS := (hF.const_smul r.mu).add
    (HasD2.smul (((hL.const_mul 0.5).const_mul r.lambda).sub_const r.mu) hG)
  have hM := (HasD2.mul23 r.DXinv.transpose hS).const_smul r.area
  refine (hM.congr_of_eventuallyEq (Filter.Eventually.of_forall fun s => rfl)).congr ?_
  have hp : product (r.at (x t)) d = r.area • r.DXinv.transpose.mul23
      (r.mu • (r.at (x t)).dF d
        + (r.mu - r.lambda * 0.5 * Real.log (r.at (x t)).C.det) •
          (((r.at (x t)).dF d).mulT ((r.at (x t)).C.inv.mul23 (r.at (x t)).F)).transpose.mul23
            ((r.at (x t)).C.inv.mul23 (r.at (x t)).F)
        + ((((r.at (x t)).dF d).mulT ((r.at (x t)).C.inv.mul23 (r.at (x t)).F)).trace * r.lambda) •
          (r.at (x t)).C.inv.mul23 (r.at (x t)).F
        - (r.mu - r.lambda * 0.5 * Real.log (r.at (x t)).C.det) •
          outer23 ((r.at (x t)).C.inv.transpose.mulVec
            ⟨dot (unit (V3.cross (r.at (x t)).F.r0 (r.at (x t)).F.r1)) ((r.at (x t)).dF d).r0,
             dot (unit (V3.cross (r.at (x t)).F.r0 (r.at (x t)).F.r1)) ((r.at (x t)).dF d).r1⟩)
            (unit (V3.cross (r.at (x t)).F.r0 (r.at (x t)).F.r1))) := by
    simp only [product, hu, if_true]
    rfl
  rw [hp]
  beta_reduce
  have e3 : (r.at (x t)).C = (r.at (x t)).F.mulT (r.at (x t)).F := rfl
  rw [e3] at hu ⊢
  have ht : (((r.at (x t)).dF d).mulT
      (((r.at (x t)).F.mulT (r.at (x t)).F).inv.mul23 (r.at (x t)).F)).trace =
      ((r.at (x t)).F.mulT (r.at (x t)).F).det⁻¹ *
        (dot (dot (r.at (x t)).F.r1 (r.at (x t)).F.r1 • (r.at (x t)).F.r0
            - dot (r.at (x t)).F.r0 (r.at (x t)).F.r1 • (r.at (x t)).F.r1) ((r.at (x t)).dF d).r0
        + dot (dot (r.at (x t)).F.r0 (r.at (x t)).F.r0 • (r.at (x t)).F.r1
            - dot (r.at (x t)).F.r0 (r.at (x t)).F.r1 • (r.at (x t)).F.r0) ((r.at (x t)).dF d).r1) := by
    rw [inv_mul23]
    generalize ((r.at (x t)).F.mulT (r.at (x t)).F).det⁻¹ = k
    simp [M22.trace, M23.mulT, V3.dot]
    ring
  rw [ht]
  simp only [dG]
  congr 2
  generalize dot _ ((r.at (x t)).dF d).r0 + dot _ ((r.at (x t)).dF d).r1 = q
  generalize M22.mul23 (M22.transpose _) _ = Q
  generalize outer23 _ _ = O
  generalize M22.mul23 _ (r.at (x t)).F = G
  generalize (r.at (x t)).dF d = D
  have hJ := hu.ne'
  generalize ((r.at (x t)).F.mulT (r.at (x t)).F).det = J at *
  ext <;> simp <;> field_simp <;> ring

/-! ## Hessian products -/

/-- C36. The product function returns the derivative of the gradient along every differentiable
motion of a triangle that is not degenerate. -/
theorem tri_product (r : Ref) (x : ℝ → Verts) (d : Verts) (t : ℝ) (hx : Moves x d t)
    (hu : Proper r (x t)) (i : Fin 3) :
    HasD (fun s => gradient (r.at (x s)) i) (spread (product (r.at (x t)) d) i) t := by
  refine HasD.congr_of_eventuallyEq
    (HasD2.spread (hasD2_matrix r x d t hx ((proper_iff r _).1 hu)) i) ?_
  exact (hx.proper r hu).mono fun s hs => by
    simp only [gradient_eq ((proper_iff r _).1 hs)]

/-! ## Hessian -/

/-- The matrix computed for component `row` of vertex `i`. -/
def hrow (e : Elem) (i row : Fin 3) : M23 :=
  e.area • e.DXinv.transpose.mul23
    (dP e (e.C.inv.mul23 e.F) e.C.inv.transpose (unit (V3.cross e.F.r0 e.F.r1))
      (e.mu - e.lambda * 0.5 * Real.log e.C.det) row i)

theorem hessian_eq {e : Elem} (h : 0 < e.C.det) : hessian e = fill (hrow e) := by
  simp only [hessian, h, if_true]
  rfl

theorem product_eq {e : Elem} (h : 0 < e.C.det) (d : Verts) : product e d =
    (((d 0).x • hrow e 0 0 + (d 0).y • hrow e 0 1 + (d 0).z • hrow e 0 2)
      + ((d 1).x • hrow e 1 0 + (d 1).y • hrow e 1 1 + (d 1).z • hrow e 1 2))
      + ((d 2).x • hrow e 2 0 + (d 2).y • hrow e 2 1 + (d 2).z • hrow e 2 2) := by
  simp only [product, h, if_true, hrow, dP, dFrow, Elem.dF]
  generalize e.C.inv.mul23 e.F = G
  generalize unit (V3.cross e.F.r0 e.F.r1) = n
  generalize e.C.inv = K
  generalize e.mu - e.lambda * 0.5 * Real.log e.C.det = al
  ext <;>
    simp [M22.mul23, M22.transpose, M23.mulT, M22.trace, M22.mulVec, outer22, outer23, M23.col,
      axis, V3.get, V3.dot, V2.dot, Tri.shape] <;> ring

theorem hrow_two (e : Elem) (row : Fin 3) :
    hrow e 2 row = (-1 : ℝ) • hrow e 0 row - hrow e 1 row := by
  simp only [hrow, dP, dFrow]
  generalize e.C.inv.mul23 e.F = G
  generalize unit (V3.cross e.F.r0 e.F.r1) = n
  generalize e.C.inv = K
  generalize e.mu - e.lambda * 0.5 * Real.log e.C.det = al
  fin_cases row <;>
  · ext <;>
    simp [M22.mul23, M22.transpose, M22.trace, M22.mulVec, outer22, outer23, M23.col,
      axis, V3.get, V2.dot] <;> ring

set_option maxHeartbeats 1000000 in
theorem hrow_symm (e : Elem) (i j : Fin 2) (row col : Fin 3) :
    ((hrow e i.castSucc row).row j).get col = ((hrow e j.castSucc col).row i).get row := by
  simp only [hrow, dP, dFrow]
  generalize e.C.inv.mul23 e.F = G
  generalize unit (V3.cross e.F.r0 e.F.r1) = n
  have hK : e.C.inv.r0.y = e.C.inv.r1.x := by
    simp only [M22.inv, Elem.C, M23.mulT, V3.dot]; ring
  generalize e.C.inv = K at *
  generalize e.mu - e.lambda * 0.5 * Real.log e.C.det = al
  fin_cases i <;> fin_cases j <;> fin_cases row <;> fin_cases col <;>
    simp [M22.mul23, M22.transpose, M22.trace, M22.mulVec, outer22, outer23, M23.col,
      axis, V3.get, V2.dot, M23.row, hK] <;> first | done | (left; ring) | ring

/-- The full symmetric Hessian. -/
def ext (e : Elem) (i j row col : Fin 3) : ℝ := (spread (hrow e i row) j).get col

theorem ext_symm (e : Elem) (i j row col : Fin 3) : ext e i j row col = ext e j i col row := by
  have hs := hrow_symm e
  have h00 := hs 0 0 row col
  have h01 := hs 0 1 row col
  have h10 := hs 1 0 row col
  have h11 := hs 1 1 row col
  have hg : ∀ (a : V3 ℝ) c, (-a).get c = -a.get c := by
    intro a c; fin_cases c <;> simp [V3.get]
  have hg2 : ∀ (a b : V3 ℝ) c, (a - b).get c = a.get c - b.get c := by
    intro a b c; fin_cases c <;> simp [V3.get]
  have hg3 : ∀ (a : V3 ℝ) c, ((-1 : ℝ) • a).get c = -a.get c := by
    intro a c; fin_cases c <;> simp [V3.get]
  simp only [M23.row, Fin.castSucc_zero, Fin.castSucc_one, Matrix.cons_val_zero,
    Matrix.cons_val_one] at h00 h01 h10 h11
  simp only [ext, spread]
  fin_cases i <;> fin_cases j <;>
    simp [hrow_two, hg, hg2, hg3, h00, h01, h10, h11] <;> ring

theorem symm_hessian {e : Elem} (h : 0 < e.C.det) (n k row col : Fin 3) :
    symm (hessian e) n k row col = ext e n k row col := by
  rw [hessian_eq h]
  have hlow : ∀ n k row col : Fin 3, k < n ∨ (k = n ∧ col ≤ row) →
      fill (hrow e) n k row col = ext e n k row col := by
    intro n k row col hc
    have hg : ∀ (a : V3 ℝ) c, (-a).get c = -a.get c := by
      intro a c; fin_cases c <;> simp [V3.get]
    have hg2 : ∀ (a b : V3 ℝ) c, (a - b).get c = a.get c - b.get c := by
      intro a b c; fin_cases c <;> simp [V3.get]
    unfold fill ext
    by_cases hk : k.val < 2
    · have : n > k ∨ n = k ∧ row ≥ col := by
        rcases hc with h1 | ⟨h1, h2⟩
        · exact Or.inl h1
        · exact Or.inr ⟨h1.symm, h2⟩
      simp only [hk, dif_pos, this, if_true]
      congr 1
      have : k = 0 ∨ k = 1 := by omega
      rcases this with rfl | rfl <;> rfl
    · have hk2 : k = 2 := by omega
      subst hk2
      have hn : n = 2 := by
        rcases hc with h1 | ⟨h1, _⟩
        · omega
        · exact h1.symm
      subst hn
      simp only [hk, dif_neg, not_false_iff, if_true]
      simp [spread, M23.row, hg, hg2]
  unfold symm
  split_ifs with hc
  · exact hlow _ _ _ _ hc
  · rw [hlow, ext_symm]
    rw [not_or, not_and_or] at hc
    rcases lt_trichotomy k n with h1 | h1 | h1
    · exact absurd h1 hc.1
    · rcases hc.2 with h2 | h2
      · exact absurd h1 h2
      · exact Or.inr ⟨h1.symm, (not_le.1 h2).le⟩
    · exact Or.inl h1

/-- C36. The Hessian is the derivative of the gradient: for every differentiable motion of a
triangle that is not degenerate, the gradient of each vertex changes at the rate of the product of
the Hessian, of which only the entries on and below the diagonal are used, with the velocities. -/
theorem tri_hessian (r : Ref) (x : ℝ → Verts) (d : Verts) (t : ℝ) (hx : Moves x d t)
    (hu : Proper r (x t)) (i : Fin 3) :
    HasD (fun s => gradient (r.at (x s)) i) (symmMul (hessian (r.at (x t))) d i) t := by
  refine (tri_product r x d t hx hu i).congr ?_
  have h := (proper_iff r _).1 hu
  have hrow' : ∀ row, ∑ k, ∑ col, symm (hessian (r.at (x t))) i k row col * (d k).get col =
      (spread (product (r.at (x t)) d) i).get row := by
    intro row
    simp only [symm_hessian h]
    simp only [ext_symm _ i, product_eq h]
    generalize (r.at (x t)) = e
    simp only [ext, Fin.sum_univ_three]
    generalize hrow e = H
    fin_cases i <;> fin_cases row <;> simp [spread, V3.get] <;> ring
  ext
  · simp only [symmMul, hrow']; rfl
  · simp only [symmMul, hrow']; rfl
  · simp only [symmMul, hrow']; rfl

end Softy.Tri
