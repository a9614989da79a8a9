import Verif.Props.TetNh

/-!
# C34: second derivatives of the neo-Hookean tetrahedron
-/

noncomputable section

namespace Softy.Tet

open V3 M3

/-! ## Lemmas -/

/-- The derivative of the inverse transpose. -/
theorem hasDM_inverseTranspose {f : ℝ → M3 ℝ} {f' : M3 ℝ} {t : ℝ} (hf : HasDM f f' t)
    (h : (f t).det ≠ 0) :
    HasDM (fun s => (f s).det⁻¹ • (f s).cof)
      ((-1 : ℝ) • (((f t).det⁻¹ • (f t).cof) * (f'.transpose * ((f t).det⁻¹ • (f t).cof)))) t := by
  refine ((hf.det.fun_inv h).smul' hf.cof).congr ?_
  have key : ∀ F D : M3 ℝ, F.det • (⟨V3.cross D.r1 F.r2 + V3.cross F.r1 D.r2,
        V3.cross D.r2 F.r0 + V3.cross F.r2 D.r0,
        V3.cross D.r0 F.r1 + V3.cross F.r0 D.r1⟩ : M3 ℝ)
      = frob F.cof D • F.cof + (-1 : ℝ) • (F.cof * (D.transpose * F.cof)) := by
    intro F D
    ext <;> simp [mul, mulVec, transpose, V3.dot, cof, V3.cross, det, frob] <;> ring
  have k := key (f t) f'
  set C := (f t).cof
  set J := (f t).det
  set D : M3 ℝ := ⟨V3.cross f'.r1 (f t).r2 + V3.cross (f t).r1 f'.r2,
        V3.cross f'.r2 (f t).r0 + V3.cross (f t).r2 f'.r0,
        V3.cross f'.r0 (f t).r1 + V3.cross (f t).r0 f'.r1⟩
  have k2 : D = J⁻¹ • (frob C f' • C + (-1 : ℝ) • (C * (f'.transpose * C))) := by
    rw [← k, smul_smul', inv_mul_cancel₀ h]
    ext <;> simp
  rw [k2]
  generalize frob C f' = q
  have k3 : (J⁻¹ • C) * (f'.transpose * (J⁻¹ • C)) = (J⁻¹ * J⁻¹) • (C * (f'.transpose * C)) := by
    ext <;> simp [mul, mulVec, transpose, V3.dot] <;> ring
  rw [k3]
  generalize C * (f'.transpose * C) = M
  ext <;> simp <;> field_simp <;> ring

theorem nhProduct_eq {e : Elem} (h : 0 < e.F.det) (d : Verts) :
    nhProduct e d = e.volume • (e.DXinv.transpose *
      (e.mu • e.dF d
        + (e.mu - e.lambda * Real.log e.F.det) • ((e.F.det⁻¹ • e.F.cof) *
            ((e.dF d).transpose * (e.F.det⁻¹ • e.F.cof)))
        + (((e.dF d).transpose * (e.F.det⁻¹ • e.F.cof)).trace * e.lambda)
            • (e.F.det⁻¹ • e.F.cof))) := by
  simp only [nhProduct, h, if_true, inverseTranspose, h.ne', if_false]

theorem trace_transpose_mul (a b : M3 ℝ) : (a.transpose * b).trace = frob a b := by
  simp only [trace, frob, mul_def, mul, mulVec, transpose, V3.dot]; ring

theorem hasDM_nhMatrix (r : Ref) (x : ℝ → Verts) (d : Verts) (t : ℝ) (hx : Moves x d t)
    (h : 0 < (r.at (x t)).F.det) :
    HasDM (fun s => nhMatrix (r.at (x s))) (nhProduct (r.at (x t)) d) t := by
  have hF := hx.F r
  have hG := hasDM_inverseTranspose hF h.ne'
  have hL := hF.det.log h.ne'
  have hS := (hF.const_smul r.mu).add (((hL.const_mul r.lambda).sub_const r.mu).smul' hG)
  have hM := (hS.mulLeft r.DXinv.transpose).const_smul r.volume
  refine (hM.congr_of_eventuallyEq (Filter.Eventually.of_forall fun s => rfl)).congr ?_
  rw [nhProduct_eq h, trace_transpose_mul]
  simp only [frob_smul_right]
  rw [frob_comm ((r.at (x t)).dF d)]
  have e1 : (r.at (x t)).volume = r.volume := rfl
  have e2 : (r.at (x t)).DXinv = r.DXinv := rfl
  have e3 : (r.at (x t)).mu = r.mu := rfl
  have e4 : (r.at (x t)).lambda = r.lambda := rfl
  rw [e1, e2, e3, e4]
  congr 2
  generalize (r.at (x t)).F.det⁻¹ • (r.at (x t)).F.cof = G
  generalize frob (r.at (x t)).F.cof ((r.at (x t)).dF d) = q
  generalize G * (((r.at (x t)).dF d).transpose * G) = Q
  generalize Real.log (r.at (x t)).F.det = l
  ext <;> simp <;> field_simp <;> ring

theorem HasDM.spread {f : ℝ → M3 ℝ} {f' : M3 ℝ} {t : ℝ} (h : HasDM f f' t) (i : Fin 4) :
    HasD (fun s => spread (f s) i) (Tet.spread f' i) t := by
  fin_cases i
  · exact h.1
  · exact h.2.1
  · exact h.2.2
  · exact (h.1.neg.sub h.2.1).sub h.2.2

/-! ## Hessian products -/

/-- C34. The product function returns the derivative of the gradient: for every differentiable
motion that does not invert the element, the gradient changes at the rate the function computes
from the velocities. The force on the last vertex is minus the sum of the other three. -/
theorem nh_product (r : Ref) (x : ℝ → Verts) (d : Verts) (t : ℝ) (hx : Moves x d t)
    (hu : Upright r (x t)) :
    ∃ G : ℝ → Verts, (∀ᶠ s in nhds t, nhGradient (r.at (x s)) = some (G s)) ∧
      ∀ i, HasD (fun s => G s i) (spread (nhProduct (r.at (x t)) d) i) t := by
  refine ⟨fun s => spread (nhMatrix (r.at (x s))), ?_, fun i => ?_⟩
  · exact (hx.upright r hu).mono fun s hs => nhGradient_eq ((upright_iff r _).1 hs)
  · exact HasDM.spread (hasDM_nhMatrix r x d t hx ((upright_iff r _).1 hu)) i

/-! ## Hessian -/

theorem dxinvt_inverseTranspose {a b : M3 ℝ} (ha : a.det ≠ 0) :
    a.transpose * ((a * b).det⁻¹ • (a * b).cof) = b.det⁻¹ • b.cof := by
  rw [cof_mul, det_mul, mul_smul', ← mul_assoc', dxt_cof]
  generalize b.cof = C
  ext <;> simp [mul, mulVec, transpose, V3.dot, diag] <;> field_simp

/-- The product in terms of the inverse of the deformed shape matrix. -/
theorem nhProduct_eq' (r : Ref) (x d : Verts) (hu : Upright r x) :
    nhProduct (r.at x) d = r.volume •
      (r.mu • (r.DXinv.transpose * r.DXinv * Tet.shape d)
        + (r.mu - r.lambda * Real.log (r.at x).F.det) •
            (((Tet.shape x).det⁻¹ • (Tet.shape x).cof) *
              ((Tet.shape d).transpose * ((Tet.shape x).det⁻¹ • (Tet.shape x).cof)))
        + (frob (Tet.shape d) ((Tet.shape x).det⁻¹ • (Tet.shape x).cof) * r.lambda) •
            ((Tet.shape x).det⁻¹ • (Tet.shape x).cof)) := by
  have ha : r.DXinv.det ≠ 0 := fun h => by simp [Upright, h] at hu
  have hB : r.DXinv.transpose * ((r.at x).F.det⁻¹ • (r.at x).F.cof) =
      (Tet.shape x).det⁻¹ • (Tet.shape x).cof := dxinvt_inverseTranspose ha
  have hT : ((r.at x).dF d).transpose * ((r.at x).F.det⁻¹ • (r.at x).F.cof) =
      (Tet.shape d).transpose * ((Tet.shape x).det⁻¹ • (Tet.shape x).cof) := by
    rw [← hB, ← mul_assoc']
    congr 1
    simp only [Elem.dF, Ref.at, mul_def, transpose_mul]
  rw [nhProduct_eq ((upright_iff r x).1 hu), hT, ← hB, ← trace_transpose_mul]
  have e1 : (r.at x).dF d = r.DXinv * Tet.shape d := rfl
  rw [e1, mul_assoc' r.DXinv.transpose r.DXinv]
  simp only [Ref.at, mul_add', mul_smul', ← mul_assoc']

theorem at_smul_adj (c : ℝ) (a : M3 ℝ) (i j : Fin 3) : (c • a.adj).at i j = (c • a.cof).at j i := by
  fin_cases i <;> fin_cases j <;> simp [M3.at, M3.row, V3.get, adj, cof, transpose]

/-- The Hessian of a function of the differences to the last vertex, from the blocks of the
other three. -/
def extend (h : Fin 3 → Fin 3 → Fin 3 → Fin 3 → ℝ) : Hess := fun n k row col =>
  if hn : n.val < 3 then
    if hk : k.val < 3 then h ⟨n, hn⟩ ⟨k, hk⟩ row col else - ∑ k', h ⟨n, hn⟩ k' row col
  else
    if hk : k.val < 3 then - ∑ n', h n' ⟨k, hk⟩ row col else ∑ n', ∑ k', h n' k' row col

theorem symm_fillLower (h : Fin 3 → Fin 3 → Fin 3 → Fin 3 → ℝ)
    (hs : ∀ n k row col, h n k row col = h k n col row) (n k : Fin 4) (row col : Fin 3) :
    symm (fillLower h) n k row col = extend h n k row col := by
  unfold symm fillLower extend
  by_cases hn : n.val < 3 <;> by_cases hk : k.val < 3
  · simp only [hn, hk, dif_pos]
    by_cases hc : k < n ∨ k = n ∧ col ≤ row
    · have : (n = k ∧ row ≥ col) ∨ n > k := by
        rcases hc with h1 | ⟨h1, h2⟩
        · exact Or.inr h1
        · exact Or.inl ⟨h1.symm, h2⟩
      simp only [hc, this, if_true]
    · have : (k = n ∧ col ≥ row) ∨ k > n := by
        rw [not_or, not_and_or] at hc
        rcases lt_trichotomy k n with h1 | h1 | h1
        · exact absurd h1 hc.1
        · rcases hc.2 with h2 | h2
          · exact absurd h1 h2
          · exact Or.inl ⟨h1, (not_le.1 h2).le⟩
        · exact Or.inr h1
      simp only [hc, this, if_true, if_false]
      exact (hs _ _ _ _).symm
  · have hc : ¬ (k < n ∨ k = n ∧ col ≤ row) := by
      rw [not_or]
      constructor
      · intro h1
        rw [Fin.lt_def] at h1
        omega
      · rintro ⟨rfl, _⟩
        exact hk hn
    simp only [hn, hk, hc, dif_pos, dif_neg, if_false, not_false_iff]
    congr 1
    exact Finset.sum_congr rfl fun i _ => hs _ _ _ _
  · have hc : k < n ∨ k = n ∧ col ≤ row := by
      left; rw [Fin.lt_def]; omega
    simp only [hn, hk, hc, dif_pos, dif_neg, if_true, not_false_iff]
  · have hkn : k = n := by ext; omega
    subst hkn
    simp only [hk, dif_neg, not_false_iff, lt_irrefl, false_or, true_and]
    by_cases hc : col ≤ row
    · simp only [hc, ge_iff_le, if_true]
    · simp only [hc, (not_le.1 hc).le, ge_iff_le, if_true, if_false]
      rw [Finset.sum_comm]
      exact Finset.sum_congr rfl fun i _ => Finset.sum_congr rfl fun j _ => hs _ _ _ _

/-- The product with the extended Hessian. -/
theorem extend_mul (h : Fin 3 → Fin 3 → Fin 3 → Fin 3 → ℝ) (d : Verts) (n : Fin 4) (row : Fin 3) :
    ∑ k, ∑ col, extend h n k row col * (d k).get col =
      if hn : n.val < 3 then
        ∑ k, ∑ col, h ⟨n, hn⟩ k row col * ((Tet.shape d).row k).get col
      else - ∑ n', ∑ k, ∑ col, h n' k row col * ((Tet.shape d).row k).get col := by
  have hd : ∀ (k : Fin 3) (col : Fin 3), ((Tet.shape d).row k).get col =
      (d k.castSucc).get col - (d 3).get col := by
    intro k col
    fin_cases k <;> fin_cases col <;> simp [Tet.shape, M3.row, V3.get]
  simp only [hd, mul_sub, Finset.sum_sub_distrib]
  rw [Fin.sum_univ_castSucc]
  unfold extend
  by_cases hn : n.val < 3
  · simp only [hn, dif_pos, Fin.val_castSucc, Fin.is_lt, Fin.eta, Fin.val_last, lt_irrefl, dif_neg,
      not_false_iff]
    rw [sub_eq_add_neg, add_right_inj, Finset.sum_comm (s := Finset.univ (α := Fin 3)),
      ← Finset.sum_neg_distrib]
    refine Finset.sum_congr rfl fun col _ => ?_
    rw [neg_mul, Finset.sum_mul]
    rfl
  · simp only [hn, dif_pos, Fin.val_castSucc, Fin.is_lt, Fin.eta, Fin.val_last, lt_irrefl, dif_neg,
      not_false_iff]
    rw [neg_sub, sub_eq_add_neg, add_comm]
    congr 1
    · simp only [Finset.sum_mul]
      rw [Finset.sum_comm]
      exact Finset.sum_congr rfl fun n' _ => Finset.sum_comm
    · simp only [neg_mul, Finset.sum_mul, Finset.sum_neg_distrib]
      congr 1
      rw [Finset.sum_comm (s := Finset.univ (α := Fin 3)) (t := Finset.univ (α := Fin 3))
        (f := fun x y => ∑ z, h x y row z * (d y.castSucc).get z)]
      exact Finset.sum_congr rfl fun k _ => Finset.sum_comm

/-- The lower triangle of a filled Hessian, when the entries are symmetric. -/
theorem symmMul_fillLower (h : Fin 3 → Fin 3 → Fin 3 → Fin 3 → ℝ)
    (hs : ∀ n k row col, h n k row col = h k n col row) (d : Verts) (H : M3 ℝ)
    (hH : ∀ n row, H.at n row = ∑ k, ∑ col, h n k row col * ((Tet.shape d).row k).get col)
    (n : Fin 4) : symmMul (fillLower h) d n = spread H n := by
  simp only [symmMul, symm_fillLower h hs, extend_mul, ← hH]
  fin_cases n
  all_goals
    ext <;> simp [spread, M3.at, M3.row, V3.get, Fin.sum_univ_three] <;> try ring

theorem nhEntry_symm (e : Elem) (Dxinv : M3 ℝ) (alpha : ℝ) (n k row col : Fin 3) :
    nhEntry e Dxinv alpha n k row col = nhEntry e Dxinv alpha k n col row := by
  have hA : (e.DXinv.transpose * e.DXinv).at n k = (e.DXinv.transpose * e.DXinv).at k n := by
    fin_cases n <;> fin_cases k <;>
      simp [M3.at, M3.row, V3.get, mul, mulVec, transpose, V3.dot] <;> ring
  simp only [nhEntry, hA, eq_comm (a := col) (b := row)]
  ring

/-- The Hessian and the product function agree. -/
theorem nh_symmMul (r : Ref) (x d : Verts) (i : Fin 4) :
    symmMul (nhHessian (r.at x)) d i = spread (nhProduct (r.at x) d) i := by
  by_cases hu : Upright r x
  · have hJ := (upright_iff r x).1 hu
    have hD : (Tet.shape x).det ≠ 0 := fun h => by simp [Upright, h] at hu
    have hH : nhHessian (r.at x) = fillLower (nhEntry (r.at x)
        ((Tet.shape x).det⁻¹ • (Tet.shape x).adj)
        (r.mu - r.lambda * Real.log (r.at x).F.det)) := by
      have e1 : (r.at x).Dx.inverse = some ((Tet.shape x).det⁻¹ • (Tet.shape x).adj) := by
        simp only [M3.inverse, Ref.at, hD, if_false]
      simp only [nhHessian, not_le.2 hJ, if_false, e1]
      rfl
    rw [hH, symmMul_fillLower _ (nhEntry_symm _ _ _) d (nhProduct (r.at x) d)]
    intro n row
    rw [nhProduct_eq' r x d hu]
    simp only [nhEntry, at_smul_adj]
    generalize (Tet.shape x).det⁻¹ • (Tet.shape x).cof = B
    generalize r.mu - r.lambda * Real.log (r.at x).F.det = al
    have eA : (r.at x).DXinv.transpose * (r.at x).DXinv = r.DXinv.transpose * r.DXinv := rfl
    rw [eA]
    generalize r.DXinv.transpose * r.DXinv = A
    generalize Tet.shape d = D
    have e3 : (r.at x).volume = r.volume := rfl
    have e4 : (r.at x).mu = r.mu := rfl
    have e5 : (r.at x).lambda = r.lambda := rfl
    rw [e3, e4, e5]
    fin_cases n <;> fin_cases row <;>
      simp [M3.at, M3.row, V3.get, mul, mulVec, transpose, V3.dot, frob, Fin.sum_univ_three] <;>
      ring
  · have hJ : ¬ 0 < (r.at x).F.det := fun h => hu ((upright_iff r x).2 h)
    have h1 : nhHessian (r.at x) = fun _ _ _ _ => 0 := by
      simp only [nhHessian, not_lt.1 hJ, if_true]
    have h2 : nhProduct (r.at x) d = 0 := by simp only [nhProduct, hJ, if_false]
    rw [h1, h2]
    have h3 : symmMul (fun _ _ _ _ => 0) d i = 0 := by
      ext <;> simp [symmMul, symm]
    rw [h3]
    fin_cases i <;> (ext <;> simp [spread])

/-- C34. The Hessian is the derivative of the gradient: for every differentiable motion that does
not invert the element, the gradient of each vertex changes at the rate of the product of the
Hessian, of which only the entries on and below the diagonal are used, with the velocities. -/
theorem nh_hessian (r : Ref) (x : ℝ → Verts) (d : Verts) (t : ℝ) (hx : Moves x d t)
    (hu : Upright r (x t)) :
    ∃ G : ℝ → Verts, (∀ᶠ s in nhds t, nhGradient (r.at (x s)) = some (G s)) ∧
      ∀ i, HasD (fun s => G s i) (symmMul (nhHessian (r.at (x t))) d i) t := by
  obtain ⟨G, h1, h2⟩ := nh_product r x d t hx hu
  exact ⟨G, h1, fun i => (h2 i).congr (nh_symmMul r (x t) d i).symm⟩

/-- Nothing is stored above the diagonal. -/
theorem nh_hessian_lower (e : Elem) (n k : Fin 4) (row col : Fin 3)
    (h : ¬ (k < n ∨ (k = n ∧ col ≤ row))) : nhHessian e n k row col = 0 := by
  have key : ∀ f, fillLower f n k row col = 0 := by
    intro f
    unfold fillLower
    rw [not_or, not_and_or] at h
    by_cases hn : n.val < 3 <;> by_cases hk : k.val < 3
    · have : ¬ ((n = k ∧ row ≥ col) ∨ n > k) := by
        rintro (⟨h1, h2⟩ | h1)
        · rcases h.2 with h3 | h3
          · exact h3 h1.symm
          · exact h3 h2
        · exact h.1 h1
      simp only [hn, hk, this, dif_pos, if_false]
    · simp only [hn, hk, dif_pos, dif_neg, not_false_iff]
    · exact absurd (by rw [Fin.lt_def]; omega) h.1
    · have hkn : k = n := by ext; omega
      have h3 : ¬ row ≥ col := by
        rcases h.2 with h3 | h3
        · exact absurd hkn h3
        · exact h3
      simp only [hn, hk, h3, dif_neg, not_false_iff, if_false]
  unfold nhHessian
  split_ifs
  · rfl
  · cases e.Dx.inverse with
    | none => rfl
    | some D => exact key _

end Softy.Tet
