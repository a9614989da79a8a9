import Verif.Props.FieldHessian

/-!
# The part of the Hessian that comes from the positions of the samples
-/

noncomputable section

namespace Softy.Field

open Softy Softy.Kernel Filter

variable {k : Kern} {P : BgParams} {view : List ℕ} {c : ℕ} {q : V3 ℝ} {S : Samples}

theorem mem_offDiagonal {p : ℕ × ℕ} (h : p ∈ offDiagonal view) : p.2 < p.1 := by
  unfold offDiagonal at h
  simp only [List.mem_flatMap, List.mem_map, List.mem_filter] at h
  obtain ⟨i, -, j, ⟨-, hj⟩, rfl⟩ := h
  simpa using hj

theorem zip_map_self {α β γ : Type*} (l : List α) (f : α → β) (g : α → γ) :
    (l.map f).zip (l.map g) = l.map fun i => (f i, g i) := by
  induction l with
  | nil => rfl
  | cons i l ih => simp [ih]

/-- The blocks of the background, with their indices. -/
theorem bgBlocks_eq (b : Bg) :
    ((b.hessianBlocks.zip (bgHessianIndices b.weighted b.view)).filter
      fun p => p.2.2 ≤ p.2.1).map (fun p => (⟨p.2.1, p.2.2, p.1⟩ : HBlock)) =
    b.view.map (fun i => ⟨i, i, b.hessianDiagonal i⟩) ++
      if b.weighted then (offDiagonal b.view).map fun p => ⟨p.1, p.2, b.hessianOffDiagonal p.1 p.2⟩
      else [] := by
  unfold Bg.hessianBlocks bgHessianIndices
  rw [List.zip_append (by simp), zip_map_self]
  have h2 : (if b.weighted then (offDiagonal b.view).map fun p => b.hessianOffDiagonal p.1 p.2
      else []).zip (if b.weighted then offDiagonal b.view else []) =
      if b.weighted then (offDiagonal b.view).map fun p => (b.hessianOffDiagonal p.1 p.2, p) else [] := by
    cases b.weighted with
    | false => rfl
    | true =>
      simp only [if_true]
      have := zip_map_self (offDiagonal b.view) (fun p => b.hessianOffDiagonal p.1 p.2) id
      simpa using this
  rw [h2, List.filter_eq_self.2]
  · rw [List.map_append, List.map_map]
    congr 1
    cases b.weighted with
    | false => rfl
    | true => simp [Function.comp_def]
  · intro p hp
    rw [List.mem_append] at hp
    rcases hp with hp | hp
    · obtain ⟨i, -, rfl⟩ := List.mem_map.1 hp
      simp
    · cases hb : b.weighted with
      | false => rw [hb] at hp; simp at hp
      | true =>
        rw [hb] at hp
        simp only [if_true, List.mem_map] at hp
        obtain ⟨p', hp', rfl⟩ := hp
        simpa using (mem_offDiagonal hp').le

theorem sum_sub {α : Type*} (l : List α) (f g : α → ℝ) :
    (l.map fun i => f i - g i).sum = (l.map f).sum - (l.map g).sum := by
  induction l with
  | nil => simp
  | cons i l ih =>
    simp only [List.map_cons, List.sum_cons, ih]
    ring

theorem rank_two (l : List ℕ) (a b a' b' : ℕ → ℝ) :
    (l.map fun j => (l.map fun i => a j * b i + a' j * b' i).sum).sum =
      (l.map a).sum * (l.map b).sum + (l.map a').sum * (l.map b').sum := by
  simp only [List.sum_map_add, List.sum_map_mul_left, List.sum_map_mul_right]

theorem quad_samples (hv : view.Nodup) (tris : ℕ → Tri) (u w : ℕ → V3 ℝ) (D : ℕ → M3 ℝ)
    (O : ℕ → ℕ → M3 ℝ) (g : ℕ → ℕ → ℝ) (hD : ∀ i a b, qf a (D i) b = qf b (D i) a)
    (hO : ∀ j i, i < j → qf (mean tris u j) (O j i) (mean tris w i) = g j i)
    (hO' : ∀ j i, i < j → qf (mean tris w j) (O j i) (mean tris u i) = g i j) :
    quadBlocks ((view.map fun i => (⟨i, i, D i⟩ : HBlock)).flatMap (vertexBlocks tris)) u w +
    quadBlocks (((offDiagonal view).map fun p => (⟨p.1, p.2, O p.1 p.2⟩ : HBlock)).flatMap
      (vertexBlocks tris)) u w =
      (view.map fun i => qf (mean tris u i) (D i) (mean tris w i) - g i i).sum +
      (view.map fun j => (view.map fun i => g j i).sum).sum := by
  rw [quad_flatMap, quad_flatMap, List.map_map, List.map_map]
  have e1 : (view.map ((fun i => quadBlocks (vertexBlocks tris i) u w) ∘ fun i => ⟨i, i, D i⟩)).sum =
      (view.map fun i => qf (mean tris u i) (D i) (mean tris w i)).sum := by
    congr 1
    refine List.map_congr_left fun i _ => ?_
    exact quad_diagonal tris u w i _ (hD i)
  have e2 : ((offDiagonal view).map ((fun i => quadBlocks (vertexBlocks tris i) u w) ∘
      fun p => ⟨p.1, p.2, O p.1 p.2⟩)).sum =
      ((offDiagonal view).map fun p => g p.1 p.2 + g p.2 p.1).sum := by
    congr 1
    refine List.map_congr_left fun p hp => ?_
    have hlt := mem_offDiagonal hp
    have := quad_off tris u w p.1 p.2 hlt (O p.1 p.2)
    rw [hO _ _ hlt, hO' _ _ hlt] at this
    exact this
  rw [e1, e2, offDiagonal_sum hv]
  rw [sum_sub]
  ring

/-! ## Symmetry -/

theorem hess_symm (k : Kern) (x p a b : V3 ℝ) : qf a (k.hess x p) b = qf b (k.hess x p) a := by
  unfold Kern.hess
  simp only
  split
  · simp only [qf_add, qf_smul, qf_sub, qf_diag, qf_outer]
    rw [dot_symm a b]
    ring
  · rw [qf_zero, qf_zero]

theorem bgWeightHess_symm (b : Bg) (o : Option ℕ) (x y : V3 ℝ) :
    qf x (b.bgWeightHess o) y = qf y (b.bgWeightHess o) x := by
  have key : ∀ (d : V3 ℝ) (s r : ℝ), qf x (M3.outer (s • d) d - r • (M3.diag 1 - M3.outer d d)) y =
      qf y (M3.outer (s • d) d - r • (M3.diag 1 - M3.outer d d)) x := by
    intro d s r
    simp only [qf_smul, qf_sub, qf_diag, qf_outer, dot_smul_left]
    rw [dot_symm x y]
    ring
  unfold Bg.bgWeightHess
  split
  · rw [qf_zero, qf_zero]
  · cases o with
    | none => exact key _ _ _
    | some i =>
      cases b.closest with
      | glob j => exact (qf_zero _ _).trans (qf_zero _ _).symm
      | loc j =>
        simp only
        split
        · exact key _ _ _
        · rw [qf_zero, qf_zero]

theorem fieldHess_symm (b : Bg) (x y : V3 ℝ) : qf x b.fieldHess y = qf y b.fieldHess x := by
  unfold Bg.fieldHess
  cases b.value with
  | constant v => exact (qf_zero _ _).trans (qf_zero _ _).symm
  | signedDistance =>
    simp only
    split
    · simp only [qf_sub, qf_diag, qf_outer, dot_smul_left]
      rw [dot_symm x y]
      ring
    · rw [qf_zero, qf_zero]

/-! ## The samples -/

section Local

variable (b : Bg) (tris : ℕ → Tri)

/-- Changes of the weights. -/
def chW (u : ℕ → V3 ℝ) (i : ℕ) : ℝ := -V3.dot (weightGrad b.kernel b.dist b.q b.S i) (mean tris u i)

/-- Changes of the weight of the background. -/
def chB (u : ℕ → V3 ℝ) (i : ℕ) : ℝ := V3.dot (b.bgWeightGrad (some i)) (mean tris u i)

/-- Motion along the normals. -/
def chN (u : ℕ → V3 ℝ) (i : ℕ) : ℝ := V3.dot (unitNormal b.S i) (mean tris u i)

/-- Weights. -/
def wt (i : ℕ) : ℝ := weight b.kernel b.dist b.q b.S i

/-- Values. -/
def ps (i : ℕ) : ℝ := samplePotential b.q b.S i

/-- Second changes of the weights. -/
def chWW (u w : ℕ → V3 ℝ) (i : ℕ) : ℝ :=
  qf (mean tris u i) (weightHess b.kernel b.dist b.q b.S i) (mean tris w i)

/-- Second changes of the weight of the background. -/
def chBB (u w : ℕ → V3 ℝ) (i : ℕ) : ℝ :=
  qf (mean tris u i) (b.bgWeightHess (some i)) (mean tris w i)

end Local

theorem diagonal_value (b : Bg) (i : ℕ) :
    b.S.value i + V3.dot (b.q - b.S.pos i) (unitNormal b.S i) = ps b i := by
  rw [dot_symm]
  exact value_eq b i

theorem qf_sampleDiagonal (b : Bg) (L : ℝ) (i : ℕ) (x y : V3 ℝ) :
    qf x (sampleHessianDiagonal b L i) y = b.weightSumInv *
      (ps b i * qf x (weightHess b.kernel b.dist b.q b.S i) y -
        L * (qf x (weightHess b.kernel b.dist b.q b.S i) y + qf x (b.bgWeightHess (some i)) y) -
        (-V3.dot (weightGrad b.kernel b.dist b.q b.S i) x * V3.dot (unitNormal b.S i) y +
          V3.dot (unitNormal b.S i) x * -V3.dot (weightGrad b.kernel b.dist b.q b.S i) y) -
        ps b i * b.weightSumInv *
          ((V3.dot (b.bgWeightGrad (some i)) x + -V3.dot (weightGrad b.kernel b.dist b.q b.S i) x) *
            -V3.dot (weightGrad b.kernel b.dist b.q b.S i) y +
            -V3.dot (weightGrad b.kernel b.dist b.q b.S i) x *
            (V3.dot (b.bgWeightGrad (some i)) y + -V3.dot (weightGrad b.kernel b.dist b.q b.S i) y)) +
        (V3.dot (b.bgWeightGrad (some i)) x + -V3.dot (weightGrad b.kernel b.dist b.q b.S i) x) *
          (2 * L * b.weightSumInv *
          (V3.dot (b.bgWeightGrad (some i)) y + -V3.dot (weightGrad b.kernel b.dist b.q b.S i) y)) +
        wt b i * b.weightSumInv * (V3.dot (unitNormal b.S i) x *
            (V3.dot (b.bgWeightGrad (some i)) y + -V3.dot (weightGrad b.kernel b.dist b.q b.S i) y) +
          (V3.dot (b.bgWeightGrad (some i)) x + -V3.dot (weightGrad b.kernel b.dist b.q b.S i) x) *
            V3.dot (unitNormal b.S i) y)) := by
  have hv := diagonal_value b i
  unfold sampleHessianDiagonal
  simp only [hv, qf_add, qf_sub, qf_smul, qf_symOuter, qf_outer, dot_smul_left, dot_add_left,
    dot_neg_left]
  rfl

theorem qf_sampleOff (b : Bg) (L : ℝ) (j i : ℕ) (x y : V3 ℝ) :
    qf x (sampleHessianOffDiagonal b L j i) y = b.weightSumInv * b.weightSumInv *
      ((V3.dot (b.bgWeightGrad (some j)) x + -V3.dot (weightGrad b.kernel b.dist b.q b.S j) x) *
        (-ps b i * -V3.dot (weightGrad b.kernel b.dist b.q b.S i) y + 2 * L *
          (V3.dot (b.bgWeightGrad (some i)) y + -V3.dot (weightGrad b.kernel b.dist b.q b.S i) y) +
          wt b i * V3.dot (unitNormal b.S i) y) +
       (V3.dot (weightGrad b.kernel b.dist b.q b.S j) x * ps b j +
          V3.dot (unitNormal b.S j) x * wt b j) *
        (V3.dot (b.bgWeightGrad (some i)) y + -V3.dot (weightGrad b.kernel b.dist b.q b.S i) y)) := by
  have hv := diagonal_value b i
  have hv' := diagonal_value b j
  unfold sampleHessianOffDiagonal
  simp only [hv, hv', qf_add, qf_sub, qf_neg, qf_smul, qf_outer, dot_smul_left, dot_add_left,
    dot_neg_left]
  unfold wt
  ring

theorem local_quad (b : Bg) (tris : ℕ → Tri) (u w : ℕ → V3 ℝ) (L : ℝ) (hv : b.view.Nodup) :
    quadBlocks ((b.view.map fun i => (⟨i, i, sampleHessianDiagonal b L i⟩ : HBlock)).flatMap
      (vertexBlocks tris)) u w +
    quadBlocks (((offDiagonal b.view).map fun p =>
      (⟨p.1, p.2, sampleHessianOffDiagonal b L p.1 p.2⟩ : HBlock)).flatMap (vertexBlocks tris)) u w =
    (b.view.map fun i => b.weightSumInv * (ps b i * chWW b tris u w i -
      L * (chWW b tris u w i + chBB b tris u w i) -
      (chW b tris u i * chN b tris w i + chN b tris u i * chW b tris w i))).sum +
    b.weightSumInv * b.weightSumInv *
      ((b.view.map fun i => chB b tris u i + chW b tris u i).sum *
        (b.view.map fun i => -ps b i * chW b tris w i + 2 * L * (chB b tris w i + chW b tris w i) +
          wt b i * chN b tris w i).sum +
      (b.view.map fun i => -chW b tris u i * ps b i + chN b tris u i * wt b i).sum *
        (b.view.map fun i => chB b tris w i + chW b tris w i).sum) := by
  rw [quad_samples hv tris u w (sampleHessianDiagonal b L) (sampleHessianOffDiagonal b L)
    (fun j i => b.weightSumInv * b.weightSumInv * ((chB b tris u j + chW b tris u j) *
        (-ps b i * chW b tris w i + 2 * L * (chB b tris w i + chW b tris w i) +
          wt b i * chN b tris w i) +
      (-chW b tris u j * ps b j + chN b tris u j * wt b j) * (chB b tris w i + chW b tris w i)))]
  · congr 1
    · congr 1
      refine List.map_congr_left fun i _ => ?_
      rw [qf_sampleDiagonal]
      unfold chWW chBB chB chW chN
      ring
    · rw [← rank_two]
      simp only [List.sum_map_mul_left]
  · intro i x y
    rw [qf_sampleDiagonal, qf_sampleDiagonal]
    have h1 : qf x (weightHess b.kernel b.dist b.q b.S i) y =
      qf y (weightHess b.kernel b.dist b.q b.S i) x := hess_symm _ _ _ _ _
    rw [h1, bgWeightHess_symm b (some i) x y]
    ring
  · intro j i _
    rw [qf_sampleOff]
    unfold chB chW chN
    ring
  · intro j i _
    rw [qf_sampleOff]
    unfold chB chW chN
    ring

/-! ## The background -/

/-- Without an input, only the signed distance is a field that is not zero. -/
theorem field_trivial (q : V3 ℝ) (S : Samples)
    (h : (bgAt k P q view S c none).value.isDistance = false) :
    (bgAt k P q view S c none).fieldValue = 0 ∧ (bgAt k P q view S c none).fieldGrad = 0 ∧
      (bgAt k P q view S c none).fieldHess = 0 := by
  simp only [bgAt, Bg.newImpl, Bg.fieldValue, Bg.fieldGrad, Bg.fieldHess] at *
  cases hP : P.fieldType <;> simp_all [BgValue.new, BgValue.isDistance]

open Classical in
theorem qf_bgDiagonal (q : V3 ℝ) (S : Samples) (b : Bg) (hb : b = bgAt k P q view S c none) (i : ℕ)
    (x y : V3 ℝ) : qf x (b.hessianDiagonal i) y = b.weightSumInv *
      ((if i = c then b.bgWeight * qf x b.fieldHess y else 0) +
        if P.weighted = true then
          b.fieldValue * b.bgWeight * b.weightSumInv *
            (V3.dot (weightGrad b.kernel b.dist b.q b.S i) x *
              (2 * b.weightSumInv * V3.dot (weightGrad b.kernel b.dist b.q b.S i) y) -
              qf x (weightHess b.kernel b.dist b.q b.S i) y) +
          if i = c then
            (1 - b.bgWeight * b.weightSumInv) * b.fieldValue * qf x (b.bgWeightHess (some c)) y -
            (1 - b.bgWeight * b.weightSumInv) * 2 * b.fieldValue * b.weightSumInv *
              (V3.dot (b.bgWeightGrad (some c)) x * V3.dot (b.bgWeightGrad (some c)) y) +
            (1 - 2 * b.bgWeight * b.weightSumInv) * b.fieldValue * b.weightSumInv *
              (V3.dot (b.bgWeightGrad (some c)) x * V3.dot (weightGrad b.kernel b.dist b.q b.S i) y +
                V3.dot (weightGrad b.kernel b.dist b.q b.S i) x * V3.dot (b.bgWeightGrad (some c)) y) +
            (1 - b.bgWeight * b.weightSumInv) *
              (-V3.dot b.fieldGrad x * V3.dot (b.bgWeightGrad (some c)) y +
                V3.dot (b.bgWeightGrad (some c)) x * -V3.dot b.fieldGrad y) +
            b.weightSumInv * (b.bgWeight * (-V3.dot b.fieldGrad x *
                V3.dot (weightGrad b.kernel b.dist b.q b.S i) y +
              V3.dot (weightGrad b.kernel b.dist b.q b.S i) x * -V3.dot b.fieldGrad y))
          else 0
        else 0) := by
  have hc : b.closest.get = c := by rw [hb]; rfl
  have hw : b.weighted = P.weighted := by rw [hb]; rfl
  unfold Bg.hessianDiagonal
  simp only [hc, hw]
  by_cases hd : b.value.isDistance = true
  · by_cases hi : i = c
    · simp only [hd, hi, if_true, true_and]
      cases P.weighted with
      | false => simp only [Bool.false_eq_true, if_false, if_true, qf_smul, add_zero]
      | true =>
        simp only [Bool.true_eq_false, if_false, if_true, qf_smul, qf_add, qf_sub, qf_outer, qf_symOuter,
          dot_smul_left, dot_neg_left]
        ring
    · simp only [hi, if_false, and_false]
      cases P.weighted with
      | false => simp only [Bool.false_eq_true, if_false, if_true, qf_smul, qf_zero, add_zero]
      | true =>
        simp only [Bool.true_eq_false, if_false, if_true, qf_smul, qf_add, qf_sub, qf_outer, qf_zero,
          dot_smul_left]
        ring
  · have hd' : b.value.isDistance = false := by simpa using hd
    obtain ⟨f1, f2, f3⟩ := field_trivial (k := k) (P := P) (view := view) (c := c) q S (by rw [← hb]; exact hd')
    rw [← hb] at f1 f2 f3
    simp only [hd', f1, f2, f3, Bool.false_eq_true, false_and, if_false, qf_zero, dot_zero_left]
    cases P.weighted with
    | false => simp [qf_smul, qf_zero]
    | true => simp [qf_smul, qf_zero, qf_add, qf_sub]

open Classical in
theorem qf_bgOff (q : V3 ℝ) (S : Samples) (b : Bg) (hb : b = bgAt k P q view S c none) (j i : ℕ)
    (hij : i ≠ j) (x y : V3 ℝ) :
    qf x (b.hessianOffDiagonal j i) y = b.weightSumInv * b.weightSumInv *
      (V3.dot (weightGrad b.kernel b.dist b.q b.S j) x *
        (2 * b.fieldValue * b.weightSumInv * b.bgWeight *
            V3.dot (weightGrad b.kernel b.dist b.q b.S i) y +
          if i = c then b.bgWeight * -V3.dot b.fieldGrad y + b.fieldValue *
            (1 - 2 * b.bgWeight * b.weightSumInv) * V3.dot (b.bgWeightGrad (some i)) y else 0) +
        (if j = c then b.bgWeight * -V3.dot b.fieldGrad x + b.fieldValue *
            (1 - 2 * b.bgWeight * b.weightSumInv) * V3.dot (b.bgWeightGrad (some j)) x else 0) *
          V3.dot (weightGrad b.kernel b.dist b.q b.S i) y) := by
  have hc : b.closest.get = c := by rw [hb]; rfl
  unfold Bg.hessianOffDiagonal
  simp only [hc]
  by_cases hi : i = c
  · have hj : j ≠ c := by rintro rfl; exact hij hi
    subst hi
    simp only [if_true, hj, if_false, qf_smul, qf_outer, dot_smul_left, dot_add_left, dot_neg_left]
    ring
  · by_cases hj : j = c
    · subst hj
      simp only [hi, if_true, if_false, qf_smul, qf_outer, dot_smul_left, dot_add_left, dot_neg_left]
      ring
    · simp only [hi, hj, if_false, qf_smul, qf_outer]
      ring

open Classical in
theorem bg_quad (h : view.Nodup) (hmem : c ∈ view) (q : V3 ℝ) (S : Samples) (b : Bg)
    (hb : b = bgAt k P q view S c none) (tris : ℕ → Tri) (u w : ℕ → V3 ℝ) :
    quadBlocks ((b.view.map (fun i => (⟨i, i, b.hessianDiagonal i⟩ : HBlock)) ++
      if b.weighted then (offDiagonal b.view).map fun p =>
        (⟨p.1, p.2, b.hessianOffDiagonal p.1 p.2⟩ : HBlock)
      else []).flatMap (vertexBlocks tris)) u w =
    b.weightSumInv * (b.bgWeight * qf (mean tris u c) b.fieldHess (mean tris w c) +
      if P.weighted = true then
        (1 - b.bgWeight * b.weightSumInv) * b.fieldValue * chBB b tris u w c -
        (1 - b.bgWeight * b.weightSumInv) * 2 * b.fieldValue * b.weightSumInv *
          (chB b tris u c * chB b tris w c) +
        (1 - b.bgWeight * b.weightSumInv) *
          (-V3.dot b.fieldGrad (mean tris u c) * chB b tris w c +
            chB b tris u c * -V3.dot b.fieldGrad (mean tris w c)) -
        b.fieldValue * b.bgWeight * b.weightSumInv * (view.map fun i => chWW b tris u w i).sum +
        b.weightSumInv * ((view.map fun i => -chW b tris u i).sum *
            (2 * b.fieldValue * b.weightSumInv * b.bgWeight * (view.map fun i => -chW b tris w i).sum +
              (b.bgWeight * -V3.dot b.fieldGrad (mean tris w c) + b.fieldValue *
                (1 - 2 * b.bgWeight * b.weightSumInv) * chB b tris w c)) +
          (b.bgWeight * -V3.dot b.fieldGrad (mean tris u c) + b.fieldValue *
                (1 - 2 * b.bgWeight * b.weightSumInv) * chB b tris u c) *
            (view.map fun i => -chW b tris w i).sum)
      else 0) := by
  have hview : b.view = view := by rw [hb]; rfl
  have hw : b.weighted = P.weighted := by rw [hb]; rfl
  have hsym : ∀ i x y, qf x (b.hessianDiagonal i) y = qf y (b.hessianDiagonal i) x := by
    intro i x y
    rw [qf_bgDiagonal q S b hb, qf_bgDiagonal q S b hb, fieldHess_symm b x y,
      bgWeightHess_symm b (some c) x y]
    have h1 : qf x (weightHess b.kernel b.dist b.q b.S i) y =
      qf y (weightHess b.kernel b.dist b.q b.S i) x := hess_symm _ _ _ _ _
    rw [h1]
    split <;> split <;> ring
  rw [hview, hw, List.flatMap_append, quad_append]
  cases hP : P.weighted with
  | false =>
    simp only [Bool.false_eq_true, if_false, List.flatMap_nil, quad_nil, add_zero]
    rw [quad_flatMap, List.map_map]
    have : ∀ i ∈ view, ((fun i => quadBlocks (vertexBlocks tris i) u w) ∘
        fun i => (⟨i, i, b.hessianDiagonal i⟩ : HBlock)) i =
        if i = c then b.weightSumInv * (b.bgWeight * qf (mean tris u i) b.fieldHess (mean tris w i))
        else 0 := by
      intro i _
      have := quad_diagonal tris u w i _ (hsym i)
      simp only [Function.comp, this, qf_bgDiagonal q S b hb, hP, Bool.false_eq_true, if_false, add_zero]
      split
      · rfl
      · rw [mul_zero]
    rw [List.map_congr_left this]
    exact sum_single h hmem fun i => b.weightSumInv *
      (b.bgWeight * qf (mean tris u i) b.fieldHess (mean tris w i))
  | true =>
    simp only [if_true]
    rw [quad_samples h tris u w b.hessianDiagonal b.hessianOffDiagonal
      (fun j i => b.weightSumInv * b.weightSumInv * (-chW b tris u j *
        (2 * b.fieldValue * b.weightSumInv * b.bgWeight * -chW b tris w i +
          if i = c then b.bgWeight * -V3.dot b.fieldGrad (mean tris w i) + b.fieldValue *
            (1 - 2 * b.bgWeight * b.weightSumInv) * chB b tris w i else 0) +
        (if j = c then b.bgWeight * -V3.dot b.fieldGrad (mean tris u j) + b.fieldValue *
            (1 - 2 * b.bgWeight * b.weightSumInv) * chB b tris u j else 0) * -chW b tris w i)) hsym]
    · have e1 : ∀ i ∈ view, qf (mean tris u i) (b.hessianDiagonal i) (mean tris w i) -
          b.weightSumInv * b.weightSumInv * (-chW b tris u i *
            (2 * b.fieldValue * b.weightSumInv * b.bgWeight * -chW b tris w i +
              if i = c then b.bgWeight * -V3.dot b.fieldGrad (mean tris w i) + b.fieldValue *
                (1 - 2 * b.bgWeight * b.weightSumInv) * chB b tris w i else 0) +
            (if i = c then b.bgWeight * -V3.dot b.fieldGrad (mean tris u i) + b.fieldValue *
                (1 - 2 * b.bgWeight * b.weightSumInv) * chB b tris u i else 0) * -chW b tris w i) =
          (if i = c then b.weightSumInv * (b.bgWeight * qf (mean tris u i) b.fieldHess (mean tris w i) +
            (1 - b.bgWeight * b.weightSumInv) * b.fieldValue * chBB b tris u w i -
            (1 - b.bgWeight * b.weightSumInv) * 2 * b.fieldValue * b.weightSumInv *
              (chB b tris u i * chB b tris w i) +
            (1 - b.bgWeight * b.weightSumInv) *
              (-V3.dot b.fieldGrad (mean tris u i) * chB b tris w i +
                chB b tris u i * -V3.dot b.fieldGrad (mean tris w i))) else 0) +
          b.weightSumInv * -(b.fieldValue * b.bgWeight * b.weightSumInv) * chWW b tris u w i := by
        intro i _
        rw [qf_bgDiagonal q S b hb, hP]
        by_cases hi : i = c
        · subst hi
          simp only [if_true]
          unfold chW chB chBB chWW
          ring
        · simp only [hi, if_true, if_false]
          unfold chW chWW
          ring
      rw [List.map_congr_left e1, List.sum_map_add, List.sum_map_mul_left,
        sum_single h hmem fun i => b.weightSumInv *
          (b.bgWeight * qf (mean tris u i) b.fieldHess (mean tris w i) +
            (1 - b.bgWeight * b.weightSumInv) * b.fieldValue * chBB b tris u w i -
            (1 - b.bgWeight * b.weightSumInv) * 2 * b.fieldValue * b.weightSumInv *
              (chB b tris u i * chB b tris w i) +
            (1 - b.bgWeight * b.weightSumInv) *
              (-V3.dot b.fieldGrad (mean tris u i) * chB b tris w i +
                chB b tris u i * -V3.dot b.fieldGrad (mean tris w i)))]
      simp only [List.sum_map_mul_left]
      rw [rank_two, List.sum_map_add, List.sum_map_mul_left,
        sum_single h hmem fun i => b.bgWeight * -V3.dot b.fieldGrad (mean tris w i) + b.fieldValue *
                (1 - 2 * b.bgWeight * b.weightSumInv) * chB b tris w i,
        sum_single h hmem fun i => b.bgWeight * -V3.dot b.fieldGrad (mean tris u i) + b.fieldValue *
                (1 - 2 * b.bgWeight * b.weightSumInv) * chB b tris u i]
      ring
    · intro j i hij
      rw [qf_bgOff q S b hb j i hij.ne]
      unfold chW chB
      ring
    · intro j i hij
      rw [qf_bgOff q S b hb j i hij.ne]
      unfold chW chB
      ring

theorem bgWeightHess_sample (q : V3 ℝ) (S : Samples) (i : ℕ) :
    (bgAt k P q view S c none).bgWeightHess (some i) =
      if i = c then (bgAt k P q view S c none).bgWeightHess none else 0 := by
  by_cases hf : (bgAt k P q view S c none).flat
  · unfold Bg.bgWeightHess
    rw [if_pos hf, if_pos hf, ite_self]
  · unfold Bg.bgWeightHess
    rw [if_neg hf, if_neg hf]
    rfl

theorem local_algebra (l : List ℕ) (wsi L : ℝ) (w psi a n a' n' aa bb d d' : ℕ → ℝ) :
    (l.map fun i => wsi * (psi i * aa i - L * (aa i + bb i) - (a i * n' i + n i * a' i))).sum +
    wsi * wsi * ((l.map fun i => d i + a i).sum *
        (l.map fun i => -psi i * a' i + 2 * L * (d' i + a' i) + w i * n' i).sum +
      (l.map fun i => -a i * psi i + n i * w i).sum * (l.map fun i => d' i + a' i).sum) =
    wsi * (l.map fun i => aa i * psi i + a i * -n' i + a' i * -n i + w i * 0).sum -
      wsi * L * ((l.map aa).sum + (l.map bb).sum) -
      wsi * wsi * (l.map fun i => a' i * psi i + w i * -n' i).sum * ((l.map d).sum + (l.map a).sum) -
      wsi * wsi * (l.map fun i => a i * psi i + w i * -n i).sum * ((l.map d').sum + (l.map a').sum) +
      2 * (wsi * wsi) * L * ((l.map d).sum + (l.map a).sum) * ((l.map d').sum + (l.map a').sum) := by
  have e1 : (l.map fun i => wsi * (psi i * aa i - L * (aa i + bb i) - (a i * n' i + n i * a' i))).sum =
      wsi * (l.map fun i => aa i * psi i + a i * -n' i + a' i * -n i + w i * 0).sum -
      wsi * L * ((l.map aa).sum + (l.map bb).sum) := by
    induction l with
    | nil => simp
    | cons i l ih =>
      simp only [List.map_cons, List.sum_cons]
      rw [ih]
      ring
  have e2 : (l.map fun i => -psi i * a' i + 2 * L * (d' i + a' i) + w i * n' i).sum =
      -(l.map fun i => a' i * psi i + w i * -n' i).sum + 2 * L * ((l.map d').sum + (l.map a').sum) := by
    clear e1
    induction l with
    | nil => simp
    | cons i l ih =>
      simp only [List.map_cons, List.sum_cons]
      rw [ih]
      ring
  have e3 : (l.map fun i => -a i * psi i + n i * w i).sum =
      -(l.map fun i => a i * psi i + w i * -n i).sum := by
    clear e1 e2
    induction l with
    | nil => simp
    | cons i l ih =>
      simp only [List.map_cons, List.sum_cons]
      rw [ih]
      ring
  rw [e1, e2, e3, sum_lin2 l d a, sum_lin2 l d' a']
  ring

theorem dot_neg' (a b : V3 ℝ) : V3.dot a (-b) = -V3.dot a b := dot_neg_right b a

theorem qf_neg_neg (a b : V3 ℝ) (m : M3 ℝ) : qf (-a) m (-b) = qf a m b := by
  simp only [qf, V3.dot, M3.mulVec, V3.neg_x, V3.neg_y, V3.neg_z]
  ring

/-- The blocks of the samples, taken to the vertices, are the second derivative of the average as the
samples move without turning. -/
theorem sample_form (h : Smooth k P q view S c) (tris : ℕ → Tri) (u w : ℕ → V3 ℝ) :
    quadBlocks ((sampleHessianAt (bgAt k P q view S c none)).flatMap (vertexBlocks tris)) u w =
      secondForm (terms view) (termW (k.withClosest (q - S.pos c).norm) k P q S c)
        (termPsi k P q view S c)
        (termA (k.withClosest (q - S.pos c).norm) k P q view S c fun i => -mean tris u i)
        (termB k P q view S c (fun i => -mean tris u i) fun _ => 0)
        (termA (k.withClosest (q - S.pos c).norm) k P q view S c fun i => -mean tris w i)
        (termB k P q view S c (fun i => -mean tris w i) fun _ => 0)
        (termAA (k.withClosest (q - S.pos c).norm) k P q view S c (fun i => -mean tris u i)
          fun i => -mean tris w i)
        (termBB k P q view S c (fun i => -mean tris u i) (fun _ => 0) (fun i => -mean tris w i)
          (fun _ => 0) fun _ => 0) := by
  classical
  have hun := h.unweighted
  set b := bgAt k P q view S c none with hb
  -- the blocks
  have hlist : sampleHessianAt b = (b.view.map (fun i => ⟨i, i, sampleHessianDiagonal b
        (localPotentialAt b.q b.view b.S b.kernel b.weightSumInv b.dist) i⟩) ++
      (offDiagonal b.view).map (fun p => ⟨p.1, p.2, sampleHessianOffDiagonal b
        (localPotentialAt b.q b.view b.S b.kernel b.weightSumInv b.dist) p.1 p.2⟩)) ++
      (b.view.map (fun i => (⟨i, i, b.hessianDiagonal i⟩ : HBlock)) ++
        if b.weighted then (offDiagonal b.view).map fun p =>
          (⟨p.1, p.2, b.hessianOffDiagonal p.1 p.2⟩ : HBlock) else []) := by
    rw [← bgBlocks_eq]
    rfl
  rw [hlist, List.flatMap_append, List.flatMap_append, quad_append, quad_append,
    local_quad b tris u w _ h.nodup, bg_quad h.nodup h.mem q S b hb tris u w, local_algebra]
  unfold secondForm terms
  simp only [List.map_cons, List.sum_cons, List.map_map, Function.comp_def, termW, termPsi, termA, termB,
    termAA, termBB, projection_zero, unitNormal2_zero, dot_zero_right, dot_zero_left, add_zero]
  have hwsi : b.weightSumInv = (backgroundWeight k P.weighted (q - S.pos c).norm +
      (view.map fun i => (k.withClosest (q - S.pos c).norm).eval q (S.pos i)).sum)⁻¹ := by
    rw [add_comm]
    exact weightSumInv_eq _
  rw [← hwsi]
  have hL : localPotentialAt b.q view b.S b.kernel b.weightSumInv b.dist =
      (view.map fun i => wt b i * ps b i).sum * b.weightSumInv := rfl
  have hview : b.view = view := rfl
  have hwb : b.bgWeight = backgroundWeight k P.weighted (q - S.pos c).norm := rfl
  have hA : ∀ v : ℕ → V3 ℝ, ∀ i, V3.dot ((k.withClosest (q - S.pos c).norm).grad q (S.pos i))
      (-mean tris v i) = chW b tris v i := fun v i => dot_neg' _ _
  have hNn : ∀ v : ℕ → V3 ℝ, ∀ i, V3.dot (unitNormal S i) (-mean tris v i) = -chN b tris v i :=
    fun v i => dot_neg' _ _
  have hAA : ∀ i, qf (-mean tris u i) ((k.withClosest (q - S.pos c).norm).hess q (S.pos i))
      (-mean tris w i) = chWW b tris u w i := fun i => qf_neg_neg _ _ _
  have hw' : ∀ i, (k.withClosest (q - S.pos c).norm).eval q (S.pos i) = wt b i := fun _ => rfl
  have hp' : ∀ i, samplePotential q S i = ps b i := fun _ => rfl
  have hBc : ∀ v : ℕ → V3 ℝ, V3.dot (b.bgWeightGrad none) (-mean tris v c) = chB b tris v c := by
    intro v
    unfold chB
    rw [hb, bgWeightGrad_sample, if_pos rfl, dot_neg', dot_neg_left]
  have hB : ∀ v : ℕ → V3 ℝ, (view.map fun i => chB b tris v i).sum = chB b tris v c := by
    intro v
    rw [← sum_single h.nodup h.mem fun i => chB b tris v i]
    congr 1
    refine List.map_congr_left fun i _ => ?_
    split
    · rfl
    · unfold chB
      rw [hb, bgWeightGrad_sample, if_neg (by assumption), dot_zero_left]
  have hBBc : qf (-mean tris u c) (b.bgWeightHess none) (-mean tris w c) = chBB b tris u w c := by
    unfold chBB
    rw [qf_neg_neg, hb, bgWeightHess_sample, if_pos rfl]
  have hBB : (view.map fun i => chBB b tris u w i).sum = chBB b tris u w c := by
    rw [← sum_single h.nodup h.mem fun i => chBB b tris u w i]
    congr 1
    refine List.map_congr_left fun i _ => ?_
    split
    · rfl
    · unfold chBB
      rw [hb, bgWeightHess_sample, if_neg (by assumption), qf_zero]
  have hF : ∀ v : ℕ → V3 ℝ, V3.dot b.fieldGrad (-mean tris v c) = -V3.dot b.fieldGrad (mean tris v c) :=
    fun v => dot_neg' _ _
  have hch : ∀ v : ℕ → V3 ℝ, (view.map fun i => -chW b tris v i).sum =
      -(view.map fun i => chW b tris v i).sum := by
    intro v
    have := sum_sub view (fun _ => 0) (fun i => chW b tris v i)
    simpa using this
  simp only [← hb]
  simp only [hA, hNn, hAA, hw', hp', hBc, hBBc, qf_neg_neg, hF, hview, hL, hwb, hch]
  have hB' : ∀ v : ℕ → V3 ℝ, (view.map (chB b tris v)).sum = chB b tris v c := hB
  have hBB' : (view.map (chBB b tris u w)).sum = chBB b tris u w c := hBB
  have e1 : ∀ v : ℕ → V3 ℝ, (view.map (chW b tris v)).sum = (view.map fun i => chW b tris v i).sum :=
    fun _ => rfl
  have e2 : (view.map (chWW b tris u w)).sum = (view.map fun i => chWW b tris u w i).sum := rfl
  simp only [hB', hBB', e1, e2]
  cases hw : P.weighted with
  | true =>
    simp only [if_true]
    ring
  | false =>
    obtain ⟨g1, g2, g3⟩ := hun hw
    rw [hw] at g3
    have z0 : ∀ v, chB b tris v c = 0 := fun v => by rw [← hBc, g1, dot_zero_left]
    have z0' : chBB b tris u w c = 0 := by rw [← hBBc, g2, qf_zero]
    simp only [Bool.false_eq_true, if_false, z0, z0']
    rcases g3 with g3 | g3
    · rw [g3]
      ring
    · have z1 : ∀ v : ℕ → V3 ℝ, (view.map fun i => chW b tris v i).sum = 0 := fun v =>
        sum_eq_zero fun i hi => by
          have : weightGrad b.kernel b.dist b.q b.S i = 0 := (g3 i hi).2.1
          unfold chW
          rw [this, dot_zero_left, neg_zero]
      have z3 : (view.map fun i => chWW b tris u w i).sum = 0 := sum_eq_zero fun i hi => by
        have : weightHess b.kernel b.dist b.q b.S i = 0 := (g3 i hi).2.2
        unfold chWW
        rw [this, qf_zero]
      simp only [z1, z3]
      ring

end Softy.Field
