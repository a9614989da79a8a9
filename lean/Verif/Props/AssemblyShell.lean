import Verif.Props.AssemblyTet
import Verif.Props.TriNhHessian
import Verif.Props.EdgeBending

/-!
# C38: gradients and Hessians of whole shells
-/

noncomputable section

namespace Softy.Assembly

open Softy

/-! ## Specification -/

/-- The bending energy of a dihedral element is smooth at the positions `x`: neither triangle is
degenerate, they are not folded onto each other, and the angle is not exactly half a turn from the
last one. -/
def Dihedral.Smooth (e : Dihedral) (faces : ℕ → ℕ → ℕ) (x : ℕ → V3 ℝ) : Prop :=
  e.edge.Shared faces ∧ e.edge.normal0 x faces ≠ 0 ∧ e.edge.normal1 x faces ≠ 0 ∧
    e.edge.edgeAngle x faces ≠ -Real.pi ∧
    |e.edge.edgeAngle x faces - IEdge.projectAngle e.bending.prevTheta| ≠ Real.pi

/-- The energy of a shell is smooth at the positions `x`. -/
def Shell.Smooth (s : Shell) (x : ℕ → V3 ℝ) : Prop :=
  (∀ e ∈ s.tris, Tri.Proper e.ref (e.pick x)) ∧ ∀ e ∈ s.dihedrals, e.Smooth s.faces x

/-- The vertices of each element are distinct. -/
def Shell.Distinct (s : Shell) : Prop :=
  (∀ e ∈ s.tris, Function.Injective e.cell) ∧
    ∀ e ∈ s.dihedrals, Function.Injective (e.cell s.faces)

/-- All elements are made of the first `N` vertices. -/
def Shell.Within (s : Shell) (N : ℕ) : Prop :=
  (∀ e ∈ s.tris, ∀ n, e.cell n < N) ∧ ∀ e ∈ s.dihedrals, ∀ n, e.cell s.faces n < N

/-! ## Triangles -/

/-- The gradient of one triangle by local vertex. -/
def TriElem.localGradient (e : TriElem) (x v : ℕ → V3 ℝ) (dqdv : ℝ) : Fin 3 → V3 ℝ := fun n =>
  Tri.gradient (e.ref.at (e.pick x)) n + Tri.spread (e.damp x v dqdv) n

theorem gradientUpdates_sum (e : TriElem) (x v : ℕ → V3 ℝ) (dqdv : ℝ) (i : ℕ) :
    vertexSum (e.gradientUpdates x v dqdv) i =
      vertexSum (zipCell e.cell (e.localGradient x v dqdv)) i := by
  unfold TriElem.gradientUpdates
  simp only [vertexSum_append, vertexSum_zipCell, TriElem.localGradient, Fin.sum_univ_three]
  simp only [vertexSum, List.map_cons, List.map_nil, List.sum_cons, List.sum_nil, Tri.spread]
  generalize Tri.gradient (e.ref.at (e.pick x)) = g
  generalize e.damp x v dqdv = D
  by_cases h0 : e.cell 0 = i <;> by_cases h1 : e.cell 1 = i <;> by_cases h2 : e.cell 2 = i <;>
    simp only [h0, h1, h2, if_true, if_false] <;> (ext <;> simp <;> ring)

theorem Follows.tri {dqdv : ℝ} {x v : ℝ → ℕ → V3 ℝ} {d : ℕ → V3 ℝ} {t : ℝ}
    (h : Follows dqdv x v d t) (e : TriElem) :
    Tri.Moves (fun s => e.pick (x s)) (fun n => d (e.cell n)) t := fun _ => h.2.1 _

theorem hasD2_dF {dqdv : ℝ} {x v : ℝ → ℕ → V3 ℝ} {d : ℕ → V3 ℝ} {t : ℝ}
    (h : Follows dqdv x v d t) (e : TriElem) :
    Tri.HasD2 (fun s => (e.ref.at (e.pick (x s))).dF (e.pick (v s)))
      (e.ref.DXinv.mul23 (Tri.shape fun n => dqdv⁻¹ • d (e.cell n))) t := by
  have hv : ∀ n, HasD (fun s => e.pick (v s) n) (dqdv⁻¹ • d (e.cell n)) t :=
    fun n => h.velocity _
  exact Tri.HasD2.mul23 e.ref.DXinv ⟨(hv 0).sub (hv 2), (hv 1).sub (hv 2)⟩

theorem tri_elem_gradient (e : TriElem) (dqdv : ℝ) (x v : ℝ → ℕ → V3 ℝ)
    (d : ℕ → V3 ℝ) (t : ℝ) (hf : Follows dqdv x v d t) (hr : Tri.Proper e.ref (e.pick (x t))) :
    ∃ W : ℝ → ℝ, (∀ᶠ s in nhds t, e.energy (x s) (v s) dqdv = some (W s)) ∧
      HasDerivAt W (∑ n, V3.dot (e.localGradient (x t) (v t) dqdv n) (d (e.cell n))) t := by
  obtain ⟨W, h1, h2⟩ := Tri.tri_gradient e.ref _ _ t (hf.tri e) hr
  have hq := hf.1
  have hd := hasD2_dF hf e
  set dF := fun s => (e.ref.at (e.pick (x s))).dF (e.pick (v s)) with hdF
  refine ⟨fun s => W s + e.ref.mu * e.ref.area *
    (V3.dot (dF s).r0 (dF s).r0 + V3.dot (dF s).r1 (dF s).r1) * 0.5 * e.damping * (dqdv * dqdv),
    ?_, ?_⟩
  · refine h1.mono fun s hs => ?_
    simp only [TriElem.energy, hs, Option.map_some, hdF]
  · have h3 := ((((((hd.1.dot hd.1).fun_add (hd.2.dot hd.2)).const_mul
      (e.ref.mu * e.ref.area)).mul_const 0.5).mul_const e.damping).mul_const (dqdv * dqdv))
    refine (h2.fun_add h3).congr_deriv ?_
    have hA : ∀ g D : Tri.Verts, ∑ n, V3.dot (g n + D n) (d (e.cell n)) =
        Tri.work g (fun n => d (e.cell n)) + ∑ n, V3.dot (D n) (d (e.cell n)) := by
      intro g D
      simp only [Tri.work, ← Finset.sum_add_distrib]
      refine Finset.sum_congr rfl fun n _ => ?_
      simp [V3.dot]; ring
    unfold TriElem.localGradient
    rw [hA]
    congr 1
    have hdt : (e.ref.at (e.pick (x t))).dF (e.pick (v t)) = dF t := rfl
    simp only [TriElem.damp, hdt]
    generalize dF t = F
    simp only [Fin.sum_univ_three, Tri.spread, Tri.M22.mul23, Tri.M22.transpose, Tri.shape]
    simp [V3.dot]
    generalize d (e.cell 0) = d0
    generalize d (e.cell 1) = d1
    generalize d (e.cell 2) = d2
    field_simp
    ring

/-- The local damping matrix. -/
def TriElem.dampLocal (e : TriElem) : LocalHess 3 := fun n k row col =>
  if row = col then e.dampBlock n k else 0

theorem dampLocal_mul (e : TriElem) (d : Tri.Verts) (n : Fin 3) :
    symmMul e.dampLocal d n =
      Tri.spread ((e.ref.mu * e.ref.area * e.damping) •
        e.ref.DXinv.transpose.mul23 (e.ref.DXinv.mul23 (Tri.shape d))) n := by
  have key : ∀ row, ∑ k, ∑ col, symm e.dampLocal n k row col * (d k).get col =
      (Tri.spread ((e.ref.mu * e.ref.area * e.damping) •
        e.ref.DXinv.transpose.mul23 (e.ref.DXinv.mul23 (Tri.shape d))) n).get row := by
    intro row
    have h1 : ∀ k col, symm e.dampLocal n k row col =
        if row = col then (if k ≤ n then e.dampBlock n k else e.dampBlock k n) else 0 := by
      intro k col
      unfold symm TriElem.dampLocal
      by_cases hrc : row = col
      · subst hrc
        simp only [le_refl, and_true, if_true]
        congr 1
        exact propext (le_iff_lt_or_eq).symm
      · simp only [hrc, Ne.symm hrc, if_false]
        split_ifs <;> rfl
    simp only [h1, ite_mul, zero_mul, Finset.sum_ite_eq, Finset.mem_univ, if_true]
    have h2 : ∀ k, (if k ≤ n then e.dampBlock n k else e.dampBlock k n) * (d k).get row =
        ![![e.dampBlock 0 0, e.dampBlock 1 0, e.dampBlock 2 0],
          ![e.dampBlock 1 0, e.dampBlock 1 1, e.dampBlock 2 1],
          ![e.dampBlock 2 0, e.dampBlock 2 1, e.dampBlock 2 2]] n k * (d k).get row := by
      intro k
      fin_cases n <;> fin_cases k <;> rfl
    simp only [h2, Fin.sum_univ_three]
    simp only [TriElem.dampBlock, TriElem.ddF, Tri.spread, Tri.M22.mul23, Tri.M22.transpose,
      Tri.shape]
    fin_cases n <;> fin_cases row <;> simp [V3.get] <;> ring
  ext
  · exact key 0
  · exact key 1
  · exact key 2

theorem tri_elem_hessian (e : TriElem) (dqdv scale : ℝ) (x v : ℝ → ℕ → V3 ℝ)
    (d : ℕ → V3 ℝ) (t : ℝ) (hf : Follows dqdv x v d t) (hr : Tri.Proper e.ref (e.pick (x t)))
    (n : Fin 3) :
    HasD (fun s => scale • e.localGradient (x s) (v s) dqdv n)
      (symmMul (e.hessian (x t) scale) (fun k => d (e.cell k)) n) t := by
  have h1 := Tri.tri_hessian e.ref _ _ t (hf.tri e) hr n
  have hq := hf.1
  have hd := hasD2_dF hf e
  have h2 : Tri.HasD2 (fun s => e.damp (x s) (v s) dqdv)
      ((e.ref.mu * e.ref.area * e.damping) • e.ref.DXinv.transpose.mul23 (e.ref.DXinv.mul23
        (Tri.shape fun n => d (e.cell n)))) t := by
    have h3 : Tri.HasD2 (fun s => dqdv • (e.ref.at (e.pick (x s))).dF (e.pick (v s)))
        (e.ref.DXinv.mul23 (Tri.shape fun n => d (e.cell n))) t := by
      constructor
      · refine (HasD.smul (hasDerivAt_const t dqdv) hd.1).congr ?_
        ext <;> simp [Tri.M22.mul23, Tri.shape] <;> field_simp
      · refine (HasD.smul (hasDerivAt_const t dqdv) hd.2).congr ?_
        ext <;> simp [Tri.M22.mul23, Tri.shape] <;> field_simp
    have h4 := Tri.HasD2.mul23 e.ref.DXinv.transpose h3
    constructor
    · refine (HasD.smul (hasDerivAt_const t (e.ref.mu * e.ref.area * e.damping)) h4.1).congr ?_
      ext <;> simp
    · refine (HasD.smul (hasDerivAt_const t (e.ref.mu * e.ref.area * e.damping)) h4.2).congr ?_
      ext <;> simp
  have h5 := Tri.HasD2.spread h2 n
  refine (HasD.smul (hasDerivAt_const t scale) (h1.add h5)).congr ?_
  have e1 : e.hessian (x t) scale = fun n k row col =>
      (Tri.hessian (e.ref.at (e.pick (x t))) n k row col + e.dampLocal n k row col) * scale := rfl
  rw [e1, symmMul_mul, symmMul_add, dampLocal_mul]
  ext <;> simp <;> exact Or.inl rfl

/-! ## Dihedral elements -/

theorem bend_elem_gradient (e : Dihedral) (faces : ℕ → ℕ → ℕ) (x : ℝ → ℕ → V3 ℝ) (d : ℕ → V3 ℝ)
    (t : ℝ) (hx : ∀ i, HasD (fun s => x s i) (d i) t) (hs : e.Smooth faces (x t)) :
    HasDerivAt (fun s => e.bending.energy e.edge (x s) faces)
      (∑ n, V3.dot (gradList (e.bending.gradient e.edge (x t) faces) n) (d (e.cell faces n))) t := by
  refine (IEdge.bending_gradient e.bending e.edge faces hs.1 x d t hx hs.2.1 hs.2.2.1 hs.2.2.2.1
    hs.2.2.2.2).congr_deriv ?_
  simp only [Fin.sum_univ_four, IEdge.Grad.pair, gradList, Dihedral.cell]
  rfl

/-- The local Hessian of a dihedral element is the symmetric matrix of the blocks. -/
theorem bendLocal_mul (h : IEdge.BHess) (scale : ℝ) (d : Fin 4 → V3 ℝ) (n : Fin 4) :
    symmMul (bendLocal h scale) d n =
      scale • gradList (h.mulVec (d 0) (d 1) (d 2) (d 3)) n := by
  have key : ∀ row, ∑ k, ∑ col, symm (bendLocal h scale) n k row col * (d k).get col =
      (scale • gradList (h.mulVec (d 0) (d 1) (d 2) (d 3)) n).get row := by
    intro row
    simp only [Fin.sum_univ_four, Fin.sum_univ_three]
    fin_cases n <;> fin_cases row <;>
      simp [symm, bendLocal, lowAt, gradList, IEdge.BHess.mulVec, IEdge.Hess.mulVec, V3.get, M3.at,
        M3.row, M3.mulVec, M3.transpose, IEdge.Low.full, V3.dot] <;> ring
  ext
  · exact key 0
  · exact key 1
  · exact key 2

theorem bend_elem_hessian (e : Dihedral) (faces : ℕ → ℕ → ℕ) (scale : ℝ) (x : ℝ → ℕ → V3 ℝ)
    (d : ℕ → V3 ℝ) (t : ℝ) (hx : ∀ i, HasD (fun s => x s i) (d i) t)
    (hs : e.Smooth faces (x t)) (n : Fin 4) :
    HasD (fun s => scale • gradList (e.bending.gradient e.edge (x s) faces) n)
      (symmMul (bendLocal (e.bending.hessian e.edge (x t) faces) scale)
        (fun k => d (e.cell faces k)) n) t := by
  obtain ⟨h0, h1, h2, h3⟩ := IEdge.bending_hessian e.bending e.edge faces hs.1 x d t hx hs.2.1
    hs.2.2.1 hs.2.2.2.1 hs.2.2.2.2
  rw [bendLocal_mul]
  have hs : ∀ {f : ℝ → V3 ℝ} {f' : V3 ℝ}, HasD f f' t → HasD (fun s => scale • f s) (scale • f') t :=
    fun h => (HasD.smul (hasDerivAt_const t scale) h).congr (by ext <;> simp)
  fin_cases n
  · exact hs h0
  · exact hs h1
  · exact hs h2
  · exact hs h3

/-! ## The whole shell -/

theorem shell_gradient_eq (s : Shell) (x v : ℕ → V3 ℝ) (dqdv : ℝ) (G : ℕ → V3 ℝ) (i : ℕ) :
    s.gradient x v dqdv G i = G i +
      (vertexSum (s.tris.flatMap fun e => zipCell e.cell (e.localGradient x v dqdv)) i +
        vertexSum (s.dihedrals.flatMap fun e =>
          zipCell (e.cell s.faces) (gradList (e.bending.gradient e.edge x s.faces))) i) := by
  have h1 : vertexSum (s.tris.flatMap fun e => e.gradientUpdates x v dqdv) i =
      vertexSum (s.tris.flatMap fun e => zipCell e.cell (e.localGradient x v dqdv)) i := by
    simp only [vertexSum_flatMap, gradientUpdates_sum]
  unfold Shell.gradient
  rw [addAll_apply, addAll_apply, ← h1, add_assoc]
  rfl

/-- C38. Where the energy of a shell is smooth, the gradient computed for the whole shell (membrane,
damping and bending) is the derivative of the computed energy, for every differentiable path that
follows the velocities. The gradient is added to what was there before. -/
theorem shell_mesh_gradient (S : Shell) (dqdv : ℝ) (x v : ℝ → ℕ → V3 ℝ) (d : ℕ → V3 ℝ) (t : ℝ)
    (N : ℕ) (hN : S.Within N) (hf : Follows dqdv x v d t) (hs : S.Smooth (x t)) :
    (∃ W : ℝ → ℝ, (∀ᶠ s in nhds t, S.energy (x s) (v s) dqdv = some (W s)) ∧
      HasDerivAt W (∑ i ∈ Finset.range N,
        V3.dot (S.gradient (x t) (v t) dqdv (fun _ => 0) i) (d i)) t) ∧
    ∀ G i, S.gradient (x t) (v t) dqdv G i =
      G i + S.gradient (x t) (v t) dqdv (fun _ => 0) i := by
  classical
  refine ⟨?_, fun G i => by rw [shell_gradient_eq, shell_gradient_eq _ _ _ _ fun _ => 0, zero_add]⟩
  have hloc : ∀ e : TriElem, ∃ W : ℝ → ℝ, e ∈ S.tris →
      (∀ᶠ s in nhds t, e.energy (x s) (v s) dqdv = some (W s)) ∧
      HasDerivAt W (∑ n, V3.dot (e.localGradient (x t) (v t) dqdv n) (d (e.cell n))) t := by
    intro e
    by_cases he : e ∈ S.tris
    · obtain ⟨W, h⟩ := tri_elem_gradient e dqdv x v d t hf (hs.1 e he)
      exact ⟨W, fun _ => h⟩
    · exact ⟨0, fun h => absurd h he⟩
  choose W h using hloc
  refine ⟨fun s => (S.tris.map fun e => W e s).sum
    + (S.dihedrals.map fun e => e.bending.energy e.edge (x s) S.faces).sum, ?_, ?_⟩
  · refine (eventually_all S.tris _ t fun e he => (h e he).1).mono fun s hs => ?_
    simp only [Shell.energy, sumEnergies_some S.tris _ (fun e => W e s) hs, Option.map_some]
  · have hadd : ∀ p q r : V3 ℝ, V3.dot (p + q) r = V3.dot p r + V3.dot q r := by
      intro p q r; simp [V3.dot]; ring
    simp only [shell_gradient_eq, zero_add, hadd, Finset.sum_add_distrib]
    rw [work_vertexSum, work_vertexSum, map_flatMap_work, map_flatMap_work]
    · exact (hasDerivAt_list_sum S.tris (fun s e => W e s) _ t fun e he => (h e he).2).fun_add
        (hasDerivAt_list_sum S.dihedrals (fun s e => e.bending.energy e.edge (x s) S.faces) _ t
          fun e he => bend_elem_gradient e S.faces x d t hf.2.1 (hs.2 e he))
    · intro p hp
      obtain ⟨e, he, hp⟩ := List.mem_flatMap.1 hp
      obtain ⟨n, hn⟩ := mem_zipCell hp
      rw [hn]; exact hN.2 e he n
    · intro p hp
      obtain ⟨e, he, hp⟩ := List.mem_flatMap.1 hp
      obtain ⟨n, hn⟩ := mem_zipCell hp
      rw [hn]; exact hN.1 e he n

theorem shell_zip (S : Shell) (x : ℕ → V3 ℝ) (scale : ℝ) :
    (S.indices (0, 0)).zip (S.values x scale) =
      (S.tris.flatMap fun e => elemTriplets (pattern 3) e.cell (e.hessian x scale)) ++
      S.dihedrals.flatMap fun e => elemTriplets edgePattern (e.cell S.faces)
        (bendLocal (e.bending.hessian e.edge x S.faces) scale) := by
  unfold Shell.indices Shell.values
  rw [List.zip_append, zip_flatMap _ _ _ fun e => by simp, zip_flatMap _ _ _ fun e => by simp]
  · simp only [List.zip_map']
    rfl
  · simp [List.length_flatMap]

/-- C38. The triplets computed for the whole shell, read as a symmetric matrix, are `scale` times the
derivative of the computed gradient. -/
theorem shell_mesh_hessian (S : Shell) (dqdv scale : ℝ) (x v : ℝ → ℕ → V3 ℝ) (d : ℕ → V3 ℝ) (t : ℝ)
    (hc : S.Distinct) (hf : Follows dqdv x v d t) (hs : S.Smooth (x t)) (i : ℕ) :
    HasDerivAt (fun s => scale * coord (S.gradient (x s) (v s) dqdv fun _ => 0) i)
      (symMul ((S.indices (0, 0)).zip (S.values (x t) scale)) (coord d) i) t := by
  have h1 := hasD_elements pattern_three S.tris (fun e => e.cell) hc.1
    (fun s e n => scale • e.localGradient (x s) (v s) dqdv n) (fun e => e.hessian (x t) scale) d t
    (fun e he n => tri_elem_hessian e dqdv scale x v d t hf (hs.1 e he) n)
    (i / 3) ⟨i % 3, Nat.mod_lt _ (by norm_num)⟩
  have h2 := hasD_elements edgePattern_exact S.dihedrals (fun e => e.cell S.faces) hc.2
    (fun s e n => scale • gradList (e.bending.gradient e.edge (x s) S.faces) n)
    (fun e => bendLocal (e.bending.hessian e.edge (x t) S.faces) scale) d t
    (fun e he n => bend_elem_hessian e S.faces scale x d t hf.2.1 (hs.2 e he) n)
    (i / 3) ⟨i % 3, Nat.mod_lt _ (by norm_num)⟩
  rw [shell_zip, symMul_append]
  have e1 : 3 * (i / 3) + i % 3 = i := Nat.div_add_mod i 3
  simp only [e1] at h1 h2
  refine (h1.fun_add h2).congr_of_eventuallyEq (Filter.Eventually.of_forall fun s => ?_)
  simp only [← scale_zipCell, ← scale_vertexSum]
  unfold coord
  rw [shell_gradient_eq, zero_add, get_add, get_smul, get_smul, mul_add]

/-- C38. The matrix has as many triplets as advertised, and as many values as positions. -/
theorem shell_mesh_size (S : Shell) (x : ℕ → V3 ℝ) (scale : ℝ) (o : ℕ × ℕ) :
    (S.indices o).length = S.hessianSize ∧ (S.values x scale).length = S.hessianSize := by
  have h : ∀ {ι α : Type} (es : List ι) (f : ι → List α) (k : ℕ), (∀ e, (f e).length = k) →
      (es.flatMap f).length = k * es.length := by
    intro ι α es f k hk
    induction es with
    | nil => simp
    | cons e es ih => rw [List.flatMap_cons, List.length_append, ih, hk, List.length_cons]; ring
  constructor
  · rw [Shell.indices, List.length_append, h _ _ 45, h _ _ 78, Shell.hessianSize]
    · intro e; simp [edgePattern_length]
    · intro e; simp [pattern_three_length]
  · rw [Shell.values, List.length_append, h _ _ 45, h _ _ 78, Shell.hessianSize]
    · intro e; simp [edgePattern_length]
    · intro e; simp [pattern_three_length]

/-- C38. If the vertices of each element are distinct, all positions are on or below the diagonal
and within the matrix, and each element has no position twice. An offset shifts all positions. -/
theorem shell_mesh_positions (S : Shell) (N : ℕ) (hN : S.Within N) (hc : S.Distinct) :
    (∀ o, ∀ p ∈ S.indices (o, o), p.2 ≤ p.1 ∧ p.1 < 3 * N + o) ∧
    (∀ e ∈ S.tris, ∀ o, (Shell.indices ⟨[e], [], S.faces⟩ o).Nodup) ∧
    (∀ e ∈ S.dihedrals, ∀ o, (Shell.indices ⟨[], [e], S.faces⟩ o).Nodup) ∧
    (∀ o, S.indices o = (S.indices (0, 0)).map fun p => (p.1 + o.1, p.2 + o.2)) := by
  refine ⟨fun o p hp => ?_, fun e he o => ?_, fun e he o => ?_, fun o => ?_⟩
  · rcases List.mem_append.1 hp with hp | hp
    · obtain ⟨e, he, hp⟩ := List.mem_flatMap.1 hp
      obtain ⟨q, hq, rfl⟩ := mem_indices hp
      exact ⟨globalIndex_lower _ (hc.1 e he) _ _ ((pattern_three.2 q).1 hq),
        (globalIndex_bound _ N (hN.1 e he) _ _).1⟩
    · obtain ⟨e, he, hp⟩ := List.mem_flatMap.1 hp
      obtain ⟨q, hq, rfl⟩ := mem_indices hp
      exact ⟨globalIndex_lower _ (hc.2 e he) _ _ ((edgePattern_exact.2 q).1 hq),
        (globalIndex_bound _ N (hN.2 e he) _ _).1⟩
  · simpa [Shell.indices] using globalIndex_nodup pattern_three e.cell (hc.1 e he) o
  · simpa [Shell.indices] using globalIndex_nodup edgePattern_exact _ (hc.2 e he) o
  · simp only [Shell.indices, List.map_append, List.map_flatMap, List.map_map]
    congr 1
    · congr 1
      funext e
      exact List.map_congr_left fun q _ => globalIndex_offset _ _ _
    · congr 1
      funext e
      exact List.map_congr_left fun q _ => globalIndex_offset _ _ _

/-- Two bent triangles with a common edge and a dihedral element, of which one vertex moves. -/
example : ∃ (S : Shell) (x v : ℝ → ℕ → V3 ℝ) (d : ℕ → V3 ℝ), S.tris.length = 2 ∧
    S.dihedrals.length = 1 ∧ Follows (1 / 2) x v d 0 ∧ S.Smooth (x 0) ∧ S.Distinct ∧ S.Within 4 ∧
    d 0 ≠ 0 := by
  let d : ℕ → V3 ℝ := fun i => if i = 0 then ⟨1, 0, 0⟩ else 0
  let b : IEdge.Bending := ⟨IEdge.exEdge.edgeAngle IEdge.exPos (IEdge.exFaces true), 0, 1, 1⟩
  let r : Tri.Ref := ⟨⟨⟨1, 0⟩, ⟨0, 1⟩⟩, 1, 1, 1⟩
  have hx : (fun i => IEdge.exPos i + (0 : ℝ) • d i) = IEdge.exPos := by
    funext i; ext <;> simp
  have hcell : (⟨IEdge.exEdge, b⟩ : Dihedral).cell (IEdge.exFaces true) = ![0, 1, 2, 3] := by
    funext n; fin_cases n <;> rfl
  refine ⟨⟨[⟨![0, 1, 2], r, 1⟩, ⟨![1, 0, 3], r, 1⟩], [⟨IEdge.exEdge, b⟩], IEdge.exFaces true⟩,
    fun s i => IEdge.exPos i + s • d i, fun s i => (2 * s) • d i, d, rfl, rfl,
    ⟨by norm_num, ?_, IEdge.exPos, ?_⟩, ⟨?_, ?_⟩, ⟨?_, ?_⟩, ⟨?_, ?_⟩, ?_⟩
  · exact fun i => HasD.line _ _
  · intro s i
    ext <;> simp <;> ring
  · intro e he
    simp only [List.mem_cons, List.not_mem_nil, or_false] at he
    simp only [hx]
    rcases he with rfl | rfl
    · refine ⟨by simp [r, Tri.M22.det], fun h => ?_⟩
      have := congrArg V3.z h
      simp [TriElem.pick, IEdge.exPos, V3.cross] at this
    · refine ⟨by simp [r, Tri.M22.det], fun h => ?_⟩
      have := congrArg V3.z h
      simp [TriElem.pick, IEdge.exPos, V3.cross] at this
  · intro e he
    simp only [List.mem_cons, List.not_mem_nil, or_false] at he
    subst he
    simp only [hx]
    exact (IEdge.ex_bending d b rfl).2
  · intro e he
    simp only [List.mem_cons, List.not_mem_nil, or_false] at he
    rcases he with rfl | rfl <;> (intro a b; revert a b; decide)
  · intro e he
    simp only [List.mem_cons, List.not_mem_nil, or_false] at he
    subst he
    rw [hcell]
    intro a b; revert a b; decide
  · intro e he
    simp only [List.mem_cons, List.not_mem_nil, or_false] at he
    rcases he with rfl | rfl <;> (intro n; revert n; decide)
  · intro e he
    simp only [List.mem_cons, List.not_mem_nil, or_false] at he
    subst he
    simp only [hcell]
    intro n; revert n; decide
  · intro h
    have := congrArg V3.x h
    simp [d] at this

/-! ## Diagonal -/

theorem tri_diagonal_eq (e : TriElem) (x : ℕ → V3 ℝ) (scale : ℝ) (n c : Fin 3) :
    (e.diagonal x scale n).get c = e.hessian x scale n n c c := by
  simp only [TriElem.diagonal, TriElem.hessian, get_add, get_smul, get_diag3]
  have : ((⟨1, 1, 1⟩ : V3 ℝ)).get c = 1 := by fin_cases c <;> rfl
  rw [this]
  simp only [if_true, TriElem.dampBlock]
  fin_cases n <;> simp <;> ring

theorem bend_diagonal_eq (e : Dihedral) (faces : ℕ → ℕ → ℕ) (x : ℕ → V3 ℝ) (scale : ℝ) (n : Fin 4)
    (c : Fin 3) :
    (e.diagonal faces x scale n).get c =
      bendLocal (e.bending.hessian e.edge x faces) scale n n c c := by
  simp only [Dihedral.diagonal, bendLocal, IEdge.Bending.hessian, get_smul]
  fin_cases n <;> fin_cases c <;>
    simp [lowAt, gradList, IEdge.Low.add, IEdge.Low.scale, IEdge.lower, V3.get]

/-- C38. The separately computed diagonal is the diagonal of the matrix of the triplets (for the
vertices for which there is room in the result). -/
theorem shell_mesh_diagonal (S : Shell) (x : ℕ → V3 ℝ) (scale : ℝ) (hc : S.Distinct) (len : ℕ)
    (D : ℕ → V3 ℝ) (i : ℕ) (hi : i < len) (c : Fin 3) :
    (S.diagonal x scale len D i).get c = (D i).get c +
      entryAt ((S.indices (0, 0)).zip (S.values x scale)) (3 * i + c.val) (3 * i + c.val) := by
  unfold Shell.diagonal
  rw [addBelow_apply, if_pos hi, addBelow_apply, if_pos hi, get_add, get_add, add_assoc]
  congr 1
  rw [shell_zip, entryAt_append]
  congr 1
  · rw [entryAt_flatMap]
    change (vertexSum _ i).get c = _
    rw [vertexSum_flatMap, get_list_sum]
    congr 1
    refine List.map_congr_left fun e he => ?_
    rw [elem_diagonal pattern_three e.cell (hc.1 e he), vertexSum_zipCell, get_sum]
    refine Finset.sum_congr rfl fun n _ => ?_
    split_ifs
    · exact tri_diagonal_eq e x scale n c
    · simp
  · rw [entryAt_flatMap]
    change (vertexSum _ i).get c = _
    rw [vertexSum_flatMap, get_list_sum]
    congr 1
    refine List.map_congr_left fun e he => ?_
    rw [elem_diagonal edgePattern_exact _ (hc.2 e he), vertexSum_zipCell, get_sum]
    refine Finset.sum_congr rfl fun n _ => ?_
    split_ifs
    · exact bend_diagonal_eq e S.faces x scale n c
    · simp

end Softy.Assembly
