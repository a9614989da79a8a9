import Verif.Model.Projection
import Verif.Lemmas.Projection
import Verif.Props.Jacobian

/-!
# C92: projected element Hessians

The quadratic form `form` and the sum of squares `sumSq` of a matrix are defined in
`Lemmas/Projection.lean`.
-/

noncomputable section

namespace Softy.Projection

open Softy Softy.Assembly Softy.Fem Matrix

/-! ## Specification -/

/-- `E` is an eigenvalue decomposition of the matrix `A`: the eigenvectors are orthonormal, and `A` is
put together from them and the eigenvalues. -/
structure IsEigen (E : Eigen) (A : Mat) : Prop where
  orthonormal : E.vectorsᵀ * E.vectors = 1
  recomposes : E.vectors * diagonal E.values * E.vectorsᵀ = A

/-- `eig` decomposes every symmetric matrix. -/
def Decomposes (eig : Mat → Eigen) : Prop := ∀ A : Mat, Aᵀ = A → IsEigen (eig A) A

/-- The symmetric 12x12 matrix of an element, of which `h` has the lower triangle. -/
def matrixOf (h : LocalHess 4) : Mat := fun p q => symm h p.1 q.1 p.2 q.2

/-- The matrix of an element is positive semi-definite. -/
def ElemPsd (h : LocalHess 4) : Prop := ∀ x : Dof → ℝ, 0 ≤ form (matrixOf h) x

/-- The assembled Jacobian, entry by entry. -/
def jacobian (projected : Bool) (eig : Mat → Eigen) (P : Problem) (x v : ℕ → V3 ℝ)
    (dqdv fmul : ℝ) (i j : ℕ) : ℝ :=
  Sparse.storedEntry (P.jacobianIndices.zip (jacobianValues projected eig P x v dqdv fmul)) (i, j)

/-- The quadratic form of the assembled Jacobian of `N` vertices. -/
def jacobianForm (projected : Bool) (eig : Mat → Eigen) (P : Problem) (x v : ℕ → V3 ℝ)
    (dqdv fmul : ℝ) (N : ℕ) (w : ℕ → V3 ℝ) : ℝ :=
  ∑ i ∈ Finset.range (3 * N), ∑ j ∈ Finset.range (3 * N),
    coord w i * jacobian projected eig P x v dqdv fmul i j * coord w j

/-- An element has no damping, or at the previous positions, where the damping is evaluated, its
Hessian is positive semi-definite. -/
def DampingPsd (M : TetModel) (e : TetElem) (x v : ℕ → V3 ℝ) (dqdv : ℝ) : Prop :=
  e.damping = 0 ∨ (0 ≤ e.damping ∧ ElemPsd (M.hessian (e.prev x v dqdv)))

/-- The quadratic form of the Hessian of the shells is not negative. -/
def ShellPsd (P : Problem) (x : ℕ → V3 ℝ) (scale : ℝ) (N : ℕ) : Prop :=
  ∀ w : ℕ → V3 ℝ, 0 ≤ ∑ i ∈ Finset.range (3 * N),
    coord w i * symMul ((P.shell.indices (0, 0)).zip (P.shell.values x scale)) (coord w) i

/-! ## One element -/

theorem lowerPart_eq (h : LocalHess 4) : lowerPart h = matrixOf h := rfl

theorem matrixOf_symm (h : LocalHess 4) : (matrixOf h)ᵀ = matrixOf h := by
  ext p q
  exact symm_symm h q.1 p.1 q.2 p.2

theorem clamp_max (E : Eigen) : E.clamp.recompose =
    E.vectors * diagonal (fun i => max (E.values i) 0) * E.vectorsᵀ := by
  have : (fun i => if E.values i < 0 then (0 : ℝ) else E.values i) = fun i => max (E.values i) 0 := by
    funext i
    split_ifs with h
    · rw [max_eq_right h.le]
    · rw [max_eq_left (not_lt.1 h)]
  unfold Eigen.recompose Eigen.clamp
  rw [this]

/-- There is a decomposition of every symmetric matrix. -/
theorem exists_decomposes : ∃ eig, Decomposes eig := by
  classical
  refine ⟨fun A => if h : Aᵀ = A then ⟨(exists_eigen A h).choose, (exists_eigen A h).choose_spec.choose⟩
    else ⟨0, 0⟩, fun A hA => ?_⟩
  simp only [dif_pos hA]
  have h := (exists_eigen A hA).choose_spec.choose_spec
  exact ⟨h.1, h.2⟩

/-- The projected Hessian is symmetric, all of it is filled. -/
theorem project_symmetric (eig : Mat → Eigen) (h : LocalHess 4) (n k : Fin 4) (r c : Fin 3) :
    project eig h n k r c = project eig h k n c r := by
  unfold project Eigen.recompose
  set E := (eig (lowerPart h)).clamp
  have : (E.vectors * diagonal E.values * E.vectorsᵀ)ᵀ = E.vectors * diagonal E.values * E.vectorsᵀ := by
    simp only [transpose_mul, transpose_transpose, diagonal_transpose, Matrix.mul_assoc]
  exact congrFun (congrFun this (k, c)) (n, r)

theorem matrixOf_project (eig : Mat → Eigen) (h : LocalHess 4) :
    matrixOf (project eig h) = (eig (lowerPart h)).clamp.recompose := by
  ext p q
  unfold matrixOf Assembly.symm
  split_ifs
  · rfl
  · exact project_symmetric eig h q.1 p.1 q.2 p.2

/-- C92. The projected Hessian of an element is positive semi-definite. -/
theorem project_psd (eig : Mat → Eigen) (h : LocalHess 4) : ElemPsd (project eig h) := by
  intro x
  rw [matrixOf_project, clamp_max, form_conj, form_diagonal]
  exact Finset.sum_nonneg fun i _ => mul_nonneg (le_max_right _ _) (mul_self_nonneg _)

/-- C92. It is the nearest of all positive semi-definite matrices: no other one is as close in the sum
of the squares of the differences of the entries. -/
theorem project_nearest (eig : Mat → Eigen) (he : Decomposes eig) (h : LocalHess 4) (B : Mat)
    (hB : ∀ x, 0 ≤ form B x) :
    sumSq (matrixOf h - matrixOf (project eig h)) ≤ sumSq (matrixOf h - B) ∧
    (sumSq (matrixOf h - B) ≤ sumSq (matrixOf h - matrixOf (project eig h)) →
      B = matrixOf (project eig h)) := by
  have hE := he _ (matrixOf_symm h)
  rw [← lowerPart_eq] at hE
  have := nearest hE.orthonormal (eig (lowerPart h)).values B hB
  rw [hE.recomposes, ← clamp_max, lowerPart_eq, ← lowerPart_eq, ← matrixOf_project] at this
  exact this

/-- C92. A Hessian that is positive semi-definite is not changed. -/
theorem project_keeps (eig : Mat → Eigen) (he : Decomposes eig) (h : LocalHess 4) (hp : ElemPsd h)
    (n k : Fin 4) (r c : Fin 3) : project eig h n k r c = symm h n k r c := by
  have h0 : sumSq (matrixOf h - matrixOf h) = 0 := by simp [sumSq]
  have h1 := (project_nearest eig he h (matrixOf h) hp).2 (by
    rw [h0]
    exact Finset.sum_nonneg fun i _ => Finset.sum_nonneg fun j _ => mul_self_nonneg _)
  have h2 := congrFun (congrFun h1 (n, r)) (k, c)
  rw [matrixOf_project] at h2
  exact h2.symm

/-- C92. The result does not depend on the decomposition: not on the order of the eigenvalues, nor on
the choice of eigenvectors. -/
theorem project_unique (eig eig' : Mat → Eigen) (he : Decomposes eig) (he' : Decomposes eig')
    (h : LocalHess 4) : project eig h = project eig' h := by
  have h1 := project_nearest eig he h _ (project_psd eig' h)
  have h2 := project_nearest eig' he' h _ (project_psd eig h)
  have h3 := h1.2 h2.1
  rw [matrixOf_project, matrixOf_project] at h3
  funext n k r c
  exact (congrFun (congrFun h3 (n, r)) (k, c)).symm

/-- The quadratic form of an element as the work of the product. -/
theorem form_symmMul (h : LocalHess 4) (d : Fin 4 → V3 ℝ) :
    ∑ n, V3.dot (symmMul h d n) (d n) = form (matrixOf h) fun p => (d p.1).get p.2 := by
  simp only [form, Fintype.sum_prod_type, dot_eq_sum, symmMul_get, Finset.sum_mul, matrixOf]
  refine Finset.sum_congr rfl fun n _ => Finset.sum_congr rfl fun r _ =>
    Finset.sum_congr rfl fun k _ => Finset.sum_congr rfl fun c _ => ?_
  ring

/-! ## Meshes -/

theorem sum_three_mul (f : ℕ → ℝ) (N : ℕ) :
    ∑ i ∈ Finset.range (3 * N), f i = ∑ v ∈ Finset.range N, ∑ c : Fin 3, f (3 * v + c.val) := by
  induction N with
  | zero => simp
  | succ N ih =>
    rw [Nat.mul_succ, Finset.sum_range_succ, Finset.sum_range_succ, Finset.sum_range_succ, ih,
      Finset.sum_range_succ, Fin.sum_univ_three]
    simp only [Fin.val_zero, Fin.val_one, Fin.val_two, add_zero, add_assoc]

/-- The work of the assembled matrix of a mesh is the sum of the work of the elements. -/
theorem mesh_work {ι : Type} {m : ℕ} {T : List (Entry m)} (hT : Exact T) (es : List ι)
    (cell : ι → Fin m → ℕ) (hc : ∀ e ∈ es, Function.Injective (cell e)) (N : ℕ)
    (hN : ∀ e ∈ es, ∀ n, cell e n < N) (h : ι → LocalHess m) (w : ℕ → V3 ℝ) :
    ∑ i ∈ Finset.range (3 * N), coord w i *
      symMul ((es.flatMap fun e => T.map (globalIndex (cell e) (0, 0))).zip
        (es.flatMap fun e => T.map (entryValue (h e)))) (coord w) i =
    (es.map fun e => ∑ n, V3.dot (symmMul (h e) (fun k => w (cell e k)) n) (w (cell e n))).sum := by
  rw [zip_flatMap _ _ _ (by intro e; simp)]
  have hz : ∀ e, (T.map (globalIndex (cell e) (0, 0))).zip (T.map (entryValue (h e))) =
      elemTriplets T (cell e) (h e) := by
    intro e
    unfold elemTriplets
    rw [List.zip_map']
  simp only [hz, symMul_flatMap]
  induction es with
  | nil => simp
  | cons e es ih =>
    simp only [List.map_cons, List.sum_cons, mul_add, Finset.sum_add_distrib]
    rw [ih (fun e' h' => hc e' (List.mem_cons_of_mem _ h'))
      (fun e' h' => hN e' (List.mem_cons_of_mem _ h'))]
    congr 1
    rw [sum_three_mul]
    simp only [elem_symMul hT (cell e) (hc e List.mem_cons_self), coord_vertex, Finset.mul_sum]
    have : ∀ v ∈ Finset.range N, ∑ c : Fin 3, ∑ n, (w v).get c *
        (if cell e n = v then (symmMul (h e) (fun k => w (cell e k)) n).get c else 0) =
        ∑ n, if cell e n = v then V3.dot (symmMul (h e) (fun k => w (cell e k)) n) (w (cell e n))
          else 0 := by
      intro v _
      rw [Finset.sum_comm]
      refine Finset.sum_congr rfl fun n _ => ?_
      split_ifs with hv
      · subst hv
        rw [dot_eq_sum]
        exact Finset.sum_congr rfl fun c _ => mul_comm _ _
      · simp
    rw [Finset.sum_congr rfl this, Finset.sum_comm]
    refine Finset.sum_congr rfl fun n _ => ?_
    rw [Finset.sum_ite_eq, if_pos (Finset.mem_range.2 (hN e List.mem_cons_self n))]

theorem values_length (b : Bool) (eig : Mat → Eigen) (M : TetModel) (es : List TetElem)
    (x v : ℕ → V3 ℝ) (dqdv scale : ℝ) :
    (values b eig M es x v dqdv scale).length = (tetIndices es (0, 0)).length := by
  simp [values, tetIndices, List.length_flatMap]

/-- Without the option the Jacobian is that of `Model/Objective.lean`. -/
theorem unprojected (eig : Mat → Eigen) (P : Problem) (x v : ℕ → V3 ℝ) (dqdv fmul : ℝ) :
    jacobianValues false eig P x v dqdv fmul = P.jacobianValues x v dqdv fmul := rfl

theorem lowerValues_length (b : Bool) (eig : Mat → Eigen) (P : Problem) (x v : ℕ → V3 ℝ)
    (dqdv fmul : ℝ) : (lowerValues b eig P x v dqdv fmul).length = P.lowerIndices.length := by
  have h := lower_length P x v dqdv fmul
  have t := fun M es => tet_mesh_size M es x v dqdv (dqdv * fmul * 1) (0, 0)
  simp only [lowerValues, Problem.lowerValues, List.length_append, values_length, (t .nh _).1,
    (t _ _).2] at h ⊢
  exact h

open Classical in
theorem lowerValues_zip (b : Bool) (eig : Mat → Eigen) (P : Problem) (x v : ℕ → V3 ℝ)
    (dqdv fmul : ℝ) :
    P.lowerIndices.zip (lowerValues b eig P x v dqdv fmul) =
      ((tetIndices P.nh (0, 0)).zip (values b eig .nh P.nh x v dqdv (dqdv * fmul)) ++
        (tetIndices P.snh (0, 0)).zip (values b eig .snh P.snh x v dqdv (dqdv * fmul))) ++
        (P.shell.indices (0, 0)).zip (P.shell.values x (dqdv * fmul)) ++
        if P.isStatic then [] else
          ((inertiaIndices P.nhBodies (0, 0)).zip (inertiaValues tetKind P.nhBodies 1) ++
            (inertiaIndices P.snhBodies (0, 0)).zip (inertiaValues tetKind P.snhBodies 1)) ++
            (inertiaIndices P.shellBodies (0, 0)).zip (inertiaValues triKind P.shellBodies 1) := by
  have l2 := shell_mesh_size P.shell x (dqdv * fmul) (0, 0)
  simp only [Problem.lowerIndices, lowerValues, mul_one]
  rw [List.zip_append, List.zip_append, List.zip_append]
  · congr 1
    split_ifs
    · rfl
    · rw [List.zip_append, List.zip_append]
      · rw [(inertia_positions tetKind P.nhBodies 1).1, (inertia_positions tetKind P.nhBodies 1).2.1]
      · simp only [List.length_append]
        rw [(inertia_positions tetKind P.nhBodies 1).1, (inertia_positions tetKind P.nhBodies 1).2.1,
          (inertia_positions tetKind P.snhBodies 1).1, (inertia_positions tetKind P.snhBodies 1).2.1]
  · rw [values_length]
  · simp only [List.length_append, values_length]
  · simp only [List.length_append, values_length]
    rw [l2.1, l2.2]

theorem jacobian_mul (b : Bool) (eig : Mat → Eigen) (P : Problem) (N : ℕ) (hN : P.Within N)
    (hD : P.Distinct) (x v : ℕ → V3 ℝ) (dqdv fmul : ℝ) (w : ℕ → V3 ℝ) (i : ℕ) :
    ∑ j ∈ Finset.range (3 * N), jacobian b eig P x v dqdv fmul i j * coord w j =
      symMul (P.lowerIndices.zip (lowerValues b eig P x v dqdv fmul)) (coord w) i := by
  have hp := lower_positions P N hN hD
  rw [← symMul_mirror _ _ (lowerValues_length b eig P _ _ _ _) (3 * N)
    (fun p h => ⟨(hp p h).2, (hp p h).1.trans_lt (hp p h).2⟩)]
  unfold jacobian Sparse.mirrored Problem.jacobianIndices jacobianValues
  rw [nnz_eq P hD]

/-- The work of all solids of one kind. -/
def solidWork (b : Bool) (eig : Mat → Eigen) (M : TetModel) (es : List TetElem) (x v : ℕ → V3 ℝ)
    (dqdv scale : ℝ) (w : ℕ → V3 ℝ) : ℝ :=
  (es.map fun e => ∑ n, V3.dot (symmMul (elemHessian b eig M e x v dqdv scale)
    (fun k => w (e.cell k)) n) (w (e.cell n))).sum

open Classical in
/-- The quadratic form of the Jacobian by its parts. -/
theorem jacobianForm_eq (b : Bool) (eig : Mat → Eigen) (P : Problem) (N : ℕ) (hN : P.Within N)
    (hD : P.Distinct) (x v : ℕ → V3 ℝ) (dqdv fmul : ℝ) (w : ℕ → V3 ℝ) :
    jacobianForm b eig P x v dqdv fmul N w =
      solidWork b eig .nh P.nh x v dqdv (dqdv * fmul) w
      + solidWork b eig .snh P.snh x v dqdv (dqdv * fmul) w
      + (∑ i ∈ Finset.range (3 * N), coord w i *
          symMul ((P.shell.indices (0, 0)).zip (P.shell.values x (dqdv * fmul))) (coord w) i)
      + (if P.isStatic then 0 else ∑ i ∈ Finset.range N, P.mass i * V3.dot (w i) (w i)) := by
  have e : jacobianForm b eig P x v dqdv fmul N w = ∑ i ∈ Finset.range (3 * N), coord w i *
      symMul (P.lowerIndices.zip (lowerValues b eig P x v dqdv fmul)) (coord w) i := by
    unfold jacobianForm
    refine Finset.sum_congr rfl fun i _ => ?_
    rw [← jacobian_mul b eig P N hN hD, Finset.mul_sum]
    exact Finset.sum_congr rfl fun j _ => mul_assoc _ _ _
  rw [e, lowerValues_zip]
  simp only [symMul_append, mul_add, Finset.sum_add_distrib]
  have m := fun M es hc hN => mesh_work (T := pattern 4) pattern_four es (fun e : TetElem => e.cell) hc N hN
    (fun e => elemHessian b eig M e x v dqdv (dqdv * fmul)) w
  have h1 := m .nh P.nh hD.nh hN.nh
  have h2 := m .snh P.snh hD.snh hN.snh
  unfold solidWork
  rw [← h1, ← h2]
  congr 1
  by_cases hs : P.isStatic
  · simp only [if_pos hs]
    exact Finset.sum_eq_zero fun i _ => by simp [symMul]
  · simp only [if_neg hs, symMul_append, inertia_hessian tetKind_even, inertia_hessian triKind_even]
    rw [sum_three_mul]
    refine Finset.sum_congr rfl fun i _ => ?_
    rw [dot_eq_sum, Finset.mul_sum]
    refine Finset.sum_congr rfl fun c _ => ?_
    have hdiv : (3 * i + c.val) / 3 = i := by have := c.isLt; omega
    rw [coord_vertex, hdiv, Problem.mass]
    ring

theorem solidWork_nonneg (eig : Mat → Eigen) (M : TetModel) (es : List TetElem) (x v : ℕ → V3 ℝ)
    (dqdv scale : ℝ) (hs : 0 ≤ scale) (hd : ∀ e ∈ es, DampingPsd M e x v dqdv) (w : ℕ → V3 ℝ) :
    0 ≤ solidWork true eig M es x v dqdv scale w := by
  unfold solidWork
  refine List.sum_nonneg fun a ha => ?_
  obtain ⟨e, he, rfl⟩ := List.mem_map.1 ha
  have e1 : elemHessian true eig M e x v dqdv scale = fun n k row col =>
      (fun n k row col => project eig (M.hessian (e.ref.at (e.pick x))) n k row col +
        (fun n k row col => M.hessian (e.prev x v dqdv) n k row col * e.damping) n k row col)
        n k row col * scale := rfl
  set d : Fin 4 → V3 ℝ := fun k => w (e.cell k)
  have e2 : ∀ n, V3.dot (symmMul (elemHessian true eig M e x v dqdv scale) d n) (w (e.cell n)) =
      scale * (V3.dot (symmMul (project eig (M.hessian (e.ref.at (e.pick x)))) d n) (d n)
        + e.damping * V3.dot (symmMul (M.hessian (e.prev x v dqdv)) d n) (d n)) := by
    intro n
    rw [e1, symmMul_mul, symmMul_add, symmMul_mul]
    simp only [V3.dot, V3.smul_x, V3.smul_y, V3.smul_z, V3.add_x, V3.add_y, V3.add_z, d]
    ring
  rw [Finset.sum_congr rfl fun n _ => e2 n, ← Finset.mul_sum, Finset.sum_add_distrib,
    ← Finset.mul_sum, form_symmMul, form_symmMul]
  refine mul_nonneg hs (add_nonneg (project_psd eig _ _) ?_)
  rcases hd e he with h | ⟨h, h'⟩
  · rw [h, zero_mul]
  · exact mul_nonneg h (h' _)

open Classical in
/-- C92 (partial). With projected Hessians the quadratic form of the Jacobian is at least that of the
masses, if the parts that are not projected, damping and shells, are positive semi-definite. -/
theorem jacobian_psd_partial (eig : Mat → Eigen) (P : Problem) (N : ℕ) (hN : P.Within N)
    (hD : P.Distinct) (x v : ℕ → V3 ℝ) (dqdv fmul : ℝ) (hs : 0 ≤ dqdv * fmul)
    (hnh : ∀ e ∈ P.nh, DampingPsd .nh e x v dqdv) (hsnh : ∀ e ∈ P.snh, DampingPsd .snh e x v dqdv)
    (hsh : ShellPsd P x (dqdv * fmul) N) (w : ℕ → V3 ℝ) :
    (if P.isStatic then 0 else ∑ i ∈ Finset.range N, P.mass i * V3.dot (w i) (w i)) ≤
      jacobianForm true eig P x v dqdv fmul N w := by
  rw [jacobianForm_eq true eig P N hN hD]
  have h1 := solidWork_nonneg eig .nh P.nh x v dqdv _ hs hnh w
  have h2 := solidWork_nonneg eig .snh P.snh x v dqdv _ hs hsnh w
  have h3 := hsh w
  linarith

/-- Problems without shells. -/
theorem shellPsd_of_empty (P : Problem) (h1 : P.shell.tris = []) (h2 : P.shell.dihedrals = [])
    (x : ℕ → V3 ℝ) (scale : ℝ) (N : ℕ) : ShellPsd P x scale N := by
  intro w
  refine Finset.sum_nonneg fun i _ => ?_
  simp [Shell.indices, Shell.values, h1, h2, symMul]

/-! ## Descent -/

/-- `p` is the Newton direction for the first `n` scalars (those of the active vertices): it solves the
linear system with the Jacobian and the residual `r`, and does not move the other vertices. -/
structure NewtonDirection (b : Bool) (eig : Mat → Eigen) (P : Problem) (x v : ℕ → V3 ℝ)
    (dqdv fmul : ℝ) (n : ℕ) (r p : ℕ → V3 ℝ) : Prop where
  fixed : ∀ j, n ≤ j → coord p j = 0
  solves : ∀ i, i < n → ∑ j ∈ Finset.range n, jacobian b eig P x v dqdv fmul i j * coord p j
    = -coord r i

theorem dot_sum_coord (a b : ℕ → V3 ℝ) (N : ℕ) :
    ∑ i ∈ Finset.range N, V3.dot (a i) (b i) =
      ∑ i ∈ Finset.range (3 * N), coord a i * coord b i := by
  rw [sum_three_mul]
  refine Finset.sum_congr rfl fun i _ => ?_
  rw [dot_eq_sum]
  exact Finset.sum_congr rfl fun c _ => by rw [coord_vertex, coord_vertex]

/-- Along a Newton direction, the work of the residual is minus the quadratic form of the Jacobian. -/
theorem newton_work (b : Bool) (eig : Mat → Eigen) (P : Problem) (x v : ℕ → V3 ℝ)
    (dqdv fmul : ℝ) (n N : ℕ) (hn : n ≤ 3 * N) (r p : ℕ → V3 ℝ)
    (h : NewtonDirection b eig P x v dqdv fmul n r p) :
    ∑ i ∈ Finset.range N, V3.dot (r i) (p i) = -jacobianForm b eig P x v dqdv fmul N p := by
  rw [dot_sum_coord]
  have cut : ∀ f : ℕ → ℝ, (∀ i, n ≤ i → f i = 0) →
      ∑ i ∈ Finset.range (3 * N), f i = ∑ i ∈ Finset.range n, f i := by
    intro f hf
    refine (Finset.sum_subset (Finset.range_subset_range.2 hn) fun i _ hi => hf i ?_).symm
    simpa using hi
  unfold jacobianForm
  rw [cut _ fun i hi => by rw [h.fixed i hi, mul_zero],
    cut _ fun i hi => Finset.sum_eq_zero fun j _ => by rw [h.fixed i hi]; ring, ← Finset.sum_neg_distrib]
  refine Finset.sum_congr rfl fun i hi => ?_
  rw [cut _ fun j hj => by rw [h.fixed j hj, mul_zero]]
  have := h.solves i (Finset.mem_range.1 hi)
  rw [← neg_eq_iff_eq_neg] at this
  rw [← this, ← Finset.sum_neg_distrib, ← Finset.sum_neg_distrib, Finset.sum_mul]
  exact Finset.sum_congr rfl fun j _ => by ring

/-- The objective along a direction. -/
theorem objective_along (P : Problem) (N : ℕ) (hN : P.Within N) (hT : 0 ≤ P.timeStep)
    (fm pm : ℝ) (hfm : 0 < fm) (prev v0 x0 v p r f : ℕ → V3 ℝ)
    (hs : P.Smooth (place x0 (P.dt * fm) v))
    (hr : P.residual fm pm prev v0 (place x0 (P.dt * fm) v) v = some (r, f)) :
    ∃ W : ℝ → ℝ, (∀ᶠ s in nhds (0 : ℝ), P.objective N fm pm prev v0
        (place x0 (P.dt * fm) fun i => v i + s • p i) (fun i => v i + s • p i) = some (W s)) ∧
      HasDerivAt W (∑ i ∈ Finset.range N, V3.dot (r i) (p i)) 0 := by
  have e0 : (fun i => v i + (0 : ℝ) • p i) = v := by
    funext i; ext <;> simp
  obtain ⟨W, r', f', h1, h2, h3⟩ := objective_derivative P N hN hT fm pm hfm prev v0 x0
    (fun s i => v i + s • p i) p 0
    (fun i => by
      refine ((HasD.const (v i)).add (HasD.smul (hasDerivAt_id (0 : ℝ)) (HasD.const (p i)))).congr ?_
      ext <;> simp)
    (by rw [e0]; exact hs)
  rw [e0] at h2
  rw [hr] at h2
  obtain ⟨rfl, rfl⟩ := Prod.mk.inj (Option.some.inj h2)
  exact ⟨W, h1, h3⟩

/-- The quadratic form of the masses is positive for a direction that moves an active vertex. -/
theorem mass_form_pos (P : Problem) (N n : ℕ) (hn : n ≤ 3 * N) (hm : ∀ i, 3 * i < n → 0 < P.mass i)
    (p : ℕ → V3 ℝ) (hfix : ∀ j, n ≤ j → coord p j = 0) (hne : ∃ j, j < n ∧ coord p j ≠ 0) :
    0 < ∑ i ∈ Finset.range N, P.mass i * V3.dot (p i) (p i) := by
  have hz : ∀ i, n ≤ 3 * i → p i = 0 := by
    intro i hi
    have : ∀ c : Fin 3, (p i).get c = 0 := by
      intro c
      rw [← coord_vertex]
      exact hfix _ (by omega)
    ext
    · exact this 0
    · exact this 1
    · exact this 2
  have hdot : ∀ a : V3 ℝ, 0 ≤ V3.dot a a := fun a => by
    unfold V3.dot
    nlinarith [mul_self_nonneg a.x, mul_self_nonneg a.y, mul_self_nonneg a.z]
  refine Finset.sum_pos' (fun i _ => ?_) ?_
  · by_cases h : 3 * i < n
    · exact mul_nonneg (hm i h).le (hdot _)
    · rw [hz i (not_lt.1 h)]
      simp [V3.dot]
  · obtain ⟨j, hj, hpj⟩ := hne
    refine ⟨j / 3, Finset.mem_range.2 (by omega), mul_pos (hm _ (by omega))
      (lt_of_le_of_ne (hdot _) fun h0 => hpj ?_)⟩
    have : p (j / 3) = 0 := by
      generalize p (j / 3) = a at h0
      unfold V3.dot at h0
      ext <;> simp <;> nlinarith [mul_self_nonneg a.x, mul_self_nonneg a.y, mul_self_nonneg a.z]
    unfold coord
    rw [this]
    exact get_zero _

/-- C92 (partial). With projected Hessians the objective, which then serves as the merit function of
the line search, decreases along every Newton direction of a dynamic problem, unless the residual of
the active vertices is zero. The active vertices have positive masses. The parts that are not
projected, damping and shells, are positive semi-definite. -/
theorem descent_partial (eig : Mat → Eigen) (P : Problem) (N : ℕ) (hN : P.Within N)
    (hD : P.Distinct) (hT : 0 < P.timeStep) (fm pm : ℝ) (hfm : 0 < fm)
    (prev v0 x0 v p r f : ℕ → V3 ℝ) (hs : P.Smooth (place x0 (P.dt * fm) v))
    (hr : P.residual fm pm prev v0 (place x0 (P.dt * fm) v) v = some (r, f))
    (n : ℕ) (hn : n ≤ 3 * N) (hm : ∀ i, 3 * i < n → 0 < P.mass i)
    (hnh : ∀ e ∈ P.nh, DampingPsd .nh e (place x0 (P.dt * fm) v) v (P.dt * fm))
    (hsnh : ∀ e ∈ P.snh, DampingPsd .snh e (place x0 (P.dt * fm) v) v (P.dt * fm))
    (hsh : ShellPsd P (place x0 (P.dt * fm) v) (P.dt * fm * (P.dt * fm)) N)
    (hp : NewtonDirection true eig P (place x0 (P.dt * fm) v) v (P.dt * fm) (P.dt * fm) n r p)
    (hne : ∃ i, i < n ∧ coord r i ≠ 0) :
    ∃ (W : ℝ → ℝ) (slope : ℝ), slope < 0 ∧ HasDerivAt W slope 0 ∧
      ∀ᶠ s in nhds (0 : ℝ), P.objective N fm pm prev v0
        (place x0 (P.dt * fm) fun i => v i + s • p i) (fun i => v i + s • p i) = some (W s) := by
  obtain ⟨W, h1, h2⟩ := objective_along P N hN hT.le fm pm hfm prev v0 x0 v p r f hs hr
  refine ⟨W, _, ?_, h2, h1⟩
  rw [newton_work true eig P _ _ _ _ n N hn r p hp, neg_lt_zero]
  have hpsd := jacobian_psd_partial eig P N hN hD (place x0 (P.dt * fm) v) v (P.dt * fm) (P.dt * fm)
    (mul_self_nonneg _) hnh hsnh hsh p
  have hst : ¬ P.isStatic := hT.ne'
  rw [if_neg hst] at hpsd
  refine lt_of_lt_of_le ?_ hpsd
  -- some vertex moves
  refine mass_form_pos P N n hn hm p hp.fixed ?_
  by_contra hno
  obtain ⟨i, hi, hri⟩ := hne
  have := hp.solves i hi
  rw [Finset.sum_eq_zero fun j hj => by
    rw [not_not.1 fun h => hno ⟨j, Finset.mem_range.1 hj, h⟩, mul_zero]] at this
  exact hri (by linarith)

/-- C92 (partial). Under the same assumptions the linear system of the Newton step has exactly one
solution. -/
theorem newton_solvable_partial (eig : Mat → Eigen) (P : Problem) (N : ℕ) (hN : P.Within N)
    (hD : P.Distinct) (hT : 0 < P.timeStep) (x v : ℕ → V3 ℝ) (dqdv fmul : ℝ) (hs : 0 ≤ dqdv * fmul)
    (n : ℕ) (hn : n ≤ 3 * N) (hm : ∀ i, 3 * i < n → 0 < P.mass i)
    (hnh : ∀ e ∈ P.nh, DampingPsd .nh e x v dqdv) (hsnh : ∀ e ∈ P.snh, DampingPsd .snh e x v dqdv)
    (hsh : ShellPsd P x (dqdv * fmul) N) (r : ℕ → V3 ℝ) :
    ∃ p, NewtonDirection true eig P x v dqdv fmul n r p ∧
      ∀ p', NewtonDirection true eig P x v dqdv fmul n r p' → p' = p := by
  have hst : ¬ P.isStatic := hT.ne'
  set A : Matrix (Fin n) (Fin n) ℝ := fun i j => jacobian true eig P x v dqdv fmul i j
  let ext : (Fin n → ℝ) → ℕ → ℝ := fun y j => if h : j < n then y ⟨j, h⟩ else 0
  have hext : ∀ y i, ∑ j ∈ Finset.range n, jacobian true eig P x v dqdv fmul i j *
      coord (Problem.toVec (ext y)) j = ∑ j : Fin n, jacobian true eig P x v dqdv fmul i j * y j := by
    intro y i
    rw [Finset.sum_range]
    refine Finset.sum_congr rfl fun j _ => ?_
    rw [coord_toVec]
    simp only [ext, j.isLt, dif_pos]
  have hfix : ∀ y j, n ≤ j → coord (Problem.toVec (ext y)) j = 0 := by
    intro y j hj
    rw [coord_toVec]
    simp only [ext, not_lt.2 hj, dif_neg, not_false_iff]
  have hinj : ∀ y : Fin n → ℝ, A.mulVec y = 0 → y = 0 := by
    intro y hy
    by_contra hne
    have hpos := mass_form_pos P N n hn hm (Problem.toVec (ext y)) (hfix y) (by
      obtain ⟨j, hj⟩ := Function.ne_iff.1 hne
      refine ⟨j, j.isLt, ?_⟩
      rw [coord_toVec]
      simp only [ext, j.isLt, dif_pos]
      exact hj)
    have hpsd := jacobian_psd_partial eig P N hN hD x v dqdv fmul hs hnh hsnh hsh
      (Problem.toVec (ext y))
    rw [if_neg hst] at hpsd
    have hd : NewtonDirection true eig P x v dqdv fmul n (fun _ => 0) (Problem.toVec (ext y)) := by
      refine ⟨hfix y, fun i hi => ?_⟩
      rw [hext]
      have : coord (fun _ => 0) i = 0 := get_zero _
      rw [this, neg_zero]
      exact congrFun hy ⟨i, hi⟩
    have hw := newton_work true eig P x v dqdv fmul n N hn _ _ hd
    have hz : ∑ i ∈ Finset.range N, V3.dot ((fun _ => 0 : ℕ → V3 ℝ) i) (Problem.toVec (ext y) i) = 0 :=
      Finset.sum_eq_zero fun i _ => by simp [V3.dot]
    linarith
  have hu : IsUnit A := by
    rw [← Matrix.mulVec_injective_iff_isUnit]
    intro a b hab
    have := hinj (a - b) (by rw [Matrix.mulVec_sub]; exact sub_eq_zero.2 hab)
    exact sub_eq_zero.1 this
  have hu' : IsUnit A.det := (Matrix.isUnit_iff_isUnit_det A).1 hu
  set b : Fin n → ℝ := fun i => -coord r i
  refine ⟨Problem.toVec (ext (A⁻¹.mulVec b)), ⟨hfix _, fun i hi => ?_⟩, fun p' hp' => ?_⟩
  · rw [hext]
    have : A.mulVec (A⁻¹.mulVec b) = b := by
      rw [Matrix.mulVec_mulVec, Matrix.mul_nonsing_inv _ hu', Matrix.one_mulVec]
    exact congrFun this ⟨i, hi⟩
  · have h1 : A.mulVec (fun j : Fin n => coord p' j) = b := by
      funext i
      have := hp'.solves i i.isLt
      rw [Finset.sum_range] at this
      exact this
    have h2 : A⁻¹.mulVec b = fun j : Fin n => coord p' j := by
      rw [← h1, Matrix.mulVec_mulVec, Matrix.nonsing_inv_mul _ hu', Matrix.one_mulVec]
    have h3 : ∀ j, coord p' j = coord (Problem.toVec (ext (A⁻¹.mulVec b))) j := by
      intro j
      rw [coord_toVec, h2]
      simp only [ext]
      split_ifs with h
      · rfl
      · exact hp'.fixed j (not_lt.1 h)
    funext i
    have h4 : ∀ c : Fin 3, (p' i).get c = (Problem.toVec (ext (A⁻¹.mulVec b)) i).get c := by
      intro c
      have := h3 (3 * i + c.val)
      rwa [coord_vertex, coord_vertex] at this
    ext
    · exact h4 0
    · exact h4 1
    · exact h4 2

/-- If the quadratic form of the Jacobian of a dynamic problem is negative for some direction, there
are velocities of the previous step for which this direction is the Newton direction, and the objective
increases along it. -/
theorem ascent (eig : Mat → Eigen) (P : Problem) (N : ℕ) (hN : P.Within N) (hT : 0 < P.timeStep) (fm pm : ℝ) (hfm : 0 < fm) (prev x0 v p : ℕ → V3 ℝ)
    (hs : P.Smooth (place x0 (P.dt * fm) v)) (hm : ∀ i, i < N → 0 < P.mass i)
    (hp0 : ∀ i, N ≤ i → p i = 0)
    (hneg : jacobianForm true eig P (place x0 (P.dt * fm) v) v (P.dt * fm) (P.dt * fm) N p < 0) :
    ∃ v0 r f : ℕ → V3 ℝ,
      P.residual fm pm prev v0 (place x0 (P.dt * fm) v) v = some (r, f) ∧
      NewtonDirection true eig P (place x0 (P.dt * fm) v) v (P.dt * fm) (P.dt * fm) (3 * N) r p ∧
      ∃ (W : ℝ → ℝ) (slope : ℝ), 0 < slope ∧ HasDerivAt W slope 0 ∧
        ∀ᶠ s in nhds (0 : ℝ), P.objective N fm pm prev v0
          (place x0 (P.dt * fm) fun i => v i + s • p i) (fun i => v i + s • p i) = some (W s) := by
  classical
  have hst : ¬ P.isStatic := hT.ne'
  -- the residual for the current velocities
  obtain ⟨W0, r0, f, -, hr0, -⟩ := objective_derivative P N hN hT.le fm pm hfm prev v x0
    (fun _ => v) (fun _ => 0) 0 (fun i => HasD.const (v i)) hs
  have hf : P.force (place x0 (P.dt * fm) v) v (P.dt * fm) = some f := by
    unfold Problem.residual at hr0
    simp only [Option.map_eq_some_iff] at hr0
    obtain ⟨f', h1, h2⟩ := hr0
    rw [h1, (Prod.mk.inj h2).2]
  set A : ℕ → V3 ℝ := fun i => (P.dt * fm) • f i + (if pm > 0 then (pm * P.dt) • prev i else 0)
  set J : ℕ → ℝ := fun i => ∑ j ∈ Finset.range (3 * N),
    jacobian true eig P (place x0 (P.dt * fm) v) v (P.dt * fm) (P.dt * fm) i j * coord p j
  set v0 : ℕ → V3 ℝ := fun i => v i + (P.mass i)⁻¹ • (A i + Problem.toVec J i)
  obtain ⟨r, hr, er⟩ := residual_eq P fm pm prev v0 (place x0 (P.dt * fm) v) v f hf
  have hri : ∀ i, i < N → r i = -Problem.toVec J i := by
    intro i hi
    have hmi := (hm i hi).ne'
    rw [er i, if_neg hst]
    change A i + P.mass i • (v i - (v i + (P.mass i)⁻¹ • (A i + Problem.toVec J i))) = _
    generalize Problem.toVec J i = b
    generalize A i = a
    ext <;> simp <;> field_simp <;> ring
  have hN' : NewtonDirection true eig P (place x0 (P.dt * fm) v) v (P.dt * fm) (P.dt * fm)
      (3 * N) r p := by
    constructor
    · intro j hj
      unfold coord
      rw [hp0 _ (by omega)]
      exact get_zero _
    · intro i hi
      have h1 : coord r i = -coord (Problem.toVec J) i := by
        unfold coord
        rw [hri _ (by omega)]
        have : ∀ (a : V3 ℝ) (c : Fin 3), (-a).get c = -a.get c := by
          intro a c; fin_cases c <;> rfl
        exact this _ _
      rw [h1, neg_neg, coord_toVec]
  obtain ⟨W, h1, h2⟩ := objective_along P N hN hT.le fm pm hfm prev v0 x0 v p r f hs hr
  refine ⟨v0, r, f, hr, hN', W, _, ?_, h2, h1⟩
  rw [newton_work true eig P _ _ _ _ (3 * N) N le_rfl r p hN']
  linarith

end Softy.Projection
