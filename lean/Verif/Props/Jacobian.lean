import Verif.Props.Objective

/-!
# C66: the Jacobian is the derivative of the residual
-/

noncomputable section

namespace Softy.Fem

open Softy Assembly

/-! ## Lemmas -/

theorem symMul_mul (T : List ((ℕ × ℕ) × ℝ)) (x : ℕ → ℝ) (c : ℝ) (i : ℕ) :
    symMul T (fun j => c * x j) i = c * symMul T x i := by
  unfold symMul
  rw [← List.sum_map_mul_left]
  congr 1
  refine List.map_congr_left fun e _ => ?_
  split_ifs <;> ring

theorem coord_smul (c : ℝ) (w : ℕ → V3 ℝ) : coord (fun i => c • w i) = fun j => c * coord w j := by
  funext j
  exact get_smul _ _ _

/-- The product of a matrix given by triplets with a vector. -/
theorem symMul_mirror (idx : List (ℕ × ℕ)) (vals : List ℝ) (hlen : vals.length = idx.length)
    (n : ℕ) (hn : ∀ p ∈ idx, p.1 < n ∧ p.2 < n) (x : ℕ → ℝ) (i : ℕ) :
    ∑ j ∈ Finset.range n, Sparse.storedEntry (Sparse.mirrored idx vals) (i, j) * x j =
      symMul (idx.zip vals) x i := by
  have key : ∀ T : List ((ℕ × ℕ) × ℝ), (∀ e ∈ T, e.1.2 < n) →
      ∑ j ∈ Finset.range n, Sparse.storedEntry T (i, j) * x j =
        (T.map fun e => if e.1.1 = i then e.2 * x e.1.2 else 0).sum := by
    intro T hT
    induction T with
    | nil => simp [Sparse.storedEntry]
    | cons e T ih =>
      have h1 : ∀ ij, Sparse.storedEntry (e :: T) ij =
          (if e.1 = ij then e.2 else 0) + Sparse.storedEntry T ij := fun ij => rfl
      simp only [h1, add_mul, Finset.sum_add_distrib, List.map_cons, List.sum_cons]
      rw [ih fun e' he' => hT e' (by simp [he'])]
      congr 1
      obtain ⟨⟨r, c⟩, a⟩ := e
      have hc : c < n := hT ((r, c), a) (by simp)
      simp only [Prod.mk.injEq]
      by_cases hr : r = i
      · simp only [hr, true_and, if_true, ite_mul, zero_mul]
        rw [Finset.sum_ite_eq, if_pos (Finset.mem_range.2 hc)]
      · simp [hr]
  unfold Sparse.mirrored
  rw [Sparse.mirror_zip idx vals hlen, key]
  · rw [List.map_append, List.sum_append, List.map_map]
    unfold symMul
    rw [List.sum_map_add]
    congr 1
    induction idx.zip vals with
    | nil => rfl
    | cons e T ih =>
      rw [List.filter_cons]
      by_cases h : e.1.1 = e.1.2
      · simp only [h, bne_self_eq_false, Bool.false_eq_true, if_false, ih, List.map_cons,
          List.sum_cons, ne_eq, not_true_eq_false, and_false, zero_add]
      · have hb : (e.1.1 != e.1.2) = true := by simp [h]
        simp only [hb, if_true, List.map_cons, List.sum_cons, ih, Function.comp_apply]
        simp [h]
  · intro e he
    rcases List.mem_append.1 he with he | he
    · obtain ⟨⟨r, c⟩, a⟩ := e
      exact (hn _ (List.of_mem_zip he).1).2
    · obtain ⟨e', he', rfl⟩ := List.mem_map.1 he
      obtain ⟨⟨r, c⟩, a⟩ := e'
      exact (hn _ (List.of_mem_zip (List.mem_filter.1 he').1).1).1

theorem lower_length (P : Problem) (x v : ℕ → V3 ℝ) (dqdv fmul : ℝ) :
    (P.lowerValues x v dqdv fmul).length = P.lowerIndices.length := by
  have t := fun M es => tet_mesh_size M es x v dqdv (dqdv * fmul * 1) (0, 0)
  have h := shell_mesh_size P.shell x (dqdv * fmul * 1) (0, 0)
  have h1 := inertia_positions tetKind P.nhBodies 1
  have h2 := inertia_positions tetKind P.snhBodies 1
  have h3 := inertia_positions triKind P.shellBodies 1
  simp only [Problem.lowerValues, Problem.lowerIndices]
  by_cases hs : P.isStatic
  · simp only [if_pos hs, List.length_append, (t .nh _).2, (t .snh _).2, (t .nh _).1, h.1, h.2,
      List.length_nil]
  · simp only [if_neg hs, List.length_append, (t .nh _).2, (t .snh _).2, (t .nh _).1, h.1, h.2, h1.1, h1.2.1, h2.1,
      h2.2.1, h3.1, h3.2.1]

open Classical in
theorem lower_zip (P : Problem) (x v : ℕ → V3 ℝ) (dqdv fmul : ℝ) :
    P.lowerIndices.zip (P.lowerValues x v dqdv fmul) =
      ((tetIndices P.nh (0, 0)).zip (tetValues .nh P.nh x v dqdv (dqdv * fmul)) ++
        (tetIndices P.snh (0, 0)).zip (tetValues .snh P.snh x v dqdv (dqdv * fmul))) ++
        (P.shell.indices (0, 0)).zip (P.shell.values x (dqdv * fmul)) ++
        if P.isStatic then [] else
          ((inertiaIndices P.nhBodies (0, 0)).zip (inertiaValues tetKind P.nhBodies 1) ++
            (inertiaIndices P.snhBodies (0, 0)).zip (inertiaValues tetKind P.snhBodies 1)) ++
            (inertiaIndices P.shellBodies (0, 0)).zip (inertiaValues triKind P.shellBodies 1) := by
  have l1 := fun M es => tet_mesh_size M es x v dqdv (dqdv * fmul) (0, 0)
  have l2 := shell_mesh_size P.shell x (dqdv * fmul) (0, 0)
  simp only [Problem.lowerIndices, Problem.lowerValues, mul_one]
  rw [List.zip_append, List.zip_append, List.zip_append]
  · congr 1
    split_ifs
    · rfl
    · rw [List.zip_append, List.zip_append]
      · rw [(inertia_positions tetKind P.nhBodies 1).1, (inertia_positions tetKind P.nhBodies 1).2.1]
      · simp only [List.length_append]
        rw [(inertia_positions tetKind P.nhBodies 1).1, (inertia_positions tetKind P.nhBodies 1).2.1,
          (inertia_positions tetKind P.snhBodies 1).1, (inertia_positions tetKind P.snhBodies 1).2.1]
  · rw [(l1 .nh _).1, (l1 .nh _).2]
  · simp only [List.length_append]
    rw [(l1 .nh _).1, (l1 .nh _).2, (l1 .snh _).1, (l1 .snh _).2]
  · simp only [List.length_append]
    rw [(l1 .nh _).1, (l1 .nh _).2, (l1 .snh _).1, (l1 .snh _).2, l2.1, l2.2]

theorem lower_positions (P : Problem) (N : ℕ) (hN : P.Within N) (hD : P.Distinct) :
    ∀ p ∈ P.lowerIndices, p.2 ≤ p.1 ∧ p.1 < 3 * N := by
  classical
  have hi : ∀ {m : ℕ} {bs : List (Body m)}, BodiesWithin bs N →
      ∀ p ∈ inertiaIndices bs (0, 0), p.2 ≤ p.1 ∧ p.1 < 3 * N := by
    intro m bs h p hp
    have k := inertia_positions (⟨0, fun _ => 0⟩ : Kind m) bs 1
    exact ⟨(k.2.2.1 p hp).ge, k.2.2.2 N h p hp⟩
  intro p hp
  unfold Problem.lowerIndices at hp
  simp only [List.mem_append] at hp
  rcases hp with ((hp | hp) | hp) | hp
  · simpa using (tet_mesh_positions P.nh N hN.nh hD.nh).1 0 p hp
  · simpa using (tet_mesh_positions P.snh N hN.snh hD.snh).1 0 p hp
  · simpa using (shell_mesh_positions P.shell N hN.shell hD.shell).1 0 p hp
  · split_ifs at hp
    · simp at hp
    · simp only [List.mem_append] at hp
      rcases hp with (hp | hp) | hp
      · exact hi (tetBodies_within hN.nh P.nhDensity) p hp
      · exact hi (tetBodies_within hN.snh P.snhDensity) p hp
      · exact hi (triBodies_within hN.shell.1 P.shellDensity) p hp

/-! ## The size of the Jacobian -/

theorem globalIndex_diag {m : ℕ} (cell : Fin m → ℕ) (hc : Function.Injective cell) (e : Entry m) :
    ((globalIndex cell (0, 0) e).1 == (globalIndex cell (0, 0) e).2) =
      decide (e.1 = e.2.1 ∧ e.2.2.1 = e.2.2.2) := by
  obtain ⟨n, k, row, col⟩ := e
  have hr := row.isLt
  have hl := col.isLt
  rw [Bool.eq_iff_iff, beq_iff_eq, decide_eq_true_iff]
  simp only [globalIndex, Fin.ext_iff]
  by_cases h : n = k
  · subst h
    simp
  · have h' : cell n ≠ cell k := fun e => h (hc e)
    have h2 : (n : ℕ) ≠ k := fun e => h (Fin.ext e)
    split_ifs <;> simp only [h2, false_and, iff_false] <;> omega

theorem diag_count {ι : Type} {m : ℕ} (T : List (Entry m)) (k : ℕ)
    (hk : (T.filter fun e => decide (e.1 = e.2.1 ∧ e.2.2.1 = e.2.2.2)).length = k) (es : List ι)
    (cell : ι → Fin m → ℕ) (hc : ∀ e ∈ es, Function.Injective (cell e)) :
    ((es.flatMap fun e => T.map (globalIndex (cell e) (0, 0))).filter
      fun p => p.1 == p.2).length = k * es.length := by
  induction es with
  | nil => simp
  | cons e es ih =>
    rw [List.flatMap_cons, List.filter_append, List.length_append,
      ih fun e' he' => hc e' (by simp [he']), List.filter_map, List.length_map, List.length_cons]
    have : (fun p : ℕ × ℕ => p.1 == p.2) ∘ globalIndex (cell e) (0, 0) =
        fun e => decide (e.1 = e.2.1 ∧ e.2.2.1 = e.2.2.2) :=
      funext fun q => globalIndex_diag (cell e) (hc e (by simp)) q
    rw [this, hk]
    ring

set_option maxRecDepth 10000 in
theorem diag_four : ((pattern 4).filter fun e => decide (e.1 = e.2.1 ∧ e.2.2.1 = e.2.2.2)).length = 12 := by
  decide

set_option maxRecDepth 10000 in
theorem diag_three : ((pattern 3).filter fun e => decide (e.1 = e.2.1 ∧ e.2.2.1 = e.2.2.2)).length = 9 := by
  decide

set_option maxRecDepth 10000 in
theorem diag_edge : (edgePattern.filter fun e => decide (e.1 = e.2.1 ∧ e.2.2.1 = e.2.2.2)).length = 12 := by
  decide

theorem diag_inertia {m : ℕ} (bs : List (Body m)) :
    ((inertiaIndices bs (0, 0)).filter fun p => p.1 == p.2).length = inertiaSize bs := by
  have k := inertia_positions (⟨0, fun _ => 0⟩ : Kind m) bs 1
  rw [List.filter_eq_self.2, k.1]
  intro p hp
  simpa using k.2.2.1 p hp

theorem nnz_eq (P : Problem) (hD : P.Distinct) : P.nnz = Sparse.jacobianNnz P.lowerIndices := by
  classical
  have d1 := diag_count (pattern 4) 12 diag_four P.nh (fun e => e.cell) hD.nh
  have d2 := diag_count (pattern 4) 12 diag_four P.snh (fun e => e.cell) hD.snh
  have d3 := diag_count (pattern 3) 9 diag_three P.shell.tris (fun e => e.cell) hD.shell.1
  have d4 := diag_count edgePattern 12 diag_edge P.shell.dihedrals (fun e => e.cell P.shell.faces)
    hD.shell.2
  have l1 := fun M es => (tet_mesh_size M es (fun _ => 0) (fun _ => 0) 0 0 (0, 0)).1
  have s1 := (inertia_positions tetKind P.nhBodies 1).1
  have s2 := (inertia_positions tetKind P.snhBodies 1).1
  have s3 := (inertia_positions triKind P.shellBodies 1).1
  simp only [Problem.nnz, Sparse.jacobianNnz, Problem.lowerIndices]
  by_cases hs : P.isStatic
  · simp only [if_pos hs, List.append_nil, List.filter_append, List.length_append, l1 .nh,
      Shell.indices]
    unfold tetIndices
    rw [d1, d2, d3, d4]
    simp only [tetHessianSize, Shell.hessianSize, List.length_flatMap, List.length_map,
      pattern_three_length, edgePattern_length, List.map_const', List.sum_replicate, smul_eq_mul]
    omega
  · simp only [if_neg hs, List.filter_append, List.length_append, l1 .nh, s1, s2, s3,
      diag_inertia, Shell.indices]
    unfold tetIndices
    rw [d1, d2, d3, d4]
    simp only [tetHessianSize, Shell.hessianSize, List.length_flatMap, List.length_map,
      pattern_three_length, edgePattern_length, List.map_const', List.sum_replicate, smul_eq_mul]
    omega

/-- C66. If the vertices of each element are distinct, the number of entries of the Jacobian is as
announced: the buffers for the positions and the values are filled completely. -/
theorem jacobian_size (P : Problem) (hD : P.Distinct) (x v : ℕ → V3 ℝ) (dqdv fmul : ℝ) :
    P.jacobianIndices.length = P.nnz ∧ (P.jacobianValues x v dqdv fmul).length = P.nnz := by
  have hl := lower_length P x v dqdv fmul
  have hn := nnz_eq P hD
  have hz := Sparse.mirror_zip P.lowerIndices _ hl
  rw [← hn] at hz
  have hc : (P.lowerIndices.filter fun k => k.1 == k.2).length +
      (P.lowerIndices.filter fun k => k.1 != k.2).length = P.lowerIndices.length := by
    generalize P.lowerIndices = l
    induction l with
    | nil => rfl
    | cons a l ih => by_cases h : a.1 = a.2 <;> simp [h] <;> omega
  have hcount : (((P.lowerIndices.zip (P.lowerValues x v dqdv fmul)).filter
      fun e => e.1.1 != e.1.2).map fun e => e.2).length =
      (P.lowerIndices.filter fun k => k.1 != k.2).length := by
    have : ∀ (l : List (ℕ × ℕ)) (w : List ℝ), w.length = l.length →
        (((l.zip w).filter fun e => e.1.1 != e.1.2).map fun e => e.2).length =
          (l.filter fun k => k.1 != k.2).length := by
      intro l
      induction l with
      | nil => intro w _; simp
      | cons a l ih =>
        intro w hw
        cases w with
        | nil => simp at hw
        | cons b w =>
          have := ih w (by simpa using hw)
          by_cases h : a.1 = a.2
          · simpa [h] using this
          · simp only [List.length_map] at this
            simp [h, this]
    exact this _ _ hl
  have hJ : P.nnz = 2 * P.lowerIndices.length -
      (P.lowerIndices.filter fun k => k.1 == k.2).length := hn
  generalize (P.lowerIndices.filter fun k => k.1 == k.2).length = a at hc hJ
  constructor
  · simp only [Problem.jacobianIndices, Sparse.mirrorIndices, List.length_append, List.length_take,
      List.length_map]
    change P.lowerIndices.length + min _ (P.lowerIndices.filter fun k => k.1 != k.2).length = _
    omega
  · simp only [Problem.jacobianValues, Sparse.mirrorValues, List.length_append, List.length_take,
      hcount, hl]
    omega

/-! ## The Jacobian -/

theorem coord_hasDerivAt (r : ℝ → ℕ → V3 ℝ) (w : ℕ → V3 ℝ) (t : ℝ)
    (h : ∀ i, HasD (fun s => r s i) (w i) t) (i : ℕ) :
    HasDerivAt (fun s => coord (r s) i) (coord w i) t := by
  have key : ∀ c : Fin 3, HasDerivAt (fun s => (r s (i / 3)).get c) ((w (i / 3)).get c) t := by
    intro c
    fin_cases c
    · exact (h (i / 3)).1
    · exact (h (i / 3)).2.1
    · exact (h (i / 3)).2.2
  exact key _

theorem coord_add (a b : ℕ → V3 ℝ) (i : ℕ) : coord (fun j => a j + b j) i = coord a i + coord b i :=
  get_add _ _ _

/-- C66. Where the elements are not inverted, the lower triangle of the Jacobian is the derivative of
the residual with respect to the velocities. -/
theorem residual_derivative (P : Problem) (hD : P.Distinct) (hT : 0 ≤ P.timeStep)
    (fm pm : ℝ) (hfm : 0 < fm) (prev v0 x0 : ℕ → V3 ℝ) (v : ℝ → ℕ → V3 ℝ) (w : ℕ → V3 ℝ) (t : ℝ)
    (hv : ∀ i, HasD (fun s => v s i) (w i) t)
    (hs : P.Smooth (place x0 (P.dt * fm) (v t))) :
    ∃ r : ℝ → ℕ → V3 ℝ,
      (∀ᶠ s in nhds t, ∃ f,
        P.residual fm pm prev v0 (place x0 (P.dt * fm) (v s)) (v s) = some (r s, f)) ∧
      ∀ i, HasDerivAt (fun s => coord (r s) i)
        (symMul (P.lowerIndices.zip (P.lowerValues (place x0 (P.dt * fm) (v t)) (v t)
          (P.dt * fm) (P.dt * fm))) (coord w) i) t := by
  classical
  have hq : P.dt * fm ≠ 0 := (mul_pos (dt_pos P hT) hfm).ne'
  have hf := place_follows x0 hq v w t hv
  set q := P.dt * fm with hqdef
  obtain ⟨g1, a1, c1⟩ := tet_mesh_hessian .nh P.nh q (q * q) _ _ _ t hD.nh hf hs.nh
  obtain ⟨g2, a2, c2⟩ := tet_mesh_hessian .snh P.snh q (q * q) _ _ _ t hD.snh hf hs.snh
  have c3 := shell_mesh_hessian P.shell q (q * q) _ _ _ t hD.shell hf hs.shell
  -- divide by the derivative of the positions
  have cut : ∀ (g : ℝ → ℝ) (T : List ((ℕ × ℕ) × ℝ)) (i : ℕ),
      HasDerivAt (fun s => q * q * g s) (symMul T (coord fun i => q • w i) i) t →
      HasDerivAt (fun s => q * g s) (symMul T (coord w) i) t := by
    intro g T i h
    rw [coord_smul, symMul_mul] at h
    have h' := h.const_mul q⁻¹
    have e1 : ∀ a : ℝ, q⁻¹ * (q * q * a) = q * a := fun a => by field_simp
    have e2 : ∀ a : ℝ, q⁻¹ * (q * a) = a := fun a => by field_simp
    simp only [e1, e2] at h'
    exact h'
  refine ⟨fun s i => q • (g1 s i + g2 s i
      + P.shell.gradient (place x0 q (v s)) (v s) q (fun _ => 0) i - P.mass i • P.gravity)
    + (if pm > 0 then (pm * P.dt) • prev i else 0)
    + (if P.isStatic then 0 else P.mass i • (v s i - v0 i)), ?_, fun i => ?_⟩
  · filter_upwards [a1, a2] with s e1 e2
    obtain ⟨r, hr, er⟩ := residual_eq P fm pm prev v0 _ _ _
      (force_eq P (place x0 q (v s)) (v s) q (g1 s) (g2 s) e1 e2)
    rw [funext er] at hr
    exact ⟨_, hr⟩
  · have hm : HasDerivAt (fun s => coord (fun i => if P.isStatic then 0 else
        P.mass i • (v s i - v0 i)) i)
        (symMul (if P.isStatic then [] else
          ((inertiaIndices P.nhBodies (0, 0)).zip (inertiaValues tetKind P.nhBodies 1) ++
            (inertiaIndices P.snhBodies (0, 0)).zip (inertiaValues tetKind P.snhBodies 1)) ++
            (inertiaIndices P.shellBodies (0, 0)).zip (inertiaValues triKind P.shellBodies 1))
          (coord w) i) t := by
      by_cases h : P.isStatic
      · simp only [if_pos h]
        exact (hasDerivAt_const t (0 : ℝ)).congr_of_eventuallyEq
          (Filter.Eventually.of_forall fun s => get_zero _)
      · simp only [if_neg h]
        rw [symMul_append, symMul_append, inertia_hessian tetKind_even, inertia_hessian tetKind_even,
          inertia_hessian triKind_even]
        refine (coord_hasDerivAt _ (fun i => P.mass i • w i) t (fun i => ?_) i).congr_deriv ?_
        · refine (HasD.smul (hasDerivAt_const t (P.mass i))
            ((hv i).sub (HasD.const (v0 i)))).congr ?_
          rw [zero_smul, zero_add, sub_zero]
        · unfold coord
          rw [get_smul, Problem.mass]
          ring
    rw [lower_zip, symMul_append, symMul_append, symMul_append]
    have h1 := cut _ _ i (c1 i)
    have h2 := cut _ _ i (c2 i)
    have h3 := cut _ _ i (c3 i)
    have hc : HasDerivAt (fun _ : ℝ => coord (fun i => -(q • P.mass i • P.gravity)
        + (if pm > 0 then (pm * P.dt) • prev i else 0)) i) 0 t := hasDerivAt_const _ _
    refine ((((h1.fun_add h2).fun_add h3).fun_add hm).fun_add hc).congr_of_eventuallyEq
      (Filter.Eventually.of_forall fun s => ?_) |>.congr_deriv (add_zero _)
    have e : ∀ a b c d e f : V3 ℝ, ∀ k : Fin 3,
        (q • (a + b + c - d) + e + f).get k =
          q * a.get k + q * b.get k + q * c.get k + f.get k + (-(q • d) + e).get k := by
      intro a b c d e f k
      fin_cases k <;> simp [V3.get] <;> ring
    exact e _ _ _ _ _ _ _

/-- C66. Where the elements are not inverted, the Jacobian that is assembled is the derivative of the
residual with respect to the velocities: the triplets, added up where they have the same position,
form the matrix of the derivative. -/
theorem jacobian_derivative (P : Problem) (N : ℕ) (hN : P.Within N) (hD : P.Distinct)
    (hT : 0 ≤ P.timeStep) (fm pm : ℝ) (hfm : 0 < fm) (prev v0 x0 : ℕ → V3 ℝ) (v : ℝ → ℕ → V3 ℝ)
    (w : ℕ → V3 ℝ) (t : ℝ) (hv : ∀ i, HasD (fun s => v s i) (w i) t)
    (hs : P.Smooth (place x0 (P.dt * fm) (v t))) :
    ∃ r : ℝ → ℕ → V3 ℝ,
      (∀ᶠ s in nhds t, ∃ f,
        P.residual fm pm prev v0 (place x0 (P.dt * fm) (v s)) (v s) = some (r s, f)) ∧
      ∀ i, HasDerivAt (fun s => coord (r s) i)
        (∑ j ∈ Finset.range (3 * N), Sparse.storedEntry (P.jacobianIndices.zip
          (P.jacobianValues (place x0 (P.dt * fm) (v t)) (v t) (P.dt * fm) (P.dt * fm))) (i, j)
          * coord w j) t := by
  obtain ⟨r, h1, h2⟩ := residual_derivative P hD hT fm pm hfm prev v0 x0 v w t hv hs
  refine ⟨r, h1, fun i => (h2 i).congr_deriv ?_⟩
  have hp := lower_positions P N hN hD
  rw [← symMul_mirror _ _ (lower_length P _ _ _ _) (3 * N)
    (fun p h => ⟨(hp p h).2, (hp p h).1.trans_lt (hp p h).2⟩)]
  unfold Sparse.mirrored Problem.jacobianIndices Problem.jacobianValues
  rw [nnz_eq P hD]

/-- C66. The Jacobian is symmetric, and it has no entries outside of the matrix. -/
theorem jacobian_symmetric (P : Problem) (N : ℕ) (hN : P.Within N) (hD : P.Distinct)
    (x v : ℕ → V3 ℝ) (dqdv fmul : ℝ) :
    (∀ p ∈ P.jacobianIndices, p.1 < 3 * N ∧ p.2 < 3 * N) ∧
    ∀ i j, Sparse.storedEntry (P.jacobianIndices.zip (P.jacobianValues x v dqdv fmul)) (i, j) =
      Sparse.storedEntry (P.jacobianIndices.zip (P.jacobianValues x v dqdv fmul)) (j, i) := by
  have hp := lower_positions P N hN hD
  constructor
  · intro p h
    rcases List.mem_append.1 h with h | h
    · exact ⟨(hp p h).2, (hp p h).1.trans_lt (hp p h).2⟩
    · obtain ⟨q, hq, rfl⟩ := List.mem_map.1 (List.mem_of_mem_take h)
      have := hp q (List.mem_filter.1 hq).1
      exact ⟨this.1.trans_lt this.2, this.2⟩
  · intro i j
    unfold Problem.jacobianIndices Problem.jacobianValues
    rw [nnz_eq P hD]
    exact Sparse.mirrored_symmetric _ _ (lower_length P _ _ _ _) (fun p h => (hp p h).1) i j

/-- C66. The matrix that the Newton solver builds from the triplets of the Jacobian for the first
`n` scalars (those of the active vertices) is the derivative of the residual with respect to these,
when the other vertices are not changed. -/
theorem newton_matrix_derivative (P : Problem) (N : ℕ) (hN : P.Within N) (hD : P.Distinct)
    (hT : 0 ≤ P.timeStep) (fm pm : ℝ) (hfm : 0 < fm) (prev v0 x0 : ℕ → V3 ℝ) (v : ℝ → ℕ → V3 ℝ)
    (w : ℕ → V3 ℝ) (t : ℝ) (hv : ∀ i, HasD (fun s => v s i) (w i) t)
    (hs : P.Smooth (place x0 (P.dt * fm) (v t))) (n : ℕ) (hn : n ≤ 3 * N)
    (hw : ∀ j, n ≤ j → coord w j = 0) :
    ∃ r : ℝ → ℕ → V3 ℝ,
      (∀ᶠ s in nhds t, ∃ f,
        P.residual fm pm prev v0 (place x0 (P.dt * fm) (v s)) (v s) = some (r s, f)) ∧
      ∀ (T : List ((ℕ × ℕ) × ℝ)), T = P.jacobianIndices.zip
          (P.jacobianValues (place x0 (P.dt * fm) (v t)) (v t) (P.dt * fm) (P.dt * fm)) →
        ∀ i, i < n → HasDerivAt (fun s => coord (r s) i)
          (∑ j ∈ Finset.range n, Sparse.storedEntry
            (Sparse.compress (fun k : Fin T.length => (T.get k).1) (fun k => (T.get k).2) n) (i, j)
            * coord w j) t := by
  obtain ⟨r, h1, h2⟩ := jacobian_derivative P N hN hD hT fm pm hfm prev v0 x0 v w t hv hs
  refine ⟨r, h1, fun T hTeq i hi => (h2 i).congr_deriv ?_⟩
  rw [← hTeq]
  rw [← Finset.sum_subset (Finset.range_subset_range.2 hn)]
  · refine Finset.sum_congr rfl fun j hj => ?_
    rw [Sparse.compress_entry _ _ _ _ ⟨hi, Finset.mem_range.1 hj⟩, Sparse.tripletEntry,
      Sparse.storedEntry]
    congr 1
    rw [← List.sum_ofFn]
    congr 1
    apply List.ext_get
    · simp
    · intro k _ _
      simp
  · intro j _ hj
    rw [hw j (by simpa using hj), mul_zero]

/-! ## The diagonal -/

theorem ofVec_eq (D : ℕ → V3 ℝ) (i : ℕ) : Problem.ofVec D i = coord D i := by
  have h := Nat.mod_lt i (show 3 > 0 by norm_num)
  unfold Problem.ofVec coord
  generalize D (i / 3) = a
  have : ∀ k (hk : k < 3), (if k = 0 then a.x else if k = 1 then a.y else a.z) = a.get ⟨k, hk⟩ := by
    intro k hk
    interval_cases k <;> rfl
  exact this _ h

theorem coord_toVec (D : ℕ → ℝ) (i : ℕ) : coord (Problem.toVec D) i = D i := by
  have h := Nat.mod_lt i (show 3 > 0 by norm_num)
  have e : i = 3 * (i / 3) + i % 3 := by omega
  unfold coord Problem.toVec
  have : ∀ k (hk : k < 3), (⟨D (3 * (i / 3)), D (3 * (i / 3) + 1), D (3 * (i / 3) + 2)⟩ : V3 ℝ).get ⟨k, hk⟩
      = D (3 * (i / 3) + k) := by
    intro k hk
    interval_cases k <;> rfl
  rw [this _ h, ← e]

theorem entryAt_inertia {m : ℕ} {K : Kind m} (hK : K.Even) (bs : List (Body m)) (scale : ℝ) (i : ℕ) :
    entryAt ((inertiaIndices bs (0, 0)).zip (inertiaValues K bs scale)) i i =
      scale * vertexMass bs (i / 3) := by
  have h := inertia_hessian hK bs scale (fun _ => 1) i
  rw [mul_one] at h
  rw [← h, entryAt, symMul]
  congr 1
  refine List.map_congr_left fun e he => ?_
  obtain ⟨⟨r, c⟩, a⟩ := e
  have hd := (inertia_positions K bs scale).2.2.1 _ (List.of_mem_zip he).1
  simp only at hd
  subst hd
  simp

/-- C66. The diagonal of the Jacobian that preconditioners use is the diagonal of the Jacobian: with
a buffer for all vertices it is added without a panic. -/
theorem jacobian_diagonal (P : Problem) (N : ℕ) (hN : P.Within N) (hD : P.Distinct)
    (x v : ℕ → V3 ℝ) (dqdv fmul : ℝ) (D : ℕ → ℝ) :
    ∃ D', P.jacobianDiagonal x v dqdv fmul N D = some D' ∧ ∀ i, i < 3 * N → D' i = D i +
      Sparse.storedEntry (P.jacobianIndices.zip (P.jacobianValues x v dqdv fmul)) (i, i) := by
  classical
  have hlow : ∀ i, Sparse.storedEntry (P.jacobianIndices.zip (P.jacobianValues x v dqdv fmul)) (i, i) =
      entryAt (P.lowerIndices.zip (P.lowerValues x v dqdv fmul)) i i := by
    intro i
    unfold Problem.jacobianIndices Problem.jacobianValues
    rw [nnz_eq P hD]
    have := Sparse.mirrored_entry P.lowerIndices _ (lower_length P x v dqdv fmul)
      (fun p h => (lower_positions P N hN hD p h).1) i i
    rw [if_pos le_rfl] at this
    exact this
  have hE : ∀ i, i < 3 * N → Problem.ofVec (P.shell.diagonal x (dqdv * fmul) N
      (tetDiagonal .snh P.snh x v dqdv (dqdv * fmul) N
        (tetDiagonal .nh P.nh x v dqdv (dqdv * fmul) N (Problem.toVec D)))) i = D i
      + entryAt ((tetIndices P.nh (0, 0)).zip (tetValues .nh P.nh x v dqdv (dqdv * fmul))) i i
      + entryAt ((tetIndices P.snh (0, 0)).zip (tetValues .snh P.snh x v dqdv (dqdv * fmul))) i i
      + entryAt ((P.shell.indices (0, 0)).zip (P.shell.values x (dqdv * fmul))) i i := by
    intro i hi
    have hk : i / 3 < N := by omega
    have e : 3 * (i / 3) + i % 3 = i := by omega
    have hc := Nat.mod_lt i (show 3 > 0 by norm_num)
    rw [ofVec_eq, coord, shell_mesh_diagonal P.shell x _ hD.shell N _ _ hk,
      tet_mesh_diagonal .snh P.snh x v _ _ hD.snh N _ _ hk,
      tet_mesh_diagonal .nh P.nh x v _ _ hD.nh N _ _ hk]
    have : (Problem.toVec D (i / 3)).get ⟨i % 3, hc⟩ = D i := coord_toVec D i
    simp only [this, e]
  by_cases hs : P.isStatic
  · simp only [Problem.jacobianDiagonal, if_pos hs, mul_one]
    refine ⟨_, rfl, fun i hi => ?_⟩
    rw [hlow, lower_zip, if_pos hs, List.append_nil, entryAt_append, entryAt_append, hE i hi]
    ring
  · have w1 : BodiesWithin P.nhBodies N := tetBodies_within hN.nh P.nhDensity
    have w2 : BodiesWithin P.snhBodies N := tetBodies_within hN.snh P.snhDensity
    have w3 : BodiesWithin P.shellBodies N := triBodies_within hN.shell.1 P.shellDensity
    simp only [Problem.jacobianDiagonal, if_neg hs, mul_one,
      (inertia_diagonal _ _ _ N w1 w3 _).1, (inertia_diagonal _ _ _ N w2 w3 _).1,
      (inertia_diagonal _ _ _ N w1 w3 _).2, Option.bind_some]
    refine ⟨_, rfl, fun i hi => ?_⟩
    rw [hlow, lower_zip, if_neg hs]
    simp only [entryAt_append, hE i hi, entryAt_inertia tetKind_even,
      entryAt_inertia triKind_even]
    ring

end Softy.Fem
