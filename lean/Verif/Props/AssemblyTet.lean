import Verif.Props.Assembly
import Verif.Props.TetNhHessian
import Verif.Props.TetSnh

/-!
# C38, C66: gradients and Hessians of whole tetrahedral meshes
-/

noncomputable section

namespace Softy.Assembly

open Softy

/-! ## Specification -/

/-- Positions and velocities as the implicit integrator moves them: the positions follow the
velocities from a fixed starting point, `x = x0 + dqdv * v`, and they have rates `d` at `t`. -/
def Follows (dqdv : ℝ) (x v : ℝ → ℕ → V3 ℝ) (d : ℕ → V3 ℝ) (t : ℝ) : Prop :=
  dqdv ≠ 0 ∧ (∀ i, HasD (fun s => x s i) (d i) t) ∧
    ∃ x0 : ℕ → V3 ℝ, ∀ s i, x s i = x0 i + dqdv • v s i

/-- The element has a smooth energy at the positions `x`: it is not inverted, or the stable model is
used with a positive first Lamé parameter. -/
def Ready (M : TetModel) (e : TetElem) (x : ℕ → V3 ℝ) : Prop :=
  match M with
  | .nh => Tet.Upright e.ref (e.pick x)
  | .snh => 0 < e.ref.lambda

/-- The entry of the matrix with the given triplets. -/
def entryAt (T : List ((ℕ × ℕ) × ℝ)) (r c : ℕ) : ℝ :=
  (T.map fun e => if e.1 = (r, c) then e.2 else 0).sum

/-! ## One element -/

theorem get_smul (c : ℝ) (a : V3 ℝ) (k : Fin 3) : (c • a).get k = c * a.get k := by
  fin_cases k <;> rfl

theorem model_symmMul (M : TetModel) (r : Tet.Ref) (x d : Tet.Verts) (i : Fin 4) :
    symmMul (M.hessian (r.at x)) d i = Tet.spread (M.product (r.at x) d) i := by
  cases M
  · exact Tet.nh_symmMul r x d i
  · exact Tet.snh_symmMul _ d i

theorem model_gradient (M : TetModel) (e : TetElem) (x : ℝ → Tet.Verts) (d : Tet.Verts) (t : ℝ)
    (hx : Tet.Moves x d t) (hr : match M with
      | .nh => Tet.Upright e.ref (x t)
      | .snh => 0 < e.ref.lambda) :
    ∃ (W : ℝ → ℝ) (g : Tet.Verts), (∀ᶠ s in nhds t, M.energy (e.ref.at (x s)) = some (W s)) ∧
      M.gradient (e.ref.at (x t)) = some g ∧ HasDerivAt W (∑ n, V3.dot (g n) (d n)) t := by
  cases M
  · exact Tet.nh_gradient e.ref x d t hx hr
  · obtain ⟨W, g, h1, h2, h3⟩ := Tet.snh_gradient e.ref x d t hx hr
    exact ⟨W, g, Filter.Eventually.of_forall h1, h2, h3⟩

theorem model_hessian (M : TetModel) (e : TetElem) (x : ℝ → Tet.Verts) (d : Tet.Verts) (t : ℝ)
    (hx : Tet.Moves x d t) (hr : match M with
      | .nh => Tet.Upright e.ref (x t)
      | .snh => 0 < e.ref.lambda) :
    ∃ G : ℝ → Tet.Verts, (∀ᶠ s in nhds t, M.gradient (e.ref.at (x s)) = some (G s)) ∧
      ∀ i, HasD (fun s => G s i) (symmMul (M.hessian (e.ref.at (x t))) d i) t := by
  cases M
  · exact Tet.nh_hessian e.ref x d t hx hr
  · obtain ⟨G, h1, h2⟩ := Tet.snh_hessian e.ref x d t hx hr
    exact ⟨G, Filter.Eventually.of_forall h1, h2⟩

theorem Follows.velocity {dqdv : ℝ} {x v : ℝ → ℕ → V3 ℝ} {d : ℕ → V3 ℝ} {t : ℝ}
    (h : Follows dqdv x v d t) (i : ℕ) : HasD (fun s => v s i) (dqdv⁻¹ • d i) t := by
  obtain ⟨hq, hx, x0, h0⟩ := h
  have e : ∀ s, v s i = dqdv⁻¹ • (x s i - x0 i) := by
    intro s
    rw [h0]
    ext <;> simp <;> field_simp
  have := HasD.smul (hasDerivAt_const t dqdv⁻¹) ((hx i).sub (HasD.const (x0 i)))
  refine (this.congr_of_eventuallyEq (Filter.Eventually.of_forall fun s => e s)).congr ?_
  ext <;> simp

theorem Follows.prev {dqdv : ℝ} {x v : ℝ → ℕ → V3 ℝ} {d : ℕ → V3 ℝ} {t : ℝ}
    (h : Follows dqdv x v d t) (e : TetElem) :
    ∃ y : Tet.Verts, ∀ s, e.prev (x s) (v s) dqdv = e.ref.at y := by
  obtain ⟨hq, hx, x0, h0⟩ := h
  refine ⟨fun i => x0 (e.cell i), fun s => ?_⟩
  unfold TetElem.prev
  congr 1
  funext i
  simp only [TetElem.pick, h0]
  ext <;> simp

theorem spread_work (H : M3 ℝ) (v : Tet.Verts) :
    V3.dot H.r0 (v 0) + V3.dot H.r1 (v 1) + V3.dot H.r2 (v 2)
        - (V3.dot H.r0 (v 3) + V3.dot H.r1 (v 3) + V3.dot H.r2 (v 3)) =
      ∑ n, V3.dot (Tet.spread H n) (v n) := by
  simp only [Fin.sum_univ_four, Tet.spread]
  simp [V3.dot]
  ring

theorem spread_grad (H : M3 ℝ) (g : Tet.Verts) (c : ℝ) :
    (![g 0 + c • H.r0, g 1 + c • H.r1, g 2 + c • H.r2, g 3 - c • H.r0 - c • H.r1 - c • H.r2]
      : Tet.Verts) = fun n => g n + c • Tet.spread H n := by
  funext n
  fin_cases n
  · rfl
  · rfl
  · rfl
  · simp only [Tet.spread]
    ext <;> simp <;> ring

/-- The energy of an element, including damping, has the computed gradient. -/
theorem tet_elem_gradient (M : TetModel) (e : TetElem) (dqdv : ℝ) (x v : ℝ → ℕ → V3 ℝ)
    (d : ℕ → V3 ℝ) (t : ℝ) (hf : Follows dqdv x v d t) (hr : Ready M e (x t)) :
    ∃ (W : ℝ → ℝ) (g : Tet.Verts), (∀ᶠ s in nhds t, e.energy M (x s) (v s) dqdv = some (W s)) ∧
      e.gradient M (x t) (v t) dqdv = some g ∧
      HasDerivAt W (∑ n, V3.dot (g n) (d (e.cell n))) t := by
  obtain ⟨y, hy⟩ := hf.prev e
  have hx : Tet.Moves (fun s => e.pick (x s)) (fun n => d (e.cell n)) t := fun n => hf.2.1 _
  obtain ⟨W, g, h1, h2, h3⟩ := model_gradient M e (fun s => e.pick (x s)) _ t hx (by
    cases M <;> exact hr)
  set H := M.hessian (e.ref.at y) with hH
  have hv : ∀ n, HasD (fun s => e.pick (v s) n) (dqdv⁻¹ • d (e.cell n)) t :=
    fun n => hf.velocity _
  have hq := hf.1
  refine ⟨fun s => W s + 0.5 * e.damping * (dqdv * dqdv) *
    ∑ n, V3.dot (symmMul H (e.pick (v s)) n) (e.pick (v s) n),
    fun n => g n + (e.damping * dqdv) • symmMul H (e.pick (v t)) n, ?_, ?_, ?_⟩
  · refine h1.mono fun s hs => ?_
    simp only [TetElem.energy, hs, Option.map_some, hy, spread_work, hH, model_symmMul]
  · simp only [TetElem.gradient, h2, Option.map_some, hy, spread_grad, hH, model_symmMul]
  · have hd : HasDerivAt (fun s => ∑ n, V3.dot (symmMul H (e.pick (v s)) n) (e.pick (v s) n))
        (∑ n, (V3.dot (symmMul H (fun n => dqdv⁻¹ • d (e.cell n)) n) (e.pick (v t) n)
          + V3.dot (symmMul H (e.pick (v t)) n) (dqdv⁻¹ • d (e.cell n)))) t :=
      HasDerivAt.fun_sum fun n _ => (hasD_symmMul H _ _ t hv n).dot (hv n)
    refine (h3.fun_add (hd.const_mul _)).congr_deriv ?_
    rw [Finset.sum_add_distrib, symmMul_comm H (fun n => dqdv⁻¹ • d (e.cell n))]
    have e1 : ∀ n, V3.dot (symmMul H (e.pick (v t)) n) (dqdv⁻¹ • d (e.cell n)) =
        dqdv⁻¹ * V3.dot (symmMul H (e.pick (v t)) n) (d (e.cell n)) := by
      intro n; simp [V3.dot]; ring
    have e2 : ∀ n, V3.dot (g n + (e.damping * dqdv) • symmMul H (e.pick (v t)) n) (d (e.cell n)) =
        V3.dot (g n) (d (e.cell n))
          + (e.damping * dqdv) * V3.dot (symmMul H (e.pick (v t)) n) (d (e.cell n)) := by
      intro n; simp [V3.dot]; ring
    simp only [e1, e2, Finset.sum_add_distrib, ← Finset.mul_sum]
    field_simp
    ring

/-- The gradient of an element, including damping, changes at the rate given by the local Hessian. -/
theorem tet_elem_hessian (M : TetModel) (e : TetElem) (dqdv scale : ℝ) (x v : ℝ → ℕ → V3 ℝ)
    (d : ℕ → V3 ℝ) (t : ℝ) (hf : Follows dqdv x v d t) (hr : Ready M e (x t)) :
    ∃ G : ℝ → Tet.Verts, (∀ᶠ s in nhds t, e.gradient M (x s) (v s) dqdv = some (G s)) ∧
      ∀ n, HasD (fun s => scale • G s n)
        (symmMul (e.hessian M (x t) (v t) dqdv scale) (fun k => d (e.cell k)) n) t := by
  obtain ⟨y, hy⟩ := hf.prev e
  have hx : Tet.Moves (fun s => e.pick (x s)) (fun n => d (e.cell n)) t := fun n => hf.2.1 _
  obtain ⟨G, h1, h2⟩ := model_hessian M e (fun s => e.pick (x s)) _ t hx (by
    cases M <;> exact hr)
  set H := M.hessian (e.ref.at y) with hH
  have hv : ∀ n, HasD (fun s => e.pick (v s) n) (dqdv⁻¹ • d (e.cell n)) t :=
    fun n => hf.velocity _
  have hq := hf.1
  refine ⟨fun s n => G s n + (e.damping * dqdv) • symmMul H (e.pick (v s)) n, ?_, fun n => ?_⟩
  · refine h1.mono fun s hs => ?_
    simp only [TetElem.gradient, hs, Option.map_some, hy, spread_grad, hH, model_symmMul]
  · have hd := HasD.smul (hasDerivAt_const t (e.damping * dqdv)) (hasD_symmMul H _ _ t hv n)
    refine (HasD.smul (hasDerivAt_const t scale) ((h2 n).add hd)).congr ?_
    unfold TetElem.hessian
    rw [symmMul_mul, symmMul_add, symmMul_mul, symmMul_smul, hy, ← hH]
    have e1 : e.damping * dqdv * dqdv⁻¹ = e.damping := by field_simp
    ext <;> simp [← mul_assoc, e1]

/-! ## The whole mesh -/

theorem zip_map_right {ι α : Type} (es : List ι) (w : ι → α) :
    es.zip (es.map w) = es.map fun e => (e, w e) := by
  induction es with
  | nil => rfl
  | cons e es ih => simp [ih]

theorem tetGradient_eq (M : TetModel) (es : List TetElem) (x v : ℕ → V3 ℝ) (dqdv : ℝ)
    (w : TetElem → Tet.Verts) (h : ∀ e ∈ es, e.gradient M x v dqdv = some (w e)) (G : ℕ → V3 ℝ) :
    tetGradient M es x v dqdv G =
      some fun i => G i + vertexSum (es.flatMap fun e => zipCell e.cell (w e)) i := by
  simp only [tetGradient, collect_some es _ w h, Option.map_some, zip_map_right, List.flatMap_map]
  congr 1
  funext i
  exact addAll_apply _ _ _

theorem eventually_all {ι : Type} (es : List ι) (p : ℝ → ι → Prop) (t : ℝ)
    (h : ∀ e ∈ es, ∀ᶠ s in nhds t, p s e) : ∀ᶠ s in nhds t, ∀ e ∈ es, p s e := by
  induction es with
  | nil => simp
  | cons e es ih =>
    filter_upwards [h e (by simp), ih fun e' he' => h e' (by simp [he'])] with s h1 h2 e' he'
    rcases List.mem_cons.1 he' with rfl | he'
    · exact h1
    · exact h2 e' he'

theorem map_flatMap_work {ι : Type} {m : ℕ} (es : List ι) (cell : ι → Fin m → ℕ)
    (g : ι → Fin m → V3 ℝ) (d : ℕ → V3 ℝ) :
    ((es.flatMap fun e => zipCell (cell e) (g e)).map fun p => V3.dot p.2 (d p.1)).sum =
      (es.map fun e => ∑ n, V3.dot (g e n) (d (cell e n))).sum := by
  induction es with
  | nil => rfl
  | cons e es ih =>
    rw [List.flatMap_cons, List.map_append, List.sum_append, ih, List.map_cons, List.sum_cons]
    congr 1
    simp only [zipCell, List.map_map]
    rw [← List.ofFn_eq_map, List.sum_ofFn]
    rfl

theorem mem_zipCell {m : ℕ} {cell : Fin m → ℕ} {g : Fin m → V3 ℝ} {p : ℕ × V3 ℝ}
    (h : p ∈ zipCell cell g) : ∃ n, p.1 = cell n := by
  simp only [zipCell, List.mem_map] at h
  obtain ⟨n, _, rfl⟩ := h
  exact ⟨n, rfl⟩

/-- C38. As long as the elements are not inverted, the gradient computed for the whole mesh is the
derivative of the energy computed for the whole mesh, damping included: when the vertices move along
any differentiable path that follows the velocities, the energy changes at the rate at which the
gradient does work on the velocities. -/
theorem tet_mesh_gradient (M : TetModel) (es : List TetElem) (dqdv : ℝ) (x v : ℝ → ℕ → V3 ℝ)
    (d : ℕ → V3 ℝ) (t : ℝ) (N : ℕ) (hN : ∀ e ∈ es, ∀ n, e.cell n < N)
    (hf : Follows dqdv x v d t) (hr : ∀ e ∈ es, Ready M e (x t)) :
    ∃ (W : ℝ → ℝ) (g : ℕ → V3 ℝ),
      (∀ᶠ s in nhds t, tetEnergy M es (x s) (v s) dqdv = some (W s)) ∧
      (∀ G, tetGradient M es (x t) (v t) dqdv G = some fun i => G i + g i) ∧
      HasDerivAt W (∑ i ∈ Finset.range N, V3.dot (g i) (d i)) t := by
  classical
  have hloc : ∀ e : TetElem, ∃ (W : ℝ → ℝ) (g : Tet.Verts), e ∈ es →
      (∀ᶠ s in nhds t, e.energy M (x s) (v s) dqdv = some (W s)) ∧
      e.gradient M (x t) (v t) dqdv = some g ∧
      HasDerivAt W (∑ n, V3.dot (g n) (d (e.cell n))) t := by
    intro e
    by_cases he : e ∈ es
    · obtain ⟨W, g, h⟩ := tet_elem_gradient M e dqdv x v d t hf (hr e he)
      exact ⟨W, g, fun _ => h⟩
    · exact ⟨0, 0, fun h => absurd h he⟩
  choose W g h using hloc
  refine ⟨fun s => (es.map fun e => W e s).sum,
    vertexSum (es.flatMap fun e => zipCell e.cell (g e)), ?_, ?_, ?_⟩
  · refine (eventually_all es _ t fun e he => (h e he).1).mono fun s hs => ?_
    exact sumEnergies_some es _ (fun e => W e s) hs
  · exact tetGradient_eq M es _ _ _ g fun e he => (h e he).2.1
  · rw [work_vertexSum, map_flatMap_work]
    · exact hasDerivAt_list_sum es (fun s e => W e s) _ t fun e he => (h e he).2.2
    · intro p hp
      obtain ⟨e, he, hp⟩ := List.mem_flatMap.1 hp
      obtain ⟨n, hn⟩ := mem_zipCell hp
      rw [hn]; exact hN e he n

theorem tet_zip (M : TetModel) (es : List TetElem) (x v : ℕ → V3 ℝ) (dqdv scale : ℝ) :
    (tetIndices es (0, 0)).zip (tetValues M es x v dqdv scale) =
      es.flatMap fun e => elemTriplets (pattern 4) e.cell (e.hessian M x v dqdv scale) := by
  unfold tetIndices tetValues
  rw [zip_flatMap _ _ _ fun e => by simp]
  rfl

theorem scale_vertexSum (l : List (ℕ × V3 ℝ)) (c : ℝ) (i : ℕ) :
    c • vertexSum l i = vertexSum (l.map fun p => (p.1, c • p.2)) i := by
  induction l with
  | nil => ext <;> simp [vertexSum]
  | cons a l ih =>
    have e : ∀ (a : ℕ × V3 ℝ) l, vertexSum (a :: l) i =
        (if a.1 = i then a.2 else 0) + vertexSum l i := fun a l => rfl
    rw [List.map_cons, e, e, ← ih]
    split_ifs <;> (ext <;> simp <;> ring)

theorem scale_zipCell {ι : Type} {m : ℕ} (es : List ι) (cell : ι → Fin m → ℕ)
    (g : ι → Fin m → V3 ℝ) (c : ℝ) :
    (es.flatMap fun e => zipCell (cell e) (g e)).map (fun p => (p.1, c • p.2)) =
      es.flatMap fun e => zipCell (cell e) fun n => c • g e n := by
  rw [List.map_flatMap]
  congr 1
  funext e
  simp [zipCell, Function.comp_def]

/-- C38. The triplets computed for the whole mesh, read as a symmetric matrix, are `scale` times the
derivative of the computed gradient, damping included: along any differentiable path that follows the
velocities, each component of the gradient changes at the rate given by the product of the matrix
with the rates of the coordinates. -/
theorem tet_mesh_hessian (M : TetModel) (es : List TetElem) (dqdv scale : ℝ) (x v : ℝ → ℕ → V3 ℝ)
    (d : ℕ → V3 ℝ) (t : ℝ) (hc : ∀ e ∈ es, Function.Injective e.cell)
    (hf : Follows dqdv x v d t) (hr : ∀ e ∈ es, Ready M e (x t)) :
    ∃ g : ℝ → ℕ → V3 ℝ,
      (∀ᶠ s in nhds t, ∀ G, tetGradient M es (x s) (v s) dqdv G = some fun i => G i + g s i) ∧
      ∀ i, HasDerivAt (fun s => scale * coord (g s) i)
        (symMul ((tetIndices es (0, 0)).zip (tetValues M es (x t) (v t) dqdv scale)) (coord d) i)
        t := by
  classical
  have hloc : ∀ e : TetElem, ∃ G : ℝ → Tet.Verts, e ∈ es →
      (∀ᶠ s in nhds t, e.gradient M (x s) (v s) dqdv = some (G s)) ∧
      ∀ n, HasD (fun s => scale • G s n)
        (symmMul (e.hessian M (x t) (v t) dqdv scale) (fun k => d (e.cell k)) n) t := by
    intro e
    by_cases he : e ∈ es
    · obtain ⟨G, h⟩ := tet_elem_hessian M e dqdv scale x v d t hf (hr e he)
      exact ⟨G, fun _ => h⟩
    · exact ⟨0, fun h => absurd h he⟩
  choose G h using hloc
  refine ⟨fun s => vertexSum (es.flatMap fun e => zipCell e.cell (G e s)), ?_, fun i => ?_⟩
  · refine (eventually_all es _ t fun e he => (h e he).1).mono fun s hs => ?_
    exact tetGradient_eq M es _ _ _ (fun e => G e s) hs
  · have h1 := hasD_elements pattern_four es (fun e => e.cell) hc
      (fun s e n => scale • G e s n) (fun e => e.hessian M (x t) (v t) dqdv scale) d t
      (fun e he n => (h e he).2 n) (i / 3) ⟨i % 3, Nat.mod_lt _ (by norm_num)⟩
    rw [tet_zip]
    have e1 : 3 * (i / 3) + i % 3 = i := Nat.div_add_mod i 3
    simp only [e1] at h1
    refine h1.congr_of_eventuallyEq (Filter.Eventually.of_forall fun s => ?_)
    simp only [← scale_zipCell, ← scale_vertexSum]
    unfold coord
    rw [get_smul]

/-- C38. The matrix has as many triplets as advertised, and as many values as positions. -/
theorem tet_mesh_size (M : TetModel) (es : List TetElem) (x v : ℕ → V3 ℝ) (dqdv scale : ℝ)
    (o : ℕ × ℕ) :
    (tetIndices es o).length = tetHessianSize es ∧
      (tetValues M es x v dqdv scale).length = tetHessianSize es := by
  constructor <;>
    simp [tetIndices, tetValues, tetHessianSize, List.length_flatMap, pattern_four_length] <;>
    induction es <;> simp_all <;> ring

theorem mem_indices {m : ℕ} {P : List (Entry m)} {cell : Fin m → ℕ} {o p : ℕ × ℕ}
    (h : p ∈ P.map (globalIndex cell o)) : ∃ e ∈ P, p = globalIndex cell o e := by
  obtain ⟨e, he, rfl⟩ := List.mem_map.1 h
  exact ⟨e, he, rfl⟩

/-- C38. If the vertices of each element are distinct, all positions are on or below the diagonal,
within the matrix, and each element has no position twice. An offset shifts all positions. -/
theorem tet_mesh_positions (es : List TetElem) (N : ℕ) (hN : ∀ e ∈ es, ∀ n, e.cell n < N)
    (hc : ∀ e ∈ es, Function.Injective e.cell) :
    (∀ o, ∀ p ∈ tetIndices es (o, o), p.2 ≤ p.1 ∧ p.1 < 3 * N + o) ∧
    (∀ e ∈ es, ∀ o, (tetIndices [e] o).Nodup) ∧
    (∀ o, tetIndices es o = (tetIndices es (0, 0)).map fun p => (p.1 + o.1, p.2 + o.2)) := by
  refine ⟨fun o p hp => ?_, fun e he o => ?_, fun o => ?_⟩
  · obtain ⟨e, he, hp⟩ := List.mem_flatMap.1 hp
    obtain ⟨q, hq, rfl⟩ := mem_indices hp
    exact ⟨globalIndex_lower _ (hc e he) _ _ ((pattern_four.2 q).1 hq),
      (globalIndex_bound _ N (hN e he) _ _).1⟩
  · simpa [tetIndices] using globalIndex_nodup pattern_four e.cell (hc e he) o
  · simp only [tetIndices, List.map_flatMap, List.map_map]
    congr 1
    funext e
    refine List.map_congr_left fun q _ => ?_
    exact globalIndex_offset _ _ _

/-- Element with two equal vertices: an entry ends up above the diagonal. The mesh has to be free of
such elements for the matrix to be lower triangular. -/
theorem tet_mesh_positions_degenerate :
    ∃ e : TetElem, ∃ p ∈ tetIndices [e] (0, 0), p.1 < p.2 := by
  refine ⟨⟨fun _ => 0, ⟨M3.diag 1, 1, 1, 1⟩, 0⟩, (0, 1), ?_, by norm_num⟩
  simp only [tetIndices, List.flatMap_cons, List.flatMap_nil, List.append_nil, List.mem_map]
  exact ⟨(1, 0, 0, 1), (pattern_four.2 _).2 (by decide), by simp [globalIndex]⟩

/-! ## Diagonal -/

theorem entryAt_append (T T' : List ((ℕ × ℕ) × ℝ)) (r c : ℕ) :
    entryAt (T ++ T') r c = entryAt T r c + entryAt T' r c := by simp [entryAt]

theorem entryAt_flatMap {ι : Type} (es : List ι) (f : ι → List ((ℕ × ℕ) × ℝ)) (r c : ℕ) :
    entryAt (es.flatMap f) r c = (es.map fun e => entryAt (f e) r c).sum := by
  induction es with
  | nil => rfl
  | cons e es ih => rw [List.flatMap_cons, entryAt_append, ih]; rfl

theorem map_sum_exact {m : ℕ} {P : List (Entry m)} (hP : Exact P) (f : Entry m → ℝ) :
    (P.map f).sum = ∑ e ∈ Finset.univ.filter IsLower, f e := by
  classical
  rw [← List.sum_toFinset f hP.1]
  refine Finset.sum_congr ?_ fun _ _ => rfl
  ext e
  simp [hP.2 e]

/-- The diagonal entries of the triplets of an element with distinct vertices. -/
theorem elem_diagonal {m : ℕ} {P : List (Entry m)} (hP : Exact P) (cell : Fin m → ℕ)
    (hc : Function.Injective cell) (h : LocalHess m) (v : ℕ) (c : Fin 3) :
    entryAt (elemTriplets P cell h) (3 * v + c.val) (3 * v + c.val) =
      ∑ n, if cell n = v then h n n c c else 0 := by
  have e0 : entryAt (elemTriplets P cell h) (3 * v + c.val) (3 * v + c.val) =
      (P.map fun e => if globalIndex cell (0, 0) e = (3 * v + c.val, 3 * v + c.val)
        then entryValue h e else 0).sum := by
    simp only [entryAt, elemTriplets, List.map_map]; rfl
  have key : ∀ e : Entry m, IsLower e → (globalIndex cell (0, 0) e = (3 * v + c.val, 3 * v + c.val) ↔
      ∃ n, cell n = v ∧ e = (n, n, c, c)) := by
    rintro ⟨n, k, row, col⟩ he
    constructor
    · intro hg
      have hrow := row.isLt
      have hcol := col.isLt
      have hcc := c.isLt
      have : (3 * cell n + row.val = 3 * v + c.val) ∧ (3 * cell k + col.val = 3 * v + c.val) := by
        simp only [globalIndex] at hg
        split_ifs at hg
        · simp only [Prod.mk.injEq] at hg; omega
        · simp only [Prod.mk.injEq] at hg; omega
      obtain ⟨h1, h2⟩ := this
      obtain ⟨h1a, h1b⟩ := (index_inj hrow hcc).1 h1
      obtain ⟨h2a, h2b⟩ := (index_inj hcol hcc).1 h2
      refine ⟨n, h1a, ?_⟩
      obtain rfl := hc (h1a.trans h2a.symm)
      rw [Fin.ext h1b, Fin.ext h2b]
    · rintro ⟨n', rfl, h'⟩
      simp only [Prod.mk.injEq] at h'
      obtain ⟨rfl, rfl, rfl, rfl⟩ := h'
      simp [globalIndex]
  rw [e0, map_sum_exact hP]
  by_cases hv : ∃ n, cell n = v
  · obtain ⟨n, rfl⟩ := hv
    rw [Finset.sum_eq_single (n, n, c, c), Finset.sum_eq_single n]
    · rw [if_pos ((key (n, n, c, c) (Or.inr ⟨rfl, le_refl _⟩)).2 ⟨n, rfl, rfl⟩)]
      simp [entryValue]
    · intro n' _ hn'
      rw [if_neg fun h' => hn' (hc h')]
    · simp
    · intro e he hne
      rw [if_neg]
      intro h'
      obtain ⟨n', h1, h2⟩ := (key e (Finset.mem_filter.1 he).2).1 h'
      obtain rfl := hc h1
      exact hne h2
    · intro h'
      exact absurd (Finset.mem_filter.2 ⟨Finset.mem_univ (n, n, c, c), Or.inr ⟨rfl, le_refl c⟩⟩) h'
  · rw [Finset.sum_eq_zero, Finset.sum_eq_zero]
    · intro n _
      rw [if_neg fun h' => hv ⟨n, h'⟩]
    · intro e he
      rw [if_neg]
      intro h'
      obtain ⟨n', h1, _⟩ := (key e (Finset.mem_filter.1 he).2).1 h'
      exact hv ⟨n', h1⟩

theorem get_diag3 (h : Fin 3 → Fin 3 → ℝ) (c : Fin 3) : (diag3 h).get c = h c c := by
  fin_cases c <;> rfl

/-- C38. The separately computed diagonal is the diagonal of the matrix of the triplets (for the
vertices for which there is room in the result). -/
theorem tet_mesh_diagonal (M : TetModel) (es : List TetElem) (x v : ℕ → V3 ℝ) (dqdv scale : ℝ)
    (hc : ∀ e ∈ es, Function.Injective e.cell) (len : ℕ) (D : ℕ → V3 ℝ) (i : ℕ) (hi : i < len)
    (c : Fin 3) :
    (tetDiagonal M es x v dqdv scale len D i).get c = (D i).get c +
      entryAt ((tetIndices es (0, 0)).zip (tetValues M es x v dqdv scale))
        (3 * i + c.val) (3 * i + c.val) := by
  unfold tetDiagonal
  rw [addBelow_apply, if_pos hi, get_add]
  congr 1
  rw [tet_zip, entryAt_flatMap]
  change (vertexSum _ i).get c = _
  rw [vertexSum_flatMap, get_list_sum]
  congr 1
  refine List.map_congr_left fun e he => ?_
  rw [elem_diagonal pattern_four e.cell (hc e he), vertexSum_zipCell, get_sum]
  refine Finset.sum_congr rfl fun n _ => ?_
  split_ifs
  · simp only [get_smul, get_add, get_diag3, TetElem.hessian]; ring
  · simp

/-! ## A concrete case -/

/-- Two tetrahedra with a common face, of which one vertex moves. -/
example : ∃ (es : List TetElem) (x v : ℝ → ℕ → V3 ℝ) (d : ℕ → V3 ℝ), es.length = 2 ∧
    Follows (1 / 2) x v d 0 ∧ (∀ e ∈ es, Ready .nh e (x 0)) ∧ (∀ e ∈ es, Ready .snh e (x 0)) ∧
    (∀ e ∈ es, Function.Injective e.cell) ∧ (∀ e ∈ es, ∀ n, e.cell n < 5) ∧ d 0 ≠ 0 := by
  let p : ℕ → V3 ℝ := fun i => match i with
    | 0 => ⟨1, 0, 0⟩
    | 1 => ⟨0, 1, 0⟩
    | 2 => ⟨0, 0, 1⟩
    | 4 => ⟨1, 1, 1⟩
    | _ => 0
  let d : ℕ → V3 ℝ := fun i => if i = 0 then ⟨1, 0, 0⟩ else 0
  refine ⟨[⟨![0, 1, 2, 3], ⟨M3.diag 1, 1, 1, 1⟩, 1⟩, ⟨![0, 2, 1, 4], ⟨M3.diag 1, 1, 1, 1⟩, 1⟩],
    fun s i => p i + s • d i, fun s i => (2 * s) • d i, d, rfl, ⟨by norm_num, ?_, p, ?_⟩, ?_, ?_,
    ?_, ?_, ?_⟩
  · exact fun i => HasD.line _ _
  · intro s i
    ext <;> simp <;> ring
  · intro e he
    simp only [List.mem_cons, List.not_mem_nil, or_false] at he
    rcases he with rfl | rfl <;>
      simp [Ready, Tet.Upright, TetElem.pick, Tet.shape, M3.det, V3.dot, V3.cross, M3.diag, p]
  · intro e he
    simp only [List.mem_cons, List.not_mem_nil, or_false] at he
    rcases he with rfl | rfl <;> simp [Ready]
  · intro e he
    simp only [List.mem_cons, List.not_mem_nil, or_false] at he
    rcases he with rfl | rfl <;> (intro a b; revert a b; decide)
  · intro e he
    simp only [List.mem_cons, List.not_mem_nil, or_false] at he
    rcases he with rfl | rfl <;> (intro n; revert n; decide)
  · intro h
    have := congrArg V3.x h
    simp [d] at this

end Softy.Assembly
