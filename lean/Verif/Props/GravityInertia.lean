import Verif.Model.Objective
import Verif.Props.AssemblyTet

/-!
# C37: gravity and inertia of lumped masses
-/

noncomputable section

namespace Softy.Fem

open Softy Assembly

/-! ## Specification -/

variable {m : ℕ}

/-- The mass of an element. -/
def Body.mass (b : Body m) : ℝ := b.measure * b.density

/-- The mass at a vertex: each element divides its mass evenly between its vertices. -/
def vertexMass (bs : List (Body m)) (i : ℕ) : ℝ :=
  (bs.map fun b => ∑ n, if b.cell n = i then b.mass / (m : ℝ) else (0 : ℝ)).sum

/-- The mass of all elements. -/
def totalMass (bs : List (Body m)) : ℝ := (bs.map Body.mass).sum

/-- All elements are made of the first `N` vertices. -/
def BodiesWithin (bs : List (Body m)) (N : ℕ) : Prop := ∀ b ∈ bs, ∀ n, b.cell n < N

/-- The elements give the same share of their mass to each vertex, the shares add up to one, and the
centroid is the mean of the vertices. -/
def Kind.Even (K : Kind m) : Prop :=
  m ≠ 0 ∧ m * K.share = 1 ∧ ∀ p, K.centroid p = K.share • ∑ n, p n

/-! ## Lemmas -/

instance : Module ℝ (V3 ℝ) where
  one_smul a := by ext <;> simp
  mul_smul r s a := by ext <;> simp [mul_assoc]
  smul_zero r := by ext <;> simp
  smul_add r a b := by ext <;> simp [mul_add]
  add_smul r s a := by ext <;> simp [add_mul]
  zero_smul a := by ext <;> simp

theorem tetKind_even : tetKind.Even := by
  refine ⟨by norm_num, by norm_num [tetKind], fun p => ?_⟩
  simp only [tetKind, Fin.sum_univ_four]

theorem triKind_even : triKind.Even := by
  refine ⟨by norm_num, by norm_num [triKind], fun p => ?_⟩
  simp only [triKind, Fin.sum_univ_three]

theorem Kind.Even.lump {K : Kind m} (hK : K.Even) (b : Body m) : b.lump K = b.mass / m := by
  have h : (m : ℝ) ≠ 0 := by exact_mod_cast hK.1
  have h2 : K.share = 1 / m := by rw [eq_div_iff h, mul_comm]; exact hK.2.1
  rw [Body.lump, h2, Body.mass]; ring

theorem list_sum_smul {ι : Type} (l : List ι) (f : ι → ℝ) (a : V3 ℝ) :
    (l.map fun e => f e • a).sum = (l.map f).sum • a := by
  induction l with
  | nil => simp
  | cons e l ih => simp [ih, add_smul]

theorem list_sum_neg {ι : Type} (l : List ι) (f : ι → V3 ℝ) :
    (l.map fun e => -f e).sum = -(l.map f).sum := by
  induction l with
  | nil => simp
  | cons e l ih => simp only [List.map_cons, List.sum_cons, ih, neg_add]

/-- What each element does at its vertices, summed up at a vertex. -/
theorem vertexSum_bodies {K : Kind m} (hK : K.Even) (bs : List (Body m)) (f : ℕ → V3 ℝ) (i : ℕ) :
    vertexSum (bs.flatMap fun b => zipCell b.cell fun n => b.lump K • f (b.cell n)) i =
      vertexMass bs i • f i := by
  rw [vertexSum_flatMap, vertexMass, ← list_sum_smul]
  congr 1
  refine List.map_congr_left fun b _ => ?_
  rw [vertexSum_zipCell, Finset.sum_smul]
  refine Finset.sum_congr rfl fun n _ => ?_
  by_cases h : b.cell n = i
  · rw [if_pos h, if_pos h, hK.lump, h]
  · rw [if_neg h, if_neg h, zero_smul]

/-- A sum over the vertices of all elements, weighted by their shares. -/
theorem sum_bodies (bs : List (Body m)) (N : ℕ) (hN : BodiesWithin bs N) (f : ℕ → ℝ) :
    (bs.map fun b => ∑ n, b.mass / m * f (b.cell n)).sum =
      ∑ i ∈ Finset.range N, vertexMass bs i * f i := by
  induction bs with
  | nil => simp [vertexMass]
  | cons b bs ih =>
    have e : ∀ i, vertexMass (b :: bs) i =
        (∑ n, if b.cell n = i then b.mass / m else 0) + vertexMass bs i := fun i => rfl
    simp only [e, add_mul, Finset.sum_add_distrib, List.map_cons, List.sum_cons]
    rw [ih fun b' hb' => hN b' (by simp [hb'])]
    congr 1
    simp only [Finset.sum_mul]
    rw [Finset.sum_comm]
    refine Finset.sum_congr rfl fun n _ => ?_
    rw [Finset.sum_eq_single (b.cell n)]
    · simp
    · intro i _ hi
      rw [if_neg (Ne.symm hi), zero_mul]
    · intro h
      exact absurd (Finset.mem_range.2 (hN b (by simp) n)) h

theorem dot_smul_left (c : ℝ) (a b : V3 ℝ) : V3.dot (c • a) b = c * V3.dot a b := by
  simp [V3.dot]; ring

theorem dot_smul_right (c : ℝ) (a b : V3 ℝ) : V3.dot a (c • b) = c * V3.dot a b := by
  simp [V3.dot]; ring

theorem dot_sum_right {ι : Type} (S : Finset ι) (a : V3 ℝ) (f : ι → V3 ℝ) :
    V3.dot a (∑ n ∈ S, f n) = ∑ n ∈ S, V3.dot a (f n) := by
  classical
  induction S using Finset.induction_on with
  | empty => simp [V3.dot]
  | insert n S hn ih =>
    rw [Finset.sum_insert hn, Finset.sum_insert hn, ← ih]
    simp [V3.dot]; ring

theorem dot_neg_left (a b : V3 ℝ) : V3.dot (-a) b = -V3.dot a b := by
  simp [V3.dot]; ring

theorem hasDerivAt_finset_sum {ι : Type} (S : Finset ι) (f : ℝ → ι → ℝ) (f' : ι → ℝ) (t : ℝ)
    (h : ∀ e ∈ S, HasDerivAt (fun s => f s e) (f' e) t) :
    HasDerivAt (fun s => ∑ e ∈ S, f s e) (∑ e ∈ S, f' e) t := by
  classical
  induction S using Finset.induction_on with
  | empty => simpa using hasDerivAt_const t (0 : ℝ)
  | insert n S hn ih =>
    simp only [Finset.sum_insert hn]
    exact (h n (by simp)).fun_add (ih fun e he => h e (by simp [he]))

/-! ## Masses -/

/-- C37. The masses at the vertices add up to the mass of the elements. -/
theorem mass_total (bs : List (Body m)) (N : ℕ) (hN : BodiesWithin bs N) (hm : m ≠ 0) :
    ∑ i ∈ Finset.range N, vertexMass bs i = totalMass bs := by
  have h := sum_bodies bs N hN fun _ => 1
  simp only [mul_one] at h
  rw [← h, totalMass]
  congr 1
  refine List.map_congr_left fun b _ => ?_
  have : (m : ℝ) ≠ 0 := by exact_mod_cast hm
  simp [Finset.sum_const, field]

/-! ## Gravity -/

/-- C37. Gravity pulls each vertex with its mass times the acceleration. The gradient is the negative
force. -/
theorem gravity_vertex {K : Kind m} (hK : K.Even) (g : V3 ℝ) (bs : List (Body m)) (G : ℕ → V3 ℝ)
    (i : ℕ) : gravityGradient K g bs G i = G i - vertexMass bs i • g := by
  unfold gravityGradient
  rw [addAll_apply, sub_eq_add_neg, ← smul_neg]
  congr 1
  have h := vertexSum_bodies hK bs (fun _ => -g) i
  simp only [smul_neg] at h ⊢
  exact h

/-- C37. The total force of gravity is the total mass times the acceleration. -/
theorem gravity_total {K : Kind m} (hK : K.Even) (g : V3 ℝ) (bs : List (Body m)) (N : ℕ)
    (hN : BodiesWithin bs N) :
    ∑ i ∈ Finset.range N, gravityGradient K g bs (fun _ => 0) i = -(totalMass bs • g) := by
  simp only [gravity_vertex hK, zero_sub, Finset.sum_neg_distrib, ← Finset.sum_smul]
  rw [mass_total bs N hN hK.1]

theorem gravityEnergy_eq {K : Kind m} (hK : K.Even) (g : V3 ℝ) (bs : List (Body m)) (N : ℕ)
    (hN : BodiesWithin bs N) (x : ℕ → V3 ℝ) :
    gravityEnergy K g bs x = ∑ i ∈ Finset.range N, vertexMass bs i * -V3.dot g (x i) := by
  rw [← sum_bodies bs N hN, gravityEnergy]
  congr 1
  refine List.map_congr_left fun b _ => ?_
  rw [hK.2.2, dot_smul_right, dot_sum_right, ← Finset.mul_sum, Finset.sum_neg_distrib, ← hK.lump,
    Body.lump]
  ring

/-- C37. The gradient of the gravity energy is its derivative. -/
theorem gravity_derivative {K : Kind m} (hK : K.Even) (g : V3 ℝ) (bs : List (Body m)) (N : ℕ)
    (hN : BodiesWithin bs N) (x : ℝ → ℕ → V3 ℝ) (d : ℕ → V3 ℝ) (t : ℝ)
    (hx : ∀ i, HasD (fun s => x s i) (d i) t) :
    HasDerivAt (fun s => gravityEnergy K g bs (x s))
      (∑ i ∈ Finset.range N, V3.dot (gravityGradient K g bs (fun _ => 0) i) (d i)) t := by
  simp only [gravityEnergy_eq hK g bs N hN, gravity_vertex hK]
  refine hasDerivAt_finset_sum _ _ _ t fun i _ => ?_
  refine ((((HasD.const g).dot (hx i)).fun_neg).const_mul (vertexMass bs i)).congr_deriv ?_
  rw [zero_sub, dot_neg_left, dot_smul_left]
  simp only [V3.dot, V3.zero_x, V3.zero_y, V3.zero_z]
  ring

/-! ## Inertia -/

/-- C37. The gradient of the inertia is the change of momentum at each vertex. -/
theorem inertia_vertex {K : Kind m} (hK : K.Even) (bs : List (Body m)) (v0 v1 : ℕ → V3 ℝ)
    (G : ℕ → V3 ℝ) (i : ℕ) :
    inertiaGradient K bs v0 v1 G i = G i + vertexMass bs i • (v1 i - v0 i) := by
  unfold inertiaGradient
  rw [addAll_apply]
  congr 1
  exact vertexSum_bodies hK bs (fun i => v1 i - v0 i) i

/-- C37. The total is the change of the total momentum. -/
theorem inertia_total {K : Kind m} (hK : K.Even) (bs : List (Body m)) (v0 v1 : ℕ → V3 ℝ) (N : ℕ) :
    ∑ i ∈ Finset.range N, inertiaGradient K bs v0 v1 (fun _ => 0) i =
      ∑ i ∈ Finset.range N, vertexMass bs i • v1 i -
        ∑ i ∈ Finset.range N, vertexMass bs i • v0 i := by
  simp only [inertia_vertex hK, zero_add, smul_sub, Finset.sum_sub_distrib]

theorem inertiaEnergy_eq {K : Kind m} (hK : K.Even) (bs : List (Body m)) (N : ℕ)
    (hN : BodiesWithin bs N) (v0 v1 : ℕ → V3 ℝ) :
    inertiaEnergy K bs v0 v1 =
      ∑ i ∈ Finset.range N, vertexMass bs i * (0.5 * V3.dot (v1 i - v0 i) (v1 i - v0 i)) := by
  rw [← sum_bodies bs N hN, inertiaEnergy]
  congr 1
  refine List.map_congr_left fun b _ => ?_
  rw [← Finset.mul_sum, ← Finset.mul_sum, ← hK.lump, ← List.ofFn_eq_map, List.sum_ofFn]
  ring

/-- C37. The gradient of the inertia is its derivative with respect to the new velocities. -/
theorem inertia_derivative {K : Kind m} (hK : K.Even) (bs : List (Body m)) (N : ℕ)
    (hN : BodiesWithin bs N) (v0 : ℕ → V3 ℝ) (v : ℝ → ℕ → V3 ℝ) (w : ℕ → V3 ℝ) (t : ℝ)
    (hv : ∀ i, HasD (fun s => v s i) (w i) t) :
    HasDerivAt (fun s => inertiaEnergy K bs v0 (v s))
      (∑ i ∈ Finset.range N, V3.dot (inertiaGradient K bs v0 (v t) (fun _ => 0) i) (w i)) t := by
  simp only [inertiaEnergy_eq hK bs N hN, inertia_vertex hK]
  refine hasDerivAt_finset_sum _ _ _ t fun i _ => ?_
  have h := (hv i).sub (HasD.const (v0 i))
  refine (((h.dot h).const_mul 0.5).const_mul (vertexMass bs i)).congr_deriv ?_
  rw [zero_add, dot_smul_left]
  simp only [V3.dot, V3.sub_x, V3.sub_y, V3.sub_z, V3.zero_x, V3.zero_y, V3.zero_z]
  ring

/-! ## The Hessian of the inertia -/

/-- The number of positions is the number of values, and all are on the diagonal of the matrix. -/
theorem inertia_positions (K : Kind m) (bs : List (Body m)) (scale : ℝ) :
    (inertiaIndices bs (0, 0)).length = inertiaSize bs ∧
    (inertiaValues K bs scale).length = inertiaSize bs ∧
    (∀ p ∈ inertiaIndices bs (0, 0), p.1 = p.2) ∧
    ∀ N, BodiesWithin bs N → ∀ p ∈ inertiaIndices bs (0, 0), p.1 < 3 * N := by
  refine ⟨?_, ?_, ?_, ?_⟩
  · simp [inertiaIndices, inertiaSize, List.length_flatMap]; ring
  · simp [inertiaValues, inertiaSize, List.length_flatMap]; ring
  · intro p hp
    simp only [inertiaIndices, List.mem_flatMap, List.mem_map] at hp
    obtain ⟨b, _, vi, _, j, _, rfl⟩ := hp
    rfl
  · intro N hN p hp
    simp only [inertiaIndices, List.mem_flatMap, List.mem_map] at hp
    obtain ⟨b, hb, vi, _, j, _, rfl⟩ := hp
    have := hN b hb vi
    have := j.isLt
    simp only
    omega

/-- C37. An offset shifts all positions: the rows by its first component, the columns by its second. -/
theorem inertia_offset (bs : List (Body m)) (o : ℕ × ℕ) :
    inertiaIndices bs o = (inertiaIndices bs (0, 0)).map fun p => (p.1 + o.1, p.2 + o.2) := by
  unfold inertiaIndices
  simp only [List.map_flatMap, List.map_map, Function.comp_def, add_zero]

theorem inertia_zip (K : Kind m) (bs : List (Body m)) (scale : ℝ) :
    (inertiaIndices bs (0, 0)).zip (inertiaValues K bs scale) =
      bs.flatMap fun b => (List.finRange m).flatMap fun vi => (List.finRange 3).map fun j =>
        ((3 * b.cell vi + j.val, 3 * b.cell vi + j.val), b.lump K * scale) := by
  unfold inertiaIndices inertiaValues
  rw [zip_flatMap]
  · refine List.flatMap_congr fun b _ => ?_
    rw [zip_flatMap]
    · refine List.flatMap_congr fun vi _ => ?_
      rw [List.zip_map']
      rfl
    · intro e; simp
  · intro e; simp [List.length_flatMap]

theorem finRange_sum {α : Type} [AddCommMonoid α] (n : ℕ) (f : Fin n → α) :
    ((List.finRange n).map f).sum = ∑ i, f i := by
  rw [← List.ofFn_eq_map, List.sum_ofFn]

/-- C37. The triplets of the inertia act as the diagonal matrix of the vertex masses. -/
theorem inertia_hessian {K : Kind m} (hK : K.Even) (bs : List (Body m)) (scale : ℝ) (x : ℕ → ℝ)
    (i : ℕ) :
    symMul ((inertiaIndices bs (0, 0)).zip (inertiaValues K bs scale)) x i =
      scale * vertexMass bs (i / 3) * x i := by
  rw [inertia_zip, symMul_flatMap, vertexMass, mul_assoc, mul_comm, ← List.sum_map_mul_right,
    ← List.sum_map_mul_right]
  congr 1
  refine List.map_congr_left fun b _ => ?_
  rw [symMul_flatMap, finRange_sum, Finset.sum_mul, Finset.sum_mul]
  refine Finset.sum_congr rfl fun n _ => ?_
  simp only [symMul, List.map_map, finRange_sum, Function.comp_def]
  simp only [ne_eq, not_true_eq_false, and_false, if_false, add_zero]
  rw [← hK.lump]
  by_cases h : b.cell n = i / 3
  · rw [if_pos h, Finset.sum_eq_single ⟨i % 3, Nat.mod_lt _ (by norm_num)⟩]
    · have e : 3 * b.cell n + i % 3 = i := by omega
      simp only [e, if_true]
      ring
    · intro j _ hj
      rw [if_neg]
      intro e
      exact hj (Fin.ext (by simp only; omega))
    · simp
  · rw [if_neg h, zero_mul, zero_mul]
    refine Finset.sum_eq_zero fun j _ => ?_
    rw [if_neg]
    intro e
    exact h (by omega)

/-- C37. The triplets of the inertia are the derivative of its gradient. -/
theorem inertia_hessian_derivative {K : Kind m} (hK : K.Even) (bs : List (Body m)) (scale : ℝ)
    (v0 : ℕ → V3 ℝ) (v : ℝ → ℕ → V3 ℝ) (w : ℕ → V3 ℝ) (t : ℝ)
    (hv : ∀ i, HasD (fun s => v s i) (w i) t) (i : ℕ) :
    HasDerivAt (fun s => scale * coord (inertiaGradient K bs v0 (v s) fun _ => 0) i)
      (symMul ((inertiaIndices bs (0, 0)).zip (inertiaValues K bs scale)) (coord w) i) t := by
  rw [inertia_hessian hK, mul_assoc]
  refine HasDerivAt.const_mul _ ?_
  unfold coord
  simp only [inertia_vertex hK, get_add, get_smul]
  have hz : ∀ c : Fin 3, (0 : V3 ℝ).get c = 0 := fun c => by fin_cases c <;> rfl
  simp only [hz, zero_add]
  refine HasDerivAt.const_mul _ ?_
  have hc := (hv (i / 3)).sub (HasD.const (v0 (i / 3)))
  have key : ∀ c : Fin 3, HasDerivAt (fun s => (v s (i / 3) - v0 (i / 3)).get c)
      ((w (i / 3)).get c) t := by
    intro c
    fin_cases c
    · simpa [V3.get] using hc.1
    · simpa [V3.get] using hc.2.1
    · simpa [V3.get] using hc.2.2
  exact key _

/-! ## Diagonals and products -/

theorem addFlat_apply (len : ℕ) (l : List (ℕ × ℝ)) (h : ∀ p ∈ l, p.1 < len) (D : ℕ → ℝ) :
    addFlat len l D = some fun i => D i + (l.map fun p => if p.1 = i then p.2 else 0).sum := by
  induction l generalizing D with
  | nil => simp [addFlat]
  | cons a l ih =>
    obtain ⟨j, a⟩ := a
    rw [addFlat, if_pos (h (j, a) (by simp)), ih fun p hp => h p (by simp [hp])]
    congr 1
    funext i
    simp only [List.map_cons, List.sum_cons]
    by_cases e : j = i
    · subst e; simp; ring
    · rw [Function.update_of_ne (Ne.symm e), if_neg e]; ring

/-- C37. With a buffer for all vertices the diagonal of the inertia of solids and shells is added
without a panic, and it is the diagonal of the matrix of vertex masses. -/
theorem inertia_diagonal (bs : List (Body 4)) (ts : List (Body 3)) (scale : ℝ) (N : ℕ)
    (hb : BodiesWithin bs N) (ht : BodiesWithin ts N) (D : ℕ → ℝ) :
    solidInertiaDiagonal bs scale (3 * N) D =
      some (fun i => D i + scale * vertexMass bs (i / 3)) ∧
    shellInertiaDiagonal ts scale (3 * N) D =
      some (fun i => D i + scale * vertexMass ts (i / 3)) := by
  have key : ∀ {m : ℕ} {K : Kind m} (_ : K.Even) (bs : List (Body m)) (i : ℕ),
      ((bs.flatMap fun b => (List.finRange m).flatMap fun n =>
        scalars (b.cell n) fun _ => b.lump K * scale).map
          fun p => if p.1 = i then p.2 else 0).sum = scale * vertexMass bs (i / 3) := by
    intro m K hK bs i
    have h := inertia_hessian hK bs scale (fun _ => 1) i
    rw [mul_one] at h
    rw [← h, inertia_zip]
    simp only [symMul, List.map_flatMap, scalars, List.map_map]
    congr 1
    refine List.flatMap_congr fun b _ => List.flatMap_congr fun n _ => ?_
    refine List.map_congr_left fun j _ => ?_
    simp
  have hlt : ∀ {m : ℕ} {K : Kind m} (bs : List (Body m)), BodiesWithin bs N →
      ∀ p ∈ bs.flatMap fun b => (List.finRange m).flatMap fun n =>
        scalars (b.cell n) fun _ => b.lump K * scale, p.1 < 3 * N := by
    intro m K bs h p hp
    simp only [List.mem_flatMap, scalars, List.mem_map] at hp
    obtain ⟨b, hb, n, _, j, _, rfl⟩ := hp
    have := h b hb n
    have := j.isLt
    simp only
    omega
  constructor
  · have e : (bs.flatMap fun b => (List.finRange 4).flatMap fun i =>
        if b.cell i < 3 * N then scalars (b.cell i) fun _ => b.lump tetKind * scale else []) =
        bs.flatMap fun b => (List.finRange 4).flatMap fun i =>
          scalars (b.cell i) fun _ => b.lump tetKind * scale := by
      refine List.flatMap_congr fun b hb' => List.flatMap_congr fun n _ => ?_
      rw [if_pos]
      have := hb b hb' n
      omega
    rw [solidInertiaDiagonal, e, addFlat_apply _ _ (hlt bs hb)]
    simp only [key tetKind_even]
  · rw [shellInertiaDiagonal, addFlat_apply _ _ (hlt ts ht)]
    simp only [key triKind_even]

/-- C37. With a buffer for only some of the vertices the diagonal of solids panics, because the
number of scalars is compared with the number of the vertex. -/
theorem solid_inertia_diagonal_short :
    ∃ (b : Body 4) (N : ℕ), (∃ n, b.cell n < N) ∧
      solidInertiaDiagonal [b] 1 (3 * N) (fun _ => 0) = none := by
  refine ⟨⟨![0, 1, 2, 3], 1, 1⟩, 1, ⟨0, by simp⟩, ?_⟩
  simp [solidInertiaDiagonal, List.finRange_succ, scalars, addFlat]

/-- C37. The product of the inertia of solids is the product with the matrix of vertex masses. -/
theorem solid_inertia_product (bs : List (Body 4)) (p : ℕ → ℝ) (scale : ℝ) (N : ℕ)
    (hb : BodiesWithin bs N) (D : ℕ → ℝ) :
    solidInertiaProduct bs p scale (3 * N) D =
      some fun i => D i + scale * vertexMass bs (i / 3) * p i := by
  rw [solidInertiaProduct, addFlat_apply]
  · congr 1
    funext i
    congr 1
    rw [← inertia_hessian tetKind_even bs scale p i, inertia_zip]
    simp only [symMul, List.map_flatMap, scalars, List.map_map]
    congr 1
    refine List.flatMap_congr fun b _ => List.flatMap_congr fun n _ => ?_
    refine List.map_congr_left fun j _ => ?_
    simp only [Function.comp_apply, ne_eq, not_true_eq_false, and_false, if_false, add_zero]
    split_ifs <;> ring
  · intro q hq
    simp only [List.mem_flatMap, scalars, List.mem_map] at hq
    obtain ⟨b, hb', n, _, j, _, rfl⟩ := hq
    have := hb b hb' n
    have := j.isLt
    simp only
    omega

/-- Two triangles with a common vertex. -/
def twoTris : List (Body 3) := [⟨![0, 1, 2], 3, 1⟩, ⟨![0, 3, 4], 6, 1⟩]

/-- C37, violated. The product of the inertia of shells is not the product with the matrix of vertex
masses: at a vertex of two triangles only the mass of the last one counts. -/
theorem shell_inertia_product_violated :
    BodiesWithin twoTris 5 ∧ ∃ D, shellInertiaProduct twoTris (fun _ => 1) 1 (3 * 5) (fun _ => 0) =
      some D ∧ D 0 = 2 ∧ vertexMass twoTris 0 = 3 := by
  refine ⟨?_, ?_⟩
  · intro b hb n
    simp only [twoTris, List.mem_cons, List.not_mem_nil, or_false] at hb
    rcases hb with rfl | rfl <;> fin_cases n <;> simp
  · simp [shellInertiaProduct, twoTris, List.finRange_succ, scalars, setFlat, Function.update,
      Body.lump, triKind, vertexMass, Fin.sum_univ_three, Body.mass]
    norm_num

/-- The hypotheses hold for two tetrahedra with a common face and different densities. -/
example : ∃ bs : List (Body 4), BodiesWithin bs 5 ∧ vertexMass bs 0 = 3 / 4 ∧
    vertexMass bs 4 = 1 / 2 ∧ totalMass bs = 3 := by
  refine ⟨[⟨![0, 1, 2, 3], 1, 1⟩, ⟨![0, 1, 2, 4], 1, 2⟩], ?_, ?_, ?_, ?_⟩
  · intro b hb n
    simp only [List.mem_cons, List.not_mem_nil, or_false] at hb
    rcases hb with rfl | rfl <;> fin_cases n <;> simp
  · simp [vertexMass, Fin.sum_univ_four, Body.mass]; norm_num
  · simp [vertexMass, Fin.sum_univ_four, Body.mass]; norm_num
  · simp [totalMass, Body.mass]; norm_num

end Softy.Fem
