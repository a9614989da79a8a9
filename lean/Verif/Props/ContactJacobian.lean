import Verif.Model.ContactJacobian
import Verif.Props.ContactBasis

/-!
# C48 — the transposed contact Jacobian is the adjoint of the contact Jacobian
-/

noncomputable section

namespace Softy.ContactJacobian

open ContactBasis

variable {nv ns nk nc : ℕ} (J : Jac nv ns nk nc)

/-! ## Specification -/

/-- Power of a family of forces on a family of velocities. -/
def power {n : ℕ} (f v : Fin n → V3 ℝ) : ℝ := ∑ i, (f i).dot (v i)

/-- Index maps without repetition (the indices are strictly increasing lists), and no vertex
on both sides. -/
def Separate : Prop :=
  Function.Injective J.surf ∧ Function.Injective J.coll ∧ Function.Injective J.constr ∧
    ∀ j i, J.surf j ≠ J.coll (J.constr i)

/-! ## Proofs -/

theorem dot_add_left (a b c : V3 ℝ) : (a + b).dot c = a.dot c + b.dot c := by
  simp only [V3.dot, V3.add_x, V3.add_y, V3.add_z]; ring

theorem dot_sub_left (a b c : V3 ℝ) : (a - b).dot c = a.dot c - b.dot c := by
  simp only [V3.dot, V3.sub_x, V3.sub_y, V3.sub_z]; ring

theorem dot_neg_left (a c : V3 ℝ) : (-a).dot c = -a.dot c := by
  simp only [V3.dot, V3.neg_x, V3.neg_y, V3.neg_z]; ring

theorem dot_comm (a c : V3 ℝ) : a.dot c = c.dot a := by
  simp only [V3.dot]; ring

theorem zero_dot (c : V3 ℝ) : (0 : V3 ℝ).dot c = 0 := by simp [V3.dot]

theorem sum_dot {α : Type*} (l : List α) (g : α → V3 ℝ) (c : V3 ℝ) :
    ((l.map g).sum).dot c = (l.map fun a => (g a).dot c).sum := by
  induction l with
  | nil => simp [V3.dot]
  | cons a t ih => simp only [List.map_cons, List.sum_cons, dot_add_left, ih]

/-- The sparse matrix part. -/
theorem mat_adjoint (blocks : List (Fin nc × Fin ns × M3 ℝ)) (v : Fin ns → V3 ℝ)
    (w : Fin nc → V3 ℝ) :
    power (matMul blocks v) w = power (matTransposeMul blocks w) v := by
  unfold power matMul matTransposeMul
  simp only [sum_dot]
  induction blocks with
  | nil => simp
  | cons b t ih =>
    simp only [List.map_cons, List.sum_cons, Finset.sum_add_distrib, ih]
    congr 1
    have e1 : ∀ i, (if b.1 = i then b.2.2.mulVec (v b.2.1) else 0).dot (w i) =
        if b.1 = i then (b.2.2.mulVec (v b.2.1)).dot (w i) else 0 := by
      intro i; split_ifs <;> simp [zero_dot]
    have e2 : ∀ i, (if b.2.1 = i then b.2.2.transpose.mulVec (w b.1) else 0).dot (v i) =
        if b.2.1 = i then (b.2.2.transpose.mulVec (w b.1)).dot (v i) else 0 := by
      intro i; split_ifs <;> simp [zero_dot]
    simp only [e1, e2, Finset.sum_ite_eq, Finset.mem_univ, if_true]
    rw [dot_transpose, dot_comm]

/-- Writes to a vertex that is not assigned leave it alone. -/
theorem foldl_assign_notin {n : ℕ} (l : List (Fin n × V3 ℝ)) (v : Fin n → V3 ℝ) (k : Fin n)
    (h : ∀ a ∈ l, a.1 ≠ k) : l.foldl assign v k = v k := by
  induction l generalizing v with
  | nil => rfl
  | cons a t ih =>
    rw [List.foldl_cons, ih _ fun b hb => h b (List.mem_cons_of_mem _ hb), assign,
      Function.update_of_ne (h a List.mem_cons_self).symm]

theorem foldl_assign_map {n m : ℕ} (g : Fin m → Fin n) (hg : Function.Injective g)
    (x : Fin m → V3 ℝ) (l : List (Fin m)) (hl : l.Nodup) (v : Fin n → V3 ℝ) (i : Fin m)
    (hi : i ∈ l) : (l.map fun j => (g j, x j)).foldl assign v (g i) = x i := by
  induction l generalizing v with
  | nil => simp at hi
  | cons a t ih =>
    rw [List.map_cons, List.foldl_cons]
    rw [List.nodup_cons] at hl
    by_cases hit : i ∈ t
    · exact ih hl.2 _ hit
    · have hia : i = a := by simpa [hit] using hi
      subst hia
      rw [foldl_assign_notin]
      · simp [assign]
      · intro b hb
        obtain ⟨j, hj, rfl⟩ := List.mem_map.1 hb
        intro h
        exact hit (hg h ▸ hj)

/-- What the transposed product stores at each vertex. -/
theorem transposeMul_surf (h : Separate J) (w : Fin nc → V3 ℝ) (j : Fin ns) :
    transposeMul J w (J.surf j) = matTransposeMul J.blocks w j := by
  unfold transposeMul
  rw [foldl_assign_notin]
  · exact foldl_assign_map _ h.1 _ _ (List.nodup_finRange _) _ _ (List.mem_finRange _)
  · intro a ha
    obtain ⟨i, -, rfl⟩ := List.mem_map.1 ha
    exact fun e => h.2.2.2 j i e.symm

theorem transposeMul_coll (hc : Function.Injective J.coll) (hk : Function.Injective J.constr)
    (w : Fin nc → V3 ℝ) (i : Fin nc) : transposeMul J w (J.coll (J.constr i)) = -w i := by
  unfold transposeMul
  exact foldl_assign_map (fun i => J.coll (J.constr i)) (hc.comp hk) (fun i => -w i) _
    (List.nodup_finRange _) _ _ (List.mem_finRange _)

theorem transposeMul_other (w : Fin nc → V3 ℝ) (k : Fin nv) (h1 : ∀ j, J.surf j ≠ k)
    (h2 : ∀ i, J.coll (J.constr i) ≠ k) : transposeMul J w k = 0 := by
  unfold transposeMul
  rw [foldl_assign_notin, foldl_assign_notin]
  · intro a ha
    obtain ⟨i, -, rfl⟩ := List.mem_map.1 ha
    exact h1 i
  · intro a ha
    obtain ⟨i, -, rfl⟩ := List.mem_map.1 ha
    exact h2 i

theorem sum_split (h : Separate J) (g : Fin nv → ℝ)
    (hz : ∀ k, (∀ j, J.surf j ≠ k) → (∀ i, J.coll (J.constr i) ≠ k) → g k = 0) :
    ∑ k, g k = ∑ j, g (J.surf j) + ∑ i, g (J.coll (J.constr i)) := by
  classical
  have hinj2 : Function.Injective fun i => J.coll (J.constr i) := h.2.1.comp h.2.2.1
  rw [← Finset.sum_image (f := g) (s := Finset.univ) (g := J.surf) fun a _ b _ e => h.1 e,
    ← Finset.sum_image (f := g) (s := Finset.univ) (g := fun i => J.coll (J.constr i))
      fun a _ b _ e => hinj2 e, ← Finset.sum_union]
  · symm
    apply Finset.sum_subset (Finset.subset_univ _)
    intro k _ hk
    simp only [Finset.mem_union, Finset.mem_image, Finset.mem_univ, true_and, not_or,
      not_exists] at hk
    exact hz k hk.1 hk.2
  · rw [Finset.disjoint_left]
    intro k h1 h2
    obtain ⟨j, -, rfl⟩ := Finset.mem_image.1 h1
    obtain ⟨i, -, e⟩ := Finset.mem_image.1 h2
    exact h.2.2.2 j i e.symm

/-- **C48** (partial: only when no vertex is both on the implicit surface and a constrained
collider vertex). Contact power equals vertex power, for all matrices, velocities and
impulses. -/
theorem adjoint_partial (h : Separate J) (v : Fin nv → V3 ℝ) (w : Fin nc → V3 ℝ) :
    power (mul J v) w = power (transposeMul J w) v := by
  have e : power (transposeMul J w) v =
      ∑ j, (transposeMul J w (J.surf j)).dot (v (J.surf j)) +
      ∑ i, (transposeMul J w (J.coll (J.constr i))).dot (v (J.coll (J.constr i))) := by
    unfold power
    apply sum_split J h fun k => (transposeMul J w k).dot (v k)
    intro k h1 h2
    rw [transposeMul_other J w k h1 h2, zero_dot]
  rw [e]
  have e1 : ∀ j, transposeMul J w (J.surf j) = matTransposeMul J.blocks w j :=
    transposeMul_surf J h w
  have e2 : ∀ i, transposeMul J w (J.coll (J.constr i)) = -w i :=
    transposeMul_coll J h.2.1 h.2.2.1 w
  simp only [e1, e2, dot_neg_left]
  have hm := mat_adjoint J.blocks (fun j => v (J.surf j)) w
  unfold power at hm
  rw [← hm]
  unfold power mul
  simp only [dot_sub_left, Finset.sum_sub_distrib, Finset.sum_neg_distrib]
  rw [sub_eq_add_neg]
  congr 2
  exact Finset.sum_congr rfl fun i _ => dot_comm _ _

/-- A configuration meeting the hypotheses: a contact of vertex 2 against the edge 0-1. -/
def sampleJac : Jac 3 2 1 1 :=
  { blocks := [(0, 0, ⟨⟨1, 0, 0⟩, ⟨0, 1, 0⟩, ⟨0, 0, 1⟩⟩), (0, 1, ⟨⟨2, 0, 0⟩, ⟨0, 1, 3⟩, ⟨0, 0, 1⟩⟩)]
    surf := ![0, 1], coll := ![2], constr := ![0] }

example : Separate sampleJac := by
  refine ⟨?_, ?_, ?_, ?_⟩ <;> unfold sampleJac <;> simp only [Function.Injective] <;> decide

/-- **C48 (violated)** When the implicit surface and the collider share a vertex, the
transposed product drops the contribution of the surface and the two powers differ: the
vertex is written twice instead of being accumulated. -/
theorem adjoint_violated : ∃ (J : Jac 1 1 1 1) (v : Fin 1 → V3 ℝ) (w : Fin 1 → V3 ℝ),
    Function.Injective J.surf ∧ Function.Injective J.coll ∧ Function.Injective J.constr ∧
    power (mul J v) w = 1 ∧ power (transposeMul J w) v = -1 := by
  refine ⟨⟨[(0, 0, ⟨⟨2, 0, 0⟩, ⟨0, 2, 0⟩, ⟨0, 0, 2⟩⟩)], id, id, id⟩, fun _ => ⟨1, 0, 0⟩,
    fun _ => ⟨1, 0, 0⟩, Function.injective_id, Function.injective_id, Function.injective_id, ?_, ?_⟩
  · simp [power, mul, matMul, M3.mulVec, V3.dot]
    norm_num
  · have := transposeMul_coll (⟨[(0, 0, ⟨⟨2, 0, 0⟩, ⟨0, 2, 0⟩, ⟨0, 0, 2⟩⟩)], id, id, id⟩ :
      Jac 1 1 1 1) Function.injective_id Function.injective_id (fun _ => ⟨1, 0, 0⟩) 0
    simp only [id] at this
    simp [power, this, V3.dot]

/-! ## Friction on vertices (C14, C48) -/

/-- **C14 (vertices)** The friction force assembled on the vertices never does positive work
on the vertex velocities, for every velocity, frame, multiplier and Jacobian. -/
theorem frictionForce_dissipates (h : Separate J) (b : ContactBasis) (p : Friction.Params)
    (hp : p.Valid) (lambda : Fin nc → ℝ) (hl : ∀ i, 0 ≤ lambda i) (v f : Fin nv → V3 ℝ)
    (hf : frictionForce J b p lambda v = some f) : power f v ≤ 0 := by
  unfold frictionForce at hf
  simp only at hf
  split_ifs at hf with hs
  obtain rfl := Option.some.inj hf
  rw [← adjoint_partial J h]
  unfold power
  apply Finset.sum_nonpos
  intro i _
  obtain ⟨g, hg⟩ := Option.isSome_iff_exists.1 (hs i)
  simp only
  rw [hg, Option.getD_some, dot_comm]
  exact contactFriction_dissipates b p hp _ (hl i) _ _ _ hg

/-- The friction force is defined (the code does not panic) whenever there is a frame for
every contact, so the previous theorem is not vacuous. -/
theorem frictionForce_some (ns' : List (V3 ℝ)) (hlen : nc ≤ ns'.length) (p : Friction.Params)
    (lambda : Fin nc → ℝ) (v : Fin nv → V3 ℝ) :
    (frictionForce J (updateFromNormals ns') p lambda v).isSome := by
  unfold frictionForce
  simp only
  rw [if_pos]
  · rfl
  · intro i
    simp [contactFriction, toContactCoordinates, fromContactCoordinates,
      matrix_of_lt (show i.1 < ns'.length by omega)]

end Softy.ContactJacobian
