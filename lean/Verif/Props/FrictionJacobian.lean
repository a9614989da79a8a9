import Verif.Model.FrictionJacobian
import Verif.Lemmas.FrictionForms

/-!
# C87: the Jacobian of friction that is not lagged
-/

noncomputable section

namespace Softy.Contact

open Softy Assembly Fem Softy.Kernel Softy.Field

/-! ## Specification -/

namespace Pair

/-- Either all vertices of both objects may move, or all of the surface and none of the collider, or none of
the surface, which is then at rest. The first `n` vertices are those that may move. -/
def Aligned (C : Pair) (n : ℕ) (v : ℕ → V3 ℝ) : Prop :=
  ((∀ j, C.surf j < n) ∧ ∀ i, C.coll i < n) ∨ ((∀ j, C.surf j < n) ∧ ∀ i, n ≤ C.coll i) ∨
    ((∀ j, n ≤ C.surf j) ∧ ∀ j, v (C.surf j) = 0)

/-- Contacts that are close enough to be pushed apart: the vertex is within the radius of the kernel, the
gradient of the potential is not zero, no normal of a sample opposes it, and the friction law has a
derivative at the sliding velocity. -/
structure Close (C : Pair) (p : Friction.Params) (x v : ℕ → V3 ℝ) (c k : ℕ) : Prop where
  radius : ∀ r, C.kernel.radius = some r →
    (C.query x (C.contactAt k).2 - (C.samples x).pos c).norm ≤ r
  grad : C.gradAt x k ≠ 0
  unopposed : C.Unopposed x (C.contactAt k)
  steady : SteadyAt p (C.slide x v k).norm

/-! ## Positions of the blocks -/

variable (C : Pair)

/-- The blocks of `velocityTriplets` for vertices of the surface. -/
def velocity1 (x : ℕ → V3 ℝ) (m : ℕ → V3 ℝ) : List MBlock :=
  C.active.flatMap fun p => ((contactJacobianJacobianAt (C.query x p.2) p.1 (C.samples x) C.kernel C.tris
    (fun j => x (C.surf j)) params m).getD []).map fun e => MBlock.mk (C.surf e.1) (C.constraintOf p.2) e.2

/-- The blocks of `velocityTriplets` for vertices of the collider. -/
def velocity2 (x : ℕ → V3 ℝ) (m : ℕ → V3 ℝ) : List MBlock :=
  C.active.flatMap fun p => ((contactQueryJacobianJacobianAt (C.query x p.2) p.1 (C.samples x) C.kernel
    C.tris params m).getD []).map fun e => MBlock.mk (C.coll p.2) (C.constraintOf p.2) e

theorem velocityTriplets_eq (x : ℕ → V3 ℝ) (m : ℕ → V3 ℝ) (n : ℕ) : C.velocityTriplets x m n =
    (C.velocity1 x m ++ C.velocity2 x m).filter fun b => decide (b.row < n) := rfl

theorem velocity1_row (x : ℕ → V3 ℝ) (m : ℕ → V3 ℝ) : ∀ b ∈ C.velocity1 x m, ∃ j, b.row = C.surf j := by
  intro b hb
  obtain ⟨p, -, hb⟩ := List.mem_flatMap.1 hb
  obtain ⟨e, -, rfl⟩ := List.mem_map.1 hb
  exact ⟨_, rfl⟩

theorem velocity2_row (x : ℕ → V3 ℝ) (m : ℕ → V3 ℝ) : ∀ b ∈ C.velocity2 x m, ∃ i, b.row = C.coll i := by
  intro b hb
  obtain ⟨p, -, hb⟩ := List.mem_flatMap.1 hb
  obtain ⟨e, -, rfl⟩ := List.mem_map.1 hb
  exact ⟨_, rfl⟩

theorem velocity1_keys (x : ℕ → V3 ℝ) (m m' : ℕ → V3 ℝ) :
    (C.velocity1 x m).map (fun b => (b.row, b.col)) =
      (C.velocity1 x m').map fun b => (b.row, b.col) := by
  unfold velocity1
  rw [List.map_flatMap, List.map_flatMap]
  congr 1
  funext p
  have := congrArg (List.map fun a => (C.surf a, C.constraintOf p.2)) (velocity_keys (C.query x p.2) p.1
    (C.samples x) C.kernel C.tris (fun j => x (C.surf j)) params m m')
  rw [List.map_map, List.map_map] at this
  rw [List.map_map, List.map_map]
  exact this

theorem velocity2_keys (x : ℕ → V3 ℝ) (m m' : ℕ → V3 ℝ) :
    (C.velocity2 x m).map (fun b => (b.row, b.col)) =
      (C.velocity2 x m').map fun b => (b.row, b.col) := by
  unfold velocity2
  rw [List.map_flatMap, List.map_flatMap]
  congr 1
  funext p
  rw [List.map_map, List.map_map]
  have := queryVelocity_length (C.query x p.2) p.1 (C.samples x) C.kernel C.tris params m m'
  revert this
  generalize (contactQueryJacobianJacobianAt (C.query x p.2) p.1 (C.samples x) C.kernel C.tris params
    m).getD [] = A
  generalize (contactQueryJacobianJacobianAt (C.query x p.2) p.1 (C.samples x) C.kernel C.tris params
    m').getD [] = B
  intro h
  rw [show ((fun b : MBlock => (b.row, b.col)) ∘ fun e => MBlock.mk (C.coll p.2) (C.constraintOf p.2) e) =
    fun _ => (C.coll p.2, C.constraintOf p.2) from rfl, List.map_const', List.map_const', h]

theorem velocity1_row_sum (x : ℕ → V3 ℝ) (m : ℕ → V3 ℝ) {k : ℕ} (hk : k < C.active.length) (w : ℕ → V3 ℝ) :
    applyRow ((C.velocity1 x m).map fun b => ⟨b.col, b.row, b.val.transpose⟩) k w =
      (((contactJacobianJacobianAt (C.query x (C.contactAt k).2) (C.contactAt k).1 (C.samples x) C.kernel
        C.tris (fun j => x (C.surf j)) params m).getD []).map fun e =>
          e.2.transpose.mulVec (w (C.surf e.1))).sum := by
  unfold velocity1
  rw [List.map_flatMap, C.applyRow_flatMap _ (by
    intro p b hb
    rw [List.map_map] at hb
    obtain ⟨e, -, rfl⟩ := List.mem_map.1 hb
    rfl) hk, List.map_map, List.map_map]
  rfl

theorem velocity2_row_sum (x : ℕ → V3 ℝ) (m : ℕ → V3 ℝ) {k : ℕ} (hk : k < C.active.length) (w : ℕ → V3 ℝ) :
    applyRow ((C.velocity2 x m).map fun b => ⟨b.col, b.row, b.val.transpose⟩) k w =
      (((contactQueryJacobianJacobianAt (C.query x (C.contactAt k).2) (C.contactAt k).1 (C.samples x)
        C.kernel C.tris params m).getD []).map fun e =>
          e.transpose.mulVec (w (C.coll (C.contactAt k).2))).sum := by
  unfold velocity2
  rw [List.map_flatMap, C.applyRow_flatMap _ (by
    intro p b hb
    rw [List.map_map] at hb
    obtain ⟨e, -, rfl⟩ := List.mem_map.1 hb
    rfl) hk, List.map_map, List.map_map]
  rfl

theorem filter_lt_self (L : List MBlock) (f : ℕ → ℕ) (n : ℕ) (h : ∀ b ∈ L, ∃ j, b.row = f j)
    (hf : ∀ j, f j < n) : (L.filter fun b => decide (b.row < n)) = L := by
  refine List.filter_eq_self.2 fun b hb => decide_eq_true ?_
  obtain ⟨j, e⟩ := h b hb
  rw [e]
  exact hf j

theorem filter_ge_nil (L : List MBlock) (f : ℕ → ℕ) (n : ℕ) (h : ∀ b ∈ L, ∃ j, b.row = f j)
    (hf : ∀ j, n ≤ f j) : (L.filter fun b => decide (b.row < n)) = [] := by
  refine List.filter_eq_nil_iff.2 fun b hb => ?_
  obtain ⟨j, e⟩ := h b hb
  rw [e]
  simpa using hf j

theorem zipWith_vals {β : Type*} (A : List β) (B : List MBlock) (f : β → MBlock → MBlock)
    (hf : ∀ a b, (f a b).val = b.val) : ∀ c ∈ List.zipWith f A B, ∃ b ∈ B, c.val = b.val := by
  induction A generalizing B with
  | nil => simp
  | cons a A ih =>
    cases B with
    | nil => simp
    | cons b B =>
      intro c hc
      rw [List.zipWith_cons_cons, List.mem_cons] at hc
      rcases hc with rfl | hc
      · exact ⟨b, List.mem_cons_self, hf a b⟩
      · obtain ⟨b', hb', e⟩ := ih B c hc
        exact ⟨b', List.mem_cons_of_mem _ hb', e⟩

/-- The matrix of derivatives of the contact Jacobian, applied to rates of the vertices. -/
theorem applyRow_velocity {N n : ℕ} (x v w : ℕ → V3 ℝ) (hs : ∀ j, C.surf j < N) (hc : ∀ i, C.coll i < N)
    (ha : C.Aligned n v) (hw : ∀ i, n ≤ i → w i = 0) {k : ℕ} (hk : k < C.active.length) :
    applyRow ((C.jacContactJacobian x (fun j => v (C.surf j)) N n).map fun b =>
      ⟨b.col, b.row, b.val.transpose⟩) k w = C.relRate x v w k := by
  have hN : C.velocityTriplets x (fun _ => 0) N = C.velocity1 x (fun _ => 0) ++ C.velocity2 x fun _ => 0 := by
    rw [velocityTriplets_eq, List.filter_append, filter_lt_self _ _ _ (C.velocity1_row x _) hs,
      filter_lt_self _ _ _ (C.velocity2_row x _) hc]
  rcases ha with ⟨h1, h2⟩ | ⟨h1, h2⟩ | ⟨h1, h2⟩
  · have hn : C.velocityTriplets x (fun j => v (C.surf j)) n =
        C.velocity1 x (fun j => v (C.surf j)) ++ C.velocity2 x fun j => v (C.surf j) := by
      rw [velocityTriplets_eq, List.filter_append, filter_lt_self _ _ _ (C.velocity1_row x _) h1,
        filter_lt_self _ _ _ (C.velocity2_row x _) h2]
    unfold jacContactJacobian
    rw [hN, hn, ← List.append_nil (C.velocity1 x (fun _ => 0) ++ C.velocity2 x fun _ => 0), zipWith_blocks,
      List.map_append, applyRow_append, C.velocity1_row_sum x _ hk, C.velocity2_row_sum x _ hk]
    · rfl
    · rw [List.map_append, List.map_append, C.velocity1_keys x _ fun j => v (C.surf j),
        C.velocity2_keys x _ fun j => v (C.surf j)]
  · have hn : C.velocityTriplets x (fun j => v (C.surf j)) n = C.velocity1 x fun j => v (C.surf j) := by
      rw [velocityTriplets_eq, List.filter_append, filter_lt_self _ _ _ (C.velocity1_row x _) h1,
        filter_ge_nil _ _ _ (C.velocity2_row x _) h2, List.append_nil]
    unfold jacContactJacobian relRate
    rw [hN, hn, zipWith_blocks _ _ _ (C.velocity1_keys x _ _), C.velocity1_row_sum x _ hk,
      vsum_zero (_ : List (M3 ℝ)) _ fun m _ => by rw [hw _ (h2 _)]; exact mulVec_zero_right _, add_zero]
  · have hz : ∀ j, (fun j => v (C.surf j)) j = 0 := h2
    have ht : (0 : M3 ℝ).transpose = 0 := rfl
    unfold relRate
    rw [vsum_zero (_ : List (ℕ × M3 ℝ)) _ fun e he => by
        rw [velocity_zero hz e he, ht]; exact mulVec_zero_left _,
      vsum_zero (_ : List (M3 ℝ)) _ fun e he => by
        rw [queryVelocity_zero hz e he, ht]; exact mulVec_zero_left _, add_zero]
    unfold applyRow
    refine vsum_zero _ _ fun b hb => ?_
    obtain ⟨b', hb', rfl⟩ := List.mem_map.1 (List.mem_filter.1 hb).1
    unfold jacContactJacobian at hb'
    obtain ⟨a, ha, e⟩ := zipWith_vals _ _ (fun i b : MBlock => MBlock.mk i.row i.col b.val)
      (fun _ _ => rfl) b' hb'
    have hv : a.val = 0 := by
      rw [velocityTriplets_eq] at ha
      rcases List.mem_append.1 (List.mem_filter.1 ha).1 with ha | ha
      · obtain ⟨p, -, ha⟩ := List.mem_flatMap.1 ha
        obtain ⟨r, hr, rfl⟩ := List.mem_map.1 ha
        exact velocity_zero hz r hr
      · obtain ⟨p, -, ha⟩ := List.mem_flatMap.1 ha
        obtain ⟨r, hr, rfl⟩ := List.mem_map.1 ha
        exact queryVelocity_zero hz r hr
    simp only [e, hv, ht]
    exact mulVec_zero_left _

theorem velocity_cols {N n : ℕ} (x : ℕ → V3 ℝ) (m : ℕ → V3 ℝ) : ∀ b ∈ (C.jacContactJacobian x m N n).map fun b =>
      MBlock.mk b.col b.row b.val.transpose, b.col < N := by
  intro b hb
  obtain ⟨b', hb', rfl⟩ := List.mem_map.1 hb
  have : ∀ (A B : List MBlock) (f : MBlock → MBlock → MBlock), (∀ a b, (f a b).row = a.row) →
      ∀ c ∈ List.zipWith f A B, ∃ a ∈ A, c.row = a.row := by
    intro A B f hf
    induction A generalizing B with
    | nil => simp
    | cons a A ih =>
      cases B with
      | nil => simp
      | cons b B =>
        intro c hc
        rw [List.zipWith_cons_cons, List.mem_cons] at hc
        rcases hc with rfl | hc
        · exact ⟨a, List.mem_cons_self, hf a b⟩
        · obtain ⟨b', hb', e⟩ := ih B c hc
          exact ⟨b', List.mem_cons_of_mem _ hb', e⟩
  unfold jacContactJacobian at hb'
  obtain ⟨a, ha, e⟩ := this _ _ (fun i b : MBlock => MBlock.mk i.row i.col b.val)
    (fun _ _ => rfl) b' hb'
  show b'.row < N
  rw [e]
  simpa using (List.mem_filter.1 ha).2

/-! ## Forces -/

/-- The blocks of `forceTriplets` for two vertices of the surface. -/
def force1 (x : ℕ → V3 ℝ) (m : ℕ → V3 ℝ) : List HBlock :=
  C.active.zipIdx.flatMap fun p => ((contactHessianAt (C.query x p.1.2) p.1.1 (C.samples x) C.kernel
    C.tris (fun j => x (C.surf j)) params (m p.2)).getD []).map fun b =>
      HBlock.mk (C.surf b.row) (C.surf b.col) b.val.transpose

/-- The blocks of `forceTriplets` for a vertex of the surface and one of the collider. -/
def force2 (x : ℕ → V3 ℝ) (m : ℕ → V3 ℝ) : List HBlock :=
  C.active.zipIdx.flatMap fun p => ((contactQueryHessianAt (C.query x p.1.2) p.1.1 (C.samples x) C.kernel
    C.tris params (m p.2)).getD []).map fun e => HBlock.mk (C.surf e.1) (C.coll p.1.2) e.2.transpose

theorem forceTriplets_eq (x : ℕ → V3 ℝ) (m : ℕ → V3 ℝ) (n : ℕ) : C.forceTriplets x m n =
    (C.force1 x m ++ C.force2 x m).filter fun b => decide (b.row < n ∧ b.col < n) := rfl

theorem force1_pos (x : ℕ → V3 ℝ) (m : ℕ → V3 ℝ) :
    ∀ b ∈ C.force1 x m, ∃ i j, b.row = C.surf i ∧ b.col = C.surf j := by
  intro b hb
  obtain ⟨p, -, hb⟩ := List.mem_flatMap.1 hb
  obtain ⟨e, -, rfl⟩ := List.mem_map.1 hb
  exact ⟨_, _, rfl, rfl⟩

theorem force2_pos (x : ℕ → V3 ℝ) (m : ℕ → V3 ℝ) :
    ∀ b ∈ C.force2 x m, ∃ i j, b.row = C.surf i ∧ b.col = C.coll j := by
  intro b hb
  obtain ⟨p, -, hb⟩ := List.mem_flatMap.1 hb
  obtain ⟨e, -, rfl⟩ := List.mem_map.1 hb
  exact ⟨_, _, rfl, rfl⟩

theorem force1_keys (x : ℕ → V3 ℝ) (m m' : ℕ → V3 ℝ) :
    (C.force1 x m).map (fun b => (b.row, b.col)) = (C.force1 x m').map fun b => (b.row, b.col) := by
  unfold force1
  rw [List.map_flatMap, List.map_flatMap]
  congr 1
  funext p
  have := congrArg (List.map fun a => (C.surf a.1, C.surf a.2)) (force_keys (C.query x p.1.2) p.1.1
    (C.samples x) C.kernel C.tris (fun j => x (C.surf j)) params (m p.2) (m' p.2))
  rw [List.map_map, List.map_map] at this
  rw [List.map_map, List.map_map]
  exact this

theorem force2_keys (x : ℕ → V3 ℝ) (m m' : ℕ → V3 ℝ) :
    (C.force2 x m).map (fun b => (b.row, b.col)) = (C.force2 x m').map fun b => (b.row, b.col) := by
  unfold force2
  rw [List.map_flatMap, List.map_flatMap]
  congr 1
  funext p
  have := congrArg (List.map fun a => (C.surf a, C.coll p.1.2)) (queryForce_keys (C.query x p.1.2) p.1.1
    (C.samples x) C.kernel C.tris params (m p.2) (m' p.2))
  rw [List.map_map, List.map_map] at this
  rw [List.map_map, List.map_map]
  exact this

/-- What the code gives for the rate of the power of a force `l` at constraint `k` in a motion `u` of the
surface. -/
def forceRate (x : ℕ → V3 ℝ) (l : V3 ℝ) (u w : ℕ → V3 ℝ) (k : ℕ) : ℝ :=
  (((contactHessianAt (C.query x (C.contactAt k).2) (C.contactAt k).1 (C.samples x) C.kernel C.tris
      (fun j => x (C.surf j)) params l).getD []).map fun b =>
        V3.dot (u (C.surf b.row)) (b.val.transpose.mulVec (w (C.surf b.col)))).sum +
    (((contactQueryHessianAt (C.query x (C.contactAt k).2) (C.contactAt k).1 (C.samples x) C.kernel C.tris
      params l).getD []).map fun e =>
        V3.dot (u (C.surf e.1)) (e.2.transpose.mulVec (w (C.coll (C.contactAt k).2)))).sum

theorem force_form (x : ℕ → V3 ℝ) (m u w : ℕ → V3 ℝ) :
    form (C.force1 x m) u w + form (C.force2 x m) u w =
      ∑ k ∈ Finset.range C.active.length, C.forceRate x (m k) u w k := by
  unfold force1 force2
  rw [form_flatMap, form_flatMap, zipIdx_sum_range _ ([], 0), zipIdx_sum_range _ ([], 0),
    ← Finset.sum_add_distrib]
  refine Finset.sum_congr rfl fun k _ => ?_
  unfold form forceRate
  rw [List.map_map, List.map_map]
  rfl

theorem dot_zero' (a : V3 ℝ) : V3.dot a 0 = 0 := by simp [V3.dot]

theorem zero_dot' (a : V3 ℝ) : V3.dot 0 a = 0 := by simp [V3.dot]

theorem jacContactGradient_form {N n : ℕ} (x v m u w : ℕ → V3 ℝ) (hs : ∀ j, C.surf j < N)
    (hc : ∀ i, C.coll i < N) (ha : C.Aligned n v) (hu : ∀ i, n ≤ i → u i = 0)
    (hw : ∀ i, n ≤ i → w i = 0) : form (C.jacContactGradient x m N n) u w =
      ∑ k ∈ Finset.range C.active.length, C.forceRate x (m k) u w k := by
  have hN : C.forceTriplets x (fun _ => 0) N = C.force1 x (fun _ => 0) ++ C.force2 x fun _ => 0 := by
    rw [forceTriplets_eq]
    refine List.filter_eq_self.2 fun b hb => decide_eq_true ?_
    rcases List.mem_append.1 hb with hb | hb
    · obtain ⟨i, j, h1, h2⟩ := C.force1_pos x _ b hb
      rw [h1, h2]
      exact ⟨hs i, hs j⟩
    · obtain ⟨i, j, h1, h2⟩ := C.force2_pos x _ b hb
      rw [h1, h2]
      exact ⟨hs i, hc j⟩
  rw [← C.force_form x m u w]
  unfold jacContactGradient
  rcases ha with ⟨h1, h2⟩ | ⟨h1, h2⟩ | ⟨h1, h2⟩
  · have hn : C.forceTriplets x m n = C.force1 x m ++ C.force2 x m := by
      rw [forceTriplets_eq]
      refine List.filter_eq_self.2 fun b hb => decide_eq_true ?_
      rcases List.mem_append.1 hb with hb | hb
      · obtain ⟨i, j, e1, e2⟩ := C.force1_pos x _ b hb
        rw [e1, e2]
        exact ⟨h1 i, h1 j⟩
      · obtain ⟨i, j, e1, e2⟩ := C.force2_pos x _ b hb
        rw [e1, e2]
        exact ⟨h1 i, h2 j⟩
    rw [hN, hn, ← List.append_nil (C.force1 x (fun _ => 0) ++ C.force2 x fun _ => 0), zipWith_hblocks,
      form_append]
    rw [List.map_append, List.map_append, C.force1_keys x _ m, C.force2_keys x _ m]
  · have hn : C.forceTriplets x m n = C.force1 x m := by
      rw [forceTriplets_eq, List.filter_append, List.filter_eq_self.2, List.filter_eq_nil_iff.2,
        List.append_nil]
      · intro b hb
        obtain ⟨i, j, e1, e2⟩ := C.force2_pos x _ b hb
        rw [e1, e2]
        have := h2 j
        simp only [decide_eq_true_eq]
        omega
      · intro b hb
        obtain ⟨i, j, e1, e2⟩ := C.force1_pos x _ b hb
        rw [e1, e2]
        exact decide_eq_true ⟨h1 i, h1 j⟩
    have hz : form (C.force2 x m) u w = 0 := by
      unfold form
      refine rsum_zero _ _ fun b hb => ?_
      obtain ⟨i, j, -, e2⟩ := C.force2_pos x _ b hb
      rw [e2, hw _ (h2 j), mulVec_zero_right, dot_zero']
    rw [hN, hn, zipWith_hblocks _ _ _ (C.force1_keys x _ m), hz, add_zero]
  · have hn : C.forceTriplets x m n = [] := by
      rw [forceTriplets_eq]
      refine List.filter_eq_nil_iff.2 fun b hb => ?_
      obtain ⟨i, e⟩ : ∃ i, b.row = C.surf i := by
        rcases List.mem_append.1 hb with hb | hb
        · obtain ⟨i, j, e1, -⟩ := C.force1_pos x _ b hb
          exact ⟨i, e1⟩
        · obtain ⟨i, j, e1, -⟩ := C.force2_pos x _ b hb
          exact ⟨i, e1⟩
      have := h1 i
      rw [e]
      simp only [decide_eq_true_eq]
      omega
    have hz : ∀ B : List HBlock, (∀ b ∈ B, ∃ i, b.row = C.surf i) → form B u w = 0 := by
      intro B hB
      unfold form
      refine rsum_zero _ _ fun b hb => ?_
      obtain ⟨i, e⟩ := hB b hb
      rw [e, hu _ (h1 i), zero_dot']
    rw [hn, List.zipWith_nil_right, hz (C.force1 x m) fun b hb => ?_, hz (C.force2 x m) fun b hb => ?_]
    · simp [form]
    · obtain ⟨i, j, e1, -⟩ := C.force2_pos x _ b hb
      exact ⟨i, e1⟩
    · obtain ⟨i, j, e1, -⟩ := C.force1_pos x _ b hb
      exact ⟨i, e1⟩

theorem forceRate_zero (x u w : ℕ → V3 ℝ) (k : ℕ) : C.forceRate x 0 u w k = 0 := by
  have ht : (0 : M3 ℝ).transpose = 0 := rfl
  unfold forceRate
  rw [rsum_zero (_ : List HBlock) _ fun b hb => by
      rw [force_zero b hb, ht, mulVec_zero_left, dot_zero'],
    rsum_zero (_ : List (ℕ × M3 ℝ)) _ fun b hb => by
      rw [queryForce_zero b hb, ht, mulVec_zero_left, dot_zero'], add_zero]

theorem forceRate_eq (x u w : ℕ → V3 ℝ) (l : V3 ℝ) {k c : ℕ} (hk : k < C.active.length)
    (hsm : Smooth C.kernel params (C.query x (C.contactAt k).2) (C.contactAt k).1 (C.samples x) c)
    (hop : C.Unopposed x (C.contactAt k)) : C.forceRate x l u w k = V3.dot l (C.relRate x u w k) := by
  obtain ⟨y, hy⟩ : ∃ y : ℝ → ℕ → V3 ℝ, y = fun s i => x i + s • w i := ⟨_, rfl⟩
  have h0 : y 0 = x := by
    rw [hy]
    funext i
    ext <;> simp
  have hyd : ∀ i, HasD (fun s => y s i) (w i) 0 := by
    intro i
    rw [hy]
    exact HasD.line _ _
  rw [← h0] at hsm hop ⊢
  obtain ⟨A, B, hA, hB, hd⟩ := contact_force_derivative_partial (k := C.kernel) (P := params) (t := (0 : ℝ))
    (fun s => C.query (y s) (C.contactAt k).2) (w (C.coll (C.contactAt k).2)) C.tris C.value
    (fun s j => y s (C.surf j)) (fun j => w (C.surf j)) (hyd _) (fun _ => hyd _) hsm rfl hop l
  have e : C.forceRate (y 0) l u w k =
      (A.map fun e => V3.dot (u (C.surf e.row)) (e.val.transpose.mulVec (w (C.surf e.col)))).sum +
        (B.map fun e => V3.dot (u (C.surf e.1))
          (e.2.transpose.mulVec (w (C.coll (C.contactAt k).2)))).sum := by
    unfold forceRate
    rw [show contactHessianAt (C.query (y 0) (C.contactAt k).2) (C.contactAt k).1 (C.samples (y 0))
      C.kernel C.tris (fun j => y 0 (C.surf j)) params l = some A from hA,
      show contactQueryHessianAt (C.query (y 0) (C.contactAt k).2) (C.contactAt k).1
        (C.samples (y 0)) C.kernel C.tris params l = some B from hB]
    rfl
  rw [e]
  have h2 := (HasD.const l).dot (C.rel_const_hasD hyd hk hsm hop u)
  have h1 := (hd fun j => u (C.surf j)).sub_const (V3.dot l (u (C.coll (C.contactAt k).2)))
  have h3 := (h1.congr_of_eventuallyEq (Filter.Eventually.of_forall fun s => by
    rw [C.rel_eq (y s) u hk, dot_sub_right]
    rfl)).unique h2
  rw [h3]
  simp [V3.dot]

/-! ## One contact -/

theorem rate_smul (x w : ℕ → V3 ℝ) (c : ℝ) (p : List ℕ × ℕ) :
    C.rate x p (fun i => c • w i) = c * C.rate x p w := by
  have e : ∀ (J : List (V3 ℝ)) (cols : List ℕ) (f : ℕ → V3 ℝ),
      applyBlocks J cols (fun j => c • f j) = c * applyBlocks J cols f := by
    intro J cols f
    rw [← applyBlocks_zip]
    have := applyBlocks_zip J cols (fun j => c • f j) 1
    rw [one_mul] at this
    rw [← this]
    congr 1
    refine List.map_congr_left fun q _ => ?_
    simp [V3.dot]
    ring
  unfold rate
  rw [e]
  simp [V3.dot]
  ring

theorem lambdaRate_smul (x w : ℕ → V3 ℝ) (c : ℝ) (k : ℕ) :
    C.lambdaRate x (fun i => c • w i) k = c * C.lambdaRate x w k := by
  unfold lambdaRate
  rw [rate_smul]
  ring

theorem lambda_at (x : ℕ → V3 ℝ) {k : ℕ} (hk : k < C.active.length) :
    (C.lambda x).getD k 0 = -C.kappa * ContactPenalty.db C.delta (C.distance x (C.contactAt k)) := by
  rw [← C.lambda_row x _ (C.contactAt_mem hk), C.constraintOf_contactAt hk]

theorem distance_hasDeriv {x : ℝ → ℕ → V3 ℝ} {x' : ℕ → V3 ℝ} {t : ℝ}
    (hx : ∀ i, HasD (fun s => x s i) (x' i) t) (p : List ℕ × ℕ) {c : ℕ}
    (hsm : Smooth C.kernel params (C.query (x t) p.2) p.1 (C.samples (x t)) c) :
    HasDerivAt (fun s => C.distance (x s) p) (C.rate (x t) p x') t := by
  obtain ⟨Q, J, hQ, hJ, -, hd⟩ := face_joint (old := 0) (t := t) (fun s => C.query (x s) p.2)
    (x' (C.coll p.2)) C.tris C.value (fun s j => x s (C.surf j)) (fun j => x' (C.surf j))
    (some (C.closest p.2)) (hx _) (fun _ => hx _) hsm.toRegular
  have hrate : C.rate (x t) p x' = V3.dot Q (x' (C.coll p.2)) +
      applyBlocks J (faceJacobianCols p.1 C.tris) fun j => x' (C.surf j) := by
    unfold rate
    rw [show queryJacobianAt (C.query (x t) p.2) p.1 (C.samples (x t)) (some (C.closest p.2)) C.kernel
      params = some Q from hQ, show faceJacobianAt (C.query (x t) p.2) p.1 (C.samples (x t)) C.kernel
      C.tris (fun j => x t (C.surf j)) params = some J from hJ]
    rfl
  rw [← hrate] at hd
  exact hd.sub_const _

theorem lambda_hasDeriv {x : ℝ → ℕ → V3 ℝ} {x' : ℕ → V3 ℝ} {t : ℝ}
    (hx : ∀ i, HasD (fun s => x s i) (x' i) t) {k c : ℕ} (hk : k < C.active.length)
    (hsm : Smooth C.kernel params (C.query (x t) (C.contactAt k).2) (C.contactAt k).1 (C.samples (x t)) c) :
    HasDerivAt (fun s => (C.lambda (x s)).getD k 0) (C.lambdaRate (x t) x' k) t := by
  have h := ((ContactPenalty.db_hasDerivAt C.delta _).comp t
    (C.distance_hasDeriv hx (C.contactAt k) hsm)).const_mul (-C.kappa)
  refine (h.congr_of_eventuallyEq (Filter.Eventually.of_forall fun s => C.lambda_at (x s) hk)).congr_deriv ?_
  unfold lambdaRate
  ring

/-- What the blocks of the complete Jacobian give for constraint `k`. -/
def completeTerm (p : Friction.Params) (x v u w : ℕ → V3 ℝ) (dqdv : ℝ) (k : ℕ) : ℝ :=
  let l := (C.lambda x).getD k 0
  let F' := contactRate ((C.contactNormals x).getD k 0) (C.gradAt x k) (C.gradRate x w k)
  let f := C.frictionCoordinates p x v l k
  dqdv * C.lambdaRate x w k * V2.dot (Friction.profile (C.slide x v k) 1 p) (C.slide x u k) +
    C.forceRate x (C.physicalFriction p x v dqdv k) u w k +
    dqdv * V3.dot (C.rel x u k) ((M3.diag 1).mulVec (F'.transpose.mulVec f)) +
    dqdv * V3.dot (C.rel x u k) ((((C.contactBasis x).fullBlock k).getD 0 * C.etaBlock p x v k).mulVec
      (F'.mulVec (C.rel x v k))) +
    dqdv * V3.dot (C.rel x u k) ((((C.contactBasis x).fullBlock k).getD 0 * (C.etaBlock p x v k *
      ((C.contactBasis x).fullBlockTranspose k).getD 0)).mulVec (C.relRate x v w k)) +
    V2.dot (C.slide x u k) ((Friction.jacobian (C.slide x v k) l p).mulVec (C.slide x w k))

theorem form_scale (c : ℝ) (B : List HBlock) (u w : ℕ → V3 ℝ) :
    form (scaleBlocks c B) u w = c * form B u w := by
  unfold form scaleBlocks
  rw [List.map_map, ← List.sum_map_mul_left]
  congr 1
  refine List.map_congr_left fun b _ => ?_
  simp only [Function.comp, M3.mulVec_smul]
  simp [V3.dot]
  ring

theorem basis_cols (x : ℕ → V3 ℝ) (m : ℕ → V3 ℝ) (tr : Bool) {N n : ℕ} (h : n ≤ N) :
    ∀ b ∈ C.basisTriplets x m tr n, b.col < N := by
  intro b hb
  have := (List.mem_filter.1 hb).2
  simp only [decide_eq_true_eq] at this
  omega

theorem completeBlocks_form {ns N n : ℕ} (h : C.Distinct ns N) (p : Friction.Params) (x v u w : ℕ → V3 ℝ)
    (dqdv : ℝ) (hn : n ≤ N) (hu : ∀ i, n ≤ i → u i = 0) (hw : ∀ i, n ≤ i → w i = 0)
    (hs : ∀ j, C.surf j < N) (hc : ∀ i, C.coll i < N)
    (hobj : C.objectFixed = true → ∀ j, n ≤ C.surf j) (hcol : C.colliderFixed = true → ∀ i, n ≤ C.coll i)
    (ha : C.Aligned n v) :
    form (C.completeBlocks p x v dqdv N n) u w =
      ∑ k ∈ Finset.range C.active.length, C.completeTerm p x v u w dqdv k := by
  unfold completeBlocks
  simp only [form_append, form_scale]
  unfold blocksA blocksB blocksC blocksD
  rw [C.lambdaBlocks_form h p x v u w dqdv hu hw hs hc (fun h j => hw _ (hobj h j))
      (fun h i => hw _ (hcol h i)), C.jacContactGradient_form x v _ u w hs hc ha hu hw,
    C.contactProduct_form h x _ _ (C.basis_cols x _ _ hn), C.contactProduct_form h x _ _
      (C.basis_cols x _ _ hn), C.contactProduct_form h x _ _ (C.velocity_cols x _),
    C.frictionBlocks_form h, Finset.mul_sum, Finset.mul_sum, Finset.mul_sum, ← Finset.sum_add_distrib,
    ← Finset.sum_add_distrib, ← Finset.sum_add_distrib, ← Finset.sum_add_distrib, ← Finset.sum_add_distrib]
  refine Finset.sum_congr rfl fun k hk => ?_
  have hk := Finset.mem_range.1 hk
  rw [C.applyRow_basis x _ false hk w hw, C.applyRow_basis x _ true hk w hw,
    C.applyRow_velocity x v w hs hc ha hw hk]
  rfl

theorem incompleteBlocks_form {ns N n : ℕ} (h : C.Distinct ns N) (p : Friction.Params) (x v u w : ℕ → V3 ℝ)
    (dqdv : ℝ) (hu : ∀ i, n ≤ i → u i = 0) (hw : ∀ i, n ≤ i → w i = 0)
    (hs : ∀ j, C.surf j < N) (hc : ∀ i, C.coll i < N)
    (hobj : C.objectFixed = true → ∀ j, n ≤ C.surf j) (hcol : C.colliderFixed = true → ∀ i, n ≤ C.coll i) :
    form (C.incompleteBlocks p x v dqdv N n) u w = ∑ k ∈ Finset.range C.active.length,
      (dqdv * C.lambdaRate x w k * V2.dot (Friction.profile (C.slide x v k) 1 p) (C.slide x u k) +
        V2.dot (C.slide x u k) ((Friction.jacobian (C.slide x v k) ((C.lambda x).getD k 0) p).mulVec
          (C.slide x w k))) := by
  unfold incompleteBlocks
  rw [form_append, C.lambdaBlocks_form h p x v u w dqdv hu hw hs hc (fun h j => hw _ (hobj h j))
      (fun h i => hw _ (hcol h i)), C.frictionBlocks_form h, ← Finset.sum_add_distrib]

theorem currentEntries_form (p : Friction.Params) (hp : ¬ p.isNone) (inc : Bool) (x v u w : ℕ → V3 ℝ)
    (dqdv : ℝ) (N n : ℕ) (hu : ∀ i, n ≤ i → u i = 0) (hw : ∀ i, n ≤ i → w i = 0) :
    entryForm (C.currentEntries p inc x v dqdv N n) (coord u) (coord w) =
      form (if inc then C.incompleteBlocks p x v dqdv N n else C.completeBlocks p x v dqdv N n) u w := by
  unfold currentEntries
  rw [if_neg hp, ← flat_eq_coord, ← flat_eq_coord, entries_form, form_filter]
  intro b hb
  simp only [decide_eq_false_iff_not, not_and_or, not_lt] at hb
  rcases hb with hb | hb
  · rw [hu _ hb]; simp [V3.dot]
  · rw [hw _ hb, mulVec_zero_right]; simp [V3.dot]

theorem dot_frame (F : M3 ℝ) (a : V3 ℝ) (c : V2 ℝ) :
    V3.dot a (F.transpose.mulVec ⟨0, c.x, c.y⟩) = V2.dot c (tangential F a) := by
  simp only [V3.dot, V2.dot, tangential, M3.mulVec, M3.transpose]
  ring

theorem eta_mulVec (p : Friction.Params) (x v : ℕ → V3 ℝ) (k : ℕ) (a : V3 ℝ) :
    (C.etaBlock p x v k).mulVec a =
      ⟨0, ((Friction.jacobian (C.slide x v k) ((C.lambda x).getD k 0) p).mulVec ⟨a.y, a.z⟩).x,
        ((Friction.jacobian (C.slide x v k) ((C.lambda x).getD k 0) p).mulVec ⟨a.y, a.z⟩).y⟩ := by
  rw [C.etaBlock_eq]
  ext <;> simp [M3.mulVec, V3.dot, Friction.M2.mulVec]

theorem completeTerm_eq (p : Friction.Params) (x v u w : ℕ → V3 ℝ) (dqdv : ℝ) (k : ℕ) :
    C.completeTerm p x v u w dqdv k =
      dqdv * C.lambdaRate x w k * V2.dot (Friction.profile (C.slide x v k) 1 p) (C.slide x u k) +
      C.forceRate x (dqdv • C.frictionAt p x v ((C.lambda x).getD k 0) k) u w k +
      dqdv * V2.dot (Friction.profile (C.slide x v k) ((C.lambda x).getD k 0) p) (tangential
        (contactRate ((C.contactNormals x).getD k 0) (C.gradAt x k) (C.gradRate x w k)) (C.rel x u k)) +
      dqdv * V2.dot ((Friction.jacobian (C.slide x v k) ((C.lambda x).getD k 0) p).mulVec (tangential
        (contactRate ((C.contactNormals x).getD k 0) (C.gradAt x k) (C.gradRate x w k)) (C.rel x v k)))
          (C.slide x u k) +
      dqdv * V2.dot ((Friction.jacobian (C.slide x v k) ((C.lambda x).getD k 0) p).mulVec
        (tangential (C.frameAt x k) (C.relRate x v w k))) (C.slide x u k) +
      V2.dot (C.slide x u k) ((Friction.jacobian (C.slide x v k) ((C.lambda x).getD k 0) p).mulVec
        (C.slide x w k)) := by
  have hid : ∀ a : V3 ℝ, (M3.diag 1).mulVec a = a := by
    intro a
    ext <;> simp [M3.diag, M3.mulVec, V3.dot]
  have hf : ((C.contactBasis x).fullBlockTranspose k).getD 0 = C.frameAt x k := rfl
  unfold completeTerm
  simp only [physicalFriction_eq, hid, frictionCoordinates_eq, dot_frame, M3.mul_def, M3.mulVec_mul,
    fullBlock_eq, hf, eta_mulVec]
  rfl

/-- A contact that is close. -/
theorem term_close {ns N : ℕ} (h : C.Distinct ns N) (p : Friction.Params) (hp : p.Valid)
    (x v : ℝ → ℕ → V3 ℝ) (u w : ℕ → V3 ℝ) (dqdv t : ℝ)
    (hx : ∀ i, HasD (fun s => x s i) (dqdv • w i) t) (hv : ∀ i, HasD (fun s => v s i) (w i) t)
    {k c : ℕ} (hk : k < C.active.length) (hsm : Smooth C.kernel params (C.query (x t) (C.contactAt k).2)
      (C.contactAt k).1 (C.samples (x t)) c) (hcl : C.Close p (x t) (v t) c k) :
    HasDerivAt (fun s => V2.dot (Friction.profile (C.slide (x s) (v s) k) ((C.lambda (x s)).getD k 0) p)
      (C.slide (x s) u k)) (C.completeTerm p (x t) (v t) u w dqdv k -
        dqdv * p.viscousFriction * (C.lambdaRate (x t) w k *
          V2.dot (C.slide (x t) (v t) k) (C.slide (x t) u k))) t := by
  obtain ⟨F, hF, hFd, hev⟩ := C.frame_path hk (C.gradAt_hasD hx hsm hcl.radius) hcl.grad
  have hr := C.rel_path h hx hv hk hsm hcl.unopposed
  have hq := C.rel_const_hasD hx hk hsm hcl.unopposed u
  have hl := C.lambda_hasDeriv hx hk hsm
  have key := power_path p hp hFd hr hq hl (by rw [hF]; exact hcl.steady)
  refine (key.congr_of_eventuallyEq (hev.mono fun s hs => hs _ _ _ _)).congr_deriv ?_
  rw [completeTerm_eq, C.forceRate_eq (x t) u w _ hk hsm hcl.unopposed, hF, C.lambdaRate_smul,
    C.gradRate_smul, contactRate_smul, C.relRate_smul, C.relRate_smul, C.contactNormals_getD _ hk hcl.grad]
  generalize contactRate (C.normalAt (x t) k) (C.gradAt (x t) k) (C.gradRate (x t) w k) = F'
  have e1 : ∀ a : V3 ℝ, V3.dot (dqdv • C.frictionAt p (x t) (v t) ((C.lambda (x t)).getD k 0) k) a =
      dqdv * V2.dot (Friction.profile (C.slide (x t) (v t) k) ((C.lambda (x t)).getD k 0) p)
        (tangential (C.frameAt (x t) k) a) := by
    intro a
    have := dot_frame (C.frameAt (x t) k) a
      (Friction.profile (C.slide (x t) (v t) k) ((C.lambda (x t)).getD k 0) p)
    rw [← this, dot_swap a]
    simp only [V3.dot, frictionAt, V3.smul_x, V3.smul_y, V3.smul_z]
    ring
  rw [e1]
  simp only [C.slide_eq]
  generalize C.frameAt (x t) k = G
  generalize C.rel (x t) (v t) k = a
  generalize C.rel (x t) u k = b
  generalize C.rel (x t) w k = d
  generalize C.relRate (x t) (v t) w k = a'
  generalize C.relRate (x t) u w k = b'
  generalize (C.lambda (x t)).getD k 0 = l
  generalize Friction.profile (tangential G a) l p = f
  generalize Friction.profile (tangential G a) 1 p = f1
  generalize Friction.jacobian (tangential G a) l p = J
  generalize C.lambdaRate (x t) w k = l'
  have t1 : ∀ y, tangential (dqdv • F') y = dqdv • tangential F' y := by
    intro y
    ext <;> simp [tangential, M3.mulVec_smul]
  have t2 : ∀ y, tangential G (dqdv • y) = dqdv • tangential G y := by
    intro y
    ext <;> simp [tangential, M3.mulVec_vsmul]
  have t3 : ∀ y z, tangential G (y + z) = tangential G y + tangential G z := by
    intro y z
    ext <;> simp [tangential, M3.mulVec_vadd]
  rw [t1, t1, t3, t2, t2]
  simp only [V2.dot, Friction.M2.mulVec, V2.add_x, V2.add_y, V2.smul_x, V2.smul_y]
  ring

theorem profile_zero (p : Friction.Params) (hv : p.viscousFriction = 0) (V : V2 ℝ) :
    Friction.profile V 0 p = 0 := by
  rw [Friction.profile_eq]
  ext <;> simp [Friction.eta, hv]

theorem jacobian_zero (p : Friction.Params) (hv : p.viscousFriction = 0) (V w : V2 ℝ) :
    (Friction.jacobian V 0 p).mulVec w = 0 := by
  unfold Friction.jacobian Friction.etaJac
  cases p.profile <;> (ext <;> simp [Friction.M2.mulVec, hv])

/-- A contact beyond the tolerance. -/
theorem term_far (p : Friction.Params) (hv0 : p.viscousFriction = 0) (x v : ℝ → ℕ → V3 ℝ)
    (u w x' : ℕ → V3 ℝ) (dqdv t : ℝ) (hx : ∀ i, HasD (fun s => x s i) (x' i) t)
    {k c : ℕ} (hk : k < C.active.length) (hsm : Smooth C.kernel params (C.query (x t) (C.contactAt k).2)
      (C.contactAt k).1 (C.samples (x t)) c) (hfar : C.delta < C.distance (x t) (C.contactAt k)) :
    HasDerivAt (fun s => V2.dot (Friction.profile (C.slide (x s) (v s) k) ((C.lambda (x s)).getD k 0) p)
      (C.slide (x s) u k)) (C.completeTerm p (x t) (v t) u w dqdv k -
        dqdv * p.viscousFriction * (C.lambdaRate (x t) w k *
          V2.dot (C.slide (x t) (v t) k) (C.slide (x t) u k))) t := by
  have hl : ∀ s, C.delta < C.distance (x s) (C.contactAt k) → (C.lambda (x s)).getD k 0 = 0 := by
    intro s hs
    rw [C.lambda_at (x s) hk, ContactPenalty.db_of_ge hs.le, mul_zero]
  have hev : ∀ᶠ s in nhds t, C.delta < C.distance (x s) (C.contactAt k) :=
    continuousAt_const.eventually_lt (C.distance_hasDeriv hx (C.contactAt k) hsm).continuousAt hfar
  have h0 : C.completeTerm p (x t) (v t) u w dqdv k = 0 := by
    have hr : C.lambdaRate (x t) w k = 0 := by
      unfold lambdaRate
      rw [ContactPenalty.ddb_of_ge hfar.le]
      ring
    have hz : ∀ c : ℝ, c • (0 : V3 ℝ) = 0 := fun c => by ext <;> simp
    have hfz : C.frictionAt p (x t) (v t) 0 k = 0 := by
      unfold frictionAt
      rw [profile_zero p hv0]
      exact mulVec_zero_right _
    rw [completeTerm_eq, hl t hfar, hr, profile_zero p hv0, hfz, hz, forceRate_zero]
    simp only [jacobian_zero p hv0]
    simp [V2.dot]
  rw [h0, hv0, mul_zero, zero_mul, sub_zero]
  refine (hasDerivAt_const t (0 : ℝ)).congr_of_eventuallyEq (hev.mono fun s hs => ?_)
  simp only [hl s hs, profile_zero p hv0]
  simp [V2.dot]

/-! ## The Jacobian -/

/-- Viscous friction, times the rates of the multipliers. -/
def viscousExcess (p : Friction.Params) (x v u w : ℕ → V3 ℝ) (dqdv : ℝ) : ℝ :=
  dqdv * p.viscousFriction * ∑ k ∈ Finset.range C.active.length,
    C.lambdaRate x w k * V2.dot (C.slide x v k) (C.slide x u k)

/-- The rate of the power of friction, in terms of what the code computes for each contact. -/
theorem power_rate_terms {ns N : ℕ} (h : C.Distinct ns N) (p : Friction.Params) (hp : p.Valid)
    (hnone : ¬ p.isNone) (x v : ℝ → ℕ → V3 ℝ) (u w : ℕ → V3 ℝ) (dqdv t : ℝ)
    (c : List ℕ × ℕ → ℕ)
    (hx : ∀ i, HasD (fun s => x s i) (dqdv • w i) t) (hv : ∀ i, HasD (fun s => v s i) (w i) t)
    (hsm : ∀ q ∈ C.active, Smooth C.kernel params (C.query (x t) q.2) q.1 (C.samples (x t)) (c q))
    (hcl : ∀ k < C.active.length, C.distance (x t) (C.contactAt k) ≤ C.delta ∨ p.viscousFriction ≠ 0 →
      C.Close p (x t) (v t) (c (C.contactAt k)) k) :
    HasDerivAt (fun s => ∑ i ∈ Finset.range N,
        V3.dot (C.subtractFriction ns p (x s) (v s) (fun _ => 0) i) (u i))
      ((∑ k ∈ Finset.range C.active.length, C.completeTerm p (x t) (v t) u w dqdv k) -
        C.viscousExcess p (x t) (v t) u w dqdv) t := by
  simp only [C.subtractFriction_power h p hnone]
  unfold slidePower viscousExcess
  rw [Finset.mul_sum, ← Finset.sum_sub_distrib]
  refine HasDerivAt.fun_sum fun k hk => ?_
  have hk := Finset.mem_range.1 hk
  have hsk := hsm _ (C.contactAt_mem hk)
  by_cases hd : C.distance (x t) (C.contactAt k) ≤ C.delta ∨ p.viscousFriction ≠ 0
  · exact C.term_close h p hp x v u w dqdv t hx hv hk hsk (hcl k hk hd)
  · simp only [not_or, not_le, not_not] at hd
    exact C.term_far p hd.2 x v u w _ dqdv t hx hk hsk hd.1

/-- **C87.** For friction that is not lagged and not viscous, along any path of states on which the
velocities have rates `w` and the positions have rates `dqdv • w`, the rate of the power of friction in a
motion `u` is what the matrix makes of `u` and `w`. -/
theorem friction_jacobian_partial {ns N n : ℕ} (h : C.Distinct ns N) (p : Friction.Params) (hp : p.Valid)
    (hnone : ¬ p.isNone) (hv0 : p.viscousFriction = 0) (x v : ℝ → ℕ → V3 ℝ) (u w : ℕ → V3 ℝ) (dqdv t : ℝ)
    (c : List ℕ × ℕ → ℕ) (hn : n ≤ N) (hs : ∀ j, C.surf j < N) (hc : ∀ i, C.coll i < N)
    (hx : ∀ i, HasD (fun s => x s i) (dqdv • w i) t) (hv : ∀ i, HasD (fun s => v s i) (w i) t)
    (hu : ∀ i, n ≤ i → u i = 0) (hw : ∀ i, n ≤ i → w i = 0)
    (hobj : C.objectFixed = true → ∀ j, n ≤ C.surf j) (hcol : C.colliderFixed = true → ∀ i, n ≤ C.coll i)
    (ha : C.Aligned n (v t))
    (hsm : ∀ q ∈ C.active, Smooth C.kernel params (C.query (x t) q.2) q.1 (C.samples (x t)) (c q))
    (hcl : ∀ k < C.active.length, C.distance (x t) (C.contactAt k) ≤ C.delta →
      C.Close p (x t) (v t) (c (C.contactAt k)) k) :
    HasDerivAt (fun s => ∑ i ∈ Finset.range N,
        V3.dot (C.subtractFriction ns p (x s) (v s) (fun _ => 0) i) (u i))
      (entryForm (C.currentEntries p false (x t) (v t) dqdv N n) (coord u) (coord w)) t := by
  rw [C.currentEntries_form p hnone false (x t) (v t) u w dqdv N n hu hw]
  simp only [Bool.false_eq_true, if_false]
  rw [C.completeBlocks_form h p (x t) (v t) u w dqdv hn hu hw hs hc hobj hcol ha]
  refine (C.power_rate_terms h p hp hnone x v u w dqdv t c hx hv hsm fun k hk hd =>
    hcl k hk (hd.resolve_right fun e => e hv0)).congr_deriv ?_
  unfold viscousExcess
  rw [hv0, mul_zero, zero_mul, sub_zero]

/-- C87 with viscous friction: what the matrix gives is too much by the viscous friction times the rates of
the multipliers. -/
theorem friction_jacobian_viscous {ns N n : ℕ} (h : C.Distinct ns N) (p : Friction.Params) (hp : p.Valid)
    (hnone : ¬ p.isNone) (x v : ℝ → ℕ → V3 ℝ) (u w : ℕ → V3 ℝ) (dqdv t : ℝ)
    (c : List ℕ × ℕ → ℕ) (hn : n ≤ N) (hs : ∀ j, C.surf j < N) (hc : ∀ i, C.coll i < N)
    (hx : ∀ i, HasD (fun s => x s i) (dqdv • w i) t) (hv : ∀ i, HasD (fun s => v s i) (w i) t)
    (hu : ∀ i, n ≤ i → u i = 0) (hw : ∀ i, n ≤ i → w i = 0)
    (hobj : C.objectFixed = true → ∀ j, n ≤ C.surf j) (hcol : C.colliderFixed = true → ∀ i, n ≤ C.coll i)
    (ha : C.Aligned n (v t))
    (hsm : ∀ q ∈ C.active, Smooth C.kernel params (C.query (x t) q.2) q.1 (C.samples (x t)) (c q))
    (hcl : ∀ k < C.active.length, C.Close p (x t) (v t) (c (C.contactAt k)) k) :
    HasDerivAt (fun s => ∑ i ∈ Finset.range N,
        V3.dot (C.subtractFriction ns p (x s) (v s) (fun _ => 0) i) (u i))
      (entryForm (C.currentEntries p false (x t) (v t) dqdv N n) (coord u) (coord w) -
        C.viscousExcess p (x t) (v t) u w dqdv) t := by
  rw [C.currentEntries_form p hnone false (x t) (v t) u w dqdv N n hu hw]
  simp only [Bool.false_eq_true, if_false]
  rw [C.completeBlocks_form h p (x t) (v t) u w dqdv hn hu hw hs hc hobj hcol ha]
  exact C.power_rate_terms h p hp hnone x v u w dqdv t c hx hv hsm fun k hk _ => hcl k hk

/-- **C87** for the incomplete Jacobian, which is the derivative where frames and the points of contact are
kept as they are at `t`. -/
theorem incomplete_jacobian_partial {ns N n : ℕ} (h : C.Distinct ns N) (p : Friction.Params) (hp : p.Valid)
    (hnone : ¬ p.isNone) (hv0 : p.viscousFriction = 0) (x v : ℝ → ℕ → V3 ℝ) (u w : ℕ → V3 ℝ) (dqdv t : ℝ)
    (c : List ℕ × ℕ → ℕ) (hs : ∀ j, C.surf j < N) (hc : ∀ i, C.coll i < N)
    (hx : ∀ i, HasD (fun s => x s i) (dqdv • w i) t) (hv : ∀ i, HasD (fun s => v s i) (w i) t)
    (hu : ∀ i, n ≤ i → u i = 0) (hw : ∀ i, n ≤ i → w i = 0)
    (hobj : C.objectFixed = true → ∀ j, n ≤ C.surf j) (hcol : C.colliderFixed = true → ∀ i, n ≤ C.coll i)
    (hsm : ∀ q ∈ C.active, Smooth C.kernel params (C.query (x t) q.2) q.1 (C.samples (x t)) (c q))
    (hst : ∀ k < C.active.length, SteadyAt p (C.slide (x t) (v t) k).norm) :
    HasDerivAt (fun s => ∑ k ∈ Finset.range C.active.length,
        V2.dot (Friction.profile (C.slide (x t) (v s) k) ((C.lambda (x s)).getD k 0) p) (C.slide (x t) u k))
      (entryForm (C.currentEntries p true (x t) (v t) dqdv N n) (coord u) (coord w)) t := by
  rw [C.currentEntries_form p hnone true (x t) (v t) u w dqdv N n hu hw]
  simp only [if_true]
  rw [C.incompleteBlocks_form h p (x t) (v t) u w dqdv hu hw hs hc hobj hcol]
  refine HasDerivAt.fun_sum fun k hk => ?_
  have hk := Finset.mem_range.1 hk
  have hr := C.rel_linear h (x t) v w t hv k hk
  have hl := C.lambda_hasDeriv hx hk (hsm _ (C.contactAt_mem hk))
  have key := power_path p hp (F := fun _ => C.frameAt (x t) k) (F' := 0)
    (q := fun _ => C.rel (x t) u k) (q' := 0) ⟨HasD.const _, HasD.const _, HasD.const _⟩ hr
    (HasD.const _) hl (hst k hk)
  refine key.congr_deriv ?_
  rw [C.lambdaRate_smul, hv0]
  simp only [C.slide_eq, tangential, mulVec_zero_left, mulVec_zero_right]
  simp only [V2.dot, Friction.M2.mulVec, V2.add_x, V2.add_y, V3.zero_y, V3.zero_z]
  ring

end Pair

/-! ## Examples -/

theorem demo_grad : demo.gradAt demoX 0 = ⟨0, 0, 1⟩ := by
  unfold Pair.gradAt
  rw [show demo.contactAt 0 = ([0], 1) from rfl]
  have := demo_flat.gradient (some (demo.closest 1))
  simp only [this, Option.getD_some]

theorem demo_close (p : Friction.Params) (v : ℕ → V3 ℝ) (h : p.staticFriction = p.dynamicFriction) :
    ∀ k < demo.active.length, demo.Close p demoX v 0 k := by
  intro k hk
  rw [demo_active] at hk
  have hk0 : k = 0 := by simpa using hk
  subst hk0
  have hc : demo.contactAt 0 = ([0], 1) := rfl
  constructor
  · exact demo_within ([0], 1) (by rw [demo_active]; simp) (by rw [demo_distance]; norm_num [demo])
  · rw [demo_grad]
    intro e
    have := congrArg V3.z e
    norm_num at this
  · intro g hg i hi
    rw [hc] at hg hi
    rw [demo_flat.gradient none] at hg
    cases hg
    have := demo_flat.normals i hi
    unfold unitNormal
    rw [this]
    norm_num [V3.dot]
  · exact Or.inl h

theorem demo_aligned (v : ℕ → V3 ℝ) : demo.Aligned 5 v := Or.inl ⟨demo_surf, demo_coll⟩

theorem line_zero (x w : ℕ → V3 ℝ) : (fun i => x i + (0 : ℝ) • w i) = x := by
  funext i; ext <;> simp

/-- The hypotheses hold where a vertex slides on a triangle, and there is friction. -/
example (u w : ℕ → V3 ℝ) (hu : ∀ i, 5 ≤ i → u i = 0) (hw : ∀ i, 5 ≤ i → w i = 0) (dqdv : ℝ) :
    HasDerivAt (fun s : ℝ => ∑ i ∈ Finset.range 5, V3.dot (demo.subtractFriction 3 (coulomb (3 / 10))
        (fun i => demoX i + s • dqdv • w i) (fun i => demoV i + s • w i) (fun _ => 0) i) (u i))
      (entryForm (demo.currentEntries (coulomb (3 / 10)) false demoX demoV dqdv 5 5) (coord u) (coord w)) 0 := by
  have := demo.friction_jacobian_partial demo_distinct (coulomb (3 / 10)) (coulomb_valid _ (by norm_num))
    (by norm_num [coulomb, Friction.Params.isNone]) rfl (fun s i => demoX i + s • dqdv • w i)
    (fun s i => demoV i + s • w i) u w dqdv 0 (fun _ => 0) (le_refl 5) demo_surf demo_coll
    (fun i => HasD.line _ _) (fun i => HasD.line _ _) hu hw (by simp [demo]) (by simp [demo])
    (demo_aligned _) (by rw [line_zero]; exact demo_contact_smooth)
    (by rw [line_zero, line_zero]; exact fun k hk _ => demo_close _ _ rfl k hk)
  rwa [line_zero, line_zero] at this

/-- Friction that is dry and viscous. -/
def wet : Friction.Params := { coulomb (3 / 10) with viscousFriction := 1 }

theorem wet_valid : wet.Valid := by constructor <;> norm_num [wet, coulomb]

/-- The vertex moves away from the triangle. -/
def liftW (i : ℕ) : V3 ℝ := if i = 3 then ⟨0, 0, 1⟩ else 0

theorem demo_lift : demo.lambdaRate demoX liftW 0 = -6 := by
  unfold Pair.lambdaRate
  rw [show demo.contactAt 0 = ([0], 1) from rfl, demo_distance]
  have hr : demo.rate demoX ([0], 1) liftW = 1 := by
    unfold Pair.rate
    have hz : (fun j => liftW (demo.surf j)) = fun _ => 0 := by
      funext j
      have : demo.surf j ≠ 3 := by
        show (if j < 3 then j else 0) ≠ 3
        split <;> omega
      simp [liftW, this]
    have := demo_flat.gradient (some (demo.closest 1))
    rw [hz, applyBlocks_zero]
    simp only [this, Option.getD_some]
    norm_num [V3.dot, liftW, demo]
  rw [hr]
  show -(2 : ℝ) * ContactPenalty.ddb 1 (1 / 2) * 1 = -6
  rw [ContactPenalty.ddb_of_lt (by norm_num)]
  norm_num

/-- C87 fails for viscous friction: where a vertex slides on a triangle and moves away from it, the matrix is
not the derivative of the force, since it takes viscous friction to be proportional to the pressure. -/
theorem friction_jacobian_violated :
    ∃ d, HasDerivAt (fun s : ℝ => ∑ i ∈ Finset.range 5, V3.dot (demo.subtractFriction 3 wet
        (fun i => demoX i + s • liftW i) (fun i => demoV i + s • liftW i) (fun _ => 0) i) (demoV i)) d 0 ∧
      entryForm (demo.currentEntries wet false demoX demoV 1 5 5) (coord demoV) (coord liftW) = d - 6 := by
  have hx : ∀ i, HasD (fun s : ℝ => demoX i + s • liftW i) ((1 : ℝ) • liftW i) 0 := by
    intro i
    rw [v3_one]
    exact HasD.line _ _
  have hz : ∀ i, 5 ≤ i → liftW i = 0 := by
    intro i hi
    have : i ≠ 3 := by omega
    simp [liftW, this]
  have hz' : ∀ i, 5 ≤ i → demoV i = 0 := by
    intro i hi
    have : i ≠ 3 := by omega
    simp [demoV, this]
  have := demo.friction_jacobian_viscous demo_distinct wet wet_valid
    (by norm_num [wet, coulomb, Friction.Params.isNone]) (fun s i => demoX i + s • liftW i)
    (fun s i => demoV i + s • liftW i) demoV liftW 1 0 (fun _ => 0) (le_refl 5) demo_surf demo_coll
    hx (fun i => HasD.line _ _) hz' hz (by simp [demo]) (by simp [demo])
    (demo_aligned _) (by rw [line_zero]; exact demo_contact_smooth)
    (by rw [line_zero, line_zero]; exact demo_close _ _ rfl)
  rw [line_zero, line_zero] at this
  refine ⟨_, this, ?_⟩
  have he : demo.viscousExcess wet demoX demoV demoV liftW 1 = -6 := by
    unfold Pair.viscousExcess
    rw [show demo.active.length = 1 from rfl, Finset.sum_range_one, demo_lift, demo_slide]
    norm_num [wet, V2.dot]
  rw [he]
  ring

/-! ## A corner of the triangle that is fixed -/

/-- The triangle of `demo`, whose third corner is vertex 5. -/
def pinned : Pair := { demo with surf := fun j => if j < 2 then j else 5 }

/-- The other object is at half the tolerance above the triangle, not above its centre. -/
def pinX (i : ℕ) : V3 ℝ :=
  if i = 3 then ⟨11 / 8, 1, 1 / 2⟩ else if i = 4 then ⟨9, 9, 9⟩ else if i = 5 then ⟨0, 3, 0⟩ else demoVerts i

/-- One corner of the triangle moves in its plane. -/
def pinW (i : ℕ) : V3 ℝ := if i = 1 then ⟨1, 0, 0⟩ else 0

/-- The triangle, stretched by `s`. -/
def pinY (s : ℝ) (i : ℕ) : V3 ℝ := pinX i + s • pinW i

theorem pin_active : pinned.active = [([0], 1)] := rfl

theorem pin_surf : ∀ j, pinned.surf j < 6 := by
  intro j
  show (if j < 2 then j else 5) < 6
  split <;> omega

theorem pin_coll : ∀ i, pinned.coll i < 6 := by
  intro i
  show (if i = 0 then 4 else 3) < 6
  split <;> omega

theorem pin_distinct : pinned.Distinct 3 6 := by
  constructor
  · intro p hp s hs j
    show Tri.get demoTri j < 3
    fin_cases j <;> decide
  · intro i hi j hj e
    have e : (if i < 2 then i else 5) = if j < 2 then j else 5 := e
    split at e <;> split at e <;> omega
  · simp [pin_active]
  · intro i j
    show (if i = 0 then 4 else 3) ≠ if j < 2 then j else 5
    split <;> split <;> omega
  · intro j _
    exact pin_surf j
  · intro p _
    exact pin_coll _

theorem pin_verts (s : ℝ) : pinY s (pinned.surf 0) = 0 ∧ pinY s (pinned.surf 1) = ⟨3 + s, 0, 0⟩ ∧
    pinY s (pinned.surf 2) = ⟨0, 3, 0⟩ := by
  refine ⟨?_, ?_, ?_⟩ <;> (ext <;> simp [pinY, pinned, pinX, pinW, demoVerts])

theorem pin_query (s : ℝ) : pinned.query (pinY s) 1 = ⟨11 / 8, 1, 1 / 2⟩ := by
  ext <;> simp [Pair.query, pinned, demo, pinY, pinX, pinW]

theorem pin_pos (s : ℝ) (i : ℕ) : (pinned.samples (pinY s)).pos i = ⟨1 + s / 3, 1, 0⟩ := by
  obtain ⟨h0, h1, h2⟩ := pin_verts s
  show (1 / 3 : ℝ) • (pinY s (pinned.surf 0) + pinY s (pinned.surf 1) + pinY s (pinned.surf 2)) = _
  rw [h0, h1, h2]
  ext <;> simp
  ring

theorem pin_nml (s : ℝ) (i : ℕ) : (pinned.samples (pinY s)).nml i = ⟨0, 0, 3 * (3 + s)⟩ := by
  obtain ⟨h0, h1, h2⟩ := pin_verts s
  show areaNormal (pinY s (pinned.surf 0)) (pinY s (pinned.surf 1)) (pinY s (pinned.surf 2)) = _
  rw [h0, h1, h2]
  ext <;> simp [areaNormal, V3.cross]
  ring

theorem pin_unit (s : ℝ) (hs : -1 < s) (i : ℕ) : unitNormal (pinned.samples (pinY s)) i = ⟨0, 0, 1⟩ := by
  have hp : (0 : ℝ) < 3 * (3 + s) := by linarith
  unfold unitNormal
  rw [pin_nml, axis_norm _ hp]
  have h3 : 3 + s ≠ 0 := by linarith
  ext <;> simp
  field_simp

theorem pin_flat (s : ℝ) (h0 : -1 < s) (h1 : s < 1) :
    FlatAround pinned.kernel (pinned.query (pinY s) 1) [0] (pinned.samples (pinY s)) ⟨0, 0, 1⟩ := by
  constructor
  · show (0 : ℝ) < 1
    norm_num
  · norm_num [V3.dot]
  · exact fun i _ => pin_unit s h0 i
  · refine ⟨1 / 2, fun i _ => ?_⟩
    rw [pin_pos, pin_query]
    show (0 : ℝ) + _ = _
    norm_num [V3.dot]
  · refine ⟨0, by simp, fun r hr => ?_⟩
    rw [pin_pos, pin_query]
    have : r = 1 := by
      have : (some 1 : Option ℝ) = some r := hr
      exact (Option.some.inj this).symm
    rw [this]
    unfold V3.norm
    rw [Real.sqrt_lt' one_pos]
    simp only [V3.dot, V3.sub_x, V3.sub_y, V3.sub_z]
    nlinarith
  · exact Or.inl trivial

theorem pinY_zero : pinY 0 = pinX := line_zero _ _

theorem pin_norm : ((⟨11 / 8, 1, 1 / 2⟩ : V3 ℝ) - (pinned.samples pinX).pos 0).norm = 5 / 8 := by
  have := pin_pos 0 0
  rw [pinY_zero] at this
  rw [this]
  unfold V3.norm
  rw [show V3.dot ((⟨11 / 8, 1, 1 / 2⟩ : V3 ℝ) - ⟨1 + 0 / 3, 1, 0⟩) (⟨11 / 8, 1, 1 / 2⟩ - ⟨1 + 0 / 3, 1, 0⟩) =
    5 / 8 * (5 / 8) by norm_num [V3.dot]]
  exact Real.sqrt_mul_self (by norm_num)

theorem pin_smooth : Smooth pinned.kernel params (pinned.query pinX 1) [0] (pinned.samples pinX) 0 := by
  have hq := pin_query 0
  rw [pinY_zero] at hq
  have hne : (⟨11 / 8, 1, 1 / 2⟩ : V3 ℝ) ≠ (pinned.samples pinX).pos 0 := by
    refine ne_of_norm_pos ?_
    rw [pin_norm]
    norm_num
  have hn := pin_nml 0 0
  rw [pinY_zero] at hn
  rw [hq]
  refine { proper := one_pos, nodup := by simp, mem := by simp, closest := ?_, edge := ?_, kink := ?_,
           center := Or.inl trivial, normals := ?_, tangent := ?_, mixed := ?_, off := ?_,
           apart := hne }
  · intro i hi h; simp at hi; exact absurd hi h
  · intro r hr; cases hr; rw [pin_norm]; norm_num
  · intro r eps h; cases h
  · intro i hi; simp at hi; subst hi; rw [hn]; intro h; have := congrArg V3.z h; norm_num at this
  · rintro _ (h | ⟨r, hr, h⟩)
    · cases h
    · cases hr; rw [pin_norm] at h; norm_num at h
  · intro h; cases h
  · intro r hr i hi
    cases hr
    simp at hi
    subst hi
    rw [pin_norm]
    norm_num

/-- All vertices move together. -/
def pinV (_ : ℕ) : V3 ℝ := ⟨1, 0, 0⟩

theorem pin_flat0 : FlatAround pinned.kernel (pinned.query pinX 1) [0] (pinned.samples pinX) ⟨0, 0, 1⟩ := by
  have := pin_flat 0 (by norm_num) (by norm_num)
  rwa [pinY_zero] at this

theorem pin_rel (s : ℝ) (h0 : -1 < s) (h1 : s < 1) (b : ℕ → V3 ℝ) : pinned.rel (pinY s) b 0 =
    (1 / 3 : ℝ) • (b 0 + b 1 + b 5) - b 3 := by
  unfold Pair.rel
  rw [Pair.relativeVelocities_eq, pin_active, List.map_cons, List.map_nil, List.getD_cons_zero]
  obtain ⟨w, hw, hw1⟩ := (pin_flat s h0 h1).contactJacobian
  have hw1 : w 0 = 1 := by simpa using hw1
  unfold Pair.pushed
  simp only at hw ⊢
  rw [hw]
  ext <;> simp [Pair.faceVelocity, pinned, demo, demoTri, M3.mulVec, M3.diag, V3.dot, hw1]

theorem pin_rel0 (b : ℕ → V3 ℝ) : pinned.rel pinX b 0 = (1 / 3 : ℝ) • (b 0 + b 1 + b 5) - b 3 := by
  have := pin_rel 0 (by norm_num) (by norm_num) b
  rwa [pinY_zero] at this

theorem pin_distance : pinned.distance pinX ([0], 1) = 1 / 2 := by
  have hp := pin_pos 0
  have hq := pin_query 0
  rw [pinY_zero] at hp hq
  unfold Pair.distance
  rw [pin_flat0.potential 0 (1 / 2) fun i _ => by
    rw [hp, hq]
    show (0 : ℝ) + V3.dot ⟨0, 0, 1⟩ ((⟨11 / 8, 1, 1 / 2⟩ : V3 ℝ) - ⟨1 + 0 / 3, 1, 0⟩) = 1 / 2
    norm_num [V3.dot]]
  show (1 / 2 : ℝ) - 0 = 1 / 2
  norm_num

theorem pin_lambda : pinned.lambda pinX = [3 / 2] := by
  simp only [Pair.lambda, ContactPenalty.multipliers, Pair.distances_eq, pin_active, List.map_cons,
    List.map_nil, pin_distance]
  show [-(2 : ℝ) * ContactPenalty.db 1 (1 / 2)] = _
  rw [ContactPenalty.db_of_lt (by norm_num)]
  norm_num

theorem pin_normals : pinned.contactNormals pinX = [⟨0, 0, -1⟩] := by
  have hq := pin_flat0.gradient (some (pinned.closest 1))
  have hnorm : (⟨0, 0, 1⟩ : V3 ℝ).norm = 1 := by simp [V3.norm, V3.dot]
  simp only [Pair.contactNormals, Pair.queryBlocks, pin_active, List.map_cons, List.map_nil, hq,
    Option.getD_some, hnorm]
  rw [if_pos one_pos]
  congr 1
  ext <;> norm_num

theorem pin_frame : pinned.frameAt pinX 0 = ⟨⟨0, 0, -1⟩, ⟨1, 0, 0⟩, ⟨0, -1, 0⟩⟩ := by
  have ht : ContactBasis.tangentFor ⟨0, 0, -1⟩ = ⟨1, 0, 0⟩ := by
    unfold ContactBasis.tangentFor
    have e : (V3.iamax ⟨0, 0, -1⟩ + 1) % 3 = 0 := by
      norm_num [V3.iamax]
    simp only [e]
    ext <;> simp [V3.normalize, V3.norm, V3.dot, V3.axis, V3.getN]
  unfold Pair.frameAt Pair.contactBasis
  rw [pin_normals, ContactBasis.matrix_of_lt (by simp)]
  simp only [List.getElem_cons_zero, ht, Option.getD_some]
  ext <;> simp [ContactBasis.frame, V3.cross]

theorem pin_slide (b : ℕ → V3 ℝ) : pinned.slide pinX b 0 =
    ⟨((1 / 3 : ℝ) • (b 0 + b 1 + b 5) - b 3).x, -((1 / 3 : ℝ) • (b 0 + b 1 + b 5) - b 3).y⟩ := by
  rw [Pair.slide_eq, pin_rel0, pin_frame]
  simp only [tangential, M3.mulVec, V3.dot]
  ext <;> simp only [] <;> ring

theorem pin_close (p : Friction.Params) (v : ℕ → V3 ℝ) (h : p.staticFriction = p.dynamicFriction) :
    ∀ k < pinned.active.length, pinned.Close p pinX v 0 k := by
  intro k hk
  rw [pin_active] at hk
  have hk0 : k = 0 := by simpa using hk
  subst hk0
  have hq := pin_query 0
  rw [pinY_zero] at hq
  have hc : pinned.contactAt 0 = ([0], 1) := rfl
  constructor
  · intro r hr
    rw [hc, hq, pin_norm]
    cases hr
    norm_num
  · unfold Pair.gradAt
    rw [hc]
    have := pin_flat0.gradient (some (pinned.closest 1))
    simp only [this, Option.getD_some]
    intro e
    have := congrArg V3.z e
    norm_num at this
  · intro g hg i hi
    rw [hc] at hg hi
    rw [pin_flat0.gradient none] at hg
    cases hg
    have := pin_flat0.normals i hi
    unfold unitNormal
    rw [this]
    norm_num [V3.dot]
  · exact Or.inl h

/-- The relative velocity does not change while the triangle is stretched. -/
theorem pin_relRate (b : ℕ → V3 ℝ) : pinned.relRate pinX b pinW 0 = 0 := by
  have hx : ∀ i, HasD (fun s => pinY s i) (pinW i) 0 := fun i => HasD.line _ _
  have hcl := pin_close (coulomb 0) b rfl 0 (by rw [pin_active]; simp)
  have h := pinned.rel_const_hasD (c := 0) hx (k := 0) (by rw [pin_active]; simp)
    (by rw [pinY_zero]; exact pin_smooth) (by rw [pinY_zero]; exact hcl.unopposed) b
  have h2 : HasD (fun s => pinned.rel (pinY s) b 0) 0 0 := by
    refine HasD.congr_of_eventuallyEq (HasD.const ((1 / 3 : ℝ) • (b 0 + b 1 + b 5) - b 3)) ?_
    filter_upwards [Ioo_mem_nhds (show (-1 : ℝ) < 0 by norm_num) one_pos] with s hs
    exact pin_rel s hs.1 hs.2 b
  rw [pinY_zero] at h
  ext
  · exact h.1.unique h2.1
  · exact h.2.1.unique h2.2.1
  · exact h.2.2.unique h2.2.2

theorem pin_weight : weight (.cubic 1) (5 / 8) ⟨11 / 8, 1, 1 / 2⟩ (pinned.samples pinX) 0 = 81 / 256 := by
  unfold weight Kern.withClosest Kern.eval
  simp only [pin_norm]
  show cubicF 1 (5 / 8 : ℝ) = _
  unfold cubicF
  rw [if_neg (by show ¬ (5 / 8 : ℝ) > 1; norm_num)]
  show (1 : ℝ) - 3 * (5 / 8) * (5 / 8) / (1 * 1) + 2 * (5 / 8) * (5 / 8) * (5 / 8) / (1 * 1 * 1) = _
  norm_num

theorem pin_weightGrad : weightGrad (.cubic 1) (5 / 8) ⟨11 / 8, 1, 1 / 2⟩ (pinned.samples pinX) 0 =
    ⟨-27 / 32, 0, -9 / 8⟩ := by
  unfold weightGrad Kern.withClosest Kern.grad
  simp only [pin_norm]
  rw [if_pos (by norm_num)]
  have hp := pin_pos 0 0
  rw [pinY_zero] at hp
  rw [hp]
  have : Kern.df (.cubic 1) (5 / 8) = -45 / 32 := by
    show cubicDf 1 (5 / 8) = _
    unfold cubicDf
    rw [if_neg (by norm_num)]
    norm_num
  rw [this]
  ext <;> norm_num

theorem pin_wsi : weightNmlSumInv (.cubic 1) (5 / 8) ⟨11 / 8, 1, 1 / 2⟩ [0] (pinned.samples pinX) ⟨0, 0, 1⟩ =
    256 / 81 := by
  have hu := pin_unit 0 (by norm_num) 0
  rw [pinY_zero] at hu
  rw [nmlSumInv_eq]
  · simp only [List.map_cons, List.map_nil, List.sum_cons, List.sum_nil, add_zero, hu, axis_kernel, mul_one,
      pin_weight]
    norm_num
  · intro i hi
    rw [List.mem_singleton.1 hi, pin_weight]
    norm_num

theorem pin_blocks (m : ℕ → V3 ℝ) :
    ∃ A0 A1 A2 S0 S1 S2 N0 N1 N2 Q : M3 ℝ, pinned.velocity1 pinX m ++ pinned.velocity2 pinX m =
      [⟨0, 0, A0⟩, ⟨1, 0, A1⟩, ⟨5, 0, A2⟩, ⟨0, 0, S0⟩, ⟨1, 0, S1⟩, ⟨5, 0, S2⟩, ⟨0, 0, N0⟩, ⟨1, 0, N1⟩,
        ⟨5, 0, N2⟩, ⟨3, 0, Q⟩] ∧ ((∀ j, m j = ⟨1, 0, 0⟩) →
      A1.transpose.mulVec ⟨1, 0, 0⟩ = ⟨8 / 9, 0, 0⟩ ∧ N0.transpose.mulVec ⟨1, 0, 0⟩ = 0) := by
  have hq := pin_query 0
  have hu := pin_unit 0 (by norm_num) 0
  rw [pinY_zero] at hq hu
  obtain ⟨hcl, -⟩ := regular_weighable (q := fun _ => pinned.query pinX 1) (S := fun _ => pinned.samples pinX)
    (t := 0) pin_smooth.toRegular
  obtain ⟨H, hH⟩ : ∃ H, queryHessianAt (pinned.query pinX 1) [0] (pinned.samples pinX) pinned.kernel params =
      some H := by
    unfold queryHessianAt
    rw [local_eq none hcl]
    exact ⟨_, rfl⟩
  unfold Pair.velocity1 Pair.velocity2 contactJacobianJacobianAt contactQueryJacobianJacobianAt
  rw [pin_active]
  simp only [List.flatMap_cons, List.flatMap_nil, List.append_nil]
  rw [local_eq none hcl, pin_flat0.gradient none, hH]
  simp only [Option.bind_some, Option.map_some, Option.getD_some]
  refine ⟨_, _, _, _, _, _, _, _, _, _, rfl, fun hm => ?_⟩
  have hb : sampleMultiplier pinned.tris m 0 = ⟨1, 0, 0⟩ := by
    simp only [sampleMultiplier, hm]
    ext <;> simp [List.finRange_succ]
    norm_num
  have hd : (bgAt pinned.kernel params (pinned.query pinX 1) [0] (pinned.samples pinX) 0 none).dist = 5 / 8 := by
    rw [hq]
    exact pin_norm
  have ho : ∀ a b c : V3 ℝ, (M3.outer a b).transpose.mulVec c = V3.dot a c • b := by
    intro a b c
    ext <;> simp [M3.outer, M3.transpose, M3.mulVec, V3.dot] <;> ring
  rw [hd, hb, hq]
  refine ⟨?_, ?_⟩
  · rw [ho, show (bgAt pinned.kernel params ⟨11 / 8, 1, 1 / 2⟩ [0] (pinned.samples pinX) 0 none).S =
      pinned.samples pinX from rfl, hu, axis_rot, axis_kernel]
    show V3.dot (weightNmlSumInv (.cubic 1) (5 / 8) ⟨11 / 8, 1, 1 / 2⟩ [0] (pinned.samples pinX) ⟨0, 0, 1⟩ •
      ((1 : ℝ) • weightGrad (.cubic 1) ((⟨11 / 8, 1, 1 / 2⟩ : V3 ℝ) - (pinned.samples pinX).pos 0).norm
        ⟨11 / 8, 1, 1 / 2⟩ (pinned.samples pinX) 0)) ⟨1, 0, 0⟩ • ((-(1 / 3) : ℝ) • (⟨1, 0, 0⟩ : V3 ℝ)) = _
    rw [pin_norm, pin_wsi, pin_weightGrad]
    ext <;> norm_num [V3.dot]
  · rw [ho]
    have hz : (faceUnitNormalGrad (fun j => pinX (pinned.surf j)) pinned.tris (pinned.samples pinX) 0 0).mulVec
        ⟨0, 0, 1⟩ = 0 := by
      have hn := pin_nml 0 0
      rw [pinY_zero] at hn
      unfold faceUnitNormalGrad
      simp only [M3.mul_def, M3.mulVec_mul]
      rw [hn, axis_norm _ (by norm_num)]
      rw [show (scaledTangentProjection ((1 / (3 * (3 + 0)) : ℝ) • (⟨0, 0, 3 * (3 + 0)⟩ : V3 ℝ))
        (1 / (3 * (3 + 0)))).mulVec ⟨0, 0, 1⟩ = 0 by
          ext <;> norm_num [scaledTangentProjection, M3.mulVec, M3.outer, M3.diag, V3.dot]]
      exact Pair.mulVec_zero_right _
    show V3.dot (_ • (faceUnitNormalGrad (fun j => pinX (pinned.surf j)) pinned.tris (pinned.samples pinX) 0
      0).mulVec ⟨0, 0, 1⟩) _ • _ = _
    rw [hz]
    ext <;> simp [V3.dot]

/-- What the matrix of derivatives of the relative velocity makes of the stretch, with the corner fixed. -/
theorem pin_row : applyRow ((pinned.jacContactJacobian pinX (fun j => pinV (pinned.surf j)) 6 5).map fun b =>
    ⟨b.col, b.row, b.val.transpose⟩) 0 pinW = ⟨8 / 9, 0, 0⟩ := by
  obtain ⟨A0, A1, A2, S0, S1, S2, N0, N1, N2, Q, e, -⟩ := pin_blocks fun _ => 0
  obtain ⟨A0', A1', A2', S0', S1', S2', N0', N1', N2', Q', e', h⟩ := pin_blocks
    fun j => pinV (pinned.surf j)
  obtain ⟨hA, hN⟩ := h fun _ => rfl
  unfold Pair.jacContactJacobian
  rw [Pair.velocityTriplets_eq, Pair.velocityTriplets_eq, e, e']
  simp [applyRow, pinW, hA, hN, Pair.mulVec_zero_right]

theorem pin_jacobian : Friction.jacobian ⟨0, 0⟩ (3 / 2) (coulomb (3 / 10)) = ⟨90, 0, 0, 90⟩ := by
  simp [Friction.jacobian, Friction.etaJac, coulomb, V2.norm, V2.dot, Friction.quadraticProfile]
  norm_num

theorem zipWith_rows (A B : List HBlock) : ∀ c ∈ List.zipWith (fun i b : HBlock => HBlock.mk i.row i.col b.val)
    A B, ∃ a ∈ A, c.row = a.row := by
  induction A generalizing B with
  | nil => simp
  | cons a A ih =>
    cases B with
    | nil => simp
    | cons b B =>
      intro c hc
      rcases List.mem_cons.1 hc with rfl | h
      · exact ⟨a, by simp, rfl⟩
      · obtain ⟨i, hi, e⟩ := ih B c h
        exact ⟨i, List.mem_cons_of_mem _ hi, e⟩

/-- C87 fails where a vertex of the surface is fixed: blocks of the matrix are then added up at positions of
other blocks. -/
theorem friction_jacobian_fixed_violated :
    ∃ d, HasDerivAt (fun s : ℝ => ∑ i ∈ Finset.range 6, V3.dot (pinned.subtractFriction 3 (coulomb (3 / 10))
        (fun i => pinX i + s • pinW i) (fun i => pinV i + s • pinW i) (fun _ => 0) i) (demoV i)) d 0 ∧
      entryForm (pinned.currentEntries (coulomb (3 / 10)) false pinX pinV 1 6 5) (coord demoV) (coord pinW) =
        d - 80 := by
  have hx : ∀ i, HasD (fun s : ℝ => pinX i + s • pinW i) ((1 : ℝ) • pinW i) 0 := by
    intro i
    rw [v3_one]
    exact HasD.line _ _
  have hw : ∀ i, 5 ≤ i → pinW i = 0 := by
    intro i hi
    have : i ≠ 1 := by omega
    simp [pinW, this]
  have hu : ∀ i, 5 ≤ i → demoV i = 0 := by
    intro i hi
    have : i ≠ 3 := by omega
    simp [demoV, this]
  have hus : ∀ j, demoV (pinned.surf j) = 0 := by
    intro j
    have : pinned.surf j ≠ 3 := by
      show (if j < 2 then j else 5) ≠ 3
      split <;> omega
    simp [demoV, this]
  have hnone : ¬ (coulomb (3 / 10)).isNone := by norm_num [coulomb, Friction.Params.isNone]
  have := pinned.power_rate_terms pin_distinct (coulomb (3 / 10)) (coulomb_valid _ (by norm_num)) hnone
    (fun s i => pinX i + s • pinW i) (fun s i => pinV i + s • pinW i) demoV pinW 1 0 (fun _ => 0)
    hx (fun i => HasD.line _ _) (by
      rw [line_zero]
      intro q hq
      rw [pin_active] at hq
      rw [List.mem_singleton.1 hq]
      exact pin_smooth)
    (by rw [line_zero, line_zero]; exact fun k hk _ => pin_close _ _ rfl k hk)
  rw [line_zero, line_zero] at this
  refine ⟨_, this, ?_⟩
  have hl : pinned.active.length = 1 := rfl
  have hA : form (pinned.blocksA (coulomb (3 / 10)) pinX pinV 1 6 5) demoV pinW = 0 := by
    unfold form
    refine List.sum_eq_zero fun a ha => ?_
    obtain ⟨b, hb, rfl⟩ := List.mem_map.1 ha
    have : ∃ j, b.row = pinned.surf j := by
      unfold Pair.blocksA Pair.jacContactGradient at hb
      obtain ⟨i, hi, e⟩ := zipWith_rows _ _ b hb
      rw [Pair.forceTriplets_eq] at hi
      rcases List.mem_append.1 (List.mem_filter.1 hi).1 with h | h
      · obtain ⟨j, -, e', -⟩ := pinned.force1_pos _ _ i h
        exact ⟨j, e.trans e'⟩
      · obtain ⟨j, -, e', -⟩ := pinned.force2_pos _ _ i h
        exact ⟨j, e.trans e'⟩
    obtain ⟨j, e⟩ := this
    rw [e, hus, Pair.zero_dot']
  have hF : ∀ l, pinned.forceRate pinX l demoV pinW 0 = 0 := by
    intro l
    unfold Pair.forceRate
    simp only [hus, Pair.zero_dot']
    simp
  rw [pinned.currentEntries_form _ hnone false pinX pinV demoV pinW 1 6 5 hu hw]
  simp only [Bool.false_eq_true, if_false]
  unfold Pair.completeBlocks
  simp only [form_append, Pair.form_scale, hA]
  unfold Pair.blocksB Pair.blocksC Pair.blocksD
  rw [pinned.lambdaBlocks_form pin_distinct _ pinX pinV demoV pinW 1 hu hw pin_surf pin_coll
      (by simp [pinned, demo]) (by simp [pinned, demo]),
    pinned.contactProduct_form pin_distinct pinX _ _ (pinned.basis_cols pinX _ _ (by norm_num)),
    pinned.contactProduct_form pin_distinct pinX _ _ (pinned.basis_cols pinX _ _ (by norm_num)),
    pinned.contactProduct_form pin_distinct pinX _ _ (pinned.velocity_cols pinX _),
    pinned.frictionBlocks_form pin_distinct, hl]
  simp only [Finset.sum_range_one]
  have h0 : 0 < pinned.active.length := by rw [hl]; exact one_pos
  rw [pinned.applyRow_basis pinX _ false h0 pinW hw, pinned.applyRow_basis pinX _ true h0 pinW hw, pin_row]
  unfold Pair.completeTerm Pair.viscousExcess
  simp only [hF, pin_relRate, Pair.mulVec_zero_right, Pair.dot_zero']
  have hT : V3.dot (pinned.rel pinX demoV 0) ((((pinned.contactBasis pinX).fullBlock 0).getD 0 *
      (pinned.etaBlock (coulomb (3 / 10)) pinX pinV 0 *
        ((pinned.contactBasis pinX).fullBlockTranspose 0).getD 0)).mulVec ⟨8 / 9, 0, 0⟩) = -80 := by
    have hf : ((pinned.contactBasis pinX).fullBlockTranspose 0).getD 0 = pinned.frameAt pinX 0 := rfl
    simp only [M3.mul_def, M3.mulVec_mul, Pair.fullBlock_eq, hf, Pair.eta_mulVec]
    rw [pin_frame, pin_rel0, pin_slide, pin_lambda]
    have hs : (⟨((1 / 3 : ℝ) • (pinV 0 + pinV 1 + pinV 5) - pinV 3).x,
        -((1 / 3 : ℝ) • (pinV 0 + pinV 1 + pinV 5) - pinV 3).y⟩ : V2 ℝ) = ⟨0, 0⟩ := by
      ext <;> simp [pinV]
      norm_num
    rw [hs, List.getD_cons_zero, pin_jacobian]
    norm_num [M3.mulVec, M3.transpose, Friction.M2.mulVec, V3.dot, demoV]
  rw [hT, show (coulomb (3 / 10)).viscousFriction = 0 from rfl]
  simp only [Bool.false_eq_true, if_false, if_true]
  show _ + 1 * V3.dot (pinned.rel pinX demoV 0) ((((pinned.contactBasis pinX).fullBlock 0).getD 0 *
    pinned.etaBlock (coulomb (3 / 10)) pinX pinV 0).mulVec (_ : V3 ℝ)) + _ + _ = _
  unfold Pair.rel
  ring

end Softy.Contact
