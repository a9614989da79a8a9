import Verif.Model.LaggedFriction
import Verif.Props.Touching
import Verif.Props.Sliding
import Verif.Props.Friction

/-!
# C85: the problem with lagged friction
-/

noncomputable section

namespace Softy.Contact

open Softy Assembly Fem Softy.Field

/-! ## Lists and sums -/

theorem mulVec_listSum {β : Type*} (L : List β) (f : β → M3 ℝ) (w : V3 ℝ) :
    (L.map f).sum.mulVec w = (L.map fun b => (f b).mulVec w).sum := by
  induction L with
  | nil => ext <;> simp [M3.mulVec, V3.dot]
  | cons b L ih => rw [List.map_cons, List.sum_cons, List.map_cons, List.sum_cons, M3.mulVec_add, ih]

theorem transpose_listSum {β : Type*} (L : List β) (f : β → M3 ℝ) :
    (L.map f).sum.transpose = (L.map fun b => (f b).transpose).sum := by
  induction L with
  | nil => rfl
  | cons b L ih => rw [List.map_cons, List.sum_cons, List.map_cons, List.sum_cons, M3.transpose_add, ih]

theorem transpose_transpose' (m : M3 ℝ) : m.transpose.transpose = m := rfl

theorem dot_listSum {β : Type*} (L : List β) (f : β → V3 ℝ) (a : V3 ℝ) :
    V3.dot a (L.map f).sum = (L.map fun b => V3.dot a (f b)).sum := by
  induction L with
  | nil => simp [V3.dot]
  | cons b L ih =>
    rw [List.map_cons, List.sum_cons, List.map_cons, List.sum_cons, ← ih]
    simp [V3.dot]
    ring

theorem dot_finsetSum (N : ℕ) (f : ℕ → V3 ℝ) (a : V3 ℝ) :
    V3.dot a (∑ i ∈ Finset.range N, f i) = ∑ i ∈ Finset.range N, V3.dot a (f i) := by
  induction N with
  | zero => simp [V3.dot]
  | succ N ih =>
    rw [Finset.sum_range_succ, Finset.sum_range_succ, ← ih]
    simp [V3.dot]
    ring

theorem dot_swap (a b : V3 ℝ) : V3.dot a b = V3.dot b a := by
  simp only [V3.dot]
  ring

theorem eq_of_dot {a b : V3 ℝ} (h : ∀ c, V3.dot c a = V3.dot c b) : a = b := by
  ext
  · simpa [V3.dot] using h ⟨1, 0, 0⟩
  · simpa [V3.dot] using h ⟨0, 1, 0⟩
  · simpa [V3.dot] using h ⟨0, 0, 1⟩

theorem sum_range_list (n : ℕ) (f : ℕ → ℝ) : ((List.range n).map f).sum = ∑ k ∈ Finset.range n, f k := by
  rw [list_sum_eq List.nodup_range, List.toFinset_range]

theorem hasD_finsetSum (N : ℕ) (f : ℕ → ℝ → V3 ℝ) (f' : ℕ → V3 ℝ) (t : ℝ)
    (h : ∀ i, HasD (f i) (f' i) t) :
    HasD (fun s => ∑ i ∈ Finset.range N, f i s) (∑ i ∈ Finset.range N, f' i) t := by
  induction N with
  | zero => simpa using HasD.const 0
  | succ N ih =>
    simp only [Finset.sum_range_succ]
    exact ih.add (h N)

theorem hasD_mulVec (m : M3 ℝ) {f : ℝ → V3 ℝ} {f' : V3 ℝ} {t : ℝ} (h : HasD f f' t) :
    HasD (fun s => m.mulVec (f s)) (m.mulVec f') t := by
  have hd : ∀ r : V3 ℝ, HasDerivAt (fun s => V3.dot r (f s)) (V3.dot r f') t := by
    intro r
    refine ((HasD.const r).dot h).congr_deriv ?_
    simp [V3.dot]
  exact ⟨hd _, hd _, hd _⟩

namespace Pair

variable (C : Pair)

/-- Relative velocity at constraint `k`. -/
def rel (x v : ℕ → V3 ℝ) (k : ℕ) : V3 ℝ := (C.relativeVelocities x v).getD k 0

theorem contactBlocks_lt {ns N : ℕ} (h : C.Distinct ns N) (x : ℕ → V3 ℝ) :
    ∀ b ∈ C.contactBlocks x, C.surf b.col < N := by
  intro b hb
  obtain ⟨p, hp, hb⟩ := List.mem_flatMap.1 hb
  obtain ⟨s, hs, j, e⟩ := C.contactRow_col x p b hb
  rw [e]
  exact h.surf_lt _ (h.corner p hp s hs j)

theorem gradientBlocks_eq {ns N : ℕ} (h : C.Distinct ns N) (x : ℕ → V3 ℝ) :
    C.gradientBlocks x N =
      ((C.contactBlocks x).map fun b => MBlock.mk (C.surf b.col) b.row b.val.transpose) ++
        C.active.zipIdx.map fun p => MBlock.mk (C.coll p.1.2) p.2 (M3.transpose (-M3.diag 1)) := by
  unfold gradientBlocks
  refine List.filter_eq_self.2 fun b hb => decide_eq_true ?_
  rcases List.mem_append.1 hb with hb | hb
  · obtain ⟨b', hb', rfl⟩ := List.mem_map.1 hb
    exact C.contactBlocks_lt h x b' hb'
  · obtain ⟨p, hp, rfl⟩ := List.mem_map.1 hb
    exact h.coll_lt p.1 (List.fst_mem_of_mem_zipIdx hp)

/-- The contact gradient is the transpose of the map from velocities to relative velocities. -/
theorem gradient_mul {ns N : ℕ} (h : C.Distinct ns N) (x w : ℕ → V3 ℝ) (k : ℕ)
    (hk : k < C.active.length) :
    ∑ j ∈ Finset.range N, (C.gradientBlock x N j k).transpose.mulVec (w j) = C.rel x w k := by
  refine eq_of_dot fun a => ?_
  rw [dot_finsetSum]
  have hrow : ∀ b ∈ (C.gradientBlocks x N).filter fun b => b.col = k, b.row < N := by
    intro b hb
    have hb' := (List.mem_filter.1 hb).1
    unfold gradientBlocks at hb'
    simpa using (List.mem_filter.1 hb').2
  have e1 : ∀ j ∈ Finset.range N, V3.dot a ((C.gradientBlock x N j k).transpose.mulVec (w j)) =
      ((((C.gradientBlocks x N).filter fun b => b.col = k).filter fun b => b.row = j).map
        fun b => V3.dot a (b.val.transpose.mulVec (w b.row))).sum := by
    intro j _
    unfold gradientBlock
    rw [transpose_listSum, mulVec_listSum, dot_listSum, List.filter_filter]
    congr 1
    have : ((C.gradientBlocks x N).filter fun b => decide (b.row = j ∧ b.col = k)) =
        (C.gradientBlocks x N).filter fun b => decide (b.row = j) && decide (b.col = k) := by
      congr 1
      funext b
      simp
    rw [this]
    refine List.map_congr_left fun b hb => ?_
    have := (List.mem_filter.1 hb).2
    simp only [Bool.and_eq_true, decide_eq_true_eq] at this
    rw [this.1]
  rw [Finset.sum_congr rfl e1, sum_by_key _ (fun b : MBlock => b.row) _ N hrow, C.gradientBlocks_eq h,
    List.filter_append, List.map_append, List.sum_append]
  unfold rel
  have hr : (C.relativeVelocities x w).getD k 0 =
      (((C.contactBlocks x).filter fun b => b.row = k).map fun b => b.val.mulVec (w (C.surf b.col))).sum -
        w (C.coll (C.active[k].2)) := by
    rw [List.getD_eq_getElem _ _ (by rw [relativeVelocities_length]; exact hk)]
    simp [relativeVelocities]
  rw [hr]
  have e2 : V3.dot a ((((C.contactBlocks x).filter fun b => b.row = k).map
      fun b => b.val.mulVec (w (C.surf b.col))).sum - w (C.coll (C.active[k].2))) =
      (((C.contactBlocks x).filter fun b => b.row = k).map
        fun b => V3.dot a (b.val.mulVec (w (C.surf b.col)))).sum - V3.dot a (w (C.coll (C.active[k].2))) := by
    rw [dot_sub_right, dot_listSum]
  rw [e2, sub_eq_add_neg]
  congr 1
  · rw [List.filter_map, List.map_map]
    rfl
  · rw [List.filter_map, List.map_map]
    have : C.active.zipIdx.filter ((fun b : MBlock => decide (b.col = k)) ∘
        fun p => MBlock.mk (C.coll p.1.2) p.2 (M3.transpose (-M3.diag 1))) = [(C.active[k], k)] := by
      have h1 : C.active.zipIdx.filter ((fun b : MBlock => decide (b.col = k)) ∘
        fun p => MBlock.mk (C.coll p.1.2) p.2 (M3.transpose (-M3.diag 1))) =
          C.active.zipIdx.filter fun p => decide (p.2 = k) := rfl
      rw [h1]
      have : ∀ (l : List (List ℕ × ℕ)) (s k : ℕ) (hk : k < l.length),
          ((l.zipIdx s).filter fun p => decide (p.2 = s + k)) = [(l[k], s + k)] := by
        intro l
        induction l with
        | nil => intro s k hk; simp at hk
        | cons b l ih =>
          intro s k hk
          rw [List.zipIdx_cons, List.filter_cons]
          cases k with
          | zero =>
            simp only [add_zero, decide_true, if_true, List.getElem_cons_zero, List.cons.injEq, true_and]
            refine List.filter_eq_nil_iff.2 fun p hp => ?_
            have := List.le_snd_of_mem_zipIdx hp
            simp only [decide_eq_true_eq]
            omega
          | succ k =>
            rw [if_neg (by simp)]
            have := ih (s + 1) k (by simpa using hk)
            rw [show s + 1 + k = s + (k + 1) by ring] at this
            rw [this]
            simp
      simpa using this C.active 0 k hk
    rw [this]
    simp [M3.mulVec, M3.transpose, M3.diag, V3.dot]
    ring

theorem rel_linear {ns N : ℕ} (h : C.Distinct ns N) (x : ℕ → V3 ℝ) (v : ℝ → ℕ → V3 ℝ) (w : ℕ → V3 ℝ)
    (t : ℝ) (hv : ∀ i, HasD (fun s => v s i) (w i) t) (k : ℕ) (hk : k < C.active.length) :
    HasD (fun s => C.rel x (v s) k) (C.rel x w k) t := by
  have e : (fun s => C.rel x (v s) k) = fun s =>
      ∑ j ∈ Finset.range N, (C.gradientBlock x N j k).transpose.mulVec (v s j) := by
    funext s
    exact (C.gradient_mul h x (v s) k hk).symm
  rw [e, ← C.gradient_mul h x w k hk]
  exact hasD_finsetSum N _ _ t fun j => hasD_mulVec _ (hv j)

/-! ## Sliding velocities -/

/-- The frame of constraint `k`. -/
def frameAt (x : ℕ → V3 ℝ) (k : ℕ) : M3 ℝ := ((C.contactBasis x).contactBasisMatrix k).getD 0

/-- The part of the relative velocity at constraint `k` that is tangential to the surface. -/
def slide (x v : ℕ → V3 ℝ) (k : ℕ) : V2 ℝ :=
  ⟨((C.frameAt x k).mulVec (C.rel x v k)).y, ((C.frameAt x k).mulVec (C.rel x v k)).z⟩

theorem mulVec_zero_left (v : V3 ℝ) : (0 : M3 ℝ).mulVec v = 0 := by
  ext <;> simp [M3.mulVec, V3.dot]

theorem mulVec_zero_right (m : M3 ℝ) : m.mulVec 0 = 0 := by
  ext <;> simp [M3.mulVec, V3.dot]

theorem etaBlock_eq (p : Friction.Params) (x v : ℕ → V3 ℝ) (k : ℕ) :
    C.etaBlock p x v k =
      ⟨0, ⟨0, (Friction.jacobian (C.slide x v k) ((C.lambda x).getD k 0) p).xx,
        (Friction.jacobian (C.slide x v k) ((C.lambda x).getD k 0) p).xy⟩,
        ⟨0, (Friction.jacobian (C.slide x v k) ((C.lambda x).getD k 0) p).yx,
          (Friction.jacobian (C.slide x v k) ((C.lambda x).getD k 0) p).yy⟩⟩ := by
  have e : ((C.contactBasis x).toContactCoordinates ((C.relativeVelocities x v).getD k 0) k).getD 0 =
      (C.frameAt x k).mulVec (C.rel x v k) := by
    unfold ContactBasis.toContactCoordinates frameAt rel
    cases (C.contactBasis x).contactBasisMatrix k with
    | none => simp [mulVec_zero_left]
    | some m => rfl
  unfold etaBlock slide
  rw [e]

theorem fullBlock_eq (x : ℕ → V3 ℝ) (k : ℕ) :
    ((C.contactBasis x).fullBlock k).getD 0 = (C.frameAt x k).transpose := by
  unfold ContactBasis.fullBlock frameAt
  cases (C.contactBasis x).contactBasisMatrix k <;> rfl

/-- The force at constraint `k`. -/
theorem constraintFriction_at (p : Friction.Params) (x v : ℕ → V3 ℝ) (k : ℕ)
    (hk : k < C.active.length) :
    (C.constraintFriction p x v).getD k 0 = -(C.frameAt x k).transpose.mulVec
      ⟨0, (Friction.profile (C.slide x v k) ((C.lambda x).getD k 0) p).x,
        (Friction.profile (C.slide x v k) ((C.lambda x).getD k 0) p).y⟩ := by
  have hl : k < (C.relativeVelocities x v).length := by rw [relativeVelocities_length]; exact hk
  have := C.constraintFriction_getD p x v ((C.relativeVelocities x v)[k], k) (by
    rw [List.mem_iff_getElem]
    exact ⟨k, by simpa using hl, by simp⟩)
  rw [this]
  have hr : (C.relativeVelocities x v)[k] = C.rel x v k := by
    unfold rel; rw [List.getD_eq_getElem _ _ hl]
  rw [hr]
  unfold ContactBasis.contactFriction ContactBasis.toContactCoordinates
    ContactBasis.fromContactCoordinates slide frameAt
  cases (C.contactBasis x).contactBasisMatrix k with
  | none =>
    simp only [Option.map_none, Option.bind_none, Option.getD_none]
    rw [show M3.transpose (0 : M3 ℝ) = 0 from rfl, mulVec_zero_left, neg_zero]
  | some m =>
    simp only [Option.map_some, Option.bind_some, Option.getD_some]
    ext <;> simp [M3.mulVec, V3.dot] <;> ring

/-! ## The matrix -/

theorem form_filter (B : List HBlock) (q : HBlock → Bool) (u w : ℕ → V3 ℝ)
    (h : ∀ b, q b = false → V3.dot (u b.row) (M3.mulVec b.val (w b.col)) = 0) :
    form (B.filter q) u w = form B u w := by
  induction B with
  | nil => rfl
  | cons b B ih =>
    rw [List.filter_cons]
    cases hq : q b with
    | true => simpa [form] using ih
    | false => simpa [form, h b hq] using ih

theorem form_rows (N : ℕ) (q : ℕ → ℕ → Bool) (E : ℕ → ℕ → M3 ℝ) (u w : ℕ → V3 ℝ)
    (h : ∀ i j, q i j = false → (E i j).mulVec (w j) = 0) :
    form ((List.range N).flatMap fun i => ((List.range N).filter (q i)).map fun j => ⟨i, j, E i j⟩) u w =
      ∑ i ∈ Finset.range N, ∑ j ∈ Finset.range N, V3.dot (u i) ((E i j).mulVec (w j)) := by
  unfold form
  rw [List.map_flatMap]
  rw [← sum_range_list]
  have : ∀ (l : List ℕ) (F : ℕ → List ℝ), (l.flatMap F).sum = (l.map fun i => (F i).sum).sum := by
    intro l F
    induction l with
    | nil => rfl
    | cons a l ih => rw [List.flatMap_cons, List.sum_append, ih, List.map_cons, List.sum_cons]
  rw [this]
  congr 1
  refine List.map_congr_left fun i _ => ?_
  rw [List.map_map, ← sum_range_list]
  induction List.range N with
  | nil => rfl
  | cons j l ih =>
    rw [List.filter_cons]
    cases hq : q i j with
    | true => simp [ih]
    | false =>
      have z : V3.dot (u i) 0 = 0 := by simp [V3.dot]
      simp only [Bool.false_eq_true, if_false, List.map_cons, List.sum_cons, h i j hq, z, zero_add]
      exact ih

theorem gradientBlock_zero (x : ℕ → V3 ℝ) (N i k : ℕ) (h : ¬ C.touches x N i k) :
    C.gradientBlock x N i k = 0 := by
  unfold gradientBlock
  rw [List.filter_eq_nil_iff.2 fun b hb => ?_]
  · rfl
  · simp only [decide_eq_true_eq]
    exact fun hc => h ⟨b, hb, hc⟩

theorem frictionBlock_mulVec (p : Friction.Params) (x v : ℕ → V3 ℝ) (N i j : ℕ) (a : V3 ℝ) :
    (C.frictionBlock p x v N i j).mulVec a = ((List.range C.active.length).map fun k =>
      (C.gradientBlock x N i k).mulVec ((C.frameAt x k).transpose.mulVec ((C.etaBlock p x v k).mulVec
        ((C.frameAt x k).mulVec ((C.gradientBlock x N j k).transpose.mulVec a))))).sum := by
  unfold frictionBlock
  rw [mulVec_listSum]
  congr 1
  refine List.map_congr_left fun k _ => ?_
  rw [C.fullBlock_eq]
  simp only [M3.mul_def, M3.mulVec_mul]
  rfl

theorem mulVec_finsetSum (m : M3 ℝ) (N : ℕ) (f : ℕ → V3 ℝ) :
    m.mulVec (∑ i ∈ Finset.range N, f i) = ∑ i ∈ Finset.range N, m.mulVec (f i) := by
  induction N with
  | zero => simp [mulVec_zero_right]
  | succ N ih => rw [Finset.sum_range_succ, Finset.sum_range_succ, M3.mulVec_vadd, ih]

/-- What matrix (E) makes of motions `u` and `w`. -/
theorem frictionBlocks_form {ns N : ℕ} (h : C.Distinct ns N) (p : Friction.Params) (x v u w : ℕ → V3 ℝ) :
    form (C.frictionBlocks p x v N) u w = ∑ k ∈ Finset.range C.active.length,
      V2.dot (C.slide x u k)
        ((Friction.jacobian (C.slide x v k) ((C.lambda x).getD k 0) p).mulVec (C.slide x w k)) := by
  classical
  unfold frictionBlocks
  rw [form_rows]
  · have e : ∀ i j, V3.dot (u i) ((C.frictionBlock p x v N i j).mulVec (w j)) =
        ∑ k ∈ Finset.range C.active.length, V3.dot ((C.gradientBlock x N i k).transpose.mulVec (u i))
          ((C.frameAt x k).transpose.mulVec ((C.etaBlock p x v k).mulVec
          ((C.frameAt x k).mulVec ((C.gradientBlock x N j k).transpose.mulVec (w j))))) := by
      intro i j
      rw [C.frictionBlock_mulVec, dot_listSum, sum_range_list]
      refine Finset.sum_congr rfl fun k _ => ?_
      rw [mulVec_dot_transpose]
    simp only [e]
    have e2 : ∀ i, ∑ j ∈ Finset.range N, ∑ k ∈ Finset.range C.active.length,
        V3.dot ((C.gradientBlock x N i k).transpose.mulVec (u i))
          ((C.frameAt x k).transpose.mulVec ((C.etaBlock p x v k).mulVec
          ((C.frameAt x k).mulVec ((C.gradientBlock x N j k).transpose.mulVec (w j))))) =
        ∑ k ∈ Finset.range C.active.length, V3.dot ((C.frameAt x k).transpose.mulVec
          ((C.etaBlock p x v k).mulVec ((C.frameAt x k).mulVec (C.rel x w k))))
            ((C.gradientBlock x N i k).transpose.mulVec (u i)) := by
      intro i
      rw [Finset.sum_comm]
      refine Finset.sum_congr rfl fun k hk => ?_
      rw [← C.gradient_mul h x w k (Finset.mem_range.1 hk)]
      simp only [mulVec_finsetSum]
      rw [dot_swap, dot_finsetSum]
    simp only [e2]
    rw [Finset.sum_comm]
    refine Finset.sum_congr rfl fun k hk => ?_
    rw [← dot_finsetSum, C.gradient_mul h x u k (Finset.mem_range.1 hk), mulVec_dot_transpose, C.etaBlock_eq]
    unfold slide
    simp [V3.dot, V2.dot, M3.mulVec, Friction.M2.mulVec]
    ring
  · intro i j hq
    rw [C.frictionBlock_mulVec]
    have : ∀ k, (C.gradientBlock x N i k).mulVec ((C.frameAt x k).transpose.mulVec
        ((C.etaBlock p x v k).mulVec ((C.frameAt x k).mulVec
          ((C.gradientBlock x N j k).transpose.mulVec (w j))))) = 0 := by
      intro k
      by_cases hi : C.touches x N i k
      · have hj : ¬ C.touches x N j k := fun hj => by
          simp only [decide_eq_false_iff_not] at hq
          exact hq ⟨k, hi, hj⟩
        rw [C.gradientBlock_zero x N j k hj]
        rw [show M3.transpose (0 : M3 ℝ) = 0 from rfl, mulVec_zero_left, mulVec_zero_right,
          mulVec_zero_right, mulVec_zero_right, mulVec_zero_right]
      · rw [C.gradientBlock_zero x N i k hi, mulVec_zero_left]
    simp only [this]
    simp

theorem frictionEntries_form {ns N : ℕ} (h : C.Distinct ns N) (p : Friction.Params) (hp : ¬ p.isNone)
    (x v u w : ℕ → V3 ℝ) (n : ℕ) (hu : ∀ i, n ≤ i → u i = 0) (hw : ∀ i, n ≤ i → w i = 0) :
    entryForm (C.frictionEntries p x v N n) (coord u) (coord w) = ∑ k ∈ Finset.range C.active.length,
      V2.dot (C.slide x u k)
        ((Friction.jacobian (C.slide x v k) ((C.lambda x).getD k 0) p).mulVec (C.slide x w k)) := by
  unfold frictionEntries
  rw [if_neg hp, ← flat_eq_coord, ← flat_eq_coord, entries_form, form_filter, C.frictionBlocks_form h]
  intro b hb
  simp only [decide_eq_false_iff_not, not_and_or, not_lt] at hb
  rcases hb with hb | hb
  · rw [hu _ hb]; simp [V3.dot]
  · rw [hw _ hb, mulVec_zero_right]; simp [V3.dot]

/-! ## Power of friction -/

theorem zipIdx_sum (L : List (V3 ℝ)) (F : V3 ℝ → ℕ → ℝ) :
    (L.zipIdx.map fun r => F r.1 r.2).sum = ∑ k ∈ Finset.range L.length, F (L.getD k 0) k := by
  rw [← sum_range_list]
  congr 1
  refine List.ext_getElem (by simp) fun i h1 h2 => ?_
  simp only [List.length_map, List.length_zipIdx] at h1
  simp [List.getElem?_eq_getElem h1]

/-- Specification: the friction law at each contact and its power. -/
def slidePower (p : Friction.Params) (x v u : ℕ → V3 ℝ) : ℝ :=
  ∑ k ∈ Finset.range C.active.length,
    V2.dot (Friction.profile (C.slide x v k) ((C.lambda x).getD k 0) p) (C.slide x u k)

theorem friction_power {ns N : ℕ} (h : C.Distinct ns N) (p : Friction.Params) (x v u : ℕ → V3 ℝ) :
    ∑ i ∈ Finset.range N, V3.dot (C.transposeMul ns x (C.constraintFriction p x v) i) (u i) =
      -C.slidePower p x v u := by
  rw [C.transposeMul_adjoint h, zipIdx_sum _ fun a k => V3.dot ((C.constraintFriction p x v).getD k 0) a,
    relativeVelocities_length, slidePower, ← Finset.sum_neg_distrib]
  refine Finset.sum_congr rfl fun k hk => ?_
  rw [C.constraintFriction_at p x v k (Finset.mem_range.1 hk)]
  unfold slide rel
  simp [V3.dot, V2.dot, M3.mulVec, M3.transpose]
  ring

theorem subtractFriction_power {ns N : ℕ} (h : C.Distinct ns N) (p : Friction.Params) (hp : ¬ p.isNone)
    (x v u : ℕ → V3 ℝ) :
    ∑ i ∈ Finset.range N, V3.dot (C.subtractFriction ns p x v (fun _ => 0) i) (u i) =
      C.slidePower p x v u := by
  unfold subtractFriction frictionForce
  rw [if_neg hp]
  simp only [zero_sub]
  have := C.friction_power h p x v u
  have e : ∀ i, V3.dot (-C.transposeMul ns x (C.constraintFriction p x v) i) (u i) =
      -V3.dot (C.transposeMul ns x (C.constraintFriction p x v) i) (u i) := by
    intro i; simp [V3.dot]; ring
  simp only [e, Finset.sum_neg_distrib, this, neg_neg]

theorem slide_path {ns N : ℕ} (h : C.Distinct ns N) (x : ℕ → V3 ℝ) (v : ℝ → ℕ → V3 ℝ) (w : ℕ → V3 ℝ)
    (t : ℝ) (hv : ∀ i, HasD (fun s => v s i) (w i) t) (k : ℕ) (hk : k < C.active.length) :
    Friction.Path (fun s => (C.slide x (v s) k).x) (fun s => (C.slide x (v s) k).y) t
      (C.slide x (v t) k) (C.slide x w k) := by
  have := hasD_mulVec (C.frameAt x k) (C.rel_linear h x v w t hv k hk)
  exact ⟨rfl, rfl, this.2.1, this.2.2⟩

/-- Specification: speeds at which the derivative of the friction law is what C15 says: static and dynamic
friction are equal, or the speed is not below the Stribeck velocity, or this is one, or the speed is
zero and the Stribeck velocity is not. -/
def SteadyAt (p : Friction.Params) (speed : ℝ) : Prop :=
  p.staticFriction = p.dynamicFriction ∨
    (0 < speed ∧ (p.stribeckVelocity = 1 ∨ p.stribeckVelocity ≤ speed)) ∨
    (speed = 0 ∧ 0 < p.stribeckVelocity)

theorem slidePower_deriv {ns N : ℕ} (h : C.Distinct ns N) (p : Friction.Params) (hp : p.Valid)
    (x : ℕ → V3 ℝ) (v : ℝ → ℕ → V3 ℝ) (w u : ℕ → V3 ℝ) (t : ℝ)
    (hv : ∀ i, HasD (fun s => v s i) (w i) t)
    (hs : ∀ k < C.active.length, SteadyAt p (C.slide x (v t) k).norm) :
    HasDerivAt (fun s => C.slidePower p x (v s) u) (∑ k ∈ Finset.range C.active.length,
      V2.dot (C.slide x u k) ((Friction.jacobian (C.slide x (v t) k)
        ((C.lambda x).getD k 0) p).mulVec (C.slide x w k))) t := by
  unfold slidePower
  refine HasDerivAt.fun_sum fun k hk => ?_
  have hk := Finset.mem_range.1 hk
  obtain ⟨h1, h2⟩ := Friction.jacobian_is_derivative_partial p hp ((C.lambda x).getD k 0) _ _
    (hs k hk) _ _ t (C.slide_path h x v w t hv k hk)
  refine ((h1.mul_const (C.slide x u k).x).fun_add (h2.mul_const (C.slide x u k).y)).congr_deriv ?_
  simp only [V2.dot]
  ring

theorem potential_sum (p : Friction.Params) (hp : ¬ p.isNone) (x v : ℕ → V3 ℝ) (dqdv : ℝ) :
    C.frictionPotential p x v dqdv = (∑ k ∈ Finset.range C.active.length,
      Friction.potential (C.slide x v k) ((C.lambda x).getD k 0) p) * dqdv := by
  unfold frictionPotential
  rw [if_neg hp, zipIdx_sum _ fun a k => (((C.contactBasis x).toContactCoordinates a k).map fun c =>
      Friction.potential ⟨c.y, c.z⟩ ((C.lambda x).getD k 0) p).getD 0, relativeVelocities_length]
  congr 1
  refine Finset.sum_congr rfl fun k hk => ?_
  have hl : k < (C.contactNormals x).length := by
    simpa [contactNormals, queryBlocks] using Finset.mem_range.1 hk
  have hm : ∃ m, (C.contactBasis x).contactBasisMatrix k = some m :=
    ⟨_, ContactBasis.matrix_of_lt hl⟩
  obtain ⟨m, hm⟩ := hm
  unfold slide frameAt rel ContactBasis.toContactCoordinates
  rw [hm]
  rfl

theorem potential_deriv {ns N : ℕ} (h : C.Distinct ns N) (p : Friction.Params) (hp : p.Valid)
    (hn : ¬ p.isNone) (x : ℕ → V3 ℝ) (v : ℝ → ℕ → V3 ℝ) (w : ℕ → V3 ℝ) (t dqdv : ℝ)
    (hv : ∀ i, HasD (fun s => v s i) (w i) t) :
    HasDerivAt (fun s => C.frictionPotential p x (v s) dqdv) ((∑ k ∈ Finset.range C.active.length,
      (C.lambda x).getD k 0 * p.profile.s (C.slide x (v t) k).norm p.epsilon *
        V2.dot (C.slide x (v t) k) (C.slide x w k)) * dqdv) t := by
  simp only [C.potential_sum p hn]
  refine HasDerivAt.mul_const (HasDerivAt.fun_sum fun k hk => ?_) dqdv
  exact Friction.potential_path (C.slide_path h x v w t hv k (Finset.mem_range.1 hk)) _ p hp.eps

/-- The power of friction in terms of the friction law. -/
theorem slidePower_eq (p : Friction.Params) (x v u : ℕ → V3 ℝ) (μ : ℝ)
    (h1 : p.staticFriction = μ) (h2 : p.dynamicFriction = μ) (h3 : p.viscousFriction = 0) :
    C.slidePower p x v u = μ * ∑ k ∈ Finset.range C.active.length,
      (C.lambda x).getD k 0 * p.profile.s (C.slide x v k).norm p.epsilon *
        V2.dot (C.slide x v k) (C.slide x u k) := by
  unfold slidePower
  rw [Finset.mul_sum]
  refine Finset.sum_congr rfl fun k _ => ?_
  rw [Friction.profile_eq]
  simp only [Friction.eta, V2.dot, h1, h2, h3, V2.smul_x, V2.smul_y]
  ring

end Pair

/-! ## Specification -/

/-- Elements, zones and contacts are as in C81. Contacts with friction are between objects without common
vertices, and their coefficients are not negative. -/
structure Rubbing.Within (S : Rubbing) : Prop where
  base : S.toTouching.Within
  apart : ∀ L ∈ S.frictions, L.pair.Distinct L.ns S.numVertices
  valid : ∀ L ∈ S.frictions, L.params.Valid

/-- The friction law has the derivative that C15 says at the sliding velocity of each contact. -/
def Rubbing.Steady (S : Rubbing) (v : ℕ → V3 ℝ) : Prop :=
  ∀ L ∈ S.frictions, ∀ k < L.pair.active.length,
    Pair.SteadyAt L.params (L.pair.slide L.x v k).norm

/-! ## Lemmas -/

namespace Rubbing

variable (S : Rubbing)

/-- What friction adds to the residual. -/
def frictionForce (v : ℕ → V3 ℝ) (i : ℕ) : V3 ℝ :=
  (S.frictions.map fun L => L.pair.subtractFriction L.ns L.params L.x v (fun _ => 0) i).sum

theorem subtract_add (C : Pair) (ns : ℕ) (p : Friction.Params) (x v r : ℕ → V3 ℝ) (i : ℕ) :
    C.subtractFriction ns p x v r i = r i + C.subtractFriction ns p x v (fun _ => 0) i := by
  unfold Pair.subtractFriction
  cases C.frictionForce ns p x v with
  | none => simp
  | some g => simp [sub_eq_add_neg]

theorem foldl_friction (l : List Lagged) (v r : ℕ → V3 ℝ) (i : ℕ) :
    l.foldl (fun r L => L.pair.subtractFriction L.ns L.params L.x v r) r i =
      r i + (l.map fun L => L.pair.subtractFriction L.ns L.params L.x v (fun _ => 0) i).sum := by
  induction l generalizing r with
  | nil => simp
  | cons L l ih =>
    rw [List.foldl_cons, ih, List.map_cons, List.sum_cons, subtract_add L.pair _ _ _ _ r]
    abel

theorem foldl_potential (l : List Lagged) (v : ℕ → V3 ℝ) (q e : ℝ) :
    l.foldl (fun e L => e + L.pair.frictionPotential L.params L.x v q) e =
      e + (l.map fun L => L.pair.frictionPotential L.params L.x v q).sum := by
  induction l generalizing e with
  | nil => simp
  | cons P l ih => rw [List.foldl_cons, ih, List.map_cons, List.sum_cons]; ring

theorem force_eq (x v : ℕ → V3 ℝ) (dqdv : ℝ) (f : ℕ → V3 ℝ)
    (h : S.toTouching.force x v dqdv = some f) :
    S.force x v dqdv = some fun i => f i + S.frictionForce v i := by
  unfold force
  rw [h, Option.map_some]
  congr 1
  funext i
  exact foldl_friction _ _ _ _

theorem residual_eq (fm pm : ℝ) (prev v0 x v r f : ℕ → V3 ℝ)
    (h : S.toTouching.residual fm pm prev v0 x v = some (r, f)) :
    S.residual fm pm prev v0 x v =
      some (fun i => r i + (S.dt * fm) • S.frictionForce v i, fun i => f i + S.frictionForce v i) := by
  classical
  cases hf : S.toTouching.force x v (S.dt * fm) with
  | none => simp [Touching.residual, hf] at h
  | some f' =>
    simp only [Touching.residual, hf, Option.map_some, Option.some.injEq, Prod.mk.injEq] at h
    obtain ⟨rfl, rfl⟩ := h
    simp only [residual, S.force_eq x v _ f' hf, Option.map_some, Option.some.injEq,
      Prod.mk.injEq, and_true]
    funext i
    by_cases hs : S.isStatic
    · simp only [if_pos hs]
      by_cases hp : pm > 0
      · simp only [if_pos hp, smul_add, smul_smul]
        abel
      · simp only [if_neg hp, smul_add]
    · simp only [if_neg hs, momentumDiff_eq]
      by_cases hp : pm > 0
      · simp only [if_pos hp, smul_add, smul_smul]
        abel
      · simp only [if_neg hp, smul_add]
        abel

theorem objective_eq (fm pm : ℝ) (prev v0 x v : ℕ → V3 ℝ) (W : ℝ)
    (h : S.toTouching.objective fm pm prev v0 x v = some W) :
    S.objective fm pm prev v0 x v = some (W +
      (S.frictions.map fun L => L.pair.frictionPotential L.params L.x v (S.dt * fm)).sum) := by
  classical
  simp only [Touching.objective] at h
  cases he : S.toTouching.energy x v (S.dt * fm) with
  | none => simp [he] at h
  | some e =>
    rw [he, Option.map_some, Option.some.injEq] at h
    simp only [objective, energy, he, Option.map_some, foldl_potential, Option.some.injEq]
    rw [← h]
    split_ifs <;> ring

theorem frictionForce_power (v w : ℕ → V3 ℝ) (N : ℕ) (q : ℝ) :
    ∑ i ∈ Finset.range N, V3.dot (q • S.frictionForce v i) (w i) =
      (S.frictions.map fun L => q * ∑ i ∈ Finset.range N,
        V3.dot (L.pair.subtractFriction L.ns L.params L.x v (fun _ => 0) i) (w i)).sum := by
  unfold frictionForce
  generalize S.frictions = l
  induction l with
  | nil => simp [V3.dot]
  | cons C l ih =>
    simp only [List.map_cons, List.sum_cons, smul_add, Fem.dot_add_left, Finset.sum_add_distrib]
    rw [ih]
    congr 1
    rw [Finset.mul_sum]
    refine Finset.sum_congr rfl fun i _ => ?_
    simp [V3.dot]
    ring

/-! ### Indices and values -/

theorem _root_.Softy.Contact.Pair.entries_keys (C : Pair) (p : Friction.Params) (x u v : ℕ → V3 ℝ) (N n : ℕ) :
    (C.frictionEntries p x u N n).map (fun e => e.1) = (C.frictionEntries p x v N n).map fun e => e.1 := by
  classical
  have hk : ∀ v, (C.frictionEntries p x v N n).map (fun e => e.1) =
      if p.isNone then [] else (((List.range N).flatMap fun i =>
        ((List.range N).filter fun j => decide (∃ k, C.touches x N i k ∧ C.touches x N j k)).map
          fun j => (i, j)).filter fun b => decide (b.1 < n ∧ b.2 < n)).flatMap fun b =>
            (List.finRange 3).flatMap fun r => (List.finRange 3).map fun c =>
              (3 * b.1 + r.val, 3 * b.2 + c.val) := by
    intro v
    unfold Pair.frictionEntries
    by_cases hp : p.isNone
    · rw [if_pos hp, if_pos hp]; rfl
    · rw [if_neg hp, if_neg hp, List.map_flatMap]
      have e : ((List.range N).flatMap fun i =>
        ((List.range N).filter fun j => decide (∃ k, C.touches x N i k ∧ C.touches x N j k)).map
          fun j => (i, j)) = (C.frictionBlocks p x v N).map fun b => (b.row, b.col) := by
        unfold Pair.frictionBlocks
        rw [List.map_flatMap]
        simp only [List.map_map]
        rfl
      rw [e, List.filter_map, List.flatMap_map]
      congr 1
  rw [hk u, hk v]

theorem _root_.Softy.Contact.Pair.entries_lt (C : Pair) (p : Friction.Params) (x v : ℕ → V3 ℝ) (N n : ℕ) :
    ∀ e ∈ C.frictionEntries p x v N n, e.1.1 < 3 * n ∧ e.1.2 < 3 * n := by
  intro e he
  unfold Pair.frictionEntries at he
  by_cases hp : p.isNone
  · rw [if_pos hp] at he; simp at he
  · rw [if_neg hp] at he
    obtain ⟨b, hb, he⟩ := List.mem_flatMap.1 he
    have hb := (List.mem_filter.1 hb).2
    simp only [decide_eq_true_eq] at hb
    unfold Pair.blockEntries at he
    obtain ⟨r, -, he⟩ := List.mem_flatMap.1 he
    obtain ⟨c, -, rfl⟩ := List.mem_map.1 he
    have := r.2
    have := c.2
    constructor
    · show 3 * b.row + r.val < 3 * n
      omega
    · show 3 * b.col + c.val < 3 * n
      omega

theorem fold_take {α β : Type} (l : List α) (f : α → List β) (M : ℕ) (a : List β)
    (h : (a ++ l.flatMap f).length ≤ M) :
    l.foldl (fun b L => b ++ (f L).take (M - b.length)) a = a ++ l.flatMap f := by
  induction l generalizing a with
  | nil => simp
  | cons C l ih =>
    rw [List.flatMap_cons, ← List.append_assoc] at h ⊢
    rw [List.foldl_cons, List.take_of_length_le (by simp only [List.length_append] at h; omega)]
    exact ih _ h

theorem fold_count {α β : Type} (l : List α) (f : α → List β) (n : ℕ) :
    l.foldl (fun n L => n + (f L).length) n = n + (l.flatMap f).length := by
  induction l generalizing n with
  | nil => rfl
  | cons C l ih => rw [List.foldl_cons, ih, List.flatMap_cons, List.length_append, add_assoc]

theorem jacobian_triplets (hN : S.Within) (hD : S.toProblem.Distinct) (x u v : ℕ → V3 ℝ) (q fmul : ℝ) :
    (S.jacobianIndices x u).length ≤ S.nnz x u ∧
    (S.jacobianValues x u v q fmul).length = (S.jacobianIndices x u).length ∧
    S.jacobianIndices x u = S.toTouching.jacobianIndices x ++
      S.frictions.flatMap (fun L => (S.entriesOf v L).map fun e => e.1) ∧
    (S.jacobianIndices x u).zip (S.jacobianValues x u v q fmul) =
      (S.toTouching.jacobianIndices x).zip (S.toTouching.jacobianValues x v q fmul) ++
        S.frictions.flatMap fun L => (S.entriesOf v L).map fun e => (e.1, fmul * 1 * e.2) := by
  obtain ⟨h1, h2, -, -⟩ := S.toTouching.jacobian_triplets hN.base hD x v q fmul
  have hkey : (fun L => (S.entriesOf u L).map fun e => e.1) =
      fun L => (S.entriesOf v L).map fun e => e.1 := by
    funext L
    exact L.pair.entries_keys L.params L.x u v _ _
  have hcount : S.nnz x u = S.toTouching.nnz x +
      (S.frictions.flatMap fun L => (S.entriesOf u L).map fun e => e.1).length := by
    unfold nnz
    rw [← fold_count]
    simp only [List.length_map]
  have hidx : S.jacobianIndices x u = S.toTouching.jacobianIndices x ++
      S.frictions.flatMap (fun L => (S.entriesOf u L).map fun e => e.1) := by
    refine fold_take S.frictions (fun L => (S.entriesOf u L).map fun e => e.1) _ _ ?_
    rw [hcount, List.length_append]
    omega
  have hlen : (S.frictions.flatMap fun L => (S.entriesOf v L).map fun e => fmul * 1 * e.2).length =
      (S.frictions.flatMap fun L => (S.entriesOf v L).map fun e => e.1).length := by
    rw [List.length_flatMap, List.length_flatMap]
    simp only [List.length_map]
  have hval : S.jacobianValues x u v q fmul = S.toTouching.jacobianValues x v q fmul ++
      S.frictions.flatMap fun L => (S.entriesOf v L).map fun e => fmul * 1 * e.2 := by
    refine fold_take S.frictions (fun L => (S.entriesOf v L).map fun e => fmul * 1 * e.2) _ _ ?_
    rw [hidx, hkey, List.length_append, List.length_append, hlen, h2]
  refine ⟨?_, ?_, by rw [hidx, hkey], ?_⟩
  · rw [hidx, hcount, List.length_append]
    omega
  · rw [hval, hidx, hkey, List.length_append, List.length_append, hlen, h2]
  · rw [hval, hidx, hkey, List.zip_append h2.symm]
    congr 1
    induction S.frictions with
    | nil => rfl
    | cons L l ih =>
      rw [List.flatMap_cons, List.flatMap_cons, List.flatMap_cons, List.zip_append (by simp), ih,
        List.zip_map']

/-- The rows of the Jacobian, applied to a motion of the vertices that may move. -/
theorem jacobian_row (hN : S.Within) (hD : S.toProblem.Distinct) (x u v w : ℕ → V3 ℝ) (q fmul : ℝ)
    (i : ℕ) :
    ∑ j ∈ Finset.range (3 * S.numActive), Sparse.storedEntry
        ((S.jacobianIndices x u).zip (S.jacobianValues x u v q fmul)) (i, j) * coord w j =
      ∑ j ∈ Finset.range (3 * S.numActive), Sparse.storedEntry
        ((S.toTouching.jacobianIndices x).zip (S.toTouching.jacobianValues x v q fmul)) (i, j) *
          coord w j +
        (S.frictions.map fun L => fmul * 1 * Volume.rowMul (S.entriesOf v L) (coord w) i).sum := by
  rw [(S.jacobian_triplets hN hD x u v q fmul).2.2.2]
  simp only [Volume.storedEntry_append, add_mul, Finset.sum_add_distrib]
  congr 1
  rw [Volume.rowMul_stored _ _ _ (3 * S.numActive)]
  · generalize S.frictions = l
    induction l with
    | nil => rfl
    | cons L l ih =>
      rw [List.flatMap_cons, rowMul_append, ih, List.map_cons, List.sum_cons, rowMul_scaled]
  · intro e he
    obtain ⟨L, -, he⟩ := List.mem_flatMap.1 he
    obtain ⟨e', he', rfl⟩ := List.mem_map.1 he
    exact (L.pair.entries_lt L.params L.x v _ _ e' he').2

/-- Friction with one contact, in one direction. -/
theorem friction_row (hN : S.Within) (L : Lagged) (hL : L ∈ S.frictions) (hNM : S.numActive ≤ S.numVertices)
    (v : ℝ → ℕ → V3 ℝ) (w : ℕ → V3 ℝ) (t : ℝ) (hv : ∀ i, HasD (fun s => v s i) (w i) t)
    (hw : ∀ i, S.numActive ≤ i → w i = 0)
    (hs : ∀ k < L.pair.active.length, Pair.SteadyAt L.params (L.pair.slide L.x (v t) k).norm)
    (i : ℕ) (hi : i < 3 * S.numActive) :
    HasDerivAt (fun s => coord (L.pair.subtractFriction L.ns L.params L.x (v s) fun _ => 0) i)
      (Volume.rowMul (S.entriesOf (v t) L) (coord w) i) t := by
  by_cases hp : L.params.isNone
  · have e1 : (fun s => coord (L.pair.subtractFriction L.ns L.params L.x (v s) fun _ => 0) i) =
        fun _ => 0 := by
      funext s
      unfold Pair.subtractFriction Pair.frictionForce
      rw [if_pos hp]
      exact Volume.coord_zero i
    have e2 : S.entriesOf (v t) L = [] := by
      unfold entriesOf Pair.frictionEntries
      rw [if_pos hp]
    rw [e1, e2]
    exact hasDerivAt_const _ _
  · have e1 : (fun s => coord (L.pair.subtractFriction L.ns L.params L.x (v s) fun _ => 0) i) =
        fun s => L.pair.slidePower L.params L.x (v s) (unitAt i) := by
      funext s
      rw [← L.pair.subtractFriction_power (hN.apart L hL) L.params hp, dot_unitAt _ _ _ (by omega)]
    rw [e1]
    refine (L.pair.slidePower_deriv (hN.apart L hL) L.params (hN.valid L hL) L.x v w (unitAt i) t hv
      hs).congr_deriv ?_
    rw [← L.pair.frictionEntries_form (hN.apart L hL) L.params hp L.x (v t) (unitAt i) w S.numActive
      (fun j hj => by unfold unitAt; rw [if_neg (by omega)]) hw, entryForm_unitAt]
    rfl

theorem coord_frictionForce (l : List Lagged) (v : ℕ → V3 ℝ) (i : ℕ) :
    coord (fun j => (l.map fun L => L.pair.subtractFriction L.ns L.params L.x v (fun _ => 0) j).sum) i =
      (l.map fun L => coord (L.pair.subtractFriction L.ns L.params L.x v fun _ => 0) i).sum := by
  induction l with
  | nil => exact Volume.coord_zero i
  | cons P l ih =>
    simp only [List.map_cons, List.sum_cons]
    rw [Volume.coord_add', ih]

theorem jacobian_aux (hN : S.Within) (hD : S.toProblem.Distinct)
    (fm pm : ℝ) (prev v0 x0 u : ℕ → V3 ℝ) (v : ℝ → ℕ → V3 ℝ) (w : ℕ → V3 ℝ) (t : ℝ)
    (hv : ∀ i, HasD (fun s => v s i) (w i) t) (hw : ∀ i, S.numActive ≤ i → w i = 0)
    (hNM : S.numActive ≤ S.numVertices) (hf : S.Steady (v t))
    (hbase : ∃ r : ℝ → ℕ → V3 ℝ,
      (∀ᶠ s in nhds t, ∃ f,
        S.toTouching.residual fm pm prev v0 (place x0 (S.dt * fm) (v s)) (v s) = some (r s, f)) ∧
      ∀ i, i < 3 * S.numActive → HasDerivAt (fun s => coord (r s) i)
        (∑ j ∈ Finset.range (3 * S.numActive), Sparse.storedEntry
          ((S.toTouching.jacobianIndices (place x0 (S.dt * fm) (v t))).zip
            (S.toTouching.jacobianValues (place x0 (S.dt * fm) (v t)) (v t) (S.dt * fm) (S.dt * fm))) (i, j)
          * coord w j) t) :
    ∃ r : ℝ → ℕ → V3 ℝ,
      (∀ᶠ s in nhds t, ∃ f,
        S.residual fm pm prev v0 (place x0 (S.dt * fm) (v s)) (v s) = some (r s, f)) ∧
      ∀ i, i < 3 * S.numActive → HasDerivAt (fun s => coord (r s) i)
        (∑ j ∈ Finset.range (3 * S.numActive), Sparse.storedEntry
          ((S.jacobianIndices (place x0 (S.dt * fm) (v t)) u).zip
            (S.jacobianValues (place x0 (S.dt * fm) (v t)) u (v t) (S.dt * fm) (S.dt * fm))) (i, j)
          * coord w j) t := by
  obtain ⟨r, h1, h2⟩ := hbase
  refine ⟨fun s i => r s i + (S.dt * fm) • S.frictionForce (v s) i, ?_, fun i hi => ?_⟩
  · exact h1.mono fun s ⟨f, hf⟩ => ⟨_, S.residual_eq fm pm prev v0 _ _ _ f hf⟩
  · rw [S.jacobian_row hN hD]
    have h4 := Volume.listSum_hasDerivAt S.frictions
      (fun L s => S.dt * fm * coord (L.pair.subtractFriction L.ns L.params L.x (v s) fun _ => 0) i)
      (fun L => S.dt * fm * 1 * Volume.rowMul (S.entriesOf (v t) L) (coord w) i) t fun L hL => by
        refine ((S.friction_row hN L hL hNM v w t hv hw (hf L hL) i hi).const_mul
          (S.dt * fm)).congr_deriv ?_
        ring
    refine ((h2 i hi).fun_add h4).congr_of_eventuallyEq (Filter.Eventually.of_forall fun s => ?_)
    simp only
    rw [Volume.coord_add', coord_smul]
    simp only
    unfold frictionForce
    rw [coord_frictionForce, List.sum_map_mul_left]

end Rubbing

/-! ## Theorems -/

/-- C85: with lagged friction, the Jacobian that is assembled is the derivative of the residual with respect
to the velocities of the vertices that may move, whatever the velocities `u` were when its indices were
computed.
Missing: contacts outside of the radius of the kernel must not exert a force (`Touching.Smooth`; C79
fails for them), and where static and dynamic friction differ, the speed or the Stribeck velocity is
restricted (`Rubbing.Steady`; C15 fails for other speeds). -/
theorem lagged_jacobian_derivative_partial (S : Rubbing) (hN : S.Within) (hD : S.toProblem.Distinct)
    (hT : 0 ≤ S.timeStep) (hA : ∀ P ∈ S.volumes, P.approx = false) (fm pm : ℝ) (hfm : 0 < fm)
    (prev v0 x0 u : ℕ → V3 ℝ) (v : ℝ → ℕ → V3 ℝ) (w : ℕ → V3 ℝ) (t : ℝ)
    (hv : ∀ i, HasD (fun s => v s i) (w i) t) (hw : ∀ i, S.numActive ≤ i → w i = 0)
    (hNM : S.numActive ≤ S.numVertices)
    (hs : S.toProblem.Smooth (place x0 (S.dt * fm) (v t)))
    (hc : S.toTouching.Smooth (place x0 (S.dt * fm) (v t))) (hf : S.Steady (v t)) :
    ∃ r : ℝ → ℕ → V3 ℝ,
      (∀ᶠ s in nhds t, ∃ f,
        S.residual fm pm prev v0 (place x0 (S.dt * fm) (v s)) (v s) = some (r s, f)) ∧
      ∀ i, i < 3 * S.numActive → HasDerivAt (fun s => coord (r s) i)
        (∑ j ∈ Finset.range (3 * S.numActive), Sparse.storedEntry
          ((S.jacobianIndices (place x0 (S.dt * fm) (v t)) u).zip
            (S.jacobianValues (place x0 (S.dt * fm) (v t)) u (v t) (S.dt * fm) (S.dt * fm))) (i, j)
          * coord w j) t :=
  S.jacobian_aux hN hD fm pm prev v0 x0 u v w t hv hw hNM hf
    (contact_jacobian_derivative_partial S.toTouching hN.base hD hT hA fm pm hfm prev v0 x0 v w t hv hw hNM
      hs hc)

/-- C85: with the sparse approximation of the Hessian of the zones, which is the default, the Jacobian is
the derivative of the residual along all changes of the velocities that keep the volumes of the zones.
Missing: as in `lagged_jacobian_derivative_partial`. -/
theorem lagged_jacobian_approx_partial (S : Rubbing) (hN : S.Within) (hD : S.toProblem.Distinct)
    (hT : 0 ≤ S.timeStep) (fm pm : ℝ) (hfm : 0 < fm)
    (prev v0 x0 u : ℕ → V3 ℝ) (v : ℝ → ℕ → V3 ℝ) (w : ℕ → V3 ℝ) (t : ℝ)
    (hv : ∀ i, HasD (fun s => v s i) (w i) t) (hw : ∀ i, S.numActive ≤ i → w i = 0)
    (hNM : S.numActive ≤ S.numVertices)
    (hs : S.toProblem.Smooth (place x0 (S.dt * fm) (v t)))
    (hV : ∀ P ∈ S.volumes,
      HasDerivAt (fun s => Volume.signedVolume P.topo (place x0 (S.dt * fm) (v s))) 0 t)
    (hc : S.toTouching.Smooth (place x0 (S.dt * fm) (v t))) (hf : S.Steady (v t)) :
    ∃ r : ℝ → ℕ → V3 ℝ,
      (∀ᶠ s in nhds t, ∃ f,
        S.residual fm pm prev v0 (place x0 (S.dt * fm) (v s)) (v s) = some (r s, f)) ∧
      ∀ i, i < 3 * S.numActive → HasDerivAt (fun s => coord (r s) i)
        (∑ j ∈ Finset.range (3 * S.numActive), Sparse.storedEntry
          ((S.jacobianIndices (place x0 (S.dt * fm) (v t)) u).zip
            (S.jacobianValues (place x0 (S.dt * fm) (v t)) u (v t) (S.dt * fm) (S.dt * fm))) (i, j)
          * coord w j) t :=
  S.jacobian_aux hN hD fm pm prev v0 x0 u v w t hv hw hNM hf
    (contact_jacobian_approx_partial S.toTouching hN.base hD hT fm pm hfm prev v0 x0 v w t hv hw hNM
      hs hV hc)

/-- C85: the number of entries of the Jacobian is at most what was announced, each entry has a value, and no
entry is outside of the matrix. The values may be computed for other velocities than the indices. -/
theorem lagged_jacobian_size (S : Rubbing) (hN : S.Within) (hD : S.toProblem.Distinct)
    (hNM : S.numActive ≤ S.numVertices) (x u v : ℕ → V3 ℝ) (dqdv fmul : ℝ) :
    (S.jacobianIndices x u).length ≤ S.nnz x u ∧
    (S.jacobianValues x u v dqdv fmul).length = (S.jacobianIndices x u).length ∧
    ∀ p ∈ S.jacobianIndices x u, p.1 < 3 * S.numVertices ∧ p.2 < 3 * S.numVertices := by
  obtain ⟨h1, h2, h3, -⟩ := S.jacobian_triplets hN hD x u v dqdv fmul
  refine ⟨h1, h2, fun p hp => ?_⟩
  rw [h3] at hp
  rcases List.mem_append.1 hp with hp | hp
  · exact (contact_jacobian_size S.toTouching hN.base hD hNM x v dqdv fmul).2.2 p hp
  · obtain ⟨L, -, hp⟩ := List.mem_flatMap.1 hp
    obtain ⟨e, he, rfl⟩ := List.mem_map.1 hp
    have := L.pair.entries_lt L.params L.x v _ _ e he
    omega

open Classical in
/-- The derivative of the objective in terms of the residual. -/
theorem Rubbing.objective_rate (S : Rubbing) (hN : S.Within) (hT : 0 ≤ S.timeStep)
    (hP : ∀ P ∈ S.volumes, P.Proper) (fm pm : ℝ) (hfm : 0 < fm) (prev v0 x0 : ℕ → V3 ℝ)
    (v : ℝ → ℕ → V3 ℝ) (w : ℕ → V3 ℝ) (t : ℝ) (hv : ∀ i, HasD (fun s => v s i) (w i) t)
    (hw : ∀ i, S.numActive ≤ i → w i = 0)
    (hs : S.toProblem.Smooth (place x0 (S.dt * fm) (v t)))
    (hc : S.Regular (place x0 (S.dt * fm) (v t)))
    (hmu : ∀ L ∈ S.frictions, L.params.isNone ∨
      L.params.staticFriction = L.params.dynamicFriction ∧ L.params.viscousFriction = 0) :
    ∃ (W : ℝ → ℝ) (r f : ℕ → V3 ℝ),
      (∀ᶠ s in nhds t, S.objective fm pm prev v0 (place x0 (S.dt * fm) (v s)) (v s) = some (W s)) ∧
      S.residual fm pm prev v0 (place x0 (S.dt * fm) (v t)) (v t) = some (r, f) ∧
      HasDerivAt W (∑ i ∈ Finset.range S.numVertices, V3.dot (r i) (w i) +
        (S.frictions.map fun L => if L.params.isNone then 0 else
          (1 - L.params.dynamicFriction) * (S.dt * fm) *
          ∑ k ∈ Finset.range L.pair.active.length, (L.pair.lambda L.x).getD k 0 *
            L.params.profile.s (L.pair.slide L.x (v t) k).norm L.params.epsilon *
            V2.dot (L.pair.slide L.x (v t) k) (L.pair.slide L.x w k)).sum) t := by
  obtain ⟨W, r, f, h1, h2, h3⟩ := contact_objective_derivative S.toTouching hN.base hT
    hP fm pm hfm prev v0 x0 v w t hv hw hs hc
  refine ⟨fun s => W s + (S.frictions.map fun L =>
      L.pair.frictionPotential L.params L.x (v s) (S.dt * fm)).sum, _, _, ?_,
    S.residual_eq fm pm prev v0 _ _ r f h2, ?_⟩
  · exact h1.mono fun s hs => S.objective_eq fm pm prev v0 _ _ _ hs
  · have h4 := Volume.listSum_hasDerivAt S.frictions
      (fun L s => L.pair.frictionPotential L.params L.x (v s) (S.dt * fm))
      (fun L => if L.params.isNone then 0 else (∑ k ∈ Finset.range L.pair.active.length,
        (L.pair.lambda L.x).getD k 0 *
            L.params.profile.s (L.pair.slide L.x (v t) k).norm L.params.epsilon *
            V2.dot (L.pair.slide L.x (v t) k) (L.pair.slide L.x w k)) * (S.dt * fm)) t fun L hL => by
        by_cases hp : L.params.isNone
        · rw [if_pos hp]
          simp only [Pair.frictionPotential, if_pos hp]
          exact hasDerivAt_const _ _
        · rw [if_neg hp]
          exact L.pair.potential_deriv (hN.apart L hL) L.params (hN.valid L hL) hp L.x v w t _ hv
    refine (h3.fun_add h4).congr_deriv ?_
    simp only [Fem.dot_add_left, Finset.sum_add_distrib, add_assoc]
    congr 1
    rw [S.frictionForce_power, ← List.sum_map_add]
    congr 1
    refine List.map_congr_left fun L hL => ?_
    by_cases hp : L.params.isNone
    · rw [if_pos hp, if_pos hp]
      have : ∀ i, L.pair.subtractFriction L.ns L.params L.x (v t) (fun _ => 0) i = 0 := by
        intro i
        unfold Pair.subtractFriction Pair.frictionForce
        rw [if_pos hp]
      simp [this, V3.dot]
    · rw [if_neg hp, if_neg hp, L.pair.subtractFriction_power (hN.apart L hL) L.params hp,
        L.pair.slidePower_eq L.params L.x (v t) w L.params.dynamicFriction
          ((hmu L hL).resolve_left hp).1 rfl ((hmu L hL).resolve_left hp).2]
      ring

/-- C85: with lagged friction, the residual is the derivative of the objective with respect to the velocities
of the vertices that may move.
Missing: the coefficients of friction are zero or one and there is no viscosity. It fails for all other
coefficients, see `lagged_objective_violated`. -/
theorem lagged_objective_partial (S : Rubbing) (hN : S.Within) (hT : 0 ≤ S.timeStep)
    (hP : ∀ P ∈ S.volumes, P.Proper) (fm pm : ℝ) (hfm : 0 < fm) (prev v0 x0 : ℕ → V3 ℝ)
    (v : ℝ → ℕ → V3 ℝ) (w : ℕ → V3 ℝ) (t : ℝ) (hv : ∀ i, HasD (fun s => v s i) (w i) t)
    (hw : ∀ i, S.numActive ≤ i → w i = 0)
    (hs : S.toProblem.Smooth (place x0 (S.dt * fm) (v t)))
    (hc : S.Regular (place x0 (S.dt * fm) (v t)))
    (hmu : ∀ L ∈ S.frictions, L.params.isNone ∨ L.params.staticFriction = 1 ∧
      L.params.dynamicFriction = 1 ∧ L.params.viscousFriction = 0) :
    ∃ (W : ℝ → ℝ) (r f : ℕ → V3 ℝ),
      (∀ᶠ s in nhds t, S.objective fm pm prev v0 (place x0 (S.dt * fm) (v s)) (v s) = some (W s)) ∧
      S.residual fm pm prev v0 (place x0 (S.dt * fm) (v t)) (v t) = some (r, f) ∧
      HasDerivAt W (∑ i ∈ Finset.range S.numVertices, V3.dot (r i) (w i)) t := by
  classical
  obtain ⟨W, r, f, h1, h2, h3⟩ := S.objective_rate hN hT hP fm pm hfm prev v0 x0 v w t hv hw hs hc
    fun L hL => (hmu L hL).imp_right fun h => ⟨h.1.trans h.2.1.symm, h.2.2⟩
  refine ⟨W, r, f, h1, h2, h3.congr_deriv ?_⟩
  rw [List.sum_eq_zero, add_zero]
  intro a ha
  obtain ⟨L, hL, rfl⟩ := List.mem_map.1 ha
  by_cases hp : L.params.isNone
  · simp only [if_pos hp]
  · simp only [if_neg hp, ((hmu L hL).resolve_left hp).2.1]
    ring

/-! ### Symmetry and definiteness -/

theorem slope_nonneg (k : Friction.Profile) {ε y : ℝ} (hε : 0 < ε) (hy : 0 ≤ y) :
    0 ≤ k.s y ε + k.ds y ε * y := by
  cases k with
  | stabilized =>
    simp only [Friction.Profile.s, Friction.Profile.ds, Friction.stabilizedProfile,
      Friction.stabilizedProfileDeriv]
    have h : 0 < y + 0.1 * ε := by positivity
    rw [show 1 / (y + 0.1 * ε) + -1 / ((y + 0.1 * ε) * (y + 0.1 * ε)) * y =
      0.1 * ε / ((y + 0.1 * ε) * (y + 0.1 * ε)) by field_simp; ring]
    positivity
  | quadratic =>
    simp only [Friction.Profile.s, Friction.Profile.ds, Friction.quadraticProfile,
      Friction.quadraticProfileDeriv]
    split_ifs with h
    · rw [show (2 - y / ε) / ε + -1 / (ε * ε) * y = 2 * (ε - y) / (ε * ε) by field_simp; ring]
      have : 0 < ε - y := by linarith
      positivity
    · have : 0 < y := by linarith
      rw [show 1 / y + -1 / (y * y) * y = 0 by field_simp; ring]

theorem deriv_nonpos (k : Friction.Profile) (ε y : ℝ) : k.ds y ε ≤ 0 := by
  cases k with
  | stabilized =>
    simp only [Friction.Profile.ds, Friction.stabilizedProfileDeriv]
    exact div_nonpos_of_nonpos_of_nonneg (by norm_num) (mul_self_nonneg _)
  | quadratic =>
    simp only [Friction.Profile.ds, Friction.quadraticProfileDeriv]
    split_ifs
    · exact div_nonpos_of_nonpos_of_nonneg (by norm_num) (mul_self_nonneg _)
    · exact div_nonpos_of_nonpos_of_nonneg (by norm_num) (mul_self_nonneg _)

theorem jacobian_symmetric (p : Friction.Params) (v : V2 ℝ) (l : ℝ) (a b : V2 ℝ) :
    V2.dot a ((Friction.jacobian v l p).mulVec b) = V2.dot b ((Friction.jacobian v l p).mulVec a) := by
  rw [Friction.jacobian_eq]
  unfold Friction.etaJac
  simp only
  split_ifs <;> simp only [V2.dot, Friction.M2.mulVec] <;> ring

theorem jacobian_definite (p : Friction.Params) (hp : p.Valid) (hm : p.staticFriction = p.dynamicFriction)
    (v : V2 ℝ) (l : ℝ) (hl : 0 ≤ l) (a : V2 ℝ) :
    0 ≤ V2.dot a ((Friction.jacobian v l p).mulVec a) := by
  rw [Friction.jacobian_eq]
  unfold Friction.etaJac
  simp only [hm, sub_self, zero_mul, add_zero]
  have hmu : 0 ≤ p.dynamicFriction := hp.dyn
  have hvis : 0 ≤ p.viscousFriction := hp.visc
  have hs := slope_nonneg p.profile hp.eps (Friction.norm_nonneg v)
  have hd := deriv_nonpos p.profile p.epsilon v.norm
  have hs0 := (Friction.profile_pos p.profile hp.eps (Friction.norm_nonneg v)).le
  generalize p.profile.s v.norm p.epsilon = s at *
  generalize p.profile.ds v.norm p.epsilon = d at *
  have haa : 0 ≤ a.x * a.x + a.y * a.y := add_nonneg (mul_self_nonneg _) (mul_self_nonneg _)
  split_ifs with hv
  · have hn := Friction.norm_mul_self v
    simp only [V2.dot] at hn
    generalize v.norm = n at *
    have key : 0 ≤ s * (a.x * a.x + a.y * a.y) + d / n * (v.x * a.x + v.y * a.y) ^ 2 := by
      have hcs : (v.x * a.x + v.y * a.y) ^ 2 ≤ n * n * (a.x * a.x + a.y * a.y) := by
        rw [hn]
        nlinarith [sq_nonneg (v.x * a.y - v.y * a.x)]
      have hdn : d / n ≤ 0 := div_nonpos_of_nonpos_of_nonneg hd hv.le
      have h1 := mul_le_mul_of_nonpos_left hcs hdn
      have h2 : d / n * (n * n * (a.x * a.x + a.y * a.y)) = d * n * (a.x * a.x + a.y * a.y) := by
        field_simp
      nlinarith [mul_nonneg hs haa]
    have e : V2.dot a ((⟨p.viscousFriction + p.dynamicFriction * s * l +
        v.x * (p.dynamicFriction * d * (l / n)) * v.x, v.x * (p.dynamicFriction * d * (l / n)) * v.y,
        v.y * (p.dynamicFriction * d * (l / n)) * v.x, p.viscousFriction + p.dynamicFriction * s * l +
        v.y * (p.dynamicFriction * d * (l / n)) * v.y⟩ : Friction.M2).mulVec a) =
        p.viscousFriction * (a.x * a.x + a.y * a.y) + p.dynamicFriction * l *
          (s * (a.x * a.x + a.y * a.y) + d / n * (v.x * a.x + v.y * a.y) ^ 2) := by
      simp only [V2.dot, Friction.M2.mulVec]
      ring
    rw [e]
    have := mul_nonneg (mul_nonneg hmu hl) key
    have := mul_nonneg hvis haa
    linarith
  · have := mul_nonneg (add_nonneg hvis (mul_nonneg (mul_nonneg hmu hs0) hl)) haa
    simp only [V2.dot, Friction.M2.mulVec]
    linarith

/-- C85: what lagged friction adds to the Jacobian is symmetric, and positive semidefinite if the coefficients
of static and dynamic friction are equal. -/
theorem lagged_jacobian_definite (S : Rubbing) (hN : S.Within) (L : Lagged) (hL : L ∈ S.frictions)
    (hk : 0 ≤ L.pair.kappa) (hd : 0 < L.pair.delta) (v u w : ℕ → V3 ℝ)
    (hu : ∀ i, S.numActive ≤ i → u i = 0) (hw : ∀ i, S.numActive ≤ i → w i = 0) :
    entryForm (S.entriesOf v L) (coord u) (coord w) = entryForm (S.entriesOf v L) (coord w) (coord u) ∧
    (L.params.staticFriction = L.params.dynamicFriction →
      0 ≤ entryForm (S.entriesOf v L) (coord u) (coord u)) := by
  by_cases hp : L.params.isNone
  · have e : S.entriesOf v L = [] := by
      unfold Rubbing.entriesOf Pair.frictionEntries
      rw [if_pos hp]
    rw [e]
    simp [entryForm]
  · unfold Rubbing.entriesOf
    rw [L.pair.frictionEntries_form (hN.apart L hL) L.params hp L.x v u w _ hu hw,
      L.pair.frictionEntries_form (hN.apart L hL) L.params hp L.x v w u _ hw hu,
      L.pair.frictionEntries_form (hN.apart L hL) L.params hp L.x v u u _ hu hu]
    exact ⟨Finset.sum_congr rfl fun k _ => jacobian_symmetric _ _ _ _ _,
      fun hm => Finset.sum_nonneg fun k _ => jacobian_definite _ (hN.valid L hL) hm _ _
        (L.pair.lambda_nonneg hk hd _ _) _⟩

/-! ## Examples -/

theorem demo_distinct : demo.Distinct 3 5 := by
  constructor
  · intro p hp s hs j
    show Tri.get demoTri j < 3
    fin_cases j <;> decide
  · intro i hi j hj e
    simpa [demo, hi, hj] using e
  · simp [demo_active]
  · intro i j
    show (if i = 0 then 4 else 3) ≠ if j < 3 then j else 0
    split <;> split <;> omega
  · intro j _
    exact demo_surf j
  · intro p _
    exact demo_coll _

theorem demo_flat : FlatAround demo.kernel (demo.query demoX 1) [0] (demo.samples demoX) ⟨0, 0, 1⟩ := by
  rw [demo_samples, demo_query]
  constructor
  · show (0 : ℝ) < 1
    norm_num
  · norm_num [V3.dot]
  · exact fun i _ => plate_normal i
  · refine ⟨1 / 2, fun i _ => ?_⟩
    rw [plate_pos]
    show (0 : ℝ) + _ = _
    norm_num [V3.dot]
  · refine ⟨0, by simp, fun r hr => ?_⟩
    rw [plate_pos]
    have : r = 1 := by
      have : (some 1 : Option ℝ) = some r := hr
      exact (Option.some.inj this).symm
    rw [this]
    exact plate_near
  · exact Or.inl trivial

theorem demo_distance : demo.distance demoX ([0], 1) = 1 / 2 := by
  unfold Pair.distance
  rw [demo_flat.potential 0 (1 / 2) fun i _ => by
    rw [demo_samples, plate_pos, demo_query]
    show (0 : ℝ) + V3.dot ⟨0, 0, 1⟩ ((⟨1, 1, 1 / 2⟩ : V3 ℝ) - ⟨1, 1, 0⟩) = 1 / 2
    norm_num [V3.dot]]
  show (1 / 2 : ℝ) - 0 = 1 / 2
  norm_num

theorem demo_lambda : demo.lambda demoX = [3 / 2] := by
  simp only [Pair.lambda, ContactPenalty.multipliers, Pair.distances_eq, demo_active, List.map_cons,
    List.map_nil, demo_distance]
  show [-(2 : ℝ) * ContactPenalty.db 1 (1 / 2)] = _
  rw [ContactPenalty.db_of_lt (by norm_num)]
  norm_num

theorem demo_normals : demo.contactNormals demoX = [⟨0, 0, -1⟩] := by
  have hq := demo_flat.gradient (some (demo.closest 1))
  have hnorm : (⟨0, 0, 1⟩ : V3 ℝ).norm = 1 := by simp [V3.norm, V3.dot]
  simp only [Pair.contactNormals, Pair.queryBlocks, demo_active, List.map_cons, List.map_nil, hq,
    Option.getD_some, hnorm]
  rw [if_pos one_pos]
  congr 1
  ext <;> norm_num

/-- The other object slides along the triangle. -/
def demoV (i : ℕ) : V3 ℝ := if i = 3 then ⟨1, 0, 0⟩ else 0

theorem demo_rel : demo.rel demoX demoV 0 = ⟨-1, 0, 0⟩ := by
  unfold Pair.rel
  rw [Pair.relativeVelocities_eq, demo_active, List.map_cons, List.map_nil, List.getD_cons_zero]
  obtain ⟨w, hw, -⟩ := demo_flat.contactJacobian
  unfold Pair.pushed
  simp only at hw ⊢
  rw [hw]
  ext <;> simp [Pair.faceVelocity, demo, demoTri, demoV, M3.mulVec, M3.diag, V3.dot]

theorem demo_slide : demo.slide demoX demoV 0 = ⟨-1, 0⟩ := by
  have ht : ContactBasis.tangentFor ⟨0, 0, -1⟩ = ⟨1, 0, 0⟩ := by
    unfold ContactBasis.tangentFor
    have e : (V3.iamax ⟨0, 0, -1⟩ + 1) % 3 = 0 := by
      norm_num [V3.iamax]
    simp only [e]
    ext <;> simp [V3.normalize, V3.norm, V3.dot, V3.axis, V3.getN]
  unfold Pair.slide Pair.frameAt Pair.contactBasis
  rw [demo_rel, demo_normals, ContactBasis.matrix_of_lt (by simp)]
  simp only [List.getElem_cons_zero, ht, Option.getD_some]
  ext <;> simp [ContactBasis.frame, M3.mulVec, V3.dot, V3.cross]

theorem demo_speed : (demo.slide demoX demoV 0).norm = 1 := by
  rw [demo_slide]
  simp [V2.norm, V2.dot]

/-- The soft tetrahedron and the vertex above it, with friction. -/
def exRub (p : Friction.Params) : Rubbing := { exTouch demo with frictions := [⟨demo, demoX, 3, p⟩] }

theorem exRub_within (p : Friction.Params) (hp : p.Valid) : (exRub p).Within := by
  have hC : ∀ L ∈ (exRub p).frictions, L = ⟨demo, demoX, 3, p⟩ := fun L hL => by simpa [exRub] using hL
  refine ⟨demo_touching, ?_, ?_⟩
  · intro L hL; rw [hC L hL]; exact demo_distinct
  · intro L hL; rw [hC L hL]; exact hp

/-- Coulomb friction with coefficient `μ`. -/
def coulomb (μ : ℝ) : Friction.Params := ⟨μ, μ, 0, 0, 1 / 100, .quadratic⟩

theorem coulomb_valid (μ : ℝ) (h : 0 ≤ μ) : (coulomb μ).Valid := by
  constructor <;> simp [coulomb, h]

/-- The hypotheses of the theorems above hold for this problem, and there is friction. -/
example : (exRub (coulomb (3 / 10))).Within ∧ (exRub (coulomb (3 / 10))).toProblem.Distinct ∧
    (exRub (coulomb (3 / 10))).toProblem.Smooth demoX ∧ (exRub (coulomb (3 / 10))).toTouching.Smooth demoX ∧
    (exRub (coulomb (3 / 10))).Steady demoV ∧ (exRub (coulomb (3 / 10))).toTouching.Regular demoX ∧
    ¬ (coulomb (3 / 10)).isNone ∧ demo.lambda demoX = [3 / 2] := by
  refine ⟨exRub_within _ (coulomb_valid _ (by norm_num)), exTet_distinct, exTet_smooth _,
    demo_touching_smooth, fun L hL k _ => ?_, demo_touching_regular, ?_, demo_lambda⟩
  · have : L = ⟨demo, demoX, 3, coulomb (3 / 10)⟩ := by simpa [exRub] using hL
    rw [this]
    exact Or.inl rfl
  · norm_num [coulomb, Friction.Params.isNone]

/-- C85 fails for the objective: whatever the coefficient of friction is, unless it is one, there is a scene
where the residual is not the derivative of the objective: the potential of lagged friction lacks the
coefficient. -/
theorem lagged_objective_violated (μ : ℝ) (h0 : 0 < μ) (h1 : μ ≠ 1) :
    ∃ (S : Rubbing) (x0 : ℕ → V3 ℝ) (v : ℝ → ℕ → V3 ℝ) (w : ℕ → V3 ℝ) (W : ℝ → ℝ) (r f : ℕ → V3 ℝ),
      S.Within ∧ S.toProblem.Distinct ∧ 0 < S.timeStep ∧ S.volumes = [] ∧ S.numActive = S.numVertices ∧
      S.toProblem.Smooth (place x0 (S.dt * 1) (v 0)) ∧ S.Regular (place x0 (S.dt * 1) (v 0)) ∧
      (∀ L ∈ S.frictions, L.params.staticFriction = μ ∧ L.params.dynamicFriction = μ ∧
        L.params.viscousFriction = 0) ∧
      (∀ i, HasD (fun s => v s i) (w i) 0) ∧ (∀ i, S.numActive ≤ i → w i = 0) ∧
      (∀ᶠ s in nhds 0, S.objective 1 0 (fun _ => 0) (fun _ => 0) (place x0 (S.dt * 1) (v s)) (v s) =
        some (W s)) ∧
      S.residual 1 0 (fun _ => 0) (fun _ => 0) (place x0 (S.dt * 1) (v 0)) (v 0) = some (r, f) ∧
      ¬ HasDerivAt W (∑ i ∈ Finset.range S.numVertices, V3.dot (r i) (w i)) 0 := by
  classical
  set S := exRub (coulomb μ) with hS
  have hL : S.frictions = [⟨demo, demoX, 3, coulomb μ⟩] := rfl
  have hn : ¬ (coulomb μ).isNone := by simp [coulomb, Friction.Params.isNone, h0.ne']
  have hdt : S.dt = 1 / 60 := by
    have : S.timeStep = 1 / 60 := rfl
    unfold Problem.dt
    rw [if_neg (by unfold Problem.isStatic; rw [this]; norm_num), this]
  let x0 : ℕ → V3 ℝ := fun i => demoX i - (S.dt * 1) • demoV i
  let v : ℝ → ℕ → V3 ℝ := fun s i => demoV i + s • demoV i
  have hv0 : v 0 = demoV := by funext i; ext <;> simp [v]
  have hx : place x0 (S.dt * 1) (v 0) = demoX := by
    rw [hv0]
    funext i
    ext <;> simp [place, x0]
  have hd : ∀ i, HasD (fun s => v s i) (demoV i) 0 := fun i => HasD.line _ _
  have hw : ∀ i, S.numActive ≤ i → demoV i = 0 := by
    intro i hi
    have : 5 ≤ i := hi
    unfold demoV
    rw [if_neg (by omega)]
  have hNW : S.Within := exRub_within _ (coulomb_valid _ h0.le)
  obtain ⟨W, r, f, h2, h3, h4⟩ := S.objective_rate hNW
    (by show (0 : ℝ) ≤ 1 / 60; norm_num) (fun P hP => by simp [hS, exRub, exTouch, exTet] at hP) 1 0 one_pos
    (fun _ => 0) (fun _ => 0) x0 v demoV 0 hd hw (by rw [hx]; exact exTet_smooth _)
    (by rw [hx]; exact demo_touching_regular) (fun L hL' => by
      rw [hL, List.mem_singleton] at hL'
      rw [hL']
      exact Or.inr ⟨rfl, rfl⟩)
  refine ⟨S, x0, v, demoV, W, r, f, hNW, exTet_distinct, by show (0 : ℝ) < 1 / 60; norm_num, rfl, rfl,
    by rw [hx]; exact exTet_smooth _, by rw [hx]; exact demo_touching_regular, ?_, hd, hw, h2, h3, ?_⟩
  · intro L hL'
    rw [hL, List.mem_singleton] at hL'
    rw [hL']
    exact ⟨rfl, rfl, rfl⟩
  · intro hbad
    have := hbad.unique h4
    rw [hL, List.map_cons, List.map_nil, List.sum_cons, List.sum_nil, add_zero, if_neg hn, hv0,
      show demo.active.length = 1 from rfl, Finset.sum_range_one, demo_lambda, demo_speed, demo_slide] at this
    have hs : (coulomb μ).profile.s 1 (coulomb μ).epsilon = 1 := by
      norm_num [coulomb, Friction.Profile.s, Friction.quadraticProfile]
    rw [hs, hdt] at this
    simp only [List.getD_cons_zero, V2.dot, coulomb] at this
    apply h1
    linarith

end Softy.Contact
