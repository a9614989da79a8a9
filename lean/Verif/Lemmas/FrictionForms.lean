import Verif.Lemmas.FrictionPath

/-!
# What the blocks of the Jacobian of friction make of two motions
-/

noncomputable section

namespace Softy.Contact

open Softy Softy.Kernel Softy.Field

/-! ## Lists -/

theorem list_sum_range {β : Type*} (L : List β) (d : β) (f : β → ℝ) :
    (L.map f).sum = ∑ k ∈ Finset.range L.length, f (L.getD k d) := by
  rw [← sum_range_list]
  congr 1
  refine List.ext_getElem (by simp) fun i h1 h2 => ?_
  simp only [List.length_map] at h1
  simp [List.getElem?_eq_getElem h1]

theorem zipIdx_sum_range {β : Type*} (L : List β) (d : β) (f : β × ℕ → ℝ) :
    (L.zipIdx.map f).sum = ∑ k ∈ Finset.range L.length, f (L.getD k d, k) := by
  rw [← sum_range_list]
  congr 1
  refine List.ext_getElem (by simp) fun i h1 h2 => ?_
  simp only [List.length_map, List.length_zipIdx] at h1
  simp [List.getElem?_eq_getElem h1]

theorem sum_swap {β : Type*} (L : List β) (N : ℕ) (F : β → ℕ → ℝ) :
    ∑ i ∈ Finset.range N, (L.map fun e => F e i).sum = (L.map fun e => ∑ i ∈ Finset.range N, F e i).sum := by
  induction L with
  | nil => simp
  | cons e L ih => simp only [List.map_cons, List.sum_cons, Finset.sum_add_distrib, ih]

theorem filter_sum {β : Type*} (L : List β) (q : β → Bool) (F : β → ℝ) (h : ∀ e ∈ L, q e = false → F e = 0) :
    ((L.filter q).map F).sum = (L.map F).sum := by
  induction L with
  | nil => rfl
  | cons e L ih =>
    have ih := ih fun e he => h e (List.mem_cons_of_mem _ he)
    rw [List.filter_cons]
    cases hq : q e with
    | true => simp [ih]
    | false => simp [ih, h e List.mem_cons_self hq]

theorem filter_vsum {β : Type*} (L : List β) (q : β → Bool) (F : β → V3 ℝ)
    (h : ∀ e ∈ L, q e = false → F e = 0) : ((L.filter q).map F).sum = (L.map F).sum := by
  induction L with
  | nil => rfl
  | cons e L ih =>
    have ih := ih fun e he => h e (List.mem_cons_of_mem _ he)
    rw [List.filter_cons]
    cases hq : q e with
    | true => simp [ih]
    | false => simp [ih, h e List.mem_cons_self hq]

theorem vsum_zero {β : Type*} (L : List β) (F : β → V3 ℝ) (h : ∀ e ∈ L, F e = 0) : (L.map F).sum = 0 := by
  rw [List.map_congr_left h]
  simp

theorem rsum_zero {β : Type*} (L : List β) (F : β → ℝ) (h : ∀ e ∈ L, F e = 0) : (L.map F).sum = 0 := by
  rw [List.map_congr_left h]
  simp

/-- Values that come in the order of the indices. -/
theorem zipWith_blocks (A A' B : List MBlock)
    (h : A.map (fun b => (b.row, b.col)) = B.map fun b => (b.row, b.col)) :
    List.zipWith (fun i b => MBlock.mk i.row i.col b.val) (A ++ A') B = B := by
  induction B generalizing A with
  | nil =>
    rw [List.map_nil, List.map_eq_nil_iff] at h
    rw [h]
    exact List.zipWith_nil_right
  | cons b B ih =>
    cases A with
    | nil => simp at h
    | cons a A =>
      simp only [List.map_cons, List.cons.injEq, Prod.mk.injEq] at h
      rw [List.cons_append, List.zipWith_cons_cons, ih A h.2, h.1.1, h.1.2]

theorem zipWith_hblocks (A A' B : List HBlock)
    (h : A.map (fun b => (b.row, b.col)) = B.map fun b => (b.row, b.col)) :
    List.zipWith (fun i b => HBlock.mk i.row i.col b.val) (A ++ A') B = B := by
  induction B generalizing A with
  | nil =>
    rw [List.map_nil, List.map_eq_nil_iff] at h
    rw [h]
    exact List.zipWith_nil_right
  | cons b B ih =>
    cases A with
    | nil => simp at h
    | cons a A =>
      simp only [List.map_cons, List.cons.injEq, Prod.mk.injEq] at h
      rw [List.cons_append, List.zipWith_cons_cons, ih A h.2, h.1.1, h.1.2]

/-! ## Rows of a matrix -/

/-- Row `k` of a matrix, applied to a vector. -/
def applyRow (T : List MBlock) (k : ℕ) (w : ℕ → V3 ℝ) : V3 ℝ :=
  ((T.filter fun b => b.row = k).map fun b => b.val.mulVec (w b.col)).sum

theorem applyRow_filter (T : List MBlock) (q : MBlock → Bool) (k : ℕ) (w : ℕ → V3 ℝ)
    (h : ∀ b ∈ T, q b = false → w b.col = 0) : applyRow (T.filter q) k w = applyRow T k w := by
  unfold applyRow
  rw [List.filter_filter]
  have : (T.filter fun b => (decide (b.row = k) && q b)) = (T.filter fun b => decide (b.row = k)).filter q := by
    rw [List.filter_filter]
    congr 1
    funext b
    exact Bool.and_comm _ _
  rw [this, filter_vsum]
  intro b hb hq
  rw [h b (List.mem_filter.1 hb).1 hq]
  exact Pair.mulVec_zero_right _

theorem applyRow_append (A B : List MBlock) (k : ℕ) (w : ℕ → V3 ℝ) :
    applyRow (A ++ B) k w = applyRow A k w + applyRow B k w := by
  simp [applyRow]

theorem blockAt_sum (T : List MBlock) (k N : ℕ) (w : ℕ → V3 ℝ) (h : ∀ b ∈ T, b.col < N) :
    ∑ j ∈ Finset.range N, (Pair.blockAt T k j).mulVec (w j) = applyRow T k w := by
  refine eq_of_dot fun a => ?_
  rw [dot_finsetSum]
  unfold applyRow
  rw [dot_listSum, ← sum_by_key _ (fun b : MBlock => b.col) _ N
    fun b hb => h b (List.mem_filter.1 hb).1]
  refine Finset.sum_congr rfl fun j _ => ?_
  unfold Pair.blockAt
  rw [mulVec_listSum, dot_listSum, List.filter_filter]
  have : (T.filter fun b => decide (b.row = k ∧ b.col = j)) =
      T.filter fun b => decide (b.col = j) && decide (b.row = k) := by
    congr 1
    funext b
    rw [Bool.decide_and, Bool.and_comm]
  rw [this]
  congr 1
  refine List.map_congr_left fun b hb => ?_
  have := (List.mem_filter.1 hb).2
  simp only [Bool.and_eq_true, decide_eq_true_eq] at this
  rw [this.1]

namespace Pair

variable (C : Pair)

/-- Products with the contact gradient. -/
theorem contactProduct_form {ns N : ℕ} (h : C.Distinct ns N) (x : ℕ → V3 ℝ) (mid : ℕ → M3 ℝ)
    (T : List MBlock) (hT : ∀ b ∈ T, b.col < N) (u w : ℕ → V3 ℝ) :
    form (C.contactProduct x N mid T) u w = ∑ k ∈ Finset.range C.active.length,
      V3.dot (C.rel x u k) ((mid k).mulVec (applyRow T k w)) := by
  classical
  have hE : ∀ i j a, (((List.range C.active.length).map fun k =>
      C.gradientBlock x N i k * (mid k * blockAt T k j)).sum).mulVec a =
      ((List.range C.active.length).map fun k =>
        (C.gradientBlock x N i k).mulVec ((mid k).mulVec ((blockAt T k j).mulVec a))).sum := by
    intro i j a
    rw [mulVec_listSum]
    congr 1
    refine List.map_congr_left fun k _ => ?_
    simp only [M3.mul_def, M3.mulVec_mul]
  unfold contactProduct
  rw [form_rows]
  · simp only [hE, dot_listSum, sum_range_list]
    have e2 : ∀ i, ∑ j ∈ Finset.range N, ∑ k ∈ Finset.range C.active.length,
        V3.dot (u i) ((C.gradientBlock x N i k).mulVec ((mid k).mulVec ((blockAt T k j).mulVec (w j)))) =
        ∑ k ∈ Finset.range C.active.length, V3.dot ((mid k).mulVec (applyRow T k w))
          ((C.gradientBlock x N i k).transpose.mulVec (u i)) := by
      intro i
      rw [Finset.sum_comm]
      refine Finset.sum_congr rfl fun k _ => ?_
      rw [← blockAt_sum T k N w hT, mulVec_finsetSum, dot_swap, dot_finsetSum]
      refine Finset.sum_congr rfl fun j _ => ?_
      rw [mulVec_dot_transpose]
    simp only [e2]
    rw [Finset.sum_comm]
    refine Finset.sum_congr rfl fun k hk => ?_
    rw [← dot_finsetSum, C.gradient_mul h x u k (Finset.mem_range.1 hk), dot_swap]
  · intro i j hq
    rw [hE]
    refine vsum_zero _ _ fun k _ => ?_
    by_cases hi : C.touches x N i k
    · have : blockAt T k j = 0 := by
        unfold blockAt
        rw [List.filter_eq_nil_iff.2 fun b hb => ?_]
        · rfl
        · simp only [decide_eq_true_eq]
          intro hc
          simp only [decide_eq_false_iff_not] at hq
          exact hq ⟨k, hi, b, hb, hc.1, hc.2⟩
      rw [this, mulVec_zero_left, mulVec_zero_right, mulVec_zero_right]
    · rw [C.gradientBlock_zero x N i k hi, mulVec_zero_left]

/-! ## Changes of the multipliers -/

/-- The friction at constraint `k` for multiplier `l`, in physical space. -/
def frictionAt (p : Friction.Params) (x v : ℕ → V3 ℝ) (l : ℝ) (k : ℕ) : V3 ℝ :=
  (C.frameAt x k).transpose.mulVec
    ⟨0, (Friction.profile (C.slide x v k) l p).x, (Friction.profile (C.slide x v k) l p).y⟩

theorem frictionCoordinates_eq (p : Friction.Params) (x v : ℕ → V3 ℝ) (l : ℝ) (k : ℕ) :
    C.frictionCoordinates p x v l k =
      ⟨0, (Friction.profile (C.slide x v k) l p).x, (Friction.profile (C.slide x v k) l p).y⟩ := by
  have e : ((C.contactBasis x).toContactCoordinates ((C.relativeVelocities x v).getD k 0) k).getD 0 =
      (C.frameAt x k).mulVec (C.rel x v k) := by
    unfold ContactBasis.toContactCoordinates frameAt rel
    cases (C.contactBasis x).contactBasisMatrix k with
    | none => simp [mulVec_zero_left]
    | some m => rfl
  unfold frictionCoordinates slide
  rw [e]

theorem fromContact_eq (x : ℕ → V3 ℝ) (a : V3 ℝ) (k : ℕ) :
    ((C.contactBasis x).fromContactCoordinates a k).getD 0 = (C.frameAt x k).transpose.mulVec a := by
  unfold ContactBasis.fromContactCoordinates frameAt
  cases (C.contactBasis x).contactBasisMatrix k with
  | none => exact (mulVec_zero_left a).symm
  | some m => rfl

theorem physicalFriction_eq (p : Friction.Params) (x v : ℕ → V3 ℝ) (dqdv : ℝ) (k : ℕ) :
    C.physicalFriction p x v dqdv k = dqdv • C.frictionAt p x v ((C.lambda x).getD k 0) k := by
  unfold physicalFriction frictionAt
  rw [fromContact_eq, frictionCoordinates_eq]

theorem frictionAt_dot (p : Friction.Params) (x v u : ℕ → V3 ℝ) (l : ℝ) (k : ℕ) :
    V3.dot (C.frictionAt p x v l k) (C.rel x u k) =
      V2.dot (Friction.profile (C.slide x v k) l p) (C.slide x u k) := by
  unfold frictionAt
  rw [mulVec_dot_transpose]
  simp [V3.dot, V2.dot, slide]

/-- The rate of the multiplier of constraint `k`. -/
def lambdaRate (x w : ℕ → V3 ℝ) (k : ℕ) : ℝ :=
  -C.kappa * ContactPenalty.ddb C.delta (C.distance x (C.contactAt k)) * C.rate x (C.contactAt k) w

theorem lambdaBlocks_form {ns N n : ℕ} (h : C.Distinct ns N) (p : Friction.Params) (x v u w : ℕ → V3 ℝ)
    (dqdv : ℝ) (hu : ∀ i, n ≤ i → u i = 0) (hw : ∀ i, n ≤ i → w i = 0) (hs : ∀ j, C.surf j < N)
    (hc : ∀ i, C.coll i < N) (hobj : C.objectFixed = true → ∀ j, w (C.surf j) = 0)
    (hcol : C.colliderFixed = true → ∀ i, w (C.coll i) = 0) :
    form (C.lambdaBlocks p x v dqdv N n) u w = ∑ k ∈ Finset.range C.active.length,
      dqdv * C.lambdaRate x w k * V2.dot (Friction.profile (C.slide x v k) 1 p) (C.slide x u k) := by
  classical
  set sc : ℕ → ℝ := fun k => -dqdv * C.kappa * ContactPenalty.ddb C.delta ((C.distances x).getD k 0)
    with hsc
  set F : ℕ → ℕ → V3 ℝ → ℕ → ℝ := fun a k g i =>
    V3.dot (u i) ((C.gradientBlock x N i k).mulVec (C.frictionAt p x v 1 k)) * (sc k * V3.dot g (w a))
    with hF
  have hval : ∀ i k (g : V3 ℝ) a, V3.dot (u i) ((C.gradientBlock x N i k *
      M3.outer (((C.contactBasis x).fromContactCoordinates (C.frictionCoordinates p x v 1 k)
        k).getD 0) (sc k • g)).mulVec (w a)) = F a k g i := by
    intro i k g a
    rw [fromContact_eq, frictionCoordinates_eq]
    change V3.dot (u i) ((C.gradientBlock x N i k *
      M3.outer (C.frictionAt p x v 1 k) (sc k • g)).mulVec (w a)) = _
    rw [M3.mul_def, M3.mulVec_mul, M3.mulVec_outer, M3.mulVec_vsmul, hF]
    simp [V3.dot]
    ring
  have e1 : form (C.lambdaBlocks p x v dqdv N n) u w =
      ∑ i ∈ Finset.range N, ((C.gradient x N).map fun e => F e.1.1 e.1.2 e.2 i).sum := by
    unfold lambdaBlocks
    rw [form_flatMap, filter_sum (List.range N), sum_range_list]
    · refine Finset.sum_congr rfl fun i _ => ?_
      rw [form_flatMap, ← rows_sum (C.gradient x N) n (fun e => F e.1.1 e.1.2 e.2 i)]
      · congr 1
        refine List.map_congr_left fun j _ => ?_
        unfold form
        rw [List.map_map, filter_sum]
        · congr 1
          refine List.map_congr_left fun e he => ?_
          have hj : e.1.1 = j := by
            unfold gradientRow at he
            simpa using (List.mem_filter.1 he).2
          rw [← hj]
          exact hval i e.1.2 e.2 e.1.1
        · intro e _ hq
          simp only [decide_eq_false_iff_not] at hq
          simp only [Function.comp]
          rw [C.gradientBlock_zero x N i e.1.2 hq, M3.mul_def, M3.mulVec_mul, mulVec_zero_left]
          simp [V3.dot]
      · intro e _ hn
        simp only [hF, hw _ hn]
        simp [V3.dot]
    · intro i _ hi
      simp only [decide_eq_false_iff_not, not_lt] at hi
      rw [form_flatMap]
      refine rsum_zero _ _ fun j _ => ?_
      unfold form
      rw [List.map_map]
      refine rsum_zero _ _ fun e _ => ?_
      simp only [Function.comp, hu i hi]
      simp [V3.dot]
  rw [e1, sum_swap, C.gradient_sum x N (fun a k g => ∑ i ∈ Finset.range N, F a k g i)
    (fun a k g g' => by
      rw [← Finset.sum_add_distrib]
      refine Finset.sum_congr rfl fun i _ => ?_
      simp only [hF, dot_add_left]
      ring) hs hc]
  have e2 : ((C.blocks x).map fun b => ∑ i ∈ Finset.range N, F b.col b.row b.val i).sum =
      power ((List.range C.active.length).map fun k =>
        V3.dot (C.frictionAt p x v 1 k) (C.rel x u k) * sc k) (C.blocks x) w := by
    unfold power
    congr 1
    refine List.map_congr_left fun b hb => ?_
    have hk := C.blocks_row_lt x b hb
    rw [range_getD _ hk, ← C.gradient_mul h x u b.row hk, dot_finsetSum, Finset.sum_mul, Finset.sum_mul]
    refine Finset.sum_congr rfl fun i _ => ?_
    simp only [hF]
    rw [dot_swap (C.frictionAt p x v 1 b.row), mulVec_dot_transpose]
    ring
  rw [e2, C.power_rate x w _ hobj hcol, list_sum_range _ ([], 0)]
  refine Finset.sum_congr rfl fun k hk => ?_
  have hk := Finset.mem_range.1 hk
  change (((List.range C.active.length).map fun k =>
        V3.dot (C.frictionAt p x v 1 k) (C.rel x u k) * sc k).getD (C.constraintOf (C.contactAt k).2) 0) *
          C.rate x (C.contactAt k) w = _
  rw [range_getD _ (C.constraintOf_lt (C.contactAt_mem hk)), C.constraintOf_contactAt hk, frictionAt_dot]
  have hd : (C.distances x).getD k 0 = C.distance x (C.contactAt k) := by
    rw [← C.distances_row x _ (C.contactAt_mem hk), C.constraintOf_contactAt hk]
  simp only [hsc, hd, lambdaRate]
  ring

/-! ## Changes of the frames -/

theorem zipIdx_contactAt {k : ℕ} (hk : k < C.active.length) : (C.contactAt k, k) ∈ C.active.zipIdx := by
  rw [C.contactAt_eq hk, List.mem_iff_getElem]
  exact ⟨k, by simpa using hk, by simp⟩

/-- Rows of a matrix that is given contact by contact. -/
theorem applyRow_flatMap (F : List ℕ × ℕ → List MBlock) (hF : ∀ p, ∀ b ∈ F p, b.row = C.constraintOf p.2)
    {k : ℕ} (hk : k < C.active.length) (w : ℕ → V3 ℝ) :
    applyRow (C.active.flatMap F) k w =
      ((F (C.contactAt k)).map fun b => b.val.mulVec (w b.col)).sum := by
  unfold applyRow
  rw [filter_flatMap_row F (fun p => C.constraintOf p.2) hF C.active 0 C.active_keys (C.contactAt k, k)
    (C.zipIdx_contactAt hk)]

theorem applyRow_basis (x : ℕ → V3 ℝ) (m : ℕ → V3 ℝ) (tr : Bool) {n k : ℕ} (hk : k < C.active.length)
    (w : ℕ → V3 ℝ) (hw : ∀ i, n ≤ i → w i = 0) :
    applyRow (C.basisTriplets x m tr n) k w =
      if tr then (contactRate ((C.contactNormals x).getD k 0) (C.gradAt x k) (C.gradRate x w k)).mulVec (m k)
      else (contactRate ((C.contactNormals x).getD k 0) (C.gradAt x k)
        (C.gradRate x w k)).transpose.mulVec (m k) := by
  unfold basisTriplets
  rw [applyRow_filter _ _ _ _ fun b _ hb => hw _ (by simpa using hb)]
  set blk : List ℕ × ℕ → M3 ℝ → M3 ℝ := fun p h => basisJacobianProduct
    ((C.contactNormals x).getD (C.constraintOf p.2) 0)
    ((queryJacobianAt (C.query x p.2) p.1 (C.samples x) (some (C.closest p.2)) C.kernel params).getD 0) h
    (m (C.constraintOf p.2)) tr with hblk
  have e : C.basisJacobian x m tr = (C.active.flatMap fun p => [MBlock.mk (C.constraintOf p.2) (C.coll p.2)
      (blk p ((queryHessianAt (C.query x p.2) p.1 (C.samples x) C.kernel params).getD 0))]) ++
      C.active.flatMap fun p => ((sampleQueryHessianAt (C.query x p.2) p.1 (C.samples x) C.kernel C.tris
        (fun j => x (C.surf j)) params 1).getD []).map fun e => MBlock.mk (C.constraintOf p.2)
          (C.surf e.1) (blk p e.2) := by
    unfold basisJacobian gradientJacobian
    rw [List.map_append, List.map_map, List.map_flatMap]
    congr 1
    · generalize C.active = L
      induction L with
      | nil => rfl
      | cons a L ih => rw [List.map_cons, List.flatMap_cons, ih]; rfl
    · congr 1
      funext p
      rw [List.map_map]
      rfl
  rw [e, applyRow_append, C.applyRow_flatMap _ (by intro p b hb; rw [List.mem_singleton.1 hb]) hk,
    C.applyRow_flatMap _ (by
      intro p b hb
      obtain ⟨e, -, rfl⟩ := List.mem_map.1 hb
      rfl) hk, List.map_map, List.map_singleton, List.sum_singleton]
  unfold gradRate applyMixed
  rw [contactRate_add, contactRate_listSum]
  have hg : (queryJacobianAt (C.query x (C.contactAt k).2) (C.contactAt k).1 (C.samples x)
    (some (C.closest (C.contactAt k).2)) C.kernel params).getD 0 = C.gradAt x k := rfl
  simp only [hblk, hg, C.constraintOf_contactAt hk, Function.comp_def]
  cases tr with
  | true =>
    simp only [if_true, basisProduct_true]
    rw [M3.mulVec_add, mulVec_listSum]
  | false =>
    simp only [Bool.false_eq_true, if_false, basisProduct_false]
    rw [M3.transpose_add, M3.mulVec_add, transpose_listSum, mulVec_listSum]

theorem gradRate_smul (x w : ℕ → V3 ℝ) (c : ℝ) (k : ℕ) :
    C.gradRate x (fun i => c • w i) k = c • C.gradRate x w k := by
  unfold gradRate applyMixed
  simp only [M3.mulVec_vsmul]
  rw [smul_add]
  congr 1
  induction ((sampleQueryHessianAt (C.query x (C.contactAt k).2) (C.contactAt k).1 (C.samples x) C.kernel
    C.tris (fun j => x (C.surf j)) params 1).getD []) with
  | nil => ext <;> simp
  | cons e L ih => rw [List.map_cons, List.sum_cons, ih, List.map_cons, List.sum_cons, smul_add]

/-! ## Changes of the contact Jacobian -/

theorem vsmul_sum {β : Type*} (L : List β) (f : β → V3 ℝ) (c : ℝ) :
    (L.map fun b => c • f b).sum = c • (L.map f).sum := by
  induction L with
  | nil => ext <;> simp
  | cons e L ih => rw [List.map_cons, List.sum_cons, ih, List.map_cons, List.sum_cons, smul_add]

theorem relRate_smul (x b w : ℕ → V3 ℝ) (c : ℝ) (k : ℕ) :
    C.relRate x b (fun i => c • w i) k = c • C.relRate x b w k := by
  unfold relRate
  simp only [M3.mulVec_vsmul, vsmul_sum, smul_add]

theorem rodriguesProduct_zero (n g : V3 ℝ) (A B : M3 ℝ) (d : ℝ) (tr : Bool) :
    rodriguesJacobianProduct n g A B d 0 tr = 0 := by
  unfold rodriguesJacobianProduct
  simp only
  generalize (if 1 + d = 0 then (0 : ℝ) else 1 / (1 + d)) = f
  cases tr <;> (ext <;> simp [V3.cross, M3.outer])

theorem outer_zero (a : V3 ℝ) : M3.outer a 0 = 0 := by
  ext <;> simp [M3.outer]

theorem sampleProduct_zero (b : Bg) (x : ℕ → V3 ℝ) (tris : ℕ → Tri) (g : V3 ℝ) (wsi : ℝ) (s : ℕ)
    (tr : Bool) : ∀ e ∈ sampleContactProduct b x tris g wsi s 0 tr, e.2 = 0 := by
  have hs : ∀ c : ℝ, c • (0 : V3 ℝ) = 0 := fun c => by ext <;> simp
  have hsm : ∀ c : ℝ, c • (0 : M3 ℝ) = 0 := fun c => by ext <;> simp
  have ha : (0 : M3 ℝ) + 0 = 0 := by ext <;> simp
  intro e he
  unfold sampleContactProduct at he
  simp only [mulVec_zero_right, outer_zero, rodriguesProduct_zero, hs, hsm, ha, List.mem_append,
    List.mem_map] at he
  rcases he with (⟨j, -, rfl⟩ | ⟨j, -, rfl⟩) | ⟨j, -, rfl⟩ <;> rfl

theorem queryProduct_zero (b : Bg) (g d : V3 ℝ) (H : M3 ℝ) (wsi : ℝ) (s : ℕ) (tr : Bool) :
    queryContactProduct b g d H wsi s 0 tr = 0 := by
  have hsm : ∀ c : ℝ, c • (0 : M3 ℝ) = 0 := fun c => by ext <;> simp
  have ha : (0 : M3 ℝ) + 0 = 0 := by ext <;> simp
  unfold queryContactProduct
  simp only [mulVec_zero_right, outer_zero, rodriguesProduct_zero, hsm, ha]

theorem sampleMultiplier_zero (tris : ℕ → Tri) (m : ℕ → V3 ℝ) (h : ∀ j, m j = 0) (s : ℕ) :
    sampleMultiplier tris m s = 0 := by
  unfold sampleMultiplier
  rw [vsum_zero _ _ fun j _ => h _]
  ext <;> simp

theorem velocity_zero {q : V3 ℝ} {view : List ℕ} {S : Samples} {k : Kern} {tris : ℕ → Tri} {x : ℕ → V3 ℝ}
    {P : BgParams} {m : ℕ → V3 ℝ} (h : ∀ j, m j = 0) :
    ∀ e ∈ (contactJacobianJacobianAt q view S k tris x P m).getD [], e.2 = 0 := by
  intro e he
  unfold contactJacobianJacobianAt at he
  cases hb : Bg.local q view S k P none with
  | none => simp [hb] at he
  | some b =>
    cases hg : queryJacobianAt q view S none k P with
    | none => simp [hb, hg] at he
    | some g =>
      rw [hb, hg] at he
      simp only [Option.bind_some, Option.map_some, Option.getD_some, List.mem_flatMap] at he
      obtain ⟨s, -, he⟩ := he
      rw [sampleMultiplier_zero tris m h] at he
      exact sampleProduct_zero _ _ _ _ _ _ _ e he

theorem queryVelocity_zero {q : V3 ℝ} {view : List ℕ} {S : Samples} {k : Kern} {tris : ℕ → Tri}
    {P : BgParams} {m : ℕ → V3 ℝ} (h : ∀ j, m j = 0) :
    ∀ e ∈ (contactQueryJacobianJacobianAt q view S k tris P m).getD [], e = 0 := by
  intro e he
  unfold contactQueryJacobianJacobianAt at he
  cases hb : Bg.local q view S k P none with
  | none => simp [hb] at he
  | some b =>
    cases hg : queryJacobianAt q view S none k P with
    | none => simp [hb, hg] at he
    | some g =>
      cases hH : queryHessianAt q view S k P with
      | none => simp [hb, hg, hH] at he
      | some H =>
        rw [hb, hg, hH] at he
        simp only [Option.bind_some, Option.map_some, Option.getD_some, List.mem_map] at he
        obtain ⟨s, -, rfl⟩ := he
        rw [sampleMultiplier_zero tris m h]
        exact queryProduct_zero _ _ _ _ _ _ _

theorem force_zero {q : V3 ℝ} {view : List ℕ} {S : Samples} {k : Kern} {tris : ℕ → Tri} {x : ℕ → V3 ℝ}
    {P : BgParams} : ∀ e ∈ (contactHessianAt q view S k tris x P 0).getD [], e.val = 0 := by
  have hsm : ∀ c : ℝ, c • (0 : M3 ℝ) = 0 := fun c => by ext <;> simp
  intro e he
  unfold contactHessianAt at he
  cases hb : Bg.local q view S k P none with
  | none => simp [hb] at he
  | some b =>
    cases hg : queryJacobianAt q view S none k P with
    | none => simp [hb, hg] at he
    | some g =>
      rw [hb, hg] at he
      simp only [Option.bind_some, Option.map_some, Option.getD_some, List.mem_flatMap, List.mem_map] at he
      obtain ⟨s, -, i, -, e', he, rfl⟩ := he
      rw [sampleProduct_zero _ _ _ _ _ _ _ e' he]
      exact hsm _

theorem queryForce_zero {q : V3 ℝ} {view : List ℕ} {S : Samples} {k : Kern} {tris : ℕ → Tri}
    {P : BgParams} : ∀ e ∈ (contactQueryHessianAt q view S k tris P 0).getD [], e.2 = 0 := by
  have hsm : ∀ c : ℝ, c • (0 : M3 ℝ) = 0 := fun c => by ext <;> simp
  intro e he
  unfold contactQueryHessianAt at he
  cases hb : Bg.local q view S k P none with
  | none => simp [hb] at he
  | some b =>
    cases hg : queryJacobianAt q view S none k P with
    | none => simp [hb, hg] at he
    | some g =>
      cases hH : queryHessianAt q view S k P with
      | none => simp [hb, hg, hH] at he
      | some H =>
        rw [hb, hg, hH] at he
        simp only [Option.bind_some, Option.map_some, Option.getD_some, List.mem_flatMap,
          List.mem_map] at he
        obtain ⟨s, -, j, -, rfl⟩ := he
        rw [queryProduct_zero]
        exact hsm _

theorem sampleProduct_keys (b : Bg) (x : ℕ → V3 ℝ) (tris : ℕ → Tri) (g : V3 ℝ) (wsi : ℝ) (s : ℕ)
    (m m' : V3 ℝ) (tr : Bool) : (sampleContactProduct b x tris g wsi s m tr).map Prod.fst =
      (sampleContactProduct b x tris g wsi s m' tr).map Prod.fst := by
  unfold sampleContactProduct
  simp only [List.map_append, List.map_map]
  rfl

theorem velocity_keys (q : V3 ℝ) (view : List ℕ) (S : Samples) (k : Kern) (tris : ℕ → Tri) (x : ℕ → V3 ℝ)
    (P : BgParams) (m m' : ℕ → V3 ℝ) :
    ((contactJacobianJacobianAt q view S k tris x P m).getD []).map Prod.fst =
      ((contactJacobianJacobianAt q view S k tris x P m').getD []).map Prod.fst := by
  unfold contactJacobianJacobianAt
  cases Bg.local q view S k P none with
  | none => rfl
  | some b =>
    cases queryJacobianAt q view S none k P with
    | none => rfl
    | some g =>
      simp only [Option.bind_some, Option.map_some, Option.getD_some, List.map_flatMap]
      congr 1
      funext s
      exact sampleProduct_keys _ _ _ _ _ _ _ _ _

theorem queryVelocity_length (q : V3 ℝ) (view : List ℕ) (S : Samples) (k : Kern) (tris : ℕ → Tri)
    (P : BgParams) (m m' : ℕ → V3 ℝ) :
    ((contactQueryJacobianJacobianAt q view S k tris P m).getD []).length =
      ((contactQueryJacobianJacobianAt q view S k tris P m').getD []).length := by
  unfold contactQueryJacobianJacobianAt
  cases Bg.local q view S k P none with
  | none => rfl
  | some b =>
    cases queryJacobianAt q view S none k P with
    | none => rfl
    | some g =>
      cases queryHessianAt q view S k P with
      | none => rfl
      | some H => simp

theorem force_keys (q : V3 ℝ) (view : List ℕ) (S : Samples) (k : Kern) (tris : ℕ → Tri) (x : ℕ → V3 ℝ)
    (P : BgParams) (m m' : V3 ℝ) :
    ((contactHessianAt q view S k tris x P m).getD []).map (fun b => (b.row, b.col)) =
      ((contactHessianAt q view S k tris x P m').getD []).map fun b => (b.row, b.col) := by
  unfold contactHessianAt
  cases Bg.local q view S k P none with
  | none => rfl
  | some b =>
    cases queryJacobianAt q view S none k P with
    | none => rfl
    | some g =>
      simp only [Option.bind_some, Option.map_some, Option.getD_some, List.map_flatMap, List.map_map]
      congr 1
      funext s
      congr 1
      funext i
      have h := congrArg (List.map fun v => ((tris s).get i, v)) (sampleProduct_keys b x tris g
        (weightNmlSumInv k b.dist q view S g) s m m' true)
      rw [List.map_map, List.map_map] at h
      exact h

theorem queryForce_keys (q : V3 ℝ) (view : List ℕ) (S : Samples) (k : Kern) (tris : ℕ → Tri)
    (P : BgParams) (m m' : V3 ℝ) :
    ((contactQueryHessianAt q view S k tris P m).getD []).map Prod.fst =
      ((contactQueryHessianAt q view S k tris P m').getD []).map Prod.fst := by
  unfold contactQueryHessianAt
  cases Bg.local q view S k P none with
  | none => rfl
  | some b =>
    cases queryJacobianAt q view S none k P with
    | none => rfl
    | some g =>
      cases queryHessianAt q view S k P with
      | none => rfl
      | some H =>
        simp only [Option.bind_some, Option.map_some, Option.getD_some, List.map_flatMap, List.map_map]
        rfl

end Pair

end Softy.Contact
