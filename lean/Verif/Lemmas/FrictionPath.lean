import Verif.Lemmas.FrictionJacobian
import Verif.Props.LaggedFriction
import Verif.Props.ContactHessian

/-!
# The power of friction at one contact, along a path
-/

noncomputable section

namespace Softy.Contact

open Softy Softy.Kernel Softy.Field

/-! ## Products of matrices and vectors that both move -/

theorem hasD_listSum {β : Type*} (L : List β) (f : β → ℝ → V3 ℝ) (f' : β → V3 ℝ) {t : ℝ}
    (h : ∀ b ∈ L, HasD (f b) (f' b) t) :
    HasD (fun s => (L.map fun b => f b s).sum) (L.map f').sum t := by
  induction L with
  | nil => exact HasD.const 0
  | cons b L ih =>
    simp only [List.map_cons, List.sum_cons]
    exact (h b List.mem_cons_self).add (ih fun c hc => h c (List.mem_cons_of_mem _ hc))

theorem hasD_unique {f : ℝ → V3 ℝ} {a b : V3 ℝ} {t : ℝ} (h : HasD f a t) (h' : HasD f b t) : a = b := by
  ext
  · exact h.1.unique h'.1
  · exact h.2.1.unique h'.2.1
  · exact h.2.2.unique h'.2.2

theorem mulVec_columns (m : M3 ℝ) (a : V3 ℝ) :
    m.mulVec a = a.x • m.mulVec ⟨1, 0, 0⟩ + a.y • m.mulVec ⟨0, 1, 0⟩ + a.z • m.mulVec ⟨0, 0, 1⟩ := by
  ext <;> simp [M3.mulVec, V3.dot] <;> ring

theorem hasDM_mulVec {m : ℝ → M3 ℝ} {m' : M3 ℝ} {f : ℝ → V3 ℝ} {f' : V3 ℝ} {t : ℝ} (hm : HasDM m m' t)
    (hf : HasD f f' t) : HasD (fun s => (m s).mulVec (f s)) (m'.mulVec (f t) + (m t).mulVec f') t :=
  ⟨hm.1.dot hf, hm.2.1.dot hf, hm.2.2.dot hf⟩

theorem v3_range_sum (N : ℕ) (f : ℕ → V3 ℝ) :
    ((List.range N).map f).sum = ∑ j ∈ Finset.range N, f j := by
  induction N with
  | zero => rfl
  | succ N ih => rw [List.range_succ, List.map_append, List.sum_append, ih, Finset.sum_range_succ]; simp

/-- The product rule for a linear map whose values on constant vectors have derivatives. -/
theorem product_path (N : ℕ) (M : ℝ → ℕ → M3 ℝ) (R : ℝ → (ℕ → V3 ℝ) → V3 ℝ)
    (hR : ∀ s b, ∑ j ∈ Finset.range N, (M s j).mulVec (b j) = R s b) (D : (ℕ → V3 ℝ) → V3 ℝ) {t : ℝ}
    (hD : ∀ b, HasD (fun s => R s b) (D b) t) (v : ℝ → ℕ → V3 ℝ) (w : ℕ → V3 ℝ)
    (hv : ∀ i, HasD (fun s => v s i) (w i) t) :
    HasD (fun s => R s (v s)) (D (v t) + R t w) t := by
  have hone : ∀ j < N, ∀ a, HasD (fun s => (M s j).mulVec a) (D (Pi.single j a)) t := by
    intro j hj a
    refine (hD (Pi.single j a)).congr_of_eventuallyEq (Filter.Eventually.of_forall fun s => ?_)
    rw [← hR, Finset.sum_eq_single j]
    · rw [Pi.single_eq_same]
    · intro i _ hi
      rw [Pi.single_eq_of_ne hi]
      exact Pair.mulVec_zero_right _
    · intro h
      exact absurd (Finset.mem_range.2 hj) h
  obtain ⟨E, hE⟩ : ∃ E : ℕ → V3 ℝ → V3 ℝ, ∀ j, ∀ a, j < N → HasD (fun s => (M s j).mulVec a) (E j a) t :=
    ⟨fun j a => D (Pi.single j a), fun j a hj => hone j hj a⟩
  have hprod : ∀ j < N, ∃ e, HasD (fun s => (M s j).mulVec (v t j)) e t ∧
      HasD (fun s => (M s j).mulVec (v s j)) (e + (M t j).mulVec (w j)) t := by
    intro j hj
    have h1 := hE j ⟨1, 0, 0⟩ hj
    have h2 := hE j ⟨0, 1, 0⟩ hj
    have h3 := hE j ⟨0, 0, 1⟩ hj
    refine ⟨(v t j).x • E j ⟨1, 0, 0⟩ + (v t j).y • E j ⟨0, 1, 0⟩ + (v t j).z • E j ⟨0, 0, 1⟩, ?_, ?_⟩
    · refine ((((HasD.smul (hasDerivAt_const t (v t j).x) h1).add
        (HasD.smul (hasDerivAt_const t (v t j).y) h2)).add
        (HasD.smul (hasDerivAt_const t (v t j).z) h3)).congr_of_eventuallyEq
          (Filter.Eventually.of_forall fun s => mulVec_columns _ _)).congr ?_
      ext <;> simp
    · refine ((((HasD.smul (hv j).1 h1).add (HasD.smul (hv j).2.1 h2)).add
        (HasD.smul (hv j).2.2 h3)).congr_of_eventuallyEq
          (Filter.Eventually.of_forall fun s => mulVec_columns _ _)).congr ?_
      rw [mulVec_columns (M t j) (w j)]
      abel
  have hex : ∀ j, ∃ e, j < N → HasD (fun s => (M s j).mulVec (v t j)) e t ∧
      HasD (fun s => (M s j).mulVec (v s j)) (e + (M t j).mulVec (w j)) t := by
    intro j
    by_cases hj : j < N
    · obtain ⟨e, he⟩ := hprod j hj
      exact ⟨e, fun _ => he⟩
    · exact ⟨0, fun h => absurd h hj⟩
  choose e he using hex
  have hs1 : HasD (fun s => ((List.range N).map fun j => (M s j).mulVec (v t j)).sum)
      ((List.range N).map e).sum t :=
    hasD_listSum _ (fun j s => (M s j).mulVec (v t j)) e fun j hj => (he j (List.mem_range.1 hj)).1
  have hs2 : HasD (fun s => ((List.range N).map fun j => (M s j).mulVec (v s j)).sum)
      ((List.range N).map fun j => e j + (M t j).mulVec (w j)).sum t :=
    hasD_listSum _ (fun j s => (M s j).mulVec (v s j)) _ fun j hj => (he j (List.mem_range.1 hj)).2
  have hl := v3_range_sum N
  simp only [hl] at hs1 hs2
  simp only [hR] at hs1 hs2
  rw [Finset.sum_add_distrib, hR] at hs2
  rw [hasD_unique (hD (v t)) hs1]
  exact hs2

namespace Pair

variable (C : Pair)

/-! ## Contacts by number -/

/-- Contact number `k`. -/
def contactAt (k : ℕ) : List ℕ × ℕ := C.active.getD k ([], 0)

theorem contactAt_eq {k : ℕ} (hk : k < C.active.length) : C.contactAt k = C.active[k] :=
  List.getD_eq_getElem _ _ hk

theorem contactAt_mem {k : ℕ} (hk : k < C.active.length) : C.contactAt k ∈ C.active := by
  rw [C.contactAt_eq hk]
  exact List.getElem_mem hk

theorem constraintOf_contactAt {k : ℕ} (hk : k < C.active.length) :
    C.constraintOf (C.contactAt k).2 = k := by
  have h : (C.active.map fun p => C.constraintOf p.2)[k]'(by simpa using hk) = k := by
    simp only [C.constraintOf_active, List.getElem_range]
  rw [C.contactAt_eq hk]
  simpa using h

theorem rel_eq (x b : ℕ → V3 ℝ) {k : ℕ} (hk : k < C.active.length) :
    C.rel x b k = carried ((contactJacobianAt (C.query x (C.contactAt k).2) (C.contactAt k).1
        (C.samples x) C.kernel params).getD []) (C.contactAt k).1 C.tris (fun j => b (C.surf j)) -
      b (C.coll (C.contactAt k).2) := by
  unfold rel
  rw [relativeVelocities_eq, List.getD_eq_getElem _ _ (by simpa using hk), List.getElem_map,
    C.contactAt_eq hk]
  rfl

/-- What the code gives for the derivative of the relative velocity at constraint `k`, for constant
velocities `b`, as the vertices move at rates `w`. -/
def relRate (x b w : ℕ → V3 ℝ) (k : ℕ) : V3 ℝ :=
  (((contactJacobianJacobianAt (C.query x (C.contactAt k).2) (C.contactAt k).1 (C.samples x) C.kernel C.tris
      (fun j => x (C.surf j)) params fun j => b (C.surf j)).getD []).map fun e =>
        e.2.transpose.mulVec (w (C.surf e.1))).sum +
    (((contactQueryJacobianJacobianAt (C.query x (C.contactAt k).2) (C.contactAt k).1 (C.samples x) C.kernel
      C.tris params fun j => b (C.surf j)).getD []).map fun m =>
        m.transpose.mulVec (w (C.coll (C.contactAt k).2))).sum

/-- No normal of a sample opposes the gradient of the potential. -/
def Unopposed (x : ℕ → V3 ℝ) (p : List ℕ × ℕ) : Prop :=
  ∀ g, queryJacobianAt (C.query x p.2) p.1 (C.samples x) none C.kernel params = some g →
    ∀ i ∈ p.1, V3.dot (unitNormal (C.samples x) i) g ≠ -1

theorem rel_const_hasD {x : ℝ → ℕ → V3 ℝ} {w : ℕ → V3 ℝ} {t : ℝ} (hx : ∀ i, HasD (fun s => x s i) (w i) t)
    {k c : ℕ} (hk : k < C.active.length) (hsm : Smooth C.kernel params (C.query (x t) (C.contactAt k).2)
      (C.contactAt k).1 (C.samples (x t)) c) (hop : C.Unopposed (x t) (C.contactAt k)) (b : ℕ → V3 ℝ) :
    HasD (fun s => C.rel (x s) b k) (C.relRate (x t) b w k) t := by
  obtain ⟨A, B, hA, hB, hd⟩ := contact_velocity_derivative_partial (k := C.kernel) (P := params)
    (t := t) (fun s => C.query (x s) (C.contactAt k).2) (w (C.coll (C.contactAt k).2)) C.tris C.value
    (fun s j => x s (C.surf j)) (fun j => w (C.surf j)) (hx _) (fun _ => hx _) hsm rfl hop
    fun j => b (C.surf j)
  have e : C.relRate (x t) b w k = (A.map fun e => e.2.transpose.mulVec (w (C.surf e.1))).sum +
      (B.map fun m => m.transpose.mulVec (w (C.coll (C.contactAt k).2))).sum := by
    unfold relRate
    rw [show contactJacobianJacobianAt (C.query (x t) (C.contactAt k).2) (C.contactAt k).1 (C.samples (x t))
      C.kernel C.tris (fun j => x t (C.surf j)) params (fun j => b (C.surf j)) = some A from hA,
      show contactQueryJacobianJacobianAt (C.query (x t) (C.contactAt k).2) (C.contactAt k).1
        (C.samples (x t)) C.kernel C.tris params (fun j => b (C.surf j)) = some B from hB]
    rfl
  rw [e]
  refine ((hd.sub (HasD.const (b (C.coll (C.contactAt k).2)))).congr_of_eventuallyEq
    (Filter.Eventually.of_forall fun s => ?_)).congr (sub_zero _)
  exact C.rel_eq (x s) b hk

theorem rel_path {ns N : ℕ} (h : C.Distinct ns N) {x v : ℝ → ℕ → V3 ℝ} {x' v' : ℕ → V3 ℝ} {t : ℝ}
    (hx : ∀ i, HasD (fun s => x s i) (x' i) t) (hv : ∀ i, HasD (fun s => v s i) (v' i) t)
    {k c : ℕ} (hk : k < C.active.length) (hsm : Smooth C.kernel params (C.query (x t) (C.contactAt k).2)
      (C.contactAt k).1 (C.samples (x t)) c) (hop : C.Unopposed (x t) (C.contactAt k)) :
    HasD (fun s => C.rel (x s) (v s) k) (C.relRate (x t) (v t) x' k + C.rel (x t) v' k) t :=
  product_path N (fun s j => (C.gradientBlock (x s) N j k).transpose) (fun s b => C.rel (x s) b k)
    (fun s b => C.gradient_mul h (x s) b k hk) (fun b => C.relRate (x t) b x' k)
    (fun b => C.rel_const_hasD hx hk hsm hop b) v v' hv

/-! ## Frames -/

/-- The gradient of the potential at constraint `k`. -/
def gradAt (x : ℕ → V3 ℝ) (k : ℕ) : V3 ℝ :=
  (queryJacobianAt (C.query x (C.contactAt k).2) (C.contactAt k).1 (C.samples x)
    (some (C.closest (C.contactAt k).2)) C.kernel params).getD 0

/-- What the code gives for the derivative of this gradient. -/
def gradRate (x w : ℕ → V3 ℝ) (k : ℕ) : V3 ℝ :=
  ((queryHessianAt (C.query x (C.contactAt k).2) (C.contactAt k).1 (C.samples x) C.kernel params).getD
      0).mulVec (w (C.coll (C.contactAt k).2)) +
    applyMixed ((sampleQueryHessianAt (C.query x (C.contactAt k).2) (C.contactAt k).1 (C.samples x) C.kernel
      C.tris (fun j => x (C.surf j)) params 1).getD []) fun j => w (C.surf j)

theorem gradAt_hasD {x : ℝ → ℕ → V3 ℝ} {w : ℕ → V3 ℝ} {t : ℝ} (hx : ∀ i, HasD (fun s => x s i) (w i) t)
    {k c : ℕ} (hsm : Smooth C.kernel params (C.query (x t) (C.contactAt k).2)
      (C.contactAt k).1 (C.samples (x t)) c)
    (hin : ∀ r, C.kernel.radius = some r →
      (C.query (x t) (C.contactAt k).2 - (C.samples (x t)).pos c).norm ≤ r) :
    HasD (fun s => C.gradAt (x s) k) (C.gradRate (x t) w k) t := by
  have hs : Silent C.kernel params
      (C.query (x t) (C.contactAt k).2 - (C.samples (x t)).pos c).norm := by
    right
    rintro (⟨r, hr, hlt⟩ | hwt)
    · exact absurd hlt (not_lt.2 (hin r hr))
    · simp [params] at hwt
  obtain ⟨H, M, B, hH, hM, -, hd⟩ := joint_hessian_partial (t := t)
    (fun s => C.query (x s) (C.contactAt k).2) (w (C.coll (C.contactAt k).2)) C.tris C.value
    (fun s j => x s (C.surf j)) (fun j => w (C.surf j)) (some (C.closest (C.contactAt k).2)) (hx _)
    (fun _ => hx _) hsm 1 (.inr hs)
  have e : C.gradRate (x t) w k = H.mulVec (w (C.coll (C.contactAt k).2)) +
      applyMixed M fun j => w (C.surf j) := by
    unfold gradRate
    rw [show queryHessianAt (C.query (x t) (C.contactAt k).2) (C.contactAt k).1 (C.samples (x t)) C.kernel
      params = some H from hH, show sampleQueryHessianAt (C.query (x t) (C.contactAt k).2)
        (C.contactAt k).1 (C.samples (x t)) C.kernel C.tris (fun j => x t (C.surf j)) params 1 = some M
          from hM]
    rfl
  rw [e]
  refine hasD_of_dot fun d => ?_
  have := hd d fun _ => 0
  simp only [applyBlocks_zero, add_zero, one_mul, quadBlocks_zero, applyMixed_zero] at this
  refine (this.congr_of_eventuallyEq (Filter.Eventually.of_forall fun s => ?_)).congr_deriv ?_
  · exact dot_swap _ _
  · rw [Field.dot_add_right]
    simp [V3.dot]

/-- The normal of constraint `k`. -/
def normalAt (x : ℕ → V3 ℝ) (k : ℕ) : V3 ℝ := (1 / -(C.gradAt x k).norm) • C.gradAt x k

theorem norm_pos' {g : V3 ℝ} (h : g ≠ 0) : 0 < g.norm := by
  have := norm_pos_of_ne h
  rwa [sub_zero] at this

theorem contactNormals_getD (x : ℕ → V3 ℝ) {k : ℕ} (hk : k < C.active.length) (hg : C.gradAt x k ≠ 0) :
    (C.contactNormals x).getD k 0 = C.normalAt x k := by
  have hl : k < (C.contactNormals x).length := by simpa [contactNormals, queryBlocks] using hk
  rw [List.getD_eq_getElem _ _ hl]
  have e : (C.contactNormals x)[k] =
      if (C.gradAt x k).norm > 0 then (1 / -(C.gradAt x k).norm) • C.gradAt x k else C.gradAt x k := by
    simp only [contactNormals, queryBlocks, List.getElem_map, ← C.contactAt_eq hk]
    rfl
  rw [e]
  exact if_pos (norm_pos' hg)

theorem frameAt_eq (x : ℕ → V3 ℝ) {k : ℕ} (hk : k < C.active.length) (hg : C.gradAt x k ≠ 0) :
    C.frameAt x k = frameAlong (((C.normalAt x k).iamax + 1) % 3) (C.normalAt x k) := by
  have hl : k < (C.contactNormals x).length := by simpa [contactNormals, queryBlocks] using hk
  unfold frameAt contactBasis
  rw [ContactBasis.matrix_of_lt hl, Option.getD_some, ← List.getD_eq_getElem _ 0 hl,
    C.contactNormals_getD x hk hg]
  rfl

theorem slide_eq (x v : ℕ → V3 ℝ) (k : ℕ) : C.slide x v k = tangential (C.frameAt x k) (C.rel x v k) := rfl

theorem normal_eventually {n : ℝ → V3 ℝ} {n' : V3 ℝ} {t : ℝ} (h : HasD n n' t) {a : ℕ}
    (ha : (n t).getN a ^ 2 < 1) : ∀ᶠ s in nhds t, (n s).getN a ^ 2 < 1 :=
  (((getN_hasD h a).continuousAt.pow 2).eventually_lt continuousAt_const ha)

theorem ne_eventually {g : ℝ → V3 ℝ} {g' : V3 ℝ} {t : ℝ} (h : HasD g g' t) (h0 : g t ≠ 0) :
    ∀ᶠ s in nhds t, g s ≠ 0 := by
  have hp : 0 < V3.dot (g t) (g t) :=
    lt_of_le_of_ne (V3.dot_self_nonneg _) fun e => h0 (V3.dot_self_eq_zero.1 e.symm)
  have hc : ContinuousAt (fun s => V3.dot (g s) (g s)) t := (h.dot h).continuousAt
  filter_upwards [continuousAt_const.eventually_lt hc hp] with s hs e
  rw [e] at hs
  simp [V3.dot] at hs

/-- The frame of constraint `k` may be replaced by one that has derivatives. -/
theorem frame_path {x : ℝ → ℕ → V3 ℝ} {g' : V3 ℝ} {t : ℝ} {k : ℕ} (hk : k < C.active.length)
    (hgd : HasD (fun s => C.gradAt (x s) k) g' t) (hg : C.gradAt (x t) k ≠ 0) :
    ∃ F : ℝ → M3 ℝ, F t = C.frameAt (x t) k ∧
      HasDM F (contactRate (C.normalAt (x t) k) (C.gradAt (x t) k) g') t ∧
      ∀ᶠ s in nhds t, ∀ v u l p,
        V2.dot (Friction.profile (C.slide (x s) v k) l p) (C.slide (x s) u k) =
          V2.dot (Friction.profile (tangential (F s) (C.rel (x s) v k)) l p)
            (tangential (F s) (C.rel (x s) u k)) := by
  have hn : HasD (fun s => C.normalAt (x s) k)
      (normalRate (C.normalAt (x t) k) (C.gradAt (x t) k) g') t := normalRate_hasD hgd hg
  have hu : (C.normalAt (x t) k).dot (C.normalAt (x t) k) = 1 := unit_normal_dot hg
  have hsmall := ContactBasis.axis_small hu
  have ha3 : ((C.normalAt (x t) k).iamax + 1) % 3 < 3 := Nat.mod_lt _ (by norm_num)
  refine ⟨fun s => frameAlong (((C.normalAt (x t) k).iamax + 1) % 3) (C.normalAt (x s) k),
    (C.frameAt_eq (x t) hk hg).symm, ?_, ?_⟩
  · refine frameAlong_hasD hn _ fun e => ?_
    have := (ContactBasis.tangent_raw hu ha3).1
    rw [e] at this
    simp only [V3.dot, V3.zero_x, V3.zero_y, V3.zero_z, mul_zero, add_zero] at this
    linarith
  · filter_upwards [ne_eventually hgd hg, normal_eventually hn (a := ((C.normalAt (x t) k).iamax + 1) % 3)
      (by linarith)] with s hs hs' v u l p
    have hus : (C.normalAt (x s) k).dot (C.normalAt (x s) k) = 1 := unit_normal_dot hs
    rw [slide_eq, slide_eq, C.frameAt_eq (x s) hk hs]
    exact profile_frames (frameAlong_isFrame hus (Nat.mod_lt _ (by norm_num))
      (by have := ContactBasis.axis_small hus; linarith)) (frameAlong_isFrame hus ha3 hs') _ _ l p

/-! ## Power -/

theorem profile_scale (V : V2 ℝ) (l m : ℝ) (p : Friction.Params) :
    Friction.profile V m p =
      Friction.profile V l p + (m - l) • (Friction.profile V 1 p - p.viscousFriction • V) := by
  simp only [Friction.profile_eq, Friction.eta]
  ext <;> simp <;> ring

/-- The derivative of the power of friction in terms of frames and velocities that move. -/
theorem power_path (p : Friction.Params) (hp : p.Valid) {F : ℝ → M3 ℝ}
    {F' : M3 ℝ} {r q : ℝ → V3 ℝ} {r' q' : V3 ℝ} {l : ℝ → ℝ} {l' t : ℝ} (hF : HasDM F F' t)
    (hr : HasD r r' t) (hq : HasD q q' t) (hl : HasDerivAt l l' t)
    (hst : SteadyAt p (tangential (F t) (r t)).norm) :
    HasDerivAt (fun s => V2.dot (Friction.profile (tangential (F s) (r s)) (l s) p)
        (tangential (F s) (q s)))
      (l' * (V2.dot (Friction.profile (tangential (F t) (r t)) 1 p) (tangential (F t) (q t)) -
          p.viscousFriction * V2.dot (tangential (F t) (r t)) (tangential (F t) (q t))) +
        V2.dot (Friction.profile (tangential (F t) (r t)) (l t) p)
          (tangential F' (q t) + tangential (F t) q') +
        V2.dot ((Friction.jacobian (tangential (F t) (r t)) (l t) p).mulVec
          (tangential F' (r t) + tangential (F t) r')) (tangential (F t) (q t))) t := by
  have hr' := hasDM_mulVec hF hr
  have hq' := hasDM_mulVec hF hq
  have hpath : Friction.Path (fun s => (tangential (F s) (r s)).x) (fun s => (tangential (F s) (r s)).y) t
      (tangential (F t) (r t)) (tangential F' (r t) + tangential (F t) r') :=
    ⟨rfl, rfl, hr'.2.1, hr'.2.2⟩
  obtain ⟨h1, h2⟩ := Friction.jacobian_is_derivative_partial p hp (l t) _ _ hst _ _ t hpath
  obtain ⟨k1, k2⟩ := Friction.jacobian_is_derivative_partial p hp 1 _ _ hst _ _ t hpath
  have hl0 := hl.sub_const (l t)
  have g1 : HasDerivAt (fun s => (Friction.profile (tangential (F s) (r s)) (l s) p).x) _ t :=
    (h1.fun_add (hl0.fun_mul (k1.fun_sub (hr'.2.1.const_mul p.viscousFriction)))).congr_of_eventuallyEq
      (Filter.Eventually.of_forall fun s => congrArg V2.x (profile_scale _ (l t) (l s) p))
  have g2 : HasDerivAt (fun s => (Friction.profile (tangential (F s) (r s)) (l s) p).y) _ t :=
    (h2.fun_add (hl0.fun_mul (k2.fun_sub (hr'.2.2.const_mul p.viscousFriction)))).congr_of_eventuallyEq
      (Filter.Eventually.of_forall fun s => congrArg V2.y (profile_scale _ (l t) (l s) p))
  refine ((g1.fun_mul hq'.2.1).fun_add (g2.fun_mul hq'.2.2)).congr_deriv ?_
  simp only [V2.dot, V2.add_x, V2.add_y, sub_self, zero_mul, add_zero]
  show _ = _
  simp only [tangential, V3.add_y, V3.add_z]
  ring

end Pair

end Softy.Contact
