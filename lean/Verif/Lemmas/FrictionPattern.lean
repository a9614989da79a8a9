import Verif.Model.Gripping
import Verif.Props.FrictionJacobian

/-!
# Which entries the Jacobians of contacts have

The positions of the entries depend on the neighborhoods only.
-/

noncomputable section

namespace Softy.Contact

open Softy Softy.Kernel Softy.Field

/-- The position of a triplet. -/
def mkey (b : MBlock) : ℕ × ℕ := (b.row, b.col)

/-- The position of a block. -/
def hkey (b : HBlock) : ℕ × ℕ := (b.row, b.col)

/-! ## Lists -/

theorem map_filter_keys {α κ : Type*} (f : α → κ) (P : κ → Bool) (A B : List α)
    (h : A.map f = B.map f) : (A.filter fun a => P (f a)).map f = (B.filter fun b => P (f b)).map f := by
  have e : ∀ L : List α, (L.filter fun a => P (f a)).map f = (L.map f).filter P := by
    intro L
    rw [List.filter_map]
    rfl
  rw [e, e, h]

theorem mem_keys {α κ : Type*} (f : α → κ) (A B : List α) (h : A.map f = B.map f) (k : κ) :
    (∃ a ∈ A, f a = k) ↔ ∃ b ∈ B, f b = k := by
  rw [← List.mem_map, ← List.mem_map, h]

theorem zipWith_keys {α β γ κ : Type*} (g : β → α → γ) (h : γ → κ) (i : β → κ)
    (hk : ∀ b a, h (g b a) = i b) (A : List α) (B : List β) :
    (List.zipWith g B A).map h = (B.map i).take A.length := by
  induction B generalizing A with
  | nil => simp
  | cons b B ih =>
    cases A with
    | nil => simp
    | cons a A => simp [hk, ih]

theorem map_length_eq {α κ : Type*} (f : α → κ) (A B : List α) (h : A.map f = B.map f) :
    A.length = B.length := by
  have := congrArg List.length h
  simpa using this

theorem prune_keys (A B : List (Sparse.Key × V3 ℝ)) (h : A.map Prod.fst = B.map Prod.fst) :
    (Sparse.pruneSum A).map Prod.fst = (Sparse.pruneSum B).map Prod.fst := by
  induction hn : A.length using Nat.strong_induction_on generalizing A B with
  | _ n ih =>
    match A, B, h with
    | [], [], _ => rfl
    | [a], [b], h => simpa [Sparse.pruneSum] using h
    | a :: a' :: A, b :: b' :: B, h =>
      simp only [List.map_cons, List.cons.injEq] at h
      obtain ⟨h1, h2, h3⟩ := h
      rw [Sparse.pruneSum, Sparse.pruneSum]
      by_cases e : a.1 = a'.1
      · rw [if_pos e, if_pos (by rw [← h1, ← h2, e])]
        refine ih _ ?_ _ _ ?_ rfl
        · rw [← hn]; simp
        · simp [h1, h3]
      · rw [if_neg e, if_neg (by rw [← h1, ← h2]; exact e)]
        rw [List.map_cons, List.map_cons, h1]
        congr 1
        refine ih _ ?_ _ _ ?_ rfl
        · rw [← hn]; simp
        · simp [h2, h3]
    | [], _ :: _, h => simp at h
    | _ :: _, [], h => simp at h
    | [_], _ :: _ :: _, h => simp at h
    | _ :: _ :: _, [_], h => simp at h

/-! ## One query point -/

theorem local_view {view : List ℕ} (hv : view ≠ []) (q : V3 ℝ) (S : Samples) (k : Kern) (P : BgParams) :
    ∃ b, Bg.local q view S k P none = some b ∧ b.view = view := by
  cases view with
  | nil => exact absurd rfl hv
  | cons i l =>
    exact ⟨Bg.newImpl q (i :: l) S (.loc (closestFrom q S i l)) k P none, rfl, rfl⟩

theorem jacobian_view {view : List ℕ} (hv : view ≠ []) (q : V3 ℝ) (S : Samples) (k : Kern) (P : BgParams) :
    ∃ g, queryJacobianAt q view S none k P = some g := by
  obtain ⟨b, hb, -⟩ := local_view hv q S k P
  exact ⟨_, by simp only [queryJacobianAt, Bg.new, hb, Option.map_some]; rfl⟩

theorem hessian_view {view : List ℕ} (hv : view ≠ []) (q : V3 ℝ) (S : Samples) (k : Kern) (P : BgParams) :
    ∃ g, queryHessianAt q view S k P = some g := by
  obtain ⟨b, hb, -⟩ := local_view hv q S k P
  exact ⟨_, by simp only [queryHessianAt, hb, Option.map_some]; rfl⟩

/-- The vertices for which `sampleContactProduct` has blocks. -/
def productKeys (view : List ℕ) (tris : ℕ → Tri) (s : ℕ) : List ℕ :=
  ((List.finRange 3).map fun j => (tris s).get j) ++ neighborhoodVerts view tris ++
    (List.finRange 3).map fun j => (tris s).get j

theorem product_keys (b : Bg) (x : ℕ → V3 ℝ) (tris : ℕ → Tri) (g : V3 ℝ) (wsi : ℝ) (s : ℕ)
    (m : V3 ℝ) (tr : Bool) : (sampleContactProduct b x tris g wsi s m tr).map Prod.fst =
      productKeys b.view tris s := by
  unfold sampleContactProduct productKeys
  simp only [List.map_append, List.map_map]
  congr 1
  congr 1
  exact List.map_id _

theorem velocityAt_keys {view : List ℕ} (hv : view ≠ []) (q : V3 ℝ) (S : Samples) (k : Kern) (tris : ℕ → Tri)
    (x : ℕ → V3 ℝ) (P : BgParams) (m : ℕ → V3 ℝ) :
    ((contactJacobianJacobianAt q view S k tris x P m).getD []).map Prod.fst =
      view.flatMap (productKeys view tris) := by
  obtain ⟨b, hb, hbv⟩ := local_view hv q S k P
  obtain ⟨g, hg⟩ := jacobian_view hv q S k P
  simp only [contactJacobianJacobianAt, hb, hg, Option.bind_some, Option.map_some, Option.getD_some,
    List.map_flatMap, product_keys, hbv]

theorem queryVelocityAt_length {view : List ℕ} (hv : view ≠ []) (q : V3 ℝ) (S : Samples) (k : Kern)
    (tris : ℕ → Tri) (P : BgParams) (m : ℕ → V3 ℝ) :
    ((contactQueryJacobianJacobianAt q view S k tris P m).getD []).length = view.length := by
  obtain ⟨b, hb, hbv⟩ := local_view hv q S k P
  obtain ⟨g, hg⟩ := jacobian_view hv q S k P
  obtain ⟨H, hH⟩ := hessian_view hv q S k P
  simp only [contactQueryJacobianJacobianAt, hb, hg, hH, Option.bind_some, Option.map_some,
    Option.getD_some, List.length_map]

theorem forceAt_keys {view : List ℕ} (hv : view ≠ []) (q : V3 ℝ) (S : Samples) (k : Kern) (tris : ℕ → Tri)
    (x : ℕ → V3 ℝ) (P : BgParams) (m : V3 ℝ) :
    ((contactHessianAt q view S k tris x P m).getD []).map hkey =
      view.flatMap fun s => (List.finRange 3).flatMap fun i =>
        (productKeys view tris s).map fun v => ((tris s).get i, v) := by
  obtain ⟨b, hb, hbv⟩ := local_view hv q S k P
  obtain ⟨g, hg⟩ := jacobian_view hv q S k P
  simp only [contactHessianAt, hb, hg, Option.bind_some, Option.map_some, Option.getD_some,
    List.map_flatMap, List.map_map]
  congr 1
  funext s
  congr 1
  funext i
  rw [← hbv, ← product_keys b x tris g (weightNmlSumInv k b.dist q view S g) s m true, List.map_map, hbv]
  rfl

theorem queryForceAt_keys {view : List ℕ} (hv : view ≠ []) (q : V3 ℝ) (S : Samples) (k : Kern)
    (tris : ℕ → Tri) (P : BgParams) (m : V3 ℝ) :
    ((contactQueryHessianAt q view S k tris P m).getD []).map Prod.fst =
      view.flatMap fun s => (List.finRange 3).map fun j => (tris s).get j := by
  obtain ⟨b, hb, hbv⟩ := local_view hv q S k P
  obtain ⟨g, hg⟩ := jacobian_view hv q S k P
  obtain ⟨H, hH⟩ := hessian_view hv q S k P
  simp only [contactQueryHessianAt, hb, hg, hH, Option.bind_some, Option.map_some, Option.getD_some,
    List.map_flatMap, List.map_map]
  rfl

theorem sampleQueryAt_keys {view : List ℕ} (hv : view ≠ []) (q : V3 ℝ) (S : Samples) (k : Kern)
    (tris : ℕ → Tri) (x : ℕ → V3 ℝ) (P : BgParams) (m : ℝ) :
    ((sampleQueryHessianAt q view S k tris x P m).getD []).map Prod.fst =
      firstSeen [] (faceJacobianCols view tris) := by
  obtain ⟨b, hb, hbv⟩ := local_view hv q S k P
  simp only [sampleQueryHessianAt, hb, Option.map_some, Option.getD_some, List.map_map]
  exact List.map_id _

theorem contactAt_length {view : List ℕ} (hv : view ≠ []) (q : V3 ℝ) (S : Samples) (k : Kern) (P : BgParams) :
    ((contactJacobianAt q view S k P).getD []).length = view.length := by
  obtain ⟨b, hb, hbv⟩ := local_view hv q S k P
  obtain ⟨g, hg⟩ := jacobian_view hv q S k P
  simp only [contactJacobianAt, hb, hg, Option.bind_some, Option.map_some, Option.getD_some,
    List.length_map]

theorem faceAt_length {view : List ℕ} (hv : view ≠ []) (q : V3 ℝ) (S : Samples) (k : Kern) (tris : ℕ → Tri)
    (x : ℕ → V3 ℝ) (P : BgParams) :
    ((faceJacobianAt q view S k tris x P).getD []).length = view.length * 3 := by
  obtain ⟨b, hb, hbv⟩ := local_view hv q S k P
  simp only [faceJacobianAt, hb, Option.map_some, Option.getD_some, List.length_flatMap, List.length_map,
    List.length_finRange, List.map_const', List.sum_replicate, smul_eq_mul]

namespace Pair

variable (C : Pair)

theorem active_ne {p : List ℕ × ℕ} (h : p ∈ C.active) : p.1 ≠ [] := by
  have := (List.mem_filter.1 h).2
  intro e
  simp [e] at this

theorem active_zipIdx_ne {p : (List ℕ × ℕ) × ℕ} (h : p ∈ C.active.zipIdx) : p.1.1 ≠ [] := by
  refine C.active_ne ?_
  have := List.mem_map_of_mem (f := Prod.fst) h
  rwa [List.zipIdx_map_fst] at this

theorem flatMap_congr_mem {α β : Type*} (l : List α) (f g : α → List β) (h : ∀ a ∈ l, f a = g a) :
    l.flatMap f = l.flatMap g := by
  induction l with
  | nil => rfl
  | cons a l ih =>
    rw [List.flatMap_cons, List.flatMap_cons, h a (by simp), ih fun b hb => h b (by simp [hb])]

theorem contactBlocks_keys (x y : ℕ → V3 ℝ) : (C.contactBlocks x).map mkey = (C.contactBlocks y).map mkey := by
  have e : ∀ x, (C.contactBlocks x).map mkey = C.active.flatMap fun p => p.1.flatMap fun s =>
      (List.finRange 3).map fun j => (C.constraintOf p.2, (C.tris s).get j) := by
    intro x
    unfold contactBlocks
    rw [List.map_flatMap]
    refine flatMap_congr_mem _ _ _ fun p hp => ?_
    have hl := contactAt_length (C.active_ne hp) (C.query x p.2) (C.samples x) C.kernel params
    revert hl
    generalize (contactJacobianAt (C.query x p.2) p.1 (C.samples x) C.kernel params).getD [] = B
    generalize p.1 = A
    intro hl
    rw [List.map_flatMap]
    simp only [List.map_map]
    induction A generalizing B with
    | nil => rfl
    | cons a A ih =>
      cases B with
      | nil => simp at hl
      | cons b B =>
        rw [List.zip_cons_cons, List.flatMap_cons, List.flatMap_cons, ih B (by simpa using hl)]
        rfl
  rw [e, e]

theorem gradientBlocks_keys (x y : ℕ → V3 ℝ) (N : ℕ) :
    (C.gradientBlocks x N).map mkey = (C.gradientBlocks y N).map mkey := by
  unfold gradientBlocks
  refine map_filter_keys mkey (fun k => decide (k.1 < N)) _ _ ?_
  rw [List.map_append, List.map_append]
  congr 1
  have := congrArg (List.map fun k : ℕ × ℕ => (C.surf k.2, k.1)) (C.contactBlocks_keys x y)
  rw [List.map_map, List.map_map] at this
  rw [List.map_map, List.map_map]
  exact this

theorem touches_iff (x y : ℕ → V3 ℝ) (N i k : ℕ) : C.touches x N i k ↔ C.touches y N i k := by
  have := mem_keys mkey _ _ (C.gradientBlocks_keys x y N) (i, k)
  simpa only [touches, mkey, Prod.mk.injEq] using this

theorem frictionBlocks_keys (p p' : Friction.Params) (x y u v : ℕ → V3 ℝ) (N : ℕ) :
    (C.frictionBlocks p x u N).map hkey = (C.frictionBlocks p' y v N).map hkey := by
  classical
  have e : ∀ p x v, (C.frictionBlocks p x v N).map hkey = (List.range N).flatMap fun i =>
      ((List.range N).filter fun j => decide (∃ k, C.touches y N i k ∧ C.touches y N j k)).map
        fun j => (i, j) := by
    intro p x v
    unfold frictionBlocks
    rw [List.map_flatMap]
    congr 1
    funext i
    rw [List.map_map]
    simp only [C.touches_iff x y]
    congr 1
  rw [e, e]

theorem blocks_keys (x y : ℕ → V3 ℝ) :
    (C.blocks x).map (fun b => (b.row, b.col)) = (C.blocks y).map fun b => (b.row, b.col) := by
  have hz : ∀ (I : List (ℕ × ℕ)) (A B : List (V3 ℝ)) (f : ℕ × ℕ → ℕ × ℕ), A.length = B.length →
      (I.zip A).map (fun p => f p.1) = (I.zip B).map fun p => f p.1 := by
    intro I
    induction I with
    | nil => intros; rfl
    | cons i I ih =>
      intro A B f h
      cases A with
      | nil =>
        cases B with
        | nil => rfl
        | cons b B => simp at h
      | cons a A =>
        cases B with
        | nil => simp at h
        | cons b B =>
          rw [List.zip_cons_cons, List.zip_cons_cons, List.map_cons, List.map_cons,
            ih A B f (by simpa using h)]
  unfold blocks objectBlocks colliderBlocks
  rw [List.map_append, List.map_append]
  congr 1
  · split_ifs
    · rfl
    · rw [List.map_map, List.map_map]
      refine hz _ _ _ (fun k => (C.constraintOf k.1, C.surf k.2)) ?_
      unfold surfaceBlocks
      rw [List.length_flatMap, List.length_flatMap]
      congr 1
      refine List.map_congr_left fun p hp => ?_
      rw [faceAt_length (C.active_ne hp), faceAt_length (C.active_ne hp)]
  · split_ifs
    · rfl
    · rw [List.map_map, List.map_map]
      refine hz _ _ _ (fun k => (C.constraintOf k.1, C.coll k.2)) ?_
      simp [queryBlocks]

theorem gradient_keys (x y : ℕ → V3 ℝ) (N : ℕ) :
    (C.gradient x N).map Prod.fst = (C.gradient y N).map Prod.fst := by
  unfold gradient
  refine prune_keys _ _ ?_
  refine map_filter_keys Prod.fst (fun k : Sparse.Key => decide (k.1 < N) && decide (k.2 < C.active.length)) _ _ ?_
  have e : ∀ l : List (Sparse.Key × V3 ℝ), (l.mergeSort fun a b => Sparse.keyLe a.1 b.1).map Prod.fst =
      (l.map Prod.fst).mergeSort Sparse.keyLe := fun l => List.map_mergeSort fun a _ b _ => rfl
  rw [e, e, List.map_map, List.map_map]
  have := congrArg (List.map fun k : ℕ × ℕ => (k.2, k.1)) (C.blocks_keys x y)
  rw [List.map_map, List.map_map] at this
  congr 1

theorem gradientRows_congr (A B : List (Sparse.Key × V3 ℝ)) (h : A.map Prod.fst = B.map Prod.fst) :
    gradientRows A = gradientRows B := by
  have := congrArg (List.map fun k : Sparse.Key => k.1) h
  rw [List.map_map, List.map_map] at this
  unfold gradientRows
  exact congrArg List.dedup this

theorem gradientRow_keys (A B : List (Sparse.Key × V3 ℝ)) (h : A.map Prod.fst = B.map Prod.fst) (v : ℕ) :
    (gradientRow A v).map Prod.fst = (gradientRow B v).map Prod.fst :=
  map_filter_keys Prod.fst (fun k : Sparse.Key => decide (k.1 = v)) _ _ h

theorem lambdaBlocks_keys (p p' : Friction.Params) (x y u v : ℕ → V3 ℝ) (q q' : ℝ) (N n : ℕ) :
    (C.lambdaBlocks p x u q N n).map hkey = (C.lambdaBlocks p' y v q' N n).map hkey := by
  classical
  have hg := C.gradient_keys x y N
  unfold lambdaBlocks
  rw [List.map_flatMap, List.map_flatMap, gradientRows_congr _ _ hg]
  congr 1
  funext i
  rw [List.map_flatMap, List.map_flatMap]
  congr 1
  funext j
  rw [List.map_map, List.map_map]
  have hr := gradientRow_keys _ _ hg j
  have := map_filter_keys Prod.fst (fun k => decide (C.touches y N i k.2)) _ _ hr
  have := congrArg (List.map fun _ => (i, j)) this
  rw [List.map_map, List.map_map] at this
  simp only [C.touches_iff x y]
  exact this

theorem productIndices_congr (A B : List (Sparse.Key × V3 ℝ)) (h : A.map Prod.fst = B.map Prod.fst) (n : ℕ) :
    productIndices A n = productIndices B n := by
  unfold productIndices
  rw [gradientRows_congr _ _ h]
  congr 1
  funext v
  congr 1
  funext u
  have e : ∀ A, (gradientPairs A v u).map (fun _ => (v, u)) =
      ((gradientRow A v).map Prod.fst).flatMap fun a =>
        (((gradientRow A u).map Prod.fst).filter fun b => decide (b.2 = a.2)).map fun _ => (v, u) := by
    intro A
    unfold gradientPairs
    rw [List.map_flatMap, List.flatMap_map]
    congr 1
    funext a
    rw [List.map_map, List.filter_map, List.map_map]
    rfl
  rw [e, e, gradientRow_keys _ _ h, gradientRow_keys _ _ h]

theorem hessianIndices_congr (x y : ℕ → V3 ℝ) (N n : ℕ) :
    C.hessianIndices (C.gradient x N) n = C.hessianIndices (C.gradient y N) n := by
  unfold hessianIndices
  rw [productIndices_congr _ _ (C.gradient_keys x y N)]

/-! ## Derivatives -/

theorem force1_pattern (x y m m' : ℕ → V3 ℝ) : (C.force1 x m).map hkey = (C.force1 y m').map hkey := by
  have e : ∀ x m, (C.force1 x m).map hkey = C.active.zipIdx.flatMap fun p =>
      (p.1.1.flatMap fun s => (List.finRange 3).flatMap fun i =>
        (productKeys p.1.1 C.tris s).map fun v => ((C.tris s).get i, v)).map fun k =>
          (C.surf k.1, C.surf k.2) := by
    intro x m
    unfold force1
    rw [List.map_flatMap]
    refine flatMap_congr_mem _ _ _ fun p hp => ?_
    rw [← forceAt_keys (C.active_zipIdx_ne hp) (C.query x p.1.2) (C.samples x) C.kernel C.tris
      (fun j => x (C.surf j)) params (m p.2), List.map_map, List.map_map]
    rfl
  rw [e, e]

theorem force2_pattern (x y m m' : ℕ → V3 ℝ) : (C.force2 x m).map hkey = (C.force2 y m').map hkey := by
  have e : ∀ x m, (C.force2 x m).map hkey = C.active.zipIdx.flatMap fun p =>
      (p.1.1.flatMap fun s => (List.finRange 3).map fun j => (C.tris s).get j).map fun k =>
          (C.surf k, C.coll p.1.2) := by
    intro x m
    unfold force2
    rw [List.map_flatMap]
    refine flatMap_congr_mem _ _ _ fun p hp => ?_
    rw [← queryForceAt_keys (C.active_zipIdx_ne hp) (C.query x p.1.2) (C.samples x) C.kernel C.tris
      params (m p.2), List.map_map, List.map_map]
    rfl
  rw [e, e]

theorem forceTriplets_keys (x y m m' : ℕ → V3 ℝ) (n : ℕ) :
    (C.forceTriplets x m n).map hkey = (C.forceTriplets y m' n).map hkey := by
  rw [forceTriplets_eq, forceTriplets_eq]
  refine map_filter_keys hkey (fun k => decide (k.1 < n ∧ k.2 < n)) _ _ ?_
  rw [List.map_append, List.map_append, C.force1_pattern x y m m', C.force2_pattern x y m m']

theorem velocity1_pattern (x y m m' : ℕ → V3 ℝ) :
    (C.velocity1 x m).map mkey = (C.velocity1 y m').map mkey := by
  have e : ∀ x m, (C.velocity1 x m).map mkey = C.active.flatMap fun p =>
      (p.1.flatMap (productKeys p.1 C.tris)).map fun k => (C.surf k, C.constraintOf p.2) := by
    intro x m
    unfold velocity1
    rw [List.map_flatMap]
    refine flatMap_congr_mem _ _ _ fun p hp => ?_
    rw [← velocityAt_keys (C.active_ne hp) (C.query x p.2) (C.samples x) C.kernel C.tris
      (fun j => x (C.surf j)) params m, List.map_map, List.map_map]
    rfl
  rw [e, e]

theorem velocity2_pattern (x y m m' : ℕ → V3 ℝ) :
    (C.velocity2 x m).map mkey = (C.velocity2 y m').map mkey := by
  have e : ∀ x m, (C.velocity2 x m).map mkey = C.active.flatMap fun p =>
      List.replicate p.1.length (C.coll p.2, C.constraintOf p.2) := by
    intro x m
    unfold velocity2
    rw [List.map_flatMap]
    refine flatMap_congr_mem _ _ _ fun p hp => ?_
    rw [← queryVelocityAt_length (C.active_ne hp) (C.query x p.2) (C.samples x) C.kernel C.tris params m,
      List.map_map, ← List.map_const']
    rfl
  rw [e, e]

theorem velocityTriplets_keys (x y m m' : ℕ → V3 ℝ) (n : ℕ) :
    (C.velocityTriplets x m n).map mkey = (C.velocityTriplets y m' n).map mkey := by
  rw [velocityTriplets_eq, velocityTriplets_eq]
  refine map_filter_keys mkey (fun k => decide (k.1 < n)) _ _ ?_
  rw [List.map_append, List.map_append, C.velocity1_pattern x y m m', C.velocity2_pattern x y m m']

theorem jacContactGradient_keys (x y m m' : ℕ → V3 ℝ) (N n : ℕ) :
    (C.jacContactGradient x m N n).map hkey = (C.jacContactGradient y m' N n).map hkey := by
  unfold jacContactGradient
  have e : ∀ A B : List HBlock, (List.zipWith (fun i b : HBlock => HBlock.mk i.row i.col b.val) B A).map hkey =
      (B.map hkey).take A.length := fun A B =>
        zipWith_keys (fun i b : HBlock => HBlock.mk i.row i.col b.val) hkey hkey (fun _ _ => rfl) A B
  rw [e, e,
    C.forceTriplets_keys x y _ _ N, map_length_eq hkey _ _ (C.forceTriplets_keys x y m m' n)]

theorem jacContactJacobian_keys (x y m m' : ℕ → V3 ℝ) (N n : ℕ) :
    (C.jacContactJacobian x m N n).map mkey = (C.jacContactJacobian y m' N n).map mkey := by
  unfold jacContactJacobian
  have e : ∀ A B : List MBlock, (List.zipWith (fun i b : MBlock => MBlock.mk i.row i.col b.val) B A).map mkey =
      (B.map mkey).take A.length := fun A B =>
        zipWith_keys (fun i b : MBlock => MBlock.mk i.row i.col b.val) mkey mkey (fun _ _ => rfl) A B
  rw [e, e,
    C.velocityTriplets_keys x y _ _ N, map_length_eq mkey _ _ (C.velocityTriplets_keys x y m m' n)]

theorem gradientJacobian_keys (x y : ℕ → V3 ℝ) :
    (C.gradientJacobian x).map (fun e => (e.1, e.2.1)) = (C.gradientJacobian y).map fun e => (e.1, e.2.1) := by
  have e : ∀ x, (C.gradientJacobian x).map (fun e => (e.1, e.2.1)) = (C.active.map fun p => (p, C.coll p.2)) ++
      C.active.flatMap fun p => (firstSeen [] (faceJacobianCols p.1 C.tris)).map fun k => (p, C.surf k) := by
    intro x
    unfold gradientJacobian
    rw [List.map_append, List.map_map, List.map_flatMap]
    congr 1
    refine flatMap_congr_mem _ _ _ fun p hp => ?_
    rw [← sampleQueryAt_keys (C.active_ne hp) (C.query x p.2) (C.samples x) C.kernel C.tris
      (fun j => x (C.surf j)) params 1, List.map_map, List.map_map]
    rfl
  rw [e, e]

theorem basisTriplets_keys (x y m m' : ℕ → V3 ℝ) (tr : Bool) (n : ℕ) :
    (C.basisTriplets x m tr n).map mkey = (C.basisTriplets y m' tr n).map mkey := by
  unfold basisTriplets
  refine map_filter_keys mkey (fun k => decide (k.2 < n)) _ _ ?_
  unfold basisJacobian
  rw [List.map_map, List.map_map]
  have := congrArg (List.map fun k : (List ℕ × ℕ) × ℕ => (C.constraintOf k.1.2, k.2))
    (C.gradientJacobian_keys x y)
  rw [List.map_map, List.map_map] at this
  exact this

theorem contactProduct_keys (x y : ℕ → V3 ℝ) (N : ℕ) (M M' : ℕ → M3 ℝ) (T T' : List MBlock)
    (h : T.map mkey = T'.map mkey) :
    (C.contactProduct x N M T).map hkey = (C.contactProduct y N M' T').map hkey := by
  classical
  have hT : ∀ k j, (∃ b ∈ T, b.row = k ∧ b.col = j) ↔ ∃ b ∈ T', b.row = k ∧ b.col = j := by
    intro k j
    have := mem_keys mkey _ _ h (k, j)
    simpa only [mkey, Prod.mk.injEq] using this
  have e : ∀ x M T, (∀ k j, (∃ b ∈ T, b.row = k ∧ b.col = j) ↔ ∃ b ∈ T', b.row = k ∧ b.col = j) →
      (C.contactProduct x N M T).map hkey = (List.range N).flatMap fun i =>
        ((List.range N).filter fun j => decide (∃ k, C.touches y N i k ∧
          ∃ b ∈ T', b.row = k ∧ b.col = j)).map fun j => (i, j) := by
    intro x M T hT
    unfold contactProduct
    rw [List.map_flatMap]
    congr 1
    funext i
    rw [List.map_map]
    simp only [C.touches_iff x y, hT]
    congr 1
  rw [e x M T hT, e y M' T' fun _ _ => Iff.rfl]

theorem scaleBlocks_keys (c : ℝ) (B : List HBlock) : (scaleBlocks c B).map hkey = B.map hkey := by
  unfold scaleBlocks
  rw [List.map_map]
  rfl

theorem completeBlocks_keys (p : Friction.Params) (x y u v : ℕ → V3 ℝ) (q q' : ℝ) (N n : ℕ) :
    (C.completeBlocks p x u q N n).map hkey = (C.completeBlocks p y v q' N n).map hkey := by
  unfold completeBlocks blocksA blocksB blocksC blocksD
  simp only [List.map_append, scaleBlocks_keys]
  have hD := congrArg (List.map fun k : ℕ × ℕ => (k.2, k.1))
    (C.jacContactJacobian_keys x y (fun j => u (C.surf j)) (fun j => v (C.surf j)) N n)
  rw [List.map_map, List.map_map] at hD
  refine congrArg₂ _ (congrArg₂ _ (congrArg₂ _ (congrArg₂ _ (congrArg₂ _
    (C.lambdaBlocks_keys p p x y u v q q' N n) (C.jacContactGradient_keys x y _ _ N n))
    (C.contactProduct_keys x y N _ _ _ _ (C.basisTriplets_keys x y _ _ false n)))
    (C.contactProduct_keys x y N _ _ _ _ (C.basisTriplets_keys x y _ _ true n)))
    (C.contactProduct_keys x y N _ _ _ _ ?_)) (C.frictionBlocks_keys p p x y u v N)
  rw [List.map_map, List.map_map]
  exact hD

theorem blockEntries_keys (A B : List HBlock) (h : A.map hkey = B.map hkey) :
    (A.flatMap blockEntries).map (fun e => e.1) = (B.flatMap blockEntries).map fun e => e.1 := by
  have e : ∀ A : List HBlock, (A.flatMap blockEntries).map (fun e => e.1) =
      (A.map hkey).flatMap fun k => (List.finRange 3).flatMap fun r => (List.finRange 3).map fun c =>
        (3 * k.1 + r.val, 3 * k.2 + c.val) := by
    intro A
    rw [List.map_flatMap, List.flatMap_map]
    congr 1
  rw [e, e, h]

theorem currentEntries_keys (p : Friction.Params) (inc : Bool) (x y u v : ℕ → V3 ℝ) (q q' : ℝ) (N n : ℕ) :
    (C.currentEntries p inc x u q N n).map (fun e => e.1) =
      (C.currentEntries p inc y v q' N n).map fun e => e.1 := by
  classical
  unfold currentEntries
  by_cases hp : p.isNone
  · rw [if_pos hp, if_pos hp]
  · rw [if_neg hp, if_neg hp]
    refine blockEntries_keys _ _ ?_
    refine map_filter_keys hkey (fun k => decide (k.1 < n ∧ k.2 < n)) _ _ ?_
    cases inc with
    | true =>
      simp only [if_true]
      unfold incompleteBlocks
      rw [List.map_append, List.map_append, C.lambdaBlocks_keys p p x y u v q q',
        C.frictionBlocks_keys p p x y u v]
    | false =>
      simp only [Bool.false_eq_true, if_false]
      exact C.completeBlocks_keys p x y u v q q' N n

theorem currentEntries_lt (p : Friction.Params) (inc : Bool) (x v : ℕ → V3 ℝ) (q : ℝ) (N n : ℕ) :
    ∀ e ∈ C.currentEntries p inc x v q N n, e.1.1 < 3 * n ∧ e.1.2 < 3 * n := by
  intro e he
  unfold currentEntries at he
  by_cases hp : p.isNone
  · rw [if_pos hp] at he; simp at he
  · rw [if_neg hp] at he
    obtain ⟨b, hb, he⟩ := List.mem_flatMap.1 he
    have hb := (List.mem_filter.1 hb).2
    simp only [decide_eq_true_eq] at hb
    unfold blockEntries at he
    obtain ⟨r, -, he⟩ := List.mem_flatMap.1 he
    obtain ⟨c, -, rfl⟩ := List.mem_map.1 he
    have := r.2
    have := c.2
    constructor
    · show 3 * b.row + r.val < 3 * n
      omega
    · show 3 * b.col + c.val < 3 * n
      omega

end Pair

end Softy.Contact
