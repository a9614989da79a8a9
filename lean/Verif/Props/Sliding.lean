import Verif.Model.Sliding
import Verif.Props.Contact
import Verif.Props.ContactBasis
import Mathlib.Data.List.GetD

/-!
# Friction between two objects

Property C84: friction takes energy from the motion of the two objects, vanishes when they move
together, and conserves momentum. The first is proved in general, the other two where the surface is flat
around the contact; they fail on curved surfaces, beyond the radius of the kernel and when the objects
turn together.
-/

noncomputable section

namespace Softy.Contact

open Softy Softy.Kernel Softy.Field

/-! ## Sums and lists -/

theorem sum_by_key {β : Type*} (B : List β) (key : β → ℕ) (g : β → ℝ) (n : ℕ)
    (h : ∀ b ∈ B, key b < n) :
    ∑ k ∈ Finset.range n, ((B.filter fun b => key b = k).map g).sum = (B.map g).sum := by
  induction B with
  | nil => simp
  | cons b B ih =>
    have e : ∀ k, (((b :: B).filter fun b => key b = k).map g).sum =
        (if key b = k then g b else 0) + ((B.filter fun b => key b = k).map g).sum := by
      intro k
      by_cases hk : key b = k <;> simp [hk]
    simp only [e, Finset.sum_add_distrib, ih fun b hb => h b (List.mem_cons_of_mem _ hb)]
    rw [Finset.sum_ite_eq, if_pos (Finset.mem_range.2 (h b List.mem_cons_self))]
    simp

theorem foldl_update_away (L : List (ℕ × V3 ℝ)) (f : ℕ → V3 ℝ) (v : ℕ) (h : v ∉ L.map Prod.fst) :
    L.foldl (fun f p => Function.update f p.1 p.2) f v = f v := by
  induction L generalizing f with
  | nil => rfl
  | cons a L ih =>
    simp only [List.map_cons, List.mem_cons, not_or] at h
    rw [List.foldl_cons, ih _ h.2, Function.update_of_ne h.1]

theorem foldl_update_mem (L : List (ℕ × V3 ℝ)) (hL : (L.map Prod.fst).Nodup) (f : ℕ → V3 ℝ)
    (p : ℕ × V3 ℝ) (h : p ∈ L) :
    L.foldl (fun f p => Function.update f p.1 p.2) f p.1 = p.2 := by
  induction L generalizing f with
  | nil => simp at h
  | cons a L ih =>
    simp only [List.map_cons, List.nodup_cons] at hL
    rw [List.foldl_cons]
    rcases List.mem_cons.1 h with rfl | h
    · rw [foldl_update_away _ _ _ hL.1, Function.update_self]
    · exact ih hL.2 _ h

/-- Assigning to distinct vertices, where there was zero. -/
theorem foldl_update_sum (L : List (ℕ × V3 ℝ)) (hL : (L.map Prod.fst).Nodup) (N : ℕ)
    (hN : ∀ p ∈ L, p.1 < N) (f u : ℕ → V3 ℝ) (h0 : ∀ p ∈ L, f p.1 = 0) :
    ∑ v ∈ Finset.range N, V3.dot (L.foldl (fun f p => Function.update f p.1 p.2) f v) (u v) =
      ∑ v ∈ Finset.range N, V3.dot (f v) (u v) + (L.map fun p => V3.dot p.2 (u p.1)).sum := by
  induction L generalizing f with
  | nil => simp
  | cons a L ih =>
    simp only [List.map_cons, List.nodup_cons] at hL
    have hne : ∀ p ∈ L, p.1 ≠ a.1 := fun p hp e => hL.1 (List.mem_map.2 ⟨p, hp, e⟩)
    rw [List.foldl_cons, ih hL.2 (fun p hp => hN p (List.mem_cons_of_mem _ hp)) _ fun p hp => by
      rw [Function.update_of_ne (hne p hp)]
      exact h0 p (List.mem_cons_of_mem _ hp)]
    have hmem : a.1 ∈ Finset.range N := Finset.mem_range.2 (hN a List.mem_cons_self)
    have e : ∑ v ∈ Finset.range N, V3.dot (Function.update f a.1 a.2 v) (u v) =
        V3.dot a.2 (u a.1) + ∑ v ∈ Finset.range N, V3.dot (f v) (u v) := by
      rw [← Finset.add_sum_erase _ _ hmem, ← Finset.add_sum_erase _ (fun v => V3.dot (f v) (u v)) hmem,
        Function.update_self, h0 a List.mem_cons_self, dot_zero_left, zero_add]
      congr 1
      refine Finset.sum_congr rfl fun v hv => ?_
      rw [Function.update_of_ne (Finset.ne_of_mem_erase hv)]
    rw [e, List.map_cons, List.sum_cons]
    ring

/-- Selecting the blocks of a row. -/
theorem filter_flatMap_row {α : Type*} (F : α → List MBlock) (key : α → ℕ)
    (hF : ∀ a, ∀ b ∈ F a, b.row = key a) (l : List α) (s : ℕ)
    (hk : l.map key = List.range' s l.length) :
    ∀ p ∈ l.zipIdx s, (l.flatMap F).filter (fun b => b.row = p.2) = F p.1 := by
  induction l generalizing s with
  | nil => simp
  | cons a l ih =>
    simp only [List.map_cons, List.length_cons, List.range'_succ, List.cons.injEq] at hk
    have hge : ∀ b ∈ l.flatMap F, s + 1 ≤ b.row := by
      intro b hb
      obtain ⟨c, hc, hb⟩ := List.mem_flatMap.1 hb
      rw [hF c b hb]
      have : key c ∈ l.map key := List.mem_map.2 ⟨c, hc, rfl⟩
      rw [hk.2] at this
      exact (List.mem_range'_1.1 this).1
    intro p hp
    rw [List.zipIdx_cons, List.mem_cons] at hp
    rw [List.flatMap_cons, List.filter_append]
    rcases hp with rfl | hp
    · rw [List.filter_eq_self.2 fun b hb => by simp [hF a b hb, hk.1],
        List.filter_eq_nil_iff.2 fun b hb => by simpa using (show b.row ≠ s from by have := hge b hb; omega),
        List.append_nil]
    · have h1 := List.le_snd_of_mem_zipIdx hp
      rw [List.filter_eq_nil_iff.2 fun b hb => by
          simpa using (show b.row ≠ p.2 from by rw [hF a b hb, hk.1]; omega),
        List.nil_append]
      exact ih (s + 1) hk.2 p hp

theorem mulVec_dot_transpose (m : M3 ℝ) (a b : V3 ℝ) :
    V3.dot (m.transpose.mulVec a) b = V3.dot a (m.mulVec b) := ContactBasis.dot_transpose m a b

/-! ## Flat surroundings -/

/-- Specification: around `q` the surface is flat, with unit normal `n`: its samples have this normal and
they put `q` at the same height; and `q` is closer to one of them than the radius of the kernel. -/
structure FlatAround (k : Kern) (q : V3 ℝ) (view : List ℕ) (S : Samples) (n : V3 ℝ) : Prop where
  proper : k.Proper
  unit : V3.dot n n = 1
  normals : ∀ i ∈ view, (1 / (S.nml i).norm) • S.nml i = n
  height : ∃ h, ∀ i ∈ view, S.value i + V3.dot n (q - S.pos i) = h
  near : ∃ i ∈ view, ∀ r, k.radius = some r → (q - S.pos i).norm < r
  off : k.Finite ∨ ∀ i ∈ view, 0 < (q - S.pos i).norm

theorem vsum_smul {l : List ℕ} (w : ℕ → ℝ) (n : V3 ℝ) :
    (l.map fun i => w i • n).sum = (l.map w).sum • n := by
  induction l with
  | nil => ext <;> simp
  | cons i l ih => rw [List.map_cons, List.sum_cons, ih, List.map_cons, List.sum_cons]; ext <;> simp <;> ring

theorem vsum_affine {l : List ℕ} (dw : ℕ → V3 ℝ) (w : ℕ → ℝ) (a : ℝ) (D : V3 ℝ) (c : ℝ) (n : V3 ℝ) :
    (l.map fun i => a • (c • (dw i - w i • D) + w i • n)).sum =
      a • (c • ((l.map dw).sum - (l.map w).sum • D) + (l.map w).sum • n) := by
  induction l with
  | nil => ext <;> simp
  | cons i l ih => rw [List.map_cons, List.sum_cons, ih]; ext <;> simp <;> ring

variable {k : Kern} {q : V3 ℝ} {view : List ℕ} {S : Samples} {n : V3 ℝ}

/-- What is needed of the weights. -/
theorem FlatAround.weights (h : FlatAround k q view S n) :
    ∃ c, closestSample q S view = some c ∧
      0 < (view.map (weight k (q - S.pos c).norm q S)).sum ∧
      backgroundWeight k false (q - S.pos c).norm = 0 := by
  obtain ⟨i, hi, hr⟩ := h.near
  obtain ⟨c, hc⟩ := closestSample_isSome (q := q) (S := S) (List.ne_nil_of_mem hi)
  obtain ⟨hm, hmin⟩ := closestSample_spec hc
  have hd : k.Finite ∨ 0 < (q - S.pos c).norm := h.off.imp id fun h => h c hm
  have hrc : ∀ r, k.radius = some r → (q - S.pos c).norm < r := fun r e =>
    (hmin i hi).trans_lt (hr r e)
  refine ⟨c, hc, ?_, ?_⟩
  · refine sum_pos (c := c) (fun j hj => weight_nonneg h.proper hd (hmin j hj)) hm ?_
    refine kernel_pos _ (proper_withClosest h.proper hd) _ (V3.norm_nonneg _) ?_ ?_
    · rw [finite_withClosest]
      exact hd.imp id fun h => h.ne'
    · intro r e
      rw [radius_withClosest] at e
      exact hrc r e
  · unfold backgroundWeight
    cases hk : k.radius with
    | none => rfl
    | some r =>
      simp only
      rw [if_neg (not_lt.2 (hrc r hk).le)]
      simp

/-- The gradient of the potential at flat surroundings is the normal. -/
theorem FlatAround.gradient (h : FlatAround k q view S n) (cl : Option ℕ) :
    queryJacobianAt q view S cl k params = some n := by
  obtain ⟨c, hc, hpos, hb⟩ := h.weights
  obtain ⟨ht, hh⟩ := h.height
  unfold queryJacobianAt
  rw [new_eq none cl hc]
  simp only [Option.map_some, Option.some.injEq]
  set b := bgAt k params q view S c none with hbd
  have hW : b.weightSum = (view.map (weight k (q - S.pos c).norm q S)).sum := by
    show (view.map (weight k (q - S.pos c).norm q S)).sum + backgroundWeight k false (q - S.pos c).norm = _
    rw [hb, add_zero]
  have hw0 : b.bgWeight = 0 := hb
  have hwt : b.weighted = false := rfl
  have hq : b.queryJacobian = 0 := by
    unfold Bg.queryJacobian
    simp only [hw0, hwt, zero_mul]
    ext <;> simp
  have hg : b.bgWeightGrad none = 0 := by
    unfold Bg.bgWeightGrad
    rw [if_pos (show b.flat from Or.inr hwt)]
  have hdist : b.dist = (q - S.pos c).norm := rfl
  have hs : (view.map (sampleQueryJacobian b (neighborWeightGrad b))) = view.map fun i =>
      b.weightSumInv • (ht • (weightGrad k b.dist q S i - weight k b.dist q S i • neighborWeightGrad b) +
        weight k b.dist q S i • n) := by
    refine List.map_congr_left fun i hi => ?_
    show b.weightSumInv • ((S.value i + V3.dot ((1 / (S.nml i).norm) • S.nml i) (q - S.pos i)) •
      (weightGrad k b.dist q S i - weight k b.dist q S i • neighborWeightGrad b) +
        weight k b.dist q S i • ((1 / (S.nml i).norm) • S.nml i)) = _
    rw [h.normals i hi, hh i hi]
  rw [hq, hs, vsum_affine, add_zero]
  have hn : neighborWeightGrad b = b.weightSumInv • (view.map (weightGrad k b.dist q S)).sum := by
    unfold neighborWeightGrad
    rw [hg, add_zero]
    rfl
  rw [hn, weightSumInv_eq, hW, hdist]
  generalize (view.map (weightGrad k (q - S.pos c).norm q S)).sum = D
  generalize (view.map (weight k (q - S.pos c).norm q S)).sum = W at hpos
  ext <;> simp <;> field_simp <;> ring

/-- The potential at flat surroundings is the height. -/
theorem FlatAround.potential (h : FlatAround k q view S n) (old d : ℝ)
    (hd : ∀ i ∈ view, S.value i + V3.dot n (q - S.pos i) = d) :
    potentialAt q view S k params old = d := by
  obtain ⟨c, hc, hpos, hb⟩ := h.weights
  unfold potentialAt
  rw [local_eq (some old) hc]
  set b := bgAt k params q view S c (some old) with hbd
  have hW : b.weightSum = (view.map (weight k (q - S.pos c).norm q S)).sum := by
    show (view.map (weight k (q - S.pos c).norm q S)).sum + backgroundWeight k false (q - S.pos c).norm = _
    rw [hb, add_zero]
  have hw0 : b.bgWeight = 0 := hb
  have hs : view.map (fun i => weight k b.dist q S i * samplePotential q S i) =
      view.map fun i => weight k (q - S.pos c).norm q S i * d := by
    refine List.map_congr_left fun i hi => ?_
    have hn := h.normals i hi
    rw [← hd i hi, ← hn, dot_smul_left, one_div, inv_mul_eq_div]
    rfl
  simp only [Bg.weightedField, hw0, localPotentialAt, hs, List.sum_map_mul_right, weightSumInv_eq, hW]
  field_simp
  ring

theorem rodrigues_same (n : V3 ℝ) : rodrigues (M3.skew (V3.cross n n)) 1 = M3.diag 1 := by
  have hz : M3.skew (V3.cross n n) = 0 := by
    ext <;> simp [M3.skew, V3.cross] <;> ring
  unfold rodrigues
  rw [if_pos (by norm_num), hz]
  ext <;> simp [M3.diag, M3.mul_def, M3.mul, M3.mulVec, M3.transpose, V3.dot]

/-- At flat surroundings the blocks of the contact Jacobian are multiples of the identity that sum to the
identity. -/
theorem FlatAround.contactJacobian (h : FlatAround k q view S n) :
    ∃ w : ℕ → ℝ, contactJacobianAt q view S k params = some (view.map fun i => w i • M3.diag 1) ∧
      (view.map w).sum = 1 := by
  obtain ⟨c, hc, hpos, -⟩ := h.weights
  have hk : ∀ i ∈ view, normalKernel (unitNormal S i) n = 1 := by
    intro i hi
    unfold normalKernel unitNormal
    rw [h.normals i hi, h.unit]
    norm_num
  have hsum : (view.map fun i => weight k (q - S.pos c).norm q S i * normalKernel (unitNormal S i) n).sum =
      (view.map (weight k (q - S.pos c).norm q S)).sum := by
    congr 1
    exact List.map_congr_left fun i hi => by rw [hk i hi, mul_one]
  have hinv : weightNmlSumInv k (q - S.pos c).norm q view S n =
      1 / (view.map (weight k (q - S.pos c).norm q S)).sum := by
    unfold weightNmlSumInv
    simp only [hsum]
    rw [if_pos hpos]
  refine ⟨fun i => weight k (q - S.pos c).norm q S i * (1 / (view.map (weight k (q - S.pos c).norm q S)).sum),
    ?_, ?_⟩
  · unfold contactJacobianAt
    rw [local_eq none hc, h.gradient none]
    simp only [Option.bind_some, Option.map_some, Option.some.injEq]
    refine List.map_congr_left fun i hi => ?_
    show (weight k (q - S.pos c).norm q S i * normalKernel (unitNormal S i) n *
      weightNmlSumInv k (q - S.pos c).norm q view S n) •
        rodrigues (M3.skew (V3.cross (unitNormal S i) n)) (V3.dot (unitNormal S i) n) = _
    rw [hk i hi, hinv, mul_one]
    have hu : unitNormal S i = n := h.normals i hi
    rw [hu, h.unit, rodrigues_same]
  · rw [List.sum_map_mul_right, mul_one_div, div_self hpos.ne']

namespace Pair

variable (C : Pair)

/-! ## Relative velocities -/

/-- The blocks of one contact. -/
def contactRow (x : ℕ → V3 ℝ) (p : List ℕ × ℕ) : List MBlock :=
  (p.1.zip ((contactJacobianAt (C.query x p.2) p.1 (C.samples x) C.kernel params).getD [])).flatMap
    fun s => (List.finRange 3).map fun j =>
      ⟨C.constraintOf p.2, (C.tris s.1).get j, (1 / 3 : ℝ) • s.2⟩

theorem contactRow_row (x : ℕ → V3 ℝ) (p : List ℕ × ℕ) :
    ∀ b ∈ C.contactRow x p, b.row = C.constraintOf p.2 := by
  intro b hb
  obtain ⟨s, -, hb⟩ := List.mem_flatMap.1 hb
  obtain ⟨j, -, rfl⟩ := List.mem_map.1 hb
  rfl

theorem contactRow_col (x : ℕ → V3 ℝ) (p : List ℕ × ℕ) :
    ∀ b ∈ C.contactRow x p, ∃ s ∈ p.1, ∃ j, b.col = (C.tris s).get j := by
  intro b hb
  obtain ⟨s, hs, hb⟩ := List.mem_flatMap.1 hb
  obtain ⟨j, -, rfl⟩ := List.mem_map.1 hb
  exact ⟨s.1, (List.of_mem_zip hs).1, j, rfl⟩

/-- Specification: the mean velocity of the corners of triangle `s`. -/
def faceVelocity (v : ℕ → V3 ℝ) (s : ℕ) : V3 ℝ :=
  (1 / 3 : ℝ) • (v (C.surf (C.tris s).a) + v (C.surf (C.tris s).b) + v (C.surf (C.tris s).c))

/-- What the matrix makes of the velocities of the surface at one contact. -/
def pushed (x v : ℕ → V3 ℝ) (p : List ℕ × ℕ) : V3 ℝ :=
  ((p.1.zip ((contactJacobianAt (C.query x p.2) p.1 (C.samples x) C.kernel params).getD [])).map
    fun s => s.2.mulVec (C.faceVelocity v s.1)).sum

theorem contactRow_sum (x v : ℕ → V3 ℝ) (p : List ℕ × ℕ) :
    ((C.contactRow x p).map fun b => b.val.mulVec (v (C.surf b.col))).sum = C.pushed x v p := by
  unfold contactRow pushed
  induction p.1.zip ((contactJacobianAt (C.query x p.2) p.1 (C.samples x) C.kernel params).getD []) with
  | nil => rfl
  | cons a l ih =>
    rw [List.flatMap_cons, List.map_append, List.sum_append, ih, List.map_cons, List.sum_cons]
    congr 1
    simp only [List.finRange_succ, List.finRange_zero, List.map_nil, List.map_cons, List.sum_cons,
      List.sum_nil, faceVelocity, Tri.get]
    ext <;> simp [M3.mulVec, V3.dot, Tri.get] <;> ring

theorem active_keys : C.active.map (fun p => C.constraintOf p.2) =
    List.range' 0 C.active.length := by
  rw [constraintOf_active, List.range_eq_range']

/-- One relative velocity for each contact. -/
theorem relativeVelocities_eq (x v : ℕ → V3 ℝ) :
    C.relativeVelocities x v = C.active.map fun p => C.pushed x v p - v (C.coll p.2) := by
  have h := filter_flatMap_row (C.contactRow x) (fun p => C.constraintOf p.2) (C.contactRow_row x)
    C.active 0 C.active_keys
  have : C.active.zipIdx.map (fun p =>
      (((C.contactBlocks x).filter fun b => b.row = p.2).map
        fun b => b.val.mulVec (v (C.surf b.col))).sum - v (C.coll p.1.2)) =
      C.active.zipIdx.map fun p => C.pushed x v p.1 - v (C.coll p.1.2) := by
    refine List.map_congr_left fun p hp => ?_
    have hb : C.contactBlocks x = C.active.flatMap (C.contactRow x) := rfl
    rw [hb, h p hp, contactRow_sum]
  rw [relativeVelocities, this]
  have h2 : C.active.zipIdx.map (fun p => C.pushed x v p.1 - v (C.coll p.1.2)) =
      (C.active.zipIdx.map Prod.fst).map fun p => C.pushed x v p - v (C.coll p.2) := by
    rw [List.map_map]
    rfl
  rw [h2, List.zipIdx_map_fst]

theorem relativeVelocities_length (x v : ℕ → V3 ℝ) :
    (C.relativeVelocities x v).length = C.active.length := by
  rw [relativeVelocities_eq, List.length_map]

/-! ## Forces of constraints on vertices -/

/-- Specification: the two objects have no vertex in common, every vertex is listed once, and the
triangles have vertices of the surface for corners. `ns` is the number of vertices of the surface, `N` the
number of vertices of the mesh. -/
structure Distinct (ns N : ℕ) : Prop where
  corner : ∀ p ∈ C.active, ∀ s ∈ p.1, ∀ j, (C.tris s).get j < ns
  surf_inj : ∀ i < ns, ∀ j < ns, C.surf i = C.surf j → i = j
  coll_inj : (C.active.map fun p => C.coll p.2).Nodup
  apart : ∀ i j, C.coll i ≠ C.surf j
  surf_lt : ∀ j < ns, C.surf j < N
  coll_lt : ∀ p ∈ C.active, C.coll p.2 < N

/-- The map from forces at constraints to forces on vertices is the transpose of the map from
velocities of vertices to relative velocities. -/
theorem transposeMul_adjoint {ns N : ℕ} (h : C.Distinct ns N) (x u : ℕ → V3 ℝ) (w : List (V3 ℝ)) :
    ∑ v ∈ Finset.range N, V3.dot (C.transposeMul ns x w v) (u v) =
      ((C.relativeVelocities x u).zipIdx.map fun r => V3.dot (w.getD r.2 0) r.1).sum := by
  -- blocks
  have hcol : ∀ b ∈ C.contactBlocks x, b.col < ns := by
    intro b hb
    obtain ⟨p, hp, hb⟩ := List.mem_flatMap.1 hb
    obtain ⟨s, hs, j, e⟩ := C.contactRow_col x p b hb
    rw [e]
    exact h.corner p hp s hs j
  have hrow : ∀ b ∈ C.contactBlocks x, b.row < C.active.length := by
    intro b hb
    obtain ⟨p, hp, hb⟩ := List.mem_flatMap.1 hb
    rw [C.contactRow_row x p b hb]
    have : C.constraintOf p.2 ∈ C.active.map fun p => C.constraintOf p.2 :=
      List.mem_map.2 ⟨p, hp, rfl⟩
    rw [constraintOf_active] at this
    exact List.mem_range.1 this
  -- the two loops
  set surfV : ℕ → V3 ℝ := fun j => (((C.contactBlocks x).filter fun b => b.col = j).map fun b =>
    b.val.transpose.mulVec (w.getD b.row 0)).sum with hsv
  set L1 : List (ℕ × V3 ℝ) := (List.range ns).map fun j => (C.surf j, surfV j) with hL1
  set L2 : List (ℕ × V3 ℝ) := C.active.zipIdx.map fun p => (C.coll p.1.2, -w.getD p.2 0) with hL2
  have ht : C.transposeMul ns x w = L2.foldl (fun f p => Function.update f p.1 p.2)
      (L1.foldl (fun f p => Function.update f p.1 p.2) fun _ => 0) := by
    rw [hL1, hL2, List.foldl_map, List.foldl_map]
    rfl
  have hn1 : (L1.map Prod.fst).Nodup := by
    rw [hL1, List.map_map]
    refine List.Nodup.map_on ?_ List.nodup_range
    intro i hi j hj e
    exact h.surf_inj i (List.mem_range.1 hi) j (List.mem_range.1 hj) e
  have hf2 : L2.map Prod.fst = C.active.map fun p => C.coll p.2 := by
    rw [hL2, List.map_map]
    have : C.active.zipIdx.map (Prod.fst ∘ fun p => (C.coll p.1.2, -w.getD p.2 0)) =
        (C.active.zipIdx.map Prod.fst).map fun p => C.coll p.2 := by
      rw [List.map_map]; rfl
    rw [this, List.zipIdx_map_fst]
  have hn2 : (L2.map Prod.fst).Nodup := by rw [hf2]; exact h.coll_inj
  have h1 : ∀ p ∈ L1, p.1 < N := by
    intro p hp
    obtain ⟨j, hj, rfl⟩ := List.mem_map.1 hp
    exact h.surf_lt j (List.mem_range.1 hj)
  have h2 : ∀ p ∈ L2, p.1 < N := by
    intro p hp
    have : p.1 ∈ L2.map Prod.fst := List.mem_map.2 ⟨p, hp, rfl⟩
    rw [hf2] at this
    obtain ⟨q, hq, e⟩ := List.mem_map.1 this
    rw [← e]
    exact h.coll_lt q hq
  have h0 : ∀ p ∈ L2, L1.foldl (fun (f : ℕ → V3 ℝ) p => Function.update f p.1 p.2) (fun _ => 0) p.1 = 0 := by
    intro p hp
    refine foldl_update_away _ _ _ fun hm => ?_
    rw [hL1, List.map_map] at hm
    obtain ⟨j, -, e⟩ := List.mem_map.1 hm
    obtain ⟨q, -, rfl⟩ := List.mem_map.1 hp
    exact h.apart _ _ e.symm
  rw [ht, foldl_update_sum L2 hn2 N h2 _ u h0, foldl_update_sum L1 hn1 N h1 _ u fun _ _ => rfl]
  simp only [dot_zero_left, Finset.sum_const_zero, zero_add]
  -- the surface
  have e1 : (L1.map fun p => V3.dot p.2 (u p.1)).sum =
      ((C.contactBlocks x).map fun b => V3.dot (w.getD b.row 0) (b.val.mulVec (u (C.surf b.col)))).sum := by
    rw [← sum_by_key (C.contactBlocks x) (fun b => b.col) _ ns hcol, hL1, List.map_map,
      list_sum_eq List.nodup_range, List.toFinset_range]
    refine Finset.sum_congr rfl fun j _ => ?_
    show V3.dot (surfV j) (u (C.surf j)) = _
    rw [hsv, dot_sum]
    congr 1
    refine List.map_congr_left fun b hb => ?_
    have hb : b.col = j := by simpa using (List.mem_filter.1 hb).2
    rw [mulVec_dot_transpose, hb]
  -- the collider
  have e2 : ((C.relativeVelocities x u).zipIdx.map fun r => V3.dot (w.getD r.2 0) r.1).sum =
      (C.active.zipIdx.map fun p => V3.dot (w.getD p.2 0) (((C.contactBlocks x).filter
        fun b => b.row = p.2).map fun b => b.val.mulVec (u (C.surf b.col))).sum).sum +
      (L2.map fun p => V3.dot p.2 (u p.1)).sum := by
    have hz : (C.relativeVelocities x u).zipIdx = C.active.zipIdx.map fun p =>
        ((((C.contactBlocks x).filter fun b => b.row = p.2).map
          fun b => b.val.mulVec (u (C.surf b.col))).sum - u (C.coll p.1.2), p.2) := by
      refine List.ext_getElem (by simp [relativeVelocities]) fun i h1 h2 => ?_
      simp [relativeVelocities]
    rw [hz, hL2, List.map_map, List.map_map, ← List.sum_map_add]
    congr 1
    refine List.map_congr_left fun p _ => ?_
    simp only [Function.comp_apply, dot_sub_right, dot_neg_left]
    ring
  have e3 : (C.active.zipIdx.map fun p => V3.dot (w.getD p.2 0) (((C.contactBlocks x).filter
        fun b => b.row = p.2).map fun b => b.val.mulVec (u (C.surf b.col))).sum).sum =
      ((C.contactBlocks x).map fun b => V3.dot (w.getD b.row 0) (b.val.mulVec (u (C.surf b.col)))).sum := by
    rw [← sum_by_key (C.contactBlocks x) (fun b => b.row) _ C.active.length hrow]
    have : C.active.zipIdx.map (fun p => V3.dot (w.getD p.2 0) (((C.contactBlocks x).filter
        fun b => b.row = p.2).map fun b => b.val.mulVec (u (C.surf b.col))).sum) =
        (C.active.zipIdx.map Prod.snd).map fun r => V3.dot (w.getD r 0) (((C.contactBlocks x).filter
        fun b => b.row = r).map fun b => b.val.mulVec (u (C.surf b.col))).sum := by
      rw [List.map_map]; rfl
    rw [this, List.zipIdx_map_snd, ← List.range_eq_range', list_sum_eq List.nodup_range,
      List.toFinset_range]
    refine Finset.sum_congr rfl fun r _ => ?_
    rw [dot_sum_right]
    congr 1
    refine List.map_congr_left fun b hb => ?_
    have hb : b.row = r := by simpa using (List.mem_filter.1 hb).2
    rw [hb]
  rw [e1, e2, e3]

/-! ## Friction takes energy -/

theorem lambda_nonneg (hk : 0 ≤ C.kappa) (hd : 0 < C.delta) (x : ℕ → V3 ℝ) (r : ℕ) :
    0 ≤ (C.lambda x).getD r 0 := by
  have : ∀ l ∈ C.lambda x, 0 ≤ l := by
    intro l hl
    obtain ⟨d, -, rfl⟩ := List.mem_map.1 hl
    have := ContactPenalty.db_nonpos C.delta d hd
    nlinarith
  by_cases hr : r < (C.lambda x).length
  · rw [List.getD_eq_getElem _ _ hr]
    exact this _ (List.getElem_mem hr)
  · rw [List.getD_eq_default _ _ (not_lt.1 hr)]

theorem constraintFriction_getD (p : Friction.Params) (x v : ℕ → V3 ℝ) (r : V3 ℝ × ℕ)
    (hr : r ∈ (C.relativeVelocities x v).zipIdx) :
    (C.constraintFriction p x v).getD r.2 0 =
      ((C.contactBasis x).contactFriction p ((C.lambda x).getD r.2 0) r.1 r.2).getD 0 := by
  obtain ⟨i, hi, e⟩ := List.mem_iff_getElem.1 hr
  simp only [List.length_zipIdx] at hi
  simp only [List.getElem_zipIdx, zero_add] at e
  subst e
  rw [constraintFriction, List.getD_eq_getElem _ _ (by simpa using hi)]
  simp

/-- Specification: the power of forces `f` on vertices that move with velocities `v`. -/
def totalPower (N : ℕ) (f v : ℕ → V3 ℝ) : ℝ := ∑ i ∈ Finset.range N, V3.dot (f i) (v i)

/-- C84: friction between two objects never adds energy to their motion, whatever the shape of the
surface and whether the state is that of the previous step or the current one. -/
theorem pair_friction_dissipates {ns N : ℕ} (h : C.Distinct ns N) (hk : 0 ≤ C.kappa) (hd : 0 < C.delta)
    (p : Friction.Params) (hp : p.Valid) (x v f : ℕ → V3 ℝ) (hf : C.frictionForce ns p x v = some f) :
    totalPower N f v ≤ 0 := by
  have e : f = C.transposeMul ns x (C.constraintFriction p x v) := by
    unfold frictionForce at hf
    split at hf
    · cases hf
    · exact (Option.some.inj hf).symm
  rw [totalPower, e, C.transposeMul_adjoint h]
  have : ∀ r ∈ (C.relativeVelocities x v).zipIdx,
      V3.dot ((C.constraintFriction p x v).getD r.2 0) r.1 ≤ 0 := by
    intro r hr
    rw [C.constraintFriction_getD p x v r hr]
    cases hc : (C.contactBasis x).contactFriction p ((C.lambda x).getD r.2 0) r.1 r.2 with
    | none => simp [dot_zero_left]
    | some g => exact ContactBasis.contactFriction_dissipates _ p hp _ (C.lambda_nonneg hk hd x _) _ _ _ hc
  generalize (C.relativeVelocities x v).zipIdx = L at this
  induction L with
  | nil => simp
  | cons a L ih =>
    rw [List.map_cons, List.sum_cons]
    have h1 := this a List.mem_cons_self
    have h2 := ih fun r hr => this r (List.mem_cons_of_mem _ hr)
    linarith

/-! ## Objects at rest -/

theorem contactFriction_rest (b : ContactBasis) (p : Friction.Params) (l : ℝ) (i : ℕ) :
    (b.contactFriction p l 0 i).getD 0 = 0 := by
  unfold ContactBasis.contactFriction ContactBasis.toContactCoordinates
    ContactBasis.fromContactCoordinates
  cases hm : b.contactBasisMatrix i with
  | none => simp
  | some m =>
    have h0 : m.mulVec 0 = 0 := by ext <;> simp [M3.mulVec, V3.dot]
    have hr : Friction.profile ⟨0, 0⟩ l p = 0 := Friction.friction_rest p l
    simp only [Option.map_some, Option.bind_some, h0, V3.zero_y, V3.zero_z, hr, Option.getD_some]
    ext <;> simp [M3.mulVec, M3.transpose, V3.dot]

theorem transposeMul_zero (ns : ℕ) (x : ℕ → V3 ℝ) (w : List (V3 ℝ)) (hw : ∀ r, w.getD r 0 = 0) :
    C.transposeMul ns x w = fun _ => 0 := by
  have hm : ∀ m : M3 ℝ, m.mulVec 0 = 0 := fun m => by ext <;> simp [M3.mulVec, V3.dot]
  have hu : ∀ (α : Type) (l : List α) (k : α → ℕ) (g : α → V3 ℝ), (∀ a, g a = 0) →
      l.foldl (fun (f : ℕ → V3 ℝ) a => Function.update f (k a) (g a)) (fun _ => 0) = fun _ => 0 := by
    intro α l k g hg
    induction l with
    | nil => rfl
    | cons a l ih =>
      rw [List.foldl_cons, hg a]
      have : Function.update (fun _ : ℕ => (0 : V3 ℝ)) (k a) 0 = fun _ => 0 := by
        funext v
        by_cases hv : v = k a
        · rw [hv, Function.update_self]
        · rw [Function.update_of_ne hv]
      rw [this, ih]
  unfold transposeMul
  simp only [hw, hm]
  rw [hu ℕ _ (fun j => C.surf j) (fun j => _) fun j => by simp]
  exact hu ((List ℕ × ℕ) × ℕ) _ (fun p => C.coll p.1.2) (fun _ => -0) fun _ => neg_zero

/-- Friction vanishes where the relative velocities do. -/
theorem friction_of_relative (ns : ℕ) (p : Friction.Params) (x v f : ℕ → V3 ℝ)
    (hr : ∀ r ∈ C.relativeVelocities x v, r = 0) (hf : C.frictionForce ns p x v = some f) :
    f = fun _ => 0 := by
  unfold frictionForce at hf
  split at hf
  · cases hf
  · rw [← Option.some.inj hf]
    refine C.transposeMul_zero ns x _ fun r => ?_
    by_cases hl : r < (C.relativeVelocities x v).length
    · have hm : ((C.relativeVelocities x v)[r], r) ∈ (C.relativeVelocities x v).zipIdx :=
        List.mem_iff_getElem.2 ⟨r, by simpa using hl, by simp⟩
      have := C.constraintFriction_getD p x v _ hm
      rw [this]
      simp only [hr _ (List.getElem_mem hl)]
      exact contactFriction_rest _ _ _ _
    · rw [List.getD_eq_default]
      simpa [constraintFriction] using hl

/-- C84: objects at rest feel no friction. -/
theorem pair_friction_rest (ns : ℕ) (p : Friction.Params) (x f : ℕ → V3 ℝ)
    (hf : C.frictionForce ns p x (fun _ => 0) = some f) : f = fun _ => 0 := by
  refine C.friction_of_relative ns p x _ f (fun r hr => ?_) hf
  have hm : ∀ m : M3 ℝ, m.mulVec 0 = 0 := fun m => by ext <;> simp [M3.mulVec, V3.dot]
  have hv : ∀ s, C.faceVelocity (fun _ => 0) s = 0 := fun s => by
    ext <;> simp [faceVelocity]
  rw [relativeVelocities_eq] at hr
  obtain ⟨q, -, rfl⟩ := List.mem_map.1 hr
  simp [pushed, hv, hm]

/-! ## Objects that move together -/

/-- Specification: the surface is flat around every contact. -/
def Flat (x : ℕ → V3 ℝ) : Prop :=
  ∀ p ∈ C.active, ∃ n, FlatAround C.kernel (C.query x p.2) p.1 (C.samples x) n

/-- Flat surroundings do not see a common translation. -/
theorem relative_comoving (x : ℕ → V3 ℝ) (hx : C.Flat x) (u : V3 ℝ) :
    ∀ r ∈ C.relativeVelocities x (fun _ => u), r = 0 := by
  intro r hr
  rw [relativeVelocities_eq] at hr
  obtain ⟨p, hp, rfl⟩ := List.mem_map.1 hr
  obtain ⟨n, hn⟩ := hx p hp
  obtain ⟨w, hw, h1⟩ := hn.contactJacobian
  have hv : ∀ s, C.faceVelocity (fun _ => u) s = u := fun s => by
    ext <;> simp [faceVelocity] <;> ring
  have : C.pushed x (fun _ => u) p = u := by
    unfold pushed
    rw [hw]
    simp only [Option.getD_some, hv]
    have e : ∀ l : List ℕ, ((l.zip (l.map fun i => w i • M3.diag (1 : ℝ))).map
        fun s => s.2.mulVec u).sum = (l.map w).sum • u := by
      intro l
      induction l with
      | nil => ext <;> simp
      | cons i l ih =>
        rw [List.map_cons, List.zip_cons_cons, List.map_cons, List.sum_cons, ih, List.map_cons,
          List.sum_cons, M3.mulVec_smul, M3.mulVec_diag]
        ext <;> simp <;> ring
    rw [e, h1]
    ext <;> simp
  rw [this, sub_self]

/-- C84: where the surface is flat around the contacts, objects that move together with any velocity feel no
friction. The full property asks for this on every surface and for every rigid motion. -/
theorem comoving_partial (ns : ℕ) (p : Friction.Params) (x f : ℕ → V3 ℝ) (hx : C.Flat x) (u : V3 ℝ)
    (hf : C.frictionForce ns p x (fun _ => u) = some f) : f = fun _ => 0 :=
  C.friction_of_relative ns p x _ f (C.relative_comoving x hx u) hf

theorem dot_total (N : ℕ) (f : ℕ → V3 ℝ) (u : V3 ℝ) :
    ∑ v ∈ Finset.range N, V3.dot (f v) u = V3.dot (∑ v ∈ Finset.range N, f v) u := by
  induction N with
  | zero => simp [dot_zero_left]
  | succ N ih => rw [Finset.sum_range_succ, ih, Finset.sum_range_succ, dot_add_left]

/-- C84: where the surface is flat around the contacts, the friction forces on the two objects sum to zero,
whatever the velocities. The full property asks for this on every surface. -/
theorem friction_momentum_partial {ns N : ℕ} (h : C.Distinct ns N) (p : Friction.Params)
    (x v f : ℕ → V3 ℝ) (hx : C.Flat x) (hf : C.frictionForce ns p x v = some f) :
    ∑ i ∈ Finset.range N, f i = 0 := by
  have e : f = C.transposeMul ns x (C.constraintFriction p x v) := by
    unfold frictionForce at hf
    split at hf
    · cases hf
    · exact (Option.some.inj hf).symm
  refine V3.dot_self_eq_zero.1 ?_
  rw [← dot_total]
  generalize hu : ∑ i ∈ Finset.range N, f i = u
  rw [e, C.transposeMul_adjoint h x (fun _ => u)]
  have hz := C.relative_comoving x hx u
  have : (C.relativeVelocities x fun _ => u).zipIdx.map (fun r =>
      V3.dot ((C.constraintFriction p x v).getD r.2 0) r.1) =
      (C.relativeVelocities x fun _ => u).zipIdx.map fun _ => (0 : ℝ) := by
    refine List.map_congr_left fun r hr => ?_
    have hm : r.1 ∈ C.relativeVelocities x fun _ => u := by
      have : r.1 ∈ (C.relativeVelocities x fun _ => u).zipIdx.map Prod.fst :=
        List.mem_map.2 ⟨r, hr, rfl⟩
      rwa [List.zipIdx_map_fst] at this
    rw [hz r.1 hm, dot_zero_right]
  rw [this]
  simp

/-! ## The force on a vertex of the collider -/

theorem transposeMul_collider {ns N : ℕ} (h : C.Distinct ns N) (x : ℕ → V3 ℝ) (w : List (V3 ℝ))
    (r : (List ℕ × ℕ) × ℕ) (hr : r ∈ C.active.zipIdx) :
    C.transposeMul ns x w (C.coll r.1.2) = -w.getD r.2 0 := by
  set L2 : List (ℕ × V3 ℝ) := C.active.zipIdx.map fun p => (C.coll p.1.2, -w.getD p.2 0) with hL2
  have hf2 : L2.map Prod.fst = C.active.map fun p => C.coll p.2 := by
    rw [hL2, List.map_map]
    have : C.active.zipIdx.map (Prod.fst ∘ fun p => (C.coll p.1.2, -w.getD p.2 0)) =
        (C.active.zipIdx.map Prod.fst).map fun p => C.coll p.2 := by
      rw [List.map_map]; rfl
    rw [this, List.zipIdx_map_fst]
  have hn2 : (L2.map Prod.fst).Nodup := by rw [hf2]; exact h.coll_inj
  have := foldl_update_mem L2 hn2 ((List.range ns).foldl (fun f j => Function.update f (C.surf j)
    ((((C.contactBlocks x).filter fun b => b.col = j).map fun b =>
      b.val.transpose.mulVec (w.getD b.row 0)).sum)) fun _ => 0) (C.coll r.1.2, -w.getD r.2 0)
    (List.mem_map.2 ⟨r, hr, rfl⟩)
  rw [hL2, List.foldl_map] at this
  exact this

/-- C84: the friction force on a vertex of the collider is tangential, at most the coefficient of friction
times the contact force, and drags the vertex along with the surface. -/
theorem collider_friction_coulomb {ns N : ℕ} (h : C.Distinct ns N) (hk : 0 ≤ C.kappa) (hd : 0 < C.delta)
    (p : Friction.Params) (hp : p.Valid) (hv : p.viscousFriction = 0) (x v f : ℕ → V3 ℝ)
    (hf : C.frictionForce ns p x v = some f)
    (hg : ∀ c ∈ C.active, ∃ g, g ≠ 0 ∧ queryJacobianAt (C.query x c.2) c.1 (C.samples x)
      (some (C.closest c.2)) C.kernel params = some g)
    (c : List ℕ × ℕ) (hc : c ∈ C.active) (g : V3 ℝ)
    (hcg : queryJacobianAt (C.query x c.2) c.1 (C.samples x) (some (C.closest c.2)) C.kernel params =
      some g) :
    V3.dot g (f (C.coll c.2)) = 0 ∧
      (f (C.coll c.2)).norm ≤ max p.staticFriction p.dynamicFriction *
        (-C.kappa * ContactPenalty.db C.delta (C.distance x c)) ∧
      0 ≤ V3.dot (f (C.coll c.2)) (C.pushed x v c - v (C.coll c.2)) := by
  have e : f = C.transposeMul ns x (C.constraintFriction p x v) := by
    unfold frictionForce at hf
    split at hf
    · cases hf
    · exact (Option.some.inj hf).symm
  obtain ⟨i, hi, hic⟩ := List.mem_iff_getElem.1 hc
  have hz : (c, i) ∈ C.active.zipIdx := by
    refine List.mem_iff_getElem.2 ⟨i, by simpa using hi, ?_⟩
    simp [hic]
  have hforce : f (C.coll c.2) = -(C.constraintFriction p x v).getD i 0 := by
    rw [e]; exact C.transposeMul_collider h x _ _ hz
  -- the constraint
  have hrow : C.constraintOf c.2 = i := by
    have h1 : (C.active.map fun p => C.constraintOf p.2)[i]'(by simpa using hi) = C.constraintOf c.2 := by
      simp [hic]
    have h2 : (C.active.map fun p => C.constraintOf p.2)[i]'(by simpa using hi) = i := by
      simp only [C.constraintOf_active, List.getElem_range]
    rw [← h1, h2]
  have hlam : (C.lambda x).getD i 0 = -C.kappa * ContactPenalty.db C.delta (C.distance x c) := by
    rw [← hrow]; exact C.lambda_row x c hc
  have hrel : (C.pushed x v c - v (C.coll c.2), i) ∈ (C.relativeVelocities x v).zipIdx := by
    refine List.mem_iff_getElem.2 ⟨i, by simpa [relativeVelocities_length] using hi, ?_⟩
    simp [relativeVelocities_eq, hic]
  -- the frame
  have hunit : ContactBasis.UnitNormals (C.contactNormals x) := by
    intro n hn
    obtain ⟨g', hg', rfl⟩ := List.mem_map.1 hn
    obtain ⟨c', hc', rfl⟩ := List.mem_map.1 hg'
    obtain ⟨g1, hne, e1⟩ := hg c' hc'
    rw [e1, Option.getD_some]
    have hpos : 0 < g1.norm := by
      rcases (V3.norm_nonneg g1).lt_or_eq with h | h
      · exact h
      · have := V3.norm_mul_norm g1
        rw [← h, mul_zero] at this
        exact absurd (V3.dot_self_eq_zero.1 this.symm) hne
    rw [if_pos hpos]
    rw [dot_smul_left, dot_smul_right, ← V3.norm_mul_norm]
    field_simp
  have hlen : i < (C.contactNormals x).length := by
    simpa [contactNormals, queryBlocks] using hi
  have hnorm : (C.contactNormals x)[i] = if g.norm > 0 then (1 / -g.norm) • g else g := by
    simp [contactNormals, queryBlocks, hic, hcg]
  obtain ⟨w, hw, h1, h2⟩ := ContactBasis.contactFriction_coulomb hunit hlen p hp hv
    ((C.lambda x).getD i 0) (C.lambda_nonneg hk hd x i) (C.pushed x v c - v (C.coll c.2))
  have hdis := ContactBasis.contactFriction_dissipates _ p hp _ (C.lambda_nonneg hk hd x i) _ _ _ hw
  have hcf : (C.constraintFriction p x v).getD i 0 = w := by
    have := C.constraintFriction_getD p x v _ hrel
    simp only at this
    rw [this]
    show ((ContactBasis.updateFromNormals (C.contactNormals x)).contactFriction p _ _ i).getD 0 = w
    rw [hw]
    rfl
  rw [hforce, hcf]
  refine ⟨?_, ?_, ?_⟩
  · rw [hnorm] at h1
    rw [dot_neg_right]
    split at h1
    · rename_i hpos
      rw [dot_smul_left] at h1
      have : (1 / -g.norm) ≠ 0 := by
        have := (ne_of_gt hpos)
        simp [this]
      rw [(mul_eq_zero.1 h1).resolve_left this, neg_zero]
    · rw [h1, neg_zero]
  · rw [← hlam]
    have : (-w).norm = w.norm := by
      unfold V3.norm V3.dot
      simp
    rw [this]
    exact h2
  · rw [dot_neg_left]
    linarith

end Pair

/-! ## Counterexamples

Three contacts with friction coefficient one, in which the contact force is one and the collider has one
vertex. In each the objects move together as one rigid body, and each feels all the friction that there can
be. -/

/-- Coulomb friction with coefficient one. -/
def fullFriction : Friction.Params := ⟨1, 1, 0, 0, 1 / 100, .quadratic⟩

theorem fullFriction_valid : fullFriction.Valid := by
  constructor <;> norm_num [fullFriction]

/-- Friction at a contact with a level surface that slides. -/
theorem full_friction_level (a b : ℝ) (h : 1 / 100 ≤ (⟨a, b, 0⟩ : V3 ℝ).norm) :
    (ContactBasis.updateFromNormals [⟨0, 0, -1⟩]).contactFriction fullFriction 1 ⟨a, b, 0⟩ 0 =
      some ((-1 / (⟨a, b, 0⟩ : V3 ℝ).norm) • ⟨a, b, 0⟩) := by
  have ht : ContactBasis.tangentFor ⟨0, 0, -1⟩ = ⟨1, 0, 0⟩ := by
    unfold ContactBasis.tangentFor
    have e : (V3.iamax ⟨0, 0, -1⟩ + 1) % 3 = 0 := by
      norm_num [V3.iamax]
    simp only [e]
    ext <;> simp [V3.normalize, V3.norm, V3.dot, V3.axis, V3.getN]
  have hm : (ContactBasis.updateFromNormals [⟨0, 0, -1⟩]).contactBasisMatrix 0 =
      some (ContactBasis.frame ⟨0, 0, -1⟩ ⟨1, 0, 0⟩) := by
    rw [ContactBasis.matrix_of_lt (by simp)]
    simp [ht]
  have hc : (ContactBasis.frame ⟨0, 0, -1⟩ ⟨1, 0, 0⟩).mulVec ⟨a, b, 0⟩ = ⟨0, a, -b⟩ := by
    ext <;> simp [ContactBasis.frame, M3.mulVec, V3.dot, V3.cross]
  have hn : (⟨a, -b⟩ : V2 ℝ).norm = (⟨a, b, 0⟩ : V3 ℝ).norm := by
    unfold V2.norm V3.norm V2.dot V3.dot
    congr 1
    ring
  have hpos : (0 : ℝ) < (⟨a, b, 0⟩ : V3 ℝ).norm := lt_of_lt_of_le (by norm_num) h
  have hp : Friction.profile ⟨a, -b⟩ 1 fullFriction =
      (1 / (⟨a, b, 0⟩ : V3 ℝ).norm) • (⟨a, -b⟩ : V2 ℝ) := by
    unfold Friction.profile fullFriction
    simp only [Friction.eta, Friction.quadraticProfile, hn]
    rw [if_neg (not_lt.2 h)]
    ext <;> simp
  unfold ContactBasis.contactFriction ContactBasis.toContactCoordinates
    ContactBasis.fromContactCoordinates
  simp only [hm, Option.map_some, Option.bind_some, hc, hp]
  congr 1
  ext <;> simp [ContactBasis.frame, M3.mulVec, M3.transpose, V3.dot, V3.cross] <;> ring

namespace Pair

variable (C : Pair)

/-- A pair with one contact, with a level surface and contact force one. -/
theorem single_friction (c : List ℕ × ℕ) (hc : C.active = [c]) {ns N : ℕ} (hd : C.Distinct ns N)
    (x v : ℕ → V3 ℝ) (g : ℝ) (hg : 0 < g)
    (hq : queryJacobianAt (C.query x c.2) c.1 (C.samples x) (some (C.closest c.2)) C.kernel params =
      some ⟨0, 0, g⟩)
    (hl : -C.kappa * ContactPenalty.db C.delta (C.distance x c) = 1) (a b : ℝ)
    (hr : C.pushed x v c - v (C.coll c.2) = ⟨a, b, 0⟩) (h : 1 / 100 ≤ (⟨a, b, 0⟩ : V3 ℝ).norm) :
    ∃ f, C.frictionForce ns fullFriction x v = some f ∧
      f (C.coll c.2) = (1 / (⟨a, b, 0⟩ : V3 ℝ).norm) • ⟨a, b, 0⟩ ∧
      ∀ u, V3.dot (∑ i ∈ Finset.range N, f i) u =
        V3.dot ((-1 / (⟨a, b, 0⟩ : V3 ℝ).norm) • ⟨a, b, 0⟩)
          (C.pushed x (fun _ => u) c - u) := by
  have hlam : C.lambda x = [1] := by
    simp [lambda, ContactPenalty.multipliers, distances_eq, hc] at hl ⊢
    linarith
  have hnorm : (⟨0, 0, g⟩ : V3 ℝ).norm = g := by
    simp [V3.norm, V3.dot, Real.sqrt_mul_self hg.le]
  have hN : C.contactNormals x = [⟨0, 0, -1⟩] := by
    simp only [contactNormals, queryBlocks, hc, List.map_cons, List.map_nil, hq, Option.getD_some, hnorm]
    rw [if_pos hg]
    congr 1
    ext <;> simp
    field_simp
  have hrel : ∀ v, C.relativeVelocities x v = [C.pushed x v c - v (C.coll c.2)] := fun v => by
    rw [relativeVelocities_eq, hc]; rfl
  have hcf : C.constraintFriction fullFriction x v =
      [(-1 / (⟨a, b, 0⟩ : V3 ℝ).norm) • ⟨a, b, 0⟩] := by
    simp only [constraintFriction, hrel, hr, contactBasis, hN, hlam, List.zipIdx_singleton,
      List.map_cons, List.map_nil, List.getD_cons_zero, full_friction_level a b h, Option.getD_some]
  refine ⟨C.transposeMul ns x (C.constraintFriction fullFriction x v), ?_, ?_, ?_⟩
  · unfold frictionForce
    rw [if_neg (by norm_num [Friction.Params.isNone, fullFriction])]
  · have := C.transposeMul_collider hd x (C.constraintFriction fullFriction x v) (c, 0) (by simp [hc])
    simp only at this
    rw [this, hcf]
    ext <;> simp <;> ring
  · intro u
    rw [← dot_total, C.transposeMul_adjoint hd x (fun _ => u), hrel, hcf]
    simp

end Pair

/-! ### A ridge -/

/-- Two triangles that meet at a ridge, and a vertex on it. -/
def roof : Pair where
  tris := fun s => if s = 0 then ⟨0, 2, 1⟩ else ⟨0, 1, 3⟩
  value := fun _ => 0
  kernel := .cubic 2
  nbrs := [[0, 1]]
  closest := fun _ => 0
  surf := fun j => if j < 4 then j else 0
  coll := fun _ => 4
  objectFixed := false
  colliderFixed := false
  offset := 0
  delta := 1
  kappa := 1 / 3

def roofX (v : ℕ) : V3 ℝ :=
  if v = 0 then ⟨0, -1, 0⟩ else if v = 1 then ⟨0, 1, 0⟩ else if v = 2 then ⟨12 / 5, 0, -9 / 5⟩
  else if v = 3 then ⟨-12 / 5, 0, -9 / 5⟩ else 0

theorem roof_active : roof.active = [([0, 1], 0)] := rfl

theorem roof_distinct : roof.Distinct 4 5 := by
  constructor
  · intro p hp s hs j
    rw [roof_active, List.mem_singleton] at hp
    subst hp
    show Tri.get (if s = 0 then ⟨0, 2, 1⟩ else ⟨0, 1, 3⟩) j < 4
    split <;> fin_cases j <;> decide
  · intro i hi j hj e
    simpa [roof, hi, hj] using e
  · simp [roof_active]
  · intro i j
    show 4 ≠ if j < 4 then j else 0
    split <;> omega
  · intro j hj
    show (if j < 4 then j else 0) < 5
    split <;> omega
  · intro p _
    show 4 < 5
    omega

theorem roof_pos (i : ℕ) : (roof.samples roofX).pos i =
    if i = 0 then ⟨4 / 5, 0, -3 / 5⟩ else ⟨-4 / 5, 0, -3 / 5⟩ := by
  by_cases h : i = 0 <;> ext <;>
    simp [h, Pair.samples, faceSamples, roof, roofX] <;> norm_num

theorem roof_nml (i : ℕ) : (roof.samples roofX).nml i =
    if i = 0 then ⟨18 / 5, 0, 24 / 5⟩ else ⟨-18 / 5, 0, 24 / 5⟩ := by
  by_cases h : i = 0 <;> ext <;>
    simp [h, Pair.samples, faceSamples, roof, roofX, areaNormal, V3.cross] <;> norm_num

theorem roof_norm (a b : ℝ) (r : ℝ) (hr : 0 ≤ r) (h : a * a + b * b = r * r) :
    (⟨a, 0, b⟩ : V3 ℝ).norm = r := by
  unfold V3.norm V3.dot
  rw [show a * a + 0 * 0 + b * b = r * r by linarith, Real.sqrt_mul_self hr]

theorem roof_unit (i : ℕ) : unitNormal (roof.samples roofX) i =
    if i = 0 then ⟨3 / 5, 0, 4 / 5⟩ else ⟨-3 / 5, 0, 4 / 5⟩ := by
  unfold unitNormal
  rw [roof_nml]
  by_cases h : i = 0
  · simp only [h, if_true]
    rw [roof_norm _ _ 6 (by norm_num) (by norm_num)]
    ext <;> norm_num
  · simp only [h, if_false]
    rw [roof_norm _ _ 6 (by norm_num) (by norm_num)]
    ext <;> norm_num

theorem roof_query : roof.query roofX 0 = 0 := rfl

theorem roof_dist (i : ℕ) : ((0 : V3 ℝ) - (roof.samples roofX).pos i).norm = 1 := by
  rw [roof_pos]
  have e : (0 : V3 ℝ) - (if i = 0 then ⟨4 / 5, 0, -3 / 5⟩ else ⟨-4 / 5, 0, -3 / 5⟩) =
      ⟨if i = 0 then -4 / 5 else 4 / 5, 0, 3 / 5⟩ := by
    split <;> ext <;> norm_num
  rw [e]
  split <;> exact roof_norm _ _ 1 (by norm_num) (by norm_num)

theorem roof_weight (i : ℕ) : weight roof.kernel 1 0 (roof.samples roofX) i = 1 / 2 := by
  show cubicF 2 ((0 : V3 ℝ) - (roof.samples roofX).pos i).norm = 1 / 2
  rw [roof_dist, cubicF_eq, if_neg (by norm_num)]
  norm_num

theorem roof_closest : closestSample 0 (roof.samples roofX) [0, 1] = some 0 := by
  have h : ∀ i, V3.dot (0 - (roof.samples roofX).pos i) (0 - (roof.samples roofX).pos i) = 1 := fun i => by
    rw [← V3.norm_mul_norm, roof_dist, one_mul]
  simp only [closestSample, closestFrom, h, lt_irrefl, if_false]

theorem roof_height (i : ℕ) : V3.dot (unitNormal (roof.samples roofX) i)
    (0 - (roof.samples roofX).pos i) = 0 := by
  rw [roof_unit, roof_pos]
  split <;> simp [V3.dot] <;> norm_num

theorem roof_gradient (cl : Option ℕ) :
    queryJacobianAt 0 [0, 1] (roof.samples roofX) cl roof.kernel params = some ⟨0, 0, 4 / 5⟩ := by
  unfold queryJacobianAt
  rw [new_eq none cl roof_closest]
  simp only [Option.map_some, Option.some.injEq]
  set b := bgAt roof.kernel params 0 [0, 1] (roof.samples roofX) 0 none with hb
  have hd : b.dist = 1 := roof_dist 0
  have hbw : backgroundWeight roof.kernel false 1 = 0 := by
    show (if (2 : ℝ) < 1 then (1 : ℝ) else if false then _ else 0) = 0
    norm_num
  have hw0 : b.bgWeight = 0 := by
    show backgroundWeight roof.kernel false b.dist = 0
    rw [hd, hbw]
  have hW : b.weightSum = 1 := by
    show ([0, 1].map (weight roof.kernel b.dist 0 (roof.samples roofX))).sum +
      backgroundWeight roof.kernel false b.dist = 1
    rw [hd, hbw]
    simp [roof_weight]
    norm_num
  have hq : b.queryJacobian = 0 := by
    unfold Bg.queryJacobian
    simp only [hw0, show b.weighted = false from rfl, zero_mul]
    ext <;> simp
  have hs : ∀ i, sampleQueryJacobian b (neighborWeightGrad b) i =
      (1 / 2 : ℝ) • unitNormal (roof.samples roofX) i := by
    intro i
    show b.weightSumInv • (((0 : ℝ) + V3.dot (unitNormal (roof.samples roofX) i)
      (0 - (roof.samples roofX).pos i)) • (weightGrad roof.kernel b.dist 0 (roof.samples roofX) i -
        weight roof.kernel b.dist 0 (roof.samples roofX) i • neighborWeightGrad b) +
        weight roof.kernel b.dist 0 (roof.samples roofX) i • unitNormal (roof.samples roofX) i) = _
    rw [roof_height, hd, roof_weight, weightSumInv_eq, hW]
    ext <;> simp
  rw [hq]
  simp only [List.map_cons, List.map_nil, List.sum_cons, List.sum_nil, hs, roof_unit]
  ext <;> norm_num

/-- What the roof makes of a common velocity. -/
theorem roof_pushed (u : V3 ℝ) : roof.pushed roofX (fun _ => u) ([0, 1], 0) =
    ⟨(881 / 1025) * u.x, u.y, (881 / 1025) * u.z⟩ := by
  have hv : ∀ s, roof.faceVelocity (fun _ => u) s = u := fun s => by
    ext <;> simp [Pair.faceVelocity] <;> ring
  have hk : ∀ i, normalKernel (unitNormal (roof.samples roofX) i) ⟨0, 0, 4 / 5⟩ = 1681 / 2500 := by
    intro i
    rw [roof_unit]
    split <;> simp [normalKernel, V3.dot] <;> norm_num
  have hi : weightNmlSumInv roof.kernel 1 0 [0, 1] (roof.samples roofX) ⟨0, 0, 4 / 5⟩ = 2500 / 1681 := by
    unfold weightNmlSumInv
    simp only [List.map_cons, List.map_nil, List.sum_cons, List.sum_nil, roof_weight, hk]
    norm_num
  have hJ : contactJacobianAt (roof.query roofX 0) [0, 1] (roof.samples roofX) roof.kernel params =
      some [(1 / 2 : ℝ) • ⟨⟨881 / 1025, 0, -12 / 25⟩, ⟨0, 1, 0⟩, ⟨12 / 25, 0, 881 / 1025⟩⟩,
        (1 / 2 : ℝ) • ⟨⟨881 / 1025, 0, 12 / 25⟩, ⟨0, 1, 0⟩, ⟨-12 / 25, 0, 881 / 1025⟩⟩] := by
    unfold contactJacobianAt
    rw [roof_query, local_eq none roof_closest, roof_gradient]
    have hd : (bgAt roof.kernel params 0 [0, 1] (roof.samples roofX) 0 none).dist = 1 := roof_dist 0
    simp only [Option.bind_some, Option.map_some, List.map_cons, List.map_nil, hd, sampleContactJacobian,
      roof_weight, hk, hi, roof_unit]
    norm_num [rodrigues, V3.dot, normalKernel]
    constructor <;> ext <;>
      simp [M3.skew, M3.diag, V3.cross, M3.mul_def, M3.mul, M3.mulVec, M3.transpose, V3.dot] <;> norm_num
  unfold Pair.pushed
  simp only [hJ, Option.getD_some, List.zip_cons_cons, List.zip_nil_right, List.map_cons, List.map_nil,
    List.sum_cons, List.sum_nil, hv]
  ext <;> simp [M3.mulVec, V3.dot] <;> ring

theorem roof_distance : roof.distance roofX ([0, 1], 0) = 0 := by
  unfold Pair.distance potentialAt
  have ho : roof.offset = 0 := rfl
  simp only [roof_query]
  rw [local_eq (some 0) roof_closest, ho, sub_zero]
  set b := bgAt roof.kernel params 0 [0, 1] (roof.samples roofX) 0 (some 0) with hb
  have hd : b.dist = 1 := roof_dist 0
  have hw0 : b.bgWeight = 0 := by
    show backgroundWeight roof.kernel false b.dist = 0
    rw [hd]
    show (if (2 : ℝ) < 1 then (1 : ℝ) else if false then _ else 0) = 0
    norm_num
  have hs : ∀ i, samplePotential 0 (roof.samples roofX) i = 0 := by
    intro i
    have := roof_height i
    unfold unitNormal at this
    rw [dot_smul_left, one_div, inv_mul_eq_div] at this
    show (0 : ℝ) + _ = 0
    rw [this, add_zero]
  simp only [Bg.weightedField, hw0, localPotentialAt, hs]
  simp

/-- C84 fails on a ridge: two objects that move together with the same velocity rub against each other with
all the friction that there can be, and the forces on them do not cancel. -/
theorem comoving_violated : ∃ (C : Pair) (ns N : ℕ) (p : Friction.Params) (x f : ℕ → V3 ℝ) (u : V3 ℝ),
    C.Distinct ns N ∧ C.kernel.Proper ∧ 0 < C.kappa ∧ 0 < C.delta ∧ p.Valid ∧ C.lambda x = [1] ∧
      p.staticFriction = 1 ∧ p.dynamicFriction = 1 ∧
      C.frictionForce ns p x (fun _ => u) = some f ∧ f (C.coll 0) = ⟨-1, 0, 0⟩ ∧
      ∑ i ∈ Finset.range N, f i ≠ 0 := by
  have hdb : -roof.kappa * ContactPenalty.db roof.delta (roof.distance roofX ([0, 1], 0)) = 1 := by
    rw [roof_distance]
    show -(1 / 3 : ℝ) * ContactPenalty.db 1 0 = 1
    rw [ContactPenalty.db_of_lt (by norm_num)]
    norm_num
  have hn : (⟨-144 / 1025, 0, 0⟩ : V3 ℝ).norm = 144 / 1025 :=
    roof_norm _ _ _ (by norm_num) (by norm_num)
  obtain ⟨f, h1, h2, h3⟩ := roof.single_friction ([0, 1], 0) roof_active roof_distinct roofX
    (fun _ => ⟨1, 0, 0⟩) (4 / 5) (by norm_num) (roof_gradient _) hdb (-144 / 1025) 0
    (by rw [roof_pushed]; ext <;> norm_num) (by rw [hn]; norm_num)
  refine ⟨roof, 4, 5, fullFriction, roofX, f, ⟨1, 0, 0⟩, roof_distinct, ?_, ?_, ?_, fullFriction_valid, ?_,
    rfl, rfl, h1, ?_, ?_⟩
  · show (0 : ℝ) < 2
    norm_num
  · show (0 : ℝ) < 1 / 3
    norm_num
  · show (0 : ℝ) < 1
    norm_num
  · simp only [Pair.lambda, ContactPenalty.multipliers, Pair.distances_eq, roof_active, List.map_cons,
      List.map_nil, hdb]
  · rw [show roof.coll 0 = roof.coll ([0, 1], 0).2 from rfl, h2, hn]
    ext <;> norm_num
  · intro h0
    have := h3 ⟨1, 0, 0⟩
    rw [h0, dot_zero_left, roof_pushed, hn] at this
    norm_num [V3.dot] at this

/-! ### Turning together -/

/-- A flat triangle and a vertex above it, at distance `r` of its centre and height `h`. -/
def plate (delta kappa : ℝ) : Pair where
  tris := fun _ => demoTri
  value := fun _ => 0
  kernel := .cubic 1
  nbrs := [[0]]
  closest := fun _ => 0
  surf := fun j => if j < 3 then j else 0
  coll := fun _ => 3
  objectFixed := false
  colliderFixed := false
  offset := 0
  delta := delta
  kappa := kappa

def plateX (q : V3 ℝ) (v : ℕ) : V3 ℝ := if v = 3 then q else demoVerts v

section Plate

variable (delta kappa : ℝ)

theorem plate_active : (plate delta kappa).active = [([0], 0)] := rfl

theorem plate_distinct : (plate delta kappa).Distinct 3 4 := by
  constructor
  · intro p hp s hs j
    show Tri.get demoTri j < 3
    fin_cases j <;> decide
  · intro i hi j hj e
    simpa [plate, hi, hj] using e
  · simp [plate_active]
  · intro i j
    show 3 ≠ if j < 3 then j else 0
    split <;> omega
  · intro j hj
    show (if j < 3 then j else 0) < 4
    split <;> omega
  · intro p _
    show 3 < 4
    omega

theorem plate_samples (q : V3 ℝ) : (plate delta kappa).samples (plateX q) =
    faceSamples (fun _ => demoTri) demoVerts fun _ => 0 := by
  unfold Pair.samples faceSamples plate demoTri
  simp [plateX]

theorem plate_pos (i : ℕ) : (faceSamples (fun _ => demoTri) demoVerts fun _ => 0).pos i = ⟨1, 1, 0⟩ := by
  ext <;> simp [faceSamples, demoTri, demoVerts]

theorem plate_nml (i : ℕ) : (faceSamples (fun _ => demoTri) demoVerts fun _ => 0).nml i = ⟨0, 0, 9⟩ := by
  ext <;> simp [faceSamples, demoTri, demoVerts, areaNormal, V3.cross]
  norm_num

theorem plate_normal (i : ℕ) : (1 / ((faceSamples (fun _ => demoTri) demoVerts fun _ => 0).nml i).norm) •
    (faceSamples (fun _ => demoTri) demoVerts fun _ => 0).nml i = ⟨0, 0, 1⟩ := by
  rw [plate_nml, roof_norm _ _ 9 (by norm_num) (by norm_num)]
  ext <;> norm_num

theorem plate_flat (q : V3 ℝ) (h : (q - ⟨1, 1, 0⟩).norm < 1) : (plate delta kappa).Flat (plateX q) := by
  intro p hp
  rw [plate_active, List.mem_singleton] at hp
  subst hp
  refine ⟨⟨0, 0, 1⟩, ?_⟩
  rw [plate_samples]
  have hq : (plate delta kappa).query (plateX q) 0 = q := rfl
  constructor
  · show (0 : ℝ) < 1
    norm_num
  · norm_num [V3.dot]
  · exact fun i _ => plate_normal i
  · refine ⟨q.z, fun i _ => ?_⟩
    rw [hq, plate_pos]
    show (0 : ℝ) + _ = _
    simp [V3.dot]
  · refine ⟨0, by simp, fun r hr => ?_⟩
    rw [hq, plate_pos]
    have : r = 1 := by
      have : (some 1 : Option ℝ) = some r := hr
      exact (Option.some.inj this).symm
    rw [this]
    exact h
  · exact Or.inl trivial

/-- C84 fails for rotations: two objects that turn together as one rigid body about the origin rub against
each other with all the friction that there can be, although the surface is flat, because the surface moves
with the velocity of the centre of the triangle. -/
theorem turning_violated : ∃ (C : Pair) (ns N : ℕ) (p : Friction.Params) (x f : ℕ → V3 ℝ) (o : V3 ℝ),
    C.Distinct ns N ∧ C.Flat x ∧ 0 < C.kappa ∧ 0 < C.delta ∧ p.Valid ∧ C.lambda x = [1] ∧
      p.staticFriction = 1 ∧ p.dynamicFriction = 1 ∧
      C.frictionForce ns p x (fun i => V3.cross o (x i)) = some f ∧ f (C.coll 0) = ⟨0, 1, 0⟩ := by
  have hnorm : ((⟨1 / 2, 1, 1 / 2⟩ : V3 ℝ) - ⟨1, 1, 0⟩).norm < 1 := by
    unfold V3.norm V3.dot
    rw [Real.sqrt_lt' (by norm_num)]
    norm_num
  have hflat := plate_flat 1 (4 / 3) ⟨1 / 2, 1, 1 / 2⟩ hnorm
  obtain ⟨n, hn⟩ := hflat ([0], 0) (by simp [plate_active])
  have hnv : n = ⟨0, 0, 1⟩ := by
    rw [← hn.normals 0 (by simp), plate_samples, plate_normal]
  subst hnv
  have hdist : (plate 1 (4 / 3)).distance (plateX ⟨1 / 2, 1, 1 / 2⟩) ([0], 0) = 1 / 2 := by
    unfold Pair.distance
    rw [hn.potential 0 (1 / 2) fun i _ => by
      rw [plate_samples, plate_pos]
      show (0 : ℝ) + V3.dot ⟨0, 0, 1⟩ ((⟨1 / 2, 1, 1 / 2⟩ : V3 ℝ) - ⟨1, 1, 0⟩) = 1 / 2
      norm_num [V3.dot]]
    show (1 / 2 : ℝ) - 0 = 1 / 2
    norm_num
  have hdb : -(plate 1 (4 / 3)).kappa * ContactPenalty.db (plate 1 (4 / 3)).delta
      ((plate 1 (4 / 3)).distance (plateX ⟨1 / 2, 1, 1 / 2⟩) ([0], 0)) = 1 := by
    rw [hdist]
    show -(4 / 3 : ℝ) * ContactPenalty.db 1 (1 / 2) = 1
    rw [ContactPenalty.db_of_lt (by norm_num)]
    norm_num
  have hm : (⟨0, 1 / 2, 0⟩ : V3 ℝ).norm = 1 / 2 := by
    unfold V3.norm V3.dot
    rw [show (0 : ℝ) * 0 + 1 / 2 * (1 / 2) + 0 * 0 = 1 / 2 * (1 / 2) by norm_num,
      Real.sqrt_mul_self (by norm_num)]
  have hp : (plate 1 (4 / 3)).pushed (plateX ⟨1 / 2, 1, 1 / 2⟩)
      (fun i => V3.cross ⟨0, 0, 1⟩ (plateX ⟨1 / 2, 1, 1 / 2⟩ i)) ([0], 0) = ⟨-1, 1, 0⟩ := by
    obtain ⟨w, hw, h1⟩ := hn.contactJacobian
    have h1 : w 0 = 1 := by simpa using h1
    unfold Pair.pushed
    simp only at hw ⊢
    rw [hw]
    simp only [Option.getD_some, List.map_cons, List.map_nil, List.zip_cons_cons, List.zip_nil_right,
      List.sum_cons, List.sum_nil, add_zero, h1]
    ext <;> simp [Pair.faceVelocity, plate, demoTri, plateX, demoVerts, M3.mulVec, M3.diag, V3.dot, V3.cross]
  obtain ⟨f, h1, h2, -⟩ := (plate 1 (4 / 3)).single_friction ([0], 0) rfl (plate_distinct 1 (4 / 3))
    (plateX ⟨1 / 2, 1, 1 / 2⟩) (fun i => V3.cross ⟨0, 0, 1⟩ (plateX ⟨1 / 2, 1, 1 / 2⟩ i)) 1 one_pos
    (hn.gradient _) hdb 0 (1 / 2) (by
      rw [hp]
      show (⟨-1, 1, 0⟩ : V3 ℝ) - V3.cross ⟨0, 0, 1⟩ ⟨1 / 2, 1, 1 / 2⟩ = _
      ext <;> norm_num [V3.cross]) (by rw [hm]; norm_num)
  refine ⟨plate 1 (4 / 3), 3, 4, fullFriction, _, f, ⟨0, 0, 1⟩, plate_distinct _ _, hflat, ?_, ?_,
    fullFriction_valid, ?_, rfl, rfl, h1, ?_⟩
  · show (0 : ℝ) < 4 / 3
    norm_num
  · show (0 : ℝ) < 1
    norm_num
  · simp only [Pair.lambda, ContactPenalty.multipliers, Pair.distances_eq, plate_active, List.map_cons,
      List.map_nil, hdb]
  · rw [show (plate 1 (4 / 3)).coll 0 = (plate 1 (4 / 3)).coll ([0], 0).2 from rfl, h2, hm]
    ext <;> norm_num

/-! ### Beyond the radius of the kernel -/

theorem far_norm : ((⟨1, 1, 2⟩ : V3 ℝ) - ⟨1, 1, 0⟩).norm = 2 := by
  unfold V3.norm V3.dot
  norm_num
  rw [show (4 : ℝ) = 2 * 2 by norm_num, Real.sqrt_mul_self (by norm_num)]

theorem far_weight (d : ℝ) (i : ℕ) : weight (.cubic 1) d ⟨1, 1, 2⟩
    (faceSamples (fun _ => demoTri) demoVerts fun _ => 0) i = 0 := by
  show cubicF 1 ((⟨1, 1, 2⟩ : V3 ℝ) - _).norm = 0
  rw [plate_pos, far_norm, cubicF_eq, if_pos (by norm_num)]

theorem far_weightGrad (d : ℝ) (i : ℕ) : weightGrad (.cubic 1) d ⟨1, 1, 2⟩
    (faceSamples (fun _ => demoTri) demoVerts fun _ => 0) i = 0 := by
  refine grad_far (k := .cubic 1) (r := 1) one_pos rfl ?_
  rw [plate_pos, far_norm]
  norm_num

theorem far_gradient (cl : Option ℕ) : queryJacobianAt ⟨1, 1, 2⟩ [0]
    (faceSamples (fun _ => demoTri) demoVerts fun _ => 0) cl (.cubic 1) params = some ⟨0, 0, 1⟩ := by
  unfold queryJacobianAt
  rw [new_eq (c := 0) none cl rfl]
  simp only [Option.map_some, Option.some.injEq]
  set S := faceSamples (fun _ => demoTri) demoVerts fun _ => 0 with hS
  set b := bgAt (.cubic 1) params ⟨1, 1, 2⟩ [0] S 0 none with hb
  have hdisp : b.disp = ⟨0, 0, 2⟩ := by
    show (⟨1, 1, 2⟩ : V3 ℝ) - S.pos 0 = _
    rw [hS, plate_pos]
    ext <;> norm_num
  have hd : b.dist = 2 := by
    show ((⟨1, 1, 2⟩ : V3 ℝ) - S.pos 0).norm = 2
    rw [hS, plate_pos, far_norm]
  have hbw : b.bgWeight = 1 := by
    show backgroundWeight (.cubic 1) false b.dist = 1
    rw [hd]
    show (if (1 : ℝ) < 2 then (1 : ℝ) else _) = 1
    norm_num
  have hW : b.weightSum = 1 := by
    show ([0].map (weight (.cubic 1) b.dist ⟨1, 1, 2⟩ S)).sum + b.bgWeight = 1
    simp [hbw, hS, far_weight]
  have ho : b.orientation = 1 := by
    unfold Bg.orientation
    rw [hdisp, if_neg]
    show ¬ V3.dot (S.nml 0) ⟨0, 0, 2⟩ < 0
    rw [hS, plate_nml]
    norm_num [V3.dot]
  have hq : b.queryJacobian = ⟨0, 0, 1⟩ := by
    unfold Bg.queryJacobian
    have hv : b.value = .signedDistance := rfl
    simp only [Bg.fieldGrad, hv, hd, ho, hdisp, hbw, weightSumInv_eq, hW, show b.weighted = false from rfl]
    ext <;> norm_num
  have hs : sampleQueryJacobian b (neighborWeightGrad b) 0 = 0 := by
    unfold sampleQueryJacobian
    have h1 : weight b.kernel b.dist b.q b.S 0 = 0 := far_weight _ _
    have h2 : weightGrad b.kernel b.dist b.q b.S 0 = 0 := far_weightGrad _ _
    simp only [h1, h2]
    ext <;> simp
  rw [hq]
  simp only [List.map_cons, List.map_nil, List.sum_cons, List.sum_nil, hs]
  ext <;> simp

theorem far_potential : potentialAt ⟨1, 1, 2⟩ [0] (faceSamples (fun _ => demoTri) demoVerts fun _ => 0)
    (.cubic 1) params 0 = 2 := by
  unfold potentialAt
  rw [local_eq (c := 0) (some 0) rfl]
  set S := faceSamples (fun _ => demoTri) demoVerts fun _ => 0 with hS
  set b := bgAt (.cubic 1) params ⟨1, 1, 2⟩ [0] S 0 (some 0) with hb
  have hdisp : b.disp = ⟨0, 0, 2⟩ := by
    show (⟨1, 1, 2⟩ : V3 ℝ) - S.pos 0 = _
    rw [hS, plate_pos]
    ext <;> norm_num
  have hd : b.dist = 2 := by
    show ((⟨1, 1, 2⟩ : V3 ℝ) - S.pos 0).norm = 2
    rw [hS, plate_pos, far_norm]
  have hbw : b.bgWeight = 1 := by
    show backgroundWeight (.cubic 1) false b.dist = 1
    rw [hd]
    show (if (1 : ℝ) < 2 then (1 : ℝ) else _) = 1
    norm_num
  have hW : b.weightSum = 1 := by
    show ([0].map (weight (.cubic 1) b.dist ⟨1, 1, 2⟩ S)).sum + b.bgWeight = 1
    simp [hbw, hS, far_weight]
  have ho : b.orientation = 1 := by
    unfold Bg.orientation
    rw [hdisp, if_neg]
    show ¬ V3.dot (S.nml 0) ⟨0, 0, 2⟩ < 0
    rw [hS, plate_nml]
    norm_num [V3.dot]
  have hv : b.value = .signedDistance := rfl
  simp only [Bg.weightedField, Bg.fieldValue, hv, hbw, hd, ho, localPotentialAt, weightSumInv_eq, hW]
  simp [hS, far_weight]

/-- C84 fails beyond the radius of the kernel: the velocity of the surface counts as zero there, so that an
object that moves together with it rubs against it with all the friction that there can be, and the forces on
them do not cancel. -/
theorem far_violated : ∃ (C : Pair) (ns N : ℕ) (p : Friction.Params) (x f : ℕ → V3 ℝ) (u : V3 ℝ),
    C.Distinct ns N ∧ C.kernel.Proper ∧ 0 < C.kappa ∧ 0 < C.delta ∧ p.Valid ∧ C.lambda x = [1] ∧
      p.staticFriction = 1 ∧ p.dynamicFriction = 1 ∧ (∀ v, C.relativeVelocities x v = [-v (C.coll 0)]) ∧
      C.frictionForce ns p x (fun _ => u) = some f ∧ f (C.coll 0) = ⟨-1, 0, 0⟩ ∧
      ∑ i ∈ Finset.range N, f i ≠ 0 := by
  have hdist : (plate 3 1).distance (plateX ⟨1, 1, 2⟩) ([0], 0) = 2 := by
    unfold Pair.distance
    rw [plate_samples]
    show potentialAt ⟨1, 1, 2⟩ [0] _ (.cubic 1) params 0 - 0 = 2
    rw [far_potential, sub_zero]
  have hdb : -(plate 3 1).kappa * ContactPenalty.db (plate 3 1).delta
      ((plate 3 1).distance (plateX ⟨1, 1, 2⟩) ([0], 0)) = 1 := by
    rw [hdist]
    show -(1 : ℝ) * ContactPenalty.db 3 2 = 1
    rw [ContactPenalty.db_of_lt (by norm_num)]
    norm_num
  have hp : ∀ v, (plate 3 1).pushed (plateX ⟨1, 1, 2⟩) v ([0], 0) = 0 := by
    intro v
    have hJ : contactJacobianAt ((plate 3 1).query (plateX ⟨1, 1, 2⟩) 0) [0]
        ((plate 3 1).samples (plateX ⟨1, 1, 2⟩)) (plate 3 1).kernel params = some [0] := by
      rw [plate_samples]
      show contactJacobianAt ⟨1, 1, 2⟩ [0] _ (.cubic 1) params = _
      unfold contactJacobianAt
      rw [local_eq (c := 0) none rfl, far_gradient]
      simp only [Option.bind_some, Option.map_some, List.map_cons, List.map_nil, sampleContactJacobian,
        far_weight, zero_mul, Option.some.injEq, List.cons.injEq, and_true]
      ext <;> simp
    unfold Pair.pushed
    simp only [hJ, Option.getD_some, List.zip_cons_cons, List.zip_nil_right, List.map_cons, List.map_nil,
      List.sum_cons, List.sum_nil]
    ext <;> simp [M3.mulVec, V3.dot]
  have hm : (⟨-1, 0, 0⟩ : V3 ℝ).norm = 1 := roof_norm _ _ 1 (by norm_num) (by norm_num)
  obtain ⟨f, h1, h2, h3⟩ := (plate 3 1).single_friction ([0], 0) rfl (plate_distinct 3 1)
    (plateX ⟨1, 1, 2⟩) (fun _ => ⟨1, 0, 0⟩) 1 one_pos
    (by rw [plate_samples]; exact far_gradient _) hdb (-1) 0
    (by rw [hp]; ext <;> norm_num) (by rw [hm]; norm_num)
  refine ⟨plate 3 1, 3, 4, fullFriction, _, f, ⟨1, 0, 0⟩, plate_distinct _ _, ?_, ?_, ?_,
    fullFriction_valid, ?_, rfl, rfl, ?_, h1, ?_, ?_⟩
  · show (0 : ℝ) < 1
    norm_num
  · show (0 : ℝ) < 1
    norm_num
  · show (0 : ℝ) < 3
    norm_num
  · simp only [Pair.lambda, ContactPenalty.multipliers, Pair.distances_eq, plate_active, List.map_cons,
      List.map_nil, hdb]
  · intro v
    rw [Pair.relativeVelocities_eq, plate_active, List.map_cons, List.map_nil, hp, zero_sub]
  · rw [show (plate 3 1).coll 0 = (plate 3 1).coll ([0], 0).2 from rfl, h2, hm]
    ext <;> norm_num
  · intro h0
    have := h3 ⟨1, 0, 0⟩
    rw [h0, dot_zero_left, hp, hm] at this
    norm_num [V3.dot] at this

/-! ### Cases that meet the hypotheses -/

theorem plate_near : ((⟨1, 1, 1 / 2⟩ : V3 ℝ) - ⟨1, 1, 0⟩).norm < 1 := by
  unfold V3.norm V3.dot
  rw [Real.sqrt_lt' (by norm_num)]
  norm_num

theorem plate_force (v : ℕ → V3 ℝ) : ∃ f, (plate 1 1).frictionForce 3 fullFriction
    (plateX ⟨1, 1, 1 / 2⟩) v = some f := by
  unfold Pair.frictionForce
  rw [if_neg (by norm_num [Friction.Params.isNone, fullFriction])]
  exact ⟨_, rfl⟩

example (v : ℕ → V3 ℝ) : ∃ f, (plate 1 1).frictionForce 3 fullFriction (plateX ⟨1, 1, 1 / 2⟩) v = some f ∧
    Pair.totalPower 4 f v ≤ 0 ∧ ∑ i ∈ Finset.range 4, f i = 0 := by
  obtain ⟨f, hf⟩ := plate_force v
  exact ⟨f, hf, (plate 1 1).pair_friction_dissipates (plate_distinct 1 1) zero_le_one one_pos _
    fullFriction_valid _ _ _ hf, (plate 1 1).friction_momentum_partial (plate_distinct 1 1) _ _ _ _
    (plate_flat 1 1 _ plate_near) hf⟩

example (u : V3 ℝ) : ∃ f, (plate 1 1).frictionForce 3 fullFriction (plateX ⟨1, 1, 1 / 2⟩) (fun _ => u) =
    some f ∧ f = fun _ => 0 := by
  obtain ⟨f, hf⟩ := plate_force fun _ => u
  exact ⟨f, hf, (plate 1 1).comoving_partial 3 _ _ _ (plate_flat 1 1 _ plate_near) u hf⟩

example (v : ℕ → V3 ℝ) : ∃ f, (plate 1 1).frictionForce 3 fullFriction (plateX ⟨1, 1, 1 / 2⟩) v = some f ∧
    V3.dot ⟨0, 0, 1⟩ (f 3) = 0 := by
  obtain ⟨f, hf⟩ := plate_force v
  obtain ⟨n, hn⟩ := plate_flat 1 1 _ plate_near ([0], 0) (by simp [plate_active])
  have hnv : n = ⟨0, 0, 1⟩ := by
    rw [← hn.normals 0 (by simp), plate_samples, plate_normal]
  subst hnv
  refine ⟨f, hf, ((plate 1 1).collider_friction_coulomb (plate_distinct 1 1) zero_le_one one_pos _
    fullFriction_valid rfl _ _ _ hf (fun c hc => ?_) ([0], 0) (by simp [plate_active]) _
    (hn.gradient _)).1⟩
  rw [plate_active, List.mem_singleton] at hc
  subst hc
  exact ⟨_, fun h => by have := congrArg V3.z h; norm_num at this, hn.gradient _⟩

end Plate

end Softy.Contact
