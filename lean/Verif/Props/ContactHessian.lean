import Verif.Model.ContactHessian
import Verif.Props.Contact
import Verif.Props.FieldSecond
import Verif.Props.Sparse

/-!
# The contact Jacobian is the derivative of the contact forces

Property C79: the entries that a contact adds to the Jacobian of the problem are the derivatives of
the contact forces with respect to the vertices, and they come in the order of the reported indices.
-/

noncomputable section

namespace Softy.Contact

open Softy Softy.Kernel Softy.Field

/-- Specification: a matrix of blocks applied to a vector from each side. -/
def form (B : List HBlock) (u w : ℕ → V3 ℝ) : ℝ :=
  (B.map fun h => V3.dot (u h.row) (M3.mulVec h.val (w h.col))).sum

/-- Specification: the coordinates of vectors at vertices, three for each vertex. -/
def flat (u : ℕ → V3 ℝ) (i : ℕ) : ℝ := (u (i / 3)).get ⟨i % 3, Nat.mod_lt _ (by norm_num)⟩

/-- Specification: a matrix of scalar entries applied to a vector from each side. -/
def entryForm (E : List (Sparse.Key × ℝ)) (u w : ℕ → ℝ) : ℝ :=
  (E.map fun e => u e.1.1 * e.2 * w e.1.2).sum

/-! ## Lists -/

theorem form_append (A B : List HBlock) (u w : ℕ → V3 ℝ) :
    form (A ++ B) u w = form A u w + form B u w := by
  simp [form]

theorem flat_at (u : ℕ → V3 ℝ) (v : ℕ) (r : Fin 3) : flat u (3 * v + r.val) = (u v).get r := by
  unfold flat
  have h1 : (3 * v + r.val) / 3 = v := by have := r.isLt; omega
  have h2 : (⟨(3 * v + r.val) % 3, Nat.mod_lt _ (by norm_num)⟩ : Fin 3) = r := by
    ext
    have := r.isLt
    simp only
    omega
  rw [h1, h2]

theorem entries_form (B : List HBlock) (u w : ℕ → V3 ℝ) :
    entryForm (B.flatMap Pair.blockEntries) (flat u) (flat w) = form B u w := by
  induction B with
  | nil => rfl
  | cons h B ih =>
    have e : entryForm (Pair.blockEntries h) (flat u) (flat w) =
        V3.dot (u h.row) (M3.mulVec h.val (w h.col)) := by
      unfold entryForm Pair.blockEntries
      have hl : List.finRange 3 = [0, 1, 2] := rfl
      simp only [hl, List.flatMap_cons, List.flatMap_nil, List.map_cons, List.map_nil, List.append_nil,
        List.map_append, List.sum_append, List.sum_cons, List.sum_nil, flat_at]
      simp [V3.get, M3.at, M3.row, V3.dot, M3.mulVec]
      ring
    simp only [List.flatMap_cons]
    unfold entryForm at ih e ⊢
    rw [List.map_append, List.sum_append, ih, e]
    simp [form]

theorem form_mirror (B : List HBlock) (u w : ℕ → V3 ℝ) :
    form (B.flatMap Pair.mirror) u w = quadBlocks B u w := by
  induction B with
  | nil => rfl
  | cons h B ih =>
    rw [List.flatMap_cons, form_append, ih]
    unfold quadBlocks Pair.mirror
    rw [List.map_cons, List.sum_cons]
    congr 1
    by_cases e : h.row = h.col
    · rw [if_pos e, if_pos e]
      simp [form]
    · rw [if_neg e, if_neg e]
      simp [form]

theorem form_filter (B : List HBlock) (u w : ℕ → V3 ℝ) (n : ℕ) (hu : ∀ v, n ≤ v → u v = 0)
    (hw : ∀ v, n ≤ v → w v = 0) :
    form (B.filter fun h => h.row < n && h.col < n) u w = form B u w := by
  induction B with
  | nil => rfl
  | cons h B ih =>
    unfold form at ih ⊢
    by_cases hb : (decide (h.row < n) && decide (h.col < n)) = true
    · rw [List.filter_cons_of_pos (by simpa using hb), List.map_cons, List.map_cons, List.sum_cons,
        List.sum_cons, ih]
    · rw [List.filter_cons_of_neg (by simpa using hb), List.map_cons, List.sum_cons, ih]
      have : V3.dot (u h.row) (M3.mulVec h.val (w h.col)) = 0 := by
        by_cases h1 : h.row < n
        · have h2 : n ≤ h.col := by
            by_contra hc
            exact hb (by simp [h1, not_le.1 hc])
          rw [hw _ h2]
          simp [M3.mulVec, V3.dot]
        · rw [hu _ (not_lt.1 h1), dot_zero_left]
      rw [this, zero_add]

/-! ## The product of the distance gradient with its transpose -/

theorem prune_sum (F : Sparse.Key × V3 ℝ → ℝ) (hF : ∀ k a b, F (k, a + b) = F (k, a) + F (k, b))
    (l : List (Sparse.Key × V3 ℝ)) : ((Sparse.pruneSum l).map F).sum = (l.map F).sum := by
  induction l using Sparse.pruneSum.induct with
  | case1 => rw [Sparse.pruneSum]
  | case2 a => rw [Sparse.pruneSum]
  | case3 a b t h ih =>
    rw [Sparse.pruneSum, if_pos h, ih]
    simp only [List.map_cons, List.sum_cons, hF, ← add_assoc]
    congr 3
    rw [h]
  | case4 a b t h ih =>
    rw [Sparse.pruneSum, if_neg h, List.map_cons, List.sum_cons, ih]
    simp only [List.map_cons, List.sum_cons]

theorem indicator_sum {α : Type*} (l : List α) (f : α → ℕ) (hn : (l.map f).Nodup) (G : α → ℝ) (a : α)
    (ha : a ∈ l) : (l.map fun b => if f a = f b then G b else 0).sum = G a := by
  induction l with
  | nil => simp at ha
  | cons b l ih =>
    rw [List.map_cons, List.nodup_cons] at hn
    rw [List.map_cons, List.sum_cons]
    rcases List.mem_cons.1 ha with rfl | ha
    · have : (l.map fun b => if f a = f b then G b else 0) = l.map fun _ => 0 :=
        List.map_congr_left fun b hb => if_neg fun e : f a = f b => hn.1 (e ▸ List.mem_map.2 ⟨b, hb, rfl⟩)
      rw [if_pos rfl, this]
      simp
    · rw [if_neg fun e : f a = f b => hn.1 (e ▸ List.mem_map.2 ⟨a, ha, rfl⟩), zero_add, ih hn.2 ha]

theorem rows_sum_aux (rows : List ℕ) (hn : rows.Nodup) (g : List (Sparse.Key × V3 ℝ))
    (hg : ∀ e ∈ g, e.1.1 ∈ rows) (F : Sparse.Key × V3 ℝ → ℝ) :
    (rows.map fun v => ((g.filter fun e => e.1.1 = v).map F).sum).sum = (g.map F).sum := by
  induction g with
  | nil => simp
  | cons a g ih =>
    have ih := ih fun e he => hg e (List.mem_cons_of_mem _ he)
    have e1 : (fun v => (((a :: g).filter fun e => decide (e.1.1 = v)).map F).sum) = fun v =>
        (if a.1.1 = v then F a else 0) + ((g.filter fun e => decide (e.1.1 = v)).map F).sum := by
      funext v
      by_cases h : a.1.1 = v
      · rw [List.filter_cons_of_pos (by simpa using h), if_pos h, List.map_cons, List.sum_cons]
      · rw [List.filter_cons_of_neg (by simpa using h), if_neg h, zero_add]
    rw [e1, List.sum_map_add, ih, List.map_cons, List.sum_cons]
    congr 1
    exact indicator_sum rows id (by simpa using hn) (fun _ => F a) a.1.1 (hg a List.mem_cons_self)

theorem rows_sum (g : List (Sparse.Key × V3 ℝ)) (n : ℕ) (F : Sparse.Key × V3 ℝ → ℝ)
    (hF : ∀ e ∈ g, n ≤ e.1.1 → F e = 0) :
    (((Pair.gradientRows g).filter (· < n)).map fun v => ((Pair.gradientRow g v).map F).sum).sum =
      (g.map F).sum := by
  rw [← rows_sum_aux (Pair.gradientRows g) (List.nodup_dedup _) g (fun e he => by
    unfold Pair.gradientRows
    rw [List.mem_dedup]
    exact List.mem_map.2 ⟨e, he, rfl⟩) F]
  generalize Pair.gradientRows g = rows
  induction rows with
  | nil => rfl
  | cons r rows ih =>
    by_cases h : r < n
    · rw [List.filter_cons_of_pos (by simpa using h), List.map_cons, List.sum_cons, ih]
      rfl
    · rw [List.filter_cons_of_neg (by simpa using h), ih, List.map_cons, List.sum_cons]
      have : ((g.filter fun e => decide (e.1.1 = r)).map F).sum = 0 := by
        apply List.sum_eq_zero
        intro y hy
        obtain ⟨e, he, rfl⟩ := List.mem_map.1 hy
        rw [List.mem_filter] at he
        exact hF e he.1 (by have := of_decide_eq_true he.2; omega)
      rw [this, zero_add]

theorem form_flatMap {α : Type*} (l : List α) (f : α → List HBlock) (u w : ℕ → V3 ℝ) :
    form (l.flatMap f) u w = (l.map fun a => form (f a) u w).sum := by
  induction l with
  | nil => rfl
  | cons a l ih => rw [List.flatMap_cons, form_append, ih, List.map_cons, List.sum_cons]

namespace Pair

variable (C : Pair)

/-- The entries of column `c` applied to a vector. -/
def colSum (g : List (Sparse.Key × V3 ℝ)) (c : ℕ) (w : ℕ → V3 ℝ) : ℝ :=
  ((g.filter fun b => b.1.2 = c).map fun b => V3.dot b.2 (w b.1.1)).sum

theorem product_form (g : List (Sparse.Key × V3 ℝ)) (dist : List ℝ) (n : ℕ) (u w : ℕ → V3 ℝ)
    (hu : ∀ v, n ≤ v → u v = 0) (hw : ∀ v, n ≤ v → w v = 0) :
    form (C.productBlocks g dist n) u w = (g.map fun a =>
      -C.kappa * ContactPenalty.ddb C.delta (dist.getD a.1.2 0) * V3.dot a.2 (u a.1.1) *
        colSum g a.1.2 w).sum := by
  unfold productBlocks
  have inner : ∀ v, form (((gradientRows g).filter (· < n)).flatMap fun u =>
      (gradientPairs g v u).map fun p => (⟨v, u, (-C.kappa * ContactPenalty.ddb C.delta
        (dist.getD p.1.1.2 0)) • M3.outer p.1.2 p.2.2⟩ : HBlock)) u w =
      ((gradientRow g v).map fun a => -C.kappa * ContactPenalty.ddb C.delta (dist.getD a.1.2 0) *
        V3.dot a.2 (u a.1.1) * colSum g a.1.2 w).sum := by
    intro v
    rw [form_flatMap]
    have e : ∀ r, form ((gradientPairs g v r).map fun p => (⟨v, r, (-C.kappa * ContactPenalty.ddb C.delta
        (dist.getD p.1.1.2 0)) • M3.outer p.1.2 p.2.2⟩ : HBlock)) u w =
        ((gradientRow g r).map fun b => ((gradientRow g v).map fun a => if b.1.2 = a.1.2 then
          -C.kappa * ContactPenalty.ddb C.delta (dist.getD a.1.2 0) * V3.dot a.2 (u a.1.1) *
            V3.dot b.2 (w b.1.1) else 0).sum).sum := by
      intro r
      unfold gradientPairs form
      rw [List.map_map, sum_flatMap]
      have hv : ∀ a ∈ gradientRow g v, a.1.1 = v := fun a ha => by
        simpa using (List.mem_filter.1 ha).2
      have hr : ∀ a ∈ gradientRow g r, a.1.1 = r := fun a ha => by
        simpa using (List.mem_filter.1 ha).2
      generalize gradientRow g r = R at hr ⊢
      generalize gradientRow g v = A at hv ⊢
      induction A with
      | nil => simp
      | cons a A ih =>
        simp only [List.map_cons, List.sum_cons, List.sum_map_add]
        rw [ih fun b hb => hv b (List.mem_cons_of_mem _ hb)]
        congr 1
        have ha := hv a List.mem_cons_self
        clear ih hv
        induction R with
        | nil => rfl
        | cons b R ihr =>
          have hb := hr b List.mem_cons_self
          have ihr := ihr fun c hc => hr c (List.mem_cons_of_mem _ hc)
          by_cases hk : b.1.2 = a.1.2
          · rw [List.filter_cons_of_pos (by simpa using hk), List.map_cons, List.map_cons,
              List.sum_cons, ihr, List.map_cons, List.sum_cons, if_pos hk]
            congr 1
            simp only [Function.comp_apply, ha, hb]
            simp [M3.mulVec, M3.outer, V3.dot]
            ring
          · rw [List.filter_cons_of_neg (by simpa using hk), ihr, List.map_cons, List.sum_cons,
              if_neg hk, zero_add]
    simp only [e]
    rw [rows_sum g n (fun b => ((gradientRow g v).map fun a => if b.1.2 = a.1.2 then
          -C.kappa * ContactPenalty.ddb C.delta (dist.getD a.1.2 0) * V3.dot a.2 (u a.1.1) *
            V3.dot b.2 (w b.1.1) else 0).sum) fun b _ hb => by
      rw [hw _ hb, dot_zero_right]
      simp]
    generalize gradientRow g v = A
    induction A with
    | nil => simp
    | cons a A ih =>
      simp only [List.map_cons, List.sum_cons, List.sum_map_add]
      rw [ih]
      congr 1
      unfold colSum
      generalize -C.kappa * ContactPenalty.ddb C.delta (dist.getD a.1.2 0) * V3.dot a.2 (u a.1.1) = r
      clear ih e
      induction g with
      | nil => simp
      | cons b g ihg =>
        rw [List.map_cons, List.sum_cons, ihg]
        by_cases hk : b.1.2 = a.1.2
        · rw [if_pos hk, List.filter_cons_of_pos (by simpa using hk), List.map_cons, List.sum_cons]
          ring
        · rw [if_neg hk, List.filter_cons_of_neg (by simpa using hk), zero_add]
  rw [form_flatMap]
  simp only [inner]
  exact rows_sum g n (fun a => -C.kappa * ContactPenalty.ddb C.delta (dist.getD a.1.2 0) *
    V3.dot a.2 (u a.1.1) * colSum g a.1.2 w) fun a _ ha => by
      rw [hu _ ha, dot_zero_right]
      simp

/-! ## The rate of a constraint -/

/-- The rate of change of the distance of a contact that the Jacobian blocks give for a motion `w`. -/
def rate (x : ℕ → V3 ℝ) (p : List ℕ × ℕ) (w : ℕ → V3 ℝ) : ℝ :=
  V3.dot ((queryJacobianAt (C.query x p.2) p.1 (C.samples x) (some (C.closest p.2)) C.kernel
      params).getD 0) (w (C.coll p.2)) +
    applyBlocks ((faceJacobianAt (C.query x p.2) p.1 (C.samples x) C.kernel C.tris
      (fun j => x (C.surf j)) params).getD []) (faceJacobianCols p.1 C.tris) fun j => w (C.surf j)

theorem mem_active {p : List ℕ × ℕ} (hp : p ∈ C.active) : p.1 ≠ [] := by
  simpa using (List.mem_filter.1 hp).2

theorem power_rate (x w : ℕ → V3 ℝ) (lam : List ℝ)
    (hobj : C.objectFixed = true → ∀ j, w (C.surf j) = 0)
    (hcol : C.colliderFixed = true → ∀ i, w (C.coll i) = 0) :
    power lam (C.blocks x) w =
      (C.active.map fun p => lam.getD (C.constraintOf p.2) 0 * C.rate x p w).sum := by
  have hsplit : power lam (C.blocks x) w =
      power lam (C.objectBlocks x) w + power lam (C.colliderBlocks x) w := by
    simp [power, blocks]
  have ho : power lam (C.objectBlocks x) w = (C.active.map fun p => lam.getD (C.constraintOf p.2) 0 *
      applyBlocks ((faceJacobianAt (C.query x p.2) p.1 (C.samples x) C.kernel C.tris
        (fun j => x (C.surf j)) params).getD []) (faceJacobianCols p.1 C.tris)
        fun j => w (C.surf j)).sum := by
    unfold objectBlocks
    split
    · rename_i hf
      have : (fun j => w (C.surf j)) = fun _ => 0 := funext (hobj hf)
      simp [power, this, applyBlocks_zero]
    · rw [surfaceBlocks, surfaceIndices, zip_flatMap _ _ _ fun p hp => by
        rw [List.length_map, faceJacobian_length _ _ _ _ _ _ _ (C.mem_active hp)], power, List.map_map,
        sum_flatMap]
      congr 1
      refine List.map_congr_left fun p _ => ?_
      rw [← applyBlocks_zip, List.zip_map_left, List.map_map]
      rfl
  have hc : power lam (C.colliderBlocks x) w = (C.active.map fun p => lam.getD (C.constraintOf p.2) 0 *
      V3.dot ((queryJacobianAt (C.query x p.2) p.1 (C.samples x) (some (C.closest p.2)) C.kernel
        params).getD 0) (w (C.coll p.2))).sum := by
    unfold colliderBlocks
    split
    · rename_i hf
      simp [power, hcol hf, dot_zero_right]
    · rw [queryBlocks, queryIndices, List.zip_map', power, List.map_map, List.map_map]
      rfl
  rw [hsplit, ho, hc, ← List.sum_map_add]
  congr 1
  refine List.map_congr_left fun p _ => ?_
  unfold rate
  ring

theorem constraintOf_nodup : (C.active.map fun p => C.constraintOf p.2).Nodup := by
  rw [constraintOf_active]
  exact List.nodup_range

theorem constraintOf_lt {p : List ℕ × ℕ} (hp : p ∈ C.active) :
    C.constraintOf p.2 < C.active.length := by
  have : C.constraintOf p.2 ∈ C.active.map fun p => C.constraintOf p.2 := List.mem_map.2 ⟨p, hp, rfl⟩
  rw [constraintOf_active] at this
  exact List.mem_range.1 this

theorem blocks_row_lt (x : ℕ → V3 ℝ) : ∀ b ∈ C.blocks x, b.row < C.active.length := by
  intro b hb
  rw [← C.lambda_length x]
  exact C.blocks_row x b hb

theorem range_getD (f : ℕ → ℝ) {n c : ℕ} (h : c < n) : ((List.range n).map f).getD c 0 = f c := by
  simp [List.getD, List.getElem?_map, List.getElem?_range h]

theorem gradient_sum (x : ℕ → V3 ℝ) (N : ℕ) (F : ℕ → ℕ → V3 ℝ → ℝ)
    (hF : ∀ v c a b, F v c (a + b) = F v c a + F v c b) (hs : ∀ j, C.surf j < N)
    (hc : ∀ i, C.coll i < N) :
    ((C.gradient x N).map fun e => F e.1.1 e.1.2 e.2).sum =
      ((C.blocks x).map fun b => F b.col b.row b.val).sum := by
  unfold gradient
  rw [prune_sum (fun e => F e.1.1 e.1.2 e.2) fun k a b => hF _ _ a b]
  set l := (C.blocks x).map fun b => ((b.col, b.row), b.val) with hl
  have hp : (l.mergeSort fun a b => Sparse.keyLe a.1 b.1).Perm l := List.mergeSort_perm _ _
  have hall : (l.mergeSort fun a b => Sparse.keyLe a.1 b.1).filter
      (fun e => e.1.1 < N && e.1.2 < C.active.length) =
      l.mergeSort fun a b => Sparse.keyLe a.1 b.1 := by
    refine List.filter_eq_self.2 fun e he => ?_
    have he' := hp.mem_iff.1 he
    rw [hl] at he'
    obtain ⟨b, hb, rfl⟩ := List.mem_map.1 he'
    simp [C.blocks_col x hs hc b hb, C.blocks_row_lt x b hb]
  rw [hall, (hp.map fun e : Sparse.Key × V3 ℝ => F e.1.1 e.1.2 e.2).sum_eq, hl, List.map_map]
  rfl

theorem gradient_col (x w : ℕ → V3 ℝ) (N c : ℕ) (hs : ∀ j, C.surf j < N) (hc : ∀ i, C.coll i < N) :
    colSum (C.gradient x N) c w =
      power ((List.range C.active.length).map fun r => if r = c then 1 else 0) (C.blocks x) w := by
  have e : colSum (C.gradient x N) c w =
      ((C.gradient x N).map fun e => if e.1.2 = c then V3.dot e.2 (w e.1.1) else 0).sum := by
    unfold colSum
    induction C.gradient x N with
    | nil => rfl
    | cons a g ih =>
      by_cases h : a.1.2 = c
      · rw [List.filter_cons_of_pos (by simpa using h), List.map_cons, List.sum_cons, ih, List.map_cons,
          List.sum_cons, if_pos h]
      · rw [List.filter_cons_of_neg (by simpa using h), ih, List.map_cons, List.sum_cons, if_neg h,
          zero_add]
  rw [e, C.gradient_sum x N (fun v r a => if r = c then V3.dot a (w v) else 0) (fun v r a b => by
    split
    · exact dot_add_left _ _ _
    · simp) hs hc]
  unfold power
  congr 1
  refine List.map_congr_left fun b hb => ?_
  rw [range_getD _ (C.blocks_row_lt x b hb)]
  split <;> simp

theorem gradient_rate (x w : ℕ → V3 ℝ) (N : ℕ) (p : List ℕ × ℕ) (hp : p ∈ C.active)
    (hs : ∀ j, C.surf j < N) (hc : ∀ i, C.coll i < N)
    (hobj : C.objectFixed = true → ∀ j, w (C.surf j) = 0)
    (hcol : C.colliderFixed = true → ∀ i, w (C.coll i) = 0) :
    colSum (C.gradient x N) (C.constraintOf p.2) w = C.rate x p w := by
  rw [C.gradient_col x w N _ hs hc, C.power_rate x w _ hobj hcol,
    ← indicator_sum C.active (fun p => C.constraintOf p.2) C.constraintOf_nodup (fun p => C.rate x p w)
      p hp]
  congr 1
  refine List.map_congr_left fun r hr => ?_
  rw [range_getD _ (C.constraintOf_lt hr)]
  by_cases h : C.constraintOf r.2 = C.constraintOf p.2
  · rw [if_pos h, if_pos h.symm, one_mul]
  · rw [if_neg h, if_neg (Ne.symm h), zero_mul]

theorem distances_row (x : ℕ → V3 ℝ) (p : List ℕ × ℕ) (hp : p ∈ C.active) :
    (C.distances x).getD (C.constraintOf p.2) 0 = C.distance x p := by
  have key : (C.active.map fun p => (C.distances x).getD (C.constraintOf p.2) 0) =
      C.active.map fun p => C.distance x p := by
    have h1 := congrArg (List.map fun i => (C.distances x).getD i 0) C.constraintOf_active
    rw [List.map_map] at h1
    refine h1.trans ?_
    rw [distances_eq]
    refine List.ext_getElem (by simp) fun i h1 h2 => ?_
    have h3 : i < C.active.length := by simpa using h2
    simp [List.getElem?_eq_getElem h3]
  exact List.map_inj_left.1 key p hp

/-- The product of the gradient with its transpose, as a sum over contacts. -/
theorem product_sum (x u w : ℕ → V3 ℝ) (N n : ℕ) (hs : ∀ j, C.surf j < N) (hc : ∀ i, C.coll i < N)
    (hu : ∀ v, n ≤ v → u v = 0) (hw : ∀ v, n ≤ v → w v = 0)
    (hobj : C.objectFixed = true → ∀ j, n ≤ C.surf j)
    (hcol : C.colliderFixed = true → ∀ i, n ≤ C.coll i) :
    form (C.productBlocks (C.gradient x N) (C.distances x) n) u w = (C.active.map fun p =>
      -C.kappa * ContactPenalty.ddb C.delta (C.distance x p) * C.rate x p w * C.rate x p u).sum := by
  rw [C.product_form _ _ _ u w hu hw, C.gradient_sum x N (fun v r a => -C.kappa *
    ContactPenalty.ddb C.delta ((C.distances x).getD r 0) * V3.dot a (u v) *
      colSum (C.gradient x N) r w) (fun v r a b => by rw [dot_add_left]; ring) hs hc]
  have e : ((C.blocks x).map fun b => -C.kappa * ContactPenalty.ddb C.delta
      ((C.distances x).getD b.row 0) * V3.dot b.val (u b.col) * colSum (C.gradient x N) b.row w).sum =
      power ((List.range C.active.length).map fun r => -C.kappa * ContactPenalty.ddb C.delta
        ((C.distances x).getD r 0) * colSum (C.gradient x N) r w) (C.blocks x) u := by
    unfold power
    congr 1
    refine List.map_congr_left fun b hb => ?_
    rw [range_getD _ (C.blocks_row_lt x b hb)]
    ring
  rw [e, C.power_rate x u _ (fun h j => hu _ (hobj h j)) fun h i => hu _ (hcol h i)]
  congr 1
  refine List.map_congr_left fun p hp => ?_
  rw [range_getD _ (C.constraintOf_lt hp), C.distances_row x p hp,
    C.gradient_rate x w N p hp hs hc (fun h j => hw _ (hobj h j)) fun h i => hw _ (hcol h i)]

/-! ## The Hessians of the distances -/

/-- Specification: the vertices of the surface are numbered in the order of the vertices of the mesh
(`builder.rs:184-192` sorts and fuses them), and the objects have no vertex in common. -/
structure Separate (C : Pair) : Prop where
  mono : ∀ s s' i j, (C.tris s).get i < (C.tris s').get j →
    C.surf ((C.tris s).get i) < C.surf ((C.tris s').get j)
  apart : ∀ i j, C.coll i ≠ C.surf j

/-- Specification: a vertex of some triangle. -/
def IsVertex (tris : ℕ → Tri) (v : ℕ) : Prop := ∃ s i, v = (tris s).get i

theorem faceIndices_vertex (view : List ℕ) (tris : ℕ → Tri) (wt : Bool) :
    ∀ p ∈ faceHessianIndices view tris wt, IsVertex tris p.1 ∧ IsVertex tris p.2 := by
  have hs : ∀ r c, ∀ p ∈ samplesToVerticesIndices tris r c, IsVertex tris p.1 ∧ IsVertex tris p.2 := by
    intro r c p hp
    unfold samplesToVerticesIndices at hp
    simp only [List.mem_flatMap, List.mem_map, List.mem_filter] at hp
    obtain ⟨i, -, j, -, rfl⟩ := hp
    exact ⟨⟨r, i, rfl⟩, ⟨c, j, rfl⟩⟩
  have ho : ∀ s s' i j, IsVertex tris (orderedIndices ((tris s).get i) ((tris s').get j)).1 ∧
      IsVertex tris (orderedIndices ((tris s).get i) ((tris s').get j)).2 := by
    intro s s' i j
    unfold orderedIndices
    split
    · exact ⟨⟨s, i, rfl⟩, ⟨s', j, rfl⟩⟩
    · exact ⟨⟨s', j, rfl⟩, ⟨s, i, rfl⟩⟩
  intro p hp
  unfold faceHessianIndices at hp
  simp only [List.mem_append, List.mem_flatMap, List.mem_map] at hp
  rcases hp with (⟨s, -, hp⟩ | ⟨s, -, hp⟩) | ⟨r, -, hp⟩
  · exact hs _ _ _ hp
  · rcases hp with ⟨i, -, j, -, rfl⟩ | ⟨s', -, j, -, i, -, rfl⟩
    · exact ho _ _ _ _
    · exact ho _ _ _ _
  · rcases hp with hp | hp
    · exact hs _ _ _ hp
    · split at hp
      · exact hs _ _ _ hp
      · cases hp

theorem faceBlocks_vertex {q : V3 ℝ} {view : List ℕ} {S : Samples} {k : Kern} {tris : ℕ → Tri}
    {x : ℕ → V3 ℝ} {P : BgParams} {lam : ℝ} (b : HBlock)
    (hb : b ∈ (faceHessianAt q view S k tris x P lam).getD []) :
    IsVertex tris b.row ∧ IsVertex tris b.col := by
  cases h : faceHessianAt q view S k tris x P lam with
  | none => rw [h] at hb; cases hb
  | some B =>
    rw [h, Option.getD_some] at hb
    have hi := face_hessian_indices q view S k tris x P lam B h
    exact faceIndices_vertex view tris P.weighted (b.row, b.col) (hi ▸ List.mem_map.2 ⟨b, hb, rfl⟩)

theorem Separate.surf_inj {C : Pair} (h : C.Separate) {v v' : ℕ} (hv : IsVertex C.tris v)
    (hv' : IsVertex C.tris v') : C.surf v = C.surf v' ↔ v = v' := by
  obtain ⟨s, i, rfl⟩ := hv
  obtain ⟨s', j, rfl⟩ := hv'
  refine ⟨fun e => ?_, fun e => by rw [e]⟩
  rcases lt_trichotomy ((C.tris s).get i) ((C.tris s').get j) with hl | hl | hl
  · exact absurd e (h.mono _ _ _ _ hl).ne
  · exact hl
  · exact absurd e (h.mono _ _ _ _ hl).ne'

/-- The multiplier of a contact. -/
def mult (x : ℕ → V3 ℝ) (p : List ℕ × ℕ) : ℝ := -C.kappa * ContactPenalty.db C.delta (C.distance x p)

theorem multiplied_eq (x : ℕ → V3 ℝ) :
    C.multiplied (C.lambda x) = C.active.map fun p => (p, C.mult x p) := by
  have hl : C.lambda x = C.active.map (C.mult x) := by
    simp [lambda, ContactPenalty.multipliers, distances_eq, Function.comp_def, mult]
  rw [multiplied, hl]
  have := List.zip_map' (f := fun p : List ℕ × ℕ => p) (g := C.mult x) (l := C.active)
  simpa using this

theorem quadBlocks_append (A B : List HBlock) (u w : ℕ → V3 ℝ) :
    quadBlocks (A ++ B) u w = quadBlocks A u w + quadBlocks B u w := by
  simp [quadBlocks]

theorem quadBlocks_flatMap {α : Type*} (l : List α) (f : α → List HBlock) (u w : ℕ → V3 ℝ) :
    quadBlocks (l.flatMap f) u w = (l.map fun a => quadBlocks (f a) u w).sum := by
  induction l with
  | nil => rfl
  | cons a l ih => rw [List.flatMap_cons, quadBlocks_append, ih, List.map_cons, List.sum_cons]

theorem zero_sum {α : Type*} (l : List α) : (l.map fun _ => (0 : ℝ)).sum = 0 := by simp

theorem object_quad (hsep : C.Separate) (x u w : ℕ → V3 ℝ)
    (hobj : C.objectFixed = true → ∀ j, u (C.surf j) = 0) :
    quadBlocks (C.objectHessian x (C.lambda x)) u w = (C.active.map fun p =>
      quadBlocks ((faceHessianAt (C.query x p.2) p.1 (C.samples x) C.kernel C.tris
        (fun j => x (C.surf j)) params (C.mult x p)).getD []) (fun j => u (C.surf j))
        fun j => w (C.surf j)).sum := by
  unfold objectHessian
  split
  · rename_i hf
    have : (fun j => u (C.surf j)) = fun _ => 0 := funext (hobj hf)
    simp only [this, quadBlocks_zero, zero_sum]
    rfl
  · rw [multiplied_eq, quadBlocks_flatMap, List.map_map]
    congr 1
    refine List.map_congr_left fun p _ => ?_
    simp only [Function.comp_apply]
    unfold quadBlocks
    rw [List.map_map]
    congr 1
    refine List.map_congr_left fun h hh => ?_
    obtain ⟨h1, h2⟩ := faceBlocks_vertex h hh
    simp only [Function.comp_apply, hsep.surf_inj h1 h2]

theorem mixed_quad (hsep : C.Separate) (x u w : ℕ → V3 ℝ)
    (hobj : C.objectFixed = true → ∀ j, u (C.surf j) = 0)
    (hobj' : C.objectFixed = true → ∀ j, w (C.surf j) = 0) :
    quadBlocks (C.mixedHessian x (C.lambda x)) u w = (C.active.map fun p =>
      V3.dot (u (C.coll p.2)) (applyMixed ((sampleQueryHessianAt (C.query x p.2) p.1 (C.samples x)
        C.kernel C.tris (fun j => x (C.surf j)) params (C.mult x p)).getD []) fun j => w (C.surf j)) +
      V3.dot (w (C.coll p.2)) (applyMixed ((sampleQueryHessianAt (C.query x p.2) p.1 (C.samples x)
        C.kernel C.tris (fun j => x (C.surf j)) params (C.mult x p)).getD [])
          fun j => u (C.surf j))).sum := by
  unfold mixedHessian
  split
  · rename_i hf
    have e1 : (fun j => u (C.surf j)) = fun _ => 0 := funext (hobj hf)
    have e2 : (fun j => w (C.surf j)) = fun _ => 0 := funext (hobj' hf)
    simp only [e1, e2, applyMixed_zero, dot_zero_right, add_zero, zero_sum]
    rfl
  · rw [multiplied_eq, quadBlocks_flatMap, List.map_map]
    congr 1
    refine List.map_congr_left fun p _ => ?_
    simp only [Function.comp_apply]
    generalize (sampleQueryHessianAt (C.query x p.2) p.1 (C.samples x)
        C.kernel C.tris (fun j => x (C.surf j)) params (C.mult x p)).getD [] = M
    unfold quadBlocks applyMixed
    rw [List.map_map]
    induction M with
    | nil => simp [dot_zero_right]
    | cons m M ih =>
      simp only [List.map_cons, List.sum_cons, Function.comp_apply, if_neg (hsep.apart _ _),
        dot_add_right] at ih ⊢
      rw [ih]
      have : V3.dot (u (C.surf m.1)) (M3.mulVec m.2.transpose (w (C.coll p.2))) =
          V3.dot (w (C.coll p.2)) (M3.mulVec m.2 (u (C.surf m.1))) := by
        simp [M3.mulVec, M3.transpose, V3.dot]
        ring
      rw [this]
      ring

theorem collider_form (x u w : ℕ → V3 ℝ) (hcol : C.colliderFixed = true → ∀ i, u (C.coll i) = 0) :
    form (C.colliderHessian x (C.lambda x)) u w = (C.active.map fun p => C.mult x p *
      V3.dot (u (C.coll p.2)) (M3.mulVec ((queryHessianAt (C.query x p.2) p.1 (C.samples x) C.kernel
        params).getD 0) (w (C.coll p.2)))).sum := by
  unfold colliderHessian
  split
  · rename_i hf
    simp only [hcol hf, dot_zero_left, mul_zero, zero_sum]
    rfl
  · unfold form
    rw [multiplied_eq, List.map_map, List.map_map]
    congr 1
    refine List.map_congr_left fun p _ => ?_
    simp only [Function.comp_apply]
    simp [M3.mulVec, V3.dot]
    ring

/-! ## The theorem -/

theorem forcePower_rate (x u : ℕ → V3 ℝ) (N : ℕ) (hs : ∀ j, C.surf j < N) (hc : ∀ i, C.coll i < N)
    (hobj : C.objectFixed = true → ∀ j, u (C.surf j) = 0)
    (hcol : C.colliderFixed = true → ∀ i, u (C.coll i) = 0) :
    C.forcePower x u N = (C.active.map fun p => C.mult x p * C.rate x p u).sum := by
  have hneg : ∀ a b : V3 ℝ, V3.dot (-a) b = -V3.dot a b := fun a b => by simp [V3.dot]; ring
  simp only [forcePower, hneg, Finset.sum_neg_distrib]
  unfold subtractForce
  rw [subtract_power _ _ _ _ _ (C.blocks_col x hs hc)]
  simp only [dot_zero_left, Finset.sum_const_zero, zero_sub, neg_neg]
  rw [C.power_rate x u _ hobj hcol]
  congr 1
  refine List.map_congr_left fun p hp => ?_
  rw [C.lambda_row x p hp]
  rfl

/-- C79: the entries that a contact adds to the Jacobian are the derivatives of the contact forces, as
the vertices that may move (those before `n`) move in any way.
Missing: contacts outside of the radius of the kernel must not exert a force, because the mixed Hessian
of the potential is wrong there (C78). -/
theorem contact_hessian_partial (hsep : C.Separate) (x : ℝ → ℕ → V3 ℝ) (u w : ℕ → V3 ℝ) (t : ℝ)
    (N n : ℕ) (c : List ℕ × ℕ → ℕ) (hs : ∀ j, C.surf j < N) (hc : ∀ i, C.coll i < N)
    (hx : ∀ v, HasD (fun s => x s v) (w v) t)
    (hu : ∀ v, n ≤ v → u v = 0) (hw : ∀ v, n ≤ v → w v = 0)
    (hobj : C.objectFixed = true → ∀ j, n ≤ C.surf j)
    (hcol : C.colliderFixed = true → ∀ i, n ≤ C.coll i)
    (hsm : ∀ p ∈ C.active, Smooth C.kernel params (C.query (x t) p.2) p.1 (C.samples (x t)) (c p))
    (hin : ∀ p ∈ C.active, C.distance (x t) p < C.delta → ∀ r, C.kernel.radius = some r →
      (C.query (x t) p.2 - (C.samples (x t)).pos (c p)).norm ≤ r) :
    HasDerivAt (fun s => C.forcePower (x s) u N)
      (entryForm (C.hessianEntries (x t) N n) (flat u) (flat w)) t := by
  have hu1 : C.objectFixed = true → ∀ j, u (C.surf j) = 0 := fun h j => hu _ (hobj h j)
  have hu2 : C.colliderFixed = true → ∀ i, u (C.coll i) = 0 := fun h i => hu _ (hcol h i)
  have hw1 : C.objectFixed = true → ∀ j, w (C.surf j) = 0 := fun h j => hw _ (hobj h j)
  have hfun : (fun s => C.forcePower (x s) u N) = fun s =>
      (C.active.map fun p => C.mult (x s) p * C.rate (x s) p u).sum :=
    funext fun s => C.forcePower_rate (x s) u N hs hc hu1 hu2
  rw [hfun, hessianEntries, entries_form, hessianBlocks, form_append,
    C.product_sum (x t) u w N n hs hc hu hw hobj hcol, form_filter _ _ _ _ hu hw, form_append,
    form_mirror, quadBlocks_append, C.object_quad hsep (x t) u w hu1,
    C.mixed_quad hsep (x t) u w hu1 hw1, C.collider_form (x t) u w hu2, ← List.sum_map_add,
    ← List.sum_map_add, ← List.sum_map_add]
  refine sum_hasDeriv (f := fun p s => C.mult (x s) p * C.rate (x s) p u) fun p hp => ?_
  obtain ⟨Q, J, hQ, hJ, -, hd⟩ := face_joint (old := 0) (t := t) (fun s => C.query (x s) p.2)
    (w (C.coll p.2)) C.tris C.value (fun s j => x s (C.surf j)) (fun j => w (C.surf j))
    (some (C.closest p.2)) (hx _) (fun _ => hx _) (hsm p hp).toRegular
  have hrate : C.rate (x t) p w = V3.dot Q (w (C.coll p.2)) +
      applyBlocks J (faceJacobianCols p.1 C.tris) fun j => w (C.surf j) := by
    unfold rate
    rw [show queryJacobianAt (C.query (x t) p.2) p.1 (C.samples (x t)) (some (C.closest p.2)) C.kernel
      params = some Q from hQ, show faceJacobianAt (C.query (x t) p.2) p.1 (C.samples (x t)) C.kernel
      C.tris (fun j => x t (C.surf j)) params = some J from hJ]
    rfl
  rw [← hrate] at hd
  have hdist : HasDerivAt (fun s => C.distance (x s) p) (C.rate (x t) p w) t := hd.sub_const _
  have hmult : HasDerivAt (fun s => C.mult (x s) p)
      (-C.kappa * (ContactPenalty.ddb C.delta (C.distance (x t) p) * C.rate (x t) p w)) t :=
    ((ContactPenalty.db_hasDerivAt C.delta _).comp t hdist).const_mul (-C.kappa)
  have hpath := jacobian_path (t := t) (fun s => C.query (x s) p.2) (w (C.coll p.2)) C.tris C.value
    (fun s j => x s (C.surf j)) (fun j => w (C.surf j)) (some (C.closest p.2)) (hx _) (fun _ => hx _)
    (hsm p hp) (u (C.coll p.2)) fun j => u (C.surf j)
  have hlam : C.mult (x t) p = 0 ∨ Silent C.kernel params
      (C.query (x t) p.2 - (C.samples (x t)).pos (c p)).norm := by
    by_cases h : C.distance (x t) p < C.delta
    · right
      right
      rintro (⟨r, hr, hlt⟩ | hwt)
      · exact absurd hlt (not_lt.2 (hin p hp h r hr))
      · simp [params] at hwt
    · left
      rw [mult, ContactPenalty.db_of_ge (not_lt.1 h), mul_zero]
  obtain ⟨H, M, B, hH, hM, hB, hj⟩ := joint_hessian_partial (t := t) (fun s => C.query (x s) p.2)
    (w (C.coll p.2)) C.tris C.value (fun s j => x s (C.surf j)) (fun j => w (C.surf j))
    (some (C.closest p.2)) (hx _) (fun _ => hx _) (hsm p hp) (C.mult (x t) p) hlam
  have hval := (hpath.const_mul (C.mult (x t) p)).unique (hj (u (C.coll p.2)) fun j => u (C.surf j))
  have hH' : queryHessianAt (C.query (x t) p.2) p.1 (C.samples (x t)) C.kernel params = some H := hH
  have hM' : sampleQueryHessianAt (C.query (x t) p.2) p.1 (C.samples (x t)) C.kernel C.tris
    (fun j => x t (C.surf j)) params (C.mult (x t) p) = some M := hM
  have hB' : faceHessianAt (C.query (x t) p.2) p.1 (C.samples (x t)) C.kernel C.tris
    (fun j => x t (C.surf j)) params (C.mult (x t) p) = some B := hB
  rw [hH', hM', hB', Option.getD_some, Option.getD_some, Option.getD_some]
  refine (hmult.mul hpath).congr_deriv ?_
  have hr : V3.dot ((queryJacobianAt (C.query (x t) p.2) p.1 (faceSamples C.tris
      (fun j => x t (C.surf j)) C.value) (some (C.closest p.2)) C.kernel params).getD 0)
      (u (C.coll p.2)) + applyBlocks ((faceJacobianAt (C.query (x t) p.2) p.1 (faceSamples C.tris
      (fun j => x t (C.surf j)) C.value) C.kernel C.tris (fun j => x t (C.surf j)) params).getD [])
      (faceJacobianCols p.1 C.tris) (fun j => u (C.surf j)) = C.rate (x t) p u := rfl
  rw [hval, hr]
  ring

/-! ## The order of the entries -/

theorem faceHessian_isSome (q : V3 ℝ) (view : List ℕ) (S : Samples) (k : Kern) (tris : ℕ → Tri)
    (x : ℕ → V3 ℝ) (P : BgParams) (lam : ℝ) (hv : view ≠ []) :
    ∃ B, faceHessianAt q view S k tris x P lam = some B := by
  obtain ⟨i, l, rfl⟩ := List.exists_cons_of_ne_nil hv
  exact ⟨_, by simp only [faceHessianAt, Bg.local, closestSample, Option.map_some]; rfl⟩

theorem mixedHessian_isSome (q : V3 ℝ) (view : List ℕ) (S : Samples) (k : Kern) (tris : ℕ → Tri)
    (x : ℕ → V3 ℝ) (P : BgParams) (lam : ℝ) (hv : view ≠ []) :
    ∃ M, sampleQueryHessianAt q view S k tris x P lam = some M := by
  obtain ⟨i, l, rfl⟩ := List.exists_cons_of_ne_nil hv
  exact ⟨_, by simp only [sampleQueryHessianAt, Bg.local, closestSample, Option.map_some]; rfl⟩

theorem faceIndices_nil (tris : ℕ → Tri) (wt : Bool) : faceHessianIndices [] tris wt = [] := by
  cases wt <;> rfl

theorem nbrs_flatMap {β : Type*} (f : List ℕ → List β) (h0 : f [] = []) :
    C.nbrs.flatMap f = C.active.flatMap fun p => f p.1 := by
  rw [flatMap_active]
  have : ∀ (l : List (List ℕ)) (s : ℕ), l.flatMap f =
      (l.zipIdx s).flatMap fun p => if p.1 = [] then [] else f p.1 := by
    intro l
    induction l with
    | nil => intro s; rfl
    | cons a l ih =>
      intro s
      rw [List.zipIdx_cons, List.flatMap_cons, List.flatMap_cons, ← ih (s + 1)]
      congr 1
      by_cases h : a = []
      · rw [h, if_pos rfl, h0]
      · rw [if_neg h]
  exact this _ _

theorem mirror_keys (B : List HBlock) : (B.flatMap mirror).map (fun h => (h.row, h.col)) =
    (B.map fun h => (h.row, h.col)).flatMap mirrorIndex := by
  induction B with
  | nil => rfl
  | cons h B ih =>
    rw [List.flatMap_cons, List.map_append, ih, List.map_cons, List.flatMap_cons]
    congr 1
    unfold mirror mirrorIndex
    rw [List.map_cons]
    by_cases e : h.row = h.col
    · rw [if_pos e, if_pos e]
      rfl
    · rw [if_neg e, if_neg e]
      rfl

theorem object_keys (hsep : C.Separate) (x : ℕ → V3 ℝ) :
    (C.objectHessian x (C.lambda x)).map (fun h => (h.row, h.col)) = C.objectIndices := by
  unfold objectHessian objectIndices
  split
  · rfl
  · rw [multiplied_eq, C.nbrs_flatMap _ (faceIndices_nil _ _), List.map_flatMap, List.map_flatMap,
      List.flatMap_map]
    rw [List.flatMap_def, List.flatMap_def]
    congr 1
    refine List.map_congr_left fun p hp => ?_
    obtain ⟨B, hB⟩ := faceHessian_isSome (C.query x p.2) p.1 (C.samples x) C.kernel C.tris
      (fun j => x (C.surf j)) params (C.mult x p) (C.mem_active hp)
    rw [hB, Option.getD_some, ← face_hessian_indices _ _ _ _ _ _ _ _ _ hB, List.map_map, List.map_map]
    refine List.map_congr_left fun h hh => ?_
    have hle := face_hessian_lower _ _ _ _ _ _ _ _ _ hB h hh
    have hv := faceBlocks_vertex h (hB ▸ hh : h ∈ (faceHessianAt (C.query x p.2) p.1 (C.samples x)
      C.kernel C.tris (fun j => x (C.surf j)) params (C.mult x p)).getD [])
    have : C.surf h.col ≤ C.surf h.row := by
      obtain ⟨⟨s, i, e1⟩, ⟨s', j, e2⟩⟩ := hv
      rcases hle.lt_or_eq with hl | hl
      · rw [e1, e2] at hl ⊢
        exact (hsep.mono _ _ _ _ hl).le
      · rw [hl]
    simp only [Function.comp_apply]
    rw [if_neg (not_lt.2 this)]

theorem mixed_keys (x : ℕ → V3 ℝ) :
    (C.mixedHessian x (C.lambda x)).map (fun h => (h.row, h.col)) = C.mixedIndices := by
  unfold mixedHessian mixedIndices
  split
  · rfl
  · rw [multiplied_eq, List.map_flatMap, List.flatMap_map, List.flatMap_def, List.flatMap_def]
    congr 1
    refine List.map_congr_left fun p hp => ?_
    obtain ⟨M, hM⟩ := mixedHessian_isSome (C.query x p.2) p.1 (C.samples x) C.kernel C.tris
      (fun j => x (C.surf j)) params (C.mult x p) (C.mem_active hp)
    rw [hM, Option.getD_some, ← (mixed_hessian_indices _ _ _ _ _ _ _ _ _ hM).1, List.map_map,
      List.map_map]
    rfl

theorem collider_keys (x : ℕ → V3 ℝ) :
    (C.colliderHessian x (C.lambda x)).map (fun h => (h.row, h.col)) =
      C.colliderIndices.map fun i => (i, i) := by
  unfold colliderHessian colliderIndices
  split
  · rfl
  · rw [multiplied_eq, List.map_map, List.map_map, List.map_map]
    rfl

theorem filter_keys (B : List HBlock) (n : ℕ) :
    (B.filter fun h => h.row < n && h.col < n).map (fun h => (h.row, h.col)) =
      (B.map fun h => (h.row, h.col)).filter fun p => p.1 < n && p.2 < n := by
  rw [List.filter_map]
  rfl

theorem product_keys (g : List (Sparse.Key × V3 ℝ)) (dist : List ℝ) (n : ℕ) :
    (C.productBlocks g dist n).map (fun h => (h.row, h.col)) = productIndices g n := by
  unfold productBlocks productIndices
  simp only [List.map_flatMap, List.map_map]
  rfl

/-- C79: the values of the contact Jacobian come in the order of the reported indices, which the solver
pairs them with. -/
theorem contact_hessian_indices (hsep : C.Separate) (x : ℕ → V3 ℝ) (N n : ℕ) :
    (C.hessianEntries x N n).map Prod.fst = C.hessianIndices (C.gradient x N) n := by
  have hblock : ∀ B : List HBlock, (B.flatMap blockEntries).map Prod.fst =
      (B.map fun h => (h.row, h.col)).flatMap fun p =>
        (List.finRange 3).flatMap fun r => (List.finRange 3).map fun c =>
          (3 * p.1 + r.val, 3 * p.2 + c.val) := by
    intro B
    rw [List.flatMap_map, List.map_flatMap]
    congr 1
  rw [hessianEntries, hblock, hessianIndices, hessianBlocks, List.map_append, filter_keys,
    List.map_append, mirror_keys, List.map_append, C.object_keys hsep, C.mixed_keys, C.collider_keys,
    C.product_keys]

/-- C79: entries are inside of the matrix of the vertices that may move. -/
theorem contact_hessian_bounds (x : ℕ → V3 ℝ) (N n : ℕ) :
    ∀ e ∈ C.hessianEntries x N n, e.1.1 < 3 * n ∧ e.1.2 < 3 * n := by
  have hb : ∀ h ∈ C.hessianBlocks x N n, h.row < n ∧ h.col < n := by
    intro h hh
    unfold hessianBlocks at hh
    rcases List.mem_append.1 hh with hh | hh
    · simpa using (List.mem_filter.1 hh).2
    · unfold productBlocks at hh
      simp only [List.mem_flatMap, List.mem_map, List.mem_filter, decide_eq_true_eq] at hh
      obtain ⟨v, ⟨-, hv⟩, u, ⟨-, hu⟩, p, -, rfl⟩ := hh
      exact ⟨hv, hu⟩
  intro e he
  unfold hessianEntries at he
  obtain ⟨h, hh, he⟩ := List.mem_flatMap.1 he
  obtain ⟨h1, h2⟩ := hb h hh
  unfold blockEntries at he
  simp only [List.mem_flatMap, List.mem_map] at he
  obtain ⟨r, -, c, -, rfl⟩ := he
  have := r.isLt
  have := c.isLt
  constructor <;> simp only <;> omega

end Pair

/-! ## Examples -/

theorem demo_separate : demo.Separate := by
  constructor
  · intro s s' i j
    fin_cases i <;> fin_cases j <;> simp [demo, demoTri, Tri.get]
  · intro i j
    simp only [demo]
    split <;> split <;> omega

theorem demo_query : demo.query demoX 1 = ⟨1, 1, 1 / 2⟩ := by simp [Pair.query, demo, demoX]

theorem demo_contact_smooth : ∀ p ∈ demo.active,
    Smooth demo.kernel params (demo.query demoX p.2) p.1 (demo.samples demoX) 0 := by
  intro p hp
  rw [demo_active] at hp
  simp only [List.mem_singleton] at hp
  subst hp
  rw [demo_samples]
  show Smooth (.cubic 1) params (demo.query demoX 1) [0] _ 0
  rw [demo_query]
  exact demo_smooth (1 / 2) (by norm_num) (by norm_num) false

theorem demo_within : ∀ p ∈ demo.active, demo.distance demoX p < demo.delta → ∀ r,
    demo.kernel.radius = some r → (demo.query demoX p.2 - (demo.samples demoX).pos 0).norm ≤ r := by
  intro p hp _ r hr
  rw [demo_active] at hp
  simp only [List.mem_singleton] at hp
  subst hp
  cases hr
  rw [demo_samples]
  show (demo.query demoX 1 - _).norm ≤ 1
  rw [demo_query, demo_norm _ (by norm_num)]
  norm_num

example (u w : ℕ → V3 ℝ) (hu : ∀ v, 5 ≤ v → u v = 0) (hw : ∀ v, 5 ≤ v → w v = 0) :
    HasDerivAt (fun s : ℝ => demo.forcePower (fun v => demoX v + s • w v) u 5)
      (entryForm (demo.hessianEntries demoX 5 5) (flat u) (flat w)) 0 := by
  have e : (fun v => demoX v + (0 : ℝ) • w v) = demoX := by funext v; ext <;> simp
  have := demo.contact_hessian_partial demo_separate (fun s v => demoX v + s • w v) u w 0 5 5 (fun _ => 0)
    demo_surf demo_coll (fun v => HasD.line _ _) hu hw (by simp [demo]) (by simp [demo])
    (by rw [e]; exact demo_contact_smooth) (by rw [e]; exact demo_within)
  rwa [e] at this

example := demo.contact_hessian_indices demo_separate demoX 5 5

/-- The triangle of `demo`, with a larger tolerance. -/
def far : Pair := { demo with delta := 4 }

/-- The vertex is farther from the triangle than the radius of the kernel. -/
def farX (v : ℕ) : V3 ℝ := if v = 3 then ⟨1, 1, 2⟩ else if v = 4 then ⟨9, 9, 9⟩ else demoVerts v

/-- The triangle moves sideways. -/
def farW (v : ℕ) : V3 ℝ := if v < 3 then ⟨1, 0, 0⟩ else 0

def farU (v : ℕ) : V3 ℝ := if v = 3 then ⟨1, 0, 0⟩ else 0

theorem far_samples : far.samples farX = faceSamples (fun _ => demoTri) demoVerts fun _ => 0 := by
  unfold Pair.samples faceSamples far demo demoTri
  simp [farX]

theorem far_query : far.query farX 1 = ⟨1, 1, 2⟩ := by simp [Pair.query, far, demo, farX]

theorem far_separate : far.Separate := ⟨demo_separate.mono, demo_separate.apart⟩

theorem far_out : (1 : ℝ) < ((⟨1, 1, 2⟩ : V3 ℝ) -
    (faceSamples (fun _ => demoTri) demoVerts fun _ => 0).pos 0).norm := by
  rw [demo_norm 2 (by norm_num)]
  norm_num

theorem far_smooth : Smooth (.cubic 1) params (⟨1, 1, 2⟩ : V3 ℝ) [0]
    (faceSamples (fun _ => demoTri) demoVerts fun _ => 0) 0 :=
  demo_smooth 2 (by norm_num) (by norm_num) false

theorem far_distance : far.distance farX ([0], 1) = 2 := by
  have hS := far_smooth
  obtain ⟨hcl, -⟩ := regular_weighable (q := fun _ => (⟨1, 1, 2⟩ : V3 ℝ))
    (S := fun _ => faceSamples (fun _ => demoTri) demoVerts fun _ => 0) (t := 0) hS.toRegular
  have hb : backgroundWeight (.cubic 1) params.weighted ((⟨1, 1, 2⟩ : V3 ℝ) -
      (faceSamples (fun _ => demoTri) demoVerts fun _ => 0).pos 0).norm = 1 := by
    unfold backgroundWeight
    simp only [Kern.radius]
    rw [if_pos far_out]
  obtain ⟨-, -, g3⟩ := hS.unweighted rfl
  have hfar : weight (.cubic 1) ((⟨1, 1, 2⟩ : V3 ℝ) -
      (faceSamples (fun _ => demoTri) demoVerts fun _ => 0).pos 0).norm ⟨1, 1, 2⟩
      (faceSamples (fun _ => demoTri) demoVerts fun _ => 0) 0 = 0 := by
    rcases g3 with g3 | g3
    · rw [hb] at g3
      norm_num at g3
    · exact (g3 0 (by simp)).1
  unfold Pair.distance
  rw [far_samples]
  show potentialAt (far.query farX 1) [0] _ (.cubic 1) params 0 - 0 = 2
  rw [far_query, potentialAt_eq hcl, hb]
  simp only [List.map_cons, List.map_nil, List.sum_cons, List.sum_nil, hfar]
  have hv : (bgAt (.cubic 1) params ⟨1, 1, 2⟩ [0]
      (faceSamples (fun _ => demoTri) demoVerts fun _ => 0) 0 (some 0)).fieldValue = 2 := by
    have e : (bgAt (.cubic 1) params ⟨1, 1, 2⟩ [0]
      (faceSamples (fun _ => demoTri) demoVerts fun _ => 0) 0 (some 0)).fieldValue =
        ((⟨1, 1, 2⟩ : V3 ℝ) - (faceSamples (fun _ => demoTri) demoVerts fun _ => 0).pos 0).norm *
        (bgAt (.cubic 1) params ⟨1, 1, 2⟩ [0]
          (faceSamples (fun _ => demoTri) demoVerts fun _ => 0) 0 (some 0)).orientation := rfl
    rw [e, orientation_eq, demo_norm 2 (by norm_num), demo_nml, demo_disp, if_neg]
    · norm_num
    · norm_num [V3.dot]
  have hv' : (Bg.newImpl ⟨1, 1, 2⟩ [0] (faceSamples (fun _ => demoTri) demoVerts fun _ => 0) (.loc 0)
    (.cubic 1) params (some 0)).fieldValue = 2 := hv
  rw [hv']
  norm_num

/-- C79 fails for contacts outside of the radius of the kernel, which exist when the tolerance is larger
than the radius: the force on the vertex turns as the triangle moves sideways, but the entries of the
contact Jacobian do not say so. -/
theorem contact_hessian_violated :
    ∃ (C : Pair) (x u w : ℕ → V3 ℝ) (v : ℝ), C.Separate ∧ C.objectFixed = false ∧
      C.colliderFixed = false ∧ (∀ j, C.surf j < 5) ∧ (∀ i, C.coll i < 5) ∧
      (∀ i, 5 ≤ i → u i = 0) ∧ (∀ i, 5 ≤ i → w i = 0) ∧
      (∀ p ∈ C.active, Smooth C.kernel params (C.query x p.2) p.1 (C.samples x) 0) ∧
      HasDerivAt (fun s : ℝ => C.forcePower (fun i => x i + s • w i) u 5) v 0 ∧
      v ≠ entryForm (C.hessianEntries x 5 5) (flat u) (flat w) := by
  have ha : far.active = [([0], 1)] := rfl
  have hsm : ∀ p ∈ far.active, Smooth far.kernel params (far.query farX p.2) p.1 (far.samples farX) 0 := by
    intro p hp
    rw [ha] at hp
    simp only [List.mem_singleton] at hp
    subst hp
    rw [far_samples]
    show Smooth (.cubic 1) params (far.query farX 1) [0] _ 0
    rw [far_query]
    exact far_smooth
  have hu : ∀ v, 5 ≤ v → farU v = 0 := fun v hv => if_neg (by omega)
  have hw : ∀ v, 5 ≤ v → farW v = 0 := fun v hv => if_neg (by omega)
  have hus : (fun j => farU (far.surf j)) = fun _ => 0 := by
    funext j
    simp only [far, demo, farU]
    split <;> rw [if_neg (by omega)]
  have hws : (fun j => farW (far.surf j)) = fun _ => ⟨1, 0, 0⟩ := by
    funext j
    simp only [far, demo, farW]
    split
    · rfl
    · rw [if_pos (by omega)]
  have huc : farU (far.coll 1) = ⟨1, 0, 0⟩ := by simp [far, demo, farU]
  have hwc : farW (far.coll 1) = 0 := by simp [far, demo, farW]
  have hx : ∀ v, HasD (fun s : ℝ => farX v + s • farW v) (farW v) 0 := fun v => HasD.line _ _
  have e0 : (fun v => farX v + (0 : ℝ) • farW v) = farX := by funext v; ext <;> simp
  have h0 := hsm ([0], 1) (by rw [ha]; simp)
  have hr := h0.toRegular
  rw [← e0] at hr h0
  obtain ⟨Q, J, hQ, hJ, -, hd⟩ := face_joint (old := 0) (t := 0) (k := far.kernel) (P := params)
    (view := [0]) (c := 0) (fun s : ℝ => far.query (fun v => farX v + s • farW v) 1)
    (farW (far.coll 1)) far.tris far.value (fun s j => farX (far.surf j) + s • farW (far.surf j))
    (fun j => farW (far.surf j)) (some (far.closest 1)) (hx _) (fun _ => hx _) hr
  have hpath := jacobian_path (t := 0) (k := far.kernel) (P := params)
    (view := [0]) (c := 0) (fun s : ℝ => far.query (fun v => farX v + s • farW v) 1)
    (farW (far.coll 1)) far.tris far.value (fun s j => farX (far.surf j) + s • farW (far.surf j))
    (fun j => farW (far.surf j)) (some (far.closest 1)) (hx _) (fun _ => hx _) h0
    (farU (far.coll 1)) fun j => farU (far.surf j)
  have hrate : far.rate farX ([0], 1) farW = V3.dot Q (farW (far.coll 1)) +
      applyBlocks J (faceJacobianCols [0] far.tris) fun j => farW (far.surf j) := by
    rw [← e0]
    unfold Pair.rate
    rw [show queryJacobianAt (far.query (fun v => farX v + (0 : ℝ) • farW v) 1) [0]
      (far.samples fun v => farX v + (0 : ℝ) • farW v) (some (far.closest 1)) far.kernel
      params = some Q from hQ, show faceJacobianAt (far.query (fun v => farX v + (0 : ℝ) • farW v) 1)
      [0] (far.samples fun v => farX v + (0 : ℝ) • farW v) far.kernel far.tris
      (fun j => farX (far.surf j) + (0 : ℝ) • farW (far.surf j)) params = some J from hJ]
    rfl
  rw [← hrate] at hd
  have hdist : HasDerivAt (fun s : ℝ => far.distance (fun v => farX v + s • farW v) ([0], 1))
      (far.rate farX ([0], 1) farW) 0 := hd.sub_const _
  have hmult : HasDerivAt (fun s : ℝ => far.mult (fun v => farX v + s • farW v) ([0], 1))
      (-far.kappa * (ContactPenalty.ddb far.delta (far.distance farX ([0], 1)) *
        far.rate farX ([0], 1) farW)) 0 := by
    have := ((ContactPenalty.db_hasDerivAt far.delta _).comp (0 : ℝ) hdist).const_mul (-far.kappa)
    rw [e0] at this
    exact this
  have hfun : (fun s : ℝ => far.forcePower (fun v => farX v + s • farW v) farU 5) = fun s =>
      far.mult (fun v => farX v + s • farW v) ([0], 1) *
        far.rate (fun v => farX v + s • farW v) ([0], 1) farU := by
    funext s
    rw [far.forcePower_rate _ farU 5 demo_surf demo_coll (fun h => by simp [far, demo] at h)
      fun h => by simp [far, demo] at h, ha]
    simp
  have hm6 : far.mult farX ([0], 1) = 6 := by
    unfold Pair.mult
    rw [far_distance, ContactPenalty.db_of_lt (by norm_num [far])]
    norm_num [far, demo]
  have hentry : entryForm (far.hessianEntries farX 5 5) (flat farU) (flat farW) =
      -far.kappa * ContactPenalty.ddb far.delta (far.distance farX ([0], 1)) *
        far.rate farX ([0], 1) farW * far.rate farX ([0], 1) farU := by
    rw [Pair.hessianEntries, entries_form, Pair.hessianBlocks, form_append,
      far.product_sum farX farU farW 5 5 demo_surf demo_coll hu hw (fun h => by simp [far, demo] at h)
        (fun h => by simp [far, demo] at h), form_filter _ _ _ _ hu hw, form_append,
      form_mirror, Pair.quadBlocks_append, far.object_quad far_separate farX farU farW
        (fun h => by simp [far, demo] at h),
      far.mixed_quad far_separate farX farU farW (fun h => by simp [far, demo] at h)
        (fun h => by simp [far, demo] at h), far.collider_form farX farU farW
        (fun h => by simp [far, demo] at h), ha]
    simp only [List.map_cons, List.map_nil, List.sum_cons, List.sum_nil, hus, hwc, quadBlocks_zero,
      applyMixed_zero, dot_zero_left, dot_zero_right, add_zero, zero_add]
    obtain ⟨M, hM⟩ : ∃ M, sampleQueryHessianAt (far.query farX 1) [0] (far.samples farX) far.kernel
        far.tris (fun j => farX (far.surf j)) params (far.mult farX ([0], 1)) = some M := by
      exact Pair.mixedHessian_isSome _ _ _ _ _ _ _ _ (by simp)
    have hz := mixed_hessian_far (hsm ([0], 1) (by rw [ha]; simp)) rfl (r := 1) rfl
      (by rw [far_samples]; show _ < (far.query farX 1 - _).norm; rw [far_query]; exact far_out)
      far.tris (fun j => farX (far.surf j)) (fun j => farW (far.surf j)) _ M hM
    rw [hM, Option.getD_some, hz]
    simp [V3.dot, M3.mulVec]
  have hD : HasDerivAt (fun s : ℝ => far.rate (fun v => farX v + s • farW v) ([0], 1) farU) (-1 / 2) 0 := by
    refine hpath.congr_deriv ?_
    simp only [hus, hws, hwc, huc]
    rw [show faceSamples far.tris (fun j => farX (far.surf j) + (0 : ℝ) • farW (far.surf j)) far.value =
      far.samples fun v => farX v + (0 : ℝ) • farW v from rfl, e0, far_query, far_samples,
      show far.kernel = .cubic 1 from rfl, pathForm_far far_smooth rfl (r := 1) rfl far_out]
    have e1 : (⟨1, 0, 0⟩ : V3 ℝ) + -mean far.tris (fun _ => 0) 0 = ⟨1, 0, 0⟩ := by
      ext <;> simp [mean]
    have e2 : (0 : V3 ℝ) + -mean far.tris (fun _ => ⟨1, 0, 0⟩) 0 = ⟨-1, 0, 0⟩ := by
      ext <;> simp [mean] <;> norm_num
    rw [e1, e2]
    have hdist' : (bgAt (.cubic 1) params ⟨1, 1, 2⟩ [0]
        (faceSamples (fun _ => demoTri) demoVerts fun _ => 0) 0 none).dist = 2 := demo_norm 2 (by norm_num)
    have hdisp : (bgAt (.cubic 1) params ⟨1, 1, 2⟩ [0]
        (faceSamples (fun _ => demoTri) demoVerts fun _ => 0) 0 none).disp = ⟨0, 0, 2⟩ := demo_disp 2
    have ho : (bgAt (.cubic 1) params ⟨1, 1, 2⟩ [0]
        (faceSamples (fun _ => demoTri) demoVerts fun _ => 0) 0 none).orientation = 1 := by
      rw [orientation_eq]
      rw [demo_nml, demo_disp, if_neg]
      norm_num [V3.dot]
    have hval : (bgAt (.cubic 1) params ⟨1, 1, 2⟩ [0]
        (faceSamples (fun _ => demoTri) demoVerts fun _ => 0) 0 none).value = .signedDistance := rfl
    show qf ⟨1, 0, 0⟩ (bgAt (.cubic 1) params ⟨1, 1, 2⟩ [0]
        (faceSamples (fun _ => demoTri) demoVerts fun _ => 0) 0 none).fieldHess ⟨-1, 0, 0⟩ = -1 / 2
    unfold Bg.fieldHess
    rw [hval]
    simp only [hdist', hdisp, ho]
    norm_num [qf, M3.mulVec, M3.diag, M3.outer, V3.dot]
  have hforce := hmult.fun_mul hD
  simp only [e0, hm6] at hforce
  refine ⟨far, farX, farU, farW, _, far_separate, rfl, rfl, demo_surf, demo_coll, hu, hw, hsm, (by rw [hfun]; exact hforce),
    ?_⟩
  rw [hentry]
  intro h
  have : (6 : ℝ) * (-1 / 2) = 0 := by linear_combination h
  norm_num at this

end Softy.Contact
