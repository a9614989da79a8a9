import Verif.Model.SurfaceVelocity
import Verif.Props.Sliding

/-!
# C111: velocities of a surface are the same however they are asked for

Specification: the velocity of the surface at query point `i` is the sum of the blocks of the
contact Jacobian in row `i`, each applied to the velocity of the vertex in its column.
-/

noncomputable section

namespace Softy.SurfaceVelocity

open Softy Softy.Kernel Softy.Field Softy.Contact

/-- Specification: row `i` of a matrix of blocks, applied to velocities of vertices. -/
def rowProduct (bs : List MBlock) (i : ℕ) (v : ℕ → V3 ℝ) : V3 ℝ :=
  ((bs.filter fun b => b.row = i).map fun b => b.val.mulVec (v b.col)).sum

/-- Specification: the nine entries of a block, each with its row and column in the whole matrix. -/
def numbered (b : MBlock) : List ((ℕ × ℕ) × ℝ) :=
  [((3 * b.row, 3 * b.col), b.val.r0.x), ((3 * b.row, 3 * b.col + 1), b.val.r0.y),
    ((3 * b.row, 3 * b.col + 2), b.val.r0.z),
    ((3 * b.row + 1, 3 * b.col), b.val.r1.x), ((3 * b.row + 1, 3 * b.col + 1), b.val.r1.y),
    ((3 * b.row + 1, 3 * b.col + 2), b.val.r1.z),
    ((3 * b.row + 2, 3 * b.col), b.val.r2.x), ((3 * b.row + 2, 3 * b.col + 1), b.val.r2.y),
    ((3 * b.row + 2, 3 * b.col + 2), b.val.r2.z)]

/-- Specification: one of the samples around `q` is closer than the radius of the kernel. -/
def Near (k : Kern) (q : V3 ℝ) (view : List ℕ) (S : Samples) : Prop :=
  ∃ j ∈ view, ∀ r, k.radius = some r → (q - S.pos j).norm ≤ r

/-! ## Lists -/

theorem fill_all {α : Type} {new old : List α} (h : new.length = old.length) :
    Query.fill new old = new := by
  simp [Query.fill, ← h]

theorem zip_flatMap {α β γ : Type} (l : List α) (f : α → List β) (g : α → List γ)
    (h : ∀ a ∈ l, (f a).length = (g a).length) :
    (l.flatMap f).zip (l.flatMap g) = l.flatMap fun a => (f a).zip (g a) := by
  induction l with
  | nil => rfl
  | cons a l ih =>
    simp only [List.flatMap_cons]
    rw [List.zip_append (h a List.mem_cons_self), ih fun b hb => h b (List.mem_cons_of_mem _ hb)]

theorem sum_add_const {α : Type} (l : List α) (f : α → V3 ℝ) (c : ℝ) :
    (l.map fun a => c • f a).sum = c • (l.map f).sum := by
  induction l with
  | nil => ext <;> simp
  | cons a l ih => rw [List.map_cons, List.sum_cons, ih, List.map_cons, List.sum_cons]; ext <;> simp <;> ring

/-! ## Neighborhoods -/

namespace Query

variable (Q : Query)

theorem gradient_some {q : V3 ℝ} {view : List ℕ} {c : ℕ} (hc : closestSample q Q.S view = some c) :
    ∃ g, queryJacobianAt q view Q.S none Q.kernel Q.params = some g := by
  unfold queryJacobianAt
  rw [new_eq none none hc]
  exact ⟨_, rfl⟩

/-- The blocks of one row. -/
def rowBlocks (row : ℕ) (q : V3 ℝ) (view : List ℕ) : List MBlock :=
  (((contactJacobianAt q view Q.S Q.kernel Q.params).getD []).zip view).flatMap
    fun s => Q.sampleBlocks row s.2 s.1

theorem rowBlocks_row {row : ℕ} {q : V3 ℝ} {view : List ℕ} :
    ∀ b ∈ Q.rowBlocks row q view, b.row = row := by
  intro b hb
  obtain ⟨s, -, hb⟩ := List.mem_flatMap.1 hb
  unfold sampleBlocks at hb
  cases hs : Q.sampleType with
  | vertex => rw [hs] at hb; simp at hb; rw [hb]
  | face =>
    rw [hs] at hb
    obtain ⟨j, -, rfl⟩ := List.mem_map.1 hb
    rfl

theorem rowBlocks_eq {q : V3 ℝ} {view : List ℕ} {c : ℕ} {g : V3 ℝ}
    (hc : closestSample q Q.S view = some c)
    (hg : queryJacobianAt q view Q.S none Q.kernel Q.params = some g) (row : ℕ) :
    Q.rowBlocks row q view = view.flatMap fun j => Q.sampleBlocks row j
      (sampleContactJacobian Q.kernel (q - Q.S.pos c).norm q Q.S g
        (weightNmlSumInv Q.kernel (q - Q.S.pos c).norm q view Q.S g) j) := by
  unfold rowBlocks contactJacobianAt
  rw [local_eq none hc, hg]
  simp only [Option.bind_some, Option.map_some, Option.getD_some]
  show ((view.map (sampleContactJacobian Q.kernel (q - Q.S.pos c).norm q Q.S g
        (weightNmlSumInv Q.kernel (q - Q.S.pos c).norm q view Q.S g))).zip view).flatMap _ = _
  generalize sampleContactJacobian Q.kernel (q - Q.S.pos c).norm q Q.S g
        (weightNmlSumInv Q.kernel (q - Q.S.pos c).norm q view Q.S g) = J
  have e : ∀ l : List ℕ, (l.map J).zip l = l.map fun j => (J j, j) := by
    intro l
    induction l with
    | nil => rfl
    | cons a l ih => simp [ih]
  rw [e view, List.flatMap_map]

theorem matrices_eq {points : List (V3 ℝ)} (h : points.length = Q.nbrs.length) :
    Q.matrices points = some ((Q.visited points).flatMap fun p => Q.rowBlocks p.1 p.2.1 p.2.2) := by
  unfold matrices
  rw [if_pos h]
  rfl

/-- The blocks of row `n + i`. -/
theorem filter_visited (i : ℕ) : ∀ (l : List (V3 ℝ × List ℕ)) (n : ℕ) (p : V3 ℝ × List ℕ),
    l[i]? = some p →
    (((l.zipIdx n).filterMap fun p =>
        if p.1.2.isEmpty then none else some (p.2, p.1.1, p.1.2)).flatMap
      fun p => Q.rowBlocks p.1 p.2.1 p.2.2).filter (fun b => b.row = n + i) =
      if p.2.isEmpty then [] else Q.rowBlocks (n + i) p.1 p.2 := by
  have hge : ∀ (l : List (V3 ℝ × List ℕ)) (n : ℕ), ∀ b ∈ (((l.zipIdx n).filterMap fun p =>
        if p.1.2.isEmpty then none else some (p.2, p.1.1, p.1.2)).flatMap
      fun p => Q.rowBlocks p.1 p.2.1 p.2.2), n ≤ b.row := by
    intro l n b hb
    obtain ⟨s, hs, hb⟩ := List.mem_flatMap.1 hb
    obtain ⟨t, ht, hts⟩ := List.mem_filterMap.1 hs
    rw [Q.rowBlocks_row b hb]
    split at hts
    · cases hts
    · cases hts
      exact List.le_snd_of_mem_zipIdx ht
  intro l
  induction l generalizing i with
  | nil => intro n p h; simp at h
  | cons a l ih =>
    intro n p h
    rw [List.zipIdx_cons, List.filterMap_cons]
    cases i with
    | zero =>
      simp only [List.getElem?_cons_zero, Option.some.injEq] at h
      subst h
      have hrest : ((((l.zipIdx (n + 1)).filterMap fun p =>
            if p.1.2.isEmpty then none else some (p.2, p.1.1, p.1.2)).flatMap
          fun p => Q.rowBlocks p.1 p.2.1 p.2.2).filter (fun b => b.row = n + 0)) = [] := by
        refine List.filter_eq_nil_iff.2 fun b hb => ?_
        have := hge l (n + 1) b hb
        simp only [decide_eq_true_eq]
        omega
      by_cases he : a.2.isEmpty
      · simp only [he, if_true]
        exact hrest
      · simp only [he, Bool.false_eq_true, if_false]
        rw [List.flatMap_cons, List.filter_append, hrest, List.append_nil]
        refine List.filter_eq_self.2 fun b hb => ?_
        rw [Q.rowBlocks_row b hb]
        simp
    | succ i =>
      rw [List.getElem?_cons_succ] at h
      have := ih i (n + 1) p h
      have e : n + (i + 1) = n + 1 + i := by omega
      rw [e]
      by_cases he : a.2.isEmpty
      · simp only [he, if_true]
        exact this
      · simp only [he, Bool.false_eq_true, if_false]
        rw [List.flatMap_cons, List.filter_append, this]
        have h0 : (Q.rowBlocks n a.1 a.2).filter (fun b => b.row = n + 1 + i) = [] := by
          refine List.filter_eq_nil_iff.2 fun b hb => ?_
          rw [Q.rowBlocks_row b hb]
          simp only [decide_eq_true_eq]
          omega
        rw [h0, List.nil_append]

/-- What one sample adds. -/
theorem sampleBlocks_sum (row j : ℕ) (m : M3 ℝ) (v : ℕ → V3 ℝ) :
    ((Q.sampleBlocks row j m).map fun b => b.val.mulVec (v b.col)).sum =
      m.mulVec (Q.sampleVelocity v j) := by
  unfold sampleBlocks sampleVelocity
  cases Q.sampleType with
  | vertex => simp
  | face =>
    simp only [List.finRange_succ, List.finRange_zero, List.map_nil, List.map_cons, List.sum_cons,
      List.sum_nil, Tri.get]
    ext <;> simp [M3.mulVec, V3.dot] <;> ring

theorem rowBlocks_sum {q : V3 ℝ} {view : List ℕ} {c : ℕ} {g : V3 ℝ}
    (hc : closestSample q Q.S view = some c)
    (hg : queryJacobianAt q view Q.S none Q.kernel Q.params = some g) (row : ℕ) (v : ℕ → V3 ℝ) :
    ((Q.rowBlocks row q view).map fun b => b.val.mulVec (v b.col)).sum =
      (view.map fun j => (sampleContactJacobian Q.kernel (q - Q.S.pos c).norm q Q.S g
        (weightNmlSumInv Q.kernel (q - Q.S.pos c).norm q view Q.S g) j).mulVec
          (Q.sampleVelocity v j)).sum := by
  rw [Q.rowBlocks_eq hc hg]
  generalize sampleContactJacobian Q.kernel (q - Q.S.pos c).norm q Q.S g
        (weightNmlSumInv Q.kernel (q - Q.S.pos c).norm q view Q.S g) = J
  clear hc hg
  induction view with
  | nil => rfl
  | cons a l ih =>
    rw [List.flatMap_cons, List.map_append, List.sum_append, ih, List.map_cons, List.sum_cons,
      sampleBlocks_sum]

/-- Row `i` of the blocks. -/
theorem rowProduct_matrices {points : List (V3 ℝ)} {bs : List MBlock}
    (hbs : Q.matrices points = some bs) {i : ℕ} {q : V3 ℝ} {view : List ℕ}
    (hq : points[i]? = some q) (hv : Q.nbrs[i]? = some view) (v : ℕ → V3 ℝ) :
    rowProduct bs i v = if view.isEmpty then 0
      else ((Q.rowBlocks i q view).map fun b => b.val.mulVec (v b.col)).sum := by
  have hl : points.length = Q.nbrs.length := by
    unfold matrices at hbs
    by_contra hc
    rw [if_neg hc] at hbs
    cases hbs
  rw [Q.matrices_eq hl] at hbs
  have hz : (points.zip Q.nbrs)[i]? = some (q, view) := by
    rw [List.getElem?_zip_eq_some]
    exact ⟨hq, hv⟩
  have := Q.filter_visited i (points.zip Q.nbrs) 0 (q, view) hz
  rw [Nat.zero_add] at this
  unfold rowProduct
  injection hbs with hbs
  rw [← hbs]
  unfold visited
  rw [this]
  split <;> rfl

/-! ## Indices -/

theorem sampleBlocks_index (row j : ℕ) (m : M3 ℝ) :
    (Q.sampleBlocks row j m).map (fun b => (b.row, b.col)) =
      match Q.sampleType with
      | .vertex => [(row, j)]
      | .face => (List.finRange 3).map fun c => (row, (Q.tris j).get c) := by
  unfold sampleBlocks
  cases Q.sampleType <;> simp [Function.comp_def]

theorem rowBlocks_index (row : ℕ) (q : V3 ℝ) {view : List ℕ} (hv : view ≠ []) :
    (Q.rowBlocks row q view).map (fun b => (b.row, b.col)) = view.flatMap fun j =>
      match Q.sampleType with
      | .vertex => [(row, j)]
      | .face => (List.finRange 3).map fun c => (row, (Q.tris j).get c) := by
  obtain ⟨c, hc⟩ := closestSample_isSome (q := q) (S := Q.S) hv
  obtain ⟨g, hg⟩ := Q.gradient_some hc
  rw [Q.rowBlocks_eq hc hg, List.map_flatMap]
  simp only [sampleBlocks_index]

theorem visited_index (l : List (V3 ℝ)) : ∀ (m : List (List ℕ)) (n : ℕ), l.length = m.length →
    ((((l.zip m).zipIdx n).filterMap fun p =>
        if p.1.2.isEmpty then none else some (p.2, p.1.1, p.1.2)).flatMap
      fun p => Q.rowBlocks p.1 p.2.1 p.2.2).map (fun b => (b.row, b.col)) =
    ((m.zipIdx n).filter fun p => !p.1.isEmpty).flatMap fun p => p.1.flatMap fun j =>
      match Q.sampleType with
      | .vertex => [(p.2, j)]
      | .face => (List.finRange 3).map fun c => (p.2, (Q.tris j).get c) := by
  induction l with
  | nil =>
    intro m n h
    have : m = [] := List.eq_nil_of_length_eq_zero h.symm
    subst this
    rfl
  | cons a l ih =>
    intro m n h
    cases m with
    | nil => simp at h
    | cons b m =>
      have h' : l.length = m.length := by simpa using h
      rw [List.zip_cons_cons, List.zipIdx_cons, List.zipIdx_cons, List.filterMap_cons]
      by_cases he : b.isEmpty
      · simp only [he, if_true]
        rw [ih m (n + 1) h', List.filter_cons]
        simp only [he, Bool.not_true, Bool.false_eq_true, if_false]
      · simp only [he, Bool.false_eq_true, if_false]
        have hne : b ≠ [] := by simpa using he
        rw [List.flatMap_cons, List.map_append, ih m (n + 1) h', List.filter_cons]
        simp only [he, Bool.not_false, if_true]
        rw [List.flatMap_cons, Q.rowBlocks_index n a hne]

end Query

variable {Q : Query}

/-- **Blocks and their indices.**  The blocks of the contact Jacobian come in the order of the
indices that are given separately, and there are as many as the count says. -/
theorem blocks_indices {points : List (V3 ℝ)} {bs : List MBlock}
    (hbs : Q.matrices points = some bs) :
    bs.map (fun b => (b.row, b.col)) = Q.matrixIndices ∧ bs.length = Q.numMatrices := by
  have hl : points.length = Q.nbrs.length := by
    unfold Query.matrices at hbs
    by_contra hc
    rw [if_neg hc] at hbs
    cases hbs
  have h1 : bs.map (fun b => (b.row, b.col)) = Q.matrixIndices := by
    rw [Q.matrices_eq hl] at hbs
    injection hbs with hbs
    rw [← hbs]
    exact Q.visited_index points Q.nbrs 0 hl
  refine ⟨h1, ?_⟩
  have h2 := congrArg List.length h1
  rw [List.length_map] at h2
  rw [h2]
  unfold Query.matrixIndices Query.numMatrices
  have : ∀ (m : List (List ℕ)) (n : ℕ), (((m.zipIdx n).filter fun p => !p.1.isEmpty).flatMap
      fun p => p.1.flatMap fun j =>
        match Q.sampleType with
        | .vertex => [(p.2, j)]
        | .face => (List.finRange 3).map fun c => (p.2, (Q.tris j).get c)).length =
      (m.map List.length).sum * (match Q.sampleType with | .vertex => 1 | .face => 3) := by
    intro m
    induction m with
    | nil => intro n; simp
    | cons b m ih =>
      intro n
      rw [List.zipIdx_cons, List.filter_cons, List.map_cons, List.sum_cons, Nat.add_mul]
      have hb : (b.flatMap fun j =>
          match Q.sampleType with
          | .vertex => [(n, j)]
          | .face => (List.finRange 3).map fun c => (n, (Q.tris j).get c)).length =
          b.length * (match Q.sampleType with | .vertex => 1 | .face => 3) := by
        cases Q.sampleType <;> simp [List.length_flatMap]
      by_cases he : b.isEmpty
      · have : b = [] := by simpa using he
        subst this
        simpa using ih (n + 1)
      · simp only [he, Bool.not_false, if_true]
        rw [List.flatMap_cons, List.length_append, ih (n + 1)]
        exact congrArg (· + _) hb
  exact this Q.nbrs 0

/-- **Numbers and their indices.**  Written to a buffer of the size that is asked for, each number
of the contact Jacobian stands where its row and column, given separately, say. -/
theorem values_indices {points : List (V3 ℝ)} {bs : List MBlock}
    (hbs : Q.matrices points = some bs) {buffer : List ℝ} (hl : buffer.length = Q.numEntries) :
    ∃ vals, Q.values points buffer = some vals ∧ vals.length = Q.numEntries ∧
      Q.indices.zip vals = bs.flatMap numbered := by
  obtain ⟨hi, hn⟩ := blocks_indices hbs
  have hlen : (bs.flatMap fun b => Query.entries b.val).length = Q.numEntries := by
    rw [List.length_flatMap]
    simp only [Query.entries, List.length_cons, List.length_nil, List.map_const', List.sum_replicate]
    rw [Query.numEntries, hn]
    simp [Nat.mul_comm]
  refine ⟨bs.flatMap fun b => Query.entries b.val, ?_, hlen, ?_⟩
  · unfold Query.values
    rw [hbs, Option.map_some, fill_all (hlen.trans hl.symm)]
  · unfold Query.indices
    rw [← hi, List.flatMap_map, zip_flatMap _ _ _ fun b _ => by
      simp [Query.entries, List.finRange_succ]]
    rfl

theorem near_background {q : V3 ℝ} {view : List ℕ} (hw : Q.params.weighted = false)
    (hn : Near Q.kernel q view Q.S) {b : Bg}
    (hb : Bg.local q view Q.S Q.kernel Q.params none = some b) :
    b.bgWeight = 0 ∧ b.queryJacobian = 0 := by
  obtain ⟨j, hj, hr⟩ := hn
  obtain ⟨c, hc⟩ := closestSample_isSome (q := q) (S := Q.S) (List.ne_nil_of_mem hj)
  obtain ⟨-, hmin⟩ := closestSample_spec hc
  rw [local_eq none hc] at hb
  injection hb with hb
  subst hb
  have h0 : (bgAt Q.kernel Q.params q view Q.S c none).bgWeight = 0 := by
    show backgroundWeight Q.kernel Q.params.weighted (q - Q.S.pos c).norm = 0
    rw [hw]
    unfold backgroundWeight
    cases hk : Q.kernel.radius with
    | none => rfl
    | some r =>
      simp only
      rw [if_neg (not_lt.2 ((hmin j hj).trans (hr r hk)))]
      simp
  refine ⟨h0, ?_⟩
  have hwt : (bgAt Q.kernel Q.params q view Q.S c none).weighted = false := hw
  unfold Bg.queryJacobian
  simp only [h0, hwt, zero_mul]
  ext <;> simp

/-- **Products.**  If no neighborhood is empty, the product with velocities is, at each query point,
the row of the blocks applied to the velocities, plus a vector that does not depend on the
velocities: the gradient of the background.

Partial: the property asks that nothing is added (`product_background_violated`) and that results
are at the places of their query points also if neighborhoods are empty
(`product_shift_violated`). -/
theorem product_partial {points : List (V3 ℝ)} {bs : List MBlock}
    (hbs : Q.matrices points = some bs) (hne : ∀ view ∈ Q.nbrs, view ≠ [])
    {buffer : List (V3 ℝ)} (hl : buffer.length = points.length) (v : ℕ → V3 ℝ) {i : ℕ} {q : V3 ℝ}
    {view : List ℕ} (hq : points[i]? = some q) (hv : Q.nbrs[i]? = some view) :
    ∃ b, Bg.local q view Q.S Q.kernel Q.params none = some b ∧
      (Q.productValues points v buffer)[i]? = some (rowProduct bs i v + b.queryJacobian) := by
  have hvn : view ≠ [] := hne view (List.mem_of_getElem? hv)
  obtain ⟨c, hc⟩ := closestSample_isSome (q := q) (S := Q.S) hvn
  obtain ⟨g, hg⟩ := Q.gradient_some hc
  refine ⟨_, local_eq none hc, ?_⟩
  have hlen : points.length = Q.nbrs.length := by
    unfold Query.matrices at hbs
    by_contra hcc
    rw [if_neg hcc] at hbs
    cases hbs
  have hz : (points.zip Q.nbrs)[i]? = some (q, view) := by
    rw [List.getElem?_zip_eq_some]
    exact ⟨hq, hv⟩
  have hf : (points.zip Q.nbrs).filter (fun p => !p.2.isEmpty) = points.zip Q.nbrs := by
    refine List.filter_eq_self.2 fun p hp => ?_
    have := hne p.2 (List.of_mem_zip hp).2
    simpa using this
  unfold Query.productValues
  rw [hf, fill_all (by simp [hlen, hl]), List.getElem?_map, hz, Option.map_some]
  rw [Q.rowProduct_matrices hbs hq hv, if_neg (by simpa using hvn), Q.rowBlocks_sum hc hg]
  unfold Query.productAt
  rw [local_eq none hc, hg]
  rfl

/-- With a background that is not mixed in, near the surface, nothing is added. -/
theorem product_near {points : List (V3 ℝ)} {bs : List MBlock}
    (hbs : Q.matrices points = some bs) (hne : ∀ view ∈ Q.nbrs, view ≠ [])
    {buffer : List (V3 ℝ)} (hl : buffer.length = points.length) (v : ℕ → V3 ℝ) {i : ℕ} {q : V3 ℝ}
    {view : List ℕ} (hq : points[i]? = some q) (hv : Q.nbrs[i]? = some view)
    (hw : Q.params.weighted = false) (hnear : Near Q.kernel q view Q.S) :
    (Q.productValues points v buffer)[i]? = some (rowProduct bs i v) := by
  obtain ⟨b, hb, e⟩ := product_partial hbs hne hl v hq hv
  rw [e, (near_background hw hnear hb).2, add_zero]

/-- **Uniform motion.**  Where the surface is flat around a query point, and all its vertices move
with one velocity, that is the velocity of the surface there. -/
theorem uniform_flat {points : List (V3 ℝ)} {bs : List MBlock}
    (hbs : Q.matrices points = some bs) {i : ℕ} {q : V3 ℝ} {view : List ℕ}
    (hq : points[i]? = some q) (hv : Q.nbrs[i]? = some view) (hP : Q.params = params) {n : V3 ℝ}
    (hflat : FlatAround Q.kernel q view Q.S n) (u : V3 ℝ) :
    rowProduct bs i (fun _ => u) = u := by
  obtain ⟨j, hj, -⟩ := hflat.near
  have hvn : view ≠ [] := List.ne_nil_of_mem hj
  obtain ⟨w, hw, hs⟩ := hflat.contactJacobian
  rw [Q.rowProduct_matrices hbs hq hv, if_neg (by simpa using hvn)]
  unfold Query.rowBlocks
  rw [hP, hw, Option.getD_some]
  have e : ∀ l : List ℕ, (((((l.map fun i => w i • M3.diag (1 : ℝ)).zip l).flatMap fun s =>
      Q.sampleBlocks i s.2 s.1)).map fun b => b.val.mulVec u).sum = (l.map w).sum • u := by
    intro l
    induction l with
    | nil => ext <;> simp
    | cons a l ih =>
      rw [List.map_cons, List.zip_cons_cons, List.flatMap_cons, List.map_append, List.sum_append, ih]
      rw [Q.sampleBlocks_sum i a (w a • M3.diag 1) fun _ => u, List.map_cons, List.sum_cons]
      have hsv : Q.sampleVelocity (fun _ => u) a = u := by
        unfold Query.sampleVelocity
        cases Q.sampleType with
        | vertex => rfl
        | face => ext <;> simp <;> ring
      rw [hsv]
      ext <;> simp [M3.mulVec, M3.diag, V3.dot] <;> ring
  rw [e view, hs]
  ext <;> simp

/-! ## Vector fields -/

/-- Points without samples around them keep the vector that is in the buffer. -/
theorem vector_empty (q old : V3 ℝ) : Q.vectorAt q [] old = old := rfl

/-- **The vector field in general.**  Up to the background, the vector at a query point is the
velocity of the surface there, multiplied by the sum of the weights that take normals into account
and divided by the sum of the weights that do not, which includes that of the background. The
background is the old vector times the weight of the background if it is the input, and zero
otherwise. -/
theorem vector_formula {q : V3 ℝ} {view : List ℕ} (hv : view ≠ []) (old : V3 ℝ)
    (v : ℕ → V3 ℝ) (hvel : ∀ j ∈ view, Q.S.vel j = Q.sampleVelocity v j) {points : List (V3 ℝ)}
    {bs : List MBlock} (hbs : Q.matrices points = some bs) {i : ℕ} (hq : points[i]? = some q)
    (hvi : Q.nbrs[i]? = some view) :
    ∃ b g, Bg.local q view Q.S Q.kernel Q.params none = some b ∧
      queryJacobianAt q view Q.S none Q.kernel Q.params = some g ∧
      (0 < (view.map fun j => weight Q.kernel b.dist q Q.S j *
          normalKernel (unitNormal Q.S j) g).sum →
        ∃ background : V3 ℝ,
          (Q.params.fieldType = .fromInput → background = b.bgWeight • old) ∧
          (Q.params.fieldType ≠ .fromInput → background = 0) ∧
          Q.vectorAt q view old = background +
          ((view.map fun j => weight Q.kernel b.dist q Q.S j *
            normalKernel (unitNormal Q.S j) g).sum * b.weightSumInv) • rowProduct bs i v) := by
  obtain ⟨c, hc⟩ := closestSample_isSome (q := q) (S := Q.S) hv
  obtain ⟨g, hg⟩ := Q.gradient_some hc
  refine ⟨_, g, local_eq none hc, hg, ?_⟩
  intro hpos
  refine ⟨Q.backgroundVector (bgAt Q.kernel Q.params q view Q.S c none) old, fun h => ?_, fun h => ?_, ?_⟩
  · unfold Query.backgroundVector
    rw [h]
  · unfold Query.backgroundVector
    cases e : Q.params.fieldType with
    | zero => ext <;> simp
    | fromInput => exact absurd e h
    | distanceBased => ext <;> simp
  rw [Q.rowProduct_matrices hbs hq hvi, if_neg (by simpa using hv), Q.rowBlocks_sum hc hg]
  unfold Query.vectorAt
  rw [local_eq none hc]
  simp only [hg]
  set b := bgAt Q.kernel Q.params q view Q.S c none with hbd
  have hd : (q - Q.S.pos c).norm = b.dist := rfl
  rw [hd]
  congr 1
  rw [← sum_add_const]
  congr 1
  refine List.map_congr_left fun j hj => ?_
  rw [hvel j hj]
  have hW : weightNmlSumInv Q.kernel b.dist q view Q.S g =
      1 / (view.map fun j => weight Q.kernel b.dist q Q.S j *
        normalKernel (unitNormal Q.S j) g).sum := by
    unfold weightNmlSumInv
    rw [if_pos hpos]
  unfold sampleContactJacobian
  rw [hW]
  generalize (view.map fun j => weight Q.kernel b.dist q Q.S j *
    normalKernel (unitNormal Q.S j) g).sum = W at hpos
  have hW0 : W ≠ 0 := hpos.ne'
  ext <;> simp [M3.mulVec, V3.dot] <;> field_simp

/-- **The vector field is the velocity of the surface** where the surface is flat and the background
is not mixed in.

Partial: the property asks for it everywhere (`vector_uniform_violated`). -/
theorem vector_flat_partial {q : V3 ℝ} {view : List ℕ} (old : V3 ℝ) (v : ℕ → V3 ℝ)
    (hvel : ∀ j ∈ view, Q.S.vel j = Q.sampleVelocity v j) {points : List (V3 ℝ)}
    {bs : List MBlock} (hbs : Q.matrices points = some bs) {i : ℕ} (hq : points[i]? = some q)
    (hvi : Q.nbrs[i]? = some view) (hP : Q.params = params) {n : V3 ℝ}
    (hflat : FlatAround Q.kernel q view Q.S n) :
    Q.vectorAt q view old = rowProduct bs i v := by
  obtain ⟨j, hj, hr⟩ := hflat.near
  have hvn : view ≠ [] := List.ne_nil_of_mem hj
  obtain ⟨b, g, hb, hg, e⟩ := vector_formula hvn old v hvel hbs hq hvi
  obtain ⟨c, hc, hpos, -⟩ := hflat.weights
  have hg' := hflat.gradient none
  rw [← hP, hg] at hg'
  injection hg' with hgn
  subst hgn
  have hb' := hb
  rw [local_eq none hc] at hb'
  injection hb' with hb'
  have hdist : b.dist = (q - Q.S.pos c).norm := by rw [← hb']; rfl
  have hk : ∀ i ∈ view, normalKernel (unitNormal Q.S i) g = 1 := by
    intro i hi
    unfold normalKernel unitNormal
    rw [hflat.normals i hi, hflat.unit]
    norm_num
  have hsum : (view.map fun j => weight Q.kernel b.dist q Q.S j *
      normalKernel (unitNormal Q.S j) g).sum =
      (view.map (weight Q.kernel (q - Q.S.pos c).norm q Q.S)).sum := by
    rw [hdist]
    congr 1
    exact List.map_congr_left fun i hi => by rw [hk i hi, mul_one]
  have hw0 : Q.params.weighted = false := by rw [hP]; rfl
  have hbg := (near_background hw0 ⟨j, hj, fun r h => (hr r h).le⟩ hb).1
  have hWs : b.weightSum = (view.map (weight Q.kernel (q - Q.S.pos c).norm q Q.S)).sum := by
    have h1 : b.weightSum = (view.map (weight Q.kernel (q - Q.S.pos c).norm q Q.S)).sum +
        b.bgWeight := by rw [← hb']; rfl
    rw [h1, hbg, add_zero]
  obtain ⟨bg, hin, hout, e'⟩ := e (by rw [hsum]; exact hpos)
  have hz : bg = 0 := by
    by_cases h : Q.params.fieldType = .fromInput
    · rw [hin h, hbg]
      ext <;> simp
    · exact hout h
  rw [e', hsum, weightSumInv_eq, hWs, mul_inv_cancel₀ hpos.ne', hz]
  ext <;> simp

/-- Unless the background is taken from the input, the vector field does not depend on what was in
the buffer, wherever there are samples. -/
theorem vector_input {q : V3 ℝ} {view : List ℕ} (hv : view ≠ [])
    (hP : Q.params.fieldType ≠ .fromInput) (old old' : V3 ℝ) :
    Q.vectorAt q view old = Q.vectorAt q view old' := by
  obtain ⟨c, hc⟩ := closestSample_isSome (q := q) (S := Q.S) hv
  obtain ⟨g, hg⟩ := Q.gradient_some hc
  unfold Query.vectorAt
  rw [local_eq none hc]
  simp only [hg]
  congr 1
  unfold Query.backgroundVector
  cases h : Q.params.fieldType with
  | zero => rfl
  | fromInput => exact absurd h hP
  | distanceBased => rfl

/-- The vector field has one vector for each point, in their order. -/
theorem vector_places {points buffer : List (V3 ℝ)} (hp : points.length = Q.nbrs.length)
    (hl : Q.nbrs.length = buffer.length) {i : ℕ} {q old : V3 ℝ} {view : List ℕ}
    (hq : points[i]? = some q) (hv : Q.nbrs[i]? = some view) (ho : buffer[i]? = some old) :
    ∃ out, Q.vectorField points buffer = some out ∧ out.length = points.length ∧
      out[i]? = some (Q.vectorAt q view old) := by
  have hlen : ((((points.zip Q.nbrs).zip buffer).map fun p => Q.vectorAt p.1.1 p.1.2 p.2)).length =
      buffer.length := by simp [hp, hl]
  refine ⟨((points.zip Q.nbrs).zip buffer).map fun p => Q.vectorAt p.1.1 p.1.2 p.2, ?_, ?_, ?_⟩
  · unfold Query.vectorField
    rw [if_pos hl, fill_all hlen]
  · rw [hlen, hp, hl]
  · have hz : ((points.zip Q.nbrs).zip buffer)[i]? = some ((q, view), old) := by
      rw [List.getElem?_zip_eq_some, List.getElem?_zip_eq_some]
      exact ⟨⟨hq, hv⟩, ho⟩
    rw [List.getElem?_map, hz]
    rfl

end Softy.SurfaceVelocity
