import Verif.Model.Assembly
import Verif.Lemmas.VecCalc
import Mathlib.Algebra.BigOperators.Fin
import Mathlib.Algebra.BigOperators.Group.List.Lemmas

/-!
# C38: assembly of Hessian triplets
-/

noncomputable section

namespace Softy.Assembly

open Softy

/-! ## Specification -/

/-- Coordinate number `i` of all vertices: component `i % 3` of vertex `i / 3`. -/
def coord (p : ℕ → V3 ℝ) (i : ℕ) : ℝ := (p (i / 3)).get ⟨i % 3, Nat.mod_lt _ (by norm_num)⟩

/-- Component `i` of the product of a symmetric matrix with a vector. The matrix is given by a list
of triplets (row, column, value), each of which stands for the entry and, off the diagonal, for its
mirror image. Triplets of the same entry are added. -/
def symMul (T : List ((ℕ × ℕ) × ℝ)) (x : ℕ → ℝ) (i : ℕ) : ℝ :=
  (T.map fun e =>
    (if e.1.1 = i then e.2 * x e.1.2 else 0)
      + (if e.1.2 = i ∧ e.1.1 ≠ e.1.2 then e.2 * x e.1.1 else 0)).sum

/-- The entry of a local Hessian is on or below the diagonal. -/
def IsLower {m : ℕ} (e : Entry m) : Prop :=
  e.2.1 < e.1 ∨ (e.2.1 = e.1 ∧ e.2.2.2 ≤ e.2.2.1)

instance {m : ℕ} : DecidablePred (IsLower (m := m)) := fun _ => inferInstanceAs (Decidable (_ ∨ _))

/-- The symmetric matrix with the entries of `h` on and below the diagonal. -/
def symm {m : ℕ} (h : LocalHess m) (n k : Fin m) (row col : Fin 3) : ℝ :=
  if k < n ∨ (k = n ∧ col ≤ row) then h n k row col else h k n col row

/-- The product of this matrix with a vector for each vertex. -/
def symmMul {m : ℕ} (h : LocalHess m) (d : Fin m → V3 ℝ) (n : Fin m) : V3 ℝ :=
  ⟨∑ k, ∑ col, symm h n k 0 col * (d k).get col, ∑ k, ∑ col, symm h n k 1 col * (d k).get col,
    ∑ k, ∑ col, symm h n k 2 col * (d k).get col⟩

/-- The order of entries goes through every entry on and below the diagonal exactly once. -/
def Exact {m : ℕ} (P : List (Entry m)) : Prop := P.Nodup ∧ ∀ e, e ∈ P ↔ IsLower e

/-! ## Order of entries -/

set_option maxRecDepth 10000 in
theorem pattern_three : Exact (pattern 3) := by
  refine ⟨by decide, by decide⟩

set_option maxRecDepth 10000 in
theorem pattern_four : Exact (pattern 4) := by
  refine ⟨by decide, by decide⟩

set_option maxRecDepth 10000 in
theorem edgePattern_exact : Exact edgePattern := by
  refine ⟨by decide, by decide⟩

theorem pattern_three_length : (pattern 3).length = 45 := by decide

theorem pattern_four_length : (pattern 4).length = 78 := by decide

theorem edgePattern_length : edgePattern.length = 78 := by decide

/-! ## Components -/

@[simp] theorem get_zero (c : Fin 3) : (0 : V3 ℝ).get c = 0 := by
  fin_cases c <;> rfl

@[simp] theorem get_add (a b : V3 ℝ) (c : Fin 3) : (a + b).get c = a.get c + b.get c := by
  fin_cases c <;> rfl

theorem get_mk (a b d : ℝ) (c : Fin 3) : (⟨a, b, d⟩ : V3 ℝ).get c = ![a, b, d] c := rfl

theorem coord_vertex (p : ℕ → V3 ℝ) (v : ℕ) (c : Fin 3) : coord p (3 * v + c.val) = (p v).get c := by
  unfold coord
  have h1 : (3 * v + c.val) / 3 = v := by omega
  have h2 : (⟨(3 * v + c.val) % 3, Nat.mod_lt _ (by norm_num)⟩ : Fin 3) = c := by
    apply Fin.ext; simp only; omega
  rw [h2, h1]

theorem symmMul_get {m : ℕ} (h : LocalHess m) (d : Fin m → V3 ℝ) (n : Fin m) (c : Fin 3) :
    (symmMul h d n).get c = ∑ k, ∑ col, symm h n k c col * (d k).get col := by
  fin_cases c <;> rfl

theorem hasD_iff_get {f : ℝ → V3 ℝ} {f' : V3 ℝ} {t : ℝ} :
    HasD f f' t ↔ ∀ c, HasDerivAt (fun s => (f s).get c) (f'.get c) t := by
  constructor
  · intro h c
    fin_cases c
    · exact h.1
    · exact h.2.1
    · exact h.2.2
  · intro h
    exact ⟨h 0, h 1, h 2⟩

/-! ## Accumulation -/

theorem addAll_append (l l' : List (ℕ × V3 ℝ)) (G : ℕ → V3 ℝ) :
    addAll (l ++ l') G = addAll l' (addAll l G) := by
  induction l generalizing G with
  | nil => rfl
  | cons a l ih => exact ih _

/-- Accumulation adds to each vertex the sum of its contributions. -/
theorem addAll_apply (l : List (ℕ × V3 ℝ)) (G : ℕ → V3 ℝ) (v : ℕ) :
    addAll l G v = G v + (l.map fun p => if p.1 = v then p.2 else 0).sum := by
  induction l generalizing G with
  | nil => simp [addAll]
  | cons a l ih =>
    simp only [addAll, ih, List.map_cons, List.sum_cons]
    by_cases h : a.1 = v
    · subst h; simp [add_assoc]
    · rw [Function.update_of_ne (Ne.symm h)]
      simp [h]

theorem addBelow_apply (len : ℕ) (l : List (ℕ × V3 ℝ)) (G : ℕ → V3 ℝ) (v : ℕ) :
    addBelow len l G v =
      G v + if v < len then (l.map fun p => if p.1 = v then p.2 else 0).sum else 0 := by
  induction l generalizing G with
  | nil => simp [addBelow]
  | cons a l ih =>
    simp only [addBelow, ih, List.map_cons, List.sum_cons]
    by_cases h : a.1 = v
    · subst h
      by_cases h2 : a.1 < len <;> simp [h2, add_assoc]
    · by_cases h2 : a.1 < len
      · simp only [h2, if_true]
        rw [Function.update_of_ne (Ne.symm h)]
        simp [h]
      · simp [h2, h]

theorem zipCell_sum {m : ℕ} (cell : Fin m → ℕ) (g : Fin m → V3 ℝ) (v : ℕ) :
    ((zipCell cell g).map fun p => if p.1 = v then p.2 else 0).sum =
      ∑ n, if cell n = v then g n else 0 := by
  simp only [zipCell, List.map_map]
  rw [← List.ofFn_eq_map, List.sum_ofFn]
  rfl

/-! ## One element -/

theorem exact_sum {m : ℕ} {P : List (Entry m)} (hP : Exact P) (f : Entry m → ℝ) :
    (P.map f).sum = ∑ e, if IsLower e then f e else 0 := by
  rw [← List.sum_toFinset f hP.1, ← Finset.sum_filter]
  congr 1
  ext e
  simp [hP.2]

/-- What a triplet contributes does not change when its row and column are exchanged. -/
theorem contribution_symm (a b i : ℕ) (v : ℝ) (x : ℕ → ℝ) :
    (if a = i then v * x b else 0) + (if b = i ∧ a ≠ b then v * x a else 0) =
      (if b = i then v * x a else 0) + (if a = i ∧ b ≠ a then v * x b else 0) := by
  by_cases hab : a = b
  · subst hab; simp
  · by_cases ha : a = i <;> by_cases hb : b = i <;> simp [ha, hb, hab, Ne.symm hab] <;>
      simp_all

theorem symMul_append (S T : List ((ℕ × ℕ) × ℝ)) (x : ℕ → ℝ) (i : ℕ) :
    symMul (S ++ T) x i = symMul S x i + symMul T x i := by
  simp [symMul]

/-- The triplets of one element. -/
def elemTriplets {m : ℕ} (P : List (Entry m)) (cell : Fin m → ℕ) (h : LocalHess m) :
    List ((ℕ × ℕ) × ℝ) :=
  P.map fun e => (globalIndex cell (0, 0) e, entryValue h e)

theorem index_inj {a b r c : ℕ} (hr : r < 3) (hc : c < 3) :
    3 * a + r = 3 * b + c ↔ a = b ∧ r = c := by omega

/-- The triplets of one element act like its local symmetric matrix. -/
theorem elem_symMul {m : ℕ} {P : List (Entry m)} (hP : Exact P) (cell : Fin m → ℕ)
    (hc : Function.Injective cell) (h : LocalHess m) (d : ℕ → V3 ℝ) (v : ℕ) (c : Fin 3) :
    symMul (elemTriplets P cell h) (coord d) (3 * v + c.val) =
      ∑ n, if cell n = v then (symmMul h (fun k => d (cell k)) n).get c else 0 := by
  have hcon : ∀ e : Entry m,
      (if (globalIndex cell (0, 0) e).1 = 3 * v + c.val
          then entryValue h e * coord d (globalIndex cell (0, 0) e).2 else 0)
        + (if (globalIndex cell (0, 0) e).2 = 3 * v + c.val ∧
            (globalIndex cell (0, 0) e).1 ≠ (globalIndex cell (0, 0) e).2
          then entryValue h e * coord d (globalIndex cell (0, 0) e).1 else 0) =
      (if cell e.1 = v ∧ e.2.2.1 = c then entryValue h e * (d (cell e.2.1)).get e.2.2.2 else 0)
        + (if (cell e.2.1 = v ∧ e.2.2.2 = c) ∧ ¬ (e.1 = e.2.1 ∧ e.2.2.1 = e.2.2.2)
          then entryValue h e * (d (cell e.1)).get e.2.2.1 else 0) := by
    rintro ⟨n, k, row, col⟩
    have key : (if 3 * cell n + row.val = 3 * v + c.val
          then h n k row col * coord d (3 * cell k + col.val) else 0)
        + (if 3 * cell k + col.val = 3 * v + c.val ∧ 3 * cell n + row.val ≠ 3 * cell k + col.val
          then h n k row col * coord d (3 * cell n + row.val) else 0) =
      (if cell n = v ∧ row = c then h n k row col * (d (cell k)).get col else 0)
        + (if (cell k = v ∧ col = c) ∧ ¬ (n = k ∧ row = col)
          then h n k row col * (d (cell n)).get row else 0) := by
      simp only [coord_vertex, index_inj row.isLt c.isLt, index_inj col.isLt c.isLt, ne_eq,
        index_inj row.isLt col.isLt, hc.eq_iff, ← Fin.ext_iff]
    simp only [globalIndex, entryValue]
    by_cases hlt : cell n < cell k
    · simp only [hlt, if_true, add_zero]
      rw [contribution_symm]
      exact key
    · simp only [hlt, if_false, add_zero]
      exact key
  unfold symMul elemTriplets
  rw [List.map_map, exact_sum hP]
  simp only [Function.comp_def, hcon]
  have hsum : ∀ f : Entry m → ℝ, ∑ e, f e = ∑ n, ∑ row, ∑ k, ∑ col, f (n, k, row, col) := by
    intro f
    simp only [Fintype.sum_prod_type]
    refine Finset.sum_congr rfl fun n _ => ?_
    rw [Finset.sum_comm]
  have hsplit : (∑ e : Entry m, if IsLower e then
      (if cell e.1 = v ∧ e.2.2.1 = c then entryValue h e * (d (cell e.2.1)).get e.2.2.2 else 0)
        + (if (cell e.2.1 = v ∧ e.2.2.2 = c) ∧ ¬ (e.1 = e.2.1 ∧ e.2.2.1 = e.2.2.2)
          then entryValue h e * (d (cell e.1)).get e.2.2.1 else 0) else 0) =
      (∑ e : Entry m, if IsLower e ∧ cell e.1 = v ∧ e.2.2.1 = c
        then entryValue h e * (d (cell e.2.1)).get e.2.2.2 else 0)
      + ∑ e : Entry m, if IsLower e ∧ (cell e.2.1 = v ∧ e.2.2.2 = c) ∧
          ¬ (e.1 = e.2.1 ∧ e.2.2.1 = e.2.2.2)
        then entryValue h e * (d (cell e.1)).get e.2.2.1 else 0 := by
    rw [← Finset.sum_add_distrib]
    refine Finset.sum_congr rfl fun e _ => ?_
    by_cases hl : IsLower e <;> simp [hl]
  rw [hsplit]
  -- exchange the two vertices in the second sum
  let σ : Entry m ≃ Entry m :=
    ⟨fun e => (e.2.1, e.1, e.2.2.2, e.2.2.1), fun e => (e.2.1, e.1, e.2.2.2, e.2.2.1),
      fun _ => rfl, fun _ => rfl⟩
  rw [← Equiv.sum_comp σ (fun e : Entry m => if IsLower e ∧ (cell e.2.1 = v ∧ e.2.2.2 = c) ∧
          ¬ (e.1 = e.2.1 ∧ e.2.2.1 = e.2.2.2)
        then entryValue h e * (d (cell e.1)).get e.2.2.1 else 0), ← Finset.sum_add_distrib, hsum]
  refine Finset.sum_congr rfl fun n _ => ?_
  by_cases hn : cell n = v
  · simp only [hn, true_and, if_true, symmMul_get]
    rw [Finset.sum_eq_single c]
    · refine Finset.sum_congr rfl fun k _ => Finset.sum_congr rfl fun col _ => ?_
      simp only [σ, Equiv.coe_fn_mk, IsLower, entryValue, symm, hn, true_and, and_true]
      by_cases hl : k < n ∨ k = n ∧ col ≤ c
      · have hl' : ¬ ((n < k ∨ n = k ∧ c ≤ col) ∧ ¬ (k = n ∧ col = c)) := by
          rintro ⟨h1, h2⟩
          rcases hl with hl | ⟨hl, hl2⟩
          · rcases h1 with h1 | ⟨h1, _⟩
            · exact absurd hl (not_lt.2 h1.le)
            · exact absurd h1 hl.ne'
          · rcases h1 with h1 | ⟨_, h1⟩
            · exact absurd hl h1.ne'
            · exact h2 ⟨hl, le_antisymm hl2 h1⟩
        simp only [if_pos hl, if_neg hl', add_zero]
      · have hl' : (n < k ∨ n = k ∧ c ≤ col) ∧ ¬ (k = n ∧ col = c) := by
          rw [not_or, not_and_or] at hl
          refine ⟨?_, ?_⟩
          · rcases lt_trichotomy n k with h1 | h1 | h1
            · exact Or.inl h1
            · rcases hl.2 with h2 | h2
              · exact absurd h1.symm h2
              · exact Or.inr ⟨h1, (not_le.1 h2).le⟩
            · exact absurd h1 hl.1
          · rintro ⟨h1, h2⟩
            rcases hl.2 with h3 | h3
            · exact h3 h1
            · exact h3 h2.le
        simp only [if_neg hl, if_pos hl', zero_add]
    · intro row _ hne
      refine Finset.sum_eq_zero fun k _ => Finset.sum_eq_zero fun col _ => ?_
      simp [σ, hne]
    · intro hnot
      exact absurd (Finset.mem_univ c) hnot
  · simp only [hn, if_false]
    refine Finset.sum_eq_zero fun row _ => Finset.sum_eq_zero fun k _ =>
      Finset.sum_eq_zero fun col _ => ?_
    simp [σ, hn]

/-! ## Positions of the entries -/

/-- With a common offset of rows and columns, all entries of an element with distinct vertices are in
the lower triangle of the whole matrix. -/
theorem globalIndex_lower {m : ℕ} (cell : Fin m → ℕ) (hc : Function.Injective cell) (o : ℕ)
    (e : Entry m) (he : IsLower e) :
    (globalIndex cell (o, o) e).2 ≤ (globalIndex cell (o, o) e).1 := by
  obtain ⟨n, k, row, col⟩ := e
  simp only [globalIndex]
  simp only [IsLower] at he
  have hr := row.isLt
  have hcl := col.isLt
  rcases he with h | ⟨h, h'⟩
  · have hne : cell n ≠ cell k := fun h' => (ne_of_gt h) (hc h')
    split_ifs with hlt
    · simp only; omega
    · simp only; omega
  · subst h
    simp only [lt_irrefl, if_false]
    have : col.val ≤ row.val := h'
    omega

/-- Different entries of an element with distinct vertices have different positions. -/
theorem globalIndex_injOn {m : ℕ} (cell : Fin m → ℕ) (hc : Function.Injective cell) (o : ℕ × ℕ)
    (e e' : Entry m) (he : IsLower e) (he' : IsLower e')
    (h : globalIndex cell o e = globalIndex cell o e') : e = e' := by
  obtain ⟨n, k, row, col⟩ := e
  obtain ⟨n', k', row', col'⟩ := e'
  simp only [globalIndex] at h
  simp only [IsLower] at he he'
  have hr := row.isLt
  have hcl := col.isLt
  have hr' := row'.isLt
  have hcl' := col'.isLt
  have aux : ∀ {a b : Fin m} {r c : Fin 3}, 3 * cell a + r.val = 3 * cell b + c.val →
      a = b ∧ r = c := by
    intro a b r c h
    have := (index_inj r.isLt c.isLt).1 h
    exact ⟨hc this.1, Fin.ext this.2⟩
  by_cases h1 : cell n < cell k <;> by_cases h2 : cell n' < cell k' <;>
    simp only [h1, h2, if_true, if_false, Prod.mk.injEq, Nat.add_right_cancel_iff] at h
  · obtain ⟨ha, hb⟩ := h
    obtain ⟨rfl, rfl⟩ := aux ha
    obtain ⟨rfl, rfl⟩ := aux hb
    rfl
  · obtain ⟨ha, hb⟩ := h
    obtain ⟨rfl, rfl⟩ := aux ha
    obtain ⟨rfl, rfl⟩ := aux hb
    exfalso
    rcases he with h3 | ⟨h3, _⟩
    · rcases he' with h4 | ⟨h4, _⟩
      · exact absurd h3 (not_lt.2 h4.le)
      · subst h4; exact lt_irrefl _ h1
    · subst h3; exact lt_irrefl _ h1
  · obtain ⟨ha, hb⟩ := h
    obtain ⟨rfl, rfl⟩ := aux ha
    obtain ⟨rfl, rfl⟩ := aux hb
    exfalso
    rcases he with h3 | ⟨h3, _⟩
    · rcases he' with h4 | ⟨h4, _⟩
      · exact absurd h3 (not_lt.2 h4.le)
      · subst h4; exact lt_irrefl _ h2
    · subst h3; exact lt_irrefl _ h2
  · obtain ⟨ha, hb⟩ := h
    obtain ⟨rfl, rfl⟩ := aux ha
    obtain ⟨rfl, rfl⟩ := aux hb
    rfl

theorem globalIndex_nodup {m : ℕ} {P : List (Entry m)} (hP : Exact P) (cell : Fin m → ℕ)
    (hc : Function.Injective cell) (o : ℕ × ℕ) : (P.map (globalIndex cell o)).Nodup := by
  refine List.Nodup.map_on ?_ hP.1
  intro a ha b hb hab
  exact globalIndex_injOn cell hc o a b ((hP.2 a).1 ha) ((hP.2 b).1 hb) hab

theorem globalIndex_bound {m : ℕ} (cell : Fin m → ℕ) (N : ℕ) (hN : ∀ n, cell n < N) (o : ℕ × ℕ)
    (e : Entry m) :
    (globalIndex cell o e).1 < 3 * N + o.1 ∧ (globalIndex cell o e).2 < 3 * N + o.2 := by
  obtain ⟨n, k, row, col⟩ := e
  have h1 := hN n
  have h2 := hN k
  have hr := row.isLt
  have hcl := col.isLt
  simp only [globalIndex]
  split_ifs <;> simp only <;> omega

theorem globalIndex_offset {m : ℕ} (cell : Fin m → ℕ) (o : ℕ × ℕ) (e : Entry m) :
    globalIndex cell o e =
      ((globalIndex cell (0, 0) e).1 + o.1, (globalIndex cell (0, 0) e).2 + o.2) := by
  simp only [globalIndex]
  split_ifs <;> rfl

/-! ## Many elements -/

theorem zip_flatMap {ι α β : Type} (es : List ι) (f : ι → List α) (g : ι → List β)
    (h : ∀ e, (f e).length = (g e).length) :
    (es.flatMap f).zip (es.flatMap g) = es.flatMap fun e => (f e).zip (g e) := by
  induction es with
  | nil => rfl
  | cons e es ih => rw [List.flatMap_cons, List.flatMap_cons, List.zip_append (h e), ih]; rfl

theorem symMul_flatMap {ι : Type} (es : List ι) (f : ι → List ((ℕ × ℕ) × ℝ)) (x : ℕ → ℝ) (i : ℕ) :
    symMul (es.flatMap f) x i = (es.map fun e => symMul (f e) x i).sum := by
  induction es with
  | nil => rfl
  | cons e es ih => rw [List.flatMap_cons, symMul_append, ih]; rfl

/-- The sum of the contributions to a vertex. -/
def vertexSum (l : List (ℕ × V3 ℝ)) (v : ℕ) : V3 ℝ := (l.map fun p => if p.1 = v then p.2 else 0).sum

theorem vertexSum_append (l l' : List (ℕ × V3 ℝ)) (v : ℕ) :
    vertexSum (l ++ l') v = vertexSum l v + vertexSum l' v := by simp [vertexSum]

theorem vertexSum_flatMap {ι : Type} (es : List ι) (f : ι → List (ℕ × V3 ℝ)) (v : ℕ) :
    vertexSum (es.flatMap f) v = (es.map fun e => vertexSum (f e) v).sum := by
  induction es with
  | nil => rfl
  | cons e es ih => rw [List.flatMap_cons, vertexSum_append, ih]; rfl

theorem hasD_list_sum {ι : Type} (es : List ι) (f : ℝ → ι → V3 ℝ) (f' : ι → V3 ℝ) (t : ℝ)
    (h : ∀ e ∈ es, HasD (fun s => f s e) (f' e) t) :
    HasD (fun s => (es.map (f s)).sum) ((es.map f').sum) t := by
  induction es with
  | nil => exact HasD.const 0
  | cons e es ih =>
    simp only [List.map_cons, List.sum_cons]
    exact (h e (by simp)).add (ih fun e' he' => h e' (by simp [he']))

theorem hasD_finset_sum {ι : Type} (S : Finset ι) (f : ℝ → ι → V3 ℝ) (f' : ι → V3 ℝ) (t : ℝ)
    (h : ∀ e ∈ S, HasD (fun s => f s e) (f' e) t) :
    HasD (fun s => ∑ e ∈ S, f s e) (∑ e ∈ S, f' e) t := by
  classical
  induction S using Finset.induction_on with
  | empty => exact HasD.const 0
  | insert a S ha ih =>
    simp only [Finset.sum_insert ha]
    exact (h a (by simp)).add (ih fun e' he' => h e' (by simp [he']))

theorem vertexSum_zipCell {m : ℕ} (cell : Fin m → ℕ) (g : Fin m → V3 ℝ) (v : ℕ) :
    vertexSum (zipCell cell g) v = ∑ n, if cell n = v then g n else 0 := zipCell_sum cell g v

theorem get_list_sum {ι : Type} (es : List ι) (f : ι → V3 ℝ) (c : Fin 3) :
    ((es.map f).sum).get c = (es.map fun e => (f e).get c).sum := by
  induction es with
  | nil => simp
  | cons e es ih => simp [ih]

theorem get_sum {ι : Type} (S : Finset ι) (f : ι → V3 ℝ) (c : Fin 3) :
    (∑ e ∈ S, f e).get c = ∑ e ∈ S, (f e).get c := by
  classical
  induction S using Finset.induction_on with
  | empty => simp
  | insert a S ha ih => simp [Finset.sum_insert ha, ih]

/-- The vectors of which the triplets are the derivative: if each element's contribution changes at
the rate given by its local symmetric matrix, then the sum over all elements changes at the rate
given by the triplets. -/
theorem hasD_elements {ι : Type} {m : ℕ} {P : List (Entry m)} (hP : Exact P) (es : List ι)
    (cell : ι → Fin m → ℕ) (hc : ∀ e ∈ es, Function.Injective (cell e)) (g : ℝ → ι → Fin m → V3 ℝ)
    (h : ι → LocalHess m) (d : ℕ → V3 ℝ) (t : ℝ)
    (hg : ∀ e ∈ es, ∀ n, HasD (fun s => g s e n) (symmMul (h e) (fun k => d (cell e k)) n) t)
    (v : ℕ) (c : Fin 3) :
    HasDerivAt (fun s => (vertexSum (es.flatMap fun e => zipCell (cell e) (g s e)) v).get c)
      (symMul (es.flatMap fun e => elemTriplets P (cell e) (h e)) (coord d) (3 * v + c.val)) t := by
  have h1 : HasD (fun s => vertexSum (es.flatMap fun e => zipCell (cell e) (g s e)) v)
      ((es.map fun e => ∑ n, if cell e n = v then symmMul (h e) (fun k => d (cell e k)) n
        else 0).sum) t := by
    simp only [vertexSum_flatMap, vertexSum_zipCell]
    refine hasD_list_sum es (fun s e => ∑ n, if cell e n = v then g s e n else 0) _ t
      fun e he => hasD_finset_sum _ _ _ t fun n _ => ?_
    by_cases hn : cell e n = v
    · simp only [hn, if_true]; exact hg e he n
    · simp only [hn, if_false]; exact HasD.const 0
  refine ((hasD_iff_get.1 h1) c).congr_deriv ?_
  rw [get_list_sum, symMul_flatMap]
  congr 1
  refine List.map_congr_left fun e he => ?_
  rw [elem_symMul hP (cell e) (hc e he), get_sum]
  refine Finset.sum_congr rfl fun n _ => ?_
  split_ifs <;> simp

/-! ## Local symmetric matrices -/

theorem symm_symm {m : ℕ} (h : LocalHess m) (n k : Fin m) (row col : Fin 3) :
    symm h n k row col = symm h k n col row := by
  unfold symm
  by_cases h1 : k < n ∨ k = n ∧ col ≤ row <;> by_cases h2 : n < k ∨ n = k ∧ row ≤ col
  · rcases h1 with h1 | ⟨h1, h1'⟩
    · rcases h2 with h2 | ⟨h2, _⟩
      · exact absurd h1 (not_lt.2 h2.le)
      · exact absurd h2 h1.ne'
    · subst h1
      rcases h2 with h2 | ⟨_, h2⟩
      · exact absurd h2 (lt_irrefl _)
      · rw [le_antisymm h1' h2]
  · simp only [if_pos h1, if_neg h2]
  · simp only [if_neg h1, if_pos h2]
  · exfalso
    rw [not_or, not_and_or] at h1 h2
    rcases lt_trichotomy n k with h3 | h3 | h3
    · exact h2.1 h3
    · subst h3
      rcases h1.2 with h4 | h4
      · exact h4 rfl
      · rcases h2.2 with h5 | h5
        · exact h5 rfl
        · exact h5 (not_le.1 h4).le
    · exact h1.1 h3

theorem symmMul_add {m : ℕ} (h h' : LocalHess m) (d : Fin m → V3 ℝ) (n : Fin m) :
    symmMul (fun n k row col => h n k row col + h' n k row col) d n =
      symmMul h d n + symmMul h' d n := by
  have key : ∀ row, ∑ k, ∑ col, symm (fun n k row col => h n k row col + h' n k row col) n k row col
      * (d k).get col = (∑ k, ∑ col, symm h n k row col * (d k).get col)
        + ∑ k, ∑ col, symm h' n k row col * (d k).get col := by
    intro row
    rw [← Finset.sum_add_distrib]
    refine Finset.sum_congr rfl fun k _ => ?_
    rw [← Finset.sum_add_distrib]
    refine Finset.sum_congr rfl fun col _ => ?_
    unfold symm
    split_ifs <;> ring
  ext
  · exact key 0
  · exact key 1
  · exact key 2

theorem symmMul_mul {m : ℕ} (h : LocalHess m) (c : ℝ) (d : Fin m → V3 ℝ) (n : Fin m) :
    symmMul (fun n k row col => h n k row col * c) d n = c • symmMul h d n := by
  have key : ∀ row, ∑ k, ∑ col, symm (fun n k row col => h n k row col * c) n k row col
      * (d k).get col = c * (∑ k, ∑ col, symm h n k row col * (d k).get col) := by
    intro row
    rw [Finset.mul_sum]
    refine Finset.sum_congr rfl fun k _ => ?_
    rw [Finset.mul_sum]
    refine Finset.sum_congr rfl fun col _ => ?_
    unfold symm
    split_ifs <;> ring
  ext
  · exact key 0
  · exact key 1
  · exact key 2

theorem symmMul_smul {m : ℕ} (h : LocalHess m) (c : ℝ) (d : Fin m → V3 ℝ) (n : Fin m) :
    symmMul h (fun k => c • d k) n = c • symmMul h d n := by
  have hg : ∀ (a : V3 ℝ) col, (c • a).get col = c * a.get col := by
    intro a col; fin_cases col <;> rfl
  have key : ∀ row, ∑ k, ∑ col, symm h n k row col * (c • d k).get col =
      c * (∑ k, ∑ col, symm h n k row col * (d k).get col) := by
    intro row
    rw [Finset.mul_sum]
    refine Finset.sum_congr rfl fun k _ => ?_
    rw [Finset.mul_sum]
    refine Finset.sum_congr rfl fun col _ => ?_
    rw [hg]; ring
  ext
  · exact key 0
  · exact key 1
  · exact key 2

theorem hasD_symmMul {m : ℕ} (h : LocalHess m) (v : ℝ → Fin m → V3 ℝ) (v' : Fin m → V3 ℝ) (t : ℝ)
    (hv : ∀ n, HasD (fun s => v s n) (v' n) t) (n : Fin m) :
    HasD (fun s => symmMul h (v s) n) (symmMul h v' n) t := by
  rw [hasD_iff_get]
  intro c
  simp only [symmMul_get]
  refine HasDerivAt.fun_sum fun k _ => HasDerivAt.fun_sum fun col _ => ?_
  exact (hasD_iff_get.1 (hv k) col).const_mul _

theorem dot_eq_sum (a b : V3 ℝ) : V3.dot a b = ∑ c, a.get c * b.get c := by
  simp [Fin.sum_univ_three, V3.dot, V3.get]

/-- The local matrix is symmetric. -/
theorem symmMul_comm {m : ℕ} (h : LocalHess m) (a b : Fin m → V3 ℝ) :
    ∑ n, V3.dot (symmMul h a n) (b n) = ∑ n, V3.dot (symmMul h b n) (a n) := by
  have key : ∀ a b : Fin m → V3 ℝ, ∑ n, V3.dot (symmMul h a n) (b n) =
      ∑ n, ∑ row, ∑ k, ∑ col, symm h n k row col * (a k).get col * (b n).get row := by
    intro a b
    simp only [dot_eq_sum, symmMul_get, Finset.sum_mul]
  rw [key, key]
  have hswap : ∀ f : Fin m → Fin 3 → Fin m → Fin 3 → ℝ,
      ∑ n, ∑ row, ∑ k, ∑ col, f n row k col = ∑ n, ∑ row, ∑ k, ∑ col, f k col n row := by
    intro f
    have e : ∀ g : Fin m → Fin 3 → Fin m → Fin 3 → ℝ, ∑ n, ∑ row, ∑ k, ∑ col, g n row k col =
        ∑ p : Fin m × Fin 3, ∑ q : Fin m × Fin 3, g p.1 p.2 q.1 q.2 := by
      intro g; simp only [Fintype.sum_prod_type]
    rw [e, e, Finset.sum_comm]
  rw [hswap]
  refine Finset.sum_congr rfl fun n _ => Finset.sum_congr rfl fun row _ =>
    Finset.sum_congr rfl fun k _ => Finset.sum_congr rfl fun col _ => ?_
  rw [symm_symm h k n]; ring

/-! ## Energies -/

theorem sumEnergies_some {ι : Type} (es : List ι) (f : ι → Option ℝ) (w : ι → ℝ)
    (h : ∀ e ∈ es, f e = some (w e)) : sumEnergies (es.map f) = some (es.map w).sum := by
  induction es with
  | nil => rfl
  | cons e es ih =>
    simp only [List.map_cons, sumEnergies, h e (by simp), ih fun e' he' => h e' (by simp [he']),
      List.sum_cons]

theorem collect_some {ι α : Type} (es : List ι) (f : ι → Option α) (w : ι → α)
    (h : ∀ e ∈ es, f e = some (w e)) : collect (es.map f) = some (es.map w) := by
  induction es with
  | nil => rfl
  | cons e es ih =>
    simp only [List.map_cons, collect, h e (by simp), ih fun e' he' => h e' (by simp [he'])]

theorem hasDerivAt_list_sum {ι : Type} (es : List ι) (f : ℝ → ι → ℝ) (f' : ι → ℝ) (t : ℝ)
    (h : ∀ e ∈ es, HasDerivAt (fun s => f s e) (f' e) t) :
    HasDerivAt (fun s => (es.map (f s)).sum) ((es.map f').sum) t := by
  induction es with
  | nil => exact hasDerivAt_const _ _
  | cons e es ih =>
    simp only [List.map_cons, List.sum_cons]
    exact (h e (by simp)).fun_add (ih fun e' he' => h e' (by simp [he']))

/-- The work of accumulated vectors on the vertices is the work of the contributions. -/
theorem work_vertexSum (l : List (ℕ × V3 ℝ)) (N : ℕ) (hN : ∀ p ∈ l, p.1 < N) (d : ℕ → V3 ℝ) :
    ∑ v ∈ Finset.range N, V3.dot (vertexSum l v) (d v) = (l.map fun p => V3.dot p.2 (d p.1)).sum := by
  induction l with
  | nil => simp [vertexSum, V3.dot]
  | cons a l ih =>
    have e : ∀ v, vertexSum (a :: l) v = (if a.1 = v then a.2 else 0) + vertexSum l v := fun v => rfl
    have ha : a.1 < N := hN a (by simp)
    have hadd : ∀ p q r : V3 ℝ, V3.dot (p + q) r = V3.dot p r + V3.dot q r := by
      intro p q r; simp [V3.dot]; ring
    simp only [e, hadd, Finset.sum_add_distrib, List.map_cons, List.sum_cons]
    rw [ih fun p hp => hN p (by simp [hp])]
    congr 1
    rw [Finset.sum_eq_single a.1]
    · simp
    · intro v _ hv
      simp [Ne.symm hv, V3.dot]
    · intro h
      exact absurd (Finset.mem_range.2 ha) h

end Softy.Assembly
