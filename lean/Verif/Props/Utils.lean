import Verif.Model.Utils

/-!
# Properties of the utilities (C46, C47)
-/

namespace Softy.Utils

/-! ## Mode (C46) -/

theorem bump_get (bins : List ℕ) (x y : ℕ) :
    (bump bins x)[y]?.getD 0 = bins[y]?.getD 0 + if y = x then 1 else 0 := by
  unfold bump
  simp only [List.getElem?_modify]
  have hb : ∀ y : ℕ, (if x ≥ bins.length then bins ++ List.replicate (x + 1 - bins.length) 0
      else bins)[y]?.getD 0 = bins[y]?.getD 0 := by
    intro y
    split_ifs
    · rw [List.getElem?_append]
      split_ifs with h
      · rfl
      · rw [List.getElem?_eq_none (by omega : bins.length ≤ y), List.getElem?_replicate]
        split_ifs <;> rfl
    · rfl
  by_cases h : y = x
  · subst h
    have hlt : y < (if y ≥ bins.length then bins ++ List.replicate (y + 1 - bins.length) 0
        else bins).length := by
      split_ifs
      · rw [List.length_append, List.length_replicate]; omega
      · omega
    have := hb y
    rw [List.getElem?_eq_getElem hlt] at this ⊢
    simp at this ⊢
    exact this
  · have := hb y
    simp [h, Ne.symm h, this]

theorem bump_length (bins : List ℕ) (x : ℕ) :
    (bump bins x).length = max bins.length (x + 1) := by
  unfold bump
  simp only [List.length_modify]
  split_ifs
  · rw [List.length_append, List.length_replicate]; omega
  · omega

theorem bins_get (data : List ℕ) (bins : List ℕ) (y : ℕ) :
    (data.foldl bump bins)[y]?.getD 0 = bins[y]?.getD 0 + data.count y := by
  induction data generalizing bins with
  | nil => simp
  | cons x t ih =>
    rw [List.foldl_cons, ih, bump_get, List.count_cons]
    by_cases h : y = x
    · subst h; simp; omega
    · simp [h, Ne.symm h]

theorem bins_pos (data bins : List ℕ) (h : data ≠ [] ∨ bins ≠ []) :
    data.foldl bump bins ≠ [] := by
  induction data generalizing bins with
  | nil => simpa using h
  | cons x t ih =>
    refine ih _ (.inr ?_)
    intro e
    have := bump_length bins x
    rw [e] at this
    simp only [List.length_nil] at this
    omega

theorem maxBin_spec (l : List ℕ) (i : ℕ) (m g : ℕ) :
    ∃ m' g', maxBin l i (some (m, g)) = some (m', g') ∧ g ≤ g' ∧
      ((m' = m ∧ g' = g ∧ ∀ k : ℕ, ∀ f, l[k]? = some f → f < g) ∨
        (∃ k, m' = i + k ∧ l[k]? = some g' ∧ ∀ k' f, l[k']? = some f →
          f ≤ g' ∧ (f = g' → k' ≤ k))) := by
  induction l generalizing i m g with
  | nil => exact ⟨m, g, rfl, le_rfl, .inl ⟨rfl, rfl, by simp⟩⟩
  | cons f l ih =>
    unfold maxBin
    split_ifs with h
    · obtain ⟨m', g', e, hg, h1 | ⟨k, hm, hk, hall⟩⟩ := ih (i + 1) m g
      · refine ⟨m', g', e, hg, .inl ⟨h1.1, h1.2.1, ?_⟩⟩
        intro k f' hf'
        cases k with
        | zero => simp at hf'; omega
        | succ k => exact h1.2.2 k f' (by simpa using hf')
      · refine ⟨m', g', e, hg, .inr ⟨k + 1, by omega, by simpa using hk, ?_⟩⟩
        intro k' f' hf'
        cases k' with
        | zero => simp at hf'; omega
        | succ k' =>
          have := hall k' f' (by simpa using hf')
          exact ⟨this.1, fun e => by have := this.2 e; omega⟩
    · obtain ⟨m', g', e, hg, h1 | ⟨k, hm, hk, hall⟩⟩ := ih (i + 1) i f
      · refine ⟨m', g', e, by omega, .inr ⟨0, h1.1, by simp [h1.2.1], ?_⟩⟩
        intro k' f' hf'
        cases k' with
        | zero => simp at hf'; omega
        | succ k' =>
          have := h1.2.2 k' f' (by simpa using hf')
          omega
      · refine ⟨m', g', e, by omega, .inr ⟨k + 1, by omega, by simpa using hk, ?_⟩⟩
        intro k' f' hf'
        cases k' with
        | zero => simp at hf'; omega
        | succ k' =>
          have := hall k' f' (by simpa using hf')
          exact ⟨this.1, fun e => by have := this.2 e; omega⟩

/-- **C46**, mode: for every non-empty sequence the reported value occurs in it, the reported
frequency is how often it occurs, no value occurs more often, and of the values which occur as
often it is the largest. -/
theorem mode_spec (data : List ℕ) (h : data ≠ []) :
    (mode data).1 ∈ data ∧ (mode data).2 = data.count (mode data).1 ∧
      ∀ y, data.count y ≤ (mode data).2 ∧
        (data.count y = (mode data).2 → y ≤ (mode data).1) := by
  have hget : ∀ y : ℕ, (data.foldl bump [])[y]?.getD 0 = data.count y := by
    intro y; rw [bins_get]; simp
  have hne := bins_pos data [] (.inl h)
  unfold mode
  generalize data.foldl bump [] = bins at hget hne ⊢
  cases bins with
  | nil => exact absurd rfl hne
  | cons f l =>
    obtain ⟨m', g', e, hg, hcase⟩ := maxBin_spec l 1 0 f
    have e' : maxBin (f :: l) 0 none = some (m', g') := e
    rw [e']
    simp only [Option.getD_some]
    have hx : ∃ x, x ∈ data := List.exists_mem_of_ne_nil _ h
    have claim : g' = data.count m' ∧ ∀ y, data.count y ≤ g' ∧ (data.count y = g' → y ≤ m') := by
      rcases hcase with ⟨rfl, rfl, hall⟩ | ⟨k, rfl, hk, hall⟩
      · refine ⟨by rw [← hget]; rfl, ?_⟩
        intro y
        rw [← hget]
        cases y with
        | zero => simp
        | succ y =>
          rw [List.getElem?_cons_succ]
          cases hy : l[y]? with
          | none =>
            simp only [Option.getD_none]
            refine ⟨Nat.zero_le _, fun e0 => ?_⟩
            -- all counts are zero, which is impossible
            exfalso
            obtain ⟨x, hx⟩ := hx
            have h1 := List.count_pos_iff.2 hx
            rw [← hget] at h1
            cases x with
            | zero => simp at h1; omega
            | succ x =>
              rw [List.getElem?_cons_succ] at h1
              cases hx' : l[x]? with
              | none => rw [hx'] at h1; simp at h1
              | some f' => have := hall x f' hx'; omega
          | some f' =>
            have := hall y f' hy
            simp only [Option.getD_some]
            omega
      · refine ⟨by rw [← hget, Nat.add_comm, List.getElem?_cons_succ, hk]; rfl, ?_⟩
        intro y
        rw [← hget]
        cases y with
        | zero => simp; omega
        | succ y =>
          rw [List.getElem?_cons_succ]
          cases hy : l[y]? with
          | none =>
            simp only [Option.getD_none]
            refine ⟨Nat.zero_le _, fun e0 => ?_⟩
            exfalso
            obtain ⟨x, hx⟩ := hx
            have h1 := List.count_pos_iff.2 hx
            rw [← hget] at h1
            cases x with
            | zero => simp at h1; omega
            | succ x =>
              rw [List.getElem?_cons_succ] at h1
              cases hx' : l[x]? with
              | none => rw [hx'] at h1; simp at h1
              | some f' =>
                have := hall x f' hx'
                rw [hx'] at h1
                simp at h1
                omega
          | some f' =>
            have := hall y f' hy
            simp only [Option.getD_some]
            exact ⟨this.1, fun e => by have := this.2 e; omega⟩
    refine ⟨?_, claim⟩
    obtain ⟨x, hx⟩ := hx
    have h1 := List.count_pos_iff.2 hx
    have := (claim.2 x).1
    exact List.count_pos_iff.1 (by rw [← claim.1]; omega)

theorem mode_empty : mode [] = (0, 0) := rfl

example : mode [1, 5, 1, 0, 5, 7] = (5, 2) := by decide

/-! ## Infinity norm (C46) -/

theorem maxBy_some (l : List ℝ) (b : ℝ) :
    ∃ m, maxBy (l.map some) (some (some b)) = some (some m) ∧ b ≤ m ∧ (∀ x ∈ l, x ≤ m) ∧
      (m = b ∨ m ∈ l) := by
  induction l generalizing b with
  | nil => exact ⟨b, rfl, le_rfl, by simp, .inl rfl⟩
  | cons x l ih =>
    rw [List.map_cons, maxBy]
    by_cases h : cmpGreater (some b) (some x)
    · rw [if_pos h]
      have h : x < b := h
      obtain ⟨m, e, h1, h2, h3⟩ := ih b
      refine ⟨m, e, h1, ?_, ?_⟩
      · intro y hy
        rcases List.mem_cons.1 hy with rfl | hy
        · linarith
        · exact h2 y hy
      · rcases h3 with h3 | h3
        · exact .inl h3
        · exact .inr (List.mem_cons_of_mem _ h3)
    · rw [if_neg h]
      have h : b ≤ x := not_lt.1 h
      obtain ⟨m, e, h1, h2, h3⟩ := ih x
      refine ⟨m, e, by linarith, ?_, ?_⟩
      · intro y hy
        rcases List.mem_cons.1 hy with rfl | hy
        · exact h1
        · exact h2 y hy
      · rcases h3 with h3 | h3
        · exact .inr (by simp [h3])
        · exact .inr (List.mem_cons_of_mem _ h3)

/-- **C46**, norm, for sequences of numbers: the norm bounds every entry and is attained; it is
zero for the empty sequence. Missing: sequences with NaN, see `infNorm_nan_violated`. -/
theorem infNorm_partial (xs : List ℝ) :
    ∃ m, infNorm (xs.map some) = some m ∧ (∀ x ∈ xs, |x| ≤ m) ∧
      ((xs = [] ∧ m = 0) ∨ ∃ x ∈ xs, |x| = m) := by
  cases xs with
  | nil => exact ⟨0, rfl, by simp, .inl ⟨rfl, rfl⟩⟩
  | cons a l =>
    obtain ⟨m, e, h1, h2, h3⟩ := maxBy_some (l.map abs) |a|
    refine ⟨m, ?_, ?_, .inr ?_⟩
    · have : (List.map (fun x => Option.map abs x) (List.map some l)) =
          List.map some (l.map abs) := by simp
      rw [infNorm, List.map_cons, List.map_cons, maxBy, this]
      show Option.getD (maxBy _ (some (some |a|))) _ = _
      rw [e]; rfl
    · intro x hx
      rcases List.mem_cons.1 hx with rfl | hx
      · exact h1
      · exact h2 _ (List.mem_map_of_mem hx)
    · rcases h3 with h3 | h3
      · exact ⟨a, by simp, h3.symm⟩
      · obtain ⟨x, hx, e⟩ := List.mem_map.1 h3
        exact ⟨x, List.mem_cons_of_mem _ hx, e⟩

example : infNorm ([1, -3, 2].map some) = some 3 := by
  norm_num [infNorm, maxBy, cmpGreater]

/-- **C46 is violated** when an entry is NaN: the norm is a number, and it is smaller than an
entry. A NaN makes the fold forget all entries before it. -/
theorem infNorm_nan_violated : infNorm [some 5, none, some 1] = some 1 := by
  norm_num [infNorm, maxBy, cmpGreater]

/-! ## Mesh Laplacian (C47) -/

/-- Number of face sides between vertices `i` and `j`. -/
def sides (faces : List (ℕ × ℕ × ℕ)) (i j : ℕ) : ℕ :=
  (faces.flatMap fun (v0, v1, v2) => [(v0, v1), (v0, v2), (v1, v0), (v1, v2), (v2, v0), (v2, v1)]).count (i, j)

/-- No face has a vertex twice, and all vertices are below `size`. -/
def Proper (faces : List (ℕ × ℕ × ℕ)) (size : ℕ) : Prop :=
  ∀ f ∈ faces, f.1 ≠ f.2.1 ∧ f.1 ≠ f.2.2 ∧ f.2.1 ≠ f.2.2 ∧ f.1 < size ∧ f.2.1 < size ∧ f.2.2 < size

theorem valuesAt_append (a b : List (ℕ × ℕ × ℝ)) (i j : ℕ) :
    valuesAt (a ++ b) i j = valuesAt a i j ++ valuesAt b i j := by
  simp [valuesAt]

theorem valuesAt_const (l : List (ℕ × ℕ)) (w : ℝ) (i j : ℕ) :
    valuesAt (l.map fun p => (p.1, p.2, w)) i j = List.replicate (l.count (i, j)) w := by
  induction l with
  | nil => rfl
  | cons p l ih =>
    obtain ⟨a, b⟩ := p
    by_cases h : a = i ∧ b = j
    · obtain ⟨rfl, rfl⟩ := h
      simp only [valuesAt, List.map_cons, List.filter_cons] at ih ⊢
      simp only [and_self, decide_true, if_true, List.map_cons, ih, List.count_cons_self,
        List.replicate_succ]
    · have : (a, b) ≠ (i, j) := by simpa using h
      simp only [valuesAt, List.map_cons, List.filter_cons] at ih ⊢
      simp only [h, decide_false, Bool.false_eq_true, if_false, ih, List.count_cons_of_ne this]

theorem valuesAt_faces (faces : List (ℕ × ℕ × ℕ)) (size : ℕ) (w : ℝ) (i j : ℕ) :
    valuesAt (triplets faces size w) i j =
      List.replicate (sides faces i j) w ++ (if i = j ∧ i < size then [1 - w] else []) := by
  rw [triplets, valuesAt_append]
  congr 1
  · rw [sides, ← valuesAt_const, List.map_flatMap]
    rfl
  · induction size with
    | zero => simp [valuesAt]
    | succ n ih =>
      rw [List.range_succ, List.map_append, valuesAt_append, ih]
      by_cases h : i = j
      · subst h
        rcases lt_trichotomy i n with h | h | h
        · simp [valuesAt, h, Nat.lt_succ_of_lt h, h.ne']
        · subst h; simp [valuesAt]
        · have h1 : ¬ i < n := by omega
          have h2 : ¬ i < n + 1 := by omega
          simp [valuesAt, h1, h2, h.ne]
      · have : ¬ (n = i ∧ n = j) := by rintro ⟨rfl, rfl⟩; exact h rfl
        simp [valuesAt, h, this]

theorem sides_self (faces : List (ℕ × ℕ × ℕ)) (size : ℕ) (h : Proper faces size) (i : ℕ) :
    sides faces i i = 0 := by
  rw [sides, List.count_eq_zero]
  intro hm
  obtain ⟨⟨a, b, c⟩, hf, hm⟩ := List.mem_flatMap.1 hm
  obtain ⟨h1, h2, h3, -⟩ := h _ hf
  simp only [List.mem_cons, Prod.mk.injEq, List.not_mem_nil, or_false] at hm h1 h2 h3
  rcases hm with h | h | h | h | h | h <;> (obtain ⟨rfl, rfl⟩ := h; simp_all)

theorem sides_lt (faces : List (ℕ × ℕ × ℕ)) (size : ℕ) (h : Proper faces size) (i j : ℕ)
    (hs : sides faces i j ≠ 0) : j < size := by
  have : (i, j) ∈ (faces.flatMap fun (v0, v1, v2) =>
      [(v0, v1), (v0, v2), (v1, v0), (v1, v2), (v2, v0), (v2, v1)]) := by
    by_contra hc
    exact hs (List.count_eq_zero.2 hc)
  obtain ⟨⟨a, b, c⟩, hf, hm⟩ := List.mem_flatMap.1 this
  obtain ⟨-, -, -, h1, h2, h3⟩ := h _ hf
  simp only [List.mem_cons, Prod.mk.injEq, List.not_mem_nil, or_false] at hm h1 h2 h3
  rcases hm with h | h | h | h | h | h <;> (obtain ⟨rfl, rfl⟩ := h; assumption)

/-- The sum of the entries of a row. -/
def rowSum (row : List (ℕ × ℝ)) : ℝ := (row.map Prod.snd).sum

/-- The row of vertex `i` when all its edges have `k` sides (`k` one or two): the diagonal entry
and one entry of value `c` per neighbour. -/
theorem prunedRow_eq (faces : List (ℕ × ℕ × ℕ)) (size : ℕ) (w : ℝ) (hp : Proper faces size)
    (h1 : w ≠ 1) (i : ℕ) (hi : i < size) (c : ℝ) (hc : c ≠ 0)
    (hval : ∀ j, sides faces i j ≠ 0 → combineAll (List.replicate (sides faces i j) w) = some c) :
    prunedRow (triplets faces size w) size i =
      ((List.range size).filter fun j => i = j ∨ sides faces i j ≠ 0).map
        fun j => (j, if i = j then 1 - w else c) := by
  rw [prunedRow, ← List.filterMap_eq_map, List.filterMap_filter]
  refine List.filterMap_congr ?_
  intro j hj
  rw [valuesAt_faces]
  by_cases h : i = j
  · subst h
    have : 1 - w ≠ 0 := by intro h; exact h1 (by linarith)
    simp [sides_self faces size hp i, hi, combineAll, this]
  · by_cases hs : sides faces i j = 0
    · simp [h, hs, combineAll]
    · have := hval j hs
      simp [h, hs, this, hc]

theorem rowSum_eq (size : ℕ) (w c : ℝ) (i : ℕ) (hi : i < size) (nb : ℕ → Prop)
    [DecidablePred nb] (hself : ¬ nb i) (hne : ∃ j, j < size ∧ nb j) :
    ∃ row, normalizeRow i (((List.range size).filter fun j => i = j ∨ nb j).map
        fun j => (j, if i = j then 1 - w else c)) = some row ∧ rowSum row = 1 - w + c := by
  -- the length of the row is one more than the number of neighbours
  have hperm : ((List.range size).filter fun j => decide (i = j ∨ nb j)).Perm
      (i :: (List.range size).filter fun j => decide (nb j)) := by
    refine (List.perm_ext_iff_of_nodup (List.Nodup.filter _ List.nodup_range) ?_).2 ?_
    · rw [List.nodup_cons]
      refine ⟨?_, List.Nodup.filter _ List.nodup_range⟩
      simp [hself]
    · intro a
      simp only [List.mem_filter, List.mem_range, decide_eq_true_eq, List.mem_cons]
      constructor
      · rintro ⟨h1, h2 | h2⟩
        · exact .inl h2.symm
        · exact .inr ⟨h1, h2⟩
      · rintro (rfl | ⟨h1, h2⟩)
        · exact ⟨hi, .inl rfl⟩
        · exact ⟨h1, .inr h2⟩
  set N := (List.range size).filter fun j => decide (nb j) with hN
  have hNpos : 0 < N.length := by
    obtain ⟨j, hj, hnj⟩ := hne
    exact List.length_pos_of_mem (a := j) (by simp [hN, hj, hnj])
  have hlen := hperm.length_eq
  rw [List.length_cons] at hlen
  unfold normalizeRow
  rw [if_neg (by rw [List.length_map]; omega)]
  refine ⟨_, rfl, ?_⟩
  rw [rowSum, List.length_map, List.map_map, List.map_map, hlen, Nat.add_sub_cancel]
  rw [(hperm.map _).sum_eq, List.map_cons, List.sum_cons]
  have : N.map ((Prod.snd ∘ fun x : ℕ × ℝ =>
      match x with
      | (j, v) => if i ≠ j then (j, v / (N.length : ℝ)) else (j, v)) ∘
        fun j => (j, if i = j then 1 - w else c)) = N.map fun _ => c / (N.length : ℝ) := by
    refine List.map_congr_left ?_
    intro j hj
    have hij : i ≠ j := by
      rintro rfl
      rw [hN, List.mem_filter] at hj
      exact hself (by simpa using hj.2)
    simp [hij]
  rw [this, List.map_const', List.sum_replicate]
  have hN0 : (N.length : ℝ) ≠ 0 := by exact_mod_cast hNpos.ne'
  simp only [Function.comp_apply, if_true, ne_eq, not_true_eq_false, if_false, nsmul_eq_mul]
  field_simp

/-- **C47** where all edges at a vertex belong to one face only (so not for a closed mesh): the
row of the vertex sums to one. Missing: edges with two faces, see `closed_rows_violated`. -/
theorem laplacian_rows_partial (faces : List (ℕ × ℕ × ℕ)) (size : ℕ) (w : ℝ)
    (hp : Proper faces size) (h0 : 0 < w) (h1 : w < 1) (i : ℕ) (hi : i < size)
    (hb : ∀ j, sides faces i j ≤ 1) (hne : ∃ j, sides faces i j ≠ 0) :
    ∃ row, laplacianRow faces size w i = some row ∧ rowSum row = 1 := by
  rw [laplacianRow, prunedRow_eq faces size w hp h1.ne i hi w h0.ne' ?_]
  · obtain ⟨row, e, hr⟩ := rowSum_eq size w w i hi (fun j => sides faces i j ≠ 0)
      (by simp [sides_self faces size hp i])
      (by obtain ⟨j, hj⟩ := hne; exact ⟨j, sides_lt faces size hp i j hj, hj⟩)
    exact ⟨row, e, by rw [hr]; ring⟩
  · intro j hj
    have : sides faces i j = 1 := by have := hb j; omega
    rw [this]; rfl

/-- **C47 is violated** at every vertex all of whose edges have two faces, so at every vertex of
a closed mesh: its row sums to `1 + w`. -/
theorem closed_rows_violated (faces : List (ℕ × ℕ × ℕ)) (size : ℕ) (w : ℝ)
    (hp : Proper faces size) (h0 : 0 < w) (h1 : w < 1) (i : ℕ) (hi : i < size)
    (hb : ∀ j, sides faces i j = 0 ∨ sides faces i j = 2) (hne : ∃ j, sides faces i j ≠ 0) :
    ∃ row, laplacianRow faces size w i = some row ∧ rowSum row = 1 + w := by
  rw [laplacianRow, prunedRow_eq faces size w hp h1.ne i hi (2 * w) (by positivity) ?_]
  · obtain ⟨row, e, hr⟩ := rowSum_eq size w (2 * w) i hi (fun j => sides faces i j ≠ 0)
      (by simp [sides_self faces size hp i])
      (by obtain ⟨j, hj⟩ := hne; exact ⟨j, sides_lt faces size hp i j hj, hj⟩)
    exact ⟨row, e, by rw [hr]; ring⟩
  · intro j hj
    have : sides faces i j = 2 := by have := hb j; omega
    rw [this]
    simp only [List.replicate, combineAll, List.foldl_cons, List.foldl_nil, combine]
    congr 1; ring

/-- With weight zero the matrix is the identity, as documented. -/
theorem laplacian_zero (faces : List (ℕ × ℕ × ℕ)) (size : ℕ) (hp : Proper faces size) (i : ℕ)
    (hi : i < size) : laplacianRow faces size 0 i = some [(i, 1)] := by
  have hzero : ∀ n, (List.replicate n (0 : ℝ)).foldl combine 0 = 0 := by
    intro n
    induction n with
    | zero => rfl
    | succ n ih => rw [List.replicate_succ, List.foldl_cons]; simpa [combine] using ih
  have : prunedRow (triplets faces size 0) size i = [(i, 1)] := by
    have h1 : prunedRow (triplets faces size 0) size i =
        ((List.range size).filter fun j => i = j).map fun j => (j, (1 : ℝ)) := by
      rw [prunedRow, ← List.filterMap_eq_map, List.filterMap_filter]
      refine List.filterMap_congr ?_
      intro j hj
      rw [valuesAt_faces]
      by_cases h : i = j
      · subst h
        simp [sides_self faces size hp i, hi, combineAll]
      · cases hs : sides faces i j with
        | zero => simp [h, combineAll]
        | succ n =>
          simp only [h, false_and, if_false, List.append_nil, List.replicate_succ, combineAll,
            hzero]
          simp
    have h2 : ((List.range size).filter fun j => decide (i = j)) = [i] := by
      clear * - hi
      induction size with
      | zero => omega
      | succ n ih =>
        rw [List.range_succ, List.filter_append]
        rcases Nat.lt_succ_iff_lt_or_eq.1 hi with h | h
        · rw [ih h]; simp [h.ne]
        · subst h
          have : (List.range i).filter (fun j => decide (i = j)) = [] := by
            rw [List.filter_eq_nil_iff]
            intro a ha
            rw [List.mem_range] at ha
            simp; omega
          rw [this]; simp
    rw [h1, h2]; rfl
  rw [laplacianRow, this]
  simp [normalizeRow]

/-- The surface of a tetrahedron is closed, a triangle is not. -/
example : (∀ j, sides [(0, 1, 2), (0, 2, 3), (0, 3, 1), (1, 3, 2)] 0 j = 0 ∨
      sides [(0, 1, 2), (0, 2, 3), (0, 3, 1), (1, 3, 2)] 0 j = 2) ∧
    ∀ j, sides [(0, 1, 2)] 0 j ≤ 1 := by
  constructor
  · intro j
    rcases j with _ | _ | _ | _ | j <;> simp [sides]
  · intro j
    rcases j with _ | _ | _ | j <;> simp [sides]

end Softy.Utils
