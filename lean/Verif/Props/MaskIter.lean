import Verif.Model.MaskIter

/-!
# C01 — masked filter and distribute are inverse
-/

namespace Softy.MaskIter

/-! ## Helper lemmas -/

/-- More fuel than mask entries does not change the result of filtering. -/
theorem collect_filter_eq {α : Type} (xs : List α) (mask : List Bool) (n : Nat)
    (hn : mask.length < n) :
    collectWith FilterMasked.next n ⟨xs, mask⟩ =
      ((xs.zip mask).filter (fun p => p.2)).map Prod.fst := by
  induction mask generalizing xs n with
  | nil =>
    obtain ⟨n, rfl⟩ : ∃ k, n = k + 1 := ⟨n - 1, by simp at hn; omega⟩
    cases xs <;> simp [collectWith, FilterMasked.next]
  | cons m ms ih =>
    obtain ⟨n, rfl⟩ : ∃ k, n = k + 1 := ⟨n - 1, by simp at hn; omega⟩
    have hn' : ms.length < n := by simpa using hn
    cases xs with
    | nil => simp [collectWith, FilterMasked.next]
    | cons x xs =>
      cases m with
      | true => simp [collectWith, FilterMasked.next, ih xs n hn']
      | false =>
        have h1 := ih xs (n + 1) (by omega)
        have : collectWith FilterMasked.next (n + 1) ⟨x :: xs, false :: ms⟩ =
            collectWith FilterMasked.next (n + 1) ⟨xs, ms⟩ := by
          simp [collectWith, FilterMasked.next]
        rw [this, h1]; simp

theorem collect_distribute_cons_false {α : Type} (xs : List α) (ms : List Bool) (d : α)
    (n : Nat) : collectWith Distribute.next (n + 1) ⟨xs, false :: ms, d⟩ =
      d :: collectWith Distribute.next n ⟨xs, ms, d⟩ := by
  simp [collectWith, Distribute.next]

theorem collect_distribute_cons_true {α : Type} (x : α) (xs : List α) (ms : List Bool)
    (d : α) (n : Nat) : collectWith Distribute.next (n + 1) ⟨x :: xs, true :: ms, d⟩ =
      x :: collectWith Distribute.next n ⟨xs, ms, d⟩ := by
  simp [collectWith, Distribute.next]

/-! ## Property theorems -/

/-- Filtering keeps exactly the entries whose mask bit is set, in order. -/
theorem filterMasked_spec {α : Type} (xs : List α) (mask : List Bool) :
    filterMasked xs mask = ((xs.zip mask).filter (fun p => p.2)).map Prod.fst :=
  collect_filter_eq xs mask _ (Nat.lt_succ_self _)

/-- **C01a.** Distributing the filtered data over the same mask restores every
masked-in entry in place and writes the default everywhere else. -/
theorem distribute_filterMasked {α : Type} (xs : List α) (mask : List Bool) (d : α)
    (hlen : xs.length = mask.length) :
    distribute (filterMasked xs mask) mask d =
      List.zipWith (fun x (m : Bool) => if m then x else d) xs mask := by
  rw [filterMasked_spec]
  unfold distribute
  induction mask generalizing xs with
  | nil => cases xs <;> simp_all [collectWith, Distribute.next]
  | cons m ms ih =>
    cases xs with
    | nil => simp at hlen
    | cons x xs =>
      have hlen' : xs.length = ms.length := by simpa using hlen
      cases m with
      | true =>
        have := ih xs hlen'
        simp only [List.zip_cons_cons, List.filter_cons, if_true, List.map_cons,
          List.length_cons, collect_distribute_cons_true, List.zipWith_cons_cons]
        rw [this]
      | false =>
        have := ih xs hlen'
        simp only [List.zip_cons_cons, List.filter_cons, Bool.false_eq_true, if_false,
          List.length_cons, collect_distribute_cons_false, List.zipWith_cons_cons]
        rw [this]

/-- **C01b.** Filtering distributed data with the same mask returns the data, when
there is one datum per set mask bit. -/
theorem filterMasked_distribute {α : Type} (xs : List α) (mask : List Bool) (d : α)
    (hlen : xs.length = mask.count true) :
    filterMasked (distribute xs mask d) mask = xs := by
  rw [filterMasked_spec]
  unfold distribute
  induction mask generalizing xs with
  | nil => cases xs <;> simp_all [collectWith, Distribute.next]
  | cons m ms ih =>
    cases m with
    | true =>
      cases xs with
      | nil => simp at hlen
      | cons x xs =>
        have := ih xs (by simpa using hlen)
        simp only [List.length_cons, collect_distribute_cons_true, List.zip_cons_cons,
          List.filter_cons, if_true, List.map_cons]
        rw [this]
    | false =>
      have := ih xs (by simpa using hlen)
      simp only [List.length_cons, collect_distribute_cons_false, List.zip_cons_cons,
        List.filter_cons, Bool.false_eq_true, if_false]
      rw [this]

/-- **C01c.** The distributed sequence has the length of the mask when there is enough
data. -/
theorem distribute_length {α : Type} (xs : List α) (mask : List Bool) (d : α)
    (hlen : mask.count true ≤ xs.length) :
    (distribute xs mask d).length = mask.length := by
  unfold distribute
  induction mask generalizing xs with
  | nil => simp [collectWith, Distribute.next]
  | cons m ms ih =>
    cases m with
    | true =>
      cases xs with
      | nil => simp at hlen
      | cons x xs =>
        simp only [List.length_cons, collect_distribute_cons_true]
        rw [ih xs (by simpa using hlen)]
    | false =>
      simp only [List.length_cons, collect_distribute_cons_false]
      rw [ih xs (by simpa using hlen)]

/-- **C01d.** What distributing yields for any data: it goes on as long as every set mask bit has
its datum, and stops at the first set bit without one. Entry `k` is the default if the bit is not
set, and otherwise the datum whose position is the number of set bits before. -/
theorem distribute_spec {α : Type} (xs : List α) (mask : List Bool) (d : α) :
    (∀ k < (distribute xs mask d).length,
      (distribute xs mask d)[k]? =
        if mask[k]? = some true then xs[(mask.take k).count true]? else some d) ∧
    (distribute xs mask d).length ≤ mask.length ∧
    ((distribute xs mask d).length < mask.length →
      mask[(distribute xs mask d).length]? = some true ∧
      (mask.take (distribute xs mask d).length).count true = xs.length) := by
  unfold distribute
  induction mask generalizing xs with
  | nil => simp [collectWith, Distribute.next]
  | cons m ms ih =>
    cases m with
    | true =>
      cases xs with
      | nil => simp [collectWith, Distribute.next]
      | cons x xs =>
        obtain ⟨h1, h2, h3⟩ := ih xs
        simp only [List.length_cons, collect_distribute_cons_true]
        refine ⟨?_, by omega, fun h => ?_⟩
        · intro k hk
          cases k with
          | zero => simp
          | succ k =>
            simp only [List.getElem?_cons_succ, List.take_succ_cons, List.count_cons_self]
            exact h1 k (by omega)
        · simp only [List.getElem?_cons_succ, List.take_succ_cons, List.count_cons_self]
          have := h3 (by omega)
          exact ⟨this.1, by omega⟩
    | false =>
      obtain ⟨h1, h2, h3⟩ := ih xs
      simp only [List.length_cons, collect_distribute_cons_false]
      refine ⟨?_, by omega, fun h => ?_⟩
      · intro k hk
        cases k with
        | zero => simp
        | succ k =>
          simp only [List.getElem?_cons_succ, List.take_succ_cons]
          rw [h1 k (by omega)]
          simp
      · simp only [List.getElem?_cons_succ, List.take_succ_cons]
        have := h3 (by omega)
        exact ⟨this.1, by simpa using this.2⟩

/-- Distributing one datum over three set bits stops at the second. -/
example : distribute [7] [false, true, true, true] 0 = [0, 7] := by decide

/-- Non-vacuity of `distribute_filterMasked`. -/
example : ([7, 8, 9] : List Nat).length = [true, false, true].length ∧
    distribute (filterMasked [7, 8, 9] [true, false, true]) [true, false, true] 0 =
      [7, 0, 9] := by
  refine ⟨rfl, ?_⟩
  rw [distribute_filterMasked (α := Nat) _ _ _ (by simp)]; rfl

/-- Non-vacuity of `filterMasked_distribute` and `distribute_length`. -/
example : ([7, 9] : List Nat).length = [false, true, true, false].count true := by decide

end Softy.MaskIter
