import Verif.Model.Remap
import Mathlib.Data.List.Sort

/-!
# C02 — warm-started contact values follow their constraint index

Specification: `lookupIdx` finds the value that was stored for a constraint index.
-/

namespace Softy.Remap

/-- Specification: the value paired with index `i` in the old set, if any. -/
def lookupIdx {α : Type} (i : Nat) (pairs : List (α × Nat)) : Option α :=
  (pairs.find? (fun p => p.2 = i)).map Prod.fst

/-! ## Helper lemmas -/

theorem remapOne_spec {α : Type} (d : α) (i : Nat) (st : List (α × Nat))
    (hs : (st.map Prod.snd).Pairwise (· < ·)) :
    (remapOne d i st).1 = (lookupIdx i st).getD d ∧
    ((remapOne d i st).2.map Prod.snd).Pairwise (· < ·) ∧
    ∀ j, i < j → lookupIdx j (remapOne d i st).2 = lookupIdx j st := by
  induction st with
  | nil => simp [remapOne, lookupIdx]
  | cons p rest ih =>
    obtain ⟨v, o⟩ := p
    have hs' : (rest.map Prod.snd).Pairwise (· < ·) := by
      rw [List.map_cons, List.pairwise_cons] at hs; exact hs.2
    have hhead : ∀ b ∈ rest.map Prod.snd, o < b := by
      rw [List.map_cons, List.pairwise_cons] at hs; exact hs.1
    by_cases h1 : o < i
    · obtain ⟨a, b, c⟩ := ih hs'
      refine ⟨?_, ?_, ?_⟩
      · simp only [remapOne, h1, if_true, a, lookupIdx, List.find?_cons]
        have : ¬ (o = i) := by omega
        simp [this]
      · simpa only [remapOne, h1, if_true] using b
      · intro j hj
        have h3 : ¬ (o = j) := by omega
        have h4 : lookupIdx j ((v, o) :: rest) = lookupIdx j rest := by
          simp [lookupIdx, h3]
        rw [h4, ← c j hj]
        simp only [remapOne, h1, if_true]
    · by_cases h2 : o = i
      · subst h2
        refine ⟨?_, ?_, ?_⟩
        · simp [remapOne, lookupIdx]
        · simpa [remapOne] using hs'
        · intro j hj
          have : ¬ (o = j) := by omega
          simp [remapOne, lookupIdx, this]
      · refine ⟨?_, ?_, ?_⟩
        · simp only [remapOne, h1, h2, if_false, lookupIdx, List.find?_cons, decide_false]
          have : rest.find? (fun p => decide (p.2 = i)) = none := by
            rw [List.find?_eq_none]
            intro q hq
            have := hhead q.2 (List.mem_map_of_mem hq)
            simp; omega
          simp [this]
        · simpa only [remapOne, h1, h2, if_false] using hs
        · intro j _
          simp only [remapOne, h1, h2, if_false]

theorem remapIter_spec {α : Type} (d : α) (new : List Nat) (st : List (α × Nat))
    (hs : (st.map Prod.snd).Pairwise (· < ·)) (hn : new.Pairwise (· < ·)) :
    remapIter d new st = new.map (fun i => (lookupIdx i st).getD d) := by
  induction new generalizing st with
  | nil => rfl
  | cons i is ih =>
    obtain ⟨a, b, c⟩ := remapOne_spec d i st hs
    rw [List.pairwise_cons] at hn
    simp only [remapIter, a, List.map_cons, List.cons.injEq, true_and]
    rw [ih _ b hn.2]
    apply List.map_congr_left
    intro j hj
    rw [c j (hn.1 j hj)]

/-! ## Property theorems -/

/-- **C02.** For strictly sorted old and new index sets (one value per old index) the
remapped values are, for each new index, the old value at that index or the default. -/
theorem remapValues_spec {α : Type} (values : List α) (d : α) (old new : List Nat)
    (hlen : values.length = old.length)
    (hold : old.Pairwise (· < ·)) (hnew : new.Pairwise (· < ·)) :
    remapValues values d old new =
      new.map (fun i => (lookupIdx i (values.zip old)).getD d) := by
  apply remapIter_spec
  · rw [List.map_snd_zip (by omega)]; exact hold
  · exact hnew

/-- **C02 (pointwise form).** If constraint `i` was at position `k` of the old set and is
at position `m` of the new set, its value is carried over. -/
theorem remapValues_carried {α : Type} (values : List α) (d : α) (old new : List Nat)
    (hlen : values.length = old.length)
    (hold : old.Pairwise (· < ·)) (hnew : new.Pairwise (· < ·))
    (k m : Nat) (hk : k < old.length) (hm : m < new.length) (h : old[k] = new[m]) :
    (remapValues values d old new)[m]? = values[k]? := by
  rw [remapValues_spec values d old new hlen hold hnew, List.getElem?_map,
    List.getElem?_eq_getElem hm, Option.map_some, List.getElem?_eq_getElem (by omega)]
  congr 1
  have hz : (values.zip old)[k]'(by simp; omega) = (values[k]'(by omega), old[k]) := by
    simp
  have : (values.zip old).find? (fun p => decide (p.2 = new[m])) =
      some (values[k]'(by omega), old[k]) := by
    rw [List.find?_eq_some_iff_getElem]
    refine ⟨by simp [h], k, by simp; omega, hz, ?_⟩
    intro j hj
    have hlt : old[j]'(by omega) < old[k] := List.pairwise_iff_getElem.mp hold j k _ hk hj
    have : ¬ (old[j]'(by omega) = new[m]) := by omega
    simpa using this
  simp [lookupIdx, this]

/-- **C02 (pointwise form).** A constraint that was not active before gets the default. -/
theorem remapValues_fresh {α : Type} (values : List α) (d : α) (old new : List Nat)
    (hlen : values.length = old.length)
    (hold : old.Pairwise (· < ·)) (hnew : new.Pairwise (· < ·))
    (m : Nat) (hm : m < new.length) (h : new[m] ∉ old) :
    (remapValues values d old new)[m]? = some d := by
  rw [remapValues_spec values d old new hlen hold hnew, List.getElem?_map,
    List.getElem?_eq_getElem hm, Option.map_some]
  congr 1
  have : (values.zip old).find? (fun p => decide (p.2 = new[m])) = none := by
    rw [List.find?_eq_none]
    rintro ⟨a, b⟩ hq
    have hb := (List.of_mem_zip hq).2
    simp only [decide_eq_true_eq]
    rintro rfl
    exact h hb
  simp [lookupIdx, this]

/-- **C02.** One value per new constraint. No sortedness needed. -/
theorem remapValues_length {α : Type} (values : List α) (d : α) (old new : List Nat) :
    (remapValues values d old new).length = new.length := by
  unfold remapValues
  generalize values.zip old = st
  induction new generalizing st with
  | nil => rfl
  | cons i is ih => simp [remapIter, ih]

/-- Non-vacuity: a genuine change of active set. -/
example : ([10, 20, 30] : List Nat).length = [1, 4, 6].length ∧
    ([1, 4, 6] : List Nat).Pairwise (· < ·) ∧ ([0, 4, 5, 6] : List Nat).Pairwise (· < ·) ∧
    remapValues [10, 20, 30] 0 [1, 4, 6] [0, 4, 5, 6] = [0, 20, 0, 30] := by
  refine ⟨rfl, by decide, by decide, by decide⟩

end Softy.Remap
