import Verif.Model.SurfaceQuery

/-!
# Lists of neighborhoods and chunks
-/

noncomputable section

namespace Softy.SurfaceQuery

open Softy Softy.Kernel Softy.Field

/-! ## Chunks -/

theorem chunks_nil {α : Type} (c : ℕ) : chunks c ([] : List α) = [] := by
  rw [chunks, dif_pos (Or.inl rfl)]

theorem chunks_step {α : Type} {c : ℕ} (hc : c ≠ 0) {l : List α} (hl : l ≠ []) :
    chunks c l = l.take c :: chunks c (l.drop c) := by
  conv_lhs => rw [chunks]
  rw [dif_neg (by simp [hc, hl])]

/-- Cutting two lists into chunks and pairing inside of chunks is pairing first. -/
theorem chunks_zipWith {α β : Type} {c : ℕ} (hc : c ≠ 0) : ∀ (n : ℕ) (a : List α) (b : List β),
    a.length ≤ n →
    List.zipWith List.zip (chunks c a) (chunks c b) = chunks c (a.zip b) := by
  intro n
  induction n with
  | zero =>
    intro a b h
    have : a = [] := List.length_eq_zero_iff.1 (by omega)
    subst this
    simp [chunks_nil]
  | succ n ih =>
    intro a b h
    by_cases ha : a = []
    · subst ha; simp [chunks_nil]
    by_cases hb : b = []
    · subst hb; simp [chunks_nil]
    have hz : a.zip b ≠ [] := by
      cases a with
      | nil => exact absurd rfl ha
      | cons x a => cases b with
        | nil => exact absurd rfl hb
        | cons y b => simp
    have := List.length_pos_iff.2 ha
    rw [chunks_step hc ha, chunks_step hc hb, chunks_step hc hz, List.zipWith_cons_cons,
      ih (a.drop c) (b.drop c) (by rw [List.length_drop]; omega)]
    unfold List.zip
    rw [List.take_zipWith, List.drop_zipWith]

/-- Numbering inside of chunks is numbering the whole list. -/
theorem chunks_zipIdx {α β : Type} {c : ℕ} (hc : c ≠ 0) (f : α × ℕ → List β) :
    ∀ (n : ℕ) (l : List α) (k : ℕ), l.length ≤ n →
      ((chunks c l).zipIdx k).flatMap (fun p => p.1.zipIdx.flatMap fun q => f (q.1, p.2 * c + q.2)) =
        (l.zipIdx (k * c)).flatMap f := by
  have shift : ∀ (l : List α) (m : ℕ), l.zipIdx m = l.zipIdx.map fun q => (q.1, m + q.2) := by
    intro l m
    rw [List.zipIdx_eq_map_add]
  intro n
  induction n with
  | zero =>
    intro l k h
    have : l = [] := List.length_eq_zero_iff.1 (by omega)
    subst this
    simp [chunks_nil]
  | succ n ih =>
    intro l k h
    by_cases hl : l = []
    · subst hl; simp [chunks_nil]
    have := List.length_pos_iff.2 hl
    rw [chunks_step hc hl, List.zipIdx_cons, List.flatMap_cons,
      ih (l.drop c) (k + 1) (by rw [List.length_drop]; omega)]
    have e : l.zipIdx (k * c) = (l.take c).zipIdx (k * c) ++ (l.drop c).zipIdx ((k + 1) * c) := by
      by_cases hlc : c ≤ l.length
      · conv_lhs => rw [← List.take_append_drop c l]
        rw [List.zipIdx_append, List.length_take, min_eq_left hlc, Nat.add_mul, one_mul]
      · rw [List.take_of_length_le (by omega), List.drop_eq_nil_of_le (by omega)]
        simp
    rw [e, List.flatMap_append]
    congr 1
    rw [shift (l.take c) (k * c), List.flatMap_map]

theorem chunks_length {α : Type} {c : ℕ} (hc : c ≠ 0) : ∀ (w : ℕ) (l : List α),
    l.length ≤ c * w → (chunks c l).length ≤ w := by
  intro w
  induction w with
  | zero =>
    intro l h
    have : l = [] := List.length_eq_zero_iff.1 (by omega)
    subst this
    simp [chunks_nil]
  | succ w ih =>
    intro l h
    by_cases hl : l = []
    · subst hl; simp [chunks_nil]
    rw [chunks_step hc hl, List.length_cons]
    have := ih (l.drop c) (by rw [List.length_drop]; rw [Nat.mul_succ] at h; omega)
    omega

theorem chunkSize_covers (n w : ℕ) (hw : w ≠ 0) : n ≤ Query.chunkSize n w * w := by
  unfold Query.chunkSize
  have h1 := Nat.div_add_mod (n + w - 1) w
  have h2 := Nat.mod_lt (n + w - 1) (Nat.pos_of_ne_zero hw)
  have h3 := Nat.mul_comm w ((n + w - 1) / w)
  omega

theorem chunkSize_zero (n w : ℕ) (hw : w ≠ 0) : Query.chunkSize n w = 0 ↔ n = 0 := by
  constructor
  · intro h
    have := chunkSize_covers n w hw
    rw [h] at this
    omega
  · rintro rfl
    unfold Query.chunkSize
    exact Nat.div_eq_of_lt (by omega)

theorem perWorkspace_flatten {α : Type} {w : ℕ} {l : List (List α)} (h : l.length ≤ w) :
    (perWorkspace w l).flatten = l.flatten := by
  unfold perWorkspace
  rw [List.take_of_length_le h, List.flatten_append]
  have : ∀ n, (List.replicate n ([] : List α)).flatten = [] := by
    intro n
    induction n with
    | zero => rfl
    | succ n ih => rw [List.replicate_succ, List.flatten_cons, ih, List.nil_append]
  rw [this, List.append_nil]

theorem perWorkspace_length {α : Type} {w : ℕ} {l : List (List α)} :
    (perWorkspace w l).length = w := by
  unfold perWorkspace
  rw [List.length_append, List.length_take, List.length_replicate]
  omega

/-! ## Groups of three -/

theorem arrays_flatMap (l : List (V3 ℝ)) : arrays (l.flatMap coords) = some l := by
  induction l with
  | nil => rfl
  | cons a l ih =>
    show arrays (a.x :: a.y :: a.z :: l.flatMap coords) = _
    rw [arrays, ih]
    rfl

theorem arrays_some : ∀ (n : ℕ) (l : List ℝ), l.length = 3 * n → ∃ b, arrays l = some b ∧ b.length = n := by
  intro n
  induction n with
  | zero =>
    intro l h
    have : l = [] := List.length_eq_zero_iff.1 (by omega)
    subst this
    exact ⟨[], rfl, rfl⟩
  | succ n ih =>
    intro l h
    match l, h with
    | a :: b :: c :: l, h =>
      obtain ⟨r, hr, hn⟩ := ih l (by simp at h; omega)
      exact ⟨⟨a, b, c⟩ :: r, by rw [arrays, hr]; rfl, by simp [hn]⟩
    | [], h => simp at h
    | [_], h => simp at h; omega
    | [_, _], h => simp at h; omega

theorem coords_length (l : List (V3 ℝ)) : (l.flatMap coords).length = 3 * l.length := by
  induction l with
  | nil => rfl
  | cons a l ih => rw [List.flatMap_cons, List.length_append, ih, List.length_cons]; simp [coords]; omega

/-! ## Neighborhoods -/

/-- Query points with their neighborhoods, numbered. -/
theorem zip_snd {α β : Type} {P : List α} {T : List β} (h : T.length ≤ P.length) :
    (P.zip T).map Prod.snd = T := List.map_snd_zip h

theorem zipIdx_fst {α : Type} (l : List α) (n : ℕ) : (l.zipIdx n).map Prod.fst = l :=
  List.zipIdx_map_fst n l

theorem indices_points {α β : Type} {P : List α} {T : List (List ℕ)} (h : T.length ≤ P.length)
    (f : List ℕ × ℕ → List β) :
    (T.zipIdx.filter fun p => !p.1.isEmpty).flatMap f =
      ((P.zip T).zipIdx.filter fun p => !p.1.2.isEmpty).flatMap fun p => f (p.1.2, p.2) := by
  conv_lhs => rw [← zip_snd h]
  rw [List.zipIdx_map, List.filter_map, List.flatMap_map]
  rfl

theorem values_points {α β : Type} (L : List (α × List ℕ)) (g : α × List ℕ → List β) :
    (L.filter fun p => !p.2.isEmpty).flatMap g =
      (L.zipIdx.filter fun p => !p.1.2.isEmpty).flatMap fun p => g p.1 := by
  conv_lhs => rw [← zipIdx_fst L 0]
  rw [List.filter_map, List.flatMap_map]
  rfl

theorem flatMap_filter {α β : Type} (l : List α) (p : α → Bool) (f : α → List β) :
    (l.filter p).flatMap f = l.flatMap fun a => if p a then f a else [] := by
  induction l with
  | nil => rfl
  | cons a l ih =>
    rw [List.filter_cons, List.flatMap_cons]
    by_cases h : p a
    · rw [if_pos h, if_pos h, List.flatMap_cons, ih]
    · rw [if_neg h, if_neg h, ih, List.nil_append]

end Softy.SurfaceQuery
