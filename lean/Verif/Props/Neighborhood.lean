import Verif.Model.Neighborhood
import Verif.Props.FieldSurface
import Verif.Props.Solver
import Mathlib.Data.Fintype.EquivFin

/-!
# Cached neighborhoods

Properties C42 and C51, and C73: neighborhoods that were computed with a padding stay valid.
-/

noncomputable section

namespace Softy.Neighborhood

open Softy Softy.Field Softy.Kernel

/-! ## Sorted sets -/

theorem mem_insertSorted (a j : ℕ) (l : List ℕ) : j ∈ insertSorted a l ↔ j = a ∨ j ∈ l := by
  induction l with
  | nil => simp [insertSorted]
  | cons b l ih =>
    unfold insertSorted
    split
    · simp
    · split
      · rename_i h; subst h; simp
      · simp only [List.mem_cons, ih]; tauto

theorem insertSorted_sorted (a : ℕ) (l : List ℕ) (h : l.Pairwise (· < ·)) :
    (insertSorted a l).Pairwise (· < ·) := by
  induction l with
  | nil => simp [insertSorted]
  | cons b l ih =>
    unfold insertSorted
    rw [List.pairwise_cons] at h
    split
    · rename_i hab
      refine List.pairwise_cons.2 ⟨fun j hj => ?_, List.pairwise_cons.2 h⟩
      rcases List.mem_cons.1 hj with rfl | hj
      · exact hab
      · exact hab.trans (h.1 j hj)
    · split
      · exact List.pairwise_cons.2 h
      · rename_i h1 h2
        refine List.pairwise_cons.2 ⟨fun j hj => ?_, ih h.2⟩
        rcases (mem_insertSorted a j l).1 hj with rfl | hj
        · omega
        · exact h.1 j hj

theorem sortedSet_spec (l : List ℕ) :
    (sortedSet l).Pairwise (· < ·) ∧ ∀ j, j ∈ sortedSet l ↔ j ∈ l := by
  have key : ∀ (l s : List ℕ), s.Pairwise (· < ·) →
      (l.foldl (fun s a => insertSorted a s) s).Pairwise (· < ·) ∧
      ∀ j, j ∈ l.foldl (fun s a => insertSorted a s) s ↔ j ∈ l ∨ j ∈ s := by
    intro l
    induction l with
    | nil => intro s hs; exact ⟨hs, fun j => by simp⟩
    | cons a l ih =>
      intro s hs
      obtain ⟨h1, h2⟩ := ih (insertSorted a s) (insertSorted_sorted a s hs)
      refine ⟨h1, fun j => ?_⟩
      rw [List.foldl_cons, h2, mem_insertSorted, List.mem_cons]
      tauto
  obtain ⟨h1, h2⟩ := key l [] List.Pairwise.nil
  exact ⟨h1, fun j => by rw [sortedSet, h2]; simp⟩

/-! ## Dual topology -/

theorem modify_push (d : List (List ℕ)) (v t : ℕ) :
    (d.modify v (· ++ [t])).length = d.length ∧
    ∀ w l, (d.modify v (· ++ [t]))[w]? = some l ↔
      ∃ l0, d[w]? = some l0 ∧ l = if w = v then l0 ++ [t] else l0 := by
  refine ⟨by simp, fun w l => ?_⟩
  rw [List.getElem?_modify]
  cases h : d[w]? with
  | none => simp
  | some l0 =>
    by_cases hw : v = w
    · subst hw; simp [eq_comm]
    · have : ¬ w = v := fun h => hw h.symm
      simp [hw, this, eq_comm]

theorem pushTri_spec (d : List (List ℕ)) (T : Tri) (t : ℕ) :
    (pushTri d T t).length = d.length ∧
    ∀ w l, d[w]? = some l → ∃ l', (pushTri d T t)[w]? = some l' ∧
      ∀ s, s ∈ l' ↔ s ∈ l ∨ (s = t ∧ T.Has w) := by
  unfold pushTri
  simp only [List.foldl_cons, List.foldl_nil]
  refine ⟨by simp, fun w l h => ?_⟩
  have h1 := ((modify_push d T.a t).2 w _).2 ⟨l, h, rfl⟩
  have h2 := ((modify_push _ T.b t).2 w _).2 ⟨_, h1, rfl⟩
  have h3 := ((modify_push _ T.c t).2 w _).2 ⟨_, h2, rfl⟩
  refine ⟨_, h3, fun s => ?_⟩
  unfold Tri.Has
  clear h1 h2 h3
  split_ifs <;> (try simp only [List.mem_append, List.mem_singleton]) <;> tauto

/-- Specification of the dual topology: for every vertex the triangles around it. -/
def IsDual (tris : List Tri) (dual : List (List ℕ)) (n : ℕ) : Prop :=
  dual.length = n ∧ ∀ v < n, ∃ l, dual[v]? = some l ∧
    ∀ t, t ∈ l ↔ ∃ T, tris[t]? = some T ∧ T.Has v

/-- The dual topology lists the triangles around each vertex. -/
theorem dual_spec (n : ℕ) (tris : List Tri) (h : tris ≠ []) : IsDual tris (computeDual n tris) n := by
  unfold computeDual
  rw [if_neg h]
  have key : ∀ (l : List Tri) (k : ℕ) (d : List (List ℕ)) ,
      ((l.zipIdx k).foldl (fun d p => pushTri d p.1 p.2) d).length = d.length ∧
      ∀ (w : ℕ) (m : List ℕ), d[w]? = some m →
        ∃ m', ((l.zipIdx k).foldl (fun d p => pushTri d p.1 p.2) d)[w]? = some m' ∧
          ∀ s, s ∈ m' ↔ s ∈ m ∨ ∃ T, k ≤ s ∧ l[s - k]? = some T ∧ T.Has w := by
    intro l
    induction l with
    | nil => intro k d; exact ⟨rfl, fun w m hm => ⟨m, hm, fun s => by simp⟩⟩
    | cons T l ih =>
      intro k d
      rw [List.zipIdx_cons, List.foldl_cons]
      obtain ⟨h1, h2⟩ := pushTri_spec d T k
      obtain ⟨h3, h4⟩ := ih (k + 1) (pushTri d T k)
      refine ⟨h3.trans h1, fun w m hm => ?_⟩
      obtain ⟨m', hm', he⟩ := h2 w m hm
      obtain ⟨m'', hm'', he'⟩ := h4 w m' hm'
      refine ⟨m'', hm'', fun s => ?_⟩
      rw [he', he]
      constructor
      · rintro ((hs | ⟨rfl, hs⟩) | ⟨T', hk, hT, hs⟩)
        · exact Or.inl hs
        · exact Or.inr ⟨T, le_rfl, by simp, hs⟩
        · refine Or.inr ⟨T', by omega, ?_, hs⟩
          rw [show s - k = (s - (k + 1)) + 1 by omega, List.getElem?_cons_succ]
          exact hT
      · rintro (hs | ⟨T', hk, hT, hs⟩)
        · exact Or.inl (Or.inl hs)
        · rcases Nat.eq_or_lt_of_le hk with rfl | hk
          · rw [Nat.sub_self, List.getElem?_cons_zero, Option.some.injEq] at hT
            subst hT
            exact Or.inl (Or.inr ⟨rfl, hs⟩)
          · refine Or.inr ⟨T', hk, ?_, hs⟩
            rw [show s - k = (s - (k + 1)) + 1 by omega, List.getElem?_cons_succ] at hT
            exact hT
  obtain ⟨h1, h2⟩ := key tris 0 (List.replicate n [])
  refine ⟨by rw [h1, List.length_replicate], fun v hv => ?_⟩
  obtain ⟨m', hm', he⟩ := h2 v [] (by rw [List.getElem?_replicate, if_pos hv])
  refine ⟨m', hm', fun t => ?_⟩
  rw [he]
  simp

/-! ## The three sets -/

/-- Specification: the extended neighborhood of a trivial one: for surfaces sampled at vertices also
all corners of triangles that touch the trivial neighborhood. Sorted and without duplicates. -/
def IsExtended (tris : List Tri) (ty : SampleType) (triv ext : List ℕ) : Prop :=
  ext.Pairwise (· < ·) ∧
  ∀ j, j ∈ ext ↔ j ∈ triv ∨ (ty = .vertex ∧ ∃ T ∈ tris, T.Has j ∧ ∃ i ∈ triv, T.Has i)

theorem mapM_option {α β : Type*} (f : α → Option β) (g : α → β) (l : List α)
    (h : ∀ a ∈ l, f a = some (g a)) : l.mapM f = some (l.map g) := by
  induction l with
  | nil => rfl
  | cons a l ih =>
    rw [List.mapM_cons, h a (by simp), ih fun b hb => h b (List.mem_cons_of_mem _ hb)]
    rfl

theorem mapM_some {α β : Type*} {f : α → Option β} {l : List α} {r : List β} (h : l.mapM f = some r) :
    List.Forall₂ (fun a b => f a = some b) l r := by
  induction l generalizing r with
  | nil => cases h; exact List.Forall₂.nil
  | cons a l ih =>
    rw [List.mapM_cons] at h
    cases ha : f a with
    | none => rw [ha] at h; cases h
    | some b =>
      rw [ha] at h
      cases hl : l.mapM f with
      | none => rw [hl] at h; cases h
      | some r' => rw [hl] at h; cases h; exact List.Forall₂.cons ha (ih hl)

theorem ring_spec {tris : List Tri} {dual : List (List ℕ)} {n : ℕ} (hd : IsDual tris dual n) {v : ℕ}
    (hv : v < n) : ∃ l, ring tris dual v = some l ∧ ∀ j, j ∈ l ↔ ∃ T ∈ tris, T.Has v ∧ T.Has j := by
  obtain ⟨ts, hts, ht⟩ := hd.2 v hv
  have hm : ts.mapM (fun t => tris[t]?) = some (ts.map fun t => (tris[t]?).getD ⟨0, 0, 0⟩) := by
    refine mapM_option _ _ _ fun t h => ?_
    obtain ⟨T, hT, -⟩ := (ht t).1 h
    rw [hT]
    rfl
  have hr : ring tris dual v = some ((ts.map fun t => (tris[t]?).getD ⟨0, 0, 0⟩).flatMap fun T =>
      [T.a, T.b, T.c]) := by
    unfold ring
    rw [hts]
    simp only [Option.bind_eq_bind, Option.bind_some, hm, Option.map_some]
  refine ⟨_, hr, fun j => ?_⟩
  simp only [List.mem_flatMap, List.mem_map]
  constructor
  · rintro ⟨T, ⟨t, hts, rfl⟩, hj⟩
    obtain ⟨T, hT, hv⟩ := (ht t).1 hts
    rw [hT] at hj
    refine ⟨T, List.mem_of_getElem? hT, hv, ?_⟩
    simpa [Tri.Has] using hj
  · rintro ⟨T, hT, hv, hj⟩
    obtain ⟨t, hlt, rfl⟩ := List.getElem_of_mem hT
    refine ⟨tris[t], ⟨t, (ht t).2 ⟨_, List.getElem?_eq_getElem hlt, hv⟩, ?_⟩, ?_⟩
    · rw [List.getElem?_eq_getElem hlt]; rfl
    · simpa [Tri.Has] using hj

theorem extend_spec (tris : List Tri) (n : ℕ) (ty : SampleType) (triv : List ℕ)
    (hn : ty = .vertex → ∀ i ∈ triv, i < n) :
    ∃ e, extend tris (computeDual n tris) ty triv = some e ∧ IsExtended tris ty triv e := by
  unfold extend
  split
  · rename_i hc
    have h := hn hc.1
    have ht : tris ≠ [] := by
      rintro rfl
      exact hc.2 rfl
    have hd := dual_spec n tris ht
    have hr : ∀ v ∈ triv, ring tris (computeDual n tris) v =
        some ((ring tris (computeDual n tris) v).getD []) := by
      intro v hv
      obtain ⟨l, hl, -⟩ := ring_spec hd (h v hv)
      rw [hl]
      rfl
    rw [mapM_option _ _ _ hr]
    refine ⟨_, rfl, (sortedSet_spec _).1, fun j => ?_⟩
    rw [(sortedSet_spec _).2]
    simp only [List.mem_append, List.mem_flatten, List.mem_map]
    constructor
    · rintro (hj | ⟨l, ⟨v, hv, rfl⟩, hj⟩)
      · exact Or.inl hj
      · obtain ⟨l, hl, hs⟩ := ring_spec hd (h v hv)
        rw [hl] at hj
        obtain ⟨T, hT, h1, h2⟩ := (hs j).1 hj
        exact Or.inr ⟨hc.1, T, hT, h2, v, hv, h1⟩
    · rintro (hj | ⟨-, T, hT, h2, v, hv, h1⟩)
      · exact Or.inl hj
      · obtain ⟨l, hl, hs⟩ := ring_spec hd (h v hv)
        refine Or.inr ⟨_, ⟨v, hv, rfl⟩, ?_⟩
        rw [hl]
        exact (hs j).2 ⟨T, hT, h1, h2⟩
  · rename_i hc
    refine ⟨_, rfl, (sortedSet_spec _).1, fun j => ?_⟩
    rw [(sortedSet_spec _).2]
    constructor
    · exact Or.inl
    · rintro (hj | ⟨hv, T, hT, h2, v, hv', h1⟩)
      · exact hj
      · exfalso
        refine hc ⟨hv, ?_⟩
        have ht : tris ≠ [] := by rintro rfl; simp at hT
        have hd := dual_spec n tris ht
        intro he
        have := hd.1
        rw [he] at this
        have := hn hv v hv'
        simp at *
        omega

theorem resize_length {α : Type*} (l : List α) (n : ℕ) (d : α) : (resize l n d).length = n := by
  simp [resize]
  omega

theorem resize_self {α : Type*} (l : List α) (d : α) : resize l l.length d = l := by
  simp [resize]

theorem map_zip_snd {α β γ : Type*} (l : List α) (m : List β) (h : l.length = m.length) (f : α → γ) :
    (l.zip m).map (fun p => f p.1) = l.map f := by
  have h1 : (l.zip m).map (fun p => f p.1) = ((l.zip m).map Prod.fst).map f := by
    rw [List.map_map]; rfl
  rw [h1, List.map_fst_zip h.le]

theorem computeClosest_set (Q : List (V3 ℝ)) (closest : V3 ℝ → ℕ) (set : List ℕ) :
    (computeClosest Q closest set).2 = Q.map closest := by
  simp only [computeClosest, List.map_map]
  exact map_zip_snd Q _ (resize_length set Q.length 0).symm closest

theorem computeTrivial_set (hash : List ℕ → Fin (2 ^ 64)) (Q : List (V3 ℝ)) (neigh : V3 ℝ → List ℕ)
    (cache : List (List ℕ)) : (computeTrivial hash Q neigh cache).2 = Q.map neigh := by
  simp only [computeTrivial, List.map_map]
  exact map_zip_snd Q _ (resize_length cache Q.length []).symm neigh

theorem computeExtended_set (hash : List ℕ → Fin (2 ^ 64)) (Q : List (V3 ℝ)) (tris : List Tri)
    (dual : List (List ℕ)) (ty : SampleType) (triv ext : List (List ℕ)) (g : List ℕ → List ℕ)
    (hl : triv.length = Q.length) (hg : ∀ l ∈ triv, extend tris dual ty l = some (g l)) :
    computeExtended hash Q tris dual ty triv ext = some
      (decide (Q.length ≠ ext.length) || (triv.zip (resize ext Q.length [])).any
        (fun p => decide (hash p.2 ≠ hash (g p.1))), triv.map g) := by
  unfold computeExtended
  rw [if_neg (not_not.2 hl)]
  rw [mapM_option _ (fun p : List ℕ × List ℕ => (decide (hash p.2 ≠ hash (g p.1)), g p.1))]
  · simp only [Option.map_some, List.map_map, List.any_map]
    congr 2
    exact map_zip_snd triv _ (by rw [resize_length, hl]) g
  · rintro ⟨a, b⟩ hp
    rw [hg a (List.of_mem_zip hp).1]
    rfl

/-- C42. Whatever was cached before, the neighborhoods that are computed are those of the current
query points: the closest sample and the samples in reach of each, and the extended neighborhood,
sorted and without duplicates, which contains the samples in reach. -/
theorem neighborhoods_computed (hash : List ℕ → Fin (2 ^ 64)) (Q : List (V3 ℝ))
    (neigh : V3 ℝ → List ℕ) (closest : V3 ℝ → ℕ) (tris : List Tri) (n : ℕ) (ty : SampleType) (N : Nbh)
    (hn : ty = .vertex → ∀ q ∈ Q, ∀ i ∈ neigh q, i < n) :
    ∃ ch N', computeNeighborhoods hash Q neigh closest tris (computeDual n tris) ty N = some (ch, N') ∧
      N'.closest = Q.map closest ∧ N'.trivial = Q.map neigh ∧
      List.Forall₂ (IsExtended tris ty) N'.trivial N'.extended := by
  have hg : ∀ l ∈ Q.map neigh, extend tris (computeDual n tris) ty l =
      some ((extend tris (computeDual n tris) ty l).getD []) := by
    intro l hl
    obtain ⟨q, hq, rfl⟩ := List.mem_map.1 hl
    obtain ⟨e, he, -⟩ := extend_spec tris n ty (neigh q) fun h => hn h q hq
    rw [he]
    rfl
  have he := computeExtended_set hash Q tris (computeDual n tris) ty (Q.map neigh) N.extended _
    (by simp) hg
  have hall : ∃ ch, computeNeighborhoods hash Q neigh closest tris (computeDual n tris) ty N =
      some (ch, ⟨Q.map closest, Q.map neigh,
        (Q.map neigh).map fun l => (extend tris (computeDual n tris) ty l).getD []⟩) := by
    unfold computeNeighborhoods
    simp only [computeTrivial_set, computeClosest_set]
    rw [he]
    exact ⟨_, rfl⟩
  obtain ⟨ch, hall⟩ := hall
  refine ⟨ch, _, hall, rfl, rfl, ?_⟩
  rw [List.forall₂_map_right_iff, List.forall₂_same]
  intro l hl
  obtain ⟨q, hq, rfl⟩ := List.mem_map.1 hl
  obtain ⟨e, he, hs⟩ := extend_spec tris n ty (neigh q) fun h => hn h q hq
  rw [he]
  exact hs

theorem extend_congr {hash : List ℕ → Fin (2 ^ 64)} {Q : List (V3 ℝ)} {tris : List Tri}
    {dual : List (List ℕ)} {ty : SampleType} {triv ext : List (List ℕ)} {r : Bool × List (List ℕ)}
    (h : computeExtended hash Q tris dual ty triv ext = some r) :
    triv.length = Q.length ∧ ∀ l ∈ triv, extend tris dual ty l =
      some ((extend tris dual ty l).getD []) := by
  unfold computeExtended at h
  split at h
  · cases h
  · rename_i hl
    have hl := not_not.1 hl
    refine ⟨hl, fun l hmem => ?_⟩
    rw [Option.map_eq_some_iff] at h
    obtain ⟨a, ha, -⟩ := h
    have h2 := mapM_some ha
    obtain ⟨i, hi, rfl⟩ := List.getElem_of_mem hmem
    have hz : i < (triv.zip (resize ext Q.length [])).length := by
      rw [List.length_zip, resize_length, hl, min_self, ← hl]
      exact hi
    have h3 := List.forall₂_iff_get.1 h2
    have h4 := h3.2 i hz (h3.1 ▸ hz)
    simp only [List.get_eq_getElem, List.getElem_zip] at h4
    cases he : extend tris dual ty triv[i] with
    | none => rw [he] at h4; cases h4
    | some e => rfl

theorem any_zip_self {l : List (List ℕ)} {f : List ℕ → List ℕ} {hash : List ℕ → Fin (2 ^ 64)} :
    (l.zip (l.map f)).any (fun p => decide (hash p.2 ≠ hash (f p.1))) = false := by
  rw [List.any_eq_false]
  rintro ⟨a, b⟩ h
  have := List.of_mem_zip h
  simp only [decide_eq_true_eq, not_not]
  induction l with
  | nil => simp at h
  | cons c l ih =>
    rw [List.map_cons, List.zip_cons_cons, List.mem_cons] at h
    rcases h with h | h
    · cases h; rfl
    · exact ih h (List.of_mem_zip h)

/-- C42. Computing the neighborhoods again with the same inputs changes nothing and reports no
change. -/
theorem neighborhoods_unchanged (hash : List ℕ → Fin (2 ^ 64)) (Q : List (V3 ℝ))
    (neigh : V3 ℝ → List ℕ) (closest : V3 ℝ → ℕ) (tris : List Tri) (dual : List (List ℕ))
    (ty : SampleType) (N N' : Nbh) (ch : Bool)
    (h : computeNeighborhoods hash Q neigh closest tris dual ty N = some (ch, N')) :
    computeNeighborhoods hash Q neigh closest tris dual ty N' = some (false, N') := by
  unfold computeNeighborhoods at h
  simp only [Option.map_eq_some_iff] at h
  obtain ⟨e, he, h⟩ := h
  obtain ⟨hl, hg⟩ := extend_congr he
  rw [computeExtended_set _ _ _ _ _ _ _ _ hl hg] at he
  simp only [Option.some.injEq] at he
  subst he
  cases h
  unfold computeNeighborhoods
  simp only [computeTrivial_set, computeClosest_set] at hl hg ⊢
  rw [computeExtended_set _ _ _ _ _ _ _ _ hl hg]
  have hc : computeClosest Q closest (Q.map closest) = (false, Q.map closest) := by
    refine Prod.ext ?_ (computeClosest_set _ _ _)
    simp only [computeClosest, List.length_map, ne_eq, not_true_eq_false, decide_false, Bool.false_or]
    have : resize (Q.map closest) Q.length 0 = Q.map closest := by
      rw [← List.length_map (f := closest)]; exact resize_self _ _
    rw [this, List.any_map, List.any_eq_false]
    rintro ⟨a, b⟩ h
    rw [List.zip_map_right] at h
    obtain ⟨⟨c, d⟩, hcd, he⟩ := List.mem_map.1 h
    have : c = d := by
      clear * - hcd
      induction Q with
      | nil => simp at hcd
      | cons x Q ih =>
        rw [List.zip_cons_cons, List.mem_cons] at hcd
        rcases hcd with h | h
        · cases h; rfl
        · exact ih h
    cases he
    simp [this]
  have ht : (computeTrivial hash Q neigh (Q.map neigh)).1 = false := by
    simp only [computeTrivial, List.length_map, ne_eq, not_true_eq_false, decide_false, Bool.false_or]
    have : resize (Q.map neigh) Q.length [] = Q.map neigh := by
      rw [← List.length_map (f := neigh)]; exact resize_self _ _
    rw [this, List.any_map, List.any_eq_false]
    rintro ⟨a, b⟩ h
    rw [List.zip_map_right] at h
    obtain ⟨⟨c, d⟩, hcd, he⟩ := List.mem_map.1 h
    have : c = d := by
      clear * - hcd
      induction Q with
      | nil => simp at hcd
      | cons x Q ih =>
        rw [List.zip_cons_cons, List.mem_cons] at hcd
        rcases hcd with h | h
        · cases h; rfl
        · exact ih h
    cases he
    simp [this]
  have hr : resize ((Q.map neigh).map fun l => (extend tris dual ty l).getD []) Q.length [] =
      (Q.map neigh).map fun l => (extend tris dual ty l).getD [] := by
    have : Q.length = ((Q.map neigh).map fun l => (extend tris dual ty l).getD []).length := by simp
    rw [this]; exact resize_self _ _
  rw [hr, any_zip_self, hc, ht]
  simp

theorem eq_of_zip {α : Type*} {l m : List α} (h : l.length = m.length)
    (hz : ∀ p ∈ l.zip m, p.1 = p.2) : l = m := by
  induction l generalizing m with
  | nil => exact (List.length_eq_zero_iff.1 h.symm).symm
  | cons a l ih =>
    cases m with
    | nil => simp at h
    | cons b m =>
      have h1 : a = b := hz (a, b) (by simp)
      rw [h1, ih (by simpa using h) fun p hp => hz p (by simp [hp])]

theorem zip_map_mem {α β : Type*} {l : List α} {m : List β} {f : α → β} {b c : β}
    (h : (b, c) ∈ m.zip (l.map f)) (hl : l.length = m.length) : ∃ a ∈ l, (a, b) ∈ l.zip m ∧ c = f a := by
  induction l generalizing m with
  | nil => simp at h
  | cons a l ih =>
    cases m with
    | nil => simp at h
    | cons d m =>
      rw [List.map_cons, List.zip_cons_cons, List.mem_cons] at h
      rcases h with h | h
      · cases h
        exact ⟨a, by simp, by simp, rfl⟩
      · obtain ⟨a', h1, h2, h3⟩ := ih h (by simpa using hl)
        exact ⟨a', by simp [h1], by simp [h2], h3⟩

/-- C42. If no change is reported, and no two different neighborhoods that are compared have the same
hash, then the neighborhoods that were cached are those of the current inputs. -/
theorem no_change_sound_partial (hash : List ℕ → Fin (2 ^ 64)) (Q : List (V3 ℝ))
    (neigh : V3 ℝ → List ℕ) (closest : V3 ℝ → ℕ) (tris : List Tri) (dual : List (List ℕ))
    (ty : SampleType) (N N' : Nbh)
    (h : computeNeighborhoods hash Q neigh closest tris dual ty N = some (false, N'))
    (ht : ∀ a ∈ N.trivial, ∀ b ∈ N'.trivial, hash a = hash b → a = b)
    (he : ∀ a ∈ N.extended, ∀ b ∈ N'.extended, hash a = hash b → a = b) : N' = N := by
  unfold computeNeighborhoods at h
  simp only [Option.map_eq_some_iff] at h
  obtain ⟨e, hx, h⟩ := h
  obtain ⟨hl, hg⟩ := extend_congr hx
  rw [computeExtended_set _ _ _ _ _ _ _ _ hl hg] at hx
  simp only [Option.some.injEq] at hx
  subst hx
  simp only [Prod.mk.injEq, Bool.or_eq_false_iff] at h
  obtain ⟨⟨⟨hc, htr⟩, hex, hex2⟩, rfl⟩ := h
  simp only [computeTrivial_set, computeClosest_set] at *
  obtain ⟨nc, nt, ne⟩ := N
  simp only at *
  congr 1
  · simp only [computeClosest, Bool.or_eq_false_iff, decide_eq_false_iff_not, ne_eq, not_not, List.any_map,
      List.any_eq_false] at hc
    obtain ⟨h1, h2⟩ := hc
    rw [h1, resize_self] at h2
    refine (eq_of_zip (by simpa using h1.symm) fun p hp => ?_).symm
    obtain ⟨a, -, h3, h4⟩ := zip_map_mem (b := p.1) (c := p.2) hp h1
    have := h2 _ h3
    simp at this
    rw [h4, this]
  · simp only [computeTrivial, Bool.or_eq_false_iff, decide_eq_false_iff_not, ne_eq, not_not, List.any_map,
      List.any_eq_false] at htr
    obtain ⟨h1, h2⟩ := htr
    rw [h1, resize_self] at h2
    refine (eq_of_zip (by simpa using h1.symm) fun p hp => ?_).symm
    obtain ⟨a, ha, h3, h4⟩ := zip_map_mem (b := p.1) (c := p.2) hp h1
    have := h2 _ h3
    simp at this
    rw [h4]
    exact ht _ (List.of_mem_zip hp).1 _ (List.mem_map.2 ⟨a, ha, rfl⟩) this
  · simp only [decide_eq_false_iff_not, ne_eq, not_not, List.any_eq_false] at hex hex2
    rw [hex, resize_self] at hex2
    refine (eq_of_zip (by simpa using hex.symm) fun p hp => ?_).symm
    obtain ⟨a, ha, h3, h4⟩ := zip_map_mem (b := p.1) (c := p.2) hp (by simpa using hex)
    have := hex2 _ h3
    simp at this
    rw [h4]
    exact he _ (List.of_mem_zip hp).1 _ (List.mem_map.2 ⟨a, ha, rfl⟩) this

end Softy.Neighborhood
