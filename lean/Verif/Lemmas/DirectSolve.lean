import Verif.Model.DirectSolve
import Verif.Props.Gripping
import Verif.Props.Sparse
import Mathlib.Algebra.BigOperators.Fin

/-!
# Lemmas for C115: changes of parameters keep the positions of the entries
-/

noncomputable section

namespace Softy.DirectSolve

open Softy Fem Contact Softy.Field

/-- A contact with another stiffness. -/
def withStiffness (C : Pair) (k : ℝ) : Pair := { C with kappa := k }

theorem frictionBlocks_stiff (C : Pair) (k : ℝ) (p p' : Friction.Params) (x y u v : ℕ → V3 ℝ) (N : ℕ) :
    ((withStiffness C k).frictionBlocks p x u N).map hkey = (C.frictionBlocks p' y v N).map hkey := by
  rw [← C.frictionBlocks_keys p p' x y u v N]
  unfold Pair.frictionBlocks
  rw [List.map_flatMap, List.map_flatMap]
  simp only [List.map_map]
  rfl

theorem lambdaBlocks_stiff (C : Pair) (k : ℝ) (p p' : Friction.Params) (x y u v : ℕ → V3 ℝ) (q q' : ℝ)
    (N n : ℕ) :
    ((withStiffness C k).lambdaBlocks p x u q N n).map hkey = (C.lambdaBlocks p' y v q' N n).map hkey := by
  rw [← C.lambdaBlocks_keys p p' x y u v q q' N n]
  unfold Pair.lambdaBlocks
  rw [List.map_flatMap, List.map_flatMap]
  simp only [List.map_flatMap, List.map_map]
  rfl

theorem completeBlocks_stiff (C : Pair) (k : ℝ) (p p' : Friction.Params) (x y u v : ℕ → V3 ℝ) (q q' : ℝ)
    (N n : ℕ) :
    ((withStiffness C k).completeBlocks p x u q N n).map hkey =
      (C.completeBlocks p' y v q' N n).map hkey := by
  unfold Pair.completeBlocks Pair.blocksA Pair.blocksB Pair.blocksC Pair.blocksD
  simp only [List.map_append, Pair.scaleBlocks_keys]
  have hD := congrArg (List.map fun k : ℕ × ℕ => (k.2, k.1))
    (C.jacContactJacobian_keys x y (fun j => u (C.surf j)) (fun j => v (C.surf j)) N n)
  rw [List.map_map, List.map_map] at hD
  have hB : ∀ m tr, (withStiffness C k).basisTriplets x m tr n = C.basisTriplets x m tr n := fun _ _ => rfl
  simp only [hB]
  refine congrArg₂ _ (congrArg₂ _ (congrArg₂ _ (congrArg₂ _ (congrArg₂ _
    (lambdaBlocks_stiff C k p p' x y u v q q' N n) (C.jacContactGradient_keys x y _ _ N n))
    (C.contactProduct_keys x y N _ _ _ _ (C.basisTriplets_keys x y _ _ false n)))
    (C.contactProduct_keys x y N _ _ _ _ (C.basisTriplets_keys x y _ _ true n)))
    (C.contactProduct_keys x y N _ _ _ _ ?_)) (frictionBlocks_stiff C k p p' x y u v N)
  rw [List.map_map, List.map_map]
  exact hD

theorem currentEntries_stiff (C : Pair) (k : ℝ) (p p' : Friction.Params) (hp : p.isNone ↔ p'.isNone)
    (inc : Bool) (x y u v : ℕ → V3 ℝ) (q q' : ℝ) (N n : ℕ) :
    ((withStiffness C k).currentEntries p inc x u q N n).map (fun e => e.1) =
      (C.currentEntries p' inc y v q' N n).map fun e => e.1 := by
  classical
  unfold Pair.currentEntries
  by_cases h : p.isNone
  · rw [if_pos h, if_pos (hp.1 h)]
  · rw [if_neg h, if_neg fun h' => h (hp.2 h')]
    refine Pair.blockEntries_keys _ _ ?_
    refine map_filter_keys hkey (fun k => decide (k.1 < n ∧ k.2 < n)) _ _ ?_
    cases inc with
    | true =>
      simp only [if_true]
      unfold Pair.incompleteBlocks
      rw [List.map_append, List.map_append, lambdaBlocks_stiff C k p p' x y u v q q',
        frictionBlocks_stiff C k p p' x y u v]
    | false =>
      simp only [Bool.false_eq_true, if_false]
      exact completeBlocks_stiff C k p p' x y u v q q' N n

theorem frictionEntries_stiff (C : Pair) (k : ℝ) (p p' : Friction.Params) (hp : p.isNone ↔ p'.isNone)
    (x y u v : ℕ → V3 ℝ) (N n : ℕ) :
    ((withStiffness C k).frictionEntries p x u N n).map (fun e => e.1) =
      (C.frictionEntries p' y v N n).map fun e => e.1 := by
  classical
  unfold Pair.frictionEntries
  by_cases h : p.isNone
  · rw [if_pos h, if_pos (hp.1 h)]
  · rw [if_neg h, if_neg fun h' => h (hp.2 h')]
    refine Pair.blockEntries_keys _ _ ?_
    refine map_filter_keys hkey (fun k => decide (k.1 < n ∧ k.2 < n)) _ _ ?_
    exact frictionBlocks_stiff C k p p' x y u v N

theorem foldl_related {α β σ : Type*} {R : α → β → Prop} {f : σ → α → σ} {g : σ → β → σ}
    (hfg : ∀ a b, R a b → ∀ s, f s a = g s b) {l : List α} {l' : List β} (h : List.Forall₂ R l l') (s : σ) :
    l.foldl f s = l'.foldl g s := by
  induction h generalizing s with
  | nil => rfl
  | cons h _ ih => rw [List.foldl_cons, List.foldl_cons, hfg _ _ h, ih]

/-! ## The workspace -/

theorem layout_layout (t : Bool) (k : Sparse.Key) : layout t (layout t k) = k := by
  unfold layout
  cases t <;> rfl

theorem layout_inj (t : Bool) {a b : Sparse.Key} : layout t a = layout t b ↔ a = b :=
  ⟨fun h => by rw [← layout_layout t a, h, layout_layout], congrArg _⟩

theorem sum_get {α : Type*} (F : α → ℝ) (l : List α) : ∑ k : Fin l.length, F (l.get k) = (l.map F).sum := by
  rw [← List.sum_ofFn]
  congr 1
  apply List.ext_getElem <;> simp

theorem reassemble_list (z : List (Option ℕ × ℝ)) (pos : ℕ) :
    Sparse.reassemble (fun k : Fin z.length => (z.get k).1) (fun k : Fin z.length => (z.get k).2) pos =
      (z.map fun e => if e.1 = some pos then e.2 else 0).sum := by
  rw [Sparse.reassemble_eq_sum]
  exact sum_get (fun e : Option ℕ × ℝ => if e.1 = some pos then e.2 else 0) z

theorem getD_get (l : List ℝ) (k : ℕ) (h : k < l.length) : l.getD k 0 = l[k] := by simp [List.getD, h]

theorem zip_finRange (keys : List Sparse.Key) (m : Fin keys.length → Option ℕ) (vals : List ℝ)
    (h : vals.length = keys.length) :
    ((List.finRange keys.length).map m).zip vals =
      (List.finRange keys.length).map fun k => (m k, vals.getD k.val 0) := by
  apply List.ext_getElem
  · simp [h]
  · intro i h1 h2
    simp only [List.length_map, List.length_finRange] at h2
    have hi : i < vals.length := by omega
    simp [List.getElem?_eq_getElem hi]

theorem storedEntry_layout (t : Bool) (l : List (Sparse.Key × ℝ)) (ij : Sparse.Key) :
    Sparse.storedEntry (l.map fun e => (layout t e.1, e.2)) ij = Sparse.storedEntry l (layout t ij) := by
  unfold Sparse.storedEntry
  rw [List.map_map]
  congr 1
  refine List.map_congr_left fun e _ => ?_
  simp only [Function.comp_apply]
  congr 1
  rw [← layout_inj t, layout_layout]

/-- The positions of triplets, in the layout of the platform. -/
def keyIn (pl : Platform) (keys : List Sparse.Key) (k : Fin keys.length) : Sparse.Key :=
  layout pl.transpose (keys.get k)

/-- The workspace has been set up for the triplets `keys` and `n` variables. -/
structure Built (pl : Platform) (n : ℕ) (w : Workspace) : Prop where
  nonempty : w.keys ≠ []
  length : w.vals.length = w.keys.length
  j : ∃ vals, w.j.map Prod.fst = (Sparse.compress (R := ℝ) (keyIn pl w.keys) vals n).map Prod.fst
  mapping : w.mapping = (List.finRange w.keys.length).map (Sparse.mapping (keyIn pl w.keys) n)
  solver : w.solver = some (w.j.map Prod.fst)

theorem resize_length (n : ℕ) (l : List ℝ) : (resize n l).length = n := by
  unfold resize
  simp
  omega

theorem update_built (pl : Platform) (n : ℕ) (w : Workspace) (keys : List Sparse.Key) (hk : keys ≠ [])
    (hok : (w.update pl n keys).2 = true) :
    Built pl n (w.update pl n keys).1 ∧ (w.update pl n keys).1.keys = keys := by
  have he : keys.isEmpty = false := by simpa using hk
  unfold Workspace.update at hok ⊢
  simp only [he, Bool.false_eq_true, if_false] at hok ⊢
  split_ifs at hok ⊢ with h
  refine ⟨⟨hk, resize_length _ _, ⟨_, rfl⟩, rfl, rfl⟩, rfl⟩

variable {pl : Platform} {n : ℕ} {w : Workspace}

theorem Built.pattern (hb : Built pl n w) (vals : Fin w.keys.length → ℝ) :
    w.j.map Prod.fst = (Sparse.compress (keyIn pl w.keys) vals n).map Prod.fst := by
  obtain ⟨v0, h⟩ := hb.j
  rw [h]
  exact Sparse.compress_structure_independent _ _ _ _

theorem Built.storage (hb : Built pl n w) (vals : List ℝ) (h : vals.length = w.keys.length) :
    w.storage vals =
      (Sparse.compress (keyIn pl w.keys) (fun k => vals.getD k.val 0) n).map Prod.snd := by
  have hlen : w.j.length = (Sparse.compress (keyIn pl w.keys) (fun k => vals.getD k.val 0) n).length := by
    simpa using congrArg List.length (hb.pattern fun k => vals.getD k.val 0)
  unfold Workspace.storage
  apply List.ext_getElem
  · simp [hlen]
  · intro i h1 h2
    simp only [List.getElem_map, List.getElem_range]
    rw [reassemble_list, hb.mapping, zip_finRange _ _ _ h, List.map_map]
    have e := Sparse.reassemble_eq_compress (keyIn pl w.keys) (fun k => vals.getD k.val 0) n i
    have hi : i < (Sparse.compress (keyIn pl w.keys) (fun k => vals.getD k.val 0) n).length := by
      simpa using h2
    rw [List.getElem?_eq_getElem hi] at e
    rw [Sparse.reassemble_eq_sum] at e
    rw [← Sparse.sum_map_nodup _ (List.nodup_finRange _) _
      fun k hk => absurd (List.mem_finRange k) hk] at e
    exact e

theorem zip_fst_snd {α β : Type*} (l : List (α × β)) : (l.map Prod.fst).zip (l.map Prod.snd) = l := by
  induction l with
  | nil => rfl
  | cons a l ih => simp [ih]

theorem Built.matrix (hb : Built pl n w) (vals : List ℝ) (h : vals.length = w.keys.length) :
    (w.j.map Prod.fst).zip (w.storage vals) =
      Sparse.compress (keyIn pl w.keys) (fun k => vals.getD k.val 0) n := by
  rw [hb.storage vals h, hb.pattern fun k => vals.getD k.val 0, zip_fst_snd]

theorem tripletEntry_list (keys : List Sparse.Key) (vals : List ℝ) (h : vals.length = keys.length)
    (ij : Sparse.Key) :
    Sparse.tripletEntry (keyIn pl keys) (fun k => vals.getD k.val 0) (layout pl.transpose ij) =
      Sparse.storedEntry (keys.zip vals) ij := by
  unfold Sparse.tripletEntry Sparse.storedEntry keyIn
  simp only [layout_inj]
  rw [← Sparse.sum_map_nodup _ (List.nodup_finRange _) _ fun k hk => absurd (List.mem_finRange k) hk]
  congr 1
  apply List.ext_getElem
  · simp [h]
  · intro i h1 h2
    simp only [List.length_map, List.length_finRange] at h1
    have hi : i < vals.length := by omega
    simp [List.getElem?_eq_getElem hi]

theorem storedEntry_rescale (w : Workspace) (n : ℕ) (precond : ℕ → ℝ) (vals : List ℝ) (ij : Sparse.Key)
    (hi : ij.1 < n) :
    Sparse.storedEntry (w.keys.zip (w.rescale n precond vals)) ij =
      precond ij.1 * Sparse.storedEntry (w.keys.zip vals) ij := by
  unfold Workspace.rescale
  generalize w.keys = keys
  induction keys generalizing vals with
  | nil => simp [Sparse.storedEntry]
  | cons k keys ih =>
    cases vals with
    | nil => simp [Sparse.storedEntry]
    | cons v vals =>
      rw [List.zipWith_cons_cons, List.zip_cons_cons, List.zip_cons_cons, Sparse.storedEntry_cons,
        Sparse.storedEntry_cons, ih, mul_add]
      congr 1
      by_cases h : k = ij
      · subst h
        simp only [if_true, if_pos hi]
        ring
      · simp [h]

theorem rescale_length (w : Workspace) (n : ℕ) (precond : ℕ → ℝ) (vals : List ℝ)
    (h : vals.length = w.keys.length) : (w.rescale n precond vals).length = w.keys.length := by
  unfold Workspace.rescale
  simp [h]

theorem layout_lt (t : Bool) {ij : Sparse.Key} {n : ℕ} (h : ij.1 < n ∧ ij.2 < n) :
    (layout t ij).1 < n ∧ (layout t ij).2 < n := by
  unfold layout
  cases t
  · exact h
  · exact ⟨h.2, h.1⟩

theorem write_length (w : Workspace) (values : List ℝ) : (w.write values).length = w.vals.length := by
  unfold Workspace.write
  simp
  omega

theorem Built.write (hb : Built pl n w) (values : List ℝ) (h : values.length = w.keys.length) :
    w.write values = values := by
  unfold Workspace.write
  rw [List.take_of_length_le (by rw [h, hb.length]), List.drop_of_length_le (by rw [h, hb.length]),
    List.append_nil]

/-- The linear solve of a workspace that has been set up. -/
theorem Built.solve (hb : Built pl n w) (values : List ℝ) (precond : ℕ → ℝ) :
    Built pl n (w.solve pl n values precond).1 ∧ (w.solve pl n values precond).1.keys = w.keys ∧
    ∃ A, (w.solve pl n values precond).2 = some A ∧
      (w.solve pl n values precond).1.j.map (fun e => (layout pl.transpose e.1, e.2)) = A ∧
      (A.map Prod.fst).Nodup ∧ (∀ e ∈ A, e.1.1 < n ∧ e.1.2 < n) ∧
      ∀ ij : Sparse.Key, ij.1 < n → ij.2 < n →
        Sparse.storedEntry A ij = precond ij.1 * Sparse.storedEntry (w.keys.zip (w.write values)) ij := by
  have h : (w.write values).length = w.keys.length := by rw [write_length, hb.length]
  generalize hv : w.write values = vals at h
  have hl := rescale_length w n precond vals h
  have hm := hb.matrix _ hl
  have hj : (w.solve pl n values precond).1.j =
      Sparse.compress (keyIn pl w.keys) (fun k => (w.rescale n precond vals).getD k.val 0) n := by
    unfold Workspace.solve
    simp only [hv]
    exact hm
  refine ⟨⟨hb.nonempty, ?_, ⟨_, congrArg _ hj⟩, hb.mapping, ?_⟩, rfl,
    (Sparse.compress (keyIn pl w.keys) (fun k => (w.rescale n precond vals).getD k.val 0) n).map
      fun e => (layout pl.transpose e.1, e.2), ?_, by rw [hj], ?_, ?_, fun ij hi hjn => ?_⟩
  · unfold Workspace.solve
    simp only [hv]
    exact hl
  · rw [hj]
    show w.solver = _
    rw [hb.solver, hb.pattern]
  · unfold Workspace.solve
    simp only [hv, hb.solver, Option.map_some]
    rw [hm]
  · have hs := Sparse.compress_sorted (keyIn pl w.keys)
      (fun k => (w.rescale n precond vals).getD k.val 0) n
    rw [List.map_map]
    rw [List.nodup_map_iff_inj_on]
    · intro a ha b hb' hab
      simp only [Function.comp_apply] at hab
      have hab := (layout_inj _).1 hab
      by_contra hne
      rcases List.pairwise_iff_getElem.1 hs with hs
      obtain ⟨i, hi, rfl⟩ := List.getElem_of_mem ha
      obtain ⟨k, hk, rfl⟩ := List.getElem_of_mem hb'
      rcases lt_trichotomy i k with h | h | h
      · have := hs i k hi hk h
        rw [hab] at this
        unfold Sparse.keyLt at this
        omega
      · subst h; exact hne rfl
      · have := hs k i hk hi h
        rw [hab] at this
        unfold Sparse.keyLt at this
        omega
    · exact hs.imp fun {a b} h hab => by
        rw [hab] at h
        unfold Sparse.keyLt at h
        omega
  · intro e he
    obtain ⟨e', he', rfl⟩ := List.mem_map.1 he
    exact layout_lt _ ((Sparse.compress_stored_iff _ _ n e'.1).1 ⟨e', he', rfl⟩).1
  · rw [storedEntry_layout, Sparse.compress_entry _ _ _ _ (layout_lt _ ⟨hi, hjn⟩),
      tripletEntry_list _ _ hl, storedEntry_rescale _ _ _ _ _ hi]

/-- The product with the stored matrix. -/
theorem mul_entry (w : Workspace) (pl : Platform) (n : ℕ) (p : ℕ → ℝ) (i : ℕ)
    (h : ∀ e ∈ w.j, (layout pl.transpose e.1).2 < n) :
    w.mul pl p i = ∑ j ∈ Finset.range n,
      Sparse.storedEntry (w.j.map fun e => (layout pl.transpose e.1, e.2)) (i, j) * p j := by
  unfold Workspace.mul
  generalize w.j = l at h
  induction l with
  | nil => simp [Sparse.storedEntry]
  | cons e l ih =>
    have ih := ih fun e he => h e (List.mem_cons_of_mem _ he)
    have he := h e List.mem_cons_self
    simp only [List.map_cons, Sparse.storedEntry_cons, add_mul, Finset.sum_add_distrib, ← ih]
    rw [List.filter_cons]
    by_cases hr : (layout pl.transpose e.1).1 = i
    · simp only [hr, decide_true, if_true, List.map_cons, List.sum_cons]
      congr 1
      rw [Finset.sum_eq_single (layout pl.transpose e.1).2]
      · rw [if_pos (show layout pl.transpose e.1 = (i, (layout pl.transpose e.1).2) from Prod.ext hr rfl)]
      · intro j _ hj
        rw [if_neg fun h => hj (by rw [h]), zero_mul]
      · intro hj
        exact absurd (Finset.mem_range.2 he) hj
    · simp only [hr, decide_false, Bool.false_eq_true, if_false]
      rw [Finset.sum_eq_zero, zero_add]
      intro j _
      rw [if_neg fun h => hr (by rw [h]), zero_mul]

end Softy.DirectSolve
