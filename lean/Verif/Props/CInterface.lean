import Verif.Model.CInterface
import Mathlib.Tactic.Linarith
import Mathlib.Tactic.NormNum

/-!
# C127: the C interface gives what the library gives
-/

namespace Softy.CInterface

theorem toInt_small {n : ℕ} (h : n < 2 ^ 31) : toInt n = n := by
  unfold toInt
  omega

theorem toUsize_small {n : ℕ} (h : n < 2 ^ 31) : toUsize n = n := by
  unfold toUsize
  omega

/-! ## Meshes -/

/-- An array with three numbers for each item. -/
def flat {α : Type} (l : List (α × α × α)) : List α := l.flatMap fun p => [p.1, p.2.1, p.2.2]

theorem triples_flat {α : Type} (l : List (α × α × α)) (rest : List α) (hr : rest.length < 3) :
    triples (flat l ++ rest) = l := by
  induction l with
  | nil =>
    match rest, hr with
    | [], _ => rfl
    | [_], _ => rfl
    | [_, _], _ => rfl
  | cons p l ih => simpa [flat, triples] using ih

theorem flat_length {α : Type} (l : List (α × α × α)) : (flat l).length = 3 * l.length := by
  induction l with
  | nil => rfl
  | cons p l ih =>
    simp only [flat, List.flatMap_cons, List.length_append, List.length_cons, List.length_nil] at ih ⊢
    omega

/-- C127. The mesh has the positions and the triangles of the arrays. -/
theorem mesh_exact (points : List (ℝ × ℝ × ℝ)) (tris : List (ℕ × ℕ × ℕ))
    (h : ∀ t ∈ tris, t.1 < 2 ^ 31 ∧ t.2.1 < 2 ^ 31 ∧ t.2.2 < 2 ^ 31) :
    createMesh (flat points) ((flat tris).map fun n : ℕ => (n : ℤ)) = some ⟨points, tris⟩ := by
  have h1 : triples (flat points) = points := by
    have := triples_flat points [] (by simp)
    rwa [List.append_nil] at this
  have h2 : (triples ((flat tris).map fun n : ℕ => (n : ℤ))).map
      (fun f => (toUsize f.1, toUsize f.2.1, toUsize f.2.2)) = tris := by
    induction tris with
    | nil => rfl
    | cons t l ih =>
      have ht := h t List.mem_cons_self
      have := ih fun q hq => h q (List.mem_cons_of_mem _ hq)
      simp only [flat, List.flatMap_cons, List.map_append, List.map_cons, List.map_nil, List.cons_append,
        List.nil_append, triples] at this ⊢
      rw [this, toUsize_small ht.1, toUsize_small ht.2.1, toUsize_small ht.2.2]
  rw [createMesh, if_pos (by rw [flat_length]; omega), h1, h2]

/-- C127 is false: an array of indices whose size is no multiple of three is accepted, and the last one or two
indices are dropped; an array of coordinates like this is refused. -/
theorem mesh_dropped_violated (points : List (ℝ × ℝ × ℝ)) (tris : List (ℤ × ℤ × ℤ)) (rest : List ℤ)
    (hr : rest.length < 3) (c : ℝ) :
    createMesh (flat points) (flat tris ++ rest) = createMesh (flat points) (flat tris) ∧
      (createMesh (flat points) (flat tris)).isSome ∧ createMesh (flat points ++ [c]) (flat tris) = none := by
  have h0 : triples (flat tris) = tris := by
    have := triples_flat tris [] (by simp)
    rwa [List.append_nil] at this
  have hl : (flat points).length % 3 = 0 := by rw [flat_length]; omega
  refine ⟨?_, ?_, ?_⟩
  · rw [createMesh, createMesh, triples_flat tris rest hr, h0]
  · rw [createMesh, if_pos hl]
    rfl
  · rw [createMesh, if_neg]
    rw [List.length_append, List.length_singleton]
    omega

/-- C127 is false: a negative index is accepted and becomes one that no array has. -/
theorem mesh_negative_violated (points : List (ℝ × ℝ × ℝ)) (a b : ℕ) (ha : a < 2 ^ 31) (hb : b < 2 ^ 31) :
    createMesh (flat points) [a, b, -1] = some ⟨points, [(a, b, 2 ^ 64 - 1)]⟩ := by
  have h1 : triples (flat points) = points := by
    have := triples_flat points [] (by simp)
    rwa [List.append_nil] at this
  rw [createMesh, if_pos (by rw [flat_length]; omega), h1]
  simp only [triples, List.map_cons, List.map_nil, toUsize_small ha, toUsize_small hb]
  rfl

/-! ## Sparse matrices -/

/-- The entries fit the integers of the interface. -/
def Small (entries : List (ℕ × ℕ)) : Prop := ∀ e ∈ entries, e.1 < 2 ^ 31 ∧ e.2 < 2 ^ 31

theorem write_eq (rows cols : List ℤ) (l : List (ℕ × ℕ)) (hl : Small l) (hc : cols.length = rows.length) :
    writeIndices rows cols l =
      (((l.take rows.length).map fun e => (e.1 : ℤ)) ++ rows.drop l.length,
        ((l.take rows.length).map fun e => (e.2 : ℤ)) ++ cols.drop l.length) := by
  induction l generalizing rows cols with
  | nil => cases rows <;> cases cols <;> simp [writeIndices]
  | cons e l ih =>
    cases rows with
    | nil =>
      have : cols = [] := List.eq_nil_of_length_eq_zero (by simpa using hc)
      simp [this, writeIndices]
    | cons r rows =>
      cases cols with
      | nil => simp at hc
      | cons c cols =>
        have he := hl e List.mem_cons_self
        rw [writeIndices, ih rows cols (fun q hq => hl q (List.mem_cons_of_mem _ hq)) (by simpa using hc)]
        simp [toInt_small he.1, toInt_small he.2]

theorem write_exact (rows cols : List ℤ) (l : List (ℕ × ℕ)) (hl : Small l) (hr : rows.length = l.length)
    (hc : cols.length = l.length) :
    writeIndices rows cols l = (l.map fun e => (e.1 : ℤ), l.map fun e => (e.2 : ℤ)) := by
  rw [write_eq rows cols l hl (by omega), hr, List.take_length, ← hr, List.drop_length, hr, ← hc,
    List.drop_length, List.append_nil, List.append_nil]

/-- C127. Arrays of the size that is reported for a Jacobian get all of its rows and columns. -/
theorem jacobian_protocol (entries : List (ℕ × ℕ)) (hs : Small entries) (hn : entries.length < 2 ^ 31)
    (rows cols : List ℤ) (hr : (rows.length : ℤ) = numEntries entries)
    (hc : (cols.length : ℤ) = numEntries entries) :
    jacobianIndices entries rows cols =
      (0, entries.map fun e => (e.1 : ℤ), entries.map fun e => (e.2 : ℤ)) := by
  rw [numEntries, toInt_small hn] at hr hc
  rw [jacobianIndices, write_exact rows cols entries hs (by exact_mod_cast hr) (by exact_mod_cast hc)]

/-- C127. Arrays of the size that is reported for a Hessian get all of its rows and columns, or the call
fails because there is no Hessian. -/
theorem hessian_protocol (entries : Option (List (ℕ × ℕ))) (hs : ∀ l ∈ entries, Small l ∧ l.length < 2 ^ 31)
    (rows cols : List ℤ) (hr : (rows.length : ℤ) = numHessian entries)
    (hc : (cols.length : ℤ) = numHessian entries) :
    (∃ l, entries = some l ∧ hessianIndices entries rows cols =
        (0, l.map fun e => (e.1 : ℤ), l.map fun e => (e.2 : ℤ))) ∨
      (entries = none ∧ hessianIndices entries rows cols = (1, [], [])) := by
  cases entries with
  | none =>
    right
    have h0 : numHessian none = 0 := by decide
    rw [h0] at hr hc
    have h1 : rows = [] := List.eq_nil_of_length_eq_zero (by exact_mod_cast hr)
    have h2 : cols = [] := List.eq_nil_of_length_eq_zero (by exact_mod_cast hc)
    exact ⟨rfl, by rw [hessianIndices, h1, h2]⟩
  | some l =>
    left
    obtain ⟨h1, h2⟩ := hs l rfl
    have h0 : numHessian (some l) = l.length := toInt_small h2
    rw [h0] at hr hc
    exact ⟨l, rfl, by
      rw [hessianIndices, write_exact rows cols l h1 (by exact_mod_cast hr) (by exact_mod_cast hc)]⟩

/-- C127 is false: with arrays of another size, the functions report success. Arrays that are too small get
the first entries only. What is in arrays that are too large beyond the entries stays and looks like
entries. -/
theorem size_violated (entries : List (ℕ × ℕ)) (hs : Small entries) (rows cols : List ℤ)
    (hc : cols.length = rows.length) :
    (jacobianIndices entries rows cols).1 = 0 ∧
      (rows.length < entries.length →
        (jacobianIndices entries rows cols).2.1 = (entries.take rows.length).map fun e => (e.1 : ℤ)) ∧
      (entries.length < rows.length → (jacobianIndices entries rows cols).2.1 =
        (entries.map fun e => (e.1 : ℤ)) ++ rows.drop entries.length) := by
  refine ⟨rfl, fun h => ?_, fun h => ?_⟩
  · rw [jacobianIndices, write_eq rows cols entries hs hc, List.drop_eq_nil_of_le h.le, List.append_nil]
  · rw [jacobianIndices, write_eq rows cols entries hs hc, List.take_of_length_le h.le]

/-- C127 is false: the size of a matrix with more entries than fit an integer is wrong. With 2³² entries it is
reported to be empty. -/
theorem large_violated : ∃ entries : List (ℕ × ℕ), Small entries ∧ entries.length = 2 ^ 32 ∧
    numEntries entries = 0 ∧ jacobianIndices entries [] [] = (0, [], []) := by
  refine ⟨List.replicate (2 ^ 32) (0, 0), fun e he => ?_, List.length_replicate, ?_, ?_⟩
  · rw [List.eq_of_mem_replicate he]
    norm_num
  · rw [numEntries, List.length_replicate]
    decide
  · rw [jacobianIndices, writeIndices]
    intro _ _ _ _ _ _ h
    simp at h

/-! ## Neighborhoods -/

theorem number_get (sizes : List ℕ) (i : ℕ) (hi : i + sizes.length < 2 ^ 31) (k : ℕ) (hk : k < sizes.length) :
    (number i sizes)[k]? = some (if sizes[k] = 0 then (-1 : ℤ)
      else ((i + (sizes.take k).countP (fun s => s ≠ 0) : ℕ) : ℤ)) := by
  induction sizes generalizing i k with
  | nil => simp at hk
  | cons s l ih =>
    simp only [List.length_cons] at hi hk
    by_cases hs : s = 0
    · cases k with
      | zero => simp [number, hs]
      | succ k =>
        have := ih i (by omega) k (by omega)
        simpa [number, hs] using this
    · cases k with
      | zero => simp [number, hs, toInt_small (show i < 2 ^ 31 by omega)]
      | succ k =>
        have := ih (i + 1) (by omega) k (by omega)
        simp only [number, ne_eq, hs, not_false_eq_true, if_true, List.getElem?_cons_succ,
          List.getElem_cons_succ, List.take_succ_cons]
        rw [this]
        by_cases hk0 : l[k]'(by omega) = 0
        · rw [if_pos hk0, if_pos hk0]
        · rw [if_neg hk0, if_neg hk0, List.countP_cons_of_pos (by simp [hs])]
          congr 2
          simp only [ne_eq]
          omega

theorem number_length (i : ℕ) (sizes : List ℕ) : (number i sizes).length = sizes.length := by
  induction sizes generalizing i with
  | nil => rfl
  | cons s l ih =>
    rw [number]
    split_ifs <;> simp [ih]

/-- C127. Query points with neighbors are numbered in order, from zero and without gaps, and the others get
-1. -/
theorem neighborhood_numbers (sizes : List ℕ) (h : sizes.length < 2 ^ 31) :
    ∃ out, neighborhoodIndices sizes.length sizes = some out ∧ out.length = sizes.length ∧
      ∀ (k : ℕ) (hk : k < sizes.length), out[k]? = some (if sizes[k] = 0 then (-1 : ℤ)
        else (((sizes.take k).countP (fun s => s ≠ 0) : ℕ) : ℤ)) := by
  refine ⟨number 0 sizes, by rw [neighborhoodIndices, if_pos rfl], number_length 0 sizes, fun k hk => ?_⟩
  have := number_get sizes 0 (by omega) k hk
  rwa [Nat.zero_add] at this

/-- C127. An array of another size is refused. -/
theorem neighborhood_refused (num : ℕ) (sizes : List ℕ) (h : num ≠ sizes.length) :
    neighborhoodIndices num sizes = none := if_neg h

/-! ## Handles -/

/-- A client as in the test of the interface, which looks at no handle but that of the topology before it is
used: it creates a mesh, a surface and a topology, frees the mesh, computes what it wants, and frees the
topology. -/
def session (h : Heap) (ok : Bool) (uses : ℕ) : Option Heap := do
  let m := h.createTrimesh
  let s ← m.2.createSurface m.1 ok
  let q ← s.2.queryTopology s.1
  let h' ← q.2.free .mesh m.1
  if q.1.isSome then (List.replicate uses ()).forM fun _ => h'.compute q.1
  h'.free .topo q.1

theorem forM_some (l : List Unit) (f : Unit → Option Unit) (hf : ∀ u, f u = some ()) :
    forM l f = some () := by
  induction l with
  | nil => rfl
  | cons u l ih =>
    rw [List.forM_cons, hf]
    exact ih

/-- C127. The client uses no memory that is not its own and leaves none behind, if the surface can be built and
if it cannot. -/
theorem session_clean (h : Heap) (ok : Bool) (uses : ℕ) :
    ∃ h', session h ok uses = some h' ∧ h'.live = h.live := by
  cases ok with
  | false =>
    refine ⟨⟨h.live, h.next + 1⟩, ?_, rfl⟩
    simp [session, Heap.createTrimesh, Heap.createSurface, Heap.alloc, Heap.deref, Heap.queryTopology, Heap.free,
      Heap.take]
  | true =>
    refine ⟨⟨h.live, h.next + 3⟩, ?_, rfl⟩
    have e : ((h.next + 2, Kind.topo) :: (h.next, Kind.mesh) :: h.live).erase (h.next, Kind.mesh) =
        (h.next + 2, Kind.topo) :: h.live := by
      rw [List.erase_cons_tail (by simp), List.erase_cons_head]
    simp [session, Heap.createTrimesh, Heap.createSurface, Heap.alloc, Heap.deref, Heap.queryTopology, Heap.free,
      Heap.take, Heap.compute, e]
    rw [forM_some _ _ fun _ => rfl]
    rfl

/-- C127 is false: that no surface could be built is not reported by functions that return zero on success.
The topology of a null surface is null, and to use it is undefined. -/
theorem null_violated (h : Heap) :
    ∃ m s q h1 h2, h.createTrimesh = (m, h1) ∧ h1.createSurface m false = some (s, h2) ∧
      h2.queryTopology s = some (q, h2) ∧ h2.compute q = none := by
  refine ⟨_, none, none, _, h.createTrimesh.2, rfl, ?_, rfl, rfl⟩
  simp [Heap.createTrimesh, Heap.createSurface, Heap.alloc, Heap.deref]

/-- C127. The topology takes the surface: to free or use the surface after is undefined, as the documentation
says. -/
theorem surface_taken (h : Heap) (a : ℕ) (q : Option ℕ) (h' : Heap) (hd : h.live.Nodup)
    (hq : h.queryTopology (some a) = some (q, h')) :
    h'.free .surface (some a) = none ∧ h'.queryTopology (some a) = none ∧
      ∃ t, q = some t ∧ h'.compute q = some () := by
  simp only [Heap.queryTopology, Heap.take] at hq
  split_ifs at hq with hm
  · simp only [Option.map_some, Option.some.injEq, Prod.mk.injEq, Heap.alloc] at hq
    obtain ⟨rfl, rfl⟩ := hq
    have hn : (a, Kind.surface) ∉ h.live.erase (a, Kind.surface) := hd.not_mem_erase
    refine ⟨?_, ?_, _, rfl, ?_⟩
    · simp [Heap.free, Heap.take, hn]
    · simp [Heap.queryTopology, Heap.take, hn]
    · simp [Heap.compute, Heap.deref]
  · simp at hq

/-! ## The hypotheses are met -/

example : createMesh (flat [(0, 0, 0), (1, 0, 0), (0, 1, 0)]) ((flat [(0, 1, 2)]).map fun n : ℕ => (n : ℤ)) =
    some ⟨[(0, 0, 0), (1, 0, 0), (0, 1, 0)], [(0, 1, 2)]⟩ :=
  mesh_exact _ _ (by simp)

example : Small [(0, 3), (0, 4), (1, 3)] ∧ ((([7, 7, 7] : List ℤ).length : ℕ) : ℤ) =
    numEntries [(0, 3), (0, 4), (1, 3)] := by
  refine ⟨fun e he => ?_, by decide⟩
  simp only [List.mem_cons, List.not_mem_nil, or_false] at he
  rcases he with rfl | rfl | rfl <;> norm_num

example : neighborhoodIndices 5 [0, 3, 0, 2, 9] = some [-1, 0, -1, 1, 2] := by decide

example : ∃ (h : Heap) (a : ℕ), h.live.Nodup ∧ (h.queryTopology (some a)).isSome :=
  ⟨⟨[(3, .surface), (1, .mesh)], 4⟩, 3, by decide, by decide⟩

end Softy.CInterface
