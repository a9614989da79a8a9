import Verif.Model.ImplicitNode
import Verif.Props.FieldMesh

/-!
# C128: the node for implicit surfaces reports what it did
-/

noncomputable section

namespace Softy.ImplicitNode

open Softy

/-- C128. If it is not interrupted, the node succeeds, and each query point has the potential of the surface, for
every order in which threads handle points. -/
theorem node_potential_partial (overwrite : Bool) (T : Field.Topo) (qs : List (V3 ℝ)) (attr : Attr)
    (hv : T.views.length = qs.length) (ha : (initial qs.length attr).length = qs.length) (poll : ℕ → Bool)
    (hp : ∀ m < qs.length, poll m = false) (order : List ℕ) (ho : order.Perm (List.range qs.length)) :
    ∃ out, potential overwrite (some (.mls T)) poll order qs attr = some (.success, .numbers out) ∧
      out.length = qs.length ∧
      ∀ i < qs.length, ∃ v, out[i]? = some v ∧ Field.IsPotentialOf T qs (initial qs.length attr) i v := by
  have hn : T.numTasks qs = qs.length := by
    unfold Field.Topo.numTasks
    omega
  obtain ⟨out, h1, h2, h3, -⟩ := Field.potential_values (T := T) (qs := qs)
    (field := initial qs.length attr) (by omega) (by omega)
  have hl : order.length = qs.length := by rw [ho.length_eq, List.length_range]
  have h4 := Field.potential_par_eq (T := T) (qs := qs) (field := initial qs.length attr) poll order
    (by rw [hn]; exact ho) (by rw [hl]; exact hp)
  refine ⟨out, ?_, by omega, h3⟩
  rw [potential, h4, h1]
  rfl

/-- C128 is false: an interrupted node reports success. The points whose turn came when it was interrupted keep the
values they had, or zeros. -/
theorem interrupted_violated (overwrite : Bool) (T : Field.Topo) (qs : List (V3 ℝ)) (attr : Attr)
    (hv : T.views.length = qs.length) (ha : (initial qs.length attr).length = qs.length) (poll : ℕ → Bool)
    (order : List ℕ) (ho : order.Perm (List.range qs.length)) :
    ∃ out, potential overwrite (some (.mls T)) poll order qs attr = some (.success, .numbers out) ∧
      ∀ m i, order[m]? = some i → poll m = true → out[i]? = (initial qs.length attr)[i]? := by
  have hn : T.numTasks qs = qs.length := by
    unfold Field.Topo.numTasks
    omega
  obtain ⟨out, ok, h1, -, -, h4, -⟩ := Field.potential_par_interrupt (T := T) (qs := qs)
    (field := initial qs.length attr) (by omega) (by omega) poll order (by rw [hn]; exact ho)
  refine ⟨out, ?_, h4⟩
  rw [potential, h1]
  rfl

/-- C128 is false: the potential of an HRBF surface never reaches the user. The node fails, or it reports success
and the points have the values they had, or zeros, whatever the surface. -/
theorem hrbf_violated (overwrite : Bool) (eval : V3 ℝ → ℝ) (poll : ℕ → Bool) (order : List ℕ) (qs : List (V3 ℝ))
    (attr : Attr) (r : Result) (a : Attr)
    (h : potential overwrite (some (.hrbf eval)) poll order qs attr = some (r, a)) :
    r = .error ∨ (r = .success ∧ a = .numbers (initial qs.length attr)) := by
  cases overwrite with
  | false =>
    simp only [potential, Option.some.injEq, Prod.mk.injEq, if_neg Bool.false_ne_true] at h
    exact Or.inl h.1.symm
  | true =>
    simp only [potential, Option.some.injEq, Prod.mk.injEq, if_true] at h
    exact Or.inr ⟨h.1.symm, h.2.symm⟩

/-- C128. If no surface can be built, the node fails and leaves the points as they are. -/
theorem no_surface (overwrite : Bool) (poll : ℕ → Bool) (order : List ℕ) (qs : List (V3 ℝ)) (attr : Attr)
    (below above : List (V3 ℝ) → List (V3 ℝ) × Bool) (b : Bool) :
    potential overwrite none poll order qs attr = some (.error, attr) ∧
      project false b below above qs = (.error, qs) := ⟨rfl, rfl⟩

/-- C128. The points are projected to the side that was asked for, and the node succeeds if and only if the projection
converged, and warns otherwise. -/
theorem project_reports (b : Bool) (below above : List (V3 ℝ) → List (V3 ℝ) × Bool) (qs : List (V3 ℝ)) :
    (project true true below above qs).2 = (below qs).1 ∧ (project true false below above qs).2 = (above qs).1 ∧
      ((project true b below above qs).1 = .success ↔ (if b then below qs else above qs).2 = true) ∧
      ((project true b below above qs).1 = .warning ↔ (if b then below qs else above qs).2 = false) := by
  refine ⟨rfl, rfl, ?_, ?_⟩ <;>
    · simp only [project, if_true]
      cases (if b = true then below qs else above qs).2 <;> simp [convert]

/-- C128. In debug mode the node succeeds if and only if it is not interrupted, and fails otherwise. -/
theorem debug_reports (M : Field.MeshSurface) (rnd : ℝ → ℝ) (poll : ℕ → Bool) (order : List ℕ) (qs : List (V3 ℝ))
    (attr : Field.PotentialAttrib) (ho : order.Perm (List.range qs.length)) :
    ((debugMls M rnd poll order qs attr).1 = .success ↔ ∀ m < qs.length, poll m = false) ∧
      ((debugMls M rnd poll order qs attr).1 = .error ↔ ∃ m < qs.length, poll m = true) := by
  have h := (Field.mesh_interrupt M rnd qs attr poll order ho).1
  have h2 : (∃ m < qs.length, poll m = true) ↔ ¬ (M.computeOnMesh rnd poll order qs attr).2 = true := by
    rw [h]
    push Not
    simp
  rw [h2, ← h]
  by_cases hb : (M.computeOnMesh rnd poll order qs attr).2 = true <;> simp [debugMls, convert, hb]

/-- C128. In debug mode the points get the potential of an HRBF surface. -/
theorem debug_hrbf (eval : V3 ℝ → ℝ) (poll : ℕ → Bool) (order : List ℕ) (qs : List (V3 ℝ))
    (ho : order.Perm (List.range qs.length)) (hp : ∀ m < qs.length, poll m = false) :
    (debugHrbf eval poll order qs).1 = .success ∧ (debugHrbf eval poll order qs).2 = qs.map eval := by
  have hl : order.length = qs.length := by rw [ho.length_eq, List.length_range]
  have hok : (hrbfLoop eval poll order qs).2 = true := by
    unfold hrbfLoop
    rw [Field.parLoop_ok, hl]
    simpa using hp
  refine ⟨by simp only [debugHrbf, hok]; rfl, List.ext_getElem? fun i => ?_⟩
  show (hrbfLoop eval poll order qs).1[i]? = _
  by_cases hi : i < qs.length
  · obtain ⟨m, hm⟩ := List.mem_iff_getElem?.1 (ho.mem_iff.2 (List.mem_range.2 hi))
    have hlt := (List.getElem?_eq_some_iff.1 hm).1
    unfold hrbfLoop
    rw [Field.parLoop_task _ _ order 0 _ (ho.nodup_iff.2 List.nodup_range) m i hm, Nat.zero_add,
      hp m (by omega)]
    simp [List.getElem?_replicate, hi]
  · rw [List.getElem?_eq_none, List.getElem?_eq_none]
    · simpa using hi
    · unfold hrbfLoop
      rw [Field.parLoop_length]
      simpa using hi

/-- C128. In debug mode the node says for an HRBF surface too if it was interrupted, and every point has its
potential or zero: the potential if the check before it did not interrupt, zero if it did. -/
theorem debug_hrbf_reports (eval : V3 ℝ → ℝ) (poll : ℕ → Bool) (order : List ℕ) (qs : List (V3 ℝ))
    (ho : order.Perm (List.range qs.length)) :
    ((debugHrbf eval poll order qs).1 = .error ↔ ∃ m < qs.length, poll m = true) ∧
      ((debugHrbf eval poll order qs).1 = .success ↔ ∀ m < qs.length, poll m = false) ∧
      ∀ (m i : ℕ) (q : V3 ℝ), order[m]? = some i → qs[i]? = some q →
        (debugHrbf eval poll order qs).2[i]? = some (if poll m then 0 else eval q) := by
  have hl : order.length = qs.length := by rw [ho.length_eq, List.length_range]
  have h : (hrbfLoop eval poll order qs).2 = true ↔ ∀ m < qs.length, poll m = false := by
    unfold hrbfLoop
    rw [Field.parLoop_ok, hl]
    simp
  have h2 : (∃ m < qs.length, poll m = true) ↔ ¬ (hrbfLoop eval poll order qs).2 = true := by
    rw [h]
    push Not
    simp
  refine ⟨?_, ?_, fun m i q hm hq => ?_⟩
  · rw [h2]
    by_cases hb : (hrbfLoop eval poll order qs).2 = true <;> simp [debugHrbf, convert, hb]
  · rw [← h]
    by_cases hb : (hrbfLoop eval poll order qs).2 = true <;> simp [debugHrbf, convert, hb]
  · show (hrbfLoop eval poll order qs).1[i]? = _
    have hi := (List.getElem?_eq_some_iff.1 hq).1
    have hqe := (List.getElem?_eq_some_iff.1 hq).2
    unfold hrbfLoop
    rw [Field.parLoop_task _ _ order 0 _ (ho.nodup_iff.2 List.nodup_range) m i hm, Nat.zero_add]
    cases poll m <;> simp [List.getElem?_replicate, hi, hqe]

/-! ## The hypotheses are met -/

/-- Any surface, queried at two points, one of which has a neighbor. -/
example (S : Field.Samples) (k : Kernel.Kern) (P : Field.BgParams) (p q : V3 ℝ) :
    let T : Field.Topo := ⟨S, k, P, [[0], []]⟩
    T.views.length = [p, q].length ∧ (initial [p, q].length (.numbers [3, 4])).length = [p, q].length ∧
      (initial [p, q].length .missing).length = [p, q].length ∧ [1, 0].Perm (List.range [p, q].length) :=
  ⟨rfl, rfl, rfl, List.Perm.swap 0 1 []⟩

/-- An HRBF surface with potential one everywhere: the point has zero, or the node fails. -/
example (p : V3 ℝ) (r : Result) (l : List ℝ)
    (h : potential true (some (.hrbf fun _ => 1)) (fun _ => false) [0] [p] .missing = some (r, .numbers l)) :
    r = .success ∧ l = [0] := by
  simp only [potential, initial, if_true, Option.some.injEq, Prod.mk.injEq, Attr.numbers.injEq] at h
  exact ⟨h.1.symm, h.2.symm⟩

end Softy.ImplicitNode
