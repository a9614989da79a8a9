import Verif.Model.FieldMesh
import Verif.Props.FieldSurface

/-!
# Potentials at many points

Property C94. The function `interrupt` may be any function with state: `poll n` is its answer to call `n`. The order of
calls is any order of the query points, as threads make them.
-/

noncomputable section

namespace Softy.Field

open Softy Softy.Kernel

/-! ## Parallel loops -/

section Loop

variable {α : Type} (f : ℕ → α → α) (poll : ℕ → Bool)

theorem parLoop_length : ∀ (order : List ℕ) (n : ℕ) (s : List α), (parLoop f poll n order s).1.length = s.length
  | [], _, _ => rfl
  | i :: l, n, s => by
    unfold parLoop
    split
    · exact parLoop_length l _ s
    · rw [parLoop_length l]
      exact List.length_modify ..

theorem parLoop_other : ∀ (order : List ℕ) (n : ℕ) (s : List α) (i : ℕ), i ∉ order →
    (parLoop f poll n order s).1[i]? = s[i]?
  | [], _, _, _, _ => rfl
  | j :: l, n, s, i, hi => by
    rw [List.mem_cons, not_or] at hi
    unfold parLoop
    split
    · exact parLoop_other l _ s i hi.2
    · rw [parLoop_other l _ _ i hi.2, List.getElem?_modify]
      simp only [if_neg (Ne.symm hi.1)]
      cases s[i]? <;> rfl

theorem parLoop_task : ∀ (order : List ℕ) (n : ℕ) (s : List α), order.Nodup → ∀ (m i : ℕ), order[m]? = some i →
    (parLoop f poll n order s).1[i]? = if poll (n + m) then s[i]? else s[i]?.map (f i)
  | [], _, _, _, _, _, h => by simp at h
  | j :: l, n, s, hn, 0, i, h => by
    obtain ⟨hj, -⟩ := List.nodup_cons.1 hn
    simp only [List.getElem?_cons_zero, Option.some.injEq] at h
    subst h
    unfold parLoop
    rw [add_zero]
    split
    · exact parLoop_other f poll l _ s j hj
    · rw [parLoop_other f poll l _ _ j hj, List.getElem?_modify]
      simp only [if_true]
      rfl
  | j :: l, n, s, hn, m + 1, i, h => by
    obtain ⟨hj, hl⟩ := List.nodup_cons.1 hn
    rw [List.getElem?_cons_succ] at h
    have hne : j ≠ i := fun e => hj (e ▸ List.mem_of_getElem? h)
    have e : n + (m + 1) = n + 1 + m := by omega
    unfold parLoop
    rw [e]
    split
    · exact parLoop_task l _ s hl m i h
    · rw [parLoop_task l _ _ hl m i h, List.getElem?_modify]
      simp only [if_neg hne]
      cases s[i]? <;> rfl

theorem parLoop_ok : ∀ (order : List ℕ) (n : ℕ) (s : List α),
    (parLoop f poll n order s).2 = true ↔ ∀ m < order.length, poll (n + m) = false
  | [], _, _ => by simp [parLoop]
  | j :: l, n, s => by
    unfold parLoop
    split
    · rename_i h
      refine ⟨fun h => by simp at h, fun h' => ?_⟩
      have := h' 0 (by simp)
      rw [add_zero, h] at this
      cases this
    · rename_i h
      rw [parLoop_ok l]
      constructor
      · intro h' m hm
        cases m with
        | zero => simpa using h
        | succ m =>
          have := h' m (by simpa using hm)
          rwa [show n + (m + 1) = n + 1 + m by omega]
      · intro h' m hm
        have := h' (m + 1) (by simpa using hm)
        rwa [show n + (m + 1) = n + 1 + m by omega] at this

end Loop

/-! ## Queries -/

variable (T : Topo) (qs : List (V3 ℝ)) (field : List ℝ)

/-- Specification: the potential at query point `i`, whose value was `old` before; `none` if it has no
neighborhood or no place for its value. -/
def IsPotentialOf (T : Topo) (qs : List (V3 ℝ)) (field : List ℝ) (i : ℕ) (v : ℝ) : Prop :=
  ∃ q view old, qs[i]? = some q ∧ T.views[i]? = some view ∧ field[i]? = some old ∧
    v = potentialAt q view T.S T.k T.P old

/-- C94: a query computes the potential at each of the points, and leaves other values. -/
theorem potential_values (hl : T.views.length = field.length) (hq : qs.length ≤ field.length) :
    ∃ out, T.potential qs field = some out ∧ out.length = field.length ∧
      (∀ i < qs.length, ∃ v, out[i]? = some v ∧ IsPotentialOf T qs field i v) ∧
      ∀ i, qs.length ≤ i → out[i]? = field[i]? := by
  refine ⟨_, if_pos hl, List.length_mapIdx, fun i hi => ?_, fun i hi => ?_⟩
  · have hv : i < T.views.length := by omega
    have hf : i < field.length := by omega
    refine ⟨_, ?_, qs[i], T.views[i], field[i], List.getElem?_eq_getElem hi, List.getElem?_eq_getElem hv,
      List.getElem?_eq_getElem hf, rfl⟩
    rw [List.getElem?_mapIdx, List.getElem?_eq_getElem hf]
    simp only [Option.map_some, Topo.task, List.getElem?_eq_getElem hi, List.getElem?_eq_getElem hv]
  · rw [List.getElem?_mapIdx]
    have : T.task qs i = id := by
      funext old
      unfold Topo.task
      rw [List.getElem?_eq_none hi]
      rfl
    rw [this, Option.map_id]
    rfl

/-- Queries fail, and panic, only if the values are not as many as the points that the query was made for. -/
theorem potential_panics (hl : T.views.length ≠ field.length) (poll : ℕ → Bool) (order : List ℕ) :
    T.potential qs field = none ∧ T.potentialPar poll order qs field = none :=
  ⟨if_neg hl, if_neg hl⟩

/-- C94: whatever the order of tasks and the answers of `interrupt`, a parallel query fails if and only if a call of
`interrupt` answered `true`; the points whose call answered `false` get their potential, and other values are left as
they were. -/
theorem potential_par_interrupt (hl : T.views.length = field.length) (hq : qs.length ≤ field.length)
    (poll : ℕ → Bool) (order : List ℕ) (ho : order.Perm (List.range (T.numTasks qs))) :
    ∃ out ok, T.potentialPar poll order qs field = some (out, ok) ∧
      (ok = true ↔ ∀ m < qs.length, poll m = false) ∧
      (∀ m i, order[m]? = some i → poll m = false → ∃ v, out[i]? = some v ∧ IsPotentialOf T qs field i v) ∧
      (∀ m i, order[m]? = some i → poll m = true → out[i]? = field[i]?) ∧
      ∀ i, qs.length ≤ i → out[i]? = field[i]? := by
  have hnum : T.numTasks qs = qs.length := by unfold Topo.numTasks; omega
  have hnd : order.Nodup := ho.nodup_iff.2 List.nodup_range
  have hlen : order.length = qs.length := by rw [ho.length_eq, List.length_range, hnum]
  have hmem : ∀ i, i ∈ order ↔ i < qs.length := fun i => by rw [ho.mem_iff, List.mem_range, hnum]
  refine ⟨_, _, if_pos hl, ?_, fun m i hm hp => ?_, fun m i hm hp => ?_, fun i hi => ?_⟩
  · rw [parLoop_ok, hlen]
    simp
  · have hi : i < qs.length := (hmem i).1 (List.mem_of_getElem? hm)
    have hv : i < T.views.length := by omega
    have hf : i < field.length := by omega
    refine ⟨_, ?_, qs[i], T.views[i], field[i], List.getElem?_eq_getElem hi, List.getElem?_eq_getElem hv,
      List.getElem?_eq_getElem hf, rfl⟩
    rw [parLoop_task _ _ _ _ _ hnd m i hm, zero_add, hp, if_neg (by simp), List.getElem?_eq_getElem hf]
    simp only [Option.map_some, Topo.task, List.getElem?_eq_getElem hi, List.getElem?_eq_getElem hv]
  · rw [parLoop_task _ _ _ _ _ hnd m i hm, zero_add, hp, if_pos rfl]
  · exact parLoop_other _ _ _ _ _ _ fun h => by have := (hmem i).1 h; omega

/-- C94: parallel queries that are not interrupted give the result of sequential ones. -/
theorem potential_par_eq (poll : ℕ → Bool) (order : List ℕ) (ho : order.Perm (List.range (T.numTasks qs)))
    (hp : ∀ m < order.length, poll m = false) :
    T.potentialPar poll order qs field = (T.potential qs field).map fun out => (out, true) := by
  unfold Topo.potentialPar Topo.potential
  split
  · have hnd : order.Nodup := ho.nodup_iff.2 List.nodup_range
    rw [Option.map_some]
    congr 1
    refine Prod.ext (List.ext_getElem? fun i => ?_) ((parLoop_ok _ _ _ _ _).2 fun m hm => by
      rw [zero_add]; exact hp m hm)
    dsimp only
    rw [List.getElem?_mapIdx]
    by_cases hi : i ∈ order
    · obtain ⟨m, hm⟩ := List.mem_iff_getElem?.1 hi
      have hml : m < order.length := (List.getElem?_eq_some_iff.1 hm).1
      rw [parLoop_task _ _ _ _ _ hnd m i hm, zero_add, hp m hml, if_neg (by simp)]
    · rw [parLoop_other _ _ _ _ _ _ hi]
      have : T.task qs i = id := by
        funext old
        rw [ho.mem_iff, List.mem_range, Topo.numTasks] at hi
        unfold Topo.task
        rcases Nat.lt_or_ge i qs.length with h | h
        · rw [List.getElem?_eq_none (l := T.views) (by omega)]
          cases qs[i]? <;> rfl
        · rw [List.getElem?_eq_none h]
          rfl
      rw [this, Option.map_id]
      rfl
  · rfl

/-- Specification: once `interrupt` answered `true`, no further values are computed. -/
def Halts (poll : ℕ → Bool) : Prop :=
  ∀ (T : Topo) (qs : List (V3 ℝ)) (field out : List ℝ) (ok : Bool) (order : List ℕ),
    order.Perm (List.range (T.numTasks qs)) → T.potentialPar poll order qs field = some (out, ok) →
    ∀ n m i, poll n = true → n ≤ m → order[m]? = some i → out[i]? = field[i]?

/-- C94, in part: queries halt when they are interrupted, by functions that go on to answer `true`. -/
theorem interrupt_halts_partial (poll : ℕ → Bool) (hp : ∀ n, poll n = true → poll (n + 1) = true) : Halts poll := by
  intro T qs field out ok order ho h n m i hn hm hi
  have hmono : poll m = true := by
    induction m, hm using Nat.le_induction with
    | base => exact hn
    | succ m _ ih => exact hp m (by
        by_contra hc
        have : ∀ j, n + j ≤ m → poll (n + j) = true := by
          intro j
          induction j with
          | zero => intro _; exact hn
          | succ j ih => intro hj; exact hp _ (ih (by omega))
        exact hc (by have := this (m - n) (by omega); rwa [show n + (m - n) = m by omega] at this))
  unfold Topo.potentialPar at h
  split at h
  · have h' := congrArg Prod.fst (Option.some.inj h)
    dsimp only at h'
    rw [← h', parLoop_task _ _ _ _ _ (ho.nodup_iff.2 List.nodup_range) m i hi, zero_add, hmono, if_pos rfl]
  · cases h

/-! ## Points with neighbors only -/

theorem filter_zip_getElem : ∀ (qs : List (V3 ℝ)) (views : List (List ℕ)), qs.length = views.length →
    (qs.zip views).filter (fun p => !p.2.isEmpty) =
      ((List.range views.length).filter fun i => !(views.getD i []).isEmpty).map
        fun i => (qs.getD i 0, views.getD i [])
  | [], [], _ => rfl
  | q :: qs, v :: views, h => by
    rw [List.zip_cons_cons, List.length_cons, List.range_succ_eq_map, List.filter_cons, List.filter_cons,
      List.filter_map]
    have ih := filter_zip_getElem qs views (by simpa using h)
    have e : ((fun i => !((v :: views).getD i []).isEmpty) ∘ Nat.succ) = fun i => !(views.getD i []).isEmpty := by
      funext i
      simp
    rw [e, ih]
    by_cases hv : v.isEmpty
    · simp [hv, Function.comp_def]
    · simp [hv, Function.comp_def]

/-- C94: queries for the points that have neighbors only give, one after the other, the values that a query gives at
these points. -/
theorem local_potential_agrees (hq : qs.length = T.views.length) (out loc : List ℝ)
    (h : T.potential qs field = some out)
    (hloc : loc.length = T.nonemptyIndices.length)
    (hold : ∀ j i : ℕ, T.nonemptyIndices[j]? = some i → loc[j]? = field[i]?) :
    T.localPotential qs loc = T.nonemptyIndices.map fun i => out.getD i 0 := by
  unfold Topo.potential at h
  split at h
  swap
  · cases h
  rename_i hl
  replace h := Option.some.inj h
  refine List.ext_getElem? fun j => ?_
  unfold Topo.localPotential Topo.visited
  rw [List.getElem?_mapIdx, List.getElem?_map, filter_zip_getElem qs T.views hq, List.getElem?_map]
  rcases Nat.lt_or_ge j T.nonemptyIndices.length with hj | hj
  · obtain ⟨i, hi⟩ : ∃ i, T.nonemptyIndices[j]? = some i := ⟨_, List.getElem?_eq_getElem hj⟩
    have hi' : ((List.range T.views.length).filter fun i => !(T.views.getD i []).isEmpty)[j]? = some i := hi
    have hii : i < T.views.length := List.mem_range.1 (List.mem_filter.1 (List.mem_of_getElem? hi')).1
    have hf : i < field.length := by omega
    have hqi : i < qs.length := by omega
    rw [hold j _ hi, hi, hi', ← h, List.getElem?_eq_getElem hf]
    simp only [Option.map_some, List.getD_eq_getElem?_getD, List.getElem?_mapIdx, List.getElem?_eq_getElem hf,
      List.getElem?_eq_getElem hqi, List.getElem?_eq_getElem hii, Option.getD_some, Topo.task]
  · rw [List.getElem?_eq_none (l := loc) (by omega)]
    change none = Option.map _ (T.nonemptyIndices[j]?)
    rw [List.getElem?_eq_none hj]
    rfl

/-! ## Meshes -/

variable (M : MeshSurface) (rnd : ℝ → ℝ) (pos : List (V3 ℝ)) (a : PotentialAttrib)

/-- C94: whatever the order of tasks and the answers of `interrupt`, the computation for a mesh fails if and only if a
call of `interrupt` answered `true`; vertices whose call answered `false` get all their values, and the potential of
others is left as it was. -/
theorem mesh_interrupt (poll : ℕ → Bool) (order : List ℕ) (ho : order.Perm (List.range pos.length)) :
    ((M.computeOnMesh rnd poll order pos a).2 = true ↔ ∀ m < pos.length, poll m = false) ∧
    (M.computeOnMesh rnd poll order pos a).1.length = pos.length ∧
    (∀ m i, order[m]? = some i → ∃ q, pos[i]? = some q ∧
      (M.computeOnMesh rnd poll order pos a).1[i]? = some (if poll m then MeshVertex.init (a.init i) else
        M.vertex rnd q (MeshVertex.init (a.init i)))) := by
  have hnd : order.Nodup := ho.nodup_iff.2 List.nodup_range
  refine ⟨?_, ?_, fun m i hm => ?_⟩
  · unfold MeshSurface.computeOnMesh
    rw [parLoop_ok, ho.length_eq, List.length_range]
    simp
  · unfold MeshSurface.computeOnMesh
    rw [parLoop_length]
    simp
  · have hi : i < pos.length := List.mem_range.1 (ho.mem_iff.1 (List.mem_of_getElem? hm))
    refine ⟨pos[i], List.getElem?_eq_getElem hi, ?_⟩
    unfold MeshSurface.computeOnMesh
    rw [parLoop_task _ _ _ _ _ hnd m i hm, zero_add, List.getElem?_map, List.getElem?_range hi]
    simp only [Option.map_some]
    split
    · rfl
    · unfold MeshSurface.task
      rw [List.getElem?_eq_getElem hi]

/-- C94: a vertex whose call of `interrupt` answered `true` keeps its potential if the mesh had numbers there; it gets zero
if the mesh had no potential or one of another type, and no neighbors. -/
theorem mesh_untouched (poll : ℕ → Bool) (order : List ℕ) (ho : order.Perm (List.range pos.length)) (m i : ℕ)
    (hm : order[m]? = some i) (hp : poll m = true) :
    ∃ o, (M.computeOnMesh rnd poll order pos a).1[i]? = some o ∧ (∀ v, a = .numeric v → o.potential = v i) ∧
      (a = .absent ∨ a = .other → o.potential = 0) ∧ o.numNeighbors = 0 ∧ o.neighbors = List.replicate 11 (-1) := by
  obtain ⟨q, -, h⟩ := (mesh_interrupt M rnd pos a poll order ho).2.2 m i hm
  rw [if_pos hp] at h
  refine ⟨_, h, ?_, ?_, rfl, rfl⟩
  · rintro v rfl
    rfl
  · rintro (rfl | rfl) <;> rfl

/-- C94: the result for a mesh does not depend on the order in which vertices are handled. -/
theorem mesh_schedule (poll : ℕ → Bool) (hp : ∀ m < pos.length, poll m = false) (order order' : List ℕ)
    (ho : order.Perm (List.range pos.length)) (ho' : order'.Perm (List.range pos.length)) :
    M.computeOnMesh rnd poll order pos a = M.computeOnMesh rnd poll order' pos a := by
  obtain ⟨h1, h2, h3⟩ := mesh_interrupt M rnd pos a poll order ho
  obtain ⟨h1', h2', h3'⟩ := mesh_interrupt M rnd pos a poll order' ho'
  refine Prod.ext (List.ext_getElem? fun i => ?_) ((h1.2 hp).trans (h1'.2 hp).symm)
  rcases Nat.lt_or_ge i pos.length with hi | hi
  · have g : ∀ o : List ℕ, o.Perm (List.range pos.length) → ∃ m, o[m]? = some i ∧ poll m = false := by
      intro o h
      obtain ⟨m, hm⟩ := List.mem_iff_getElem?.1 (h.mem_iff.2 (List.mem_range.2 hi))
      have := (List.getElem?_eq_some_iff.1 hm).1
      rw [h.length_eq, List.length_range] at this
      exact ⟨m, hm, hp m this⟩
    obtain ⟨m, hm, hpm⟩ := g order ho
    obtain ⟨m', hm', hpm'⟩ := g order' ho'
    obtain ⟨q, hq, e⟩ := h3 m i hm
    obtain ⟨q', hq', e'⟩ := h3' m' i hm'
    rw [e, e', hpm, hpm', Option.some.inj (hq.symm.trans hq')]
  · rw [List.getElem?_eq_none (by omega), List.getElem?_eq_none (by omega)]

/-- Specification: the potential of a mesh, as `compute_potential_on_mesh` computes it without interruptions. -/
def OnMesh (M : MeshSurface) (rnd : ℝ → ℝ) (pos : List (V3 ℝ)) (a : PotentialAttrib) (out : List MeshVertex) : Prop :=
  ∃ order, order.Perm (List.range pos.length) ∧
    M.computeOnMesh rnd (fun _ => false) order pos a = (out, true)

theorem onMesh_vertex {M : MeshSurface} {rnd : ℝ → ℝ} {pos : List (V3 ℝ)} {a : PotentialAttrib}
    {out : List MeshVertex} (h : OnMesh M rnd pos a out) {i : ℕ} {q : V3 ℝ} (hi : pos[i]? = some q) :
    out[i]? = some (M.vertex rnd q (MeshVertex.init (a.init i))) := by
  obtain ⟨order, ho, h⟩ := h
  obtain ⟨-, -, h3⟩ := mesh_interrupt M rnd pos a (fun _ => false) order ho
  have hlt := (List.getElem?_eq_some_iff.1 hi).1
  obtain ⟨m, hm⟩ := List.mem_iff_getElem?.1 (ho.mem_iff.2 (List.mem_range.2 hlt))
  obtain ⟨q', hq', e⟩ := h3 m i hm
  rw [h] at e
  rw [Option.some.inj (hi.symm.trans hq')]
  simpa using e

theorem global_eq {q : V3 ℝ} {S : Samples} {view : List ℕ} {c cl : ℕ} {k : Kern} {P : BgParams} (v : Option ℝ)
    (h : closestSample q S view = some c) : Bg.global q view S cl k P v = bgAt k P q view S c v := by
  unfold Bg.global
  rw [h]

theorem closest_exists {q : V3 ℝ} {S : Samples} {view : List ℕ} (h : view ≠ []) :
    ∃ c, closestSample q S view = some c := by
  cases view with
  | nil => exact absurd rfl h
  | cons i l => exact ⟨_, rfl⟩

/-- C94: at vertices that have neighbors, the potential of the mesh is the potential that a query with the same old
values gives, the sum of two numbers, rounded three times; the first of them is zero unless the background counts. -/
theorem mesh_potential {out : List MeshVertex} (h : OnMesh M rnd pos a out) {i : ℕ} {q : V3 ℝ}
    (hi : pos[i]? = some q) (hne : M.reach q ≠ []) :
    ∃ o x y res, out[i]? = some o ∧
      (M.topo pos).potential pos ((List.range pos.length).map a.init) = some res ∧ res[i]? = some (x + y) ∧
      o.potential = rnd (rnd x + rnd y) ∧
      (M.P.weighted = false → (∃ j ∈ M.reach q, ∀ r, M.k.radius = some r → (q - M.S.pos j).norm ≤ r) → x = 0) := by
  have hlt := (List.getElem?_eq_some_iff.1 hi).1
  obtain ⟨c, hc⟩ := closest_exists (q := q) (S := M.S) hne
  have hv := onMesh_vertex h hi
  obtain ⟨res, hres, -, hval, -⟩ := potential_values (M.topo pos) pos ((List.range pos.length).map a.init)
    (by simp [MeshSurface.topo]) (by simp)
  obtain ⟨v, hvi, q', view, old, hq', hview, hold, rfl⟩ := hval i hlt
  obtain rfl := Option.some.inj (hi.symm.trans hq')
  rw [List.getElem?_map, List.getElem?_range hlt, Option.map_some] at hold
  obtain rfl := Option.some.inj hold
  have hview' : view = M.reach q := by
    simp only [MeshSurface.topo, List.getElem?_map, hi, Option.map_some, Option.some.injEq] at hview
    exact hview.symm
  subst hview'
  let b := bgAt M.k M.P q (M.reach q) M.S c (some (a.init i))
  refine ⟨_, b.weightSumInv * b.weightedField,
    localPotentialAt q (M.reach q) M.S M.k b.weightSumInv b.dist, res, hv, hres, ?_, ?_, ?_⟩
  · rw [hvi]
    unfold potentialAt
    simp only [MeshSurface.topo]
    rw [local_eq _ hc]
    simp only
    rw [mul_comm]
  · have hem : (M.reach q).isEmpty = false := by
      cases hr : M.reach q with
      | nil => exact absurd hr hne
      | cons => rfl
    unfold MeshSurface.vertex
    simp only [hem, MeshVertex.init]
    rw [global_eq _ hc]
    rfl
  · rintro hw ⟨j, hj, hin⟩
    have hmin := (closestSample_spec hc).2 j hj
    have : b.bgWeight = 0 := by
      change backgroundWeight M.k M.P.weighted (q - M.S.pos c).norm = 0
      unfold backgroundWeight
      rw [hw]
      cases hr : M.k.radius with
      | none => rfl
      | some r =>
        have := hin r hr
        simp only
        rw [if_neg (by linarith)]
        rfl
    unfold Bg.weightedField
    rw [this, mul_zero, mul_zero]

/-- C94: without rounding, the potential of the mesh at vertices that have neighbors is that of queries. -/
theorem mesh_potential_exact {out : List MeshVertex} (h : OnMesh M id pos a out) {i : ℕ} {q : V3 ℝ}
    (hi : pos[i]? = some q) (hne : M.reach q ≠ []) :
    ∃ o res, out[i]? = some o ∧
      (M.topo pos).potential pos ((List.range pos.length).map a.init) = some res ∧ res[i]? = some o.potential := by
  obtain ⟨o, x, y, res, ho, hres, hx, hp, -⟩ := mesh_potential M id pos a h hi hne
  exact ⟨o, res, ho, hres, by rw [hx, hp]; rfl⟩

/-- C94: when the background is not mixed in, a vertex within the radius of a sample gets the potential of queries,
rounded to single precision. -/
theorem mesh_potential_rounded (h0 : rnd 0 = 0) (hr : ∀ x, rnd (rnd x) = rnd x) {out : List MeshVertex}
    (h : OnMesh M rnd pos a out) (hw : M.P.weighted = false) {i j : ℕ} {q : V3 ℝ} (hi : pos[i]? = some q)
    (hj : j ∈ M.reach q) (hin : ∀ r, M.k.radius = some r → (q - M.S.pos j).norm ≤ r) :
    ∃ o res p, out[i]? = some o ∧
      (M.topo pos).potential pos ((List.range pos.length).map a.init) = some res ∧ res[i]? = some p ∧
      o.potential = rnd p := by
  obtain ⟨o, x, y, res, ho, hres, hx, hp, hz⟩ := mesh_potential M rnd pos a h hi (List.ne_nil_of_mem hj)
  have hx0 := hz hw ⟨j, hj, hin⟩
  refine ⟨o, res, _, ho, hres, hx, ?_⟩
  rw [hp, hx0, h0, zero_add, zero_add, hr]

/-- C94: at vertices that have no neighbors, the potential of the mesh is the background field at the closest sample,
if this is beyond the radius, and queries leave the old value. -/
theorem mesh_potential_far {out : List MeshVertex} (h : OnMesh M rnd pos a out) {i : ℕ} {q : V3 ℝ}
    (hi : pos[i]? = some q) (he : M.reach q = []) {r : ℝ} (hr : M.k.radius = some r)
    (hfar : r < (q - M.S.pos (M.near q)).norm) :
    ∃ o res, out[i]? = some o ∧
      (M.topo pos).potential pos ((List.range pos.length).map a.init) = some res ∧ res[i]? = some (a.init i) ∧
      o.potential = rnd (match M.P.fieldType with
        | .zero => 0
        | .fromInput => a.init i
        | .distanceBased =>
          if V3.dot (M.S.nml (M.near q)) (q - M.S.pos (M.near q)) < 0 then -(q - M.S.pos (M.near q)).norm
          else (q - M.S.pos (M.near q)).norm) := by
  have hlt := (List.getElem?_eq_some_iff.1 hi).1
  have hv := onMesh_vertex h hi
  obtain ⟨res, hres, -, hval, -⟩ := potential_values (M.topo pos) pos ((List.range pos.length).map a.init)
    (by simp [MeshSurface.topo]) (by simp)
  obtain ⟨v, hvi, q', view, old, hq', hview, hold, rfl⟩ := hval i hlt
  obtain rfl := Option.some.inj (hi.symm.trans hq')
  rw [List.getElem?_map, List.getElem?_range hlt, Option.map_some] at hold
  obtain rfl := Option.some.inj hold
  have hview' : view = [] := by
    simp only [MeshSurface.topo, List.getElem?_map, hi, Option.map_some, Option.some.injEq] at hview
    exact hview.symm.trans he
  subst hview'
  refine ⟨_, res, hv, hres, hvi, ?_⟩
  unfold MeshSurface.vertex
  have hb : backgroundWeight M.k M.P.weighted (q - M.S.pos (M.near q)).norm = 1 := by
    unfold backgroundWeight
    rw [hr]
    simp only
    rw [if_pos hfar]
  simp only [he, List.isEmpty_nil, if_true, MeshVertex.init, Bg.global, closestSample, Bg.newImpl, Bg.weightSumInv,
    Bg.weightedField, Bg.bgWeight, ClosestIndex.get, List.map_nil, List.sum_nil, zero_add, hb]
  rw [if_neg one_ne_zero, div_one, one_mul, mul_one]
  congr 1
  cases M.P.fieldType with
  | zero => rfl
  | fromInput => rfl
  | distanceBased =>
    change (q - M.S.pos (M.near q)).norm *
      (if V3.dot (M.S.nml (M.near q)) (q - M.S.pos (M.near q)) < 0 then (-1 : ℝ) else 1) = _
    split
    · rw [mul_neg_one]
    · rw [mul_one]

/-- C94: the attributes that tell about neighbors. -/
theorem mesh_neighbors {out : List MeshVertex} (h : OnMesh M rnd pos a out) {i : ℕ} {q : V3 ℝ}
    (hi : pos[i]? = some q) :
    ∃ o, out[i]? = some o ∧ o.numNeighbors = (M.reach q).length ∧ o.neighbors.length = 11 ∧
      ∀ j : ℕ, j < 11 → o.neighbors[j]? = some (((M.reach q)[j]?.map fun s : ℕ => (s : ℤ)).getD (-1)) := by
  refine ⟨_, onMesh_vertex h hi, rfl, ?_, fun j hj => ?_⟩
  · simp only [MeshSurface.vertex, MeshVertex.init, List.length_append, List.length_map, List.length_take,
      List.length_drop, List.length_replicate]
    omega
  · simp only [MeshSurface.vertex, MeshVertex.init, List.getElem?_append, List.length_map, List.length_take]
    split
    · rename_i h
      rw [List.getElem?_map, List.getElem?_take, if_pos hj]
      rw [List.getElem?_eq_getElem (by omega)]
      rfl
    · rename_i h
      rw [List.getElem?_drop, List.getElem?_replicate, if_pos (by omega),
        List.getElem?_eq_none (l := M.reach q) (by omega)]
      rfl

/-! ## Normals -/

/-- C94, in part: the normals of the mesh are the gradients of the potential, where the potential is differentiable,
normals of samples have length one, potentials of samples are zero, the background is not mixed in, one sample is
within the radius and the neighborhood has all samples within the radius. -/
theorem mesh_normals_partial {out : List MeshVertex} (h : OnMesh M id pos a out) {i c : ℕ} {q : ℝ → V3 ℝ} {q' : V3 ℝ}
    {t : ℝ} (hi : pos[i]? = some (q t)) (hq : HasD q q' t)
    (hreg : Regular M.k M.P (q t) (M.reach (q t)) M.S c)
    (hw : M.P.weighted = false) (hin : ∀ r, M.k.radius = some r → (q t - M.S.pos c).norm ≤ r)
    (hunit : ∀ j ∈ M.reach (q t), (M.S.nml j).norm = 1) (hzero : ∀ j ∈ M.reach (q t), M.S.value j = 0)
    (hsub : ∀ j ∈ M.reach (q t), j < M.count)
    (hall : ∀ j < M.count, j ∉ M.reach (q t) → ∃ r, M.k.radius = some r ∧ r < (q t - M.S.pos j).norm) :
    ∃ o, out[i]? = some o ∧ ∀ old, HasDerivAt (fun s => potentialAt (q s) (M.reach (q t)) M.S M.k M.P old)
      (V3.dot o.normal q') t := by
  obtain ⟨hcl, -⟩ := regular_weighable (q := q) (S := fun _ => M.S) (t := t) hreg
  refine ⟨_, onMesh_vertex h hi, fun old => ?_⟩
  obtain ⟨J, hJ, hd⟩ := query_jacobian (old := old) q q' M.S none hreg hq
  refine hd.congr_deriv ?_
  congr 1
  have hne : M.reach (q t) ≠ [] := List.ne_nil_of_mem hreg.mem
  have hem : (M.reach (q t)).isEmpty = false := by
    cases hr : M.reach (q t) with
    | nil => exact absurd hr hne
    | cons => rfl
  have hJ' : J = queryGradient (bgAt M.k M.P (q t) (M.reach (q t)) M.S c none) := by
    unfold queryJacobianAt at hJ
    rw [new_eq none none hcl] at hJ
    exact (Option.some.inj hJ).symm
  unfold MeshSurface.vertex
  simp only [hem, MeshVertex.init, id]
  rw [global_eq _ hcl, hJ']
  have hbg : backgroundWeight M.k M.P.weighted (q t - M.S.pos c).norm = 0 := by
    unfold backgroundWeight
    rw [hw]
    cases hr : M.k.radius with
    | none => rfl
    | some r =>
      simp only
      rw [if_neg (by linarith [hin r hr])]
      rfl
  have hsum : ((List.range M.count).map (weightGrad M.k (q t - M.S.pos c).norm (q t) M.S)).sum =
      ((M.reach (q t)).map (weightGrad M.k (q t - M.S.pos c).norm (q t) M.S)).sum := by
    rw [← List.sum_toFinset _ List.nodup_range, ← List.sum_toFinset _ hreg.nodup]
    symm
    refine Finset.sum_subset (fun j hj => ?_) fun j hj hn => ?_
    · exact List.mem_toFinset.2 (List.mem_range.2 (hsub j (List.mem_toFinset.1 hj)))
    · obtain ⟨r, hr, hlt⟩ := hall j (List.mem_range.1 (List.mem_toFinset.1 hj)) fun h => hn (List.mem_toFinset.2 h)
      have hcen : M.k.Finite ∨ 0 < (q t - M.S.pos c).norm := hreg.center.imp id norm_pos_of_ne
      exact grad_far (proper_withClosest hreg.proper hcen) ((radius_withClosest M.k _).trans hr) hlt
  change _ = meshNormal (bgAt M.k M.P (q t) (M.reach (q t)) M.S c (some (a.init i))) M.count
  have hflat : (bgAt M.k M.P (q t) (M.reach (q t)) M.S c none).flat := Or.inr hw
  have hdwb : (bgAt M.k M.P (q t) (M.reach (q t)) M.S c none).bgWeightGrad none = 0 := by
    unfold Bg.bgWeightGrad
    rw [if_pos hflat]
  have hback : (bgAt M.k M.P (q t) (M.reach (q t)) M.S c none).queryJacobian = 0 := by
    have h1 : (bgAt M.k M.P (q t) (M.reach (q t)) M.S c none).bgWeight = 0 := hbg
    have h2 : (bgAt M.k M.P (q t) (M.reach (q t)) M.S c none).weighted = false := hw
    unfold Bg.queryJacobian
    simp only [h1, h2, zero_mul]
    ext <;> simp
  unfold queryGradient
  rw [hback, add_zero]
  unfold meshNormal neighborWeightGrad
  rw [hdwb, add_zero]
  unfold sampleQueryJacobian
  dsimp only
  have hS : ∀ v, (bgAt M.k M.P (q t) (M.reach (q t)) M.S c v).weightSumInv =
      (bgAt M.k M.P (q t) (M.reach (q t)) M.S c none).weightSumInv := fun _ => rfl
  rw [hS (some (a.init i))]
  generalize (bgAt M.k M.P (q t) (M.reach (q t)) M.S c none).weightSumInv = w
  simp only [bgAt, Bg.newImpl, ClosestIndex.get]
  rw [hsum]
  generalize ((M.reach (q t)).map (weightGrad M.k (q t - M.S.pos c).norm (q t) M.S)).sum = G
  refine congrArg List.sum (List.map_congr_left fun j hj => ?_)
  rw [hunit j hj, hzero j hj, dot_symm (q t - M.S.pos j)]
  have e : (1 / (1 : ℝ)) • M.S.nml j = M.S.nml j := by ext <;> simp
  rw [e]
  generalize weight M.k (q t - M.S.pos c).norm (q t) M.S j = x
  generalize weightGrad M.k (q t - M.S.pos c).norm (q t) M.S j = g
  generalize V3.dot (M.S.nml j) (q t - M.S.pos j) = y
  ext <;> simp <;> ring

end Softy.Field
