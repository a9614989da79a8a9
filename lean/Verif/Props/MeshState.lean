import Verif.Props.Mesh

/-!
# Vertex order, reported positions and masses

C24 (vertex order) and C23 (masses).
-/

namespace Softy.Mesh

variable {P : Type*}

/-! ## C24: the order of vertices -/

theorem rank_injective : Function.Injective VertexType.rank := by
  intro a b h
  cases a <;> cases b <;> first | rfl | exact absurd h (by decide)

/-- The new order of the vertices is a permutation. -/
theorem sortOrder_perm (vt : List VertexType) : (sortOrder vt).Perm (List.range vt.length) :=
  List.mergeSort_perm _ _

theorem sortOrder_mem {vt : List VertexType} {i : ℕ} : i ∈ sortOrder vt ↔ i < vt.length := by
  rw [(sortOrder_perm vt).mem_iff, List.mem_range]

theorem sortOrder_nodup (vt : List VertexType) : (sortOrder vt).Nodup :=
  (sortOrder_perm vt).nodup_iff.2 List.nodup_range

theorem sortOrder_length (vt : List VertexType) : (sortOrder vt).length = vt.length := by
  rw [(sortOrder_perm vt).length_eq, List.length_range]

theorem gather_get {α : Type*} (order : List ℕ) (l : List α) (h : ∀ i ∈ order, i < l.length)
    (k : ℕ) : (gather order l)[k]? = (order[k]?).bind (l[·]?) := by
  induction order generalizing k with
  | nil => simp [gather]
  | cons a t ih =>
    have ha := h a List.mem_cons_self
    have : gather (a :: t) l = l[a] :: gather t l := by
      simp [gather, List.filterMap_cons, List.getElem?_eq_getElem ha]
    rw [this]
    cases k with
    | zero => simp [List.getElem?_eq_getElem ha]
    | succ k => simpa using ih (fun i hi => h i (List.mem_cons_of_mem _ hi)) k

theorem gather_length {α : Type*} (order : List ℕ) (l : List α) (h : ∀ i ∈ order, i < l.length) :
    (gather order l).length = order.length := by
  induction order with
  | nil => rfl
  | cons a t ih =>
    have ha := h a List.mem_cons_self
    have : gather (a :: t) l = l[a] :: gather t l := by
      simp [gather, List.filterMap_cons, List.getElem?_eq_getElem ha]
    rw [this, List.length_cons, List.length_cons, ih fun i hi => h i (List.mem_cons_of_mem _ hi)]

theorem gather_range {α : Type*} (l : List α) : gather (List.range l.length) l = l := by
  refine List.ext_getElem? fun k => ?_
  rw [gather_get _ _ fun i hi => List.mem_range.1 hi]
  by_cases hk : k < l.length
  · rw [List.getElem?_range hk]; rfl
  · rw [List.getElem?_eq_none (by simpa using hk), List.getElem?_eq_none (by simpa using hk)]; rfl

/-- Sorting the array of types separately (`state.rs:519`) agrees with the order of the
vertices. -/
theorem sortTypes_eq (vt : List VertexType) : sortTypes vt = gather (sortOrder vt) vt := by
  have hperm : (gather (sortOrder vt) vt).Perm vt := by
    have := (sortOrder_perm vt).filterMap (vt[·]?)
    exact this.trans (List.Perm.of_eq (gather_range vt))
  have hs1 : (sortTypes vt).Pairwise fun a b => a.rank ≤ b.rank := by
    have := List.pairwise_mergeSort (le := fun a b : VertexType => decide (a.rank ≤ b.rank))
      (by intro a b c; simp; omega) (by intro a b; simp; omega) vt
    simpa [sortTypes] using this
  have hs2 : (gather (sortOrder vt) vt).Pairwise fun a b => a.rank ≤ b.rank := by
    have h := List.pairwise_mergeSort (le := fun a b : ℕ =>
        decide ((vt[a]?.getD .ignored).rank ≤ (vt[b]?.getD .ignored).rank))
      (by intro a b c; simp; omega) (by intro a b; simp; omega) (List.range vt.length)
    unfold gather
    rw [List.pairwise_filterMap]
    refine List.Pairwise.imp ?_ h
    intro a b hab x hx y hy
    simpa [hx, hy] using hab
  refine List.Perm.eq_of_pairwise ?_ hs1 hs2 ((List.mergeSort_perm _ _).trans hperm.symm)
  intro a b _ _ h1 h2
  exact rank_injective (le_antisymm h1 h2)

theorem sortTypes_sorted (vt : List VertexType) :
    (sortTypes vt).Pairwise fun a b => a.rank ≤ b.rank := by
  have := List.pairwise_mergeSort (le := fun a b : VertexType => decide (a.rank ≤ b.rank))
    (by intro a b c; simp; omega) (by intro a b; simp; omega) vt
  simpa [sortTypes] using this

theorem takeWhile_sorted (l : List VertexType) (h : l.Pairwise fun a b => a.rank ≤ b.rank) (i : ℕ)
    (t : VertexType) (ht : l[i]? = some t) : i < numDofs l ↔ t.rank < 2 := by
  unfold numDofs
  induction l generalizing i with
  | nil => simp at ht
  | cons a r ih =>
    rw [List.pairwise_cons] at h
    by_cases ha : a.rank < 2
    · rw [List.takeWhile_cons_of_pos (by simpa using ha), List.length_cons]
      cases i with
      | zero =>
        simp only [List.getElem?_cons_zero, Option.some.injEq] at ht
        subst ht; simp [ha]
      | succ i => rw [← ih h.2 i (by simpa using ht)]; omega
    · rw [List.takeWhile_cons_of_neg (by simpa using ha)]
      have : a.rank ≤ t.rank := by
        cases i with
        | zero =>
          simp only [List.getElem?_cons_zero, Option.some.injEq] at ht
          exact ht ▸ le_rfl
        | succ i => exact h.1 t (List.mem_of_getElem? (by simpa using ht))
      simp; omega

/-- Writing values to distinct places: each place holds its value, all others the old one. -/
theorem foldl_set_get {α β : Type*} (f : β → α) (l : List (ℕ × β)) (hn : (l.map Prod.fst).Nodup)
    (out : List α) (v : ℕ) (hv : v < out.length) :
    (∀ b, (v, b) ∈ l → (l.foldl (fun out a => out.set a.1 (f a.2)) out)[v]? = some (f b)) ∧
      (v ∉ l.map Prod.fst → (l.foldl (fun out a => out.set a.1 (f a.2)) out)[v]? = out[v]?) := by
  induction l generalizing out with
  | nil => simp
  | cons a t ih =>
    rw [List.map_cons, List.nodup_cons] at hn
    have hl : v < (out.set a.1 (f a.2)).length := by simpa using hv
    have := ih hn.2 (out.set a.1 (f a.2)) hl
    rw [List.foldl_cons]
    constructor
    · intro b hb
      rcases List.mem_cons.1 hb with rfl | hb
      · rw [this.2 hn.1, List.getElem?_set_self hv]
      · exact this.1 b hb
    · intro hvn
      rw [List.map_cons, List.mem_cons, not_or] at hvn
      rw [this.2 hvn.2, List.getElem?_set_ne (Ne.symm hvn.1)]

theorem foldl_set_length {α β : Type*} (f : β → α) (l : List (ℕ × β)) (out : List α) :
    (l.foldl (fun out a => out.set a.1 (f a.2)) out).length = out.length := by
  induction l generalizing out with
  | nil => rfl
  | cons a t ih => rw [List.foldl_cons, ih, List.length_set]

/-- If the original indices are a permutation, the position reported for `origIndex[i]` is that
of vertex `i` of the state. -/
theorem vertexPositions_get (zero : P) (s : State P) (n : ℕ) (hlen : s.next.length = n)
    (hperm : s.origIndex.Perm (List.range n)) (i v : ℕ) (hv : s.origIndex[i]? = some v) :
    (vertexPositions zero s)[v]? = (s.next[i]?).map Particle.pos := by
  have hol : s.origIndex.length = n := by rw [hperm.length_eq, List.length_range]
  have hi : i < n := by
    rw [← hol]; exact (List.getElem?_eq_some_iff.1 hv).1
  have hvn : v < n := by
    have := List.mem_of_getElem? hv
    rwa [hperm.mem_iff, List.mem_range] at this
  have hin : i < s.next.length := by omega
  have hnd : ((s.origIndex.zip s.next).map Prod.fst).Nodup := by
    rw [List.map_fst_zip (by omega)]
    exact hperm.nodup_iff.2 List.nodup_range
  have := (foldl_set_get Particle.pos (s.origIndex.zip s.next) hnd
    (List.replicate s.next.length zero) v (by simp [hlen, hvn])).1 s.next[i] (by
      refine List.mem_of_getElem? (i := i) ?_
      rw [List.getElem?_zip_eq_some]
      exact ⟨hv, List.getElem?_eq_getElem hin⟩)
  rw [vertexPositions, this, List.getElem?_eq_getElem hin]
  rfl

/-- What `build` guarantees about the parts of the state. -/
structure Built (materials : List Material) (m : Input P) (s : State P) (vt : List VertexType) :
    Prop where
  prep : ∃ mcells, prepare materials m = .ok (mcells, vt) ∧
    mkState (gather (sortOrder vt) m.verts) (gather (sortOrder vt) (sourceIndex m)) (sortTypes vt)
      (mcells.map fun c => (renumber (sortOrder vt) c.1, c.2)) = some s
  types : s.types = sortTypes vt
  next : s.next = gather (sortOrder vt) m.verts
  cur : s.cur = gather (sortOrder vt) m.verts
  orig : s.origIndex = gather (sortOrder vt) (sourceIndex m)
  dofs : numDofs s.types ≠ 0

theorem build_ok {materials : List Material} {m : Input P} {s : State P}
    (h : build materials m = .ok s) : ∃ vt, Built materials m s vt := by
  unfold build at h
  split at h
  · cases h
  · rename_i mcells vt hp
    simp only at h
    split at h
    · cases h
    · split at h
      · cases h
      · rename_i s' hs
        split at h
        · cases h
        · rename_i hd
          cases h
          have hs' := hs
          unfold mkState at hs
          split at hs
          · cases hs
            exact ⟨vt, ⟨mcells, hp, hs'⟩, rfl, rfl, rfl, rfl, hd⟩
          · cases hs

/-- A mesh as the container guarantees it: one attribute value per vertex, cells with vertices
of the mesh. -/
structure Input.WF (m : Input P) : Prop where
  source : ∀ l, m.source = some l → l.length = m.verts.length
  fixed : ∀ a, m.fixed = some a → a.vals.length = m.verts.length
  cells : ∀ c ∈ m.cells, c.valid ∧ ∀ v ∈ c.verts, v < m.verts.length
  mtl : ∀ a, m.mtl.onCells = some a → a.vals.length = m.cells.length
  numCells : m.mtl.numCells = m.cells.length

theorem built_length {materials : List Material} {m : Input P} {s : State P}
    {vt : List VertexType} (hm : m.WF) (h : Built materials m s vt) :
    vt.length = m.verts.length := by
  obtain ⟨mcells, hp, -⟩ := h.prep
  rw [prepare_types hp, vertexTypes_length, initFixed_length]
  exact hm.fixed

/-- **C24**, order: the vertices of the state are those of the user's mesh in a permuted order.
Vertex `i` of the state has the position and the type of user vertex `order[i]`, the cells refer
to the same vertices, and the vertices before `numDofs` are exactly those that are free or
rigid. -/
theorem order_spec {materials : List Material} {m : Input P} {s : State P} (hm : m.WF)
    (h : build materials m = .ok s) :
    ∃ (order : List ℕ) (mcells : List (Cell × Material)) (vt : List VertexType),
      order.Perm (List.range m.verts.length) ∧
      prepare materials m = .ok (mcells, vt) ∧
      (∀ i v : ℕ, order[i]? = some v → s.next[i]? = m.verts[v]? ∧ s.types[i]? = vt[v]?) ∧
      s.next.length = m.verts.length ∧ s.types.length = m.verts.length ∧
      (∀ (i : ℕ) (t : VertexType), s.types[i]? = some t →
        (i < numDofs s.types ↔ t = .free ∨ t = .rigid)) ∧
      s.cells = mcells.map (fun c => renumber order c.1) ∧
      ∀ v < m.verts.length, order[order.idxOf v]? = some v := by
  obtain ⟨vt, hb⟩ := build_ok h
  have hlen := built_length hm hb
  obtain ⟨mcells, hp, hs⟩ := hb.prep
  have hmem : ∀ i ∈ sortOrder vt, i < m.verts.length := fun i hi => hlen ▸ sortOrder_mem.1 hi
  refine ⟨sortOrder vt, mcells, vt, hlen ▸ sortOrder_perm vt, hp, ?_, ?_, ?_, ?_, ?_, ?_⟩
  · intro i v hv
    rw [hb.next, hb.types, sortTypes_eq, gather_get _ _ hmem,
      gather_get _ _ fun i hi => sortOrder_mem.1 hi, hv]
    exact ⟨rfl, rfl⟩
  · rw [hb.next, gather_length _ _ hmem, sortOrder_length, hlen]
  · rw [hb.types, sortTypes, List.length_mergeSort, hlen]
  · intro i t ht
    rw [hb.types] at ht ⊢
    rw [takeWhile_sorted _ (sortTypes_sorted vt) i t ht]
    cases t <;> simp [VertexType.rank]
  · unfold mkState at hs
    split at hs
    · cases hs
      simp [List.map_map, Function.comp_def]
    · cases hs
  · intro v hv
    have : v ∈ sortOrder vt := sortOrder_mem.2 (hlen ▸ hv)
    have hlt := List.idxOf_lt_length_iff.2 this
    rw [List.getElem?_eq_getElem hlt, List.getElem_idxOf hlt]

/-- **C24**, output: if the user gives no source indices, the positions reported right after
building are those of the user's mesh, in the user's order. -/
theorem reported_initially {materials : List Material} {m : Input P} {s : State P} (hm : m.WF)
    (hsrc : m.source = none) (h : build materials m = .ok s) (zero : P) :
    vertexPositions zero s = m.verts.map Particle.pos := by
  obtain ⟨vt, hb⟩ := build_ok h
  have hlen := built_length hm hb
  have hmem : ∀ i ∈ sortOrder vt, i < m.verts.length := fun i hi => hlen ▸ sortOrder_mem.1 hi
  have horig : s.origIndex = sortOrder vt := by
    rw [hb.orig, sourceIndex, hsrc]
    refine List.ext_getElem? fun k => ?_
    rw [gather_get _ _ (by simpa using hmem)]
    rcases hk : (sortOrder vt)[k]? with - | v
    · rfl
    · have := hmem v (List.mem_of_getElem? hk)
      simp [List.getElem?_range this]
  have hnl : s.next.length = m.verts.length := by
    rw [hb.next, gather_length _ _ hmem, sortOrder_length, hlen]
  have hperm : s.origIndex.Perm (List.range m.verts.length) := horig ▸ hlen ▸ sortOrder_perm vt
  refine List.ext_getElem? fun v => ?_
  by_cases hv : v < m.verts.length
  · have hvm : v ∈ sortOrder vt := sortOrder_mem.2 (hlen ▸ hv)
    obtain ⟨i, hi⟩ := List.mem_iff_getElem?.1 hvm
    rw [vertexPositions_get zero s _ hnl hperm i v (horig ▸ hi), hb.next, gather_get _ _ hmem, hi,
      List.getElem?_map]
    rfl
  · rw [List.getElem?_eq_none, List.getElem?_eq_none]
    · simpa using hv
    · unfold vertexPositions
      rw [foldl_set_length]
      simpa [hnl] using hv

/-! ### Reported positions over a history -/

/-- What happens to the positions between steps: the solver commits the degrees of freedom, or
the user moves fixed vertices in a step of the given rate. -/
inductive Op (P : Type*) where
  | dofs (q : List (Particle P))
  | fixed (rate : P → P → P) (newPos : List P)

/-- The effect on the state. -/
def apply (s : State P) : Op P → State P
  | .dofs q => updateVertices s q
  | .fixed rate newPos => updateFixed rate newPos s

/-- A history. -/
def history (ops : List (Op P)) (s : State P) : State P := ops.foldl apply s

/-- The position a user expects for vertex `v` after an operation, given its type, its index `i`
among the degrees of freedom and its previous position: the solver moves vertices that are free
or rigid, the user moves vertices that are fixed, nothing moves the others. -/
def expected (t : VertexType) (i v : ℕ) (p : P) : Op P → P
  | .dofs q => if t = .free ∨ t = .rigid then ((q[i]?).map Particle.pos).getD p else p
  | .fixed _ newPos => if t = .fixed then newPos[v]?.getD p else p

/-- Lists of the state stay in step. -/
structure Consistent (n : ℕ) (s : State P) : Prop where
  next : s.next.length = n
  cur : s.cur.length = n
  types : s.types.length = n
  sorted : s.types.Pairwise fun a b => a.rank ≤ b.rank
  orig : s.origIndex.Perm (List.range n)

theorem numDofs_le (l : List VertexType) : numDofs l ≤ l.length := by
  unfold numDofs
  exact (List.takeWhile_sublist _).length_le

theorem apply_consistent {n : ℕ} {s : State P} (hs : Consistent n s) (op : Op P) :
    Consistent n (apply s op) ∧ (apply s op).types = s.types ∧
      (apply s op).origIndex = s.origIndex := by
  have hol : s.origIndex.length = n := by rw [hs.orig.length_eq, List.length_range]
  have h1 := hs.next; have h2 := hs.cur; have h3 := hs.types
  have h4 := numDofs_le s.types
  cases op with
  | dofs q =>
    refine ⟨⟨?_, h2, h3, hs.sorted, hs.orig⟩, rfl, rfl⟩
    simp [apply, updateVertices]; omega
  | fixed rate newPos =>
    refine ⟨⟨?_, ?_, h3, hs.sorted, hs.orig⟩, rfl, rfl⟩ <;>
    · simp [apply, updateFixed]; omega

theorem apply_pos {n : ℕ} {s : State P} (hs : Consistent n s) (op : Op P) (i v : ℕ)
    (t : VertexType) (p : Particle P) (ho : s.origIndex[i]? = some v) (ht : s.types[i]? = some t)
    (hp : s.next[i]? = some p) :
    ((apply s op).next[i]?).map Particle.pos = some (expected t i v p.pos op) := by
  have hin : i < s.next.length := (List.getElem?_eq_some_iff.1 hp).1
  cases op with
  | dofs q =>
    have hd := takeWhile_sorted _ hs.sorted i t ht
    have hr : t.rank < 2 ↔ t = .free ∨ t = .rigid := by cases t <;> simp [VertexType.rank]
    have hle := numDofs_le s.types
    have h1 := hs.next; have h3 := hs.types
    simp only [apply, updateVertices, expected]
    by_cases hi : i < numDofs s.types
    · rw [if_pos (hr.1 (hd.1 hi))]
      by_cases hq : i < q.length
      · rw [List.getElem?_append_left (by simp; omega), List.getElem?_map,
          (List.getElem?_zip_eq_some (z := (p, q[i]))).2
            ⟨hp, by rw [List.getElem?_take_of_lt hi, List.getElem?_eq_getElem hq]⟩,
          List.getElem?_eq_getElem hq]
        rfl
      · have hlen : ((s.next.zip (q.take (numDofs s.types))).map Prod.snd).length = q.length := by
          simp; omega
        rw [List.getElem?_append_right (by omega), hlen, List.getElem?_drop,
          show min q.length (numDofs s.types) + (i - q.length) = i by omega, hp,
          List.getElem?_eq_none (by omega)]
        rfl
    · rw [if_neg fun h => hi (hd.2 (hr.2 h))]
      have hlen : ((s.next.zip (q.take (numDofs s.types))).map Prod.snd).length =
          min q.length (numDofs s.types) := by simp; omega
      rw [List.getElem?_append_right (by omega), hlen, List.getElem?_drop,
        show min q.length (numDofs s.types) + (i - min q.length (numDofs s.types)) = i by omega, hp]
      rfl
  | fixed rate newPos =>
    simp only [apply, updateFixed, expected]
    rw [List.getElem?_zipWith, ht, (List.getElem?_zip_eq_some (z := (v, p))).2 ⟨ho, hp⟩]
    simp only [updateFixedNext, Option.map_some]
    split_ifs
    · rcases newPos[v]? with - | x <;> rfl
    · rfl

theorem history_pos {n : ℕ} {s : State P} (hs : Consistent n s) (zero : P) (ops : List (Op P))
    (i v : ℕ) (t : VertexType) (p : Particle P) (ho : s.origIndex[i]? = some v)
    (ht : s.types[i]? = some t) (hp : s.next[i]? = some p) :
    (vertexPositions zero (history ops s))[v]? = some (ops.foldl (expected t i v) p.pos) := by
  induction ops generalizing s p with
  | nil =>
    rw [history, List.foldl_nil, vertexPositions_get zero s _ hs.next hs.orig i v ho, hp]
    rfl
  | cons op r ih =>
    obtain ⟨hc, hct, hco⟩ := apply_consistent hs op
    have hpos := apply_pos hs op i v t p ho ht hp
    obtain ⟨p', hp', he⟩ := Option.map_eq_some_iff.1 hpos
    have := ih (s := apply s op) hc p' (hco ▸ ho) (hct ▸ ht) hp'
    rw [he] at this
    exact this

/-- **C24** over all histories: after any sequence of solves and of movements of fixed vertices,
the position reported for vertex `v` of the user's mesh is the one expected for that vertex: the
last one the solver committed for it if it is free or rigid, the last one the user gave for it
if it is fixed, and its initial position otherwise. The degree of freedom of a vertex is its
place in an order of all vertices, so no two vertices share one. -/
theorem reported_history {materials : List Material} {m : Input P} {s : State P} (hm : m.WF)
    (hsrc : m.source = none) (h : build materials m = .ok s) (zero : P) (ops : List (Op P)) :
    ∃ (order : List ℕ) (mcells : List (Cell × Material)) (vt : List VertexType),
      order.Perm (List.range m.verts.length) ∧ prepare materials m = .ok (mcells, vt) ∧
      (vertexPositions zero (history ops s)).length = m.verts.length ∧
      ∀ (v : ℕ) (p : Particle P) (t : VertexType), m.verts[v]? = some p → vt[v]? = some t →
        (t = .free ∨ t = .rigid ↔ order.idxOf v < numDofs s.types) ∧
        (vertexPositions zero (history ops s))[v]? =
          some (ops.foldl (expected t (order.idxOf v) v) p.pos) := by
  obtain ⟨vt, hb⟩ := build_ok h
  have hlen := built_length hm hb
  obtain ⟨mcells, hprep, -⟩ := hb.prep
  have hmem : ∀ i ∈ sortOrder vt, i < m.verts.length := fun i hi => hlen ▸ sortOrder_mem.1 hi
  have horig : s.origIndex = sortOrder vt := by
    rw [hb.orig, sourceIndex, hsrc]
    refine List.ext_getElem? fun k => ?_
    rw [gather_get _ _ (by simpa using hmem)]
    rcases hk : (sortOrder vt)[k]? with - | v
    · rfl
    · have := hmem v (List.mem_of_getElem? hk)
      simp [List.getElem?_range this]
  have hcons : Consistent m.verts.length s := by
    refine ⟨?_, ?_, ?_, ?_, horig ▸ hlen ▸ sortOrder_perm vt⟩
    · rw [hb.next, gather_length _ _ hmem, sortOrder_length, hlen]
    · rw [hb.cur, gather_length _ _ hmem, sortOrder_length, hlen]
    · rw [hb.types, sortTypes, List.length_mergeSort, hlen]
    · exact hb.types ▸ sortTypes_sorted vt
  have hfin : ∀ (ops : List (Op P)) (s : State P), Consistent m.verts.length s →
      (history ops s).next.length = m.verts.length := by
    intro ops
    induction ops with
    | nil => intro s hs; exact hs.next
    | cons op r ih => intro s hs; exact ih _ (apply_consistent hs op).1
  refine ⟨sortOrder vt, mcells, vt, hlen ▸ sortOrder_perm vt, hprep, ?_, ?_⟩
  · unfold vertexPositions
    rw [foldl_set_length, List.length_replicate, hfin ops s hcons]
  intro v p t hp ht
  have hvn : v < m.verts.length := (List.getElem?_eq_some_iff.1 hp).1
  have hi : (sortOrder vt)[(sortOrder vt).idxOf v]? = some v := by
    have hlt := List.idxOf_lt_length_iff.2 (sortOrder_mem.2 (hlen ▸ hvn) : v ∈ sortOrder vt)
    rw [List.getElem?_eq_getElem hlt, List.getElem_idxOf hlt]
  have hti : s.types[(sortOrder vt).idxOf v]? = some t := by
    rw [hb.types, sortTypes_eq, gather_get _ _ fun i hi => sortOrder_mem.1 hi, hi]
    exact ht
  have hni : s.next[(sortOrder vt).idxOf v]? = some p := by
    rw [hb.next, gather_get _ _ hmem, hi]
    exact hp
  refine ⟨?_, history_pos hcons zero ops _ v t p (horig ▸ hi) hti hni⟩
  rw [takeWhile_sorted _ hcons.sorted _ t hti]
  cases t <;> simp [VertexType.rank]

/-- **C24 is violated** with the user's own source indices (`objects.rs:30-32` allows a mesh that
is a part of a larger one): if one of them is not an index of this mesh, no solver can be
built. -/
theorem source_subset_violated {materials : List Material} {m : Input P} (hm : m.WF)
    (src : List ℕ) (hsrc : m.source = some src) (i : ℕ) (hi : i ∈ src)
    (hbig : m.verts.length ≤ i) (s : State P) : build materials m ≠ .ok s := by
  intro h
  have h0 := h
  obtain ⟨vt, hb⟩ := build_ok h0
  have hlen := built_length hm hb
  obtain ⟨mcells, hprep, hs⟩ := hb.prep
  have hsl := hm.source _ hsrc
  have hmem : i ∈ gather (sortOrder vt) (sourceIndex m) := by
    have hp : (gather (sortOrder vt) (sourceIndex m)).Perm (sourceIndex m) := by
      have := (sortOrder_perm vt).filterMap ((sourceIndex m)[·]?)
      refine this.trans (List.Perm.of_eq ?_)
      have hl : vt.length = (sourceIndex m).length := by simp [sourceIndex, hsrc, hsl, hlen]
      rw [hl]
      exact gather_range _
    rw [hp.mem_iff, sourceIndex, hsrc]
    exact hi
  unfold build at h
  rw [hprep] at h
  simp only at h
  rw [if_pos] at h
  · cases h
  · rw [List.any_eq_true]
    exact ⟨i, hmem, by simpa using hbig⟩

/-! ## Prescribed velocities -/

/-- **C58**, for a step in which the user gives a position for the vertex: the velocity of a
fixed vertex is its displacement over the time step, and the position before the step is kept
as the current one. -/
theorem fixed_velocity_partial {n : ℕ} {s : State P} (hs : Consistent n s) (rate : P → P → P)
    (newPos : List P) (i v : ℕ) (p c : Particle P) (x : P) (ho : s.origIndex[i]? = some v)
    (ht : s.types[i]? = some .fixed) (hp : s.next[i]? = some p) (hc : s.cur[i]? = some c)
    (hx : newPos[v]? = some x) :
    (updateFixed rate newPos s).next[i]? = some ⟨x, rate x p.pos⟩ ∧
      (updateFixed rate newPos s).cur[i]? = some ⟨p.pos, rate p.pos c.pos⟩ := by
  have _ := hs
  simp only [updateFixed]
  rw [List.getElem?_zipWith, ht, (List.getElem?_zip_eq_some (z := (v, p))).2 ⟨ho, hp⟩,
    List.getElem?_zipWith, ht, (List.getElem?_zip_eq_some (z := (c, p))).2 ⟨hc, hp⟩]
  simp [updateFixedNext, updateFixedCur, hx]

/-- **C58 is violated** when a step follows without new positions: the vertex rests but keeps
the velocity of its last movement, whatever the solver commits. -/
theorem fixed_velocity_stale_violated {n : ℕ} {s : State P} (hs : Consistent n s)
    (rate : P → P → P) (newPos : List P) (i v : ℕ) (p c : Particle P) (x : P)
    (ho : s.origIndex[i]? = some v) (ht : s.types[i]? = some .fixed) (hp : s.next[i]? = some p)
    (hc : s.cur[i]? = some c) (hx : newPos[v]? = some x) (q : List (Particle P)) :
    (updateVertices (updateFixed rate newPos s) q).next[i]? = some ⟨x, rate x p.pos⟩ := by
  have h := (fixed_velocity_partial hs rate newPos i v p c x ho ht hp hc hx).1
  have hcons := (apply_consistent hs (.fixed rate newPos)).1
  change Consistent n (updateFixed rate newPos s) at hcons
  have ht' : (updateFixed rate newPos s).types[i]? = some .fixed := ht
  have hd := takeWhile_sorted _ hcons.sorted i _ ht'
  generalize updateFixed rate newPos s = s' at *
  have hle := numDofs_le s'.types
  have h1 := hcons.next; have h3 := hcons.types
  have hi : ¬ i < numDofs s'.types := by rw [hd]; simp [VertexType.rank]
  have hlen : ((s'.next.zip (q.take (numDofs s'.types))).map Prod.snd).length =
      min q.length (numDofs s'.types) := by simp; omega
  simp only [updateVertices]
  rw [List.getElem?_append_right (by omega), hlen, List.getElem?_drop,
    show min q.length (numDofs s'.types) + (i - min q.length (numDofs s'.types)) = i by omega, h]

end Softy.Mesh
