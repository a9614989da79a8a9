import Verif.Props.EdgeAngle
import Mathlib.Data.List.Perm.Basic
import Mathlib.Data.List.Nodup

/-!
# Properties of interior edge detection (C39)
-/

namespace Softy.IEdge

/-- Specification: the sides of the triangles of a mesh, each with the index of its cell. -/
def sidesFrom : ℕ → List Cell → List (ℕ × ℕ × ℕ)
  | _, [] => []
  | i, .tri a b c :: l => (i, a, b) :: (i, b, c) :: (i, c, a) :: sidesFrom (i + 1) l
  | i, .other :: l => sidesFrom (i + 1) l

/-- Specification: two pairs of vertices are the same edge. -/
def SameEdge (a b c d : ℕ) : Prop := (a = c ∧ b = d) ∨ (a = d ∧ b = c)

instance (a b c d : ℕ) : Decidable (SameEdge a b c d) := by unfold SameEdge; infer_instance

/-- Specification: the cells of all sides that join `a` and `b`. -/
def cellsAt (cells : List Cell) (a b : ℕ) : List ℕ :=
  ((sidesFrom 0 cells).filter fun s => SameEdge s.2.1 s.2.2 a b).map fun s => s.1

theorem sortPair_eq_iff (a b c d : ℕ) : sortPair a b = sortPair c d ↔ SameEdge a b c d := by
  unfold sortPair SameEdge
  constructor
  · intro h
    split at h <;> split at h <;> simp only [Prod.mk.injEq] at h <;> omega
  · intro h
    split <;> split <;> simp only [Prod.mk.injEq] <;> omega

/-- The faces registered for a key. -/
def facesOf (ss : List (ℕ × ℕ × ℕ)) (k : ℕ × ℕ) : List ℕ :=
  (ss.filter fun s => sortPair s.2.1 s.2.2 = k).map fun s => s.1

theorem facesOf_append (ss : List (ℕ × ℕ × ℕ)) (s : ℕ × ℕ × ℕ) (k : ℕ × ℕ) :
    facesOf (ss ++ [s]) k = facesOf ss k ++ if sortPair s.2.1 s.2.2 = k then [s.1] else [] := by
  unfold facesOf
  rw [List.filter_append, List.map_append]
  congr 1
  by_cases h : sortPair s.2.1 s.2.2 = k <;> simp [h]

/-- The invariant of the map. -/
structure Inv (m : EdgeMap) (ss : List (ℕ × ℕ × ℕ)) : Prop where
  nodup : (m.map fun x => x.1).Nodup
  entry : ∀ x ∈ m, sortPair x.2.verts.1 x.2.verts.2 = x.1 ∧ x.2.faces = facesOf ss x.1
  all : ∀ s ∈ ss, sortPair s.2.1 s.2.2 ∈ m.map fun x => x.1

theorem register_keys (m : EdgeMap) (f : ℕ) (v : ℕ × ℕ) :
    (register m f v).map (fun x => x.1) =
      if sortPair v.1 v.2 ∈ m.map (fun x => x.1) then m.map (fun x => x.1)
      else m.map (fun x => x.1) ++ [sortPair v.1 v.2] := by
  induction m with
  | nil => simp [register]
  | cons x l ih =>
    obtain ⟨k, d⟩ := x
    unfold register
    by_cases h : k = sortPair v.1 v.2
    · rw [if_pos h]
      simp [h]
    · rw [if_neg h, List.map_cons, ih]
      have h' : ¬sortPair v.1 v.2 = k := fun e => h e.symm
      by_cases h2 : sortPair v.1 v.2 ∈ l.map fun x => x.1
      · rw [if_pos h2, if_pos (by rw [List.map_cons]; exact List.mem_cons_of_mem _ h2)]
        rfl
      · rw [if_neg h2, if_neg]
        · rfl
        · rw [List.map_cons, List.mem_cons]
          exact fun e => e.elim h' h2

theorem register_mem (m : EdgeMap) (f : ℕ) (v : ℕ × ℕ) (x : (ℕ × ℕ) × EdgeData)
    (hn : (m.map fun x => x.1).Nodup) (hx : x ∈ register m f v) :
    (x ∈ m ∧ x.1 ≠ sortPair v.1 v.2) ∨
      (∃ d, (sortPair v.1 v.2, d) ∈ m ∧
        x = (sortPair v.1 v.2, { d with faces := d.faces ++ [f] })) ∨
      (sortPair v.1 v.2 ∉ m.map (fun x => x.1) ∧ x = (sortPair v.1 v.2, ⟨v, [f]⟩)) := by
  induction m with
  | nil =>
    simp only [register, List.mem_singleton] at hx
    exact Or.inr (Or.inr ⟨by simp, hx⟩)
  | cons y l ih =>
    obtain ⟨k, d⟩ := y
    rw [List.map_cons, List.nodup_cons] at hn
    unfold register at hx
    by_cases h : k = sortPair v.1 v.2
    · rw [if_pos h] at hx
      rcases List.mem_cons.mp hx with rfl | hx
      · right; left
        exact ⟨d, by rw [h]; exact List.mem_cons_self, by rw [h]⟩
      · left
        refine ⟨List.mem_cons_of_mem _ hx, fun e => hn.1 ?_⟩
        have := List.mem_map_of_mem (f := fun x : (ℕ × ℕ) × EdgeData => x.1) hx
        rw [e, ← h] at this
        exact this
    · rw [if_neg h] at hx
      rcases List.mem_cons.mp hx with rfl | hx
      · exact Or.inl ⟨List.mem_cons_self, h⟩
      · rcases ih hn.2 hx with ⟨h1, h2⟩ | ⟨d', h1, h2⟩ | ⟨h1, h2⟩
        · exact Or.inl ⟨List.mem_cons_of_mem _ h1, h2⟩
        · exact Or.inr (Or.inl ⟨d', List.mem_cons_of_mem _ h1, h2⟩)
        · refine Or.inr (Or.inr ⟨?_, h2⟩)
          rw [List.map_cons, List.mem_cons]
          exact fun e => e.elim (fun e => h e.symm) h1

theorem register_inv {m : EdgeMap} {ss : List (ℕ × ℕ × ℕ)} (h : Inv m ss) (f : ℕ) (v : ℕ × ℕ) :
    Inv (register m f v) (ss ++ [(f, v)]) := by
  refine ⟨?_, ?_, ?_⟩
  · rw [register_keys]
    split
    · exact h.nodup
    · rename_i h'
      rw [List.nodup_append]
      refine ⟨h.nodup, List.nodup_singleton _, ?_⟩
      intro a ha b hb hab
      rw [List.mem_singleton] at hb
      subst hb; subst hab
      exact h' ha
  · intro x hx
    rw [facesOf_append]
    rcases register_mem m f v x h.nodup hx with ⟨h1, h2⟩ | ⟨d, h1, rfl⟩ | ⟨h1, rfl⟩
    · obtain ⟨e1, e2⟩ := h.entry x h1
      refine ⟨e1, ?_⟩
      rw [if_neg (fun e => h2 e.symm), List.append_nil, e2]
    · obtain ⟨e1, e2⟩ := h.entry _ h1
      refine ⟨e1, ?_⟩
      simp only at e2 ⊢
      rw [if_pos trivial, e2]
    · refine ⟨rfl, ?_⟩
      simp only
      rw [if_pos trivial]
      have : facesOf ss (sortPair v.1 v.2) = [] := by
        unfold facesOf
        rw [List.map_eq_nil_iff, List.filter_eq_nil_iff]
        intro s hs
        simp only [decide_eq_true_eq]
        intro e
        exact h1 (e ▸ h.all s hs)
      rw [this]
      rfl
  · intro s hs
    rw [register_keys]
    rcases List.mem_append.mp hs with hs | hs
    · split
      · exact h.all s hs
      · exact List.mem_append_left _ (h.all s hs)
    · rw [List.mem_singleton] at hs
      subst hs
      split
      · assumption
      · exact List.mem_append_right _ (List.mem_singleton.mpr rfl)

theorem addCells_inv (cells : List Cell) : ∀ (m : EdgeMap) (i : ℕ) (ss : List (ℕ × ℕ × ℕ)),
    Inv m ss → Inv (addCells m i cells) (ss ++ sidesFrom i cells) := by
  induction cells with
  | nil => intro m i ss h; simpa [addCells, sidesFrom] using h
  | cons c l ih =>
    intro m i ss h
    cases c with
    | tri a b c =>
      have h3 := register_inv (register_inv (register_inv h i (a, b)) i (b, c)) i (c, a)
      have := ih _ (i + 1) _ h3
      simpa [addCells, addFace, sidesFrom] using this
    | other => exact ih m (i + 1) ss h

theorem mem_sidesFrom (cells : List Cell) : ∀ (i f v w : ℕ), (f, v, w) ∈ sidesFrom i cells →
    ∃ a b c, i ≤ f ∧ cells[f - i]? = some (.tri a b c) ∧
      ((v, w) = (a, b) ∨ (v, w) = (b, c) ∨ (v, w) = (c, a)) := by
  induction cells with
  | nil => intro i f v w h; simp [sidesFrom] at h
  | cons x l ih =>
    intro i f v w h
    have step : (f, v, w) ∈ sidesFrom (i + 1) l → ∃ a b c, i ≤ f ∧
        (x :: l)[f - i]? = some (.tri a b c) ∧
        ((v, w) = (a, b) ∨ (v, w) = (b, c) ∨ (v, w) = (c, a)) := by
      intro h
      obtain ⟨a, b, c, h1, h2, h3⟩ := ih _ _ _ _ h
      refine ⟨a, b, c, by omega, ?_, h3⟩
      rw [show f - i = (f - (i + 1)) + 1 by omega, List.getElem?_cons_succ]
      exact h2
    cases x with
    | tri a b c =>
      simp only [sidesFrom, List.mem_cons] at h
      rcases h with h | h | h | h
      · rw [Prod.mk.injEq] at h; obtain ⟨rfl, h⟩ := h
        exact ⟨a, b, c, le_rfl, by simp, Or.inl h⟩
      · rw [Prod.mk.injEq] at h; obtain ⟨rfl, h⟩ := h
        exact ⟨a, b, c, le_rfl, by simp, Or.inr (Or.inl h)⟩
      · rw [Prod.mk.injEq] at h; obtain ⟨rfl, h⟩ := h
        exact ⟨a, b, c, le_rfl, by simp, Or.inr (Or.inr h)⟩
      · exact step h
    | other => exact step h

theorem edgeStart_spec (verts : ℕ × ℕ) (a b c v w : ℕ)
    (h : (v, w) = (a, b) ∨ (v, w) = (b, c) ∨ (v, w) = (c, a))
    (hs : SameEdge v w verts.1 verts.2) :
    ∃ s, edgeStart verts a b c = some s ∧
      ((s = 0 ∧ SameEdge a b verts.1 verts.2) ∨ (s = 1 ∧ SameEdge b c verts.1 verts.2) ∨
        (s = 2 ∧ SameEdge c a verts.1 verts.2)) := by
  unfold edgeStart SameEdge at *
  simp only [Prod.mk.injEq] at h
  split_ifs <;> simp <;> omega

theorem facesOf_eq (cells : List Cell) (a b : ℕ) :
    facesOf (sidesFrom 0 cells) (sortPair a b) = cellsAt cells a b := by
  unfold facesOf cellsAt
  simp only [sortPair_eq_iff]

theorem map_inv (cells : List Cell) : Inv (addCells [] 0 cells) (sidesFrom 0 cells) := by
  have h : Inv [] [] := ⟨List.nodup_nil, by simp, by simp⟩
  simpa using addCells_inv cells [] 0 [] h

/-- A cell at an edge is a triangle with that side, and the search for the side succeeds. -/
theorem side_found (cells : List Cell) (d : EdgeData) (f : ℕ)
    (hf : f ∈ cellsAt cells d.verts.1 d.verts.2) :
    ∃ s < 3, edgeStart d.verts (corner cells f 0) (corner cells f 1) (corner cells f 2) = some s ∧
      SameEdge (corner cells f (s % 3)) (corner cells f ((s + 1) % 3)) d.verts.1 d.verts.2 := by
  unfold cellsAt at hf
  rw [List.mem_map] at hf
  obtain ⟨⟨f', v, w⟩, hm, rfl⟩ := hf
  rw [List.mem_filter] at hm
  obtain ⟨hm, hs⟩ := hm
  simp only [decide_eq_true_eq] at hs
  obtain ⟨a, b, c, -, h2, h3⟩ := mem_sidesFrom cells 0 f' v w hm
  rw [Nat.sub_zero] at h2
  have c0 : corner cells f' 0 = a := by simp [corner, h2]
  have c1 : corner cells f' 1 = b := by simp [corner, h2]
  have c2 : corner cells f' 2 = c := by simp [corner, h2]
  obtain ⟨s, e1, e2⟩ := edgeStart_spec d.verts a b c v w h3 hs
  simp only [c0, c1, c2]
  refine ⟨s, by omega, e1, ?_⟩
  rcases e2 with ⟨rfl, e2⟩ | ⟨rfl, e2⟩ | ⟨rfl, e2⟩
  · simpa [c0, c1] using e2
  · simpa [c1, c2] using e2
  · simpa [c2, c0] using e2

/-- Specification: the vertices of two cells are not all fixed. -/
def SomeFree (cells : List Cell) (isFixed : ℕ → Bool) (fs : List ℕ) : Prop :=
  ∃ f ∈ fs, ∃ i < 3, isFixed (corner cells f i) = false

/-- What is made from an entry of the map. -/
theorem makeEdge_spec (cells : List Cell) (isFixed : ℕ → Bool) (d : EdgeData)
    (hd : d.faces = cellsAt cells d.verts.1 d.verts.2) :
    (∃ e : Edge, makeEdge cells isFixed d = some (some e) ∧ d.faces = [e.f0, e.f1] ∧
        SomeFree cells isFixed d.faces ∧ e.s0 < 3 ∧ e.s1 < 3 ∧
        SameEdge (e.vert0 (corner cells) 0) (e.vert0 (corner cells) 1) d.verts.1 d.verts.2 ∧
        SameEdge (e.vert1 (corner cells) 0) (e.vert1 (corner cells) 1) d.verts.1 d.verts.2) ∨
      (makeEdge cells isFixed d = some none ∧
        ¬(∃ f0 f1, d.faces = [f0, f1] ∧ SomeFree cells isFixed d.faces)) := by
  by_cases hf : ∃ f0 f1, d.faces = [f0, f1]
  · obtain ⟨f0, f1, hf⟩ := hf
    obtain ⟨s0, hs0, e0, t0⟩ := side_found cells d f0 (by rw [← hd, hf]; simp)
    obtain ⟨s1, hs1, e1, t1⟩ := side_found cells d f1 (by rw [← hd, hf]; simp)
    have hm : makeEdge cells isFixed d =
        if ((⟨f0, f1, s0, s1⟩ : Edge).verts (corner cells)).any (fun v => !isFixed v) then
          some (some ⟨f0, f1, s0, s1⟩) else some none := by
      unfold makeEdge
      rw [hf]
      simp only [e0, e1]
    have hany : ((⟨f0, f1, s0, s1⟩ : Edge).verts (corner cells)).any (fun v => !isFixed v) = true ↔
        SomeFree cells isFixed d.faces := by
      rw [hf]
      unfold Edge.verts Edge.vert0 Edge.vert1 SomeFree
      simp only [List.any_cons, List.any_nil, Bool.or_false, Bool.or_eq_true, Bool.not_eq_true',
        List.mem_cons, List.not_mem_nil, or_false, Nat.add_zero]
      constructor
      · rintro (h | h | h | h)
        · exact ⟨f0, Or.inl rfl, s0 % 3, by omega, h⟩
        · exact ⟨f0, Or.inl rfl, (s0 + 1) % 3, by omega, h⟩
        · exact ⟨f0, Or.inl rfl, (s0 + 2) % 3, by omega, h⟩
        · exact ⟨f1, Or.inr rfl, (s1 + 2) % 3, by omega, h⟩
      · rintro ⟨f, hf', i, hi, h⟩
        rcases hf' with rfl | rfl
        · have : i = s0 % 3 ∨ i = (s0 + 1) % 3 ∨ i = (s0 + 2) % 3 := by omega
          rcases this with rfl | rfl | rfl
          · exact Or.inl h
          · exact Or.inr (Or.inl h)
          · exact Or.inr (Or.inr (Or.inl h))
        · have : i = s1 % 3 ∨ i = (s1 + 1) % 3 ∨ i = (s1 + 2) % 3 := by omega
          have key : ∀ v, (v = corner cells f (s1 % 3) ∨ v = corner cells f ((s1 + 1) % 3)) →
              v = corner cells f0 (s0 % 3) ∨ v = corner cells f0 ((s0 + 1) % 3) := by
            intro v hv
            unfold SameEdge at t0 t1
            omega
          rcases this with rfl | rfl | rfl
          · rcases key _ (Or.inl rfl) with e | e
            · rw [e] at h; exact Or.inl h
            · rw [e] at h; exact Or.inr (Or.inl h)
          · rcases key _ (Or.inr rfl) with e | e
            · rw [e] at h; exact Or.inl h
            · rw [e] at h; exact Or.inr (Or.inl h)
          · exact Or.inr (Or.inr (Or.inr h))
    by_cases hc : SomeFree cells isFixed d.faces
    · left
      refine ⟨⟨f0, f1, s0, s1⟩, ?_, hf, hc, hs0, hs1, t0, t1⟩
      rw [hm, if_pos (hany.mpr hc)]
    · right
      refine ⟨?_, fun ⟨_, _, _, h⟩ => hc h⟩
      rw [hm, if_neg (fun h => hc (hany.mp h))]
  · right
    refine ⟨?_, fun ⟨f0, f1, h, _⟩ => hf ⟨f0, f1, h⟩⟩
    unfold makeEdge
    split
    · rename_i f0 f1 h
      exact absurd ⟨f0, f1, h⟩ hf
    · rfl

theorem makeEdges_eq (cells : List Cell) (isFixed : ℕ → Bool) (l : List EdgeData)
    (h : ∀ d ∈ l, makeEdge cells isFixed d ≠ none) :
    makeEdges cells isFixed l =
      some (l.filterMap fun d => (makeEdge cells isFixed d).join) := by
  induction l with
  | nil => rfl
  | cons d l ih =>
    have ih' := ih fun d hd => h d (List.mem_cons_of_mem _ hd)
    have hd := h d List.mem_cons_self
    unfold makeEdges
    rw [ih', List.filterMap_cons]
    match hm : makeEdge cells isFixed d with
    | none => exact absurd hm hd
    | some none => rfl
    | some (some e) => rfl

/-- In a map with distinct keys at most one entry yields an edge with a given key. -/
theorem filter_key (m : EdgeMap) (g : EdgeData → Option Edge) (key : Edge → ℕ × ℕ)
    (hn : (m.map fun x => x.1).Nodup) (hg : ∀ x ∈ m, ∀ e, g x.2 = some e → key e = x.1)
    (k : ℕ × ℕ) :
    ((m.map fun x => x.2).filterMap g).filter (fun e => key e = k) =
      match m.find? (fun x => x.1 = k) with
      | some x => (g x.2).toList
      | none => [] := by
  induction m with
  | nil => rfl
  | cons x l ih =>
    rw [List.map_cons, List.nodup_cons] at hn
    have ih' := ih hn.2 fun y hy => hg y (List.mem_cons_of_mem _ hy)
    rw [List.map_cons, List.filterMap_cons, List.find?_cons]
    by_cases hk : x.1 = k
    · have hnil : ((l.map fun x => x.2).filterMap g).filter (fun e => key e = k) = [] := by
        rw [ih']
        have : l.find? (fun x => x.1 = k) = none := by
          rw [List.find?_eq_none]
          intro y hy
          simp only [decide_eq_true_eq]
          intro e
          apply hn.1
          rw [hk, ← e]
          exact List.mem_map_of_mem hy
        rw [this]
      simp only [hk, decide_true]
      cases hgx : g x.2 with
      | none => exact hnil
      | some e =>
        have := hg x List.mem_cons_self e hgx
        simp only [List.filter_cons, this, hk, decide_true, if_true, hnil]
        rfl
    · simp only [hk, decide_false]
      rw [← ih']
      cases hgx : g x.2 with
      | none => rfl
      | some e =>
        have := hg x List.mem_cons_self e hgx
        simp only [List.filter_cons, this, hk, decide_false]
        rfl

open Classical in
/-- **C39.** For every list of cells and every order in which the hash map is traversed, detection
does not panic; every returned edge names two cells which are exactly the ones with a side between
its end points, and its starts identify that side in both; and every pair of vertices is returned
once if exactly two sides join it and not all vertices of the two triangles are fixed, and is not
returned otherwise. -/
theorem interior_edges (cells : List Cell) (isFixed : ℕ → Bool) (vals : List EdgeData)
    (hv : vals.Perm ((addCells [] 0 cells).map fun x => x.2)) :
    ∃ es, makeEdges cells isFixed vals = some es ∧
      (∀ e ∈ es, e.s0 < 3 ∧ e.s1 < 3 ∧
        cellsAt cells (e.vert0 (corner cells) 0) (e.vert0 (corner cells) 1) = [e.f0, e.f1] ∧
        SameEdge (e.vert1 (corner cells) 0) (e.vert1 (corner cells) 1)
          (e.vert0 (corner cells) 0) (e.vert0 (corner cells) 1)) ∧
      ∀ a b, (es.filter fun e =>
          SameEdge (e.vert0 (corner cells) 0) (e.vert0 (corner cells) 1) a b).length =
        if ∃ f0 f1, cellsAt cells a b = [f0, f1] ∧ SomeFree cells isFixed [f0, f1] then 1
        else 0 := by
  have hinv := map_inv cells
  have hentry : ∀ x ∈ addCells [] 0 cells, x.2.faces = cellsAt cells x.2.verts.1 x.2.verts.2 ∧
      sortPair x.2.verts.1 x.2.verts.2 = x.1 := by
    intro x hx
    obtain ⟨h1, h2⟩ := hinv.entry x hx
    refine ⟨?_, h1⟩
    rw [h2, ← h1, facesOf_eq]
  have hvals : ∀ d ∈ vals, d.faces = cellsAt cells d.verts.1 d.verts.2 := by
    intro d hd
    have := hv.mem_iff.mp hd
    rw [List.mem_map] at this
    obtain ⟨x, hx, rfl⟩ := this
    exact (hentry x hx).1
  have hsome : ∀ d ∈ vals, makeEdge cells isFixed d ≠ none := by
    intro d hd
    rcases makeEdge_spec cells isFixed d (hvals d hd) with ⟨e, h, -⟩ | ⟨h, -⟩ <;> rw [h] <;> simp
  have hsame : ∀ a b c d : ℕ, SameEdge a b c d → cellsAt cells a b = cellsAt cells c d := by
    intro a b c d h
    rw [← facesOf_eq, ← facesOf_eq, (sortPair_eq_iff a b c d).mpr h]
  refine ⟨_, makeEdges_eq cells isFixed vals hsome, ?_, ?_⟩
  · intro e he
    rw [List.mem_filterMap] at he
    obtain ⟨d, hd, he⟩ := he
    rcases makeEdge_spec cells isFixed d (hvals d hd) with
      ⟨e', h, hf, -, h0, h1, t0, t1⟩ | ⟨h, -⟩
    · rw [h] at he
      simp only [Option.join_some, Option.some.injEq] at he
      subst he
      refine ⟨h0, h1, ?_, ?_⟩
      · rw [hsame _ _ _ _ t0, ← hvals d hd, hf]
      · unfold SameEdge at *
        omega
    · rw [h] at he
      simp at he
  · intro a b
    have hperm := (hv.filterMap fun d => (makeEdge cells isFixed d).join).filter
      fun e => decide (sortPair (e.vert0 (corner cells) 0) (e.vert0 (corner cells) 1) =
        sortPair a b)
    have hfun : (fun e : Edge => decide
        (SameEdge (e.vert0 (corner cells) 0) (e.vert0 (corner cells) 1) a b)) =
        fun e => decide (sortPair (e.vert0 (corner cells) 0) (e.vert0 (corner cells) 1) =
          sortPair a b) := by
      funext e
      rw [decide_eq_decide, sortPair_eq_iff]
    rw [hfun, hperm.length_eq, filter_key (addCells [] 0 cells)
      (fun d => (makeEdge cells isFixed d).join)
      (fun e => sortPair (e.vert0 (corner cells) 0) (e.vert0 (corner cells) 1)) hinv.nodup]
    · cases hfind : (addCells [] 0 cells).find? (fun x => x.1 = sortPair a b) with
      | none =>
        have hnil : cellsAt cells a b = [] := by
          rw [← facesOf_eq]
          unfold facesOf
          rw [List.map_eq_nil_iff, List.filter_eq_nil_iff]
          intro s hs
          simp only [decide_eq_true_eq]
          intro e
          have := hinv.all s hs
          rw [List.mem_map] at this
          obtain ⟨x, hx, hx'⟩ := this
          rw [List.find?_eq_none] at hfind
          exact hfind x hx (by simp [hx', e])
        simp [hnil]
      | some x =>
        have hx := List.mem_of_find?_eq_some hfind
        have hk : x.1 = sortPair a b := by
          have := List.find?_some hfind
          simpa using this
        obtain ⟨hxf, hxk⟩ := hentry x hx
        have hcells : x.2.faces = cellsAt cells a b := by
          rw [hxf]
          apply hsame
          rw [← sortPair_eq_iff, hxk, hk]
        rcases makeEdge_spec cells isFixed x.2 hxf with ⟨e, h, hf, hc, -⟩ | ⟨h, hno⟩
        · rw [if_pos ⟨e.f0, e.f1, by rw [← hcells, hf], by rw [← hf]; exact hc⟩]
          simp [h]
        · rw [if_neg]
          · simp [h]
          · rintro ⟨f0, f1, h1, h2⟩
            exact hno ⟨f0, f1, by rw [hcells, h1], by rw [hcells, h1]; exact h2⟩
    · intro x hx e he
      obtain ⟨hxf, hxk⟩ := hentry x hx
      rcases makeEdge_spec cells isFixed x.2 hxf with ⟨e', h, -, -, -, -, t0, -⟩ | ⟨h, -⟩
      · simp only [h, Option.join_some, Option.some.injEq] at he
        subst he
        rw [← hxk]
        exact (sortPair_eq_iff _ _ _ _).mpr t0
      · simp [h] at he

/-- A returned edge with distinct end points satisfies the assumption `Edge.Shared` of the theorems
about angles. -/
theorem interior_edges_shared (cells : List Cell) (isFixed : ℕ → Bool) (vals : List EdgeData)
    (hv : vals.Perm ((addCells [] 0 cells).map fun x => x.2)) (es : List Edge)
    (he : makeEdges cells isFixed vals = some es) (e : Edge) (hm : e ∈ es)
    (hne : e.vert0 (corner cells) 0 ≠ e.vert0 (corner cells) 1) : e.Shared (corner cells) := by
  obtain ⟨es', h1, h2, -⟩ := interior_edges cells isFixed vals hv
  rw [he] at h1
  obtain rfl := Option.some.inj h1
  obtain ⟨h0, h1, -, hs⟩ := h2 e hm
  exact ⟨h0, h1, hne, hs.symm⟩

/-- Two triangles and a tetrahedron: one interior edge. -/
example : makeEdges [.tri 0 1 2, .other, .tri 2 1 3] (fun _ => false)
    ((addCells [] 0 [.tri 0 1 2, .other, .tri 2 1 3]).map fun x => x.2) =
      some [⟨0, 2, 1, 0⟩] := by decide

end Softy.IEdge
