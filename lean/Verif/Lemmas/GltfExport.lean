import Verif.Model.GltfExport
import Mathlib.Tactic

/-!
# Lemmas about selections, for C89
-/

namespace Softy.Gltf

/-! ## Selections -/

/-- The elements at places where `P` holds. -/
def sel {α : Type} : (ℕ → Bool) → List α → List α
  | _, [] => []
  | P, a :: l => if P 0 then a :: sel (fun i => P (i + 1)) l else sel (fun i => P (i + 1)) l

/-- The number of places before `i` where `P` holds. -/
def rank : (ℕ → Bool) → ℕ → ℕ
  | _, 0 => 0
  | P, i + 1 => (if P 0 then 1 else 0) + rank (fun j => P (j + 1)) i

theorem sel_length {α : Type} (P : ℕ → Bool) (l : List α) : (sel P l).length = rank P l.length := by
  induction l generalizing P with
  | nil => rfl
  | cons a l ih =>
    rw [sel, List.length_cons, rank]
    split <;> simp [ih, add_comm]

theorem sel_get {α : Type} (P : ℕ → Bool) (l : List α) (i : ℕ) (h : P i) : (sel P l)[rank P i]? = l[i]? := by
  induction l generalizing P i with
  | nil => simp [sel]
  | cons a l ih =>
    cases i with
    | zero => simp [sel, rank, h]
    | succ i =>
      have := ih (fun j => P (j + 1)) i h
      rw [sel, rank]
      split
      · rw [add_comm, List.getElem?_cons_succ, List.getElem?_cons_succ, this]
      · rw [zero_add, List.getElem?_cons_succ, this]

theorem rank_lt (P : ℕ → Bool) (i n : ℕ) (h : P i) (hi : i < n) : rank P i < rank P n := by
  induction n generalizing P i with
  | zero => omega
  | succ n ih =>
    cases i with
    | zero => rw [rank, rank]; simp only [h, if_true]; omega
    | succ i =>
      have := ih (fun j => P (j + 1)) i h (by omega)
      rw [rank, rank]
      omega

theorem rank_inj (P : ℕ → Bool) : Set.InjOn (rank P) {i | P i} := by
  intro i hi j hj h
  rcases lt_trichotomy i j with hl | hl | hl
  · have := rank_lt P i j hi hl; omega
  · exact hl
  · have := rank_lt P j i hj hl; omega

theorem rank_surj (P : ℕ → Bool) (n j : ℕ) (h : j < rank P n) : ∃ i, i < n ∧ P i ∧ rank P i = j := by
  induction n generalizing P j with
  | zero => simp [rank] at h
  | succ n ih =>
    rw [rank] at h
    by_cases h0 : P 0
    · rw [if_pos h0] at h
      cases j with
      | zero => exact ⟨0, by omega, h0, rfl⟩
      | succ j =>
        obtain ⟨i, hi, hp, hr⟩ := ih (fun j => P (j + 1)) j (by omega)
        exact ⟨i + 1, by omega, hp, by rw [rank, if_pos h0, hr, add_comm]⟩
    · rw [if_neg h0] at h
      obtain ⟨i, hi, hp, hr⟩ := ih (fun j => P (j + 1)) j (by omega)
      exact ⟨i + 1, by omega, hp, by rw [rank, if_neg h0, hr, zero_add]⟩

theorem sel_map {α β : Type} (P : ℕ → Bool) (f : α → β) (l : List α) : sel P (l.map f) = (sel P l).map f := by
  induction l generalizing P with
  | nil => rfl
  | cons a l ih => rw [List.map_cons, sel, sel]; split <;> simp [ih]

theorem sel_exists {α : Type} (P : ℕ → Bool) (l : List α) (j : ℕ) (x : α) (h : (sel P l)[j]? = some x) :
    ∃ i, P i ∧ rank P i = j ∧ l[i]? = some x := by
  obtain ⟨hj, hx⟩ := List.getElem?_eq_some_iff.1 h
  rw [sel_length] at hj
  obtain ⟨i, hi, hp, rfl⟩ := rank_surj P _ j hj
  exact ⟨i, hp, rfl, by rw [← sel_get P l i hp, h]⟩

/-- A list that agrees with `l` at the ranks of the places where `P` holds is the selection. -/
theorem sel_ext {α : Type} (P : ℕ → Bool) (l m : List α) (hl : m.length = rank P l.length)
    (h : ∀ i, P i → i < l.length → m[rank P i]? = l[i]?) : m = sel P l := by
  apply List.ext_getElem?
  intro j
  by_cases hj : j < m.length
  · obtain ⟨i, hi, hp, rfl⟩ := rank_surj P l.length j (by omega)
    rw [h i hp hi, sel_get P l i hp]
  · rw [List.getElem?_eq_none (by omega), List.getElem?_eq_none (by rw [sel_length]; omega)]

/-- The places of elements with a property. -/
def at' {α : Type} (p : α → Bool) (l : List α) (i : ℕ) : Bool := (l[i]?.map p).getD false

theorem filter_sel {α : Type} (p : α → Bool) (l : List α) : l.filter p = sel (at' p l) l := by
  induction l with
  | nil => rfl
  | cons a l ih =>
    have e : (fun i => at' p (a :: l) (i + 1)) = at' p l := by funext i; simp [at']
    rw [sel, e, ← ih, List.filter_cons]
    simp [at']

theorem at_map {α β : Type} (p : β → Bool) (f : α → β) (l : List α) : at' p (l.map f) = at' (fun a => p (f a)) l := by
  funext i
  simp [at', Function.comp_def]

theorem at_of_get {α : Type} {p : α → Bool} {l : List α} {i : ℕ} (h : at' p l i) : ∃ a, l[i]? = some a ∧ p a := by
  unfold at' at h
  cases hl : l[i]? with
  | none => rw [hl] at h; simp at h
  | some a => rw [hl] at h; exact ⟨a, rfl, by simpa using h⟩

theorem zip_filterMap {α β : Type} (p : α → Bool) (l : List α) (m : List β) (h : l.length = m.length) :
    ((l.zip m).filterMap fun q => if p q.1 then some q.2 else none) = sel (at' p l) m := by
  induction l generalizing m with
  | nil => cases m with
    | nil => rfl
    | cons _ _ => simp at h
  | cons a l ih =>
    cases m with
    | nil => simp at h
    | cons b m =>
      have e : (fun i => at' p (a :: l) (i + 1)) = at' p l := by funext i; simp [at']
      rw [List.zip_cons_cons, List.filterMap_cons, sel, e, ← ih m (by simpa using h)]
      by_cases hp : p a <;> simp [at', hp]

/-! ## Marks and numbers -/

/-- Marks of the vertices with property `P`. -/
def marks (P : ℕ → Bool) (n : ℕ) : List ℤ := (List.range n).map fun i => if P i then 0 else -1

theorem marks_congr {P Q : ℕ → Bool} {n : ℕ} (h : ∀ i < n, P i = Q i) : marks P n = marks Q n := by
  unfold marks
  apply List.map_congr_left
  intro i hi
  rw [h i (List.mem_range.1 hi)]

theorem markOne_marks (P : ℕ → Bool) (n i : ℕ) (h : i < n) :
    markOne (marks P n) i = some (marks (fun j => P j || decide (j = i)) n) := by
  unfold markOne
  rw [if_pos (by simpa [marks] using h)]
  congr 1
  apply List.ext_getElem?
  intro j
  rw [List.getElem?_set]
  unfold marks
  by_cases hj : j < n
  · by_cases hij : i = j
    · subst hij; simp [hj]
    · simp [hj, hij, Ne.symm hij]
  · rw [if_neg (by omega)]
    simp [hj]

theorem mark_cell (P : ℕ → Bool) (n : ℕ) (c : List ℕ) (h : ∀ i ∈ c, i < n) :
    c.foldlM markOne (marks P n) = some (marks (fun j => P j || decide (j ∈ c)) n) := by
  induction c generalizing P with
  | nil => simp
  | cons a c ih =>
    rw [List.foldlM_cons, markOne_marks P n a (h a (by simp))]
    simp only [Option.bind_eq_bind, Option.bind_some]
    rw [ih _ fun i hi => h i (List.mem_cons_of_mem _ hi)]
    congr 2
    funext j
    by_cases h1 : j = a <;> by_cases h2 : j ∈ c <;> simp [h1, h2]

/-- Whether a vertex belongs to a cell with `k` vertices. -/
def used (k : ℕ) (cells : List (List ℕ)) (i : ℕ) : Bool := decide (∃ c ∈ cells, c.length = k ∧ i ∈ c)

theorem mark_eq (n k : ℕ) (cells : List (List ℕ)) (h : ∀ c ∈ cells, ∀ i ∈ c, i < n) :
    mark n k cells = some (marks (used k cells) n) := by
  have key : ∀ (P : ℕ → Bool) (cells : List (List ℕ)), (∀ c ∈ cells, ∀ i ∈ c, i < n) →
      cells.foldlM (fun map cell => if cell.length = k then cell.foldlM markOne map else some map) (marks P n) =
        some (marks (fun j => P j || used k cells j) n) := by
    intro P cells
    induction cells generalizing P with
    | nil => intro _; simp [used]
    | cons c cells ih =>
      intro h
      rw [List.foldlM_cons]
      by_cases hc : c.length = k
      · rw [if_pos hc, mark_cell P n c (h c (by simp))]
        simp only [Option.bind_eq_bind, Option.bind_some]
        rw [ih _ fun c hc => h c (List.mem_cons_of_mem _ hc)]
        congr 2
        funext j
        rw [Bool.eq_iff_iff]
        simp [used, hc, or_assoc]
      · rw [if_neg hc]
        simp only [Option.bind_eq_bind, Option.bind_some]
        rw [ih _ fun c hc => h c (List.mem_cons_of_mem _ hc)]
        congr 2
        funext j
        rw [Bool.eq_iff_iff]
        simp [used, hc]
  have := key (fun _ => false) cells h
  unfold mark
  have e : List.replicate n (-1 : ℤ) = marks (fun _ => false) n := by
    apply List.ext_getElem <;> simp [marks]
  rw [e, this]
  simp

/-- The numbers of the vertices with property `P`. -/
def numbers (P : ℕ → Bool) (k n : ℕ) : List ℤ :=
  (List.range n).map fun i => if P i then ((k + rank P i : ℕ) : ℤ) else -1

/-- Rounding of positions. -/
def round (r32 : ℝ → ℝ) (p : ℝ × ℝ × ℝ) : ℝ × ℝ × ℝ := (r32 p.1, r32 p.2.1, r32 p.2.2)

theorem number_eq (r32 : ℝ → ℝ) (P : ℕ → Bool) (ps : List (ℝ × ℝ × ℝ)) (k : ℕ) :
    number r32 (marks P ps.length) ps k = (numbers P k ps.length, sel P (ps.map (round r32))) := by
  induction ps generalizing P k with
  | nil => rfl
  | cons p ps ih =>
    obtain ⟨x, y, z⟩ := p
    have e : marks P (ps.length + 1) = (if P 0 then 0 else -1) :: marks (fun i => P (i + 1)) ps.length := by
      simp [marks, List.range_succ_eq_map, Function.comp_def]
    have e' : ∀ k, numbers P k (ps.length + 1) = (if P 0 then ((k : ℕ) : ℤ) else -1) ::
        numbers (fun i => P (i + 1)) (if P 0 then k + 1 else k) ps.length := by
      intro k
      simp only [numbers, List.range_succ_eq_map, List.map_cons, List.map_map, Function.comp_def, rank, add_zero]
      congr 1
      apply List.map_congr_left
      intro i _
      by_cases h0 : P 0
      · simp only [h0, if_true]
        split <;> simp [add_assoc]
      · simp [h0]
    rw [List.length_cons, e, e', List.map_cons, sel]
    by_cases h0 : P 0
    · simp only [h0, if_true]
      rw [number, if_pos (by norm_num), ih]
      rfl
    · simp only [h0]
      rw [number, if_neg (by norm_num), ih]
      simp

theorem index_eq (P : ℕ → Bool) (n i : ℕ) (h : P i) (hi : i < n) : index (numbers P 0 n) i = some (rank P i) := by
  unfold index numbers
  simp [hi, h]

theorem pick_eq (P : ℕ → Bool) (data : List Value) : pick (numbers P 0 data.length) data = sel P data := by
  have := zip_filterMap (fun z : ℤ => decide (z ≠ -1)) (numbers P 0 data.length) data (by simp [numbers])
  unfold pick
  simp only [decide_eq_true_eq] at this
  rw [this]
  symm
  have hc : ∀ i < data.length, P i = at' (fun z : ℤ => decide (z ≠ -1)) (numbers P 0 data.length) i := by
    intro i hi
    unfold at' numbers
    by_cases hp : P i
    · simp [hi, hp]
    · simp [hi, hp]
  clear this
  generalize at' (fun z : ℤ => decide (z ≠ -1)) (numbers P 0 data.length) = Q at hc
  induction data generalizing P Q with
  | nil => rfl
  | cons a l ih =>
    rw [sel, sel, hc 0 (by simp), ih _ _ fun i hi => hc (i + 1) (by simpa using hi)]

theorem pickCells_eq (k : ℕ) (cells : List (List ℕ)) (data : List Value) (h : cells.length = data.length) :
    pickCells k cells data = sel (at' (fun c => decide (c.length = k)) cells) data := by
  rw [← zip_filterMap _ cells data h]
  simp [pickCells]

theorem mapM_map {α β : Type} (f : α → Option β) (g : α → β) (l : List α) (h : ∀ a ∈ l, f a = some (g a)) :
    l.mapM f = some (l.map g) := by
  induction l with
  | nil => rfl
  | cons a l ih =>
    rw [List.mapM_cons, h a (by simp), ih fun b hb => h b (List.mem_cons_of_mem _ hb)]
    rfl

theorem lookup_map (d : Dict) (f : Attrib → Attrib) (name : String) :
    (d.map fun e => (e.1, f e.2)).lookup name = (d.lookup name).map f := by
  induction d with
  | nil => rfl
  | cons e d ih =>
    obtain ⟨n, A⟩ := e
    rw [List.map_cons, List.lookup_cons, List.lookup_cons, ih]
    cases name == n <;> rfl

theorem lookup_mem {d : Dict} {name : String} {A : Attrib} (h : d.lookup name = some A) : (name, A) ∈ d := by
  induction d with
  | nil => cases h
  | cons e d ih =>
    obtain ⟨n, B⟩ := e
    rw [List.lookup_cons] at h
    by_cases hn : name = n
    · subst hn
      simp only [beq_self_eq_true] at h
      cases h
      simp
    · rw [beq_false_of_ne hn] at h
      exact List.mem_cons_of_mem _ (ih h)

/-! ## Boundaries -/

theorem tetFaces_map (g : ℕ → ℕ) (c : List ℕ) : tetFaces (c.map g) = (tetFaces c).map fun f => f.map g := by
  match c with
  | [] | [_] | [_, _] | [_, _, _] | [_, _, _, _] | _ :: _ :: _ :: _ :: _ :: _ => rfl

theorem tetFaces_mem {c f : List ℕ} (h : f ∈ tetFaces c) : f.length = 3 ∧ ∀ i ∈ f, i ∈ c := by
  match c with
  | [] | [_] | [_, _] | [_, _, _] | _ :: _ :: _ :: _ :: _ :: _ => simp [tetFaces] at h
  | [a, b, c, d] =>
    simp only [tetFaces, List.mem_cons, List.not_mem_nil, or_false] at h
    rcases h with rfl | rfl | rfl | rfl <;> simp

theorem allFaces_mem {α : Type} {l : List (List ℕ × α)} {f : List ℕ × α} (h : f ∈ allFaces l) :
    f.1.length = 3 ∧ ∃ c, (c, f.2) ∈ l ∧ ∀ i ∈ f.1, i ∈ c := by
  unfold allFaces at h
  rw [List.mem_flatMap] at h
  obtain ⟨⟨c, t⟩, ht, hf⟩ := h
  rw [List.mem_map] at hf
  obtain ⟨g, hg, rfl⟩ := hf
  exact ⟨(tetFaces_mem hg).1, c, ht, (tetFaces_mem hg).2⟩

theorem allFaces_map {α β : Type} (g : ℕ → ℕ) (h : α → β) (l : List (List ℕ × α)) :
    allFaces (l.map fun t => (t.1.map g, h t.2)) = (allFaces l).map fun f => (f.1.map g, h f.2) := by
  unfold allFaces
  rw [List.flatMap_map, List.map_flatMap]
  congr 1
  funext t
  rw [tetFaces_map, List.map_map, List.map_map]
  rfl

theorem perm_map_injOn {g : ℕ → ℕ} {S : Set ℕ} (hg : Set.InjOn g S) {a b : List ℕ} (ha : ∀ i ∈ a, i ∈ S)
    (hb : ∀ i ∈ b, i ∈ S) : (a.map g).Perm (b.map g) ↔ a.Perm b := by
  refine ⟨fun h => ?_, fun h => h.map g⟩
  have hl := hg.leftInvOn_invFunOn
  have := h.map (Function.invFunOn g S)
  rw [List.map_map, List.map_map] at this
  have e : ∀ l : List ℕ, (∀ i ∈ l, i ∈ S) → l.map (Function.invFunOn g S ∘ g) = l := by
    intro l hS
    conv_rhs => rw [← List.map_id l]
    exact List.map_congr_left fun i hi => hl (hS i hi)
  rwa [e a ha, e b hb] at this

theorem boundary_map {α β : Type} (g : ℕ → ℕ) (h : α → β) (l : List (List ℕ × α)) (S : Set ℕ)
    (hg : Set.InjOn g S) (hS : ∀ t ∈ l, ∀ i ∈ t.1, i ∈ S) :
    boundary (l.map fun t => (t.1.map g, h t.2)) = (boundary l).map fun f => (f.1.map g, h f.2) := by
  unfold boundary
  rw [allFaces_map, List.filter_map]
  congr 1
  apply List.filter_congr
  intro f hf
  obtain ⟨_, c, hc, hi⟩ := allFaces_mem hf
  have hfS : ∀ i ∈ f.1, i ∈ S := fun i h => hS _ hc i (hi i h)
  simp only [Function.comp_apply]
  rw [List.countP_map]
  have : List.countP ((fun g_1 : List ℕ × β => g_1.1.isPerm (f.1.map g)) ∘ fun f : List ℕ × α => (f.1.map g, h f.2))
      (allFaces l) = List.countP (fun g => g.1.isPerm f.1) (allFaces l) := by
    apply List.countP_congr
    intro f' hf'
    obtain ⟨_, c', hc', hi'⟩ := allFaces_mem hf'
    simp only [Function.comp_apply, List.isPerm_iff]
    exact perm_map_injOn hg (fun i h => hS _ hc' i (hi' i h)) hfS
  rw [this]

theorem boundary_mem {α : Type} {l : List (List ℕ × α)} {f : List ℕ × α} (h : f ∈ boundary l) :
    f.1.length = 3 ∧ ∃ c, (c, f.2) ∈ l ∧ ∀ i ∈ f.1, i ∈ c :=
  allFaces_mem (List.mem_of_mem_filter h)

end Softy.Gltf
