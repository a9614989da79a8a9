import Verif.Props.Scene

/-!
# Properties of the keyframe store (C43) and of playback (C44)
-/

namespace Softy.Scene

variable {P : Type}

/-! ## Specification: a sorted map from frames to positions -/

/-- Insertion in a sorted association list. -/
def upsert (f : ℕ) (ps : List P) : List (ℕ × List P) → List (ℕ × List P)
  | [] => [(f, ps)]
  | (g, q) :: l =>
    if f < g then (f, ps) :: (g, q) :: l
    else if f = g then (f, ps) :: l
    else (g, q) :: upsert f ps l

/-- What was last added for frame `f` in a history of additions. -/
def lastAdded (h : List (ℕ × List P)) (f : ℕ) : Option (List P) :=
  (h.reverse.find? fun a => a.1 == f).map Prod.snd

/-- The stored positions of frame `f`. -/
def lookup (anim : List (Keyframe P)) (f : ℕ) : Option (List P) :=
  (anim.find? fun k => k.frame == f).map Keyframe.positions

/-- The store holds the (full) keyframes `fulls`, in increasing order of frames. -/
structure Holds (s : SceneData P) (fulls : List (ℕ × List P)) : Prop where
  anim : s.animation = fulls.map fun a => store s.topo a.1 a.2
  sorted : (fulls.map Prod.fst).Pairwise (· < ·)
  lens : ∀ a ∈ fulls, a.2.length = s.topo.numVertices

theorem upsert_append (f : ℕ) (ps : List P) (a b : List (ℕ × List P)) (h : ∀ x ∈ a, x.1 < f) :
    upsert f ps (a ++ b) = a ++ upsert f ps b := by
  induction a with
  | nil => rfl
  | cons x a ih =>
    obtain ⟨g, q⟩ := x
    have hg : g < f := h (g, q) (by simp)
    rw [List.cons_append, upsert, if_neg (by omega), if_neg (by omega),
      ih fun x hx => h x (by simp [hx]), List.cons_append]

theorem upsert_mem (f : ℕ) (ps : List P) (l : List (ℕ × List P)) (x : ℕ × List P)
    (hx : x ∈ upsert f ps l) : x = (f, ps) ∨ x ∈ l := by
  induction l with
  | nil => simpa [upsert] using hx
  | cons y l ih =>
    obtain ⟨g, q⟩ := y
    unfold upsert at hx
    split_ifs at hx
    · simpa using hx
    · rcases List.mem_cons.1 hx with h | h
      · exact .inl h
      · exact .inr (List.mem_cons_of_mem _ h)
    · rcases List.mem_cons.1 hx with h | h
      · exact .inr (by simp [h])
      · rcases ih h with h | h
        · exact .inl h
        · exact .inr (List.mem_cons_of_mem _ h)

theorem upsert_sorted (f : ℕ) (ps : List P) (l : List (ℕ × List P))
    (h : (l.map Prod.fst).Pairwise (· < ·)) :
    ((upsert f ps l).map Prod.fst).Pairwise (· < ·) := by
  induction l with
  | nil => simp [upsert]
  | cons y l ih =>
    obtain ⟨g, q⟩ := y
    rw [List.map_cons, List.pairwise_cons] at h
    unfold upsert
    split_ifs with h1 h2
    · rw [List.map_cons, List.pairwise_cons]
      refine ⟨?_, by rw [List.map_cons, List.pairwise_cons]; exact h⟩
      intro a ha
      rw [List.map_cons] at ha
      rcases List.mem_cons.1 ha with ha | ha
      · simp only at ha ⊢; omega
      · have := h.1 a ha; simp only at this ⊢; omega
    · rw [List.map_cons, List.pairwise_cons]
      subst h2
      exact h
    · rw [List.map_cons, List.pairwise_cons]
      refine ⟨?_, ih h.2⟩
      intro a ha
      obtain ⟨x, hx, e⟩ := List.mem_map.1 ha
      rcases upsert_mem f ps l x hx with h' | h'
      · subst h'; simp only at e ⊢; omega
      · exact h.1 a (List.mem_map.2 ⟨x, h', e⟩)

theorem upsert_find (f : ℕ) (ps : List P) (l : List (ℕ × List P))
    (h : (l.map Prod.fst).Pairwise (· < ·)) (g : ℕ) :
    (upsert f ps l).find? (fun a => a.1 == g) =
      if g = f then some (f, ps) else l.find? (fun a => a.1 == g) := by
  induction l with
  | nil =>
    by_cases e : g = f
    · subst e; simp [upsert]
    · simp [upsert, e, Ne.symm e]
  | cons y l ih =>
    obtain ⟨k, q⟩ := y
    rw [List.map_cons, List.pairwise_cons] at h
    have ih := ih h.2
    unfold upsert
    split_ifs with h1 h2 h3 h4
    · subst h2; simp
    · rw [List.find?_cons, show (f == g) = false by simpa using Ne.symm h2]
    · subst h4; simp [h3]
    · subst h3; rw [List.find?_cons, List.find?_cons, show (f == g) = false by simpa using Ne.symm h4]
    · rw [List.find?_cons, ih]
      rename_i h5
      subst h5
      rw [show (k == g) = false by simpa using Ne.symm h3]; simp
    · rw [List.find?_cons, ih]
      rename_i h5
      rw [if_neg h5, List.find?_cons]

/-! ## Binary search -/

theorem binarySearch_spec (keys : ℕ → ℕ) (key n left right : ℕ) (hr : right ≤ n)
    (hlr : left ≤ right)
    (hsort : ∀ i j, i < j → j < n → keys i < keys j) (h1 : ∀ i, i < left → keys i < key)
    (h2 : ∀ i, right ≤ i → i < n → key < keys i) :
    match binarySearch keys key left right with
    | .hit p => p < n ∧ keys p = key
    | .gap p => p ≤ n ∧ (∀ i, i < p → keys i < key) ∧ ∀ i, p ≤ i → i < n → key < keys i := by
  fun_induction binarySearch keys key left right with
  | case1 left right hlt hk ih =>
    refine ih hr (by omega) ?_ h2
    intro i hi
    by_cases e : i = left + (right - left) / 2
    · subst e; exact hk
    · exact lt_trans (hsort i _ (by omega) (by omega)) hk
  | case2 left right hlt hk hk' ih =>
    refine ih (by omega) (by omega) h1 ?_
    intro i hi hn
    by_cases e : i = left + (right - left) / 2
    · subst e; exact hk'
    · exact lt_trans hk' (hsort _ i (by omega) hn)
  | case3 left right hlt hk hk' => exact ⟨by omega, by omega⟩
  | case4 left right hlt => exact ⟨by omega, h1, fun i hi => h2 i (by omega)⟩

/-! ## Adding keyframes -/

theorem frameAt_map (s : SceneData P) (fulls : List (ℕ × List P)) (h : Holds s fulls) (i : ℕ)
    (a : ℕ × List P) (ha : fulls[i]? = some a) : frameAt s.animation i = a.1 := by
  rw [frameAt, h.anim, List.getElem?_map, ha]
  rfl

theorem holds_lt (fulls : List (ℕ × List P)) (h : (fulls.map Prod.fst).Pairwise (· < ·))
    (i j : ℕ) (a b : ℕ × List P) (hi : fulls[i]? = some a) (hj : fulls[j]? = some b)
    (hij : i < j) : a.1 < b.1 := by
  have := List.pairwise_iff_getElem.1 h
  obtain ⟨hi', rfl⟩ := List.getElem?_eq_some_iff.1 hi
  obtain ⟨hj', rfl⟩ := List.getElem?_eq_some_iff.1 hj
  have := this i j (by simpa) (by simpa) hij
  simpa using this

theorem insertIdx_eq {α : Type} (l : List α) (p : ℕ) (x : α) (h : p ≤ l.length) :
    l.insertIdx p x = l.take p ++ x :: l.drop p := by
  induction p generalizing l with
  | zero => rfl
  | succ p ih =>
    cases l with
    | nil => simp at h
    | cons a l => simp [ih l (by simpa using h)]

/-- Adding a keyframe refines insertion in the sorted map. -/
theorem addKeyframe_refines (s : SceneData P) (fulls : List (ℕ × List P)) (h : Holds s fulls)
    (hne : fulls ≠ []) (f : ℕ) (ps : List P) (hp : ps.length = s.topo.numVertices) :
    ∃ s', s.addKeyframe f ps = .ok s' ∧ s'.topo = s.topo ∧ Holds s' (upsert f ps fulls) := by
  suffices hs : s.addKeyframe f ps =
      .ok { s with animation := (upsert f ps fulls).map fun a => store s.topo a.1 a.2 } by
    refine ⟨_, hs, rfl, rfl, upsert_sorted f ps fulls h.sorted, ?_⟩
    intro a ha
    rcases upsert_mem f ps fulls a ha with rfl | h'
    · exact hp
    · exact h.lens a h'
  obtain ⟨init, last, rfl⟩ : ∃ init last, fulls = init ++ [last] :=
    ⟨fulls.dropLast, fulls.getLast hne, (List.dropLast_append_getLast hne).symm⟩
  have hl : s.animation.getLast? = some (store s.topo last.1 last.2) := by
    rw [h.anim]; simp
  have hinit : ∀ x ∈ init, x.1 < last.1 := by
    have := h.sorted
    rw [List.map_append, List.pairwise_append] at this
    intro x hx
    exact this.2.2 x.1 (List.mem_map_of_mem hx) last.1 (by simp)
  unfold SceneData.addKeyframe
  rw [hl]
  simp only [hp, ne_eq, not_true_eq_false, if_false, show (store s.topo last.1 last.2).frame = last.1 from rfl]
  split_ifs with h1 h2
  · have : upsert f ps (init ++ [last]) = init ++ [last] ++ [(f, ps)] := by
      have := upsert_append f ps (init ++ [last]) [] (by
        intro x hx
        rcases List.mem_append.1 hx with hx | hx
        · exact lt_trans (hinit x hx) h1
        · rw [List.mem_singleton] at hx; subst hx; exact h1)
      simpa [upsert] using this
    rw [this, h.anim, List.map_append (l₂ := [(f, ps)])]
    rfl
  · have : upsert f ps (init ++ [last]) = init ++ [(f, ps)] := by
      rw [upsert_append f ps init [last] (by intro x hx; rw [h2]; exact hinit x hx)]
      obtain ⟨g, q⟩ := last
      simp only at h2
      subst h2
      simp [upsert]
    rw [this, h.anim]
    subst h2
    simp [store]
  · have hsort : ∀ i j, i < j → j < s.animation.length →
        frameAt s.animation i < frameAt s.animation j := by
      intro i j hij hj
      have hlen : s.animation.length = (init ++ [last]).length := by rw [h.anim, List.length_map]
      have ei := List.getElem?_eq_getElem (l := init ++ [last]) (i := i) (by omega)
      have ej := List.getElem?_eq_getElem (l := init ++ [last]) (i := j) (by omega)
      rw [frameAt_map s _ h i _ ei, frameAt_map s _ h j _ ej]
      exact holds_lt _ h.sorted i j _ _ ei ej hij
    have hb := binarySearch_spec (frameAt s.animation) f s.animation.length 0 s.animation.length
      le_rfl (Nat.zero_le _) hsort (by simp) (by intro i; omega)
    have hanim := h.anim
    have hfr : ∀ i a, (init ++ [last])[i]? = some a → frameAt s.animation i = a.1 :=
      fun i a => frameAt_map s _ h i a
    have hlen : s.animation.length = (init ++ [last]).length := by rw [h.anim, List.length_map]
    have hsorted := h.sorted
    generalize init ++ [last] = fulls at hfr hlen hanim hsorted ⊢
    cases hbs : binarySearch (frameAt s.animation) f 0 s.animation.length with
    | hit p =>
      rw [hbs] at hb
      obtain ⟨hp1, hp2⟩ := hb
      have hp1' : p < fulls.length := by omega
      have ep := List.getElem?_eq_getElem hp1'
      have hf : fulls[p].1 = f := by rw [← hp2]; exact (hfr p _ ep).symm
      have hsplit : fulls = fulls.take p ++ fulls[p] :: fulls.drop (p + 1) := by
        rw [List.getElem_cons_drop, List.take_append_drop]
      have htake : ∀ x ∈ fulls.take p, x.1 < f := by
        intro x hx
        obtain ⟨i, hi, rfl⟩ := List.mem_take_iff_getElem.1 hx
        rw [← hf]
        exact holds_lt fulls hsorted i p _ _ (List.getElem?_eq_getElem _) ep (by omega)
      have hup : upsert f ps fulls = fulls.take p ++ (f, ps) :: fulls.drop (p + 1) := by
        conv_lhs => rw [hsplit]
        rw [upsert_append f ps _ _ htake]
        generalize fulls[p] = x at hf
        obtain ⟨g, q⟩ := x
        simp only at hf
        subst hf
        simp [upsert]
      simp only
      rw [hup, hanim, List.modify_eq_take_cons_drop (by simpa using hp1')]
      simp only [List.map_append, List.map_cons, List.map_take, List.map_drop, List.getElem_map,
        store, hf]
    | gap p =>
      rw [hbs] at hb
      obtain ⟨hp1, hp2, hp3⟩ := hb
      have htake : ∀ x ∈ fulls.take p, x.1 < f := by
        intro x hx
        obtain ⟨i, hi, rfl⟩ := List.mem_take_iff_getElem.1 hx
        rw [← hfr i _ (List.getElem?_eq_getElem _)]
        exact hp2 i (by omega)
      have hup : upsert f ps fulls = fulls.take p ++ (f, ps) :: fulls.drop p := by
        conv_lhs => rw [← List.take_append_drop p fulls]
        rw [upsert_append f ps _ _ htake]
        cases hd : fulls.drop p with
        | nil => rfl
        | cons x l =>
          have ex : fulls[p]? = some x := by
            rw [← List.head?_drop, hd]; rfl
          have hx := hp3 p le_rfl (by rw [hlen]; exact (List.getElem?_eq_some_iff.1 ex).1)
          rw [hfr p _ ex] at hx
          obtain ⟨g, q⟩ := x
          simp only at hx
          simp [upsert, hx]
      simp only
      rw [hup, hanim, insertIdx_eq _ _ _ (by rw [← hanim]; exact hp1)]
      simp only [List.map_append, List.map_cons, List.map_take, List.map_drop]

theorem upsert_ne_nil (f : ℕ) (ps : List P) (l : List (ℕ × List P)) : upsert f ps l ≠ [] := by
  cases l with
  | nil => simp [upsert]
  | cons y l => obtain ⟨g, q⟩ := y; unfold upsert; split_ifs <;> simp

/-- Add a history of keyframes. -/
def addAll (s : SceneData P) : List (ℕ × List P) → Except Panic (SceneData P)
  | [] => .ok s
  | (f, ps) :: l =>
    match s.addKeyframe f ps with
    | .ok s' => addAll s' l
    | .error e => .error e

theorem addAll_refines (s : SceneData P) (fulls : List (ℕ × List P)) (h : Holds s fulls)
    (hne : fulls ≠ []) (hist : List (ℕ × List P))
    (hp : ∀ a ∈ hist, a.2.length = s.topo.numVertices) :
    ∃ s', addAll s hist = .ok s' ∧ s'.topo = s.topo ∧
      Holds s' (hist.foldl (fun l a => upsert a.1 a.2 l) fulls) ∧
      hist.foldl (fun l a => upsert a.1 a.2 l) fulls ≠ [] := by
  induction hist generalizing s fulls with
  | nil => exact ⟨s, rfl, rfl, h, hne⟩
  | cons a l ih =>
    obtain ⟨f, ps⟩ := a
    obtain ⟨s₁, e₁, ht, h₁⟩ := addKeyframe_refines s fulls h hne f ps (hp (f, ps) (by simp))
    obtain ⟨s₂, e₂, ht₂, h₂⟩ := ih s₁ _ h₁ (upsert_ne_nil _ _ _)
      (by intro a ha; rw [ht]; exact hp a (by simp [ha]))
    refine ⟨s₂, ?_, ht₂.trans ht, h₂⟩
    rw [addAll, e₁]
    exact e₂

theorem new_holds (attrs : Attrs) (first : List P) :
    Holds (SceneData.new attrs first) [(0, first)] := by
  refine ⟨?_, by simp, ?_⟩
  · simp [SceneData.new, store, filterAnimated]
  · intro a ha
    rw [List.mem_singleton] at ha
    subst ha
    rfl

theorem foldl_find (hist fulls : List (ℕ × List P)) (h : (fulls.map Prod.fst).Pairwise (· < ·))
    (f : ℕ) :
    ((hist.foldl (fun l a => upsert a.1 a.2 l) fulls).find? fun a => a.1 == f).map Prod.snd =
      ((hist.reverse.find? fun a => a.1 == f).map Prod.snd).or
        ((fulls.find? fun a => a.1 == f).map Prod.snd) := by
  induction hist generalizing fulls with
  | nil => simp
  | cons a l ih =>
    obtain ⟨g, ps⟩ := a
    rw [List.foldl_cons, ih _ (upsert_sorted g ps fulls h), upsert_find g ps fulls h,
      List.reverse_cons, List.find?_append]
    cases l.reverse.find? fun a => a.1 == f with
    | some x => simp
    | none =>
      by_cases e : f = g
      · subst e; simp
      · simp [e, Ne.symm e]

/-- **C43**: starting with the scene of a mesh, after any history of added keyframes, nothing
panics, the keyframes are strictly sorted by frame, and looking up a frame gives the positions
most recently added for it (of animated vertices only, if a mask is present), where the mesh
counts as added for frame zero. -/
theorem keyframes_sorted_map (attrs : Attrs) (first : List P) (hist : List (ℕ × List P))
    (hp : ∀ a ∈ hist, a.2.length = first.length) :
    ∃ s, addAll (SceneData.new attrs first) hist = .ok s ∧
      s.topo = (SceneData.new attrs first).topo ∧
      (s.animation.map Keyframe.frame).Pairwise (· < ·) ∧
      ∀ f, lookup s.animation f =
        (lastAdded ((0, first) :: hist) f).map (filterAnimated s.topo f) := by
  obtain ⟨s, e, ht, h, -⟩ := addAll_refines _ _ (new_holds attrs first) (by simp) hist hp
  refine ⟨s, e, ht, ?_, ?_⟩
  · rw [h.anim, List.map_map]
    exact h.sorted
  · intro f
    have := foldl_find hist [(0, first)] (by simp) f
    have e1 : lastAdded ((0, first) :: hist) f =
        ((hist.foldl (fun l a => upsert a.1 a.2 l) [(0, first)]).find? fun a => a.1 == f).map
          Prod.snd := by
      rw [this, lastAdded, List.reverse_cons, List.find?_append]
      cases hist.reverse.find? fun a => a.1 == f <;> simp
    rw [e1, lookup, h.anim]
    generalize hist.foldl (fun l a => upsert a.1 a.2 l) [(0, first)] = fulls
    clear * -
    induction fulls with
    | nil => rfl
    | cons a l ih =>
      rw [List.map_cons, List.find?_cons, List.find?_cons]
      by_cases hf : a.1 = f
      · subst hf; simp [store]
      · have h1 : (a.1 == f) = false := by simpa using hf
        simp only [show (store s.topo a.1 a.2).frame = a.1 from rfl, h1]
        exact ih

/-- Keyframes added out of order, one of them twice. -/
example : ∃ s, addAll (SceneData.new [] [0]) [(5, [1]), (2, [2]), (9, [3]), (2, [4])] = .ok s ∧
    s.animation.map Keyframe.frame = [0, 2, 5, 9] ∧ lookup s.animation 2 = some [4] := by
  refine ⟨⟨⟨[], 1⟩, [⟨0, [0]⟩, ⟨2, [4]⟩, ⟨5, [1]⟩, ⟨9, [3]⟩]⟩, ?_, rfl, rfl⟩
  simp [addAll, SceneData.addKeyframe, SceneData.new, binarySearch, frameAt, store,
    filterAnimated, getAttr, keepAttrs]

end Softy.Scene
