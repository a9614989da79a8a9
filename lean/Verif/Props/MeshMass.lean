import Verif.Props.MeshState

/-!
# Lumped masses

C23.
-/

namespace Softy.Mesh

variable {P : Type*}

/-! ## Specification -/

/-- A cell takes part in the simulation: a triangle, or a tetrahedron of a solid material, not
all of whose vertices are fixed. -/
def simulated (types : List VertexType) (c : Cell × Material) : Prop :=
  (∃ v ∈ c.1.verts, types[v]? ≠ some .fixed) ∧
    (c.1.ty = .triangle ∨ c.1.ty = .tetrahedron ∧ ∃ model d, c.2 = .solid model d)

/-- Density of a cell: the attribute of the mesh if there is one, else that of its material. -/
def cellDensity (c : Cell × Material) : ℝ :=
  match c.1.density, c.2 with
  | some d, _ => d
  | none, .solid _ (some d) => d
  | none, .softShell (some d) => d
  | none, _ => 0

open Classical in
/-- Mass of a cell: volume or area times density if it is simulated. -/
noncomputable def cellMass (types : List VertexType) (c : Cell × Material) : ℝ :=
  if simulated types c then c.1.measure * cellDensity c else 0

/-! ## Proofs -/

theorem sum_modify (l : List ℝ) (i : ℕ) (a : ℝ) (h : i < l.length) :
    (l.modify i (· + a)).sum = l.sum + a := by
  induction l generalizing i with
  | nil => simp at h
  | cons x t ih =>
    cases i with
    | zero => simp [List.modify_cons]; ring
    | succ i =>
      simp only [List.modify_succ_cons, List.sum_cons]
      rw [ih i (by simpa using h)]
      ring

theorem addVerts_sum (a : ℝ) (verts : List ℕ) (m : List ℝ) (h : ∀ v ∈ verts, v < m.length) :
    (verts.foldl (fun m i => m.modify i (· + a)) m).sum = m.sum + verts.length * a ∧
      (verts.foldl (fun m i => m.modify i (· + a)) m).length = m.length := by
  induction verts generalizing m with
  | nil => simp
  | cons v t ih =>
    have := ih (m.modify v (· + a)) fun w hw => by
      rw [List.length_modify]; exact h w (List.mem_cons_of_mem _ hw)
    rw [List.foldl_cons, this.1, this.2, List.length_modify,
      sum_modify _ _ _ (h v List.mem_cons_self)]
    constructor
    · push_cast [List.length_cons]; ring
    · rfl

theorem addMass_foldl_sum (share : ℝ → ℝ) (k : ℕ) (hshare : ∀ x, k * share x = x)
    (es : List Element) (m : List ℝ)
    (h : ∀ e ∈ es, e.verts.length = k ∧ ∀ v ∈ e.verts, v < m.length) :
    (es.foldl (addMass share) m).sum =
        m.sum + (es.map fun e => e.measure * e.density).sum ∧
      (es.foldl (addMass share) m).length = m.length := by
  induction es generalizing m with
  | nil => simp
  | cons e t ih =>
    obtain ⟨hk, hv⟩ := h e List.mem_cons_self
    have h1 := addVerts_sum (share (e.measure * e.density)) e.verts m hv
    have h2 := ih (addMass share m e) fun d hd => by
      rw [addMass, h1.2]; exact h d (List.mem_cons_of_mem _ hd)
    rw [List.foldl_cons, h2.1, h2.2, addMass, h1.1, h1.2, hk, hshare]
    simp; ring

theorem mapM_some {α β : Type*} (f : α → Option β) (l : List α) (r : List β)
    (h : l.mapM f = some r) : List.Forall₂ (fun a b => f a = some b) l r := by
  induction l generalizing r with
  | nil =>
    simp only [List.mapM_nil] at h
    cases h; exact .nil
  | cons a t ih =>
    rw [List.mapM_cons] at h
    cases ha : f a with
    | none => rw [ha] at h; cases h
    | some b =>
      cases ht : t.mapM f with
      | none => rw [ha, ht] at h; cases h
      | some s =>
        rw [ha, ht] at h
        cases h
        exact .cons ha (ih s ht)

/-- The elements made from the cells with a given property. -/
theorem elements_sum (p : Cell × Material → Bool) (density : Cell × Material → Option ℝ)
    (cells : List (Cell × Material)) (es : List Element)
    (hd : ∀ c d, p c = true → density c = some d → cellDensity c = d)
    (h : (cells.filter p).mapM (mkElement density) = some es) :
    (es.map fun e => e.measure * e.density).sum =
        (cells.map fun c => if p c then c.1.measure * cellDensity c else 0).sum ∧
      ∀ e ∈ es, ∃ c ∈ cells, p c = true ∧ e.verts = c.1.verts ∧ e.measure = c.1.measure ∧
        0 < e.measure ∧ density c = some e.density := by
  have h2 := mapM_some _ _ _ h
  clear h
  have key : ∀ c e, p c = true → mkElement density c = some e →
      e.verts = c.1.verts ∧ e.measure = c.1.measure ∧ 0 < e.measure ∧
        density c = some e.density := by
    intro c e _ hce
    unfold mkElement at hce
    split at hce
    · split at hce
      · cases hce
      · rename_i d hd' hm
        cases hce
        exact ⟨rfl, rfl, not_le.1 hm, hd'⟩
    · cases hce
  induction cells generalizing es with
  | nil =>
    cases h2
    simp
  | cons c t ih =>
    by_cases hp : p c = true
    · rw [List.filter_cons_of_pos hp] at h2
      cases h2 with
      | @cons _ e _ es' hce ht =>
        obtain ⟨k1, k2, k3, k4⟩ := key c e hp hce
        obtain ⟨i1, i2⟩ := ih es' ht
        refine ⟨?_, ?_⟩
        · rw [List.map_cons, List.sum_cons, i1, List.map_cons, List.sum_cons, if_pos hp, k2,
            hd c _ hp k4]
        · intro d hd'
          rcases List.mem_cons.1 hd' with rfl | hd'
          · exact ⟨c, List.mem_cons_self, hp, k1, k2, k3, k4⟩
          · obtain ⟨c', hc', r⟩ := i2 d hd'
            exact ⟨c', List.mem_cons_of_mem _ hc', r⟩
    · rw [List.filter_cons_of_neg hp] at h2
      obtain ⟨i1, i2⟩ := ih es h2
      refine ⟨by rw [i1, List.map_cons, List.sum_cons, if_neg hp, zero_add], ?_⟩
      intro d hd'
      obtain ⟨c', hc', r⟩ := i2 d hd'
      exact ⟨c', List.mem_cons_of_mem _ hc', r⟩

theorem tetDensity_spec (model : ElasticityModel) (types : List VertexType) (c : Cell × Material)
    (d : ℝ) (hp : isTet model types c = true) (h : tetDensity c = some d) : cellDensity c = d := by
  obtain ⟨⟨ty, verts, measure, density, mtl⟩, mat⟩ := c
  unfold tetDensity at h
  unfold cellDensity
  unfold isTet at hp
  cases density <;> cases mat <;> simp_all

theorem triDensity_spec (types : List VertexType) (c : Cell × Material)
    (d : ℝ) (_ : isTri types c = true) (h : triDensity c = some d) : cellDensity c = d := by
  obtain ⟨⟨ty, verts, measure, density, mtl⟩, mat⟩ := c
  unfold triDensity at h
  unfold cellDensity
  cases density <;> cases mat <;> simp_all

theorem someNotFixed_iff (types : List VertexType) (c : Cell) :
    someNotFixed types c = true ↔ ∃ v ∈ c.verts, types[v]? ≠ some .fixed := by
  simp [someNotFixed]

/-- The three kinds of elements are disjoint and together are the simulated cells. -/
theorem cellMass_split (types : List VertexType) (c : Cell × Material) (hv : c.1.valid) :
    cellMass types c =
      (if isTet .neoHookean types c then c.1.measure * cellDensity c else 0) +
      (if isTet .stableNeoHookean types c then c.1.measure * cellDensity c else 0) +
      (if isTri types c then c.1.measure * cellDensity c else 0) := by
  unfold cellMass simulated
  rw [← someNotFixed_iff]
  obtain ⟨⟨ty, verts, measure, density, mtl⟩, mat⟩ := c
  generalize cellDensity _ = d
  simp only [isTet, isTri, hv]
  cases hs : someNotFixed types _ <;> cases ty <;> cases mat <;> simp [hs]
  all_goals rename_i model _
  all_goals cases model <;> simp

/-- **C23**: whenever the elements can be built, the lumped masses of all vertices add up to the
sum of the masses of all simulated cells. -/
theorem mass_total (types : List VertexType) (cells : List (Cell × Material)) (n : ℕ)
    (hcells : ∀ c ∈ cells, c.1.valid ∧ ∀ v ∈ c.1.verts, v < n) (nh snh tris : List Element)
    (h1 : tetElements .neoHookean types cells = some nh)
    (h2 : tetElements .stableNeoHookean types cells = some snh)
    (h3 : triElements types cells = some tris) :
    (vertexMasses nh snh tris n).sum = (cells.map (cellMass types)).sum ∧
      (vertexMasses nh snh tris n).length = n := by
  obtain ⟨s1, m1⟩ := elements_sum _ _ _ _ (tetDensity_spec .neoHookean types) h1
  obtain ⟨s2, m2⟩ := elements_sum _ _ _ _ (tetDensity_spec .stableNeoHookean types) h2
  obtain ⟨s3, m3⟩ := elements_sum _ _ _ _ (triDensity_spec types) h3
  have size : ∀ model c, isTet model types c = true → c.1.verts.length = 4 := by
    intro model c h
    unfold isTet at h
    split at h
    · simp only [Bool.and_eq_true, decide_eq_true_eq] at h
      have := h.1.2
      rw [Cell.valid, h.1.1.2] at this
      exact this
    · cases h
  have sizeT : ∀ c, isTri types c = true → c.1.verts.length = 3 := by
    intro c h
    simp only [isTri, Bool.and_eq_true, decide_eq_true_eq] at h
    have := h.1.2
    rw [Cell.valid, h.1.1] at this
    exact this
  have ht := addMass_foldl_sum tetShare 4 (by intro x; norm_num [tetShare]; ring) (nh ++ snh)
    (List.replicate n 0) (by
      intro e he
      rw [List.length_replicate]
      rcases List.mem_append.1 he with he | he
      · obtain ⟨c, hc, hp, hv, -⟩ := m1 e he
        exact hv ▸ ⟨size _ c hp, (hcells c hc).2⟩
      · obtain ⟨c, hc, hp, hv, -⟩ := m2 e he
        exact hv ▸ ⟨size _ c hp, (hcells c hc).2⟩)
  have htr := addMass_foldl_sum triShare 3 (by intro x; norm_num [triShare]; ring) tris
    ((nh ++ snh).foldl (addMass tetShare) (List.replicate n 0)) (by
      intro e he
      rw [ht.2, List.length_replicate]
      obtain ⟨c, hc, hp, hv, -⟩ := m3 e he
      exact hv ▸ ⟨sizeT c hp, (hcells c hc).2⟩)
  constructor
  · rw [vertexMasses, htr.1, ht.1, List.map_append, List.sum_append, s1, s2, s3]
    rw [show (List.replicate n (0 : ℝ)).sum = 0 by simp, zero_add]
    rw [← List.sum_map_add, ← List.sum_map_add]
    refine congrArg List.sum (List.map_congr_left fun c hc => ?_)
    rw [cellMass_split types c (hcells c hc).1]
  · rw [vertexMasses, htr.2, ht.2, List.length_replicate]

theorem addMass_get (share : ℝ → ℝ) (m : List ℝ) (e : Element) (v : ℕ) :
    (addMass share m e)[v]? =
      (m[v]?).map fun x => x + (e.verts.count v) * share (e.measure * e.density) := by
  unfold addMass
  generalize share _ = a
  generalize e.verts = verts
  induction verts generalizing m with
  | nil => simp
  | cons i t ih =>
    rw [List.foldl_cons, ih, List.getElem?_modify]
    rcases m[v]? with - | x
    · simp
    · by_cases hi : i = v
      · subst hi
        simp; ring
      · simp [hi, List.count_cons]

/-- The mass of a vertex is the sum of its shares. -/
theorem addMass_foldl_get (share : ℝ → ℝ) (es : List Element) (m : List ℝ) (v : ℕ) :
    (es.foldl (addMass share) m)[v]? = (m[v]?).map fun x =>
      x + (es.map fun e => (e.verts.count v) * share (e.measure * e.density)).sum := by
  induction es generalizing m with
  | nil => simp
  | cons e t ih =>
    rw [List.foldl_cons, ih, addMass_get]
    rcases m[v]? with - | x
    · rfl
    · simp; ring

theorem vertexMasses_get (nh snh tris : List Element) (n v : ℕ) (hv : v < n) :
    (vertexMasses nh snh tris n)[v]? = some
      (((nh ++ snh).map fun e => (e.verts.count v) * tetShare (e.measure * e.density)).sum +
       (tris.map fun e => (e.verts.count v) * triShare (e.measure * e.density)).sum) := by
  rw [vertexMasses, addMass_foldl_get, addMass_foldl_get, List.getElem?_replicate, if_pos hv]
  simp

theorem share_nonneg {x : ℝ} (h : 0 ≤ x) : 0 ≤ tetShare x ∧ 0 ≤ triShare x := by
  constructor
  · exact mul_nonneg (by norm_num) h
  · exact div_nonneg h (by norm_num)

theorem share_pos {x : ℝ} (h : 0 < x) : 0 < tetShare x ∧ 0 < triShare x := by
  constructor
  · exact mul_pos (by norm_num) h
  · exact div_pos h (by norm_num)

theorem elements_density {p : Cell × Material → Bool} {density : Cell × Material → Option ℝ}
    {cells : List (Cell × Material)} {es : List Element}
    (hd : ∀ c d, p c = true → density c = some d → cellDensity c = d)
    (h : (cells.filter p).mapM (mkElement density) = some es)
    (hpos : ∀ c ∈ cells, 0 ≤ cellDensity c) (e : Element) (he : e ∈ es) :
    0 ≤ e.measure * e.density := by
  obtain ⟨c, hc, hp, -, -, hm, hde⟩ := (elements_sum p density cells es hd h).2 e he
  exact mul_nonneg hm.le (hd c _ hp hde ▸ hpos c hc)

/-- **C23**, sign: with non-negative densities no vertex has a negative mass. -/
theorem mass_nonneg (types : List VertexType) (cells : List (Cell × Material)) (n : ℕ)
    (hpos : ∀ c ∈ cells, 0 ≤ cellDensity c) (nh snh tris : List Element)
    (h1 : tetElements .neoHookean types cells = some nh)
    (h2 : tetElements .stableNeoHookean types cells = some snh)
    (h3 : triElements types cells = some tris) (x : ℝ) (hx : x ∈ vertexMasses nh snh tris n) :
    0 ≤ x := by
  obtain ⟨v, hv⟩ := List.mem_iff_getElem?.1 hx
  by_cases hvn : v < n
  · rw [vertexMasses_get _ _ _ _ _ hvn] at hv
    cases hv
    refine add_nonneg (List.sum_nonneg ?_) (List.sum_nonneg ?_)
    · intro y hy
      obtain ⟨e, he, rfl⟩ := List.mem_map.1 hy
      refine mul_nonneg (Nat.cast_nonneg _) (share_nonneg ?_).1
      rcases List.mem_append.1 he with he | he
      · exact elements_density (tetDensity_spec .neoHookean types) h1 hpos e he
      · exact elements_density (tetDensity_spec .stableNeoHookean types) h2 hpos e he
    · intro y hy
      obtain ⟨e, he, rfl⟩ := List.mem_map.1 hy
      exact mul_nonneg (Nat.cast_nonneg _)
        (share_nonneg (elements_density (triDensity_spec types) h3 hpos e he)).2
  · have hl : (vertexMasses nh snh tris n).length = n := by
      have hl' : ∀ (share : ℝ → ℝ) (es : List Element) (m : List ℝ),
          (es.foldl (addMass share) m).length = m.length := by
        intro share es
        induction es with
        | nil => intro m; rfl
        | cons e t ih =>
          intro m
          rw [List.foldl_cons, ih, addMass]
          generalize e.verts = vs
          induction vs generalizing m with
          | nil => rfl
          | cons w ws ihw => rw [List.foldl_cons, ihw, List.length_modify]
      rw [vertexMasses, hl', hl', List.length_replicate]
    have := (List.getElem?_eq_some_iff.1 hv).1
    omega

/-- A mesh of one tetrahedron and one triangle, of masses `6` and `2`. -/
example : ∃ nh snh tris : List Element,
    tetElements .neoHookean [.free, .free, .free, .free, .fixed]
      [(⟨.tetrahedron, [0, 1, 2, 3], 2, none, 0⟩, .solid .neoHookean (some 3)),
       (⟨.triangle, [1, 2, 4], 1, some 2, 0⟩, .softShell none)] = some nh ∧
    tetElements .stableNeoHookean [.free, .free, .free, .free, .fixed]
      [(⟨.tetrahedron, [0, 1, 2, 3], 2, none, 0⟩, .solid .neoHookean (some 3)),
       (⟨.triangle, [1, 2, 4], 1, some 2, 0⟩, .softShell none)] = some snh ∧
    triElements [.free, .free, .free, .free, .fixed]
      [(⟨.tetrahedron, [0, 1, 2, 3], 2, none, 0⟩, .solid .neoHookean (some 3)),
       (⟨.triangle, [1, 2, 4], 1, some 2, 0⟩, .softShell none)] = some tris ∧
    (vertexMasses nh snh tris 5).sum = 8 := by
  refine ⟨[⟨[0, 1, 2, 3], 2, 3⟩], [], [⟨[1, 2, 4], 1, 2⟩], ?_, ?_, ?_, ?_⟩
  · simp [tetElements, isTet, someNotFixed, Cell.valid, CellType.size, mkElement, tetDensity]
    norm_num
  · simp [tetElements, isTet]
  · simp [triElements, isTri, someNotFixed, Cell.valid, CellType.size, mkElement, triDensity]
    norm_num
  · norm_num [vertexMasses, addMass, tetShare, triShare, List.modify_cons, List.replicate]

/-! ## Inverse masses of the degrees of freedom -/

theorem mapM_mem {α β : Type*} {f : α → Option β} {l : List α} {r : List β}
    (h : l.mapM f = some r) {a : α} (ha : a ∈ l) : ∃ b ∈ r, f a = some b := by
  have := mapM_some _ _ _ h
  clear h
  induction this with
  | nil => cases ha
  | cons hab _ ih =>
    rcases List.mem_cons.1 ha with rfl | ha
    · exact ⟨_, List.mem_cons_self, hab⟩
    · obtain ⟨b, hb, h⟩ := ih ha
      exact ⟨b, List.mem_cons_of_mem _ hb, h⟩

theorem count_free (l : List VertexType) (h : l.Pairwise fun a b => a.rank ≤ b.rank) (i : ℕ)
    (t : VertexType) (ht : l[i]? = some t) : i < l.count .free ↔ t = .free := by
  induction l generalizing i with
  | nil => simp at ht
  | cons a r ih =>
    rw [List.pairwise_cons] at h
    by_cases ha : a = .free
    · subst ha
      rw [List.count_cons_self]
      cases i with
      | zero =>
        simp only [List.getElem?_cons_zero, Option.some.injEq] at ht
        subst ht; simp
      | succ i => rw [← ih h.2 i (by simpa using ht)]; omega
    · have hall : ∀ b ∈ a :: r, b ≠ .free := by
        intro b hb hbf
        rcases List.mem_cons.1 hb with rfl | hb
        · exact ha hbf
        · have := h.1 b hb
          subst hbf
          cases a <;> simp [VertexType.rank] at this ha
      rw [List.count_eq_zero.2 fun hmem => hall _ hmem rfl]
      have := hall t (List.mem_of_getElem? ht)
      simp [this]

theorem massInv_get (masses : List ℝ) (k n i : ℕ) (hm : masses.length = n) (hk : k ≤ n) (x : ℝ)
    (hx : masses[i]? = some x) :
    (massInv masses k n)[i]? =
      if i < k then some (if x = 0 then none else some (1 / x)) else some (some 0) := by
  have hi : i < n := hm ▸ (List.getElem?_eq_some_iff.1 hx).1
  have hl : ((masses.take k).map fun m => if m = 0 then none else some (1 / m)).length = k := by
    simp; omega
  unfold massInv
  split_ifs with h
  · rw [List.getElem?_append_left (by omega), List.getElem?_map, List.getElem?_take_of_lt h, hx]
    simp [*]
  · rw [List.getElem?_append_left (by omega), List.getElem?_map, List.getElem?_take_of_lt h, hx]
    simp [*]
  · rw [List.getElem?_append_right (by omega), hl, List.getElem?_replicate, if_pos (by omega)]

theorem vertexMasses_length (nh snh tris : List Element) (n : ℕ) :
    (vertexMasses nh snh tris n).length = n := by
  have hl' : ∀ (share : ℝ → ℝ) (es : List Element) (m : List ℝ),
      (es.foldl (addMass share) m).length = m.length := by
    intro share es
    induction es with
    | nil => intro m; rfl
    | cons e t ih =>
      intro m
      rw [List.foldl_cons, ih, addMass]
      generalize e.verts = vs
      induction vs generalizing m with
      | nil => rfl
      | cons w ws ihw => rw [List.foldl_cons, ihw, List.length_modify]
  rw [vertexMasses, hl', hl', List.length_replicate]

theorem sum_pos_of_mem {l : List ℝ} (h : ∀ x ∈ l, 0 ≤ x) {y : ℝ} (hy : y ∈ l) (hpos : 0 < y) :
    0 < l.sum :=
  lt_of_lt_of_le hpos (List.single_le_sum h y hy)

/-- A vertex of an element with positive mass has a positive mass. -/
theorem mass_pos (types : List VertexType) (cells : List (Cell × Material)) (n : ℕ)
    (hpos : ∀ c ∈ cells, 0 ≤ cellDensity c) (nh snh tris : List Element)
    (h1 : tetElements .neoHookean types cells = some nh)
    (h2 : tetElements .stableNeoHookean types cells = some snh)
    (h3 : triElements types cells = some tris) (c : Cell × Material) (hc : c ∈ cells)
    (hsim : isTet .neoHookean types c = true ∨ isTet .stableNeoHookean types c = true ∨
      isTri types c = true) (hd : 0 < cellDensity c) (v : ℕ) (hv : v < n) (hvc : v ∈ c.1.verts) :
    ∃ x, (vertexMasses nh snh tris n)[v]? = some x ∧ 0 < x := by
  refine ⟨_, vertexMasses_get nh snh tris n v hv, ?_⟩
  have nT : ∀ x ∈ (nh ++ snh).map fun e =>
      ((e.verts.count v : ℕ) : ℝ) * tetShare (e.measure * e.density), 0 ≤ x := by
    intro y hy
    obtain ⟨e, he, rfl⟩ := List.mem_map.1 hy
    refine mul_nonneg (Nat.cast_nonneg _) (share_nonneg ?_).1
    rcases List.mem_append.1 he with he | he
    · exact elements_density (tetDensity_spec .neoHookean types) h1 hpos e he
    · exact elements_density (tetDensity_spec .stableNeoHookean types) h2 hpos e he
  have nR : ∀ x ∈ tris.map fun e =>
      ((e.verts.count v : ℕ) : ℝ) * triShare (e.measure * e.density), 0 ≤ x := by
    intro y hy
    obtain ⟨e, he, rfl⟩ := List.mem_map.1 hy
    exact mul_nonneg (Nat.cast_nonneg _)
      (share_nonneg (elements_density (triDensity_spec types) h3 hpos e he)).2
  have elem : ∀ (p : Cell × Material → Bool) (density : Cell × Material → Option ℝ)
      (es : List Element), (∀ c d, p c = true → density c = some d → cellDensity c = d) →
      (cells.filter p).mapM (mkElement density) = some es → p c = true →
      ∃ e ∈ es, 0 < ((e.verts.count v : ℕ) : ℝ) ∧ 0 < e.measure * e.density := by
    intro p density es hds hes hp
    obtain ⟨e, he, hce⟩ := mapM_mem hes (List.mem_filter.2 ⟨hc, hp⟩)
    refine ⟨e, he, ?_⟩
    unfold mkElement at hce
    split at hce
    · split at hce
      · cases hce
      · rename_i d hd' hm
        cases hce
        refine ⟨?_, mul_pos (not_le.1 hm) (hds c d hp hd' ▸ hd)⟩
        exact_mod_cast List.count_pos_iff.2 hvc
    · cases hce
  rcases hsim with h | h | h
  · obtain ⟨e, he, hcnt, hmass⟩ := elem _ _ _ (tetDensity_spec .neoHookean types) h1 h
    exact add_pos_of_pos_of_nonneg (sum_pos_of_mem nT
      (List.mem_map.2 ⟨e, List.mem_append_left _ he, rfl⟩) (mul_pos hcnt (share_pos hmass).1))
      (List.sum_nonneg nR)
  · obtain ⟨e, he, hcnt, hmass⟩ := elem _ _ _ (tetDensity_spec .stableNeoHookean types) h2 h
    exact add_pos_of_pos_of_nonneg (sum_pos_of_mem nT
      (List.mem_map.2 ⟨e, List.mem_append_right _ he, rfl⟩) (mul_pos hcnt (share_pos hmass).1))
      (List.sum_nonneg nR)
  · obtain ⟨e, he, hcnt, hmass⟩ := elem _ _ _ (triDensity_spec types) h3 h
    exact add_pos_of_nonneg_of_pos (List.sum_nonneg nT) (sum_pos_of_mem nR
      (List.mem_map.2 ⟨e, he, rfl⟩) (mul_pos hcnt (share_pos hmass).2))

theorem prepare_cells {materials : List Material} {m : Input P}
    {mcells : List (Cell × Material)} {vt : List VertexType}
    (hp : prepare materials m = .ok (mcells, vt)) :
    ∀ c ∈ mcells, ∃ d ∈ m.cells, c.1.verts = d.verts ∧ c.1.ty = d.ty := by
  unfold prepare at hp
  split at hp
  · cases hp
  · split at hp
    · cases hp
    · split at hp
      · cases hp
      · rename_i cells hcells _ l hl
        cases hp
        intro c hc
        unfold withMaterials at hl
        have hf := mapM_some _ _ _ hl
        have hcm : c.1 ∈ cells := by
          clear hl hcells
          induction hf with
          | nil => cases hc
          | @cons a b l1 l2 hab _ ih =>
            rcases List.mem_cons.1 hc with rfl | hc
            · obtain ⟨x, -, hx⟩ := Option.map_eq_some_iff.1 hab
              rw [← hx]
              exact List.mem_cons_self
            · exact List.mem_cons_of_mem _ (ih hc)
        unfold assignMaterials at hcells
        split at hcells
        · cases hcells
          obtain ⟨d, hd, hdc⟩ := List.mem_map.1 hcm
          rw [← hdc]
          exact ⟨d.1, (List.of_mem_zip hd).1, rfl, rfl⟩
        · cases hcells

/-- Every vertex counted as free has a positive, finite inverse mass, provided no tetrahedron has
a shell material and soft cells have a positive density. Missing: tetrahedra with a shell
material, see `free_massless_violated`. -/
theorem free_mass_pos_partial {materials : List Material} {m : Input P} {s : State P} (hm : m.WF)
    (h : build materials m = .ok s) (mcells : List (Cell × Material)) (vt : List VertexType)
    (hprep : prepare materials m = .ok (mcells, vt))
    (hmat : ∀ c ∈ mcells, c.1.ty = .tetrahedron → ∀ d, c.2 ≠ .softShell d)
    (hpos : ∀ c ∈ mcells, 0 ≤ cellDensity c)
    (hsoft : ∀ c ∈ mcells, c.2.isSoft = true → 0 < cellDensity c) (i : ℕ)
    (hi : s.types[i]? = some .free) : ∃ w, s.massInv[i]? = some (some w) ∧ 0 < w := by
  obtain ⟨vt', hb⟩ := build_ok h
  have hlen := built_length hm hb
  obtain ⟨mcells', hprep', hs⟩ := hb.prep
  rw [hprep] at hprep'
  cases hprep'
  have hmem : ∀ i ∈ sortOrder vt, i < m.verts.length := fun i hi => hlen ▸ sortOrder_mem.1 hi
  have hin : i < m.verts.length := by
    have := (List.getElem?_eq_some_iff.1 hi).1
    rwa [hb.types, sortTypes, List.length_mergeSort, hlen] at this
  obtain ⟨v, hv⟩ : ∃ v, (sortOrder vt)[i]? = some v :=
    ⟨_, List.getElem?_eq_getElem (by rw [sortOrder_length]; omega)⟩
  have hvt : vt[v]? = some .free := by
    rw [hb.types, sortTypes_eq, gather_get _ _ fun i hi => sortOrder_mem.1 hi, hv] at hi
    exact hi
  have hidx : (sortOrder vt).idxOf v = i := by
    obtain ⟨hlt, he⟩ := List.getElem?_eq_some_iff.1 hv
    rw [← he]
    exact (sortOrder_nodup vt).idxOf_getElem i hlt
  obtain ⟨c, hc, ⟨hcs, hcv⟩, hvc⟩ : ∃ c ∈ mcells, (c.2.isSoft = true ∧ c.1.valid) ∧
      v ∈ c.1.verts := by
    rw [prepare_types hprep, vertexTypes_get] at hvt
    obtain ⟨x, -, hx⟩ := Option.map_eq_some_iff.1 hvt
    unfold typeSpec at hx
    split_ifs at hx with _ _ h3
    exact h3
  set c' : Cell × Material := (renumber (sortOrder vt) c.1, c.2) with hc'
  have hc'mem : c' ∈ mcells.map fun c => (renumber (sortOrder vt) c.1, c.2) :=
    List.mem_map.2 ⟨c, hc, rfl⟩
  have hvc' : i ∈ c'.1.verts := List.mem_map.2 ⟨v, hvc, hidx⟩
  have hden : ∀ d : Cell × Material, cellDensity (renumber (sortOrder vt) d.1, d.2) =
      cellDensity d := by
    intro d; rfl
  have hi' : (sortTypes vt)[i]? = some .free := hb.types ▸ hi
  have hsnf : someNotFixed (sortTypes vt) c'.1 = true := by
    rw [someNotFixed_iff]
    exact ⟨i, hvc', by rw [hi']; simp⟩
  have hvalid : c'.1.valid := by
    have : c'.1.verts.length = c.1.verts.length := List.length_map _
    rw [Cell.valid, this]; exact hcv
  have hsim : isTet .neoHookean (sortTypes vt) c' = true ∨
      isTet .stableNeoHookean (sortTypes vt) c' = true ∨ isTri (sortTypes vt) c' = true := by
    have hty : c'.1.ty = c.1.ty := rfl
    cases hct : c.1.ty with
    | triangle => simp [isTri, hty, hct, hvalid, hsnf]
    | tetrahedron =>
      have h2 : c'.2 = c.2 := rfl
      rcases hc2 : c.2 with - | ⟨model, d⟩ | d | -
      · rw [hc2] at hcs; cases hcs
      · cases model <;> simp [isTet, h2, hc2, hty, hct, hvalid, hsnf]
      · exact absurd hc2 (hmat c hc hct d)
      · rw [hc2] at hcs; cases hcs
  unfold mkState at hs
  split at hs
  · rename_i nh snh tris e1 e2 e3
    cases hs
    simp only
    rw [gather_length _ _ hmem, sortOrder_length, hlen]
    obtain ⟨x, hx, hx0⟩ := mass_pos (sortTypes vt) _ m.verts.length (by
        intro d hd
        obtain ⟨d', hd', rfl⟩ := List.mem_map.1 hd
        exact hden d' ▸ hpos d' hd') nh snh tris e1 e2 e3 c' hc'mem hsim
      (hden c ▸ hsoft c hc hcs) i hin hvc'
    have hle : (sortTypes vt).count .free ≤ m.verts.length := by
      have := List.count_le_length (a := VertexType.free) (l := sortTypes vt)
      rwa [sortTypes, List.length_mergeSort, hlen] at this
    rw [massInv_get _ _ _ i (vertexMasses_length _ _ _ _) hle x hx,
      if_pos ((count_free _ (sortTypes_sorted vt) i _ hi').2 rfl), if_neg hx0.ne']
    exact ⟨_, rfl, by positivity⟩
  · cases hs

/-- Vertices of rigid cells are degrees of freedom, but their inverse mass is zero. -/
theorem rigid_massInv {materials : List Material} {m : Input P} {s : State P} (hm : m.WF)
    (h : build materials m = .ok s) (i : ℕ) (hi : s.types[i]? = some .rigid) :
    i < numDofs s.types ∧ s.massInv[i]? = some (some 0) := by
  obtain ⟨vt, hb⟩ := build_ok h
  have hlen := built_length hm hb
  obtain ⟨mcells, -, hs⟩ := hb.prep
  have hmem : ∀ i ∈ sortOrder vt, i < m.verts.length := fun i hi => hlen ▸ sortOrder_mem.1 hi
  have hi' : (sortTypes vt)[i]? = some .rigid := hb.types ▸ hi
  have hin : i < m.verts.length := by
    have := (List.getElem?_eq_some_iff.1 hi').1
    rwa [sortTypes, List.length_mergeSort, hlen] at this
  constructor
  · rw [hb.types, takeWhile_sorted _ (sortTypes_sorted vt) i _ hi']
    simp [VertexType.rank]
  unfold mkState at hs
  split at hs
  · rename_i nh snh tris e1 e2 e3
    cases hs
    simp only
    rw [gather_length _ _ hmem, sortOrder_length, hlen]
    have hle : (sortTypes vt).count .free ≤ m.verts.length := by
      have := List.count_le_length (a := VertexType.free) (l := sortTypes vt)
      rwa [sortTypes, List.length_mergeSort, hlen] at this
    rw [massInv_get _ _ _ i (vertexMasses_length _ _ _ _) hle _
      (vertexMasses_get nh snh tris _ i hin), if_neg]
    rw [count_free _ (sortTypes_sorted vt) i _ hi']
    simp
  · cases hs

/-- One tetrahedron. -/
def oneTet : Input ℕ :=
  ⟨[⟨0, 0⟩, ⟨1, 0⟩, ⟨2, 0⟩, ⟨3, 0⟩], none, none, ⟨4, 1, none, none⟩,
    [⟨.tetrahedron, [0, 1, 2, 3], 1, none, 0⟩]⟩

theorem oneTet_WF : oneTet.WF := by
  constructor <;> simp [oneTet, Cell.valid, CellType.size]

theorem oneTet_prepare (mat : Material) (hs : mat.isSoft = true) (hr : mat.isRigid = false) :
    prepare [mat] oneTet = .ok ([(⟨.tetrahedron, [0, 1, 2, 3], 1, none, 0⟩, mat)],
      [.free, .free, .free, .free]) := by
  simp [prepare, oneTet, initMaterialId, assignMaterials, withMaterials, vertexTypes, initFixed,
    fixedTypes, markRigid, markFree, markCell, hs, hr, Cell.valid, CellType.size,
    List.replicate, List.modify_cons]

theorem oneTet_order : sortOrder [.free, .free, .free, .free] = [0, 1, 2, 3] := by
  simp [sortOrder, List.range_succ, List.mergeSort, List.MergeSort.Internal.splitInTwo,
    VertexType.rank]

/-- A tetrahedron with a shell material is accepted, its vertices are degrees of freedom, and
their inverse masses are infinite. -/
theorem free_massless_violated : ∃ s, build [.softShell (some 1)] oneTet = .ok s ∧
    s.types[0]? = some .free ∧ s.massInv[0]? = some none := by
  unfold build
  rw [oneTet_prepare _ rfl rfl]
  simp only [oneTet_order, sortTypes_eq]
  simp [sourceIndex, oneTet, gather, List.range_succ, mkState, tetElements, triElements, isTet,
    isTri, numDofs, VertexType.rank, vertexMasses, massInv, List.replicate,
    List.filter_cons, renumber]

/-- With a solid material the same mesh has positive masses. -/
example : ∃ s, build [.solid .neoHookean (some 2)] oneTet = .ok s ∧
    s.types[0]? = some .free ∧ s.massInv[0]? = some (some 2) := by
  unfold build
  rw [oneTet_prepare _ rfl rfl]
  simp only [oneTet_order, sortTypes_eq]
  simp [sourceIndex, oneTet, gather, List.range_succ, mkState, tetElements, triElements, isTet,
    isTri, numDofs, VertexType.rank, vertexMasses, massInv, List.replicate,
    List.filter_cons, renumber, Cell.valid, CellType.size, someNotFixed, mkElement, tetDensity]
  norm_num
  rw [if_neg (by simp)]
  refine ⟨_, rfl, rfl, ?_⟩
  norm_num [addMass, tetShare, List.modify_cons]

/-- A rigid body: four degrees of freedom (times three) without mass. -/
example : ∃ s, build [.rigid] oneTet = .ok s ∧ s.types[0]? = some .rigid := by
  have hp : prepare [.rigid] oneTet = .ok ([(⟨.tetrahedron, [0, 1, 2, 3], 1, none, 0⟩, .rigid)],
      [.rigid, .rigid, .rigid, .rigid]) := by
    simp [prepare, oneTet, initMaterialId, assignMaterials, withMaterials, vertexTypes, initFixed,
      fixedTypes, markRigid, markFree, markCell, Material.isSoft, Material.isRigid,
      List.replicate, List.modify_cons]
  have ho : sortOrder [.rigid, .rigid, .rigid, .rigid] = [0, 1, 2, 3] := by
    simp [sortOrder, List.range_succ, List.mergeSort, List.MergeSort.Internal.splitInTwo,
      VertexType.rank]
  unfold build
  rw [hp]
  simp only [ho, sortTypes_eq]
  simp [sourceIndex, oneTet, gather, List.range_succ, mkState, tetElements, triElements, isTet,
    isTri, numDofs, VertexType.rank, vertexMasses, massInv, List.replicate,
    List.filter_cons, renumber]

end Softy.Mesh
