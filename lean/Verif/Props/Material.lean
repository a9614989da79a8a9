import Verif.Model.Material

/-!
# Properties of materials: builders (C52), elasticity parameters (C60)
-/

namespace Softy.Material

/-! ## Builders (C52) -/

/-- What a user can read off a shell material. -/
structure View where
  id : ℕ
  elasticity : Option Elasticity
  density : Option ℝ
  damping : ℝ
  bending : Option ℝ

/-- The view of a material. A fixed material has no properties, a rigid one only a density. -/
def view : Shell → View
  | .fixed m => ⟨m.id, none, none, 0, none⟩
  | .rigid m => ⟨m.id, none, some m.properties.density, 0, none⟩
  | .soft m => ⟨m.id, m.properties.deformable.elasticity, m.properties.deformable.density,
      m.properties.deformable.damping, m.properties.bendingStiffness⟩

/-- The calls of the builder. -/
inductive Op where
  | elasticity (e : Elasticity)
  | density (d : ℝ)
  | damping (d : ℝ)
  | bending (k : ℝ)

/-- What the builder does. -/
def apply (m : Shell) : Op → Shell
  | .elasticity e => m.withElasticity e
  | .density d => m.withDensity d
  | .damping d => m.withDamping d
  | .bending k => m.withBending k

/-- **C52**: each setter changes its own property and no other. -/
theorem setter_frame (m : Shell) :
    (∀ e, view (m.withElasticity e) = { view m with elasticity := some e }) ∧
    (∀ d, view (m.withDensity d) = { view m with density := some d }) ∧
    (∀ d, view (m.withDamping d) = { view m with damping := d }) ∧
    (∀ k, view (m.withBending k) = { view m with bending := some k }) := by
  cases m <;> exact ⟨fun _ => rfl, fun _ => rfl, fun _ => rfl, fun _ => rfl⟩

/-- The value set last, of those which `get` finds. -/
def lastSet {α : Type} (get : Op → Option α) (ops : List Op) : Option α :=
  (ops.reverse.filterMap get).head?

theorem lastSet_append {α : Type} (get : Op → Option α) (ops : List Op) (o : Op) :
    lastSet get (ops ++ [o]) = (get o).or (lastSet get ops) := by
  rw [lastSet, List.reverse_append]
  cases h : get o <;> simp [lastSet, h]

def getElasticity : Op → Option Elasticity
  | .elasticity e => some e
  | _ => none

def getDensity : Op → Option ℝ
  | .density d => some d
  | _ => none

def getDamping : Op → Option ℝ
  | .damping d => some d
  | _ => none

def getBending : Op → Option ℝ
  | .bending k => some k
  | _ => none

/-- **C52**, for every sequence of calls: each property is what was set last, or the default. -/
theorem builder_history (id : ℕ) (ops : List Op) :
    view (ops.foldl apply (Shell.new id)) =
      ⟨id, lastSet getElasticity ops, lastSet getDensity ops, (lastSet getDamping ops).getD 0,
        lastSet getBending ops⟩ := by
  induction ops using List.reverseRecOn with
  | nil => rfl
  | append_singleton ops op ih =>
    rw [List.foldl_append]
    simp only [List.foldl_cons, List.foldl_nil]
    generalize ops.foldl apply (Shell.new id) = m at ih ⊢
    obtain ⟨h1, h2, h3, h4⟩ := setter_frame m
    cases op with
    | elasticity e =>
      show view (m.withElasticity e) = _
      rw [h1, ih]; simp [lastSet_append, getElasticity, getDensity, getDamping, getBending]
    | density d =>
      show view (m.withDensity d) = _
      rw [h2, ih]; simp [lastSet_append, getElasticity, getDensity, getDamping, getBending]
    | damping d =>
      show view (m.withDamping d) = _
      rw [h3, ih]; simp [lastSet_append, getElasticity, getDensity, getDamping, getBending]
    | bending k =>
      show view (m.withBending k) = _
      rw [h4, ih]; simp [lastSet_append, getElasticity, getDensity, getDamping, getBending]

/-- What a shell is. -/
inductive Kind where
  | fixed | rigid | soft
deriving DecidableEq

def kind : Shell → Kind
  | .fixed _ => .fixed
  | .rigid _ => .rigid
  | .soft _ => .soft

/-- The kind of the material: fixed without any call, rigid if only the density was set, and soft
otherwise. -/
theorem builder_kind (id : ℕ) (ops : List Op) :
    kind (ops.foldl apply (Shell.new id)) =
      if ops = [] then .fixed
      else if ∀ o ∈ ops, (getDensity o).isSome then .rigid else .soft := by
  induction ops using List.reverseRecOn with
  | nil => rfl
  | append_singleton ops op ih =>
    rw [List.foldl_append]
    simp only [List.foldl_cons, List.foldl_nil]
    rw [if_neg (by simp)]
    generalize ops.foldl apply (Shell.new id) = m at ih ⊢
    by_cases hd : (getDensity op).isSome
    · cases op with
      | density d =>
        have hall : (∀ o ∈ ops ++ [Op.density d], (getDensity o).isSome) ↔
            ∀ o ∈ ops, (getDensity o).isSome := by
          constructor
          · intro h o ho; exact h o (by simp [ho])
          · intro h o ho
            rcases List.mem_append.1 ho with ho | ho
            · exact h o ho
            · rw [List.mem_singleton] at ho; subst ho; rfl
        by_cases he : ops = []
        · subst he
          rw [if_pos rfl] at ih
          cases m <;> simp_all [kind, apply, Shell.withDensity, getDensity]
        · rw [if_neg he] at ih
          simp only [hall]
          cases m <;> split_ifs at ih ⊢ <;> simp_all [kind, apply, Shell.withDensity]
      | _ => simp [getDensity] at hd
    · rw [if_neg (by intro h; exact hd (h op (by simp)))]
      cases op with
      | density d => simp [getDensity] at hd
      | _ => rfl

/-- A rigid material given elasticity becomes soft with the same density and id. -/
theorem rigid_with_elasticity (id : ℕ) (d : ℝ) (e : Elasticity) :
    let m := ((Shell.new id).withDensity d).withElasticity e
    kind m = .soft ∧ (view m).density = some d ∧ (view m).id = id ∧
      (view m).elasticity = some e := ⟨rfl, rfl, rfl, rfl⟩

/-- The setters of solid materials change their own property only. -/
theorem solid_setter_frame (m : Base Solid) (op : SolidOp) :
    (m.applySolid op).id = m.id ∧
    ((∀ e, op ≠ .elasticity e) →
      (m.applySolid op).properties.deformable.elasticity = m.properties.deformable.elasticity) ∧
    ((∀ d, op ≠ .density d) →
      (m.applySolid op).properties.deformable.density = m.properties.deformable.density) ∧
    ((∀ d, op ≠ .damping d) →
      (m.applySolid op).properties.deformable.damping = m.properties.deformable.damping) ∧
    ((∀ b, op ≠ .volume b) →
      (m.applySolid op).properties.volumePreservation = m.properties.volumePreservation) ∧
    (∀ e, op = .elasticity e → (m.applySolid op).properties.deformable.elasticity = some e ∧
      solidModel (m.applySolid op) = e.model) ∧
    (∀ d, op = .density d → (m.applySolid op).properties.deformable.density = some d) ∧
    (∀ d, op = .damping d → (m.applySolid op).properties.deformable.damping = d) ∧
    (∀ b, op = .volume b → (m.applySolid op).properties.volumePreservation = b) := by
  cases op <;> simp [Base.applySolid, solidModel]

/-! ## Elasticity parameters (C60) -/

/-- Young's modulus of a material with the given Lamé parameters. -/
noncomputable def youngOf (l m : ℝ) : ℝ := m * (3 * l + 2 * m) / (l + m)

/-- Poisson's ratio of a material with the given Lamé parameters. -/
noncomputable def poissonOf (l m : ℝ) : ℝ := l / (2 * (l + m))

/-- Bulk modulus of a material with the given Lamé parameters. -/
noncomputable def bulkOf (l m : ℝ) : ℝ := l + 2 * m / 3

/-- **C60**, for bulk and shear moduli: the Lamé parameters are those of a material with these
moduli. Missing: Young's modulus and Poisson's ratio, see `young_poisson_violated`. -/
theorem bulk_shear_partial (bulk shear : ℝ) :
    bulkOf (Params.bulkShear bulk shear).lambda (Params.bulkShear bulk shear).mu = bulk ∧
      (Params.bulkShear bulk shear).mu = shear := by
  refine ⟨?_, rfl⟩
  simp only [bulkOf, Params.lambda, Params.mu]
  ring

/-- Converting to Lamé parameters keeps them. -/
theorem toLame_eq (p : Params) : p.toLame.lambda = p.lambda ∧ p.toLame.mu = p.mu := ⟨rfl, rfl⟩

/-- The second parameter is right for Young's modulus and Poisson's ratio as well. -/
theorem young_poisson_mu (E n : ℝ) (h : -1 < n) :
    2 * (1 + n) * (Params.youngPoisson E n).mu = E := by
  have : (1 + n) ≠ 0 := by linarith
  simp only [Params.mu]
  field_simp

/-- **C60 is violated** for Young's modulus and Poisson's ratio: for every admissible pair with a
ratio other than zero, the Lamé parameters are those of a material with another ratio. -/
theorem young_poisson_violated (E n : ℝ) (hE : 0 < E) (h1 : -1 < n) (h2 : n < 1 / 2)
    (h0 : n ≠ 0) :
    poissonOf (Params.youngPoisson E n).lambda (Params.youngPoisson E n).mu ≠ n := by
  have hn : 0 < 1 + n := by linarith
  have hm : (0 : ℝ) < 1 - 2 * n := by linarith
  simp only [poissonOf, Params.lambda, Params.mu]
  have hden : E * n / (1 + n) * (1 - 2 * n) + E / (2 * (1 + n)) =
      E / (2 * (1 + n)) * (1 + 2 * n * (1 - 2 * n)) := by field_simp; ring
  intro h
  have hA : E / (2 * (1 + n)) ≠ 0 := by positivity
  rw [hden] at h
  by_cases hz : 1 + 2 * n * (1 - 2 * n) = 0
  · rw [hz] at h
    simp at h
    exact h0 h.symm
  · rw [div_eq_iff (by simp [hz, hA])] at h
    have h3 : E * n / (1 + n) * (1 - 2 * n) = E / (2 * (1 + n)) * (2 * n * (1 - 2 * n)) := by
      field_simp
    rw [h3] at h
    have h4 : 2 * n * (1 - 2 * n) = n * (2 * (1 + 2 * n * (1 - 2 * n))) := by
      have := mul_left_cancel₀ hA (show E / (2 * (1 + n)) * (2 * n * (1 - 2 * n)) =
        E / (2 * (1 + n)) * (n * (2 * (1 + 2 * n * (1 - 2 * n)))) by rw [h]; ring)
      exact this
    have h5 : n * n * (1 - n) = 0 := by nlinarith [h4]
    rcases mul_eq_zero.1 h5 with h6 | h6
    · exact h0 (by simpa using h6)
    · linarith

/-- The Lamé parameters the pair stands for. -/
theorem young_poisson_expected (E n : ℝ) (hE : 0 < E) (h1 : -1 < n) (h2 : n < 1 / 2) :
    poissonOf (E * n / ((1 + n) * (1 - 2 * n))) (E / (2 * (1 + n))) = n ∧
    youngOf (E * n / ((1 + n) * (1 - 2 * n))) (E / (2 * (1 + n))) = E := by
  have hn : 0 < 1 + n := by linarith
  have hm : 1 - 2 * n ≠ 0 := by intro h; linarith
  have hm' : 1 - n * 2 ≠ 0 := by intro h; linarith
  have hs : E * n / ((1 + n) * (1 - 2 * n)) + E / (2 * (1 + n)) =
      E / (2 * (1 + n) * (1 - 2 * n)) := by
    field_simp
    ring
  constructor
  · rw [poissonOf, hs]
    field_simp
  · rw [youngOf, hs]
    field_simp
    ring

/-- In the incompressible limit, the first parameter goes to zero and not to infinity. -/
example : (Params.youngPoisson 1 (1 / 2)).lambda = 0 := by norm_num [Params.lambda]

/-- A common pair: the ratio becomes about 0.1 and not 0.3. -/
example : poissonOf (Params.youngPoisson 1 (3 / 10)).lambda (Params.youngPoisson 1 (3 / 10)).mu =
    3 / 31 := by
  norm_num [poissonOf, Params.lambda, Params.mu]

end Softy.Material
