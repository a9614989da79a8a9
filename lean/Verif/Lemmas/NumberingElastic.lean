import Verif.Lemmas.FrameElastic
import Verif.Props.Pressure
import Mathlib.LinearAlgebra.Matrix.NonsingularInverse

/-!
# Elements with other numbers
-/

noncomputable section

namespace Softy.Numbering

open Softy Assembly Fem

/-- The values of the vertices after vertex `i` has become vertex `σ i`. -/
def renumber {α : Type} (σ : Equiv.Perm ℕ) (x : ℕ → α) : ℕ → α := fun i => x (σ.symm i)

/-- The items of the second list correspond to those of the first one, in any order. -/
def Reordered {α β : Type} (R : α → β → Prop) (l : List α) (l' : List β) : Prop :=
  ∃ m, List.Forall₂ R l m ∧ m.Perm l'

@[simp] theorem renumber_apply {α : Type} (σ : Equiv.Perm ℕ) (x : ℕ → α) (i : ℕ) :
    renumber σ x (σ i) = x i := by
  simp [renumber]

theorem renumber_eq {α : Type} {σ : Equiv.Perm ℕ} {x y : ℕ → α} (h : ∀ i, y (σ i) = x i) :
    y = renumber σ x := by
  funext i
  rw [renumber, ← h, Equiv.apply_symm_apply]

section Reordered

variable {α β γ δ : Type} {R : α → β → Prop} {l : List α} {l' : List β}

theorem Reordered.sum {M : Type} [AddCommMonoid M] (h : Reordered R l l') {f : α → M} {g : β → M}
    (hfg : ∀ a ∈ l, ∀ b, R a b → g b = f a) : (l'.map g).sum = (l.map f).sum := by
  obtain ⟨m, hm, hp⟩ := h
  rw [← (hp.map g).sum_eq]
  clear hp
  induction hm with
  | nil => rfl
  | cons h _ ih =>
    rw [List.map_cons, List.map_cons, List.sum_cons, List.sum_cons, hfg _ (by simp) _ h,
      ih fun a ha => hfg a (by simp [ha])]

theorem Reordered.map {R' : γ → δ → Prop} (h : Reordered R l l') {f : α → γ} {g : β → δ}
    (hfg : ∀ a ∈ l, ∀ b, R a b → R' (f a) (g b)) : Reordered R' (l.map f) (l'.map g) := by
  obtain ⟨m, hm, hp⟩ := h
  refine ⟨m.map g, ?_, hp.map g⟩
  clear hp
  induction hm with
  | nil => exact .nil
  | cons h _ ih =>
    rw [List.map_cons, List.map_cons]
    exact .cons (hfg _ (by simp) _ h) (ih fun a ha => hfg a (by simp [ha]))

theorem Reordered.all {p : α → Prop} {q : β → Prop} (h : Reordered R l l')
    (hpq : ∀ a ∈ l, ∀ b, R a b → (q b ↔ p a)) : (∀ b ∈ l', q b) ↔ ∀ a ∈ l, p a := by
  obtain ⟨m, hm, hp⟩ := h
  have h1 : (∀ b ∈ l', q b) ↔ ∀ b ∈ m, q b := by simp only [hp.mem_iff]
  rw [h1]
  clear hp h1
  induction hm with
  | nil => simp
  | cons h _ ih =>
    simp only [List.forall_mem_cons]
    rw [hpq _ (by simp) _ h]
    exact and_congr_right fun _ => ih fun a ha => hpq a (by simp [ha])

theorem Reordered.refl {R : α → α → Prop} (hR : ∀ a ∈ l, R a a) : Reordered R l l :=
  ⟨l, List.forall₂_same.2 hR, List.Perm.refl l⟩

theorem Reordered.mem (h : Reordered R l l') :
    Reordered (fun a b => a ∈ l ∧ b ∈ l' ∧ R a b) l l' := by
  obtain ⟨m, hm, hp⟩ := h
  refine ⟨m, ?_, hp⟩
  rw [List.forall₂_iff_zip] at hm ⊢
  refine ⟨hm.1, fun {a b} hab => ?_⟩
  exact ⟨(List.of_mem_zip hab).1, hp.mem_iff.1 (List.of_mem_zip hab).2, hm.2 hab⟩

end Reordered

/-! ## Accumulation -/

/-- Additions at other vertices, in another order: each vertex gets the same sum. -/
def SameAdds (σ : Equiv.Perm ℕ) (l l' : List (ℕ × V3 ℝ)) : Prop :=
  ∀ v, (l'.map fun p => if p.1 = σ v then p.2 else 0).sum = (l.map fun p => if p.1 = v then p.2 else 0).sum

theorem addAll_renumber {σ : Equiv.Perm ℕ} {l l' : List (ℕ × V3 ℝ)} (h : SameAdds σ l l') (G : ℕ → V3 ℝ) :
    addAll l' (renumber σ G) = renumber σ (addAll l G) := by
  refine renumber_eq fun i => ?_
  rw [addAll_apply, addAll_apply, renumber_apply, h]

theorem sum_map_flatMap {α β M : Type} [AddCommMonoid M] (l : List α) (f : α → List β) (g : β → M) :
    ((l.flatMap f).map g).sum = (l.map fun a => ((f a).map g).sum).sum := by
  induction l with
  | nil => rfl
  | cons a l ih => simp [List.flatMap_cons, ih]

theorem sameAdds_flatMap {α β : Type} {R : α → β → Prop} {l : List α} {l' : List β} {σ : Equiv.Perm ℕ}
    (h : Reordered R l l') {f : α → List (ℕ × V3 ℝ)} {g : β → List (ℕ × V3 ℝ)}
    (hfg : ∀ a ∈ l, ∀ b, R a b → SameAdds σ (f a) (g b)) : SameAdds σ (l.flatMap f) (l'.flatMap g) := by
  intro v
  rw [sum_map_flatMap, sum_map_flatMap]
  exact h.sum fun a ha b hab => hfg a ha b hab v

theorem sum_zipCell {m : ℕ} (cell : Fin m → ℕ) (g : Fin m → V3 ℝ) (v : ℕ) :
    ((zipCell cell g).map fun p => if p.1 = v then p.2 else 0).sum = ∑ i, if cell i = v then g i else 0 := by
  unfold zipCell
  rw [List.map_map, ← List.ofFn_eq_map, List.sum_ofFn]
  rfl

/-- The corners of an element in another order, with other numbers. -/
theorem sameAdds_zipCell {m : ℕ} {σ : Equiv.Perm ℕ} (π : Equiv.Perm (Fin m)) {cell cell' : Fin m → ℕ}
    (hc : ∀ i, cell' i = σ (cell (π i))) {g g' : Fin m → V3 ℝ} (hg : ∀ i, g' i = g (π i)) :
    SameAdds σ (zipCell cell g) (zipCell cell' g') := by
  intro v
  rw [sum_zipCell, sum_zipCell, ← Equiv.sum_comp π fun i => if cell i = v then g i else 0]
  simp only [hc, hg, σ.apply_eq_iff_eq]

/-! ## Tetrahedra -/

/-- Whether a corner is the one with the given place. -/
def here (k j : Fin 4) : ℝ := if k = j then 1 else 0

/-- The matrix that turns the edges of a tetrahedron to its last corner into those of the same tetrahedron
with the corners `π 0, π 1, π 2, π 3`. -/
def corners (π : Equiv.Perm (Fin 4)) : M3 ℝ :=
  let a (i j : Fin 4) : ℝ := here (π i) j - here (π 3) j
  ⟨⟨a 0 0, a 0 1, a 0 2⟩, ⟨a 1 0, a 1 1, a 1 2⟩, ⟨a 2 0, a 2 1, a 2 2⟩⟩

theorem pick_diff (x : Tet.Verts) (k : Fin 4) : x k - x 3 =
    here k 0 • (x 0 - x 3) + here k 1 • (x 1 - x 3) + here k 2 • (x 2 - x 3) := by
  fin_cases k <;> ext <;> simp [here]

theorem shape_corners (π : Equiv.Perm (Fin 4)) (x : Tet.Verts) :
    Tet.shape (fun i => x (π i)) = corners π * Tet.shape x := by
  have h (i : Fin 4) : x (π i) - x (π 3) = (here (π i) 0 - here (π 3) 0) • (x 0 - x 3) +
      (here (π i) 1 - here (π 3) 1) • (x 1 - x 3) +
      (here (π i) 2 - here (π 3) 2) • (x 2 - x 3) := by
    have h1 := pick_diff x (π i)
    have h2 := pick_diff x (π 3)
    rw [← sub_sub_sub_cancel_right (x (π i)) (x (π 3)) (x 3), h1, h2]
    simp only [sub_smul]
    abel
  have h0 := h 0
  have h1 := h 1
  have h2 := h 2
  unfold Tet.shape
  simp only [h0, h1, h2]
  ext <;> simp [corners, M3.mul, M3.mulVec, M3.transpose, V3.dot] <;> ring

theorem here_last (k : Fin 4) : here k 3 = 1 - here k 0 - here k 1 - here k 2 := by
  fin_cases k <;> simp [here]

theorem spread_sum (π : Equiv.Perm (Fin 4)) (H : M3 ℝ) (k : Fin 4) :
    Tet.spread ((corners π).transpose * H) k = ∑ i, here (π i) k • Tet.spread H i := by
  rw [Fin.sum_univ_four]
  fin_cases k
  · ext <;> simp [Tet.spread, corners, M3.mul, M3.mulVec, M3.transpose, V3.dot] <;> ring
  · ext <;> simp [Tet.spread, corners, M3.mul, M3.mulVec, M3.transpose, V3.dot] <;> ring
  · ext <;> simp [Tet.spread, corners, M3.mul, M3.mulVec, M3.transpose, V3.dot] <;> ring
  · show Tet.spread _ 3 = here (π 0) 3 • _ + here (π 1) 3 • _ + here (π 2) 3 • _ + here (π 3) 3 • _
    simp only [here_last]
    ext <;> simp [Tet.spread, corners, M3.mul, M3.mulVec, M3.transpose, V3.dot] <;> ring

/-- The forces of the corners, in the other order. -/
theorem spread_corners (π : Equiv.Perm (Fin 4)) (H : M3 ℝ) (i : Fin 4) :
    Tet.spread ((corners π).transpose * H) (π i) = Tet.spread H i := by
  rw [spread_sum]
  simp only [here, π.apply_eq_iff_eq, ite_smul, one_smul, zero_smul, Finset.sum_ite_eq', Finset.mem_univ, if_true]

/-- The reference data of the same tetrahedron with its corners in another order: the shape matrices are
those of the same rest positions. -/
def SameRest (π : Equiv.Perm (Fin 4)) (r r' : Tet.Ref) : Prop :=
  (∃ X : Tet.Verts, r.DXinv * Tet.shape X = M3.diag 1 ∧ r'.DXinv * Tet.shape (fun i => X (π i)) = M3.diag 1) ∧
    r'.volume = r.volume ∧ r'.lambda = r.lambda ∧ r'.mu = r.mu

/-- A matrix of Mathlib. -/
def mat (a : M3 ℝ) : Matrix (Fin 3) (Fin 3) ℝ :=
  !![a.r0.x, a.r0.y, a.r0.z; a.r1.x, a.r1.y, a.r1.z; a.r2.x, a.r2.y, a.r2.z]

theorem mat_mul (a b : M3 ℝ) : mat (a * b) = mat a * mat b := by
  ext i j
  fin_cases i <;> fin_cases j <;>
    simp [mat, M3.mul, M3.mulVec, M3.transpose, V3.dot, Matrix.mul_apply, Fin.sum_univ_three] <;> ring

theorem mat_one : mat (M3.diag 1) = 1 := by
  ext i j
  fin_cases i <;> fin_cases j <;> simp [mat, M3.diag]

theorem mat_injective {a b : M3 ℝ} (h : mat a = mat b) : a = b := by
  have h (i j : Fin 3) := congrFun (congrFun h i) j
  ext
  · exact h 0 0
  · exact h 0 1
  · exact h 0 2
  · exact h 1 0
  · exact h 1 1
  · exact h 1 2
  · exact h 2 0
  · exact h 2 1
  · exact h 2 2

theorem mul_one_comm {a b : M3 ℝ} (h : a * b = M3.diag 1) : b * a = M3.diag 1 := by
  apply mat_injective
  rw [mat_mul, mat_one, mul_eq_one_comm, ← mat_mul, h, mat_one]

theorem SameRest.corners {π : Equiv.Perm (Fin 4)} {r r' : Tet.Ref} (h : SameRest π r r') :
    r'.DXinv * corners π = r.DXinv := by
  obtain ⟨⟨X, h1, h2⟩, -⟩ := h
  rw [shape_corners, ← M3.mul_assoc'] at h2
  have h3 := mul_one_comm h1
  have h4 : r'.DXinv * Numbering.corners π * (Tet.shape X * r.DXinv) = r.DXinv := by
    rw [← M3.mul_assoc', h2]
    ext <;> simp [M3.mul, M3.mulVec, M3.transpose, V3.dot, M3.diag]
  rw [h3] at h4
  rw [← h4]
  ext <;> simp [M3.mul, M3.mulVec, M3.transpose, V3.dot, M3.diag]

/-- The same tetrahedral element: its vertices have new numbers, its corners may be in another order. -/
def SameTet (σ : Equiv.Perm ℕ) (e e' : TetElem) : Prop :=
  ∃ π : Equiv.Perm (Fin 4), (∀ i, e'.cell i = σ (e.cell (π i))) ∧ SameRest π e.ref e'.ref ∧
    e'.damping = e.damping

section Tet

variable {π : Equiv.Perm (Fin 4)} {r r' : Tet.Ref}

theorem at_F (h : SameRest π r r') (x : Tet.Verts) : (r'.at fun i => x (π i)).F = (r.at x).F := by
  show r'.DXinv * Tet.shape (fun i => x (π i)) = r.DXinv * Tet.shape x
  rw [shape_corners, ← M3.mul_assoc', h.corners]

theorem at_dF (h : SameRest π r r') (x y d : Tet.Verts) :
    (r'.at y).dF (fun i => d (π i)) = (r.at x).dF d := by
  show r'.DXinv * Tet.shape (fun i => d (π i)) = r.DXinv * Tet.shape d
  rw [shape_corners, ← M3.mul_assoc', h.corners]

theorem transpose_corners (h : SameRest π r r') (P : M3 ℝ) :
    r.DXinv.transpose * P = (corners π).transpose * (r'.DXinv.transpose * P) := by
  rw [← h.corners, ← M3.mul_assoc']
  congr 1
  ext <;> simp [M3.mul, M3.mulVec, M3.transpose, V3.dot] <;> ring

theorem mul_smul' (c : ℝ) (a b : M3 ℝ) : a * (c • b) = c • (a * b) := by
  ext <;> simp [M3.mul, M3.mulVec, M3.transpose, V3.dot] <;> ring

theorem mul_zero' (a : M3 ℝ) : a * 0 = 0 := by
  ext <;> simp [M3.mul, M3.mulVec, M3.transpose, V3.dot]

theorem mul_add_left' (a b c : M3 ℝ) : a * (b + c) = a * b + a * c := by
  ext <;> simp [M3.mul, M3.mulVec, M3.transpose, V3.dot] <;> ring

theorem model_energy (h : SameRest π r r') (M : TetModel) (x : Tet.Verts) :
    M.energy (r'.at fun i => x (π i)) = M.energy (r.at x) := by
  obtain ⟨-, hv, hl, hm⟩ := id h
  cases M
  · simp only [TetModel.energy, Tet.nhEnergy, at_F h]
    generalize (r.at x).F = F
    simp only [Tet.Ref.at, hv, hl, hm]
  · simp only [TetModel.energy, Tet.snhEnergy, at_F h]
    generalize (r.at x).F = F
    simp only [Tet.Ref.at, hv, hl, hm]
    by_cases h0 : r.lambda = 0 <;> simp [h0]

/-- The gradients come from matrices that differ by the order of the corners. -/
theorem model_gradient (h : SameRest π r r') (M : TetModel) (x : Tet.Verts) :
    ∃ H : Option (M3 ℝ), M.gradient (r'.at fun i => x (π i)) = H.map Tet.spread ∧
      M.gradient (r.at x) = H.map fun H => Tet.spread ((corners π).transpose * H) := by
  obtain ⟨-, hv, hl, hm⟩ := id h
  cases M
  · simp only [TetModel.gradient, Tet.nhGradient, at_F h]
    by_cases hJ : (r.at x).F.det ≤ 0
    · exact ⟨none, by rw [if_pos hJ]; rfl, by rw [if_pos hJ]; rfl⟩
    · rw [if_neg hJ, if_neg hJ]
      cases (r.at x).F.inverseTranspose with
      | none => exact ⟨none, rfl, rfl⟩
      | some G =>
        refine ⟨some _, rfl, ?_⟩
        simp only [Option.map_some, mul_smul', Tet.Ref.at, hv, hl, hm, transpose_corners h]
  · simp only [TetModel.gradient, Tet.snhGradient, at_F h]
    by_cases hl0 : r.lambda = 0
    · refine ⟨none, ?_, ?_⟩
      · rw [if_pos (show (r'.at fun i => x (π i)).lambda = 0 from hl.trans hl0)]; rfl
      · rw [if_pos (show (r.at x).lambda = 0 from hl0)]; rfl
    · rw [if_neg (show ¬ (r'.at fun i => x (π i)).lambda = 0 from fun h0 => hl0 (hl.symm.trans h0)),
        if_neg (show ¬ (r.at x).lambda = 0 from hl0)]
      refine ⟨some _, rfl, ?_⟩
      simp only [Option.map_some, mul_smul', Tet.Ref.at, hv, hl, hm, transpose_corners h]

theorem model_product (h : SameRest π r r') (M : TetModel) (x d : Tet.Verts) :
    M.product (r.at x) d =
      (corners π).transpose * M.product (r'.at fun i => x (π i)) fun i => d (π i) := by
  obtain ⟨-, hv, hl, hm⟩ := id h
  cases M
  · simp only [TetModel.product, Tet.nhProduct, at_F h, at_dF h x]
    by_cases hJ : 0 < (r.at x).F.det
    · rw [if_pos hJ, if_pos hJ]
      cases (r.at x).F.inverseTranspose with
      | none => simp only [mul_zero']
      | some G => simp only [mul_smul', Tet.Ref.at, hv, hl, hm, transpose_corners h]
    · rw [if_neg hJ, if_neg hJ, mul_zero']
  · simp only [TetModel.product, Tet.snhProduct, at_F h, at_dF h x]
    simp only [mul_smul', Tet.Ref.at, hv, hl, hm, transpose_corners h]

end Tet

variable {σ : Equiv.Perm ℕ}

theorem SameTet.pick {e e' : TetElem} {π : Equiv.Perm (Fin 4)} (h : ∀ i, e'.cell i = σ (e.cell (π i)))
    (x : ℕ → V3 ℝ) : e'.pick (renumber σ x) = fun i => e.pick x (π i) := by
  funext i
  simp [TetElem.pick, h]

/-- The pairing of corner forces with velocities. -/
theorem spread_dot (H : M3 ℝ) (w : Tet.Verts) :
    V3.dot H.r0 (w 0) + V3.dot H.r1 (w 1) + V3.dot H.r2 (w 2)
        - (V3.dot H.r0 (w 3) + V3.dot H.r1 (w 3) + V3.dot H.r2 (w 3)) =
      ∑ i, V3.dot (Tet.spread H i) (w i) := by
  rw [Fin.sum_univ_four]
  simp [Tet.spread, V3.dot]
  ring

theorem spread_add (H K : M3 ℝ) (c : ℝ) : (![Tet.spread H 0 + c • K.r0, Tet.spread H 1 + c • K.r1,
    Tet.spread H 2 + c • K.r2, Tet.spread H 3 - c • K.r0 - c • K.r1 - c • K.r2] : Tet.Verts) =
      Tet.spread (H + c • K) := by
  funext i
  fin_cases i <;> ext <;> simp [Tet.spread] <;> ring

theorem SameTet.energy {e e' : TetElem} (h : SameTet σ e e') (M : TetModel) (x v : ℕ → V3 ℝ) (q : ℝ) :
    e'.energy M (renumber σ x) (renumber σ v) q = e.energy M x v q := by
  obtain ⟨π, hc, hr, hd⟩ := h
  unfold TetElem.energy TetElem.prev
  rw [SameTet.pick hc, SameTet.pick hc, model_energy hr]
  congr 1
  funext el
  simp only [hd]
  congr 2
  rw [model_product hr M (fun i => e.pick x i - q • e.pick v i)]
  generalize (M.product (e'.ref.at fun i => e.pick x (π i) - q • e.pick v (π i)) fun i => e.pick v (π i)) = K
  have h1 := spread_dot K fun i => e.pick v (π i)
  rw [h1, spread_dot ((corners π).transpose * K) (e.pick v),
    ← Equiv.sum_comp π fun i => V3.dot (Tet.spread ((corners π).transpose * K) i) (e.pick v i)]
  simp only [spread_corners]

/-- The forces on the corners are the same. -/
theorem SameTet.gradient {e e' : TetElem} (h : SameTet σ e e') (M : TetModel) (x v : ℕ → V3 ℝ) (q : ℝ) :
    ∃ π : Equiv.Perm (Fin 4), (∀ i, e'.cell i = σ (e.cell (π i))) ∧
      e'.gradient M (renumber σ x) (renumber σ v) q = (e.gradient M x v q).map fun g i => g (π i) := by
  obtain ⟨π, hc, hr, hd⟩ := h
  refine ⟨π, hc, ?_⟩
  unfold TetElem.gradient TetElem.prev
  rw [SameTet.pick hc, SameTet.pick hc]
  obtain ⟨H, h1, h2⟩ := model_gradient hr M (e.pick x)
  rw [h1, h2]
  cases H with
  | none => rfl
  | some H =>
    simp only [Option.map_some, spread_add, hd]
    congr 1
    funext i
    rw [model_product hr M (fun i => e.pick x i - q • e.pick v i), ← mul_smul', ← mul_add_left',
      spread_corners]

theorem sumEnergies_perm {l l' : List (Option ℝ)} (h : l.Perm l') : sumEnergies l = sumEnergies l' := by
  induction h with
  | nil => rfl
  | cons a _ ih => simp only [sumEnergies, ih]
  | swap a b l =>
    simp only [sumEnergies]
    cases a <;> cases b <;> cases sumEnergies l <;> simp [add_left_comm]
  | trans _ _ h1 h2 => exact h1.trans h2

theorem sumEnergies_reordered {α β : Type} {R : α → β → Prop} {l : List α} {l' : List β}
    (h : Reordered R l l') {f : α → Option ℝ} {g : β → Option ℝ} (hfg : ∀ a ∈ l, ∀ b, R a b → g b = f a) :
    sumEnergies (l'.map g) = sumEnergies (l.map f) := by
  obtain ⟨m, hm, hp⟩ := h
  rw [← sumEnergies_perm (hp.map g)]
  clear hp
  congr 1
  induction hm with
  | nil => rfl
  | cons h _ ih =>
    rw [List.map_cons, List.map_cons, hfg _ (by simp) _ h, ih fun a ha => hfg a (by simp [ha])]

theorem tetEnergy_renumber {es es' : List TetElem} (h : Reordered (SameTet σ) es es') (M : TetModel)
    (x v : ℕ → V3 ℝ) (q : ℝ) :
    tetEnergy M es' (renumber σ x) (renumber σ v) q = tetEnergy M es x v q :=
  sumEnergies_reordered h fun _ _ _ he => he.energy M x v q

open Classical in
theorem collect_eq {ι α : Type} (es : List ι) (f : ι → Option α) (d : α) :
    collect (es.map f) = if ∀ e ∈ es, (f e).isSome then some (es.map fun e => (f e).getD d) else none := by
  induction es with
  | nil => simp [collect]
  | cons e es ih =>
    simp only [List.map_cons, collect, ih]
    cases h : f e with
    | none => simp [h]
    | some a =>
      by_cases h2 : ∀ e ∈ es, (f e).isSome = true
      · rw [if_pos h2, if_pos (by simpa [h] using h2)]
        simp [h]
      · rw [if_neg h2, if_neg (by simpa [h] using h2)]

open Classical in
theorem tetGradient_eq (M : TetModel) (es : List TetElem) (x v : ℕ → V3 ℝ) (q : ℝ) (G : ℕ → V3 ℝ) :
    tetGradient M es x v q G = if ∀ e ∈ es, (e.gradient M x v q).isSome then
      some (addAll (es.flatMap fun e => zipCell e.cell ((e.gradient M x v q).getD 0)) G) else none := by
  unfold tetGradient
  rw [collect_eq es _ 0]
  split
  · have hz : es.zip (es.map fun e => (e.gradient M x v q).getD 0) =
        es.map fun e => (e, (e.gradient M x v q).getD 0) := by
      have := List.zip_map' (f := fun e : TetElem => e)
        (g := fun e : TetElem => (e.gradient M x v q).getD 0) (l := es)
      rwa [List.map_id'] at this
    rw [Option.map_some, hz, List.flatMap_map]
  · rfl

theorem tetGradient_renumber {es es' : List TetElem} (h : Reordered (SameTet σ) es es') (M : TetModel)
    (x v : ℕ → V3 ℝ) (q : ℝ) (G : ℕ → V3 ℝ) :
    tetGradient M es' (renumber σ x) (renumber σ v) q (renumber σ G) =
      (tetGradient M es x v q G).map (renumber σ) := by
  classical
  rw [tetGradient_eq, tetGradient_eq]
  have hall : (∀ e ∈ es', (e.gradient M (renumber σ x) (renumber σ v) q).isSome = true) ↔
      ∀ e ∈ es, (e.gradient M x v q).isSome = true := h.all fun e _ e' he => by
    obtain ⟨π, -, hg⟩ := he.gradient M x v q
    rw [hg, Option.isSome_map]
  by_cases hs : ∀ e ∈ es, (e.gradient M x v q).isSome = true
  · rw [if_pos hs, if_pos (hall.2 hs), Option.map_some]
    congr 1
    refine addAll_renumber (sameAdds_flatMap h fun e he e' hee => ?_) G
    obtain ⟨π, hc, hg⟩ := hee.gradient M x v q
    refine sameAdds_zipCell π hc fun i => ?_
    rw [hg]
    obtain ⟨g, hg'⟩ := Option.isSome_iff_exists.1 (hs e he)
    rw [hg']
    rfl
  · rw [if_neg hs, if_neg fun h => hs (hall.1 h)]
    rfl

/-! ## Triangles -/

/-- The matrix that turns the edges of a triangle to its last corner into those of the same triangle with the
corners `π 0, π 1, π 2`. -/
def triCorners (π : Equiv.Perm (Fin 3)) : Tri.M22 :=
  let a (i j : Fin 3) : ℝ := (if π i = j then 1 else 0) - if π 2 = j then 1 else 0
  ⟨⟨a 0 0, a 0 1⟩, ⟨a 1 0, a 1 1⟩⟩

theorem tri_cases (π : Equiv.Perm (Fin 3)) : π 2 = 0 ∧ (π 0 = 1 ∧ π 1 = 2 ∨ π 0 = 2 ∧ π 1 = 1) ∨
    π 2 = 1 ∧ (π 0 = 0 ∧ π 1 = 2 ∨ π 0 = 2 ∧ π 1 = 0) ∨
    π 2 = 2 ∧ (π 0 = 0 ∧ π 1 = 1 ∨ π 0 = 1 ∧ π 1 = 0) := by
  have h01 : π 0 ≠ π 1 := fun h => by simpa using π.injective h
  have h02 : π 0 ≠ π 2 := fun h => by simpa using π.injective h
  have h12 : π 1 ≠ π 2 := fun h => by simpa using π.injective h
  revert h01 h02 h12
  generalize π 0 = a
  generalize π 1 = b
  generalize π 2 = c
  revert a b c
  decide

theorem shape_triCorners (π : Equiv.Perm (Fin 3)) (x : Tri.Verts) :
    Tri.shape (fun i => x (π i)) = (triCorners π).mul23 (Tri.shape x) := by
  unfold Tri.shape triCorners Tri.M22.mul23
  rcases tri_cases π with ⟨h2, ⟨h0, h1⟩ | ⟨h0, h1⟩⟩ | ⟨h2, ⟨h0, h1⟩ | ⟨h0, h1⟩⟩ | ⟨h2, ⟨h0, h1⟩ | ⟨h0, h1⟩⟩ <;>
    ext <;> simp [h0, h1, h2]

theorem spread_triCorners (π : Equiv.Perm (Fin 3)) (H : Tri.M23) (i : Fin 3) :
    Tri.spread ((triCorners π).transpose.mul23 H) (π i) = Tri.spread H i := by
  unfold triCorners Tri.M22.mul23 Tri.M22.transpose Tri.spread
  rcases tri_cases π with ⟨h2, ⟨h0, h1⟩ | ⟨h0, h1⟩⟩ | ⟨h2, ⟨h0, h1⟩ | ⟨h0, h1⟩⟩ | ⟨h2, ⟨h0, h1⟩ | ⟨h0, h1⟩⟩ <;>
    fin_cases i <;> ext <;> simp [h0, h1, h2] <;> ring

/-- The product of two 2x2 matrices. -/
def mul22 (a b : Tri.M22) : Tri.M22 :=
  ⟨⟨a.r0.x * b.r0.x + a.r0.y * b.r1.x, a.r0.x * b.r0.y + a.r0.y * b.r1.y⟩,
    ⟨a.r1.x * b.r0.x + a.r1.y * b.r1.x, a.r1.x * b.r0.y + a.r1.y * b.r1.y⟩⟩

/-- The 2x2 identity. -/
def one22 : Tri.M22 := ⟨⟨1, 0⟩, ⟨0, 1⟩⟩

theorem mul22_assoc (a b c : Tri.M22) : mul22 (mul22 a b) c = mul22 a (mul22 b c) := by
  ext <;> simp [mul22] <;> ring

theorem mul22_one (a : Tri.M22) : mul22 a one22 = a := by
  ext <;> simp [mul22, one22]

theorem one_mul22 (a : Tri.M22) : mul22 one22 a = a := by
  ext <;> simp [mul22, one22]

theorem mul22_mul23 (a b : Tri.M22) (c : Tri.M23) : (mul22 a b).mul23 c = a.mul23 (b.mul23 c) := by
  ext <;> simp [mul22, Tri.M22.mul23] <;> ring

theorem one22_mul23 (c : Tri.M23) : one22.mul23 c = c := by
  ext <;> simp [one22, Tri.M22.mul23]

theorem mul22_transpose (a b : Tri.M22) : (mul22 a b).transpose = mul22 b.transpose a.transpose := by
  ext <;> simp [mul22, Tri.M22.transpose] <;> ring

theorem mul22_one_comm {a b : Tri.M22} (h : mul22 a b = one22) : mul22 b a = one22 := by
  have e (m n : Tri.M22) : mul22 m n = one22 ↔
      (!![m.r0.x, m.r0.y; m.r1.x, m.r1.y] * !![n.r0.x, n.r0.y; n.r1.x, n.r1.y] : Matrix (Fin 2) (Fin 2) ℝ) = 1 := by
    rw [Matrix.mul_fin_two, Matrix.one_fin_two]
    constructor
    · intro h
      rw [← Matrix.ext_iff]
      have h0 := congrArg Tri.M22.r0 h
      have h1 := congrArg Tri.M22.r1 h
      simp only [mul22, one22, V2.mk.injEq] at h0 h1
      intro i j
      fin_cases i <;> fin_cases j <;> simp [h0, h1]
    · intro h
      have h (i j : Fin 2) := congrFun (congrFun h i) j
      ext
      · simpa [mul22, one22] using h 0 0
      · simpa [mul22, one22] using h 0 1
      · simpa [mul22, one22] using h 1 0
      · simpa [mul22, one22] using h 1 1
  rw [e] at h ⊢
  rwa [mul_eq_one_comm]

/-- The reference data of the same triangle with its corners in another order: two triangles in the plane are
congruent to the same triangle at rest. -/
def SameTriRest (π : Equiv.Perm (Fin 3)) (r r' : Tri.Ref) : Prop :=
  (∃ (X : Tri.Verts) (S S' : Tri.M22), mul22 r.DXinv S = one22 ∧ mul22 r'.DXinv S' = one22 ∧
    mul22 S S.transpose = (Tri.shape X).mulT (Tri.shape X) ∧
    mul22 S' S'.transpose = (Tri.shape fun i => X (π i)).mulT (Tri.shape fun i => X (π i))) ∧
    r'.area = r.area ∧ r'.lambda = r.lambda ∧ r'.mu = r.mu

theorem mulT_mul23 (a : Tri.M22) (b : Tri.M23) :
    (a.mul23 b).mulT (a.mul23 b) = mul22 (mul22 a (b.mulT b)) a.transpose := by
  ext <;> simp [mul22, Tri.M22.mul23, Tri.M23.mulT, Tri.M22.transpose, V3.dot] <;> ring

/-- The two planes differ by a rotation or reflection. -/
theorem SameTriRest.turn {π : Equiv.Perm (Fin 3)} {r r' : Tri.Ref} (h : SameTriRest π r r') :
    ∃ U : Tri.M22, mul22 U U.transpose = one22 ∧ mul22 U.transpose U = one22 ∧
      mul22 r'.DXinv (triCorners π) = mul22 U r.DXinv := by
  obtain ⟨⟨X, S, S', h1, h2, h3, h4⟩, -⟩ := h
  rw [shape_triCorners, mulT_mul23, ← h3] at h4
  have hu : mul22 (mul22 (mul22 r'.DXinv (triCorners π)) S)
      (mul22 (mul22 r'.DXinv (triCorners π)) S).transpose = one22 := by
    have h5 : mul22 (mul22 r'.DXinv (mul22 S' S'.transpose)) r'.DXinv.transpose = one22 := by
      rw [← mul22_assoc, h2, one_mul22, ← mul22_transpose, h2]
      rfl
    rw [h4] at h5
    simp only [mul22_transpose, mul22_assoc] at h5 ⊢
    exact h5
  refine ⟨_, hu, mul22_one_comm hu, ?_⟩
  rw [mul22_assoc, mul22_one_comm h1, mul22_one]

/-- The same triangle element: its vertices have new numbers, its corners may be in another order. -/
def SameTri (σ : Equiv.Perm ℕ) (e e' : TriElem) : Prop :=
  ∃ π : Equiv.Perm (Fin 3), (∀ i, e'.cell i = σ (e.cell (π i))) ∧ SameTriRest π e.ref e'.ref ∧
    e'.damping = e.damping

section Tri

variable {U : Tri.M22}

theorem frob_turn (hU : mul22 U.transpose U = one22) (F : Tri.M23) :
    V3.dot (U.mul23 F).r0 (U.mul23 F).r0 + V3.dot (U.mul23 F).r1 (U.mul23 F).r1 =
      V3.dot F.r0 F.r0 + V3.dot F.r1 F.r1 := by
  have h0 := congrArg Tri.M22.r0 hU
  have h1 := congrArg Tri.M22.r1 hU
  simp only [mul22, one22, Tri.M22.transpose, V2.mk.injEq] at h0 h1
  have : V3.dot (U.mul23 F).r0 (U.mul23 F).r0 + V3.dot (U.mul23 F).r1 (U.mul23 F).r1 =
      (U.r0.x * U.r0.x + U.r1.x * U.r1.x) * V3.dot F.r0 F.r0 +
      2 * ((U.r0.x * U.r0.y + U.r1.x * U.r1.y) * V3.dot F.r0 F.r1) +
      (U.r0.y * U.r0.y + U.r1.y * U.r1.y) * V3.dot F.r1 F.r1 := by
    simp [Tri.M22.mul23, V3.dot]; ring
  rw [this, h0.1, h0.2, h1.2]
  ring

theorem det_turn (hU : mul22 U.transpose U = one22) : U.det * U.det = 1 := by
  have h0 := congrArg Tri.M22.r0 hU
  have h1 := congrArg Tri.M22.r1 hU
  simp only [mul22, one22, Tri.M22.transpose, V2.mk.injEq] at h0 h1
  have : U.det * U.det = (U.r0.x * U.r0.x + U.r1.x * U.r1.x) * (U.r0.y * U.r0.y + U.r1.y * U.r1.y) -
      (U.r0.x * U.r0.y + U.r1.x * U.r1.y) * (U.r0.x * U.r0.y + U.r1.x * U.r1.y) := by
    simp [Tri.M22.det]; ring
  rw [this, h0.1, h0.2, h1.2]
  ring

theorem det_mul22 (a b : Tri.M22) : (mul22 a b).det = a.det * b.det := by
  simp [mul22, Tri.M22.det]; ring

theorem det_transpose22 (a : Tri.M22) : a.transpose.det = a.det := by
  simp [Tri.M22.transpose, Tri.M22.det]; ring

theorem inv22_mul {a : Tri.M22} (h : a.det ≠ 0) : mul22 a.inv a = one22 := by
  have : a.det⁻¹ * a.det = 1 := inv_mul_cancel₀ h
  ext <;> simp only [mul22, Tri.M22.inv, one22] <;> [skip; ring; ring; skip] <;>
    rw [← this, Tri.M22.det] <;> ring

theorem inv22_turn (hU : mul22 U.transpose U = one22) {C : Tri.M22} (h : C.det ≠ 0) (F : Tri.M23) :
    (mul22 (mul22 U C) U.transpose).inv.mul23 (U.mul23 F) = U.mul23 (C.inv.mul23 F) := by
  have hd : (mul22 (mul22 U C) U.transpose).det ≠ 0 := by
    rw [det_mul22, det_mul22, det_transpose22]
    have := det_turn hU
    intro h0
    apply h
    linear_combination h0 - C.det * this
  have h1 : (mul22 (mul22 U C) U.transpose).mul23 (U.mul23 (C.inv.mul23 F)) = U.mul23 F := by
    rw [← mul22_mul23, mul22_assoc, hU, mul22_one, mul22_mul23, ← mul22_mul23 C, mul22_one_comm (inv22_mul h),
      one22_mul23]
  rw [← h1, ← mul22_mul23, inv22_mul hd, one22_mul23]

variable {π : Equiv.Perm (Fin 3)} {r r' : Tri.Ref} (h : mul22 r'.DXinv (triCorners π) = mul22 U r.DXinv)

include h

theorem tri_dF (x y d : Tri.Verts) : (r'.at y).dF (fun i => d (π i)) = U.mul23 ((r.at x).dF d) := by
  show r'.DXinv.mul23 (Tri.shape fun i => d (π i)) = U.mul23 (r.DXinv.mul23 (Tri.shape d))
  rw [shape_triCorners, ← mul22_mul23, h, mul22_mul23]

theorem tri_F (x : Tri.Verts) : (r'.at fun i => x (π i)).F = U.mul23 (r.at x).F := tri_dF h x x x

theorem tri_C (x : Tri.Verts) :
    (r'.at fun i => x (π i)).C = mul22 (mul22 U (r.at x).C) U.transpose := by
  unfold Tri.Elem.C
  rw [tri_F h, mulT_mul23]

theorem tri_det (hU : mul22 U.transpose U = one22) (x : Tri.Verts) :
    (r'.at fun i => x (π i)).C.det = (r.at x).C.det := by
  rw [tri_C h, det_mul22, det_mul22, det_transpose22]
  linear_combination (r.at x).C.det * det_turn hU

theorem tri_back (hU : mul22 U.transpose U = one22) (P : Tri.M23) :
    r.DXinv.transpose.mul23 P = (triCorners π).transpose.mul23 (r'.DXinv.transpose.mul23 (U.mul23 P)) := by
  rw [← mul22_mul23, ← mul22_transpose, h, mul22_transpose, mul22_mul23, ← mul22_mul23 U.transpose, hU, one22_mul23]

theorem tri_energy (hU : mul22 U.transpose U = one22) (ha : r'.area = r.area) (hl : r'.lambda = r.lambda)
    (hm : r'.mu = r.mu) (x : Tri.Verts) : Tri.energy (r'.at fun i => x (π i)) = Tri.energy (r.at x) := by
  unfold Tri.energy
  have hI : (r'.at fun i => x (π i)).C.r0.x + (r'.at fun i => x (π i)).C.r1.y =
      (r.at x).C.r0.x + (r.at x).C.r1.y := by
    have := frob_turn hU (r.at x).F
    rw [← tri_F h] at this
    exact this
  have hl' : (r'.at fun i => x (π i)).lambda = (r.at x).lambda := hl
  have hm' : (r'.at fun i => x (π i)).mu = (r.at x).mu := hm
  have ha' : (r'.at fun i => x (π i)).area = (r.at x).area := ha
  simp only [tri_det h hU, hI, hl', hm', ha']

theorem tri_gradient (hU : mul22 U.transpose U = one22) (ha : r'.area = r.area) (hl : r'.lambda = r.lambda)
    (hm : r'.mu = r.mu) (x : Tri.Verts) (i : Fin 3) :
    Tri.gradient (r'.at fun i => x (π i)) i = Tri.gradient (r.at x) (π i) := by
  unfold Tri.gradient
  simp only [tri_det h hU]
  by_cases hC : (r.at x).C.det ≤ 0
  · simp only [if_pos hC]
  · simp only [if_neg hC]
    rw [tri_C h, tri_F h, inv22_turn hU fun h0 => hC h0.le]
    have hl' : (r'.at fun i => x (π i)).lambda = (r.at x).lambda := hl
    have hm' : (r'.at fun i => x (π i)).mu = (r.at x).mu := hm
    have ha' : (r'.at fun i => x (π i)).area = (r.at x).area := ha
    rw [hl', hm', ha']
    show Tri.spread ((r.at x).area • r'.DXinv.transpose.mul23 _) i =
      Tri.spread ((r.at x).area • r.DXinv.transpose.mul23 _) (π i)
    rw [tri_back h hU]
    have e1 (c : ℝ) (a : Tri.M22) (b : Tri.M23) : c • a.mul23 b = a.mul23 (c • b) := by
      ext <;> simp [Tri.M22.mul23] <;> ring
    have e2 (a : Tri.M22) (b c : Tri.M23) : a.mul23 b + a.mul23 c = a.mul23 (b + c) := by
      ext <;> simp [Tri.M22.mul23] <;> ring
    rw [e1 _ (triCorners π).transpose, spread_triCorners, e1 _ U, e1 _ U, e2]

end Tri

theorem SameTri.pick {e e' : TriElem} {π : Equiv.Perm (Fin 3)} (h : ∀ i, e'.cell i = σ (e.cell (π i)))
    (x : ℕ → V3 ℝ) : e'.pick (renumber σ x) = fun i => e.pick x (π i) := by
  funext i
  simp [TriElem.pick, h]

theorem SameTri.energy {e e' : TriElem} (h : SameTri σ e e') (x v : ℕ → V3 ℝ) (q : ℝ) :
    e'.energy (renumber σ x) (renumber σ v) q = e.energy x v q := by
  obtain ⟨π, hc, hr, hd⟩ := h
  obtain ⟨U, -, hU, hD⟩ := hr.turn
  obtain ⟨-, ha, hl, hm⟩ := hr
  unfold TriElem.energy
  rw [SameTri.pick hc, SameTri.pick hc, tri_energy hD hU ha hl hm, tri_dF hD (e.pick x)]
  simp only [frob_turn hU, ha, hm, hd]

/-- The forces of damping, corner by corner. -/
theorem damp_sum (e : TriElem) (H : Tri.M23) (w : ℕ) :
    (([(e.cell 0, H.r0), (e.cell 2, -H.r0), (e.cell 1, H.r1), (e.cell 2, -H.r1)] : List (ℕ × V3 ℝ)).map fun p =>
      if p.1 = w then p.2 else 0).sum = ∑ i, if e.cell i = w then Tri.spread H i else 0 := by
  rw [Fin.sum_univ_three]
  simp only [List.map_cons, List.map_nil, List.sum_cons, List.sum_nil, Tri.spread]
  by_cases h2 : e.cell 2 = w <;> simp [h2] <;> abel

theorem SameTri.updates {e e' : TriElem} (h : SameTri σ e e') (x v : ℕ → V3 ℝ) (q : ℝ) :
    SameAdds σ (e.gradientUpdates x v q) (e'.gradientUpdates (renumber σ x) (renumber σ v) q) := by
  obtain ⟨π, hc, hr, hd⟩ := h
  obtain ⟨U, -, hU, hD⟩ := hr.turn
  obtain ⟨-, ha, hl, hm⟩ := hr
  have hdamp : e.damp x v q = (triCorners π).transpose.mul23 (e'.damp (renumber σ x) (renumber σ v) q) := by
    unfold TriElem.damp
    rw [SameTri.pick hc, SameTri.pick hc, tri_dF hD (e.pick x), tri_back hD hU, ha, hm, hd]
    ext <;> simp [Tri.M22.mul23] <;> ring
  intro w
  unfold TriElem.gradientUpdates
  simp only [List.map_append, List.sum_append]
  rw [damp_sum, damp_sum, hdamp, ← Equiv.sum_comp π fun i => if e.cell i = w then
    Tri.spread ((triCorners π).transpose.mul23 (e'.damp (renumber σ x) (renumber σ v) q)) i else 0]
  congr 1
  · refine sameAdds_zipCell π hc (fun i => ?_) w
    rw [SameTri.pick hc, tri_gradient hD hU ha hl hm]
  · simp only [spread_triCorners, hc, σ.apply_eq_iff_eq]

/-! ## Hinges -/

/-- The same hinge with the faces in the same order: the corners of its faces, counted from the start of
the edge, have new numbers. -/
structure Along (σ : Equiv.Perm ℕ) (e e' : IEdge.Edge) (faces faces' : ℕ → ℕ → ℕ) : Prop where
  face0 : ∀ k, e'.vert0 faces' k = σ (e.vert0 faces k)
  face1 : ∀ k, e'.vert1 faces' k = σ (e.vert1 faces k)

/-- The same hinge with the faces exchanged. -/
structure Across (σ : Equiv.Perm ℕ) (e e' : IEdge.Edge) (faces faces' : ℕ → ℕ → ℕ) : Prop where
  face0 : ∀ k, e'.vert0 faces' k = σ (e.vert1 faces k)
  face1 : ∀ k, e'.vert1 faces' k = σ (e.vert0 faces k)

/-- The edge is a side of both faces, which pass it in opposite directions. -/
structure Hinged (e : IEdge.Edge) (faces : ℕ → ℕ → ℕ) : Prop where
  ends0 : e.vert1 faces 0 = e.vert0 faces 1
  ends1 : e.vert1 faces 1 = e.vert0 faces 0
  proper : e.vert0 faces 0 ≠ e.vert0 faces 1

/-- The edges start at one of the three corners. -/
def Starts (e : IEdge.Edge) : Prop := e.s0 < 3 ∧ e.s1 < 3

/-- The same hinge: the vertices have new numbers; the faces are exchanged, or not. -/
def SameHinge (σ : Equiv.Perm ℕ) (faces faces' : ℕ → ℕ → ℕ) (d d' : Dihedral) : Prop :=
  d'.bending = d.bending ∧ Starts d.edge ∧ Starts d'.edge ∧
    (Along σ d.edge d'.edge faces faces' ∨
      Across σ d.edge d'.edge faces faces' ∧ Hinged d.edge faces)

section Hinge

variable {e e' : IEdge.Edge} {faces faces' : ℕ → ℕ → ℕ}

theorem areaNormal_cycle (a b c : V3 ℝ) : IEdge.areaNormal b c a = IEdge.areaNormal a b c := by
  ext <;> simp [IEdge.areaNormal, V3.cross] <;> ring

theorem areaNormal_swap (a b c : V3 ℝ) : IEdge.areaNormal b a c = -IEdge.areaNormal a b c := by
  ext <;> simp [IEdge.areaNormal, V3.cross] <;> ring

theorem normal0_vert (hs : Starts e) (pos : ℕ → V3 ℝ) : e.normal0 pos faces =
    IEdge.areaNormal (pos (e.vert0 faces 0)) (pos (e.vert0 faces 1)) (pos (e.vert0 faces 2)) := by
  obtain ⟨f0, f1, s0, s1⟩ := e
  obtain ⟨h0, -⟩ := hs
  simp only [IEdge.Edge.normal0, IEdge.Edge.vert0]
  simp only at h0
  interval_cases s0
  · rfl
  · exact (areaNormal_cycle _ _ _).symm
  · exact areaNormal_cycle _ _ _

theorem normal1_vert (hs : Starts e) (pos : ℕ → V3 ℝ) : e.normal1 pos faces =
    if e.isOriented faces then
      IEdge.areaNormal (pos (e.vert1 faces 0)) (pos (e.vert1 faces 1)) (pos (e.vert1 faces 2))
    else -IEdge.areaNormal (pos (e.vert1 faces 0)) (pos (e.vert1 faces 1)) (pos (e.vert1 faces 2)) := by
  have h : IEdge.areaNormal (pos (faces e.f1 0)) (pos (faces e.f1 1)) (pos (faces e.f1 2)) =
      IEdge.areaNormal (pos (e.vert1 faces 0)) (pos (e.vert1 faces 1)) (pos (e.vert1 faces 2)) := by
    obtain ⟨f0, f1, s0, s1⟩ := e
    obtain ⟨-, h0⟩ := hs
    simp only [IEdge.Edge.vert1]
    simp only at h0
    interval_cases s1
    · rfl
    · exact (areaNormal_cycle _ _ _).symm
    · exact areaNormal_cycle _ _ _
  unfold IEdge.Edge.normal1
  rw [areaNormal_swap (pos (faces e.f1 0)), h]

theorem face0Tangent_vert (hs : Starts e) (pos : ℕ → V3 ℝ) :
    e.face0Tangent pos faces = pos (e.vert0 faces 2) - pos (e.vert0 faces 0) := by
  unfold IEdge.Edge.face0Tangent IEdge.Edge.vert0
  have h : (e.s0 + 0) % 3 = e.s0 := Nat.mod_eq_of_lt hs.1
  rw [h]

theorem along_geometry (h : Along σ e e' faces faces') (hs : Starts e) (hs' : Starts e') (x : ℕ → V3 ℝ) :
    e'.normal0 (renumber σ x) faces' = e.normal0 x faces ∧
    e'.normal1 (renumber σ x) faces' = e.normal1 x faces ∧
    e'.edgeVector (renumber σ x) faces' = e.edgeVector x faces ∧
    e'.face0Tangent (renumber σ x) faces' = e.face0Tangent x faces ∧
    e'.face1Tangent (renumber σ x) faces' = e.face1Tangent x faces := by
  have ho : e'.isOriented faces' = e.isOriented faces := by
    simp [IEdge.Edge.isOriented, h.face0, h.face1]
  rw [normal0_vert hs, normal0_vert hs', normal1_vert hs, normal1_vert hs', face0Tangent_vert hs,
    face0Tangent_vert hs', ho]
  simp [IEdge.Edge.edgeVector, IEdge.Edge.face1Tangent, h.face0, h.face1]

theorem along_angle (h : Along σ e e' faces faces') (hs : Starts e) (hs' : Starts e') (x : ℕ → V3 ℝ) :
    e'.edgeAngle (renumber σ x) faces' = e.edgeAngle x faces := by
  obtain ⟨h1, h2, h3, h4, h5⟩ := along_geometry h hs hs' x
  unfold IEdge.Edge.edgeAngle
  rw [h1, h2, h3, h5]

theorem along_gradient (h : Along σ e e' faces faces') (hs : Starts e) (hs' : Starts e') (x : ℕ → V3 ℝ) :
    e'.gradient (renumber σ x) faces' = e.gradient x faces := by
  obtain ⟨h1, h2, h3, h4, h5⟩ := along_geometry h hs hs' x
  unfold IEdge.Edge.gradient
  rw [h1, h2, h3, h4, h5]

theorem across_geometry (h : Across σ e e' faces faces') (hh : Hinged e faces) (hs : Starts e)
    (hs' : Starts e') (x : ℕ → V3 ℝ) :
    e'.normal0 (renumber σ x) faces' = e.normal1 x faces ∧
    e'.normal1 (renumber σ x) faces' = e.normal0 x faces ∧
    e'.edgeVector (renumber σ x) faces' = -e.edgeVector x faces ∧
    e'.face0Tangent (renumber σ x) faces' = e.face1Tangent x faces - e.edgeVector x faces ∧
    e'.face1Tangent (renumber σ x) faces' = e.face0Tangent x faces - e.edgeVector x faces := by
  have ho : e.isOriented faces = true := by
    simp [IEdge.Edge.isOriented, hh.ends0, hh.proper]
  have ho' : e'.isOriented faces' = true := by
    simp [IEdge.Edge.isOriented, h.face0, h.face1, hh.ends0, hh.proper.symm]
  rw [normal0_vert hs, normal0_vert hs', normal1_vert hs, normal1_vert hs', face0Tangent_vert hs,
    face0Tangent_vert hs', ho, ho', if_pos rfl, if_pos rfl]
  simp [IEdge.Edge.edgeVector, IEdge.Edge.face1Tangent, h.face0, h.face1, hh.ends0, hh.ends1]

theorem across_angle (h : Across σ e e' faces faces') (hh : Hinged e faces) (hs : Starts e)
    (hs' : Starts e') (x : ℕ → V3 ℝ) : e'.edgeAngle (renumber σ x) faces' = e.edgeAngle x faces := by
  obtain ⟨h1, h2, h3, h4, h5⟩ := across_geometry h hh hs hs' x
  unfold IEdge.Edge.edgeAngle
  have ht : V3.dot (e.face0Tangent x faces - e.edgeVector x faces) (e.normal1 x faces) =
      V3.dot (e.face1Tangent x faces) (e.normal0 x faces) := by
    have ho : e.isOriented faces = true := by
      simp [IEdge.Edge.isOriented, hh.ends0, hh.proper]
    rw [normal0_vert hs, normal1_vert hs, face0Tangent_vert hs, ho, if_pos rfl]
    simp only [IEdge.Edge.edgeVector, IEdge.Edge.face1Tangent, hh.ends0, hh.ends1, IEdge.areaNormal]
    simp [V3.dot, V3.cross]
    ring
  have hn : (-e.edgeVector x faces).norm = (e.edgeVector x faces).norm := by
    simp [V3.norm, V3.dot]
  have hd : V3.dot (e.normal1 x faces) (e.normal0 x faces) = V3.dot (e.normal0 x faces) (e.normal1 x faces) := by
    simp [V3.dot]; ring
  simp only [h1, h2, h3, h5, ht, hn, hd]

theorem norm_smul_dot (a : V3 ℝ) : V3.dot a ((1 / a.norm) • a) = a.norm := by
  have h : V3.dot a ((1 / a.norm) • a) = (a.norm * a.norm) * (1 / a.norm) := by
    rw [V3.norm_mul_norm]
    simp only [V3.dot, V3.smul_x, V3.smul_y, V3.smul_z]
    ring
  rw [h, mul_one_div]
  by_cases h0 : a.norm = 0
  · rw [h0]; simp
  · field_simp

theorem across_gradient (h : Across σ e e' faces faces') (hh : Hinged e faces) (hs : Starts e)
    (hs' : Starts e') (x : ℕ → V3 ℝ) : e'.gradient (renumber σ x) faces' =
      ⟨(e.gradient x faces).d1, (e.gradient x faces).d0, (e.gradient x faces).d3, (e.gradient x faces).d2⟩ := by
  obtain ⟨h1, h2, h3, h4, h5⟩ := across_geometry h hh hs hs' x
  have hn : (-e.edgeVector x faces).norm = (e.edgeVector x faces).norm := by
    simp [V3.norm, V3.dot]
  unfold IEdge.Edge.gradient
  simp only [h1, h2, h3, h4, h5, hn]
  have hd := norm_smul_dot (e.edgeVector x faces)
  have hf (t : V3 ℝ) : V3.dot (t - e.edgeVector x faces)
      ((1 / (e.edgeVector x faces).norm) • -e.edgeVector x faces) =
      (e.edgeVector x faces).norm - V3.dot t ((1 / (e.edgeVector x faces).norm) • e.edgeVector x faces) := by
    have hl : V3.dot (t - e.edgeVector x faces)
        ((1 / (e.edgeVector x faces).norm) • -e.edgeVector x faces) =
        V3.dot (e.edgeVector x faces) ((1 / (e.edgeVector x faces).norm) • e.edgeVector x faces) -
          V3.dot t ((1 / (e.edgeVector x faces).norm) • e.edgeVector x faces) := by
      simp only [V3.dot, V3.sub_x, V3.sub_y, V3.sub_z, V3.smul_x, V3.smul_y, V3.smul_z, V3.neg_x, V3.neg_y,
        V3.neg_z]
      ring
    rw [hl, hd]
  rw [hf, hf]
  by_cases hz : V3.dot (e.normal0 x faces) (e.normal0 x faces) = 0 ∨
      V3.dot (e.normal1 x faces) (e.normal1 x faces) = 0
  · rw [if_pos hz, if_pos hz.symm]
  · rw [if_neg hz, if_neg fun h => hz h.symm]
    ext <;> simp <;> ring

end Hinge

theorem SameHinge.energy {faces faces' : ℕ → ℕ → ℕ} {d d' : Dihedral} (h : SameHinge σ faces faces' d d')
    (x : ℕ → V3 ℝ) :
    d'.bending.energy d'.edge (renumber σ x) faces' = d.bending.energy d.edge x faces := by
  obtain ⟨hb, hs, hs', h⟩ := h
  unfold IEdge.Bending.energy IEdge.Edge.incrementalAngle
  rcases h with h | ⟨h, hh⟩
  · rw [along_angle h hs hs', hb]
  · rw [across_angle h hh hs hs', hb]

theorem SameHinge.updates {faces faces' : ℕ → ℕ → ℕ} {d d' : Dihedral} (h : SameHinge σ faces faces' d d')
    (x : ℕ → V3 ℝ) :
    SameAdds σ (zipCell (d.cell faces) (gradList (d.bending.gradient d.edge x faces)))
      (zipCell (d'.cell faces') (gradList (d'.bending.gradient d'.edge (renumber σ x) faces'))) := by
  obtain ⟨hb, hs, hs', h⟩ := h
  unfold IEdge.Bending.gradient IEdge.Bending.angleDerivative IEdge.Edge.incrementalAngle
  rcases h with h | ⟨h, hh⟩
  · rw [along_angle h hs hs', along_gradient h hs hs', hb]
    refine sameAdds_zipCell (Equiv.refl _) (fun i => ?_) fun i => rfl
    fin_cases i <;> simp [Dihedral.cell, h.face0, h.face1]
  · rw [across_angle h hh hs hs', across_gradient h hh hs hs', hb]
    refine sameAdds_zipCell (Equiv.swap 0 1 * Equiv.swap 2 3) (fun i => ?_) fun i => ?_
    · fin_cases i <;> simp [Dihedral.cell, h.face0, h.face1, hh.ends0, hh.ends1, Equiv.swap_apply_def]
    · fin_cases i <;> simp [gradList, Equiv.swap_apply_def]

/-- The same shell: elements and hinges in any order, with new numbers of the vertices. -/
structure SameShell (σ : Equiv.Perm ℕ) (s s' : Shell) : Prop where
  tris : Reordered (SameTri σ) s.tris s'.tris
  hinges : Reordered (SameHinge σ s.faces s'.faces) s.dihedrals s'.dihedrals

theorem SameShell.energy {s s' : Shell} (h : SameShell σ s s') (x v : ℕ → V3 ℝ) (q : ℝ) :
    s'.energy (renumber σ x) (renumber σ v) q = s.energy x v q := by
  unfold Shell.energy
  rw [sumEnergies_reordered h.tris (fun e _ e' he => he.energy x v q),
    h.hinges.sum fun d _ d' hd => hd.energy x]

theorem SameShell.gradient {s s' : Shell} (h : SameShell σ s s') (x v : ℕ → V3 ℝ) (q : ℝ) (G : ℕ → V3 ℝ) :
    s'.gradient (renumber σ x) (renumber σ v) q (renumber σ G) = renumber σ (s.gradient x v q G) := by
  unfold Shell.gradient
  rw [addAll_renumber (sameAdds_flatMap h.tris fun e _ e' he => he.updates x v q),
    addAll_renumber (sameAdds_flatMap h.hinges fun d _ d' hd => hd.updates x)]

end Softy.Numbering
