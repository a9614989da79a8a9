import Verif.Model.Volume
import Verif.Props.Motion

/-!
# C33: the volume change penalty
-/

noncomputable section

namespace Softy.Volume

open Softy Assembly Fem

/-! ## Specification -/

/-- The directed edges of the triangles. -/
def edges (topo : List (Fin 3 → ℕ)) : List (ℕ × ℕ) :=
  topo.flatMap fun t => [(t 0, t 1), (t 1, t 2), (t 2, t 0)]

/-- The triangles form closed surfaces: each edge is used in both directions equally often. -/
def Closed (topo : List (Fin 3 → ℕ)) : Prop :=
  ∀ a b, (edges topo).count (a, b) = (edges topo).count (b, a)

/-- The vertices are below `N`. -/
def Within (topo : List (Fin 3 → ℕ)) (N : ℕ) : Prop := ∀ t ∈ topo, ∀ n, t n < N

/-- No division by zero happens. -/
def Penalty.Proper (P : Penalty) : Prop :=
  P.pressurization ≠ 0 ∧ P.restVolume ≠ 0 ∧ P.compression ≠ 0

/-- The pressure forces (up to sign) on the vertices. -/
def Penalty.forces (P : Penalty) (x : ℕ → V3 ℝ) : ℕ → V3 ℝ :=
  Problem.toVec (P.subtractForce x fun _ => 0)

/-! ## Closed surfaces -/

theorem closed_sum {α : Type} [AddCommGroup α] [IsAddTorsionFree α] {topo : List (Fin 3 → ℕ)}
    (h : Closed topo) (f : ℕ → ℕ → α) (hf : ∀ a b, f b a = -f a b) :
    ((edges topo).map fun e => f e.1 e.2).sum = 0 := by
  have hp : (edges topo).Perm ((edges topo).map Prod.swap) := by
    rw [List.perm_iff_count]
    rintro ⟨a, b⟩
    have := List.count_map_of_injective (edges topo) Prod.swap Prod.swap_injective (b, a)
    simp only [Prod.swap_prod_mk] at this
    rw [this]
    exact h a b
  have h1 := (hp.map fun e => f e.1 e.2).sum_eq
  rw [List.map_map] at h1
  have h2 : ((edges topo).map ((fun e : ℕ × ℕ => f e.1 e.2) ∘ Prod.swap)).sum =
      -((edges topo).map fun e => f e.1 e.2).sum := by
    clear hp h1
    induction edges topo with
    | nil => simp
    | cons e l ih =>
      rw [List.map_cons, List.sum_cons, ih, List.map_cons, List.sum_cons, neg_add]
      congr 1
      exact hf e.1 e.2
  rw [h2] at h1
  exact self_eq_neg.1 h1

theorem normals_sum (topo : List (Fin 3 → ℕ)) (x : ℕ → V3 ℝ) :
    (topo.map fun t => ∑ n, Penalty.normals t x n).sum =
      ((edges topo).map fun e => V3.cross (x e.1) (x e.2)).sum := by
  induction topo with
  | nil => rfl
  | cons t topo ih =>
    simp only [edges, List.flatMap_cons, List.map_append, List.sum_append, List.map_cons,
      List.sum_cons] at ih ⊢
    rw [ih, Fin.sum_univ_three]
    simp only [Penalty.normals, Matrix.cons_val, List.map_nil, List.sum_nil]
    abel

instance : IsAddTorsionFree (V3 ℝ) where
  nsmul_right_injective n hn a b hab := by
    have e : ∀ (k : ℕ) (a : V3 ℝ), (k • a).x = k * a.x ∧ (k • a).y = k * a.y ∧ (k • a).z = k * a.z := by
      intro k a
      induction k with
      | zero => simp
      | succ k ih =>
        rw [succ_nsmul]
        simp [ih.1, ih.2.1, ih.2.2]
        refine ⟨?_, ?_, ?_⟩ <;> ring
    have hn' : (n : ℝ) ≠ 0 := Nat.cast_ne_zero.2 hn
    have hx := congrArg V3.x hab
    have hy := congrArg V3.y hab
    have hz := congrArg V3.z hab
    simp only [(e n _).1, (e n _).2.1, (e n _).2.2] at hx hy hz
    ext
    · exact mul_left_cancel₀ hn' hx
    · exact mul_left_cancel₀ hn' hy
    · exact mul_left_cancel₀ hn' hz

/-- The area vectors of a closed surface cancel. -/
theorem closed_normals {topo : List (Fin 3 → ℕ)} (h : Closed topo) (x : ℕ → V3 ℝ) :
    (topo.map fun t => ∑ n, Penalty.normals t x n).sum = 0 := by
  rw [normals_sum]
  refine closed_sum h (fun a b => V3.cross (x a) (x b)) fun a b => ?_
  ext <;> simp [V3.cross] <;> ring

theorem dot_sum (c : V3 ℝ) (l : List (V3 ℝ)) : V3.dot c l.sum = (l.map (V3.dot c)).sum := by
  induction l with
  | nil => simp [V3.dot]
  | cons a l ih =>
    rw [List.sum_cons, List.map_cons, List.sum_cons, ← ih]
    simp [V3.dot]; ring

theorem dot_finset_sum {ι : Type} (c : V3 ℝ) (S : Finset ι) (f : ι → V3 ℝ) :
    V3.dot c (∑ i ∈ S, f i) = ∑ i ∈ S, V3.dot c (f i) := by
  classical
  induction S using Finset.induction_on with
  | empty => simp [V3.dot]
  | insert a S ha ih =>
    rw [Finset.sum_insert ha, Finset.sum_insert ha, ← ih]
    simp only [V3.dot, V3.add_x, V3.add_y, V3.add_z]
    ring

/-- C33. The volume of a closed surface does not depend on where it is. -/
theorem volume_translate {topo : List (Fin 3 → ℕ)} (h : Closed topo) (x : ℕ → V3 ℝ) (c : V3 ℝ) :
    signedVolume topo (fun i => x i + c) = signedVolume topo x := by
  have e : (topo.map fun t => V3.dot (x (t 0) + c) (V3.cross (x (t 1) + c) (x (t 2) + c))).sum =
      (topo.map fun t => V3.dot (x (t 0)) (V3.cross (x (t 1)) (x (t 2)))).sum +
        V3.dot c (topo.map fun t => ∑ n, Penalty.normals t x n).sum := by
    rw [dot_sum, List.map_map, ← List.sum_map_add]
    congr 1
    apply List.map_congr_left
    intro t _
    simp only [Function.comp, Fin.sum_univ_three, Penalty.normals, Matrix.cons_val]
    simp [V3.dot, V3.cross]
    ring
  unfold signedVolume
  rw [e, closed_normals h]
  simp [V3.dot]

/-- C33. The volume does not change under rotations. -/
theorem volume_rotate (topo : List (Fin 3 → ℕ)) (x : ℕ → V3 ℝ) (R : M3 ℝ) (hR : R.det = 1) :
    signedVolume topo (fun i => M3.mulVec R (x i)) = signedVolume topo x := by
  unfold signedVolume
  congr 2
  apply List.map_congr_left
  intro t _
  have : V3.dot (M3.mulVec R (x (t 0))) (V3.cross (M3.mulVec R (x (t 1))) (M3.mulVec R (x (t 2)))) =
      R.det * V3.dot (x (t 0)) (V3.cross (x (t 1)) (x (t 2))) := by
    simp [M3.mulVec, M3.det, V3.dot, V3.cross]
    ring
  rw [this, hR, one_mul]

/-- C33. Moving a closed zone rigidly changes neither the penalty nor its sign. -/
theorem energy_rigid (P : Penalty) (h : Closed P.topo) (x : ℕ → V3 ℝ) (R : M3 ℝ) (hR : R.det = 1)
    (c : V3 ℝ) : P.energy (fun i => M3.mulVec R (x i) + c) = P.energy x := by
  have : signedVolume P.topo (fun i => M3.mulVec R (x i) + c) = signedVolume P.topo x := by
    rw [volume_translate h fun i => M3.mulVec R (x i), volume_rotate _ _ _ hR]
  unfold Penalty.energy Penalty.dv
  rw [this]

/-! ## The force -/

theorem addScalars_apply (l : List (ℕ × ℝ)) (F : ℕ → ℝ) (i : ℕ) :
    Penalty.addScalars l F i = F i + (l.map fun p => if p.1 = i then p.2 else 0).sum := by
  induction l generalizing F with
  | nil => simp [Penalty.addScalars]
  | cons a l ih =>
    simp only [Penalty.addScalars, ih, List.map_cons, List.sum_cons]
    by_cases h : a.1 = i
    · subst h; simp; ring
    · rw [Function.update_of_ne (Ne.symm h), if_neg h, zero_add]

/-- The normals summed at each vertex. -/
def vertexNormal (topo : List (Fin 3 → ℕ)) (x : ℕ → V3 ℝ) (v : ℕ) : V3 ℝ :=
  vertexSum (topo.flatMap fun t => zipCell t (Penalty.normals t x)) v

/-- The factor of the normals in the force. -/
def Penalty.factor (P : Penalty) (x : ℕ → V3 ℝ) : ℝ :=
  pressureAtm * P.dv x / (P.compression * 6)

theorem coord_ite (c : Prop) [Decidable c] (a : V3 ℝ) (k : Fin 3) :
    (if c then a else 0).get k = if c then a.get k else 0 := by
  split_ifs
  · rfl
  · fin_cases k <;> rfl

theorem get_add' (a b : V3 ℝ) (k : Fin 3) : (a + b).get k = a.get k + b.get k := by
  fin_cases k <;> rfl

theorem triangle_flat (t : Fin 3 → ℕ) (w : Fin 3 → V3 ℝ) (f : ℝ) (i : ℕ) :
    (((List.finRange 3).flatMap fun vi => (List.finRange 3).map fun j : Fin 3 =>
      (3 * t vi + j.val, (w vi).get j * f)).map fun p => if p.1 = i then p.2 else 0).sum =
      f * coord (fun v => vertexSum (zipCell t w) v) i := by
  unfold coord
  have hi : i = 3 * (i / 3) + i % 3 := by omega
  simp only [vertexSum_zipCell, Fin.sum_univ_three, get_add', coord_ite]
  have h3 : List.finRange 3 = [0, 1, 2] := rfl
  simp only [h3, List.flatMap_cons, List.flatMap_nil, List.map_cons, List.map_nil, List.append_nil,
    List.cons_append, List.nil_append, List.sum_cons, List.sum_nil]
  have key : ∀ (v : ℕ) (a : V3 ℝ), ((if 3 * v + (0 : Fin 3).val = i then a.get 0 * f else 0) +
      ((if 3 * v + (1 : Fin 3).val = i then a.get 1 * f else 0) +
      (if 3 * v + (2 : Fin 3).val = i then a.get 2 * f else 0))) =
      f * if v = i / 3 then a.get ⟨i % 3, Nat.mod_lt _ (by norm_num)⟩ else 0 := by
    intro v a
    by_cases hv : v = i / 3
    · rw [if_pos hv]
      have : i % 3 = 0 ∨ i % 3 = 1 ∨ i % 3 = 2 := by omega
      rcases this with h | h | h
      · rw [if_pos (by simp; omega), if_neg (by simp; omega), if_neg (by simp; omega)]
        simp only [h]; rw [add_zero, add_zero, mul_comm]; rfl
      · rw [if_neg (by simp; omega), if_pos (by simp; omega), if_neg (by simp; omega)]
        simp only [h]; rw [add_zero, zero_add, mul_comm]; rfl
      · rw [if_neg (by simp; omega), if_neg (by simp; omega), if_pos (by simp; omega)]
        simp only [h]; rw [zero_add, zero_add, mul_comm]; rfl
    · rw [if_neg (by simp; omega), if_neg (by simp; omega), if_neg (by simp; omega), if_neg hv]
      ring
  have k0 := key (t 0) (w 0)
  have k1 := key (t 1) (w 1)
  have k2 := key (t 2) (w 2)
  linarith

theorem jacobian_zip (P : Penalty) (x : ℕ → V3 ℝ) : P.jacobianIndices.zip (P.jacobianValues x) =
    P.topo.flatMap fun t => (List.finRange 3).flatMap fun vi => (List.finRange 3).map fun j : Fin 3 =>
      (3 * t vi + j.val, (Penalty.normals t x vi).get j * P.factor x) := by
  unfold Penalty.jacobianIndices Penalty.jacobianValues
  simp only
  rw [zip_flatMap]
  · refine List.flatMap_congr fun b _ => ?_
    rw [zip_flatMap]
    · refine List.flatMap_congr fun vi _ => ?_
      rw [List.zip_map']
      rfl
    · intro e; simp
  · intro e; simp [List.length_flatMap]

theorem coord_add' (a b : ℕ → V3 ℝ) (i : ℕ) :
    coord (fun v => a v + b v) i = coord a i + coord b i := get_add' _ _ _

theorem subtractForce_eq (P : Penalty) (x : ℕ → V3 ℝ) (F : ℕ → ℝ) (i : ℕ) :
    P.subtractForce x F i = F i + P.factor x * coord (vertexNormal P.topo x) i := by
  unfold Penalty.subtractForce
  rw [addScalars_apply, jacobian_zip]
  congr 1
  unfold vertexNormal
  induction P.topo with
  | nil =>
    have : coord (fun v => vertexSum (([] : List (Fin 3 → ℕ)).flatMap fun t =>
        zipCell t (Penalty.normals t x)) v) i = 0 := by
      unfold coord
      simp only [List.flatMap_nil, vertexSum, List.map_nil, List.sum_nil]
      generalize (⟨i % 3, _⟩ : Fin 3) = k
      fin_cases k <;> rfl
    simp only [List.flatMap_nil] at this ⊢
    rw [this]
    simp
  | cons t topo ih =>
    simp only [List.flatMap_cons, List.map_append, List.sum_append, vertexSum_append] at ih ⊢
    rw [triangle_flat, ih, coord_add']
    ring

theorem toVec_coord (p : ℕ → V3 ℝ) : Problem.toVec (coord p) = p := by
  funext v
  unfold Problem.toVec
  have h0 := coord_vertex p v 0
  have h1 := coord_vertex p v 1
  have h2 := coord_vertex p v 2
  simp only [Fin.val_zero, Fin.val_one, Fin.val_two, add_zero] at h0 h1 h2
  rw [h0, h1, h2]
  rfl

theorem forces_eq (P : Penalty) (x : ℕ → V3 ℝ) (v : ℕ) :
    P.forces x v = P.factor x • vertexNormal P.topo x v := by
  unfold Penalty.forces
  have : (P.subtractForce x fun _ => 0) = coord fun v => P.factor x • vertexNormal P.topo x v := by
    funext i
    rw [subtractForce_eq, zero_add]
    unfold coord
    rw [get_smul]
  rw [this, toVec_coord]

theorem volume_hasDerivAt (topo : List (Fin 3 → ℕ)) (x : ℝ → ℕ → V3 ℝ) (d : ℕ → V3 ℝ) (t : ℝ)
    (hx : ∀ i, HasD (fun s => x s i) (d i) t) :
    HasDerivAt (fun s => signedVolume topo (x s))
      ((topo.map fun f => ∑ n, V3.dot (Penalty.normals f (x t) n) (d (f n))).sum / 6) t := by
  unfold signedVolume
  refine HasDerivAt.div_const ?_ 6
  induction topo with
  | nil => simpa using hasDerivAt_const t (0 : ℝ)
  | cons f topo ih =>
    simp only [List.map_cons, List.sum_cons]
    refine HasDerivAt.fun_add ?_ ih
    refine ((hx (f 0)).dot ((hx (f 1)).cross (hx (f 2)))).congr_deriv ?_
    simp only [Fin.sum_univ_three, Penalty.normals, Matrix.cons_val]
    simp [V3.dot, V3.cross]
    ring

theorem sum_range_three (N : ℕ) (f : ℕ → ℝ) : ∑ i ∈ Finset.range (3 * N), f i =
    ∑ v ∈ Finset.range N, (f (3 * v) + f (3 * v + 1) + f (3 * v + 2)) := by
  induction N with
  | zero => simp
  | succ N ih =>
    rw [Finset.sum_range_succ, ← ih, show 3 * (N + 1) = 3 * N + 1 + 1 + 1 by ring,
      Finset.sum_range_succ, Finset.sum_range_succ, Finset.sum_range_succ]
    ring

theorem work_flatMap (topo : List (Fin 3 → ℕ)) (N : ℕ) (hN : Within topo N)
    (w : (Fin 3 → ℕ) → Fin 3 → V3 ℝ) (d : ℕ → V3 ℝ) :
    ∑ v ∈ Finset.range N, V3.dot (vertexSum (topo.flatMap fun t => zipCell t (w t)) v) (d v) =
      (topo.map fun f => ∑ n, V3.dot (w f n) (d (f n))).sum := by
  rw [work_vertexSum]
  · clear hN
    induction topo with
    | nil => rfl
    | cons t topo ih =>
      rw [List.flatMap_cons, List.map_append, List.sum_append, ih, List.map_cons, List.sum_cons]
      congr 1
  · intro p hp
    obtain ⟨e, he, hp⟩ := List.mem_flatMap.1 hp
    simp only [zipCell, List.mem_map] at hp
    obtain ⟨n, -, rfl⟩ := hp
    exact hN e he n

theorem normals_work (topo : List (Fin 3 → ℕ)) (N : ℕ) (hN : Within topo N) (x d : ℕ → V3 ℝ) :
    ∑ v ∈ Finset.range N, V3.dot (vertexNormal topo x v) (d v) =
      (topo.map fun f => ∑ n, V3.dot (Penalty.normals f x n) (d (f n))).sum := by
  exact work_flatMap topo N hN (fun t => Penalty.normals t x) d

theorem energy_hasDerivAt (P : Penalty) (hP : P.Proper) (x : ℝ → ℕ → V3 ℝ) (V' t : ℝ)
    (hv : HasDerivAt (fun s => signedVolume P.topo (x s)) (V' / 6) t) :
    HasDerivAt (fun s => P.energy (x s)) (P.factor (x t) * V') t := by
  obtain ⟨hb, h0, hk⟩ := hP
  have hdv : HasDerivAt (fun s => P.dv (x s)) (V' / 6 / (P.pressurization * P.restVolume)) t :=
    (hv.div_const _).sub_const 1
  have := ((((hdv.fun_mul hdv).mul_const P.pressurization).div_const (P.compression * 2)).add_const
    1).const_mul (pressureAtm * P.restVolume)
  refine this.congr_deriv ?_
  unfold Penalty.factor
  field_simp
  ring

/-- C33. The pressure forces are the derivative of the penalty. -/
theorem force_derivative (P : Penalty) (hP : P.Proper) (N : ℕ) (hN : Within P.topo N)
    (x : ℝ → ℕ → V3 ℝ) (d : ℕ → V3 ℝ) (t : ℝ) (hx : ∀ i, HasD (fun s => x s i) (d i) t) :
    HasDerivAt (fun s => P.energy (x s))
      (∑ v ∈ Finset.range N, V3.dot (P.forces (x t) v) (d v)) t := by
  refine (energy_hasDerivAt P hP x _ t (volume_hasDerivAt P.topo x d t hx)).congr_deriv ?_
  rw [← normals_work P.topo N hN, Finset.mul_sum]
  refine Finset.sum_congr rfl fun v _ => ?_
  rw [forces_eq]
  simp only [V3.dot, V3.smul_x, V3.smul_y, V3.smul_z]
  ring

/-- C33. The pressure of a closed zone exerts no net force. -/
theorem force_balance (P : Penalty) (h : Closed P.topo) (N : ℕ) (hN : Within P.topo N)
    (x : ℕ → V3 ℝ) : ∑ v ∈ Finset.range N, P.forces x v = 0 := by
  simp only [forces_eq, ← Finset.smul_sum]
  have : ∑ v ∈ Finset.range N, vertexNormal P.topo x v = 0 := by
    unfold vertexNormal
    rw [vertexSum_total]
    · rw [← closed_normals h x]
      clear h hN
      induction P.topo with
      | nil => rfl
      | cons t topo ih =>
        rw [List.flatMap_cons, List.map_append, List.sum_append, ih, List.map_cons, List.sum_cons]
        congr 1
    · intro p hp
      obtain ⟨e, he, hp⟩ := List.mem_flatMap.1 hp
      simp only [zipCell, List.mem_map] at hp
      obtain ⟨n, -, rfl⟩ := hp
      exact hN e he n
  rw [this, smul_zero]

/-- C33. The pressure exerts no net torque. -/
theorem torque_balance (P : Penalty) (N : ℕ) (hN : Within P.topo N) (x : ℕ → V3 ℝ) :
    ∑ v ∈ Finset.range N, V3.cross (x v) (P.forces x v) = 0 := by
  have h : ∀ e : V3 ℝ, V3.dot e (∑ v ∈ Finset.range N, V3.cross (x v) (P.forces x v)) = 0 := by
    intro e
    have h1 : V3.dot e (∑ v ∈ Finset.range N, V3.cross (x v) (P.forces x v)) =
        P.factor x * ∑ v ∈ Finset.range N, V3.dot (vertexNormal P.topo x v) (V3.cross e (x v)) := by
      rw [Finset.mul_sum, dot_finset_sum]
      refine Finset.sum_congr rfl fun v _ => ?_
      rw [forces_eq]
      simp only [V3.dot, V3.cross, V3.smul_x, V3.smul_y, V3.smul_z]
      ring
    rw [h1, normals_work P.topo N hN x fun v => V3.cross e (x v)]
    have h2 : ∀ f : Fin 3 → ℕ,
        ∑ n, V3.dot (Penalty.normals f x n) (V3.cross e (x (f n))) = 0 := by
      intro f
      simp only [Fin.sum_univ_three, Penalty.normals, Matrix.cons_val]
      simp only [V3.dot, V3.cross]
      ring
    simp [h2]
  set S := ∑ v ∈ Finset.range N, V3.cross (x v) (P.forces x v) with hS
  exact V3.dot_self_eq_zero.1 (h S)

/-- C33. There is no pressure when the volume is the rest volume times the pressurization. -/
theorem no_force (P : Penalty) (x : ℕ → V3 ℝ)
    (hb : P.pressurization * P.restVolume ≠ 0)
    (h : signedVolume P.topo x = P.pressurization * P.restVolume) (v : ℕ) : P.forces x v = 0 := by
  have : P.dv x = 0 := by unfold Penalty.dv; rw [h, div_self hb, sub_self]
  rw [forces_eq, Penalty.factor, this, mul_zero, zero_div, zero_smul]

/-! ## The Hessian -/

/-- Component `i` of the product of the matrix given by triplets with a vector. -/
def rowMul (T : List ((ℕ × ℕ) × ℝ)) (x : ℕ → ℝ) (i : ℕ) : ℝ :=
  (T.map fun e => if e.1.1 = i then e.2 * x e.1.2 else 0).sum

theorem rowMul_stored (T : List ((ℕ × ℕ) × ℝ)) (x : ℕ → ℝ) (i n : ℕ) (h : ∀ e ∈ T, e.1.2 < n) :
    ∑ j ∈ Finset.range n, Sparse.storedEntry T (i, j) * x j = rowMul T x i := by
  induction T with
  | nil => simp [Sparse.storedEntry, rowMul]
  | cons e T ih =>
    have ih := ih fun e' he' => h e' (by simp [he'])
    simp only [Sparse.storedEntry, rowMul, List.map_cons, List.sum_cons, add_mul,
      Finset.sum_add_distrib] at ih ⊢
    rw [ih]
    congr 1
    have he : e.1.2 ∈ Finset.range n := Finset.mem_range.2 (h e (by simp))
    by_cases hi : e.1.1 = i
    · rw [if_pos hi, Finset.sum_eq_single_of_mem e.1.2 he]
      · rw [if_pos (by rw [← hi])]
      · intro j _ hj
        rw [if_neg, zero_mul]
        intro hh
        exact hj (by rw [hh])
    · rw [if_neg hi]
      apply Finset.sum_eq_zero
      intro j _
      rw [if_neg, zero_mul]
      intro hh
      exact hi (by rw [hh])

theorem rowMul_append (S T : List ((ℕ × ℕ) × ℝ)) (x : ℕ → ℝ) (i : ℕ) :
    rowMul (S ++ T) x i = rowMul S x i + rowMul T x i := by
  simp [rowMul]

theorem rowMul_flatMap {ι : Type} (l : List ι) (f : ι → List ((ℕ × ℕ) × ℝ)) (x : ℕ → ℝ) (i : ℕ) :
    rowMul (l.flatMap f) x i = (l.map fun a => rowMul (f a) x i).sum := by
  induction l with
  | nil => rfl
  | cons a l ih => rw [List.flatMap_cons, rowMul_append, ih, List.map_cons, List.sum_cons]

/-- The triplets of the first part of the Hessian for one triangle. -/
def sparseTriplets (t : Fin 3 → ℕ) (x : ℕ → V3 ℝ) (f : ℝ) : List ((ℕ × ℕ) × ℝ) :=
  Penalty.hessianIter.map fun e =>
    ((3 * t (e.2.2.1 + e.2.2.2) + e.1.val, 3 * t e.2.2.1 + e.2.1.val),
      (if e.2.2.2 = 1 then f else -f) * (Penalty.skew (x (t (e.2.2.1 + e.2.2.2 + e.2.2.2)))).at e.2.1 e.1)

/-- The triplets of the second part for a pair of triangles. -/
def denseTriplets (t u : Fin 3 → ℕ) (x : ℕ → V3 ℝ) (f : ℝ) : List ((ℕ × ℕ) × ℝ) :=
  (List.finRange 3).flatMap fun vi => (List.finRange 3).flatMap fun vj =>
    (List.finRange 3).flatMap fun i => (List.finRange 3).map fun j =>
      ((3 * t vi + i.val, 3 * u vj + j.val),
        (Penalty.normals t x vi).get i * (Penalty.normals u x vj).get j * f)

/-- The derivative of the normals of a triangle. -/
def normalsRate (t : Fin 3 → ℕ) (x d : ℕ → V3 ℝ) : Fin 3 → V3 ℝ :=
  ![V3.cross (d (t 1)) (x (t 2)) + V3.cross (x (t 1)) (d (t 2)),
    V3.cross (d (t 2)) (x (t 0)) + V3.cross (x (t 2)) (d (t 0)),
    V3.cross (d (t 0)) (x (t 1)) + V3.cross (x (t 0)) (d (t 1))]

open Classical in
/-- One where the proposition holds, else zero. -/
def indic (c : Prop) : ℝ := if c then 1 else 0

theorem ind (c : Prop) [Decidable c] (a : ℝ) : (if c then a else 0) = indic c * a := by
  unfold indic
  split_ifs <;> simp

theorem sparse_row (t : Fin 3 → ℕ) (x d : ℕ → V3 ℝ) (f : ℝ) (i : ℕ) :
    rowMul (sparseTriplets t x f) (coord d) i =
      f * coord (fun v => vertexSum (zipCell t (normalsRate t x d)) v) i := by
  rw [← triangle_flat]
  have h3 : List.finRange 3 = [0, 1, 2] := rfl
  have hI : Penalty.hessianIter = [(1, 0, 0, 1), (2, 0, 0, 1), (0, 1, 0, 1), (2, 1, 0, 1), (0, 2, 0, 1),
      (1, 2, 0, 1), (1, 0, 0, 2), (2, 0, 0, 2), (0, 1, 0, 2), (2, 1, 0, 2), (0, 2, 0, 2), (1, 2, 0, 2),
      (1, 0, 1, 1), (2, 0, 1, 1), (0, 1, 1, 1), (2, 1, 1, 1), (0, 2, 1, 1), (1, 2, 1, 1),
      (1, 0, 1, 2), (2, 0, 1, 2), (0, 1, 1, 2), (2, 1, 1, 2), (0, 2, 1, 2), (1, 2, 1, 2),
      (1, 0, 2, 1), (2, 0, 2, 1), (0, 1, 2, 1), (2, 1, 2, 1), (0, 2, 2, 1), (1, 2, 2, 1),
      (1, 0, 2, 2), (2, 0, 2, 2), (0, 1, 2, 2), (2, 1, 2, 2), (0, 2, 2, 2), (1, 2, 2, 2)] := by
    decide
  unfold rowMul sparseTriplets
  simp only [hI, h3, List.map_cons, List.map_nil, List.flatMap_cons, List.flatMap_nil, List.append_nil,
    List.cons_append, List.nil_append, List.sum_cons, List.sum_nil, coord_vertex]
  have e11 : (1 : Fin 3) + 1 = 2 := rfl
  have e12 : (1 : Fin 3) + 2 = 0 := rfl
  have e21 : (2 : Fin 3) + 1 = 0 := rfl
  have e22 : (2 : Fin 3) + 2 = 1 := rfl
  have n1 : ((2 : Fin 3) = 1) = False := by decide
  simp only [e11, e12, e21, e22, zero_add, add_zero, n1, if_true, if_false, Penalty.skew, M3.at, M3.row,
    V3.get, normalsRate, Matrix.cons_val, V3.cross, V3.add_x, V3.add_y, V3.add_z]
  simp only [ind]
  ring

theorem dense_row (t u : Fin 3 → ℕ) (x d : ℕ → V3 ℝ) (f : ℝ) (i : ℕ) :
    rowMul (denseTriplets t u x f) (coord d) i =
      f * coord (fun v => vertexSum (zipCell t (Penalty.normals t x)) v) i *
        ∑ n, V3.dot (Penalty.normals u x n) (d (u n)) := by
  rw [mul_right_comm, ← triangle_flat]
  have h3 : List.finRange 3 = [0, 1, 2] := rfl
  unfold rowMul denseTriplets
  simp only [h3, List.map_cons, List.map_nil, List.flatMap_cons, List.flatMap_nil, List.append_nil,
    List.cons_append, List.nil_append, List.sum_cons, List.sum_nil, coord_vertex, Fin.sum_univ_three]
  generalize Penalty.normals t x = a
  generalize Penalty.normals u x = b
  simp only [V3.get, Matrix.cons_val, V3.dot, ind]
  ring

/-- The triplets of the Hessian. -/
def Penalty.triplets (P : Penalty) (x : ℕ → V3 ℝ) (scale : ℝ) : List ((ℕ × ℕ) × ℝ) :=
  P.hessianIndices.zip (P.hessianValues x scale)

theorem triplets_eq (P : Penalty) (x : ℕ → V3 ℝ) (scale : ℝ) : P.triplets x scale =
    P.topo.flatMap fun t =>
      sparseTriplets t x (pressureAtm / (P.compression * 6) * P.dv x * scale) ++
      if P.approx then [] else P.topo.flatMap fun u => denseTriplets t u x
        (pressureAtm / (P.compression * 6) / (P.pressurization * P.restVolume * 6) * scale) := by
  unfold Penalty.triplets Penalty.hessianIndices Penalty.hessianValues
  simp only [List.map_flatMap]
  rw [zip_flatMap]
  · refine List.flatMap_congr fun t _ => ?_
    rw [List.map_append, List.zip_append (by simp)]
    congr 1
    · rw [List.map_map, List.zip_map']
      refine List.map_congr_left fun e _ => ?_
      simp only [Function.comp]
      congr 1
      split_ifs <;> ring
    · split_ifs
      · rfl
      · rw [List.map_flatMap, zip_flatMap]
        · refine List.flatMap_congr fun u _ => ?_
          simp only [List.map_flatMap, List.map_map, denseTriplets]
          rw [zip_flatMap _ _ _ fun e => by simp [List.length_flatMap]]
          refine List.flatMap_congr fun vi _ => ?_
          rw [zip_flatMap _ _ _ fun e => by simp [List.length_flatMap]]
          refine List.flatMap_congr fun vj _ => ?_
          rw [zip_flatMap _ _ _ fun e => by simp]
          refine List.flatMap_congr fun i _ => ?_
          rw [List.zip_map']
          refine List.map_congr_left fun j _ => ?_
          simp only [Function.comp]
          congr 1
          ring
        · intro u
          simp [List.length_flatMap]
  · intro t
    simp only [List.length_append, List.length_map]
    congr 1
    split_ifs
    · rfl
    · simp [List.length_flatMap]

theorem coord_zero (i : ℕ) : coord (fun _ => (0 : V3 ℝ)) i = 0 := by
  unfold coord
  generalize (⟨i % 3, _⟩ : Fin 3) = k
  fin_cases k <;> rfl

theorem coord_flatMap (topo : List (Fin 3 → ℕ)) (w : (Fin 3 → ℕ) → Fin 3 → V3 ℝ) (i : ℕ) :
    coord (fun v => vertexSum (topo.flatMap fun t => zipCell t (w t)) v) i =
      (topo.map fun t => coord (fun v => vertexSum (zipCell t (w t)) v) i).sum := by
  induction topo with
  | nil => exact coord_zero i
  | cons t topo ih =>
    simp only [List.flatMap_cons, vertexSum_append, List.map_cons, List.sum_cons]
    rw [coord_add', ih]

/-- The product of the triplets with a vector. -/
theorem triplets_mul (P : Penalty) (x d : ℕ → V3 ℝ) (scale : ℝ) (i : ℕ) :
    rowMul (P.triplets x scale) (coord d) i = scale * (P.factor x *
      coord (fun v => vertexSum (P.topo.flatMap fun t => zipCell t (normalsRate t x d)) v) i
      + (if P.approx then 0 else pressureAtm / (P.compression * 6)
        / (P.pressurization * P.restVolume * 6) * coord (vertexNormal P.topo x) i *
          (P.topo.map fun f => ∑ n, V3.dot (Penalty.normals f x n) (d (f n))).sum)) := by
  rw [triplets_eq, rowMul_flatMap]
  simp only [rowMul_append, sparse_row]
  rw [List.sum_map_add, mul_add]
  congr 1
  · rw [coord_flatMap, List.sum_map_mul_left]
    unfold Penalty.factor
    ring
  · by_cases ha : P.approx
    · simp [ha, rowMul]
    · simp only [if_neg ha, rowMul_flatMap, dense_row]
      unfold vertexNormal
      rw [coord_flatMap]
      simp only [List.sum_map_mul_left]
      rw [List.sum_map_mul_right, List.sum_map_mul_left]
      ring

theorem normal_rate (topo : List (Fin 3 → ℕ)) (x : ℝ → ℕ → V3 ℝ) (d : ℕ → V3 ℝ) (t : ℝ)
    (hx : ∀ i, HasD (fun s => x s i) (d i) t) (v : ℕ) :
    HasD (fun s => vertexNormal topo (x s) v)
      (vertexSum (topo.flatMap fun f => zipCell f (normalsRate f (x t) d)) v) t := by
  unfold vertexNormal
  induction topo with
  | nil => exact HasD.const 0
  | cons f topo ih =>
    simp only [List.flatMap_cons, vertexSum_append]
    refine HasD.add ?_ ih
    simp only [vertexSum_zipCell, Fin.sum_univ_three]
    have key : ∀ (c : Prop) [Decidable c] (a : ℝ → V3 ℝ) (a' : V3 ℝ), HasD a a' t →
        HasD (fun s => if c then a s else 0) (if c then a' else 0) t := by
      intro c _ a a' h
      split_ifs
      · exact h
      · exact HasD.const 0
    refine ((key _ _ _ ?_).add (key _ _ _ ?_)).add (key _ _ _ ?_)
    · exact (hx _).cross (hx _)
    · exact (hx _).cross (hx _)
    · exact (hx _).cross (hx _)

theorem coord_rate (r : ℝ → ℕ → V3 ℝ) (w : ℕ → V3 ℝ) (t : ℝ)
    (h : ∀ v, HasD (fun s => r s v) (w v) t) (i : ℕ) :
    HasDerivAt (fun s => coord (r s) i) (coord w i) t := coord_hasDerivAt r w t h i

/-- The derivative of the pressure forces. -/
theorem force_rate (P : Penalty) (x : ℝ → ℕ → V3 ℝ) (d : ℕ → V3 ℝ) (t : ℝ)
    (hx : ∀ i, HasD (fun s => x s i) (d i) t) (F : ℕ → ℝ) (i : ℕ) :
    HasDerivAt (fun s => P.subtractForce (x s) F i) (P.factor (x t) *
      coord (fun v => vertexSum (P.topo.flatMap fun f => zipCell f (normalsRate f (x t) d)) v) i
      + pressureAtm / (P.compression * 6) / (P.pressurization * P.restVolume * 6)
        * coord (vertexNormal P.topo (x t)) i *
          (P.topo.map fun f => ∑ n, V3.dot (Penalty.normals f (x t) n) (d (f n))).sum) t := by
  have hv := volume_hasDerivAt P.topo x d t hx
  have hdv : HasDerivAt (fun s => P.dv (x s)) _ t :=
    (hv.div_const (P.pressurization * P.restVolume)).sub_const 1
  have hf : HasDerivAt (fun s => P.factor (x s)) _ t :=
    (hdv.const_mul pressureAtm).div_const (P.compression * 6)
  have hc := coord_rate _ _ t (normal_rate P.topo x d t hx) i
  have := (hf.fun_mul hc).const_add (F i)
  refine (this.congr_of_eventuallyEq (Filter.Eventually.of_forall fun s => ?_)).congr_deriv ?_
  · exact subtractForce_eq P (x s) F i
  · generalize (P.topo.map fun f => ∑ n, V3.dot (Penalty.normals f (x t) n) (d (f n))).sum = S
    generalize coord (vertexNormal P.topo (x t)) i = c
    generalize coord (fun v => vertexSum (P.topo.flatMap fun f => zipCell f (normalsRate f (x t) d)) v) i = r
    simp only [div_eq_mul_inv, mul_inv]
    ring

/-- C33. Without the sparse approximation, the triplets of the Hessian are the derivative of the
pressure forces. -/
theorem hessian_derivative (P : Penalty) (ha : P.approx = false) (x : ℝ → ℕ → V3 ℝ) (d : ℕ → V3 ℝ)
    (t : ℝ) (hx : ∀ i, HasD (fun s => x s i) (d i) t) (scale : ℝ) (F : ℕ → ℝ) (i : ℕ) :
    HasDerivAt (fun s => scale * P.subtractForce (x s) F i)
      (rowMul (P.triplets (x t) scale) (coord d) i) t := by
  rw [triplets_mul, ha]
  exact (force_rate P x d t hx F i).const_mul scale

/-- C33. With the sparse approximation what is missing in the Hessian is the product of the normals
with the change of the volume: the triplets are exact for all motions that keep the volume. -/
theorem hessian_approx_derivative (P : Penalty) (x : ℝ → ℕ → V3 ℝ)
    (d : ℕ → V3 ℝ) (t : ℝ) (hx : ∀ i, HasD (fun s => x s i) (d i) t)
    (hV : HasDerivAt (fun s => signedVolume P.topo (x s)) 0 t) (scale : ℝ) (F : ℕ → ℝ) (i : ℕ) :
    HasDerivAt (fun s => scale * P.subtractForce (x s) F i)
      (rowMul (P.triplets (x t) scale) (coord d) i) t := by
  have h0 : (P.topo.map fun f => ∑ n, V3.dot (Penalty.normals f (x t) n) (d (f n))).sum = 0 := by
    have := hV.unique (volume_hasDerivAt P.topo x d t hx)
    linarith
  rw [triplets_mul, h0, mul_zero, ite_self, add_zero]
  refine ((force_rate P x d t hx F i).const_mul scale).congr_deriv ?_
  rw [h0, mul_zero, add_zero]

/-- C33. The numbers of positions and values are the announced ones. -/
theorem hessian_size (P : Penalty) (x : ℕ → V3 ℝ) (scale : ℝ) :
    P.hessianIndices.length = P.hessianSize ∧ (P.hessianValues x scale).length = P.hessianSize ∧
      P.jacobianIndices.length = P.jacobianSize ∧ (P.jacobianValues x).length = P.jacobianSize := by
  have hI : Penalty.hessianIter.length = 36 := by decide
  have e : P.hessianIndices.length = P.hessianSize := by
    unfold Penalty.hessianIndices Penalty.hessianSize Penalty.jacobianSize
    simp only [List.length_flatMap, List.length_append, List.length_map, hI]
    by_cases ha : P.approx
    · simp [ha, mul_comm]
    · simp [ha, List.length_flatMap]
      ring
  refine ⟨e, ?_, ?_, ?_⟩
  · rw [← e]
    unfold Penalty.hessianIndices Penalty.hessianValues
    simp only [List.length_flatMap, List.length_append, List.length_map]
    by_cases ha : P.approx
    · simp [ha]
    · simp [ha, List.length_flatMap]
  · unfold Penalty.jacobianIndices Penalty.jacobianSize
    simp [List.length_flatMap]
    ring
  · unfold Penalty.jacobianValues Penalty.jacobianSize
    simp [List.length_flatMap]
    ring

/-- C33. The Hessian is symmetric. -/
theorem hessian_symmetric (P : Penalty) (x : ℕ → V3 ℝ) (scale : ℝ) (d e : ℕ → V3 ℝ) (N : ℕ)
    (hN : Within P.topo N) :
    ∑ i ∈ Finset.range (3 * N), coord e i * rowMul (P.triplets x scale) (coord d) i =
      ∑ i ∈ Finset.range (3 * N), coord d i * rowMul (P.triplets x scale) (coord e) i := by
  have work : ∀ (topo : List (Fin 3 → ℕ)) (_ : Within topo N) (w : (Fin 3 → ℕ) → Fin 3 → V3 ℝ)
      (e : ℕ → V3 ℝ), ∑ i ∈ Finset.range (3 * N), coord e i *
        coord (fun v => vertexSum (topo.flatMap fun t => zipCell t (w t)) v) i =
      (topo.map fun t => ∑ n, V3.dot (w t n) (e (t n))).sum := by
    intro topo hN w e
    rw [← work_flatMap topo N hN w e, sum_range_three]
    refine Finset.sum_congr rfl fun v _ => ?_
    generalize vertexSum (topo.flatMap fun t => zipCell t (w t)) = p
    have e0 := fun q : ℕ → V3 ℝ => coord_vertex q v 0
    have e1 := fun q : ℕ → V3 ℝ => coord_vertex q v 1
    have e2 := fun q : ℕ → V3 ℝ => coord_vertex q v 2
    simp only [Fin.val_zero, Fin.val_one, Fin.val_two, add_zero] at e0 e1 e2
    rw [e0, e1, e2, e0, e1, e2]
    simp only [V3.get, V3.dot, Matrix.cons_val]
    ring
  have sym : ∀ t : Fin 3 → ℕ, ∑ n, V3.dot (normalsRate t x d n) (e (t n)) =
      ∑ n, V3.dot (normalsRate t x e n) (d (t n)) := by
    intro t
    simp only [Fin.sum_univ_three, normalsRate, Matrix.cons_val, V3.dot, V3.cross, V3.add_x, V3.add_y,
      V3.add_z]
    ring
  have expand : ∀ d e : ℕ → V3 ℝ,
      ∑ i ∈ Finset.range (3 * N), coord e i * rowMul (P.triplets x scale) (coord d) i =
      scale * (P.factor x * (P.topo.map fun t => ∑ n, V3.dot (normalsRate t x d n) (e (t n))).sum
        + (if P.approx then 0 else pressureAtm / (P.compression * 6)
        / (P.pressurization * P.restVolume * 6) *
          (P.topo.map fun f => ∑ n, V3.dot (Penalty.normals f x n) (e (f n))).sum *
          (P.topo.map fun f => ∑ n, V3.dot (Penalty.normals f x n) (d (f n))).sum)) := by
    intro d e
    rw [← work _ hN, ← work _ hN (fun f => Penalty.normals f x) e]
    simp only [triplets_mul]
    generalize (P.topo.map fun f => ∑ n, V3.dot (Penalty.normals f x n) (d (f n))).sum = S
    split_ifs
    · rw [add_zero, Finset.mul_sum, Finset.mul_sum]
      refine Finset.sum_congr rfl fun i _ => ?_
      ring
    · rw [Finset.mul_sum, Finset.mul_sum, Finset.sum_mul, ← Finset.sum_add_distrib, Finset.mul_sum]
      refine Finset.sum_congr rfl fun i _ => ?_
      unfold vertexNormal
      ring
  rw [expand, expand]
  simp only [sym]
  split_ifs <;> ring

/-! ## Zones -/

/-- The outward faces of a tetrahedron whose volume is positive. -/
def tetFaces (v : Fin 4 → ℕ) : List (Fin 3 → ℕ) :=
  [![v 0, v 1, v 2], ![v 0, v 2, v 3], ![v 0, v 3, v 1], ![v 1, v 3, v 2]]

/-- What is expected of the surface of a set of tetrahedra: it consists of their faces, where faces
that two tetrahedra share, which have opposite orientation, cancel. That is, all sums over the faces
of the tetrahedra of a quantity that depends on the orientation are sums over the surface. -/
def IsSurface (topo : List (Fin 3 → ℕ)) (tets : List (Fin 4 → ℕ)) : Prop :=
  ∀ f : ℕ → ℕ → ℕ → ℝ, (∀ a b c, f b c a = f a b c) → (∀ a b c, f b a c = -f a b c) →
    (topo.map fun t => f (t 0) (t 1) (t 2)).sum =
      (tets.map fun v => ((tetFaces v).map fun t => f (t 0) (t 1) (t 2)).sum).sum

/-- C33. The surface of tetrahedra is closed. -/
theorem surface_closed {topo : List (Fin 3 → ℕ)} {tets : List (Fin 4 → ℕ)} (h : IsSurface topo tets) :
    Closed topo := by
  intro u v
  let k : ℕ → ℕ → ℝ := fun a b => (if (a, b) = (u, v) then 1 else 0) - if (a, b) = (v, u) then 1 else 0
  have hk : ∀ a b, k b a = -k a b := by
    intro a b
    simp only [k, Prod.mk.injEq]
    have e1 : (b = u ∧ a = v) = (a = v ∧ b = u) := by rw [and_comm]
    have e2 : (b = v ∧ a = u) = (a = u ∧ b = v) := by rw [and_comm]
    simp only [e1, e2]
    ring
  have e := h (fun a b c => k a b + k b c + k c a) (fun a b c => by ring)
    (fun a b c => by rw [hk a b, hk b c, hk a c]; ring)
  have z : ∀ t : Fin 4 → ℕ, ((tetFaces t).map fun t => k (t 0) (t 1) + k (t 1) (t 2) + k (t 2) (t 0)).sum
      = 0 := by
    intro t
    simp only [tetFaces, List.map_cons, List.map_nil, List.sum_cons, List.sum_nil, Matrix.cons_val]
    rw [hk (t 0) (t 2), hk (t 0) (t 3), hk (t 0) (t 1), hk (t 2) (t 3), hk (t 1) (t 3), hk (t 1) (t 2)]
    ring
  simp only [z] at e
  have cnt : ∀ (l : List (Fin 3 → ℕ)), ((edges l).count (u, v) : ℝ) - (edges l).count (v, u) =
      (l.map fun t => k (t 0) (t 1) + k (t 1) (t 2) + k (t 2) (t 0)).sum := by
    intro l
    induction l with
    | nil => simp [edges]
    | cons t l ih =>
      have : edges (t :: l) = [(t 0, t 1), (t 1, t 2), (t 2, t 0)] ++ edges l := rfl
      rw [this, List.map_cons, List.sum_cons, ← ih]
      simp only [List.count_append, List.count_cons, List.count_nil, k, beq_iff_eq]
      push_cast
      ring
  have := cnt topo
  rw [e] at this
  simp at this
  have h2 : ((edges topo).count (u, v) : ℝ) = (edges topo).count (v, u) := by linarith
  exact_mod_cast h2

theorem triple_cycle (a b c : V3 ℝ) : V3.dot b (V3.cross c a) = V3.dot a (V3.cross b c) := by
  simp only [V3.dot, V3.cross]; ring

theorem triple_swap (a b c : V3 ℝ) : V3.dot b (V3.cross a c) = -V3.dot a (V3.cross b c) := by
  simp only [V3.dot, V3.cross]; ring

/-- C33. The volume enclosed by the surface of tetrahedra is the sum of their volumes. -/
theorem surface_volume {topo : List (Fin 3 → ℕ)} {tets : List (Fin 4 → ℕ)} (h : IsSurface topo tets)
    (x : ℕ → V3 ℝ) : signedVolume topo x = (tets.map fun v => tetVolume fun k => x (v k)).sum := by
  unfold signedVolume
  rw [h (fun a b c => V3.dot (x a) (V3.cross (x b) (x c))) (fun a b c => triple_cycle _ _ _)
    (fun a b c => triple_swap _ _ _)]
  simp only [div_eq_mul_inv]
  rw [← List.sum_map_mul_right]
  congr 1
  refine List.map_congr_left fun v _ => ?_
  simp only [tetFaces, List.map_cons, List.map_nil, List.sum_cons, List.sum_nil, Matrix.cons_val,
    tetVolume, V3.dot, V3.cross, V3.sub_x, V3.sub_y, V3.sub_z]
  ring

/-- The tetrahedra among the cells. -/
def solids (cells : List CellKind) : List (Fin 4 → ℕ) :=
  cells.filterMap CellKind.tet

/-- C33. If the tetrahedra are at their reference positions, the rest volume is the volume that the
surface of the zone encloses. -/
theorem rest_volume (surface : List (Fin 4 → ℕ) → List (Fin 3 → ℕ)) (cells : List CellKind)
    (hs : IsSurface (surface (solids cells)) (solids cells)) (x : ℕ → V3 ℝ)
    (hx : ∀ v ref, CellKind.solid v ref ∈ cells → ∀ k, ref k = x (v k)) :
    restVolume cells x = signedVolume (zoneTopo surface cells) x := by
  have split : signedVolume (zoneTopo surface cells) x =
      ((solids cells).map fun v => tetVolume fun k => x (v k)).sum +
      signedVolume (cells.filterMap CellKind.tri) x := by
    rw [← surface_volume hs]
    unfold zoneTopo signedVolume solids
    rw [List.map_append, List.sum_append, add_div]
  rw [split]
  clear split hs
  unfold restVolume
  have gen : ∀ s : ℝ, cells.foldl (restStep x) s = s + (((solids cells).map fun v => tetVolume fun k => x (v k)).sum +
      signedVolume (cells.filterMap CellKind.tri) x) := by
    induction cells with
    | nil => intro s; simp [solids, signedVolume]
    | cons c cells ih =>
      intro s
      rw [List.foldl_cons, ih fun v ref hm => hx v ref (List.mem_cons_of_mem _ hm)]
      cases c with
      | solid v ref =>
        have : ref = fun k => x (v k) := funext (hx v ref List.mem_cons_self)
        simp only [solids, List.filterMap_cons, List.map_cons, List.sum_cons, this, restStep, CellKind.tet,
          CellKind.tri]
        ring
      | shell v =>
        simp only [solids, restStep, CellKind.tet, CellKind.tri, List.filterMap_cons, signedVolume, List.map_cons, List.sum_cons, tetVolume,
          Matrix.cons_val, V3.dot, V3.cross, V3.sub_x, V3.sub_y, V3.sub_z, V3.zero_x, V3.zero_y,
          V3.zero_z]
        ring
      | other =>
        simp only [solids, List.filterMap_cons, restStep, CellKind.tet, CellKind.tri]
  rw [gen, zero_add]

theorem dedup_spec : ∀ l : List ℤ, l.Pairwise (· ≤ ·) →
    (dedup l).Pairwise (· < ·) ∧ ∀ a, a ∈ dedup l ↔ a ∈ l
  | [], _ => by simp [dedup]
  | [a], _ => by simp [dedup]
  | a :: b :: l, h => by
    have hb := dedup_spec (b :: l) (List.pairwise_cons.1 h).2
    unfold dedup
    have hab := (List.pairwise_cons.1 h).1
    split_ifs with e
    · subst e
      exact ⟨hb.1, fun c => by rw [hb.2]; simp⟩
    · refine ⟨List.pairwise_cons.2 ⟨fun c hc => ?_, hb.1⟩, fun c => by
        rw [List.mem_cons, hb.2, List.mem_cons (l := b :: l)]⟩
      rw [hb.2] at hc
      have h1 : a < b := lt_of_le_of_ne (hab b List.mem_cons_self) e
      rcases List.mem_cons.1 hc with rfl | hc
      · exact h1
      · exact lt_of_lt_of_le h1 ((List.pairwise_cons.1 (List.pairwise_cons.1 h).2).1 c hc)

/-- C33. The penalties are those of the distinct zones in increasing order, each of which is used
once. -/
theorem zones_spec (surface : List (Fin 4 → ℕ) → List (Fin 3 → ℕ)) (cells : List (ℤ × CellKind))
    (x : ℕ → V3 ℝ) (ps cs : List ℝ) (as : List Bool) :
    ∃ zones : List ℤ, zones.Pairwise (· < ·) ∧ (∀ z, z ∈ zones ↔ ∃ c ∈ cells, c.1 = z) ∧
      tryFromMesh surface cells x ps cs as = zones.filterMap (zonePenalty surface cells x ps cs as) := by
  have hs : ((cells.map Prod.fst).mergeSort fun a b => decide (a ≤ b)).Pairwise (· ≤ ·) := by
    have := List.pairwise_mergeSort (le := fun a b : ℤ => decide (a ≤ b))
      (fun a b c h1 h2 => by simp at *; omega) (fun a b => by simp; omega) (cells.map Prod.fst)
    simpa using this
  refine ⟨_, (dedup_spec _ hs).1, fun z => ?_, rfl⟩
  rw [(dedup_spec _ hs).2, List.mem_mergeSort]
  simp [List.mem_map]

theorem used_solid (v : Fin 4 → ℕ) (r : Fin 4 → V3 ℝ) : (CellKind.solid v r).used = true := rfl
theorem used_shell (v : Fin 3 → ℕ) : (CellKind.shell v).used = true := rfl
theorem used_other : CellKind.other.used = false := rfl

/-- C33. A zone has a penalty if and only if it is not zone 0 and one of its cells is a solid
tetrahedron or a soft shell triangle. The penalty uses the parameters at the place of the zone, one and
the sparse approximation if there are none. -/
theorem zone_penalty (surface : List (Fin 4 → ℕ) → List (Fin 3 → ℕ)) (cells : List (ℤ × CellKind))
    (x : ℕ → V3 ℝ) (ps cs : List ℝ) (as : List Bool) (z : ℤ) :
    ((zonePenalty surface cells x ps cs as z).isSome ↔
      z ≠ 0 ∧ ∃ c ∈ cells, c.1 = z ∧ c.2 ≠ .other) ∧
    ∀ P, zonePenalty surface cells x ps cs as z = some P →
      P.topo = zoneTopo surface ((cells.filter fun c => decide (c.1 = z)).map Prod.snd) ∧
      P.restVolume = restVolume ((cells.filter fun c => decide (c.1 = z)).map Prod.snd) x ∧
      (∀ n : ℕ, z = n + 1 → P.pressurization = ps[n]?.getD 1 ∧ P.compression = cs[n]?.getD 1 ∧
        P.approx = as[n]?.getD true) ∧
      (z < 0 → P.pressurization = 1 ∧ P.compression = 1 ∧ P.approx = true) := by
  have hex : ((cells.filter fun c => decide (c.1 = z) && c.2.used).map Prod.snd).isEmpty = false ↔
      ∃ c ∈ cells, c.1 = z ∧ c.2 ≠ .other := by
    rw [← Bool.not_eq_true, List.isEmpty_iff, List.map_eq_nil_iff, List.filter_eq_nil_iff]
    push Not
    refine exists_congr fun c => and_congr_right fun _ => ?_
    obtain ⟨a, k⟩ := c
    cases k <;> simp [used_solid, used_shell, used_other]
  have htopo : zoneTopo surface ((cells.filter fun c => decide (c.1 = z) && c.2.used).map Prod.snd) =
      zoneTopo surface ((cells.filter fun c => decide (c.1 = z)).map Prod.snd) := by
    unfold zoneTopo
    have aux : ∀ {β : Type} (g : CellKind → Option β), g .other = none →
        ((cells.filter fun c => decide (c.1 = z) && c.2.used).map Prod.snd).filterMap g =
        ((cells.filter fun c => decide (c.1 = z)).map Prod.snd).filterMap g := by
      intro β g hg
      induction cells with
      | nil => rfl
      | cons c cells ih =>
        have ih := ih (by
          rw [← Bool.not_eq_true, List.isEmpty_iff, List.map_eq_nil_iff, List.filter_eq_nil_iff]
          push Not
          refine exists_congr fun c => and_congr_right fun _ => ?_
          obtain ⟨a, k⟩ := c
          cases k <;> simp [used_solid, used_shell, used_other])
        obtain ⟨a, k⟩ := c
        by_cases ha : a = z
        · cases k <;> simp [ha, hg, List.filterMap_cons, ih, used_solid, used_shell, used_other]
        · simp [ha, ih]
    rw [aux _ rfl, aux _ rfl]
  have hrest : restVolume ((cells.filter fun c => decide (c.1 = z) && c.2.used).map Prod.snd) x =
      restVolume ((cells.filter fun c => decide (c.1 = z)).map Prod.snd) x := by
    unfold restVolume
    generalize (0 : ℝ) = s
    clear hex htopo
    induction cells generalizing s with
    | nil => rfl
    | cons c cells ih =>
      obtain ⟨a, k⟩ := c
      by_cases ha : a = z
      · cases k <;> simp [ha, ih, used_solid, used_shell, used_other, restStep]
      · simp [ha, ih]
  unfold zonePenalty
  simp only
  constructor
  · by_cases hz : z = 0
    · simp [hz]
    · rw [if_neg hz, ← hex]
      split_ifs with he
      · simp [he]
      · simp only [Bool.not_eq_true] at he
        simp [hz, he]
  · intro P hP
    by_cases hz : z = 0
    · rw [if_pos hz] at hP; cases hP
    · rw [if_neg hz] at hP
      split_ifs at hP
      rw [Option.some.injEq] at hP
      subst hP
      refine ⟨htopo, hrest, fun n hn => ?_, fun hneg => ?_⟩
      · have h0 : 0 < z := by omega
        have h1 : (z - 1).toNat = n := by omega
        simp only [zoneParam, if_pos h0, h1, List.getD_eq_getElem?_getD, and_self]
      · have h0 : ¬ 0 < z := by omega
        simp only [zoneParam, if_neg h0, and_self]

/-! ## Examples -/

/-- The surface of a tetrahedron. -/
def exPenalty (approx : Bool) : Penalty :=
  { topo := tetFaces ![0, 1, 2, 3]
    restVolume := 1, pressurization := 2, compression := 3, approx := approx }

example : IsSurface (exPenalty true).topo [![0, 1, 2, 3]] := fun f _ _ => by
  simp [exPenalty]

example : Closed (exPenalty true).topo :=
  surface_closed (tets := [![0, 1, 2, 3]]) fun f _ _ => by simp [exPenalty]

example : (exPenalty false).Proper := by simp [Penalty.Proper, exPenalty]

example : Within (exPenalty false).topo 4 := by
  intro t ht n
  simp only [exPenalty, tetFaces, List.mem_cons, List.not_mem_nil, or_false] at ht
  rcases ht with rfl | rfl | rfl | rfl <;> fin_cases n <;> simp

/-- Two tetrahedra that share a face: their surface has six triangles. -/
example : IsSurface [![0, 2, 3], ![0, 3, 1], ![1, 3, 2], ![0, 4, 2], ![0, 1, 4], ![1, 2, 4]]
    [![0, 1, 2, 3], ![0, 2, 1, 4]] := fun f h1 h2 => by
  simp only [tetFaces, List.map_cons, List.map_nil, List.sum_cons, List.sum_nil, Matrix.cons_val]
  have e1 := h2 0 1 2
  have e2 := h1 0 2 1
  have e3 := h1 1 0 2
  have e4 := h1 0 2 4
  have e5 := h1 0 4 2
  have e6 := h2 0 4 2
  have e7 := h1 0 1 4
  have e8 := h2 1 2 4
  have e9 := h1 2 4 1
  have e10 := h1 1 2 4
  have e11 := h1 2 1 4
  have e12 := h1 1 4 2
  have e13 := h1 4 2 1
  have e14 := h1 4 1 2
  linarith

end Softy.Volume
