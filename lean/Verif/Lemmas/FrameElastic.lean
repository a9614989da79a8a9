import Verif.Lemmas.Rotation

/-!
# Elastic elements seen from another frame of reference
-/

noncomputable section

namespace Softy.Frame

open Softy Assembly Fem

/-- Positions after the motion `x ↦ R x + c`. -/
def move (R : M3 ℝ) (c : V3 ℝ) (x : ℕ → V3 ℝ) : ℕ → V3 ℝ := fun i => R.mulVec (x i) + c

/-- Velocities and forces after the rotation `R`. -/
def turn (R : M3 ℝ) (v : ℕ → V3 ℝ) : ℕ → V3 ℝ := fun i => R.mulVec (v i)

variable {R : M3 ℝ}

theorem move_sub (R : M3 ℝ) (c a b : V3 ℝ) : (R.mulVec a + c) - (R.mulVec b + c) = R.mulVec (a - b) := by
  rw [rot_sub, add_sub_add_right_eq_sub]

/-! ## Accumulation -/

theorem addAll_turn (R : M3 ℝ) (l : List (ℕ × V3 ℝ)) (G : ℕ → V3 ℝ) :
    addAll (l.map fun p => (p.1, R.mulVec p.2)) (turn R G) = turn R (addAll l G) := by
  induction l generalizing G with
  | nil => rfl
  | cons p l ih =>
    obtain ⟨c, g⟩ := p
    simp only [List.map_cons, addAll]
    rw [← ih]
    congr 1
    funext i
    by_cases h : i = c
    · subst h; simp [turn, rot_add]
    · simp [turn, Function.update_of_ne h]

theorem zipCell_turn {m : ℕ} (R : M3 ℝ) (cell : Fin m → ℕ) (g : Fin m → V3 ℝ) :
    zipCell cell (fun i => R.mulVec (g i)) = (zipCell cell g).map fun p => (p.1, R.mulVec p.2) := by
  simp [zipCell]

theorem flatMap_turn {ι : Type} (R : M3 ℝ) (es : List ι) (f f' : ι → List (ℕ × V3 ℝ))
    (h : ∀ e ∈ es, f' e = (f e).map fun p => (p.1, R.mulVec p.2)) :
    es.flatMap f' = (es.flatMap f).map fun p => (p.1, R.mulVec p.2) := by
  induction es with
  | nil => rfl
  | cons e es ih =>
    rw [List.flatMap_cons, List.flatMap_cons, List.map_append, h e (by simp),
      ih fun e he => h e (List.mem_cons_of_mem _ he)]

/-! ## Tetrahedra -/

theorem shape_move (R : M3 ℝ) (c : V3 ℝ) (x : Tet.Verts) :
    Tet.shape (fun i => R.mulVec (x i) + c) = Tet.shape x * R.transpose := by
  unfold Tet.shape
  rw [move_sub, move_sub, move_sub]
  rfl

theorem shape_turn (R : M3 ℝ) (x : Tet.Verts) :
    Tet.shape (fun i => R.mulVec (x i)) = Tet.shape x * R.transpose := by
  unfold Tet.shape
  rw [← rot_sub, ← rot_sub, ← rot_sub]
  rfl

theorem spread_turn (R : M3 ℝ) (H : M3 ℝ) :
    Tet.spread (H * R.transpose) = fun i => R.mulVec (Tet.spread H i) := by
  funext i
  fin_cases i
  · rfl
  · rfl
  · rfl
  · show -R.mulVec H.r0 - R.mulVec H.r1 - R.mulVec H.r2 = R.mulVec (-H.r0 - H.r1 - H.r2)
    rw [rot_sub, rot_sub, rot_neg]

/-- An element whose shape is turned. -/
def turnElem (R : M3 ℝ) (e : Tet.Elem) : Tet.Elem := { e with Dx := e.Dx * R.transpose }

theorem turnElem_F (R : M3 ℝ) (e : Tet.Elem) : (turnElem R e).F = e.F * R.transpose := by
  unfold Tet.Elem.F turnElem
  rw [M3.mul_assoc']

theorem turnElem_dF (R : M3 ℝ) (e : Tet.Elem) (dx : Tet.Verts) :
    (turnElem R e).dF (fun i => R.mulVec (dx i)) = e.dF dx * R.transpose := by
  unfold Tet.Elem.dF turnElem
  rw [shape_turn, M3.mul_assoc']

theorem at_move (R : M3 ℝ) (c : V3 ℝ) (r : Tet.Ref) (x : Tet.Verts) :
    r.at (fun i => R.mulVec (x i) + c) = turnElem R (r.at x) := by
  unfold Tet.Ref.at turnElem
  rw [shape_move]

theorem energy_turn (hR : Rotation R) (M : TetModel) (e : Tet.Elem) :
    M.energy (turnElem R e) = M.energy e := by
  cases M
  · simp only [TetModel.energy, Tet.nhEnergy, turnElem_F, rows_det hR, rows_normSq hR]; rfl
  · simp only [TetModel.energy, Tet.snhEnergy, turnElem_F, rows_det hR, rows_normSq hR]; rfl

theorem gradient_turn (hR : Rotation R) (M : TetModel) (e : Tet.Elem) :
    M.gradient (turnElem R e) = (M.gradient e).map fun g i => R.mulVec (g i) := by
  cases M
  · simp only [TetModel.gradient, Tet.nhGradient, turnElem_F, rows_det hR, rows_inverseTranspose hR]
    by_cases hJ : e.F.det ≤ 0
    · rw [if_pos hJ, if_pos hJ]; rfl
    · rw [if_neg hJ, if_neg hJ]
      cases e.F.inverseTranspose with
      | none => rfl
      | some G =>
        simp only [Option.map_some]
        rw [← spread_turn]
        have : Tet.nhStress (e.F * R.transpose) (G * R.transpose) (Real.log e.F.det) e.lambda e.mu =
            Tet.nhStress e.F G (Real.log e.F.det) e.lambda e.mu * R.transpose := by
          unfold Tet.nhStress
          rw [mul_add_right', smul_mul', smul_mul']
        show some (Tet.spread (e.volume • (e.DXinv.transpose *
          Tet.nhStress (e.F * R.transpose) (G * R.transpose) (Real.log e.F.det) e.lambda e.mu))) = _
        rw [this, ← M3.mul_assoc', ← smul_mul']
  · simp only [TetModel.gradient, Tet.snhGradient, turnElem_F, rows_det hR, rows_normSq hR, rows_cof hR]
    by_cases hl : e.lambda = 0
    · rw [if_pos hl, if_pos (show (turnElem R e).lambda = 0 from hl)]; rfl
    · rw [if_neg hl, if_neg (show ¬ (turnElem R e).lambda = 0 from hl), Option.map_some, ← spread_turn]
      simp only [smul_mul', mul_add_right', M3.mul_assoc']
      rfl

theorem hrow_turn (hR : Rotation R) (F dF : M3 ℝ) (r : Fin 3) :
    M3.mulVec (Tet.hBlocks (F * R.transpose) r 0) (dF * R.transpose).r0
      + M3.mulVec (Tet.hBlocks (F * R.transpose) r 1) (dF * R.transpose).r1
      + M3.mulVec (Tet.hBlocks (F * R.transpose) r 2) (dF * R.transpose).r2 =
    R.mulVec (M3.mulVec (Tet.hBlocks F r 0) dF.r0 + M3.mulVec (Tet.hBlocks F r 1) dF.r1
      + M3.mulVec (Tet.hBlocks F r 2) dF.r2) := by
  have z : ∀ v : V3 ℝ, (0 : M3 ℝ).mulVec v = 0 := fun v => by ext <;> simp [M3.mulVec, V3.dot]
  fin_cases r
  · show (0 : M3 ℝ).mulVec (R.mulVec dF.r0) + M3.mulVec (M3.skew (-R.mulVec F.r2)) (R.mulVec dF.r1) +
      M3.mulVec (M3.skew (R.mulVec F.r1)) (R.mulVec dF.r2) =
      R.mulVec ((0 : M3 ℝ).mulVec dF.r0 + M3.mulVec (M3.skew (-F.r2)) dF.r1 +
        M3.mulVec (M3.skew F.r1) dF.r2)
    simp only [z, M3.mulVec_skew, rot_add, ← rot_neg, rot_cross hR, rot_zero]
  · show M3.mulVec (M3.skew (R.mulVec F.r2)) (R.mulVec dF.r0) + (0 : M3 ℝ).mulVec (R.mulVec dF.r1) +
      M3.mulVec (M3.skew (-R.mulVec F.r0)) (R.mulVec dF.r2) =
      R.mulVec (M3.mulVec (M3.skew F.r2) dF.r0 + (0 : M3 ℝ).mulVec dF.r1 +
        M3.mulVec (M3.skew (-F.r0)) dF.r2)
    simp only [z, M3.mulVec_skew, rot_add, ← rot_neg, rot_cross hR, rot_zero]
  · show M3.mulVec (M3.skew (-R.mulVec F.r1)) (R.mulVec dF.r0) +
      M3.mulVec (M3.skew (R.mulVec F.r0)) (R.mulVec dF.r1) + (0 : M3 ℝ).mulVec (R.mulVec dF.r2) =
      R.mulVec (M3.mulVec (M3.skew (-F.r1)) dF.r0 + M3.mulVec (M3.skew F.r0) dF.r1 +
        (0 : M3 ℝ).mulVec dF.r2)
    simp only [z, M3.mulVec_skew, rot_add, ← rot_neg, rot_cross hR, rot_zero]

theorem vdot_turn (hR : Rotation R) (a b : M3 ℝ) :
    V3.dot (a * R.transpose).r0 (b * R.transpose).r0 + V3.dot (a * R.transpose).r1 (b * R.transpose).r1 +
      V3.dot (a * R.transpose).r2 (b * R.transpose).r2 =
    V3.dot a.r0 b.r0 + V3.dot a.r1 b.r1 + V3.dot a.r2 b.r2 := by
  show V3.dot (R.mulVec a.r0) (R.mulVec b.r0) + V3.dot (R.mulVec a.r1) (R.mulVec b.r1) +
    V3.dot (R.mulVec a.r2) (R.mulVec b.r2) = _
  simp only [rot_dot hR]

theorem product_turn (hR : Rotation R) (M : TetModel) (e : Tet.Elem) (dx : Tet.Verts) :
    M.product (turnElem R e) (fun i => R.mulVec (dx i)) = M.product e dx * R.transpose := by
  cases M
  · simp only [TetModel.product, Tet.nhProduct, turnElem_F, turnElem_dF, rows_det hR,
      rows_inverseTranspose hR]
    by_cases hJ : 0 < e.F.det
    · rw [if_pos hJ, if_pos hJ]
      cases e.F.inverseTranspose with
      | none => simp only [Option.map_none]; rw [zero_mul']
      | some G =>
        simp only [Option.map_some]
        rw [rows_gram hR, rows_trace hR]
        simp only [smul_mul', mul_add_right', M3.mul_assoc']
        rfl
    · rw [if_neg hJ, if_neg hJ, zero_mul']
  · simp only [TetModel.product, Tet.snhProduct, turnElem_F, turnElem_dF, rows_det hR, rows_normSq hR,
      rows_cof hR, vdot_turn hR, hrow_turn hR]
    have e3 : ∀ a b c : V3 ℝ, (⟨R.mulVec a, R.mulVec b, R.mulVec c⟩ : M3 ℝ) =
        (⟨a, b, c⟩ : M3 ℝ) * R.transpose := fun _ _ _ => rfl
    simp only [e3, smul_mul', mul_add_right', M3.mul_assoc']
    rfl

theorem turnElem_dF_move (R : M3 ℝ) (u : V3 ℝ) (e : Tet.Elem) (dx : Tet.Verts) :
    (turnElem R e).dF (fun i => R.mulVec (dx i) + u) = e.dF dx * R.transpose := by
  unfold Tet.Elem.dF turnElem
  rw [shape_move, M3.mul_assoc']

theorem product_move (hR : Rotation R) (u : V3 ℝ) (M : TetModel) (e : Tet.Elem) (dx : Tet.Verts) :
    M.product (turnElem R e) (fun i => R.mulVec (dx i) + u) = M.product e dx * R.transpose := by
  have h : (turnElem R e).dF (fun i => R.mulVec (dx i) + u) = (turnElem R e).dF (fun i => R.mulVec (dx i)) := by
    rw [turnElem_dF_move, turnElem_dF]
  rw [← product_turn hR M e dx]
  cases M
  · simp only [TetModel.product, Tet.nhProduct, h]
  · simp only [TetModel.product, Tet.snhProduct, h]

theorem prev_move (R : M3 ℝ) (c u : V3 ℝ) (e : TetElem) (x v : ℕ → V3 ℝ) (q : ℝ) :
    e.prev (move R c x) (move R u v) q = turnElem R (e.prev x v q) := by
  unfold TetElem.prev
  rw [← at_move R (c - q • u)]
  congr 1
  funext i
  simp only [TetElem.pick, move, rot_sub, rot_smul, smul_add]
  abel

theorem tetElem_energy (hR : Rotation R) (c u : V3 ℝ) (M : TetModel) (e : TetElem) (x v : ℕ → V3 ℝ)
    (q : ℝ) : e.energy M (move R c x) (move R u v) q = e.energy M x v q := by
  unfold TetElem.energy
  have h1 : e.ref.at (e.pick (move R c x)) = turnElem R (e.ref.at (e.pick x)) := at_move R c e.ref (e.pick x)
  have h2 : e.pick (move R u v) = fun i => R.mulVec (e.pick v i) + u := rfl
  rw [h1, h2, energy_turn hR, prev_move]
  congr 1
  funext a
  rw [product_move hR]
  generalize M.product (e.prev x v q) (e.pick v) = H
  have k : ∀ a b c d : V3 ℝ, V3.dot (R.mulVec a) (R.mulVec b + u) =
      V3.dot a b + V3.dot (R.mulVec a) u := by
    intro a b c d
    rw [← rot_dot hR a b]
    simp [V3.dot]; ring
  have k := fun a b => k a b 0 0
  show a + 0.5 * e.damping * (q * q) * (V3.dot (R.mulVec H.r0) (R.mulVec _ + u) +
    V3.dot (R.mulVec H.r1) (R.mulVec _ + u) + V3.dot (R.mulVec H.r2) (R.mulVec _ + u) -
    (V3.dot (R.mulVec H.r0) (R.mulVec _ + u) + V3.dot (R.mulVec H.r1) (R.mulVec _ + u) +
      V3.dot (R.mulVec H.r2) (R.mulVec _ + u))) = _
  simp only [k]
  ring

theorem tetElem_gradient (hR : Rotation R) (c u : V3 ℝ) (M : TetModel) (e : TetElem) (x v : ℕ → V3 ℝ)
    (q : ℝ) : e.gradient M (move R c x) (move R u v) q =
      (e.gradient M x v q).map fun g i => R.mulVec (g i) := by
  unfold TetElem.gradient
  have h1 : e.ref.at (e.pick (move R c x)) = turnElem R (e.ref.at (e.pick x)) := at_move R c e.ref (e.pick x)
  have h2 : e.pick (move R u v) = fun i => R.mulVec (e.pick v i) + u := rfl
  rw [h1, h2, gradient_turn hR, prev_move, Option.map_map, Option.map_map]
  congr 1
  funext g i
  simp only [Function.comp]
  rw [product_move hR]
  generalize M.product (e.prev x v q) (e.pick v) = H
  have r0 : (H * R.transpose).r0 = R.mulVec H.r0 := rfl
  have r1 : (H * R.transpose).r1 = R.mulVec H.r1 := rfl
  have r2 : (H * R.transpose).r2 = R.mulVec H.r2 := rfl
  rw [r0, r1, r2]
  fin_cases i <;> simp [rot_add, rot_sub, rot_smul]

theorem tetEnergy_move (hR : Rotation R) (c u : V3 ℝ) (M : TetModel) (es : List TetElem) (x v : ℕ → V3 ℝ)
    (q : ℝ) : tetEnergy M es (move R c x) (move R u v) q = tetEnergy M es x v q := by
  unfold tetEnergy
  simp only [tetElem_energy hR]

theorem collect_map {α β : Type} (f : α → β) (l : List (Option α)) :
    collect (l.map (Option.map f)) = (collect l).map (List.map f) := by
  induction l with
  | nil => rfl
  | cons a l ih =>
    simp only [List.map_cons, collect, ih]
    cases a <;> cases collect l <;> rfl

theorem tetGradient_move (hR : Rotation R) (c u : V3 ℝ) (M : TetModel) (es : List TetElem) (x v : ℕ → V3 ℝ)
    (q : ℝ) (G : ℕ → V3 ℝ) : tetGradient M es (move R c x) (move R u v) q (turn R G) =
      (tetGradient M es x v q G).map (turn R) := by
  unfold tetGradient
  have h : (es.map fun e => e.gradient M (move R c x) (move R u v) q) =
      (es.map fun e => e.gradient M x v q).map (Option.map fun g i => R.mulVec (g i)) := by
    rw [List.map_map]
    exact List.map_congr_left fun e _ => tetElem_gradient hR c u M e x v q
  rw [h, collect_map, Option.map_map, Option.map_map]
  congr 1
  funext loc
  simp only [Function.comp]
  rw [← addAll_turn]
  congr 1
  rw [List.zip_map_right, List.flatMap_map, List.map_flatMap]
  congr 1

/-! ## Shells -/

theorem triShape_move (R : M3 ℝ) (c : V3 ℝ) (x : Tri.Verts) :
    Tri.shape (fun i => R.mulVec (x i) + c) =
      ⟨R.mulVec (Tri.shape x).r0, R.mulVec (Tri.shape x).r1⟩ := by
  unfold Tri.shape
  rw [move_sub, move_sub]

/-- The rows of a matrix, turned. -/
def turn23 (R : M3 ℝ) (F : Tri.M23) : Tri.M23 := ⟨R.mulVec F.r0, R.mulVec F.r1⟩

theorem mul23_turn (R : M3 ℝ) (a : Tri.M22) (F : Tri.M23) : a.mul23 (turn23 R F) = turn23 R (a.mul23 F) := by
  unfold Tri.M22.mul23 turn23
  simp only [rot_add, rot_smul]

theorem add_turn23 (R : M3 ℝ) (a b : Tri.M23) : turn23 R (a + b) = turn23 R a + turn23 R b := by
  ext : 1
  · exact rot_add R a.r0 b.r0
  · exact rot_add R a.r1 b.r1

theorem smul_turn23 (R : M3 ℝ) (k : ℝ) (a : Tri.M23) : turn23 R (k • a) = k • turn23 R a := by
  ext : 1
  · exact rot_smul R k a.r0
  · exact rot_smul R k a.r1

theorem mulT_turn (hR : Rotation R) (a b : Tri.M23) : (turn23 R a).mulT (turn23 R b) = a.mulT b := by
  unfold Tri.M23.mulT turn23
  simp only [rot_dot hR]

theorem triAt_move (R : M3 ℝ) (c : V3 ℝ) (r : Tri.Ref) (x : Tri.Verts) :
    r.at (fun i => R.mulVec (x i) + c) = { r.at x with Dx := turn23 R (r.at x).Dx } := by
  unfold Tri.Ref.at turn23
  rw [triShape_move]

theorem triF (R : M3 ℝ) (e : Tri.Elem) : ({ e with Dx := turn23 R e.Dx } : Tri.Elem).F = turn23 R e.F :=
  mul23_turn R e.DXinv e.Dx

theorem triC (hR : Rotation R) (e : Tri.Elem) : ({ e with Dx := turn23 R e.Dx } : Tri.Elem).C = e.C := by
  unfold Tri.Elem.C
  rw [triF, mulT_turn hR]

theorem tri_dF (R : M3 ℝ) (u : V3 ℝ) (e : Tri.Elem) (d : Tri.Verts) :
    ({ e with Dx := turn23 R e.Dx } : Tri.Elem).dF (fun i => R.mulVec (d i) + u) = turn23 R (e.dF d) := by
  unfold Tri.Elem.dF
  rw [← mul23_turn]
  congr 1
  exact triShape_move R u d

theorem triSpread_turn (R : M3 ℝ) (H : Tri.M23) :
    Tri.spread (turn23 R H) = fun i => R.mulVec (Tri.spread H i) := by
  funext i
  fin_cases i
  · rfl
  · rfl
  · show -R.mulVec H.r0 - R.mulVec H.r1 = R.mulVec (-H.r0 - H.r1)
    rw [rot_sub, rot_neg]

theorem triEnergy_turn (hR : Rotation R) (e : Tri.Elem) :
    Tri.energy { e with Dx := turn23 R e.Dx } = Tri.energy e := by
  unfold Tri.energy
  rw [triC hR]

theorem triGradient_turn (hR : Rotation R) (e : Tri.Elem) :
    Tri.gradient { e with Dx := turn23 R e.Dx } = fun i => R.mulVec (Tri.gradient e i) := by
  unfold Tri.gradient
  rw [triC hR, triF]
  by_cases h : e.C.det ≤ 0
  · simp only [if_pos h, rot_zero]
  · simp only [if_neg h]
    rw [← triSpread_turn, mul23_turn, ← smul_turn23, ← smul_turn23, ← add_turn23, mul23_turn, ← smul_turn23]

theorem triElem_energy (hR : Rotation R) (c u : V3 ℝ) (e : TriElem) (x v : ℕ → V3 ℝ) (q : ℝ) :
    e.energy (move R c x) (move R u v) q = e.energy x v q := by
  unfold TriElem.energy
  have h1 : e.ref.at (e.pick (move R c x)) =
      { e.ref.at (e.pick x) with Dx := turn23 R (e.ref.at (e.pick x)).Dx } := triAt_move R c e.ref (e.pick x)
  have h2 : e.pick (move R u v) = fun i => R.mulVec (e.pick v i) + u := rfl
  rw [h1, h2, triEnergy_turn hR, tri_dF]
  simp only [turn23, rot_dot hR]

theorem triElem_gradientUpdates (hR : Rotation R) (c u : V3 ℝ) (e : TriElem) (x v : ℕ → V3 ℝ) (q : ℝ) :
    e.gradientUpdates (move R c x) (move R u v) q =
      (e.gradientUpdates x v q).map fun p => (p.1, R.mulVec p.2) := by
  have h1 : e.ref.at (e.pick (move R c x)) =
      { e.ref.at (e.pick x) with Dx := turn23 R (e.ref.at (e.pick x)).Dx } := triAt_move R c e.ref (e.pick x)
  have h2 : e.pick (move R u v) = fun i => R.mulVec (e.pick v i) + u := rfl
  have hd : e.damp (move R c x) (move R u v) q = turn23 R (e.damp x v q) := by
    unfold TriElem.damp
    rw [h1, h2, tri_dF, ← smul_turn23, mul23_turn, smul_turn23]
  unfold TriElem.gradientUpdates
  rw [hd, h1, triGradient_turn hR]
  simp only [zipCell_turn, List.map_append]
  simp only [List.map_cons, List.map_nil, turn23, rot_neg]

theorem areaNormal_move (hR : Rotation R) (c a b d : V3 ℝ) :
    IEdge.areaNormal (R.mulVec a + c) (R.mulVec b + c) (R.mulVec d + c) =
      R.mulVec (IEdge.areaNormal a b d) := by
  unfold IEdge.areaNormal
  rw [move_sub, move_sub, rot_cross hR]

theorem normal0_move (hR : Rotation R) (c : V3 ℝ) (e : IEdge.Edge) (x : ℕ → V3 ℝ) (faces : ℕ → ℕ → ℕ) :
    e.normal0 (move R c x) faces = R.mulVec (e.normal0 x faces) := areaNormal_move hR c _ _ _

theorem normal1_move (hR : Rotation R) (c : V3 ℝ) (e : IEdge.Edge) (x : ℕ → V3 ℝ) (faces : ℕ → ℕ → ℕ) :
    e.normal1 (move R c x) faces = R.mulVec (e.normal1 x faces) := by
  unfold IEdge.Edge.normal1
  split
  · exact areaNormal_move hR c _ _ _
  · exact areaNormal_move hR c _ _ _

theorem edgeVector_move (R : M3 ℝ) (c : V3 ℝ) (e : IEdge.Edge) (x : ℕ → V3 ℝ) (faces : ℕ → ℕ → ℕ) :
    e.edgeVector (move R c x) faces = R.mulVec (e.edgeVector x faces) := move_sub R c _ _

theorem face0Tangent_move (R : M3 ℝ) (c : V3 ℝ) (e : IEdge.Edge) (x : ℕ → V3 ℝ) (faces : ℕ → ℕ → ℕ) :
    e.face0Tangent (move R c x) faces = R.mulVec (e.face0Tangent x faces) := move_sub R c _ _

theorem face1Tangent_move (R : M3 ℝ) (c : V3 ℝ) (e : IEdge.Edge) (x : ℕ → V3 ℝ) (faces : ℕ → ℕ → ℕ) :
    e.face1Tangent (move R c x) faces = R.mulVec (e.face1Tangent x faces) := move_sub R c _ _

theorem edgeAngle_move (hR : Rotation R) (c : V3 ℝ) (e : IEdge.Edge) (x : ℕ → V3 ℝ) (faces : ℕ → ℕ → ℕ) :
    e.edgeAngle (move R c x) faces = e.edgeAngle x faces := by
  unfold IEdge.Edge.edgeAngle
  simp only [edgeVector_move, face1Tangent_move, normal0_move hR, normal1_move hR, rot_norm hR, rot_dot hR]

theorem edgeGradient_move (hR : Rotation R) (c : V3 ℝ) (e : IEdge.Edge) (x : ℕ → V3 ℝ)
    (faces : ℕ → ℕ → ℕ) (n : Fin 4) : gradList (e.gradient (move R c x) faces) n =
      R.mulVec (gradList (e.gradient x faces) n) := by
  unfold IEdge.Edge.gradient
  simp only [edgeVector_move, face0Tangent_move, face1Tangent_move, normal0_move hR, normal1_move hR,
    rot_norm hR, rot_dot hR]
  by_cases h : V3.dot (e.normal0 x faces) (e.normal0 x faces) = 0 ∨
      V3.dot (e.normal1 x faces) (e.normal1 x faces) = 0
  · rw [if_pos h, if_pos h]
    fin_cases n <;> exact (rot_zero R).symm
  · rw [if_neg h, if_neg h]
    simp only [← rot_smul, rot_dot hR]
    fin_cases n <;> simp [gradList, rot_add, rot_smul]

theorem bending_energy_move (hR : Rotation R) (c : V3 ℝ) (b : IEdge.Bending) (e : IEdge.Edge)
    (x : ℕ → V3 ℝ) (faces : ℕ → ℕ → ℕ) : b.energy e (move R c x) faces = b.energy e x faces := by
  unfold IEdge.Bending.energy IEdge.Edge.incrementalAngle
  rw [edgeAngle_move hR]

theorem bending_gradient_move (hR : Rotation R) (c : V3 ℝ) (b : IEdge.Bending) (e : IEdge.Edge)
    (x : ℕ → V3 ℝ) (faces : ℕ → ℕ → ℕ) : gradList (b.gradient e (move R c x) faces) =
      fun n => R.mulVec (gradList (b.gradient e x faces) n) := by
  funext n
  have h := edgeGradient_move hR c e x faces
  have h0 := h 0
  have h1 := h 1
  have h2 := h 2
  have h3 := h 3
  simp only [gradList, Matrix.cons_val] at h0 h1 h2 h3
  unfold IEdge.Bending.gradient IEdge.Bending.angleDerivative IEdge.Edge.incrementalAngle
  rw [edgeAngle_move hR]
  fin_cases n <;> simp [gradList, h0, h1, h2, h3, rot_smul]

theorem shell_energy_move (hR : Rotation R) (c u : V3 ℝ) (s : Shell) (x v : ℕ → V3 ℝ) (q : ℝ) :
    s.energy (move R c x) (move R u v) q = s.energy x v q := by
  unfold Shell.energy
  simp only [triElem_energy hR, bending_energy_move hR]

theorem shell_gradient_move (hR : Rotation R) (c u : V3 ℝ) (s : Shell) (x v : ℕ → V3 ℝ) (q : ℝ)
    (G : ℕ → V3 ℝ) : s.gradient (move R c x) (move R u v) q (turn R G) = turn R (s.gradient x v q G) := by
  unfold Shell.gradient
  rw [flatMap_turn R s.tris (fun e => e.gradientUpdates x v q) _
    fun e _ => triElem_gradientUpdates hR c u e x v q, addAll_turn]
  rw [flatMap_turn R s.dihedrals (fun e =>
      zipCell (e.cell s.faces) (gradList (e.bending.gradient e.edge x s.faces))) _ fun e _ => ?_, addAll_turn]
  rw [bending_gradient_move hR, zipCell_turn]

/-! ## Gravity and inertia -/

variable {m : ℕ}

theorem gravityGradient_turn (R : M3 ℝ) (K : Kind m) (g : V3 ℝ) (bs : List (Body m)) (G : ℕ → V3 ℝ) :
    gravityGradient K (R.mulVec g) bs (turn R G) = turn R (gravityGradient K g bs G) := by
  unfold gravityGradient
  rw [flatMap_turn R bs (fun b => zipCell b.cell fun _ => -(b.lump K • g)) _ fun b _ => ?_, addAll_turn]
  rw [← rot_smul, ← rot_neg, ← zipCell_turn]

theorem inertiaGradient_turn (R : M3 ℝ) (u : V3 ℝ) (K : Kind m) (bs : List (Body m)) (v0 v G : ℕ → V3 ℝ) :
    inertiaGradient K bs (move R u v0) (move R u v) (turn R G) = turn R (inertiaGradient K bs v0 v G) := by
  unfold inertiaGradient
  rw [flatMap_turn R bs (fun b => zipCell b.cell fun i => b.lump K • (v (b.cell i) - v0 (b.cell i))) _
    fun b _ => ?_, addAll_turn]
  rw [← zipCell_turn]
  simp only [move, rot_smul, rot_sub, add_sub_add_right_eq_sub]

theorem inertiaEnergy_turn (hR : Rotation R) (u : V3 ℝ) (K : Kind m) (bs : List (Body m)) (v0 v : ℕ → V3 ℝ) :
    inertiaEnergy K bs (move R u v0) (move R u v) = inertiaEnergy K bs v0 v := by
  unfold inertiaEnergy
  simp only [move, move_sub, rot_dot hR]

theorem gravityEnergy_move (hR : Rotation R) (c : V3 ℝ) {K : Kind m}
    (hK : ∀ p : Fin m → V3 ℝ, K.centroid (fun i => R.mulVec (p i) + c) = R.mulVec (K.centroid p) + c)
    (g : V3 ℝ) (bs : List (Body m)) (x : ℕ → V3 ℝ) :
    gravityEnergy K (R.mulVec g) bs (move R c x) =
      gravityEnergy K g bs x - (bs.map fun b => b.measure * b.density).sum * V3.dot (R.mulVec g) c := by
  unfold gravityEnergy
  induction bs with
  | nil => simp
  | cons b bs ih =>
    simp only [List.map_cons, List.sum_cons, ih]
    have : (K.centroid fun i => move R c x (b.cell i)) = R.mulVec (K.centroid fun i => x (b.cell i)) + c :=
      hK _
    rw [this, ← rot_dot hR g]
    simp only [V3.dot, V3.add_x, V3.add_y, V3.add_z]
    ring

theorem tetKind_move (R : M3 ℝ) (c : V3 ℝ) (p : Fin 4 → V3 ℝ) :
    tetKind.centroid (fun i => R.mulVec (p i) + c) = R.mulVec (tetKind.centroid p) + c := by
  ext <;> simp [tetKind, M3.mulVec, V3.dot] <;> ring

theorem triKind_move (R : M3 ℝ) (c : V3 ℝ) (p : Fin 3 → V3 ℝ) :
    triKind.centroid (fun i => R.mulVec (p i) + c) = R.mulVec (triKind.centroid p) + c := by
  have h : (1.0 / 3.0 : ℝ) = 1 / 3 := by norm_num
  show (1.0 / 3.0 : ℝ) • (R.mulVec (p 0) + c + (R.mulVec (p 1) + c) + (R.mulVec (p 2) + c)) =
    R.mulVec ((1.0 / 3.0 : ℝ) • (p 0 + p 1 + p 2)) + c
  rw [h]
  ext <;> simp only [M3.mulVec, V3.dot, V3.add_x, V3.add_y, V3.add_z, V3.smul_x, V3.smul_y, V3.smul_z] <;>
    ring

end Softy.Frame
