import Verif.Lemmas.FrameElastic
import Verif.Props.Gripping

/-!
# Pressure, contacts and friction seen from another frame of reference
-/

noncomputable section

namespace Softy.Frame

open Softy Assembly Fem Softy.Field Softy.Kernel Softy.Contact

variable {R : M3 ℝ}

/-! ## Pressure -/

theorem edges_sum {α : Type} [AddCommGroup α] (topo : List (Fin 3 → ℕ)) (f : ℕ → ℕ → α) :
    ((Volume.edges topo).map fun e => f e.1 e.2).sum =
      (topo.map fun t => f (t 0) (t 1) + f (t 1) (t 2) + f (t 2) (t 0)).sum := by
  induction topo with
  | nil => rfl
  | cons t topo ih =>
    simp only [Volume.edges, List.flatMap_cons, List.map_append, List.sum_append, List.map_cons,
      List.sum_cons, List.map_nil, List.sum_nil] at ih ⊢
    rw [ih]
    abel

theorem vertexNormal_eq (topo : List (Fin 3 → ℕ)) (x : ℕ → V3 ℝ) (v : ℕ) :
    Volume.vertexNormal topo x v = (topo.map fun t => ∑ n, if t n = v then Volume.Penalty.normals t x n
      else 0).sum := by
  unfold Volume.vertexNormal
  rw [vertexSum_flatMap]
  simp only [vertexSum_zipCell]

theorem vertexNormal_turn (hR : Rotation R) (topo : List (Fin 3 → ℕ)) (x : ℕ → V3 ℝ) (v : ℕ) :
    Volume.vertexNormal topo (turn R x) v = R.mulVec (Volume.vertexNormal topo x v) := by
  rw [vertexNormal_eq, vertexNormal_eq, rot_list_sum, List.map_map]
  congr 1
  apply List.map_congr_left
  intro t _
  have k : ∀ n, (if t n = v then Volume.Penalty.normals t (turn R x) n else 0) =
      R.mulVec (if t n = v then Volume.Penalty.normals t x n else 0) := by
    intro n
    split
    · fin_cases n <;> exact rot_cross hR _ _
    · rw [rot_zero]
  simp only [k, Function.comp, Fin.sum_univ_three, rot_add]

theorem vertexNormal_shift {topo : List (Fin 3 → ℕ)} (h : Volume.Closed topo) (x : ℕ → V3 ℝ) (c : V3 ℝ)
    (v : ℕ) : Volume.vertexNormal topo (fun i => x i + c) v = Volume.vertexNormal topo x v := by
  have key := Volume.closed_sum h (fun a b => (if a = v then V3.cross (x b) c else 0) -
    (if b = v then V3.cross (x a) c else 0)) (fun a b => by simp)
  rw [edges_sum topo fun a b => (if a = v then V3.cross (x b) c else 0) -
    (if b = v then V3.cross (x a) c else 0)] at key
  symm
  rw [vertexNormal_eq, vertexNormal_eq, ← add_zero ((topo.map _).sum), ← key, ← List.sum_map_add]
  congr 1
  apply List.map_congr_left
  intro t _
  have e : ∀ a b : V3 ℝ, V3.cross (a + c) (b + c) = V3.cross a b + (V3.cross a c - V3.cross b c) := by
    intro a b
    ext <;> simp [V3.cross] <;> ring
  simp only [Fin.sum_univ_three, Volume.Penalty.normals, Matrix.cons_val, e]
  by_cases h0 : t 0 = v <;> by_cases h1 : t 1 = v <;> by_cases h2 : t 2 = v <;> simp [h0, h1, h2] <;> abel

/-- What is required of the volume zones when the frame is shifted. -/
def Shiftable (c : V3 ℝ) (l : List Volume.Penalty) : Prop := c ≠ 0 → ∀ P ∈ l, Volume.Closed P.topo

theorem signedVolume_move (hR : Rotation R) (c : V3 ℝ) (topo : List (Fin 3 → ℕ))
    (h : c ≠ 0 → Volume.Closed topo) (x : ℕ → V3 ℝ) :
    Volume.signedVolume topo (move R c x) = Volume.signedVolume topo x := by
  rw [← Volume.volume_rotate topo x R hR.det]
  by_cases hc : c = 0
  · subst hc
    unfold move
    simp only [add_zero]
  · exact Volume.volume_translate (h hc) (fun i => R.mulVec (x i)) c

theorem penalty_energy_move (hR : Rotation R) (c : V3 ℝ) (P : Volume.Penalty)
    (h : c ≠ 0 → Volume.Closed P.topo) (x : ℕ → V3 ℝ) : P.energy (move R c x) = P.energy x := by
  unfold Volume.Penalty.energy Volume.Penalty.dv
  rw [signedVolume_move hR c _ h]

theorem penalty_forces_move (hR : Rotation R) (c : V3 ℝ) (P : Volume.Penalty)
    (h : c ≠ 0 → Volume.Closed P.topo) (x : ℕ → V3 ℝ) (i : ℕ) :
    P.forces (move R c x) i = R.mulVec (P.forces x i) := by
  rw [Volume.forces_eq, Volume.forces_eq, rot_smul]
  have e1 : P.factor (move R c x) = P.factor x := by
    unfold Volume.Penalty.factor Volume.Penalty.dv
    rw [signedVolume_move hR c _ h]
  have e2 : Volume.vertexNormal P.topo (move R c x) i = R.mulVec (Volume.vertexNormal P.topo x i) := by
    rw [← vertexNormal_turn hR]
    by_cases hc : c = 0
    · subst hc
      unfold move turn
      simp only [add_zero]
    · exact vertexNormal_shift (h hc) (turn R x) c i
  rw [e1, e2]

/-! ## Fields -/

/-- A background field after the motion. -/
def turnBg (R : M3 ℝ) (d : V3 ℝ) (b : Bg) : Bg :=
  { b with q := R.mulVec b.q + d, S := b.S.move R d, disp := R.mulVec b.disp }

theorem move_diff (R : M3 ℝ) (d q : V3 ℝ) (S : Samples) (i : ℕ) :
    R.mulVec q + d - (S.move R d).pos i = R.mulVec (q - S.pos i) := move_sub R d q (S.pos i)

theorem weight_move (hR : Rotation R) (d : V3 ℝ) (k : Kern) (dist : ℝ) (q : V3 ℝ) (S : Samples) (i : ℕ) :
    weight k dist (R.mulVec q + d) (S.move R d) i = weight k dist q S i := by
  unfold weight Kern.eval
  rw [move_diff, rot_norm hR]

theorem weightGrad_move (hR : Rotation R) (d : V3 ℝ) (k : Kern) (dist : ℝ) (q : V3 ℝ) (S : Samples)
    (i : ℕ) : weightGrad k dist (R.mulVec q + d) (S.move R d) i = R.mulVec (weightGrad k dist q S i) := by
  unfold weightGrad Kern.grad
  simp only [move_diff, rot_norm hR]
  split
  · rw [rot_smul]
  · rw [rot_zero]

theorem newImpl_move (hR : Rotation R) (d q : V3 ℝ) (view : List ℕ) (S : Samples) (c : ClosestIndex)
    (k : Kern) (P : BgParams) (v : Option ℝ) :
    Bg.newImpl (R.mulVec q + d) view (S.move R d) c k P v = turnBg R d (Bg.newImpl q view S c k P v) := by
  unfold Bg.newImpl turnBg
  simp only [move_diff, rot_norm hR]
  congr 3
  apply List.map_congr_left
  intro i _
  exact weight_move hR d k _ q S i

theorem closestSample_move (hR : Rotation R) (d q : V3 ℝ) (S : Samples) (view : List ℕ) :
    closestSample (R.mulVec q + d) (S.move R d) view = closestSample q S view :=
  closestSample_congr view fun i _ => by rw [move_diff, rot_dot hR]

theorem bgLocal_move (hR : Rotation R) (d q : V3 ℝ) (view : List ℕ) (S : Samples) (k : Kern)
    (P : BgParams) (v : Option ℝ) : Bg.local (R.mulVec q + d) view (S.move R d) k P v =
      (Bg.local q view S k P v).map (turnBg R d) := by
  unfold Bg.local
  rw [closestSample_move hR]
  cases closestSample q S view with
  | none => rfl
  | some i => simp only [newImpl_move hR, Option.map_some]

theorem bgNew_move (hR : Rotation R) (d q : V3 ℝ) (view : List ℕ) (S : Samples) (c : Option ℕ) (k : Kern)
    (P : BgParams) (v : Option ℝ) : Bg.new (R.mulVec q + d) view (S.move R d) c k P v =
      (Bg.new q view S c k P v).map (turnBg R d) := by
  unfold Bg.new
  cases c with
  | none => exact bgLocal_move hR d q view S k P v
  | some c =>
    unfold Bg.global
    rw [closestSample_move hR]
    cases closestSample q S view <;> simp only [newImpl_move hR, Option.map_some]

variable (d : V3 ℝ) (b : Bg)

theorem bgWeightGrad_turn (R : M3 ℝ) (i : Option ℕ) :
    (turnBg R d b).bgWeightGrad i = R.mulVec (b.bgWeightGrad i) := by
  unfold Bg.bgWeightGrad
  have hf : (turnBg R d b).flat = b.flat := rfl
  rw [hf]
  by_cases h : b.flat
  · rw [if_pos h, if_pos h, rot_zero]
  · rw [if_neg h, if_neg h]
    cases i with
    | none =>
      show (b.edgeDf / b.dist) • (-R.mulVec b.disp) = R.mulVec ((b.edgeDf / b.dist) • (-b.disp))
      rw [rot_smul, rot_neg]
    | some i =>
      have hc : (turnBg R d b).closest = b.closest := rfl
      simp only [hc]
      cases b.closest with
      | glob c => exact (rot_zero R).symm
      | loc c =>
        simp only
        split
        · rw [rot_smul]; rfl
        · rw [rot_zero]

theorem orientation_turn (hR : Rotation R) : (turnBg R d b).orientation = b.orientation := by
  unfold Bg.orientation
  show (if V3.dot (R.mulVec (b.S.nml b.closest.get)) (R.mulVec b.disp) < 0 then (-1 : ℝ) else 1) = _
  rw [rot_dot hR]

theorem fieldValue_turn (hR : Rotation R) : (turnBg R d b).fieldValue = b.fieldValue := by
  unfold Bg.fieldValue
  rw [orientation_turn d b hR]
  rfl

theorem fieldGrad_turn (hR : Rotation R) : (turnBg R d b).fieldGrad = R.mulVec b.fieldGrad := by
  unfold Bg.fieldGrad
  have hv : (turnBg R d b).value = b.value := rfl
  have hd : (turnBg R d b).dist = b.dist := rfl
  rw [orientation_turn d b hR, hv, hd]
  cases b.value with
  | constant v => exact (rot_zero R).symm
  | signedDistance =>
    simp only
    split
    · rw [rot_smul]; rfl
    · rw [rot_zero]

theorem weightGrad_turn (hR : Rotation R) (i : ℕ) :
    weightGrad (turnBg R d b).kernel (turnBg R d b).dist (turnBg R d b).q (turnBg R d b).S i =
      R.mulVec (weightGrad b.kernel b.dist b.q b.S i) := weightGrad_move hR d b.kernel b.dist b.q b.S i

theorem weight_turn (hR : Rotation R) (i : ℕ) :
    weight (turnBg R d b).kernel (turnBg R d b).dist (turnBg R d b).q (turnBg R d b).S i =
      weight b.kernel b.dist b.q b.S i := weight_move hR d b.kernel b.dist b.q b.S i

theorem weightGrad_sum (hR : Rotation R) (view : List ℕ) :
    (view.map (weightGrad (turnBg R d b).kernel (turnBg R d b).dist (turnBg R d b).q
      (turnBg R d b).S)).sum = R.mulVec (view.map (weightGrad b.kernel b.dist b.q b.S)).sum := by
  rw [rot_list_sum, List.map_map]
  congr 1
  exact List.map_congr_left fun i _ => weightGrad_turn d b hR i

theorem sampleJacobian_turn (hR : Rotation R) (i : ℕ) :
    (turnBg R d b).sampleJacobian i = R.mulVec (b.sampleJacobian i) := by
  unfold Bg.sampleJacobian
  have h1 : (turnBg R d b).weightSumInv = b.weightSumInv := rfl
  have h2 : (turnBg R d b).bgWeight = b.bgWeight := rfl
  have h3 : (turnBg R d b).closest = b.closest := rfl
  have h4 : (turnBg R d b).value = b.value := rfl
  have h5 : (turnBg R d b).weighted = b.weighted := rfl
  simp only [h1, h2, h3, h4, h5, bgWeightGrad_turn, fieldValue_turn d b hR, fieldGrad_turn d b hR,
    weightGrad_turn d b hR]
  split_ifs <;> simp only [rot_add, rot_neg, rot_smul, rot_zero]

theorem queryJacobian_turn (hR : Rotation R) :
    (turnBg R d b).queryJacobian = R.mulVec b.queryJacobian := by
  unfold Bg.queryJacobian
  have h1 : (turnBg R d b).weightSumInv = b.weightSumInv := rfl
  have h2 : (turnBg R d b).bgWeight = b.bgWeight := rfl
  have h5 : (turnBg R d b).weighted = b.weighted := rfl
  have h6 : (turnBg R d b).view = b.view := rfl
  simp only [h1, h2, h5, h6, bgWeightGrad_turn, fieldValue_turn d b hR, fieldGrad_turn d b hR,
    weightGrad_sum d b hR]
  split_ifs <;> simp only [rot_add, rot_sub, rot_smul, rot_zero]

theorem neighborWeightGrad_turn (hR : Rotation R) :
    neighborWeightGrad (turnBg R d b) = R.mulVec (neighborWeightGrad b) := by
  unfold neighborWeightGrad
  rw [rot_smul, rot_add, ← bgWeightGrad_turn d, ← weightGrad_sum d b hR]
  rfl

theorem sampleQueryJacobian_turn (hR : Rotation R) (w : V3 ℝ) (i : ℕ) :
    sampleQueryJacobian (turnBg R d b) (R.mulVec w) i = R.mulVec (sampleQueryJacobian b w i) := by
  unfold sampleQueryJacobian
  have h1 : (turnBg R d b).weightSumInv = b.weightSumInv := rfl
  have h2 : (turnBg R d b).S.nml i = R.mulVec (b.S.nml i) := rfl
  have h3 : (turnBg R d b).q - (turnBg R d b).S.pos i = R.mulVec (b.q - b.S.pos i) := move_diff R d b.q b.S i
  have h4 : (turnBg R d b).S.value i = b.S.value i := rfl
  simp only [h1, h2, h3, h4, weight_turn d b hR, weightGrad_turn d b hR, rot_norm hR, ← rot_smul, rot_dot hR]
  simp only [rot_smul, rot_add, rot_sub]

theorem queryJacobianAt_move (hR : Rotation R) (d q : V3 ℝ) (view : List ℕ) (S : Samples) (c : Option ℕ)
    (k : Kern) (P : BgParams) : queryJacobianAt (R.mulVec q + d) view (S.move R d) c k P =
      (queryJacobianAt q view S c k P).map R.mulVec := by
  unfold queryJacobianAt
  rw [bgNew_move hR, Option.map_map, Option.map_map]
  congr 1
  funext b
  simp only [Function.comp]
  rw [queryJacobian_turn d b hR, neighborWeightGrad_turn d b hR, rot_add, rot_list_sum, List.map_map]
  congr 2
  exact List.map_congr_left fun i _ => sampleQueryJacobian_turn d b hR _ i

theorem samplePotential_move (hR : Rotation R) (d q : V3 ℝ) (S : Samples) (i : ℕ) :
    samplePotential (R.mulVec q + d) (S.move R d) i = samplePotential q S i := by
  unfold samplePotential
  rw [move_diff]
  show S.value i + V3.dot (R.mulVec (S.nml i)) (R.mulVec (q - S.pos i)) / (R.mulVec (S.nml i)).norm = _
  rw [rot_dot hR, rot_norm hR]

theorem localPotentialAt_move (hR : Rotation R) (d q : V3 ℝ) (view : List ℕ) (S : Samples) (k : Kern)
    (w dist : ℝ) : localPotentialAt (R.mulVec q + d) view (S.move R d) k w dist =
      localPotentialAt q view S k w dist := by
  unfold localPotentialAt
  simp only [weight_move hR, samplePotential_move hR]

theorem sampleJacobianAt_turn (hR : Rotation R) (i : ℕ) :
    sampleJacobianAt (turnBg R d b) i = R.mulVec (sampleJacobianAt b i) := by
  unfold sampleJacobianAt
  rw [sampleJacobian_turn d b hR, rot_add]
  congr 1
  have hl : localPotentialAt (turnBg R d b).q (turnBg R d b).view (turnBg R d b).S (turnBg R d b).kernel
      (turnBg R d b).weightSumInv (turnBg R d b).dist =
      localPotentialAt b.q b.view b.S b.kernel b.weightSumInv b.dist :=
    localPotentialAt_move hR d b.q b.view b.S b.kernel b.weightSumInv b.dist
  rw [hl]
  unfold localSampleJacobian
  have h1 : (turnBg R d b).weightSumInv = b.weightSumInv := rfl
  have h2 : (turnBg R d b).S.nml i = R.mulVec (b.S.nml i) := rfl
  have h3 : (turnBg R d b).q - (turnBg R d b).S.pos i = R.mulVec (b.q - b.S.pos i) := move_diff R d b.q b.S i
  have h4 : (turnBg R d b).S.value i = b.S.value i := rfl
  simp only [h1, h2, h3, h4, weight_turn d b hR, weightGrad_turn d b hR, bgWeightGrad_turn, rot_norm hR,
    ← rot_smul, rot_dot hR]
  simp only [rot_smul, rot_sub]

theorem faceSamples_move (hR : Rotation R) (d : V3 ℝ) (tris : ℕ → Field.Tri) (x : ℕ → V3 ℝ)
    (value : ℕ → ℝ) : faceSamples tris (move R d x) value = (faceSamples tris x value).move R d := by
  unfold faceSamples Samples.move move
  congr 1
  · funext i
    ext <;> simp [M3.mulVec, V3.dot] <;> ring
  · funext i
    exact areaNormal_move hR d _ _ _
  · funext i
    simp only [move_sub, rot_norm hR, rot_smul]

theorem areaNormalGrad_mulVec (hR : Rotation R) (d : V3 ℝ) (x : ℕ → V3 ℝ) (t : Field.Tri) (j : Fin 3)
    (w : V3 ℝ) : (areaNormalGrad (move R d x) t j).mulVec (R.mulVec w) =
      R.mulVec ((areaNormalGrad x t j).mulVec w) := by
  unfold areaNormalGrad
  fin_cases j <;> simp only [move, move_sub, M3.mulVec_skew, rot_cross hR]

theorem mulVec_mul' (a c : M3 ℝ) (v : V3 ℝ) : (a * c).mulVec v = a.mulVec (c.mulVec v) := M3.mulVec_mul a c v

theorem faceUnitNormalGrad_mulVec (hR : Rotation R) (d : V3 ℝ) (x : ℕ → V3 ℝ) (tris : ℕ → Field.Tri)
    (S : Samples) (i : ℕ) (j : Fin 3) (w : V3 ℝ) :
    (faceUnitNormalGrad (move R d x) tris (S.move R d) i j).mulVec (R.mulVec w) =
      R.mulVec ((faceUnitNormalGrad x tris S i j).mulVec w) := by
  unfold faceUnitNormalGrad
  have h2 : (S.move R d).nml i = R.mulVec (S.nml i) := rfl
  simp only [h2, rot_norm hR, ← rot_smul]
  rw [mulVec_mul', mulVec_mul', M3.mulVec_neg, M3.mulVec_neg, rot_neg]
  congr 1
  rw [← areaNormalGrad_mulVec hR d]
  congr 1
  unfold scaledTangentProjection
  simp only [M3.mulVec_sub, M3.mulVec_diag, M3.mulVec_outer, rot_dot hR]
  simp only [rot_sub, rot_smul]

theorem faceJacobianAt_move (hR : Rotation R) (d q : V3 ℝ) (view : List ℕ) (S : Samples) (k : Kern)
    (tris : ℕ → Field.Tri) (x : ℕ → V3 ℝ) (P : BgParams) :
    faceJacobianAt (R.mulVec q + d) view (S.move R d) k tris (move R d x) P =
      (faceJacobianAt q view S k tris x P).map (List.map R.mulVec) := by
  unfold faceJacobianAt
  rw [bgLocal_move hR, Option.map_map, Option.map_map]
  congr 1
  funext b
  simp only [Function.comp, List.map_flatMap, List.map_map]
  congr 1
  funext i
  apply List.map_congr_left
  intro j _
  simp only [Function.comp, sampleJacobianAt_turn d b hR, rot_add, rot_smul]
  congr 1
  rw [← faceUnitNormalGrad_mulVec hR d]
  congr 1
  unfold normalMultiplier
  rw [weight_turn d b hR, rot_smul]
  congr 1
  exact move_diff R d b.q b.S i

/-! ## One contact -/

variable (C : Pair)

theorem samples_move (hR : Rotation R) (d : V3 ℝ) (x : ℕ → V3 ℝ) :
    C.samples (move R d x) = (C.samples x).move R d :=
  faceSamples_move hR d C.tris (fun j => x (C.surf j)) C.value

theorem potentials_move (hR : Rotation R) (d : V3 ℝ) (x : ℕ → V3 ℝ) :
    C.potentials (move R d x) = C.potentials x := by
  unfold Pair.potentials
  rw [samples_move C hR]
  apply List.map_congr_left
  intro p _
  exact rigid_potential C.kernel params (C.query x p.2) p.1 (C.samples x) 0 R hR.orth d

theorem distances_move (hR : Rotation R) (d : V3 ℝ) (x : ℕ → V3 ℝ) :
    C.distances (move R d x) = C.distances x := by
  unfold Pair.distances
  rw [potentials_move C hR]

theorem lambda_move (hR : Rotation R) (d : V3 ℝ) (x : ℕ → V3 ℝ) : C.lambda (move R d x) = C.lambda x := by
  unfold Pair.lambda
  rw [distances_move C hR]

theorem contactEnergy_move (hR : Rotation R) (d : V3 ℝ) (x : ℕ → V3 ℝ) :
    C.energy (move R d x) = C.energy x := by
  unfold Pair.energy
  rw [distances_move C hR]

theorem queryBlocks_move (hR : Rotation R) (d : V3 ℝ) (x : ℕ → V3 ℝ) :
    C.queryBlocks (move R d x) = (C.queryBlocks x).map R.mulVec := by
  unfold Pair.queryBlocks
  rw [samples_move C hR, List.map_map]
  apply List.map_congr_left
  intro p _
  have : C.query (move R d x) p.2 = R.mulVec (C.query x p.2) + d := rfl
  simp only [Function.comp]
  rw [this, queryJacobianAt_move hR]
  cases queryJacobianAt (C.query x p.2) p.1 (C.samples x) (some (C.closest p.2)) C.kernel params with
  | none => exact (rot_zero R).symm
  | some g => rfl

theorem surfaceBlocks_move (hR : Rotation R) (d : V3 ℝ) (x : ℕ → V3 ℝ) :
    C.surfaceBlocks (move R d x) = (C.surfaceBlocks x).map R.mulVec := by
  unfold Pair.surfaceBlocks
  rw [samples_move C hR, List.map_flatMap]
  congr 1
  funext p
  have h1 : C.query (move R d x) p.2 = R.mulVec (C.query x p.2) + d := rfl
  have h2 : (fun j => move R d x (C.surf j)) = move R d fun j => x (C.surf j) := rfl
  rw [h1, h2, faceJacobianAt_move hR]
  cases faceJacobianAt (C.query x p.2) p.1 (C.samples x) C.kernel C.tris (fun j => x (C.surf j)) params with
  | none => rfl
  | some g => rfl

theorem blocks_move (hR : Rotation R) (d : V3 ℝ) (x : ℕ → V3 ℝ) :
    C.blocks (move R d x) = (C.blocks x).map fun b => ⟨b.row, b.col, R.mulVec b.val⟩ := by
  unfold Pair.blocks Pair.objectBlocks Pair.colliderBlocks
  rw [queryBlocks_move C hR, surfaceBlocks_move C hR, List.map_append]
  congr 1
  · split
    · rfl
    · rw [List.zip_map_right, List.map_map, List.map_map]
      rfl
  · split
    · rfl
    · rw [List.zip_map_right, List.map_map, List.map_map]
      rfl

theorem subtractForce_move (hR : Rotation R) (d : V3 ℝ) (x f : ℕ → V3 ℝ) :
    C.subtractForce (move R d x) (turn R f) = turn R (C.subtractForce x f) := by
  unfold Pair.subtractForce
  rw [lambda_move C hR, blocks_move C hR]
  induction C.blocks x generalizing f with
  | nil => rfl
  | cons b l ih =>
    rw [List.map_cons, List.foldl_cons, List.foldl_cons, ← ih]
    congr 1
    funext i
    by_cases h : i = b.col
    · subst h; simp [turn, rot_sub, rot_smul]
    · simp [turn, Function.update_of_ne h]

/-! ## Friction -/

theorem skew_turn (hR : Rotation R) (u : V3 ℝ) : M3.skew (R.mulVec u) = R * M3.skew u * R.transpose := by
  have ext' : ∀ a b : M3 ℝ, (∀ v, a.mulVec v = b.mulVec v) → a = b := by
    intro a b h
    have hx := h ⟨1, 0, 0⟩
    have hy := h ⟨0, 1, 0⟩
    have hz := h ⟨0, 0, 1⟩
    simp only [M3.mulVec, V3.dot, V3.mk.injEq] at hx hy hz
    ext <;> simp_all
  apply ext'
  intro v
  rw [M3.mulVec_skew, mulVec_mul', mulVec_mul', M3.mulVec_skew, ← rot_cross hR, rot_forth hR]

theorem conj_mul (hR : Rotation R) (a c : M3 ℝ) :
    (R * a * R.transpose) * (R * c * R.transpose) = R * (a * c) * R.transpose := by
  rw [M3.mul_assoc' (R * a), ← M3.mul_assoc' R.transpose, ← M3.mul_assoc' R.transpose, hR.orth, diag_one_mul,
    M3.mul_assoc' R a, ← M3.mul_assoc' a, ← M3.mul_assoc' R]

theorem conj_mulVec (hR : Rotation R) (a : M3 ℝ) (v : V3 ℝ) :
    (R * a * R.transpose).mulVec (R.mulVec v) = R.mulVec (a.mulVec v) := by
  rw [mulVec_mul', mulVec_mul', rot_back hR]

theorem conj_transpose (R a : M3 ℝ) : (R * a * R.transpose).transpose = R * a.transpose * R.transpose := by
  rw [transpose_mul', transpose_mul', ← M3.mul_assoc']
  rfl

theorem conj_smul (R a : M3 ℝ) (k : ℝ) : R * (k • a) * R.transpose = k • (R * a * R.transpose) := by
  rw [M3.mul_smul', smul_mul']

theorem conj_add (R a c : M3 ℝ) :
    R * (a + c) * R.transpose = R * a * R.transpose + R * c * R.transpose := by
  rw [M3.mul_add', mul_add_right']

theorem rodrigues_conj (hR : Rotation R) (a : M3 ℝ) (s : ℝ) :
    rodrigues (R * a * R.transpose) s = R * rodrigues a s * R.transpose := by
  have h1 : M3.diag 1 = R * M3.diag 1 * R.transpose := by rw [mul_diag_one, rot_orth' hR]
  unfold rodrigues
  split
  · rw [conj_mul hR, conj_add, conj_add, conj_smul, ← h1]
  · exact h1

theorem unitNormal_move (hR : Rotation R) (d : V3 ℝ) (S : Samples) (i : ℕ) :
    Contact.unitNormal (S.move R d) i = R.mulVec (Contact.unitNormal S i) := by
  unfold Contact.unitNormal
  show (1 / (R.mulVec (S.nml i)).norm) • R.mulVec (S.nml i) = _
  rw [rot_norm hR, rot_smul]

theorem weightNmlSumInv_move (hR : Rotation R) (d : V3 ℝ) (k : Kern) (dist : ℝ) (q : V3 ℝ) (view : List ℕ)
    (S : Samples) (g : V3 ℝ) :
    weightNmlSumInv k dist (R.mulVec q + d) view (S.move R d) (R.mulVec g) =
      weightNmlSumInv k dist q view S g := by
  unfold weightNmlSumInv normalKernel
  simp only [weight_move hR, unitNormal_move hR, rot_dot hR]

theorem sampleContactJacobian_move (hR : Rotation R) (d : V3 ℝ) (k : Kern) (dist : ℝ) (q : V3 ℝ)
    (S : Samples) (g : V3 ℝ) (w : ℝ) (i : ℕ) :
    sampleContactJacobian k dist (R.mulVec q + d) (S.move R d) (R.mulVec g) w i =
      R * sampleContactJacobian k dist q S g w i * R.transpose := by
  unfold sampleContactJacobian normalKernel
  simp only [weight_move hR, unitNormal_move hR, rot_dot hR, rot_cross hR, skew_turn hR, rodrigues_conj hR,
    conj_smul]

theorem contactJacobianAt_move (hR : Rotation R) (d q : V3 ℝ) (view : List ℕ) (S : Samples) (k : Kern)
    (P : BgParams) : contactJacobianAt (R.mulVec q + d) view (S.move R d) k P =
      (contactJacobianAt q view S k P).map (List.map fun m => R * m * R.transpose) := by
  unfold contactJacobianAt
  rw [bgLocal_move hR, queryJacobianAt_move hR]
  cases Bg.local q view S k P none with
  | none => rfl
  | some b =>
    simp only [Option.map_some, Option.bind_some]
    cases queryJacobianAt q view S none k P with
    | none => rfl
    | some g =>
      simp only [Option.map_some]
      rw [List.map_map]
      congr 1
      apply List.map_congr_left
      intro i _
      have hd : (turnBg R d b).dist = b.dist := rfl
      rw [hd, weightNmlSumInv_move hR, sampleContactJacobian_move hR]
      rfl

theorem contactBlocks_move (hR : Rotation R) (d : V3 ℝ) (x : ℕ → V3 ℝ) :
    C.contactBlocks (move R d x) =
      (C.contactBlocks x).map fun b => ⟨b.row, b.col, R * b.val * R.transpose⟩ := by
  unfold Pair.contactBlocks
  rw [samples_move C hR, List.map_flatMap]
  congr 1
  funext p
  have h1 : C.query (move R d x) p.2 = R.mulVec (C.query x p.2) + d := rfl
  rw [h1, contactJacobianAt_move hR]
  cases contactJacobianAt (C.query x p.2) p.1 (C.samples x) C.kernel params with
  | none => simp
  | some g =>
    simp only [Option.map_some, Option.getD_some]
    rw [List.zip_map_right, List.flatMap_map, List.map_flatMap]
    congr 1
    funext s
    rw [List.map_map]
    apply List.map_congr_left
    intro j _
    simp only [Function.comp, Prod.map, id, conj_smul]

theorem relativeVelocities_move (hR : Rotation R) (d : V3 ℝ) (x v : ℕ → V3 ℝ) :
    C.relativeVelocities (move R d x) (turn R v) = (C.relativeVelocities x v).map R.mulVec := by
  unfold Pair.relativeVelocities
  rw [contactBlocks_move C hR, List.map_map]
  apply List.map_congr_left
  intro p _
  simp only [Function.comp, rot_sub, rot_list_sum]
  congr 1
  rw [List.filter_map, List.map_map, List.map_map]
  congr 1
  apply List.map_congr_left
  intro b _
  exact conj_mulVec hR b.val (v (C.surf b.col))

theorem contactNormals_move (hR : Rotation R) (d : V3 ℝ) (x : ℕ → V3 ℝ) :
    C.contactNormals (move R d x) = (C.contactNormals x).map R.mulVec := by
  unfold Pair.contactNormals
  rw [queryBlocks_move C hR, List.map_map, List.map_map]
  apply List.map_congr_left
  intro g _
  simp only [Function.comp, rot_norm hR]
  split
  · rw [rot_smul]
  · rfl

/-- The size of the friction for a sliding speed. -/
def slide (p : Friction.Params) (l s : ℝ) : ℝ :=
  l * (p.dynamicFriction + (p.staticFriction - p.dynamicFriction) * Friction.falloff s p.stribeckVelocity) *
    p.profile.s s p.epsilon + p.viscousFriction

theorem profile_slide (p : Friction.Params) (v : V2 ℝ) (l : ℝ) :
    Friction.profile v l p = slide p l v.norm • v := by
  unfold Friction.profile slide
  cases p.profile <;> rfl

/-- What is left of a vector without its part along a unit normal. -/
def tangential (n v : V3 ℝ) : V3 ℝ := v - V3.dot n v • n

theorem tangential_turn (hR : Rotation R) (n v : V3 ℝ) :
    tangential (R.mulVec n) (R.mulVec v) = R.mulVec (tangential n v) := by
  unfold tangential
  rw [rot_dot hR, rot_sub, rot_smul]

theorem frame_coords {n : V3 ℝ} (hn : V3.dot n n = 1) (v : V3 ℝ) :
    let c := (ContactBasis.frame n (ContactBasis.tangentFor n)).mulVec v
    (⟨c.y, c.z⟩ : V2 ℝ).norm = (tangential n v).norm ∧
      (ContactBasis.frame n (ContactBasis.tangentFor n)).transpose.mulVec ⟨0, c.y, c.z⟩ =
        tangential n v := by
  intro c
  have ht := ContactBasis.tangentFor_spec hn
  have hf := ContactBasis.isFrame_of hn ht.1 ht.2
  have h1 := hf.resolve v
  have e : (⟨0, c.y, c.z⟩ : V3 ℝ) = c - V3.dot n v • ⟨1, 0, 0⟩ := by
    have : c.x = V3.dot n v := rfl
    ext <;> simp [this]
  have e2 : (ContactBasis.frame n (ContactBasis.tangentFor n)).transpose.mulVec ⟨1, 0, 0⟩ = n := by
    ext <;> simp [ContactBasis.frame, M3.transpose, M3.mulVec, V3.dot]
  have h2 : (ContactBasis.frame n (ContactBasis.tangentFor n)).transpose.mulVec ⟨0, c.y, c.z⟩ =
      tangential n v := by
    rw [e, rot_sub, rot_smul, e2, h1]
    rfl
  refine ⟨?_, h2⟩
  unfold V2.norm V3.norm
  congr 1
  rw [← h2, ContactBasis.dot_transpose, hf.resolve']
  simp [V2.dot, V3.dot]

/-- The normals have length one. -/
theorem contactFriction_eq {ns : List (V3 ℝ)} {i : ℕ} (hi : i < ns.length)
    (hn : V3.dot ns[i] ns[i] = 1) (p : Friction.Params) (l : ℝ) (v : V3 ℝ) :
    (ContactBasis.updateFromNormals ns).contactFriction p l v i =
      some (-(slide p l (tangential ns[i] v).norm • tangential ns[i] v)) := by
  obtain ⟨h1, h2⟩ := frame_coords hn v
  simp only [ContactBasis.contactFriction, ContactBasis.toContactCoordinates,
    ContactBasis.fromContactCoordinates, ContactBasis.matrix_of_lt hi, Option.map_some, Option.bind_some,
    profile_slide, h1]
  congr 1
  rw [← h2, ← rot_smul, ← rot_neg]
  congr 1
  ext <;> simp

theorem coordinates_norm {ns : List (V3 ℝ)} {i : ℕ} (hi : i < ns.length) (hn : V3.dot ns[i] ns[i] = 1)
    (v : V3 ℝ) : ∃ c, (ContactBasis.updateFromNormals ns).toContactCoordinates v i = some c ∧
      (⟨c.y, c.z⟩ : V2 ℝ).norm = (tangential ns[i] v).norm := by
  refine ⟨_, ?_, (frame_coords hn v).1⟩
  simp only [ContactBasis.toContactCoordinates, ContactBasis.matrix_of_lt hi, Option.map_some]

/-- The distance of no point of the collider has a critical point where the point is: the contact has a
direction. -/
def Facing (C : Pair) (x : ℕ → V3 ℝ) : Prop := ∀ g ∈ C.queryBlocks x, g ≠ 0

theorem facing_unit {C : Pair} {x : ℕ → V3 ℝ} (h : Facing C x) : ∀ n ∈ C.contactNormals x, V3.dot n n = 1 := by
  intro n hn
  obtain ⟨g, hg, rfl⟩ := List.mem_map.1 hn
  have hne := h g hg
  have hpos : 0 < g.norm := by
    rcases (V3.norm_nonneg g).lt_or_eq with h | h
    · exact h
    · have := V3.norm_mul_norm g
      rw [← h, mul_zero] at this
      exact absurd (V3.dot_self_eq_zero.1 this.symm) hne
  simp only [if_pos hpos]
  rw [Fem.dot_smul_left, Fem.dot_smul_right, ← V3.norm_mul_norm]
  field_simp

theorem contactFriction_move (hR : Rotation R) (d : V3 ℝ) {x : ℕ → V3 ℝ} (hf : Facing C x)
    (p : Friction.Params) (l : ℝ) (v : V3 ℝ) (i : ℕ) (hi : i < (C.contactNormals x).length) :
    ((C.contactBasis (move R d x)).contactFriction p l (R.mulVec v) i).getD 0 =
      R.mulVec (((C.contactBasis x).contactFriction p l v i).getD 0) := by
  unfold Pair.contactBasis
  have hu := facing_unit hf _ (List.getElem_mem hi)
  rw [contactNormals_move C hR]
  have hi' : i < ((C.contactNormals x).map R.mulVec).length := by simpa using hi
  have hu' : V3.dot ((C.contactNormals x).map R.mulVec)[i] ((C.contactNormals x).map R.mulVec)[i] = 1 := by
    rw [List.getElem_map, rot_dot hR, hu]
  rw [contactFriction_eq hi hu, contactFriction_eq hi' hu', Option.getD_some, Option.getD_some]
  simp only [List.getElem_map, tangential_turn hR, rot_norm hR, rot_neg, rot_smul]

theorem normals_length (x v : ℕ → V3 ℝ) :
    (C.contactNormals x).length = (C.relativeVelocities x v).length := by
  simp [Pair.contactNormals, Pair.queryBlocks, Pair.relativeVelocities]

theorem constraintFriction_move (hR : Rotation R) (d : V3 ℝ) {x : ℕ → V3 ℝ} (hf : Facing C x)
    (p : Friction.Params) (v : ℕ → V3 ℝ) :
    C.constraintFriction p (move R d x) (turn R v) = (C.constraintFriction p x v).map R.mulVec := by
  unfold Pair.constraintFriction
  rw [relativeVelocities_move C hR, lambda_move C hR, List.zipIdx_map, List.map_map, List.map_map]
  apply List.map_congr_left
  intro r hr
  have hi : r.2 < (C.contactNormals x).length := by
    rw [normals_length C x v]
    exact (List.mem_zipIdx' hr).1
  exact contactFriction_move C hR d hf p _ r.1 r.2 hi

theorem update_turn (R : M3 ℝ) (f : ℕ → V3 ℝ) (i : ℕ) (a : V3 ℝ) :
    Function.update (turn R f) i (R.mulVec a) = turn R (Function.update f i a) := by
  funext j
  by_cases h : j = i
  · subst h; simp [turn]
  · simp [turn, Function.update_of_ne h]

theorem getD_rot (R : M3 ℝ) (w : List (V3 ℝ)) (i : ℕ) : (w.map R.mulVec).getD i 0 = R.mulVec (w.getD i 0) := by
  rw [List.getD_eq_getElem?_getD, List.getD_eq_getElem?_getD, List.getElem?_map]
  cases w[i]? with
  | none => exact (rot_zero R).symm
  | some a => rfl

theorem transposeMul_move (hR : Rotation R) (d : V3 ℝ) (ns : ℕ) (x : ℕ → V3 ℝ) (w : List (V3 ℝ)) :
    C.transposeMul ns (move R d x) (w.map R.mulVec) = turn R (C.transposeMul ns x w) := by
  unfold Pair.transposeMul
  have hs : ∀ j : ℕ, (((C.contactBlocks (move R d x)).filter fun b => b.col = j).map fun b =>
      b.val.transpose.mulVec ((w.map R.mulVec).getD b.row 0)).sum =
      R.mulVec (((C.contactBlocks x).filter fun b => b.col = j).map fun b =>
        b.val.transpose.mulVec (w.getD b.row 0)).sum := by
    intro j
    rw [contactBlocks_move C hR, List.filter_map, List.map_map, rot_list_sum, List.map_map]
    congr 1
    apply List.map_congr_left
    intro b _
    simp only [Function.comp, conj_transpose, getD_rot, conj_mulVec hR]
  simp only [hs]
  simp only [getD_rot, ← rot_neg]
  have h1 : ∀ (l : List ℕ) (g : ℕ → V3 ℝ) (f : ℕ → V3 ℝ),
      l.foldl (fun f j => Function.update f (C.surf j) (R.mulVec (g j))) (turn R f) =
        turn R (l.foldl (fun f j => Function.update f (C.surf j) (g j)) f) := by
    intro l g
    induction l with
    | nil => exact fun f => rfl
    | cons a l ih => intro f; rw [List.foldl_cons, List.foldl_cons, update_turn, ih]
  have h2 : ∀ (l : List ((List ℕ × ℕ) × ℕ)) (g : ℕ → V3 ℝ) (f : ℕ → V3 ℝ),
      l.foldl (fun f p => Function.update f (C.coll p.1.2) (R.mulVec (g p.2))) (turn R f) =
        turn R (l.foldl (fun f p => Function.update f (C.coll p.1.2) (g p.2)) f) := by
    intro l g
    induction l with
    | nil => exact fun f => rfl
    | cons a l ih => intro f; rw [List.foldl_cons, List.foldl_cons, update_turn, ih]
  have h0 : (fun _ : ℕ => (0 : V3 ℝ)) = turn R fun _ => 0 := by
    funext i
    exact (rot_zero R).symm
  rw [← h2 _ fun i => -w.getD i 0, ← h1, ← h0]

theorem subtractFriction_move (hR : Rotation R) (d : V3 ℝ) {x : ℕ → V3 ℝ} (hf : Facing C x) (ns : ℕ)
    (p : Friction.Params) (v f : ℕ → V3 ℝ) :
    C.subtractFriction ns p (move R d x) (turn R v) (turn R f) =
      turn R (C.subtractFriction ns p x v f) := by
  unfold Pair.subtractFriction Pair.frictionForce
  by_cases hp : p.isNone
  · rw [if_pos hp, if_pos hp]
  · rw [if_neg hp, if_neg hp]
    simp only
    funext i
    rw [constraintFriction_move C hR d hf, transposeMul_move C hR]
    exact (rot_sub R _ _).symm

theorem frictionPotential_move (hR : Rotation R) (d : V3 ℝ) {x : ℕ → V3 ℝ} (hf : Facing C x)
    (p : Friction.Params) (v : ℕ → V3 ℝ) (q : ℝ) :
    C.frictionPotential p (move R d x) (turn R v) q = C.frictionPotential p x v q := by
  unfold Pair.frictionPotential
  by_cases hp : p.isNone
  · rw [if_pos hp, if_pos hp]
  · rw [if_neg hp, if_neg hp]
    congr 2
    rw [relativeVelocities_move C hR, lambda_move C hR, List.zipIdx_map, List.map_map]
    apply List.map_congr_left
    intro r hr
    have hi : r.2 < (C.contactNormals x).length := by
      rw [normals_length C x v]
      exact (List.mem_zipIdx' hr).1
    have hu := facing_unit hf _ (List.getElem_mem hi)
    have hi' : r.2 < ((C.contactNormals x).map R.mulVec).length := by simpa using hi
    have hu' : V3.dot ((C.contactNormals x).map R.mulVec)[r.2] ((C.contactNormals x).map R.mulVec)[r.2] =
        1 := by
      rw [List.getElem_map, rot_dot hR, hu]
    obtain ⟨c, hc, hn⟩ := coordinates_norm hi hu r.1
    obtain ⟨c', hc', hn'⟩ := coordinates_norm hi' hu' (R.mulVec r.1)
    simp only [Function.comp, Prod.map, id, Pair.contactBasis, contactNormals_move C hR, hc, hc',
      Option.map_some, Option.getD_some]
    rw [List.getElem_map, tangential_turn hR, rot_norm hR, ← hn] at hn'
    unfold Friction.potential Friction.etaInt
    rw [hn']

end Softy.Frame
