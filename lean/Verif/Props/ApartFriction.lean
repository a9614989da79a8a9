import Verif.Props.ApartJacobian

/-!
# C123: friction between objects that do not touch
-/

noncomputable section

namespace Softy.Apart

open Softy Assembly Fem Contact

/-! ## Specification -/

/-- All elements, zones, contacts and contacts with friction are made of vertices in `s`. -/
structure RubbingOnly (S : Rubbing) (s : Set ℕ) : Prop where
  base : Only S.toTouching s
  object : ∀ L ∈ S.frictions, ∀ j, L.pair.surf j ∈ s
  collider : ∀ L ∈ S.frictions, ∀ i, L.pair.coll i ∈ s

/-- At the end of the last step all distances of the contact were at least the tolerance, and friction has
no viscous part. -/
def Calm (L : Lagged) : Prop := Idle L.x L.pair ∧ L.params.viscousFriction = 0

/-- `A` is on the vertices in `s`, `B` on the others, and they do not touch, neither at positions `x` nor
at the end of the last step. -/
structure RubbingSeparated (S A B : Rubbing) (s : Set ℕ) (x : ℕ → V3 ℝ) : Prop where
  union : ∃ between, Union S.toTouching A.toTouching B.toTouching between ∧ ∀ C ∈ between, Idle x C
  frictions : ∃ between, S.frictions = A.frictions ++ B.frictions ++ between ∧ ∀ L ∈ between, Calm L
  left : RubbingOnly A s
  right : RubbingOnly B sᶜ

/-! ## Friction of one contact -/

/-- The friction force that a contact adds at a vertex. -/
def rub (L : Lagged) (v : ℕ → V3 ℝ) (i : ℕ) : V3 ℝ :=
  -((L.pair.frictionForce L.ns L.params L.x v).getD 0 i)

theorem subtract_rub (L : Lagged) (v f : ℕ → V3 ℝ) (i : ℕ) :
    L.pair.subtractFriction L.ns L.params L.x v f i = f i + rub L v i := by
  unfold Pair.subtractFriction rub
  cases L.pair.frictionForce L.ns L.params L.x v with
  | none => simp
  | some g => simp [sub_eq_add_neg]

theorem lambda_getD {x : ℕ → V3 ℝ} {C : Pair} (h : Idle x C) (r : ℕ) : (C.lambda x).getD r 0 = 0 := by
  by_cases hr : r < (C.lambda x).length
  · rw [List.getD_eq_getElem _ _ hr]
    exact idle_lambda h _ (List.getElem_mem hr)
  · rw [List.getD_eq_default _ _ (not_lt.1 hr)]

theorem profile_calm (p : Friction.Params) (hp : p.viscousFriction = 0) (u : V2 ℝ) :
    Friction.profile u 0 p = 0 := by
  unfold Friction.profile
  cases p.profile <;> simp only [Friction.eta, hp] <;> ext <;> simp

theorem rub_calm {L : Lagged} (h : Calm L) (v : ℕ → V3 ℝ) (i : ℕ) : rub L v i = 0 := by
  unfold rub Pair.frictionForce
  split_ifs with hn
  · simp
  · rw [Option.getD_some, L.pair.transposeMul_zero]
    · simp
    · intro r
      unfold Pair.constraintFriction
      by_cases hr : r < ((L.pair.relativeVelocities L.x v).zipIdx).length
      · rw [List.getD_eq_getElem _ _ (by simpa using hr), List.getElem_map, lambda_getD h.1]
        unfold ContactBasis.contactFriction ContactBasis.toContactCoordinates
          ContactBasis.fromContactCoordinates
        cases (L.pair.contactBasis L.x).contactBasisMatrix
          ((L.pair.relativeVelocities L.x v).zipIdx)[r].2 with
        | none => simp
        | some m =>
          simp only [Option.map_some, Option.bind_some, profile_calm _ h.2, Option.getD_some]
          ext <;> simp [M3.mulVec, M3.transpose, V3.dot]
      · rw [List.getD_eq_default _ _ (by simpa using hr)]

theorem foldl_away {α : Type} (l : List α) (k : α → ℕ) (g : α → V3 ℝ) (f : ℕ → V3 ℝ) {i : ℕ}
    (h : ∀ a ∈ l, k a ≠ i) :
    l.foldl (fun (f : ℕ → V3 ℝ) a => Function.update f (k a) (g a)) f i = f i := by
  induction l generalizing f with
  | nil => rfl
  | cons a l ih =>
    rw [List.foldl_cons, ih _ fun b hb => h b (List.mem_cons_of_mem _ hb),
      Function.update_of_ne (h a List.mem_cons_self).symm]

theorem rub_off {L : Lagged} {s : Set ℕ} (ho : ∀ j, L.pair.surf j ∈ s) (hc : ∀ i, L.pair.coll i ∈ s)
    (v : ℕ → V3 ℝ) {i : ℕ} (hi : i ∉ s) : rub L v i = 0 := by
  unfold rub Pair.frictionForce
  split_ifs with hn
  · simp
  · rw [Option.getD_some]
    unfold Pair.transposeMul
    simp only
    have h1 : ∀ a, L.pair.coll a ≠ i := fun a e => hi (e ▸ hc a)
    have h2 : ∀ a, L.pair.surf a ≠ i := fun a e => hi (e ▸ ho a)
    rw [foldl_away _ (fun p : (List ℕ × ℕ) × ℕ => L.pair.coll p.1.2) _ _ fun p _ => h1 _,
      foldl_away _ (fun j : ℕ => L.pair.surf j) _ _ fun p _ => h2 _, neg_zero]

theorem relative_local {C : Pair} {s : Set ℕ} (ho : ∀ j, C.surf j ∈ s) (hc : ∀ i, C.coll i ∈ s)
    (x : ℕ → V3 ℝ) {v v' : ℕ → V3 ℝ} (hv : ∀ i ∈ s, v i = v' i) :
    C.relativeVelocities x v = C.relativeVelocities x v' := by
  unfold Pair.relativeVelocities
  refine List.map_congr_left fun p _ => ?_
  rw [hv _ (hc _)]
  congr 2
  exact List.map_congr_left fun b _ => by rw [hv _ (ho _)]

theorem rub_local {L : Lagged} {s : Set ℕ} (ho : ∀ j, L.pair.surf j ∈ s) (hc : ∀ i, L.pair.coll i ∈ s)
    {v v' : ℕ → V3 ℝ} (hv : ∀ i ∈ s, v i = v' i) (i : ℕ) : rub L v i = rub L v' i := by
  unfold rub Pair.frictionForce Pair.constraintFriction
  rw [relative_local ho hc L.x hv]

/-! ## Equations of motion -/

/-- All that is added to the cleared residual. -/
def rubbingTotal (S : Rubbing) (x v : ℕ → V3 ℝ) (q : ℝ) (i : ℕ) : V3 ℝ :=
  total S.toTouching x v q i + (S.frictions.map fun L => rub L v i).sum

theorem foldl_rub (l : List Lagged) (v f : ℕ → V3 ℝ) (i : ℕ) :
    l.foldl (fun r L => L.pair.subtractFriction L.ns L.params L.x v r) f i =
      f i + (l.map fun L => rub L v i).sum := by
  induction l generalizing f with
  | nil => simp
  | cons L l ih => rw [List.foldl_cons, ih, subtract_rub, List.map_cons, List.sum_cons, add_assoc]

open Classical in
theorem rubbing_residual_if (S : Rubbing) (fm pm : ℝ) (prev v0 x v : ℕ → V3 ℝ) :
    S.residual fm pm prev v0 x v = if Ok S.toProblem x v (S.dt * fm) then
      some (finish S.toTouching fm pm prev v0 v (rubbingTotal S x v (S.dt * fm)),
        rubbingTotal S x v (S.dt * fm)) else none := by
  have hf : S.force x v (S.dt * fm) = if Ok S.toProblem x v (S.dt * fm) then
      some (rubbingTotal S x v (S.dt * fm)) else none := by
    unfold Rubbing.force
    rw [force_if]
    split_ifs
    · rw [Option.map_some]
      congr 1
      funext i
      exact foldl_rub _ _ _ _
    · rfl
  unfold Rubbing.residual
  simp only [hf]
  by_cases hk : Ok S.toProblem x v (S.dt * fm)
  · simp only [if_pos hk, Option.map_some, Option.some.injEq, Prod.mk.injEq, and_true]
    funext i
    unfold finish
    by_cases hs : S.isStatic
    · simp only [if_pos hs, add_zero]
      split_ifs <;> rfl
    · simp only [if_neg hs, momentumDiff_eq]
      split_ifs <;> rfl
  · simp only [if_neg hk, Option.map_none]

theorem rubbingTotal_off {S : Rubbing} {s : Set ℕ} (h : RubbingOnly S s) (x v : ℕ → V3 ℝ) (q : ℝ) {i : ℕ}
    (hi : i ∉ s) : rubbingTotal S x v q i = 0 := by
  unfold rubbingTotal
  rw [total_off h.base x v q hi, List.sum_eq_zero, add_zero]
  intro y hy
  obtain ⟨L, hL, rfl⟩ := List.mem_map.1 hy
  exact rub_off (h.object L hL) (h.collider L hL) v hi

/-- C123. The equations that a step solves, and the forces, are for each object those of the object on
its own, also if there is friction. -/
theorem friction_residual_apart {S A B : Rubbing} {s : Set ℕ} {x : ℕ → V3 ℝ}
    (h : RubbingSeparated S A B s x) (fm pm : ℝ) (prev v0 v r f : ℕ → V3 ℝ) :
    S.residual fm pm prev v0 x v = some (r, f) ↔
      ∃ rA fA rB fB, A.residual fm pm prev v0 x v = some (rA, fA) ∧
        B.residual fm pm prev v0 x v = some (rB, fB) ∧ r = glue s rA rB ∧ f = glue s fA fB := by
  classical
  obtain ⟨⟨between, hu, hb⟩, ⟨rubs, hr, hq⟩, hA, hB⟩ := h
  obtain ⟨d1, d2, d3, d4⟩ := dt_union hu
  have htot : rubbingTotal S x v (S.dt * fm) =
      glue s (rubbingTotal A x v (S.dt * fm)) (rubbingTotal B x v (S.dt * fm)) := by
    funext i
    have hsum : rubbingTotal S x v (S.dt * fm) i =
        rubbingTotal A x v (S.dt * fm) i + rubbingTotal B x v (S.dt * fm) i := by
      have hz : (rubs.map fun L => rub L v i).sum = 0 := by
        refine List.sum_eq_zero fun y hy => ?_
        obtain ⟨L, hL, rfl⟩ := List.mem_map.1 hy
        exact rub_calm (hq L hL) v i
      unfold rubbingTotal
      rw [total_union hu hb, hr]
      simp only [List.map_append, List.sum_append, hz]
      abel
    rw [hsum]
    unfold glue
    split_ifs with hi
    · rw [rubbingTotal_off hB x v _ (fun hc => hc hi), add_zero]
    · rw [rubbingTotal_off hA x v _ hi, zero_add]
  have hfin : finish S.toTouching fm pm prev v0 v (rubbingTotal S x v (S.dt * fm)) =
      glue s (finish A.toTouching fm pm prev v0 v (rubbingTotal A x v (S.dt * fm)))
        (finish B.toTouching fm pm prev v0 v (rubbingTotal B x v (S.dt * fm))) := by
    funext i
    rw [htot]
    unfold finish glue
    rw [mass_union hu]
    simp only [d1, d2, d3, d4]
    by_cases hi : i ∈ s
    · simp only [if_pos hi, mass_off hB.base (fun hc => hc hi), add_zero]
    · simp only [if_neg hi, mass_off hA.base hi, zero_add]
  rw [rubbing_residual_if, rubbing_residual_if, rubbing_residual_if, d1, d2]
  by_cases hk : Ok S.toProblem x v (S.dt * fm)
  · obtain ⟨kA, kB⟩ := (ok_union hu x v _).1 hk
    rw [if_pos hk, if_pos kA, if_pos kB, hfin, htot]
    constructor
    · intro e
      rw [Option.some.injEq, Prod.mk.injEq] at e
      exact ⟨_, _, _, _, rfl, rfl, e.1.symm, e.2.symm⟩
    · rintro ⟨rA, fA, rB, fB, eA, eB, rfl, rfl⟩
      rw [Option.some.injEq, Prod.mk.injEq] at eA eB
      rw [← eA.1, ← eA.2, ← eB.1, ← eB.2]
  · rw [if_neg hk]
    refine ⟨fun e => by simp at e, ?_⟩
    rintro ⟨rA, fA, rB, fB, eA, eB, -⟩
    refine absurd ((ok_union hu x v _).2 ⟨?_, ?_⟩) hk
    · by_contra hc
      rw [if_neg hc] at eA
      simp at eA
    · by_contra hc
      rw [if_neg hc] at eB
      simp at eB

/-- C123. With friction, too, the equations of an object depend on nothing but the positions and velocities
of its own vertices. -/
theorem friction_residual_local {A : Rubbing} {s : Set ℕ} (h : RubbingOnly A s) (fm pm : ℝ)
    {prev prev' v0 v0' x x' v v' : ℕ → V3 ℝ} (hp : ∀ i ∈ s, prev i = prev' i)
    (h0 : ∀ i ∈ s, v0 i = v0' i) (hx : ∀ i ∈ s, x i = x' i) (hv : ∀ i ∈ s, v i = v' i)
    {r f : ℕ → V3 ℝ} (hr : A.residual fm pm prev v0 x v = some (r, f)) :
    ∃ r' f', A.residual fm pm prev' v0' x' v' = some (r', f') ∧
      ∀ i ∈ s, r' i = r i ∧ f' i = f i := by
  classical
  obtain ⟨k, t⟩ := total_local h.base hx hv (A.dt * fm)
  have t' : rubbingTotal A x v (A.dt * fm) = rubbingTotal A x' v' (A.dt * fm) := by
    funext i
    unfold rubbingTotal
    rw [t]
    congr 2
    exact List.map_congr_left fun L hL => rub_local (h.object L hL) (h.collider L hL) hv i
  rw [rubbing_residual_if] at hr
  by_cases hk : Ok A.toProblem x v (A.dt * fm)
  · rw [if_pos hk, Option.some.injEq, Prod.mk.injEq] at hr
    refine ⟨_, _, by rw [rubbing_residual_if, if_pos (k.1 hk)], fun i hi => ⟨?_, ?_⟩⟩
    · rw [← hr.1, ← t']
      unfold finish
      rw [hp i hi, h0 i hi, hv i hi]
    · rw [← hr.2, ← t']
  · rw [if_neg hk] at hr
    simp at hr

/-! ## Objective -/

theorem potential_idle {L : Lagged} (h : Idle L.x L.pair) (v : ℕ → V3 ℝ) (q : ℝ) :
    L.pair.frictionPotential L.params L.x v q = 0 := by
  have hp : ∀ u : V2 ℝ, Friction.potential u 0 L.params = 0 := by
    intro u
    unfold Friction.potential Friction.etaInt
    cases L.params.profile <;> simp
  unfold Pair.frictionPotential
  split_ifs
  · rfl
  · rw [List.sum_eq_zero, zero_mul]
    intro y hy
    obtain ⟨r, -, rfl⟩ := List.mem_map.1 hy
    rw [lambda_getD h]
    cases (L.pair.contactBasis L.x).toContactCoordinates r.1 r.2 <;> simp [hp]

/-- The potentials of friction. -/
def rubEnergy (S : Rubbing) (v : ℕ → V3 ℝ) (q : ℝ) : ℝ :=
  (S.frictions.map fun L => L.pair.frictionPotential L.params L.x v q).sum

theorem rubbing_energy (S : Rubbing) (x v : ℕ → V3 ℝ) (q : ℝ) :
    S.energy x v q = plus (S.toTouching.energy x v q) (some (rubEnergy S v q)) := by
  have hl : ∀ (l : List Lagged) (e : ℝ), l.foldl (fun e L => e + L.pair.frictionPotential L.params L.x v q) e =
      e + (l.map fun L => L.pair.frictionPotential L.params L.x v q).sum := by
    intro l
    induction l with
    | nil => simp
    | cons L l ih => intro e; rw [List.foldl_cons, ih, List.map_cons, List.sum_cons]; ring
  unfold Rubbing.energy plus rubEnergy
  cases S.toTouching.energy x v q with
  | none => rfl
  | some e => simp only [Option.map_some, Option.bind_some, hl]

open Classical in
/-- C123. The objective that the solver minimizes is the sum of those of the objects, also if there is
friction. -/
theorem friction_objective_apart {S A B : Rubbing} {s : Set ℕ} {x : ℕ → V3 ℝ}
    (h : RubbingSeparated S A B s x) (fm pm : ℝ) (prev v0 v : ℕ → V3 ℝ) (W : ℝ) :
    S.objective fm pm prev v0 x v = some W ↔
      ∃ WA WB, A.objective fm pm (glue s prev 0) v0 x v = some WA ∧
        B.objective fm pm (glue s 0 prev) v0 x v = some WB ∧ W = WA + WB := by
  obtain ⟨⟨between, hu, hb⟩, ⟨rubs, hr, hq⟩, hA, hB⟩ := h
  obtain ⟨d1, d2, d3, d4⟩ := dt_union hu
  have hi : S.inertia v0 v = A.inertia v0 v + B.inertia v0 v := by
    obtain ⟨h1, h2, h3⟩ := bodies_union hu
    unfold Problem.inertia inertiaEnergy
    rw [h1, h2, h3]
    simp only [List.map_append, List.sum_append]
    ring
  have hp : ∑ i ∈ Finset.range S.numVertices, V3.dot (prev i) (v i) =
      ∑ i ∈ Finset.range S.numVertices, V3.dot (glue s prev 0 i) (v i) +
        ∑ i ∈ Finset.range S.numVertices, V3.dot (glue s 0 prev i) (v i) := by
    rw [← Finset.sum_add_distrib]
    refine Finset.sum_congr rfl fun i _ => ?_
    unfold glue
    split_ifs <;> simp [V3.dot]
  have he : S.energy x v (S.dt * fm) = plus (A.energy x v (S.dt * fm)) (B.energy x v (S.dt * fm)) := by
    have hz : (rubs.map fun L => L.pair.frictionPotential L.params L.x v (S.dt * fm)).sum = 0 := by
      refine List.sum_eq_zero fun y hy => ?_
      obtain ⟨L, hL, rfl⟩ := List.mem_map.1 hy
      exact potential_idle (hq L hL).1 v _
    have hs : some (rubEnergy S v (S.dt * fm)) =
        plus (some (rubEnergy A v (S.dt * fm))) (some (rubEnergy B v (S.dt * fm))) := by
      unfold rubEnergy
      rw [hr]
      simp only [List.map_append, List.sum_append, hz, plus, Option.bind_some, Option.map_some, add_zero]
    rw [rubbing_energy, rubbing_energy, rubbing_energy, energy_apart hu hb, hs, plus_comm4]
  unfold Rubbing.objective
  simp only [d1, d2, d3, d4, hu.numVertices.1, hu.numVertices.2, he, hi, hp]
  generalize A.energy x v (S.dt * fm) = a
  generalize B.energy x v (S.dt * fm) = b
  cases a with
  | none => simp [plus]
  | some a =>
    cases b with
    | none => simp [plus]
    | some b =>
      simp only [plus, Option.bind_some, Option.map_some, Option.some.injEq, exists_eq_left', eq_comm (a := W),
        exists_and_left]
      refine Eq.congr_left ?_
      split_ifs <;> ring

/-! ## Linear system -/

/-- An entry of the matrix of the linear system with friction. `u` are the velocities for which its size
was determined. -/
def rubbingEntry (S : Rubbing) (x u v : ℕ → V3 ℝ) (q fmul : ℝ) (i j : ℕ) : ℝ :=
  Sparse.storedEntry ((S.jacobianIndices x u).zip (S.jacobianValues x u v q fmul)) (i, j)

/-- What the friction of a contact adds. -/
def rubEntry (S : Rubbing) (v : ℕ → V3 ℝ) (fmul : ℝ) (L : Lagged) (k : ℕ × ℕ) : ℝ :=
  Sparse.storedEntry ((S.entriesOf v L).map fun e => (e.1, fmul * 1 * e.2)) k

theorem rubbingEntry_eq {S : Rubbing} (hN : S.Within) (hD : S.toProblem.Distinct) (x u v : ℕ → V3 ℝ)
    (q fmul : ℝ) (i j : ℕ) : rubbingEntry S x u v q fmul i j =
      entry S.toTouching x v q fmul i j + (S.frictions.map fun L => rubEntry S v fmul L (i, j)).sum := by
  obtain ⟨-, -, -, h⟩ := S.jacobian_triplets hN hD x u v q fmul
  unfold rubbingEntry entry
  rw [h, Volume.storedEntry_append, stored_flatMap]
  rfl

theorem etaBlock_calm {L : Lagged} (h : Calm L) (v : ℕ → V3 ℝ) (k : ℕ) :
    L.pair.etaBlock L.params L.x v k = 0 := by
  have hj : ∀ u : V2 ℝ, Friction.jacobian u 0 L.params = ⟨0, 0, 0, 0⟩ := by
    intro u
    unfold Friction.jacobian
    cases L.params.profile <;> simp only [Friction.etaJac, h.2] <;> split_ifs <;> simp
  unfold Pair.etaBlock
  simp only [lambda_getD h.1, hj]
  rfl

theorem m3_zero_mul (a : M3 ℝ) : (0 : M3 ℝ) * a = 0 := by
  show M3.mul 0 a = 0
  ext <;> simp [M3.mul, M3.mulVec, M3.transpose, V3.dot]

theorem m3_mul_zero (a : M3 ℝ) : a * (0 : M3 ℝ) = 0 := by
  show M3.mul a 0 = 0
  ext <;> simp [M3.mul, M3.mulVec, M3.transpose, V3.dot]

theorem rub_zero_entries {L : Lagged} (h : Calm L) (S : Rubbing) (v : ℕ → V3 ℝ) :
    ∀ e ∈ S.entriesOf v L, e.2 = 0 := by
  intro e he
  unfold Rubbing.entriesOf Pair.frictionEntries at he
  split_ifs at he
  · simp at he
  · obtain ⟨b, hb, he⟩ := List.mem_flatMap.1 he
    have hz : b.val = 0 := by
      unfold Pair.frictionBlocks at hb
      obtain ⟨i, -, hb⟩ := List.mem_flatMap.1 (List.mem_filter.1 hb).1
      obtain ⟨j, -, rfl⟩ := List.mem_map.1 hb
      show L.pair.frictionBlock L.params L.x v S.numVertices i j = 0
      unfold Pair.frictionBlock
      have hs : ∀ l : List (M3 ℝ), (∀ y ∈ l, y = 0) → l.sum = 0 := by
        intro l
        induction l with
        | nil => intro; rfl
        | cons a l ih =>
          intro hl
          rw [List.sum_cons, ih fun y hy => hl y (List.mem_cons_of_mem _ hy), hl a List.mem_cons_self]
          ext <;> simp
      refine hs _ fun y hy => ?_
      obtain ⟨k, -, rfl⟩ := List.mem_map.1 hy
      rw [etaBlock_calm h, m3_zero_mul, m3_mul_zero, m3_mul_zero]
    unfold Pair.blockEntries at he
    simp only [List.mem_flatMap, List.mem_map] at he
    obtain ⟨r, -, c, -, rfl⟩ := he
    show b.val.at r c = 0
    rw [hz]
    fin_cases r <;> fin_cases c <;> rfl

theorem rub_inside {L : Lagged} {s : Set ℕ} (ho : ∀ j, L.pair.surf j ∈ s) (hc : ∀ i, L.pair.coll i ∈ s)
    (S : Rubbing) (v : ℕ → V3 ℝ) : ∀ e ∈ S.entriesOf v L, Inside s e.1 := by
  have ht : ∀ N i k, L.pair.touches L.x N i k → i ∈ s := by
    rintro N i k ⟨b, hb, rfl, -⟩
    unfold Pair.gradientBlocks at hb
    rcases List.mem_append.1 (List.mem_filter.1 hb).1 with hb | hb
    · obtain ⟨b', -, rfl⟩ := List.mem_map.1 hb
      exact ho _
    · obtain ⟨b', -, rfl⟩ := List.mem_map.1 hb
      exact hc _
  intro e he
  unfold Rubbing.entriesOf Pair.frictionEntries at he
  split_ifs at he
  · simp at he
  · obtain ⟨b, hb, he⟩ := List.mem_flatMap.1 he
    have hin : b.row ∈ s ∧ b.col ∈ s := by
      unfold Pair.frictionBlocks at hb
      obtain ⟨i, -, hb⟩ := List.mem_flatMap.1 (List.mem_filter.1 hb).1
      obtain ⟨j, hj, rfl⟩ := List.mem_map.1 hb
      have hj := (List.mem_filter.1 hj).2
      simp only [decide_eq_true_eq] at hj
      obtain ⟨k, h1, h2⟩ := hj
      exact ⟨ht _ _ _ h1, ht _ _ _ h2⟩
    unfold Pair.blockEntries at he
    simp only [List.mem_flatMap, List.mem_map] at he
    obtain ⟨r, -, c, -, rfl⟩ := he
    unfold Inside
    simp only [show (3 * b.row + r.val) / 3 = b.row by omega, show (3 * b.col + c.val) / 3 = b.col by omega]
    exact hin

theorem rubbingEntry_outside {S : Rubbing} {s : Set ℕ} (h : RubbingOnly S s) (hN : S.Within)
    (hD : S.toProblem.Distinct) (x u v : ℕ → V3 ℝ) (q fmul : ℝ) {i j : ℕ}
    (hk : ¬(i / 3 ∈ s ∧ j / 3 ∈ s)) : rubbingEntry S x u v q fmul i j = 0 := by
  rw [rubbingEntry_eq hN hD, entry_outside h.base hN.base hD x v q fmul hk, List.sum_eq_zero, add_zero]
  intro y hy
  obtain ⟨L, hL, rfl⟩ := List.mem_map.1 hy
  refine stored_outside (s := s) (fun e he => ?_) hk
  obtain ⟨e', he', rfl⟩ := List.mem_map.1 he
  exact rub_inside (h.object L hL) (h.collider L hL) S v e' he'

theorem rubbing_within {S A B : Rubbing} {s : Set ℕ} {x : ℕ → V3 ℝ} (h : RubbingSeparated S A B s x)
    (ha : A.numActive = S.numActive ∧ B.numActive = S.numActive) (hN : S.Within)
    (hD : S.toProblem.Distinct) :
    (A.Within ∧ B.Within) ∧ A.toProblem.Distinct ∧ B.toProblem.Distinct := by
  obtain ⟨⟨between, hu, -⟩, ⟨rubs, hr, -⟩, -, -⟩ := h
  obtain ⟨nA, nB⟩ := within_union hu ha hN.base
  refine ⟨⟨⟨nA, ?_, ?_⟩, ⟨nB, ?_, ?_⟩⟩, distinct_union hu hD⟩
  · rw [hu.numVertices.1]; exact fun L hL => hN.apart L (by rw [hr]; simp [hL])
  · exact fun L hL => hN.valid L (by rw [hr]; simp [hL])
  · rw [hu.numVertices.2]; exact fun L hL => hN.apart L (by rw [hr]; simp [hL])
  · exact fun L hL => hN.valid L (by rw [hr]; simp [hL])

open Classical in
/-- C123. With friction, too, the matrix of the linear system has the entries of the matrices of the
objects on their own, and none that couple them. -/
theorem friction_jacobian_apart {S A B : Rubbing} {s : Set ℕ} {x : ℕ → V3 ℝ}
    (h : RubbingSeparated S A B s x) (ha : A.numActive = S.numActive ∧ B.numActive = S.numActive)
    (hN : S.Within) (hD : S.toProblem.Distinct) (u v : ℕ → V3 ℝ) (q fmul : ℝ) (i j : ℕ) :
    rubbingEntry S x u v q fmul i j =
      if i / 3 ∈ s ∧ j / 3 ∈ s then rubbingEntry A x u v q fmul i j
      else if i / 3 ∉ s ∧ j / 3 ∉ s then rubbingEntry B x u v q fmul i j else 0 := by
  obtain ⟨⟨nA, nB⟩, dA, dB⟩ := rubbing_within h ha hN hD
  obtain ⟨⟨between, hu, hb⟩, ⟨rubs, hr, hq⟩, hA, hB⟩ := h
  have hsum : rubbingEntry S x u v q fmul i j =
      rubbingEntry A x u v q fmul i j + rubbingEntry B x u v q fmul i j := by
    have hz : (rubs.map fun L => rubEntry S v fmul L (i, j)).sum = 0 := by
      refine List.sum_eq_zero fun y hy => ?_
      obtain ⟨L, hL, rfl⟩ := List.mem_map.1 hy
      refine stored_off fun e he _ => ?_
      obtain ⟨e', he', rfl⟩ := List.mem_map.1 he
      show fmul * 1 * e'.2 = 0
      rw [rub_zero_entries (hq L hL) S v e' he', mul_zero]
    have cA : ∀ L, rubEntry A v fmul L = rubEntry S v fmul L := fun L => by
      unfold rubEntry Rubbing.entriesOf
      rw [hu.numVertices.1, ha.1]
    have cB : ∀ L, rubEntry B v fmul L = rubEntry S v fmul L := fun L => by
      unfold rubEntry Rubbing.entriesOf
      rw [hu.numVertices.2, ha.2]
    have he : entry S.toTouching x v q fmul i j =
        entry A.toTouching x v q fmul i j + entry B.toTouching x v q fmul i j := by
      rw [jacobian_apart ⟨⟨between, hu, hb⟩, hA.base, hB.base⟩ ha hN.base hD]
      split_ifs with h1 h2
      · rw [entry_outside hB.base nB.base dB x v q fmul (fun c => c.1 h1.1), add_zero]
      · rw [entry_outside hA.base nA.base dA x v q fmul h1, zero_add]
      · rw [entry_outside hA.base nA.base dA x v q fmul h1,
          entry_outside hB.base nB.base dB x v q fmul h2, zero_add]
    rw [rubbingEntry_eq hN hD, rubbingEntry_eq nA dA, rubbingEntry_eq nB dB, he, hr]
    simp only [List.map_append, List.sum_append, cA, cB, hz]
    ring
  rw [hsum]
  by_cases h1 : i / 3 ∈ s ∧ j / 3 ∈ s
  · rw [if_pos h1, rubbingEntry_outside hB nB dB x u v q fmul (fun c => c.1 h1.1), add_zero]
  · rw [if_neg h1, rubbingEntry_outside hA nA dA x u v q fmul h1, zero_add]
    by_cases h2 : i / 3 ∉ s ∧ j / 3 ∉ s
    · rw [if_pos h2]
    · rw [if_neg h2]
      exact rubbingEntry_outside hB nB dB x u v q fmul h2

/-! ## Viscous friction -/

/-- Viscous friction only. -/
def honey : Friction.Params := ⟨0, 0, 1, 0, 1 / 100, .quadratic⟩

theorem honey_level (a b : ℝ) :
    (ContactBasis.updateFromNormals [⟨0, 0, -1⟩]).contactFriction honey 0 ⟨a, b, 0⟩ 0 =
      some ((-1 : ℝ) • ⟨a, b, 0⟩) := by
  have ht : ContactBasis.tangentFor ⟨0, 0, -1⟩ = ⟨1, 0, 0⟩ := by
    unfold ContactBasis.tangentFor
    have e : (V3.iamax ⟨0, 0, -1⟩ + 1) % 3 = 0 := by
      norm_num [V3.iamax]
    simp only [e]
    ext <;> simp [V3.normalize, V3.norm, V3.dot, V3.axis, V3.getN]
  have hm : (ContactBasis.updateFromNormals [⟨0, 0, -1⟩]).contactBasisMatrix 0 =
      some (ContactBasis.frame ⟨0, 0, -1⟩ ⟨1, 0, 0⟩) := by
    rw [ContactBasis.matrix_of_lt (by simp)]
    simp [ht]
  have hc : (ContactBasis.frame ⟨0, 0, -1⟩ ⟨1, 0, 0⟩).mulVec ⟨a, b, 0⟩ = ⟨0, a, -b⟩ := by
    ext <;> simp [ContactBasis.frame, M3.mulVec, V3.dot, V3.cross]
  have hp : Friction.profile ⟨a, -b⟩ 0 honey = (⟨a, -b⟩ : V2 ℝ) := by
    unfold Friction.profile honey
    simp only [Friction.eta]
    ext <;> simp
  unfold ContactBasis.contactFriction ContactBasis.toContactCoordinates
    ContactBasis.fromContactCoordinates
  simp only [hm, Option.map_some, Option.bind_some, hc, hp]
  congr 1
  ext <;> simp [ContactBasis.frame, M3.mulVec, M3.transpose, V3.dot, V3.cross]

/-- **C123 (violated for viscous friction)** Viscous friction does not depend on the contact force, and so
acts between objects that do not touch: a surface that moves along drags a vertex at rest, which is half a
unit away from it, although the tolerance is a quarter of a unit and there is no contact force. -/
theorem viscous_violated : ∃ (C : Pair) (ns N : ℕ) (p : Friction.Params) (x v f : ℕ → V3 ℝ),
    C.Distinct ns N ∧ C.Flat x ∧ 0 < C.kappa ∧ 0 < C.delta ∧ p.Valid ∧ Idle x C ∧
      C.energy x = 0 ∧ (∀ g, C.subtractForce x g = g) ∧ v (C.coll 0) = 0 ∧
      C.frictionForce ns p x v = some f ∧ f (C.coll 0) = ⟨1, 0, 0⟩ := by
  have hflat := plate_flat (1 / 4) 1 ⟨1, 1, 1 / 2⟩ plate_near
  obtain ⟨n, hn⟩ := hflat ([0], 0) (by simp [plate_active])
  have hnv : n = ⟨0, 0, 1⟩ := by
    rw [← hn.normals 0 (by simp), plate_samples, plate_normal]
  subst hnv
  have hdist : (plate (1 / 4) 1).distance (plateX ⟨1, 1, 1 / 2⟩) ([0], 0) = 1 / 2 := by
    unfold Pair.distance
    rw [hn.potential 0 (1 / 2) fun i _ => by
      rw [plate_samples, plate_pos]
      show (0 : ℝ) + V3.dot ⟨0, 0, 1⟩ ((⟨1, 1, 1 / 2⟩ : V3 ℝ) - ⟨1, 1, 0⟩) = 1 / 2
      norm_num [V3.dot]]
    show (1 / 2 : ℝ) - 0 = 1 / 2
    norm_num
  have hidle : Idle (plateX ⟨1, 1, 1 / 2⟩) (plate (1 / 4) 1) := by
    intro d hd
    rw [Pair.distances_eq, plate_active, List.map_singleton, List.mem_singleton] at hd
    rw [hd, hdist]
    norm_num [plate]
  let v : ℕ → V3 ℝ := fun i => if i = 3 then 0 else ⟨1, 0, 0⟩
  have hp : (plate (1 / 4) 1).pushed (plateX ⟨1, 1, 1 / 2⟩) v ([0], 0) = ⟨1, 0, 0⟩ := by
    obtain ⟨w, hw, h1⟩ := hn.contactJacobian
    have h1 : w 0 = 1 := by simpa using h1
    unfold Pair.pushed
    simp only at hw ⊢
    rw [hw]
    simp only [Option.getD_some, List.map_cons, List.map_nil, List.zip_cons_cons, List.zip_nil_right,
      List.sum_cons, List.sum_nil, add_zero, h1]
    ext <;> simp [Pair.faceVelocity, plate, Field.demoTri, M3.mulVec, M3.diag, V3.dot, v]
    norm_num
  have hN : (plate (1 / 4) 1).contactNormals (plateX ⟨1, 1, 1 / 2⟩) = [⟨0, 0, -1⟩] := by
    have hg := hn.gradient (some ((plate (1 / 4) 1).closest 0))
    have hnorm : (⟨0, 0, 1⟩ : V3 ℝ).norm = 1 := by simp [V3.norm, V3.dot]
    simp only [Pair.contactNormals, Pair.queryBlocks, plate_active, List.map_cons, List.map_nil]
    rw [hg, Option.getD_some, hnorm, if_pos one_pos]
    congr 1
    ext <;> norm_num
  have hrel : (plate (1 / 4) 1).relativeVelocities (plateX ⟨1, 1, 1 / 2⟩) v = [⟨1, 0, 0⟩] := by
    rw [Pair.relativeVelocities_eq, plate_active, List.map_singleton, hp]
    congr 1
    show (⟨1, 0, 0⟩ : V3 ℝ) - v 3 = _
    simp [v]
  have hcf : (plate (1 / 4) 1).constraintFriction honey (plateX ⟨1, 1, 1 / 2⟩) v =
      [(-1 : ℝ) • ⟨1, 0, 0⟩] := by
    simp only [Pair.constraintFriction, hrel, Pair.contactBasis, hN, lambda_getD hidle, List.zipIdx_singleton,
      List.map_cons, List.map_nil, honey_level 1 0, Option.getD_some]
  refine ⟨plate (1 / 4) 1, 3, 4, honey, plateX ⟨1, 1, 1 / 2⟩, v,
    (plate (1 / 4) 1).transposeMul 3 (plateX ⟨1, 1, 1 / 2⟩)
      ((plate (1 / 4) 1).constraintFriction honey (plateX ⟨1, 1, 1 / 2⟩) v),
    plate_distinct _ _, hflat, ?_, ?_, ?_, hidle, (idle_contact hidle 0).1, fun g => (idle_contact hidle g).2,
    ?_, ?_, ?_⟩
  · norm_num [plate]
  · norm_num [plate]
  · constructor <;> norm_num [honey]
  · show v 3 = 0
    simp [v]
  · unfold Pair.frictionForce
    rw [if_neg (by norm_num [Friction.Params.isNone, honey])]
  · have := (plate (1 / 4) 1).transposeMul_collider (plate_distinct (1 / 4) 1) (plateX ⟨1, 1, 1 / 2⟩)
      ((plate (1 / 4) 1).constraintFriction honey (plateX ⟨1, 1, 1 / 2⟩) v) (([0], 0), 0)
      (by simp [plate_active])
    simp only at this
    rw [this, hcf]
    ext <;> simp

/-! ## The hypotheses are met -/

theorem exGap_idle : Idle demoX exGap := by
  intro d hd
  rw [Pair.distances_eq] at hd
  have ha : exGap.active = [([0], 1)] := rfl
  rw [ha, List.map_singleton, List.mem_singleton] at hd
  have he : exGap.distance demoX ([0], 1) = demo.distance demoX ([0], 1) := rfl
  rw [hd, he, demo_distance]
  norm_num [exGap]

theorem exGap_distinct : exGap.Distinct 3 8 := by
  have ha : exGap.active = [([0], 1)] := rfl
  constructor
  · intro p hp s hs j
    exact demo_distinct.corner p hp s hs j
  · intro i hi j hj e
    exact demo_distinct.surf_inj i hi j hj e
  · simp [ha]
  · intro i j
    simp only [exGap, demo]
    split <;> split <;> omega
  · intro j _
    show (if j < 3 then j else 0) < 8
    split <;> omega
  · intro p _
    show (if p.2 = 0 then 5 else 3) < 8
    split <;> omega

/-- Both objects of the example, with friction between them. -/
def exRub : Rubbing := { exBoth with frictions := [⟨exGap, demoX, 3, fullFriction⟩] }

example : RubbingSeparated exRub { exLeft with frictions := [] } { exRight with frictions := [] }
    {0, 1, 2, 4} demoX := by
  refine ⟨⟨[exGap], exSeparated.1, ?_⟩, ⟨[⟨exGap, demoX, 3, fullFriction⟩], rfl, ?_⟩, ?_, ?_⟩
  · intro C hC
    rw [List.mem_singleton.1 hC]
    exact exGap_idle
  · intro L hL
    rw [List.mem_singleton.1 hL]
    exact ⟨exGap_idle, rfl⟩
  · exact ⟨exSeparated.2.1, fun L hL => by simp at hL, fun L hL => by simp at hL⟩
  · exact ⟨exSeparated.2.2, fun L hL => by simp at hL, fun L hL => by simp at hL⟩

example : exRub.Within := by
  refine ⟨exWithin, fun L hL => ?_, fun L hL => ?_⟩
  · rw [List.mem_singleton.1 hL]
    exact exGap_distinct
  · rw [List.mem_singleton.1 hL]
    exact fullFriction_valid

end Softy.Apart
