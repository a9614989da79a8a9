import Verif.Props.ApartFriction
import Verif.Props.Gripping

/-!
# C123: any friction between objects that do not touch
-/

noncomputable section

namespace Softy.Apart

open Softy Assembly Fem Contact

/-! ## Specification -/

/-- The contact, and the positions for which its friction is computed: those at the end of the last step
if friction is lagged, otherwise the current ones. -/
def state (x : ℕ → V3 ℝ) : Grip → Lagged
  | .lagged L => L
  | .current F => ⟨F.pair, x, F.ns, F.params⟩

/-- All elements, zones, contacts and contacts with friction are made of vertices in `s`. -/
structure GripOnly (S : Gripping) (s : Set ℕ) : Prop where
  base : Only S.toTouching s
  object : ∀ G ∈ S.grips, ∀ x j, (state x G).pair.surf j ∈ s
  collider : ∀ G ∈ S.grips, ∀ x i, (state x G).pair.coll i ∈ s

/-- `A` is on the vertices in `s`, `B` on the others, and they do not touch at positions `x`, nor at the end
of the last step where friction is lagged. -/
structure GripSeparated (S A B : Gripping) (s : Set ℕ) (x : ℕ → V3 ℝ) : Prop where
  union : ∃ between, Union S.toTouching A.toTouching B.toTouching between ∧ ∀ C ∈ between, Idle x C
  grips : ∃ between, S.grips = A.grips ++ B.grips ++ between ∧ ∀ G ∈ between, Calm (state x G)
  left : GripOnly A s
  right : GripOnly B sᶜ

/-- An entry of the matrix of the linear system. `y` and `u` are the positions and velocities for which its
structure was determined. -/
def gripEntry (S : Gripping) (y u x v : ℕ → V3 ℝ) (q fmul : ℝ) (i j : ℕ) : ℝ :=
  Sparse.storedEntry ((S.jacobianIndices y u).zip
    (S.jacobianValues x v q fmul (S.jacobianIndices y u).length)) (i, j)

/-! ## Equations of motion -/

theorem separated_base {S A B : Gripping} {s : Set ℕ} {x : ℕ → V3 ℝ} (h : GripSeparated S A B s x) :
    Separated S.toTouching A.toTouching B.toTouching s x := ⟨h.union, h.left.base, h.right.base⟩

theorem subtract_state (G : Grip) (x v : ℕ → V3 ℝ) (i : ℕ) :
    G.subtract x v (fun _ => 0) i = rub (state x G) v i := by
  have := subtract_rub (state x G) v (fun _ => 0) i
  rw [zero_add] at this
  rw [← this]
  cases G <;> rfl

theorem grips_off {S : Gripping} {s : Set ℕ} (h : GripOnly S s) (x v : ℕ → V3 ℝ) {i : ℕ} (hi : i ∉ s) :
    S.frictionForce x v i = 0 := by
  unfold Gripping.frictionForce
  refine List.sum_eq_zero fun y hy => ?_
  obtain ⟨G, hG, rfl⟩ := List.mem_map.1 hy
  rw [subtract_state]
  exact rub_off (h.object G hG x) (h.collider G hG x) v hi

theorem grips_union {S A B : Gripping} {s : Set ℕ} {x : ℕ → V3 ℝ} (h : GripSeparated S A B s x)
    (v : ℕ → V3 ℝ) : S.frictionForce x v = glue s (A.frictionForce x v) (B.frictionForce x v) := by
  obtain ⟨-, ⟨between, hg, hq⟩, hA, hB⟩ := h
  funext i
  have hz : (between.map fun G => G.subtract x v (fun _ => 0) i).sum = 0 := by
    refine List.sum_eq_zero fun y hy => ?_
    obtain ⟨G, hG, rfl⟩ := List.mem_map.1 hy
    rw [subtract_state]
    exact rub_calm (hq G hG) v i
  have hs : S.frictionForce x v i = A.frictionForce x v i + B.frictionForce x v i := by
    unfold Gripping.frictionForce
    rw [hg]
    simp only [List.map_append, List.sum_append, hz, add_zero]
  rw [hs]
  unfold glue
  split_ifs with hi
  · rw [grips_off hB x v (fun hc => hc hi), add_zero]
  · rw [grips_off hA x v hi, zero_add]

theorem grip_residual_some (S : Gripping) (fm pm : ℝ) (prev v0 x v r f : ℕ → V3 ℝ) :
    S.residual fm pm prev v0 x v = some (r, f) ↔
      ∃ r' f', S.toTouching.residual fm pm prev v0 x v = some (r', f') ∧
        r = (fun i => r' i + (S.dt * fm) • S.frictionForce x v i) ∧
        f = fun i => f' i + S.frictionForce x v i := by
  constructor
  · intro h
    cases ht : S.toTouching.residual fm pm prev v0 x v with
    | none =>
      have hn : S.toTouching.force x v (S.dt * fm) = none := by
        unfold Touching.residual at ht
        simpa using ht
      simp [Gripping.residual, Gripping.force, hn] at h
    | some p =>
      obtain ⟨r', f'⟩ := p
      rw [S.residual_eq fm pm prev v0 x v r' f' ht, Option.some.injEq, Prod.mk.injEq] at h
      exact ⟨r', f', rfl, h.1.symm, h.2.symm⟩
  · rintro ⟨r', f', ht, rfl, rfl⟩
    exact S.residual_eq fm pm prev v0 x v r' f' ht

/-- C123. The equations that a step solves, and the forces, are for each object those of the object on
its own, whatever friction there is, if it is not viscous. -/
theorem grip_residual_apart {S A B : Gripping} {s : Set ℕ} {x : ℕ → V3 ℝ} (h : GripSeparated S A B s x)
    (fm pm : ℝ) (prev v0 v r f : ℕ → V3 ℝ) :
    S.residual fm pm prev v0 x v = some (r, f) ↔
      ∃ rA fA rB fB, A.residual fm pm prev v0 x v = some (rA, fA) ∧
        B.residual fm pm prev v0 x v = some (rB, fB) ∧ r = glue s rA rB ∧ f = glue s fA fB := by
  have hb := separated_base h
  have hg := grips_union h v
  obtain ⟨⟨between, hu, -⟩, -, -, -⟩ := h
  obtain ⟨d1, d2, -, -⟩ := dt_union hu
  have g1 : ∀ a b F H : ℕ → V3 ℝ, (fun i => glue s a b i + (S.dt * fm) • glue s F H i) =
      glue s (fun i => a i + (S.dt * fm) • F i) fun i => b i + (S.dt * fm) • H i := by
    intro a b F H
    funext i
    unfold glue
    split_ifs <;> rfl
  have g2 : ∀ a b F H : ℕ → V3 ℝ, (fun i => glue s a b i + glue s F H i) =
      glue s (fun i => a i + F i) fun i => b i + H i := by
    intro a b F H
    funext i
    unfold glue
    split_ifs <;> rfl
  constructor
  · intro e
    obtain ⟨r', f', e', rfl, rfl⟩ := (grip_residual_some _ _ _ _ _ _ _ _ _).1 e
    obtain ⟨rA, fA, rB, fB, eA, eB, rfl, rfl⟩ := (residual_apart hb fm pm prev v0 v r' f').1 e'
    refine ⟨_, _, _, _, (grip_residual_some _ _ _ _ _ _ _ _ _).2 ⟨rA, fA, eA, rfl, rfl⟩,
      (grip_residual_some _ _ _ _ _ _ _ _ _).2 ⟨rB, fB, eB, rfl, rfl⟩, ?_, ?_⟩
    · rw [hg, d1, d2, g1]
    · rw [hg, g2]
  · rintro ⟨rA, fA, rB, fB, eA, eB, rfl, rfl⟩
    obtain ⟨rA', fA', tA, rfl, rfl⟩ := (grip_residual_some _ _ _ _ _ _ _ _ _).1 eA
    obtain ⟨rB', fB', tB, rfl, rfl⟩ := (grip_residual_some _ _ _ _ _ _ _ _ _).1 eB
    refine (grip_residual_some _ _ _ _ _ _ _ _ _).2 ⟨_, _,
      (residual_apart hb fm pm prev v0 v _ _).2 ⟨rA', fA', rB', fB', tA, tB, rfl, rfl⟩, ?_, ?_⟩
    · rw [hg, d1, d2, g1]
    · rw [hg, g2]

theorem friction_state_local (C : Pair) (ns : ℕ) (p : Friction.Params) {s : Set ℕ} {x x' v v' : ℕ → V3 ℝ}
    (hx : ∀ i ∈ s, x i = x' i) (hv : ∀ i ∈ s, v i = v' i) (ho : ∀ j, C.surf j ∈ s)
    (hc : ∀ i, C.coll i ∈ s) : C.frictionForce ns p x v = C.frictionForce ns p x' v' := by
  have e1 : (fun j => x (C.surf j)) = fun j => x' (C.surf j) := funext fun j => hx _ (ho j)
  have e2 : C.samples x = C.samples x' := by unfold Pair.samples; rw [e1]
  have e3 : C.query x = C.query x' := funext fun i => hx _ (hc i)
  have e4 : C.lambda x = C.lambda x' := by
    unfold Pair.lambda Pair.distances Pair.potentials
    rw [e2, e3]
  have e5 : C.contactBlocks x = C.contactBlocks x' := by
    unfold Pair.contactBlocks
    rw [e2, e3]
  have e6 : C.contactBasis x = C.contactBasis x' := by
    unfold Pair.contactBasis Pair.contactNormals Pair.queryBlocks
    rw [e2, e3]
  have e7 : C.relativeVelocities x v = C.relativeVelocities x' v' := by
    rw [relative_local ho hc x hv]
    unfold Pair.relativeVelocities
    rw [e5]
  unfold Pair.frictionForce Pair.constraintFriction Pair.transposeMul
  rw [e4, e5, e6, e7]

/-- C123. With any friction, viscous or not, the equations of an object depend on nothing but the positions
and velocities of its own vertices. -/
theorem grip_residual_local {A : Gripping} {s : Set ℕ} (h : GripOnly A s) (fm pm : ℝ)
    {prev prev' v0 v0' x x' v v' : ℕ → V3 ℝ} (hp : ∀ i ∈ s, prev i = prev' i)
    (h0 : ∀ i ∈ s, v0 i = v0' i) (hx : ∀ i ∈ s, x i = x' i) (hv : ∀ i ∈ s, v i = v' i)
    {r f : ℕ → V3 ℝ} (hr : A.residual fm pm prev v0 x v = some (r, f)) :
    ∃ r' f', A.residual fm pm prev' v0' x' v' = some (r', f') ∧
      ∀ i ∈ s, r' i = r i ∧ f' i = f i := by
  obtain ⟨r1, f1, e1, rfl, rfl⟩ := (grip_residual_some _ _ _ _ _ _ _ _ _).1 hr
  obtain ⟨r2, f2, e2, h2⟩ := residual_local h.base fm pm hp h0 hx hv e1
  have hF : A.frictionForce x v = A.frictionForce x' v' := by
    funext i
    unfold Gripping.frictionForce
    congr 1
    refine List.map_congr_left fun G hG => ?_
    rw [subtract_state, subtract_state]
    unfold rub
    cases G with
    | lagged L =>
      exact congrArg (fun F : Option (ℕ → V3 ℝ) => -(F.getD 0 i)) (friction_state_local L.pair L.ns L.params
        (fun _ _ => rfl) hv (h.object _ hG x) (h.collider _ hG x))
    | current F =>
      exact congrArg (fun F : Option (ℕ → V3 ℝ) => -(F.getD 0 i)) (friction_state_local F.pair F.ns F.params
        hx hv (h.object _ hG x) (h.collider _ hG x))
  refine ⟨_, _, (grip_residual_some _ _ _ _ _ _ _ _ _).2 ⟨r2, f2, e2, rfl, rfl⟩, fun i hi => ⟨?_, ?_⟩⟩
  · show r2 i + _ = r1 i + _
    rw [(h2 i hi).1, hF]
  · show f2 i + _ = f1 i + _
    rw [(h2 i hi).2, hF]

/-- C123. With friction that is not viscous, too, velocities solve the step of the scene exactly if those of
each object solve the step of the object on its own. -/
theorem grip_steps_apart {S A B : Gripping} {s : Set ℕ} {x : ℕ → V3 ℝ} (h : GripSeparated S A B s x)
    (fm pm : ℝ) (prev v0 v : ℕ → V3 ℝ) :
    (∃ r f, S.residual fm pm prev v0 x v = some (r, f) ∧ ∀ i, r i = 0) ↔
      (∃ r f, A.residual fm pm prev v0 x v = some (r, f) ∧ ∀ i ∈ s, r i = 0) ∧
        ∃ r f, B.residual fm pm prev v0 x v = some (r, f) ∧ ∀ i ∉ s, r i = 0 := by
  constructor
  · rintro ⟨r, f, hr, hz⟩
    obtain ⟨rA, fA, rB, fB, e1, e2, rfl, rfl⟩ := (grip_residual_apart h fm pm prev v0 v r f).1 hr
    refine ⟨⟨rA, fA, e1, fun i hi => ?_⟩, rB, fB, e2, fun i hi => ?_⟩
    · have := hz i
      rwa [glue, if_pos hi] at this
    · have := hz i
      rwa [glue, if_neg hi] at this
  · rintro ⟨⟨rA, fA, e1, hA⟩, rB, fB, e2, hB⟩
    refine ⟨_, _, (grip_residual_apart h fm pm prev v0 v _ _).2 ⟨rA, fA, rB, fB, e1, e2, rfl, rfl⟩,
      fun i => ?_⟩
    unfold glue
    split_ifs with hi
    · exact hA i hi
    · exact hB i hi

/-! ## Linear system -/

theorem touches_inside {C : Pair} {s : Set ℕ} (ho : ∀ j, C.surf j ∈ s) (hc : ∀ i, C.coll i ∈ s)
    {x : ℕ → V3 ℝ} {N i k : ℕ} (h : C.touches x N i k) : i ∈ s := by
  obtain ⟨b, hb, rfl, -⟩ := h
  unfold Pair.gradientBlocks at hb
  rcases List.mem_append.1 (List.mem_filter.1 hb).1 with hb | hb
  · obtain ⟨b', -, rfl⟩ := List.mem_map.1 hb
    exact ho _
  · obtain ⟨b', -, rfl⟩ := List.mem_map.1 hb
    exact hc _

theorem frictionBlocks_inside {C : Pair} {s : Set ℕ} (ho : ∀ j, C.surf j ∈ s) (hc : ∀ i, C.coll i ∈ s)
    (p : Friction.Params) (x v : ℕ → V3 ℝ) (N : ℕ) :
    ∀ b ∈ C.frictionBlocks p x v N, b.row ∈ s ∧ b.col ∈ s := by
  intro b hb
  unfold Pair.frictionBlocks at hb
  obtain ⟨i, -, hb⟩ := List.mem_flatMap.1 hb
  obtain ⟨j, hj, rfl⟩ := List.mem_map.1 hb
  have hj := (List.mem_filter.1 hj).2
  simp only [decide_eq_true_eq] at hj
  obtain ⟨k, h1, h2⟩ := hj
  exact ⟨touches_inside ho hc h1, touches_inside ho hc h2⟩

theorem lambdaBlocks_inside {C : Pair} {s : Set ℕ} (ho : ∀ j, C.surf j ∈ s) (hc : ∀ i, C.coll i ∈ s)
    (p : Friction.Params) (x v : ℕ → V3 ℝ) (q : ℝ) (N n : ℕ) :
    ∀ b ∈ C.lambdaBlocks p x v q N n, b.row ∈ s ∧ b.col ∈ s := by
  intro b hb
  unfold Pair.lambdaBlocks at hb
  obtain ⟨i, -, hb⟩ := List.mem_flatMap.1 hb
  obtain ⟨j, hj, hb⟩ := List.mem_flatMap.1 hb
  obtain ⟨e, he, rfl⟩ := List.mem_map.1 hb
  have ht := (List.mem_filter.1 he).2
  simp only [decide_eq_true_eq] at ht
  exact ⟨touches_inside ho hc ht,
    rows_inside C x N (blocks_inside C x ho hc) j (List.mem_filter.1 hj).1⟩

theorem forceTriplets_inside {C : Pair} {s : Set ℕ} (ho : ∀ j, C.surf j ∈ s) (hc : ∀ i, C.coll i ∈ s)
    (x : ℕ → V3 ℝ) (m : ℕ → V3 ℝ) (n : ℕ) : ∀ b ∈ C.forceTriplets x m n, b.row ∈ s ∧ b.col ∈ s := by
  intro b hb
  unfold Pair.forceTriplets at hb
  rcases List.mem_append.1 (List.mem_filter.1 hb).1 with hb | hb
  · obtain ⟨p, -, hb⟩ := List.mem_flatMap.1 hb
    obtain ⟨b', -, rfl⟩ := List.mem_map.1 hb
    exact ⟨ho _, ho _⟩
  · obtain ⟨p, -, hb⟩ := List.mem_flatMap.1 hb
    obtain ⟨b', -, rfl⟩ := List.mem_map.1 hb
    exact ⟨ho _, hc _⟩

theorem velocityTriplets_inside {C : Pair} {s : Set ℕ} (ho : ∀ j, C.surf j ∈ s) (hc : ∀ i, C.coll i ∈ s)
    (x : ℕ → V3 ℝ) (m : ℕ → V3 ℝ) (n : ℕ) : ∀ b ∈ C.velocityTriplets x m n, b.row ∈ s := by
  intro b hb
  unfold Pair.velocityTriplets at hb
  rcases List.mem_append.1 (List.mem_filter.1 hb).1 with hb | hb
  · obtain ⟨p, -, hb⟩ := List.mem_flatMap.1 hb
    obtain ⟨b', -, rfl⟩ := List.mem_map.1 hb
    exact ho _
  · obtain ⟨p, -, hb⟩ := List.mem_flatMap.1 hb
    obtain ⟨b', -, rfl⟩ := List.mem_map.1 hb
    exact hc _

theorem basisTriplets_inside {C : Pair} {s : Set ℕ} (ho : ∀ j, C.surf j ∈ s) (hc : ∀ i, C.coll i ∈ s)
    (x : ℕ → V3 ℝ) (m : ℕ → V3 ℝ) (tr : Bool) (n : ℕ) : ∀ b ∈ C.basisTriplets x m tr n, b.col ∈ s := by
  intro b hb
  unfold Pair.basisTriplets Pair.basisJacobian at hb
  obtain ⟨e, he, rfl⟩ := List.mem_map.1 (List.mem_filter.1 hb).1
  show e.2.1 ∈ s
  unfold Pair.gradientJacobian at he
  rcases List.mem_append.1 he with he | he
  · obtain ⟨p, -, rfl⟩ := List.mem_map.1 he
    exact hc _
  · obtain ⟨p, -, he⟩ := List.mem_flatMap.1 he
    obtain ⟨b', -, rfl⟩ := List.mem_map.1 he
    exact ho _

theorem zipWith_mem {α β γ : Type} (g : α → β → γ) (l : List α) (l' : List β) :
    ∀ c ∈ List.zipWith g l l', ∃ a ∈ l, ∃ b ∈ l', c = g a b := by
  induction l generalizing l' with
  | nil => intro c hc; simp at hc
  | cons a l ih =>
    cases l' with
    | nil => intro c hc; simp at hc
    | cons b l' =>
      intro c hc
      rw [List.zipWith_cons_cons] at hc
      rcases List.mem_cons.1 hc with rfl | hc
      · exact ⟨a, List.mem_cons_self, b, List.mem_cons_self, rfl⟩
      · obtain ⟨a', ha, b', hb, e⟩ := ih l' c hc
        exact ⟨a', List.mem_cons_of_mem _ ha, b', List.mem_cons_of_mem _ hb, e⟩

theorem contactProduct_inside {C : Pair} {s : Set ℕ} (ho : ∀ j, C.surf j ∈ s) (hc : ∀ i, C.coll i ∈ s)
    (x : ℕ → V3 ℝ) (N : ℕ) (mid : ℕ → M3 ℝ) {T : List MBlock} (hT : ∀ b ∈ T, b.col ∈ s) :
    ∀ b ∈ C.contactProduct x N mid T, b.row ∈ s ∧ b.col ∈ s := by
  intro b hb
  unfold Pair.contactProduct at hb
  obtain ⟨i, -, hb⟩ := List.mem_flatMap.1 hb
  obtain ⟨j, hj, rfl⟩ := List.mem_map.1 hb
  have hj := (List.mem_filter.1 hj).2
  simp only [decide_eq_true_eq] at hj
  obtain ⟨k, h1, c, hcT, -, rfl⟩ := hj
  exact ⟨touches_inside ho hc h1, hT c hcT⟩

theorem scale_forall {P : Field.HBlock → Prop} {c : ℝ} {B : List Field.HBlock}
    (h : ∀ b ∈ B, P ⟨b.row, b.col, c • b.val⟩) : ∀ b ∈ Pair.scaleBlocks c B, P b := by
  intro b hb
  unfold Pair.scaleBlocks at hb
  obtain ⟨b', hb', rfl⟩ := List.mem_map.1 hb
  exact h b' hb'

theorem completeBlocks_inside {C : Pair} {s : Set ℕ} (ho : ∀ j, C.surf j ∈ s) (hc : ∀ i, C.coll i ∈ s)
    (p : Friction.Params) (x v : ℕ → V3 ℝ) (q : ℝ) (N n : ℕ) :
    ∀ b ∈ C.completeBlocks p x v q N n, b.row ∈ s ∧ b.col ∈ s := by
  intro b hb
  unfold Pair.completeBlocks at hb
  simp only [List.mem_append] at hb
  rcases hb with ((((hb | hb) | hb) | hb) | hb) | hb
  · exact lambdaBlocks_inside ho hc p x v q N n b hb
  · unfold Pair.blocksA Pair.jacContactGradient at hb
    obtain ⟨a, ha, c, -, rfl⟩ := zipWith_mem _ _ _ b hb
    exact forceTriplets_inside ho hc x _ N a ha
  · exact scale_forall (P := fun b => b.row ∈ s ∧ b.col ∈ s)
      (contactProduct_inside ho hc x N _ (basisTriplets_inside ho hc x _ _ n)) b hb
  · exact scale_forall (P := fun b => b.row ∈ s ∧ b.col ∈ s)
      (contactProduct_inside ho hc x N _ (basisTriplets_inside ho hc x _ _ n)) b hb
  · refine scale_forall (P := fun b => b.row ∈ s ∧ b.col ∈ s)
      (contactProduct_inside ho hc x N _ fun c hcm => ?_) b hb
    obtain ⟨d, hd, rfl⟩ := List.mem_map.1 hcm
    unfold Pair.jacContactJacobian at hd
    obtain ⟨a, ha, c, -, rfl⟩ := zipWith_mem _ _ _ d hd
    exact velocityTriplets_inside ho hc x _ N a ha
  · exact frictionBlocks_inside ho hc p x v N b hb

theorem blockEntries_inside {s : Set ℕ} {b : Field.HBlock} (h : b.row ∈ s ∧ b.col ∈ s) :
    ∀ e ∈ Pair.blockEntries b, Inside s e.1 := by
  intro e he
  unfold Pair.blockEntries at he
  simp only [List.mem_flatMap, List.mem_map] at he
  obtain ⟨r, -, c, -, rfl⟩ := he
  unfold Inside
  simp only [show (3 * b.row + r.val) / 3 = b.row by omega, show (3 * b.col + c.val) / 3 = b.col by omega]
  exact h

theorem grip_inside (G : Grip) {s : Set ℕ} (x v : ℕ → V3 ℝ) (ho : ∀ j, (state x G).pair.surf j ∈ s)
    (hc : ∀ i, (state x G).pair.coll i ∈ s) (q : ℝ) (N n : ℕ) :
    ∀ e ∈ G.entries x v q N n, Inside s e.1 := by
  intro e he
  cases G with
  | lagged L =>
    change e ∈ L.pair.frictionEntries L.params L.x v N n at he
    unfold Pair.frictionEntries at he
    split_ifs at he
    · simp at he
    · obtain ⟨b, hb, he⟩ := List.mem_flatMap.1 he
      exact blockEntries_inside (frictionBlocks_inside ho hc _ _ _ _ b (List.mem_filter.1 hb).1) e he
  | current F =>
    change e ∈ F.pair.currentEntries F.params F.incomplete x v q N n at he
    unfold Pair.currentEntries at he
    split_ifs at he with h1 h2
    · simp at he
    · obtain ⟨b, hb, he⟩ := List.mem_flatMap.1 he
      refine blockEntries_inside ?_ e he
      unfold Pair.incompleteBlocks at hb
      rcases List.mem_append.1 (List.mem_filter.1 hb).1 with hb | hb
      · exact lambdaBlocks_inside ho hc _ _ _ _ _ _ b hb
      · exact frictionBlocks_inside ho hc _ _ _ _ b hb
    · obtain ⟨b, hb, he⟩ := List.mem_flatMap.1 he
      exact blockEntries_inside (completeBlocks_inside ho hc _ _ _ _ _ _ b (List.mem_filter.1 hb).1) e he

/-! ## Contacts that do not touch -/

theorem m3_sum_zero (l : List (M3 ℝ)) (h : ∀ y ∈ l, y = 0) : l.sum = 0 := by
  induction l with
  | nil => rfl
  | cons a l ih =>
    rw [List.sum_cons, ih fun y hy => h y (List.mem_cons_of_mem _ hy), h a List.mem_cons_self]
    ext <;> simp

theorem frictionBlocks_calm {L : Lagged} (h : Calm L) (v : ℕ → V3 ℝ) (N : ℕ) :
    ∀ b ∈ L.pair.frictionBlocks L.params L.x v N, b.val = 0 := by
  intro b hb
  unfold Pair.frictionBlocks at hb
  obtain ⟨i, -, hb⟩ := List.mem_flatMap.1 hb
  obtain ⟨j, -, rfl⟩ := List.mem_map.1 hb
  refine m3_sum_zero _ fun y hy => ?_
  obtain ⟨k, -, rfl⟩ := List.mem_map.1 hy
  rw [etaBlock_calm h, m3_zero_mul, m3_mul_zero, m3_mul_zero]

theorem coordinates_calm {L : Lagged} (h : Calm L) (v : ℕ → V3 ℝ) (k : ℕ) :
    L.pair.frictionCoordinates L.params L.x v ((L.pair.lambda L.x).getD k 0) k = 0 := by
  unfold Pair.frictionCoordinates
  rw [lambda_getD h.1]
  simp only [profile_calm _ h.2]
  rfl

theorem lambdaBlocks_calm {L : Lagged} (h : Calm L) (v : ℕ → V3 ℝ) (q : ℝ) (N n : ℕ) :
    ∀ b ∈ L.pair.lambdaBlocks L.params L.x v q N n, b.val = 0 := by
  intro b hb
  unfold Pair.lambdaBlocks at hb
  obtain ⟨i, -, hb⟩ := List.mem_flatMap.1 hb
  obtain ⟨j, -, hb⟩ := List.mem_flatMap.1 hb
  obtain ⟨e, he, rfl⟩ := List.mem_map.1 hb
  have hlt : e.1.2 < L.pair.active.length := by
    have he := (List.mem_filter.1 he).1
    unfold Pair.gradientRow at he
    have he := (List.mem_filter.1 he).1
    unfold Pair.gradient at he
    obtain ⟨e', he', hk⟩ := (Sparse.pruneSum_mem_key _ e.1).1 ⟨e, he, rfl⟩
    have := (List.mem_filter.1 he').2
    simp only [Bool.and_eq_true, decide_eq_true_eq] at this
    rw [← hk]
    exact this.2
  have hd : L.pair.delta ≤ (L.pair.distances L.x).getD e.1.2 0 := by
    have hlen : (L.pair.distances L.x).length = L.pair.active.length := by
      rw [L.pair.distances_eq, List.length_map]
    rw [List.getD_eq_getElem _ _ (hlen ▸ hlt)]
    exact h.1 _ (List.getElem_mem _)
  have hz : ContactPenalty.ddb L.pair.delta ((L.pair.distances L.x).getD e.1.2 0) = 0 := by
    unfold ContactPenalty.ddb
    simp only
    rw [if_neg (by linarith)]
  have ho : ∀ a : V3 ℝ, M3.outer a 0 = 0 := fun a => by ext <;> simp [M3.outer]
  show _ * M3.outer _ ((-q * L.pair.kappa * ContactPenalty.ddb L.pair.delta
    ((L.pair.distances L.x).getD e.1.2 0)) • e.2) = 0
  rw [hz, mul_zero, zero_smul, ho, m3_mul_zero]

theorem forceTriplets_zero (C : Pair) (x : ℕ → V3 ℝ) (n : ℕ) :
    ∀ b ∈ C.forceTriplets x (fun _ => 0) n, b.val = 0 := by
  have ht : M3.transpose (0 : M3 ℝ) = 0 := rfl
  intro b hb
  unfold Pair.forceTriplets at hb
  rcases List.mem_append.1 (List.mem_filter.1 hb).1 with hb | hb
  · obtain ⟨p, -, hb⟩ := List.mem_flatMap.1 hb
    obtain ⟨b', hb', rfl⟩ := List.mem_map.1 hb
    show b'.val.transpose = 0
    rw [Pair.force_zero b' hb', ht]
  · obtain ⟨p, -, hb⟩ := List.mem_flatMap.1 hb
    obtain ⟨b', hb', rfl⟩ := List.mem_map.1 hb
    show b'.2.transpose = 0
    rw [Pair.queryForce_zero b' hb', ht]

theorem basisTriplets_zero (C : Pair) (x : ℕ → V3 ℝ) (n : ℕ) :
    ∀ b ∈ C.basisTriplets x (fun _ => 0) false n, b.val = 0 := by
  intro b hb
  unfold Pair.basisTriplets Pair.basisJacobian at hb
  obtain ⟨e, -, rfl⟩ := List.mem_map.1 (List.mem_filter.1 hb).1
  unfold basisJacobianProduct
  simp only [Bool.false_eq_true, if_false]
  show (0 : ℝ) • _ + (0 : ℝ) • _ + (0 : ℝ) • _ = (0 : M3 ℝ)
  rw [m3_zero_smul, m3_zero_smul, m3_zero_smul]
  ext <;> simp

theorem product_zero (C : Pair) (x : ℕ → V3 ℝ) (N : ℕ) {mid : ℕ → M3 ℝ} {T : List MBlock}
    (h : (∀ k, mid k = 0) ∨ ∀ b ∈ T, b.val = 0) : ∀ b ∈ C.contactProduct x N mid T, b.val = 0 := by
  intro b hb
  unfold Pair.contactProduct at hb
  obtain ⟨i, -, hb⟩ := List.mem_flatMap.1 hb
  obtain ⟨j, -, rfl⟩ := List.mem_map.1 hb
  refine m3_sum_zero _ fun y hy => ?_
  obtain ⟨k, -, rfl⟩ := List.mem_map.1 hy
  rcases h with h | h
  · rw [h, m3_zero_mul, m3_mul_zero]
  · have : Pair.blockAt T k j = 0 := by
      unfold Pair.blockAt
      refine m3_sum_zero _ fun y hy => ?_
      obtain ⟨b, hb, rfl⟩ := List.mem_map.1 hy
      exact h b (List.mem_filter.1 hb).1
    rw [this, m3_mul_zero, m3_mul_zero]

theorem completeBlocks_calm {L : Lagged} (h : Calm L) (v : ℕ → V3 ℝ) (q : ℝ) (N n : ℕ) :
    ∀ b ∈ L.pair.completeBlocks L.params L.x v q N n, b.val = 0 := by
  have hsm : ∀ c : ℝ, c • (0 : M3 ℝ) = 0 := fun c => by ext <;> simp
  have hsc : ∀ {B : List Field.HBlock}, (∀ b ∈ B, b.val = 0) → ∀ b ∈ Pair.scaleBlocks q B, b.val = 0 := by
    intro B hB
    refine scale_forall (P := fun b => b.val = 0) fun b hb => ?_
    show q • b.val = 0
    rw [hB b hb, hsm]
  intro b hb
  unfold Pair.completeBlocks at hb
  simp only [List.mem_append] at hb
  rcases hb with ((((hb | hb) | hb) | hb) | hb) | hb
  · exact lambdaBlocks_calm h v q N n b hb
  · have hf : L.pair.physicalFriction L.params L.x v q = fun _ => 0 := by
      funext k
      unfold Pair.physicalFriction
      rw [coordinates_calm h]
      unfold ContactBasis.fromContactCoordinates
      cases (L.pair.contactBasis L.x).contactBasisMatrix k with
      | none => simp
      | some m => ext <;> simp [M3.mulVec, V3.dot]
    unfold Pair.blocksA Pair.jacContactGradient at hb
    rw [hf] at hb
    obtain ⟨a, -, c, hc, rfl⟩ := zipWith_mem _ _ _ b hb
    exact forceTriplets_zero _ _ _ c hc
  · refine hsc (product_zero _ _ _ (Or.inr ?_)) b hb
    have hf : (fun k => L.pair.frictionCoordinates L.params L.x v ((L.pair.lambda L.x).getD k 0) k) =
        fun _ => 0 := funext fun k => coordinates_calm h v k
    rw [hf]
    exact basisTriplets_zero _ _ _
  · exact hsc (product_zero _ _ _ (Or.inl fun k => by rw [etaBlock_calm h, m3_mul_zero])) b hb
  · exact hsc (product_zero _ _ _ (Or.inl fun k => by
      rw [etaBlock_calm h, m3_zero_mul, m3_mul_zero])) b hb
  · exact frictionBlocks_calm h v N b hb

theorem blockEntries_zero {b : Field.HBlock} (h : b.val = 0) : ∀ e ∈ Pair.blockEntries b, e.2 = 0 := by
  intro e he
  unfold Pair.blockEntries at he
  simp only [List.mem_flatMap, List.mem_map] at he
  obtain ⟨r, -, c, -, rfl⟩ := he
  show b.val.at r c = 0
  rw [h]
  fin_cases r <;> fin_cases c <;> rfl

theorem grip_zero_entries (G : Grip) (x v : ℕ → V3 ℝ) (h : Calm (state x G)) (q : ℝ) (N n : ℕ) :
    ∀ e ∈ G.entries x v q N n, e.2 = 0 := by
  intro e he
  cases G with
  | lagged L =>
    change e ∈ L.pair.frictionEntries L.params L.x v N n at he
    unfold Pair.frictionEntries at he
    split_ifs at he
    · simp at he
    · obtain ⟨b, hb, he⟩ := List.mem_flatMap.1 he
      exact blockEntries_zero (frictionBlocks_calm h v N b (List.mem_filter.1 hb).1) e he
  | current F =>
    change e ∈ F.pair.currentEntries F.params F.incomplete x v q N n at he
    unfold Pair.currentEntries at he
    split_ifs at he with h1 h2
    · simp at he
    · obtain ⟨b, hb, he⟩ := List.mem_flatMap.1 he
      refine blockEntries_zero ?_ e he
      unfold Pair.incompleteBlocks at hb
      rcases List.mem_append.1 (List.mem_filter.1 hb).1 with hb | hb
      · exact lambdaBlocks_calm h v q N n b hb
      · exact frictionBlocks_calm h v N b hb
    · obtain ⟨b, hb, he⟩ := List.mem_flatMap.1 he
      exact blockEntries_zero (completeBlocks_calm h v q N n b (List.mem_filter.1 hb).1) e he

/-- What the friction of a contact adds. -/
def gripAdds (S : Gripping) (x v : ℕ → V3 ℝ) (q fmul : ℝ) (k : ℕ × ℕ) (G : Grip) : ℝ :=
  Sparse.storedEntry ((S.entriesOf x v q G).map fun e => (e.1, fmul * 1 * e.2)) k

theorem gripEntry_eq {S : Gripping} (hN : S.Within) (hD : S.toProblem.Distinct) (y u x v : ℕ → V3 ℝ)
    (q fmul : ℝ) (i j : ℕ) : gripEntry S y u x v q fmul i j =
      entry S.toTouching x v q fmul i j + (S.grips.map (gripAdds S x v q fmul (i, j))).sum := by
  obtain ⟨-, -, -, h⟩ := S.jacobian_triplets hN hD x y u v q fmul
  unfold gripEntry entry
  rw [h, Volume.storedEntry_append, stored_flatMap]
  rfl

theorem gripEntry_outside {S : Gripping} {s : Set ℕ} (h : GripOnly S s) (hN : S.Within)
    (hD : S.toProblem.Distinct) (y u x v : ℕ → V3 ℝ) (q fmul : ℝ) {i j : ℕ}
    (hk : ¬(i / 3 ∈ s ∧ j / 3 ∈ s)) : gripEntry S y u x v q fmul i j = 0 := by
  rw [gripEntry_eq hN hD, entry_outside h.base hN.base hD x v q fmul hk, List.sum_eq_zero, add_zero]
  intro z hz
  obtain ⟨G, hG, rfl⟩ := List.mem_map.1 hz
  refine stored_outside (s := s) (fun e he => ?_) hk
  obtain ⟨e', he', rfl⟩ := List.mem_map.1 he
  exact grip_inside G x v (h.object G hG x) (h.collider G hG x) q _ _ e' he'

open Classical in
/-- C123. With any friction that is not viscous, the matrix of the linear system has the entries of the
matrices of the objects on their own, and none that couple them. -/
theorem grip_jacobian_apart {S A B : Gripping} {s : Set ℕ} {x : ℕ → V3 ℝ} (h : GripSeparated S A B s x)
    (ha : A.numActive = S.numActive ∧ B.numActive = S.numActive) (hN : S.Within) (nA : A.Within)
    (nB : B.Within) (hD : S.toProblem.Distinct) (y u v : ℕ → V3 ℝ) (q fmul : ℝ) (i j : ℕ) :
    gripEntry S y u x v q fmul i j =
      if i / 3 ∈ s ∧ j / 3 ∈ s then gripEntry A y u x v q fmul i j
      else if i / 3 ∉ s ∧ j / 3 ∉ s then gripEntry B y u x v q fmul i j else 0 := by
  have hbase := separated_base h
  obtain ⟨⟨between, hu, hb⟩, ⟨rubs, hr, hq⟩, hA, hB⟩ := h
  obtain ⟨dA, dB⟩ := distinct_union hu hD
  have hsum : gripEntry S y u x v q fmul i j =
      gripEntry A y u x v q fmul i j + gripEntry B y u x v q fmul i j := by
    have hz : (rubs.map (gripAdds S x v q fmul (i, j))).sum = 0 := by
      refine List.sum_eq_zero fun z hz => ?_
      obtain ⟨G, hG, rfl⟩ := List.mem_map.1 hz
      refine stored_off fun e he _ => ?_
      obtain ⟨e', he', rfl⟩ := List.mem_map.1 he
      show fmul * 1 * e'.2 = 0
      rw [grip_zero_entries G x v (hq G hG) q _ _ e' he', mul_zero]
    have cA : gripAdds A x v q fmul (i, j) = gripAdds S x v q fmul (i, j) := by
      funext G
      unfold gripAdds Gripping.entriesOf
      rw [hu.numVertices.1, ha.1]
    have cB : gripAdds B x v q fmul (i, j) = gripAdds S x v q fmul (i, j) := by
      funext G
      unfold gripAdds Gripping.entriesOf
      rw [hu.numVertices.2, ha.2]
    have he : entry S.toTouching x v q fmul i j =
        entry A.toTouching x v q fmul i j + entry B.toTouching x v q fmul i j := by
      rw [jacobian_apart hbase ha hN.base hD]
      split_ifs with h1 h2
      · rw [entry_outside hB.base nB.base dB x v q fmul (fun c => c.1 h1.1), add_zero]
      · rw [entry_outside hA.base nA.base dA x v q fmul h1, zero_add]
      · rw [entry_outside hA.base nA.base dA x v q fmul h1,
          entry_outside hB.base nB.base dB x v q fmul h2, zero_add]
    rw [gripEntry_eq hN hD, gripEntry_eq nA dA, gripEntry_eq nB dB, he, hr, cA, cB]
    simp only [List.map_append, List.sum_append, hz]
    ring
  rw [hsum]
  by_cases h1 : i / 3 ∈ s ∧ j / 3 ∈ s
  · rw [if_pos h1, gripEntry_outside hB nB dB y u x v q fmul (fun c => c.1 h1.1), add_zero]
  · rw [if_neg h1, gripEntry_outside hA nA dA y u x v q fmul h1, zero_add]
    by_cases h2 : i / 3 ∉ s ∧ j / 3 ∉ s
    · rw [if_pos h2]
    · rw [if_neg h2]
      exact gripEntry_outside hB nB dB y u x v q fmul h2

/-! ## The hypotheses are met -/

/-- Both objects of the example, with friction of both kinds between them. -/
def exGrips : Gripping :=
  { exBoth with grips := [.current ⟨exGap, 3, fullFriction, false⟩, .lagged ⟨exGap, demoX, 3, fullFriction⟩] }

example : GripSeparated exGrips { exLeft with grips := [] } { exRight with grips := [] }
    {0, 1, 2, 4} demoX := by
  refine ⟨⟨[exGap], exSeparated.1, ?_⟩, ⟨exGrips.grips, rfl, ?_⟩, ?_, ?_⟩
  · intro C hC
    rw [List.mem_singleton.1 hC]
    exact exGap_idle
  · intro G hG
    simp only [exGrips, List.mem_cons, List.not_mem_nil, or_false] at hG
    rcases hG with rfl | rfl <;> exact ⟨exGap_idle, rfl⟩
  · exact ⟨exSeparated.2.1, fun L hL => by simp at hL, fun L hL => by simp at hL⟩
  · exact ⟨exSeparated.2.2, fun L hL => by simp at hL, fun L hL => by simp at hL⟩

example : exGrips.Within := by
  refine ⟨exWithin, fun L hL => ?_, fun F hF => ?_⟩
  · have : L = ⟨exGap, demoX, 3, fullFriction⟩ := by simpa [exGrips] using hL
    rw [this]
    exact ⟨exGap_distinct, fullFriction_valid⟩
  · have : F = ⟨exGap, 3, fullFriction, false⟩ := by simpa [exGrips] using hF
    rw [this]
    exact ⟨by simp [exGrips, exBoth], exGap_distinct, fullFriction_valid⟩

end Softy.Apart
