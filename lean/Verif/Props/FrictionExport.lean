import Verif.Model.FrictionExport
import Verif.Props.Export
import Verif.Props.Sliding

/-!
# Friction forces of the mesh

Property C80: the friction forces that the mesh shows are those of the state that it shows, they do not
change when the mesh is read again, and they never add energy to the motion that it shows.
-/

noncomputable section

namespace Softy.Export

open Softy Softy.Contact Softy.Field

/-- Specification: the friction that acts on vertex `i` if the objects of all contacts are at `x` and move
with velocities `v`. -/
def trueFriction (es : List FrictionEntry) (x v : ℕ → V3 ℝ) (i : ℕ) : V3 ℝ :=
  (es.map fun e => (e.pair.frictionForce e.ns e.params x v).elim 0 fun f => f i).sum

/-- Specification: the power of forces that are reported, with the velocities that are reported. -/
def reportedPower (friction vel : List (V3 ℝ)) : ℝ :=
  (List.zipWith V3.dot friction vel).sum

/-- The force of one contact as it is reported. -/
def FrictionEntry.force (e : FrictionEntry) (v : ℕ → V3 ℝ) (i : ℕ) : V3 ℝ :=
  (if e.lagged then mixedForce e.pair e.ns e.params e.prevBasisPos e.prevForcePos v
    else mixedForce e.pair e.ns e.params e.basisPos e.forcePos v).elim 0 fun f => f i

theorem subtract_eq (e : FrictionEntry) (v f : ℕ → V3 ℝ) (i : ℕ) :
    e.subtract v f i = f i - e.force v i := by
  unfold FrictionEntry.subtract FrictionEntry.force
  generalize (if e.lagged then mixedForce e.pair e.ns e.params e.prevBasisPos e.prevForcePos v
    else mixedForce e.pair e.ns e.params e.basisPos e.forcePos v) = o
  cases o with
  | none => simp
  | some g => rfl

theorem foldl_subtract (es : List FrictionEntry) (v f : ℕ → V3 ℝ) (i : ℕ) :
    es.foldl (fun f e => e.subtract v f) f i = f i - (es.map fun e => e.force v i).sum := by
  induction es generalizing f with
  | nil => simp
  | cons e es ih =>
    rw [List.foldl_cons, ih, subtract_eq, List.map_cons, List.sum_cons]
    abel

theorem mixed_same (C : Pair) (ns : ℕ) (p : Friction.Params) (x v : ℕ → V3 ℝ) :
    mixedForce C ns p x x v = C.frictionForce ns p x v := rfl

/-- The friction that is reported at each vertex. -/
theorem read_reported {s : FrictionState} {n : ℕ} (h : Proper s.base n) (i : ℕ) (hi : i < n) :
    ReportedAt s.base (readFriction s).1 i
      ((s.entries.map fun e => (e.updateForce (at' s.base.pos)).force (at' s.base.vel) i).sum) := by
  have hlen : s.base.orig.length = n := by rw [h.orig.length_eq, List.length_range]
  refine scatter_reported h _ _ (by rw [List.length_map, List.length_range, hlen]) i _ ?_
  rw [List.getElem?_map, List.getElem?_range (hlen.symm ▸ hi)]
  simp only [Option.map_some, foldl_subtract, List.map_map, Function.comp_def, zero_sub, neg_neg]

/-- Applies a sequence of operations. -/
def FrictionState.run (s : FrictionState) (ops : List FrictionOp) : FrictionState :=
  ops.foldl FrictionState.step s

/-! ## Friction belongs to the state that is shown -/

/-- Reads leave alone what later reads see. -/
theorem read_keeps (s : FrictionState) :
    (s.step .read).base.pos = s.base.pos ∧ (s.step .read).base.vel = s.base.vel ∧
      (s.step .read).base.orig = s.base.orig := ⟨rfl, rfl, rfl⟩

/-- C80: reading out the mesh again gives the same friction. -/
theorem friction_repeat (s : FrictionState) : (readFriction (s.step .read)).1 = (readFriction s).1 := by
  show scatter _ _ _ _ = scatter _ _ _ _
  simp only [FrictionState.step, readFriction, mesh, List.map_map]
  rfl

/-- Specification: the current part of a contact belongs to positions `x`, as far as it has any. -/
def Fresh (x : ℕ → V3 ℝ) (e : FrictionEntry) : Prop := ¬ e.params.isNone → e.basisPos = x

open Classical in
theorem updateBasis_fresh (e : FrictionEntry) (x : ℕ → V3 ℝ) : Fresh x (e.updateBasis x) := by
  unfold Fresh FrictionEntry.updateBasis
  split
  · intro h; contradiction
  · intro _; rfl

theorem updateBasis_data (e : FrictionEntry) (x : ℕ → V3 ℝ) :
    (e.updateBasis x).pair = e.pair ∧ (e.updateBasis x).ns = e.ns ∧ (e.updateBasis x).params = e.params ∧
      (e.updateBasis x).lagged = e.lagged ∧ (e.updateBasis x).forcePos = e.forcePos ∧
      (e.updateBasis x).prevBasisPos = e.prevBasisPos ∧ (e.updateBasis x).prevForcePos = e.prevForcePos := by
  unfold FrictionEntry.updateBasis
  split <;> simp

theorem fresh_force (e : FrictionEntry) (x v : ℕ → V3 ℝ) (i : ℕ) (hl : e.lagged = false)
    (hf : Fresh x e) (hx : e.forcePos = x) :
    e.force v i = (e.pair.frictionForce e.ns e.params x v).elim 0 fun f => f i := by
  unfold FrictionEntry.force
  rw [hl, if_neg (by simp)]
  unfold mixedForce Pair.frictionForce
  split
  · rfl
  · rename_i hn
    rw [hf hn, hx]
    rfl

theorem reads_keep (s : FrictionState) (k : ℕ) :
    (s.run (List.replicate k .read)).base.pos = s.base.pos ∧
      (s.run (List.replicate k .read)).base.vel = s.base.vel ∧
      (s.run (List.replicate k .read)).base.orig = s.base.orig ∧
      (readFriction (s.run (List.replicate k .read))).1 = (readFriction s).1 := by
  induction k generalizing s with
  | zero => exact ⟨rfl, rfl, rfl, rfl⟩
  | succ k ih =>
    have := ih (s.step .read)
    rw [friction_repeat] at this
    exact this

/-- C80, after the solver has evaluated the state that is shown: whatever happened before, the mesh shows
the friction at the positions and velocities that it shows, however often it is read.
Missing: fixed vertices that were moved after the solver has evaluated the state
(`friction_stale_violated`). -/
theorem friction_reported_partial (s : FrictionState) (ops : List FrictionOp) (pos vel : List (V3 ℝ)) (k n : ℕ)
    (hl : ∀ e ∈ (s.run ops).entries, e.lagged = false)
    (h : Proper ((s.run ops).step (.evaluate pos vel)).base n) :
    let t := (s.run (ops ++ [.evaluate pos vel] ++ List.replicate k .read))
    ∀ i < n, ReportedAt t.base (mesh t.base).1.pos i (pos.getD i 0) ∧
      ReportedAt t.base (mesh t.base).1.vel i (vel.getD i 0) ∧
      ReportedAt t.base (readFriction t).1 i
        (trueFriction (s.run ops).entries (at' pos) (at' vel) i) := by
  intro t i hi
  set u := (s.run ops).step (.evaluate pos vel) with hu
  have ht : t = u.run (List.replicate k .read) := by
    simp [t, u, FrictionState.run, List.foldl_append]
  obtain ⟨h1, h2, h3, h4⟩ := reads_keep u k
  rw [← ht] at h1 h2 h3 h4
  have key : ∀ {α : Type} (out : List α) (a : α), ReportedAt u.base out i a → ReportedAt t.base out i a := by
    intro α out a ha
    unfold ReportedAt
    rw [h3]
    exact ha
  have hp := (mesh_attributes h i).1 (pos.getD i 0) (by
    show pos[i]? = _
    have hl : i < pos.length := by
      have := h.pos
      change pos.length = n at this
      omega
    rw [List.getD_eq_getElem _ _ hl, List.getElem?_eq_getElem hl])
  have hv := (mesh_attributes h i).2.1 (vel.getD i 0) (by
    show vel[i]? = _
    have hl : i < vel.length := by
      have := h.vel
      change vel.length = n at this
      omega
    rw [List.getD_eq_getElem _ _ hl, List.getElem?_eq_getElem hl])
  refine ⟨?_, ?_, ?_⟩
  · have e : (mesh t.base).1.pos = (mesh u.base).1.pos := by
      show scatter _ _ _ _ = scatter _ _ _ _
      rw [h1, h3]
    rw [e]
    exact key _ _ hp
  · have e : (mesh t.base).1.vel = (mesh u.base).1.vel := by
      show scatter _ _ _ _ = scatter _ _ _ _
      rw [h2, h3]
    rw [e]
    exact key _ _ hv
  · rw [h4]
    refine key _ _ ?_
    have := read_reported h i hi
    convert this using 1
    unfold trueFriction
    show _ = (List.map _ (List.map _ _)).sum
    rw [List.map_map]
    congr 1
    refine List.map_congr_left fun e he => ?_
    obtain ⟨d1, d2, d3, d4, -⟩ := updateBasis_data (e.updateForce (at' pos)) (at' pos)
    have hf := fresh_force
      (((e.updateForce (at' pos)).updateBasis (at' pos)).updateForce (at' u.base.pos))
      (at' pos) (at' vel) i (by
        show ((e.updateForce (at' pos)).updateBasis (at' pos)).lagged = false
        rw [d4]
        exact hl e he)
      (updateBasis_fresh (e.updateForce (at' pos)) (at' pos)) rfl
    simp only [Function.comp_apply]
    refine Eq.trans ?_ hf.symm
    show _ = (((e.updateForce (at' pos)).updateBasis (at' pos)).pair.frictionForce
      ((e.updateForce (at' pos)).updateBasis (at' pos)).ns
      ((e.updateForce (at' pos)).updateBasis (at' pos)).params _ _).elim 0 _
    rw [d1, d2, d3]
    rfl

/-! ## Lagged friction -/

/-- Specification: the operation is not the end of a step. -/
def Within : FrictionOp → Prop
  | .advance => False
  | _ => True

/-- Specification: contacts use lagged friction, with what belonged to positions `x`. -/
def LaggedAt (x : ℕ → V3 ℝ) (e : FrictionEntry) : Prop :=
  e.lagged = true ∧ (¬ e.params.isNone → e.prevBasisPos = x) ∧ e.prevForcePos = x

/-- The part of a contact that never changes. -/
def FrictionEntry.Same (a b : FrictionEntry) : Prop :=
  a.pair = b.pair ∧ a.ns = b.ns ∧ a.params = b.params

theorem step_lagged (s : FrictionState) (op : FrictionOp) (hop : Within op) (x : ℕ → V3 ℝ)
    (es : List FrictionEntry)
    (h : List.Forall₂ (fun a b => LaggedAt x a ∧ a.Same b) s.entries es) :
    List.Forall₂ (fun a b => LaggedAt x a ∧ a.Same b) (s.step op).entries es := by
  cases op with
  | evaluate pos vel =>
    show List.Forall₂ _ (List.map _ _) _
    rw [List.forall₂_map_left_iff]
    refine h.imp fun a b hab => ?_
    obtain ⟨d1, d2, d3, d4, -, d6, d7⟩ := updateBasis_data (a.updateForce (at' pos)) (at' pos)
    obtain ⟨⟨l1, l2, l3⟩, m1, m2, m3⟩ := hab
    refine ⟨⟨d4.trans l1, fun hn => d6.trans (l2 (by rw [d3] at hn; exact hn)), d7.trans l3⟩,
      d1.trans m1, d2.trans m2, d3.trans m3⟩
  | advance => exact hop.elim
  | moveFixed fixed newPos dt => exact h
  | read =>
    show List.Forall₂ _ (List.map _ _) _
    rw [List.forall₂_map_left_iff]
    exact h

theorem run_lagged (ops : List FrictionOp) (s : FrictionState) (hop : ∀ op ∈ ops, Within op)
    (x : ℕ → V3 ℝ) (es : List FrictionEntry)
    (h : List.Forall₂ (fun a b => LaggedAt x a ∧ a.Same b) s.entries es) :
    List.Forall₂ (fun a b => LaggedAt x a ∧ a.Same b) (s.run ops).entries es := by
  induction ops generalizing s with
  | nil => exact h
  | cons op ops ih =>
    exact ih (s.step op) (fun o ho => hop o (List.mem_cons_of_mem _ ho))
      (step_lagged s op (hop op List.mem_cons_self) x es h)

/-- C80, lagged friction: until the next step ends, the mesh shows the friction at the positions at which the
last step ended and at the velocities that it shows, whatever else happens. -/
theorem friction_lagged (s : FrictionState) (before after : List FrictionOp) (pos vel : List (V3 ℝ))
    (n : ℕ) (hl : ∀ e ∈ (s.run before).entries, e.lagged = true) (hw : ∀ op ∈ after, Within op) :
    let t := (s.run (before ++ [.evaluate pos vel, .advance] ++ after))
    Proper t.base n → ∀ i < n, ReportedAt t.base (readFriction t).1 i
      (trueFriction (s.run before).entries (at' pos) (at' t.base.vel) i) := by
  intro t h i hi
  set u := (s.run before) with hu
  have ht : t = ((u.step (.evaluate pos vel)).step .advance).run after := by
    simp [t, u, FrictionState.run, List.foldl_append]
  have h0 : List.Forall₂ (fun a b => LaggedAt (at' pos) a ∧ a.Same b)
      ((u.step (.evaluate pos vel)).step .advance).entries u.entries := by
    show List.Forall₂ _ (List.map _ (List.map _ _)) _
    rw [List.map_map, List.forall₂_map_left_iff, List.forall₂_same]
    intro e he
    obtain ⟨d1, d2, d3, d4, d5, -⟩ := updateBasis_data (e.updateForce (at' pos)) (at' pos)
    exact ⟨⟨d4.trans (hl e he), updateBasis_fresh (e.updateForce (at' pos)) (at' pos), d5⟩, d1, d2, d3⟩
  have h1 := run_lagged after _ hw _ _ h0
  rw [← ht] at h1
  have := read_reported h i hi
  convert this using 1
  unfold trueFriction
  clear this h0
  generalize t.entries = l at h1
  generalize u.entries = l' at h1
  generalize at' t.base.pos = y
  generalize at' t.base.vel = v
  clear_value t
  clear ht h hl
  clear hu
  clear_value u
  induction h1 with
  | nil => rfl
  | @cons a b l l' hab _ ih =>
    rw [List.map_cons, List.map_cons, List.sum_cons, List.sum_cons, ih]
    congr 1
    obtain ⟨⟨l1, l2, l3⟩, m1, m2, m3⟩ := hab
    unfold FrictionEntry.force FrictionEntry.updateForce
    simp only [l1, if_true]
    rw [← m1, ← m2, ← m3]
    unfold mixedForce Pair.frictionForce
    by_cases hn : a.params.isNone
    · rw [if_pos hn, if_pos hn]
    · rw [if_neg hn, if_neg hn, l2 hn, l3]
      rfl

/-! ## Reported friction never adds energy -/

theorem mixed_getD (C : Pair) (p : Friction.Params) (xb xl v : ℕ → V3 ℝ) (r : V3 ℝ × ℕ)
    (hr : r ∈ (C.relativeVelocities xb v).zipIdx) :
    (mixedFriction C p xb xl v).getD r.2 0 =
      ((C.contactBasis xb).contactFriction p ((C.lambda xl).getD r.2 0) r.1 r.2).getD 0 := by
  obtain ⟨i, hi, e⟩ := List.mem_iff_getElem.1 hr
  simp only [List.length_zipIdx] at hi
  simp only [List.getElem_zipIdx, zero_add] at e
  subst e
  rw [mixedFriction, List.getD_eq_getElem _ _ (by simpa using hi)]
  simp

theorem mixed_dissipates (C : Pair) {ns N : ℕ} (h : C.Distinct ns N) (hk : 0 ≤ C.kappa) (hd : 0 < C.delta)
    (p : Friction.Params) (hp : p.Valid) (xb xl v f : ℕ → V3 ℝ)
    (hf : mixedForce C ns p xb xl v = some f) : Pair.totalPower N f v ≤ 0 := by
  have e : f = C.transposeMul ns xb (mixedFriction C p xb xl v) := by
    unfold mixedForce at hf
    split at hf
    · cases hf
    · exact (Option.some.inj hf).symm
  rw [Pair.totalPower, e, C.transposeMul_adjoint h]
  have : ∀ r ∈ (C.relativeVelocities xb v).zipIdx,
      V3.dot ((mixedFriction C p xb xl v).getD r.2 0) r.1 ≤ 0 := by
    intro r hr
    rw [mixed_getD C p xb xl v r hr]
    cases hc : (C.contactBasis xb).contactFriction p ((C.lambda xl).getD r.2 0) r.1 r.2 with
    | none => simp [dot_zero_left]
    | some g =>
      exact ContactBasis.contactFriction_dissipates _ p hp _ (C.lambda_nonneg hk hd xl _) _ _ _ hc
  generalize (C.relativeVelocities xb v).zipIdx = L at this
  induction L with
  | nil => simp
  | cons a L ih =>
    rw [List.map_cons, List.sum_cons]
    have h1 := this a List.mem_cons_self
    have h2 := ih fun r hr => this r (List.mem_cons_of_mem _ hr)
    linarith

theorem entry_dissipates (e : FrictionEntry) {N : ℕ} (h : e.pair.Distinct e.ns N) (hk : 0 ≤ e.pair.kappa)
    (hd : 0 < e.pair.delta) (hp : e.params.Valid) (v : ℕ → V3 ℝ) : Pair.totalPower N (e.force v) v ≤ 0 := by
  have : ∀ xb xl, Pair.totalPower N
      (fun i => (mixedForce e.pair e.ns e.params xb xl v).elim 0 fun f => f i) v ≤ 0 := by
    intro xb xl
    cases hf : mixedForce e.pair e.ns e.params xb xl v with
    | none => simp [Pair.totalPower, dot_zero_left]
    | some f => exact mixed_dissipates e.pair h hk hd e.params hp xb xl v f hf
  unfold FrictionEntry.force
  by_cases hl : e.lagged = true
  · simp only [hl, if_true]
    exact this _ _
  · simp only [hl]
    exact this _ _

/-- Sums over two scattered lists are sums over the lists. -/
theorem scatter_power {s : State} {n : ℕ} (h : Proper s n) (a b : List (V3 ℝ)) (ha : a.length = n)
    (hb : b.length = n) :
    reportedPower (scatter s.orig.length 0 s.orig a) (scatter s.orig.length 0 s.orig b) =
      (List.zipWith V3.dot a b).sum := by
  have hlen : s.orig.length = n := by rw [h.orig.length_eq, List.length_range]
  set A := scatter s.orig.length 0 s.orig a with hA
  set B := scatter s.orig.length 0 s.orig b with hB
  have lA : A.length = n := by rw [hA, scatter_length, hlen]
  have lB : B.length = n := by rw [hB, scatter_length, hlen]
  have e1 : List.zipWith V3.dot A B = (List.range n).map fun v => V3.dot (A.getD v 0) (B.getD v 0) := by
    refine List.ext_getElem (by simp [lA, lB]) fun i h1 h2 => ?_
    have hi : i < n := by simpa using h2
    simp [List.getD_eq_getElem?_getD, List.getElem?_eq_getElem (lA.symm ▸ hi : i < A.length),
      List.getElem?_eq_getElem (lB.symm ▸ hi : i < B.length)]
  have e2 : (List.range n).map (fun v => V3.dot (A.getD v 0) (B.getD v 0)) |>.Perm
      (s.orig.map fun v => V3.dot (A.getD v 0) (B.getD v 0)) := (h.orig.symm.map _)
  have e3 : s.orig.map (fun v => V3.dot (A.getD v 0) (B.getD v 0)) = List.zipWith V3.dot a b := by
    refine List.ext_getElem (by simp [ha, hb, hlen]) fun i h1 h2 => ?_
    have hi : i < n := by simpa [hlen] using h1
    obtain ⟨v, hv, hva⟩ := scatter_reported h 0 a ha i a[i] (List.getElem?_eq_getElem (ha.symm ▸ hi))
    obtain ⟨v', hv', hvb⟩ := scatter_reported h 0 b hb i b[i] (List.getElem?_eq_getElem (hb.symm ▸ hi))
    have hvv : v = v' := by rw [hv] at hv'; exact Option.some.inj hv'
    subst hvv
    have ho : s.orig[i]'(hlen.symm ▸ hi) = v := (List.getElem?_eq_some_iff.1 hv).2
    rw [List.getElem_map, ho, List.getElem_zipWith, List.getD_eq_getElem?_getD, List.getD_eq_getElem?_getD,
      hA, hva, hB, hvb]
    rfl
  unfold reportedPower
  rw [e1, e2.sum_eq, e3]

/-- C80: the friction that the mesh shows never adds energy to the motion that it shows, after any history,
even if it belongs to other positions. -/
theorem reported_friction_dissipates {s : FrictionState} {n : ℕ} (h : Proper s.base n)
    (hc : ∀ e ∈ s.entries, e.pair.Distinct e.ns n ∧ 0 ≤ e.pair.kappa ∧ 0 < e.pair.delta ∧ e.params.Valid) :
    reportedPower (readFriction s).1 (mesh s.base).1.vel ≤ 0 := by
  have hlen : s.base.orig.length = n := by rw [h.orig.length_eq, List.length_range]
  show reportedPower (scatter _ _ _ _) (scatter _ _ _ _) ≤ 0
  rw [scatter_power h _ _ (by simp [hlen]) h.vel]
  have e1 : List.zipWith V3.dot ((List.range s.base.orig.length).map fun i =>
      -(s.entries.map fun e => e.updateForce (at' s.base.pos)).foldl
        (fun f e => e.subtract (at' s.base.vel) f) (fun _ => 0) i) s.base.vel =
      (List.range n).map fun i => V3.dot ((s.entries.map fun e =>
        (e.updateForce (at' s.base.pos)).force (at' s.base.vel) i).sum) (at' s.base.vel i) := by
    refine List.ext_getElem (by simp [hlen, h.vel]) fun i h1 h2 => ?_
    have hi : i < n := by simpa using h2
    simp only [List.getElem_zipWith, List.getElem_map, List.getElem_range, foldl_subtract, List.map_map,
      Function.comp_def, zero_sub, neg_neg]
    congr 1
    simp [at', List.getD_eq_getElem?_getD, List.getElem?_eq_getElem (h.vel.symm ▸ hi : i < s.base.vel.length)]
  rw [e1, list_sum_eq List.nodup_range, List.toFinset_range]
  generalize at' s.base.vel = v
  generalize at' s.base.pos = x
  generalize s.entries = es at hc
  induction es with
  | nil => simp [dot_zero_left]
  | cons e es ih =>
    simp only [List.map_cons, List.sum_cons, dot_add_left]
    rw [Finset.sum_add_distrib]
    obtain ⟨c1, c2, c3, c4⟩ := hc e List.mem_cons_self
    have h1 := entry_dissipates (e.updateForce x) c1 c2 c3 c4 v
    have h2 := ih fun e' he' => hc e' (List.mem_cons_of_mem _ he')
    have h1 : ∑ i ∈ Finset.range n, V3.dot ((e.updateForce x).force v i) (v i) ≤ 0 := h1
    linarith

/-! ## A vertex that is moved between evaluation and read -/

theorem pair_congr (C : Pair) {x y : ℕ → V3 ℝ} (hs : ∀ j, x (C.surf j) = y (C.surf j))
    (hc : ∀ i, x (C.coll i) = y (C.coll i)) : C.samples x = C.samples y ∧ C.query x = C.query y := by
  refine ⟨?_, ?_⟩
  · unfold Pair.samples
    congr 1
    funext j
    exact hs j
  · funext i
    exact hc i

/-- Friction depends on the vertices of the two objects only. -/
theorem mixedForce_congr (C : Pair) (ns : ℕ) (p : Friction.Params) {xb yb xl yl v w : ℕ → V3 ℝ}
    (h1 : ∀ j, xb (C.surf j) = yb (C.surf j)) (h2 : ∀ i, xb (C.coll i) = yb (C.coll i))
    (h3 : ∀ j, xl (C.surf j) = yl (C.surf j)) (h4 : ∀ i, xl (C.coll i) = yl (C.coll i))
    (h5 : ∀ j, v (C.surf j) = w (C.surf j)) (h6 : ∀ i, v (C.coll i) = w (C.coll i)) :
    mixedForce C ns p xb xl v = mixedForce C ns p yb yl w := by
  obtain ⟨sb, qb⟩ := pair_congr C h1 h2
  obtain ⟨sl, ql⟩ := pair_congr C h3 h4
  have hb : C.contactBlocks xb = C.contactBlocks yb := by
    unfold Pair.contactBlocks
    rw [sb, qb]
  have hr : C.relativeVelocities xb v = C.relativeVelocities yb w := by
    unfold Pair.relativeVelocities
    simp only [hb, h5, h6]
  have hB : C.contactBasis xb = C.contactBasis yb := by
    unfold Pair.contactBasis Pair.contactNormals Pair.queryBlocks
    rw [sb, qb]
  have hl : C.lambda xl = C.lambda yl := by
    unfold Pair.lambda
    rw [Pair.distances_eq, Pair.distances_eq]
    unfold Pair.distance
    rw [sl, ql]
  unfold mixedForce mixedFriction Pair.transposeMul
  rw [hr, hB, hl, hb]

/-- Friction at a contact with a level surface; the normal part of the velocity does not matter. -/
theorem full_friction_any (a c : ℝ) (h : 1 / 100 ≤ (⟨a, 0, 0⟩ : V3 ℝ).norm) :
    (ContactBasis.updateFromNormals [⟨0, 0, -1⟩]).contactFriction fullFriction 1 ⟨a, 0, c⟩ 0 =
      some ((-1 / (⟨a, 0, 0⟩ : V3 ℝ).norm) • ⟨a, 0, 0⟩) := by
  rw [← full_friction_level a 0 h]
  unfold ContactBasis.contactFriction ContactBasis.toContactCoordinates
  have ht : ContactBasis.tangentFor ⟨0, 0, -1⟩ = ⟨1, 0, 0⟩ := by
    unfold ContactBasis.tangentFor
    have e : (V3.iamax ⟨0, 0, -1⟩ + 1) % 3 = 0 := by
      norm_num [V3.iamax]
    simp only [e]
    ext <;> simp [V3.normalize, V3.norm, V3.dot, V3.axis, V3.getN]
  have hm : (ContactBasis.updateFromNormals [⟨0, 0, -1⟩]).contactBasisMatrix 0 =
      some (ContactBasis.frame ⟨0, 0, -1⟩ ⟨1, 0, 0⟩) := by
    rw [ContactBasis.matrix_of_lt (by simp)]
    simp [ht]
  have hc : ∀ c, (ContactBasis.frame ⟨0, 0, -1⟩ ⟨1, 0, 0⟩).mulVec ⟨a, 0, c⟩ = ⟨-c, a, 0⟩ := by
    intro c
    ext <;> simp [ContactBasis.frame, M3.mulVec, V3.dot, V3.cross]
  simp only [hm, hc, Option.map_some, Option.bind_some]

/-- A plate and, above it, a fixed vertex. -/
def slideEntry : FrictionEntry where
  pair := plate 1 (4 / 3)
  ns := 3
  params := fullFriction
  lagged := false
  basisPos := plateX ⟨1, 1, 2⟩
  forcePos := plateX ⟨1, 1, 2⟩
  prevBasisPos := plateX ⟨1, 1, 2⟩
  prevForcePos := plateX ⟨1, 1, 2⟩

/-- The common velocity of the objects. -/
def slideV : V3 ℝ := ⟨-1 / 2, 0, -3 / 2⟩

def slideState : FrictionState where
  base :=
    { orig := [3, 2, 1, 0]
      pos := (List.range 4).map (plateX ⟨1, 1, 2⟩)
      vel := List.replicate 4 slideV
      residual := List.replicate 4 0
      massInv := List.replicate 4 1
      prevForce := List.replicate 4 0
      contacts := [(plate 1 (4 / 3), [2])] }
  entries := [slideEntry]

/-- The state is evaluated by the solver, and then the vertex is moved next to the plate. -/
def slideOps : List FrictionOp :=
  [.evaluate slideState.base.pos slideState.base.vel,
    .moveFixed [false, false, false, true] [⟨1 / 2, 1, 1 / 2⟩, 0, 0, 0] 1]

theorem at_range (x : ℕ → V3 ℝ) (v : ℕ) (hv : v < 4) : at' ((List.range 4).map x) v = x v := by
  simp [at', List.getD_eq_getElem?_getD, hv]

theorem at_replicate (u : V3 ℝ) (v : ℕ) (hv : v < 4) : at' (List.replicate 4 u) v = u := by
  unfold at'
  rw [List.getD_eq_getElem?_getD, List.getElem?_replicate, if_pos hv]
  rfl

theorem slide_surf (j : ℕ) : (plate 1 (4 / 3)).surf j < 4 := by
  show (if j < 3 then j else 0) < 4
  split <;> omega

theorem slide_coll (i : ℕ) : (plate 1 (4 / 3)).coll i < 4 := by
  show 3 < 4
  omega

theorem slide_after : (slideState.run slideOps).base.pos = (List.range 4).map (plateX ⟨1 / 2, 1, 1 / 2⟩) ∧
    (slideState.run slideOps).base.vel = List.replicate 4 slideV := by
  constructor
  · simp [FrictionState.run, slideOps, slideState, FrictionState.step, moveOne, List.range_succ, plateX,
      List.getD_eq_getElem?_getD]
  · simp [FrictionState.run, slideOps, slideState, FrictionState.step, moveOne, List.range_succ, plateX,
      List.getD_eq_getElem?_getD, slideV, List.replicate_succ, demoVerts]
    ext <;> norm_num

theorem slide_proper : Proper (slideState.run slideOps).base 4 where
  orig := by
    show List.Perm [3, 2, 1, 0] _
    decide
  pos := by rw [slide_after.1]; rfl
  vel := by rw [slide_after.2]; rfl
  residual := rfl
  massInv := rfl
  prevForce := rfl
  coll c hc i hi := by
    have hc : c ∈ [(plate 1 (4 / 3), [(2 : ℝ)])] := hc
    rw [List.mem_singleton] at hc
    subst hc
    exact slide_coll i
  inj c hc := by
    have hc : c ∈ [(plate 1 (4 / 3), [(2 : ℝ)])] := hc
    rw [List.mem_singleton] at hc
    subst hc
    decide

theorem slide_near : ((⟨1 / 2, 1, 1 / 2⟩ : V3 ℝ) - ⟨1, 1, 0⟩).norm < 1 := by
  unfold V3.norm V3.dot
  rw [Real.sqrt_lt' (by norm_num)]
  norm_num

/-- The force of the vertex on the plate. -/
theorem slide_lambda : (plate 1 (4 / 3)).lambda (plateX ⟨1 / 2, 1, 1 / 2⟩) = [1] := by
  obtain ⟨n, hn⟩ := plate_flat 1 (4 / 3) ⟨1 / 2, 1, 1 / 2⟩ slide_near ([0], 0) (by simp [plate_active])
  have hnv : n = ⟨0, 0, 1⟩ := by
    rw [← hn.normals 0 (by simp), plate_samples, plate_normal]
  subst hnv
  have hdist : (plate 1 (4 / 3)).distance (plateX ⟨1 / 2, 1, 1 / 2⟩) ([0], 0) = 1 / 2 := by
    unfold Pair.distance
    rw [hn.potential 0 (1 / 2) fun i _ => by
      rw [plate_samples, plate_pos]
      show (0 : ℝ) + V3.dot ⟨0, 0, 1⟩ ((⟨1 / 2, 1, 1 / 2⟩ : V3 ℝ) - ⟨1, 1, 0⟩) = 1 / 2
      norm_num [V3.dot]]
    show (1 / 2 : ℝ) - 0 = 1 / 2
    norm_num
  simp only [Pair.lambda, ContactPenalty.multipliers, Pair.distances_eq, plate_active, List.map_cons,
    List.map_nil, hdist]
  show [-(4 / 3 : ℝ) * ContactPenalty.db 1 (1 / 2)] = [1]
  rw [ContactPenalty.db_of_lt (by norm_num)]
  norm_num

/-- Far from the plate, the sliding basis does not see its velocity. -/
theorem slide_relative (v : ℕ → V3 ℝ) :
    (plate 1 (4 / 3)).relativeVelocities (plateX ⟨1, 1, 2⟩) v = [-v 3] := by
  have hJ : contactJacobianAt ((plate 1 (4 / 3)).query (plateX ⟨1, 1, 2⟩) 0) [0]
      ((plate 1 (4 / 3)).samples (plateX ⟨1, 1, 2⟩)) (plate 1 (4 / 3)).kernel params = some [0] := by
    rw [plate_samples]
    show contactJacobianAt ⟨1, 1, 2⟩ [0] _ (.cubic 1) params = _
    unfold contactJacobianAt
    rw [local_eq (c := 0) none rfl, far_gradient]
    simp only [Option.bind_some, Option.map_some, List.map_cons, List.map_nil, sampleContactJacobian,
      far_weight, zero_mul, Option.some.injEq, List.cons.injEq, and_true]
    ext <;> simp
  have hp : (plate 1 (4 / 3)).pushed (plateX ⟨1, 1, 2⟩) v ([0], 0) = 0 := by
    unfold Pair.pushed
    simp only [hJ, Option.getD_some, List.zip_cons_cons, List.zip_nil_right, List.map_cons, List.map_nil,
      List.sum_cons, List.sum_nil]
    ext <;> simp [M3.mulVec, V3.dot]
  rw [Pair.relativeVelocities_eq, plate_active, List.map_cons, List.map_nil, hp, zero_sub]
  rfl

theorem slide_normals : (plate 1 (4 / 3)).contactNormals (plateX ⟨1, 1, 2⟩) = [⟨0, 0, -1⟩] := by
  have hq : queryJacobianAt ((plate 1 (4 / 3)).query (plateX ⟨1, 1, 2⟩) 0) [0]
      ((plate 1 (4 / 3)).samples (plateX ⟨1, 1, 2⟩)) (some ((plate 1 (4 / 3)).closest 0))
      (plate 1 (4 / 3)).kernel params = some ⟨0, 0, 1⟩ := by
    rw [plate_samples]
    exact far_gradient _
  have hn : (⟨0, 0, 1⟩ : V3 ℝ).norm = 1 := by
    simp [V3.norm, V3.dot]
  simp only [Pair.contactNormals, Pair.queryBlocks, plate_active, List.map_cons, List.map_nil, hq,
    Option.getD_some, hn]
  rw [if_pos one_pos]
  congr 1
  ext <;> simp

/-- C80 fails: a fixed vertex that is moved next to a plate, and moves along with it, is shown with all the
friction that there can be. The solver has looked at the friction last before the vertex was moved. At the
positions and velocities that are shown there is no friction. -/
theorem friction_stale_violated :
    ∃ (s : FrictionState) (ops : List FrictionOp) (n v : ℕ), Proper (s.run ops).base n ∧ v < n ∧
      (∀ e ∈ s.entries, e.lagged = false ∧ e.pair.Distinct e.ns n ∧ 0 < e.pair.kappa ∧ 0 < e.pair.delta ∧
        e.params.Valid) ∧
      ReportedAt (s.run ops).base (readFriction (s.run ops)).1 v ⟨1, 0, 0⟩ ∧
      ∀ i, trueFriction s.entries (at' (s.run ops).base.pos) (at' (s.run ops).base.vel) i = 0 := by
  refine ⟨slideState, slideOps, 4, 3, slide_proper, by norm_num, ?_, ?_, ?_⟩
  · intro e he
    have he : e ∈ [slideEntry] := he
    rw [List.mem_singleton] at he
    subst he
    refine ⟨rfl, plate_distinct _ _, ?_, ?_, fullFriction_valid⟩
    · show (0 : ℝ) < 4 / 3
      norm_num
    · show (0 : ℝ) < 1
      norm_num
  · have h := read_reported slide_proper 3 (by norm_num)
    convert h using 1
    have he : (slideState.run slideOps).entries =
        [(slideEntry.updateForce (at' slideState.base.pos)).updateBasis (at' slideState.base.pos)] := rfl
    have hn : ¬ slideEntry.params.isNone := by norm_num [Friction.Params.isNone, fullFriction, slideEntry]
    have hub : (slideEntry.updateForce (at' slideState.base.pos)).updateBasis (at' slideState.base.pos) =
        { slideEntry.updateForce (at' slideState.base.pos) with basisPos := at' slideState.base.pos } := by
      unfold FrictionEntry.updateBasis
      exact if_neg hn
    rw [he, hub, List.map_cons, List.map_nil, List.sum_singleton, slide_after.1, slide_after.2]
    show _ = (mixedForce (plate 1 (4 / 3)) 3 fullFriction (at' ((List.range 4).map (plateX ⟨1, 1, 2⟩)))
      (at' ((List.range 4).map (plateX ⟨1 / 2, 1, 1 / 2⟩))) (at' (List.replicate 4 slideV))).elim 0
      fun f => f 3
    rw [mixedForce_congr (plate 1 (4 / 3)) 3 fullFriction (yb := plateX ⟨1, 1, 2⟩)
      (yl := plateX ⟨1 / 2, 1, 1 / 2⟩) (w := fun _ => slideV)
      (fun j => at_range _ _ (slide_surf j)) (fun i => at_range _ _ (slide_coll i))
      (fun j => at_range _ _ (slide_surf j)) (fun i => at_range _ _ (slide_coll i))
      (v := at' (List.replicate 4 slideV)) (fun j => at_replicate _ _ (slide_surf j))
      (fun i => at_replicate _ _ (slide_coll i))]
    have hm : (⟨1 / 2, 0, 0⟩ : V3 ℝ).norm = 1 / 2 := by
      unfold V3.norm V3.dot
      rw [show (1 / 2 : ℝ) * (1 / 2) + 0 * 0 + 0 * 0 = 1 / 2 * (1 / 2) by norm_num,
        Real.sqrt_mul_self (by norm_num)]
    have hv : -slideV = ⟨1 / 2, 0, 3 / 2⟩ := by
      ext <;> norm_num [slideV]
    have hf : mixedFriction (plate 1 (4 / 3)) fullFriction (plateX ⟨1, 1, 2⟩) (plateX ⟨1 / 2, 1, 1 / 2⟩)
        (fun _ => slideV) = [⟨-1, 0, 0⟩] := by
      unfold mixedFriction Pair.contactBasis
      rw [slide_relative, slide_normals, slide_lambda, hv]
      simp only [List.zipIdx_singleton, List.map_cons, List.map_nil, List.getD_cons_zero,
        full_friction_any (1 / 2) (3 / 2) (by rw [hm]; norm_num), Option.getD_some, hm]
      congr 1
      ext <;> norm_num
    unfold mixedForce
    rw [if_neg (show ¬ fullFriction.isNone from hn), hf]
    show _ = (plate 1 (4 / 3)).transposeMul 3 (plateX ⟨1, 1, 2⟩) [⟨-1, 0, 0⟩] 3
    have := (plate 1 (4 / 3)).transposeMul_collider (plate_distinct 1 (4 / 3)) (plateX ⟨1, 1, 2⟩)
      [⟨-1, 0, 0⟩] (([0], 0), 0) (by simp [plate_active])
    rw [show (plate 1 (4 / 3)).coll (([0], 0), 0).1.2 = 3 from rfl] at this
    rw [this]
    ext <;> simp
  · intro i
    rw [slide_after.1, slide_after.2]
    show ([slideEntry].map _).sum = 0
    rw [List.map_cons, List.map_nil, List.sum_singleton]
    show ((plate 1 (4 / 3)).frictionForce 3 fullFriction _ _).elim 0 _ = 0
    rw [← mixed_same, mixedForce_congr (plate 1 (4 / 3)) 3 fullFriction (yb := plateX ⟨1 / 2, 1, 1 / 2⟩)
      (yl := plateX ⟨1 / 2, 1, 1 / 2⟩) (w := fun _ => slideV)
      (fun j => at_range _ _ (slide_surf j)) (fun i => at_range _ _ (slide_coll i))
      (fun j => at_range _ _ (slide_surf j)) (fun i => at_range _ _ (slide_coll i))
      (v := at' (List.replicate 4 slideV)) (fun j => at_replicate _ _ (slide_surf j))
      (fun i => at_replicate _ _ (slide_coll i)), mixed_same]
    cases hf : (plate 1 (4 / 3)).frictionForce 3 fullFriction (plateX ⟨1 / 2, 1, 1 / 2⟩)
      (fun _ => slideV) with
    | none => rfl
    | some f =>
      have := (plate 1 (4 / 3)).comoving_partial 3 _ _ _ (plate_flat 1 (4 / 3) _ slide_near) slideV hf
      rw [this]
      rfl

/-! ## Cases that meet the hypotheses -/

example := reported_friction_dissipates slide_proper (by
  intro e he
  have he : e ∈ [(slideEntry.updateForce (at' slideState.base.pos)).updateBasis
    (at' slideState.base.pos)] := he
  rw [List.mem_singleton] at he
  obtain ⟨d1, d2, d3, -⟩ := updateBasis_data (slideEntry.updateForce (at' slideState.base.pos))
    (at' slideState.base.pos)
  rw [he, d1, d2, d3]
  refine ⟨plate_distinct _ _, ?_, ?_, fullFriction_valid⟩
  · show (0 : ℝ) ≤ 4 / 3
    norm_num
  · show (0 : ℝ) < 1
    norm_num)

/-- After the solver has evaluated the state again. -/
example := friction_reported_partial slideState slideOps (slideState.run slideOps).base.pos
  (slideState.run slideOps).base.vel 2 4 (by
    intro e he
    have he : e ∈ [(slideEntry.updateForce (at' slideState.base.pos)).updateBasis
      (at' slideState.base.pos)] := he
    rw [List.mem_singleton] at he
    rw [he, (updateBasis_data _ _).2.2.2.1]
    rfl) slide_proper

/-- With lagged friction, when the vertex is moved after the step. -/
example := friction_lagged ⟨slideState.base, [{ slideEntry with lagged := true }]⟩ []
  [.moveFixed [false, false, false, true] [⟨1 / 2, 1, 1 / 2⟩, 0, 0, 0] 1] slideState.base.pos
  slideState.base.vel 4 (by
    intro e he
    have he : e ∈ [{ slideEntry with lagged := true }] := he
    rw [List.mem_singleton] at he
    rw [he]) (by
    intro op hop
    rw [List.mem_singleton] at hop
    rw [hop]
    trivial) slide_proper

end Softy.Export
