import Verif.Model.Project
import Verif.Props.NeighborhoodStep

/-!
# Projection of query points

Property C75. Points on the right side stay; if the answer is true, all points are on the right side
(unless the gradient vanishes) and moved points are at most `eps` beyond the iso-value; points move
along the gradient. Points with empty neighborhoods are the exception.
-/

noncomputable section

namespace Softy.Project

open Softy Softy.Field Softy.Kernel Classical

variable {n : ℕ}

/-- The value of the surface at point `i` as a function of the position alone. -/
def HasValue (F : QueryField n) (i : Fin n) (f : V3 ℝ → ℝ) : Prop := ∀ q old, F.pot i q old = f q

/-- A value is on the given side of the iso-value. -/
def Side.Holds : Side → ℝ → ℝ → Prop
  | .above, iso, v => iso ≤ v
  | .below, iso, v => v ≤ iso

/-- How far a value is beyond the iso-value, on the given side. -/
def Side.depth : Side → ℝ → ℝ → ℝ
  | .above, iso, v => v - iso
  | .below, iso, v => iso - v

/-- The direction of the side. -/
def Side.dir : Side → V3 ℝ → V3 ℝ
  | .above, g => g
  | .below, g => -g

theorem Side.not_holds (s : Side) (iso v : ℝ) : v * s.mult < iso * s.mult ↔ ¬ s.Holds iso v := by
  cases s <;> simp [Side.mult, Side.Holds]

theorem Side.depth_eq (s : Side) (iso v : ℝ) : s.depth iso v = v * s.mult - iso * s.mult := by
  cases s <;> simp [Side.mult, Side.depth]
  ring

/-- A path of at most `m` moves, each from a point on the wrong side, along the gradient towards the
right side, of a length of at most what is missing and half of `eps`. -/
inductive Path (f : V3 ℝ → ℝ) (g : V3 ℝ → V3 ℝ) (side : Side) (iso eps : ℝ) : ℕ → V3 ℝ → V3 ℝ → Prop
  | refl (m : ℕ) (p : V3 ℝ) : Path f g side iso eps m p p
  | move (m : ℕ) (p q : V3 ℝ) (t : ℝ) : ¬ side.Holds iso (f p) → g p ≠ 0 → 0 < t →
      t ≤ eps / 2 - side.depth iso (f p) →
      Path f g side iso eps m (p + (t / (g p).norm) • side.dir (g p)) q →
      Path f g side iso eps (m + 1) p q

theorem Path.mono {f : V3 ℝ → ℝ} {g : V3 ℝ → V3 ℝ} {side : Side} {iso eps : ℝ} {m : ℕ} {p q : V3 ℝ}
    (h : Path f g side iso eps m p q) : Path f g side iso eps (m + 1) p q := by
  induction h with
  | refl m p => exact .refl _ _
  | move m p q t h1 h2 h3 h4 _ ih => exact .move _ _ _ t h1 h2 h3 h4 ih

theorem search_spec (F : QueryField n) (mult iso eps : ℝ) (pts : Fin n → V3 ℝ)
    (pot norms : Fin n → ℝ) (m : ℕ) (steps cand : Fin n → V3 ℝ) (candPot : Fin n → ℝ) (hm : 0 < m)
    (i : Fin n) :
    (¬ (pot i < iso ∧ norms i ≠ 0) →
      (search F mult iso eps pts pot norms m steps cand candPot).cand i = cand i) ∧
    (pot i < iso ∧ norms i ≠ 0 →
      (∃ c : ℝ, 0 < c ∧ c ≤ 1 ∧
        (search F mult iso eps pts pot norms m steps cand candPot).cand i = pts i + c • steps i) ∧
      ((search F mult iso eps pts pot norms m steps cand candPot).conv = true →
        ∀ f, HasValue F i f →
          f ((search F mult iso eps pts pot norms m steps cand candPot).cand i) * mult ≤ iso + eps)) := by
  induction m generalizing steps cand candPot with
  | zero => omega
  | succ m ih =>
    have hone : pts i + (1 : ℝ) • steps i = pts i + steps i := by ext <;> simp
    rw [search]
    simp only
    split
    · rename_i hov
      refine ⟨fun h => if_neg h, fun h => ⟨⟨1, one_pos, le_rfl, ?_⟩, fun _ f hf => ?_⟩⟩
      · exact (if_pos h).trans hone.symm
      · have h1 := hov i
        rw [hf] at h1
        by_contra hlt
        exact h1 ⟨h.1, not_le.1 hlt, h.2⟩
    · split
      · refine ⟨fun h => if_neg h, fun h => ⟨⟨1, one_pos, le_rfl, ?_⟩, fun h => by simp at h⟩⟩
        exact (if_pos h).trans hone.symm
      · rename_i hm0
        obtain ⟨h1, h2⟩ := ih (fun i => if pot i < iso ∧ F.pot i (if pot i < iso ∧ norms i ≠ 0 then
            pts i + steps i else cand i) (candPot i) * mult > iso + eps ∧ norms i ≠ 0 then
            (1 / 2 : ℝ) • steps i else steps i)
          (fun i => if pot i < iso ∧ norms i ≠ 0 then pts i + steps i else cand i)
          (fun i => F.pot i (if pot i < iso ∧ norms i ≠ 0 then pts i + steps i else cand i)
            (candPot i) * mult) (by omega)
        refine ⟨fun h => (h1 h).trans (if_neg h), fun h => ⟨?_, (h2 h).2⟩⟩
        obtain ⟨c, hc, hc1, he⟩ := (h2 h).1
        by_cases ho : pot i < iso ∧ F.pot i (if pot i < iso ∧ norms i ≠ 0 then
            pts i + steps i else cand i) (candPot i) * mult > iso + eps ∧ norms i ≠ 0
        · rw [if_pos ho] at he
          refine ⟨c * (1 / 2), by positivity, by linarith, he.trans ?_⟩
          ext <;> simp <;> ring
        · rw [if_neg ho] at he
          exact ⟨c, hc, hc1, he⟩

theorem iterate_conv (F : QueryField n) (mult iso eps : ℝ) (m : ℕ) (pts cand : Fin n → V3 ℝ)
    (pot candPot : Fin n → ℝ) :
    (iterate F mult iso eps m pts cand pot candPot false).2 = false := by
  induction m generalizing pts cand pot candPot with
  | zero => rfl
  | succ m ih =>
    rw [iterate]
    simp only
    split
    · rfl
    · simpa using ih _ _ _ _

theorem mult_sq (s : Side) : s.mult * s.mult = 1 := by cases s <;> simp [Side.mult]

theorem norm_ne (v : V3 ℝ) : v.norm ≠ 0 ↔ v ≠ 0 := by
  rw [not_iff_not]
  constructor
  · intro h
    have := V3.norm_mul_norm v
    rw [h, mul_zero] at this
    exact V3.dot_self_eq_zero.1 this.symm
  · rintro rfl
    simp [V3.norm, V3.dot]

/-- What the loop does to a point with a value. -/
theorem iterate_spec (F : QueryField n) (side : Side) (iso eps : ℝ) (heps : 0 ≤ eps) (i : Fin n)
    (f : V3 ℝ → ℝ) (hf : HasValue F i f) (m : ℕ) (pts : Fin n → V3 ℝ) (pot candPot : Fin n → ℝ)
    (conv : Bool) :
    Path f (F.grad i) side iso eps m (pts i)
        ((iterate F side.mult (iso * side.mult) eps m pts pts pot candPot conv).1 i) ∧
    ((iterate F side.mult (iso * side.mult) eps m pts pts pot candPot conv).2 = true → 0 < m →
      (side.Holds iso (f ((iterate F side.mult (iso * side.mult) eps m pts pts pot candPot conv).1 i)) ∨
        F.grad i ((iterate F side.mult (iso * side.mult) eps m pts pts pot candPot conv).1 i) = 0) ∧
      ((iterate F side.mult (iso * side.mult) eps m pts pts pot candPot conv).1 i = pts i ∨
        side.depth iso (f ((iterate F side.mult (iso * side.mult) eps m pts pts pot candPot conv).1 i))
          ≤ eps)) := by
  induction m generalizing pts pot candPot conv with
  | zero => exact ⟨.refl _ _, fun _ h => by omega⟩
  | succ m ih =>
    rw [iterate]
    simp only
    split
    · rename_i hno
      refine ⟨.refl _ _, fun _ _ => ⟨?_, Or.inl rfl⟩⟩
      have := hno i
      rw [hf, Side.not_holds, norm_ne] at this
      tauto
    · generalize hst : (fun i => if F.pot i (pts i) (pot i) * side.mult < iso * side.mult ∧
        (F.grad i (pts i)).norm ≠ 0 then (side.mult * ((eps * (1 / 2) + (iso * side.mult -
          F.pot i (pts i) (pot i) * side.mult)) / (F.grad i (pts i)).norm)) • F.grad i (pts i)
        else F.grad i (pts i)) = steps
      have hs := search_spec F side.mult (iso * side.mult) eps pts
        (fun i => F.pot i (pts i) (pot i) * side.mult) (fun i => (F.grad i (pts i)).norm) 10 steps pts
        candPot (by norm_num) i
      generalize search F side.mult (iso * side.mult) eps pts
        (fun i => F.pot i (pts i) (pot i) * side.mult) (fun i => (F.grad i (pts i)).norm) 10 steps pts
        candPot = r at hs ⊢
      obtain ⟨h1, h2⟩ := hs
      rw [hf, Side.not_holds, norm_ne] at h1 h2
      obtain ⟨hp, hq⟩ := ih r.cand (fun i => F.pot i (pts i) (pot i) * side.mult) r.candPot
        (conv && r.conv && decide (m ≠ 0))
      generalize hres : iterate F side.mult (iso * side.mult) eps m r.cand r.cand
        (fun i => F.pot i (pts i) (pot i) * side.mult) r.candPot
        (conv && r.conv && decide (m ≠ 0)) = res at hp hq ⊢
      have hconv : res.2 = true → r.conv = true ∧ 0 < m := by
        intro h
        by_contra hc
        have : (conv && r.conv && decide (m ≠ 0)) = false := by
          by_contra h'
          simp at h'
          exact hc ⟨h'.2.1, by omega⟩
        rw [this] at hres
        rw [← hres, iterate_conv] at h
        cases h
      by_cases hact : ¬ side.Holds iso (f (pts i)) ∧ F.grad i (pts i) ≠ 0
      · obtain ⟨⟨c, hc0, hc1, he⟩, hov⟩ := h2 hact
        constructor
        · have hd := Side.depth_eq side iso (f (pts i))
          have hneg : side.depth iso (f (pts i)) < 0 := by
            rw [hd]; have := (side.not_holds iso (f (pts i))).2 hact.1; linarith
          refine .move m _ _ (c * (eps / 2 - side.depth iso (f (pts i)))) hact.1 hact.2
            (mul_pos hc0 (by linarith)) (by nlinarith) ?_
          have hsi : steps i = (side.mult * ((eps / 2 - side.depth iso (f (pts i))) /
              (F.grad i (pts i)).norm)) • F.grad i (pts i) := by
            rw [← hst]
            simp only
            rw [hf, if_pos ⟨(side.not_holds _ _).2 hact.1, (norm_ne _).2 hact.2⟩, hd]
            congr 2
            ring
          have : pts i + (c * (eps / 2 - side.depth iso (f (pts i))) / (F.grad i (pts i)).norm) •
              side.dir (F.grad i (pts i)) = r.cand i := by
            rw [he, hsi]
            cases side <;> ext <;> simp [Side.mult, Side.dir] <;> ring
          rw [this]
          exact hp
        · intro hr _
          obtain ⟨hrc, hm⟩ := hconv hr
          obtain ⟨ha, hb⟩ := hq hr hm
          refine ⟨ha, Or.inr ?_⟩
          rcases hb with hb | hb
          · rw [hb, Side.depth_eq]
            linarith [hov hrc f hf]
          · exact hb
      · have hsame := h1 hact
        rw [hsame] at hp hq
        constructor
        · exact Path.mono hp
        · intro hr _
          exact hq hr (hconv hr).2

/-- C75. A point that is on the right side already is not moved. -/
theorem project_keeps (F : QueryField n) (side : Side) (iso eps : ℝ) (heps : 0 ≤ eps)
    (pts : Fin n → V3 ℝ) (i : Fin n) (f : V3 ℝ → ℝ) (hf : HasValue F i f)
    (h : side.Holds iso (f (pts i))) : (project F side iso eps pts).1 i = pts i := by
  obtain ⟨hp, -⟩ := iterate_spec F side iso eps heps i f hf 20 pts (fun _ => 0) (fun _ => 0) true
  unfold project
  generalize ((iterate F side.mult (iso * side.mult) eps 20 pts pts (fun _ => 0) (fun _ => 0) true).1 i) = q at hp ⊢
  generalize pts i = p at hp h ⊢
  cases hp with
  | refl => rfl
  | move _ _ _ t h1 => exact absurd h h1

/-- C75. Points move along the gradient, in at most twenty moves. -/
theorem project_path (F : QueryField n) (side : Side) (iso eps : ℝ) (heps : 0 ≤ eps)
    (pts : Fin n → V3 ℝ) (i : Fin n) (f : V3 ℝ → ℝ) (hf : HasValue F i f) :
    Path f (F.grad i) side iso eps 20 (pts i) ((project F side iso eps pts).1 i) :=
  (iterate_spec F side iso eps heps i f hf 20 pts _ _ true).1

/-- C75, up to points at which the gradient vanishes. If the answer is true then every point is on the
right side, and those that were moved are at most `eps` beyond the iso-value. -/
theorem project_sound_partial (F : QueryField n) (side : Side) (iso eps : ℝ) (heps : 0 ≤ eps)
    (pts : Fin n → V3 ℝ) (h : (project F side iso eps pts).2 = true) (i : Fin n) (f : V3 ℝ → ℝ)
    (hf : HasValue F i f) :
    (side.Holds iso (f ((project F side iso eps pts).1 i)) ∨
      F.grad i ((project F side iso eps pts).1 i) = 0) ∧
    ((project F side iso eps pts).1 i = pts i ∨
      side.depth iso (f ((project F side iso eps pts).1 i)) ≤ eps) :=
  (iterate_spec F side iso eps heps i f hf 20 pts _ _ true).2 h (by norm_num)

/-- The points of a surface have a value when they have neighbors and the background is not read from
the output. -/
theorem surface_hasValue (S : Samples) (k : Kern) (P : BgParams) (views : Fin n → List ℕ)
    (closest : Fin n → ℕ) (i : Fin n) (hv : views i ≠ []) (hP : P.fieldType ≠ .fromInput) :
    HasValue (surfaceField S k P views closest) i
      (fun q => potentialAt q (views i) S k P 0) := by
  intro q old
  obtain ⟨c, hc⟩ := closestSample_isSome (q := q) (S := S) hv
  simp only [surfaceField]
  rw [potentialAt_eq hc, potentialAt_eq hc]
  obtain ⟨ty, w⟩ := P
  cases ty
  all_goals first | rfl | exact absurd rfl hP

/-- The height over a plane, for two points. -/
def heightField : QueryField 2 := ⟨fun _ q _ => q.z, fun _ _ => ⟨0, 0, 1⟩⟩

/-- Two points, one of them below height 1: it is moved to height 1 and half of `eps`. -/
example : project heightField .above 1 (1 / 5) (fun i => if i = 0 then ⟨1, 2, 0⟩ else ⟨3, 4, 5⟩) =
    ((fun i => if i = 0 then ⟨1, 2, 11 / 10⟩ else ⟨3, 4, 5⟩), true) ∧
    ∀ i, HasValue heightField i V3.z := by
  refine ⟨?_, fun i q old => rfl⟩
  have hn : (⟨0, 0, 1⟩ : V3 ℝ).norm = 1 := by rw [Neighborhood.norm_z]; simp
  have hpt : (fun i : Fin 2 => if (if i = 0 then (⟨1, 2, 0⟩ : V3 ℝ) else ⟨3, 4, 5⟩).z * 1 < 1 * 1 ∧
      (1 : ℝ) ≠ 0 then (if i = 0 then (⟨1, 2, 0⟩ : V3 ℝ) else ⟨3, 4, 5⟩) + (if (if i = 0 then
      (⟨1, 2, 0⟩ : V3 ℝ) else ⟨3, 4, 5⟩).z * 1 < 1 * 1 ∧ (1 : ℝ) ≠ 0 then (1 * ((1 / 5 * (1 / 2) + (1 * 1 -
      (if i = 0 then (⟨1, 2, 0⟩ : V3 ℝ) else ⟨3, 4, 5⟩).z * 1)) / 1)) • (⟨0, 0, 1⟩ : V3 ℝ) else ⟨0, 0, 1⟩)
      else if i = 0 then (⟨1, 2, 0⟩ : V3 ℝ) else ⟨3, 4, 5⟩) =
      fun i => if i = 0 then ⟨1, 2, 11 / 10⟩ else ⟨3, 4, 5⟩ := by
    funext i
    by_cases hi : i = 0
    · simp only [if_pos hi]
      rw [if_pos (by norm_num), if_pos (by norm_num)]
      ext <;> norm_num
    · simp only [if_neg hi]
      rw [if_neg (by norm_num)]
  unfold project
  rw [iterate]
  simp only [heightField, hn, Side.mult]
  rw [if_neg (by push Not; exact ⟨0, by norm_num⟩), search]
  simp only [hpt]
  rw [if_pos]
  · rw [iterate]
    simp only [hn]
    rw [if_pos]
    · simp
    · intro i h
      by_cases hi : i = 0
      · simp only [if_pos hi] at h; norm_num at h
      · simp only [if_neg hi] at h; norm_num at h
  · intro i h
    by_cases hi : i = 0
    · simp only [if_pos hi] at h; norm_num at h
    · simp only [if_neg hi] at h; norm_num at h

/-! ## Exceptions -/

open Neighborhood in
theorem norm_above {z : ℝ} (hz : 1 < z) :
    ((⟨0, 0, z⟩ : V3 ℝ) - (splitSamples 1).pos 0) = ⟨0, 0, z⟩ ∧
    ((⟨0, 0, z⟩ : V3 ℝ) - (splitSamples 1).pos 0).norm = z ∧ (⟨0, 0, z⟩ : V3 ℝ).norm = z := by
  have : ((⟨0, 0, z⟩ : V3 ℝ) - (splitSamples 1).pos 0) = ⟨0, 0, z⟩ := by
    simp [splitSamples]
  rw [this, norm_z, abs_of_pos (by linarith)]
  exact ⟨rfl, rfl, rfl⟩

open Neighborhood in
/-- Beyond the radius of its only sample a surface has the background as potential. -/
theorem potential_above (k : Kern) (hk : k.Proper) (hr : k.radius = some 1) {z : ℝ} (hz : 1 < z)
    (ty : BgType) (old : ℝ) :
    potentialAt ⟨0, 0, z⟩ [0] (splitSamples 1) k ⟨ty, false⟩ old =
      match ty with
      | .zero => 0
      | .fromInput => old
      | .distanceBased => z := by
  classical
  obtain ⟨hd, hnorm, hnorm'⟩ := norm_above hz
  rw [potentialAt_eq (c := 0) rfl]
  have hw : weight k z ⟨0, 0, z⟩ (splitSamples 1) 0 = 0 :=
    weight_far hk (Or.inr (by linarith)) hr (by rw [hnorm]; exact hz.le)
  have hb : backgroundWeight k false z = 1 := by
    unfold backgroundWeight
    simp only [hr]
    rw [if_pos hz]
  have ho : ¬ V3.dot ((splitSamples 1).nml 0) (⟨0, 0, z⟩ : V3 ℝ) < 0 := by
    simp [splitSamples, V3.dot]
    linarith
  have hf : (Bg.newImpl ⟨0, 0, z⟩ [0] (splitSamples 1) (.loc 0) k ⟨ty, false⟩
      (some old)).fieldValue = match ty with
      | .zero => 0
      | .fromInput => old
      | .distanceBased => z := by
    cases ty
    · rfl
    · rfl
    · simp only [Bg.newImpl, BgValue.new, Bg.fieldValue, Bg.orientation, ClosestIndex.get, hd, hnorm']
      rw [if_neg ho, mul_one]
  simp only [hnorm, List.map_cons, List.map_nil, List.sum_cons, List.sum_nil, hw, hb, hf]
  simp

open Neighborhood in
/-- The gradient there, with or without the sample in the neighborhood. -/
theorem gradient_above (k : Kern) (hr : k.radius = some 1) {z : ℝ} (hz : 1 < z) :
    queryJacobianAt ⟨0, 0, z⟩ [] (splitSamples 1) (some 0) k ⟨.distanceBased, false⟩ =
      some ⟨0, 0, 1⟩ := by
  classical
  obtain ⟨hd, hnorm, hnorm'⟩ := norm_above hz
  have hb : backgroundWeight k false z = 1 := by
    unfold backgroundWeight
    simp only [hr]
    rw [if_pos hz]
  have ho : ¬ V3.dot ((splitSamples 1).nml 0) (⟨0, 0, z⟩ : V3 ℝ) < 0 := by
    simp [splitSamples, V3.dot]
    linarith
  have hz0 : z ≠ 0 := by linarith
  simp only [queryJacobianAt, Bg.new, Bg.global, closestSample, Option.map_some, List.map_nil,
    List.sum_nil, zero_add, Option.some.injEq]
  simp only [Bg.queryJacobian, Bg.newImpl, Bg.bgWeight, Bg.weightSumInv, Bg.fieldGrad, BgValue.new,
    Bg.orientation, ClosestIndex.get, List.map_nil, List.sum_nil, zero_add, hd, hnorm', hb]
  rw [if_neg ho]
  ext <;> simp [hz0]

/-- C75 fails where the gradient vanishes: with a zero background and beyond the radius, the answer is
true although the point stays on the wrong side. -/
theorem project_true_violated :
    ∃ (views : Fin 1 → List ℕ) (p : V3 ℝ), (∀ i, views i ≠ []) ∧
      project (surfaceField (Neighborhood.splitSamples 1) (.cubic 1) ⟨.zero, false⟩ views
        (fun _ => 0)) .above 1 0 (fun _ => p) = ((fun _ => p), true) ∧
      ¬ Side.above.Holds 1
        (potentialAt p (views 0) (Neighborhood.splitSamples 1) (.cubic 1) ⟨.zero, false⟩ 0) := by
  classical
  have hz : (1 : ℝ) < 3 / 2 := by norm_num
  obtain ⟨hd, hnorm, hnorm'⟩ := norm_above hz
  have hw : weight (.cubic 1) (3 / 2) ⟨0, 0, 3 / 2⟩ (Neighborhood.splitSamples 1) 0 = 0 :=
    weight_far (by exact one_pos) (Or.inr (by norm_num)) rfl (by rw [hnorm]; exact hz.le)
  have hdw : weightGrad (.cubic 1) (3 / 2) ⟨0, 0, 3 / 2⟩ (Neighborhood.splitSamples 1) 0 = 0 := by
    simp only [weightGrad, Kern.withClosest, Kern.grad, hd, hnorm', Kern.df, cubicDf]
    norm_num
    ext <;> simp
  have hg : queryJacobianAt ⟨0, 0, 3 / 2⟩ [0] (Neighborhood.splitSamples 1) (some 0) (.cubic 1)
      ⟨.zero, false⟩ = some 0 := by
    simp only [queryJacobianAt, Bg.new, Bg.global, closestSample, closestFrom, Option.map_some,
      List.map_cons, List.map_nil, List.sum_cons, List.sum_nil, Option.some.injEq, sampleQueryJacobian,
      Bg.queryJacobian, Bg.fieldGrad, Bg.newImpl, BgValue.new, ClosestIndex.get, neighborWeightGrad,
      Bg.bgWeightGrad, Bg.flat, hd, hnorm', hw, hdw]
    ext <;> simp
  refine ⟨fun _ => [0], ⟨0, 0, 3 / 2⟩, by simp, ?_, ?_⟩
  · unfold project
    rw [iterate]
    simp only
    rw [if_pos]
    rintro i ⟨-, h⟩
    apply h
    simp [surfaceField, hg, V3.norm, V3.dot]
  · rw [potential_above (.cubic 1) (by exact one_pos) rfl hz]
    simp [Side.Holds]

/-- The loop on a point without neighbors. -/
theorem iterate_empty (k : Kern) (hr : k.radius = some 1) (eps : ℝ) (heps : 0 ≤ eps) (m : ℕ) (z : ℝ)
    (hz : 1 < z) :
    iterate (n := 1) (surfaceField (Neighborhood.splitSamples 1) k ⟨.distanceBased, false⟩
      (fun _ => []) (fun _ => 0)) 1 1 eps m (fun _ => ⟨0, 0, z⟩) (fun _ => ⟨0, 0, z⟩) (fun _ => 0)
      (fun _ => 0) (decide (m ≠ 0)) = ((fun _ => ⟨0, 0, z + m * (1 + eps / 2)⟩), false) := by
  induction m generalizing z with
  | zero => simp [iterate]
  | succ m ih =>
    rw [iterate]
    have hp : ∀ q : V3 ℝ, potentialAt q [] (Neighborhood.splitSamples 1) k ⟨.distanceBased, false⟩ 0 =
        0 := fun q => rfl
    have hn : (⟨0, 0, 1⟩ : V3 ℝ).norm = 1 := by rw [Neighborhood.norm_z]; simp
    simp only [surfaceField, gradient_above k hr hz, hp, Option.getD_some, hn, mul_one]
    rw [if_neg (by simp)]
    rw [search]
    simp only [surfaceField, hp]
    rw [if_pos (by intro i h; linarith [h.2.1])]
    have := ih (z + (1 + eps / 2)) (by linarith)
    have hq : ∀ c : ℝ, (⟨0, 0, z⟩ : V3 ℝ) + c • (⟨0, 0, 1⟩ : V3 ℝ) = ⟨0, 0, z + c⟩ := fun c => by
      ext <;> simp
    have hz' : z + ((m : ℝ) + 1) * (1 + eps / 2) = z + (1 + eps / 2) + m * (1 + eps / 2) := by ring
    push_cast
    rw [hz', ← this]
    have he : eps * 2⁻¹ + 1 = 1 + eps / 2 := by ring
    simp [hq, surfaceField, he]

/-- C75 fails for points without neighbors, whose potential counts as zero. A point above the
iso-value is left alone when its closest sample is in its neighborhood. When it is not, with less
padding, the point is moved twenty times and the answer is false. -/
theorem project_empty_violated (k : Kern) (hk : k.Proper) (hr : k.radius = some 1) (eps : ℝ)
    (heps : 0 ≤ eps) :
    project (n := 1) (surfaceField (Neighborhood.splitSamples 1) k ⟨.distanceBased, false⟩
      (fun _ => [0]) (fun _ => 0)) .above 1 eps (fun _ => ⟨0, 0, 3 / 2⟩) =
        ((fun _ => ⟨0, 0, 3 / 2⟩), true) ∧
    project (n := 1) (surfaceField (Neighborhood.splitSamples 1) k ⟨.distanceBased, false⟩
      (fun _ => []) (fun _ => 0)) .above 1 eps (fun _ => ⟨0, 0, 3 / 2⟩) =
        ((fun _ => ⟨0, 0, 3 / 2 + 20 * (1 + eps / 2)⟩), false) := by
  constructor
  · unfold project
    rw [iterate]
    simp only
    rw [if_pos]
    rintro i ⟨h, -⟩
    simp only [surfaceField, potential_above k hk hr (by norm_num : (1 : ℝ) < 3 / 2), Side.mult] at h
    norm_num at h
  · have := iterate_empty k hr eps heps 20 (3 / 2) (by norm_num)
    unfold project
    simpa [Side.mult] using this

end Softy.Project
