import Verif.Model.LineSearchAssist
import Verif.Prelude

/-!
# C18 — the contact and friction assists of the line search
-/

namespace Softy.LineSearchAssist

variable {K : Type*} [Field K] [LinearOrder K] [IsStrictOrderedRing K]

/-- Linear interpolation of the distance of a contact along the step. -/
def distanceAt (c : Contact K) (t : K) : K := c.d1 + t * (c.d2 - c.d1)

theorem candidate_pos {delta : K} (hd : 0 < delta) {c : Contact K} (h : triggers delta c) :
    0 < candidate delta c := by
  obtain ⟨h1, h2, -⟩ := h
  unfold candidate
  apply div_pos <;> linarith

theorem distance_ge {delta : K} (hd : 0 < delta) {c : Contact K} (h : triggers delta c) {t : K}
    (ht : t ≤ candidate delta c) : delta / 2 ≤ distanceAt c t := by
  obtain ⟨h1, h2, -⟩ := h
  have hpos : 0 < c.d1 - c.d2 := by linarith
  unfold candidate at ht
  rw [le_div_iff₀ hpos] at ht
  unfold distanceAt
  linarith

theorem distance_eq {delta : K} (hd : 0 < delta) {c : Contact K} (h : triggers delta c) :
    distanceAt c (candidate delta c) = delta / 2 := by
  obtain ⟨h1, h2, -⟩ := h
  have hpos : c.d1 - c.d2 ≠ 0 := by
    have : 0 < c.d1 - c.d2 := by linarith
    exact this.ne'
  unfold distanceAt candidate
  field_simp
  ring

/-- The assist of one constraint: everything C18 claims. -/
theorem assist_spec {delta : K} (hd : 0 < delta) (alpha : K) (ha : 0 < alpha)
    (cs : List (Contact K)) :
    0 < assistContact delta alpha cs ∧ assistContact delta alpha cs ≤ alpha ∧
    (∀ c ∈ cs, triggers delta c → assistContact delta alpha cs ≤ candidate delta c) ∧
    (assistContact delta alpha cs = alpha ∨
      ∃ c ∈ cs, triggers delta c ∧ assistContact delta alpha cs = candidate delta c) := by
  unfold assistContact
  induction cs generalizing alpha with
  | nil => simp [ha]
  | cons c t ih =>
    rw [List.foldl_cons]
    by_cases h : triggers delta c
    · have hstep : contactStep delta alpha c = min alpha (candidate delta c) := if_pos h
      rw [hstep]
      obtain ⟨i1, i2, i3, i4⟩ := ih (min alpha (candidate delta c)) (lt_min ha (candidate_pos hd h))
      refine ⟨i1, i2.trans (min_le_left _ _), ?_, ?_⟩
      · intro b hb hbt
        rcases List.mem_cons.1 hb with rfl | hb
        · exact i2.trans (min_le_right _ _)
        · exact i3 b hb hbt
      · rcases i4 with i4 | ⟨b, hb, hbt, e⟩
        · rw [i4]
          rcases min_choice alpha (candidate delta c) with e | e
          · exact Or.inl e
          · exact Or.inr ⟨c, List.mem_cons_self, h, e⟩
        · exact Or.inr ⟨b, List.mem_cons_of_mem _ hb, hbt, e⟩
    · have hstep : contactStep delta alpha c = alpha := if_neg h
      rw [hstep]
      obtain ⟨i1, i2, i3, i4⟩ := ih alpha ha
      refine ⟨i1, i2, ?_, ?_⟩
      · intro b hb hbt
        rcases List.mem_cons.1 hb with rfl | hb
        · exact absurd hbt h
        · exact i3 b hb hbt
      · rcases i4 with i4 | ⟨b, hb, hbt, e⟩
        · exact Or.inl i4
        · exact Or.inr ⟨b, List.mem_cons_of_mem _ hb, hbt, e⟩

/-- **C18 (range)** The assist of the whole problem returns a step in `(0, alpha]`. -/
theorem assist_range (fcs : List (Constraint K)) (hd : ∀ fc ∈ fcs, 0 < fc.1) (alpha : K)
    (ha : 0 < alpha) : 0 < problemAssist alpha fcs ∧ problemAssist alpha fcs ≤ alpha := by
  unfold problemAssist
  induction fcs generalizing alpha with
  | nil => simp [ha]
  | cons fc t ih =>
    rw [List.foldl_cons]
    have hs := assist_spec (hd fc List.mem_cons_self) alpha ha fc.2
    have hstep : problemStep alpha fc = assistContact fc.1 alpha fc.2 := min_eq_right hs.2.1
    obtain ⟨i1, i2⟩ := ih (fun b hb => hd b (List.mem_cons_of_mem _ hb)) (problemStep alpha fc)
      (by rw [hstep]; exact hs.1)
    exact ⟨i1, i2.trans (by rw [hstep]; exact hs.2.1)⟩

/-- **C18 (separation)** At the returned step every contact that would have been penetrated,
with growing residual, from outside the tolerance is still at least half the tolerance away,
by linear interpolation; this covers all contacts of all constraints. -/
theorem assist_separates (fcs : List (Constraint K)) (hd : ∀ fc ∈ fcs, 0 < fc.1) (alpha : K)
    (ha : 0 < alpha) :
    ∀ fc ∈ fcs, ∀ c ∈ fc.2, c.d1 > fc.1 → c.d2 ≤ 0 → c.f2 > c.f1 →
      fc.1 / 2 ≤ distanceAt c (problemAssist alpha fcs) := by
  intro fc hfc c hc h1 h2 h3
  have htr : triggers fc.1 c := ⟨h1, h2, h3⟩
  refine distance_ge (hd fc hfc) htr ?_
  unfold problemAssist
  induction fcs generalizing alpha with
  | nil => simp at hfc
  | cons a t ih =>
    rw [List.foldl_cons]
    have hs := assist_spec (hd a List.mem_cons_self) alpha ha a.2
    have hstep : problemStep alpha a = assistContact a.1 alpha a.2 := min_eq_right hs.2.1
    have hpos : 0 < problemStep alpha a := by rw [hstep]; exact hs.1
    have hdt : ∀ b ∈ t, 0 < b.1 := fun b hb => hd b (List.mem_cons_of_mem _ hb)
    rcases List.mem_cons.1 hfc with rfl | hfc
    · have := (assist_range t hdt _ hpos).2
      exact this.trans (by rw [hstep]; exact hs.2.2.1 c hc htr)
    · exact ih hdt _ hpos hfc

/-- **C18 (tightness)** If the step is shortened then some contact of some constraint is
left at exactly half its tolerance: the step is never shortened without cause, nor more than
needed. -/
theorem assist_tight (fcs : List (Constraint K)) (hd : ∀ fc ∈ fcs, 0 < fc.1) (alpha : K)
    (ha : 0 < alpha) (hlt : problemAssist alpha fcs < alpha) :
    ∃ fc ∈ fcs, ∃ c ∈ fc.2, c.d1 > fc.1 ∧ c.d2 ≤ 0 ∧ c.f2 > c.f1 ∧
      distanceAt c (problemAssist alpha fcs) = fc.1 / 2 := by
  unfold problemAssist at *
  induction fcs generalizing alpha with
  | nil => simp at hlt
  | cons a t ih =>
    rw [List.foldl_cons] at hlt ⊢
    have hs := assist_spec (hd a List.mem_cons_self) alpha ha a.2
    have hstep : problemStep alpha a = assistContact a.1 alpha a.2 := min_eq_right hs.2.1
    have hpos : 0 < problemStep alpha a := by rw [hstep]; exact hs.1
    have hdt : ∀ b ∈ t, 0 < b.1 := fun b hb => hd b (List.mem_cons_of_mem _ hb)
    rcases lt_or_eq_of_le (assist_range t hdt _ hpos).2 with h | h
    · obtain ⟨fc, hfc, c, hc, hr⟩ := ih hdt _ hpos h
      exact ⟨fc, List.mem_cons_of_mem _ hfc, c, hc, hr⟩
    · unfold problemAssist at h
      rw [h, hstep] at hlt ⊢
      rcases hs.2.2.2 with e | ⟨c, hc, htr, e⟩
      · exact absurd hlt (by rw [e]; exact lt_irrefl _)
      · exact ⟨a, List.mem_cons_self, c, hc, htr.1, htr.2.1, htr.2.2,
          by rw [e]; exact distance_eq (hd a List.mem_cons_self) htr⟩

/-- Two constraints and three contacts; the step is cut to a half. -/
example : problemAssist (1 : ℚ)
    [(1, [⟨3, 0, 1, 2⟩, ⟨2, -1, 1, 2⟩]), (2, [⟨5, 1, 1, 2⟩, ⟨3, -1, 5, 6⟩])] = 1 / 2 := by
  norm_num [problemAssist, problemStep, assistContact, contactStep, triggers, candidate]

/-! ## The way the Newton solver calls it -/

theorem assistContact_same (delta alpha : K) (hd : 0 ≤ delta) (cs : List (Contact K))
    (h : ∀ c ∈ cs, c.d1 = c.d2) : assistContact delta alpha cs = alpha := by
  unfold assistContact
  induction cs with
  | nil => rfl
  | cons c t ih =>
    rw [List.foldl_cons]
    have hn : ¬ triggers delta c := by
      rintro ⟨h1, h2, -⟩
      rw [h c List.mem_cons_self] at h1
      linarith
    rw [show contactStep delta alpha c = alpha from if_neg hn]
    exact ih fun b hb => h b (List.mem_cons_of_mem _ hb)

/-- The Newton solver updates the contact state to the full step before it calls the assist,
so the assist compares the distances at the full step with themselves: it never shortens a
step, for any distances, residuals and tolerance. -/
theorem newton_assist_noop {X : Type*} (s : ContactState X K) (delta : K) (hd : 0 ≤ delta)
    (full : X) (f1 f2 : List K) : newtonAssist s delta full f1 f2 = 1 := by
  unfold newtonAssist ContactState.assist ContactState.update
  simp only
  apply assistContact_same _ _ hd
  intro c hc
  obtain ⟨i, hi, rfl⟩ := List.mem_iff_getElem.1 hc
  simp [List.getElem_zipWith, List.getElem_zip]

/-- **C18 (violated in the Newton solver)** There is a contact outside the tolerance before
the step, penetrating and with a growing residual at the full step, for which the assist as
called by Newton keeps the full step, leaving the contact penetrating; called on the state
before the step it would have returned one half. -/
theorem newton_assist_violated :
    ∃ (s : ContactState ℚ ℚ) (x0 full : ℚ) (f1 f2 : List ℚ), s.cached = s.dist x0 ∧
      newtonAssist s 1 full f1 f2 = 1 ∧ s.dist full = [-1] ∧
      (s.assist 1 1 full f1 f2).1 = 1 / 2 := by
  refine ⟨⟨fun x => [x], [2]⟩, 2, -1, [1], [2], rfl, newton_assist_noop _ _ (by norm_num) _ _ _,
    rfl, ?_⟩
  norm_num [ContactState.assist, ContactState.update, assistContact, contactStep, triggers,
    candidate]

/-! ## Friction -/

theorem alphaMin_pos : 0 < (alphaMin : K) := by unfold alphaMin; positivity

theorem frictionCandidate_range {delta alpha c : K} {s : Sliding K}
    (h : frictionCandidate delta alpha s = some c) : alphaMin < c ∧ c < alpha := by
  unfold frictionCandidate at h
  simp only at h
  split_ifs at h with h1 h2 h3
  obtain rfl := Option.some.inj h
  exact ⟨h3.2, h3.1⟩

/-- At a full step (`alpha = 1`) every accepted candidate is the step at which the tangential
velocity of that contact becomes orthogonal to what it was: up to there the contact does not
reverse. -/
theorem frictionCandidate_stops {delta c : K} {s : Sliding K}
    (h : frictionCandidate delta 1 s = some c) :
    s.v.dot s.v + c * s.p.dot s.v = 0 ∧ ∀ t, 0 ≤ t → t ≤ c → 0 ≤ s.v.dot s.v + t * s.p.dot s.v := by
  have hr := frictionCandidate_range h
  unfold frictionCandidate at h
  simp only [one_mul] at h
  split_ifs at h with h1 h2 h3
  obtain rfl := Option.some.inj h
  have hne : s.p.dot s.v ≠ 0 := by
    intro h0
    rw [h0, div_zero] at hr
    exact absurd hr.1 (not_lt.2 alphaMin_pos.le)
  have hvv : 0 ≤ s.v.dot s.v := by
    unfold V2.dot; nlinarith [mul_self_nonneg s.v.x, mul_self_nonneg s.v.y]
  have hneg : s.p.dot s.v < 0 := lt_of_le_of_ne (h2.trans (by linarith)) hne
  have e : s.v.dot s.v + -s.v.dot s.v / s.p.dot s.v * s.p.dot s.v = 0 := by
    field_simp; ring
  refine ⟨e, ?_⟩
  intro t h0 ht
  nlinarith [mul_le_mul_of_nonpos_right ht hneg.le]

/-- With a step shorter than one the same candidate goes too far: the velocity of the contact
has reversed at the proposed step. -/
theorem frictionCandidate_reverses {delta alpha c : K} (ha0 : 0 < alpha) (ha : alpha < 1)
    {s : Sliding K} (hv : 0 < s.v.dot s.v) (h : frictionCandidate delta alpha s = some c) :
    s.v.dot s.v + c * s.p.dot s.v < 0 := by
  have hr := frictionCandidate_range h
  unfold frictionCandidate at h
  simp only at h
  split_ifs at h with h1 h2 h3
  obtain rfl := Option.some.inj h
  have hpv : s.p.dot s.v < 0 := by
    by_contra hc
    push Not at hc
    have := mul_nonneg ha0.le hc
    linarith
  have e : -s.v.dot s.v / (alpha * s.p.dot s.v) * s.p.dot s.v = -(s.v.dot s.v / alpha) := by
    have := hpv.ne
    field_simp
  rw [e]
  have : s.v.dot s.v < s.v.dot s.v / alpha := by
    rw [lt_div_iff₀ ha0]; nlinarith
  linarith

theorem sum_bounds (l : List K) (a b : K) (h : ∀ c ∈ l, a < c ∧ c < b) :
    (l.length : K) * a ≤ l.sum ∧ l.sum ≤ l.length * b ∧
      (l ≠ [] → (l.length : K) * a < l.sum ∧ l.sum < l.length * b) := by
  induction l with
  | nil => simp
  | cons c t ih =>
    obtain ⟨i1, i2, -⟩ := ih fun b hb => h b (List.mem_cons_of_mem _ hb)
    obtain ⟨h1, h2⟩ := h c List.mem_cons_self
    simp only [List.length_cons, Nat.cast_add, Nat.cast_one, List.sum_cons]
    refine ⟨by linarith, by linarith, fun _ => ⟨by linarith, by linarith⟩⟩

/-- **C18 (friction)** The friction assist also returns a step in `(0, alpha]`; when it
changes the step the result lies strictly between `1e-10` and `alpha`. -/
theorem friction_range (fcs : List (Bool × K × List (Sliding K))) (alpha : K) (ha : 0 < alpha) :
    (0 < problemFriction alpha fcs ∧ problemFriction alpha fcs ≤ alpha) ∧
    (problemFriction alpha fcs ≠ alpha →
      1 / 10 ^ 10 < problemFriction alpha fcs ∧ problemFriction alpha fcs < alpha) := by
  unfold problemFriction
  split_ifs with h1
  · simp only
    -- the list of all accepted candidates
    set l : List K := (fcs.filter fun fc => fc.1).flatMap fun fc =>
      fc.2.2.filterMap (frictionCandidate fc.2.1 alpha) with hl
    have hsum : ∀ fcs : List (Bool × K × List (Sliding K)),
        ((fcs.map fun fc => if fc.1 then assistFriction fc.2.1 alpha fc.2.2 else (0, 0)).map
          Prod.fst).sum = ((fcs.filter fun fc => fc.1).flatMap fun fc =>
            fc.2.2.filterMap (frictionCandidate fc.2.1 alpha)).sum ∧
        ((fcs.map fun fc => if fc.1 then assistFriction fc.2.1 alpha fc.2.2 else (0, 0)).map
          Prod.snd).sum = ((fcs.filter fun fc => fc.1).flatMap fun fc =>
            fc.2.2.filterMap (frictionCandidate fc.2.1 alpha)).length := by
      intro fcs
      induction fcs with
      | nil => simp
      | cons a t ih =>
        obtain ⟨b, d, cs⟩ := a
        rw [List.map_cons, List.map_cons, List.map_cons, List.sum_cons, List.sum_cons, ih.1, ih.2]
        cases b <;> simp [assistFriction]
    rw [(hsum fcs).1, (hsum fcs).2, ← hl]
    have hmem : ∀ c ∈ l, alphaMin < c ∧ c < alpha := by
      intro c hc
      rw [hl, List.mem_flatMap] at hc
      obtain ⟨fc, -, hc⟩ := hc
      obtain ⟨s, -, hs⟩ := List.mem_filterMap.1 hc
      exact frictionCandidate_range hs
    split_ifs with h2
    · have hne : l ≠ [] := List.length_pos_iff.1 h2
      obtain ⟨-, -, hb⟩ := sum_bounds l alphaMin alpha hmem
      obtain ⟨b1, b2⟩ := hb hne
      have hpos : (0 : K) < l.length := by exact_mod_cast h2
      have r1 : alphaMin < l.sum / l.length := by
        rw [lt_div_iff₀ hpos]; linarith
      have r2 : l.sum / l.length < alpha := by
        rw [div_lt_iff₀ hpos]; linarith
      exact ⟨⟨alphaMin_pos.trans r1, r2.le⟩, fun _ => ⟨r1, r2⟩⟩
    · exact ⟨⟨ha, le_rfl⟩, fun h => absurd rfl h⟩
  · exact ⟨⟨ha, le_rfl⟩, fun h => absurd rfl h⟩

/-- Two sliding contacts, one of which reverses at the full step: the step is cut to a half. -/
example : problemFriction (1 : ℚ)
    [(true, 1, [⟨0, ⟨1, 0⟩, ⟨-2, 1⟩, 1, 2⟩, ⟨0, ⟨1, 0⟩, ⟨1, 1⟩, 1, 2⟩]), (false, 1, [])] = 1 / 2 := by
  norm_num [problemFriction, assistFriction, List.filterMap_cons, frictionCandidate, V2.dot,
    alphaMin]

end Softy.LineSearchAssist
