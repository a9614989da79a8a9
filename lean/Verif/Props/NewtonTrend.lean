import Verif.Props.NewtonSteps

/-!
# C105: how a solve tightens its epsilons and tolerances from step to step

The record of the steps of a solve (`Result.log`, most recent first) is compared with the schedule
of the smoothing parameters and with the forcing terms of Eisenstat and Walker.
-/

noncomputable section

open Classical

namespace Softy.Newton

variable {V : Type*} [AddCommGroup V] [Module ℝ V]

/-- The forcing term of Eisenstat and Walker (choice two with exponent `power`, for merits which
are squared norms): `ratio` is the quotient of the merits, `t` the tolerance the previous step has
effectively been solved with; at most `orig`, at least the precision of single floats, and not
below `t ^ 2` unless that is small. -/
def eisenstatWalker (power orig ratio t : ℝ) : ℝ :=
  let eta := max ((2 : ℝ) ^ (-23 : ℤ)) (Real.sqrt ratio ^ power)
  min orig (if 1 / 10 < t ^ 2 then max eta (t ^ 2) else eta)

/-- What must hold of two consecutive steps of a solve with requested epsilons `orig` and tolerance
`origTol` after a solve with `n` iterations. -/
structure Follows (cfg : Config) (P : Problem V) (orig : List ℝ) (origTol : ℝ) (n : ℕ)
    (later earlier : Step V) : Prop where
  /-- Epsilons are left alone without adaptation. -/
  fixed : cfg.adaptive = false → later.eps = earlier.eps
  above : cfg.adaptive = true → Le orig later.eps
  /-- Otherwise each one shrinks at least by the factor which leads from one to the requested value
  in `n - 3` iterations, but not below that value, -/
  shrink : cfg.adaptive = true → 3 < n → ∀ (i : ℕ) (o e e' : ℝ), orig[i]? = some o → 0 < o → o ≤ 1 →
    earlier.eps[i]? = some e → later.eps[i]? = some e' → 0 ≤ e →
    e' ≤ max o (e * o ^ (1 / ((n : ℝ) - 3)))
  /-- and by the square root of the ratio of the merits if that is less. -/
  rate : cfg.adaptive = true → 3 < n → ∀ (i : ℕ) (o e e' m m' : ℝ), orig[i]? = some o → 0 < o → o ≤ 1 →
    earlier.eps[i]? = some e → later.eps[i]? = some e' →
    meritAt P earlier.eps earlier.x = some m → meritAt P earlier.eps earlier.x' = some m' →
    0 < m → 0 ≤ m' → e' = max o (e * min (Real.sqrt (m' / m)) (o ^ (1 / ((n : ℝ) - 3))))
  /-- The tolerance of an iterative linear solve comes from the decrease of the merit and from
  the tolerance and step size of the step before. -/
  tol : cfg.iterative = true → ∀ m m' : ℝ, meritAt P earlier.eps earlier.x = some m →
    meritAt P later.eps later.x = some m' → 0 < m → 0 ≤ m' →
    later.tol = eisenstatWalker (0.5 * (1 + Real.sqrt 0.5)) origTol (m' / m)
      (1 - earlier.alpha * (1 - earlier.tol))

theorem one_div_base {o : ℝ} {n : ℕ} (hn : 3 < n) (h0 : 0 < o) (h1 : o ≤ 1) :
    1 / epsBase o n = o ^ (1 / ((n : ℝ) - 3)) := by
  have hn' : (0 : ℝ) < (n : ℝ) - 3 := by
    have : (3 : ℝ) < n := by exact_mod_cast hn
    linarith
  have hge : 1 ≤ 1 / o := by rw [le_div_iff₀ h0]; linarith
  unfold epsBase
  rw [max_eq_left (Real.one_le_rpow hge (by positivity)), one_div o,
    Real.inv_rpow h0.le, one_div, inv_inv]

theorem epsFactor_le (o : ℝ) (n : ℕ) (a b : Option ℝ) : epsFactor o n a b ≤ 1 / epsBase o n := by
  unfold epsFactor
  split
  · split_ifs
    · exact le_rfl
    · exact min_le_right _ _
  · exact le_rfl

theorem forcing_eq {orig t m m' : ℝ} (hm : 0 < m) (hm' : 0 ≤ m') :
    forcing orig t (etaRatio (some m') (some m)) =
      eisenstatWalker (0.5 * (1 + Real.sqrt 0.5)) orig (m' / m) t := by
  unfold forcing etaRatio eisenstatWalker epsilonF32
  have e : Real.sqrt (m' / m) ^ (0.5 * (1 + Real.sqrt 0.5)) =
      (m' / m) ^ (0.5 * (0.5 * (1 + Real.sqrt 0.5))) := by
    rw [Real.sqrt_eq_rpow, ← Real.rpow_mul (by positivity)]
    norm_num
  simp only [e, gt_iff_lt, sq]
  norm_num

/-- What must hold of the first step: it starts from the raised epsilons, and its linear solve is
asked for the configured tolerance. -/
structure Begins (cfg : Config) (P : Problem V) (orig : List ℝ) (origTol : ℝ) (n : ℕ)
    (st : Step V) : Prop where
  eps : st.eps = orig.map fun o =>
    if cfg.adaptive then o * max ((1 / o) ^ (1 / ((n : ℝ) - 3))) 1 ^ ((n : ℝ) - 3) else o
  above : cfg.adaptive = true → Le orig st.eps
  raised : cfg.adaptive = true → 3 < n → (∀ o ∈ orig, 0 < o ∧ o ≤ 1) → ∀ e ∈ st.eps, e = 1
  tol : cfg.iterative = true → origTol ≤ 1 → ∀ m, meritAt P st.eps st.x = some m → 0 < m →
    st.tol = origTol

/-- State of the loop between two steps. -/
structure Between (cfg : Config) (P : Problem V) (orig : List ℝ) (origTol : ℝ) (n : ℕ)
    (s : Iter V) : Prop where
  fresh : Fresh P s
  le : cfg.adaptive = true → Le orig s.eps
  chain : s.log.IsChain (Follows cfg P orig origTol n)
  first : s.log = [] → s.meritPrev = s.meritCur ∧ s.tol = origTol ∧
    s.eps = orig.map (initEps cfg n)
  last : ∀ st, s.log.getLast? = some st → Begins cfg P orig origTol n st
  next : ∀ a t, s.log = a :: t →
    s.meritPrev = meritAt P a.eps a.x ∧
    s.eps = (if cfg.adaptive then
      List.zipWith (reduceEps n (meritAt P a.eps a.x') (meritAt P a.eps a.x)) orig a.eps
      else a.eps) ∧
    (cfg.iterative = true → s.tol = 1 - a.alpha * (1 - a.tol))

theorem Between.follows {cfg : Config} {P : Problem V} {orig : List ℝ} {origTol : ℝ} {n : ℕ}
    {s : Iter V} (h : Between cfg P orig origTol n s) (p : V) (ls : Search V) :
    (accept cfg (prepare cfg origTol s) p ls).log.IsChain (Follows cfg P orig origTol n) := by
  show ((_ : Step V) :: s.log).IsChain _
  cases hl : s.log with
  | nil => simp
  | cons a t =>
    rw [List.isChain_cons_cons]
    obtain ⟨h1, h2, h3⟩ := h.next a t hl
    refine ⟨⟨?_, h.le, ?_, ?_, ?_⟩, hl ▸ h.chain⟩
    · intro ha
      show s.eps = a.eps
      rw [h2, ha]; rfl
    · intro ha hn i o e e' ho h0 h1' hi hi' he
      have hi' : s.eps[i]? = some e' := hi'
      rw [h2, if_pos ha, List.getElem?_zipWith, ho, hi] at hi'
      simp only [Option.some.injEq] at hi'
      rw [← hi']
      unfold reduceEps
      refine max_le_max le_rfl (mul_le_mul_of_nonneg_left ?_ he)
      rw [← one_div_base hn h0 h1']
      exact epsFactor_le _ _ _ _
    · intro ha hn i o e e' m m' ho h0 h1' hi hi' hm hm' hm0 hm0'
      have hi' : s.eps[i]? = some e' := hi'
      rw [h2, if_pos ha, List.getElem?_zipWith, ho, hi] at hi'
      simp only [Option.some.injEq] at hi'
      rw [← hi', hm, hm']
      unfold reduceEps epsFactor
      simp only
      rw [if_neg (by
        rintro (h | h)
        · exact hm0.ne' h
        · exact absurd (div_nonneg hm0' hm0.le) (not_le.2 h)), one_div_base hn h0 h1']
    · intro hit m m' hm hm' hm0 hm0'
      have hm' : meritAt P s.eps s.pt.x = some m' := hm'
      show (prepare cfg origTol s).tol = _
      unfold prepare
      simp only [hit, if_true]
      rw [h3 hit, h.fresh.merit, h1, hm, hm', forcing_eq hm0 hm0']

theorem search_one {cfg : Config} {P : Problem V} {o : Oracle V} {origTol : ℝ} {s : Iter V}
    {ls : Search V} {p : V} (h : IsSearch cfg P o origTol s ls p) (hs : ls.searched = false) :
    ls.alpha = 1 := by
  have h := h.2
  unfold lineSearch at h
  simp only at h
  generalize (direction cfg P s.eps s.pt p).2 = d at h
  generalize testAlpha cfg P (prepare cfg origTol s).tol s.pt.r s.meritCur _ = test at h
  by_cases hc : cfg.rho < 1 ∧ ¬ test (moveTo P s.eps (s.pt.x + d)).r
      (P.merit s.eps (moveTo P s.eps (s.pt.x + d)).at' (moveTo P s.eps (s.pt.x + d)).r) 1
  · rw [if_pos hc] at h
    have hpt : (if cfg.assisted = true then moveTo P s.eps (s.pt.x +
          startAlpha cfg (o.contactAlpha s.iterations) (o.frictionAlpha s.iterations) • d)
        else moveTo P s.eps (s.pt.x + d)) = moveTo P s.eps (s.pt.x +
          startAlpha cfg (o.contactAlpha s.iterations) (o.frictionAlpha s.iterations) • d) := by
      by_cases ha : cfg.assisted = true
      · rw [if_pos ha]
      · rw [if_neg ha, startAlpha, if_neg ha, one_smul]
    have := (backtrack_spec _ _ _ _ _ _ _ _ _ _ h hpt).1
    rw [hs] at this
    simp at this
  · rw [if_neg hc] at h
    simp only [Option.some.injEq] at h
    rw [← h]

/-- The merit of the iterate before is remembered. -/
theorem nextIter_prev (cfg : Config) (P : Problem V) (orig : List ℝ) (n : ℕ) (m : Option ℝ)
    (s : Iter V) : (nextIter cfg P orig n m s).meritPrev = s.meritCur := by
  unfold nextIter
  simp only
  by_cases ha : cfg.adaptive = true
  · rw [if_pos ha]
    generalize List.any _ _ = b
    cases b <;> rfl
  · rw [if_neg ha]

theorem Between.begins {cfg : Config} {P : Problem V} {orig : List ℝ} {origTol : ℝ} {n : ℕ}
    {s : Iter V} (h : Between cfg P orig origTol n s) (p : V) (ls : Search V) :
    ∀ st, (accept cfg (prepare cfg origTol s) p ls).log.getLast? = some st →
      Begins cfg P orig origTol n st := by
  intro st hst
  have hst : ((⟨s.eps, s.pt.x, s.pt.r, (prepare cfg origTol s).tol, p, ls.alpha, ls.pt.x,
    ls.passed⟩ : Step V) :: s.log).getLast? = some st := hst
  cases hl : s.log with
  | nil =>
    rw [hl] at hst
    simp only [List.getLast?_singleton, Option.some.injEq] at hst
    obtain ⟨h1, h2, h3⟩ := h.first hl
    subst hst
    refine ⟨h3, h.le, ?_, ?_⟩
    · intro ha hn ho e hx
      have hx : e ∈ s.eps := hx
      rw [h3] at hx
      obtain ⟨o, hmem, rfl⟩ := List.mem_map.1 hx
      exact initEps_eq_one cfg ha n hn o (ho o hmem).1 (ho o hmem).2
    · intro hit h1' m hm hm0
      have hm : meritAt P s.eps s.pt.x = some m := hm
      show (prepare cfg origTol s).tol = origTol
      unfold prepare
      simp only [hit, if_true]
      rw [h1, h.fresh.merit, hm, forcing_eq hm0 hm0.le, h2, div_self hm0.ne']
      unfold eisenstatWalker
      simp only [Real.sqrt_one, Real.one_rpow]
      refine min_eq_left (h1'.trans ?_)
      split_ifs
      · exact (le_max_right _ _).trans (le_max_left _ _)
      · exact le_max_right _ _
  | cons a t =>
    rw [hl, List.getLast?_cons_cons, ← hl] at hst
    exact h.last st hst

theorem Between.step {cfg : Config} {P : Problem V} {o : Oracle V} {orig : List ℝ} {origTol : ℝ}
    {n : ℕ} {s : Iter V} {ls : Search V} {p : V} (h0 : ∀ e ∈ orig, 0 < e)
    (h : Between cfg P orig origTol n s) (hls : IsSearch cfg P o origTol s ls p) :
    Between cfg P orig origTol n
      (nextIter cfg P orig n ls.merit (accept cfg (prepare cfg origTol s) p ls)) := by
  have hsx := search_atX hls
  have e := nextIter_pt cfg P orig n ls.merit (accept cfg (prepare cfg origTol s) p ls)
  have hm : ls.merit = meritAt P s.eps ls.pt.x := by
    obtain ⟨h1, -, -, -⟩ := lineSearch_spec _ _ _ _ _ _ _ _ _ hls.2
    rw [h1, hsx.1, hsx.2]; rfl
  refine ⟨nextIter_fresh _ _ _ _ _ _ h0 h.le hsx.1 hsx.2 hm, ?_, ?_, ?_, ?_, ?_⟩
  · intro ha
    rw [e.2.2.2.2.2, if_pos ha]
    exact (reduce_list _ _ _ h0 (h.le ha)).1
  · rw [nextIter_log]
    exact h.follows p ls
  · intro hl
    rw [nextIter_log] at hl
    simp [accept] at hl
  · rw [nextIter_log]
    exact h.begins p ls
  · intro a t hl
    rw [nextIter_log] at hl
    obtain ⟨rfl, -⟩ := List.cons.inj hl
    refine ⟨?_, ?_, ?_⟩
    · rw [nextIter_prev]
      exact h.fresh.merit
    · rw [e.2.2.2.2.2, hm]
      show (if cfg.adaptive = true then
        List.zipWith (reduceEps n (meritAt P s.eps ls.pt.x) s.meritCur) orig s.eps else s.eps) = _
      rw [h.fresh.merit]
      rfl
    · intro hit
      rw [e.2.2.1]
      show (if cfg.iterative = true ∧ ls.searched = true then
        1 - ls.alpha * (1 - (prepare cfg origTol s).tol) else (prepare cfg origTol s).tol) =
        1 - ls.alpha * (1 - (prepare cfg origTol s).tol)
      by_cases hse : ls.searched = true
      · rw [if_pos ⟨hit, hse⟩]
      · rw [if_neg (fun h => hse h.2), search_one hls (by simpa using hse)]
        ring

theorem solveWith_start (cfg : Config) (P : Problem V) (o : Oracle V) (empty jacOk noJac : Bool)
    (sv : Solver) (x : V) (r : Result V)
    (he : ∀ e ∈ sv.eps, 0 < e ∧ (e ≤ 1 ∨ 3 ≤ sv.prevCount ∨ cfg.adaptive = false))
    (h : solveWith cfg P o empty jacOk noJac sv x = some r) :
    r.log = [] ∨ ∃ s : Iter V, mainLoop cfg P o sv.eps sv.tol sv.prevCount s = some r ∧
      Between cfg P sv.eps sv.tol sv.prevCount s := by
  have hinit : cfg.adaptive = true → Le sv.eps (sv.eps.map (initEps cfg sv.prevCount)) := by
    intro ha
    clear h
    revert he
    generalize sv.eps = l
    intro he
    induction l with
    | nil => exact .nil
    | cons e t ih =>
      refine .cons ?_ (ih fun e he' => he e (List.mem_cons_of_mem _ he'))
      refine initEps_ge cfg _ e (he e List.mem_cons_self).1 ?_
      rcases (he e List.mem_cons_self).2 with h1 | h1 | h1
      · exact Or.inl h1
      · exact Or.inr h1
      · rw [ha] at h1; simp at h1
  unfold solveWith at h
  simp only at h
  split_ifs at h with h1 h2 h3
  · simp only [Option.some.injEq] at h
    rw [← h]; exact Or.inl rfl
  · simp only [Option.some.injEq] at h
    rw [← h]; exact Or.inl rfl
  · refine Or.inr ⟨_, h, ⟨?_, hinit, by simp, fun _ => ⟨rfl, rfl, rfl⟩, by simp, by simp⟩⟩
    have hat := initialGuess_atX P (sv.eps.map (initEps cfg sv.prevCount)) 10
      (moveTo P (sv.eps.map (initEps cfg sv.prevCount)) x) rfl
    have hr := initialGuess_r P (sv.eps.map (initEps cfg sv.prevCount)) 10
      (moveTo P (sv.eps.map (initEps cfg sv.prevCount)) x) rfl
    unfold AtX at hat
    refine ⟨hat, ?_, ?_⟩
    · show Point.r _ = _
      rw [hr, hat]; rfl
    · show P.merit _ _ _ = _
      rw [hr, hat]; rfl
  · simp only [Option.some.injEq] at h
    rw [← h]; exact Or.inl rfl

/-- **C105** (partial: for requested epsilons of at most one, or after a solve of at least three
iterations, or without adaptive epsilons) In every solve each step follows the one before: the
epsilons shrink at the rate of the schedule or of the merit, and the tolerance of the linear solve
is a forcing term of Eisenstat and Walker. The first step starts from the raised epsilons and
the configured tolerance. -/
theorem solve_trend_partial (cfg : Config) (P : Problem V) (o : Oracle V)
    (empty jacOk noJac : Bool) (sv : Solver) (x : V) (r : Result V)
    (he : ∀ e ∈ sv.eps, 0 < e ∧ (e ≤ 1 ∨ 3 ≤ sv.prevCount ∨ cfg.adaptive = false))
    (h : solveWith cfg P o empty jacOk noJac sv x = some r) :
    r.log.IsChain (Follows cfg P sv.eps sv.tol sv.prevCount) ∧
    ∀ st, r.log.getLast? = some st → Begins cfg P sv.eps sv.tol sv.prevCount st := by
  rcases solveWith_start _ _ _ _ _ _ _ _ _ he h with hlog | ⟨s, hm, hb⟩
  · rw [hlog]; simp
  · exact mainLoop_ind cfg P o sv.eps sv.tol sv.prevCount
      (fun s r => Between cfg P sv.eps sv.tol sv.prevCount s →
        r.log.IsChain (Follows cfg P sv.eps sv.tol sv.prevCount) ∧
        ∀ st, r.log.getLast? = some st → Begins cfg P sv.eps sv.tol sv.prevCount st)
      (fun s h => ⟨h.chain, h.last⟩) (fun s _ h => ⟨h.chain, h.last⟩)
      (fun s st _ h => ⟨h.chain, h.last⟩) (fun s st _ h => ⟨h.chain, h.last⟩)
      (fun s ls p _ _ _ h => ⟨h.follows p ls, h.begins p ls⟩)
      (fun s ls p _ _ h => ⟨h.follows p ls, h.begins p ls⟩)
      (fun s ls p r hls _ ih h => ih (h.step (fun e hx => (he e hx).1) hls)) s r hm hb

omit [AddCommGroup V] [Module ℝ V] in
/-- Epsilons along a chain of steps. -/
theorem chain_eps {cfg : Config} {P : Problem V} {orig : List ℝ} {origTol : ℝ} {n : ℕ}
    (ha : cfg.adaptive = true) (hn : 3 < n) (ho : ∀ o ∈ orig, 0 < o ∧ o ≤ 1) {i : ℕ} {o : ℝ}
    (hi : orig[i]? = some o) :
    ∀ (l : List (Step V)), l.IsChain (Follows cfg P orig origTol n) →
      (∀ st, l.getLast? = some st → Begins cfg P orig origTol n st) →
      ∀ st t e, l = st :: t → st.eps[i]? = some e →
      e ≤ max o (o ^ ((t.length : ℝ) / ((n : ℝ) - 3))) := by
  have hn' : (0 : ℝ) < (n : ℝ) - 3 := by
    have : (3 : ℝ) < n := by exact_mod_cast hn
    linarith
  obtain ⟨h0, h1⟩ := ho o (List.mem_of_getElem? hi)
  intro l
  induction l with
  | nil => intro _ _ st t e h; simp at h
  | cons a l ih =>
    intro hc hlast st t e hst he
    obtain ⟨rfl, rfl⟩ := List.cons.inj hst
    cases hl : l with
    | nil =>
      have hb := hlast a (by rw [hl]; rfl)
      rw [hb.raised ha hn ho e (List.mem_of_getElem? he)]
      simp
    | cons b l' =>
      rw [hl, List.isChain_cons_cons, ← hl] at hc
      have hle : Le orig b.eps := by
        cases hl' : l' with
        | nil => exact (hlast b (by rw [hl, hl']; rfl)).above ha
        | cons c l'' =>
          have := hc.2
          rw [hl, hl', List.isChain_cons_cons] at this
          exact this.1.above ha
      have hlen : i < b.eps.length := by
        rw [← hle.length_eq]
        exact (List.getElem?_eq_some_iff.1 hi).1
      have hbi : b.eps[i]? = some b.eps[i] := List.getElem?_eq_getElem hlen
      have hprev := ih hc.2 (fun st h => hlast st (by
        rw [hl] at h ⊢; rw [List.getLast?_cons_cons]; exact h)) b l' _ hl hbi
      have hob : o ≤ b.eps[i] := by
        have := (List.forall₂_iff_get.1 hle).2 i
          (List.getElem?_eq_some_iff.1 hi).1 hlen
        simpa [(List.getElem?_eq_some_iff.1 hi).2] using this
      have hs := hc.1.shrink ha hn i o _ e hi h0 h1 hbi he (h0.le.trans hob)
      refine hs.trans (max_le (le_max_left _ _) ?_)
      have hp0 : 0 ≤ o ^ (1 / ((n : ℝ) - 3)) := Real.rpow_nonneg h0.le _
      have hp1 : o ^ (1 / ((n : ℝ) - 3)) ≤ 1 :=
        Real.rpow_le_one h0.le h1 (by positivity)
      refine (mul_le_mul_of_nonneg_right hprev hp0).trans ?_
      rw [max_mul_of_nonneg _ _ hp0]
      refine max_le_max (mul_le_of_le_one_right h0.le hp1) (le_of_eq ?_)
      rw [← Real.rpow_add h0]
      congr 1
      rw [List.length_cons]
      push_cast
      field_simp

/-- **C105** (partial: for requested epsilons of at most one, after a solve of more than three
iterations) In step number `k` of a solve the epsilons are at most the `k / (n - 3)`-th power of the
requested ones, or these themselves, where `n` is the number of iterations of the previous solve.
Hence from step `n - 3` on the requested epsilons are in force. -/
theorem eps_progress_partial (cfg : Config) (ha : cfg.adaptive = true) (P : Problem V)
    (o : Oracle V) (empty jacOk noJac : Bool) (sv : Solver) (x : V) (r : Result V)
    (hn : 3 < sv.prevCount) (he : ∀ e ∈ sv.eps, 0 < e ∧ e ≤ 1)
    (h : solveWith cfg P o empty jacOk noJac sv x = some r) (k : ℕ) (st : Step V)
    (hst : r.log.reverse[k]? = some st) :
    (∀ (i : ℕ) (q e : ℝ), sv.eps[i]? = some q → st.eps[i]? = some e →
      q ≤ e ∧ e ≤ max q (q ^ ((k : ℝ) / ((sv.prevCount : ℝ) - 3)))) ∧
    (sv.prevCount ≤ k + 3 → st.eps = sv.eps) := by
  obtain ⟨hc, hb⟩ := solve_trend_partial cfg P o empty jacOk noJac sv x r
    (fun e h => ⟨(he e h).1, Or.inl (he e h).2⟩) h
  have hn' : (0 : ℝ) < (sv.prevCount : ℝ) - 3 := by
    have : (3 : ℝ) < sv.prevCount := by exact_mod_cast hn
    linarith
  obtain ⟨pre, suf, hl, hk⟩ : ∃ pre suf, r.log = pre ++ st :: suf ∧ suf.length = k := by
    obtain ⟨a, b, hab, hlen⟩ := List.getElem?_eq_some_iff.1 hst |> fun ⟨hlt, e⟩ =>
      (⟨r.log.reverse.take k, r.log.reverse.drop (k + 1), by
        rw [← e, ← List.drop_eq_getElem_cons hlt, List.take_append_drop],
        by simp only [List.length_take]; omega⟩ :
        ∃ a b, r.log.reverse = a ++ st :: b ∧ a.length = k)
    refine ⟨b.reverse, a.reverse, ?_, by simpa using hlen⟩
    have := congrArg List.reverse hab
    simpa using this
  have hc' : (st :: suf).IsChain (Follows cfg P sv.eps sv.tol sv.prevCount) := by
    rw [hl] at hc
    exact (List.isChain_append.1 hc).2.1
  have hb' : ∀ st', (st :: suf).getLast? = some st' →
      Begins cfg P sv.eps sv.tol sv.prevCount st' := by
    intro st' h
    exact hb st' (by rw [hl, List.getLast?_append, h]; rfl)
  have hle : Le sv.eps st.eps := by
    cases hs : suf with
    | nil => exact (hb' st (by rw [hs]; rfl)).above ha
    | cons c t =>
      rw [hs, List.isChain_cons_cons] at hc'
      exact hc'.1.above ha
  have key : ∀ (i : ℕ) (q e : ℝ), sv.eps[i]? = some q → st.eps[i]? = some e →
      q ≤ e ∧ e ≤ max q (q ^ ((k : ℝ) / ((sv.prevCount : ℝ) - 3))) := by
    intro i q e hq hi
    refine ⟨?_, hk ▸ chain_eps ha hn he hq _ hc' hb' st suf e rfl hi⟩
    have := (List.forall₂_iff_get.1 hle).2 i (List.getElem?_eq_some_iff.1 hq).1
      (List.getElem?_eq_some_iff.1 hi).1
    simpa [(List.getElem?_eq_some_iff.1 hq).2, (List.getElem?_eq_some_iff.1 hi).2] using this
  refine ⟨key, fun hk3 => ?_⟩
  refine List.ext_getElem hle.length_eq.symm fun i h1 h2 => ?_
  have hq : sv.eps[i]? = some sv.eps[i] := List.getElem?_eq_getElem h2
  obtain ⟨k1, k2⟩ := key i _ _ hq (List.getElem?_eq_getElem h1)
  obtain ⟨h0, h1'⟩ := he _ (List.mem_of_getElem? hq)
  refine le_antisymm (k2.trans (max_le le_rfl ?_)) k1
  have h3 : 1 ≤ (k : ℝ) / ((sv.prevCount : ℝ) - 3) := by
    rw [le_div_iff₀ hn']
    have : (sv.prevCount : ℝ) ≤ k + 3 := by exact_mod_cast hk3
    linarith
  calc _ ≤ sv.eps[i] ^ (1 : ℝ) := Real.rpow_le_rpow_of_exponent_ge h0 h1' h3
    _ = _ := Real.rpow_one _

/-! ## Witnesses -/

/-- The merit of a number is its square; linear solves go three quarters of the way at first. -/
def threeQuarters : Problem ℝ where
  residual _ x := x
  merit _ _ r := some (r ^ 2)
  normSq r := some (r ^ 2)
  slope _ _ _ _ := 0
  converged _ _ _ := false

def threeQuartersOracle : Oracle ℝ :=
  ⟨fun _ => false, fun _ => .solution true (3 / 4), fun _ => 1, fun _ => 1⟩

theorem power_le : (0.5 * (1 + Real.sqrt 0.5) : ℝ) ≤ 1 := by
  have : Real.sqrt 0.5 ≤ 1 := Real.sqrt_le_one.2 (by norm_num)
  linarith

/-- A solve with an iterative linear solver, with tolerance one quarter, of two steps. -/
theorem threeQuarters_solve :
    ∃ r, solveWith { defaultConfig with iterative := true, rho := 1, maxIter := 2 }
        threeQuarters threeQuartersOracle false true false ⟨[1 / 2], [1 / 2], 1 / 4, 5⟩ 1 = some r ∧
      ∃ a b, r.log = [b, a] ∧ a.x = 1 ∧ b.x = 1 / 4 ∧ a.alpha = 1 := by
  obtain ⟨r, hr, -⟩ := solve_stops_partial
    { defaultConfig with iterative := true, rho := 1, maxIter := 2 } (by norm_num) threeQuarters
    threeQuartersOracle false true false ⟨[1 / 2], [1 / 2], 1 / 4, 5⟩ 1
  refine ⟨r, hr, ?_⟩
  unfold solveWith at hr
  simp only [Bool.false_eq_true, if_false, not_true_eq_false, List.map_cons, List.map_nil] at hr
  rw [mainLoop] at hr
  simp [threeQuartersOracle, prepare, lineSearch, accept, nextIter, moveTo, threeQuarters,
    defaultConfig, initialGuess, direction] at hr
  rw [mainLoop] at hr
  simp [prepare, lineSearch, accept, moveTo, direction] at hr
  rw [← hr]
  exact ⟨_, _, rfl, rfl, by norm_num, rfl⟩

/-- **C105 (violated)** The exponent of the forcing terms, which the code calls the golden ratio, is
`(1 + √0.5) / 2 ≈ 0.85` and not `(1 + √5) / 2 ≈ 1.62`: a linear solve after a step which reduced
the merit by a factor of sixteen is asked for a tolerance of one quarter, where Eisenstat and Walker
ask for a smaller one. -/
theorem golden_ratio_violated :
    ∃ r, solveWith { defaultConfig with iterative := true, rho := 1, maxIter := 2 }
        threeQuarters threeQuartersOracle false true false ⟨[1 / 2], [1 / 2], 1 / 4, 5⟩ 1 = some r ∧
      ∃ a b m m', r.log = [b, a] ∧ meritAt threeQuarters a.eps a.x = some m ∧
        meritAt threeQuarters b.eps b.x = some m' ∧ m' = m / 16 ∧ b.tol = 1 / 4 ∧
        eisenstatWalker ((1 + Real.sqrt 5) / 2) (1 / 4) (m' / m) (1 - a.alpha * (1 - a.tol)) <
          b.tol := by
  obtain ⟨r, hr, a, b, hl, hax, hbx, haa⟩ := threeQuarters_solve
  refine ⟨r, hr, a, b, 1, 1 / 16, hl, by simp [meritAt, threeQuarters, hax],
    by simp only [meritAt, threeQuarters, hbx]; norm_num, by norm_num, ?_⟩
  obtain ⟨hc, hb⟩ := solve_trend_partial _ _ _ _ _ _ _ _ _ (by norm_num) hr
  rw [hl] at hc hb
  have ha := hb a rfl
  have hma : meritAt threeQuarters a.eps a.x = some 1 := by simp [meritAt, threeQuarters, hax]
  have hmb : meritAt threeQuarters b.eps b.x = some (1 / 16) := by
    simp only [meritAt, threeQuarters, hbx]; norm_num
  have hta : a.tol = 1 / 4 := ha.tol rfl (by norm_num) 1 hma (by norm_num)
  rw [List.isChain_cons_cons] at hc
  have htb := hc.1.tol rfl 1 (1 / 16) hma hmb (by norm_num) (by norm_num)
  have hs : Real.sqrt (1 / 16 / 1) = 1 / 4 := by
    rw [show (1 / 16 / 1 : ℝ) = (1 / 4) ^ 2 by norm_num, Real.sqrt_sq (by norm_num)]
  have ht : ∀ p, eisenstatWalker p (1 / 4) (1 / 16 / 1) (1 - a.alpha * (1 - a.tol)) =
      min (1 / 4) (max ((2 : ℝ) ^ (-23 : ℤ)) ((1 / 4) ^ p)) := by
    intro p
    unfold eisenstatWalker
    simp only [hs, haa, hta]
    rw [if_neg (by norm_num)]
  have hb4 : b.tol = 1 / 4 := by
    rw [htb, ht]
    refine min_eq_left (le_max_of_le_right ?_)
    calc (1 / 4 : ℝ) = (1 / 4) ^ (1 : ℝ) := (Real.rpow_one _).symm
      _ ≤ _ := Real.rpow_le_rpow_of_exponent_ge (by norm_num) (by norm_num) power_le
  refine ⟨hb4, ?_⟩
  rw [hb4, ht]
  refine min_lt_of_right_lt (max_lt (by norm_num) ?_)
  calc (1 / 4 : ℝ) ^ ((1 + Real.sqrt 5) / 2) < (1 / 4) ^ (1 : ℝ) := by
        refine Real.rpow_lt_rpow_of_exponent_gt (by norm_num) (by norm_num) ?_
        have : (1 : ℝ) < Real.sqrt 5 := by
          rw [Real.lt_sqrt (by norm_num)]; norm_num
        linarith
    _ = 1 / 4 := Real.rpow_one _

/-- The hypotheses of `solve_trend_partial` and `eps_progress_partial` are met by an adaptive solve
with epsilons below one. -/
example : ∃ r, solveWith { defaultConfig with adaptive := true } trivialProblem
    (trivialOracle false) false true false ⟨[1 / 2], [1 / 2], 0, 4⟩ 0 = some r ∧
    (∀ e ∈ [(1 / 2 : ℝ)], 0 < e ∧ e ≤ 1) ∧
    ∃ st, r.log.reverse[0]? = some st ∧ st.eps = [1] := by
  have h1 : initEps { defaultConfig with adaptive := true } 4 (1 / 2) = 1 :=
    initEps_eq_one _ rfl _ (by norm_num) _ (by norm_num) (by norm_num)
  obtain ⟨r, hr, -⟩ := solve_stops_partial { defaultConfig with adaptive := true }
    (by norm_num [defaultConfig]) trivialProblem
    (trivialOracle false) false true false ⟨[1 / 2], [1 / 2], 0, 4⟩ 0
  refine ⟨r, hr, by norm_num, ?_⟩
  obtain ⟨hc, hb⟩ := solve_trend_partial _ _ _ _ _ _ _ _ _ (by norm_num) hr
  have hlen : r.log ≠ [] := by
    have hlog := fun (cfg : Config) (P : Problem ℝ) (o : Oracle ℝ) (orig : List ℝ) (t : ℝ)
      (n : ℕ) => mainLoop_ind cfg P o orig t n (fun s r => s.log ≠ [] → r.log ≠ [])
      (fun _ h => h) (fun _ _ h => h) (fun _ _ _ h => h) (fun _ _ _ h => h)
      (fun _ _ _ _ _ _ _ => by simp [finish, accept]) (fun _ _ _ _ _ _ => by simp [finish, accept])
      (fun s ls p r _ _ ih _ => ih (by rw [nextIter_log]; simp [accept]))
    unfold solveWith at hr
    simp only [Bool.false_eq_true, if_false, not_true_eq_false] at hr
    rw [mainLoop] at hr
    simp [trivialOracle, trivialProblem, lineSearch, testAlpha, direction, defaultConfig, le',
      moveTo, prepare, accept, initialGuess] at hr
    split_ifs at hr
    · simp only [Option.some.injEq] at hr
      rw [← hr]
      simp [finish]
    · exact hlog _ _ _ _ _ _ _ _ hr (by rw [nextIter_log]; simp)
  obtain ⟨st, hst⟩ : ∃ st, r.log.getLast? = some st := by
    rw [← Option.isSome_iff_exists, List.getLast?_isSome]
    exact hlen
  refine ⟨st, by rw [← hst, ← List.head?_reverse]; exact (List.head?_eq_getElem? ..).symm, ?_⟩
  have := (hb st hst).eps
  rw [this]
  simp only [List.map_cons, List.map_nil]
  congr 1

end Softy.Newton
