import Verif.Props.Newton

/-!
# C28 over whole solves

Every step of a solve, from the record of the steps it took.
-/

noncomputable section

open Classical

namespace Softy.Newton

variable {V : Type*} [AddCommGroup V] [Module ℝ V]

/-- The residual and the merit at a vector, for given epsilons. -/
def residualAt (P : Problem V) (eps : List ℝ) (x : V) : V := P.residual eps x

def meritAt (P : Problem V) (eps : List ℝ) (x : V) : Option ℝ := P.merit eps x (P.residual eps x)

/-- What must hold of step number `k` of a solve: the right-hand side of the linear system is the
residual at the iterate, for the epsilons in force; the direction comes from its solution; and if
the line search succeeded the merit decreased, in the sense of Armijo for direct solves in a
descent direction, and by the forcing term of the linear solve for iterative ones. -/
structure Step.Sound (cfg : Config) (P : Problem V) (o : Oracle V) (k : ℕ) (st : Step V) :
    Prop where
  rhs : st.rhs = residualAt P st.eps st.x
  dir : ∃ p, o.linear k = .solution true p ∧ st.dir = -p
  armijo : st.passed = true → cfg.iterative = false →
    P.slope st.eps st.x (residualAt P st.eps st.x) st.dir ≤ 0 →
    st.x' = st.x + st.alpha • st.dir ∧ 0 ≤ st.alpha ∧ st.alpha ≤ 1 ∧
    ∃ m m', meritAt P st.eps st.x = some m ∧ meritAt P st.eps st.x' = some m' ∧
      m' ≤ m + cfg.c * st.alpha * P.slope st.eps st.x (residualAt P st.eps st.x) st.dir
  inexact : st.passed = true → cfg.iterative = true →
    (∃ d, (d = st.dir ∨ d = -st.dir) ∧ st.x' = st.x + st.alpha • d) ∧
    0 ≤ st.alpha ∧ st.alpha ≤ 1 ∧
    ∃ g g', (if cfg.objMerit then P.normSq (residualAt P st.eps st.x) else meritAt P st.eps st.x)
        = some g ∧
      (if cfg.objMerit then P.normSq (residualAt P st.eps st.x') else meritAt P st.eps st.x')
        = some g' ∧
      g' ≤ g * (1 - cfg.c * st.alpha * (1 - st.tol)) ^ 2

theorem le'_some {a b : Option ℝ} (h : le' a b) : ∃ x y, a = some x ∧ b = some y ∧ x ≤ y := by
  unfold le' at h
  split at h
  · exact ⟨_, _, rfl, rfl, h⟩
  · exact h.elim

/-- State of the solver and residual agree. -/
structure Fresh (P : Problem V) (s : Iter V) : Prop where
  at' : s.pt.at' = s.pt.x
  r : s.pt.r = residualAt P s.eps s.pt.x
  merit : s.meritCur = meritAt P s.eps s.pt.x

theorem sound_of_search {cfg : Config} (hr0 : 0 ≤ cfg.rho) {P : Problem V} {o : Oracle V}
    (hca : ∀ k, 0 ≤ o.contactAlpha k) (hfa : ∀ k, 0 ≤ o.frictionAlpha k) {origTol : ℝ}
    {s : Iter V} {ls : Search V} {p : V} (hf : Fresh P s) (h : IsSearch cfg P o origTol s ls p) :
    Step.Sound cfg P o s.iterations ⟨s.eps, s.pt.x, s.pt.r, (prepare cfg origTol s).tol, p,
      ls.alpha, ls.pt.x, ls.passed⟩ := by
  obtain ⟨⟨q, hq, hpq⟩, hls⟩ := h
  obtain ⟨h1, -, h3, -⟩ := lineSearch_spec _ _ _ _ _ _ _ _ _ hls
  obtain ⟨ha0, ha1⟩ := lineSearch_alpha _ _ _ hr0 _ _ _ (hca _) (hfa _) _ _ _ hls
  have hfr := hf.r
  unfold residualAt at hfr
  refine ⟨hf.r, ⟨q, hq, hpq⟩, ?_, ?_⟩
  · intro hp hdir hslope
    obtain ⟨hr, ht, hpt⟩ := h3 hp
    dsimp only [residualAt] at hslope hp ⊢
    have hd : direction cfg P s.eps s.pt p =
        (P.slope s.eps s.pt.x (P.residual s.eps s.pt.x) p, p) := by
      unfold direction
      simp only [hr, if_true]
      rw [hf.at', hfr, if_neg (not_lt.2 hslope)]
    rw [hd] at ht hpt
    have hm : ls.merit = P.merit s.eps ls.pt.x (P.residual s.eps ls.pt.x) := by
      rw [h1, hpt]; rfl
    have hx : ls.pt.x = s.pt.x + ls.alpha • p := by rw [hpt]; rfl
    unfold testAlpha at ht
    simp only [hdir, Bool.false_eq_true, if_false] at ht
    rw [hf.merit, hm] at ht
    obtain ⟨a, b, ea, eb, hab⟩ := le'_some ht
    obtain ⟨m, em, rfl⟩ := Option.map_eq_some_iff.1 eb
    exact ⟨hx, ha0, ha1, m, a, em, ea, hab⟩
  · intro hp hit
    obtain ⟨hr, ht, hpt⟩ := h3 hp
    dsimp only [residualAt] at hp ⊢
    have hm : ls.merit = P.merit s.eps ls.pt.x (P.residual s.eps ls.pt.x) := by
      rw [h1, hpt]; rfl
    have hr' : ls.pt.r = P.residual s.eps ls.pt.x := by rw [hpt]; rfl
    refine ⟨⟨(direction cfg P s.eps s.pt p).2, ?_, by rw [hpt]; rfl⟩, ha0, ha1, ?_⟩
    · unfold direction
      simp only [hr, if_true]
      split_ifs
      · exact Or.inr rfl
      · exact Or.inl rfl
    · unfold testAlpha at ht
      simp only [hit, if_true] at ht
      rw [hf.merit, hm, hr', hfr] at ht
      obtain ⟨a, b, ea, eb, hab⟩ := le'_some ht
      obtain ⟨g, eg, rfl⟩ := Option.map_eq_some_iff.1 eb
      refine ⟨g, a, eg, ea, hab.trans (le_of_eq ?_)⟩
      ring

theorem reduce_eq_of_not_any (n : ℕ) (a b : Option ℝ) {orig eps : List ℝ}
    (h0 : ∀ e ∈ orig, 0 < e) (h : Le orig eps)
    (hu : (List.zipWith (fun o e => decide (e > o)) orig eps).any id = false) :
    List.zipWith (reduceEps n a b) orig eps = eps := by
  induction h with
  | nil => rfl
  | @cons o e _ _ hx _ ih =>
    simp only [List.zipWith_cons_cons, List.any_cons, id_eq, Bool.or_eq_false_iff,
      decide_eq_false_iff_not, not_lt] at hu
    rw [List.zipWith_cons_cons, ih (fun e he => h0 e (List.mem_cons_of_mem _ he)) hu.2]
    obtain ⟨h1, h2⟩ := reduceEps_range n a b (h0 _ List.mem_cons_self) hx
    have : e = o := le_antisymm hu.1 hx
    rw [le_antisymm h2 (this ▸ h1)]

theorem nextIter_fresh (cfg : Config) (P : Problem V) (orig : List ℝ) (n : ℕ) (m : Option ℝ)
    (s : Iter V) (h0 : ∀ e ∈ orig, 0 < e) (h : cfg.adaptive = true → Le orig s.eps)
    (hat : s.pt.at' = s.pt.x) (hr : s.pt.r = residualAt P s.eps s.pt.x)
    (hm : m = meritAt P s.eps s.pt.x) : Fresh P (nextIter cfg P orig n m s) := by
  unfold nextIter
  simp only
  by_cases ha : cfg.adaptive = true
  · rw [if_pos ha]
    cases hu : (List.zipWith (fun o e => decide (e > o)) orig s.eps).any id with
    | true =>
      simp only [if_true]
      rw [hat]
      exact ⟨rfl, rfl, rfl⟩
    | false =>
      have := reduce_eq_of_not_any n m s.meritCur h0 (h ha) hu
      simp only [this, Bool.false_eq_true, if_false]
      exact ⟨hat, hr, hm⟩
  · rw [if_neg ha]
    exact ⟨hat, hr, hm⟩

theorem nextIter_log (cfg : Config) (P : Problem V) (orig : List ℝ) (n : ℕ) (m : Option ℝ)
    (s : Iter V) : (nextIter cfg P orig n m s).log = s.log := by
  unfold nextIter
  simp only
  by_cases ha : cfg.adaptive = true
  · rw [if_pos ha]
    generalize List.any _ _ = b
    cases b <;> rfl
  · rw [if_neg ha]

/-- The steps `l`, the most recent first, are sound, contiguous and end in `x`. -/
structure Trace (cfg : Config) (P : Problem V) (o : Oracle V) (n : ℕ) (x₀ x : V)
    (l : List (Step V)) : Prop where
  length : l.length = n
  sound : ∀ k (st : Step V), l.reverse[k]? = some st → st.Sound cfg P o k
  chain : l.IsChain fun later earlier => later.x = earlier.x'
  start : ∀ st, l.getLast? = some st → st.x = x₀
  last : x = (l.head?.map Step.x').getD x₀

theorem Trace.cons {cfg : Config} {P : Problem V} {o : Oracle V} {n : ℕ} {x₀ x : V}
    {l : List (Step V)} (h : Trace cfg P o n x₀ x l) {st : Step V} (hs : st.Sound cfg P o n)
    (hx : st.x = x) : Trace cfg P o (n + 1) x₀ st.x' (st :: l) := by
  refine ⟨by simp [h.length], ?_, ?_, ?_, by simp⟩
  · intro k st' hk
    rw [List.reverse_cons] at hk
    rcases lt_or_ge k l.reverse.length with hlt | hge
    · rw [List.getElem?_append_left hlt] at hk
      exact h.sound k st' hk
    · rw [List.getElem?_append_right hge] at hk
      have hk0 : k - l.reverse.length = 0 := by
        by_contra hne
        rw [List.getElem?_eq_none (by simp only [List.length_singleton]; omega)] at hk
        simp at hk
      rw [hk0] at hk
      obtain rfl : st = st' := by simpa using hk
      have : k = n := by
        rw [List.length_reverse, h.length] at hk0 hge
        omega
      exact this ▸ hs
  · cases l with
    | nil => simp
    | cons a t =>
      rw [List.isChain_cons_cons]
      refine ⟨?_, h.chain⟩
      rw [hx, h.last]; rfl
  · intro st' hst'
    cases l with
    | nil =>
      obtain rfl : st = st' := by simpa using hst'
      rw [hx, h.last]; rfl
    | cons a t =>
      rw [List.getLast?_cons_cons] at hst'
      exact h.start st' hst'

theorem initialGuess_r (P : Problem V) (eps : List ℝ) (k : ℕ) (pt : Point V)
    (h : pt.r = P.residual eps pt.at') :
    (initialGuess P eps k pt).r = P.residual eps (initialGuess P eps k pt).at' := by
  induction k generalizing pt with
  | zero => exact h
  | succ k ih =>
    simp only [initialGuess]
    generalize (if k = 0 then (0 : V) else (0.5 : ℝ) • pt.x) = y
    split_ifs
    · exact h
    · exact ih _ rfl

/-- **C28 over whole solves** (partial: for requested epsilons of at most one, or after a solve of
at least three iterations, or without adaptive epsilons) In every solve, each step is sound: the
linear system it solves has the residual of the current iterate on its right-hand side, and every
step accepted by the line search decreases the merit for the epsilons in force. The steps are
contiguous, from the initial guess to the iterate returned. -/
theorem solve_steps_partial (cfg : Config) (hr0 : 0 ≤ cfg.rho) (P : Problem V) (o : Oracle V)
    (hca : ∀ k, 0 ≤ o.contactAlpha k) (hfa : ∀ k, 0 ≤ o.frictionAlpha k)
    (empty jacOk noJac : Bool) (sv : Solver) (x : V) (r : Result V)
    (he : ∀ e ∈ sv.eps, 0 < e ∧ (e ≤ 1 ∨ 3 ≤ sv.prevCount ∨ cfg.adaptive = false))
    (h : solveWith cfg P o empty jacOk noJac sv x = some r) :
    r.log.length = r.iterations ∧
    (∀ k (st : Step V), r.log.reverse[k]? = some st → st.Sound cfg P o k) ∧
    (r.log.IsChain fun later earlier => later.x = earlier.x') ∧
    (∀ st t, r.log = st :: t → r.pt.x = st.x') ∧
    (∀ st, r.log.getLast? = some st → st.x = (initialGuess P
      (sv.eps.map (initEps cfg sv.prevCount)) 10
      (moveTo P (sv.eps.map (initEps cfg sv.prevCount)) x)).x) := by
  rcases solveWith_cases _ _ _ _ _ _ _ _ _ h with (⟨_, _, rfl, _⟩ | ⟨_, rfl, _⟩) |
    ⟨s, hm, hit, hs, _, _, _, hat, hlog, hpt, hmer⟩
  · simp
  · simp
  have hinit : cfg.adaptive = true → Le sv.eps s.eps := by
    intro ha
    rw [hs]
    clear h hm hs
    revert he
    generalize sv.eps = l
    intro he
    induction l with
    | nil => exact .nil
    | cons e t ih =>
      refine .cons ?_ (ih fun e he' => he e (List.mem_cons_of_mem _ he'))
      refine initEps_ge cfg _ e (he e List.mem_cons_self).1 ?_
      rcases (he e List.mem_cons_self).2 with h1 | h1 | h1
      · exact Or.inl h1
      · exact Or.inr h1
      · rw [ha] at h1; simp at h1
  have key := mainLoop_ind cfg P o sv.eps sv.tol sv.prevCount
    (fun s r => ∀ x₀, Fresh P s → (cfg.adaptive = true → Le sv.eps s.eps) →
      Trace cfg P o s.iterations x₀ s.pt.x s.log → Trace cfg P o r.iterations x₀ r.pt.x r.log)
    (fun s _ _ _ ht => ht) (fun s _ _ _ _ ht => ht) (fun s st _ _ _ _ ht => ht)
    (fun s st _ _ _ _ ht => ht)
    (fun s ls p hls _ _ x₀ hf _ ht => ht.cons (sound_of_search hr0 hca hfa hf hls) rfl)
    (fun s ls p hls _ x₀ hf _ ht => ht.cons (sound_of_search hr0 hca hfa hf hls) rfl)
    (fun s ls p r hls _ ih x₀ hf hle ht => by
      have hsx := search_atX hls
      have e := nextIter_pt cfg P sv.eps sv.prevCount ls.merit
        (accept cfg (prepare cfg sv.tol s) p ls)
      refine ih x₀ (nextIter_fresh _ _ _ _ _ _ (fun e h => (he e h).1) hle hsx.1 hsx.2 ?_) ?_ ?_
      · obtain ⟨h1, -, -, -⟩ := lineSearch_spec _ _ _ _ _ _ _ _ _ hls.2
        rw [h1, hsx.1, hsx.2]; rfl
      · intro ha
        rw [e.2.2.2.2.2, if_pos ha]
        exact (reduce_list _ _ _ (fun e h => (he e h).1) (hle ha)).1
      · rw [nextIter_iterations, e.1, nextIter_log]
        exact ht.cons (sound_of_search hr0 hca hfa hf hls) rfl)
    s r hm s.pt.x ⟨hat, ?_, ?_⟩ hinit ?_
  · refine ⟨key.length, key.sound, key.chain, ?_, ?_⟩
    · intro st t hst
      have := key.last
      rw [hst] at this
      exact this
    · intro st hst
      rw [key.start st hst, hpt, hs]
  · have : s.pt.r = P.residual s.eps s.pt.at' := by
      rw [hpt]; exact initialGuess_r P _ 10 _ rfl
    rw [this, hat]; rfl
  · have : s.pt.r = P.residual s.eps s.pt.at' := by
      rw [hpt]; exact initialGuess_r P _ 10 _ rfl
    rw [hmer, this, hat]; rfl
  · rw [hit, hlog]
    exact ⟨rfl, by simp, by simp, by simp, rfl⟩

/-- The hypotheses of `solve_steps_partial` are met by a solve that takes a step. -/
example : ∃ r, solveWith defaultConfig trivialProblem (trivialOracle false) false true false
    ⟨[1 / 2], [1 / 2], 0, 4⟩ 0 = some r ∧ r.log.length = 1 := by
  have h := solve_stops_partial defaultConfig (by norm_num [defaultConfig]) trivialProblem
    (trivialOracle false) false true false ⟨[1 / 2], [1 / 2], 0, 4⟩ 0
  obtain ⟨r, hr, -⟩ := h
  refine ⟨r, hr, ?_⟩
  rw [(solve_steps_partial _ (by norm_num [defaultConfig]) _ _ (by simp [trivialOracle])
    (by simp [trivialOracle]) _ _ _ _ _ _ (by norm_num) hr).1]
  unfold solveWith at hr
  simp only [Bool.false_eq_true, if_false, not_true_eq_false] at hr
  rw [mainLoop] at hr
  simp [trivialOracle, trivialProblem, lineSearch, testAlpha, direction, defaultConfig, le',
    moveTo, prepare, accept, initEps, initialGuess] at hr
  rw [← hr]
  simp [finish]

/-- A problem whose residual is the first epsilon. -/
def epsProblem : Problem ℝ where
  residual eps _ := eps.headD 0
  merit _ _ _ := some 0
  normSq _ := some 0
  slope _ _ _ _ := 0
  converged _ _ _ := false

/-- **C28 (violated)** When a first solve is asked for an epsilon above one, the epsilon is lowered
to one and then raised after the first iteration, but the residual is not evaluated again: the
second linear system has the wrong right-hand side. -/
theorem stale_residual_violated :
    ∃ r, solveWith { defaultConfig with adaptive := true, rho := 1, maxIter := 2 } epsProblem
        (trivialOracle false) false true false ⟨[2], [2], 0, 1⟩ 0 = some r ∧
      ∃ st ∈ r.log, st.rhs ≠ epsProblem.residual st.eps st.x := by
  have h1 : initEps { defaultConfig with adaptive := true, rho := 1, maxIter := 2 } 1 2 = 1 :=
    eps_below_requested_violated
  have h2 : ∀ a b, reduceEps 1 a b 2 1 = 2 := by
    intro a b
    obtain ⟨f0, f1⟩ := epsFactor_range 2 1 a b
    unfold reduceEps
    exact max_eq_left (by linarith)
  obtain ⟨r, hr, -⟩ := solve_stops_partial
    { defaultConfig with adaptive := true, rho := 1, maxIter := 2 } (by norm_num) epsProblem
    (trivialOracle false) false true false ⟨[2], [2], 0, 1⟩ 0
  refine ⟨r, hr, ?_⟩
  unfold solveWith at hr
  simp only [Bool.false_eq_true, if_false, not_true_eq_false, List.map_cons, List.map_nil, h1] at hr
  rw [mainLoop] at hr
  simp [trivialOracle, prepare, lineSearch, accept, nextIter, h2, moveTo, epsProblem,
    defaultConfig, initialGuess, direction] at hr
  rw [mainLoop] at hr
  simp [prepare, lineSearch, accept, moveTo, direction] at hr
  rw [← hr]
  refine ⟨_, List.mem_cons_self, ?_⟩
  simp [epsProblem]

end Softy.Newton
