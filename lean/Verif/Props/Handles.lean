import Verif.Lemmas.Handles
import Mathlib.Tactic.FinCases

/-!
# C99: ids of solvers

The theorems are about the log of any schedule of calls by any number of threads, with any solvers. Its events are what
the threads see: a call that enters a new solver (`created`) or finds one (`found`), ids that are returned, steps that
begin and end.
-/

namespace Softy.Handles

variable {Mesh Params Pts σ : Type*} {n : ℕ}

/-- The event gives the id `k` for the solver `o`. -/
def Names (k o : ℕ) : Ev n Mesh Params Pts → Prop
  | .created _ k' o' _ _ => k' = k ∧ o' = o
  | .found _ k' o' => k' = k ∧ o' = o
  | _ => False

/-- What happens in a schedule, in order. -/
abbrev logOf (n : ℕ) (S : Solvers Mesh Params Pts σ) (checked : Bool) (acts : List (Act n Mesh Params Pts)) :
    List (Ev n Mesh Params Pts) := (run n S checked acts).log

theorem live_keeps (l l' : List (Ev n Mesh Params Pts)) (x : ℕ × ℕ) (hx : x ∈ live l) (hc : Ev.cleared ∉ l') :
    x ∈ live (l ++ l') := by
  induction l' using List.reverseRecOn with
  | nil => simpa using hx
  | append_singleton l' e ih =>
    rw [← List.append_assoc, live_append]
    have h0 := ih (fun h => hc (by simp [h]))
    cases e with
    | cleared => simp at hc
    | created t k o m p => exact List.mem_cons_of_mem _ h0
    | _ => exact h0

theorem keys_inj {T : List (ℕ × ℕ)} (h : (T.map Prod.fst).Nodup) {k o o' : ℕ} (h1 : (k, o) ∈ T) (h2 : (k, o') ∈ T) :
    o = o' := by
  have := List.inj_on_of_nodup_map h h1 h2 rfl
  simpa using this

/-- **C99.** Until all solvers are deleted, an id stands for one solver: whoever was told of it, and whoever asks, with
whatever mesh and parameters. -/
theorem same_solver (S : Solvers Mesh Params Pts σ) (checked : Bool) (acts : List (Act n Mesh Params Pts))
    (l₁ l₂ l₃ : List (Ev n Mesh Params Pts)) (e : Ev n Mesh Params Pts) (t : Fin n) (k o o' : ℕ)
    (hlog : logOf n S checked acts = l₁ ++ e :: l₂ ++ .found t k o' :: l₃) (he : Names k o e)
    (hc : Ev.cleared ∉ l₂) : o' = o := by
  have hg := (inv_run S checked acts).good
  rw [show (run n S checked acts).log = _ from hlog] at hg
  have hf : (k, o') ∈ live (l₁ ++ e :: l₂) := hg _ _ _ rfl
  have he' : Good S l₁ e := hg l₁ e (l₂ ++ .found t k o' :: l₃) (by simp)
  have hin : (k, o) ∈ live (l₁ ++ [e]) := by
    rw [live_append]
    cases e with
    | created t' k' o'' m p =>
      obtain ⟨rfl, rfl⟩ := he
      exact List.mem_cons_self
    | found t' k' o'' =>
      obtain ⟨rfl, rfl⟩ := he
      exact he'
    | _ => exact he.elim
  have hin' : (k, o) ∈ live (l₁ ++ e :: l₂) := by
    have := live_keeps _ l₂ _ hin hc
    simpa using this
  exact keys_inj (live_nodup _ hg.prefix) hf hin'

/-- **C99.** Solvers that are entered between two deletions get different ids, and every solver is entered once. -/
theorem distinct_ids (S : Solvers Mesh Params Pts σ) (checked : Bool) (acts : List (Act n Mesh Params Pts))
    (l₁ l₂ l₃ : List (Ev n Mesh Params Pts)) (t t' : Fin n) (k k' o o' : ℕ) (m m' : Mesh) (p p' : Params)
    (hlog : logOf n S checked acts = l₁ ++ .created t k o m p :: l₂ ++ .created t' k' o' m' p' :: l₃) :
    o ≠ o' ∧ (Ev.cleared ∉ l₂ → k ≠ k') := by
  have hg := (inv_run S checked acts).good
  rw [show (run n S checked acts).log = _ from hlog] at hg
  obtain ⟨h1, -, h3, -⟩ : Good S (l₁ ++ .created t k o m p :: l₂) (.created t' k' o' m' p') := hg _ _ _ rfl
  constructor
  · rintro rfl
    exact h3 t k m p (by simp)
  · rintro hc rfl
    have hin : (k, o) ∈ live (l₁ ++ [Ev.created t k o m p]) := by
      rw [live_append]
      exact List.mem_cons_self
    have hin' := live_keeps _ l₂ _ hin hc
    simp only [List.append_assoc, List.singleton_append] at hin'
    exact h1 (List.mem_map.2 ⟨_, hin', rfl⟩)

/-- **C99.** A solver that is found was entered under this id, and all solvers have not been deleted since. -/
theorem found_created (S : Solvers Mesh Params Pts σ) (checked : Bool) (acts : List (Act n Mesh Params Pts))
    (l₁ l₂ : List (Ev n Mesh Params Pts)) (t : Fin n) (k o : ℕ)
    (hlog : logOf n S checked acts = l₁ ++ .found t k o :: l₂) :
    ∃ a b t' m p, l₁ = a ++ .created t' k o m p :: b ∧ Ev.cleared ∉ b := by
  have hg := (inv_run S checked acts).good
  rw [show (run n S checked acts).log = _ from hlog] at hg
  have hf : (k, o) ∈ live l₁ := hg _ _ _ rfl
  clear hlog hg
  induction l₁ using List.reverseRecOn with
  | nil => simp [live] at hf
  | append_singleton l e ih =>
    rw [live_append] at hf
    have old : (k, o) ∈ live l → Ev.cleared ≠ e →
        ∃ a b t' m p, l ++ [e] = a ++ .created t' k o m p :: b ∧ Ev.cleared ∉ b := by
      intro hf hne
      obtain ⟨a, b, t', m, p, rfl, hb⟩ := ih hf
      exact ⟨a, b ++ [e], t', m, p, by simp, by simp [hb, hne]⟩
    cases e with
    | created t' k' o' m p =>
      simp only [liveStep, List.mem_cons, Prod.mk.injEq] at hf
      rcases hf with ⟨rfl, rfl⟩ | hf
      · exact ⟨l, [], t', m, p, rfl, by simp⟩
      · exact old hf (by simp)
    | cleared => simp [liveStep] at hf
    | _ => exact old hf (by simp)

/-- **C99.** A solver is entered by the call that built it, from the mesh and the parameters of this call. -/
theorem created_built (S : Solvers Mesh Params Pts σ) (checked : Bool) (acts : List (Act n Mesh Params Pts))
    (t : Fin n) (k o : ℕ) (m : Mesh) (p : Params) (h : Ev.created t k o m p ∈ logOf n S checked acts) :
    (S.build m p).isSome = true := by
  obtain ⟨l₁, l₂, hl⟩ := List.append_of_mem h
  have := (inv_run S checked acts).good _ _ _ hl
  exact this.2.2.2

theorem validateId_cast (k : ℕ) (h : k < 2 ^ 32) : validateId (k : ℤ) = some k := by
  have : (k : ℤ) % 2 ^ 32 = k := Int.emod_eq_of_lt (by positivity) (by exact_mod_cast h)
  rw [validateId, this]
  simp

/-- **C99.** An id that is returned is not negative, it is valid when it is given back, and it is the one that this thread
created or found last. The id of a failure is not valid. -/
theorem returned_id (S : Solvers Mesh Params Pts σ) (checked : Bool) (acts : List (Act n Mesh Params Pts))
    (l₁ l₂ : List (Ev n Mesh Params Pts)) (t : Fin n) (id : ℤ) (o : ℕ)
    (hlog : logOf n S checked acts = l₁ ++ .returned t id o :: l₂) :
    (∃ k : ℕ, id = k ∧ validateId id = some k ∧ ∃ a e b, l₁ = a ++ e :: b ∧ Names k o e ∧
      ((∃ m p, e = .created t k o m p) ∨ e = .found t k o) ∧
      (∀ k' o' m p, Ev.created t k' o' m p ∉ b) ∧ ∀ k' o', Ev.found t k' o' ∉ b) ∧ validateId (-1) = none := by
  refine ⟨?_, by decide⟩
  have hg := (inv_run S checked acts).good
  rw [show (run n S checked acts).log = _ from hlog] at hg
  obtain ⟨k, rfl, hacq⟩ : Good S l₁ (.returned t id o) := hg _ _ _ rfl
  have hg1 : AllGood S l₁ := hg.prefix
  have hk : k < 2 ^ 32 := by
    rcases acquired_mem _ _ _ _ hacq with ⟨m, p, h⟩ | h
    · obtain ⟨a, b, rfl⟩ := List.append_of_mem h
      exact (hg1 _ _ _ rfl).2.1
    · obtain ⟨a, b, rfl⟩ := List.append_of_mem h
      have hm : (k, o) ∈ live a := hg1 _ _ _ rfl
      exact (live_created a hg1.prefix _ _ hm).1
  refine ⟨k, rfl, validateId_cast k hk, ?_⟩
  clear hlog hg hg1
  induction l₁ using List.reverseRecOn with
  | nil => simp [acquired] at hacq
  | append_singleton l e ih =>
    rw [acquired_append] at hacq
    have old : acquired t l = some (k, o) → (∀ k' o' m p, Ev.created t k' o' m p ≠ e) →
        (∀ k' o', Ev.found t k' o' ≠ e) → ∃ a e' b, l ++ [e] = a ++ e' :: b ∧ Names k o e' ∧
      ((∃ m p, e' = .created t k o m p) ∨ e' = .found t k o) ∧
      (∀ k' o' m p, Ev.created t k' o' m p ∉ b) ∧ ∀ k' o', Ev.found t k' o' ∉ b := by
      intro h h1 h2
      obtain ⟨a, e', b, rfl, h3, h4, h5, h6⟩ := ih h
      refine ⟨a, e', b ++ [e], by simp, h3, h4, ?_, ?_⟩
      · intro k' o' m p hm
        rcases List.mem_append.1 hm with hm | hm
        · exact h5 _ _ _ _ hm
        · exact h1 _ _ _ _ (List.mem_singleton.1 hm)
      · intro k' o' hm
        rcases List.mem_append.1 hm with hm | hm
        · exact h6 _ _ hm
        · exact h2 _ _ (List.mem_singleton.1 hm)
    cases e with
    | created t' k' o' m p =>
      simp only [acqStep] at hacq
      by_cases ht : t' = t
      · subst ht
        rw [if_pos rfl] at hacq
        cases hacq
        exact ⟨l, _, [], rfl, ⟨rfl, rfl⟩, Or.inl ⟨m, p, rfl⟩, by simp, by simp⟩
      · rw [if_neg ht] at hacq
        exact old hacq (by rintro _ _ _ _ h; cases h; exact ht rfl) (by simp)
    | found t' k' o' =>
      simp only [acqStep] at hacq
      by_cases ht : t' = t
      · subst ht
        rw [if_pos rfl] at hacq
        cases hacq
        exact ⟨l, _, [], rfl, ⟨rfl, rfl⟩, Or.inr rfl, by simp, by simp⟩
      · rw [if_neg ht] at hacq
        exact old hacq (by simp) (by rintro _ _ h; cases h; exact ht rfl)
    | _ => exact old hacq (by simp) (by simp)

/-! ## Steps -/

/-- A solver on its own: built from a mesh and parameters and stepped with these points one after the other. What it
answers to the last of them. -/
def alone (S : Solvers Mesh Params Pts σ) (s : σ) (inputs : List (Option Pts)) (last : Option Pts) :
    Option Mesh × Cook :=
  (apiStep S (inputs.foldl (fun s p => (apiStep S s p).1) s) last).2

/-- The points of the steps with the solver `o` that ended, in order. -/
def inputsOf (o : ℕ) : List (Ev n Mesh Params Pts) → List (Option Pts)
  | [] => []
  | .stepped _ o' pts _ :: l => if o' = o then pts :: inputsOf o l else inputsOf o l
  | _ :: l => inputsOf o l

theorem inputsOf_eq (o : ℕ) (l : List (Ev n Mesh Params Pts)) : inputsOf o l = history o l := by
  induction l with
  | nil => rfl
  | cons e l ih =>
    unfold history at ih ⊢
    cases e with
    | stepped t o' pts out =>
      by_cases ho : o' = o <;> simp [inputsOf, histStep, ho, ih, List.filterMap_cons]
    | _ => simpa [inputsOf, histStep, List.filterMap_cons] using ih

/-- **C99.** What a step answers is what the solver would have answered had it been alone in the process, from the mesh
and the parameters with which it was built and with the points of its own steps only: other solvers, other threads and
deletions of all solvers have no influence. -/
theorem step_alone (S : Solvers Mesh Params Pts σ) (checked : Bool) (acts : List (Act n Mesh Params Pts))
    (l₁ l₂ : List (Ev n Mesh Params Pts)) (t : Fin n) (o : ℕ) (pts : Option Pts) (out : Option Mesh × Cook)
    (hlog : logOf n S checked acts = l₁ ++ .stepped t o pts out :: l₂) :
    ∃ t' k m p s, Ev.created t' k o m p ∈ l₁ ∧ S.build m p = some s ∧ out = alone S s (inputsOf o l₁) pts := by
  have hg := (inv_run S checked acts).good
  rw [show (run n S checked acts).log = _ from hlog] at hg
  obtain ⟨-, t', k, m, p, s, h1, h2, h3⟩ : Good S l₁ (.stepped t o pts out) := hg _ _ _ rfl
  exact ⟨t', k, m, p, s, h1, h2, by rw [inputsOf_eq, h3]; rfl⟩

theorem pending_split (l : List (Ev n Mesh Params Pts)) (t : Fin n) (o : ℕ) :
    pending t l = some o → ∃ a b, l = a ++ .began t o :: b ∧ ∀ o' pts out, Ev.stepped t o' pts out ∉ b := by
  induction l using List.reverseRecOn with
  | nil => simp [pending]
  | append_singleton l e ih =>
    intro h
    rw [pending_append] at h
    have old : pending t l = some o → (∀ o' pts out, Ev.stepped t o' pts out ≠ e) →
        ∃ a b, l ++ [e] = a ++ .began t o :: b ∧ ∀ o' pts out, Ev.stepped t o' pts out ∉ b := by
      intro h hne
      obtain ⟨a, b, rfl, h1⟩ := ih h
      refine ⟨a, b ++ [e], by simp, fun o' pts out hm => ?_⟩
      rcases List.mem_append.1 hm with hm | hm
      · exact h1 _ _ _ hm
      · exact hne _ _ _ (List.mem_singleton.1 hm)
    cases e with
    | began t' o' =>
      simp only [pendStep] at h
      by_cases ht : t' = t
      · subst ht
        rw [if_pos rfl] at h
        cases h
        exact ⟨l, [], rfl, by simp⟩
      · rw [if_neg ht] at h
        exact old h (by simp)
    | stepped t' o' pts out =>
      simp only [pendStep] at h
      by_cases ht : t' = t
      · rw [if_pos ht] at h
        cases h
      · rw [if_neg ht] at h
        exact old h (by rintro _ _ _ h; cases h; exact ht rfl)
    | _ => exact old h (by simp)

theorem pending_keeps (l l' : List (Ev n Mesh Params Pts)) (t : Fin n) (o : ℕ) (h : pending t l = some o)
    (hb : ∀ o', Ev.began t o' ∉ l') (hs : ∀ o' pts out, Ev.stepped t o' pts out ∉ l') :
    pending t (l ++ l') = some o := by
  induction l' using List.reverseRecOn with
  | nil => simpa using h
  | append_singleton l' e ih =>
    rw [← List.append_assoc, pending_append]
    have h0 := ih (fun o' hm => hb o' (by simp [hm])) (fun o' p q hm => hs o' p q (by simp [hm]))
    cases e with
    | began t' o' =>
      have : t' ≠ t := by rintro rfl; exact hb o' (by simp)
      simp [pendStep, this, h0]
    | stepped t' o' p q =>
      have : t' ≠ t := by rintro rfl; exact hs o' p q (by simp)
      simp [pendStep, this, h0]
    | _ => exact h0

/-- **C99.** Steps of a solver do not overlap: a second one begins after the first one has ended. Each is made with a
solver that was returned to someone. -/
theorem steps_exclusive (S : Solvers Mesh Params Pts σ) (checked : Bool) (acts : List (Act n Mesh Params Pts))
    (l₁ l₂ l₃ : List (Ev n Mesh Params Pts)) (t t' : Fin n) (o : ℕ)
    (hlog : logOf n S checked acts = l₁ ++ .began t o :: l₂ ++ .began t' o :: l₃) :
    (∃ pts out, Ev.stepped t o pts out ∈ l₂) ∧ ∃ t'' id, Ev.returned t'' id o ∈ l₁ := by
  have hg := (inv_run S checked acts).good
  rw [show (run n S checked acts).log = _ from hlog] at hg
  have h2 : Good S (l₁ ++ .began t o :: l₂) (.began t' o) := hg _ _ _ rfl
  have h1 : Good S l₁ (.began t o) := hg l₁ _ (l₂ ++ .began t' o :: l₃) (by simp)
  refine ⟨?_, h1.2.2⟩
  by_contra hno
  push Not at hno
  -- as long as the step has not ended, it is pending
  have key : ∀ l, l <+: l₂ → pending t (l₁ ++ .began t o :: l) = some o := by
    intro l
    induction l using List.reverseRecOn with
    | nil => intro _; rw [pending_append]; simp [pendStep]
    | append_singleton l e ih =>
      intro hpre
      obtain ⟨r, hr⟩ := hpre
      have h0 := ih ⟨e :: r, by simpa using hr⟩
      have hge : Good S (l₁ ++ .began t o :: l) e := by
        refine hg _ e (r ++ .began t' o :: l₃) ?_
        rw [← hr]
        simp
      rw [show l₁ ++ Ev.began t o :: (l ++ [e]) = (l₁ ++ Ev.began t o :: l) ++ [e] by simp, pending_append, h0]
      cases e with
      | began t'' o'' =>
        have : t'' ≠ t := by
          rintro rfl
          rw [hge.1] at h0
          cases h0
        simp [pendStep, this]
      | stepped t'' o'' p q =>
        have : t'' ≠ t := by
          rintro rfl
          have h4 := hge.1
          rw [h0] at h4
          cases h4
          exact hno p q (hr ▸ by simp)
        simp [pendStep, this]
      | _ => rfl
  exact h2.2.1 t (key l₂ (List.prefix_refl _))

/-- **C99.** A step is turned away only while another thread makes a step with the same solver. -/
theorem busy_only_if (S : Solvers Mesh Params Pts σ) (checked : Bool) (acts : List (Act n Mesh Params Pts))
    (l₁ l₂ : List (Ev n Mesh Params Pts)) (t : Fin n) (o : ℕ)
    (hlog : logOf n S checked acts = l₁ ++ .busy t o :: l₂) :
    ∃ t' a b, t' ≠ t ∧ l₁ = a ++ .began t' o :: b ∧ ∀ o' pts out, Ev.stepped t' o' pts out ∉ b := by
  have hg := (inv_run S checked acts).good
  rw [show (run n S checked acts).log = _ from hlog] at hg
  obtain ⟨t', hne, hp⟩ : Good S l₁ (.busy t o) := hg _ _ _ rfl
  obtain ⟨a, b, h1, h2⟩ := pending_split _ _ _ hp
  exact ⟨t', a, b, hne, h1, h2⟩

/-- **C99.** When the points of a step are not accepted, the solver makes no step, no mesh is returned, and the result is
not a success; otherwise the mesh is the one after the step. -/
theorem step_answers (S : Solvers Mesh Params Pts σ) (s : σ) (pts : Option Pts) :
    ((∃ p e, pts = some p ∧ (S.update s p).2 = some e ∧ apiStep S s pts =
        ((S.update s p).1, none, if e = .attrib then .warning else .error)) ∨
      ∃ s', (pts = none ∧ s' = s ∨ ∃ p, pts = some p ∧ S.update s p = (s', none)) ∧
        apiStep S s pts = ((S.solve s').1, some (S.mesh (S.solve s').1), (S.solve s').2)) := by
  cases pts with
  | none => exact Or.inr ⟨s, Or.inl ⟨rfl, rfl⟩, rfl⟩
  | some p =>
    simp only [apiStep]
    rcases hu : S.update s p with ⟨s', _ | e⟩
    · exact Or.inr ⟨s', Or.inr ⟨p, rfl, hu⟩, rfl⟩
    · refine Or.inl ⟨p, e, rfl, by rw [hu], ?_⟩
      cases e <;> simp [hu]

/-! ## Full registries and panics -/

/-- The number of solvers that were entered since all solvers were deleted last. -/
def entered : List (Ev n Mesh Params Pts) → ℕ :=
  List.foldl (fun c e => match e with | .created _ _ _ _ _ => c + 1 | .cleared => 0 | _ => c) 0

theorem entered_eq (l : List (Ev n Mesh Params Pts)) : entered l = (live l).length := by
  induction l using List.reverseRecOn with
  | nil => rfl
  | append_singleton l e ih =>
    rw [live_append]
    unfold entered at ih ⊢
    rw [List.foldl_append, List.foldl_cons, List.foldl_nil, ih]
    cases e <;> simp [liveStep]

/-- **C99.** The registry is reported full only when it has `2 ^ 32` solvers. -/
theorem full_only_if (S : Solvers Mesh Params Pts σ) (checked : Bool) (acts : List (Act n Mesh Params Pts))
    (l₁ l₂ : List (Ev n Mesh Params Pts)) (t : Fin n)
    (hlog : logOf n S checked acts = l₁ ++ .failed t .full :: l₂) : entered l₁ = 2 ^ 32 := by
  have hg := (inv_run S checked acts).good
  rw [show (run n S checked acts).log = _ from hlog] at hg
  rw [entered_eq]
  exact hg _ _ _ rfl

theorem lookup_of_mem (T : List (ℕ × ℕ)) (h : (T.map Prod.fst).Nodup) (k o : ℕ) (hm : (k, o) ∈ T) :
    T.lookup k = some o := by
  cases hl : T.lookup k with
  | some o' => rw [keys_inj h hm (lookup_mem _ _ _ hl)]
  | none =>
    rw [List.lookup_eq_none_iff] at hl
    have := hl _ hm
    simp at this

theorem run_append (S : Solvers Mesh Params Pts σ) (checked : Bool) (acts acts' : List (Act n Mesh Params Pts)) :
    run n S checked (acts ++ acts') = acts'.foldl (step S checked) (run n S checked acts) := by
  simp [run]

/-- **C99.** Asking for an id that was given since all solvers were deleted last finds its solver. -/
theorem known_found (S : Solvers Mesh Params Pts σ) (checked : Bool) (acts : List (Act n Mesh Params Pts))
    (l₁ l₂ : List (Ev n Mesh Params Pts)) (e : Ev n Mesh Params Pts) (k o : ℕ)
    (hlog : logOf n S checked acts = l₁ ++ e :: l₂) (he : Names k o e) (hc : Ev.cleared ∉ l₂)
    (t : Fin n) (ht : (run n S checked acts).pcs t = .idle) (hd : (run n S checked acts).dead = false)
    (mesh : Option Mesh) (params : Params) :
    logOf n S checked (acts ++ [.get t k mesh params]) = logOf n S checked acts ++ [.found t k o] := by
  have hinv := inv_run S checked acts
  have hg := hinv.good
  have hin : (k, o) ∈ live (run n S checked acts).log := by
    rw [show (run n S checked acts).log = _ from hlog] at hg ⊢
    have he' : Good S l₁ e := hg _ _ _ rfl
    have hin : (k, o) ∈ live (l₁ ++ [e]) := by
      rw [live_append]
      cases e with
      | created t' k' o'' m p =>
        obtain ⟨rfl, rfl⟩ := he
        exact List.mem_cons_self
      | found t' k' o'' =>
        obtain ⟨rfl, rfl⟩ := he
        exact he'
      | _ => exact he.elim
    simpa using live_keeps _ l₂ _ hin hc
  have hlook : (run n S checked acts).table.lookup k = some o := by
    rw [hinv.table]
    exact lookup_of_mem _ (live_nodup _ hg) _ _ hin
  have hv := validateId_cast k (live_created _ hg _ _ hin).1
  simp only [logOf, run_append, List.foldl_cons, List.foldl_nil, step, hd, ht, doGet, hv, hlook, World.emit, World.goto,
    Bool.false_eq_true, if_false]

theorem strong_two (w : World n Mesh Params Pts σ) (k o : ℕ) (t : Fin n) (hm : (k, o) ∈ w.table)
    (ht : (w.pcs t).holds o = true) : 2 ≤ strong w o := by
  have h1 : 0 < (w.table.filter fun e => e.2 = o).length :=
    List.length_pos_of_mem (List.mem_filter.2 ⟨hm, by simp⟩)
  have h2 : 0 < (Finset.univ.filter fun t => (w.pcs t).holds o = true).card :=
    Finset.card_pos.2 ⟨t, by simp [ht]⟩
  unfold strong
  omega

/-- **C99.** Asking with an id that is not valid, with a mesh and parameters that a solver can be built from, enters a new
solver and returns its id, as long as there are fewer than `2 ^ 32` of them and the build does not check for overflows. -/
theorem new_solver (S : Solvers Mesh Params Pts σ) (acts : List (Act n Mesh Params Pts)) (t : Fin n)
    (ht : (run n S false acts).pcs t = .idle) (hd : (run n S false acts).dead = false) (id : ℤ)
    (hid : validateId id = none) (m : Mesh) (p : Params) (hb : (S.build m p).isSome = true)
    (hroom : entered (logOf n S false acts) < 2 ^ 32) :
    ∃ k o : ℕ, logOf n S false (acts ++ [.get t id (some m) p, .build t, .insert t, .check t]) =
      logOf n S false acts ++ [.created t k o m p, .returned t k o] := by
  have hinv := inv_run S false acts
  obtain ⟨s, hs⟩ := Option.isSome_iff_exists.1 hb
  set w := run n S false acts with hw
  have hsearch : ∃ k, search false (w.table.map Prod.fst) (2 ^ 32) w.counter = .vacant k := by
    cases h : search false (w.table.map Prod.fst) (2 ^ 32) w.counter with
    | vacant k => exact ⟨k, rfl⟩
    | overflow => exact (search_overflow _ _ h).elim
    | full k =>
      exfalso
      have hf := search_full_all _ _ hinv.counter h
      rw [entered_eq, ← List.length_map (f := Prod.fst)] at hroom
      rw [hinv.table] at hf
      refine absurd (length_of_all (2 ^ 32) _ (live_nodup _ hinv.good) ?_ hf) (ne_of_lt hroom)
      intro k hk
      obtain ⟨⟨a, b⟩, hab, rfl⟩ := List.mem_map.1 hk
      exact (live_created _ hinv.good a b hab).1
  obtain ⟨k, hk⟩ := hsearch
  have hnotone : ∀ w' : World n Mesh Params Pts σ, w'.table = (k, w.heap.length) :: w.table →
      w'.pcs t = .checking k w.heap.length → strong w' w.heap.length ≠ 1 := by
    intro w' h1 h2
    have := strong_two w' k w.heap.length t (by rw [h1]; exact List.mem_cons_self) (by simp [h2, Pc.holds])
    omega
  refine ⟨k, w.heap.length, ?_⟩
  simp only [logOf, run_append, List.foldl_cons, List.foldl_nil, ← hw]
  have e1 : step S false w (.get t id (some m) p) = w.goto t (.building true (some m) p) := by
    simp only [step, hd, ht, doGet, hid, Bool.false_eq_true, if_false]
  have e2 : step S false (w.goto t (.building true (some m) p)) (.build t) =
      { w.goto t (.inserting true w.heap.length m p) with heap := w.heap ++ [(s, false)] } := by
    simp [step, hd, doBuild, hs, World.goto]
  rw [e1, e2]
  have e3 : step S false { w.goto t (.inserting true w.heap.length m p) with heap := w.heap ++ [(s, false)] }
      (.insert t) = ({ w.goto t (.checking k w.heap.length) with
        counter := k, table := (k, w.heap.length) :: w.table, heap := w.heap ++ [(s, false)] }).emit
          (.created t k w.heap.length m p) := by
    have hk' : search false (List.map Prod.fst w.table) 4294967296 w.counter = .vacant k := hk
    simp [step, hd, doInsert, World.goto, World.emit, hk']
  rw [e3]
  generalize hw' : ({ w.goto t (.checking k w.heap.length) with
        counter := k, table := (k, w.heap.length) :: w.table, heap := w.heap ++ [(s, false)] } :
          World n Mesh Params Pts σ).emit (.created t k w.heap.length m p) = w'
  have hp : w'.pcs t = .checking k w.heap.length := by rw [← hw']; simp [World.goto, World.emit]
  have hdd : w'.dead = false := by rw [← hw']; exact hd
  have hlog' : w'.log = w.log ++ [.created t k w.heap.length m p] := by rw [← hw']; rfl
  have hn := hnotone w' (by rw [← hw']; rfl) hp
  simp [step, hdd, hp, doCheck, hn, World.emit, World.goto, hlog']

/-- **C99.** Without a mesh there is no new solver. -/
theorem missing_mesh (S : Solvers Mesh Params Pts σ) (checked : Bool) (acts : List (Act n Mesh Params Pts)) (t : Fin n)
    (ht : (run n S checked acts).pcs t = .idle) (hd : (run n S checked acts).dead = false) (id : ℤ)
    (hid : validateId id = none) (p : Params) :
    logOf n S checked (acts ++ [.get t id none p, .build t]) = logOf n S checked acts ++ [.failed t .missing] := by
  simp [logOf, run_append, step, hd, ht, doGet, hid, doBuild, World.goto, World.emit]

/-- The thread is in a call of `get_solver`. -/
def InGet : Pc Mesh Params Pts → Prop
  | .building true _ _ => True
  | .inserting true _ _ _ => True
  | .checking _ _ => True
  | _ => False

/-- No other thread is in a call of `get_solver` when all solvers are deleted. -/
def QuietClears (n : ℕ) (S : Solvers Mesh Params Pts σ) (acts : List (Act n Mesh Params Pts)) : Prop :=
  ∀ l₁ t l₂, acts = l₁ ++ .clear t :: l₂ → ∀ t', t' ≠ t → ¬ InGet ((run n S false l₁).pcs t')

theorem calm (S : Solvers Mesh Params Pts σ) (acts : List (Act n Mesh Params Pts)) :
    QuietClears n S acts → (∀ t k o, (run n S false acts).pcs t = .checking k o → (k, o) ∈ (run n S false acts).table) ∧
      ∀ t, Ev.aborted t ∉ (run n S false acts).log := by
  induction acts using List.reverseRecOn with
  | nil => intro _; simp [run, initial]
  | append_singleton acts a ih =>
    intro hq
    obtain ⟨h1, h2⟩ := ih (fun l₁ t l₂ h => hq l₁ t (l₂ ++ [a]) (by rw [h]; simp))
    have hlast : ∀ t, a = .clear t → ∀ t', t' ≠ t → ¬ InGet ((run n S false acts).pcs t') :=
      fun t h => hq acts t [] (by rw [h])
    have hinv := inv_run S false acts
    rw [run_append, List.foldl_cons, List.foldl_nil]
    generalize run n S false acts = w at *
    unfold step
    by_cases hd : w.dead = true
    · rw [if_pos hd]
      exact ⟨h1, h2⟩
    rw [if_neg hd]
    -- a move to a place that is not `checking`
    have plain : ∀ (t : Fin n) (pc : Pc Mesh Params Pts), (∀ k o, pc ≠ .checking k o) → ∀ t' k o,
        Function.update w.pcs t pc t' = .checking k o → (k, o) ∈ w.table := by
      intro t pc hpc t' k o h
      rcases goto_cases t t' _ _ h with ⟨-, h⟩ | ⟨-, h⟩
      · exact (hpc _ _ h).elim
      · exact h1 _ _ _ h
    cases a with
    | get t id mesh params =>
      cases ht : w.pcs t <;> simp only [ht]
      case idle =>
        unfold doGet
        cases validateId id with
        | none => exact ⟨plain t _ (by simp), h2⟩
        | some key =>
          cases hl : w.table.lookup key with
          | none => simp only [hl]; exact ⟨plain t _ (by simp), h2⟩
          | some o =>
            simp only [hl]
            refine ⟨fun t' k' o' h => ?_, by simpa [World.emit, World.goto] using h2⟩
            rcases goto_cases t t' _ _ h with ⟨rfl, hk⟩ | ⟨-, hk⟩
            · cases hk
              exact lookup_mem _ _ _ hl
            · exact h1 _ _ _ hk
      all_goals exact ⟨h1, h2⟩
    | register t mesh params =>
      cases ht : w.pcs t <;> simp only [ht]
      case idle => exact ⟨plain t _ (by simp), h2⟩
      all_goals exact ⟨h1, h2⟩
    | build t =>
      cases ht : w.pcs t <;> simp only [ht]
      case building g m p =>
        cases m with
        | none => exact ⟨plain t _ (by simp), by simpa [doBuild, World.emit, World.goto] using h2⟩
        | some m =>
          simp only [doBuild]
          cases S.build m p with
          | none => exact ⟨plain t _ (by simp), by simpa [World.emit, World.goto] using h2⟩
          | some s => exact ⟨plain t _ (by simp), h2⟩
      all_goals exact ⟨h1, h2⟩
    | insert t =>
      cases ht : w.pcs t <;> simp only [ht]
      case inserting g o m p =>
        unfold doInsert
        cases hs : search false (w.table.map Prod.fst) (2 ^ 32) w.counter with
        | vacant key =>
          simp only
          by_cases hg : g = true
          · rw [if_pos hg]
            refine ⟨fun t' k' o' h => ?_, by simpa [World.emit, World.goto] using h2⟩
            rcases goto_cases t t' _ _ h with ⟨rfl, hk⟩ | ⟨-, hk⟩
            · cases hk
              exact List.mem_cons_self
            · exact List.mem_cons_of_mem _ (h1 _ _ _ hk)
          · rw [if_neg hg]
            exact ⟨fun t' k' o' h => List.mem_cons_of_mem _ (plain t _ (by simp) _ _ _ h),
              by simpa [World.emit, World.goto] using h2⟩
        | full key => exact ⟨plain t _ (by simp), by simpa [World.emit, World.goto] using h2⟩
        | overflow => exact (search_overflow _ _ hs).elim
      all_goals exact ⟨h1, h2⟩
    | check t =>
      cases ht : w.pcs t <;> simp only [ht]
      case checking k o =>
        have := strong_two w k o t (h1 _ _ _ ht) (by simp [ht, Pc.holds])
        unfold doCheck
        rw [if_neg (by omega)]
        exact ⟨plain t _ (by simp), by simpa [World.emit, World.goto] using h2⟩
      all_goals exact ⟨h1, h2⟩
    | clear t =>
      cases ht : w.pcs t <;> simp only [ht]
      case idle =>
        refine ⟨fun t' k' o' h => ?_, by simpa [doClear, World.emit, World.goto] using h2⟩
        have h' : w.pcs t' = .checking k' o' := h
        have hne : t' ≠ t := by
          rintro rfl
          rw [ht] at h'
          cases h'
        refine absurd ?_ (hlast t rfl t' hne)
        rw [h']
        trivial
      all_goals exact ⟨h1, h2⟩
    | beginStep t o pts =>
      cases ht : w.pcs t <;> simp only [ht]
      case idle =>
        by_cases ho : o ∈ w.boxes
        · rw [if_pos ho]
          unfold doBegin
          split
          · exact ⟨plain t _ (by simp), by simpa [World.emit, World.goto] using h2⟩
          · exact ⟨h1, by simpa [World.emit, World.goto] using h2⟩
          · exact ⟨h1, h2⟩
        · rw [if_neg ho]
          exact ⟨h1, h2⟩
      all_goals exact ⟨h1, h2⟩
    | endStep t =>
      cases ht : w.pcs t <;> simp only [ht]
      case stepping o pts =>
        unfold doEnd
        split
        · exact ⟨plain t _ (by simp), by simpa [World.emit, World.goto] using h2⟩
        · exact ⟨h1, h2⟩
      all_goals exact ⟨h1, h2⟩
    | drop o => exact ⟨h1, h2⟩

/-- **C99.** (Missing: deletions during a call of `get_solver` in another thread, `clear_violated`, and builds that check
for overflows, `overflow_violated`.) In builds that do not check for overflows no call ends the process. -/
theorem no_abort_partial (S : Solvers Mesh Params Pts σ) (acts : List (Act n Mesh Params Pts))
    (hq : QuietClears n S acts) (t : Fin n) : Ev.aborted t ∉ logOf n S false acts :=
  (calm S acts hq).2 t

/-- **C99.** This is always so in a process with one thread. -/
theorem no_abort_single_partial (S : Solvers Mesh Params Pts σ) (acts : List (Act 1 Mesh Params Pts)) (t : Fin 1) :
    Ev.aborted t ∉ logOf 1 S false acts :=
  no_abort_partial S acts (fun _ t₁ _ _ t' h => absurd (Subsingleton.elim t' t₁) h) t

/-! ## Negations -/

/-- Solvers that count their steps from the sum of the numbers they are built from. -/
def counting : Solvers ℕ ℕ ℕ ℕ :=
  ⟨fun m p => some (m + p), fun s _ => (s, none), fun s => (s + 1, .success), fun s => s⟩

/-- **C99 is false after all solvers are deleted.** Ids are given again: whoever kept an id from before gets the solver of
someone else for it, and its own mesh and parameters are not looked at. Here thread 0 creates a solver from the mesh 5,
thread 1 deletes all solvers and creates one from the mesh 100; thread 0 asks for its id with the mesh 5, makes a step and
gets the mesh 101. -/
theorem stale_violated :
    ¬ ∀ (acts : List (Act 2 ℕ ℕ ℕ)) (l₁ l₂ l₃ : List (Ev 2 ℕ ℕ ℕ)) (t t' : Fin 2) (k o o' m p : ℕ),
      logOf 2 counting false acts = l₁ ++ .created t k o m p :: l₂ ++ .found t' k o' :: l₃ → o' = o := by
  intro h
  have := h [.get 0 (-1) (some 5) 0, .build 0, .insert 0, .check 0, .drop 0, .clear 1, .get 1 (-1) (some 100) 0,
    .build 1, .insert 1, .check 1, .get 0 1 (some 5) 0, .check 0, .beginStep 0 1 none, .endStep 0] []
    [.returned 0 1 0, .cleared, .created 1 1 1 100 0, .returned 1 1 1]
    [.returned 0 1 1, .began 0 1, .stepped 0 1 none (some 101, .success)] 0 0 1 0 1 5 0 rfl
  cases this

/-- **C99 is false for deletions during `get_solver`.** The assertion that someone else has a reference to the solver fails
when all solvers are deleted after it was found: the process ends. -/
theorem clear_violated :
    ¬ ∀ (acts : List (Act 2 ℕ ℕ ℕ)) (t : Fin 2), Ev.aborted t ∉ logOf 2 counting false acts := by
  intro h
  have e : logOf 2 counting false [.get 0 (-1) (some 5) 0, .build 0, .insert 0, .check 0, .drop 0, .get 0 1 none 0,
    .clear 1, .check 0] = [.created 0 1 0 5 0, .returned 0 1 0, .found 0 1 0, .cleared, .aborted 0] := rfl
  exact h _ 0 (by rw [e]; simp)

/-- A thread enters so many solvers. -/
def registrations (m : Mesh) (p : Params) : ℕ → List (Act 1 Mesh Params Pts)
  | 0 => []
  | N + 1 => registrations m p N ++ [.register 0 (some m) p, .build 0, .insert 0]

theorem registrations_run (S : Solvers Mesh Params Pts σ) (m : Mesh) (p : Params) (s : σ) (hb : S.build m p = some s)
    (N : ℕ) (hN : N < 2 ^ 32) :
    (run 1 S true (registrations m p N)).counter = N ∧ (run 1 S true (registrations m p N)).pcs = (fun _ => .idle) ∧
      (run 1 S true (registrations m p N)).dead = false ∧
      ∀ e ∈ (run 1 S true (registrations m p N)).table, e.1 ≤ N := by
  induction N with
  | zero => simp [registrations, run, initial]
  | succ N ih =>
    obtain ⟨h1, h2, h3, h4⟩ := ih (by omega)
    simp only [registrations, run_append, List.foldl_cons, List.foldl_nil]
    generalize run 1 S true (registrations m p N) = w at *
    have hs : search true (w.table.map Prod.fst) (2 ^ 32) w.counter = .vacant (N + 1) := by
      obtain ⟨L, hL⟩ : ∃ L, L + 1 = 2 ^ 32 := ⟨2 ^ 32 - 1, by norm_num⟩
      rw [h1, ← hL, search, if_neg (by omega)]
      have hmod : (N + 1) % 2 ^ 32 = N + 1 := Nat.mod_eq_of_lt hN
      rw [hmod, if_pos]
      intro hm
      obtain ⟨e, he, hk⟩ := List.mem_map.1 hm
      have := h4 e he
      omega
    have hs' : search true (w.table.map Prod.fst) 4294967296 w.counter = .vacant (N + 1) := hs
    have hupd : ∀ (f : Fin 1 → Pc Mesh Params Pts) (x : Pc Mesh Params Pts), Function.update f 0 x = fun _ => x := by
      intro f x
      funext i
      rw [Subsingleton.elim i 0, Function.update_self]
    simp only [step, h3, h2, doBuild, hb, doInsert, World.goto, World.emit, hupd, hs, Bool.false_eq_true, if_false,
      true_and]
    intro e he
    rcases List.mem_cons.1 he with rfl | he
    · exact le_refl _
    · exact (h4 e he).trans (by omega)

/-- **C99 is false in builds that check for overflows.** The counter of ids is never reset but when all solvers are
deleted; the `2 ^ 32`-th new solver ends the process. -/
theorem overflow_violated (S : Solvers Mesh Params Pts σ) (m : Mesh) (p : Params) (hb : (S.build m p).isSome = true) :
    Ev.aborted 0 ∈ logOf 1 S true (registrations m p (2 ^ 32)) := by
  obtain ⟨s, hb⟩ := Option.isSome_iff_exists.1 hb
  obtain ⟨N, hN⟩ : ∃ N, N + 1 = 2 ^ 32 := ⟨2 ^ 32 - 1, by norm_num⟩
  obtain ⟨h1, h2, h3, -⟩ := registrations_run (Pts := Pts) S m p s hb N (by omega)
  rw [logOf, ← hN, registrations, run_append]
  generalize run 1 S true (registrations m p N) = w at *
  have hs : search true (w.table.map Prod.fst) (2 ^ 32) w.counter = .overflow := by
    have : search true (w.table.map Prod.fst) (N + 1) w.counter = .overflow := by
      rw [h1, search, if_pos ⟨rfl, Or.inl hN⟩]
    rwa [hN] at this
  have hupd : ∀ (f : Fin 1 → Pc Mesh Params Pts) (x : Pc Mesh Params Pts), Function.update f 0 x = fun _ => x := by
    intro f x
    funext i
    rw [Subsingleton.elim i 0, Function.update_self]
  simp only [List.foldl_cons, List.foldl_nil, step, h3, h2, doBuild, hb, doInsert, World.goto, World.emit, hupd, hs,
    Bool.false_eq_true, if_false]
  simp

/-! ## Examples -/

/-- Two threads, two solvers, a step that is turned away, and a deletion that changes nothing for the solver in use: the
schedule is one of those that the theorems are about. -/
example : logOf 2 counting false [.get 0 (-1) (some 5) 0, .build 0, .get 1 7 (some 50) 0, .build 1, .insert 1, .insert 0,
      .check 0, .check 1, .get 1 2 none 0, .check 1, .beginStep 0 0 none, .beginStep 1 0 (some 3), .endStep 0,
      .beginStep 1 1 none, .clear 0, .endStep 1] =
    [.created 1 1 1 50 0, .created 0 2 0 5 0, .returned 0 2 0, .returned 1 1 1, .found 1 2 0, .returned 1 2 0,
      .began 0 0, .busy 1 0, .stepped 0 0 none (some 6, .success), .began 1 1, .cleared,
      .stepped 1 1 none (some 51, .success)] := rfl

/-- Deletions between calls are quiet. -/
example : QuietClears 2 counting [.get 0 (-1) (some 5) 0, .build 0, .insert 0, .check 0, .clear 1] := by
  intro l₁ t l₂ h t' _
  have : l₁ = [.get 0 (-1) (some 5) 0, .build 0, .insert 0, .check 0] := by
    rcases l₁ with _ | ⟨a, _ | ⟨b, _ | ⟨c, _ | ⟨d, _ | ⟨e, l⟩⟩⟩⟩⟩ <;> simp_all
  subst this
  fin_cases t' <;> exact fun h => h

end Softy.Handles
