import Verif.Model.Handles
import Mathlib.Tactic.Linarith
import Mathlib.Data.List.Nodup
import Mathlib.Data.Fintype.Basic

/-!
# Logs of the solver registry

What a log says of the registry and of the solvers, and the invariant that relates it to the state of the process.
-/

namespace Softy.Handles

variable {Mesh Params Pts σ : Type*} {n : ℕ}

/-- One event, for the entries of the registry. -/
def liveStep (T : List (ℕ × ℕ)) : Ev n Mesh Params Pts → List (ℕ × ℕ)
  | .created _ k o _ _ => (k, o) :: T
  | .cleared => []
  | _ => T

/-- The entries of the registry after a log. -/
def live (l : List (Ev n Mesh Params Pts)) : List (ℕ × ℕ) := l.foldl liveStep []

/-- One event, for the step that a thread makes. -/
def pendStep (t : Fin n) (x : Option ℕ) : Ev n Mesh Params Pts → Option ℕ
  | .began t' o => if t' = t then some o else x
  | .stepped t' _ _ _ => if t' = t then none else x
  | _ => x

/-- The solver with which a thread makes a step after a log. -/
def pending (t : Fin n) (l : List (Ev n Mesh Params Pts)) : Option ℕ := l.foldl (pendStep t) none

/-- One event, for what a thread got. -/
def acqStep (t : Fin n) (x : Option (ℕ × ℕ)) : Ev n Mesh Params Pts → Option (ℕ × ℕ)
  | .created t' k o _ _ => if t' = t then some (k, o) else x
  | .found t' k o => if t' = t then some (k, o) else x
  | _ => x

/-- What a thread created or found last. -/
def acquired (t : Fin n) (l : List (Ev n Mesh Params Pts)) : Option (ℕ × ℕ) := l.foldl (acqStep t) none

/-- The points of a step with the solver `o`. -/
def histStep (o : ℕ) : Ev n Mesh Params Pts → Option (Option Pts)
  | .stepped _ o' pts _ => if o' = o then some pts else none
  | _ => none

/-- The points with which the solver `o` made its steps. -/
def history (o : ℕ) (l : List (Ev n Mesh Params Pts)) : List (Option Pts) := l.filterMap (histStep o)

/-- A solver after steps with these points. -/
def replay (S : Solvers Mesh Params Pts σ) (s : σ) (inputs : List (Option Pts)) : σ :=
  inputs.foldl (fun s p => (apiStep S s p).1) s

theorem live_append (l : List (Ev n Mesh Params Pts)) (e) : live (l ++ [e]) = liveStep (live l) e := by
  simp [live]

theorem pending_append (t : Fin n) (l : List (Ev n Mesh Params Pts)) (e) :
    pending t (l ++ [e]) = pendStep t (pending t l) e := by simp [pending]

theorem acquired_append (t : Fin n) (l : List (Ev n Mesh Params Pts)) (e) :
    acquired t (l ++ [e]) = acqStep t (acquired t l) e := by simp [acquired]

theorem history_append (o : ℕ) (l : List (Ev n Mesh Params Pts)) (e) :
    history o (l ++ [e]) = history o l ++ (histStep o e).toList := by
  unfold history
  rw [List.filterMap_append]
  cases h : histStep o e <;> simp [h]

/-- What is true when an event happens after a log. -/
def Good (S : Solvers Mesh Params Pts σ) (l : List (Ev n Mesh Params Pts)) : Ev n Mesh Params Pts → Prop
  | .created _ k o m p =>
    k ∉ (live l).map Prod.fst ∧ k < 2 ^ 32 ∧ (∀ t' k' m' p', Ev.created t' k' o m' p' ∉ l) ∧
      (S.build m p).isSome = true
  | .found _ k o => (k, o) ∈ live l
  | .returned t id o => ∃ k : ℕ, id = (k : ℤ) ∧ acquired t l = some (k, o)
  | .failed _ .full => (live l).length = 2 ^ 32
  | .failed _ _ => True
  | .cleared => True
  | .began t o => pending t l = none ∧ (∀ t', pending t' l ≠ some o) ∧ ∃ t' id, Ev.returned t' id o ∈ l
  | .stepped t o pts out =>
    pending t l = some o ∧ ∃ t' k m p s, Ev.created t' k o m p ∈ l ∧ S.build m p = some s ∧
      out = (apiStep S (replay S s (history o l)) pts).2
  | .busy t o => ∃ t', t' ≠ t ∧ pending t' l = some o
  | .aborted _ => True

/-- All events of a log are good. -/
def AllGood (S : Solvers Mesh Params Pts σ) (l : List (Ev n Mesh Params Pts)) : Prop :=
  ∀ l₁ e l₂, l = l₁ ++ e :: l₂ → Good S l₁ e

theorem AllGood.nil (S : Solvers Mesh Params Pts σ) : AllGood (n := n) S [] := by
  intro l₁ e l₂ h
  simp at h

theorem AllGood.append {S : Solvers Mesh Params Pts σ} {l : List (Ev n Mesh Params Pts)} {e}
    (h : AllGood S l) (he : Good S l e) : AllGood S (l ++ [e]) := by
  intro l₁ e' l₂ h'
  rcases List.eq_nil_or_concat l₂ with rfl | ⟨l₃, e'', rfl⟩
  · have := List.append_inj' h' rfl
    obtain ⟨rfl, h2⟩ := this
    simp only [List.cons.injEq, and_true] at h2
    subst h2
    exact he
  · rw [List.concat_eq_append, ← List.cons_append, ← List.append_assoc] at h'
    have := List.append_inj' h' rfl
    exact h _ _ _ this.1

theorem AllGood.prefix {S : Solvers Mesh Params Pts σ} {l l' : List (Ev n Mesh Params Pts)}
    (h : AllGood S (l ++ l')) : AllGood S l := by
  intro l₁ e l₂ h'
  subst h'
  exact h l₁ e (l₂ ++ l') (by simp)

/-- The keys of the registry are different. -/
theorem live_nodup {S : Solvers Mesh Params Pts σ} (l : List (Ev n Mesh Params Pts)) :
    AllGood S l → ((live l).map Prod.fst).Nodup := by
  induction l using List.reverseRecOn with
  | nil => intro _; simp [live]
  | append_singleton l e ih =>
    intro h
    have h0 := ih h.prefix
    have he := h l e [] rfl
    rw [live_append]
    cases e <;> simp_all [liveStep, Good]

/-- What is in the registry was entered. -/
theorem live_created {S : Solvers Mesh Params Pts σ} (l : List (Ev n Mesh Params Pts)) :
    AllGood S l → ∀ k o, (k, o) ∈ live l → k < 2 ^ 32 ∧ ∃ t m p, Ev.created t k o m p ∈ l := by
  induction l using List.reverseRecOn with
  | nil => intro _; simp [live]
  | append_singleton l e ih =>
    intro h k o hk
    have h0 := ih h.prefix
    have he := h l e [] rfl
    rw [live_append] at hk
    have old : (k, o) ∈ live l → k < 2 ^ 32 ∧ ∃ t m p, Ev.created t k o m p ∈ l ++ [e] := by
      intro hk
      obtain ⟨h1, t, m, p, h2⟩ := h0 k o hk
      exact ⟨h1, t, m, p, by simp [h2]⟩
    cases e with
    | created t k' o' m p =>
      simp only [liveStep, List.mem_cons, Prod.mk.injEq] at hk
      rcases hk with ⟨rfl, rfl⟩ | hk
      · exact ⟨he.2.1, t, m, p, by simp⟩
      · exact old hk
    | cleared => simp [liveStep] at hk
    | _ => exact old hk

/-- What a thread got is in a log. -/
theorem acquired_mem (l : List (Ev n Mesh Params Pts)) (t : Fin n) (k o : ℕ) :
    acquired t l = some (k, o) → (∃ m p, Ev.created t k o m p ∈ l) ∨ Ev.found t k o ∈ l := by
  induction l using List.reverseRecOn with
  | nil => simp [acquired]
  | append_singleton l e ih =>
    intro h
    rw [acquired_append] at h
    have old : acquired t l = some (k, o) →
        (∃ m p, Ev.created t k o m p ∈ l ++ [e]) ∨ Ev.found t k o ∈ l ++ [e] := by
      intro h
      rcases ih h with ⟨m, p, h⟩ | h
      · exact Or.inl ⟨m, p, by simp [h]⟩
      · exact Or.inr (by simp [h])
    cases e with
    | created t' k' o' m p =>
      simp only [acqStep] at h
      split_ifs at h with ht
      · subst ht
        simp only [Option.some.injEq, Prod.mk.injEq] at h
        obtain ⟨rfl, rfl⟩ := h
        exact Or.inl ⟨m, p, by simp⟩
      · exact old h
    | found t' k' o' =>
      simp only [acqStep] at h
      split_ifs at h with ht
      · subst ht
        simp only [Option.some.injEq, Prod.mk.injEq] at h
        obtain ⟨rfl, rfl⟩ := h
        exact Or.inr (by simp)
      · exact old h
    | _ => exact old h

/-! ## The search for a key -/

theorem search_vacant {checked : Bool} {keys : List ℕ} (left key k : ℕ) :
    search checked keys left key = .vacant k → k ∉ keys ∧ k < 2 ^ 32 := by
  induction left generalizing key with
  | zero => simp [search]
  | succ left ih =>
    intro h
    rw [search] at h
    by_cases h1 : checked = true ∧ (key + 1 = 2 ^ 32 ∨ left = 0)
    · rw [if_pos h1] at h
      cases h
    · rw [if_neg h1] at h
      by_cases h2 : (key + 1) % 2 ^ 32 ∉ keys
      · rw [if_pos h2] at h
        cases h
        exact ⟨h2, Nat.mod_lt _ (by positivity)⟩
      · rw [if_neg h2] at h
        by_cases h3 : left = 0
        · rw [if_pos h3] at h
          cases h
        · rw [if_neg h3] at h
          exact ih _ h

/-- The keys that the search looks at are used. -/
theorem search_full {checked : Bool} {keys : List ℕ} (left key k : ℕ) (hk : key < 2 ^ 32) :
    search checked keys left key = .full k →
      (∀ j, j < left → (key + 1 + j) % 2 ^ 32 ∈ keys) ∧ k < 2 ^ 32 := by
  induction left generalizing key with
  | zero =>
    intro h
    cases h
    exact ⟨by simp, hk⟩
  | succ left ih =>
    intro h
    rw [search] at h
    by_cases h1 : checked = true ∧ (key + 1 = 2 ^ 32 ∨ left = 0)
    · rw [if_pos h1] at h
      cases h
    · rw [if_neg h1] at h
      by_cases h2 : (key + 1) % 2 ^ 32 ∉ keys
      · rw [if_pos h2] at h
        cases h
      · rw [if_neg h2] at h
        have hlt : (key + 1) % 2 ^ 32 < 2 ^ 32 := Nat.mod_lt _ (by positivity)
        have first : ∀ j, j < left + 1 → (∀ i, i < left → ((key + 1) % 2 ^ 32 + 1 + i) % 2 ^ 32 ∈ keys) →
            (key + 1 + j) % 2 ^ 32 ∈ keys := by
          intro j hj hall
          cases j with
          | zero => simpa using h2
          | succ j =>
            have := hall j (by omega)
            have e : (key + 1 + (j + 1)) % 2 ^ 32 = ((key + 1) % 2 ^ 32 + 1 + j) % 2 ^ 32 := by omega
            rw [e]
            exact this
        by_cases h3 : left = 0
        · rw [if_pos h3] at h
          cases h
          subst h3
          exact ⟨fun j hj => first j hj (by omega), hlt⟩
        · rw [if_neg h3] at h
          obtain ⟨h4, h5⟩ := ih _ hlt h
          exact ⟨fun j hj => first j hj h4, h5⟩

theorem search_full_all {checked : Bool} {keys : List ℕ} (key k : ℕ) (hk : key < 2 ^ 32)
    (h : search checked keys (2 ^ 32) key = .full k) : ∀ i, i < 2 ^ 32 → i ∈ keys := by
  intro i hi
  obtain ⟨h1, -⟩ := search_full _ _ _ hk h
  have := h1 ((i + 2 ^ 32 - key - 1) % 2 ^ 32) (Nat.mod_lt _ (by positivity))
  have e : (key + 1 + (i + 2 ^ 32 - key - 1) % 2 ^ 32) % 2 ^ 32 = i := by omega
  rwa [e] at this

theorem search_overflow {keys : List ℕ} (left key : ℕ) : search false keys left key ≠ .overflow := by
  induction left generalizing key with
  | zero => simp [search]
  | succ left ih =>
    rw [search]
    have h1 : ¬ (false = true ∧ (key + 1 = 2 ^ 32 ∨ left = 0)) := by simp
    rw [if_neg h1]
    split_ifs <;> first | exact ih _ | simp only [ne_eq, reduceCtorEq, not_false_eq_true]

/-- A list of different numbers below a bound that has all of them has that length. -/
theorem length_of_all (N : ℕ) (keys : List ℕ) (hn : keys.Nodup) (hlt : ∀ k ∈ keys, k < N)
    (hall : ∀ i, i < N → i ∈ keys) : keys.length = N := by
  rw [← List.toFinset_card_of_nodup hn]
  have : keys.toFinset = Finset.range N := by
    ext i
    simp only [List.mem_toFinset, Finset.mem_range]
    exact ⟨hlt i, hall i⟩
  rw [this, Finset.card_range]

/-! ## The invariant -/

/-- How the state of the process is related to its log. -/
structure Inv (S : Solvers Mesh Params Pts σ) (w : World n Mesh Params Pts σ) : Prop where
  good : AllGood S w.log
  table : w.table = live w.log
  counter : w.counter < 2 ^ 32
  pend : ∀ t o, pending t w.log = some o ↔ ∃ pts, w.pcs t = .stepping o pts
  acq : ∀ t k o, w.pcs t = .checking k o → acquired t w.log = some (k, o)
  boxes : ∀ o ∈ w.boxes, ∃ t id, Ev.returned t id o ∈ w.log
  known : ∀ t id o, Ev.returned t id o ∈ w.log → ∃ t' k m p, Ev.created t' k o m p ∈ w.log
  started : ∀ t o, pending t w.log = some o → ∃ t' k m p, Ev.created t' k o m p ∈ w.log
  made : ∀ t k o m p, Ev.created t k o m p ∈ w.log → ∃ s b, S.build m p = some s ∧
    w.heap[o]? = some (replay S s (history o w.log), b)
  inserting : ∀ t g o m p, w.pcs t = .inserting g o m p →
    (∃ s, S.build m p = some s ∧ w.heap[o]? = some (s, false)) ∧ history o w.log = [] ∧
      (∀ t' k' m' p', Ev.created t' k' o m' p' ∉ w.log) ∧
      ∀ t' g' m' p', w.pcs t' = .inserting g' o m' p' → t' = t
  busy : ∀ (o : ℕ) s, w.heap[o]? = some (s, true) → ∃ t, pending t w.log = some o
  locked : ∀ t o, pending t w.log = some o → (∃ s, w.heap[o]? = some (s, true)) ∧
    ∀ t', pending t' w.log = some o → t' = t
  fresh : ∀ o, w.heap.length ≤ o → history o w.log = []

theorem inv_initial (S : Solvers Mesh Params Pts σ) : Inv S (initial n Mesh Params Pts σ) := by
  constructor <;> simp [initial, live, pending, history, AllGood.nil]

section Steps

variable {S : Solvers Mesh Params Pts σ} {w : World n Mesh Params Pts σ}

/-- A thread goes to `building` or back to `idle`. -/
theorem Inv.goto_plain (h : Inv S w) (t : Fin n) (pc : Pc Mesh Params Pts)
    (hold : ∀ o pts, w.pcs t ≠ .stepping o pts) (hnew : pc = .idle ∨ ∃ g m p, pc = .building g m p) :
    Inv S (w.goto t pc) := by
  have hpc : ∀ t' q, (Function.update w.pcs t pc) t' = q → (∃ o pts, q = Pc.stepping o pts) ∨
      (∃ k o, q = Pc.checking k o) ∨ (∃ g o m p, q = Pc.inserting g o m p) → w.pcs t' = q := by
    intro t' q hq hform
    by_cases ht : t' = t
    · subst ht
      rw [Function.update_self] at hq
      subst hq
      rcases hnew with rfl | ⟨g, m, p, rfl⟩ <;> simp at hform
    · rwa [Function.update_of_ne ht] at hq
  refine { h with pend := ?_, acq := ?_, inserting := ?_ }
  · intro t' o
    refine (h.pend t' o).trans ⟨?_, ?_⟩
    · rintro ⟨pts, hp⟩
      have ht : t' ≠ t := fun e => hold o pts (e ▸ hp)
      exact ⟨pts, by simp [World.goto, Function.update_of_ne ht, hp]⟩
    · rintro ⟨pts, hp⟩
      exact ⟨pts, hpc _ _ hp (Or.inl ⟨_, _, rfl⟩)⟩
  · intro t' k o hp
    exact h.acq t' k o (hpc _ _ hp (Or.inr (Or.inl ⟨_, _, rfl⟩)))
  · intro t' g o m p hp
    have := h.inserting t' g o m p (hpc _ _ hp (Or.inr (Or.inr ⟨_, _, _, _, rfl⟩)))
    refine ⟨this.1, this.2.1, this.2.2.1, fun t'' g' m' p' hp' => ?_⟩
    exact this.2.2.2 t'' g' m' p' (hpc _ _ hp' (Or.inr (Or.inr ⟨_, _, _, _, rfl⟩)))

/-- An event that is neither an entry in the registry nor the beginning or the end of a step. -/
theorem Inv.next (h : Inv S w) (w' : World n Mesh Params Pts σ) (e : Ev n Mesh Params Pts)
    (hlog : w'.log = w.log ++ [e]) (hheap : w'.heap = w.heap) (hcounter : w'.counter < 2 ^ 32)
    (htable : w'.table = liveStep w.table e) (hg : Good S w.log e)
    (hp : ∀ t x, pendStep t x e = x) (hh : ∀ o, histStep o e = none) (hc : ∀ t k o m p, Ev.created t k o m p ≠ e)
    (hr : ∀ t id o, e = .returned t id o → ∃ t' k m p, Ev.created t' k o m p ∈ w.log)
    (pend : ∀ t o, (∃ pts, w'.pcs t = .stepping o pts) ↔ ∃ pts, w.pcs t = .stepping o pts)
    (acq : ∀ t k o, w'.pcs t = .checking k o → acqStep t (acquired t w.log) e = some (k, o))
    (ins : ∀ t g o m p, w'.pcs t = .inserting g o m p → w.pcs t = .inserting g o m p)
    (boxes : ∀ o ∈ w'.boxes, o ∈ w.boxes ∨ ∃ t id, e = .returned t id o) : Inv S w' where
  good := hlog ▸ h.good.append hg
  table := by rw [hlog, live_append, htable, h.table]
  counter := hcounter
  pend := by intro t o; rw [hlog, pending_append, hp, pend]; exact h.pend t o
  acq := by intro t k o hk; rw [hlog, acquired_append]; exact acq t k o hk
  boxes := by
    intro o ho
    rw [hlog]
    rcases boxes o ho with ho | ⟨t, id, rfl⟩
    · obtain ⟨t, id, h1⟩ := h.boxes o ho
      exact ⟨t, id, by simp [h1]⟩
    · exact ⟨t, id, by simp⟩
  known := by
    intro t id o ho
    rw [hlog] at ho ⊢
    have : ∃ t' k m p, Ev.created t' k o m p ∈ w.log := by
      rcases List.mem_append.1 ho with ho | ho
      · exact h.known t id o ho
      · exact hr t id o (List.mem_singleton.1 ho).symm
    obtain ⟨t', k, m, p, h1⟩ := this
    exact ⟨t', k, m, p, by simp [h1]⟩
  started := by
    intro t o ho
    rw [hlog, pending_append, hp] at ho
    obtain ⟨t', k, m, p, h1⟩ := h.started t o ho
    exact ⟨t', k, m, p, by simp [hlog, h1]⟩
  made := by
    intro t k o m p hm
    rw [hlog, List.mem_append, List.mem_singleton] at hm
    rw [hlog, history_append, hh, hheap, Option.toList_none, List.append_nil]
    exact h.made t k o m p (hm.resolve_right (hc t k o m p))
  inserting := by
    intro t g o m p hi
    obtain ⟨h1, h2, h3, h4⟩ := h.inserting t g o m p (ins _ _ _ _ _ hi)
    rw [hlog, history_append, hh, hheap, Option.toList_none, List.append_nil]
    refine ⟨h1, h2, fun t' k' m' p' hm => ?_, fun t' g' m' p' hi' => h4 t' g' m' p' (ins _ _ _ _ _ hi')⟩
    rw [List.mem_append, List.mem_singleton] at hm
    exact hm.elim (h3 t' k' m' p') (hc t' k' o m' p')
  busy := by
    intro o s ho
    rw [hheap] at ho
    obtain ⟨t, ht⟩ := h.busy o s ho
    exact ⟨t, by rw [hlog, pending_append, hp, ht]⟩
  locked := by
    intro t o ho
    rw [hlog, pending_append, hp] at ho
    rw [hheap]
    refine ⟨(h.locked t o ho).1, fun t' ho' => (h.locked t o ho).2 t' ?_⟩
    rwa [hlog, pending_append, hp] at ho'
  fresh := by
    intro o ho
    rw [hheap] at ho
    rw [hlog, history_append, hh, h.fresh o ho]
    rfl

/-- The move of a thread, for one that made no step. -/
theorem goto_cases (t t' : Fin n) (pc q : Pc Mesh Params Pts) (h : Function.update w.pcs t pc t' = q) :
    (t' = t ∧ pc = q) ∨ (t' ≠ t ∧ w.pcs t' = q) := by
  by_cases ht : t' = t
  · subst ht
    rw [Function.update_self] at h
    exact Or.inl ⟨rfl, h⟩
  · rw [Function.update_of_ne ht] at h
    exact Or.inr ⟨ht, h⟩

theorem goto_pend (t : Fin n) (pc : Pc Mesh Params Pts) (hold : ∀ o pts, w.pcs t ≠ .stepping o pts)
    (hnew : ∀ o pts, pc ≠ .stepping o pts) (t' : Fin n) (o : ℕ) :
    (∃ pts, Function.update w.pcs t pc t' = .stepping o pts) ↔ ∃ pts, w.pcs t' = .stepping o pts := by
  constructor
  · rintro ⟨pts, h⟩
    rcases goto_cases t t' pc _ h with ⟨-, h⟩ | ⟨-, h⟩
    · exact (hnew _ _ h).elim
    · exact ⟨pts, h⟩
  · rintro ⟨pts, h⟩
    have ht : t' ≠ t := fun e => hold o pts (e ▸ h)
    exact ⟨pts, by rw [Function.update_of_ne ht, h]⟩

theorem goto_ins (t : Fin n) (pc : Pc Mesh Params Pts) (hnew : ∀ g o m p, pc ≠ .inserting g o m p) (t' : Fin n)
    (g : Bool) (o : ℕ) (m : Mesh) (p : Params) (h : Function.update w.pcs t pc t' = .inserting g o m p) :
    w.pcs t' = .inserting g o m p := by
  rcases goto_cases t t' pc _ h with ⟨-, h⟩ | ⟨-, h⟩
  · exact (hnew _ _ _ _ h).elim
  · exact h

theorem lookup_mem (T : List (ℕ × ℕ)) (k o : ℕ) : T.lookup k = some o → (k, o) ∈ T := by
  induction T with
  | nil => simp
  | cons e T ih =>
    obtain ⟨a, b⟩ := e
    rw [List.lookup_cons]
    by_cases hk : k = a
    · subst hk
      simp only [beq_self_eq_true, if_true]
      intro h
      cases h
      exact List.mem_cons_self
    · have : (k == a) = false := by simpa using hk
      rw [this]
      intro h
      exact List.mem_cons_of_mem _ (ih h)

theorem Inv.get (h : Inv S w) (t : Fin n) (ht : w.pcs t = .idle) (id : ℤ) (mesh : Option Mesh) (params : Params) :
    Inv S (doGet w t id mesh params) := by
  have hold : ∀ o pts, w.pcs t ≠ .stepping o pts := by simp [ht]
  have hb : Inv S (w.goto t (.building true mesh params)) :=
    h.goto_plain t _ hold (Or.inr ⟨_, _, _, rfl⟩)
  unfold doGet
  cases validateId id with
  | none => exact hb
  | some key =>
    cases hl : w.table.lookup key with
    | none => simpa [hl] using hb
    | some o =>
      simp only [hl]
      have hm : (key, o) ∈ live w.log := h.table ▸ lookup_mem _ _ _ hl
      refine h.next _ (.found t key o) rfl rfl h.counter rfl hm (fun _ _ => rfl) (fun _ => rfl) (by simp) (by simp)
        (goto_pend t _ hold (by simp)) ?_ (goto_ins t _ (by simp)) (fun o ho => Or.inl ho)
      intro t' k' o' hk
      rcases goto_cases t t' _ _ hk with ⟨rfl, hq⟩ | ⟨hne, hk⟩
      · cases hq
        simp [acqStep]
      · simp only [acqStep, if_neg (Ne.symm hne)]
        exact h.acq t' k' o' hk

theorem Inv.failed (h : Inv S w) (t : Fin n) (hold : ∀ o pts, w.pcs t ≠ .stepping o pts) (why : Failure) (key : ℕ)
    (hkey : key < 2 ^ 32) (hg : Good S w.log (.failed t why)) :
    Inv S (({ w.goto t .idle with counter := key }).emit (.failed t why)) := by
  refine h.next _ (.failed t why) rfl rfl hkey rfl hg (fun _ _ => rfl) (fun _ => rfl) (by simp) (by simp)
    (goto_pend t _ hold (by simp)) ?_ (goto_ins t _ (by simp)) (fun o ho => Or.inl ho)
  intro t' k' o' hk
  rcases goto_cases t t' _ _ hk with ⟨rfl, hq⟩ | ⟨hne, hk⟩
  · cases hq
  · exact h.acq t' k' o' hk

theorem Inv.build (h : Inv S w) (t : Fin n) (get : Bool) (mesh : Option Mesh) (params : Params)
    (ht : w.pcs t = .building get mesh params) : Inv S (doBuild S w t get mesh params) := by
  have hold : ∀ o pts, w.pcs t ≠ .stepping o pts := by simp [ht]
  cases mesh with
  | none => exact h.failed t hold .missing w.counter h.counter trivial
  | some m =>
    simp only [doBuild]
    cases hb : S.build m params with
    | none => exact h.failed t hold .create w.counter h.counter trivial
    | some s =>
      simp only
      have hlt : ∀ (o : ℕ) x, w.heap[o]? = some x → (w.heap ++ [(s, false)])[o]? = some x := by
        intro o x hx
        rw [List.getElem?_append_left (List.getElem?_eq_some_iff.1 hx).1, hx]
      have hnone : w.heap[w.heap.length]? = none := by simp
      refine { h with pend := ?_, acq := ?_, made := ?_, inserting := ?_, busy := ?_, locked := ?_, fresh := ?_ }
      · intro t' o
        exact (h.pend t' o).trans (goto_pend t _ hold (by simp) t' o).symm
      · intro t' k o hk
        rcases goto_cases t t' _ _ hk with ⟨rfl, hq⟩ | ⟨hne, hk⟩
        · cases hq
        · exact h.acq t' k o hk
      · intro t' k o m' p' hm
        obtain ⟨s', b, h1, h2⟩ := h.made t' k o m' p' hm
        exact ⟨s', b, h1, hlt _ _ h2⟩
      · intro t' g o m' p' hi
        have hnew : ∀ t' k' m' p', Ev.created t' k' w.heap.length m' p' ∉ w.log := by
          intro t'' k' m'' p'' hm
          obtain ⟨s', b, -, h2⟩ := h.made _ _ _ _ _ hm
          rw [hnone] at h2
          cases h2
        have hnoins : ∀ t' g' m' p', w.pcs t' ≠ .inserting g' w.heap.length m' p' := by
          intro t'' g' m'' p'' hm
          obtain ⟨⟨s', -, h2⟩, -⟩ := h.inserting _ _ _ _ _ hm
          rw [hnone] at h2
          cases h2
        rcases goto_cases t t' _ _ hi with ⟨rfl, hq⟩ | ⟨hne, hj⟩
        · cases hq
          refine ⟨⟨s, hb, by simp⟩, h.fresh _ le_rfl, hnew, ?_⟩
          intro t'' g' m'' p'' hi'
          rcases goto_cases t' t'' _ _ hi' with ⟨e, -⟩ | ⟨-, hi'⟩
          · exact e
          · exact (hnoins _ _ _ _ hi').elim
        · obtain ⟨⟨s', h1, h2⟩, h3, h4, h5⟩ := h.inserting _ _ _ _ _ hj
          refine ⟨⟨s', h1, hlt _ _ h2⟩, h3, h4, ?_⟩
          intro t'' g' m'' p'' hi'
          rcases goto_cases t t'' _ _ hi' with ⟨rfl, hq⟩ | ⟨-, hi'⟩
          · cases hq
            exact (hnoins _ _ _ _ hj).elim
          · exact h5 _ _ _ _ hi'
      · intro o s' ho
        by_cases hlen : o < w.heap.length
        · rw [List.getElem?_append_left hlen] at ho
          exact h.busy o s' ho
        · rw [List.getElem?_append_right (by omega)] at ho
          rcases Nat.eq_zero_or_pos (o - w.heap.length) with h0 | h0
          · rw [h0] at ho
            simp at ho
          · rw [List.getElem?_eq_none (by simp only [List.length_cons, List.length_nil]; omega)] at ho
            cases ho
      · intro t' o ho
        obtain ⟨⟨s', h1⟩, h2⟩ := h.locked t' o ho
        exact ⟨⟨s', hlt _ _ h1⟩, h2⟩
      · intro o ho
        refine h.fresh o ?_
        have : (w.heap ++ [(s, false)]).length ≤ o := ho
        rw [List.length_append] at this
        omega

/-- The entry in the registry. -/
theorem Inv.created (h : Inv S w) (t : Fin n) (g : Bool) (o : ℕ) (m : Mesh) (p : Params)
    (ht : w.pcs t = .inserting g o m p) (key : ℕ) (pc : Pc Mesh Params Pts)
    (hpc : pc = .idle ∨ pc = .checking key o)
    (hv : key ∉ w.table.map Prod.fst ∧ key < 2 ^ 32) :
    Inv S (({ w.goto t pc with counter := key, table := (key, o) :: w.table }).emit (.created t key o m p)) := by
  have hold : ∀ o pts, w.pcs t ≠ .stepping o pts := by simp [ht]
  have hns : ∀ o pts, pc ≠ .stepping o pts := by rcases hpc with rfl | rfl <;> simp
  have hni : ∀ g o m p, pc ≠ .inserting g o m p := by rcases hpc with rfl | rfl <;> simp
  obtain ⟨⟨s, hb, hs⟩, hhist, hnew, huniq⟩ := h.inserting _ _ _ _ _ ht
  have hp : ∀ t' x, pendStep t' x (Ev.created t key o m p : Ev n Mesh Params Pts) = x := fun _ _ => rfl
  have hh : ∀ o', histStep o' (Ev.created t key o m p : Ev n Mesh Params Pts) = none := fun _ => rfl
  constructor
  · refine h.good.append ⟨?_, hv.2, hnew, by simp [hb]⟩
    rw [← h.table]
    exact hv.1
  · simp only [World.emit, live_append, liveStep, World.goto, h.table]
  · exact hv.2
  · intro t' o'
    simp only [World.emit, pending_append, hp]
    exact (h.pend t' o').trans (goto_pend t _ hold hns t' o').symm
  · intro t' k' o' hk
    simp only [World.emit, acquired_append, acqStep]
    rcases goto_cases t t' _ _ hk with ⟨rfl, hq⟩ | ⟨hne, hk⟩
    · rcases hpc with rfl | rfl
      · cases hq
      · cases hq
        simp
    · rw [if_neg (Ne.symm hne)]
      exact h.acq t' k' o' hk
  · intro o' ho
    obtain ⟨t', id, h1⟩ := h.boxes o' ho
    exact ⟨t', id, by simp [World.emit, World.goto, h1]⟩
  · intro t' id o' ho
    simp only [World.emit, World.goto, List.mem_append, List.mem_singleton, reduceCtorEq, or_false] at ho
    obtain ⟨t'', k, m', p', h1⟩ := h.known t' id o' ho
    exact ⟨t'', k, m', p', by simp [World.emit, World.goto, h1]⟩
  · intro t' o' ho
    simp only [World.emit, World.goto, pending_append, hp] at ho
    obtain ⟨t'', k, m', p', h1⟩ := h.started t' o' ho
    exact ⟨t'', k, m', p', by simp [World.emit, World.goto, h1]⟩
  · intro t' k o' m' p' hm
    simp only [World.emit, World.goto, List.mem_append, List.mem_singleton] at hm
    simp only [World.emit, World.goto, history_append, hh, Option.toList_none, List.append_nil]
    rcases hm with hm | hm
    · exact h.made t' k o' m' p' hm
    · cases hm
      exact ⟨s, false, hb, by rw [hhist]; exact hs⟩
  · intro t' g' o' m' p' hi
    rcases goto_cases t t' _ _ hi with ⟨rfl, hq⟩ | ⟨hne, hi⟩
    · exact (hni _ _ _ _ hq).elim
    · obtain ⟨h1, h2, h3, h4⟩ := h.inserting _ _ _ _ _ hi
      simp only [World.emit, World.goto, history_append, hh, Option.toList_none, List.append_nil, List.mem_append,
        List.mem_singleton]
      refine ⟨h1, h2, ?_, fun t'' g'' m'' p'' hi' => h4 t'' g'' m'' p'' (goto_ins t _ hni _ _ _ _ _ hi')⟩
      rintro t'' k'' m'' p'' (hm | hm)
      · exact h3 _ _ _ _ hm
      · cases hm
        exact hne (huniq _ _ _ _ hi)
  · intro o' s' ho
    simp only [World.emit, World.goto, pending_append, hp]
    exact h.busy o' s' ho
  · intro t' o'
    simp only [World.emit, World.goto, pending_append, hp]
    exact h.locked t' o'
  · intro o' ho
    simp only [World.emit, World.goto, history_append, hh, Option.toList_none, List.append_nil]
    exact h.fresh o' ho

theorem Inv.insert (h : Inv S w) (checked : Bool) (t : Fin n) (g : Bool) (o : ℕ) (m : Mesh) (p : Params)
    (ht : w.pcs t = .inserting g o m p) : Inv S (doInsert checked w t g o m p) := by
  have hold : ∀ o pts, w.pcs t ≠ .stepping o pts := by simp [ht]
  unfold doInsert
  cases hs : search checked (w.table.map Prod.fst) (2 ^ 32) w.counter with
  | vacant key =>
    have hv := search_vacant _ _ _ hs
    simp only
    by_cases hg : g = true
    · rw [if_pos hg]
      exact h.created t g o m p ht key _ (Or.inr rfl) hv
    · rw [if_neg hg]
      have h1 := h.created t g o m p ht key _ (Or.inl rfl) hv
      refine h1.next _ (.returned t key o) rfl rfl hv.2 rfl ⟨key, rfl, ?_⟩ (fun _ _ => rfl) (fun _ => rfl)
        (by simp) ?_ (fun _ _ => Iff.rfl) h1.acq (fun _ _ _ _ _ hi => hi) (fun _ ho => Or.inl ho)
      · simp [World.emit, World.goto, acquired_append, acqStep]
      · intro t' id o' he
        cases he
        exact ⟨t, key, m, p, by simp [World.emit, World.goto]⟩
  | full key =>
    have hf := search_full_all _ _ h.counter hs
    have hk := (search_full _ _ _ h.counter hs).2
    refine h.failed t hold .full key hk ?_
    show (live w.log).length = 2 ^ 32
    rw [← List.length_map (f := Prod.fst) (as := live w.log)]
    refine length_of_all _ _ (live_nodup _ h.good) ?_ (fun i hi => by rw [← h.table]; exact hf i hi)
    intro k hk
    obtain ⟨⟨a, b⟩, hab, rfl⟩ := List.mem_map.1 hk
    exact (live_created _ h.good a b hab).1
  | overflow =>
    exact h.next _ (.aborted t) rfl rfl h.counter rfl trivial (fun _ _ => rfl) (fun _ => rfl) (by simp) (by simp)
      (fun _ _ => Iff.rfl) h.acq (fun _ _ _ _ _ hi => hi) (fun _ ho => Or.inl ho)

theorem Inv.check (h : Inv S w) (t : Fin n) (key o : ℕ) (ht : w.pcs t = .checking key o) :
    Inv S (doCheck w t key o) := by
  have hold : ∀ o pts, w.pcs t ≠ .stepping o pts := by simp [ht]
  unfold doCheck
  by_cases hc : strong w o = 1
  · rw [if_pos hc]
    exact h.next _ (.aborted t) rfl rfl h.counter rfl trivial (fun _ _ => rfl) (fun _ => rfl) (by simp) (by simp)
      (fun _ _ => Iff.rfl) h.acq (fun _ _ _ _ _ hi => hi) (fun _ ho => Or.inl ho)
  · rw [if_neg hc]
    refine h.next _ (.returned t key o) rfl rfl h.counter rfl ⟨key, rfl, h.acq _ _ _ ht⟩ (fun _ _ => rfl)
      (fun _ => rfl) (by simp) ?_ (goto_pend t _ hold (by simp)) ?_ (goto_ins t _ (by simp)) ?_
    · intro t' id o' he
      cases he
      rcases acquired_mem _ _ _ _ (h.acq _ _ _ ht) with ⟨m, p, h1⟩ | h1
      · exact ⟨t, key, m, p, h1⟩
      · obtain ⟨l₁, l₂, hl⟩ := List.append_of_mem h1
        have hm : (key, o) ∈ live l₁ := h.good _ _ _ hl
        have hg1 : AllGood S l₁ := by
          have := h.good
          rw [hl] at this
          exact this.prefix
        obtain ⟨-, t', m, p, h2⟩ := live_created _ hg1 _ _ hm
        exact ⟨t', key, m, p, by rw [hl]; simp [h2]⟩
    · intro t' k' o' hk
      rcases goto_cases t t' _ _ hk with ⟨rfl, hq⟩ | ⟨hne, hk⟩
      · cases hq
      · exact h.acq t' k' o' hk
    · intro o' ho
      rcases List.mem_cons.1 ho with rfl | ho
      · exact Or.inr ⟨t, key, rfl⟩
      · exact Or.inl ho

theorem Inv.clear (h : Inv S w) : Inv S (doClear w) :=
  h.next _ .cleared rfl rfl (by simp [doClear, World.emit]) rfl trivial (fun _ _ => rfl) (fun _ => rfl) (by simp) (by simp)
    (fun _ _ => Iff.rfl) h.acq (fun _ _ _ _ _ hi => hi) (fun _ ho => Or.inl ho)

theorem Inv.begin (h : Inv S w) (t : Fin n) (ht : w.pcs t = .idle) (o : ℕ) (ho : o ∈ w.boxes) (pts : Option Pts) :
    Inv S (doBegin w t o pts) := by
  have hnp : pending t w.log = none := by
    cases hq : pending t w.log with
    | none => rfl
    | some q =>
      obtain ⟨pts, hq⟩ := (h.pend t q).1 hq
      rw [ht] at hq
      cases hq
  obtain ⟨tr, idr, hret⟩ := h.boxes o ho
  obtain ⟨tc, kc, mc, pc, hcr⟩ := h.known _ _ _ hret
  unfold doBegin
  cases hx : w.heap[o]? with
  | none => exact h
  | some x =>
    obtain ⟨s, b⟩ := x
    cases b with
    | true =>
      simp only
      obtain ⟨t', ht'⟩ := h.busy o s hx
      refine h.next _ (.busy t o) rfl rfl h.counter rfl ⟨t', ?_, ht'⟩ (fun _ _ => rfl) (fun _ => rfl) (by simp)
        (by simp) (fun _ _ => Iff.rfl) h.acq (fun _ _ _ _ _ hi => hi) (fun _ ho => Or.inl (List.mem_of_mem_erase ho))
      rintro rfl
      rw [hnp] at ht'
      cases ht'
    | false =>
      simp only
      have hlen : o < w.heap.length := (List.getElem?_eq_some_iff.1 hx).1
      have hfree : ∀ t', pending t' w.log ≠ some o := by
        intro t' ht'
        obtain ⟨⟨s', h1⟩, -⟩ := h.locked t' o ht'
        rw [hx] at h1
        cases h1
      have hh : ∀ o', histStep o' (Ev.began t o : Ev n Mesh Params Pts) = none := fun _ => rfl
      constructor
      · exact h.good.append ⟨hnp, hfree, tr, idr, hret⟩
      · simp only [World.emit, World.goto, live_append, liveStep, h.table]
      · exact h.counter
      · intro t' o'
        simp only [World.emit, World.goto, pending_append, pendStep]
        by_cases hne : t = t'
        · subst hne
          simp
        · rw [if_neg hne, Function.update_of_ne (Ne.symm hne)]
          exact h.pend t' o'
      · intro t' k' o' hk
        simp only [World.emit, World.goto, acquired_append, acqStep]
        rcases goto_cases t t' _ _ hk with ⟨rfl, hq⟩ | ⟨hne, hk⟩
        · cases hq
        · exact h.acq t' k' o' hk
      · intro o' ho'
        obtain ⟨t', id, h1⟩ := h.boxes o' (List.mem_of_mem_erase ho')
        exact ⟨t', id, by simp [World.emit, World.goto, h1]⟩
      · intro t' id o' ho'
        simp only [World.emit, World.goto, List.mem_append, List.mem_singleton, reduceCtorEq, or_false] at ho'
        obtain ⟨t'', k, m', p', h1⟩ := h.known t' id o' ho'
        exact ⟨t'', k, m', p', by simp [World.emit, World.goto, h1]⟩
      · intro t' o' ho'
        simp only [World.emit, World.goto, pending_append, pendStep] at ho'
        have : ∃ t'' k m p, Ev.created t'' k o' m p ∈ w.log := by
          split_ifs at ho' with hne
          · cases ho'
            exact ⟨tc, kc, mc, pc, hcr⟩
          · exact h.started t' o' ho'
        obtain ⟨t'', k, m', p', h1⟩ := this
        exact ⟨t'', k, m', p', by simp [World.emit, World.goto, h1]⟩
      · intro t' k o' m' p' hm
        simp only [World.emit, World.goto, List.mem_append, List.mem_singleton, reduceCtorEq, or_false] at hm
        simp only [World.emit, World.goto, history_append, hh, Option.toList_none, List.append_nil]
        obtain ⟨s', b, h1, h2⟩ := h.made t' k o' m' p' hm
        by_cases hoo : o = o'
        · subst hoo
          rw [hx] at h2
          cases h2
          exact ⟨s', true, h1, by rw [List.getElem?_set_self hlen]⟩
        · exact ⟨s', b, h1, by rw [List.getElem?_set_ne hoo]; exact h2⟩
      · intro t' g' o' m' p' hi
        rcases goto_cases t t' _ _ hi with ⟨rfl, hq⟩ | ⟨hne, hi⟩
        · cases hq
        · obtain ⟨⟨s', h0, h1⟩, h2, h3, h4⟩ := h.inserting _ _ _ _ _ hi
          have hoo : o ≠ o' := by
            rintro rfl
            exact h3 _ _ _ _ hcr
          simp only [World.emit, World.goto, history_append, hh, Option.toList_none, List.append_nil, List.mem_append,
            List.mem_singleton, reduceCtorEq, or_false]
          refine ⟨⟨s', h0, by rw [List.getElem?_set_ne hoo]; exact h1⟩, h2, h3, fun t'' g'' m'' p'' hi' => ?_⟩
          exact h4 t'' g'' m'' p'' (goto_ins t _ (by simp) _ _ _ _ _ hi')
      · intro o' s' ho'
        simp only [World.emit, World.goto, pending_append, pendStep] at ho' ⊢
        by_cases hoo : o = o'
        · subst hoo
          exact ⟨t, by simp⟩
        · rw [List.getElem?_set_ne hoo] at ho'
          obtain ⟨t', ht'⟩ := h.busy o' s' ho'
          refine ⟨t', ?_⟩
          have : t ≠ t' := by
            rintro rfl
            rw [hnp] at ht'
            cases ht'
          rw [if_neg this, ht']
      · intro t' o' ho'
        simp only [World.emit, World.goto, pending_append, pendStep] at ho' ⊢
        by_cases hne : t = t'
        · subst hne
          rw [if_pos rfl] at ho'
          cases ho'
          refine ⟨⟨s, by rw [List.getElem?_set_self hlen]⟩, fun t'' ht'' => ?_⟩
          by_cases hne : t = t''
          · exact hne.symm
          · rw [if_neg hne] at ht''
            exact (hfree _ ht'').elim
        · rw [if_neg hne] at ho'
          have hoo : o ≠ o' := by
            rintro rfl
            exact hfree _ ho'
          obtain ⟨⟨s', h1⟩, h2⟩ := h.locked t' o' ho'
          refine ⟨⟨s', by rw [List.getElem?_set_ne hoo]; exact h1⟩, fun t'' ht'' => ?_⟩
          split_ifs at ht'' with hq
          · cases ht''
            exact (hoo rfl).elim
          · exact h2 _ ht''
      · intro o' ho'
        simp only [World.emit, World.goto, history_append, hh, Option.toList_none, List.append_nil]
        exact h.fresh o' (by simpa [World.emit, World.goto] using ho')

theorem replay_append (S : Solvers Mesh Params Pts σ) (s : σ) (l : List (Option Pts)) (p : Option Pts) :
    replay S s (l ++ [p]) = (apiStep S (replay S s l) p).1 := by simp [replay]

theorem Inv.endStep (h : Inv S w) (t : Fin n) (o : ℕ) (pts : Option Pts) (ht : w.pcs t = .stepping o pts) :
    Inv S (doEnd S w t o pts) := by
  have hpo : pending t w.log = some o := (h.pend t o).2 ⟨pts, ht⟩
  obtain ⟨tc, kc, mc, pc, hcr⟩ := h.started _ _ hpo
  obtain ⟨⟨sl, hsl⟩, huniq⟩ := h.locked _ _ hpo
  obtain ⟨s₀, b₀, hb, hheap⟩ := h.made _ _ _ _ _ hcr
  rw [hsl] at hheap
  simp only [Option.some.injEq, Prod.mk.injEq] at hheap
  obtain ⟨rfl, -⟩ := hheap
  have hlen : o < w.heap.length := (List.getElem?_eq_some_iff.1 hsl).1
  unfold doEnd
  rw [hsl]
  simp only
  constructor
  · exact h.good.append ⟨hpo, tc, kc, mc, pc, s₀, hcr, hb, rfl⟩
  · simp only [World.emit, World.goto, live_append, liveStep, h.table]
  · exact h.counter
  · intro t' o'
    simp only [World.emit, World.goto, pending_append, pendStep]
    by_cases hne : t = t'
    · subst hne
      simp
    · rw [if_neg hne, Function.update_of_ne (Ne.symm hne)]
      exact h.pend t' o'
  · intro t' k' o' hk
    simp only [World.emit, World.goto, acquired_append, acqStep]
    rcases goto_cases t t' _ _ hk with ⟨rfl, hq⟩ | ⟨hne, hk⟩
    · cases hq
    · exact h.acq t' k' o' hk
  · intro o' ho'
    obtain ⟨t', id, h1⟩ := h.boxes o' ho'
    exact ⟨t', id, by simp [World.emit, World.goto, h1]⟩
  · intro t' id o' ho'
    simp only [World.emit, World.goto, List.mem_append, List.mem_singleton, reduceCtorEq, or_false] at ho'
    obtain ⟨t'', k, m', p', h1⟩ := h.known t' id o' ho'
    exact ⟨t'', k, m', p', by simp [World.emit, World.goto, h1]⟩
  · intro t' o' ho'
    simp only [World.emit, World.goto, pending_append, pendStep] at ho'
    split_ifs at ho' with hne
    obtain ⟨t'', k, m', p', h1⟩ := h.started t' o' ho'
    exact ⟨t'', k, m', p', by simp [World.emit, World.goto, h1]⟩
  · intro t' k o' m' p' hm
    simp only [World.emit, World.goto, List.mem_append, List.mem_singleton, reduceCtorEq, or_false] at hm
    simp only [World.emit, World.goto, history_append, histStep]
    obtain ⟨s', b, h1, h2⟩ := h.made t' k o' m' p' hm
    by_cases hoo : o = o'
    · subst hoo
      rw [hsl] at h2
      simp only [Option.some.injEq, Prod.mk.injEq] at h2
      refine ⟨s', false, h1, ?_⟩
      rw [List.getElem?_set_self hlen, if_pos rfl, Option.toList_some, replay_append, h2.1]
    · exact ⟨s', b, h1, by rw [List.getElem?_set_ne hoo, if_neg hoo]; simpa using h2⟩
  · intro t' g' o' m' p' hi
    rcases goto_cases t t' _ _ hi with ⟨rfl, hq⟩ | ⟨hne, hi⟩
    · cases hq
    · obtain ⟨⟨s', h0, h1⟩, h2, h3, h4⟩ := h.inserting _ _ _ _ _ hi
      have hoo : o ≠ o' := by
        rintro rfl
        exact h3 _ _ _ _ hcr
      simp only [World.emit, World.goto, history_append, histStep, if_neg hoo, Option.toList_none, List.append_nil,
        List.mem_append, List.mem_singleton, reduceCtorEq, or_false]
      refine ⟨⟨s', h0, by rw [List.getElem?_set_ne hoo]; exact h1⟩, h2, h3, fun t'' g'' m'' p'' hi' => ?_⟩
      exact h4 t'' g'' m'' p'' (goto_ins t _ (by simp) _ _ _ _ _ hi')
  · intro o' s' ho'
    simp only [World.emit, World.goto, pending_append, pendStep] at ho' ⊢
    by_cases hoo : o = o'
    · subst hoo
      rw [List.getElem?_set_self hlen] at ho'
      cases ho'
    · rw [List.getElem?_set_ne hoo] at ho'
      obtain ⟨t', ht'⟩ := h.busy o' s' ho'
      refine ⟨t', ?_⟩
      have : t ≠ t' := by
        rintro rfl
        rw [hpo] at ht'
        cases ht'
        exact hoo rfl
      rw [if_neg this, ht']
  · intro t' o' ho'
    simp only [World.emit, World.goto, pending_append, pendStep] at ho' ⊢
    split_ifs at ho' with hne
    have hoo : o ≠ o' := by
      rintro rfl
      exact hne (huniq _ ho').symm
    obtain ⟨⟨s', h1⟩, h2⟩ := h.locked t' o' ho'
    refine ⟨⟨s', by rw [List.getElem?_set_ne hoo]; exact h1⟩, fun t'' ht'' => ?_⟩
    split_ifs at ht'' with hq
    exact h2 _ ht''
  · intro o' ho'
    have hle : w.heap.length ≤ o' := by simpa [World.emit, World.goto] using ho'
    have hoo : o ≠ o' := by omega
    simp only [World.emit, World.goto, history_append, histStep, if_neg hoo, Option.toList_none, List.append_nil]
    exact h.fresh o' hle

theorem Inv.drop (h : Inv S w) (o : ℕ) : Inv S { w with boxes := w.boxes.erase o } :=
  { h with boxes := fun o' ho => h.boxes o' (List.mem_of_mem_erase ho) }

theorem Inv.step (h : Inv S w) (checked : Bool) (a : Act n Mesh Params Pts) : Inv S (step S checked w a) := by
  unfold Handles.step
  by_cases hd : w.dead = true
  · rw [if_pos hd]
    exact h
  rw [if_neg hd]
  cases a with
  | get t id mesh params =>
    cases ht : w.pcs t <;> simp only [ht]
    case idle => exact h.get t ht id mesh params
    all_goals exact h
  | register t mesh params =>
    cases ht : w.pcs t <;> simp only [ht]
    case idle => exact h.goto_plain t _ (by simp [ht]) (Or.inr ⟨_, _, _, rfl⟩)
    all_goals exact h
  | build t =>
    cases ht : w.pcs t <;> simp only [ht]
    case building g m p => exact h.build t g m p ht
    all_goals exact h
  | insert t =>
    cases ht : w.pcs t <;> simp only [ht]
    case inserting g o m p => exact h.insert checked t g o m p ht
    all_goals exact h
  | check t =>
    cases ht : w.pcs t <;> simp only [ht]
    case checking k o => exact h.check t k o ht
    all_goals exact h
  | clear t =>
    cases ht : w.pcs t <;> simp only [ht]
    case idle => exact h.clear
    all_goals exact h
  | beginStep t o pts =>
    cases ht : w.pcs t <;> simp only [ht]
    case idle =>
      by_cases ho : o ∈ w.boxes
      · rw [if_pos ho]
        exact h.begin t ht o ho pts
      · rw [if_neg ho]
        exact h
    all_goals exact h
  | endStep t =>
    cases ht : w.pcs t <;> simp only [ht]
    case stepping o pts => exact h.endStep t o pts ht
    all_goals exact h
  | drop o => exact h.drop o

end Steps

theorem inv_run (S : Solvers Mesh Params Pts σ) (checked : Bool) (acts : List (Act n Mesh Params Pts)) :
    Inv S (run n S checked acts) := by
  unfold run
  induction acts using List.reverseRecOn with
  | nil => exact inv_initial S
  | append_singleton acts a ih =>
    rw [List.foldl_append]
    exact ih.step checked a

end Softy.Handles
