import Verif.Model.ParForce
import Verif.Prelude

/-!
# C19 — parallel accumulation equals sequential accumulation
-/

namespace Softy.ParForce

variable {Q V : Type*} [AddCommGroup V]

/-! ## Sums of contributions -/

/-- Sum of the contributions to vertex `c`. -/
def total (l : List (Op V)) (c : ℕ) : V := (l.map fun o => if o.1 = c then o.2 else 0).sum

theorem total_append (a b : List (Op V)) (c : ℕ) : total (a ++ b) c = total a c + total b c := by
  simp [total]

theorem foldl_subtract (l : List (Op V)) (f : ℕ → V) (c : ℕ) :
    l.foldl subtractOp f c = f c - total l c := by
  induction l generalizing f with
  | nil => simp [total]
  | cons a t ih =>
    rw [List.foldl_cons, ih]
    simp only [subtractOp, total, List.map_cons, List.sum_cons]
    by_cases h : a.1 = c
    · subst h; simp; abel
    · rw [Function.update_of_ne (Ne.symm h)]; simp [h]

theorem foldl_stepWs (s : List (ℕ × Op V)) (ws : ℕ → ℕ → V) (w c : ℕ) :
    s.foldl stepWs ws w c = ws w c - total ((s.filter fun e => e.1 == w).map Prod.snd) c := by
  induction s generalizing ws with
  | nil => simp [total]
  | cons a t ih =>
    rw [List.foldl_cons, ih]
    by_cases h : a.1 = w
    · subst h
      simp only [stepWs, Function.update_self, List.filter_cons, beq_self_eq_true, if_true,
        List.map_cons, total, List.sum_cons, subtractOp]
      by_cases hc : a.2.1 = c
      · subst hc; simp; abel
      · rw [Function.update_of_ne (Ne.symm hc)]; simp [hc]
    · have hb : (a.1 == w) = false := by simpa using h
      simp only [stepWs, List.filter_cons, hb]
      rw [Function.update_of_ne (Ne.symm h)]
      simp

theorem merge_eq (n : ℕ) (ws : ℕ → ℕ → V) (f : ℕ → V) (c : ℕ) :
    merge n ws f c = f c + ((List.range n).map fun w => ws w c).sum := by
  unfold merge
  induction n with
  | zero => simp
  | succ n ih =>
    rw [List.range_succ, List.foldl_append, List.map_append, List.sum_append]
    simp only [List.foldl_cons, List.foldl_nil, List.map_cons, List.map_nil, List.sum_cons,
      List.sum_nil, add_zero, ih, add_assoc]

theorem sum_total_range (ops : ℕ → List (Op V)) (n c : ℕ) :
    ((List.range n).map fun w => total (ops w) c).sum =
      total ((List.range n).flatMap ops) c := by
  induction n with
  | zero => simp [total]
  | succ n ih =>
    rw [List.range_succ, List.map_append, List.sum_append, List.flatMap_append, total_append, ih]
    simp

/-! ## Chunks cover the work -/

theorem chunk_cover {len n : ℕ} (hn : 0 < n) : len ≤ n * chunkSize len n := by
  unfold chunkSize
  have := Nat.div_add_mod (len + n - 1) n
  have := Nat.mod_lt (len + n - 1) hn
  omega

theorem zipIdx_shift (contrib : ℕ → Q → List (Op V)) (c : List Q) (s t : ℕ) :
    (c.zipIdx (s + t)).flatMap (fun q => contrib q.2 q.1) =
      (c.zipIdx t).flatMap (fun q => contrib (s + q.2) q.1) := by
  induction c generalizing t with
  | nil => simp
  | cons a l ih =>
    simp only [List.zipIdx_cons, List.flatMap_cons]
    rw [show s + t + 1 = s + (t + 1) by omega, ih]

/-- The operations of the first `m` workers are those of the first `m` chunks of points. -/
theorem workers_prefix (contrib : ℕ → Q → List (Op V)) (qs : List Q) (n m : ℕ) (hm : m ≤ n)
    (hk : 0 < chunkSize qs.length n) :
    (List.range m).flatMap (workerOps contrib qs n) =
      seqOps contrib (qs.take (m * chunkSize qs.length n)) := by
  induction m with
  | zero => simp [seqOps]
  | succ m ih =>
    rw [List.range_succ, List.flatMap_append, ih (by omega)]
    simp only [List.flatMap_cons, List.flatMap_nil, List.append_nil]
    unfold workerOps
    rw [if_pos (by omega)]
    generalize hkk : chunkSize qs.length n = k at *
    have hsplit : qs.take ((m + 1) * k) = qs.take (m * k) ++ (qs.drop (m * k)).take k := by
      rw [show (m + 1) * k = m * k + k by ring, List.take_add]
    have hiff : m < (qs.length + k - 1) / k ↔ m * k < qs.length := by
      rw [Nat.lt_iff_add_one_le, Nat.le_div_iff_mul_le hk, add_mul]
      omega
    by_cases hlt : m * k < qs.length
    · have hget : (parChunks k qs)[m]? = some ((qs.drop (m * k)).take k) := by
        unfold parChunks
        rw [List.getElem?_map, List.getElem?_range (hiff.2 hlt)]
        rfl
      rw [hget, hsplit]
      have hlen : (qs.take (m * k)).length = m * k := by
        rw [List.length_take, min_eq_left]; omega
      unfold seqOps
      rw [List.zipIdx_append, List.flatMap_append, hlen]
      congr 1
      rw [show 0 + m * k = m * k + 0 by omega, zipIdx_shift]
    · have hget : (parChunks k qs)[m]? = none := by
        unfold parChunks
        rw [List.getElem?_eq_none]
        simpa using fun h => hlt (hiff.1 h)
      rw [hget, hsplit, List.drop_eq_nil_of_le (by omega)]
      simp

/-- **C19 (chunking)** Splitting the query points over any positive number of workers neither
drops, repeats nor renumbers a contribution. -/
theorem workers_cover (contrib : ℕ → Q → List (Op V)) (qs : List Q) (n : ℕ) (hn : 0 < n)
    (hk : 0 < chunkSize qs.length n) :
    (List.range n).flatMap (workerOps contrib qs n) = seqOps contrib qs := by
  rw [workers_prefix contrib qs n n le_rfl hk, List.take_of_length_le (chunk_cover hn)]

theorem chunkSize_pos {len n : ℕ} (hn : 0 < n) : 0 < chunkSize len n ↔ 0 < len := by
  unfold chunkSize
  rw [Nat.div_pos_iff]
  omega

theorem workerOps_beyond (contrib : ℕ → Q → List (Op V)) (qs : List Q) (n w : ℕ) (h : n ≤ w) :
    workerOps contrib qs n w = [] := by
  unfold workerOps
  rw [if_neg (by omega)]

/-- **C19** For every positive number of workers, every nonempty list of query points and
every interleaving of the workers, the parallel loop subtracts exactly what the sequential
loop subtracts. -/
theorem par_eq_seq (surf coll : ℕ → Q → List (Op V)) (qs : List Q) (hqs : qs ≠ []) (n : ℕ)
    (hn : 0 < n) (s1 s2 : List (ℕ × Op V))
    (h1 : IsSchedule (workerOps surf qs n) s1) (h2 : IsSchedule (workerOps coll qs n) s2)
    (f : ℕ → V) :
    subtractPar n qs s1 s2 f = some (subtractSeq surf coll qs f) := by
  have hk : 0 < chunkSize qs.length n :=
    (chunkSize_pos hn).2 (List.length_pos_iff.2 hqs)
  unfold subtractPar
  rw [if_neg (by omega)]
  refine congrArg some ?_
  funext c
  rw [merge_eq]
  unfold subtractSeq
  rw [foldl_subtract, total_append]
  have hw : ∀ w, (s1 ++ s2).foldl stepWs (fun _ _ => (0 : V)) w c =
      -(total (workerOps surf qs n w) c + total (workerOps coll qs n w) c) := by
    intro w
    rw [foldl_stepWs, List.filter_append, List.map_append, h1 w, h2 w, total_append, zero_sub]
  simp only [hw]
  rw [sub_eq_add_neg]
  congr 1
  rw [← workers_cover surf qs n hn hk, ← workers_cover coll qs n hn hk, ← sum_total_range,
    ← sum_total_range]
  induction (List.range n) with
  | nil => simp
  | cons a l ih => simp only [List.map_cons, List.sum_cons, ih]; abel

/-- Executions exist: running the workers one after another is a schedule. -/
theorem exists_schedule (ops : ℕ → List (Op V)) (n : ℕ) (h : ∀ w, n ≤ w → ops w = []) :
    IsSchedule ops ((List.range n).flatMap fun w => (ops w).map fun o => (w, o)) := by
  have key : ∀ m, m ≤ n → ∀ w,
      ((((List.range m).flatMap fun w => (ops w).map fun o => (w, o)).filter
        fun e => e.1 == w).map Prod.snd) = if w < m then ops w else [] := by
    intro m
    induction m with
    | zero => simp
    | succ m ih =>
      intro hm w
      rw [List.range_succ, List.flatMap_append, List.filter_append, List.map_append,
        ih (by omega)]
      simp only [List.flatMap_cons, List.flatMap_nil, List.append_nil]
      by_cases hw : m = w
      · subst hw
        have : ((ops m).map fun o => (m, o)).filter (fun e => e.1 == m) =
            (ops m).map fun o => (m, o) := by
          apply List.filter_eq_self.2
          intro e he
          obtain ⟨o, -, rfl⟩ := List.mem_map.1 he
          simp
        rw [this]
        simp
      · have : ((ops m).map fun o => (m, o)).filter (fun e => e.1 == w) = [] := by
          apply List.filter_eq_nil_iff.2
          intro e he
          obtain ⟨o, -, rfl⟩ := List.mem_map.1 he
          simpa using hw
        rw [this]
        by_cases hl : w < m
        · simp [hl, show w < m + 1 by omega]
        · simp [hl, show ¬ w < m + 1 by omega]
  intro w
  rw [key n le_rfl w]
  by_cases hw : w < n
  · simp [hw]
  · simp [hw, h w (by omega)]

/-- A non-trivial case: three points over two workers, with a vertex shared by the workers,
and an interleaving that alternates between them. -/
example :
    let contrib : ℕ → ℤ → List (Op ℤ) := fun i q => [(0, q * (i + 1)), (i + 1, q)]
    let s : List (ℕ × Op ℤ) :=
      [(1, (0, 21)), (0, (0, 5)), (0, (1, 5)), (1, (3, 7)), (0, (0, 12)), (0, (2, 6))]
    IsSchedule (workerOps contrib [5, 6, 7] 2) s := by
  intro contrib s w
  rcases w with _ | _ | w
  · rfl
  · rfl
  · rw [workerOps_beyond _ _ _ _ (by omega)]
    simp [s]

/-- **C19 (violated without points)** With no query point the parallel version panics
whatever the number of workers, where the sequential one leaves the forces alone. -/
theorem par_empty_violated (surf coll : ℕ → Q → List (Op V)) (n : ℕ) (hn : 0 < n)
    (f : ℕ → V) :
    subtractPar n ([] : List Q) [] [] f = none ∧ subtractSeq surf coll [] f = f := by
  constructor
  · unfold subtractPar
    have : ¬ 0 < chunkSize ([] : List Q).length n := by
      rw [chunkSize_pos hn]; simp
    rw [if_pos (by omega)]
  · rfl

end Softy.ParForce
