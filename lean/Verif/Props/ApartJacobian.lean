import Verif.Props.Apart

/-!
# C123: the linear systems of objects that do not touch
-/

noncomputable section

namespace Softy.Apart

open Softy Assembly Fem Contact

/-! ## Specification -/

/-- An entry of the matrix of the linear system that a step of Newton's method solves: the sum of the
values that are stored for it. -/
def entry (S : Touching) (x v : ℕ → V3 ℝ) (q fmul : ℝ) (i j : ℕ) : ℝ :=
  Sparse.storedEntry ((S.jacobianIndices x).zip (S.jacobianValues x v q fmul)) (i, j)

/-! ## Sums of triplets -/

/-- A triplet couples coordinates of vertices in `s`. -/
def Inside (s : Set ℕ) (k : ℕ × ℕ) : Prop := k.1 / 3 ∈ s ∧ k.2 / 3 ∈ s

theorem Inside.swap {s : Set ℕ} {k : ℕ × ℕ} (h : Inside s k) : Inside s (k.2, k.1) := ⟨h.2, h.1⟩

theorem stored_off {l : List ((ℕ × ℕ) × ℝ)} {k : ℕ × ℕ} (h : ∀ e ∈ l, e.1 = k → e.2 = 0) :
    Sparse.storedEntry l k = 0 := by
  unfold Sparse.storedEntry
  refine List.sum_eq_zero fun y hy => ?_
  obtain ⟨e, he, rfl⟩ := List.mem_map.1 hy
  split_ifs with hk
  · exact h e he hk
  · rfl

theorem stored_outside {l : List ((ℕ × ℕ) × ℝ)} {s : Set ℕ} (h : ∀ e ∈ l, Inside s e.1) {k : ℕ × ℕ}
    (hk : ¬Inside s k) : Sparse.storedEntry l k = 0 :=
  stored_off fun e he hek => absurd (hek ▸ h e he) hk

theorem zip_inside {l : List (ℕ × ℕ)} {vs : List ℝ} {s : Set ℕ} (h : ∀ p ∈ l, Inside s p) :
    ∀ e ∈ l.zip vs, Inside s e.1 :=
  fun e he => h e.1 (List.of_mem_zip (a := e.1) (b := e.2) he).1

theorem zip_blocks {ι α β : Type} (l l' : List ι) (f : ι → List α) (g : ι → List β)
    (h : ∀ a, (f a).length = (g a).length) :
    ((l ++ l').flatMap f).zip ((l ++ l').flatMap g) =
      (l.flatMap f).zip (l.flatMap g) ++ (l'.flatMap f).zip (l'.flatMap g) := by
  rw [Volume.zip_flatMap' _ _ _ h, Volume.zip_flatMap' _ _ _ h, Volume.zip_flatMap' _ _ _ h,
    List.flatMap_append]

/-! ## Positions -/

theorem global_inside {m : ℕ} {cell : Fin m → ℕ} {s : Set ℕ} (h : ∀ n, cell n ∈ s) (e : Entry m) :
    Inside s (globalIndex cell (0, 0) e) := by
  obtain ⟨n, k, row, col⟩ := e
  have h1 : (3 * cell n + row.val) / 3 = cell n := by omega
  have h2 : (3 * cell k + col.val) / 3 = cell k := by omega
  unfold globalIndex Inside
  simp only [add_zero]
  split_ifs
  · simp only [h1, h2]; exact ⟨h k, h n⟩
  · simp only [h1, h2]; exact ⟨h n, h k⟩

theorem inertia_inside {m : ℕ} {bs : List (Body m)} {s : Set ℕ} (h : ∀ b ∈ bs, ∀ n, b.cell n ∈ s) :
    ∀ p ∈ inertiaIndices bs (0, 0), Inside s p := by
  intro p hp
  unfold inertiaIndices at hp
  simp only [List.mem_flatMap, List.mem_map] at hp
  obtain ⟨b, hb, n, -, j, -, rfl⟩ := hp
  have h1 : (3 * b.cell n + j.val + 0) / 3 = b.cell n := by omega
  unfold Inside
  simp only [h1]
  exact ⟨h b hb n, h b hb n⟩

theorem elems_inside {ι : Type} {m : ℕ} (T : List (Entry m)) (es : List ι) (cell : ι → Fin m → ℕ) {s : Set ℕ}
    (h : ∀ e ∈ es, ∀ n, cell e n ∈ s) :
    ∀ p ∈ es.flatMap fun e => T.map (globalIndex (cell e) (0, 0)), Inside s p := by
  intro p hp
  obtain ⟨e, he, hp⟩ := List.mem_flatMap.1 hp
  obtain ⟨t, -, rfl⟩ := List.mem_map.1 hp
  exact global_inside (h e he) t

theorem lower_inside {S : Touching} {s : Set ℕ} (h : Only S s) :
    ∀ p ∈ S.lowerIndices, Inside s p := by
  classical
  intro p hp
  unfold Problem.lowerIndices at hp
  simp only [List.mem_append] at hp
  rcases hp with ((hp | hp) | hp) | hp
  · exact elems_inside _ _ (fun e : TetElem => e.cell) h.nh p hp
  · exact elems_inside _ _ (fun e : TetElem => e.cell) h.snh p hp
  · rcases List.mem_append.1 hp with hp | hp
    · exact elems_inside _ _ (fun e : TriElem => e.cell) h.tris p hp
    · exact elems_inside _ _ (fun e : Dihedral => e.cell S.shell.faces)
        (fun e he n => hinge_cell (h.hinges e he).2 n) p hp
  · split_ifs at hp
    · simp at hp
    · simp only [List.mem_append] at hp
      rcases hp with (hp | hp) | hp <;> refine inertia_inside ?_ p hp <;> intro b hb n <;>
        obtain ⟨y, hy, rfl⟩ := List.mem_map.1 hb
      · exact h.nh y.1 (List.of_mem_zip hy).1 n
      · exact h.snh y.1 (List.of_mem_zip hy).1 n
      · exact h.tris y.1 (List.of_mem_zip hy).1 n

theorem zone_inside {P : Volume.Penalty} {s : Set ℕ} (h : ∀ t ∈ P.topo, ∀ n, t n ∈ s) :
    ∀ p ∈ P.hessianIndices, Inside s p := by
  have key : ∀ a b : ℕ, ∀ i j : Fin 3, a ∈ s → b ∈ s → Inside s (3 * a + i.val, 3 * b + j.val) := by
    intro a b i j ha hb
    unfold Inside
    simp only [show (3 * a + i.val) / 3 = a by omega, show (3 * b + j.val) / 3 = b by omega]
    exact ⟨ha, hb⟩
  intro p hp
  unfold Volume.Penalty.hessianIndices at hp
  obtain ⟨t, ht, hp⟩ := List.mem_flatMap.1 hp
  rcases List.mem_append.1 hp with hp | hp
  · obtain ⟨e, -, rfl⟩ := List.mem_map.1 hp
    exact key _ _ _ _ (h t ht _) (h t ht _)
  · split_ifs at hp
    · simp at hp
    · simp only [List.mem_flatMap, List.mem_map] at hp
      obtain ⟨u, hu, vi, -, vj, -, i, -, j, -, rfl⟩ := hp
      exact key _ _ _ _ (h t ht _) (h u hu _)

theorem blocks_inside (C : Pair) (x : ℕ → V3 ℝ) {s : Set ℕ} (ho : ∀ j, C.surf j ∈ s) (hc : ∀ i, C.coll i ∈ s) :
    ∀ b ∈ C.blocks x, b.col ∈ s := by
  intro b hb
  unfold Pair.blocks Pair.objectBlocks Pair.colliderBlocks at hb
  rcases List.mem_append.1 hb with hb | hb
  · split at hb
    · simp at hb
    · obtain ⟨b', -, rfl⟩ := List.mem_map.1 hb
      exact ho _
  · split at hb
    · simp at hb
    · obtain ⟨b', -, rfl⟩ := List.mem_map.1 hb
      exact hc _

theorem rows_inside (C : Pair) (x : ℕ → V3 ℝ) (N : ℕ) {s : Set ℕ} (h : ∀ b ∈ C.blocks x, b.col ∈ s) :
    ∀ v ∈ Pair.gradientRows (C.gradient x N), v ∈ s := by
  intro v hv
  unfold Pair.gradientRows at hv
  obtain ⟨e, he, rfl⟩ := List.mem_map.1 (List.mem_dedup.1 hv)
  unfold Pair.gradient at he
  obtain ⟨e', he', hk⟩ := (Sparse.pruneSum_mem_key _ e.1).1 ⟨e, he, rfl⟩
  obtain ⟨b, hb, rfl⟩ := List.mem_map.1 (List.mem_mergeSort.1 (List.mem_filter.1 he').1)
  rw [← hk]
  exact h b hb

theorem hessianBlocks_inside (C : Pair) (x : ℕ → V3 ℝ) (N n : ℕ) {s : Set ℕ} (ho : ∀ j, C.surf j ∈ s)
    (hc : ∀ i, C.coll i ∈ s) : ∀ b ∈ C.hessianBlocks x N n, b.row ∈ s ∧ b.col ∈ s := by
  intro b hb
  unfold Pair.hessianBlocks at hb
  rcases List.mem_append.1 hb with hb | hb
  · rcases List.mem_append.1 (List.mem_filter.1 hb).1 with hb | hb
    · obtain ⟨b', hb', hm⟩ := List.mem_flatMap.1 hb
      have hin : b'.row ∈ s ∧ b'.col ∈ s := by
        rcases List.mem_append.1 hb' with hb' | hb'
        · unfold Pair.objectHessian at hb'
          split_ifs at hb'
          · simp at hb'
          · obtain ⟨p, -, hb'⟩ := List.mem_flatMap.1 hb'
            obtain ⟨y, -, rfl⟩ := List.mem_map.1 hb'
            exact ⟨ho _, ho _⟩
        · unfold Pair.mixedHessian at hb'
          split_ifs at hb'
          · simp at hb'
          · obtain ⟨p, -, hb'⟩ := List.mem_flatMap.1 hb'
            obtain ⟨y, -, rfl⟩ := List.mem_map.1 hb'
            exact ⟨hc _, ho _⟩
      unfold Pair.mirror at hm
      rcases List.mem_cons.1 hm with rfl | hm
      · exact hin
      · split_ifs at hm
        · simp at hm
        · rw [List.mem_singleton.1 hm]
          exact ⟨hin.2, hin.1⟩
    · unfold Pair.colliderHessian at hb
      split_ifs at hb
      · simp at hb
      · obtain ⟨p, -, rfl⟩ := List.mem_map.1 hb
        exact ⟨hc _, hc _⟩
  · unfold Pair.productBlocks at hb
    simp only [List.mem_flatMap, List.mem_map, List.mem_filter] at hb
    obtain ⟨v, ⟨hv, -⟩, u, ⟨hu, -⟩, p, -, rfl⟩ := hb
    have := rows_inside C x N (blocks_inside C x ho hc)
    exact ⟨this v hv, this u hu⟩

theorem contact_inside (C : Pair) (x : ℕ → V3 ℝ) (N n : ℕ) {s : Set ℕ} (ho : ∀ j, C.surf j ∈ s)
    (hc : ∀ i, C.coll i ∈ s) : ∀ e ∈ C.hessianEntries x N n, Inside s e.1 := by
  intro e he
  unfold Pair.hessianEntries at he
  obtain ⟨b, hb, he⟩ := List.mem_flatMap.1 he
  obtain ⟨h1, h2⟩ := hessianBlocks_inside C x N n ho hc b hb
  unfold Pair.blockEntries at he
  simp only [List.mem_flatMap, List.mem_map] at he
  obtain ⟨r, -, c, -, rfl⟩ := he
  unfold Inside
  simp only [show (3 * b.row + r.val) / 3 = b.row by omega, show (3 * b.col + c.val) / 3 = b.col by omega]
  exact ⟨h1, h2⟩

/-! ## Contacts that do not touch -/

theorem m3_zero_smul (a : M3 ℝ) : (0 : ℝ) • a = 0 := by
  show (⟨(0 : ℝ) • a.r0, (0 : ℝ) • a.r1, (0 : ℝ) • a.r2⟩ : M3 ℝ) = 0
  rw [zero_smul, zero_smul, zero_smul]
  rfl

theorem idle_lambda {x : ℕ → V3 ℝ} {C : Pair} (h : Idle x C) : ∀ l ∈ C.lambda x, l = 0 := by
  intro l hl
  unfold Pair.lambda ContactPenalty.multipliers at hl
  obtain ⟨d, hd, rfl⟩ := List.mem_map.1 hl
  have : ¬C.delta - d > 0 := by have := h d hd; linarith
  simp [ContactPenalty.db, this]

theorem zero_blocks {x : ℕ → V3 ℝ} {C : Pair} (h : Idle x C) (N n : ℕ) :
    ∀ b ∈ C.hessianBlocks x N n, b.val = 0 := by
  have hm : ∀ p ∈ C.multiplied (C.lambda x), p.2 = 0 := fun p hp =>
    idle_lambda h p.2 (List.of_mem_zip (a := p.1) (b := p.2) hp).2
  intro b hb
  unfold Pair.hessianBlocks at hb
  rcases List.mem_append.1 hb with hb | hb
  · rcases List.mem_append.1 (List.mem_filter.1 hb).1 with hb | hb
    · obtain ⟨b', hb', hmir⟩ := List.mem_flatMap.1 hb
      have hz : b'.val = 0 := by
        rcases List.mem_append.1 hb' with hb' | hb'
        · unfold Pair.objectHessian at hb'
          split_ifs at hb'
          · simp at hb'
          · obtain ⟨p, hp, hb'⟩ := List.mem_flatMap.1 hb'
            obtain ⟨y, hy, rfl⟩ := List.mem_map.1 hb'
            unfold Field.faceHessianAt at hy
            cases hg : Field.Bg.local (C.query x p.1.2) p.1.1 (C.samples x) C.kernel params none with
            | none => rw [hg] at hy; simp at hy
            | some g =>
              rw [hg, Option.map_some, Option.getD_some] at hy
              obtain ⟨z, -, rfl⟩ := List.mem_map.1 hy
              show p.2 • z.val = 0
              rw [hm p hp, m3_zero_smul]
        · unfold Pair.mixedHessian at hb'
          split_ifs at hb'
          · simp at hb'
          · obtain ⟨p, hp, hb'⟩ := List.mem_flatMap.1 hb'
            obtain ⟨y, hy, rfl⟩ := List.mem_map.1 hb'
            unfold Field.sampleQueryHessianAt at hy
            cases hg : Field.Bg.local (C.query x p.1.2) p.1.1 (C.samples x) C.kernel params none with
            | none => rw [hg] at hy; simp at hy
            | some g =>
              rw [hg, Option.map_some, Option.getD_some] at hy
              obtain ⟨z, -, rfl⟩ := List.mem_map.1 hy
              show p.2 • _ = (0 : M3 ℝ)
              rw [hm p hp, m3_zero_smul]
      unfold Pair.mirror at hmir
      rcases List.mem_cons.1 hmir with rfl | hmir
      · exact hz
      · split_ifs at hmir
        · simp at hmir
        · rw [List.mem_singleton.1 hmir]
          show b'.val.transpose = 0
          rw [hz]
          rfl
    · unfold Pair.colliderHessian at hb
      split_ifs at hb
      · simp at hb
      · obtain ⟨p, hp, rfl⟩ := List.mem_map.1 hb
        show p.2 • _ = (0 : M3 ℝ)
        rw [hm p hp, m3_zero_smul]
  · unfold Pair.productBlocks at hb
    simp only [List.mem_flatMap, List.mem_map, List.mem_filter] at hb
    obtain ⟨v, ⟨hv, -⟩, u, ⟨hu, -⟩, p, hp, rfl⟩ := hb
    show (_ * ContactPenalty.ddb C.delta ((C.distances x).getD p.1.1.2 0)) • _ = (0 : M3 ℝ)
    have hlt : p.1.1.2 < C.active.length := by
      unfold Pair.gradientPairs at hp
      obtain ⟨a, ha, hp⟩ := List.mem_flatMap.1 hp
      obtain ⟨b, -, rfl⟩ := List.mem_map.1 hp
      have ha := (List.mem_filter.1 ha).1
      unfold Pair.gradient at ha
      obtain ⟨e', he', hk⟩ := (Sparse.pruneSum_mem_key _ a.1).1 ⟨a, ha, rfl⟩
      have := (List.mem_filter.1 he').2
      simp only [Bool.and_eq_true, decide_eq_true_eq] at this
      rw [← hk]
      exact this.2
    have hlen : (C.distances x).length = C.active.length := by
      rw [C.distances_eq, List.length_map]
    have hd : C.delta ≤ (C.distances x).getD p.1.1.2 0 := by
      rw [List.getD_eq_getElem _ _ (hlen ▸ hlt)]
      exact h _ (List.getElem_mem _)
    have : ContactPenalty.ddb C.delta ((C.distances x).getD p.1.1.2 0) = 0 := by
      unfold ContactPenalty.ddb
      simp only
      rw [if_neg (by linarith)]
    rw [this, mul_zero, m3_zero_smul]

theorem zero_entries {x : ℕ → V3 ℝ} {C : Pair} (h : Idle x C) (N n : ℕ) :
    ∀ e ∈ C.hessianEntries x N n, e.2 = 0 := by
  intro e he
  unfold Pair.hessianEntries at he
  obtain ⟨b, hb, he⟩ := List.mem_flatMap.1 he
  have hz := zero_blocks h N n b hb
  unfold Pair.blockEntries at he
  simp only [List.mem_flatMap, List.mem_map] at he
  obtain ⟨r, -, c, -, rfl⟩ := he
  show b.val.at r c = 0
  rw [hz]
  fin_cases r <;> fin_cases c <;> rfl

/-! ## The entries -/

/-- The triplets of the lower triangle. -/
def lowerEntry (S : Touching) (x v : ℕ → V3 ℝ) (q fmul : ℝ) (k : ℕ × ℕ) : ℝ :=
  Sparse.storedEntry (S.lowerIndices.zip (S.lowerValues x v q fmul)) k

/-- What a contact adds. -/
def contactEntry (S : Touching) (x : ℕ → V3 ℝ) (q fmul : ℝ) (C : Pair) (k : ℕ × ℕ) : ℝ :=
  Sparse.storedEntry ((C.hessianEntries x S.numVertices S.numActive).map fun e =>
    (e.1, -q * fmul * 1 * e.2)) k

theorem stored_flatMap {ι : Type} (l : List ι) (f : ι → List ((ℕ × ℕ) × ℝ)) (k : ℕ × ℕ) :
    Sparse.storedEntry (l.flatMap f) k = (l.map fun a => Sparse.storedEntry (f a) k).sum := by
  induction l with
  | nil => rfl
  | cons a l ih => rw [List.flatMap_cons, Volume.storedEntry_append, ih, List.map_cons, List.sum_cons]

theorem stored_swapped (l : List ((ℕ × ℕ) × ℝ)) (k : ℕ × ℕ) :
    Sparse.storedEntry ((l.filter fun e => e.1.1 != e.1.2).map fun e => ((e.1.2, e.1.1), e.2)) k =
      if k.1 = k.2 then 0 else Sparse.storedEntry l (k.2, k.1) := by
  obtain ⟨i, j⟩ := k
  induction l with
  | nil => simp [Sparse.storedEntry]
  | cons e l ih =>
    obtain ⟨⟨r, c⟩, a⟩ := e
    have h1 : ∀ (e : (ℕ × ℕ) × ℝ) T ij, Sparse.storedEntry (e :: T) ij =
      (if e.1 = ij then e.2 else 0) + Sparse.storedEntry T ij := fun e T ij => rfl
    rw [List.filter_cons, h1]
    by_cases hrc : r = c
    · have hb : (r != c) = false := by simp [hrc]
      simp only [hb, Bool.false_eq_true, if_false]
      rw [ih]
      by_cases hij : i = j
      · simp only [if_pos hij]
      · have : ¬((r, c) = (j, i)) := fun he => hij (by
          rw [Prod.mk.injEq] at he
          omega)
        simp only [if_neg hij, if_neg this, zero_add]
    · have hb : (r != c) = true := by simp [hrc]
      simp only [hb, if_true]
      rw [List.map_cons, h1, ih]
      by_cases hij : i = j
      · have : ¬((c, r) = (i, j)) := fun he => hrc (by
          rw [Prod.mk.injEq] at he
          omega)
        simp only [if_pos hij, if_neg this, zero_add]
      · simp only [if_neg hij, Prod.mk.injEq, and_comm]

theorem entry_eq {S : Touching} (hN : S.Within) (hD : S.toProblem.Distinct) (x v : ℕ → V3 ℝ) (q fmul : ℝ)
    (i j : ℕ) : entry S x v q fmul i j = lowerEntry S x v q fmul (i, j)
      + (if i = j then 0 else lowerEntry S x v q fmul (j, i))
      + (S.volumes.map fun P => Sparse.storedEntry (P.triplets x (q * fmul)) (i, j)).sum
      + (S.contacts.map fun C => contactEntry S x q fmul C (i, j)).sum := by
  unfold entry
  rw [(S.jacobian_triplets hN hD x v q fmul).2.2.2, Volume.storedEntry_append, stored_flatMap]
  unfold contactEntry
  congr 1
  unfold Volume.Sealed.jacobianIndices Volume.Sealed.jacobianValues
  have hl := jacobian_size S.toProblem hD x v q fmul
  rw [List.zip_append (hl.1.trans hl.2.symm), Volume.zip_flatMap' _ _ _ fun P => Volume.lengths P _ _, mul_one,
    Volume.storedEntry_append, stored_flatMap]
  congr 1
  unfold Problem.jacobianIndices Problem.jacobianValues
  rw [nnz_eq _ hD, Sparse.mirror_zip _ _ (lower_length S.toProblem x v q fmul), Volume.storedEntry_append,
    stored_swapped]
  rfl

theorem lower_union {S A B : Touching} {between : List Pair} (h : Union S A B between) (x v : ℕ → V3 ℝ)
    (q fmul : ℝ) (k : ℕ × ℕ) :
    lowerEntry S x v q fmul k = lowerEntry A x v q fmul k + lowerEntry B x v q fmul k := by
  classical
  obtain ⟨-, -, d3, d4⟩ := dt_union h
  obtain ⟨h1, h2, h3⟩ := bodies_union h
  have ht : ∀ M (es es' : List TetElem), (tetIndices (es ++ es') (0, 0)).zip
      (tetValues M (es ++ es') x v q (q * fmul)) =
      (tetIndices es (0, 0)).zip (tetValues M es x v q (q * fmul)) ++
        (tetIndices es' (0, 0)).zip (tetValues M es' x v q (q * fmul)) := by
    intro M es es'
    exact zip_blocks _ _ _ _ fun e => by simp
  have hi : ∀ {m : ℕ} (K : Kind m) (bs bs' : List (Body m)), (inertiaIndices (bs ++ bs') (0, 0)).zip
      (inertiaValues K (bs ++ bs') 1) = (inertiaIndices bs (0, 0)).zip (inertiaValues K bs 1) ++
        (inertiaIndices bs' (0, 0)).zip (inertiaValues K bs' 1) := by
    intro m K bs bs'
    exact zip_blocks _ _ _ _ fun e => by simp
  have hs : ∀ T : Shell, (T.indices (0, 0)).zip (T.values x (q * fmul)) =
      (T.tris.flatMap fun e => (pattern 3).map (globalIndex e.cell (0, 0))).zip
        (T.tris.flatMap fun e => (pattern 3).map (entryValue (e.hessian x (q * fmul)))) ++
      (T.dihedrals.flatMap fun e => edgePattern.map (globalIndex (e.cell T.faces) (0, 0))).zip
        (T.dihedrals.flatMap fun e =>
          edgePattern.map (entryValue (bendLocal (e.bending.hessian e.edge x T.faces) (q * fmul)))) := by
    intro T
    unfold Shell.indices Shell.values
    rw [List.zip_append]
    simp [List.length_flatMap]
  unfold lowerEntry
  rw [lower_zip, lower_zip, lower_zip, hs, hs, hs, h.nh, h.snh, h1, h2, h3, h.tris, h.dihedrals, h.faces.1,
    h.faces.2, ht, ht, hi, hi, hi, zip_blocks _ _ _ _ (fun e => by simp),
    zip_blocks _ _ _ _ (fun e => by simp)]
  simp only [d3, d4]
  by_cases hst : S.isStatic
  · have hnil : Sparse.storedEntry ([] : List ((ℕ × ℕ) × ℝ)) k = 0 := rfl
    simp only [if_pos hst, Volume.storedEntry_append, hnil]
    ring
  · simp only [if_neg hst, Volume.storedEntry_append]
    ring

theorem within_union {S A B : Touching} {between : List Pair} (h : Union S A B between)
    (ha : A.numActive = S.numActive ∧ B.numActive = S.numActive) (hN : S.Within) : A.Within ∧ B.Within := by
  constructor
  · refine ⟨⟨⟨?_, ?_, ?_, ?_⟩, ?_⟩, ?_, ?_, ?_, ?_, ?_⟩
    · rw [h.numVertices.1]; exact fun e he => hN.base.base.nh e (by rw [h.nh]; simp [he])
    · rw [h.numVertices.1]; exact fun e he => hN.base.base.snh e (by rw [h.snh]; simp [he])
    · rw [h.numVertices.1]; exact fun e he => hN.base.base.shell.1 e (by rw [h.tris]; simp [he])
    · rw [h.numVertices.1, h.faces.1]
      exact fun e he => hN.base.base.shell.2 e (by rw [h.dihedrals]; simp [he])
    · rw [h.numVertices.1]; exact fun e he => hN.base.volumes e (by rw [h.volumes]; simp [he])
    · rw [h.numVertices.1]; exact fun e he => hN.object e (by rw [h.contacts]; simp [he])
    · rw [h.numVertices.1]; exact fun e he => hN.collider e (by rw [h.contacts]; simp [he])
    · rw [ha.1]; exact fun e he => hN.fixedObject e (by rw [h.contacts]; simp [he])
    · rw [ha.1]; exact fun e he => hN.fixedCollider e (by rw [h.contacts]; simp [he])
    · exact fun e he => hN.separate e (by rw [h.contacts]; simp [he])
  · refine ⟨⟨⟨?_, ?_, ?_, ?_⟩, ?_⟩, ?_, ?_, ?_, ?_, ?_⟩
    · rw [h.numVertices.2]; exact fun e he => hN.base.base.nh e (by rw [h.nh]; simp [he])
    · rw [h.numVertices.2]; exact fun e he => hN.base.base.snh e (by rw [h.snh]; simp [he])
    · rw [h.numVertices.2]; exact fun e he => hN.base.base.shell.1 e (by rw [h.tris]; simp [he])
    · rw [h.numVertices.2, h.faces.2]
      exact fun e he => hN.base.base.shell.2 e (by rw [h.dihedrals]; simp [he])
    · rw [h.numVertices.2]; exact fun e he => hN.base.volumes e (by rw [h.volumes]; simp [he])
    · rw [h.numVertices.2]; exact fun e he => hN.object e (by rw [h.contacts]; simp [he])
    · rw [h.numVertices.2]; exact fun e he => hN.collider e (by rw [h.contacts]; simp [he])
    · rw [ha.2]; exact fun e he => hN.fixedObject e (by rw [h.contacts]; simp [he])
    · rw [ha.2]; exact fun e he => hN.fixedCollider e (by rw [h.contacts]; simp [he])
    · exact fun e he => hN.separate e (by rw [h.contacts]; simp [he])

theorem distinct_union {S A B : Touching} {between : List Pair} (h : Union S A B between)
    (hD : S.toProblem.Distinct) : A.toProblem.Distinct ∧ B.toProblem.Distinct := by
  constructor
  · refine ⟨fun e he => hD.nh e (by rw [h.nh]; simp [he]), fun e he => hD.snh e (by rw [h.snh]; simp [he]),
      fun e he => hD.shell.1 e (by rw [h.tris]; simp [he]), ?_⟩
    rw [h.faces.1]
    exact fun e he => hD.shell.2 e (by rw [h.dihedrals]; simp [he])
  · refine ⟨fun e he => hD.nh e (by rw [h.nh]; simp [he]), fun e he => hD.snh e (by rw [h.snh]; simp [he]),
      fun e he => hD.shell.1 e (by rw [h.tris]; simp [he]), ?_⟩
    rw [h.faces.2]
    exact fun e he => hD.shell.2 e (by rw [h.dihedrals]; simp [he])

theorem entry_outside {S : Touching} {s : Set ℕ} (h : Only S s) (hN : S.Within) (hD : S.toProblem.Distinct)
    (x v : ℕ → V3 ℝ) (q fmul : ℝ) {i j : ℕ} (hk : ¬(i / 3 ∈ s ∧ j / 3 ∈ s)) :
    entry S x v q fmul i j = 0 := by
  have h0 : ¬Inside s (i, j) := hk
  have h1 : ¬Inside s (j, i) := fun c => hk c.swap
  have l : ∀ {k}, ¬Inside s k → lowerEntry S x v q fmul k = 0 := fun hk =>
    stored_outside (zip_inside (lower_inside h)) hk
  rw [entry_eq hN hD, l h0, l h1, List.sum_eq_zero, List.sum_eq_zero]
  · simp
  · intro y hy
    obtain ⟨C, hC, rfl⟩ := List.mem_map.1 hy
    refine stored_outside (s := s) (fun e he => ?_) h0
    obtain ⟨e', he', rfl⟩ := List.mem_map.1 he
    exact contact_inside C x _ _ (h.object C hC) (h.collider C hC) e' he'
  · intro y hy
    obtain ⟨P, hP, rfl⟩ := List.mem_map.1 hy
    exact stored_outside (zip_inside (zone_inside (h.zones P hP))) h0

open Classical in
/-- C123. The matrix of the linear system has the entries of the matrices of the objects on their own, and
none that couple them. Here `q` is the derivative of positions by velocities. -/
theorem jacobian_apart {S A B : Touching} {s : Set ℕ} {x : ℕ → V3 ℝ} (h : Separated S A B s x)
    (ha : A.numActive = S.numActive ∧ B.numActive = S.numActive) (hN : S.Within)
    (hD : S.toProblem.Distinct) (v : ℕ → V3 ℝ) (q fmul : ℝ) (i j : ℕ) :
    entry S x v q fmul i j =
      if i / 3 ∈ s ∧ j / 3 ∈ s then entry A x v q fmul i j
      else if i / 3 ∉ s ∧ j / 3 ∉ s then entry B x v q fmul i j else 0 := by
  obtain ⟨⟨between, hu, hb⟩, hA, hB⟩ := h
  obtain ⟨nA, nB⟩ := within_union hu ha hN
  obtain ⟨dA, dB⟩ := distinct_union hu hD
  have hsum : entry S x v q fmul i j = entry A x v q fmul i j + entry B x v q fmul i j := by
    have hz : (between.map fun C => contactEntry S x q fmul C (i, j)).sum = 0 := by
      refine List.sum_eq_zero fun y hy => ?_
      obtain ⟨C, hC, rfl⟩ := List.mem_map.1 hy
      refine stored_off fun e he _ => ?_
      obtain ⟨e', he', rfl⟩ := List.mem_map.1 he
      show -q * fmul * 1 * e'.2 = 0
      rw [zero_entries (hb C hC) _ _ e' he', mul_zero]
    have cA : ∀ C, contactEntry A x q fmul C = contactEntry S x q fmul C := fun C => by
      unfold contactEntry
      rw [hu.numVertices.1, ha.1]
    have cB : ∀ C, contactEntry B x q fmul C = contactEntry S x q fmul C := fun C => by
      unfold contactEntry
      rw [hu.numVertices.2, ha.2]
    rw [entry_eq hN hD, entry_eq nA dA, entry_eq nB dB, lower_union hu, lower_union hu, hu.volumes, hu.contacts]
    simp only [List.map_append, List.sum_append, cA, cB, hz]
    split_ifs <;> ring
  rw [hsum]
  by_cases h1 : i / 3 ∈ s ∧ j / 3 ∈ s
  · rw [if_pos h1, entry_outside hB nB dB x v q fmul (fun c => c.1 h1.1), add_zero]
  · rw [if_neg h1, entry_outside hA nA dA x v q fmul h1, zero_add]
    by_cases h2 : i / 3 ∉ s ∧ j / 3 ∉ s
    · rw [if_pos h2]
    · rw [if_neg h2]
      exact entry_outside hB nB dB x v q fmul h2

/-- C123. The same direction solves the linear system of the scene for the right-hand side `b` exactly if
its parts solve those of the objects. -/
theorem directions_apart {S A B : Touching} {s : Set ℕ} {x : ℕ → V3 ℝ} (h : Separated S A B s x)
    (ha : A.numActive = S.numActive ∧ B.numActive = S.numActive) (hN : S.Within)
    (hD : S.toProblem.Distinct) (v : ℕ → V3 ℝ) (q fmul : ℝ) (p b : ℕ → ℝ) (n : ℕ) :
    (∀ i < n, ∑ j ∈ Finset.range n, entry S x v q fmul i j * p j = b i) ↔
      (∀ i < n, i / 3 ∈ s → ∑ j ∈ Finset.range n, entry A x v q fmul i j * p j = b i) ∧
        ∀ i < n, i / 3 ∉ s → ∑ j ∈ Finset.range n, entry B x v q fmul i j * p j = b i := by
  classical
  have hu := h.union
  obtain ⟨between, hu, -⟩ := hu
  obtain ⟨nA, nB⟩ := within_union hu ha hN
  obtain ⟨dA, dB⟩ := distinct_union hu hD
  have e1 : ∀ i, i / 3 ∈ s → ∀ j, entry S x v q fmul i j = entry A x v q fmul i j := by
    intro i hi j
    rw [jacobian_apart h ha hN hD]
    by_cases hj : j / 3 ∈ s
    · rw [if_pos ⟨hi, hj⟩]
    · rw [if_neg (fun c => hj c.2), if_neg (fun c => c.1 hi),
        entry_outside h.left nA dA x v q fmul (fun c => hj c.2)]
  have e2 : ∀ i, i / 3 ∉ s → ∀ j, entry S x v q fmul i j = entry B x v q fmul i j := by
    intro i hi j
    rw [jacobian_apart h ha hN hD]
    by_cases hj : j / 3 ∈ s
    · rw [if_neg (fun c => hi c.1), if_neg (fun c => c.2 hj),
        entry_outside h.right nB dB x v q fmul (fun c => c.2 hj)]
    · rw [if_neg (fun c => hi c.1), if_pos ⟨hi, hj⟩]
  constructor
  · intro hs
    refine ⟨fun i hn hi => ?_, fun i hn hi => ?_⟩
    · rw [← hs i hn]
      exact Finset.sum_congr rfl fun j _ => by rw [e1 i hi]
    · rw [← hs i hn]
      exact Finset.sum_congr rfl fun j _ => by rw [e2 i hi]
  · rintro ⟨hA, hB⟩ i hn
    by_cases hi : i / 3 ∈ s
    · rw [← hA i hn hi]
      exact Finset.sum_congr rfl fun j _ => by rw [e1 i hi]
    · rw [← hB i hn hi]
      exact Finset.sum_congr rfl fun j _ => by rw [e2 i hi]

/-! ## The hypotheses are met -/

example : exLeft.numActive = exBoth.numActive ∧ exRight.numActive = exBoth.numActive := ⟨rfl, rfl⟩

theorem exDistinct : exBoth.toProblem.Distinct := by
  refine ⟨?_, ?_, ?_, ?_⟩
  · intro e he
    rw [List.mem_singleton.1 he]
    decide
  · intro e he
    rw [List.mem_singleton.1 he]
    decide
  · intro e he
    simp [exBoth] at he
  · intro e he
    simp [exBoth] at he

theorem exWithin : exBoth.Within := by
  have hs : ∀ j, exGap.surf j < 8 := by
    intro j
    simp only [exGap, demo]
    split <;> omega
  have hc : ∀ j, exGap.coll j < 8 := by
    intro j
    simp only [exGap]
    split <;> omega
  refine ⟨⟨⟨?_, ?_, ?_, ?_⟩, ?_⟩, ?_, ?_, ?_, ?_, ?_⟩
  · intro e he n
    rw [List.mem_singleton.1 he]
    fin_cases n <;> simp [exBoth]
  · intro e he n
    rw [List.mem_singleton.1 he]
    fin_cases n <;> simp [exBoth]
  · intro e he
    simp [exBoth] at he
  · intro e he
    simp [exBoth] at he
  · intro P hP
    rw [List.mem_singleton.1 hP]
    intro t ht n
    simp only [List.mem_cons, List.not_mem_nil, or_false] at ht
    rcases ht with rfl | rfl | rfl | rfl <;> fin_cases n <;> simp [exBoth]
  · intro C hC
    rw [List.mem_singleton.1 hC]
    exact hs
  · intro C hC
    rw [List.mem_singleton.1 hC]
    exact hc
  · intro C hC hf
    rw [List.mem_singleton.1 hC] at hf
    simp [exGap, demo] at hf
  · intro C hC hf
    rw [List.mem_singleton.1 hC] at hf
    simp [exGap, demo] at hf
  · intro C hC
    rw [List.mem_singleton.1 hC]
    constructor
    · exact demo_separate.1
    · intro i j
      simp only [exGap, demo]
      split <;> split <;> omega

end Softy.Apart
