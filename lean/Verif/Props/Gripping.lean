import Verif.Lemmas.FrictionPattern
import Verif.Props.LaggedFriction

/-!
# C90: the problem with any friction
-/

noncomputable section

namespace Softy.Contact

open Softy Assembly Fem Softy.Field

/-! ## Specification -/

/-- Elements, zones and contacts are as in C81. Contacts with friction are between objects without common
vertices, and their coefficients are not negative. -/
structure Gripping.Within (S : Gripping) : Prop where
  base : S.toTouching.Within
  lagged : ∀ L, Grip.lagged L ∈ S.grips → L.pair.Distinct L.ns S.numVertices ∧ L.params.Valid
  current : ∀ F, Grip.current F ∈ S.grips →
    F.pair ∈ S.contacts ∧ F.pair.Distinct F.ns S.numVertices ∧ F.params.Valid

/-- Friction that is not lagged has a derivative, which the code computes: the Jacobian is complete, friction
is not viscous, the moving and fixed vertices of the contact are as in C87, the potential has second
derivatives, and contacts that are pushed apart are as in C87. -/
structure Current.Steady (F : Current) (n : ℕ) (x v : ℕ → V3 ℝ) : Prop where
  complete : F.incomplete = false
  dry : F.params.viscousFriction = 0
  aligned : F.pair.Aligned n v
  smooth : ∃ c : List ℕ × ℕ → ℕ,
    (∀ q ∈ F.pair.active, Field.Smooth F.pair.kernel Contact.params (F.pair.query x q.2) q.1 (F.pair.samples x)
      (c q)) ∧
    ∀ k < F.pair.active.length, F.pair.distance x (F.pair.contactAt k) ≤ F.pair.delta →
      F.pair.Close F.params x v (c (F.pair.contactAt k)) k

/-- The friction of every contact has a derivative. -/
structure Gripping.Steady (S : Gripping) (x v : ℕ → V3 ℝ) : Prop where
  lagged : ∀ L, Grip.lagged L ∈ S.grips → ∀ k < L.pair.active.length,
    Pair.SteadyAt L.params (L.pair.slide L.x v k).norm
  current : ∀ F, Grip.current F ∈ S.grips → F.params.isNone ∨ F.Steady S.numActive x v

/-! ## Lemmas -/

namespace Touching

variable (S : Touching)

theorem contactIndices_congr (x y : ℕ → V3 ℝ) (C : Pair) : S.contactIndices x C = S.contactIndices y C :=
  C.hessianIndices_congr x y _ _

theorem nnz_congr (x y : ℕ → V3 ℝ) : S.nnz x = S.nnz y := by
  unfold nnz
  simp only [S.contactIndices_congr x y]

theorem indices_congr (x y : ℕ → V3 ℝ) : S.jacobianIndices x = S.jacobianIndices y := by
  unfold jacobianIndices
  simp only [S.contactIndices_congr x y, S.nnz_congr x y]

end Touching

namespace Grip

theorem entries_keys (G : Grip) (x y u v : ℕ → V3 ℝ) (q q' : ℝ) (N n : ℕ) :
    (G.entries x u q N n).map (fun e => e.1) = (G.entries y v q' N n).map fun e => e.1 := by
  cases G with
  | lagged L => exact L.pair.entries_keys L.params L.x u v N n
  | current F => exact F.pair.currentEntries_keys F.params F.incomplete x y u v q q' N n

theorem entries_lt (G : Grip) (x v : ℕ → V3 ℝ) (q : ℝ) (N n : ℕ) :
    ∀ e ∈ G.entries x v q N n, e.1.1 < 3 * n ∧ e.1.2 < 3 * n := by
  cases G with
  | lagged L => exact L.pair.entries_lt L.params L.x v N n
  | current F => exact F.pair.currentEntries_lt F.params F.incomplete x v q N n

theorem subtract_add (G : Grip) (x v r : ℕ → V3 ℝ) (i : ℕ) :
    G.subtract x v r i = r i + G.subtract x v (fun _ => 0) i := by
  cases G with
  | lagged L => exact Rubbing.subtract_add _ _ _ _ _ _ _
  | current F => exact Rubbing.subtract_add _ _ _ _ _ _ _

end Grip

namespace Gripping

variable (S : Gripping)

/-- What friction adds to the residual. -/
def frictionForce (x v : ℕ → V3 ℝ) (i : ℕ) : V3 ℝ :=
  (S.grips.map fun G => G.subtract x v (fun _ => 0) i).sum

/-- The entries for one contact. -/
def entriesOf (x v : ℕ → V3 ℝ) (q : ℝ) (G : Grip) : List (Sparse.Key × ℝ) :=
  G.entries x v q S.numVertices S.numActive

theorem foldl_friction (l : List Grip) (x v r : ℕ → V3 ℝ) (i : ℕ) :
    l.foldl (fun r G => G.subtract x v r) r i =
      r i + (l.map fun G => G.subtract x v (fun _ => 0) i).sum := by
  induction l generalizing r with
  | nil => simp
  | cons L l ih =>
    rw [List.foldl_cons, ih, List.map_cons, List.sum_cons, L.subtract_add x v r]
    abel

theorem force_eq (x v : ℕ → V3 ℝ) (dqdv : ℝ) (f : ℕ → V3 ℝ)
    (h : S.toTouching.force x v dqdv = some f) :
    S.force x v dqdv = some fun i => f i + S.frictionForce x v i := by
  unfold force
  rw [h, Option.map_some]
  congr 1
  funext i
  exact foldl_friction _ _ _ _ _

theorem residual_eq (fm pm : ℝ) (prev v0 x v r f : ℕ → V3 ℝ)
    (h : S.toTouching.residual fm pm prev v0 x v = some (r, f)) :
    S.residual fm pm prev v0 x v = some (fun i => r i + (S.dt * fm) • S.frictionForce x v i,
      fun i => f i + S.frictionForce x v i) := by
  classical
  cases hf : S.toTouching.force x v (S.dt * fm) with
  | none => simp [Touching.residual, hf] at h
  | some f' =>
    simp only [Touching.residual, hf, Option.map_some, Option.some.injEq, Prod.mk.injEq] at h
    obtain ⟨rfl, rfl⟩ := h
    simp only [residual, S.force_eq x v _ f' hf, Option.map_some, Option.some.injEq,
      Prod.mk.injEq, and_true]
    funext i
    by_cases hs : S.isStatic
    · simp only [if_pos hs]
      by_cases hp : pm > 0
      · simp only [if_pos hp, smul_add, smul_smul]
        abel
      · simp only [if_neg hp, smul_add]
    · simp only [if_neg hs, momentumDiff_eq]
      by_cases hp : pm > 0
      · simp only [if_pos hp, smul_add, smul_smul]
        abel
      · simp only [if_neg hp, smul_add]
        abel

theorem jacobian_triplets (hN : S.Within) (hD : S.toProblem.Distinct) (x y u v : ℕ → V3 ℝ) (q fmul : ℝ) :
    (S.jacobianIndices y u).length ≤ S.nnz y u ∧
    (S.jacobianValues x v q fmul (S.jacobianIndices y u).length).length = (S.jacobianIndices y u).length ∧
    S.jacobianIndices y u = S.toTouching.jacobianIndices x ++
      S.grips.flatMap (fun G => (S.entriesOf x v q G).map fun e => e.1) ∧
    (S.jacobianIndices y u).zip (S.jacobianValues x v q fmul (S.jacobianIndices y u).length) =
      (S.toTouching.jacobianIndices x).zip (S.toTouching.jacobianValues x v q fmul) ++
        S.grips.flatMap fun G => (S.entriesOf x v q G).map fun e => (e.1, fmul * 1 * e.2) := by
  obtain ⟨h1, h2, -, -⟩ := S.toTouching.jacobian_triplets hN.base hD x v q fmul
  have hkey : (fun G => (S.entriesOf y u S.dt G).map fun e => e.1) =
      fun G => (S.entriesOf x v q G).map fun e => e.1 := by
    funext G
    exact G.entries_keys _ _ _ _ _ _ _ _
  have hcount : S.nnz y u = S.toTouching.nnz x +
      (S.grips.flatMap fun G => (S.entriesOf y u S.dt G).map fun e => e.1).length := by
    unfold nnz
    rw [← Rubbing.fold_count, S.toTouching.nnz_congr y x]
    simp only [List.length_map]
    rfl
  have hidx : S.jacobianIndices y u = S.toTouching.jacobianIndices x ++
      S.grips.flatMap (fun G => (S.entriesOf y u S.dt G).map fun e => e.1) := by
    unfold jacobianIndices
    rw [S.toTouching.indices_congr y x]
    refine Rubbing.fold_take S.grips (fun G => (S.entriesOf y u S.dt G).map fun e => e.1) _ _ ?_
    rw [hcount, List.length_append]
    omega
  have hlen : (S.grips.flatMap fun G => (S.entriesOf x v q G).map fun e => fmul * 1 * e.2).length =
      (S.grips.flatMap fun G => (S.entriesOf x v q G).map fun e => e.1).length := by
    rw [List.length_flatMap, List.length_flatMap]
    simp only [List.length_map]
  have hval : S.jacobianValues x v q fmul (S.jacobianIndices y u).length =
      S.toTouching.jacobianValues x v q fmul ++
        S.grips.flatMap fun G => (S.entriesOf x v q G).map fun e => fmul * 1 * e.2 := by
    refine Rubbing.fold_take S.grips (fun G => (S.entriesOf x v q G).map fun e => fmul * 1 * e.2) _ _ ?_
    rw [hidx, hkey, List.length_append, List.length_append, hlen, h2]
  refine ⟨?_, ?_, by rw [hidx, hkey], ?_⟩
  · rw [hidx, hcount, List.length_append]
    omega
  · rw [hval, hidx, hkey, List.length_append, List.length_append, hlen, h2]
  · rw [hval, hidx, hkey, List.zip_append h2.symm]
    congr 1
    induction S.grips with
    | nil => rfl
    | cons L l ih =>
      rw [List.flatMap_cons, List.flatMap_cons, List.flatMap_cons, List.zip_append (by simp), ih,
        List.zip_map']

/-- The rows of the Jacobian, applied to a motion of the vertices that may move. -/
theorem jacobian_row (hN : S.Within) (hD : S.toProblem.Distinct) (x y u v w : ℕ → V3 ℝ) (q fmul : ℝ)
    (i : ℕ) :
    ∑ j ∈ Finset.range (3 * S.numActive), Sparse.storedEntry ((S.jacobianIndices y u).zip
        (S.jacobianValues x v q fmul (S.jacobianIndices y u).length)) (i, j) * coord w j =
      ∑ j ∈ Finset.range (3 * S.numActive), Sparse.storedEntry
        ((S.toTouching.jacobianIndices x).zip (S.toTouching.jacobianValues x v q fmul)) (i, j) *
          coord w j +
        (S.grips.map fun G => fmul * 1 * Volume.rowMul (S.entriesOf x v q G) (coord w) i).sum := by
  rw [(S.jacobian_triplets hN hD x y u v q fmul).2.2.2]
  simp only [Volume.storedEntry_append, add_mul, Finset.sum_add_distrib]
  congr 1
  rw [Volume.rowMul_stored _ _ _ (3 * S.numActive)]
  · generalize S.grips = l
    induction l with
    | nil => rfl
    | cons L l ih =>
      rw [List.flatMap_cons, rowMul_append, ih, List.map_cons, List.sum_cons, rowMul_scaled]
  · intro e he
    obtain ⟨G, -, he⟩ := List.mem_flatMap.1 he
    obtain ⟨e', he', rfl⟩ := List.mem_map.1 he
    exact (G.entries_lt x v q _ _ e' he').2

theorem subtract_none (C : Pair) (ns : ℕ) (p : Friction.Params) (hp : p.isNone) (x v : ℕ → V3 ℝ) (i : ℕ) :
    coord (C.subtractFriction ns p x v fun _ => 0) i = 0 := by
  unfold Pair.subtractFriction Pair.frictionForce
  rw [if_pos hp]
  exact Volume.coord_zero i

/-- Friction with one contact, in one direction. -/
theorem friction_row (hN : S.Within) (G : Grip) (hG : G ∈ S.grips) (hNM : S.numActive ≤ S.numVertices)
    (x v : ℝ → ℕ → V3 ℝ) (w : ℕ → V3 ℝ) (q t : ℝ) (hx : ∀ i, HasD (fun s => x s i) (q • w i) t)
    (hv : ∀ i, HasD (fun s => v s i) (w i) t)
    (hw : ∀ i, S.numActive ≤ i → w i = 0) (hs : S.Steady (x t) (v t))
    (i : ℕ) (hi : i < 3 * S.numActive) :
    HasDerivAt (fun s => coord (G.subtract (x s) (v s) fun _ => 0) i)
      (Volume.rowMul (S.entriesOf (x t) (v t) q G) (coord w) i) t := by
  have hu : ∀ j, S.numActive ≤ j → unitAt i j = 0 := fun j hj => by
    unfold unitAt; rw [if_neg (by omega)]
  cases G with
  | lagged L =>
    show HasDerivAt (fun s => coord (L.pair.subtractFriction L.ns L.params L.x (v s) fun _ => 0) i)
      (Volume.rowMul (L.pair.frictionEntries L.params L.x (v t) S.numVertices S.numActive) (coord w) i) t
    obtain ⟨hd, hval⟩ := hN.lagged L hG
    by_cases hp : L.params.isNone
    · simp only [subtract_none _ _ _ hp, Pair.frictionEntries, if_pos hp]
      exact hasDerivAt_const _ _
    · have e1 : (fun s => coord (L.pair.subtractFriction L.ns L.params L.x (v s) fun _ => 0) i) =
          fun s => L.pair.slidePower L.params L.x (v s) (unitAt i) := by
        funext s
        rw [← L.pair.subtractFriction_power hd L.params hp, dot_unitAt _ _ _ (by omega)]
      rw [e1]
      refine (L.pair.slidePower_deriv hd L.params hval L.x v w (unitAt i) t hv
        (hs.lagged L hG)).congr_deriv ?_
      rw [← L.pair.frictionEntries_form hd L.params hp L.x (v t) (unitAt i) w S.numActive hu hw,
        entryForm_unitAt]
  | current F =>
    show HasDerivAt (fun s => coord (F.pair.subtractFriction F.ns F.params (x s) (v s) fun _ => 0) i)
      (Volume.rowMul (F.pair.currentEntries F.params F.incomplete (x t) (v t) q S.numVertices S.numActive)
        (coord w) i) t
    obtain ⟨hC, hd, hval⟩ := hN.current F hG
    by_cases hp : F.params.isNone
    · simp only [subtract_none _ _ _ hp, Pair.currentEntries, if_pos hp]
      exact hasDerivAt_const _ _
    · have hst := (hs.current F hG).resolve_left hp
      obtain ⟨c, h1, h2⟩ := hst.smooth
      have key := F.pair.friction_jacobian_partial hd F.params hval hp hst.dry x v (unitAt i) w q t c hNM
        (hN.base.object _ hC) (hN.base.collider _ hC) hx hv hu hw (hN.base.fixedObject _ hC)
        (hN.base.fixedCollider _ hC) hst.aligned h1 h2
      rw [hst.complete]
      refine (key.congr_of_eventuallyEq (Filter.Eventually.of_forall fun s => ?_)).congr_deriv ?_
      · simp only
        rw [dot_unitAt _ _ _ (by omega)]
      · rw [entryForm_unitAt]

theorem coord_frictionForce (l : List Grip) (x v : ℕ → V3 ℝ) (i : ℕ) :
    coord (fun j => (l.map fun G => G.subtract x v (fun _ => 0) j).sum) i =
      (l.map fun G => coord (G.subtract x v fun _ => 0) i).sum := by
  induction l with
  | nil => exact Volume.coord_zero i
  | cons P l ih =>
    simp only [List.map_cons, List.sum_cons]
    rw [Volume.coord_add', ih]

theorem place_hasD (x0 : ℕ → V3 ℝ) (q : ℝ) {v : ℝ → ℕ → V3 ℝ} {w : ℕ → V3 ℝ} {t : ℝ}
    (hv : ∀ i, HasD (fun s => v s i) (w i) t) (i : ℕ) : HasD (fun s => place x0 q (v s) i) (q • w i) t := by
  refine ⟨?_, ?_, ?_⟩
  · exact ((hv i).1.const_mul q).const_add _
  · exact ((hv i).2.1.const_mul q).const_add _
  · exact ((hv i).2.2.const_mul q).const_add _

theorem jacobian_aux (hN : S.Within) (hD : S.toProblem.Distinct)
    (fm pm : ℝ) (prev v0 x0 y u : ℕ → V3 ℝ) (v : ℝ → ℕ → V3 ℝ) (w : ℕ → V3 ℝ) (t : ℝ)
    (hv : ∀ i, HasD (fun s => v s i) (w i) t) (hw : ∀ i, S.numActive ≤ i → w i = 0)
    (hNM : S.numActive ≤ S.numVertices) (hf : S.Steady (place x0 (S.dt * fm) (v t)) (v t))
    (hbase : ∃ r : ℝ → ℕ → V3 ℝ,
      (∀ᶠ s in nhds t, ∃ f,
        S.toTouching.residual fm pm prev v0 (place x0 (S.dt * fm) (v s)) (v s) = some (r s, f)) ∧
      ∀ i, i < 3 * S.numActive → HasDerivAt (fun s => coord (r s) i)
        (∑ j ∈ Finset.range (3 * S.numActive), Sparse.storedEntry
          ((S.toTouching.jacobianIndices (place x0 (S.dt * fm) (v t))).zip
            (S.toTouching.jacobianValues (place x0 (S.dt * fm) (v t)) (v t) (S.dt * fm) (S.dt * fm))) (i, j)
          * coord w j) t) :
    ∃ r : ℝ → ℕ → V3 ℝ,
      (∀ᶠ s in nhds t, ∃ f,
        S.residual fm pm prev v0 (place x0 (S.dt * fm) (v s)) (v s) = some (r s, f)) ∧
      ∀ i, i < 3 * S.numActive → HasDerivAt (fun s => coord (r s) i)
        (∑ j ∈ Finset.range (3 * S.numActive), Sparse.storedEntry ((S.jacobianIndices y u).zip
          (S.jacobianValues (place x0 (S.dt * fm) (v t)) (v t) (S.dt * fm) (S.dt * fm)
            (S.jacobianIndices y u).length)) (i, j) * coord w j) t := by
  obtain ⟨r, h1, h2⟩ := hbase
  refine ⟨fun s i => r s i + (S.dt * fm) • S.frictionForce (place x0 (S.dt * fm) (v s)) (v s) i, ?_,
    fun i hi => ?_⟩
  · exact h1.mono fun s ⟨f, hf⟩ => ⟨_, S.residual_eq fm pm prev v0 _ _ _ f hf⟩
  · rw [S.jacobian_row hN hD]
    have h4 := Volume.listSum_hasDerivAt S.grips
      (fun G s => S.dt * fm * coord (G.subtract (place x0 (S.dt * fm) (v s)) (v s) fun _ => 0) i)
      (fun G => S.dt * fm * 1 * Volume.rowMul
        (S.entriesOf (place x0 (S.dt * fm) (v t)) (v t) (S.dt * fm) G) (coord w) i) t fun G hG => by
        refine ((S.friction_row hN G hG hNM (fun s => place x0 (S.dt * fm) (v s)) v w (S.dt * fm) t
          (place_hasD x0 _ hv) hv hw hf i hi).const_mul (S.dt * fm)).congr_deriv ?_
        ring
    refine ((h2 i hi).fun_add h4).congr_of_eventuallyEq (Filter.Eventually.of_forall fun s => ?_)
    simp only
    rw [Volume.coord_add', coord_smul]
    simp only
    unfold frictionForce
    rw [coord_frictionForce, List.sum_map_mul_left]

end Gripping

/-! ## Theorems -/

/-- **C90.** The indices of the Jacobian, and how many entries there are, do not depend on positions and
velocities: as long as the neighborhoods of the contacts are the same, indices that were computed when the
solve started are those of all its iterations. -/
theorem grip_pattern (S : Gripping) (x y u v : ℕ → V3 ℝ) :
    S.jacobianIndices x u = S.jacobianIndices y v ∧ S.nnz x u = S.nnz y v := by
  have hl : ∀ G : Grip, (G.entries x u S.dt S.numVertices S.numActive).length =
      (G.entries y v S.dt S.numVertices S.numActive).length := fun G =>
    map_length_eq (fun e => e.1) _ _ (G.entries_keys _ _ _ _ _ _ _ _)
  have hn : S.nnz x u = S.nnz y v := by
    unfold Gripping.nnz
    simp only [hl, S.toTouching.nnz_congr x y]
  refine ⟨?_, hn⟩
  unfold Gripping.jacobianIndices
  simp only [Grip.entries_keys _ x y u v S.dt S.dt, hn, S.toTouching.indices_congr x y]

/-- **C90.** Each index of the Jacobian gets the value that was computed for it: the entries of the matrix
are those of the problem without friction, followed by what the contacts yield for the current positions
and velocities, whatever the positions and velocities were when the indices were computed. No entry is cut
off or outside of the matrix. -/
theorem grip_jacobian_entries (S : Gripping) (hN : S.Within) (hD : S.toProblem.Distinct)
    (hNM : S.numActive ≤ S.numVertices) (x y u v : ℕ → V3 ℝ) (dqdv fmul : ℝ) :
    (S.jacobianIndices y u).length ≤ S.nnz y u ∧
    (S.jacobianValues x v dqdv fmul (S.jacobianIndices y u).length).length =
      (S.jacobianIndices y u).length ∧
    (S.jacobianIndices y u).zip (S.jacobianValues x v dqdv fmul (S.jacobianIndices y u).length) =
      (S.toTouching.jacobianIndices x).zip (S.toTouching.jacobianValues x v dqdv fmul) ++
        S.grips.flatMap (fun G => (G.entries x v dqdv S.numVertices S.numActive).map fun e =>
          (e.1, fmul * e.2)) ∧
    ∀ p ∈ S.jacobianIndices y u, p.1 < 3 * S.numVertices ∧ p.2 < 3 * S.numVertices := by
  obtain ⟨h1, h2, h3, h4⟩ := S.jacobian_triplets hN hD x y u v dqdv fmul
  refine ⟨h1, h2, ?_, fun p hp => ?_⟩
  · rw [h4]
    simp only [mul_one]
    rfl
  · rw [h3] at hp
    rcases List.mem_append.1 hp with hp | hp
    · exact (contact_jacobian_size S.toTouching hN.base hD hNM x v dqdv fmul).2.2 p hp
    · obtain ⟨G, -, hp⟩ := List.mem_flatMap.1 hp
      obtain ⟨e, he, rfl⟩ := List.mem_map.1 hp
      have := G.entries_lt x v dqdv _ _ e he
      omega

/-- **C90.** With friction that is lagged or not, the Jacobian that is assembled is the derivative of the
residual with respect to the velocities of the vertices that may move, whatever the positions `y` and
velocities `u` were when its indices were computed.
Missing: as in C81, C85 and C87. -/
theorem grip_jacobian_derivative_partial (S : Gripping) (hN : S.Within) (hD : S.toProblem.Distinct)
    (hT : 0 ≤ S.timeStep) (hA : ∀ P ∈ S.volumes, P.approx = false) (fm pm : ℝ) (hfm : 0 < fm)
    (prev v0 x0 y u : ℕ → V3 ℝ) (v : ℝ → ℕ → V3 ℝ) (w : ℕ → V3 ℝ) (t : ℝ)
    (hv : ∀ i, HasD (fun s => v s i) (w i) t) (hw : ∀ i, S.numActive ≤ i → w i = 0)
    (hNM : S.numActive ≤ S.numVertices)
    (hs : S.toProblem.Smooth (place x0 (S.dt * fm) (v t)))
    (hc : S.toTouching.Smooth (place x0 (S.dt * fm) (v t)))
    (hf : S.Steady (place x0 (S.dt * fm) (v t)) (v t)) :
    ∃ r : ℝ → ℕ → V3 ℝ,
      (∀ᶠ s in nhds t, ∃ f,
        S.residual fm pm prev v0 (place x0 (S.dt * fm) (v s)) (v s) = some (r s, f)) ∧
      ∀ i, i < 3 * S.numActive → HasDerivAt (fun s => coord (r s) i)
        (∑ j ∈ Finset.range (3 * S.numActive), Sparse.storedEntry ((S.jacobianIndices y u).zip
          (S.jacobianValues (place x0 (S.dt * fm) (v t)) (v t) (S.dt * fm) (S.dt * fm)
            (S.jacobianIndices y u).length)) (i, j) * coord w j) t :=
  S.jacobian_aux hN hD fm pm prev v0 x0 y u v w t hv hw hNM hf
    (contact_jacobian_derivative_partial S.toTouching hN.base hD hT hA fm pm hfm prev v0 x0 v w t hv hw hNM
      hs hc)

/-- **C90** with the sparse approximation of the Hessian of the zones, which is the default: the Jacobian is
the derivative of the residual along all changes of the velocities that keep the volumes of the zones.
Missing: as in `grip_jacobian_derivative_partial`. -/
theorem grip_jacobian_approx_partial (S : Gripping) (hN : S.Within) (hD : S.toProblem.Distinct)
    (hT : 0 ≤ S.timeStep) (fm pm : ℝ) (hfm : 0 < fm)
    (prev v0 x0 y u : ℕ → V3 ℝ) (v : ℝ → ℕ → V3 ℝ) (w : ℕ → V3 ℝ) (t : ℝ)
    (hv : ∀ i, HasD (fun s => v s i) (w i) t) (hw : ∀ i, S.numActive ≤ i → w i = 0)
    (hNM : S.numActive ≤ S.numVertices)
    (hs : S.toProblem.Smooth (place x0 (S.dt * fm) (v t)))
    (hV : ∀ P ∈ S.volumes,
      HasDerivAt (fun s => Volume.signedVolume P.topo (place x0 (S.dt * fm) (v s))) 0 t)
    (hc : S.toTouching.Smooth (place x0 (S.dt * fm) (v t)))
    (hf : S.Steady (place x0 (S.dt * fm) (v t)) (v t)) :
    ∃ r : ℝ → ℕ → V3 ℝ,
      (∀ᶠ s in nhds t, ∃ f,
        S.residual fm pm prev v0 (place x0 (S.dt * fm) (v s)) (v s) = some (r s, f)) ∧
      ∀ i, i < 3 * S.numActive → HasDerivAt (fun s => coord (r s) i)
        (∑ j ∈ Finset.range (3 * S.numActive), Sparse.storedEntry ((S.jacobianIndices y u).zip
          (S.jacobianValues (place x0 (S.dt * fm) (v t)) (v t) (S.dt * fm) (S.dt * fm)
            (S.jacobianIndices y u).length)) (i, j) * coord w j) t :=
  S.jacobian_aux hN hD fm pm prev v0 x0 y u v w t hv hw hNM hf
    (contact_jacobian_approx_partial S.toTouching hN.base hD hT fm pm hfm prev v0 x0 v w t hv hw hNM
      hs hV hc)

/-! ## Examples -/

/-- The soft tetrahedron and the vertex above it, with two kinds of friction. -/
def exGrip (p : Friction.Params) (inc : Bool) : Gripping :=
  { exTouch demo with grips := [.current ⟨demo, 3, p, inc⟩, .lagged ⟨demo, demoX, 3, p⟩] }

theorem exGrip_within (p : Friction.Params) (hp : p.Valid) (inc : Bool) : (exGrip p inc).Within := by
  refine ⟨demo_touching, fun L hL => ?_, fun F hF => ?_⟩
  · have : L = ⟨demo, demoX, 3, p⟩ := by simpa [exGrip] using hL
    rw [this]
    exact ⟨demo_distinct, hp⟩
  · have : F = ⟨demo, 3, p, inc⟩ := by simpa [exGrip] using hF
    rw [this]
    exact ⟨by simp [exGrip, exTouch], demo_distinct, hp⟩

theorem exGrip_steady : (exGrip (coulomb (3 / 10)) false).Steady demoX demoV := by
  refine ⟨fun L hL k hk => ?_, fun F hF => Or.inr ?_⟩
  · have : L = ⟨demo, demoX, 3, coulomb (3 / 10)⟩ := by simpa [exGrip] using hL
    rw [this]
    exact Or.inl rfl
  · have : F = ⟨demo, 3, coulomb (3 / 10), false⟩ := by simpa [exGrip] using hF
    rw [this]
    exact ⟨rfl, rfl, demo_aligned _, fun _ => 0, demo_contact_smooth, fun k hk _ => demo_close _ _ rfl k hk⟩

/-- The hypotheses of the theorems above hold for this problem, and there is friction. -/
example : (exGrip (coulomb (3 / 10)) false).Within ∧ (exGrip (coulomb (3 / 10)) false).toProblem.Distinct ∧
    (exGrip (coulomb (3 / 10)) false).toProblem.Smooth demoX ∧
    (exGrip (coulomb (3 / 10)) false).toTouching.Smooth demoX ∧
    (exGrip (coulomb (3 / 10)) false).Steady demoX demoV ∧ ¬ (coulomb (3 / 10)).isNone ∧
    demo.lambda demoX = [3 / 2] :=
  ⟨exGrip_within _ (coulomb_valid _ (by norm_num)) _, exTet_distinct, exTet_smooth _, demo_touching_smooth,
    exGrip_steady, by norm_num [coulomb, Friction.Params.isNone], demo_lambda⟩

end Softy.Contact
