import Verif.Lemmas.NumberingProblem
import Verif.Props.Touching

/-!
# Contacts with other numbers
-/

noncomputable section

namespace Softy.Numbering

open Softy Contact Field Kernel

variable {σ τ : Equiv.Perm ℕ}

/-! ## Samples -/

/-- The same samples: sample `s` has become sample `τ s`. -/
structure SameSamples (τ : Equiv.Perm ℕ) (S S' : Samples) : Prop where
  pos : ∀ s, S'.pos (τ s) = S.pos s
  nml : ∀ s, S'.nml (τ s) = S.nml s
  value : ∀ s, S'.value (τ s) = S.value s

/-- No sample of the view is closer to the point. -/
def Nearest (q : V3 ℝ) (S : Samples) (view : List ℕ) (s : ℕ) : Prop :=
  s ∈ view ∧ ∀ i ∈ view, (q - S.pos s).norm ≤ (q - S.pos i).norm

/-- The potential does not depend on a choice between samples that are equally close: there is one nearest
sample, or it is within the radius of the kernel. -/
def Definite (k : Kern) (q : V3 ℝ) (S : Samples) (view : List ℕ) : Prop :=
  ∀ s, Nearest q S view s → (∀ r, k.radius = some r → (q - S.pos s).norm ≤ r) ∨
    ∀ s', Nearest q S view s' → s' = s

/-- The same background. -/
structure SameBg (τ : Equiv.Perm ℕ) (b b' : Bg) : Prop where
  q : b'.q = b.q
  samples : SameSamples τ b.S b'.S
  view : b'.view.Perm (b.view.map τ)
  kernel : b'.kernel = b.kernel
  weighted : b.weighted = false
  weighted' : b'.weighted = false
  value : b.value = .signedDistance
  value' : b'.value = .signedDistance
  dist : b'.dist = b.dist
  weightSum : b'.weightSum = b.weightSum
  closest : backgroundWeight b.kernel false b.dist = 0 ∨
    b'.closest.get = τ b.closest.get ∧ b'.disp = b.disp

theorem weight_same {S S' : Samples} (h : SameSamples τ S S') (k : Kern) (d : ℝ) (q : V3 ℝ) (i : ℕ) :
    weight k d q S' (τ i) = weight k d q S i := by
  unfold weight
  rw [h.pos]

theorem weightGrad_same {S S' : Samples} (h : SameSamples τ S S') (k : Kern) (d : ℝ) (q : V3 ℝ) (i : ℕ) :
    weightGrad k d q S' (τ i) = weightGrad k d q S i := by
  unfold weightGrad
  rw [h.pos]

theorem sum_view {M : Type} [AddCommMonoid M] {view view' : List ℕ} (hv : view'.Perm (view.map τ))
    {f f' : ℕ → M} (hf : ∀ i, f' (τ i) = f i) : (view'.map f').sum = (view.map f).sum := by
  rw [(hv.map f').sum_eq, List.map_map]
  congr 2
  funext i
  exact hf i

theorem samplePotential_same {S S' : Samples} (h : SameSamples τ S S') (q : V3 ℝ) (i : ℕ) :
    samplePotential q S' (τ i) = samplePotential q S i := by
  unfold samplePotential
  rw [h.pos, h.nml, h.value]

theorem localPotentialAt_same {S S' : Samples} (h : SameSamples τ S S') {view view' : List ℕ}
    (hv : view'.Perm (view.map τ)) (q : V3 ℝ) (k : Kern) (w d : ℝ) :
    localPotentialAt q view' S' k w d = localPotentialAt q view S k w d := by
  unfold localPotentialAt
  rw [sum_view hv fun i => by rw [weight_same h, samplePotential_same h]]

section Local

variable {S S' : Samples} {view view' : List ℕ} (h : SameSamples τ S S') (hv : view'.Perm (view.map τ))

include h hv

theorem nearest_same (q : V3 ℝ) (s : ℕ) : Nearest q S' view' (τ s) ↔ Nearest q S view s := by
  unfold Nearest
  simp only [hv.mem_iff, List.mem_map, τ.apply_eq_iff_eq, exists_eq_right]
  refine and_congr_right fun _ => ⟨fun H i hi => ?_, ?_⟩
  · have := H (τ i) ⟨i, hi, rfl⟩
    rwa [h.pos, h.pos] at this
  · rintro H _ ⟨i, hi, rfl⟩
    rw [h.pos, h.pos]
    exact H i hi

theorem definite_same {k : Kern} {q : V3 ℝ} (hd : Definite k q S view) : Definite k q S' view' := by
  intro s' hs'
  obtain ⟨s, rfl⟩ := τ.surjective s'
  rw [nearest_same h hv] at hs'
  rcases hd s hs' with H | H
  · left
    rwa [h.pos]
  · right
    intro t' ht'
    obtain ⟨t, rfl⟩ := τ.surjective t'
    rw [nearest_same h hv] at ht'
    rw [H t ht']

/-- Both backgrounds fail, or they are the same. -/
theorem local_same {k : Kern} {q : V3 ℝ} (hd : Definite k q S view) (hne : view ≠ []) (v : Option ℝ) :
    ∃ b b', Bg.local q view S k params v = some b ∧ Bg.local q view' S' k params v = some b' ∧
      b.view = view ∧ b.S = S ∧ b.q = q ∧ b.kernel = k ∧
      b'.view = view' ∧ b'.S = S' ∧ b'.q = q ∧ b'.kernel = k ∧ SameBg τ b b' := by
  have hne' : view' ≠ [] := by
    intro h0
    rw [h0] at hv
    exact hne (List.map_eq_nil_iff.1 hv.nil_eq.symm)
  obtain ⟨c, hc⟩ := closestSample_isSome (q := q) (S := S) hne
  obtain ⟨c', hc'⟩ := closestSample_isSome (q := q) (S := S') hne'
  refine ⟨Bg.newImpl q view S (.loc c) k params v, Bg.newImpl q view' S' (.loc c') k params v,
    by simp only [Bg.local, hc], by simp only [Bg.local, hc'], rfl, rfl, rfl, rfl, rfl, rfl, rfl, rfl, ?_⟩
  obtain ⟨s, rfl⟩ := τ.surjective c'
  have n1 : Nearest q S view c := closestSample_spec hc
  have n2 : Nearest q S view s := (nearest_same h hv q s).1 (closestSample_spec hc')
  have hdist : (q - S'.pos (τ s)).norm = (q - S.pos c).norm := by
    rw [h.pos]
    exact le_antisymm (n2.2 c n1.1) (n1.2 s n2.1)
  refine ⟨rfl, h, hv, rfl, rfl, rfl, rfl, rfl, hdist, ?_, ?_⟩
  · show (view'.map (weight k (q - S'.pos (τ s)).norm q S')).sum +
      backgroundWeight k false (q - S'.pos (τ s)).norm = (view.map (weight k (q - S.pos c).norm q S)).sum +
        backgroundWeight k false (q - S.pos c).norm
    rw [hdist, sum_view hv fun i => weight_same h k _ q i]
  · rcases hd c n1 with H | H
    · left
      show backgroundWeight k false (q - S.pos c).norm = 0
      unfold backgroundWeight
      cases hr : k.radius with
      | none => rfl
      | some r => simp [not_lt.2 (H r hr)]
    · right
      have := H s n2
      subst this
      exact ⟨rfl, by show q - S'.pos (τ s) = q - S.pos s; rw [h.pos]⟩

end Local

namespace SameBg

variable {b b' : Bg} (h : SameBg τ b b')

include h

theorem weightSumInv : b'.weightSumInv = b.weightSumInv := by
  unfold Bg.weightSumInv
  rw [h.weightSum]

theorem bgWeight : b'.bgWeight = b.bgWeight := by
  unfold Bg.bgWeight
  rw [h.kernel, h.weighted, h.weighted', h.dist]

theorem bgWeightGrad (i : Option ℕ) : b.bgWeightGrad i = 0 := if_pos (Or.inr h.weighted)

theorem bgWeightGrad' (i : Option ℕ) : b'.bgWeightGrad i = 0 := if_pos (Or.inr h.weighted')

/-- The sign and the direction matter only where the background has a weight. -/
theorem cases : b.bgWeight = 0 ∨ b'.closest.get = τ b.closest.get ∧ b'.disp = b.disp ∧
    b'.fieldValue = b.fieldValue ∧ b'.fieldGrad = b.fieldGrad := by
  rcases h.closest with h0 | ⟨h1, h2⟩
  · left
    unfold Bg.bgWeight
    rw [h.weighted, h0]
  · right
    have ho : b'.orientation = b.orientation := by
      unfold Bg.orientation
      rw [h1, h2, h.samples.nml]
    refine ⟨h1, h2, ?_, ?_⟩
    · simp only [Bg.fieldValue, h.value, h.value', h.dist, ho]
    · simp only [Bg.fieldGrad, h.value, h.value', h.dist, ho, h2]

theorem weightedField : b'.weightedField = b.weightedField := by
  unfold Bg.weightedField
  rw [h.bgWeight]
  rcases h.cases with h0 | ⟨-, -, hf, -⟩
  · rw [h0, mul_zero, mul_zero]
  · rw [hf]

theorem queryJacobian : b'.queryJacobian = b.queryJacobian := by
  unfold Bg.queryJacobian
  simp only [h.weighted, h.weighted', h.bgWeight, h.weightSumInv, Bool.false_eq_true, if_false]
  rcases h.cases with h0 | ⟨-, -, -, hg⟩
  · rw [h0, zero_mul]
    ext <;> simp
  · rw [hg]

theorem sampleJacobian (i : ℕ) : b'.sampleJacobian (τ i) = b.sampleJacobian i := by
  classical
  unfold Bg.sampleJacobian
  simp only [h.weighted, h.weighted', h.bgWeight, h.weightSumInv, h.value, h.value', BgValue.isDistance, true_and,
    if_true]
  rcases h.cases with h0 | ⟨hc, -, -, hg⟩
  · rw [h0, zero_mul]
    have (v : V3 ℝ) : -((0 : ℝ) • v) = 0 := by ext <;> simp
    simp only [this, ite_self]
  · rw [hg, hc]
    by_cases e : i = b.closest.get
    · rw [if_pos e, if_pos (by rw [e])]
    · rw [if_neg e, if_neg (by simpa using e)]

theorem neighborWeightGrad : Field.neighborWeightGrad b' = Field.neighborWeightGrad b := by
  unfold Field.neighborWeightGrad
  rw [h.bgWeightGrad, h.bgWeightGrad', h.weightSumInv, h.kernel, h.dist, h.q,
    sum_view h.view fun i => weightGrad_same h.samples _ _ _ i]

theorem sampleQueryJacobian (w : V3 ℝ) (i : ℕ) :
    Field.sampleQueryJacobian b' w (τ i) = Field.sampleQueryJacobian b w i := by
  unfold Field.sampleQueryJacobian
  simp only [h.kernel, h.dist, h.q, h.weightSumInv, weight_same h.samples, weightGrad_same h.samples,
    h.samples.pos, h.samples.nml, h.samples.value]

theorem sampleJacobianAt (i : ℕ) : Field.sampleJacobianAt b' (τ i) = Field.sampleJacobianAt b i := by
  unfold Field.sampleJacobianAt localSampleJacobian
  simp only [h.sampleJacobian, h.bgWeightGrad, h.bgWeightGrad', h.weightSumInv]
  simp only [h.kernel, h.dist, h.q, localPotentialAt_same h.samples h.view, weight_same h.samples, weightGrad_same h.samples,
    h.samples.pos, h.samples.nml, h.samples.value]

theorem normalMultiplier (i : ℕ) : Field.normalMultiplier b' (τ i) = Field.normalMultiplier b i := by
  unfold Field.normalMultiplier
  rw [h.kernel, h.dist, h.q, h.weightSumInv, weight_same h.samples, h.samples.pos]

end SameBg

section Potential

variable {S S' : Samples} {view view' : List ℕ} (h : SameSamples τ S S') (hv : view'.Perm (view.map τ))
  {k : Kern} {q : V3 ℝ} (hd : Definite k q S view) (hne : view ≠ [])

include h hv hd hne

theorem potentialAt_same (old : ℝ) : potentialAt q view' S' k params old = potentialAt q view S k params old := by
  obtain ⟨b, b', e, e', -, -, -, -, -, -, -, -, hb⟩ := local_same h hv hd hne (some old)
  simp only [potentialAt, e, e', hb.weightedField, hb.weightSumInv, hb.dist, localPotentialAt_same h hv]

theorem queryJacobianAt_same_none :
    queryJacobianAt q view' S' none k params = queryJacobianAt q view S none k params := by
  obtain ⟨b, b', e, e', -, -, -, -, -, -, -, -, hb⟩ := local_same h hv hd hne none
  simp only [queryJacobianAt, Bg.new, e, e', Option.map_some, hb.queryJacobian, hb.neighborWeightGrad,
    sum_view hv fun i => hb.sampleQueryJacobian _ i]

omit h hv hd in
/-- The closest sample that was stored is not used if there are samples. -/
theorem queryJacobianAt_stored (c : ℕ) :
    queryJacobianAt q view S (some c) k params = queryJacobianAt q view S none k params := by
  obtain ⟨i, hi⟩ := closestSample_isSome (q := q) (S := S) hne
  simp only [queryJacobianAt, Bg.new, Bg.global, Bg.local, hi]

theorem queryJacobianAt_same (c c' : ℕ) :
    queryJacobianAt q view' S' (some c') k params = queryJacobianAt q view S (some c) k params := by
  have hne' : view' ≠ [] := by
    intro h0
    rw [h0] at hv
    exact hne (List.map_eq_nil_iff.1 hv.nil_eq.symm)
  rw [queryJacobianAt_stored hne', queryJacobianAt_stored hne, queryJacobianAt_same_none h hv hd hne]

end Potential

/-! ## Contacts -/

/-- The same place of a contact: a collider vertex with the samples around it. -/
def SameSpot (σ τ : Equiv.Perm ℕ) (C C' : Pair) (p p' : List ℕ × ℕ) : Prop :=
  p'.1.Perm (p.1.map τ) ∧ C'.coll p'.2 = σ (C.coll p.2)

/-- The same contact: the triangles of the surface, the collider vertices and the samples around them are in
another order, and triangles may start at another corner. -/
structure SameContact (σ τ : Equiv.Perm ℕ) (C C' : Pair) : Prop where
  spots : Reordered (SameSpot σ τ C C') C.nbrs.zipIdx C'.nbrs.zipIdx
  corners : ∀ s, ∃ k : Fin 3, ∀ j,
    C'.surf ((C'.tris (τ s)).get j) = σ (C.surf ((C.tris s).get (j + k)))
  value : ∀ s, C'.value (τ s) = C.value s
  kernel : C'.kernel = C.kernel
  objectFixed : C'.objectFixed = C.objectFixed
  colliderFixed : C'.colliderFixed = C.colliderFixed
  offset : C'.offset = C.offset
  delta : C'.delta = C.delta
  kappa : C'.kappa = C.kappa

/-- No contact point has to choose between samples beyond the radius of the kernel. -/
def DefiniteContact (C : Pair) (x : ℕ → V3 ℝ) : Prop :=
  ∀ p ∈ C.nbrs.zipIdx, p.1 ≠ [] → Definite C.kernel (C.query x p.2) (C.samples x) p.1

namespace SameContact

variable {C C' : Pair} (h : SameContact σ τ C C') (x : ℕ → V3 ℝ)

include h

theorem samples : SameSamples τ (C.samples x) (C'.samples (renumber σ x)) := by
  have key (s : ℕ) : ∃ k : Fin 3, ∀ j, renumber σ x (C'.surf ((C'.tris (τ s)).get j)) =
      x (C.surf ((C.tris s).get (j + k))) := by
    obtain ⟨k, hk⟩ := h.corners s
    exact ⟨k, fun j => by rw [hk, renumber_apply]⟩
  refine ⟨fun s => ?_, fun s => ?_, h.value⟩
  · obtain ⟨k, hk⟩ := key s
    have h0 := hk 0
    have h1 := hk 1
    have h2 := hk 2
    simp only [Tri.get] at h0 h1 h2
    show (1 / 3 : ℝ) • (renumber σ x (C'.surf (C'.tris (τ s)).a) + renumber σ x (C'.surf (C'.tris (τ s)).b) +
      renumber σ x (C'.surf (C'.tris (τ s)).c)) = (1 / 3 : ℝ) • (x (C.surf (C.tris s).a) + x (C.surf (C.tris s).b) +
        x (C.surf (C.tris s).c))
    rw [h0, h1, h2]
    congr 1
    fin_cases k
    · rfl
    · show x (C.surf (C.tris s).b) + x (C.surf (C.tris s).c) + x (C.surf (C.tris s).a) = _
      abel
    · show x (C.surf (C.tris s).c) + x (C.surf (C.tris s).a) + x (C.surf (C.tris s).b) = _
      abel
  · obtain ⟨k, hk⟩ := key s
    have h0 := hk 0
    have h1 := hk 1
    have h2 := hk 2
    simp only [Tri.get] at h0 h1 h2
    show areaNormal (renumber σ x (C'.surf (C'.tris (τ s)).a)) (renumber σ x (C'.surf (C'.tris (τ s)).b))
      (renumber σ x (C'.surf (C'.tris (τ s)).c)) = areaNormal (x (C.surf (C.tris s).a)) (x (C.surf (C.tris s).b))
        (x (C.surf (C.tris s).c))
    rw [h0, h1, h2]
    fin_cases k
    · rfl
    · show areaNormal (x (C.surf (C.tris s).b)) (x (C.surf (C.tris s).c)) (x (C.surf (C.tris s).a)) = _
      ext <;> simp [areaNormal, V3.cross] <;> ring
    · show areaNormal (x (C.surf (C.tris s).c)) (x (C.surf (C.tris s).a)) (x (C.surf (C.tris s).b)) = _
      ext <;> simp [areaNormal, V3.cross] <;> ring

theorem query {p p' : List ℕ × ℕ} (hp : SameSpot σ τ C C' p p') :
    C'.query (renumber σ x) p'.2 = C.query x p.2 := by
  unfold Pair.query
  rw [hp.2, renumber_apply]

omit h in
theorem spot_ne {p p' : List ℕ × ℕ} (hp : SameSpot σ τ C C' p p') : p'.1 = [] ↔ p.1 = [] := by
  rw [← List.length_eq_zero_iff, ← List.length_eq_zero_iff, hp.1.length_eq, List.length_map]

variable {x} (hd : DefiniteContact C x)

include hd

theorem distance {p p' : List ℕ × ℕ} (hm : p ∈ C.nbrs.zipIdx) (hne : p.1 ≠ [])
    (hp : SameSpot σ τ C C' p p') : C'.distance (renumber σ x) p' = C.distance x p := by
  unfold Pair.distance
  rw [h.query x hp, h.kernel, h.offset, potentialAt_same (h.samples x) hp.1 (hd p hm hne) hne]

theorem energy : C'.energy (renumber σ x) = C.energy x := by
  have hsum (C : Pair) (x : ℕ → V3 ℝ) : C.energy x = (C.nbrs.zipIdx.map fun p =>
      if p.1 = [] then 0 else C.kappa * ContactPenalty.b C.delta (C.distance x p)).sum := by
    unfold Pair.energy
    rw [Pair.distances_eq, List.map_map]
    unfold Pair.active
    induction C.nbrs.zipIdx with
    | nil => rfl
    | cons a l ih =>
      by_cases h : a.1 = []
      · rw [List.filter_cons_of_neg (by simp [h]), ih, List.map_cons, List.sum_cons, if_pos h, zero_add]
      · rw [List.filter_cons_of_pos (by simpa using h), List.map_cons, List.sum_cons, ih, List.map_cons,
          List.sum_cons, if_neg h]
        rfl
  rw [hsum, hsum]
  refine h.spots.sum fun p hm p' hp => ?_
  by_cases hne : p.1 = []
  · rw [if_pos hne, if_pos ((spot_ne hp).2 hne)]
  · rw [if_neg hne, if_neg fun e => hne ((spot_ne hp).1 e), h.kappa, h.delta, h.distance hd hm hne hp]

/-- The factor of a contact force. -/
theorem lambda {p p' : List ℕ × ℕ} (hm : p ∈ C.nbrs.zipIdx) (hm' : p' ∈ C'.nbrs.zipIdx) (hne : p.1 ≠ [])
    (hp : SameSpot σ τ C C' p p') :
    (C'.lambda (renumber σ x)).getD (C'.constraintOf p'.2) 0 = (C.lambda x).getD (C.constraintOf p.2) 0 := by
  have hne' : p'.1 ≠ [] := fun e => hne ((spot_ne hp).1 e)
  rw [Pair.lambda_row _ _ p (List.mem_filter.2 ⟨hm, by simpa using hne⟩),
    Pair.lambda_row _ _ p' (List.mem_filter.2 ⟨hm', by simpa using hne'⟩), h.kappa, h.delta,
    h.distance hd hm hne hp]

theorem colliderOps {p p' : List ℕ × ℕ} (hm : p ∈ C.nbrs.zipIdx) (hm' : p' ∈ C'.nbrs.zipIdx)
    (hp : SameSpot σ τ C C' p p') :
    SameAdds σ (C.colliderOps x p.2 p.1) (C'.colliderOps (renumber σ x) p'.2 p'.1) := by
  intro v
  unfold Pair.colliderOps
  simp only [h.colliderFixed, spot_ne hp]
  by_cases hne : p.1 = []
  · simp [hne]
  · by_cases hf : C.colliderFixed = true
    · simp [hf]
    · rw [if_neg (by tauto), if_neg (by tauto)]
      simp only [List.map_cons, List.map_nil, List.sum_cons, List.sum_nil, hp.2, σ.apply_eq_iff_eq]
      rw [h.lambda hd hm hm' hne hp, h.query x hp, h.kernel,
        queryJacobianAt_same (h.samples x) hp.1 (hd p hm hne) hne]

theorem surfaceOps {p p' : List ℕ × ℕ} (hm : p ∈ C.nbrs.zipIdx) (hm' : p' ∈ C'.nbrs.zipIdx)
    (hp : SameSpot σ τ C C' p p') :
    SameAdds σ (C.surfaceOps x p.2 p.1) (C'.surfaceOps (renumber σ x) p'.2 p'.1) := by
  unfold Pair.surfaceOps
  simp only [h.objectFixed, spot_ne hp]
  by_cases hne : p.1 = []
  · intro v
    simp [hne]
  · by_cases hf : C.objectFixed = true
    · intro v
      simp [hf]
    · rw [if_neg (by tauto), if_neg (by tauto), h.lambda hd hm hm' hne hp, h.query x hp, h.kernel]
      obtain ⟨b, b', e, e', hbv, hbS, -, -, hbv', hbS', -, -, hb⟩ :=
        local_same (h.samples x) hp.1 (hd p hm hne) hne none
      generalize (C.lambda x).getD (C.constraintOf p.2) 0 = lam
      simp only [faceJacobianAt, e, e', Option.map_some, Option.getD_some, faceJacobianCols]
      rw [Pair.zip_flatMap _ _ _ fun _ _ => by simp, Pair.zip_flatMap _ _ _ fun _ _ => by simp,
        List.map_flatMap, List.map_flatMap]
      intro v
      rw [sum_map_flatMap, sum_map_flatMap]
      refine sum_view hp.1 fun s => ?_
      obtain ⟨k, hk⟩ := h.corners s
      have hz (f : Fin 3 → ℕ) (g : Fin 3 → V3 ℝ) (m : ℕ → ℕ) :
          (((List.finRange 3).map f).zip ((List.finRange 3).map g)).map (fun p => (m p.1, lam • p.2)) =
            Assembly.zipCell (fun j => m (f j)) fun j => lam • g j := by
        rw [List.zip_map', List.map_map]
        rfl
      rw [hz, hz]
      refine sameAdds_zipCell (Equiv.addRight k) (fun j => hk j) (fun j => ?_) v
      rw [hb.sampleJacobianAt, hb.normalMultiplier]
      have hn : (C'.samples (renumber σ x)).nml (τ s) = (C.samples x).nml s := (h.samples x).nml s
      congr 2
      unfold faceUnitNormalGrad
      rw [hn]
      have hg : areaNormalGrad (fun j => renumber σ x (C'.surf j)) (C'.tris (τ s)) j =
          areaNormalGrad (fun j => x (C.surf j)) (C.tris s) (j + k) := by
        have key (j : Fin 3) : renumber σ x (C'.surf ((C'.tris (τ s)).get j)) =
            x (C.surf ((C.tris s).get (j + k))) := by rw [hk, renumber_apply]
        have h0 := key 0
        have h1 := key 1
        have h2 := key 2
        simp only [Tri.get] at h0 h1 h2
        fin_cases j <;> simp only [areaNormalGrad, h0, h1, h2] <;> fin_cases k <;> rfl
      simp only [hg]
      rfl

theorem subtractForce (f : ℕ → V3 ℝ) :
    C'.subtractForce (renumber σ x) (renumber σ f) = renumber σ (C.subtractForce x f) := by
  have hfold (l : List (ℕ × V3 ℝ)) (f : ℕ → V3 ℝ) (v : ℕ) : l.foldl ParForce.subtractOp f v =
      f v - (l.map fun p => if p.1 = v then p.2 else 0).sum := by
    induction l generalizing f with
    | nil => simp
    | cons a l ih =>
      rw [List.foldl_cons, ih, List.map_cons, List.sum_cons]
      unfold ParForce.subtractOp
      by_cases hv : a.1 = v
      · rw [if_pos hv, ← hv, Function.update_self, sub_sub]
      · rw [if_neg hv, Function.update_of_ne (Ne.symm hv), zero_add]
  refine renumber_eq fun i => ?_
  rw [Pair.subtractForce_eq_seq, Pair.subtractForce_eq_seq]
  unfold ParForce.subtractSeq ParForce.seqOps
  rw [hfold, hfold, renumber_apply, List.map_append, List.map_append, List.sum_append, List.sum_append]
  have hboth : Reordered (fun p p' => p ∈ C.nbrs.zipIdx ∧ p' ∈ C'.nbrs.zipIdx ∧ SameSpot σ τ C C' p p')
      C.nbrs.zipIdx C'.nbrs.zipIdx := h.spots.mem
  rw [sameAdds_flatMap hboth (fun p _ p' hp => h.surfaceOps hd hp.1 hp.2.1 hp.2.2) i,
    sameAdds_flatMap hboth (fun p _ p' hp => h.colliderOps hd hp.1 hp.2.1 hp.2.2) i]

end SameContact

end Softy.Numbering
