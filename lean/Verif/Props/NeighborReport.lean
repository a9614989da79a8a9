import Verif.Model.NeighborReport
import Verif.Props.Neighborhood

/-!
# C117: what a query says about its neighborhoods

Specification: a vertex matters to a query if the potential may change when the vertex moves. The
vertices that are reported should be all that matter.
-/

noncomputable section

namespace Softy.NeighborReport

open Softy Softy.Kernel Softy.Field Softy.SurfaceQuery Softy.Neighborhood

/-- Specification: around the samples in the radius of each query point are the samples of its
extended set. -/
def Extends (Q : Query) : Prop :=
  match Q.cache with
  | .loc t _ e => List.Forall₂ (IsExtended Q.faces Q.sampleType) t e
  | .glob _ _ => True

/-! ## Numbers -/

theorem pairwise_zipIdx {α : Type*} (l : List α) (k : ℕ) :
    (l.zipIdx k).Pairwise fun a b => a.2 < b.2 := by
  induction l generalizing k with
  | nil => simp
  | cons a l ih =>
    rw [List.zipIdx_cons, List.pairwise_cons]
    refine ⟨fun b hb => ?_, ih (k + 1)⟩
    have := List.le_snd_of_mem_zipIdx hb
    omega

theorem nonemptyIndices_sorted (l : List (List ℕ)) : (nonemptyIndices l).Pairwise (· < ·) := by
  unfold nonemptyIndices
  rw [List.pairwise_map]
  exact (pairwise_zipIdx l 0).filter _

theorem mem_nonemptyIndices (l : List (List ℕ)) (i : ℕ) :
    i ∈ nonemptyIndices l ↔ ∃ n, l[i]? = some n ∧ n ≠ [] := by
  unfold nonemptyIndices
  simp only [List.mem_map, List.mem_filter, Prod.exists]
  constructor
  · rintro ⟨a, b, ⟨h, hn⟩, rfl⟩
    rw [List.mem_zipIdx_iff_getElem?] at h
    exact ⟨a, h, by simpa using hn⟩
  · rintro ⟨n, h, hn⟩
    exact ⟨n, i, ⟨List.mem_zipIdx_iff_getElem?.2 h, by simpa using hn⟩, rfl⟩

theorem nonemptyIndices_length (l : List (List ℕ)) :
    (nonemptyIndices l).length = (l.filter fun n => !n.isEmpty).length := by
  unfold nonemptyIndices
  rw [List.length_map]
  have : ∀ k, ((l.zipIdx k).filter fun p => !p.1.isEmpty).length =
      (l.filter fun n => !n.isEmpty).length := by
    induction l with
    | nil => simp
    | cons a l ih =>
      intro k
      rw [List.zipIdx_cons, List.filter_cons, List.filter_cons]
      dsimp only
      split <;> simp [ih (k + 1)]
  exact this 0

theorem isExtended_ne {tris : List Tri} {ty : SampleType} {t e : List ℕ} (h : IsExtended tris ty t e) :
    e = [] ↔ t = [] := by
  constructor
  · rintro rfl
    refine List.eq_nil_iff_forall_not_mem.2 fun a ha => ?_
    have := (h.2 a).2 (Or.inl ha)
    simp at this
  · rintro rfl
    refine List.eq_nil_iff_forall_not_mem.2 fun a ha => ?_
    have := (h.2 a).1 ha
    simp at this

/-- The neighborhoods that are counted. -/
def kept (Q : Query) : List (List ℕ) :=
  match Q.sampleType with
  | .vertex => Q.cache.extended
  | .face => Q.cache.trivial

theorem nonempty_eq (Q : Query) : nonempty Q = nonemptyIndices (kept Q) := by
  unfold nonempty kept
  cases Q.sampleType <;> rfl

theorem sizes_eq (Q : Query) : sizes Q = (kept Q).map List.length := by
  unfold sizes kept
  cases Q.sampleType <;> rfl

theorem kept_empty {Q : Query} (h : Extends Q) :
    List.Forall₂ (fun t e : List ℕ => e = [] ↔ t = []) Q.cache.trivial (kept Q) := by
  unfold kept Extends at *
  cases hc : Q.cache with
  | glob s c =>
    have : ∀ l : List (List ℕ), List.Forall₂ (fun t e : List ℕ => e = [] ↔ t = []) l l :=
      fun l => List.forall₂_same.2 fun _ _ => Iff.rfl
    cases Q.sampleType <;> exact this _
  | loc t c e =>
    rw [hc] at h
    cases hs : Q.sampleType with
    | face => exact List.forall₂_same.2 fun _ _ => Iff.rfl
    | vertex => exact h.imp fun _ _ h => isExtended_ne h

theorem forall₂_filter {l m : List (List ℕ)}
    (h : List.Forall₂ (fun t e : List ℕ => e = [] ↔ t = []) l m) :
    (m.filter fun n => !n.isEmpty).length = (l.filter fun n => !n.isEmpty).length := by
  induction h with
  | nil => rfl
  | @cons a b l₁ l₂ h _ ih =>
    rw [List.filter_cons, List.filter_cons]
    by_cases ha : a = []
    · have hb := h.2 ha
      simp [ha, hb, ih]
    · have hb : b ≠ [] := fun e => ha (h.1 e)
      simp [ha, hb, ih]

/-- **C117.** The numbers and indices of neighborhoods, their sizes and the samples in the radius
say the same: a query point is listed exactly if its size is not zero, and exactly if some sample is
in its radius, there are as many as are counted, in increasing order, and there is one size for each
query point. -/
theorem neighborhoods_consistent (Q : Query) (h : Extends Q) :
    (nonempty Q).Pairwise (· < ·) ∧
    (nonempty Q).length = Q.numNeighborhoods ∧
    (sizes Q).length = Q.numQueryPoints ∧
    (∀ i, i ∈ nonempty Q ↔ ∃ s, (sizes Q)[i]? = some s ∧ s ≠ 0) ∧
    (∀ i, i ∈ nonempty Q ↔ ∃ n, Q.cache.trivial[i]? = some n ∧ n ≠ []) := by
  have hk := kept_empty h
  rw [nonempty_eq, sizes_eq]
  refine ⟨nonemptyIndices_sorted _, ?_, ?_, fun i => ?_, fun i => ?_⟩
  · rw [nonemptyIndices_length, forall₂_filter hk]
    rfl
  · rw [List.length_map, ← hk.length_eq]
    rfl
  · rw [mem_nonemptyIndices, List.getElem?_map]
    constructor
    · rintro ⟨n, hn, hne⟩
      exact ⟨n.length, by rw [hn]; rfl, fun e => hne (List.length_eq_zero_iff.1 e)⟩
    · rintro ⟨s, hs, hne⟩
      obtain ⟨n, hn, rfl⟩ := Option.map_eq_some_iff.1 hs
      exact ⟨n, hn, fun e => hne (by rw [e]; rfl)⟩
  · rw [mem_nonemptyIndices]
    constructor
    · rintro ⟨n, hn, hne⟩
      obtain ⟨hi, hg⟩ := List.getElem?_eq_some_iff.1 hn
      have hi' : i < Q.cache.trivial.length := by rw [hk.length_eq]; exact hi
      refine ⟨Q.cache.trivial[i], List.getElem?_eq_getElem hi', fun e => hne ?_⟩
      have := (List.forall₂_iff_get.1 hk).2 i hi' hi
      rw [← hg]
      exact this.2 e
    · rintro ⟨n, hn, hne⟩
      obtain ⟨hi, hg⟩ := List.getElem?_eq_some_iff.1 hn
      have hi' : i < (kept Q).length := by rw [← hk.length_eq]; exact hi
      refine ⟨(kept Q)[i], List.getElem?_eq_getElem hi', fun e => hne ?_⟩
      have := (List.forall₂_iff_get.1 hk).2 i hi hi'
      rw [← hg]
      exact this.1 e

/-- **C117.** After the neighborhoods have been computed, whatever was cached before, the reports are
consistent. -/
theorem neighborhoods_consistent_computed (hash : List ℕ → Fin (2 ^ 64)) (points : List (V3 ℝ))
    (neigh : V3 ℝ → List ℕ) (closest : V3 ℝ → ℕ) (n : ℕ) (N : Nbh) (Q : Query)
    (hn : Q.sampleType = .vertex → ∀ q ∈ points, ∀ i ∈ neigh q, i < n) :
    ∃ ch N', computeNeighborhoods hash points neigh closest Q.faces (computeDual n Q.faces) Q.sampleType N =
        some (ch, N') ∧
      ∀ Q' : Query, Q' = { Q with cache := .loc N'.trivial N'.closest N'.extended } →
        Q'.numQueryPoints = points.length ∧
        (∀ i, i ∈ nonempty Q' ↔ ∃ q, points[i]? = some q ∧ neigh q ≠ []) ∧
        (∀ i, i ∈ nonempty Q' ↔ ∃ s, (sizes Q')[i]? = some s ∧ s ≠ 0) ∧
        (nonempty Q').length = Q'.numNeighborhoods := by
  obtain ⟨ch, N', he, h1, h2, h3⟩ := neighborhoods_computed hash points neigh closest Q.faces n Q.sampleType N hn
  refine ⟨ch, N', he, ?_⟩
  rintro Q' rfl
  have hE : Extends { Q with cache := .loc N'.trivial N'.closest N'.extended } := h3
  obtain ⟨-, c2, -, c4, c5⟩ := neighborhoods_consistent _ hE
  refine ⟨?_, fun i => ?_, c4, c2⟩
  · show N'.trivial.length = _
    rw [h2, List.length_map]
  · rw [c5]
    show (∃ n, N'.trivial[i]? = some n ∧ n ≠ []) ↔ _
    rw [h2, List.getElem?_map]
    constructor
    · rintro ⟨m, hm, hne⟩
      obtain ⟨q, hq, rfl⟩ := Option.map_eq_some_iff.1 hm
      exact ⟨q, hq, hne⟩
    · rintro ⟨q, hq, hne⟩
      exact ⟨neigh q, by rw [hq]; rfl, hne⟩

/-! ## Vertices -/

/-- Samples agree where a neighborhood sees them. -/
def Agree (S S' : Samples) (view : List ℕ) : Prop :=
  ∀ i ∈ view, S.pos i = S'.pos i ∧ S.nml i = S'.nml i ∧ S.value i = S'.value i

theorem closestFrom_mem (q : V3 ℝ) (S : Samples) (b : ℕ) (l : List ℕ) :
    closestFrom q S b l = b ∨ closestFrom q S b l ∈ l := by
  induction l generalizing b with
  | nil => exact Or.inl rfl
  | cons i l ih =>
    unfold closestFrom
    split
    · rcases ih i with h | h
      · exact Or.inr (by rw [h]; simp)
      · exact Or.inr (List.mem_cons_of_mem _ h)
    · rcases ih b with h | h
      · exact Or.inl h
      · exact Or.inr (List.mem_cons_of_mem _ h)

theorem closestFrom_agree {q : V3 ℝ} {S S' : Samples} {b : ℕ} {l : List ℕ} (h : Agree S S' (b :: l)) :
    closestFrom q S b l = closestFrom q S' b l := by
  induction l generalizing b with
  | nil => rfl
  | cons i l ih =>
    unfold closestFrom
    rw [(h b (by simp)).1, (h i (by simp)).1]
    have hi : Agree S S' (i :: l) := fun j hj => h j (List.mem_cons_of_mem _ hj)
    have hb : Agree S S' (b :: l) := fun j hj => h j (by
      rcases List.mem_cons.1 hj with rfl | hj
      · simp
      · exact List.mem_cons_of_mem _ (List.mem_cons_of_mem _ hj))
    rw [ih hi, ih hb]

theorem potentialAt_agree {q : V3 ℝ} {view : List ℕ} {S S' : Samples} {k : Kern} {P : BgParams} {old : ℝ}
    (h : Agree S S' view) : potentialAt q view S k P old = potentialAt q view S' k P old := by
  cases view with
  | nil => rfl
  | cons a l =>
    have hc : closestFrom q S a l = closestFrom q S' a l := closestFrom_agree h
    have hm : closestFrom q S' a l ∈ a :: l := by
      rcases closestFrom_mem q S' a l with e | e
      · rw [e]; simp
      · exact List.mem_cons_of_mem _ e
    obtain ⟨e1, e2, e3⟩ := h _ hm
    have hw : ∀ d, (a :: l).map (weight k d q S) = (a :: l).map (weight k d q S') := fun d =>
      List.map_congr_left fun i hi => by rw [weight, weight, (h i hi).1]
    have hp : ∀ d, ((a :: l).map fun i => weight k d q S i * samplePotential q S i) =
        (a :: l).map fun i => weight k d q S' i * samplePotential q S' i := fun d =>
      List.map_congr_left fun i hi => by
        rw [weight, weight, samplePotential, samplePotential, (h i hi).1, (h i hi).2.1, (h i hi).2.2]
    simp only [potentialAt, Bg.local, closestSample, Bg.newImpl, ClosestIndex.get, Bg.weightedField,
      Bg.fieldValue, Bg.orientation, Bg.bgWeight, Bg.weightSumInv, localPotentialAt, hc, e1, e2, hw, hp]
    congr!

/-- Specification: with vertices at `x` and at `y`, the potentials are the same, for all query
points, wherever they are, in all ways to compute them. -/
def SamePotentials (Q : Query) (x y : ℕ → V3 ℝ) : Prop :=
  ∀ (points : List (V3 ℝ)) (field : List ℝ),
    (topo (moved Q x)).potential points field = (topo (moved Q y)).potential points field ∧
    (topo (moved Q x)).localPotential points field = (topo (moved Q y)).localPotential points field ∧
    ∀ poll order, (topo (moved Q x)).potentialPar poll order points field =
      (topo (moved Q y)).potentialPar poll order points field

theorem same_of_agree {Q : Query} {x y : ℕ → V3 ℝ}
    (h : ∀ v ∈ Q.cache.trivial, Agree (samplesAt Q x) (samplesAt Q y) v) : SamePotentials Q x y := by
  intro points field
  have ht : ∀ i old, (topo (moved Q x)).task points i old = (topo (moved Q y)).task points i old := by
    intro i old
    unfold Topo.task
    show (match points[i]?, Q.cache.trivial[i]? with
      | some q, some v => potentialAt q v (samplesAt Q x) Q.kernel Q.params old
      | _, _ => old) = (match points[i]?, Q.cache.trivial[i]? with
      | some q, some v => potentialAt q v (samplesAt Q y) Q.kernel Q.params old
      | _, _ => old)
    cases points[i]? with
    | none => rfl
    | some q =>
      cases hv : Q.cache.trivial[i]? with
      | none => rfl
      | some v => exact potentialAt_agree (h v (List.mem_of_getElem? hv))
  have hf : (topo (moved Q x)).task points = (topo (moved Q y)).task points :=
    funext fun i => funext fun old => ht i old
  refine ⟨?_, ?_, fun poll order => ?_⟩
  · unfold Topo.potential
    rw [hf]
    rfl
  · unfold Topo.localPotential
    refine congrArg (fun g => List.mapIdx g field) (funext fun j => funext fun old => ?_)
    show (match (((points.zip Q.cache.trivial).filter fun p => !p.2.isEmpty))[j]? with
      | some p => potentialAt p.1 p.2 (samplesAt Q x) Q.kernel Q.params old
      | none => old) = (match (((points.zip Q.cache.trivial).filter fun p => !p.2.isEmpty))[j]? with
      | some p => potentialAt p.1 p.2 (samplesAt Q y) Q.kernel Q.params old
      | none => old)
    cases hp : ((points.zip Q.cache.trivial).filter fun p => !p.2.isEmpty)[j]? with
    | none => rfl
    | some p =>
      have hm := (List.mem_filter.1 (List.mem_of_getElem? hp)).1
      exact potentialAt_agree (h p.2 (List.of_mem_zip hm).2)
  · unfold Topo.potentialPar
    rw [hf]
    rfl

theorem mem_vertexIndices {Q : Query} {r : List ℕ} (h : VertexIndices Q r) (v : ℕ) :
    v ∈ r ↔ v ∈ collected Q := by
  rw [List.Perm.mem_iff h, List.mem_dedup]

/-- **C117.** With samples at faces, the reported vertices are, once each, the corners of the faces
whose samples some query point sees, and no other vertex matters: if the reported vertices stay where
they are, all potentials stay the same. -/
theorem face_vertices_reported (Q : Query) (hs : Q.sampleType = .face) (r : List ℕ)
    (hr : VertexIndices Q r) :
    r.Nodup ∧ (∀ v, v ∈ r ↔ ∃ view ∈ Q.cache.trivial, ∃ j ∈ view,
      v = (Q.tris j).a ∨ v = (Q.tris j).b ∨ v = (Q.tris j).c) ∧
    ∀ x y : ℕ → V3 ℝ, (∀ v ∈ r, x v = y v) → SamePotentials Q x y := by
  have hm : ∀ v, v ∈ r ↔ ∃ view ∈ Q.cache.trivial, ∃ j ∈ view,
      v = (Q.tris j).a ∨ v = (Q.tris j).b ∨ v = (Q.tris j).c := fun v => by
    rw [mem_vertexIndices hr, collected, hs]
    simp only [List.mem_flatMap, List.mem_flatten, List.mem_cons, List.not_mem_nil, or_false]
    constructor
    · rintro ⟨j, ⟨view, hv, hj⟩, h⟩
      exact ⟨view, hv, j, hj, h⟩
    · rintro ⟨view, hv, j, hj, h⟩
      exact ⟨j, ⟨view, hv, hj⟩, h⟩
  refine ⟨(List.Perm.nodup_iff hr).2 (List.nodup_dedup _), hm, fun x y hxy => same_of_agree ?_⟩
  intro view hv i hi
  have ha := hxy _ ((hm _).2 ⟨view, hv, i, hi, Or.inl rfl⟩)
  have hb := hxy _ ((hm _).2 ⟨view, hv, i, hi, Or.inr (Or.inl rfl)⟩)
  have hc := hxy _ ((hm _).2 ⟨view, hv, i, hi, Or.inr (Or.inr rfl)⟩)
  simp only [samplesAt, hs, faceSamples, ha, hb, hc]
  exact ⟨trivial, trivial, trivial⟩

/-- **C117.** With samples at vertices, the reported vertices are, once each, the samples that some
query point sees. Together with the corners of the triangles around them these are all that matter. What
is missing: the reported vertices are all that matter, see `vertex_ring_violated`. -/
theorem vertex_vertices_reported_partial (Q : Query) (hs : Q.sampleType = .vertex) (r : List ℕ)
    (hr : VertexIndices Q r) :
    r.Nodup ∧ (∀ v, v ∈ r ↔ ∃ view ∈ Q.cache.trivial, v ∈ view) ∧
    ∀ x y : ℕ → V3 ℝ, (∀ v ∈ r, x v = y v ∧ ∀ T ∈ Q.faces, T.Has v → ∀ w, T.Has w → x w = y w) →
      SamePotentials Q x y := by
  have hm : ∀ v, v ∈ r ↔ ∃ view ∈ Q.cache.trivial, v ∈ view := fun v => by
    rw [mem_vertexIndices hr, collected, hs, List.mem_flatten]
  refine ⟨(List.Perm.nodup_iff hr).2 (List.nodup_dedup _), hm, fun x y hxy => same_of_agree ?_⟩
  intro view hv i hi
  obtain ⟨h1, h2⟩ := hxy i ((hm i).2 ⟨view, hv, hi⟩)
  simp only [samplesAt, hs, vertexSamples]
  refine ⟨h1, ?_, trivial⟩
  unfold vertexNormal
  congr 1
  refine List.map_congr_left fun T hT => ?_
  split
  · rename_i h
    have hh : T.Has i := h
    rw [h2 T hT hh T.a (Or.inl rfl), h2 T hT hh T.b (Or.inr (Or.inl rfl)),
      h2 T hT hh T.c (Or.inr (Or.inr rfl))]
  · rfl

/-! ## Violation -/

/-- One triangle with a sample at each vertex and one query point, half a unit above vertex 0, with a
radius in which it sees only this vertex. -/
def exampleQuery : Query where
  S := ⟨fun _ => 0, fun _ => 0, fun _ => 0, fun _ => 0⟩
  sampleType := .vertex
  tris := fun _ => ⟨0, 1, 2⟩
  faces := [⟨0, 1, 2⟩]
  x := fun _ => 0
  numVertices := 3
  kernel := .cubic 1
  params := ⟨.zero, false⟩
  cache := .loc [[0]] [0] [[0, 1, 2]]

/-- The vertices, and the same with vertex 2 on the other side of the edge. -/
def exampleVertices (s : ℝ) : ℕ → V3 ℝ
  | 0 => ⟨0, 0, 0⟩
  | 1 => ⟨1, 0, 0⟩
  | 2 => ⟨0, s, 0⟩
  | _ => 0

theorem example_extends : Extends exampleQuery := by
  refine List.Forall₂.cons ⟨by simp, fun j => ?_⟩ List.Forall₂.nil
  simp only [exampleQuery, List.mem_cons, List.not_mem_nil, or_false]
  constructor
  · rintro h
    exact Or.inr ⟨trivial, _, rfl, h, 0, rfl, Or.inl rfl⟩
  · rintro (h | ⟨-, T, rfl, h, -⟩)
    · exact Or.inl h
    · exact h

theorem example_potential (s : ℝ) (hs : s ≠ 0) :
    (topo (moved exampleQuery (exampleVertices s))).potential [⟨0, 0, 1 / 2⟩] [0] =
      some [s / |s| / 2] := by
  have hn : vertexNormal exampleQuery.faces (exampleVertices s) 0 = ⟨0, 0, s⟩ := by
    simp [vertexNormal, exampleQuery, areaNormal, exampleVertices, V3.cross]
  have hl : (⟨0, 0, s⟩ : V3 ℝ).norm = |s| := by
    rw [V3.norm, V3.dot]
    simp [Real.sqrt_mul_self_eq_abs]
  have hd : (⟨0, 0, 1 / 2⟩ - exampleVertices s 0 : V3 ℝ).norm = 1 / 2 := by
    have h1 : (⟨0, 0, 1 / 2⟩ - exampleVertices s 0 : V3 ℝ) = ⟨0, 0, 1 / 2⟩ := by
      ext <;> simp [exampleVertices]
    have h2 : V3.dot (⟨0, 0, 1 / 2⟩ : V3 ℝ) ⟨0, 0, 1 / 2⟩ = (1 / 2) * (1 / 2) := by
      simp [V3.dot]
    rw [h1, V3.norm, h2]
    exact Real.sqrt_mul_self (by norm_num)
  have hpos : (samplesAt exampleQuery (exampleVertices s)).pos 0 = exampleVertices s 0 := rfl
  have hnml : (samplesAt exampleQuery (exampleVertices s)).nml 0 = ⟨0, 0, s⟩ := hn
  have hval : (samplesAt exampleQuery (exampleVertices s)).value 0 = 0 := rfl
  have hw : weight (.cubic 1) (1 / 2) ⟨0, 0, 1 / 2⟩ (samplesAt exampleQuery (exampleVertices s)) 0 = 1 / 2 := by
    rw [weight, Kern.withClosest, Kern.eval, hpos, hd]
    · simp only [Kern.f, cubicF, Scal.val, lit, Scal.ofReal]
      rw [if_neg (by norm_num)]
      norm_num
    · intro r h e
      cases e
  have hsp : samplePotential ⟨0, 0, 1 / 2⟩ (samplesAt exampleQuery (exampleVertices s)) 0 = s / |s| / 2 := by
    rw [samplePotential, hval, hnml, hpos, hl]
    simp [V3.dot, exampleVertices]
    ring
  have hb : backgroundWeight (.cubic 1) false (1 / 2) = 0 := by
    simp only [backgroundWeight, Kern.radius]
    rw [if_neg (by norm_num)]
    simp
  have hp : potentialAt ⟨0, 0, 1 / 2⟩ [0] (samplesAt exampleQuery (exampleVertices s)) (.cubic 1)
      ⟨.zero, false⟩ 0 = s / |s| / 2 := by
    simp only [potentialAt, Bg.local, closestSample, closestFrom, Bg.newImpl, ClosestIndex.get,
      Bg.weightedField, Bg.fieldValue, Bg.bgWeight, Bg.weightSumInv, localPotentialAt, hpos, hd,
      List.map_cons, List.map_nil, List.sum_cons, List.sum_nil, hw, hsp, hb, BgValue.new]
    norm_num
    ring
  simp [Topo.potential, topo, moved, exampleQuery, SurfaceQuery.Cache.trivial, Topo.task] at hp ⊢
  exact hp

/-- **C117, violated.** With samples at vertices, a vertex matters that is not reported: only vertex 0
is, but moving vertex 2 turns the normal at vertex 0, and with it the sign of the potential. -/
theorem vertex_ring_violated : ∃ (Q : Query) (r : List ℕ) (x y : ℕ → V3 ℝ), Extends Q ∧
    Q.sampleType = .vertex ∧ VertexIndices Q r ∧ (∀ v ∈ r, x v = y v) ∧
    (∀ v, v ≠ 2 → x v = y v) ∧ ¬ SamePotentials Q x y := by
  refine ⟨exampleQuery, [0], exampleVertices 1, exampleVertices (-1), example_extends, rfl, ?_, ?_, ?_, ?_⟩
  · simp [VertexIndices, collected, exampleQuery, SurfaceQuery.Cache.trivial]
  · intro v hv
    rw [List.mem_singleton.1 hv]
    rfl
  · intro v hv
    match v, hv with
    | 0, _ => rfl
    | 1, _ => rfl
    | n + 3, _ => rfl
  · intro h
    have := (h [⟨0, 0, 1 / 2⟩] [0]).1
    rw [example_potential 1 (by norm_num), example_potential (-1) (by norm_num)] at this
    norm_num at this

/-- A query with samples at faces that meets the hypotheses of the theorem about them. -/
example : let Q : Query := { exampleQuery with sampleType := .face, cache := .loc [[0], []] [0, 0] [[0], []] }
    Extends Q ∧ Q.sampleType = .face ∧ VertexIndices Q [2, 0, 1] ∧ nonempty Q = [0] := by
  refine ⟨List.Forall₂.cons ⟨by simp, fun j => by simp⟩ (List.Forall₂.cons ⟨by simp, fun j => by simp⟩
    List.Forall₂.nil), rfl, ?_, rfl⟩
  show List.Perm [2, 0, 1] [0, 1, 2]
  decide

/-- The example meets the hypotheses of the theorems above. -/
example : nonempty exampleQuery = [0] ∧ sizes exampleQuery = [3] := by
  constructor <;> rfl

end Softy.NeighborReport
