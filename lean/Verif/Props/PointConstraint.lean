import Verif.Model.PointConstraint
import Verif.Props.SurfaceQueryWitness
import Verif.Props.Contact

/-!
# C119: a contact constraint and its derivatives say the same

Specification: the variables are the vertices of the object followed by the vertices of the collider.
The constraint has one value for each collider vertex that has samples of the object around it: the
potential at this vertex.
-/

noncomputable section

namespace Softy.PointConstraint

open Softy Softy.Kernel Softy.Field Softy.SurfaceQuery

/-- Specification: vectors for the `n` vertices of the object followed by those of the collider. -/
def stack (n : ℕ) (u w : ℕ → V3 ℝ) (v : ℕ) : V3 ℝ := if v < n then u v else w (v - n)

/-- Specification: the potential at collider vertex `i`, with the object at `x` and the collider at
`y`. -/
def Constraint.distance (C : Constraint) (x : ℕ → V3 ℝ) (y : List (V3 ℝ)) (i : ℕ) : ℝ :=
  potentialAt (y.getD i 0) (C.surf.cache.trivial.getD i []) (faceSamples C.surf.tris x C.value)
    C.surf.kernel Contact.params 0

/-- Specification: the collider vertices with samples around them, in order. -/
def Constraint.touched (C : Constraint) : List ℕ :=
  (List.range C.surf.cache.trivial.length).filter fun i => !(C.surf.cache.trivial.getD i []).isEmpty

/-- Specification: a constraint as `new` makes it when it is not linearized. -/
structure Constraint.Ready (C : Constraint) : Prop where
  face : C.surf.sampleType = .face
  params : C.surf.params = Contact.params
  complete : C.surf.Complete
  samples : C.surf.faces ≠ []
  buffer : C.buffer.length = C.surf.cache.trivial.length

/-! ## Numbers of constraints -/

/-- The number of query points before `i` that have samples around them. -/
def rank (T : List (List ℕ)) (i : ℕ) : ℕ :=
  ((List.range i).filter fun j => !(T.getD j []).isEmpty).length

theorem rank_zero (T : List (List ℕ)) : rank T 0 = 0 := rfl

theorem rank_succ (a : List ℕ) (T : List (List ℕ)) (i : ℕ) :
    rank (a :: T) (i + 1) = (if a.isEmpty then 0 else 1) + rank T i := by
  unfold rank
  rw [List.range_succ_eq_map, List.filter_cons, List.filter_map]
  simp only [List.getD_cons_zero, Function.comp_def, List.getD_cons_succ]
  cases a <;> simp
  omega

theorem enumerate_rank : ∀ (T : List (List ℕ)) (n i : ℕ),
    ((Contact.Pair.enumerateFrom n (T.map List.length))[i]?).getD none =
      if (T.getD i []).isEmpty then none else some (n + rank T i)
  | [], n, i => by simp [Contact.Pair.enumerateFrom]
  | a :: T, n, 0 => by cases a <;> simp [Contact.Pair.enumerateFrom, rank_zero]
  | a :: T, n, i + 1 => by
    rw [rank_succ, List.getD_cons_succ]
    cases a with
    | nil =>
      have := enumerate_rank T n i
      simpa [Contact.Pair.enumerateFrom] using this
    | cons b a =>
      have := enumerate_rank T (n + 1) i
      simpa [Contact.Pair.enumerateFrom, add_assoc] using this

theorem spread_rank : ∀ (T : List (List ℕ)) (m : List ℝ) (i : ℕ), T.getD i [] ≠ [] →
    (spread T m).getD i 0 = m.getD (rank T i) 0
  | [], m, i, h => by simp at h
  | [] :: T, m, 0, h => by simp at h
  | (b :: a) :: T, [], 0, h => by simp [spread]
  | (b :: a) :: T, c :: m, 0, h => by simp [spread, rank_zero]
  | [] :: T, m, i + 1, h => by
    rw [spread, List.getD_cons_succ, rank_succ]
    simpa using spread_rank T m i (by simpa using h)
  | (b :: a) :: T, [], i + 1, h => by
    rw [spread, List.getD_cons_succ, rank_succ]
    simpa using spread_rank T [] i (by simpa using h)
  | (b :: a) :: T, c :: m, i + 1, h => by
    rw [spread, List.getD_cons_succ, rank_succ, add_comm]
    simpa using spread_rank T m i (by simpa using h)

theorem filter_rank (T : List (List ℕ)) {i : ℕ} (h : T.getD i [] ≠ []) :
    ((List.range T.length).filter fun j => !(T.getD j []).isEmpty)[rank T i]? = some i := by
  have hi : i < T.length := by
    by_contra hn
    exact h (List.getD_eq_default _ _ (by omega))
  obtain ⟨k, hk⟩ : ∃ k, T.length = i + (k + 1) := ⟨T.length - i - 1, by omega⟩
  unfold rank
  rw [hk, List.range_add, List.filter_append, List.getElem?_append_right (le_refl _)]
  rw [Nat.sub_self, List.range_succ_eq_map, List.map_cons, List.filter_cons, if_pos]
  · simp
  · cases hT : T.getD i [] with
    | nil => exact absurd hT h
    | cons a l => simp [hT]

theorem mem_touched {C : Constraint} {i : ℕ} :
    i ∈ C.touched ↔ C.surf.cache.trivial.getD i [] ≠ [] := by
  unfold Constraint.touched
  rw [List.mem_filter, List.mem_range]
  constructor
  · rintro ⟨-, h⟩ e
    rw [e] at h
    simp at h
  · intro h
    refine ⟨?_, ?_⟩
    · by_contra hn
      exact h (List.getD_eq_default _ _ (by omega))
    · cases hT : C.surf.cache.trivial.getD i [] with
      | nil => exact absurd hT h
      | cons a l => simp

theorem touched_rank {C : Constraint} {i : ℕ} (h : i ∈ C.touched) :
    C.touched[rank C.surf.cache.trivial i]? = some i := filter_rank _ (mem_touched.1 h)

theorem touched_nodup (C : Constraint) : C.touched.Nodup := List.nodup_range.filter _

theorem rank_of_touched {C : Constraint} {r i : ℕ} (h : C.touched[r]? = some i) :
    rank C.surf.cache.trivial i = r := by
  have hm : i ∈ C.touched := List.mem_of_getElem? h
  have h2 := touched_rank hm
  obtain ⟨l1, e1⟩ := List.getElem?_eq_some_iff.1 h
  obtain ⟨l2, e2⟩ := List.getElem?_eq_some_iff.1 h2
  exact (List.Nodup.getElem_inj_iff (touched_nodup C)).1 (e2.trans e1.symm)

theorem touched_length (C : Constraint) : C.touched.length = C.size := C.surf.active_length

namespace Constraint

variable (C : Constraint)

theorem sizes_face (hC : C.surf.sampleType = .face) : C.sizes = C.surf.cache.trivial.map List.length := by
  unfold sizes Query.surfaceNbrs
  rw [hC]

theorem number_eq (hC : C.surf.sampleType = .face) (i : ℕ) :
    C.number i = if (C.surf.cache.trivial.getD i []).isEmpty then none
      else some (rank C.surf.cache.trivial i) := by
  unfold number
  rw [C.sizes_face hC, enumerate_rank, zero_add]

/-! ## Values -/

theorem _root_.Softy.PointConstraint.potential_old {q : V3 ℝ} {view : List ℕ} {S : Samples} {k : Kern}
    (h : view ≠ []) (old : ℝ) :
    potentialAt q view S k Contact.params old = potentialAt q view S k Contact.params 0 := by
  obtain ⟨c, hc⟩ := closestSample_isSome (q := q) (S := S) (l := view) h
  unfold potentialAt Bg.local
  rw [hc]
  rfl

theorem _root_.Softy.PointConstraint.filter_sizes (T : List (List ℕ)) :
    ∀ b : List ℝ, b.length = T.length →
    (((T.map List.length).zip b).filter fun p => p.1 ≠ 0).map Prod.snd =
      ((List.range T.length).filter fun i => !(T.getD i []).isEmpty).map fun i => b.getD i 0 := by
  induction T with
  | nil => intro b h; rfl
  | cons a T ih =>
    intro b h
    cases b with
    | nil => simp at h
    | cons c b =>
      have ih := ih b (by simpa using h)
      rw [List.length_cons, List.range_succ_eq_map, List.map_cons, List.zip_cons_cons,
        List.filter_cons, List.filter_cons]
      rw [List.filter_map, Function.comp_def]
      simp only [List.getD_cons_succ, List.getD_cons_zero]
      cases a with
      | nil =>
        simp only [List.length_nil, ne_eq, not_true_eq_false, decide_false, Bool.false_eq_true, if_false,
          List.isEmpty_nil, Bool.not_true, List.map_map, Function.comp_def, List.getD_cons_succ]
        exact ih
      | cons d a =>
        simp only [List.length_cons, ne_eq, Nat.add_eq_zero_iff, one_ne_zero, and_false,
          not_false_eq_true, decide_true, if_true, List.isEmpty_cons, Bool.not_false, List.map_cons,
          List.getD_cons_zero, List.map_map, Function.comp_def, List.getD_cons_succ]
        rw [ih]

theorem cleared_some (hC : C.surf.faces ≠ []) : ∃ old, C.cleared = some old ∧
    old.length = C.buffer.length := by
  unfold cleared
  refine ⟨_, if_neg (fun h => hC h.1), ?_⟩
  simp [SurfaceVelocity.Query.fill]

/-- The buffer after potentials were computed. -/
theorem potential_some {old : List ℝ} (hp : C.surf.params = Contact.params)
    (hy : C.collider.length = C.surf.cache.trivial.length)
    (ho : old.length = C.surf.cache.trivial.length) :
    ∃ b, C.potential old = some b ∧ b.length = C.surf.cache.trivial.length ∧
      ∀ i, C.surf.cache.trivial.getD i [] ≠ [] → b.getD i 0 = potentialAt (C.collider.getD i 0)
        (C.surf.cache.trivial.getD i []) C.surf.S C.surf.kernel Contact.params 0 := by
  unfold potential
  refine ⟨_, if_pos ho.symm, ?_, fun i hi => ?_⟩
  · simp [SurfaceVelocity.Query.fill, hy, ho]
  · have hil : i < C.surf.cache.trivial.length := by
      by_contra hn
      exact hi (List.getD_eq_default _ _ (by omega))
    rw [SurfaceVelocity.fill_all (by simp [hy, ho]), List.getD_eq_getElem _ _ (by simp [hy, ho, hil])]
    simp only [List.getElem_map, List.getElem_zip]
    rw [hp, List.getD_eq_getElem _ _ hil, List.getD_eq_getElem _ _ (by rw [hy]; exact hil),
      potential_old]
    rwa [← List.getD_eq_getElem _ [] hil]

/-- C119: the values of the constraint are the potentials at the collider vertices with samples around
them. The constraint stays ready for more calls. -/
theorem constraint_values (hC : C.Ready) (x : ℕ → V3 ℝ) {y : List (V3 ℝ)} {out : List ℝ}
    (hy : y.length = C.surf.cache.trivial.length) (ho : out.length = C.size) :
    ∃ C', C.constraint x y out = some (C', C.touched.map (C.distance x y)) ∧ C'.Ready ∧
      C'.size = C.size := by
  obtain ⟨old, h1, h2⟩ := (C.update x y).cleared_some hC.samples
  obtain ⟨b, h3, h4, h5⟩ := (C.update x y).potential_some (old := old) hC.params hy
    (h2.trans hC.buffer)
  have hs : (C.update x y).sizes = C.surf.cache.trivial.map List.length :=
    (C.update x y).sizes_face hC.face
  refine ⟨{ C.update x y with buffer := b }, ?_,
    ⟨hC.face, hC.params, hC.complete, hC.samples, h4⟩, rfl⟩
  unfold constraint
  dsimp only
  rw [h1, Option.bind_some, h3, Option.map_some, hs, filter_sizes C.surf.cache.trivial b h4]
  have e : ((List.range C.surf.cache.trivial.length).filter fun i =>
      !(C.surf.cache.trivial.getD i []).isEmpty).map (fun i => b.getD i 0) =
      C.touched.map (C.distance x y) := by
    refine List.map_congr_left fun i hi => ?_
    exact h5 i (mem_touched.1 hi)
  rw [e, SurfaceVelocity.fill_all (by rw [List.length_map, touched_length, ho])]

/-- C119: there are as many values as bounds, and the bounds ask for values that are not negative. -/
theorem bounds_eq : C.bounds.1.length = C.size ∧ C.bounds.2.length = C.size ∧
    (∀ l ∈ C.bounds.1, l = 0) ∧ ∀ u ∈ C.bounds.2, u = 2e19 := by
  unfold bounds
  refine ⟨by simp, by simp, fun l hl => List.eq_of_mem_replicate hl, fun u hu => List.eq_of_mem_replicate hu⟩

/-- C119: what a contact asks for when it is evaluated for the solver: the same values less the
offset. -/
theorem nonlinear_values (hC : C.Ready) (x : ℕ → V3 ℝ) {y : List (V3 ℝ)} {out : List ℝ}
    (hy : y.length = C.surf.cache.trivial.length) (ho : out.length = C.size) :
    C.nonlinear x y out = some (C.touched.map fun i => C.distance x y i - C.offset) := by
  obtain ⟨b, h3, h4, h5⟩ := (C.update x y).potential_some
    (old := C.buffer.map fun _ => 0) hC.params hy (by rw [List.length_map]; exact hC.buffer)
  have hs : (C.update x y).sizes = C.surf.cache.trivial.map List.length :=
    (C.update x y).sizes_face hC.face
  unfold nonlinear
  dsimp only
  rw [show (C.update x y).buffer = C.buffer from rfl, h3, Option.map_some, hs]
  have hf := congrArg (List.map fun d => d - C.offset) (filter_sizes C.surf.cache.trivial b h4)
  rw [List.map_map, List.map_map] at hf
  have e : (((C.surf.cache.trivial.map List.length).zip b).filter fun p => p.1 ≠ 0).map
      (fun p => p.2 - (C.update x y).offset) = C.touched.map fun i => C.distance x y i - C.offset := by
    refine Eq.trans hf ?_
    refine List.map_congr_left fun i hi => ?_
    show b.getD i 0 - C.offset = _
    rw [h5 i (mem_touched.1 hi)]
    rfl
  rw [e, SurfaceVelocity.fill_all (by rw [List.length_map, touched_length, ho])]

/-! ## Jacobian -/

theorem _root_.Softy.PointConstraint.flat_stack_left (n : ℕ) (u w : ℕ → V3 ℝ) {c : ℕ} (h : c < n * 3) :
    flat (stack n u w) c = flat u c := by
  unfold flat stack
  rw [if_pos (by omega)]

theorem _root_.Softy.PointConstraint.flat_stack_right (n : ℕ) (u w : ℕ → V3 ℝ) (c : ℕ) :
    flat (stack n u w) (c + n * 3) = flat w c := by
  unfold flat stack
  rw [if_neg (by omega), show (c + n * 3) % 3 = c % 3 by omega, show (c + n * 3) / 3 - n = c / 3 by omega]

/-- Rows can be renumbered. -/
theorem _root_.Softy.PointConstraint.rowSum_renumber (es : List ((ℕ × ℕ) × ℝ)) (f g : ℕ → ℕ) {r i : ℕ}
    (h : ∀ e ∈ es, f e.1.1 = r ↔ e.1.1 = i) (v : ℕ → ℝ) :
    rowSum (es.map fun e => ((f e.1.1, g e.1.2), e.2)) r v = rowSum es i fun c => v (g c) := by
  unfold rowSum
  rw [List.filter_map, List.map_map]
  congr 1
  have : es.filter ((fun e : (ℕ × ℕ) × ℝ => decide (e.1.1 = r)) ∘
      fun e => ((f e.1.1, g e.1.2), e.2)) = es.filter fun e => decide (e.1.1 = i) :=
    List.filter_congr fun e he => by simpa using h e he
  rw [this]
  rfl

theorem _root_.Softy.PointConstraint.rowSum_congr {es : List ((ℕ × ℕ) × ℝ)} {r : ℕ} {v w : ℕ → ℝ}
    (h : ∀ e ∈ es, v e.1.2 = w e.1.2) : rowSum es r v = rowSum es r w := by
  unfold rowSum
  congr 1
  refine List.map_congr_left fun e he => ?_
  rw [h e (List.mem_filter.1 he).1]

/-- Specification: the vertices of the samples around collider vertices are vertices of the object. -/
def Inside : Prop := ∀ view ∈ C.surf.cache.trivial, ∀ i ∈ view,
  (C.surf.tris i).a < C.surf.numVertices ∧ (C.surf.tris i).b < C.surf.numVertices ∧
    (C.surf.tris i).c < C.surf.numVertices

theorem surface_places (hC : C.surf.sampleType = .face) : ∀ p ∈ C.surf.surfaceIndices,
    p.1 ∈ C.touched ∧ (C.Inside → p.2 < C.surf.numVertices * 3) := by
  intro p hp
  unfold Query.surfaceIndices Query.surfaceBlockIndices Query.surfaceNbrs Query.surfaceCols at hp
  rw [hC] at hp
  simp only [List.mem_flatMap, List.mem_map, List.mem_filter, List.mem_range] at hp
  obtain ⟨b, ⟨⟨view, j⟩, ⟨hz, hne⟩, c, hc, rfl⟩, k, hk, rfl⟩ := hp
  have hv := List.mem_zipIdx_iff_getElem?.1 hz
  refine ⟨mem_touched.2 ?_, fun hin => ?_⟩
  · rw [List.getD_eq_getElem?_getD]
    dsimp only at hv hne ⊢
    rw [hv]
    intro e
    simp only [Option.getD_some] at e
    subst e
    simp at hne
  · have hm : view ∈ C.surf.cache.trivial := List.mem_of_getElem? hv
    unfold faceJacobianCols at hc
    obtain ⟨s, hs, hc⟩ := List.mem_flatMap.1 hc
    obtain ⟨h1, h2, h3⟩ := hin view hm s hs
    have : c < C.surf.numVertices := by
      simp only [List.mem_map] at hc
      obtain ⟨f, -, rfl⟩ := hc
      unfold Tri.get
      split <;> assumption
    dsimp only
    omega

theorem query_places : ∀ p ∈ C.surf.queryIndices, p.1 ∈ C.touched := by
  intro p hp
  unfold Query.queryIndices Query.queryBlockIndices at hp
  simp only [List.mem_flatMap, List.mem_map, List.mem_filter, List.mem_range] at hp
  obtain ⟨b, ⟨⟨view, j⟩, ⟨hz, hne⟩, rfl⟩, k, hk, rfl⟩ := hp
  have hv := List.mem_zipIdx_iff_getElem?.1 hz
  refine mem_touched.2 ?_
  rw [List.getD_eq_getElem?_getD]
  dsimp only at hv hne ⊢
  rw [hv]
  intro e
  simp only [Option.getD_some] at e
  subst e
  simp at hne

/-- No row of the Jacobian is without a number. -/
theorem jacobianIndices_some (hC : C.surf.sampleType = .face) :
    C.jacobianIndices = some (C.jacobianPlaces.map fun p => (rank C.surf.cache.trivial p.1, p.2)) := by
  have hall : ∀ p ∈ C.jacobianPlaces, C.number p.1 = some (rank C.surf.cache.trivial p.1) := by
    intro p hp
    have ht : p.1 ∈ C.touched := by
      unfold jacobianPlaces at hp
      rw [List.mem_append, List.mem_map] at hp
      rcases hp with hp | ⟨p', hp, rfl⟩
      · split at hp
        · cases hp
        · exact (C.surface_places hC p hp).1
      · split at hp
        · cases hp
        · exact C.query_places p' hp
    rw [C.number_eq hC, if_neg]
    rw [List.isEmpty_iff]
    exact mem_touched.1 ht
  unfold jacobianIndices
  rw [if_pos (List.all_eq_true.2 fun p hp => by rw [hall p hp]; rfl)]
  congr 1
  refine List.map_congr_left fun p hp => ?_
  rw [hall p hp]
  rfl

/-- The values of the object and of the collider. -/
theorem jacobianValues_some (hC : C.Ready) (x : ℕ → V3 ℝ) {y : List (V3 ℝ)} {out : List ℝ}
    (hy : y.length = C.surf.cache.trivial.length) (ho : out.length = C.jacobianSize) :
    C.jacobianValues x y out = some
      ((if C.objectFixed then [] else (C.update x y).surf.surfaceValues y) ++
        if C.colliderFixed then [] else (C.update x y).surf.queryValues y) := by
  have hn : (C.update x y).surf.surfaceNbrs = C.surf.cache.trivial := by
    unfold Query.surfaceNbrs
    rw [show (C.update x y).surf.sampleType = .face from hC.face]
    rfl
  have hsz : out.length = (if C.objectFixed then 0 else (C.update x y).surf.numSurfaceEntries) +
      if C.colliderFixed then 0 else (C.update x y).surf.numQueryEntries := ho
  unfold jacobianValues
  dsimp only
  rw [show (C.update x y).objectFixed = C.objectFixed from rfl,
    show (C.update x y).colliderFixed = C.colliderFixed from rfl,
    show (C.update x y).collider = y from rfl, if_neg (by omega)]
  have h1 : (if C.objectFixed = true then some (out.take (if C.objectFixed = true then 0 else
      (C.update x y).surf.numSurfaceEntries)) else (C.update x y).surf.surfaceFillValues y
        (out.take (if C.objectFixed = true then 0 else (C.update x y).surf.numSurfaceEntries))) =
      some (if C.objectFixed then [] else (C.update x y).surf.surfaceValues y) := by
    cases hf : C.objectFixed with
    | true => simp
    | false =>
      simp only [Bool.false_eq_true, if_false]
      refine (C.update x y).surf.surface_fill y _ (by rw [hn, hy]) ?_
      rw [List.length_take]
      simp only [hf, Bool.false_eq_true, if_false] at hsz
      omega
  have h2 : (if C.colliderFixed = true then some (out.drop (if C.objectFixed = true then 0 else
      (C.update x y).surf.numSurfaceEntries)) else (C.update x y).surf.queryFillValues y
        (out.drop (if C.objectFixed = true then 0 else (C.update x y).surf.numSurfaceEntries))) =
      some (if C.colliderFixed then [] else (C.update x y).surf.queryValues y) := by
    cases hf : C.colliderFixed with
    | true =>
      simp only [if_true]
      rw [List.drop_eq_nil_of_le]
      rw [hf] at hsz
      simp only [if_true] at hsz
      omega
    | false =>
      simp only [Bool.false_eq_true, if_false]
      refine (C.update x y).surf.query_fill y _ hC.complete hy ?_
      rw [List.length_drop]
      simp only [hf, Bool.false_eq_true, if_false] at hsz
      omega
  rw [h1, Option.bind_some, h2, Option.map_some]

/-- Entries of the Jacobian. -/
def entries (x : ℕ → V3 ℝ) (y : List (V3 ℝ)) : List ((ℕ × ℕ) × ℝ) :=
  ((if C.objectFixed then [] else C.surf.surfaceIndices).zip
    (if C.objectFixed then [] else (C.update x y).surf.surfaceValues y)).map (fun e =>
      ((rank C.surf.cache.trivial e.1.1, e.1.2), e.2)) ++
  ((if C.colliderFixed then [] else C.surf.queryIndices).zip
    (if C.colliderFixed then [] else (C.update x y).surf.queryValues y)).map fun e =>
      ((rank C.surf.cache.trivial e.1.1, e.1.2 + C.surf.numVertices * 3), e.2)

theorem surface_lengths' (hC : C.Ready) (x : ℕ → V3 ℝ) {y : List (V3 ℝ)}
    (hy : y.length = C.surf.cache.trivial.length) :
    C.surf.surfaceIndices.length = C.surf.numSurfaceEntries ∧
      ((C.update x y).surf.surfaceValues y).length = C.surf.numSurfaceEntries := by
  have hn : (C.update x y).surf.surfaceNbrs = C.surf.cache.trivial := by
    unfold Query.surfaceNbrs
    rw [show (C.update x y).surf.sampleType = .face from hC.face]
    rfl
  exact (C.update x y).surf.surface_lengths y (by rw [hn, hy])

/-- C119: the Jacobian has the number of entries that the constraint says, no row is without a number,
and filling an output stores all of them. -/
theorem jacobian_entries (hC : C.Ready) (x : ℕ → V3 ℝ) {y : List (V3 ℝ)} {out : List ℝ}
    (hy : y.length = C.surf.cache.trivial.length) (ho : out.length = C.jacobianSize) :
    ∃ idx vals, C.jacobianIndices = some idx ∧ C.jacobianValues x y out = some vals ∧
      idx.length = C.jacobianSize ∧ vals.length = C.jacobianSize ∧ idx.zip vals = C.entries x y := by
  refine ⟨_, _, C.jacobianIndices_some hC.face, C.jacobianValues_some hC x hy ho, ?_, ?_, ?_⟩
  · unfold jacobianPlaces jacobianSize
    rw [List.length_map, List.length_append, List.length_map]
    have h1 := (C.surface_lengths' hC x hy).1
    have h2 := (C.surf.query_lengths y hC.complete hy).1
    split <;> split <;> simp [h1, h2]
  · unfold jacobianSize
    rw [List.length_append]
    have h1 := (C.surface_lengths' hC x hy).2
    have h2 : ((C.update x y).surf.queryValues y).length = C.surf.numQueryEntries :=
      ((C.update x y).surf.query_lengths y hC.complete hy).2
    split <;> split <;> simp [h1, h2]
  · unfold jacobianPlaces entries
    rw [List.map_append, List.map_map, List.zip_append, List.zip_map_left, List.zip_map_left]
    · rfl
    · rw [List.length_map]
      have h1 := C.surface_lengths' hC x hy
      split
      · rfl
      · rw [h1.1, h1.2]

theorem rank_inj {i j : ℕ} (hi : i ∈ C.touched) (hj : j ∈ C.touched) :
    rank C.surf.cache.trivial i = rank C.surf.cache.trivial j ↔ i = j := by
  refine ⟨fun h => ?_, fun h => by rw [h]⟩
  have h1 := touched_rank hi
  have h2 := touched_rank hj
  rw [h, h2] at h1
  exact (Option.some.inj h1).symm

/-- A row of the Jacobian. -/
theorem entries_row (hC : C.Ready) (hin : C.Inside) (x : ℕ → V3 ℝ) {y : List (V3 ℝ)}
    (hy : y.length = C.surf.cache.trivial.length) {i : ℕ} (hi : i ∈ C.touched) (u w : ℕ → V3 ℝ) :
    rowSum (C.entries x y) (rank C.surf.cache.trivial i) (flat (stack C.surf.numVertices u w)) =
      (if C.objectFixed then 0 else applyBlocks ((faceJacobianAt (y.getD i 0)
        (C.surf.cache.trivial.getD i []) (faceSamples C.surf.tris x C.value) C.surf.kernel C.surf.tris x
        Contact.params).getD []) (faceJacobianCols (C.surf.cache.trivial.getD i []) C.surf.tris) u) +
      if C.colliderFixed then 0 else V3.dot ((queryJacobianAt (y.getD i 0)
        (C.surf.cache.trivial.getD i []) (faceSamples C.surf.tris x C.value)
        (some (C.surf.cache.closest.getD i 0)) C.surf.kernel Contact.params).getD 0) (w i) := by
  have hne := mem_touched.1 hi
  have hil : i < C.surf.cache.trivial.length := by
    by_contra hn
    exact hne (List.getD_eq_default _ _ (by omega))
  have hT : C.surf.cache.trivial[i]? = some (C.surf.cache.trivial.getD i []) := by
    rw [List.getD_eq_getElem _ _ hil]
    exact List.getElem?_eq_getElem _
  have hY : y[i]? = some (y.getD i 0) := by
    rw [List.getD_eq_getElem _ _ (by omega)]
    exact List.getElem?_eq_getElem _
  have hn : (C.update x y).surf.surfaceNbrs = C.surf.cache.trivial := by
    unfold Query.surfaceNbrs
    rw [show (C.update x y).surf.sampleType = .face from hC.face]
    rfl
  unfold entries
  rw [rowSum_append]
  congr 1
  · cases hf : C.objectFixed with
    | true => simp [rowSum]
    | false =>
      simp only [Bool.false_eq_true, if_false]
      rw [rowSum_renumber _ _ (fun c => c) (i := i)]
      · rw [rowSum_congr (w := flat u)]
        · have := (C.update x y).surf.surface_row y (by rw [hn, hy]) u i _ _ hY (by rw [hn]; exact hT)
          refine Eq.trans this ?_
          rw [if_neg (by rw [List.isEmpty_iff]; exact hne)]
          unfold Query.surfaceAt Query.surfaceCols
          rw [show (C.update x y).surf.sampleType = .face from hC.face]
          dsimp only
          rw [show (C.update x y).surf.params = Contact.params from hC.params]
          rfl
        · intro e he
          exact flat_stack_left _ _ _ ((C.surface_places hC.face e.1 (List.of_mem_zip he).1).2 hin)
      · intro e he
        exact C.rank_inj (C.surface_places hC.face e.1 (List.of_mem_zip he).1).1 hi
  · cases hf : C.colliderFixed with
    | true => simp [rowSum]
    | false =>
      simp only [Bool.false_eq_true, if_false]
      rw [rowSum_renumber _ _ (fun c => c + C.surf.numVertices * 3) (i := i)]
      · simp only [flat_stack_right]
        have := (C.update x y).surf.query_row y w hC.complete i _ _ hY hT
        refine Eq.trans this ?_
        rw [if_neg (by rw [List.isEmpty_iff]; exact hne)]
        unfold Query.jacobianAt
        rw [show (C.update x y).surf.params = Contact.params from hC.params]
        rfl
      · intro e he
        exact C.rank_inj (C.query_places e.1 (List.of_mem_zip he).1) hi

/-- Specification: the configurations where the potential at collider vertex `i` has derivatives. -/
def RegularAt (x : ℕ → V3 ℝ) (y : List (V3 ℝ)) (i : ℕ) : Prop :=
  ∃ c, Regular C.surf.kernel Contact.params (y.getD i 0) (C.surf.cache.trivial.getD i [])
    (faceSamples C.surf.tris x C.value) c

/-- C119: the Jacobian: as the vertices of the object and of the collider move, except that those of a
fixed one do not, value `r` of the constraint changes as row `r` says. -/
theorem jacobian_derivative (hC : C.Ready) (hin : C.Inside) (x : ℝ → ℕ → V3 ℝ) (y : ℝ → List (V3 ℝ))
    (x' y' : ℕ → V3 ℝ) (t : ℝ) (hx : ∀ v, HasD (fun s => x s v) (x' v) t)
    (hy : ∀ i, HasD (fun s => (y s).getD i 0) (y' i) t)
    (hlen : ∀ s, (y s).length = C.surf.cache.trivial.length)
    (hfo : C.objectFixed = true → ∀ v, x' v = 0) (hfc : C.colliderFixed = true → ∀ i, y' i = 0)
    (hreg : ∀ i ∈ C.touched, C.RegularAt (x t) (y t) i)
    {value jac : List ℝ} (hv : value.length = C.size) (hj : jac.length = C.jacobianSize) :
    ∃ idx vals, C.jacobianIndices = some idx ∧ C.jacobianValues (x t) (y t) jac = some vals ∧
      ∀ r < C.size, HasDerivAt
        (fun s => (((C.constraint (x s) (y s) value).map Prod.snd).getD []).getD r 0)
        (rowSum (idx.zip vals) r (flat (stack C.surf.numVertices x' y'))) t := by
  obtain ⟨idx, vals, h1, h2, -, -, h5⟩ := C.jacobian_entries hC (x t) (hlen t) hj
  refine ⟨idx, vals, h1, h2, fun r hr => ?_⟩
  rw [← touched_length] at hr
  have hget : C.touched[r]? = some C.touched[r] := List.getElem?_eq_getElem hr
  set i := C.touched[r] with hi_def
  have hi : i ∈ C.touched := List.getElem_mem hr
  have hval : ∀ s, (((C.constraint (x s) (y s) value).map Prod.snd).getD []).getD r 0 =
      C.distance (x s) (y s) i := by
    intro s
    obtain ⟨C', hc, -⟩ := C.constraint_values hC (x s) (hlen s) hv
    rw [hc, Option.map_some, Option.getD_some, List.getD_eq_getElem?_getD, List.getElem?_map, hget]
    rfl
  simp only [hval]
  rw [h5, ← rank_of_touched hget, C.entries_row hC hin (x t) (hlen t) hi]
  obtain ⟨c, hc⟩ := hreg i hi
  obtain ⟨G, J, hG, hJ, -, hd⟩ := Contact.face_joint (old := 0) (fun s => (y s).getD i 0) (y' i)
    C.surf.tris C.value x x' (some (C.surf.cache.closest.getD i 0)) (hy i) hx hc
  refine hd.congr_deriv ?_
  rw [hG, hJ, Option.getD_some, Option.getD_some, add_comm]
  congr 1
  · cases hf : C.objectFixed with
    | true => 
      rw [if_pos rfl, show x' = fun _ => 0 from funext (hfo hf), applyBlocks_zero]
    | false => simp
  · cases hf : C.colliderFixed with
    | true => rw [if_pos rfl, hfc hf i, dot_zero_right]
    | false => simp

end Constraint

end Softy.PointConstraint
