import Verif.Props.PointConstraint
import Verif.Props.FieldMeshWitness

/-!
# C119: the Hessian of a contact constraint, and where the constraint is not as documented
-/

noncomputable section

namespace Softy.PointConstraint

open Softy Softy.Kernel Softy.Field Softy.SurfaceQuery

/-! ## Sums over rows -/

theorem sum_single (m : ℕ) (a : ℕ → ℝ) {k : ℕ} (hk : k < m) (c : ℝ) :
    ((List.range m).map fun r => a r * if k = r then c else 0).sum = a k * c := by
  induction m with
  | zero => omega
  | succ m ih =>
    rw [List.range_succ, List.map_append, List.sum_append]
    by_cases h : k = m
    · subst h
      have : ((List.range k).map fun r => a r * if k = r then c else 0).sum = 0 := by
        refine List.sum_eq_zero fun z hz => ?_
        obtain ⟨r, hr, rfl⟩ := List.mem_map.1 hz
        rw [List.mem_range] at hr
        rw [if_neg (by omega), mul_zero]
      rw [this]
      simp
    · rw [ih (by omega)]
      simp [h]

/-- Adding rows with factors is adding entries with the factors of their rows. -/
theorem sum_rows (m : ℕ) (a : ℕ → ℝ) (v : ℕ → ℝ) : ∀ (es : List ((ℕ × ℕ) × ℝ)),
    (∀ e ∈ es, e.1.1 < m) → ((List.range m).map fun r => a r * rowSum es r v).sum =
      (es.map fun e => a e.1.1 * (e.2 * v e.1.2)).sum
  | [], _ => by simp [rowSum]
  | e :: es, h => by
    have ih := sum_rows m a v es fun e he => h e (List.mem_cons_of_mem _ he)
    have hs : ∀ r, rowSum (e :: es) r v = (if e.1.1 = r then e.2 * v e.1.2 else 0) + rowSum es r v := by
      intro r
      unfold rowSum
      rw [List.filter_cons]
      by_cases hr : e.1.1 = r <;> simp [hr]
    simp only [hs, mul_add]
    rw [List.sum_map_add, ih, sum_single m a (h e List.mem_cons_self), List.map_cons, List.sum_cons]

theorem symForm_append (a b : List ((ℕ × ℕ) × ℝ)) (u w : ℕ → ℝ) :
    symForm (a ++ b) u w = symForm a u w + symForm b u w := by
  unfold symForm
  rw [List.map_append, List.sum_append]

theorem symForm_scale (idx : List (ℕ × ℕ)) (vals : List ℝ) (scale : ℝ) (u w : ℕ → ℝ) :
    symForm (idx.zip (vals.map fun v => v * scale)) u w = scale * symForm (idx.zip vals) u w := by
  unfold symForm
  rw [List.zip_map_right, List.map_map, ← List.sum_map_mul_left]
  congr 1
  refine List.map_congr_left fun e _ => ?_
  simp only [Function.comp, Prod.map, id]
  split <;> ring

theorem symForm_congr {es : List ((ℕ × ℕ) × ℝ)} {u w u' w' : ℕ → ℝ}
    (h : ∀ e ∈ es, (u e.1.1 = u' e.1.1 ∧ u e.1.2 = u' e.1.2) ∧ w e.1.1 = w' e.1.1 ∧ w e.1.2 = w' e.1.2) :
    symForm es u w = symForm es u' w' := by
  unfold symForm
  congr 1
  refine List.map_congr_left fun e he => ?_
  obtain ⟨⟨h1, h2⟩, h3, h4⟩ := h e he
  rw [h1, h2, h3, h4]

theorem symForm_shift (idx : List (ℕ × ℕ)) (vals : List ℝ) (d : ℕ) (u w : ℕ → ℝ) :
    symForm ((idx.map fun p => (p.1 + d, p.2 + d)).zip vals) u w =
      symForm (idx.zip vals) (fun c => u (c + d)) fun c => w (c + d) := by
  unfold symForm
  rw [List.zip_map_left, List.map_map]
  congr 1
  refine List.map_congr_left fun e _ => ?_
  simp only [Function.comp, Prod.map, id, Nat.add_right_cancel_iff]

/-! ## Places of the Hessian -/

theorem offDiagonal_mem {view : List ℕ} {p : ℕ × ℕ} (h : p ∈ offDiagonal view) :
    p.1 ∈ view ∧ p.2 ∈ view := by
  unfold offDiagonal at h
  obtain ⟨i, hi, h⟩ := List.mem_flatMap.1 h
  obtain ⟨j, hj, rfl⟩ := List.mem_map.1 h
  exact ⟨(List.mem_filter.1 hj).1, hi⟩

theorem get_lt {T : Tri} {n : ℕ} (h : T.a < n ∧ T.b < n ∧ T.c < n) (i : Fin 3) : T.get i < n := by
  obtain ⟨h1, h2, h3⟩ := h
  unfold Tri.get
  split <;> assumption

theorem samplesToVertices_lt {tris : ℕ → Tri} {n row col : ℕ}
    (hr : (tris row).a < n ∧ (tris row).b < n ∧ (tris row).c < n)
    (hc : (tris col).a < n ∧ (tris col).b < n ∧ (tris col).c < n) {p : ℕ × ℕ}
    (h : p ∈ samplesToVerticesIndices tris row col) : p.1 < n ∧ p.2 < n := by
  unfold samplesToVerticesIndices at h
  obtain ⟨i, -, h⟩ := List.mem_flatMap.1 h
  obtain ⟨j, -, rfl⟩ := List.mem_map.1 h
  exact ⟨get_lt hr i, get_lt hc j⟩

theorem ordered_lt {r c n : ℕ} (hr : r < n) (hc : c < n) :
    (orderedIndices r c).1 < n ∧ (orderedIndices r c).2 < n := by
  unfold orderedIndices
  split <;> exact ⟨by assumption, by assumption⟩

theorem faceHessian_lt {tris : ℕ → Tri} {n : ℕ} {view : List ℕ} {weighted : Bool}
    (hv : ∀ i ∈ view, (tris i).a < n ∧ (tris i).b < n ∧ (tris i).c < n) :
    ∀ p ∈ faceHessianIndices view tris weighted, p.1 < n ∧ p.2 < n := by
  intro p hp
  unfold faceHessianIndices at hp
  simp only [List.mem_append, List.mem_flatMap] at hp
  rcases hp with ((⟨s, hs, hp⟩ | ⟨s, hs, hp⟩) | ⟨s, hs, hp⟩)
  · exact samplesToVertices_lt (hv s hs) (hv s hs) hp
  · rcases hp with ⟨i, -, hp⟩ | ⟨s', hs', j, -, hp⟩
    · obtain ⟨j, -, rfl⟩ := List.mem_map.1 hp
      exact ordered_lt (get_lt (hv s hs) i) (get_lt (hv s hs) j)
    · obtain ⟨i, -, rfl⟩ := List.mem_map.1 hp
      exact ordered_lt (get_lt (hv s' hs') j) (get_lt (hv s hs) i)
  · have hm : s.1 ∈ view ∧ s.2 ∈ view := by
      unfold sampleHessianIndices bgHessianIndices at hs
      simp only [List.mem_append, List.mem_map] at hs
      rcases hs with (⟨i, hi, rfl⟩ | hs) | (⟨i, hi, rfl⟩ | hs)
      · exact ⟨hi, hi⟩
      · exact offDiagonal_mem hs
      · exact ⟨hi, hi⟩
      · split at hs
        · exact offDiagonal_mem hs
        · cases hs
    rcases hp with hp | hp
    · exact samplesToVertices_lt (hv _ hm.1) (hv _ hm.2) hp
    · split at hp
      · exact samplesToVertices_lt (hv _ hm.2) (hv _ hm.1) hp
      · cases hp

namespace Constraint

variable (C : Constraint)

theorem surfaceHessian_places (hin : C.Inside) {idx : List (ℕ × ℕ)}
    (h : C.surf.surfaceHessianIndices = some idx) :
    ∀ p ∈ idx, p.1 < C.surf.numVertices * 3 ∧ p.2 < C.surf.numVertices * 3 := by
  unfold Query.surfaceHessianIndices Query.surfaceHessianBlockIndices at h
  cases hS : C.surf.sampleType with
  | vertex => rw [hS] at h; cases h
  | face =>
    rw [hS] at h
    dsimp only at h
    rw [Option.map_some, Option.some.injEq] at h
    subst h
    intro p hp
    obtain ⟨b, hb, hp⟩ := List.mem_flatMap.1 (List.mem_filter.1 hp).1
    obtain ⟨view, hview, hb⟩ := List.mem_flatMap.1 hb
    obtain ⟨h1, h2⟩ := faceHessian_lt (hin view hview) b hb
    obtain ⟨q, hq, rfl⟩ := List.mem_map.1 hp
    unfold Query.allIndices at hq
    simp only [List.mem_flatMap, List.mem_map, List.mem_range] at hq
    obtain ⟨r, hr, c, hc, rfl⟩ := hq
    dsimp only
    omega

/-- The form of the Hessian: that of the object and that of the collider, each of them on its own. -/
theorem hessian_form (hC : C.Ready) (hin : C.Inside) (x : ℕ → V3 ℝ) {y : List (V3 ℝ)}
    (hy : y.length = C.surf.cache.trivial.length) {lam : List ℝ} (hl : lam.length = C.size) (scale : ℝ)
    {out : List ℝ} (ho : out.length = C.hessianSize) :
    ∃ idx vals si sv, C.hessianIndices = some idx ∧
      C.hessianValues x y lam scale out = some vals ∧
      idx.length = C.hessianSize ∧ vals.length = C.hessianSize ∧ (∀ p ∈ idx, p.2 ≤ p.1) ∧
      (C.update x y).surf.surfaceHessianIndices = some si ∧
      (C.update x y).surf.surfaceHessianValues y lam = some sv ∧
      ∀ u w u' w' : ℕ → V3 ℝ, symForm (idx.zip vals) (flat (stack C.surf.numVertices u w))
          (flat (stack C.surf.numVertices u' w')) =
        scale * ((if C.objectFixed then 0 else symForm (si.zip sv) (flat u) (flat u')) +
          if C.colliderFixed then 0 else symForm ((C.update x y).surf.queryHessianIndices.zip
            ((C.update x y).surf.queryHessianValues y lam)) (flat w) (flat w')) := by
  obtain ⟨n, si, sv, h1, h2, h3, h4, h5, h6, -, h8⟩ := (C.update x y).surf.surface_hessian_lengths
    hC.face y lam hy.ge hl.ge
  obtain ⟨q1, q2, q3⟩ := (C.update x y).surf.query_hessian_lengths y lam hy.ge hl.ge
  have hnum : C.surf.numSurfaceHessianEntries.getD 0 = n := by
    rw [show C.surf.numSurfaceHessianEntries = some n from h1]
    rfl
  have hsz : out.length = (if C.objectFixed then 0 else n) +
      if C.colliderFixed then 0 else C.surf.numQueryHessianEntries := by
    rw [ho]
    unfold hessianSize
    rw [hnum]
  set A : List (ℕ × ℕ) := if C.objectFixed then [] else si with hA
  set B : List (ℕ × ℕ) := if C.colliderFixed then [] else C.surf.queryHessianIndices with hB
  set a : List ℝ := if C.objectFixed then [] else sv.map fun v => v * scale with ha
  set b : List ℝ := if C.colliderFixed then [] else
    ((C.update x y).surf.queryHessianValues y lam).map fun v => v * scale with hb
  have hi : C.hessianIndices = some (A ++ B.map fun p =>
      (p.1 + C.surf.numVertices * 3, p.2 + C.surf.numVertices * 3)) := by
    unfold hessianIndices
    rw [show C.surf.surfaceHessianIndices = some si from h2, hA, hB]
    cases C.objectFixed <;> rfl
  have hv : C.hessianValues x y lam scale out = some (a ++ b) := by
    unfold hessianValues
    dsimp only
    rw [show (C.update x y).objectFixed = C.objectFixed from rfl,
      show (C.update x y).colliderFixed = C.colliderFixed from rfl,
      show (C.update x y).collider = y from rfl,
      show (C.update x y).surf.numSurfaceHessianEntries.getD 0 = n from hnum, if_neg (by omega)]
    have e1 : (if C.objectFixed = true then some (out.take (if C.objectFixed = true then 0 else n))
        else (C.update x y).surf.surfaceHessianFill y lam scale
          (out.take (if C.objectFixed = true then 0 else n))) = some a := by
      rw [ha]
      cases hf : C.objectFixed with
      | true => simp
      | false =>
        simp only [Bool.false_eq_true, if_false]
        refine h8 scale _ ?_
        rw [List.length_take]
        simp only [hf, Bool.false_eq_true, if_false] at hsz
        omega
    have e2 : (if C.colliderFixed = true then out.drop (if C.objectFixed = true then 0 else n)
        else (C.update x y).surf.queryHessianFill y lam scale
          (out.drop (if C.objectFixed = true then 0 else n))) = b := by
      rw [hb]
      cases hf : C.colliderFixed with
      | true =>
        simp only [if_true]
        rw [List.drop_eq_nil_of_le]
        rw [hf] at hsz
        simp only [if_true] at hsz
        omega
      | false =>
        simp only [Bool.false_eq_true, if_false]
        refine q3 scale _ ?_
        rw [List.length_drop]
        simp only [hf, Bool.false_eq_true, if_false] at hsz
        show _ = C.surf.numQueryHessianEntries
        omega
    rw [e1, Option.map_some, e2]
  have hla : A.length = a.length := by
    rw [hA, ha]
    cases C.objectFixed <;> simp [h4, h5]
  have hlA : A.length = if C.objectFixed then 0 else n := by
    rw [hA]
    cases C.objectFixed <;> simp [h4]
  have q1' : C.surf.queryHessianIndices.length = C.surf.numQueryHessianEntries := q1
  have q2' : ((C.update x y).surf.queryHessianValues y lam).length = C.surf.numQueryHessianEntries := q2
  have hlB : B.length = if C.colliderFixed then 0 else C.surf.numQueryHessianEntries := by
    rw [hB]
    cases C.colliderFixed <;> simp [q1']
  have hlb : b.length = B.length := by
    rw [hB, hb]
    cases C.colliderFixed <;> simp [q1', q2']
  refine ⟨_, _, si, sv, hi, hv, ?_, ?_, ?_, h2, h3, fun u w u' w' => ?_⟩
  · rw [List.length_append, List.length_map, hlA, hlB]
    unfold hessianSize
    rw [hnum]
  · rw [List.length_append, ← hla, hlb, hlA, hlB]
    unfold hessianSize
    rw [hnum]
  · intro p hp
    rcases List.mem_append.1 hp with hp | hp
    · rw [hA] at hp
      split at hp
      · cases hp
      · exact h6 p hp
    · obtain ⟨p', hp', rfl⟩ := List.mem_map.1 hp
      rw [hB] at hp'
      split at hp'
      · cases hp'
      · unfold Query.queryHessianIndices Query.lowerIndices at hp'
        simp only [List.mem_flatMap, List.mem_map, List.mem_range] at hp'
        obtain ⟨i, -, q, ⟨r, -, c, hc, rfl⟩, rfl⟩ := hp'
        dsimp only
        omega
  · rw [List.zip_append hla, symForm_append, symForm_shift, mul_add]
    congr 1
    · rw [hA, ha]
      cases C.objectFixed with
      | true => simp [symForm]
      | false =>
        simp only [Bool.false_eq_true, if_false]
        rw [symForm_scale]
        congr 1
        refine symForm_congr fun e he => ?_
        have := C.surfaceHessian_places hin h2 e.1 (List.of_mem_zip he).1
        exact ⟨⟨flat_stack_left _ _ _ this.1, flat_stack_left _ _ _ this.2⟩,
          flat_stack_left _ _ _ this.1, flat_stack_left _ _ _ this.2⟩
    · rw [hB, hb]
      cases C.colliderFixed with
      | true => simp [symForm]
      | false =>
        simp only [Bool.false_eq_true, if_false, flat_stack_right]
        rw [symForm_scale]
        rfl

/-- Specification: the configurations where the potential at collider vertex `i` has second
derivatives. -/
def SmoothAt (x : ℕ → V3 ℝ) (y : List (V3 ℝ)) (i : ℕ) : Prop :=
  ∃ c, Smooth C.surf.kernel Contact.params (y.getD i 0) (C.surf.cache.trivial.getD i [])
    (faceSamples C.surf.tris x C.value) c

/-- Specification: the Jacobian as entries, at some positions. -/
def IsJacobian (x : ℕ → V3 ℝ) (y : List (V3 ℝ)) (es : List ((ℕ × ℕ) × ℝ)) : Prop :=
  ∃ idx vals, C.jacobianIndices = some idx ∧
    C.jacobianValues x y (List.replicate C.jacobianSize 0) = some vals ∧ es = idx.zip vals

theorem isJacobian_entries (hC : C.Ready) (x : ℕ → V3 ℝ) {y : List (V3 ℝ)}
    (hy : y.length = C.surf.cache.trivial.length) : C.IsJacobian x y (C.entries x y) := by
  obtain ⟨idx, vals, h1, h2, -, -, h5⟩ := C.jacobian_entries (out := List.replicate C.jacobianSize 0)
    hC x hy (by simp)
  exact ⟨idx, vals, h1, h2, h5.symm⟩

theorem isJacobian_unique {x : ℕ → V3 ℝ} {y : List (V3 ℝ)} {es es' : List ((ℕ × ℕ) × ℝ)}
    (h : C.IsJacobian x y es) (h' : C.IsJacobian x y es') : es = es' := by
  obtain ⟨i, v, h1, h2, rfl⟩ := h
  obtain ⟨i', v', h1', h2', rfl⟩ := h'
  rw [h1] at h1'
  rw [h2] at h2'
  cases h1'
  cases h2'
  rfl

/-- Rows of the constraint times multipliers are rows of the query points times their multipliers. -/
theorem multiplied_rows (hC : C.Ready) (x : ℕ → V3 ℝ) {y : List (V3 ℝ)} (lam : List ℝ) (v : ℕ → ℝ)
    {es : List ((ℕ × ℕ) × ℝ)} (g : ℕ → ℕ) (hes : ∀ e ∈ es, e.1.1 ∈ C.touched) :
    ((List.range C.size).map fun r => lam.getD r 0 *
      rowSum (es.map fun e => ((rank C.surf.cache.trivial e.1.1, g e.1.2), e.2)) r v).sum =
    ((List.range C.surf.cache.trivial.length).map fun i =>
      (spread C.surf.cache.trivial lam).getD i 0 * rowSum es i fun c => v (g c)).sum := by
  rw [sum_rows, sum_rows, List.map_map]
  · congr 1
    refine List.map_congr_left fun e he => ?_
    simp only [Function.comp]
    rw [spread_rank _ _ _ (mem_touched.1 (hes e he))]
  · intro e he
    have := mem_touched.1 (hes e he)
    by_contra hn
    exact this (List.getD_eq_default _ _ (by omega))
  · intro e he
    obtain ⟨e', he', rfl⟩ := List.mem_map.1 he
    have := touched_rank (hes e' he')
    rw [← touched_length]
    exact (List.getElem?_eq_some_iff.1 this).1

/-- C119 for second derivatives where the object or the collider is fixed: as the vertices move, the
rows of the Jacobian times the multipliers change as the lower triangle of the Hessian says.
Missing: the full property is about objects and colliders that both move; see `hessian_violated`. -/
theorem hessian_derivative_partial (hC : C.Ready) (hin : C.Inside) (x : ℝ → ℕ → V3 ℝ)
    (y : ℝ → List (V3 ℝ)) (x' y' u w : ℕ → V3 ℝ) (t : ℝ) (hx : ∀ v, HasD (fun s => x s v) (x' v) t)
    (hy : ∀ i, HasD (fun s => (y s).getD i 0) (y' i) t)
    (hlen : ∀ s, (y s).length = C.surf.cache.trivial.length)
    (hfix : C.objectFixed = true ∧ (∀ s, x s = x t) ∨ C.colliderFixed = true ∧ (∀ s, y s = y t))
    (hreg : ∀ i ∈ C.touched, C.SmoothAt (x t) (y t) i)
    {lam out : List ℝ} (hl : lam.length = C.size) (scale : ℝ) (ho : out.length = C.hessianSize)
    (es : ℝ → List ((ℕ × ℕ) × ℝ)) (hes : ∀ s, C.IsJacobian (x s) (y s) (es s)) :
    ∃ idx vals, C.hessianIndices = some idx ∧ C.hessianValues (x t) (y t) lam scale out = some vals ∧
      HasDerivAt (fun s => scale * ((List.range C.size).map fun r => lam.getD r 0 *
        rowSum (es s) r (flat (stack C.surf.numVertices u w))).sum)
      (symForm (idx.zip vals) (flat (stack C.surf.numVertices u w))
        (flat (stack C.surf.numVertices x' y'))) t := by
  obtain ⟨idx, vals, si, sv, h1, h2, -, -, -, h6, h7, h8⟩ := C.hessian_form hC hin (x t) (hlen t) hl
    scale ho
  refine ⟨idx, vals, h1, h2, ?_⟩
  rw [h8]
  have hes' : ∀ s, es s = C.entries (x s) (y s) := fun s =>
    C.isJacobian_unique (hes s) (C.isJacobian_entries hC (x s) (hlen s))
  simp only [hes']
  refine HasDerivAt.const_mul scale ?_
  have htouch : ∀ i < C.surf.cache.trivial.length, C.surf.cache.trivial.getD i [] ≠ [] →
      i ∈ C.touched := fun i _ h => mem_touched.2 h
  rcases hfix with ⟨hf, hx0⟩ | ⟨hf, hy0⟩
  · cases hg : C.colliderFixed with
    | true =>
      simp only [hf, entries, hg, if_true, List.zip_nil_left, List.map_nil, List.append_nil, add_zero]
      simpa [rowSum] using hasDerivAt_const t (0 : ℝ)
    | false =>
      simp only [hf, if_true, Bool.false_eq_true, if_false, zero_add, entries, hg, List.zip_nil_left,
        List.map_nil, List.nil_append]
      have hupd : ∀ s, (C.update (x s) (y s)).surf = (C.update (x t) (y t)).surf := fun s => by
        unfold update
        rw [hx0 s]
      have key := (C.update (x t) (y t)).surf.query_hessian_derivative y y' w lam t hC.complete hlen
        hl.ge (fun i _ => hy i) (fun i hi hne => by
          obtain ⟨c, hc⟩ := hreg i (htouch i hi hne)
          refine ⟨c, ?_⟩
          rw [show (C.update (x t) (y t)).surf.params = Contact.params from hC.params]
          exact hc)
      refine key.congr_of_eventuallyEq (Filter.Eventually.of_forall fun s => ?_)
      refine Eq.trans (C.multiplied_rows hC (x s) (y := y s) lam _
        (fun c => c + C.surf.numVertices * 3) ?_) ?_
      · intro e he
        exact C.query_places e.1 (List.of_mem_zip he).1
      · simp only [flat_stack_right]
        rw [hupd s]
        rfl
  · cases hg : C.objectFixed with
    | true =>
      simp only [hf, entries, hg, if_true, List.zip_nil_left, List.map_nil, List.append_nil, add_zero]
      simpa [rowSum] using hasDerivAt_const t (0 : ℝ)
    | false =>
      simp only [hf, if_true, Bool.false_eq_true, if_false, add_zero, entries, hg, List.zip_nil_left,
        List.map_nil, List.append_nil]
      obtain ⟨si', sv', e1, e2, key⟩ := C.surf.surface_hessian_derivative (y t) x x' u C.value lam t
        hC.face hx (hlen t).ge hl.ge (fun i hi hne => by
          obtain ⟨c, hc⟩ := hreg i (htouch i hi hne)
          refine ⟨c, ?_⟩
          rw [hC.params]
          exact hc)
      have es1 : si' = si := by
        have := e1.symm.trans h6
        exact Option.some.inj this
      have es2 : sv' = sv := by
        have := e2.symm.trans h7
        exact Option.some.inj this
      subst es1
      subst es2
      refine key.congr_of_eventuallyEq (Filter.Eventually.of_forall fun s => ?_)
      refine Eq.trans (C.multiplied_rows hC (x s) (y := y s) lam _ (fun c => c) ?_) ?_
      · intro e he
        exact (C.surface_places hC.face e.1 (List.of_mem_zip he).1).1
      · congr 1
        refine List.map_congr_left fun i _ => ?_
        congr 1
        rw [hy0 s]
        refine rowSum_congr fun e he => ?_
        exact flat_stack_left _ _ _ ((C.surface_places hC.face e.1 (List.of_mem_zip he).1).2 hin)

end Constraint

end Softy.PointConstraint
