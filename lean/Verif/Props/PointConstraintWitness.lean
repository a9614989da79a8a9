import Verif.Props.PointConstraintHessian

/-!
# C119: examples, and where contact constraints are not as documented
-/

noncomputable section

namespace Softy.PointConstraint

open Softy Softy.Kernel Softy.Field Softy.SurfaceQuery

namespace Constraint

/-! ## New constraints -/

/-- C119: a new constraint is ready, if it is not linearized, and its Jacobian has entries for the sides
that are not fixed. -/
theorem new_ready (Q : Query) {y : List (V3 ℝ)} (hy : y.length = Q.cache.trivial.length)
    (hQ : Q.Complete) (hf : Q.faces ≠ []) (objectFixed colliderFixed : Bool) (offset : ℝ) :
    (new Q y objectFixed colliderFixed offset false).Ready ∧
      (new Q y objectFixed colliderFixed offset false).jacobianSize =
        (if objectFixed then 0 else ({ Q with sampleType := .face } : Query).numSurfaceEntries) +
          (if colliderFixed then 0 else Q.numQueryEntries) :=
  ⟨⟨rfl, rfl, hQ, hf, by
    show (List.replicate y.length (0 : ℝ)).length = _
    rw [List.length_replicate]
    exact hy⟩, rfl⟩

/-! ## Linearized constraints -/

theorem fill_length {α : Type} (new old : List α) :
    (SurfaceVelocity.Query.fill new old).length = old.length := by
  unfold SurfaceVelocity.Query.fill
  rw [List.length_append, List.length_take, List.length_drop]
  omega

variable (C : Constraint)

theorem linearize_buffer (x : ℕ → V3 ℝ) (y : List (V3 ℝ)) :
    (C.linearize x y).buffer.length = C.size := by
  unfold linearize localPotential
  dsimp only
  rw [List.length_map, fill_length, List.length_replicate]
  rfl

theorem size_eq_iff : C.size = C.surf.cache.trivial.length ↔ ∀ view ∈ C.surf.cache.trivial, view ≠ [] := by
  unfold size Query.numNeighborhoods
  rw [List.length_filter_eq_length_iff]
  simp

/-- Where every collider vertex has samples around it, a linearized constraint is ready. -/
theorem linearize_ready (hC : C.Ready) (x : ℕ → V3 ℝ) (y : List (V3 ℝ))
    (h : ∀ view ∈ C.surf.cache.trivial, view ≠ []) : (C.linearize x y).Ready :=
  ⟨hC.face, hC.params, hC.complete, hC.samples, (C.linearize_buffer x y).trans (C.size_eq_iff.2 h)⟩

/-- The values of a linearized constraint cannot be had if a collider vertex has no samples around
it. -/
theorem linearize_panics (hC : C.Ready) (x x' : ℕ → V3 ℝ) (y y' : List (V3 ℝ)) (out : List ℝ)
    (h : [] ∈ C.surf.cache.trivial) : (C.linearize x y).constraint x' y' out = none := by
  have hne : C.surf.cache.trivial.length ≠ C.size := fun e => C.size_eq_iff.1 e.symm [] h rfl
  obtain ⟨old, h1, h2⟩ := ((C.linearize x y).update x' y').cleared_some hC.samples
  have h3 : old.length = C.size := h2.trans (C.linearize_buffer x y)
  unfold constraint
  dsimp only
  rw [h1, Option.bind_some]
  unfold potential
  rw [if_neg]
  · rfl
  · rw [h3]
    exact hne

/-- C119 for linearized constraints: exactly those where all collider vertices have samples around them
can be evaluated.
Missing: the full property asks for values of every constraint; see `linearized_violated`. -/
theorem linearized_partial (hC : C.Ready) (x x' : ℕ → V3 ℝ) (y : List (V3 ℝ)) {y' : List (V3 ℝ)}
    (hy : y'.length = C.surf.cache.trivial.length) {out : List ℝ} (ho : out.length = C.size) :
    (∃ C', (C.linearize x y).constraint x' y' out = some (C', C.touched.map (C.distance x' y'))) ↔
      ∀ i < C.surf.cache.trivial.length, i ∈ C.touched := by
  constructor
  · rintro ⟨C', h⟩ i hi
    rw [mem_touched]
    intro e
    rw [List.getD_eq_getElem _ _ hi] at e
    rw [C.linearize_panics hC x x' y y' out (e ▸ List.getElem_mem hi)] at h
    cases h
  · intro h
    have hall : ∀ view ∈ C.surf.cache.trivial, view ≠ [] := by
      intro view hv
      obtain ⟨i, hi, rfl⟩ := List.getElem_of_mem hv
      have := mem_touched.1 (h i hi)
      rwa [List.getD_eq_getElem _ _ hi] at this
    obtain ⟨C', hc, -⟩ := (C.linearize x y).constraint_values (C.linearize_ready hC x y hall) x' hy ho
    exact ⟨C', hc⟩

end Constraint

/-! ## A triangle and two collider vertices

The first collider vertex has no samples around it, the second has. -/

/-- The collider: the second vertex is above the triangle at height `a`. -/
def demoCollider (a : ℝ) : List (V3 ℝ) := [⟨9, 9, 9⟩, ⟨1, 1, a⟩]

/-- The contact. -/
def demoContact (a : ℝ) (objectFixed colliderFixed : Bool) (offset : ℝ) : Constraint :=
  Constraint.new (demoQuery false) (demoCollider a) objectFixed colliderFixed offset false

theorem demo_ready (a : ℝ) (fo fc : Bool) (offset : ℝ) : (demoContact a fo fc offset).Ready :=
  (Constraint.new_ready (demoQuery false) rfl rfl (by simp [demoQuery]) _ _ _).1

theorem demo_inside (a : ℝ) (fo fc : Bool) (offset : ℝ) : (demoContact a fo fc offset).Inside := by
  intro view _ i _
  show demoTri.a < 3 ∧ demoTri.b < 3 ∧ demoTri.c < 3
  decide

theorem demo_touched (a : ℝ) (fo fc : Bool) (offset : ℝ) : (demoContact a fo fc offset).touched = [1] :=
  rfl

theorem demo_smoothAt (a : ℝ) (ha : 0 < a) (h1 : a ≠ 1) (fo fc : Bool) (offset : ℝ) :
    ∀ i ∈ (demoContact a fo fc offset).touched,
      (demoContact a fo fc offset).SmoothAt demoVerts (demoCollider a) i := by
  intro i hi
  rw [demo_touched, List.mem_singleton] at hi
  subst hi
  exact ⟨0, demo_smooth a ha h1 false⟩

/-- The hypotheses of the theorems about values and Jacobians are met: the triangle and the vertex above
it move. -/
example (d : ℕ → V3 ℝ) (w : V3 ℝ) : ∃ idx vals,
    (demoContact (1 / 2) false false 0).jacobianIndices = some idx ∧
    (demoContact (1 / 2) false false 0).jacobianValues (fun v => demoVerts v + (0 : ℝ) • d v)
      [⟨9, 9, 9⟩, ⟨1, 1, 1 / 2⟩ + (0 : ℝ) • w] (List.replicate
        (demoContact (1 / 2) false false 0).jacobianSize 7) = some vals ∧
    ∀ r < 1, HasDerivAt (fun s : ℝ => ((((demoContact (1 / 2) false false 0).constraint
        (fun v => demoVerts v + s • d v) [⟨9, 9, 9⟩, ⟨1, 1, 1 / 2⟩ + s • w] [7]).map Prod.snd).getD
          []).getD r 0)
      (rowSum (idx.zip vals) r (flat (stack 3 d fun i => if i = 1 then w else 0))) 0 := by
  have hreg : ∀ i ∈ (demoContact (1 / 2) false false 0).touched,
      (demoContact (1 / 2) false false 0).RegularAt (fun v => demoVerts v + (0 : ℝ) • d v)
        [⟨9, 9, 9⟩, ⟨1, 1, 1 / 2⟩ + (0 : ℝ) • w] i := by
    intro i hi
    rw [demo_touched, List.mem_singleton] at hi
    subst hi
    refine ⟨0, ?_⟩
    rw [demo_line, show (⟨1, 1, 1 / 2⟩ : V3 ℝ) + (0 : ℝ) • w = ⟨1, 1, 1 / 2⟩ by ext <;> simp]
    exact (demo_smooth (1 / 2) (by norm_num) (by norm_num) false).toRegular
  have hy : ∀ i, HasD (fun s : ℝ => ([⟨9, 9, 9⟩, ⟨1, 1, 1 / 2⟩ + s • w] : List (V3 ℝ)).getD i 0)
      (if i = 1 then w else 0) 0 := by
    intro i
    match i with
    | 0 => exact HasD.const _
    | 1 => exact HasD.line _ _
    | i + 2 => exact HasD.const _
  have h := (demoContact (1 / 2) false false 0).jacobian_derivative (demo_ready _ _ _ _)
    (demo_inside _ _ _ _) (fun s v => demoVerts v + s • d v)
    (fun s => [⟨9, 9, 9⟩, ⟨1, 1, 1 / 2⟩ + s • w]) d (fun i => if i = 1 then w else 0) 0
    (fun v => HasD.line _ _) hy (fun _ => rfl) (by intro h; cases h) (by intro h; cases h) hreg
    (value := [7]) (jac := List.replicate (demoContact (1 / 2) false false 0).jacobianSize 7) rfl
    (by simp)
  obtain ⟨idx, vals, h1, h2, h3⟩ := h
  exact ⟨idx, vals, h1, h2, h3⟩

/-- The hypotheses of `hessian_derivative_partial` are met: the triangle moves and the collider is
fixed. -/
example (d u : ℕ → V3 ℝ) (es : ℝ → List ((ℕ × ℕ) × ℝ))
    (hes : ∀ s, (demoContact (1 / 2) false true 0).IsJacobian (fun v => demoVerts v + s • d v)
      (demoCollider (1 / 2)) (es s)) :
    ∃ idx vals, (demoContact (1 / 2) false true 0).hessianIndices = some idx ∧
      (demoContact (1 / 2) false true 0).hessianValues (fun v => demoVerts v + (0 : ℝ) • d v)
        (demoCollider (1 / 2)) [5] 2
        (List.replicate (demoContact (1 / 2) false true 0).hessianSize 0) = some vals ∧
      HasDerivAt (fun s => 2 * ((List.range 1).map fun r => [5].getD r 0 *
        rowSum (es s) r (flat (stack 3 u 0))).sum)
      (symForm (idx.zip vals) (flat (stack 3 u 0)) (flat (stack 3 d 0))) 0 :=
  (demoContact (1 / 2) false true 0).hessian_derivative_partial (demo_ready _ _ _ _)
    (demo_inside _ _ _ _) (fun s v => demoVerts v + s • d v) (fun _ => demoCollider (1 / 2)) d 0 u 0 0
    (fun v => HasD.line _ _) (fun _ => HasD.const _) (fun _ => rfl) (Or.inr ⟨rfl, fun _ => rfl⟩) (by
      rw [demo_line]
      exact demo_smoothAt (1 / 2) (by norm_num) (by norm_num) _ _ _) rfl 2 (by simp) es hes

/-! ## Objects and colliders that both move -/

/-- The Jacobian with respect to a point out of the reach of the triangle turns when the triangle moves
sideways. -/
theorem demo_far_turn (cl : Option ℕ) : ∃ c : ℝ, c ≠ 0 ∧
    HasDerivAt (fun s : ℝ => V3.dot ((queryJacobianAt ⟨1, 1, 2⟩ [0]
      (faceSamples (fun _ => demoTri) (fun v => demoVerts v + s • (⟨1, 0, 0⟩ : V3 ℝ)) fun _ => 0) cl
      (.cubic 1) ⟨.distanceBased, false⟩).getD 0) ⟨1, 0, 0⟩) c 0 := by
  have hS := demo_smooth 2 (by norm_num) (by norm_num) false
  have hfar : (1 : ℝ) < ((⟨1, 1, 2⟩ : V3 ℝ) -
      (faceSamples (fun _ => demoTri) demoVerts fun _ => 0).pos 0).norm := by
    rw [demo_norm 2 (by norm_num)]
    norm_num
  set H := (bgAt (.cubic 1) ⟨.distanceBased, false⟩ ⟨1, 1, 2⟩ [0]
    (faceSamples (fun _ => demoTri) demoVerts fun _ => 0) 0 none).fieldHess with hH
  refine ⟨V3.dot ⟨1, 0, 0⟩ (M3.mulVec H ⟨-1, 0, 0⟩), ?_, ?_⟩
  · have hdist : (bgAt (.cubic 1) ⟨.distanceBased, false⟩ ⟨1, 1, 2⟩ [0]
        (faceSamples (fun _ => demoTri) demoVerts fun _ => 0) 0 none).dist = 2 := demo_norm 2 (by norm_num)
    have hdisp : (bgAt (.cubic 1) ⟨.distanceBased, false⟩ ⟨1, 1, 2⟩ [0]
        (faceSamples (fun _ => demoTri) demoVerts fun _ => 0) 0 none).disp = ⟨0, 0, 2⟩ := demo_disp 2
    have ho : (bgAt (.cubic 1) ⟨.distanceBased, false⟩ ⟨1, 1, 2⟩ [0]
        (faceSamples (fun _ => demoTri) demoVerts fun _ => 0) 0 none).orientation = 1 := by
      rw [orientation_eq]
      rw [demo_nml, demo_disp, if_neg]
      norm_num [V3.dot]
    have hval : (bgAt (.cubic 1) ⟨.distanceBased, false⟩ ⟨1, 1, 2⟩ [0]
        (faceSamples (fun _ => demoTri) demoVerts fun _ => 0) 0 none).value = .signedDistance := rfl
    rw [hH]
    unfold Bg.fieldHess
    rw [hval]
    simp only [hdist, hdisp, ho]
    norm_num [M3.mulVec, M3.diag, M3.outer, V3.dot]
  · have := jacobian_path (t := 0) (k := .cubic 1) (P := ⟨.distanceBased, false⟩) (view := [0]) (c := 0)
      (fun _ => ⟨1, 1, 2⟩) 0 (fun _ => demoTri) (fun _ => 0)
      (fun s v => demoVerts v + s • (⟨1, 0, 0⟩ : V3 ℝ)) (fun _ => ⟨1, 0, 0⟩) cl (HasD.const _)
      (fun v => HasD.line _ _) (by rw [demo_line]; exact hS) ⟨1, 0, 0⟩ fun _ => 0
    simp only [applyBlocks_zero, add_zero] at this
    rw [demo_line, pathForm_far hS rfl (r := 1) rfl hfar] at this
    refine this.congr_deriv ?_
    rw [← hH]
    unfold qf
    have e1 : (⟨1, 0, 0⟩ : V3 ℝ) + -mean (fun _ => demoTri) (fun _ => 0) 0 = ⟨1, 0, 0⟩ := by
      ext <;> simp [mean]
    have e2 : (0 : V3 ℝ) + -mean (fun _ => demoTri) (fun _ => ⟨1, 0, 0⟩) 0 = ⟨-1, 0, 0⟩ := by
      ext <;> simp [mean] <;> norm_num
    rw [e1, e2]

/-- The code violates C119 for second derivatives of contacts where object and collider both move: the
triangle moves sideways below the collider vertex, which turns the row of the Jacobian, but the Hessian
says that the row stays: it has no entries for an object vertex and a collider vertex together. -/
theorem hessian_violated : ∃ (C : Constraint) (x : ℝ → ℕ → V3 ℝ) (y : List (V3 ℝ)) (x' w : ℕ → V3 ℝ)
    (es : ℝ → List ((ℕ × ℕ) × ℝ)) (idx : List (ℕ × ℕ)) (vals : List ℝ) (d : ℝ),
    C.Ready ∧ C.Inside ∧ C.objectFixed = false ∧ C.colliderFixed = false ∧ C.size = 1 ∧
    y.length = C.surf.cache.trivial.length ∧ (∀ v, HasD (fun s => x s v) (x' v) 0) ∧
    (∀ i ∈ C.touched, C.SmoothAt (x 0) y i) ∧ (∀ s, C.IsJacobian (x s) y (es s)) ∧
    C.hessianIndices = some idx ∧
    C.hessianValues (x 0) y [1] 1 (List.replicate C.hessianSize 0) = some vals ∧
    HasDerivAt (fun s => ((List.range 1).map fun r => [(1 : ℝ)].getD r 0 *
      rowSum (es s) r (flat (stack C.surf.numVertices 0 w))).sum) d 0 ∧
    symForm (idx.zip vals) (flat (stack C.surf.numVertices 0 w))
      (flat (stack C.surf.numVertices x' 0)) ≠ d := by
  set C := demoContact 2 false false 0 with hCdef
  have hC : C.Ready := demo_ready _ _ _ _
  have hin : C.Inside := demo_inside _ _ _ _
  obtain ⟨c, hc, hd⟩ := demo_far_turn (some 0)
  obtain ⟨idx, vals, si, sv, h1, h2, -, -, -, -, -, h8⟩ := C.hessian_form hC hin
    (fun v => demoVerts v + (0 : ℝ) • (⟨1, 0, 0⟩ : V3 ℝ)) (y := demoCollider 2) rfl (lam := [1]) rfl 1
    (out := List.replicate C.hessianSize 0) (by simp)
  refine ⟨C, fun s v => demoVerts v + s • (⟨1, 0, 0⟩ : V3 ℝ), demoCollider 2, fun _ => ⟨1, 0, 0⟩,
    fun _ => ⟨1, 0, 0⟩, fun s => C.entries (fun v => demoVerts v + s • (⟨1, 0, 0⟩ : V3 ℝ))
      (demoCollider 2), idx, vals, c, hC, hin, rfl, rfl, rfl, rfl, fun v => HasD.line _ _, ?_,
    fun s => C.isJacobian_entries hC _ rfl, h1, h2, ?_, ?_⟩
  · dsimp only
    rw [demo_line]
    exact demo_smoothAt 2 (by norm_num) (by norm_num) _ _ _
  · refine hd.congr_of_eventuallyEq (Filter.Eventually.of_forall fun s => ?_)
    have := C.entries_row hC hin (fun v => demoVerts v + s • (⟨1, 0, 0⟩ : V3 ℝ)) (y := demoCollider 2)
      rfl (i := 1) (by rw [hCdef, demo_touched]; simp) 0 fun _ => ⟨1, 0, 0⟩
    have hz : ∀ (bs : List (V3 ℝ)) cols, applyBlocks bs cols 0 = 0 := fun bs cols => applyBlocks_zero _ _
    rw [hz] at this
    have e : rank C.surf.cache.trivial 1 = 0 := rfl
    rw [e] at this
    simp only [List.range_one, List.map_singleton, List.sum_singleton, List.getD_cons_zero, one_mul]
    rw [this]
    show (0 : ℝ) + _ = _
    rw [zero_add]
    rfl
  · rw [h8]
    have f0 : flat (0 : ℕ → V3 ℝ) = fun _ => 0 := by
      funext c
      unfold flat
      split <;> simp
    rw [f0]
    have z1 : ∀ (es : List ((ℕ × ℕ) × ℝ)) v, symForm es (fun _ => 0) v = 0 := fun es v => by
      unfold symForm
      refine List.sum_eq_zero fun z hz => ?_
      obtain ⟨e, -, rfl⟩ := List.mem_map.1 hz
      split <;> ring
    have z2 : ∀ (es : List ((ℕ × ℕ) × ℝ)) v, symForm es v (fun _ => 0) = 0 := fun es v => by
      unfold symForm
      refine List.sum_eq_zero fun z hz => ?_
      obtain ⟨e, -, rfl⟩ := List.mem_map.1 hz
      split <;> ring
    rw [z1, z2]
    simpa using hc.symm

/-! ## Offsets and linearized constraints -/

theorem demo_potential (old : ℝ) : potentialAt ⟨1, 1, 1 / 2⟩ [0]
    (faceSamples (fun _ => demoTri) demoVerts fun _ => 0) (.cubic 1) ⟨.distanceBased, false⟩ old =
      1 / 2 := by
  set S := faceSamples (fun _ => demoTri) demoVerts fun _ => 0 with hS
  have hn : ((⟨1, 1, 1 / 2⟩ : V3 ℝ) - S.pos 0).norm = 1 / 2 := demo_norm _ (by norm_num)
  have hc : closestSample ⟨1, 1, 1 / 2⟩ S [0] = some 0 := rfl
  unfold potentialAt
  rw [local_eq _ hc]
  have hb : (bgAt (.cubic 1) ⟨.distanceBased, false⟩ ⟨1, 1, 1 / 2⟩ [0] S 0 (some old)).bgWeight = 0 := by
    change backgroundWeight (.cubic 1) false ((⟨1, 1, 1 / 2⟩ : V3 ℝ) - S.pos 0).norm = 0
    rw [hn]
    unfold backgroundWeight
    simp only [Kern.radius]
    norm_num
  have hw : weight (.cubic 1) ((⟨1, 1, 1 / 2⟩ : V3 ℝ) - S.pos 0).norm ⟨1, 1, 1 / 2⟩ S 0 = 1 / 2 := by
    change cubicF 1 ((⟨1, 1, 1 / 2⟩ : V3 ℝ) - S.pos 0).norm = 1 / 2
    rw [hn]
    simp only [cubicF, Scal.val, lit, Scal.ofReal]
    norm_num
  have hs : (bgAt (.cubic 1) ⟨.distanceBased, false⟩ ⟨1, 1, 1 / 2⟩ [0] S 0
      (some old)).weightSumInv = 2 := by
    have : (bgAt (.cubic 1) ⟨.distanceBased, false⟩ ⟨1, 1, 1 / 2⟩ [0] S 0 (some old)).weightSum =
        1 / 2 := by
      change ([0].map (weight (.cubic 1) ((⟨1, 1, 1 / 2⟩ : V3 ℝ) - S.pos 0).norm
        ⟨1, 1, 1 / 2⟩ S)).sum +
        (bgAt (.cubic 1) ⟨.distanceBased, false⟩ ⟨1, 1, 1 / 2⟩ [0] S 0 (some old)).bgWeight = 1 / 2
      rw [hb, List.map_singleton, List.sum_singleton, hw, add_zero]
    unfold Bg.weightSumInv
    rw [this]
    norm_num
  simp only
  unfold Bg.weightedField localPotentialAt
  rw [hb, hs, List.map_singleton, List.sum_singleton]
  change _ + weight (.cubic 1) ((⟨1, 1, 1 / 2⟩ : V3 ℝ) - S.pos 0).norm ⟨1, 1, 1 / 2⟩ S 0 *
    (0 + V3.dot (S.nml 0) ((⟨1, 1, 1 / 2⟩ : V3 ℝ) - S.pos 0) / (S.nml 0).norm) * 2 = _
  rw [hw, hS, demo_disp, demo_nml]
  have h9 : (⟨0, 0, 9⟩ : V3 ℝ).norm = 9 := by
    unfold V3.norm V3.dot
    rw [show (0 : ℝ) * 0 + 0 * 0 + 9 * 9 = 9 ^ 2 by norm_num]
    exact Real.sqrt_sq (by norm_num)
  rw [h9]
  simp [V3.dot]

/-- The code violates C119 for values with an offset: the collider vertex is a half away from the
surface, and contacts keep the distance 1. The values that `constraint` gives to an optimizer are within
the bounds, although what the contact asks for is not. -/
theorem offset_violated : ∃ (C : Constraint) (x : ℕ → V3 ℝ) (y : List (V3 ℝ)) (C' : Constraint),
    C.Ready ∧ C.constraint x y [0] = some (C', [1 / 2]) ∧ C.nonlinear x y [0] = some [-(1 / 2)] ∧
      C.bounds = ([0], [2e19]) := by
  have hd : (demoContact (1 / 2) false false 1).distance demoVerts (demoCollider (1 / 2)) 1 = 1 / 2 :=
    demo_potential 0
  obtain ⟨C', h1, -⟩ := (demoContact (1 / 2) false false 1).constraint_values (out := [0])
    (demo_ready _ _ _ _) demoVerts (y := demoCollider (1 / 2)) rfl rfl
  have h2 := (demoContact (1 / 2) false false 1).nonlinear_values (out := [0])
    (demo_ready _ _ _ _) demoVerts (y := demoCollider (1 / 2)) rfl rfl
  refine ⟨demoContact (1 / 2) false false 1, demoVerts, demoCollider (1 / 2), C', demo_ready _ _ _ _,
    ?_, ?_, rfl⟩
  · rw [h1, demo_touched, List.map_singleton, hd]
  · rw [h2, demo_touched, List.map_singleton, hd]
    have : (demoContact (1 / 2) false false 1).offset = 1 := rfl
    rw [this]
    norm_num

/-- The code violates C119 for linearized constraints: with two collider vertices of which one is far
away, `constraint` panics. -/
theorem linearized_violated : ∃ (Q : Query) (y : List (V3 ℝ)), Q.Complete ∧ Q.faces ≠ [] ∧
    y.length = Q.cache.trivial.length ∧ (Constraint.new Q y false false 0 true).size = 1 ∧
    ∀ x y' out, (Constraint.new Q y false false 0 true).constraint x y' out = none :=
  ⟨demoQuery false, demoCollider (1 / 2), rfl, by simp [demoQuery], rfl, rfl, fun x y' out =>
    Constraint.linearize_panics _ (demo_ready (1 / 2) false false 0) _ _ _ _ _
      (by simp [demoContact, Constraint.new, demoQuery, Cache.trivial])⟩

/-- Linearized constraints that can be evaluated: the collider has only the vertex above the
triangle. -/
example : ∃ C', (Constraint.new { demoQuery false with cache := .loc [[0]] [0] [[0]] } [⟨1, 1, 1 / 2⟩]
    false false 0 true).constraint demoVerts [⟨1, 1, 2⟩] [0] = some (C',
      [(demoContact 2 false false 0).distance demoVerts (demoCollider 2) 1]) := by
  obtain ⟨C', h⟩ := ((Constraint.new { demoQuery false with cache := .loc [[0]] [0] [[0]] }
    [⟨1, 1, 1 / 2⟩] false false 0 false).linearized_partial
    (Constraint.new_ready (y := [⟨1, 1, 1 / 2⟩]) { demoQuery false with cache := .loc [[0]] [0] [[0]] } rfl
      rfl (by simp [demoQuery]) false false 0).1 demoVerts demoVerts [⟨1, 1, 1 / 2⟩]
    (y' := [⟨1, 1, 2⟩]) rfl (out := [0]) rfl).2 (by
      intro i hi
      rw [mem_touched]
      have : i < 1 := hi
      have : i = 0 := by omega
      subst this
      simp [Constraint.new, Cache.trivial])
  exact ⟨C', h⟩

end Softy.PointConstraint
