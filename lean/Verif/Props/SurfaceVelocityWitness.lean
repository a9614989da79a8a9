import Verif.Props.SurfaceVelocity

/-!
# C111: concrete surfaces

One sample with a mixed-in background; points without samples around them; a ridge of two samples.
-/

noncomputable section

namespace Softy.SurfaceVelocity

open Softy Softy.Kernel Softy.Field Softy.Contact

/-! ## One sample -/

/-- One sample at the origin, whose normal is the third axis. -/
def peg : Samples := ⟨fun _ => 0, fun _ => ⟨0, 0, 1⟩, fun _ => ⟨1, 0, 0⟩, fun _ => 0⟩

/-- A point above it. -/
def above : V3 ℝ := ⟨0, 0, 1⟩

/-- The surface, with a background that is the signed distance and is mixed in or not. -/
def pegQuery (weighted : Bool) (nbrs : List (List ℕ)) : Query :=
  ⟨peg, .vertex, fun _ => ⟨0, 0, 0⟩, .cubic 2, ⟨.distanceBased, weighted⟩, nbrs⟩

theorem above_norm : above.norm = 1 := by
  simp [above, V3.norm, V3.dot]

theorem above_sub : above - (0 : V3 ℝ) = above := by ext <;> simp

theorem peg_closest : closestSample above peg [0] = some 0 := rfl

theorem peg_weight (d : ℝ) (i : ℕ) : weight (.cubic 2) d above peg i = 1 / 2 := by
  show cubicF 2 (above - (0 : V3 ℝ)).norm = 1 / 2
  rw [above_sub, above_norm, cubicF_eq, if_neg (by norm_num)]
  norm_num

theorem peg_weightGrad (d : ℝ) (i : ℕ) : weightGrad (.cubic 2) d above peg i = ⟨0, 0, -3 / 4⟩ := by
  show Kern.grad (.cubic 2) above (0 : V3 ℝ) = _
  unfold Kern.grad
  simp only [above_sub, above_norm]
  rw [if_pos one_pos]
  show (cubicDf 2 1 / 1) • above = _
  unfold cubicDf
  rw [if_neg (by norm_num)]
  ext <;> simp [above]
  norm_num

/-- The background of the peg. -/
abbrev pegBg : Bg := bgAt (.cubic 2) ⟨.distanceBased, true⟩ above [0] peg 0 none

theorem pegBg_dist : pegBg.dist = 1 := by
  show (above - (0 : V3 ℝ)).norm = 1
  rw [above_sub, above_norm]

theorem pegBg_bgWeight : pegBg.bgWeight = 1 / 2 := by
  show backgroundWeight (.cubic 2) true (above - (0 : V3 ℝ)).norm = 1 / 2
  rw [above_sub, above_norm]
  unfold backgroundWeight
  simp only [Kern.radius]
  rw [if_neg (by norm_num), if_pos trivial]
  show cubicF 2 (2 - 1) = 1 / 2
  rw [cubicF_eq, if_neg (by norm_num)]
  norm_num

theorem pegBg_weightSum : pegBg.weightSum = 1 := by
  have h : pegBg.weightSum = ([0].map (weight (.cubic 2) pegBg.dist above peg)).sum + pegBg.bgWeight := rfl
  rw [h, pegBg_bgWeight]
  simp only [List.map_cons, List.map_nil, List.sum_cons, List.sum_nil, peg_weight]
  norm_num

theorem pegBg_grad : pegBg.bgWeightGrad none = ⟨0, 0, 3 / 4⟩ := by
  have hflat : ¬ pegBg.flat := by
    rintro (⟨r, hr, h⟩ | h)
    · rw [pegBg_dist] at h
      cases hr
      norm_num at h
    · cases h
  unfold Bg.bgWeightGrad
  rw [if_neg hflat]
  simp only
  have h1 : pegBg.edgeDf = -3 / 4 := by
    show cubicDf 2 (2 - pegBg.dist) = _
    rw [pegBg_dist]
    unfold cubicDf
    rw [if_neg (by norm_num)]
    norm_num
  have h2 : pegBg.disp = above := above_sub
  rw [h1, h2, pegBg_dist]
  ext <;> simp [above]
  norm_num

theorem pegBg_fieldGrad : pegBg.fieldGrad = ⟨0, 0, 1⟩ ∧ pegBg.fieldValue = 1 := by
  have ho : pegBg.orientation = 1 := by
    unfold Bg.orientation
    have : ¬ V3.dot (pegBg.S.nml pegBg.closest.get) pegBg.disp < 0 := by
      have h2 : pegBg.disp = above := above_sub
      rw [h2]
      show ¬ V3.dot (⟨0, 0, 1⟩ : V3 ℝ) above < 0
      norm_num [V3.dot, above]
    rw [if_neg this]
  have hd := pegBg_dist
  have h2 : pegBg.disp = above := above_sub
  constructor
  · show (if pegBg.dist ≠ 0 then (pegBg.orientation / pegBg.dist) • pegBg.disp else 0) = _
    rw [hd, if_pos one_ne_zero, ho, h2]
    ext <;> simp [above]
  · show pegBg.dist * pegBg.orientation = 1
    rw [hd, ho, one_mul]

theorem pegBg_queryJacobian : pegBg.queryJacobian = ⟨0, 0, 5 / 4⟩ := by
  obtain ⟨hfg, hfv⟩ := pegBg_fieldGrad
  have hw : pegBg.weighted = true := rfl
  have hsum : (pegBg.view.map (weightGrad pegBg.kernel pegBg.dist pegBg.q pegBg.S)).sum
      = ⟨0, 0, -3 / 4⟩ := by
    show ([0].map (weightGrad (.cubic 2) pegBg.dist above peg)).sum = _
    simp only [List.map_cons, List.map_nil, List.sum_cons, List.sum_nil, peg_weightGrad]
    ext <;> simp
  unfold Bg.queryJacobian
  simp only [hw, if_true, hsum, hfg, hfv, pegBg_grad, pegBg_bgWeight, weightSumInv_eq,
    pegBg_weightSum]
  ext <;> simp
  norm_num

/-- **Refuted: velocities are the same however they are asked for.**  With a background that is
mixed in, the product of the contact Jacobian with velocities is not the product of its blocks with
them: a surface at rest has velocity zero by its blocks, and 5/4 along its normal by the product. -/
theorem product_background_violated :
    ∃ bs, (pegQuery true [[0]]).matrices [above] = some bs ∧
      rowProduct bs 0 (fun _ => 0) = 0 ∧
      (pegQuery true [[0]]).productValues [above] (fun _ => 0) [0] = [⟨0, 0, 5 / 4⟩] := by
  obtain ⟨bs, hbs⟩ : ∃ bs, (pegQuery true [[0]]).matrices [above] = some bs :=
    ⟨_, Query.matrices_eq _ rfl⟩
  have h0 : rowProduct bs 0 (fun _ => 0) = 0 := by
    unfold rowProduct
    have : ∀ l : List MBlock, (l.map fun b => b.val.mulVec (0 : V3 ℝ)).sum = 0 := by
      intro l
      induction l with
      | nil => rfl
      | cons a l ih =>
        rw [List.map_cons, List.sum_cons, ih]
        ext
        all_goals simp [M3.mulVec, V3.dot]
    exact this _
  refine ⟨bs, hbs, h0, ?_⟩
  obtain ⟨b, hb, e⟩ := product_partial (Q := pegQuery true [[0]]) (buffer := [0]) hbs
    (by simp [pegQuery]) rfl (fun _ => 0) (i := 0) (q := above) (view := [0]) rfl rfl
  have hb' : Bg.local above [0] peg (.cubic 2) ⟨.distanceBased, true⟩ none = some pegBg :=
    local_eq none peg_closest
  have hbb : b = pegBg := by
    have : some b = some pegBg := hb.symm.trans hb'
    injection this
  rw [h0, hbb, pegBg_queryJacobian] at e
  have hl : ((pegQuery true [[0]]).productValues [above] (fun _ => 0) [0]).length = 1 := rfl
  obtain ⟨x, hx⟩ := List.length_eq_one_iff.1 hl
  rw [hx] at e ⊢
  simp only [List.getElem?_cons_zero, Option.some.injEq] at e
  rw [e]
  ext <;> simp

/-- The peg is flat around the point above it. -/
theorem peg_flat : FlatAround (.cubic 2) above [0] peg ⟨0, 0, 1⟩ := by
  refine { proper := by norm_num [Kern.Proper], unit := by norm_num [V3.dot], normals := ?_,
           height := ⟨1, fun i hi => ?_⟩, near := ⟨0, by simp, ?_⟩, off := Or.inl trivial }
  · intro i _
    show (1 / (⟨0, 0, 1⟩ : V3 ℝ).norm) • (⟨0, 0, 1⟩ : V3 ℝ) = _
    have : (⟨0, 0, 1⟩ : V3 ℝ).norm = 1 := above_norm
    rw [this]
    ext <;> simp
  · show (0 : ℝ) + V3.dot (⟨0, 0, 1⟩ : V3 ℝ) (above - 0) = 1
    rw [above_sub]
    norm_num [V3.dot, above]
  · intro r hr
    cases hr
    show (above - (0 : V3 ℝ)).norm < 2
    rw [above_sub, above_norm]
    norm_num

/-- **Refuted: results are at the places of their query points.**  If the first of two points has no
samples around it, its place receives the velocity at the second one, whose place is left as it
was. -/
theorem product_shift_violated (u junk : V3 ℝ) :
    ∃ bs, (pegQuery false [[], [0]]).matrices [0, above] = some bs ∧
      rowProduct bs 0 (fun _ => u) = 0 ∧ rowProduct bs 1 (fun _ => u) = u ∧
      (pegQuery false [[], [0]]).productValues [0, above] (fun _ => u) [junk, junk] = [u, junk] := by
  obtain ⟨bs, hbs⟩ : ∃ bs, (pegQuery false [[], [0]]).matrices [0, above] = some bs :=
    ⟨_, Query.matrices_eq _ rfl⟩
  refine ⟨bs, hbs, ?_, ?_, ?_⟩
  · rw [Query.rowProduct_matrices _ hbs (i := 0) (q := 0) (view := []) rfl rfl]
    rfl
  · exact uniform_flat hbs (i := 1) (q := above) (view := [0]) rfl rfl rfl peg_flat u
  · obtain ⟨bs', hbs'⟩ : ∃ bs, (pegQuery false [[0]]).matrices [above] = some bs :=
      ⟨_, Query.matrices_eq _ rfl⟩
    have h1 := product_near (Q := pegQuery false [[0]]) (buffer := [junk]) hbs' (by simp [pegQuery])
      rfl (fun _ => u) (i := 0) (q := above) (view := [0]) rfl rfl rfl
      ⟨0, by simp, fun r hr => by
        cases hr
        show (above - (0 : V3 ℝ)).norm ≤ 2
        rw [above_sub, above_norm]
        norm_num⟩
    rw [uniform_flat hbs' (i := 0) (q := above) (view := [0]) rfl rfl rfl peg_flat u] at h1
    have e1 : (pegQuery false [[0]]).productValues [above] (fun _ => u) [junk] =
        [((pegQuery false [[0]]).productAt (fun _ => u) above [0]).getD 0] := rfl
    have e2 : (pegQuery false [[], [0]]).productValues [0, above] (fun _ => u) [junk, junk] =
        [((pegQuery false [[0]]).productAt (fun _ => u) above [0]).getD 0, junk] := rfl
    rw [e1] at h1
    simp only [List.getElem?_cons_zero, Option.some.injEq] at h1
    rw [e2, h1]

/-- The hypotheses of `product_near`, `uniform_flat` and `vector_flat_partial` are met: the vector
above the peg is the velocity of the peg. -/
example (old : V3 ℝ) : (pegQuery false [[0]]).vectorAt above [0] old = ⟨1, 0, 0⟩ := by
  obtain ⟨bs, hbs⟩ : ∃ bs, (pegQuery false [[0]]).matrices [above] = some bs :=
    ⟨_, Query.matrices_eq _ rfl⟩
  rw [vector_flat_partial (Q := pegQuery false [[0]]) old (fun _ => ⟨1, 0, 0⟩) (fun _ _ => rfl) hbs
    (i := 0) rfl rfl rfl peg_flat]
  exact uniform_flat hbs (i := 0) (q := above) (view := [0]) rfl rfl rfl peg_flat _

/-- The hypotheses of `values_indices` are met. -/
example : ∃ vals, (pegQuery false [[0]]).values [above] (List.replicate 9 0) = some vals ∧
    vals.length = 9 := by
  obtain ⟨bs, hbs⟩ : ∃ bs, (pegQuery false [[0]]).matrices [above] = some bs :=
    ⟨_, Query.matrices_eq _ rfl⟩
  obtain ⟨vals, h1, h2, -⟩ := values_indices hbs (buffer := List.replicate 9 0) rfl
  exact ⟨vals, h1, h2⟩

/-! ## A ridge -/

/-- Two samples on the slopes of a ridge along the second axis, which moves along itself. -/
def ridge : Samples where
  pos i := if i = 0 then ⟨3 / 4, 0, 0⟩ else ⟨-(3 / 4), 0, 0⟩
  nml i := if i = 0 then ⟨3 / 5, 0, 4 / 5⟩ else ⟨-(3 / 5), 0, 4 / 5⟩
  vel _ := ⟨0, 1, 0⟩
  value _ := 0

/-- The ridge with the background that contacts use. -/
def ridgeQuery : Query := ⟨ridge, .vertex, fun _ => ⟨0, 0, 0⟩, .cubic 2, params, [[0, 1]]⟩

theorem ridge_norm (i : ℕ) : (above - ridge.pos i).norm = 5 / 4 := by
  have h : V3.dot (above - ridge.pos i) (above - ridge.pos i) = (5 / 4) * (5 / 4) := by
    unfold ridge above
    by_cases hi : i = 0 <;> simp [hi, V3.dot] <;> norm_num
  unfold V3.norm
  rw [h]
  exact Real.sqrt_mul_self (by norm_num)

theorem ridge_unit (i : ℕ) : (ridge.nml i).norm = 1 := by
  have h : V3.dot (ridge.nml i) (ridge.nml i) = 1 := by
    unfold ridge
    by_cases hi : i = 0 <;> simp [hi, V3.dot] <;> norm_num
  unfold V3.norm
  rw [h]
  simp

theorem ridge_closest : closestSample above ridge [0, 1] = some 0 := by
  show some (closestFrom above ridge 0 [1]) = some 0
  unfold closestFrom
  have : ¬ V3.dot (above - ridge.pos 1) (above - ridge.pos 1) <
      V3.dot (above - ridge.pos 0) (above - ridge.pos 0) := by
    unfold ridge above
    simp [V3.dot]
  rw [if_neg this]
  rfl

/-- The weight of each sample. -/
def ridgeW : ℝ := cubicF 2 (5 / 4)

theorem ridgeW_pos : 0 < ridgeW := by
  unfold ridgeW
  rw [cubicF_eq, if_neg (by norm_num)]
  norm_num

theorem ridge_weight (d : ℝ) (i : ℕ) : weight (.cubic 2) d above ridge i = ridgeW := by
  show cubicF 2 (above - ridge.pos i).norm = _
  rw [ridge_norm]
  rfl

/-- The background of the ridge. -/
abbrev ridgeBg : Bg := bgAt (.cubic 2) params above [0, 1] ridge 0 none

theorem ridge_bg : ridgeBg.bgWeight = 0 ∧ ridgeBg.queryJacobian = 0 := by
  refine near_background (Q := ridgeQuery) (q := above) (view := [0, 1]) rfl
    ⟨0, by simp, fun r hr => ?_⟩ (local_eq none ridge_closest)
  cases hr
  show (above - ridge.pos 0).norm ≤ 2
  rw [ridge_norm]
  norm_num

theorem ridge_weightSum : ridgeBg.weightSum = 2 * ridgeW := by
  have h : ridgeBg.weightSum = ([0, 1].map (weight (.cubic 2) ridgeBg.dist above ridge)).sum +
    ridgeBg.bgWeight := rfl
  rw [h, ridge_bg.1]
  simp only [List.map_cons, List.map_nil, List.sum_cons, List.sum_nil, ridge_weight]
  ring

theorem ridge_gradient :
    queryJacobianAt above [0, 1] ridge none (.cubic 2) params = some ⟨0, 0, 4 / 5⟩ := by
  unfold queryJacobianAt
  rw [new_eq none none ridge_closest]
  simp only [Option.map_some, Option.some.injEq]
  show ([0, 1].map (sampleQueryJacobian ridgeBg (neighborWeightGrad ridgeBg))).sum +
    ridgeBg.queryJacobian = _
  rw [ridge_bg.2, add_zero]
  have hg : ridgeBg.bgWeightGrad none = 0 := by
    unfold Bg.bgWeightGrad
    rw [if_pos (show ridgeBg.flat from Or.inr rfl)]
  have hn : neighborWeightGrad ridgeBg = (2 * ridgeW)⁻¹ •
      (weightGrad (.cubic 2) ridgeBg.dist above ridge 0 +
        weightGrad (.cubic 2) ridgeBg.dist above ridge 1) := by
    unfold neighborWeightGrad
    rw [hg, add_zero, weightSumInv_eq, ridge_weightSum]
    show (2 * ridgeW)⁻¹ • ([0, 1].map (weightGrad (.cubic 2) ridgeBg.dist above ridge)).sum = _
    simp only [List.map_cons, List.map_nil, List.sum_cons, List.sum_nil, add_zero]
  have hs : ∀ i, sampleQueryJacobian ridgeBg (neighborWeightGrad ridgeBg) i =
      (2 * ridgeW)⁻¹ • ((7 / 20 : ℝ) • (weightGrad (.cubic 2) ridgeBg.dist above ridge i -
        ridgeW • neighborWeightGrad ridgeBg) + ridgeW • ridge.nml i) := by
    intro i
    have h1 : sampleQueryJacobian ridgeBg (neighborWeightGrad ridgeBg) i =
      ridgeBg.weightSumInv • ((0 + V3.dot ((1 / (ridge.nml i).norm) • ridge.nml i)
        (above - ridge.pos i)) • (weightGrad (.cubic 2) ridgeBg.dist above ridge i -
          weight (.cubic 2) ridgeBg.dist above ridge i • neighborWeightGrad ridgeBg) +
          weight (.cubic 2) ridgeBg.dist above ridge i •
            ((1 / (ridge.nml i).norm) • ridge.nml i)) := rfl
    have h2 : V3.dot (ridge.nml i) (above - ridge.pos i) = 7 / 20 := by
      unfold ridge above
      by_cases hi : i = 0 <;> simp [hi, V3.dot] <;> norm_num
    have h3 : ((1 : ℝ) / 1) • ridge.nml i = ridge.nml i := by ext <;> simp
    rw [h1, ridge_unit, h3, h2, ridge_weight, weightSumInv_eq, ridge_weightSum, zero_add]
  simp only [List.map_cons, List.map_nil, List.sum_cons, List.sum_nil, hs]
  rw [hn]
  have hW := ridgeW_pos.ne'
  generalize weightGrad (.cubic 2) ridgeBg.dist above ridge 0 = A
  generalize weightGrad (.cubic 2) ridgeBg.dist above ridge 1 = B
  generalize ridgeW = W at hW
  have n0 : ridge.nml 0 = ⟨3 / 5, 0, 4 / 5⟩ := rfl
  have n1 : ridge.nml 1 = ⟨-(3 / 5), 0, 4 / 5⟩ := rfl
  rw [n0, n1]
  ext <;> simp <;> field_simp <;> ring

theorem ridge_kernel (i : ℕ) :
    normalKernel (unitNormal ridge i) (⟨0, 0, 4 / 5⟩ : V3 ℝ) = 1681 / 2500 := by
  have h3 : unitNormal ridge i = ridge.nml i := by
    unfold unitNormal
    rw [ridge_unit]
    ext <;> simp
  rw [h3]
  unfold normalKernel ridge
  by_cases hi : i = 0 <;> simp [hi, V3.dot] <;> norm_num

/-- The blocks of the ridge keep velocities along the ridge. -/
theorem ridge_block (d wsi : ℝ) (i : ℕ) :
    (sampleContactJacobian (.cubic 2) d above ridge (⟨0, 0, 4 / 5⟩ : V3 ℝ) wsi i).mulVec
      (⟨0, 1, 0⟩ : V3 ℝ) = (ridgeW * (1681 / 2500) * wsi) • (⟨0, 1, 0⟩ : V3 ℝ) := by
  have h3 : unitNormal ridge i = ridge.nml i := by
    unfold unitNormal
    rw [ridge_unit]
    ext <;> simp
  unfold sampleContactJacobian
  simp only [ridge_weight, ridge_kernel]
  have hd : V3.dot (unitNormal ridge i) (⟨0, 0, 4 / 5⟩ : V3 ℝ) = 16 / 25 := by
    rw [h3]
    unfold ridge
    by_cases hi : i = 0 <;> simp [hi, V3.dot] <;> norm_num
  rw [hd]
  unfold rodrigues
  rw [if_pos (by norm_num), h3]
  have hn : ridge.nml i = ⟨3 / 5, 0, 4 / 5⟩ ∨ ridge.nml i = ⟨-(3 / 5), 0, 4 / 5⟩ := by
    unfold ridge
    by_cases hi : i = 0 <;> simp [hi]
  rcases hn with hn | hn <;> rw [hn] <;>
    ext <;> simp [M3.mulVec, M3.skew, V3.cross, V3.dot, M3.diag, M3.mul_def, M3.mul, M3.transpose]

/-- **Refuted: the vector field is the velocity of the surface.**  Above a ridge that moves along
itself, with the background that contacts use, the blocks of the contact Jacobian give the velocity
of the ridge, and the vector field 0.6724 of it: the weights are multiplied by a function of the
normals and divided by a sum that leaves it out. -/
theorem vector_uniform_violated (old : V3 ℝ) :
    (∀ j, ridgeQuery.S.vel j = ⟨0, 1, 0⟩) ∧
      (∃ bs, ridgeQuery.matrices [above] = some bs ∧
        rowProduct bs 0 (fun _ => ⟨0, 1, 0⟩) = ⟨0, 1, 0⟩) ∧
      ridgeQuery.vectorField [above] [old] = some [⟨0, 1681 / 2500, 0⟩] := by
  refine ⟨fun _ => rfl, ?_, ?_⟩
  · obtain ⟨bs, hbs⟩ : ∃ bs, ridgeQuery.matrices [above] = some bs := ⟨_, Query.matrices_eq _ rfl⟩
    refine ⟨bs, hbs, ?_⟩
    rw [Query.rowProduct_matrices _ hbs (i := 0) (q := above) (view := [0, 1]) rfl rfl,
      if_neg (by simp)]
    rw [Query.rowBlocks_sum ridgeQuery (g := ⟨0, 0, 4 / 5⟩) ridge_closest ridge_gradient 0
      fun _ => ⟨0, 1, 0⟩]
    have hW : weightNmlSumInv ridgeQuery.kernel (above - ridgeQuery.S.pos 0).norm above [0, 1]
        ridgeQuery.S ⟨0, 0, 4 / 5⟩ = 1 / (2 * ridgeW * (1681 / 2500)) := by
      unfold weightNmlSumInv
      have : (([0, 1] : List ℕ).map fun i => weight ridgeQuery.kernel
          (above - ridgeQuery.S.pos 0).norm above ridgeQuery.S i *
            normalKernel (unitNormal ridgeQuery.S i) (⟨0, 0, 4 / 5⟩ : V3 ℝ)).sum =
          2 * ridgeW * (1681 / 2500) := by
        show (([0, 1] : List ℕ).map fun i => weight (.cubic 2) (above - ridge.pos 0).norm above ridge i *
          normalKernel (unitNormal ridge i) (⟨0, 0, 4 / 5⟩ : V3 ℝ)).sum = _
        simp only [ridge_weight, ridge_kernel, List.map_cons, List.map_nil, List.sum_cons, List.sum_nil]
        ring
      simp only [this]
      have hp := ridgeW_pos
      rw [if_pos (by positivity)]
    rw [hW]
    show (([0, 1] : List ℕ).map fun j => (sampleContactJacobian (.cubic 2) (above - ridge.pos 0).norm
      above ridge (⟨0, 0, 4 / 5⟩ : V3 ℝ) (1 / (2 * ridgeW * (1681 / 2500))) j).mulVec
        (⟨0, 1, 0⟩ : V3 ℝ)).sum = _
    simp only [ridge_block, List.map_cons, List.map_nil, List.sum_cons, List.sum_nil]
    have hp := ridgeW_pos.ne'
    generalize ridgeW = W at hp
    ext <;> simp
    field_simp
    norm_num
  · have h : ridgeQuery.vectorField [above] [old] = some [ridgeQuery.vectorAt above [0, 1] old] := rfl
    rw [h]
    have e : ridgeQuery.vectorAt above [0, 1] old = ridgeQuery.backgroundVector ridgeBg old +
        (([0, 1] : List ℕ).map fun j => (sampleContactJacobian (.cubic 2) ridgeBg.dist above ridge
          (⟨0, 0, 4 / 5⟩ : V3 ℝ) ridgeBg.weightSumInv j).mulVec (⟨0, 1, 0⟩ : V3 ℝ)).sum := by
      unfold Query.vectorAt
      rw [show Bg.local above [0, 1] ridgeQuery.S ridgeQuery.kernel ridgeQuery.params none =
        some ridgeBg from local_eq none ridge_closest]
      simp only [show queryJacobianAt above [0, 1] ridgeQuery.S none ridgeQuery.kernel
        ridgeQuery.params = some ⟨0, 0, 4 / 5⟩ from ridge_gradient]
      rfl
    rw [e]
    unfold Query.backgroundVector
    rw [ridge_bg.1]
    simp only [ridge_block, List.map_cons, List.map_nil, List.sum_cons, List.sum_nil,
      weightSumInv_eq, ridge_weightSum]
    have hp := ridgeW_pos.ne'
    generalize ridgeW = W at hp
    congr 2
    ext <;> simp
    field_simp
    norm_num

end Softy.SurfaceVelocity
