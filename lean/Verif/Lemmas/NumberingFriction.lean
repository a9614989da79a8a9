import Verif.Lemmas.NumberingContact
import Verif.Lemmas.FrameContact
import Verif.Props.Sliding

/-!
# Friction with other numbers
-/

noncomputable section

namespace Softy.Numbering

open Softy Contact Field Kernel

variable {σ τ : Equiv.Perm ℕ}

theorem Reordered.filter {α β : Type} {R : α → β → Prop} {l : List α} {l' : List β} (h : Reordered R l l')
    {p : α → Bool} {q : β → Bool} (hpq : ∀ a b, R a b → q b = p a) :
    Reordered R (l.filter p) (l'.filter q) := by
  obtain ⟨m, hm, hp⟩ := h
  refine ⟨m.filter q, ?_, hp.filter q⟩
  clear hp
  induction hm with
  | nil => exact .nil
  | @cons a b _ _ hab _ ih =>
    by_cases ha : p a = true
    · rw [List.filter_cons_of_pos ha, List.filter_cons_of_pos (by rw [hpq a b hab]; exact ha)]
      exact .cons hab ih
    · rw [List.filter_cons_of_neg ha, List.filter_cons_of_neg (by rw [hpq a b hab]; exact ha)]
      exact ih

/-! ## Friction of one place -/

section Spot

variable (C : Pair)

open Classical in
/-- The normal of a contact. -/
def spotNormal (x : ℕ → V3 ℝ) (s : List ℕ × ℕ) : V3 ℝ :=
  let g := (queryJacobianAt (C.query x s.2) s.1 (C.samples x) (some (C.closest s.2)) C.kernel params).getD 0
  if g.norm > 0 then (1 / -g.norm) • g else g

/-- The velocity of a contact. -/
def spotVelocity (x v : ℕ → V3 ℝ) (s : List ℕ × ℕ) : V3 ℝ := C.pushed x v s - v (C.coll s.2)

/-- The multiplier of a contact. -/
def spotLambda (x : ℕ → V3 ℝ) (s : List ℕ × ℕ) : ℝ := -C.kappa * ContactPenalty.db C.delta (C.distance x s)

/-- The friction of a contact. -/
def spotFriction (p : Friction.Params) (x v : ℕ → V3 ℝ) (s : List ℕ × ℕ) : V3 ℝ :=
  ((ContactBasis.updateFromNormals [spotNormal C x s]).contactFriction p (spotLambda C x s)
    (spotVelocity C x v s) 0).getD 0

/-- The friction potential of a contact. -/
def spotPotential (p : Friction.Params) (x v : ℕ → V3 ℝ) (s : List ℕ × ℕ) : ℝ :=
  (((ContactBasis.updateFromNormals [spotNormal C x s]).toContactCoordinates (spotVelocity C x v s) 0).map
    fun c => Friction.potential ⟨c.y, c.z⟩ (spotLambda C x s) p).getD 0

theorem contactNormals_spot (x : ℕ → V3 ℝ) : C.contactNormals x = C.active.map (spotNormal C x) := by
  unfold Pair.contactNormals Pair.queryBlocks
  rw [List.map_map]
  rfl

theorem lambda_spot (x : ℕ → V3 ℝ) : C.lambda x = C.active.map (spotLambda C x) := by
  simp [Pair.lambda, ContactPenalty.multipliers, Pair.distances_eq, Function.comp_def, spotLambda]

theorem matrix_single {ns : List (V3 ℝ)} {i : ℕ} (hi : i < ns.length) :
    (ContactBasis.updateFromNormals ns).contactBasisMatrix i =
      (ContactBasis.updateFromNormals [ns[i]]).contactBasisMatrix 0 := by
  rw [ContactBasis.matrix_of_lt hi, ContactBasis.matrix_of_lt (by simp)]
  rfl

theorem getD_row {α : Type} (d : α) (f : List ℕ × ℕ → α) (s : List ℕ × ℕ) (hs : s ∈ C.active) :
    (C.active.map f).getD (C.constraintOf s.2) d = f s := by
  have key : (C.active.map fun s => (C.active.map f).getD (C.constraintOf s.2) d) = C.active.map f := by
    have h1 := congrArg (List.map fun i => (C.active.map f).getD i d) C.constraintOf_active
    rw [List.map_map] at h1
    refine h1.trans ?_
    refine List.ext_getElem (by simp) fun i h1 h2 => ?_
    simp [List.getElem?_eq_getElem (by simpa using h2 : i < C.active.length)]
  exact List.map_inj_left.1 key s hs

theorem constraintFriction_spot (p : Friction.Params) (x v : ℕ → V3 ℝ) :
    C.constraintFriction p x v = C.active.map (spotFriction C p x v) := by
  unfold Pair.constraintFriction Pair.contactBasis
  rw [Pair.relativeVelocities_eq, contactNormals_spot, lambda_spot]
  refine List.ext_getElem (by simp) fun i h1 h2 => ?_
  have hi : i < C.active.length := by simpa using h2
  simp only [List.getElem_map, List.getElem_zipIdx, zero_add]
  rw [List.getD_eq_getElem _ _ (by simpa using hi), List.getElem_map]
  unfold ContactBasis.contactFriction ContactBasis.toContactCoordinates ContactBasis.fromContactCoordinates
  rw [matrix_single (by simpa using hi), List.getElem_map]
  rfl

theorem frictionPotential_spot (p : Friction.Params) (x v : ℕ → V3 ℝ) (q : ℝ) (hp : ¬ p.isNone) :
    C.frictionPotential p x v q = (C.active.map (spotPotential C p x v)).sum * q := by
  unfold Pair.frictionPotential Pair.contactBasis
  rw [if_neg hp, Pair.relativeVelocities_eq, contactNormals_spot, lambda_spot]
  congr 2
  refine List.ext_getElem (by simp) fun i h1 h2 => ?_
  have hi : i < C.active.length := by simpa using h2
  simp only [List.getElem_map, List.getElem_zipIdx, zero_add]
  rw [List.getD_eq_getElem _ _ (by simpa using hi), List.getElem_map]
  unfold ContactBasis.toContactCoordinates
  rw [matrix_single (by simpa using hi), List.getElem_map]
  rfl

/-- The assignments of the friction to vertices, as sums. -/
theorem transposeMul_spot {ns N : ℕ} (h : C.Distinct ns N) (x : ℕ → V3 ℝ) (f : List ℕ × ℕ → V3 ℝ) (v : ℕ) :
    C.transposeMul ns x (C.active.map f) v =
      if v ∈ C.active.map fun s => C.coll s.2 then
        -(C.active.map fun s => if C.coll s.2 = v then f s else 0).sum
      else (C.active.map fun s => ((C.contactRow x s).map fun b =>
        if C.surf b.col = v then b.val.transpose.mulVec (f s) else 0).sum).sum := by
  unfold Pair.transposeMul
  simp only
  have hz (g : ℕ → V3 ℝ) : C.active.zipIdx.foldl (fun (g : ℕ → V3 ℝ) p =>
      Function.update g (C.coll p.1.2) (-(C.active.map f).getD p.2 0)) g =
      (C.active.map fun s => (C.coll s.2, -f s)).foldl
        (fun (g : ℕ → V3 ℝ) (p : ℕ × V3 ℝ) => Function.update g p.1 p.2) g := by
    have e : C.active.map (fun s => (C.coll s.2, -f s)) =
        C.active.zipIdx.map fun p => (C.coll p.1.2, -(C.active.map f).getD p.2 0) := by
      refine List.ext_getElem (by simp) fun i h1 h2 => ?_
      have hi : i < C.active.length := by simpa using h1
      simp [hi]
    rw [e, List.foldl_map]
  rw [hz]
  by_cases hv : v ∈ C.active.map fun s => C.coll s.2
  · rw [if_pos hv]
    obtain ⟨s, hs, rfl⟩ := List.mem_map.1 hv
    have hn : ((C.active.map fun s => (C.coll s.2, -f s)).map Prod.fst).Nodup := by
      rw [List.map_map]
      exact h.coll_inj
    have := foldl_update_mem _ hn ((List.range ns).foldl (fun g j => Function.update g (C.surf j)
      (((C.contactBlocks x).filter fun b => b.col = j).map fun b =>
        b.val.transpose.mulVec ((C.active.map f).getD b.row 0)).sum) fun _ => 0)
      (C.coll s.2, -f s) (List.mem_map.2 ⟨s, hs, rfl⟩)
    rw [this]
    have hsum (l : List (List ℕ × ℕ)) (hl : (l.map fun s => C.coll s.2).Nodup) (hs : s ∈ l) :
        (l.map fun t => if C.coll t.2 = C.coll s.2 then f t else 0).sum = f s := by
      induction l with
      | nil => simp at hs
      | cons a l ih =>
        simp only [List.map_cons, List.nodup_cons] at hl
        rw [List.map_cons, List.sum_cons]
        rcases List.mem_cons.1 hs with rfl | hs
        · rw [if_pos rfl]
          have : (l.map fun t => if C.coll t.2 = C.coll s.2 then f t else 0) = l.map fun _ => 0 :=
            List.map_congr_left fun t ht => if_neg fun e => hl.1 (List.mem_map.2 ⟨t, ht, e⟩)
          rw [this]
          simp
        · rw [if_neg fun e => hl.1 (List.mem_map.2 ⟨s, hs, e.symm⟩), zero_add, ih hl.2 hs]
    rw [hsum _ h.coll_inj hs]
  · rw [if_neg hv, foldl_update_away _ _ _ (by rw [List.map_map]; exact hv)]
    have hr : C.contactBlocks x = C.active.flatMap (C.contactRow x) := rfl
    have hcol (s : List ℕ × ℕ) (hs : s ∈ C.active) (b : MBlock) (hb : b ∈ C.contactRow x s) : b.col < ns := by
      obtain ⟨t, ht, j, e⟩ := C.contactRow_col x s b hb
      rw [e]
      exact h.corner s hs t ht j
    have hl : (List.range ns).foldl (fun (g : ℕ → V3 ℝ) j => Function.update g (C.surf j)
        (((C.contactBlocks x).filter fun b => b.col = j).map fun b =>
          b.val.transpose.mulVec ((C.active.map f).getD b.row 0)).sum) (fun _ => 0) =
        ((List.range ns).map fun j => (C.surf j, (((C.contactBlocks x).filter fun b => b.col = j).map fun b =>
          b.val.transpose.mulVec ((C.active.map f).getD b.row 0)).sum)).foldl
            (fun (g : ℕ → V3 ℝ) (p : ℕ × V3 ℝ) => Function.update g p.1 p.2) fun _ => 0 := by
      rw [List.foldl_map]
    rw [hl]
    by_cases hm : v ∈ (List.range ns).map C.surf
    · obtain ⟨j, hj, rfl⟩ := List.mem_map.1 hm
      have hj' : j < ns := List.mem_range.1 hj
      have hn : (((List.range ns).map fun j => (C.surf j,
          (((C.contactBlocks x).filter fun b => b.col = j).map fun b =>
            b.val.transpose.mulVec ((C.active.map f).getD b.row 0)).sum)).map Prod.fst).Nodup := by
        rw [List.map_map]
        refine List.Nodup.map_on ?_ List.nodup_range
        intro a ha b hb e
        exact h.surf_inj a (List.mem_range.1 ha) b (List.mem_range.1 hb) e
      have := foldl_update_mem _ hn (fun _ => 0) (C.surf j, (((C.contactBlocks x).filter fun b => b.col = j).map
        fun b => b.val.transpose.mulVec ((C.active.map f).getD b.row 0)).sum) (List.mem_map.2 ⟨j, hj, rfl⟩)
      rw [this]
      have hfilter (l : List MBlock) (g : MBlock → V3 ℝ) :
          ((l.filter fun b => b.col = j).map g).sum = (l.map fun b => if b.col = j then g b else 0).sum := by
        induction l with
        | nil => rfl
        | cons a l ih =>
          by_cases ha : a.col = j
          · rw [List.filter_cons_of_pos (by simpa using ha), List.map_cons, List.sum_cons, ih, List.map_cons,
              List.sum_cons, if_pos ha]
          · rw [List.filter_cons_of_neg (by simpa using ha), ih, List.map_cons, List.sum_cons, if_neg ha, zero_add]
      rw [hfilter, hr, sum_map_flatMap]
      dsimp only
      congr 1
      refine List.map_congr_left fun s hs => ?_
      congr 1
      refine List.map_congr_left fun b hb => ?_
      rw [C.contactRow_row x s b hb, getD_row C 0 f s hs]
      have : (C.surf b.col = C.surf j) ↔ b.col = j :=
        ⟨fun e => h.surf_inj _ (hcol s hs b hb) _ hj' e, fun e => by rw [e]⟩
      simp only [this]
    · rw [foldl_update_away _ _ _ (by rw [List.map_map]; exact hm)]
      have h0 : (C.active.map fun s => ((C.contactRow x s).map fun b =>
          if C.surf b.col = v then b.val.transpose.mulVec (f s) else 0).sum) = C.active.map fun _ => 0 := by
        refine List.map_congr_left fun s hs => ?_
        have : ((C.contactRow x s).map fun b =>
          if C.surf b.col = v then b.val.transpose.mulVec (f s) else 0) = (C.contactRow x s).map fun _ => 0 :=
          List.map_congr_left fun b hb => if_neg fun e =>
            hm (List.mem_map.2 ⟨b.col, List.mem_range.2 (hcol s hs b hb), e⟩)
        rw [this]
        simp
      rw [h0]
      simp

end Spot

namespace SameContact

variable {C C' : Pair} (h : SameContact σ τ C C') {x : ℕ → V3 ℝ} (hd : DefiniteContact C x)

include h

theorem active : Reordered (SameSpot σ τ C C') C.active C'.active :=
  h.spots.filter fun p p' hp => by
    have := spot_ne hp
    cases e : p.1 with
    | nil => rw [this.2 e]
    | cons a l =>
      cases e' : p'.1 with
      | nil => rw [this.1 e'] at e; cases e
      | cons a' l' => rfl

theorem faceVelocity (v : ℕ → V3 ℝ) (s : ℕ) : C'.faceVelocity (renumber σ v) (τ s) = C.faceVelocity v s :=
  (h.samples v).pos s

include hd

/-- The blocks of a contact Jacobian. -/
theorem jacobians {p p' : List ℕ × ℕ} (hm : p ∈ C.nbrs.zipIdx) (hne : p.1 ≠ [])
    (hp : SameSpot σ τ C C' p p') : ∃ J J' : ℕ → M3 ℝ,
      contactJacobianAt (C.query x p.2) p.1 (C.samples x) C.kernel params = some (p.1.map J) ∧
      contactJacobianAt (C'.query (renumber σ x) p'.2) p'.1 (C'.samples (renumber σ x)) C'.kernel params =
        some (p'.1.map J') ∧ ∀ i, J' (τ i) = J i := by
  have hs := h.samples x
  obtain ⟨b, b', e, e', -, -, -, -, -, -, -, -, hb⟩ := local_same hs hp.1 (hd p hm hne) hne none
  have hq := queryJacobianAt_same_none hs hp.1 (hd p hm hne) hne
  have hg : ∃ g, queryJacobianAt (C.query x p.2) p.1 (C.samples x) none C.kernel params = some g := by
    simp only [queryJacobianAt, Bg.new, e, Option.map_some]
    exact ⟨_, rfl⟩
  obtain ⟨g, hg⟩ := hg
  rw [hg] at hq
  have hu (i : ℕ) : Contact.unitNormal (C'.samples (renumber σ x)) (τ i) = Contact.unitNormal (C.samples x) i := by
    unfold Contact.unitNormal
    rw [hs.nml]
  have hw : weightNmlSumInv C.kernel b'.dist (C.query x p.2) p'.1 (C'.samples (renumber σ x)) g =
      weightNmlSumInv C.kernel b.dist (C.query x p.2) p.1 (C.samples x) g := by
    unfold weightNmlSumInv
    rw [hb.dist, sum_view hp.1 fun i => by rw [weight_same hs, hu]]
  refine ⟨_, _, by rw [contactJacobianAt, e, Option.bind_some, hg, Option.map_some],
    by rw [contactJacobianAt, h.query x hp, h.kernel, e', Option.bind_some, hq, Option.map_some], fun i => ?_⟩
  unfold sampleContactJacobian
  rw [hw, hb.dist]
  simp only [hu, weight_same hs]

theorem pushed {p p' : List ℕ × ℕ} (hm : p ∈ C.nbrs.zipIdx) (hne : p.1 ≠ []) (hp : SameSpot σ τ C C' p p')
    (v : ℕ → V3 ℝ) : C'.pushed (renumber σ x) (renumber σ v) p' = C.pushed x v p := by
  obtain ⟨J, J', e, e', hJ⟩ := h.jacobians hd hm hne hp
  unfold Pair.pushed
  rw [e, e', Option.getD_some, Option.getD_some]
  have hz (l : List ℕ) (J : ℕ → M3 ℝ) (g : ℕ → M3 ℝ → V3 ℝ) :
      (l.zip (l.map J)).map (fun s => g s.1 s.2) = l.map fun i => g i (J i) := by
    rw [List.zip_map_right, List.map_map]
    induction l with
    | nil => rfl
    | cons a l ih => rw [List.zip_cons_cons, List.map_cons, ih]; rfl
  rw [hz _ _ fun i m => m.mulVec (C'.faceVelocity (renumber σ v) i), hz _ _ fun i m => m.mulVec (C.faceVelocity v i)]
  exact sum_view hp.1 fun i => by rw [hJ, h.faceVelocity]

theorem row {p p' : List ℕ × ℕ} (hm : p ∈ C.nbrs.zipIdx) (hne : p.1 ≠ []) (hp : SameSpot σ τ C C' p p')
    (f : V3 ℝ) (v : ℕ) :
    ((C'.contactRow (renumber σ x) p').map fun b =>
        if C'.surf b.col = σ v then b.val.transpose.mulVec f else 0).sum =
      ((C.contactRow x p).map fun b => if C.surf b.col = v then b.val.transpose.mulVec f else 0).sum := by
  obtain ⟨J, J', e, e', hJ⟩ := h.jacobians hd hm hne hp
  unfold Pair.contactRow
  rw [e, e', Option.getD_some, Option.getD_some, sum_map_flatMap, sum_map_flatMap]
  have hz (l : List ℕ) (J : ℕ → M3 ℝ) (g : ℕ → M3 ℝ → V3 ℝ) :
      (l.zip (l.map J)).map (fun s => g s.1 s.2) = l.map fun i => g i (J i) := by
    rw [List.zip_map_right, List.map_map]
    induction l with
    | nil => rfl
    | cons a l ih => rw [List.zip_cons_cons, List.map_cons, ih]; rfl
  simp only [List.map_map, Function.comp_def]
  rw [hz p'.1 J' fun i m => ((List.finRange 3).map fun j => if C'.surf ((C'.tris i).get j) = σ v then
      ((1 / 3 : ℝ) • m).transpose.mulVec f else 0).sum,
    hz p.1 J fun i m => ((List.finRange 3).map fun j => if C.surf ((C.tris i).get j) = v then
      ((1 / 3 : ℝ) • m).transpose.mulVec f else 0).sum]
  refine sum_view hp.1 fun i => ?_
  obtain ⟨k, hk⟩ := h.corners i
  simp only [hk, σ.apply_eq_iff_eq, hJ]
  rw [← List.ofFn_eq_map, ← List.ofFn_eq_map, List.sum_ofFn, List.sum_ofFn]
  exact Equiv.sum_comp (Equiv.addRight k) fun j => if C.surf ((C.tris i).get j) = v then
      ((1 / 3 : ℝ) • J i).transpose.mulVec f else 0

theorem normal {p p' : List ℕ × ℕ} (hm : p ∈ C.nbrs.zipIdx) (hne : p.1 ≠ []) (hp : SameSpot σ τ C C' p p') :
    spotNormal C' (renumber σ x) p' = spotNormal C x p := by
  unfold spotNormal
  rw [h.query x hp, h.kernel, queryJacobianAt_same (h.samples x) hp.1 (hd p hm hne) hne]

theorem velocity {p p' : List ℕ × ℕ} (hm : p ∈ C.nbrs.zipIdx) (hne : p.1 ≠ []) (hp : SameSpot σ τ C C' p p')
    (v : ℕ → V3 ℝ) : spotVelocity C' (renumber σ x) (renumber σ v) p' = spotVelocity C x v p := by
  unfold spotVelocity
  rw [h.pushed hd hm hne hp, hp.2, renumber_apply]

theorem multiplier {p p' : List ℕ × ℕ} (hm : p ∈ C.nbrs.zipIdx) (hne : p.1 ≠ [])
    (hp : SameSpot σ τ C C' p p') : spotLambda C' (renumber σ x) p' = spotLambda C x p := by
  unfold spotLambda
  rw [h.distance hd hm hne hp, h.kappa, h.delta]

theorem friction {p p' : List ℕ × ℕ} (hm : p ∈ C.nbrs.zipIdx) (hne : p.1 ≠ []) (hp : SameSpot σ τ C C' p p')
    (q : Friction.Params) (v : ℕ → V3 ℝ) :
    spotFriction C' q (renumber σ x) (renumber σ v) p' = spotFriction C q x v p := by
  unfold spotFriction
  rw [h.normal hd hm hne hp, h.velocity hd hm hne hp, h.multiplier hd hm hne hp]

theorem potential {p p' : List ℕ × ℕ} (hm : p ∈ C.nbrs.zipIdx) (hne : p.1 ≠ []) (hp : SameSpot σ τ C C' p p')
    (q : Friction.Params) (v : ℕ → V3 ℝ) :
    spotPotential C' q (renumber σ x) (renumber σ v) p' = spotPotential C q x v p := by
  unfold spotPotential
  rw [h.normal hd hm hne hp, h.velocity hd hm hne hp, h.multiplier hd hm hne hp]

theorem frictionPotential (q : Friction.Params) (v : ℕ → V3 ℝ) (dq : ℝ) :
    C'.frictionPotential q (renumber σ x) (renumber σ v) dq = C.frictionPotential q x v dq := by
  by_cases hq : q.isNone
  · unfold Pair.frictionPotential
    rw [if_pos hq, if_pos hq]
  · rw [frictionPotential_spot _ _ _ _ _ hq, frictionPotential_spot _ _ _ _ _ hq]
    congr 1
    refine h.active.sum fun p hm p' hp => ?_
    obtain ⟨hm, hne⟩ := List.mem_filter.1 hm
    exact h.potential hd hm (by simpa using hne) hp q v

theorem subtractFriction {ns ns' N N' : ℕ} (hC : C.Distinct ns N) (hC' : C'.Distinct ns' N')
    (q : Friction.Params) (v f : ℕ → V3 ℝ) :
    C'.subtractFriction ns' q (renumber σ x) (renumber σ v) (renumber σ f) =
      renumber σ (C.subtractFriction ns q x v f) := by
  unfold Pair.subtractFriction Pair.frictionForce
  by_cases hq : q.isNone
  · rw [if_pos hq, if_pos hq]
  · rw [if_neg hq, if_neg hq]
    refine renumber_eq fun i => ?_
    simp only [renumber_apply]
    congr 1
    rw [constraintFriction_spot, constraintFriction_spot, transposeMul_spot C hC, transposeMul_spot C' hC']
    have hmem : σ i ∈ C'.active.map (fun s => C'.coll s.2) ↔ i ∈ C.active.map fun s => C.coll s.2 := by
      have := h.active.all (p := fun s => C.coll s.2 ≠ i) (q := fun s => C'.coll s.2 ≠ σ i)
        fun p _ p' hp => by rw [hp.2, ne_eq, σ.apply_eq_iff_eq]
      rw [← not_iff_not]
      simpa [List.mem_map] using this
    simp only [hmem]
    have key (p : List ℕ × ℕ) (hp : p ∈ C.active) : p ∈ C.nbrs.zipIdx ∧ p.1 ≠ [] := by
      obtain ⟨hm, hne⟩ := List.mem_filter.1 hp
      exact ⟨hm, by simpa using hne⟩
    split
    · congr 1
      refine h.active.sum fun p hm p' hp => ?_
      obtain ⟨hm, hne⟩ := key p hm
      rw [hp.2, h.friction hd hm hne hp]
      simp only [σ.apply_eq_iff_eq]
    · refine h.active.sum fun p hm p' hp => ?_
      obtain ⟨hm, hne⟩ := key p hm
      rw [h.friction hd hm hne hp, h.row hd hm hne hp]

end SameContact

end Softy.Numbering
