import Verif.Lemmas.NumberingElastic

/-!
# Problems with other numbers
-/

noncomputable section

namespace Softy.Numbering

open Softy Assembly Fem

variable {σ : Equiv.Perm ℕ}

/-! ## Gravity and inertia -/

/-- The same element for gravity and inertia. -/
def SameBody {m : ℕ} (σ : Equiv.Perm ℕ) (b b' : Body m) : Prop :=
  ∃ π : Equiv.Perm (Fin m), (∀ i, b'.cell i = σ (b.cell (π i))) ∧ b'.measure = b.measure ∧
    b'.density = b.density

/-- The order of the corners does not matter for the centroid. -/
def Kind.Symmetric {m : ℕ} (K : Kind m) : Prop :=
  ∀ (π : Equiv.Perm (Fin m)) (p : Fin m → V3 ℝ), K.centroid (fun i => p (π i)) = K.centroid p

theorem tetKind_symmetric : Kind.Symmetric tetKind := by
  intro π p
  have h := Equiv.sum_comp π p
  rw [Fin.sum_univ_four, Fin.sum_univ_four] at h
  simp only [tetKind, h]

theorem triKind_symmetric : Kind.Symmetric triKind := by
  intro π p
  have h := Equiv.sum_comp π p
  rw [Fin.sum_univ_three, Fin.sum_univ_three] at h
  simp only [triKind, h]

section Body

variable {m : ℕ} {K : Kind m} {bs bs' : List (Body m)}

theorem gravityEnergy_renumber (hK : Kind.Symmetric K) (h : Reordered (SameBody σ) bs bs') (g : V3 ℝ)
    (x : ℕ → V3 ℝ) : gravityEnergy K g bs' (renumber σ x) = gravityEnergy K g bs x := by
  refine h.sum fun b _ b' hb => ?_
  obtain ⟨π, hc, hm, hd⟩ := hb
  simp only [hc, renumber_apply, hm, hd]
  rw [hK π fun i => x (b.cell i)]

theorem gravityGradient_renumber (h : Reordered (SameBody σ) bs bs') (g : V3 ℝ) (G : ℕ → V3 ℝ) :
    gravityGradient K g bs' (renumber σ G) = renumber σ (gravityGradient K g bs G) := by
  refine addAll_renumber (sameAdds_flatMap h fun b _ b' hb => ?_) G
  obtain ⟨π, hc, hm, hd⟩ := hb
  refine sameAdds_zipCell π hc fun i => ?_
  simp only [Body.lump, hm, hd]

theorem inertiaGradient_renumber (h : Reordered (SameBody σ) bs bs') (v0 v G : ℕ → V3 ℝ) :
    inertiaGradient K bs' (renumber σ v0) (renumber σ v) (renumber σ G) =
      renumber σ (inertiaGradient K bs v0 v G) := by
  refine addAll_renumber (sameAdds_flatMap h fun b _ b' hb => ?_) G
  obtain ⟨π, hc, hm, hd⟩ := hb
  refine sameAdds_zipCell π hc fun i => ?_
  simp only [Body.lump, hm, hd, hc, renumber_apply]

theorem inertiaEnergy_renumber (h : Reordered (SameBody σ) bs bs') (v0 v : ℕ → V3 ℝ) :
    inertiaEnergy K bs' (renumber σ v0) (renumber σ v) = inertiaEnergy K bs v0 v := by
  refine h.sum fun b _ b' hb => ?_
  obtain ⟨π, hc, hm, hd⟩ := hb
  simp only [Body.lump, hm, hd, hc, renumber_apply]
  congr 2
  rw [← List.ofFn_eq_map, ← List.ofFn_eq_map, List.sum_ofFn, List.sum_ofFn]
  exact Equiv.sum_comp π fun i => V3.dot (v (b.cell i) - v0 (b.cell i)) (v (b.cell i) - v0 (b.cell i))

end Body

/-! ## Elements with their densities -/

/-- The same element with the same density. -/
def Dense {α : Type} (R : α → α → Prop) (p p' : α × ℝ) : Prop := R p.1 p'.1 ∧ p'.2 = p.2

/-- The same problem: its elements, each with its density, and its hinges are in any order, the corners of
elements too, and the vertices have new numbers. -/
structure SameProblem (σ : Equiv.Perm ℕ) (P P' : Problem) : Prop where
  nh : Reordered (Dense (SameTet σ)) (P.nh.zip P.nhDensity) (P'.nh.zip P'.nhDensity)
  snh : Reordered (Dense (SameTet σ)) (P.snh.zip P.snhDensity) (P'.snh.zip P'.snhDensity)
  tris : Reordered (Dense (SameTri σ)) (P.shell.tris.zip P.shellDensity) (P'.shell.tris.zip P'.shellDensity)
  hinges : Reordered (SameHinge σ P.shell.faces P'.shell.faces) P.shell.dihedrals P'.shell.dihedrals
  nhCount : P.nhDensity.length = P.nh.length ∧ P'.nhDensity.length = P'.nh.length
  snhCount : P.snhDensity.length = P.snh.length ∧ P'.snhDensity.length = P'.snh.length
  triCount : P.shellDensity.length = P.shell.tris.length ∧ P'.shellDensity.length = P'.shell.tris.length
  gravity : P'.gravity = P.gravity
  timeStep : P'.timeStep = P.timeStep

theorem dense_fst {α : Type} {R : α → α → Prop} {l l' : List α} {d d' : List ℝ}
    (h : Reordered (Dense R) (l.zip d) (l'.zip d')) (hl : d.length = l.length ∧ d'.length = l'.length) :
    Reordered R l l' := by
  have := h.map (R' := R) (f := Prod.fst) (g := Prod.fst) fun _ _ _ hab => hab.1
  rwa [List.map_fst_zip hl.1.ge, List.map_fst_zip hl.2.ge] at this

theorem dense_tetBodies {l l' : List TetElem} {d d' : List ℝ}
    (h : Reordered (Dense (SameTet σ)) (l.zip d) (l'.zip d')) :
    Reordered (SameBody σ) (tetBodies l d) (tetBodies l' d') := by
  refine h.map fun p _ p' hp => ?_
  obtain ⟨⟨π, hc, hr, -⟩, hd⟩ := hp
  exact ⟨π, hc, hr.2.1, hd⟩

theorem dense_triBodies {l l' : List TriElem} {d d' : List ℝ}
    (h : Reordered (Dense (SameTri σ)) (l.zip d) (l'.zip d')) :
    Reordered (SameBody σ) (triBodies l d) (triBodies l' d') := by
  refine h.map fun p _ p' hp => ?_
  obtain ⟨⟨π, hc, hr, -⟩, hd⟩ := hp
  exact ⟨π, hc, hr.2.1, hd⟩

namespace SameProblem

variable {P P' : Problem} (h : SameProblem σ P P')

include h

theorem nhElems : Reordered (SameTet σ) P.nh P'.nh := dense_fst h.nh h.nhCount
theorem snhElems : Reordered (SameTet σ) P.snh P'.snh := dense_fst h.snh h.snhCount
theorem shell : SameShell σ P.shell P'.shell := ⟨dense_fst h.tris h.triCount, h.hinges⟩
theorem nhBodies : Reordered (SameBody σ) P.nhBodies P'.nhBodies := dense_tetBodies h.nh
theorem snhBodies : Reordered (SameBody σ) P.snhBodies P'.snhBodies := dense_tetBodies h.snh
theorem shellBodies : Reordered (SameBody σ) P.shellBodies P'.shellBodies := dense_triBodies h.tris

theorem isStatic : P'.isStatic ↔ P.isStatic := by
  unfold Problem.isStatic
  rw [h.timeStep]

theorem dt : P'.dt = P.dt := by
  classical
  unfold Problem.dt
  simp only [h.isStatic, h.timeStep]

theorem energy (x v : ℕ → V3 ℝ) (q : ℝ) :
    P'.energy (renumber σ x) (renumber σ v) q = P.energy x v q := by
  unfold Problem.energy
  rw [tetEnergy_renumber h.nhElems, tetEnergy_renumber h.snhElems, h.shell.energy, h.gravity,
    gravityEnergy_renumber tetKind_symmetric h.nhBodies, gravityEnergy_renumber tetKind_symmetric h.snhBodies,
    gravityEnergy_renumber triKind_symmetric h.shellBodies]

theorem inertia (v0 v : ℕ → V3 ℝ) : P'.inertia (renumber σ v0) (renumber σ v) = P.inertia v0 v := by
  unfold Problem.inertia
  rw [inertiaEnergy_renumber h.nhBodies, inertiaEnergy_renumber h.snhBodies,
    inertiaEnergy_renumber h.shellBodies]

theorem force (x v : ℕ → V3 ℝ) (q : ℝ) :
    P'.force (renumber σ x) (renumber σ v) q = (P.force x v q).map (renumber σ) := by
  unfold Problem.force
  have h0 : (fun _ : ℕ => (0 : V3 ℝ)) = renumber σ fun _ => 0 := rfl
  rw [h0, tetGradient_renumber h.nhElems, ← h0]
  cases tetGradient .nh P.nh x v q fun _ => 0 with
  | none => rfl
  | some r =>
    simp only [Option.map_some, Option.bind_some]
    rw [tetGradient_renumber h.snhElems]
    cases tetGradient .snh P.snh x v q r with
    | none => rfl
    | some r =>
      simp only [Option.map_some, Option.bind_some]
      rw [h.gravity, gravityGradient_renumber h.nhBodies, gravityGradient_renumber h.snhBodies,
        h.shell.gradient, gravityGradient_renumber h.shellBodies]

theorem momentumDiff (v0 v r : ℕ → V3 ℝ) :
    P'.momentumDiff (renumber σ v0) (renumber σ v) (renumber σ r) = renumber σ (P.momentumDiff v0 v r) := by
  unfold Problem.momentumDiff
  rw [inertiaGradient_renumber h.nhBodies, inertiaGradient_renumber h.snhBodies,
    inertiaGradient_renumber h.shellBodies]

end SameProblem

/-! ## Volumes -/

/-- The same triangle of a surface: new numbers of the vertices, and it may start at another corner. -/
def SameFace (σ : Equiv.Perm ℕ) (t t' : Fin 3 → ℕ) : Prop := ∃ k : Fin 3, ∀ i, t' i = σ (t (i + k))

/-- The same volume. -/
structure SameVolume (σ : Equiv.Perm ℕ) (V V' : Volume.Penalty) : Prop where
  topo : Reordered (SameFace σ) V.topo V'.topo
  restVolume : V'.restVolume = V.restVolume
  pressurization : V'.pressurization = V.pressurization
  compression : V'.compression = V.compression

theorem signedVolume_renumber {l l' : List (Fin 3 → ℕ)} (h : Reordered (SameFace σ) l l') (x : ℕ → V3 ℝ) :
    Volume.signedVolume l' (renumber σ x) = Volume.signedVolume l x := by
  unfold Volume.signedVolume
  congr 1
  refine h.sum fun t _ t' ht => ?_
  obtain ⟨k, hk⟩ := ht
  simp only [hk, renumber_apply]
  fin_cases k
  · rfl
  · show V3.dot (x (t 1)) (V3.cross (x (t 2)) (x (t 0))) = V3.dot (x (t 0)) (V3.cross (x (t 1)) (x (t 2)))
    simp only [V3.dot, V3.cross]; ring
  · show V3.dot (x (t 2)) (V3.cross (x (t 0)) (x (t 1))) = V3.dot (x (t 0)) (V3.cross (x (t 1)) (x (t 2)))
    simp only [V3.dot, V3.cross]; ring

theorem vertexNormal_renumber {l l' : List (Fin 3 → ℕ)} (h : Reordered (SameFace σ) l l') (x : ℕ → V3 ℝ)
    (v : ℕ) : Volume.vertexNormal l' (renumber σ x) (σ v) = Volume.vertexNormal l x v := by
  refine sameAdds_flatMap h (fun t _ t' ht => ?_) v
  obtain ⟨k, hk⟩ := ht
  refine sameAdds_zipCell (Equiv.addRight k) (fun i => hk i) fun i => ?_
  simp only [Volume.Penalty.normals, hk, renumber_apply]
  fin_cases k <;> fin_cases i <;> rfl

namespace SameVolume

variable {V V' : Volume.Penalty} (h : SameVolume σ V V') (x : ℕ → V3 ℝ)

include h

theorem dv : V'.dv (renumber σ x) = V.dv x := by
  unfold Volume.Penalty.dv
  rw [signedVolume_renumber h.topo, h.restVolume, h.pressurization]

theorem energy : V'.energy (renumber σ x) = V.energy x := by
  unfold Volume.Penalty.energy
  rw [h.dv, h.restVolume, h.pressurization, h.compression]

theorem forces (v : ℕ) : V'.forces (renumber σ x) (σ v) = V.forces x v := by
  rw [Volume.forces_eq, Volume.forces_eq, vertexNormal_renumber h.topo]
  unfold Volume.Penalty.factor
  rw [h.dv, h.compression]

end SameVolume

/-- The same problem with volumes. -/
structure SameSealed (σ : Equiv.Perm ℕ) (S S' : Volume.Sealed) : Prop where
  problem : SameProblem σ S.toProblem S'.toProblem
  volumes : Reordered (SameVolume σ) S.volumes S'.volumes

namespace SameSealed

variable {S S' : Volume.Sealed} (h : SameSealed σ S S')

include h

theorem energy (x v : ℕ → V3 ℝ) (q : ℝ) :
    S'.energy (renumber σ x) (renumber σ v) q = S.energy x v q := by
  unfold Volume.Sealed.energy
  rw [h.problem.energy]
  congr 1
  funext e
  rw [Volume.foldl_energy, Volume.foldl_energy, h.volumes.sum fun V _ V' hV => hV.energy x]

theorem force (x v : ℕ → V3 ℝ) (q : ℝ) :
    S'.force (renumber σ x) (renumber σ v) q = (S.force x v q).map (renumber σ) := by
  have hp := h.problem.force x v q
  cases hf : S.toProblem.force x v q with
  | none =>
    rw [hf] at hp
    simp only [Volume.Sealed.force, hf, hp, Option.map_none]
  | some f =>
    rw [hf, Option.map_some] at hp
    rw [Volume.Sealed.force_eq S x v q f hf, Volume.Sealed.force_eq S' _ _ q _ hp, Option.map_some]
    congr 1
    refine renumber_eq fun i => ?_
    rw [renumber_apply]
    congr 1
    exact h.volumes.sum fun V _ V' hV => hV.forces x i

end SameSealed

end Softy.Numbering
