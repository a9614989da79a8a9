import Verif.Model.Export
import Verif.Props.Contact
import Verif.Props.Solver

/-!
# Reading out the mesh

Property C80: the attributes of the mesh belong to the vertices that the state holds, and reading out the
mesh twice gives the same mesh.
-/

noncomputable section

namespace Softy.Export

open Softy Softy.Contact Softy.Field

/-- Specification: the lists of a state belong to the same `n` vertices, which are renumbered by a
permutation, and contacts refer to these vertices. -/
structure Proper (s : State) (n : ℕ) : Prop where
  orig : s.orig.Perm (List.range n)
  pos : s.pos.length = n
  vel : s.vel.length = n
  residual : s.residual.length = n
  massInv : s.massInv.length = n
  prevForce : s.prevForce.length = n
  coll : ∀ c ∈ s.contacts, ∀ i < c.1.nbrs.length, c.1.coll i < n
  inj : ∀ c ∈ s.contacts, (colliders c.1).Nodup

/-- Specification: the list has the value `a` at the place that the original mesh gives to vertex `i`. -/
def ReportedAt {α : Type*} (s : State) (out : List α) (i : ℕ) (a : α) : Prop :=
  ∃ v, s.orig[i]? = some v ∧ out[v]? = some a

theorem scatter_length {α : Type*} (n : ℕ) (d : α) (orig : List ℕ) (vals : List α) :
    (scatter n d orig vals).length = n := by
  unfold scatter
  generalize orig.zip vals = l
  have : ∀ (l : List (ℕ × α)) (out : List α),
      (l.foldl (fun out a => out.set a.1 a.2) out).length = out.length := by
    intro l
    induction l with
    | nil => intro out; rfl
    | cons a l ih => intro out; rw [List.foldl_cons, ih, List.length_set]
  rw [this, List.length_replicate]

theorem foldl_set_notin' {α : Type*} (l : List (ℕ × α)) (out : List α) (j : ℕ) (h : ∀ a ∈ l, a.1 ≠ j) :
    (l.foldl (fun out a => out.set a.1 a.2) out)[j]? = out[j]? := by
  induction l generalizing out with
  | nil => rfl
  | cons a l ih =>
    rw [List.foldl_cons, ih _ fun b hb => h b (List.mem_cons_of_mem _ hb),
      List.getElem?_set_ne (h a List.mem_cons_self)]

theorem foldl_set_mem' {α : Type*} (l : List (ℕ × α)) (out : List α) (hn : (l.map Prod.fst).Nodup)
    (a : ℕ × α) (ha : a ∈ l) (hl : a.1 < out.length) :
    (l.foldl (fun out a => out.set a.1 a.2) out)[a.1]? = some a.2 := by
  induction l generalizing out with
  | nil => simp at ha
  | cons b l ih =>
    rw [List.map_cons, List.nodup_cons] at hn
    rw [List.foldl_cons]
    rcases List.mem_cons.1 ha with rfl | ha
    · rw [foldl_set_notin' _ _ _ fun c hc e => hn.1 (List.mem_map.2 ⟨c, hc, e⟩)]
      exact List.getElem?_set_self hl
    · exact ih _ hn.2 ha (by rwa [List.length_set])

/-- Values end up at the original places. -/
theorem scatter_reported {α : Type*} {s : State} {n : ℕ} (h : Proper s n) (d : α) (vals : List α)
    (hl : vals.length = n) (i : ℕ) (a : α) (hi : vals[i]? = some a) :
    ReportedAt s (scatter s.orig.length d s.orig vals) i a := by
  have hlen : s.orig.length = n := by rw [h.orig.length_eq, List.length_range]
  have hin : i < n := hl ▸ (List.getElem?_eq_some_iff.1 hi).1
  obtain ⟨v, hv⟩ : ∃ v, s.orig[i]? = some v := ⟨_, List.getElem?_eq_getElem (hlen.symm ▸ hin)⟩
  refine ⟨v, hv, ?_⟩
  have hnd : ((s.orig.zip vals).map Prod.fst).Nodup := by
    rw [List.map_fst_zip (by omega)]
    exact h.orig.nodup_iff.2 List.nodup_range
  have hmem : (v, a) ∈ s.orig.zip vals := by
    refine List.mem_of_getElem? (i := i) ?_
    rw [List.getElem?_zip_eq_some]
    exact ⟨hv, hi⟩
  have hvn : v < n := by
    have := h.orig.mem_iff.1 (List.mem_of_getElem? hv)
    simpa using this
  exact foldl_set_mem' (s.orig.zip vals) (List.replicate s.orig.length d) hnd (v, a) hmem
    (by rw [List.length_replicate, hlen]; exact hvn)

/-- C80: positions, velocities, residuals, net forces and masses are reported at the vertices they belong to. -/
theorem mesh_attributes {s : State} {n : ℕ} (h : Proper s n) (i : ℕ) :
    (∀ a, s.pos[i]? = some a → ReportedAt s (mesh s).1.pos i a) ∧
    (∀ a, s.vel[i]? = some a → ReportedAt s (mesh s).1.vel i a) ∧
    (∀ a, s.residual[i]? = some a → ReportedAt s (mesh s).1.residual i a) ∧
    (∀ a, s.prevForce[i]? = some a → ReportedAt s (mesh s).1.netForce i a) ∧
    (∀ m, s.massInv[i]? = some m → ReportedAt s (mesh s).1.mass i (1 / m)) := by
  refine ⟨fun a ha => scatter_reported h _ _ h.pos i a ha, fun a ha => scatter_reported h _ _ h.vel i a ha,
    fun a ha => scatter_reported h _ _ h.residual i a ha,
    fun a ha => scatter_reported h _ _ h.prevForce i a ha,
    fun m hm => scatter_reported h _ _ (by rw [List.length_map, h.massInv]) i _
      (by rw [List.getElem?_map, hm]; rfl)⟩

/-- C80: the potential of contact `k` is reported as it was computed last: at the collider vertices; at
other vertices it is zero. -/
theorem mesh_potential {s : State} {n : ℕ} (h : Proper s n) (k : ℕ) (C : Pair) (cached : List ℝ)
    (hk : s.contacts[k]? = some (C, cached)) (hc : cached.length = C.nbrs.length) :
    ∃ out, (mesh s).1.potential[k]? = some out ∧
      (∀ i d, cached[i]? = some d → ReportedAt s out (C.coll i) d) ∧
      ∀ v < n, (∀ i < C.nbrs.length, C.coll i ≠ v) → ReportedAt s out v 0 := by
  have hlen : s.orig.length = n := by rw [h.orig.length_eq, List.length_range]
  have hmem := List.mem_of_getElem? hk
  have hcd : (Solver.cachedDistance s.orig.length (colliders C) cached).length = n := by
    unfold Solver.cachedDistance
    rw [Solver.foldl_set_length, List.length_replicate, hlen]
  refine ⟨scatter s.orig.length 0 s.orig (Solver.cachedDistance s.orig.length (colliders C) cached), ?_,
    ?_, ?_⟩
  · show (distancePotential s)[k]? = _
    unfold distancePotential
    rw [List.getElem?_map, hk]
    rfl
  · intro i d hd
    have hi : i < C.nbrs.length := hc ▸ (List.getElem?_eq_some_iff.1 hd).1
    refine scatter_reported h _ _ hcd _ _ ?_
    unfold Solver.cachedDistance
    refine foldl_set_mem' ((colliders C).zip cached) _ ?_ (C.coll i, d) ?_ ?_
    · rw [List.map_fst_zip (by simp [colliders, hc])]
      exact h.inj _ hmem
    · refine List.mem_of_getElem? (i := i) ?_
      rw [List.getElem?_zip_eq_some]
      refine ⟨?_, hd⟩
      unfold colliders
      rw [List.getElem?_map, List.getElem?_range hi]
      rfl
    · rw [List.length_replicate, hlen]
      exact h.coll _ hmem i hi
  · intro v hv hne
    refine scatter_reported h _ _ hcd _ _ ?_
    unfold Solver.cachedDistance
    rw [foldl_set_notin']
    · rw [List.getElem?_replicate, if_pos (hlen.symm ▸ hv)]
    · intro a ha
      have := (List.of_mem_zip ha).1
      unfold colliders at this
      obtain ⟨i, hi, e⟩ := List.mem_map.1 this
      rw [← e]
      exact hne i (List.mem_range.1 hi)

theorem foldl_force (l : List (Pair × List ℝ)) (x f : ℕ → V3 ℝ) (v : ℕ) :
    l.foldl (fun f c => c.1.subtractForce x f) f v =
      f v + (l.map fun c => c.1.subtractForce x (fun _ => 0) v).sum := by
  induction l generalizing f with
  | nil => simp
  | cons c l ih =>
    rw [List.foldl_cons, ih, Pair.contact_force_adds, List.map_cons, List.sum_cons]
    abel

/-- C80: the contact force that is reported is minus the gradient of the energy of all contacts, at the
positions that are reported. -/
theorem mesh_contact_force {s : State} {n : ℕ} (h : Proper s n) :
    ∃ F : ℕ → V3 ℝ, (∀ i < n, ReportedAt s (mesh s).1.contactForce i (F i)) ∧
      ∀ (x : ℝ → ℕ → V3 ℝ) (w : ℕ → V3 ℝ) (t : ℝ) (cl : Pair → List ℕ × ℕ → ℕ),
        (∀ v, s.pos.getD v 0 = x t v) → (∀ v, HasD (fun r => x r v) (w v) t) →
        (∀ c ∈ s.contacts, (∀ j, c.1.surf j < n) ∧ (∀ i, c.1.coll i < n) ∧
          (c.1.objectFixed = true → ∀ j, w (c.1.surf j) = 0) ∧
          (c.1.colliderFixed = true → ∀ i, w (c.1.coll i) = 0) ∧
          ∀ p ∈ c.1.active, Regular c.1.kernel params (c.1.query (x t) p.2) p.1 (c.1.samples (x t))
            (cl c.1 p)) →
        HasDerivAt (fun r => (s.contacts.map fun c => c.1.energy (x r)).sum)
          (-∑ v ∈ Finset.range n, V3.dot (F v) (w v)) t := by
  have hlen : s.orig.length = n := by rw [h.orig.length_eq, List.length_range]
  refine ⟨fun v => -contactForces s v, fun i hi =>
    scatter_reported h _ _ (by rw [List.length_map, List.length_range, hlen]) i _ ?_, ?_⟩
  · rw [List.getElem?_map, List.getElem?_range (hlen.symm ▸ hi)]
    rfl
  · intro x w t cl hx hw hc
    have hx' : at' s.pos = x t := funext hx
    have hd := sum_hasDeriv (l := s.contacts) (f := fun c r => c.1.energy (x r))
      (f' := fun c => -c.1.forcePower (x t) w n) (t := t) fun c hcm => by
        obtain ⟨h1, h2, h3, h4, h5⟩ := hc c hcm
        exact c.1.contact_force_gradient x w t n (cl c.1) h1 h2 hw h3 h4 h5
    refine hd.congr_deriv ?_
    unfold contactForces
    simp only [foldl_force, hx', zero_add]
    clear hd hc
    induction s.contacts with
    | nil => simp [V3.dot]
    | cons c l ih =>
      rw [List.map_cons, List.sum_cons, ih]
      unfold Pair.forcePower
      rw [← neg_add, ← Finset.sum_add_distrib]
      congr 1
      refine Finset.sum_congr rfl fun v _ => ?_
      rw [List.map_cons, List.sum_cons, ← dot_add_left, neg_add]

theorem contactForces_mesh (s : State) : contactForces (mesh s).2 = contactForces s := by
  unfold contactForces mesh
  simp only [List.foldl_map]

/-- C80, without residuals and potentials: reading out the mesh leaves what it shows as it is.
Missing: the residual, which is cleared (`mesh_residual_violated`), and the potentials, which may be those
of other positions the first time (`mesh_potential_violated`). -/
theorem mesh_repeat_partial (s : State) :
    (mesh (mesh s).2).1.pos = (mesh s).1.pos ∧ (mesh (mesh s).2).1.vel = (mesh s).1.vel ∧
    (mesh (mesh s).2).1.netForce = (mesh s).1.netForce ∧ (mesh (mesh s).2).1.mass = (mesh s).1.mass ∧
    (mesh (mesh s).2).1.contactForce = (mesh s).1.contactForce := by
  refine ⟨rfl, rfl, rfl, rfl, ?_⟩
  show scatter _ _ _ (List.map (fun v => -contactForces (mesh s).2 v) _) = _
  rw [contactForces_mesh]
  rfl

/-- C80: from the second time on, the mesh is the same. -/
theorem mesh_repeat_second (s : State) : mesh (mesh (mesh s).2).2 = mesh (mesh s).2 := by
  have e : (mesh (mesh s).2).2 = (mesh s).2 := by
    simp [mesh, List.map_map, Function.comp_def]
  rw [e]

/-- C80: the residual of the second mesh is zero. -/
theorem mesh_residual_cleared {s : State} {n : ℕ} (h : Proper s n) (i : ℕ) (hi : i < n) :
    ReportedAt (mesh s).2 (mesh (mesh s).2).1.residual i 0 := by
  refine scatter_reported (s := (mesh s).2) (n := n) ?_ _ _ (by simp [mesh, h.residual]) i 0 ?_
  · exact { h with
      residual := by simp [mesh, h.residual]
      coll := fun c hc => by
        obtain ⟨b, hb, rfl⟩ := List.mem_map.1 hc
        exact h.coll b hb
      inj := fun c hc => by
        obtain ⟨b, hb, rfl⟩ := List.mem_map.1 hc
        exact h.inj b hb }
  · simp only [mesh, List.getElem?_map]
    rw [List.getElem?_eq_getElem (h.residual.symm ▸ hi)]
    rfl

/-! ## Examples -/

/-- Five vertices, the contact of `Props/Contact.lean`, and a residual that is not zero. The contact has
just been created. -/
def demoState : State where
  orig := [4, 3, 2, 1, 0]
  pos := (List.range 5).map demoX
  vel := List.replicate 5 ⟨1, 0, 0⟩
  residual := List.replicate 5 ⟨0, 0, 1⟩
  massInv := List.replicate 5 2
  prevForce := List.replicate 5 0
  contacts := [(demo, [0, 0])]

theorem demo_proper : Proper demoState 5 where
  orig := by decide
  pos := rfl
  vel := rfl
  residual := rfl
  massInv := rfl
  prevForce := rfl
  coll c hc i hi := by
    simp only [demoState, List.mem_singleton] at hc
    subst hc
    exact demo_coll i
  inj c hc := by
    simp only [demoState, List.mem_singleton] at hc
    subst hc
    decide

example := mesh_attributes demo_proper 2

example := mesh_potential demo_proper 0 demo [0, 0] rfl rfl

example (w : ℕ → V3 ℝ) : ∃ F : ℕ → V3 ℝ,
    (∀ i < 5, ReportedAt demoState (mesh demoState).1.contactForce i (F i)) ∧
    HasDerivAt (fun r : ℝ => demo.energy fun v => demoState.pos.getD v 0 + r • w v)
      (-∑ v ∈ Finset.range 5, V3.dot (F v) (w v)) 0 := by
  obtain ⟨F, h1, h2⟩ := mesh_contact_force demo_proper
  refine ⟨F, h1, ?_⟩
  have e : (fun v => demoState.pos.getD v 0 + (0 : ℝ) • w v) = fun v => demoState.pos.getD v 0 := by
    funext v; ext <;> simp
  have := h2 (fun r v => demoState.pos.getD v 0 + r • w v) w 0 (fun _ _ => 0) (fun v => by ext <;> simp)
    (fun v => HasD.line _ _) ?_
  · simpa [demoState] using this
  · intro c hc
    simp only [demoState, List.mem_singleton] at hc
    subst hc
    refine ⟨demo_surf, demo_coll, by simp [demo], by simp [demo], ?_⟩
    rw [e]
    have hv : ∀ v < 5, demoState.pos.getD v 0 = demoX v := by
      intro v hv
      simp [demoState, List.getD_eq_getElem?_getD, hv]
    intro p hp
    have hs : demo.samples (fun v => demoState.pos.getD v 0) = demo.samples demoX := by
      unfold Pair.samples
      congr 1
      funext j
      exact hv _ (demo_surf j)
    have hq : demo.query (fun v => demoState.pos.getD v 0) p.2 = demo.query demoX p.2 :=
      hv _ (demo_coll p.2)
    rw [hs, hq]
    exact demo_regular p hp

example := mesh_residual_cleared demo_proper 2 (by norm_num)

/-- C80 fails: the first mesh shows a residual, the second one does not. -/
theorem mesh_residual_violated :
    ∃ s n, Proper s n ∧ (mesh (mesh s).2).1.residual ≠ (mesh s).1.residual := by
  refine ⟨demoState, 5, demo_proper, fun e => ?_⟩
  obtain ⟨v, hv, h1⟩ := mesh_residual_cleared demo_proper 0 (by norm_num)
  obtain ⟨v', hv', h2⟩ := (mesh_attributes demo_proper 0).2.2.1 ⟨0, 0, 1⟩ rfl
  have hvv : v = v' := by
    have : (mesh demoState).2.orig = demoState.orig := rfl
    rw [this, hv'] at hv
    exact (Option.some.inj hv).symm
  rw [hvv, e, h2] at h1
  have := congrArg V3.z (Option.some.inj h1)
  norm_num at this

/-- The positions of `demoState` with vertex 3 at another height. -/
def demoAt (z : ℝ) (v : ℕ) : V3 ℝ := if v = 3 then ⟨1, 1, z⟩ else demoX v

theorem demo_potentials (z : ℝ) (h0 : -1 < z) (h1 : z < 1) : demo.potentials (demoAt z) = [0, z] := by
  have hpos : (demo.samples (demoAt z)).pos 0 = ⟨1, 1, 0⟩ := by
    ext <;> simp [Pair.samples, faceSamples, demo, demoTri, demoAt, demoX, demoVerts]
  have hn : (demo.samples (demoAt z)).nml 0 = (9 : ℝ) • ⟨0, 0, 1⟩ := by
    ext <;> simp [Pair.samples, faceSamples, demo, demoTri, demoAt, demoX, demoVerts, areaNormal, V3.cross]
    norm_num
  have hq : demo.query (demoAt z) 1 = ⟨1, 1, z⟩ := by simp [Pair.query, demo, demoAt]
  have hnorm : ((⟨1, 1, z⟩ : V3 ℝ) - (demo.samples (demoAt z)).pos 0).norm < 1 := by
    rw [hpos]
    have : ((⟨1, 1, z⟩ : V3 ℝ) - ⟨1, 1, 0⟩) = ⟨0, 0, z⟩ := by ext <;> simp
    rw [this]
    simp only [V3.norm, V3.dot, mul_zero, zero_add]
    rw [Real.sqrt_mul_self_eq_abs]
    exact abs_lt.2 ⟨h0, h1⟩
  have e1 : potentialAt (demo.query (demoAt z) 1) [0] (demo.samples (demoAt z)) (.cubic 1) params 0 = z := by
    rw [hq, potential_plane (.cubic 1) params ⟨1, 1, z⟩ [0] (demo.samples (demoAt z)) 0 ?_ rfl ⟨0, 0, 1⟩
      (by simp [V3.dot]) 0 ?_ 0 (by simp) ?_]
    · simp [V3.dot]
    · exact { proper := one_pos, nonempty := by simp, center := Or.inl trivial,
              edge := Or.inr fun r h i hi => by
                cases h
                rw [List.mem_singleton.1 hi]
                exact hnorm.ne }
    · intro j hj
      rw [List.mem_singleton.1 hj]
      exact ⟨rfl, by rw [hpos]; simp [V3.dot], 9, by norm_num, hn⟩
    · intro r h
      cases h
      exact hnorm
  show [potentialAt _ [] _ _ _ 0, potentialAt (demo.query (demoAt z) 1) [0] _ (.cubic 1) params 0] = _
  rw [e1]
  rfl

/-- `demoState`, read out once, after which vertex 3 has been moved (`update_vertices`,
`problem.rs:632-643`, when it is fixed). -/
def movedState : State :=
  { (mesh demoState).2 with pos := (List.range 5).map (demoAt (1 / 4)) }

theorem moved_proper : Proper movedState 5 where
  orig := by decide
  pos := rfl
  vel := rfl
  residual := rfl
  massInv := rfl
  prevForce := rfl
  coll c hc i hi := by
    simp only [movedState, mesh, demoState, List.map_cons, List.map_nil, List.mem_singleton] at hc
    subst hc
    exact demo_coll i
  inj c hc := by
    simp only [movedState, mesh, demoState, List.map_cons, List.map_nil, List.mem_singleton] at hc
    subst hc
    decide

theorem potentials_list (x : ℕ → V3 ℝ) :
    demo.potentials (at' ((List.range 5).map x)) = demo.potentials x := by
  have : ∀ v < 5, at' ((List.range 5).map x) v = x v := by
    intro v hv
    simp [at', List.getD_eq_getElem?_getD, hv]
  show List.map _ _ = List.map _ _
  refine List.map_congr_left fun p hp => ?_
  have hs : demo.samples (at' ((List.range 5).map x)) = demo.samples x := by
    unfold Pair.samples
    congr 1
    funext j
    exact this _ (demo_surf j)
  have hq : demo.query (at' ((List.range 5).map x)) p.2 = demo.query x p.2 := this _ (demo_coll p.2)
  rw [hs, hq]

theorem moved_contacts : movedState.contacts = [(demo, [0, 1 / 2])] := by
  show [(demo, demo.potentials (at' ((List.range 5).map demoX)))] = _
  have e : demoX = demoAt (1 / 2) := by
    funext v
    unfold demoAt
    split_ifs with h
    · rw [h]; simp [demoX]
    · rfl
  rw [potentials_list, e, demo_potentials _ (by norm_num) (by norm_num)]

/-- C80 fails: the mesh shows a vertex at height 1/4 with potential 1/2. Reading out the mesh again, without
a change in between, gives potential 1/4. -/
theorem mesh_potential_violated :
    ∃ s n out out' v, Proper s n ∧
      ReportedAt s (mesh s).1.pos v ⟨1, 1, 1 / 4⟩ ∧
      (mesh s).1.potential[0]? = some out ∧ ReportedAt s out v (1 / 2) ∧
      (mesh (mesh s).2).1.potential[0]? = some out' ∧ ReportedAt s out' v (1 / 4) := by
  obtain ⟨out, ho, h1, -⟩ := mesh_potential moved_proper 0 demo [0, 1 / 2] (by rw [moved_contacts]; rfl) rfl
  have hc : (mesh movedState).2.contacts = [(demo, [0, 1 / 4])] := by
    show (movedState.contacts.map fun c => (c.1, c.1.potentials (at' movedState.pos))) = _
    rw [moved_contacts]
    show [(demo, demo.potentials (at' ((List.range 5).map (demoAt (1 / 4)))))] = _
    rw [potentials_list, demo_potentials _ (by norm_num) (by norm_num)]
  have hp : Proper (mesh movedState).2 5 :=
    { moved_proper with
      residual := rfl
      coll := fun c h i _ => by
        rw [hc, List.mem_singleton] at h
        subst h
        exact demo_coll i
      inj := fun c h => by
        rw [hc, List.mem_singleton] at h
        subst h
        decide }
  obtain ⟨out', ho', h1', -⟩ := mesh_potential hp 0 demo [0, 1 / 4] (by rw [hc]; rfl) rfl
  refine ⟨movedState, 5, out, out', 3, moved_proper, ?_, ho, h1 1 _ rfl, ho', h1' 1 _ rfl⟩
  exact (mesh_attributes moved_proper 3).1 _ rfl

/-- C80: the vertex that is far from the surface is shown with potential zero, as if it touched. -/
theorem mesh_far_violated :
    ∃ s n out v, Proper s n ∧ ReportedAt s (mesh s).1.pos v ⟨9, 9, 9⟩ ∧
      (mesh s).1.potential[0]? = some out ∧ ReportedAt s out v 0 := by
  obtain ⟨out, ho, h1, -⟩ := mesh_potential moved_proper 0 demo [0, 1 / 2] (by rw [moved_contacts]; rfl) rfl
  exact ⟨movedState, 5, out, 4, moved_proper, (mesh_attributes moved_proper 4).1 _ rfl, ho,
    h1 0 _ rfl⟩

end Softy.Export
