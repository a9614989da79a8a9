import Verif.Props.ApartGripping
import Verif.Props.MeshMass

/-!
# C124: objects with a rigid material

Such an object should keep its shape and move as a rigid body with the given density. The vertices of its
cells are degrees of freedom, but no element is made of its tetrahedra, and its triangles are refused.
-/

noncomputable section

namespace Softy.Mesh

variable {P : Type*}

/-- All cells at the vertex are tetrahedra with a rigid material. -/
def OnlyRigid (cells : List (Cell × Material)) (i : ℕ) : Prop :=
  ∀ c ∈ cells, i ∈ c.1.verts → c.2 = .rigid ∧ c.1.ty = .tetrahedron

theorem elements_of {p : Cell × Material → Bool} {density : Cell × Material → Option ℝ}
    {cells : List (Cell × Material)} {es : List Element}
    (h : (cells.filter p).mapM (mkElement density) = some es) :
    ∀ e ∈ es, ∃ c ∈ cells, p c = true ∧ density c = some e.density ∧ e.verts = c.1.verts := by
  intro e he
  have hf := mapM_some _ _ _ h
  have : ∃ c ∈ cells.filter p, mkElement density c = some e := by
    clear h
    generalize cells.filter p = l at hf
    induction hf with
    | nil => cases he
    | @cons a b l1 l2 hab _ ih =>
      rcases List.mem_cons.1 he with rfl | he
      · exact ⟨a, List.mem_cons_self, hab⟩
      · obtain ⟨c, hc, e'⟩ := ih he
        exact ⟨c, List.mem_cons_of_mem _ hc, e'⟩
  obtain ⟨c, hc, e'⟩ := this
  obtain ⟨hc, hp⟩ := List.mem_filter.1 hc
  refine ⟨c, hc, hp, ?_⟩
  unfold mkElement at e'
  split at e'
  · rename_i d hd
    split_ifs at e'
    cases e'
    exact ⟨hd, rfl⟩
  · cases e'

/-- C124, refuted. No element is made of a tetrahedron with a rigid material: a vertex that belongs to
nothing else has no element and mass zero, whatever the density of the material. -/
theorem rigid_massless_violated (types : List VertexType) (cells : List (Cell × Material)) (n : ℕ)
    (nh snh tris : List Element) (h1 : tetElements .neoHookean types cells = some nh)
    (h2 : tetElements .stableNeoHookean types cells = some snh) (h3 : triElements types cells = some tris)
    (i : ℕ) (hi : OnlyRigid cells i) :
    (∀ e ∈ nh ++ snh ++ tris, i ∉ e.verts) ∧
      (i < n → (vertexMasses nh snh tris n)[i]? = some 0) := by
  have tet : ∀ model es, tetElements model types cells = some es → ∀ e ∈ es, i ∉ e.verts := by
    intro model es h e he hie
    obtain ⟨c, hc, hp, -, hv⟩ := elements_of h e he
    have := (hi c hc (hv ▸ hie)).1
    simp [isTet, this] at hp
  have tri : ∀ e ∈ tris, i ∉ e.verts := by
    intro e he hie
    obtain ⟨c, hc, hp, -, hv⟩ := elements_of h3 e he
    have := (hi c hc (hv ▸ hie)).2
    simp [isTri, this] at hp
  have all : ∀ e ∈ nh ++ snh, i ∉ e.verts := by
    intro e he
    rcases List.mem_append.1 he with he | he
    · exact tet _ _ h1 e he
    · exact tet _ _ h2 e he
  refine ⟨fun e he => ?_, fun hn => ?_⟩
  · rcases List.mem_append.1 he with he | he
    · exact all e he
    · exact tri e he
  · rw [vertexMasses_get _ _ _ _ _ hn, List.sum_eq_zero, List.sum_eq_zero, add_zero]
    · intro y hy
      obtain ⟨e, he, rfl⟩ := List.mem_map.1 hy
      rw [List.count_eq_zero.2 (tri e he)]
      simp
    · intro y hy
      obtain ⟨e, he, rfl⟩ := List.mem_map.1 hy
      rw [List.count_eq_zero.2 (all e he)]
      simp

/-- C124, refuted. A mesh with a triangle of a rigid material is refused, unless the density is given as
an attribute or all vertices of the triangle are fixed. -/
theorem rigid_shell_violated {materials : List Material} {m : Input P} (hm : m.WF)
    (mcells : List (Cell × Material)) (vt : List VertexType)
    (hprep : prepare materials m = .ok (mcells, vt)) (c : Cell × Material) (hc : c ∈ mcells)
    (hr : c.2 = .rigid) (hty : c.1.ty = .triangle) (hd : c.1.density = none) (v : ℕ)
    (hv : v ∈ c.1.verts) (hf : vt[v]? ≠ some .fixed) : ∃ f, build materials m = .error f := by
  cases hb : build materials m with
  | error f => exact ⟨f, rfl⟩
  | ok s =>
    exfalso
    obtain ⟨vt', hb⟩ := build_ok hb
    have hlen := built_length hm hb
    obtain ⟨mcells', hprep', hs⟩ := hb.prep
    rw [hprep] at hprep'
    cases hprep'
    obtain ⟨d, hdm, hdv, hdt⟩ := prepare_cells hprep c hc
    obtain ⟨hvalid, hlt⟩ := hm.cells d hdm
    have hvn : v < vt.length := hlen ▸ hlt v (hdv ▸ hv)
    have hmem : v ∈ sortOrder vt := sortOrder_mem.2 hvn
    set c' : Cell × Material := (renumber (sortOrder vt) c.1, c.2) with hc'
    have hp : isTri (sortTypes vt) c' = true := by
      have h1 : c'.1.ty = .triangle := hty
      have h2 : c'.1.valid := by
        have : c'.1.verts.length = c.1.verts.length := List.length_map _
        rw [Cell.valid, this, hdv, show c'.1.ty = d.ty from hdt]
        exact hvalid
      have h3 : someNotFixed (sortTypes vt) c'.1 = true := by
        rw [someNotFixed_iff]
        refine ⟨(sortOrder vt).idxOf v, List.mem_map.2 ⟨v, hv, rfl⟩, ?_⟩
        rw [sortTypes_eq, gather_get _ _ fun i hi => sortOrder_mem.1 hi, List.getElem?_idxOf hmem]
        exact hf
      simp [isTri, h1, h2, h3]
    unfold mkState at hs
    split at hs
    · rename_i nh snh tris e1 e2 e3
      have hcm : c' ∈ (mcells.map fun c => (renumber (sortOrder vt) c.1, c.2)).filter
          (isTri (sortTypes vt)) := List.mem_filter.2 ⟨List.mem_map.2 ⟨c, hc, rfl⟩, hp⟩
      have hf := mapM_some _ _ _ e3
      have : ∃ e, mkElement triDensity c' = some e := by
        clear e3 hs
        generalize (mcells.map fun c => (renumber (sortOrder vt) c.1, c.2)).filter
          (isTri (sortTypes vt)) = l at hf hcm
        induction hf with
        | nil => cases hcm
        | @cons a b l1 l2 hab _ ih =>
          rcases List.mem_cons.1 hcm with h | h
          · exact ⟨b, h ▸ hab⟩
          · exact ih h
      obtain ⟨e, he⟩ := this
      have h0 : triDensity c' = none := by
        have h1 : c'.1.density = none := hd
        have h2 : c'.2 = .rigid := hr
        simp [triDensity, h1, h2]
      simp [mkElement, h0] at he
    · cases hs

/-- C124, the part that holds: the vertices of cells with a rigid material are recognised, also those shared
with soft cells, unless they are fixed. Missing: everything that should follow from it. -/
theorem rigid_marked_partial {materials : List Material} {m : Input P} (hm : m.WF)
    (mcells : List (Cell × Material)) (vt : List VertexType)
    (hprep : prepare materials m = .ok (mcells, vt)) (c : Cell × Material) (hc : c ∈ mcells)
    (hr : c.2 = .rigid) (v : ℕ) (hv : v ∈ c.1.verts) :
    vt[v]? = some .rigid ∨ vt[v]? = some .fixed ∧ ∃ x, (initFixed m.verts.length m.fixed)[v]? = some x ∧ 0 < x := by
  obtain ⟨d, hdm, hdv, -⟩ := prepare_cells hprep c hc
  have hvn : v < (initFixed m.verts.length m.fixed).length := by
    rw [initFixed_length _ _ hm.fixed]
    exact (hm.cells d hdm).2 v (hdv ▸ hv)
  have hR : ∃ c ∈ mcells, c.2.isRigid = true ∧ v ∈ c.1.verts := ⟨c, hc, by rw [hr]; rfl, hv⟩
  rw [prepare_types hprep, vertexTypes_get, List.getElem?_eq_getElem hvn, Option.map_some]
  unfold typeSpec
  by_cases h : 0 < (initFixed m.verts.length m.fixed)[v]
  · exact Or.inr ⟨by rw [if_pos h], _, rfl, h⟩
  · exact Or.inl (by rw [if_neg h, if_pos hR])

/-- A tetrahedron with a rigid material next to one with a solid material. -/
def twoTets : List (Cell × Material) :=
  [(⟨.tetrahedron, [0, 1, 2, 3], 1, none, 0⟩, .rigid),
    (⟨.tetrahedron, [4, 5, 6, 7], 1, none, 1⟩, .solid .neoHookean (some 2))]

example : OnlyRigid twoTets 0 ∧ ¬OnlyRigid twoTets 4 := by
  simp [OnlyRigid, twoTets]

example : ∃ nh snh tris,
    tetElements .neoHookean (List.replicate 4 .rigid ++ List.replicate 4 .free) twoTets = some nh ∧
    tetElements .stableNeoHookean (List.replicate 4 .rigid ++ List.replicate 4 .free) twoTets = some snh ∧
    triElements (List.replicate 4 .rigid ++ List.replicate 4 .free) twoTets = some tris ∧
    nh.length = 1 := by
  simp [tetElements, triElements, twoTets, isTet, isTri, Cell.valid, CellType.size, someNotFixed,
    mkElement, tetDensity, List.replicate]
  rw [if_neg (by norm_num)]
  exact ⟨_, rfl, rfl⟩

/-- One triangle. -/
def oneTri : Input ℕ :=
  ⟨[⟨0, 0⟩, ⟨1, 0⟩, ⟨2, 0⟩], none, none, ⟨3, 1, none, none⟩, [⟨.triangle, [0, 1, 2], 1, none, 0⟩]⟩

example : oneTri.WF ∧ prepare [.rigid] oneTri =
    .ok ([(⟨.triangle, [0, 1, 2], 1, none, 0⟩, .rigid)], [.rigid, .rigid, .rigid]) := by
  refine ⟨?_, ?_⟩
  · constructor <;> simp [oneTri, Cell.valid, CellType.size]
  · simp [prepare, oneTri, initMaterialId, assignMaterials, withMaterials, vertexTypes, initFixed,
      fixedTypes, markRigid, markFree, markCell, Material.isSoft, Material.isRigid,
      List.replicate, List.modify_cons]

end Softy.Mesh

namespace Softy.Apart

open Softy Assembly Fem Contact

/-- All elements and zones are made of vertices in `s`. Contacts may involve others. -/
def Solids (S : Touching) (s : Set ℕ) : Prop := Only { S with contacts := [] } s

/-- C124, refuted. Gravity does not act on a vertex without elements and it has no inertia. Its equation
says that contact and friction forces on it vanish, or, in schemes that use the forces `prev` of the
previous stage, cancel those. -/
theorem rigid_equation_violated {S : Gripping} {s : Set ℕ} (h : Solids S.toTouching s) {i : ℕ} (hi : i ∉ s)
    (fm pm : ℝ) (prev v0 x v r f : ℕ → V3 ℝ) (hr : S.residual fm pm prev v0 x v = some (r, f)) :
    f i = S.contactForce x i + S.frictionForce x v i ∧
      r i = (S.dt * fm) • f i + if 0 < pm then (S.dt * pm) • prev i else 0 := by
  classical
  obtain ⟨r1, f1, e1, rfl, rfl⟩ := (grip_residual_some _ _ _ _ _ _ _ _ _).1 hr
  have ht : total S.toTouching x v (S.dt * fm) i = S.contactForce x i := by
    have := total_off h x v (S.dt * fm) hi
    have hz : ({ S.toTouching with contacts := [] } : Touching).contactForce x i = 0 := by
      simp [Touching.contactForce]
    unfold total at this ⊢
    rw [hz, add_zero] at this
    rw [this.symm.trans rfl |>.symm, zero_add]
  have hm : S.mass i = 0 := mass_off h hi
  rw [residual_if] at e1
  split_ifs at e1 with hk
  rw [Option.some.injEq, Prod.mk.injEq] at e1
  rw [← e1.1, ← e1.2]
  refine ⟨by simp only [ht], ?_⟩
  simp only [finish, ht, hm, gt_iff_lt, zero_smul, ite_self, add_zero]
  split_ifs
  · module
  · module

/-- C124, refuted. If nothing touches the vertices outside `s`, a step has no equation for them: when some
motion solves the step, so does any other motion that agrees with it on `s`. There are then no forces on
these vertices, so there were none in the previous stage either. -/
theorem rigid_any_motion_violated {S : Gripping} {s : Set ℕ} (h : GripOnly S s) (fm pm : ℝ)
    {prev v0 x x' v v' f : ℕ → V3 ℝ} (hp : ∀ i ∉ s, prev i = 0) (hx : ∀ i ∈ s, x i = x' i)
    (hv : ∀ i ∈ s, v i = v' i) (hr : S.residual fm pm prev v0 x v = some (fun _ => 0, f)) :
    ∃ f', S.residual fm pm prev v0 x' v' = some (fun _ => 0, f') ∧ ∀ i ∉ s, f' i = 0 := by
  obtain ⟨r', f', e, h'⟩ := grip_residual_local h fm pm (fun _ _ => rfl) (fun _ _ => rfl) hx hv hr
  have key : ∀ i ∉ s, f' i = 0 ∧ r' i = 0 := by
    intro i hi
    have hs : Solids S.toTouching s := ⟨h.base.nh, h.base.snh, h.base.tris, h.base.hinges, h.base.zones,
      by simp, by simp⟩
    obtain ⟨h1, h2⟩ := rigid_equation_violated hs hi fm pm prev v0 x' v' r' f' e
    have : S.contactForce x' i = 0 := by
      refine List.sum_eq_zero fun y hy => ?_
      obtain ⟨C, hC, rfl⟩ := List.mem_map.1 hy
      exact C.contact_force_others x' _ i (Or.inr fun j e => hi (e ▸ h.base.object C hC j))
        (Or.inr fun j e => hi (e ▸ h.base.collider C hC j))
    rw [grips_off h x' v' hi, this, add_zero] at h1
    refine ⟨h1, ?_⟩
    rw [h2, h1, hp i hi]
    simp
  refine ⟨f', ?_, fun i hi => (key i hi).1⟩
  rw [e, show r' = fun _ => 0 from ?_]
  funext i
  by_cases hi : i ∈ s
  · exact (h' i hi).1
  · exact (key i hi).2

/-- C124, refuted. The matrix of the linear system has zero rows and columns for such vertices, so it is
singular. -/
theorem rigid_singular_violated {S : Gripping} {s : Set ℕ} (h : GripOnly S s) (hN : S.Within)
    (hD : S.toProblem.Distinct) (y u x v : ℕ → V3 ℝ) (q fmul : ℝ) {n k : ℕ} (hk : k < n) (hks : k / 3 ∉ s) :
    (Matrix.of fun i j : Fin n => gripEntry S y u x v q fmul i j).det = 0 :=
  Matrix.det_eq_zero_of_row_eq_zero ⟨k, hk⟩ fun _ => gripEntry_outside h hN hD y u x v q fmul
    fun c => hks c.1

open Classical in
/-- C124, refuted. A rigid object holds nothing up: if the vertices outside `s` have no elements, then in
every step the momentum of what is made of vertices in `s` changes as in free fall, whatever touches it.
This is for contacts without friction. -/
theorem rigid_floor_violated {S : Touching} {s : Set ℕ} (h : Solids S s) (hN : S.Within) (hp : S.Paired)
    (hC : ∀ P ∈ S.volumes, Volume.Closed P.topo)
    (hobj : ∀ C ∈ S.contacts, C.objectFixed = false) (hcol : ∀ C ∈ S.contacts, C.colliderFixed = false)
    (fm pm : ℝ) (hpm : 0 ≤ pm) (h1 : fm + pm = 1) (hs : ¬ S.isStatic)
    (prev v0 x v f xp vp : ℕ → V3 ℝ) (qp : ℝ) (hc : S.Regular x) (hcp : S.Regular xp)
    (hprev : S.force xp vp qp = some prev) (r : ℕ → V3 ℝ) (hr : ∀ i, i < S.numVertices → r i = 0)
    (hres : S.residual fm pm prev v0 x v = some (r, f)) :
    ∑ i ∈ (Finset.range S.numVertices).filter (· ∈ s), S.mass i • (v i - v0 i) =
      S.timeStep • (S.totalMass • S.gravity) := by
  rw [← contact_momentum_conserved S hN hp hC hobj hcol fm pm hpm h1 hs prev v0 x v f xp vp qp hc hcp hprev r
    hr hres, Finset.sum_filter]
  unfold Problem.momentum
  rw [← Finset.sum_sub_distrib]
  refine Finset.sum_congr rfl fun i _ => ?_
  split_ifs with hi
  · rw [smul_sub]
  · have hm : S.mass i = 0 := mass_off h hi
    rw [hm]
    simp

/-! ## The hypotheses are met -/

/-- The tetrahedron `0, 1, 2, 4` is soft. The vertices of a rigid one are `3, 5, 6, 7`. -/
def exSoft : Gripping := { exLeft with grips := [] }

theorem exSoft_only : GripOnly exSoft {0, 1, 2, 4} :=
  ⟨exSeparated.2.1, fun L hL => by simp [exSoft] at hL, fun L hL => by simp [exSoft] at hL⟩

example : exSoft.gravity = ⟨0, -981 / 100, 0⟩ := rfl

/-- The rigid one may be touched by the soft one. -/
example : Solids { exLeft with contacts := [exGap] } {0, 1, 2, 4} ∧ exGap.coll 1 ∉ ({0, 1, 2, 4} : Set ℕ) :=
  ⟨exSeparated.2.1, by simp [exGap]⟩

/-- A scene with nothing but a rigid tetrahedron, under gravity. -/
def exRigid : Gripping := { exSoft with snh := [], snhDensity := [] }

theorem exRigid_residual (fm : ℝ) (v0 x v : ℕ → V3 ℝ) :
    ∃ f, exRigid.residual fm 0 (fun _ => 0) v0 x v = some (fun _ => 0, f) := by
  classical
  have ho : GripOnly exRigid ∅ := by
    refine ⟨?_, fun L hL => by simp [exRigid, exSoft] at hL, fun L hL => by simp [exRigid, exSoft] at hL⟩
    constructor <;> simp [exRigid, exSoft, exLeft, exTet]
  have hk : Ok exRigid.toProblem x v (exRigid.dt * fm) := by
    constructor <;> simp [exRigid, exSoft, exLeft, exTet]
  obtain ⟨r, f, hr⟩ : ∃ r f, exRigid.residual fm 0 (fun _ => 0) v0 x v = some (r, f) :=
    ⟨_, _, (grip_residual_some exRigid fm 0 (fun _ => 0) v0 x v _ _).2
      ⟨_, _, by rw [residual_if, if_pos hk], rfl, rfl⟩⟩
  refine ⟨f, ?_⟩
  rw [hr, show r = fun _ => 0 from ?_]
  funext i
  have hs : Solids exRigid.toTouching ∅ := ⟨ho.base.nh, ho.base.snh, ho.base.tris, ho.base.hinges,
    ho.base.zones, by simp, by simp⟩
  obtain ⟨h1, h2⟩ := rigid_equation_violated hs (i := i) (by simp) fm 0 _ v0 x v _ _ hr
  have hc : exRigid.contactForce x i = 0 := by
    simp [Touching.contactForce, exRigid, exSoft, exLeft]
  rw [grips_off ho x v (i := i) (by simp), hc, add_zero] at h1
  rw [h2, h1]
  simp

/-- C124, refuted: any motion whatsoever of a rigid tetrahedron solves the step, under gravity. -/
theorem rigid_floats_violated : exRigid.gravity = ⟨0, -981 / 100, 0⟩ ∧ 0 < exRigid.dt ∧
    ∀ (fm : ℝ) (v0 x v : ℕ → V3 ℝ),
      ∃ f, exRigid.residual fm 0 (fun _ => 0) v0 x v = some (fun _ => 0, f) := by
  refine ⟨rfl, ?_, exRigid_residual⟩
  unfold Problem.dt
  split_ifs <;> norm_num [exRigid, exSoft, exLeft, exTet]

/-- A soft tetrahedron with the vertices `0, 1, 2, 4` over a vertex `3` of a rigid object that is within the
radius of the kernel. -/
def exFloor : Touching :=
  { exTet with
    snh := [⟨![0, 1, 2, 4], ⟨⟨⟨-1 / 3, 1 / 3, 0⟩, ⟨-1 / 3, 0, 1 / 3⟩, ⟨5 / 9, -1 / 3, -1 / 3⟩⟩, 27 / 2, 2, 1⟩, 1⟩]
    contacts := [{ demo with delta := 1 / 4 }]
    numVertices := 5
    numActive := 5 }

theorem exFloor_rest : exFloor.AtRest demoX := by
  refine ⟨?_, ?_, ?_, ?_⟩ <;> intro e he
  · simp [exFloor, exTet] at he
  · simp only [exFloor, List.mem_singleton] at he
    subst he
    refine ⟨?_, by norm_num⟩
    ext <;> simp [Tet.shape, TetElem.pick, demoX, Field.demoVerts, M3.mul, M3.mulVec, M3.transpose, V3.dot, M3.diag] <;>
      norm_num
  · simp [exFloor, exTet] at he
  · simp [exFloor, exTet] at he

theorem exFloor_idle : ∀ C ∈ exFloor.contacts, Idle demoX C := by
  intro C hC d hd
  rw [show C = { demo with delta := 1 / 4 } by simpa [exFloor] using hC] at hd ⊢
  rw [Pair.distances_eq] at hd
  rw [show ({ demo with delta := 1 / 4 } : Pair).active = [([0], 1)] from rfl, List.map_singleton,
    List.mem_singleton] at hd
  rw [hd, show ({ demo with delta := 1 / 4 } : Pair).distance demoX ([0], 1) = demo.distance demoX ([0], 1) from rfl,
    demo_distance]
  norm_num

/-- The hypotheses of `rigid_floor_violated` are met. -/
example : Solids exFloor {0, 1, 2, 4} ∧ exFloor.Within ∧ exFloor.Paired ∧ ¬exFloor.isStatic ∧
    exFloor.Regular demoX ∧ exFloor.contacts ≠ [] ∧
    ∃ prev f, exFloor.force demoX (fun _ => 0) 1 = some prev ∧
      exFloor.residual 1 0 prev (fun _ => 0) demoX (fun _ => 0 + exFloor.timeStep • exFloor.gravity) =
        some (fun _ => 0, f) := by
  have hC : ∀ C ∈ exFloor.contacts, C = { demo with delta := 1 / 4 } := fun C hC => by simpa [exFloor] using hC
  have hst : ¬exFloor.isStatic := by norm_num [Problem.isStatic, exFloor, exTet]
  refine ⟨?_, ?_, fun e he => by simp [exFloor, exTet] at he, hst, ?_, by simp [exFloor], ?_⟩
  · constructor <;> simp only [exFloor, exTet, List.not_mem_nil, false_imp_iff, implies_true]
    intro e he
    rw [List.mem_singleton.1 he]
    intro n
    fin_cases n <;> simp
  · refine ⟨⟨⟨?_, ?_, ?_⟩, ?_⟩, ?_, ?_, ?_, ?_, ?_⟩
    · intro e he; simp [exFloor, exTet] at he
    · intro e he n
      simp only [exFloor, List.mem_singleton] at he
      subst he
      fin_cases n <;> simp [exFloor]
    · exact ⟨fun e he => by simp [exFloor, exTet] at he, fun e he => by simp [exFloor, exTet] at he⟩
    · intro P hP; simp [exFloor, exTet] at hP
    · intro D hD; rw [hC D hD]; exact demo_surf
    · intro D hD; rw [hC D hD]; exact demo_coll
    · intro D hD; rw [hC D hD]; simp [demo]
    · intro D hD; rw [hC D hD]; simp [demo]
    · intro D hD; rw [hC D hD]; exact ⟨demo_separate.1, demo_separate.2⟩
  · intro C h
    rw [hC C h]
    exact ⟨fun _ => 0, demo_regular⟩
  · classical
    have hz : ∀ i, exFloor.toSealed.pressure demoX i = 0 := fun i => by
      simp [Volume.Sealed.pressure, exFloor, exTet]
    have hc : ∀ i, exFloor.contactForce demoX i = 0 := fun i => by
      refine List.sum_eq_zero fun y hy => ?_
      obtain ⟨C, h, rfl⟩ := List.mem_map.1 hy
      rw [(idle_contact (exFloor_idle C h) _).2]
    have hf := rest_force exFloor.toProblem demoX (fun _ => 0) 0 (fun _ => rfl) 1 exFloor_rest
    have hr := free_fall exFloor.toProblem 1 0 (by norm_num) le_rfl hst 0 0 demoX demoX _ 1 exFloor_rest
      (fun i => (add_zero _).symm) hf
    have h1 := exFloor.force_eq demoX (fun _ => 0) 1 _ (exFloor.toSealed.force_eq demoX (fun _ => 0) 1 _ hf)
    have h2 := exFloor.residual_eq 1 0 _ _ _ _ _ _ (exFloor.toSealed.residual_eq 1 0 _ _ _ _ _ _ hr)
    simp only [hz, hc, add_zero, smul_zero] at h1 h2
    exact ⟨_, _, h1, h2⟩

end Softy.Apart
