import Verif.Model.ContactCoords
import Verif.Props.ContactBasis
import Verif.Props.Remap

/-!
# C113 — vectors at contacts in polar and cylindrical coordinates; C114 — contact impulses
-/

noncomputable section

namespace Softy.ContactCoords

open ContactBasis (IsFrame frame)

/-! ## Specification -/

/-- Contact `i` has the right-handed orthonormal frame with normal `n` and first tangent `t`. -/
structure FrameAt (b : ContactBasis) (i : ℕ) (n t : V3 ℝ) : Prop where
  normal : b.normals[i]? = some n
  tangent : b.tangents[i]? = some t
  ortho : IsFrame n t (n.cross t)

/-- `p` are polar coordinates of `v` in the usual range. -/
structure IsPolar (p : Polar) (v : V2 ℝ) : Prop where
  x : v.x = p.radius * Real.cos p.angle
  y : v.y = p.radius * Real.sin p.angle
  nonneg : 0 ≤ p.radius
  lower : -Real.pi < p.angle
  upper : p.angle ≤ Real.pi

/-- `w` is the part of `v` in the plane perpendicular to `n`. -/
def IsTangentialPart (n v w : V3 ℝ) : Prop := n.dot w = 0 ∧ ∃ c : ℝ, v = w + c • n

/-- The tangential part is unique. -/
theorem isTangentialPart_unique {n v w w' : V3 ℝ} (hn : n.dot n = 1)
    (h : IsTangentialPart n v w) (h' : IsTangentialPart n v w') : w = w' := by
  obtain ⟨h0, c, rfl⟩ := h
  obtain ⟨h0', c', e⟩ := h'
  have ec : c = c' := by
    have := congrArg (fun u => n.dot u) e
    simp only [V3.dot, V3.add_x, V3.add_y, V3.add_z, V3.smul_x, V3.smul_y, V3.smul_z] at *
    linear_combination this - h0 + h0' - (c - c') * hn
  subst ec
  ext
  · have := congrArg V3.x e; simp only [V3.add_x] at this; linarith
  · have := congrArg V3.y e; simp only [V3.add_y] at this; linarith
  · have := congrArg V3.z e; simp only [V3.add_z] at this; linarith

/-! ## Polar coordinates -/

theorem norm_complex (v : V2 ℝ) : v.norm = ‖(⟨v.x, v.y⟩ : ℂ)‖ := by
  rw [Complex.norm_def, Complex.normSq_mk]
  rfl

/-- **C113.** Polar coordinates are polar coordinates, in the usual range. -/
theorem polar_isPolar (v : V2 ℝ) : IsPolar (Polar.ofEuclidean v) v := by
  refine ⟨?_, ?_, Real.sqrt_nonneg _, Complex.neg_pi_lt_arg _, Complex.arg_le_pi _⟩
  · have := Complex.norm_mul_cos_arg (⟨v.x, v.y⟩ : ℂ)
    rw [← norm_complex] at this
    exact this.symm
  · have := Complex.norm_mul_sin_arg (⟨v.x, v.y⟩ : ℂ)
    rw [← norm_complex] at this
    exact this.symm

/-- **C113.** A vector of the plane comes back from polar coordinates. -/
theorem polar_round (v : V2 ℝ) : (Polar.ofEuclidean v).toEuclidean = v := by
  have h := polar_isPolar v
  ext
  · exact h.x.symm
  · exact h.y.symm

/-- **C113.** Polar coordinates with a positive radius come back from the plane. -/
theorem polar_unique {p : Polar} (hr : 0 < p.radius) (ha : p.angle ∈ Set.Ioc (-Real.pi) Real.pi) :
    Polar.ofEuclidean p.toEuclidean = p := by
  have e : (⟨p.radius * Real.cos p.angle, p.radius * Real.sin p.angle⟩ : ℂ) =
      (p.radius : ℂ) * (Complex.cos p.angle + Complex.sin p.angle * Complex.I) := by
    apply Complex.ext
    · simp [Complex.cos_ofReal_re, Complex.sin_ofReal_re]
    · simp [Complex.cos_ofReal_re, Complex.sin_ofReal_re]
  ext
  · simp only [Polar.ofEuclidean, Polar.toEuclidean, V2.norm, V2.dot]
    have : p.radius * Real.cos p.angle * (p.radius * Real.cos p.angle) +
        p.radius * Real.sin p.angle * (p.radius * Real.sin p.angle) = p.radius ^ 2 := by
      have := Real.sin_sq_add_cos_sq p.angle
      linear_combination p.radius ^ 2 * this
    rw [this, Real.sqrt_sq hr.le]
  · simp only [Polar.ofEuclidean, Polar.toEuclidean, atan2]
    rw [e, Complex.arg_mul_cos_add_sin_mul_I hr ha]

/-- The origin has radius and angle zero. -/
theorem polar_zero : Polar.ofEuclidean 0 = ⟨0, 0⟩ := by
  ext
  · simp [Polar.ofEuclidean, V2.norm, V2.dot]
  · simp only [Polar.ofEuclidean, atan2, V2.zero_x, V2.zero_y]
    exact Complex.arg_zero

/-- What is missing in `polar_unique`: with radius zero the angle is lost. -/
theorem polar_unique_missing (a : ℝ) (ha : a ≠ 0) :
    Polar.ofEuclidean (Polar.toEuclidean ⟨0, a⟩) ≠ ⟨0, a⟩ := by
  have : Polar.toEuclidean ⟨0, a⟩ = 0 := by ext <;> simp [Polar.toEuclidean]
  rw [this, polar_zero]
  intro h
  exact ha (congrArg Polar.angle h).symm

/-- Cylindrical coordinates are the first component and polar coordinates of the others. -/
theorem cyl_ofEuclidean (v : V3 ℝ) :
    Cyl.ofEuclidean v = ⟨v.x, Polar.ofEuclidean ⟨v.y, v.z⟩⟩ := rfl

theorem cyl_round (v : V3 ℝ) : (Cyl.ofEuclidean v).toEuclidean = v := by
  have h := polar_isPolar ⟨v.y, v.z⟩
  ext
  · rfl
  · exact h.x.symm
  · exact h.y.symm

theorem cyl_unique {c : Cyl} (hr : 0 < c.tangent.radius)
    (ha : c.tangent.angle ∈ Set.Ioc (-Real.pi) Real.pi) :
    Cyl.ofEuclidean c.toEuclidean = c := by
  have h := polar_unique hr ha
  ext
  · rfl
  · exact congrArg Polar.radius h
  · exact congrArg Polar.angle h

/-! ## Contacts -/

theorem FrameAt.matrix {b : ContactBasis} {i : ℕ} {n t : V3 ℝ} (h : FrameAt b i n t) :
    b.contactBasisMatrix i = some (frame n t) := by
  simp [ContactBasis.contactBasisMatrix, h.normal, h.tangent]

/-- Frames built from unit normals are frames. -/
theorem frameAt_of_normals {ns : List (V3 ℝ)} (hns : ContactBasis.UnitNormals ns) {i : ℕ}
    (hi : i < ns.length) :
    FrameAt (ContactBasis.updateFromNormals ns) i ns[i] (ContactBasis.tangentFor ns[i]) :=
  ⟨by simp [ContactBasis.updateFromNormals, hi], by simp [ContactBasis.updateFromNormals, hi],
    ContactBasis.frame_of_lt hns hi⟩

/-- **C113.** A vector comes back from the cylindrical coordinates at a contact. The first
coordinate is its normal component, and the others are polar coordinates of its components
along the two tangents. -/
theorem cylindrical_round {b : ContactBasis} {i : ℕ} {n t : V3 ℝ} (h : FrameAt b i n t)
    (v : V3 ℝ) :
    ∃ c, toCylindrical b v i = some c ∧ fromCylindrical b c i = some v ∧ c.normal = n.dot v ∧
      IsPolar c.tangent ⟨t.dot v, (n.cross t).dot v⟩ := by
  refine ⟨Cyl.ofEuclidean ((frame n t).mulVec v), ?_, ?_, rfl, ?_⟩
  · simp [toCylindrical, ContactBasis.toContactCoordinates, h.matrix]
  · simp [fromCylindrical, ContactBasis.fromContactCoordinates, h.matrix, cyl_round,
      h.ortho.resolve]
  · rw [cyl_ofEuclidean]
    exact polar_isPolar _

/-- **C113.** The radius is the length of the tangential part, such as the sliding speed. -/
theorem cylindrical_radius {b : ContactBasis} {i : ℕ} {n t : V3 ℝ} (h : FrameAt b i n t)
    {v w : V3 ℝ} (hw : IsTangentialPart n v w) {c : Cyl} (hc : toCylindrical b v i = some c) :
    c.tangent.radius = w.norm := by
  obtain ⟨c', h1, -, -, hp⟩ := cylindrical_round h v
  rw [hc] at h1
  obtain rfl : c = c' := by simpa using h1
  obtain ⟨h0, k, rfl⟩ := hw
  have hf := h.ortho
  have hw' := hf.resolve w
  have e : c.tangent.radius ^ 2 = w.dot w := by
    have hx := hp.x
    have hy := hp.y
    have hcs := Real.sin_sq_add_cos_sq c.tangent.angle
    have e1 : c.tangent.radius ^ 2 = (t.dot (w + k • n)) ^ 2 + ((n.cross t).dot (w + k • n)) ^ 2 := by
      simp only at hx hy
      rw [hx, hy]
      linear_combination -c.tangent.radius ^ 2 * hcs
    have e2 : t.dot (w + k • n) = t.dot w := by
      have := hf.nt
      simp only [V3.dot, V3.add_x, V3.add_y, V3.add_z, V3.smul_x, V3.smul_y, V3.smul_z] at *
      linear_combination k * this
    have e3 : (n.cross t).dot (w + k • n) = (n.cross t).dot w := by
      have := hf.nb
      simp only [V3.dot, V3.add_x, V3.add_y, V3.add_z, V3.smul_x, V3.smul_y, V3.smul_z] at *
      linear_combination k * this
    have e4 : w.dot w = w.dot ((frame n t).transpose.mulVec ((frame n t).mulVec w)) := by rw [hw']
    rw [e1, e2, e3, e4]
    simp only [frame, M3.mulVec, M3.transpose, V3.dot] at *
    generalize n.cross t = q at *
    linear_combination -(n.x * w.x + n.y * w.y + n.z * w.z) * h0
  unfold V3.norm
  rw [← e, Real.sqrt_sq hp.nonneg]

/-- **C113.** Coordinates that are given one by one, a normal component, a radius and an angle, are those
of the vector with this normal component, whose tangential part has this length and, from the first
tangential axis, this angle. -/
theorem cylindrical_given (normal radius angle : ℝ) :
    (Cyl.mk' normal radius angle).toEuclidean =
      ⟨normal, radius * Real.cos angle, radius * Real.sin angle⟩ := rfl

/-- **C113.** Cylindrical coordinates with a positive radius come back from the vector. -/
theorem cylindrical_unique {b : ContactBasis} {i : ℕ} {n t : V3 ℝ} (h : FrameAt b i n t)
    {c : Cyl} (hr : 0 < c.tangent.radius)
    (ha : c.tangent.angle ∈ Set.Ioc (-Real.pi) Real.pi) :
    ∃ v, fromCylindrical b c i = some v ∧ toCylindrical b v i = some c := by
  refine ⟨(frame n t).transpose.mulVec c.toEuclidean,
    by simp [fromCylindrical, ContactBasis.fromContactCoordinates, h.matrix], ?_⟩
  simp [toCylindrical, ContactBasis.toContactCoordinates, h.matrix, h.ortho.resolve',
    cyl_unique hr ha]

/-- Non-vacuity: a slanted contact with a sliding velocity. -/
example : FrameAt (ContactBasis.updateFromNormals [⟨0, 0, 1⟩, ⟨3 / 5, 0, 4 / 5⟩]) 1 ⟨3 / 5, 0, 4 / 5⟩
    (ContactBasis.tangentFor ⟨3 / 5, 0, 4 / 5⟩) ∧
    IsTangentialPart ⟨3 / 5, 0, 4 / 5⟩ ⟨1, 2, 2⟩ ⟨1 - 33 / 25, 2, 2 - 44 / 25⟩ := by
  refine ⟨frameAt_of_normals (i := 1) ?_ (by simp), ?_, 11 / 5, ?_⟩
  · intro n hn
    simp only [List.mem_cons, List.not_mem_nil, or_false] at hn
    rcases hn with rfl | rfl <;> norm_num [V3.dot]
  · norm_num [V3.dot]
  · ext <;> simp only [V3.add_x, V3.add_y, V3.add_z, V3.smul_x, V3.smul_y, V3.smul_z] <;> norm_num

/-! ## Lists of vectors -/

theorem projectOut_length : ∀ ns vs : List (V3 ℝ), (projectOut ns vs).length = vs.length
  | _ :: ns, _ :: vs => by simp [projectOut, projectOut_length ns vs]
  | [], _ => by simp [projectOut]
  | _ :: _, [] => by simp [projectOut]

theorem projectOut_getElem? : ∀ (ns vs : List (V3 ℝ)) (i : ℕ) (n v : V3 ℝ),
    ns[i]? = some n → vs[i]? = some v →
    (projectOut ns vs)[i]? = some (ContactBasis.projectOutNormal n v)
  | [], _, _, _, _, h, _ => by simp at h
  | _ :: _, [], _, _, _, _, h => by simp at h
  | a :: ns, w :: vs, 0, n, v, h, h' => by
      simp only [List.getElem?_cons_zero, Option.some.injEq] at h h'
      subst h h'
      simp [projectOut]
  | a :: ns, w :: vs, i + 1, n, v, h, h' => by
      simp only [List.getElem?_cons_succ] at h h'
      simp [projectOut, projectOut_getElem? ns vs i n v h h']

theorem projectOut_isTangentialPart {n v : V3 ℝ} (hn : n.dot n = 1) :
    IsTangentialPart n v (ContactBasis.projectOutNormal n v) := by
  refine ⟨?_, n.dot v, ?_⟩
  · simp only [ContactBasis.projectOutNormal, V3.dot, V3.sub_x, V3.sub_y, V3.sub_z, V3.smul_x,
      V3.smul_y, V3.smul_z] at *
    linear_combination -(n.x * v.x + n.y * v.y + n.z * v.z) * hn
  · ext <;> simp [ContactBasis.projectOutNormal]

/-- **C113.** `project_to_tangent_space` leaves of every vector its tangential part, if there is
a contact for every vector. -/
theorem project_tangential {b : ContactBasis} (hb : ContactBasis.UnitNormals b.normals)
    {vs : List (V3 ℝ)} {i : ℕ} {n v : V3 ℝ} (hn : b.normals[i]? = some n)
    (hv : vs[i]? = some v) :
    (projectToTangentSpace b vs).length = vs.length ∧
    ∃ w, (projectToTangentSpace b vs)[i]? = some w ∧ IsTangentialPart n v w :=
  ⟨projectOut_length _ _, _, projectOut_getElem? _ _ _ _ _ hn hv,
    projectOut_isTangentialPart (hb _ (List.mem_of_getElem? hn))⟩

/-- What is missing in `project_tangential`: vectors without a contact are not touched. -/
theorem project_missing : ∀ (ns vs : List (V3 ℝ)) (i : ℕ), ns.length ≤ i →
    (projectOut ns vs)[i]? = vs[i]?
  | [], _, _, _ => by simp [projectOut]
  | _ :: _, [], _, _ => by simp [projectOut]
  | _ :: ns, _ :: vs, i + 1, h => by
      simp only [projectOut, List.getElem?_cons_succ]
      exact project_missing ns vs i (by simpa using h)

theorem mapEnum_length {α β : Type*} (f : α → ℕ → Option β) :
    ∀ (l : List α) (k : ℕ) (r : List β), mapEnum f l k = some r → r.length = l.length
  | [], _, r, h => by simp only [mapEnum, Option.some.injEq] at h; subst h; rfl
  | a :: l, k, r, h => by
      simp only [mapEnum, Option.bind_eq_some_iff, Option.map_eq_some_iff] at h
      obtain ⟨x, -, r', hr', rfl⟩ := h
      simp [mapEnum_length f l _ _ hr']

theorem mapEnum_eq {α β : Type*} (f : α → ℕ → Option β) (g : α → ℕ → β) :
    ∀ (l : List α) (k : ℕ), (∀ i v, l[i]? = some v → f v (k + i) = some (g v (k + i))) →
      ∃ r, mapEnum f l k = some r ∧ r.length = l.length ∧
        ∀ i v, l[i]? = some v → r[i]? = some (g v (k + i))
  | [], _, _ => ⟨[], rfl, rfl, by simp⟩
  | a :: l, k, h => by
      obtain ⟨r, hr, hl, hg⟩ := mapEnum_eq f g l (k + 1) (fun i v hv => by
        have := h (i + 1) v (by simpa using hv)
        rwa [show k + (i + 1) = k + 1 + i by omega] at this)
      have h0 := h 0 a (by simp)
      refine ⟨g a k :: r, ?_, by simp [hl], ?_⟩
      · simp only [mapEnum]
        rw [Nat.add_zero] at h0
        rw [h0, hr]
        rfl
      · rintro (_ | i) v hv
        · simp only [List.getElem?_cons_zero, Option.some.injEq] at hv
          subst hv
          simp
        · simp only [List.getElem?_cons_succ] at hv
          rw [List.getElem?_cons_succ, hg i v hv, show k + 1 + i = k + (i + 1) by omega]

theorem mapEnum_none {α β : Type*} (f : α → ℕ → Option β) :
    ∀ (l : List α) (k i : ℕ) (v : α), l[i]? = some v → f v (k + i) = none → mapEnum f l k = none
  | [], _, _, _, h, _ => by simp at h
  | a :: l, k, 0, v, h, h' => by
      simp only [List.getElem?_cons_zero, Option.some.injEq] at h
      subst h
      simp only [mapEnum]
      rw [Nat.add_zero] at h'
      rw [h']
      rfl
  | a :: l, k, i + 1, v, h, h' => by
      have := mapEnum_none f l (k + 1) i v (by simpa using h)
        (by rwa [show k + 1 + i = k + (i + 1) by omega])
      simp only [mapEnum, this, Option.map_none, Option.bind_fun_none]

/-- Every contact of the basis has a frame. -/
def AllFrames (b : ContactBasis) : Prop :=
  ∀ i < b.normals.length, ∃ n t, FrameAt b i n t

/-- **C113.** Going to polar coordinates in the tangent planes and back leaves the tangential
parts of the vectors, the same that `project_to_tangent_space` leaves. -/
theorem polar_space {b : ContactBasis} (hb : AllFrames b) {vs : List (V3 ℝ)}
    (hl : vs.length ≤ b.normals.length) :
    ∃ ps, toPolarTangentSpace b vs = some ps ∧ ps.length = vs.length ∧
      fromPolarTangentSpace b ps = some (projectToTangentSpace b vs) := by
  have hfr : ∀ i v, vs[i]? = some v → ∃ n t, FrameAt b i n t := fun i v hv => by
    obtain ⟨hi, -⟩ := List.getElem?_eq_some_iff.mp hv
    exact hb i (by omega)
  have hsome : ∀ i v, vs[i]? = some v →
      (toCylindrical b v (0 + i)).map Cyl.tangent =
        some (((toCylindrical b v (0 + i)).getD ⟨0, ⟨0, 0⟩⟩).tangent) := fun i v hv => by
    obtain ⟨n, t, h⟩ := hfr i v hv
    obtain ⟨c, hc, -⟩ := cylindrical_round h v
    rw [Nat.zero_add, hc]
    rfl
  obtain ⟨ps, hps, hlen, hget⟩ := mapEnum_eq
    (fun v i => (toCylindrical b v i).map Cyl.tangent)
    (fun v i => ((toCylindrical b v i).getD ⟨0, ⟨0, 0⟩⟩).tangent) vs 0 hsome
  refine ⟨ps, hps, hlen, ?_⟩
  have hback : ∀ i p, ps[i]? = some p →
      fromCylindrical b (Cyl.ofPolarTangent p) (0 + i) =
        some ((fromCylindrical b (Cyl.ofPolarTangent p) (0 + i)).getD 0) := fun i p hp => by
    obtain ⟨hi, -⟩ := List.getElem?_eq_some_iff.mp hp
    obtain ⟨n, t, h⟩ := hb i (by omega)
    simp [fromCylindrical, ContactBasis.fromContactCoordinates, h.matrix]
  obtain ⟨rs, hrs, hrl, hrg⟩ := mapEnum_eq
    (fun p i => fromCylindrical b (Cyl.ofPolarTangent p) i)
    (fun p i => (fromCylindrical b (Cyl.ofPolarTangent p) i).getD 0) ps 0 hback
  unfold fromPolarTangentSpace
  rw [hrs]
  congr 1
  apply List.ext_getElem?
  intro i
  by_cases hi : i < vs.length
  · have hv : vs[i]? = some vs[i] := List.getElem?_eq_getElem hi
    obtain ⟨n, t, h⟩ := hfr i _ hv
    unfold projectToTangentSpace
    rw [projectOut_getElem? _ _ _ _ _ h.normal hv]
    have hp := hget i _ hv
    rw [hrg i _ hp, Nat.zero_add]
    congr 1
    have e : Cyl.toEuclidean (Cyl.ofPolarTangent
        ((toCylindrical b vs[i] i).getD ⟨0, ⟨0, 0⟩⟩).tangent) =
        ⟨0, ((frame n t).mulVec vs[i]).y, ((frame n t).mulVec vs[i]).z⟩ := by
      simp only [toCylindrical, ContactBasis.toContactCoordinates, h.matrix, Option.map_some,
        Option.getD_some]
      have := cyl_round ((frame n t).mulVec vs[i])
      ext
      · rfl
      · have h2 := congrArg V3.y this
        exact h2
      · have h2 := congrArg V3.z this
        exact h2
    simp only [fromCylindrical, ContactBasis.fromContactCoordinates, h.matrix, Option.map_some,
      Option.getD_some]
    rw [e]
    have hr := h.ortho.resolve vs[i]
    have : ContactBasis.projectOutNormal n vs[i] =
        (frame n t).transpose.mulVec ((frame n t).mulVec vs[i]) - (n.dot vs[i]) • n := by
      rw [hr]
      rfl
    rw [this]
    ext <;> simp only [frame, M3.mulVec, M3.transpose, V3.dot, V3.sub_x, V3.sub_y, V3.sub_z,
      V3.smul_x, V3.smul_y, V3.smul_z] <;> ring
  · rw [List.getElem?_eq_none (by omega), List.getElem?_eq_none (by
      unfold projectToTangentSpace
      rw [projectOut_length]
      omega)]

/-- What is missing in `polar_space`: vectors without a contact are a panic. -/
theorem polar_space_missing {b : ContactBasis} {vs : List (V3 ℝ)}
    (hl : b.normals.length < vs.length) : toPolarTangentSpace b vs = none := by
  refine mapEnum_none _ vs 0 b.normals.length _ (List.getElem?_eq_getElem hl) ?_
  simp [toCylindrical, ContactBasis.toContactCoordinates, ContactBasis.contactBasisMatrix]

/-- **C113, violated.** The example in the documentation of `project_to_tangent_space`, which
says that it computes the same as the way through tangent space: for the basis given there,
whose normal and tangent are both (1, 1, 1), the two differ. -/
theorem project_documented_violated :
    ∃ ps, toPolarTangentSpace ⟨[⟨1, 1, 1⟩], [⟨1, 1, 1⟩]⟩ [⟨1, 1, 1⟩] = some ps ∧
      fromPolarTangentSpace ⟨[⟨1, 1, 1⟩], [⟨1, 1, 1⟩]⟩ ps ≠
        some (projectToTangentSpace ⟨[⟨1, 1, 1⟩], [⟨1, 1, 1⟩]⟩ [⟨1, 1, 1⟩]) := by
  have hx : ((Polar.ofEuclidean ⟨3, 0⟩).radius * Real.cos (Polar.ofEuclidean ⟨3, 0⟩).angle) = 3 :=
    (polar_isPolar ⟨3, 0⟩).x.symm
  have hy : ((Polar.ofEuclidean ⟨3, 0⟩).radius * Real.sin (Polar.ofEuclidean ⟨3, 0⟩).angle) = 0 :=
    (polar_isPolar ⟨3, 0⟩).y.symm
  refine ⟨[Polar.ofEuclidean ⟨3, 0⟩], ?_, ?_⟩
  · simp only [toPolarTangentSpace, mapEnum, toCylindrical, ContactBasis.toContactCoordinates,
      ContactBasis.contactBasisMatrix, List.getElem?_cons_zero, Option.map_some, Option.bind_some,
      cyl_ofEuclidean, frame, M3.mulVec, V3.dot, V3.cross]
    norm_num
  · intro h
    simp only [fromPolarTangentSpace, mapEnum, fromCylindrical,
      ContactBasis.fromContactCoordinates, ContactBasis.contactBasisMatrix,
      List.getElem?_cons_zero, Option.map_some, Option.bind_some, Option.some.injEq,
      projectToTangentSpace, projectOut, List.cons.injEq, and_true] at h
    have hX := congrArg V3.x h
    simp only [Cyl.toEuclidean, Cyl.ofPolarTangent, hx, hy, frame, M3.transpose, M3.mulVec, V3.dot,
      V3.cross, ContactBasis.projectOutNormal, V3.sub_x, V3.smul_x] at hX
    norm_num at hX

/-- Non-vacuity of `polar_space`. -/
example : AllFrames (ContactBasis.updateFromNormals [⟨0, 0, 1⟩, ⟨3 / 5, 0, 4 / 5⟩]) := by
  intro i hi
  refine ⟨_, _, frameAt_of_normals (ns := [⟨0, 0, 1⟩, ⟨3 / 5, 0, 4 / 5⟩]) ?_ hi⟩
  intro n hn
  simp only [List.mem_cons, List.not_mem_nil, or_false] at hn
  rcases hn with rfl | rfl <;> norm_num [V3.dot]

/-! ## Contacts that come and go -/

/-- The basis has one frame for every contact of a sorted set. -/
structure Belongs (b : ContactBasis) (s : List ℕ) : Prop where
  sorted : s.Pairwise (· < ·)
  normals : b.normals.length = s.length
  tangents : b.tangents.length = s.length

theorem belongs_remap {b : ContactBasis} {old new : List ℕ} (hnew : new.Pairwise (· < ·)) :
    Belongs (b.remap old new) new :=
  ⟨hnew, Remap.remapValues_length _ _ _ _, Remap.remapValues_length _ _ _ _⟩

theorem remap_frame {b : ContactBasis} {old new : List ℕ} (h : Belongs b old)
    (hnew : new.Pairwise (· < ·)) {k m c : ℕ} (hk : old[k]? = some c) (hm : new[m]? = some c) :
    (b.remap old new).normals[m]? = b.normals[k]? ∧
    (b.remap old new).tangents[m]? = b.tangents[k]? := by
  obtain ⟨hk1, hk2⟩ := List.getElem?_eq_some_iff.mp hk
  obtain ⟨hm1, hm2⟩ := List.getElem?_eq_some_iff.mp hm
  exact ⟨Remap.remapValues_carried _ _ _ _ h.normals h.sorted hnew k m hk1 hm1 (hk2.trans hm2.symm),
    Remap.remapValues_carried _ _ _ _ h.tangents h.sorted hnew k m hk1 hm1 (hk2.trans hm2.symm)⟩

/-- **C113.** Through any history of contacts that come and go, the cylindrical coordinates of a
vector at a contact stay the same as long as the contact stays. -/
theorem remap_keeps (sets : List (List ℕ)) : ∀ (b : ContactBasis) (old : List ℕ), Belongs b old →
    (∀ s ∈ sets, s.Pairwise (· < ·)) → ∀ (c : ℕ), (∀ s ∈ sets, c ∈ s) → ∀ (k m : ℕ),
    old[k]? = some c → (sets.getLast?.getD old)[m]? = some c → ∀ (v : V3 ℝ) (u : Cyl),
    toCylindrical (remapAll b old sets) v m = toCylindrical b v k ∧
    fromCylindrical (remapAll b old sets) u m = fromCylindrical b u k := by
  induction sets with
  | nil =>
      intro b old hb _ c _ k m hk hm v u
      have : k = m := by
        obtain ⟨hk1, hk2⟩ := List.getElem?_eq_some_iff.mp hk
        obtain ⟨hm1, hm2⟩ := List.getElem?_eq_some_iff.mp (show old[m]? = some c from hm)
        by_contra hne
        have hs := List.pairwise_iff_getElem.mp hb.sorted
        rcases Nat.lt_or_gt_of_ne hne with hlt | hlt
        · have := hs k m hk1 hm1 hlt; omega
        · have := hs m k hm1 hk1 hlt; omega
      subst this
      exact ⟨rfl, rfl⟩
  | cons new rest ih =>
      intro b old hb hs c hc k m hk hm v u
      obtain ⟨j, hj1, hj2⟩ := List.getElem_of_mem (hc new (by simp))
      have hj : new[j]? = some c := List.getElem?_eq_some_iff.mpr ⟨hj1, hj2⟩
      have hn := hs new (by simp)
      have hfin : (rest.getLast?.getD new)[m]? = some c := by
        rwa [List.getLast?_cons, Option.getD_some] at hm
      obtain ⟨h1, h2⟩ := ih (b.remap old new) new (belongs_remap hn)
        (fun s h => hs s (by simp [h])) c (fun s h => hc s (by simp [h])) j m hj hfin v u
      obtain ⟨e1, e2⟩ := remap_frame hb hn hk hj
      have e : (b.remap old new).contactBasisMatrix j = b.contactBasisMatrix k := by
        unfold ContactBasis.contactBasisMatrix
        rw [e1, e2]
      constructor
      · show toCylindrical (remapAll (b.remap old new) new rest) v m = _
        rw [h1]
        simp only [toCylindrical, ContactBasis.toContactCoordinates, e]
      · show fromCylindrical (remapAll (b.remap old new) new rest) u m = _
        rw [h2]
        simp only [fromCylindrical, ContactBasis.fromContactCoordinates, e]

/-- **C113, violated.** A contact that is new has no frame after `remap`: every vector has the
coordinates zero there, and every coordinates give the vector zero. -/
theorem remap_new_violated {b : ContactBasis} {old new : List ℕ} (h : Belongs b old)
    (hnew : new.Pairwise (· < ·)) {m c : ℕ} (hm : new[m]? = some c) (hc : c ∉ old)
    (v : V3 ℝ) (u : Cyl) :
    toCylindrical (b.remap old new) v m = some ⟨0, ⟨0, 0⟩⟩ ∧
    fromCylindrical (b.remap old new) u m = some 0 := by
  obtain ⟨hm1, hm2⟩ := List.getElem?_eq_some_iff.mp hm
  have e1 : (b.remap old new).normals[m]? = some 0 :=
    Remap.remapValues_fresh _ _ _ _ h.normals h.sorted hnew m hm1 (by rw [hm2]; exact hc)
  have e2 : (b.remap old new).tangents[m]? = some 0 :=
    Remap.remapValues_fresh _ _ _ _ h.tangents h.sorted hnew m hm1 (by rw [hm2]; exact hc)
  have e : (b.remap old new).contactBasisMatrix m = some (frame 0 0) := by
    simp only [ContactBasis.contactBasisMatrix, e1, e2]
  have z := polar_zero
  have hz : Polar.ofEuclidean ⟨0, 0⟩ = ⟨0, 0⟩ := z
  constructor
  · simp only [toCylindrical, ContactBasis.toContactCoordinates, e, Option.map_some,
      cyl_ofEuclidean, frame, M3.mulVec, V3.dot, V3.cross, V3.zero_x, V3.zero_y, V3.zero_z,
      zero_mul, mul_zero, add_zero, sub_self, hz]
  · simp only [fromCylindrical, ContactBasis.fromContactCoordinates, e, Option.map_some,
      Option.some.injEq]
    ext <;> simp [frame, M3.mulVec, M3.transpose, V3.dot, V3.cross]

/-- Non-vacuity: contacts 2 and 5 become contacts 1, 5 and 7, then 5. Contact 5 stays, contact 7
is new. -/
example : Belongs (ContactBasis.updateFromNormals [⟨0, 0, 1⟩, ⟨3 / 5, 0, 4 / 5⟩]) [2, 5] ∧
    (∀ s ∈ [[1, 5, 7], [5]], s.Pairwise (· < ·)) ∧ (∀ s ∈ [[1, 5, 7], [5]], 5 ∈ s) ∧
    [2, 5][1]? = some 5 ∧ (([[1, 5, 7], [5]] : List (List ℕ)).getLast?.getD [2, 5])[0]? = some 5 ∧
    [1, 5, 7][2]? = some 7 ∧ 7 ∉ [2, 5] := by
  refine ⟨⟨by decide, rfl, rfl⟩, by decide, by decide, rfl, rfl, rfl, by decide⟩

/-! ## C114: contact impulses -/

/-- Velocity of contact `i` along its normal after the impulses `r`, if the contacts are the
vertices with the given masses. -/
def velocityAfter (velocity masses r : List ℝ) (i : ℕ) : ℝ :=
  velocity.getD i 0 + r.getD i 0 / masses.getD i 0

theorem stepLoop_length : ∀ vs ms : List ℝ, (stepLoop vs ms).length = vs.length
  | _ :: vs, _ :: ms => by simp [stepLoop, stepLoop_length vs ms]
  | [], _ => by simp [stepLoop]
  | _ :: _, [] => by simp [stepLoop]

theorem stepLoop_getD : ∀ (vs ms : List ℝ) (i : ℕ), i < vs.length → i < ms.length →
    (stepLoop vs ms).getD i 0 = max (-vs.getD i 0 * ms.getD i 0) 0
  | [], _, _, h, _ => by simp at h
  | _ :: _, [], _, _, h => by simp at h
  | _ :: _, _ :: _, 0, _, _ => by simp [stepLoop]
  | _ :: vs, _ :: ms, i + 1, h, h' => by
      have := stepLoop_getD vs ms i (by simpa using h) (by simpa using h')
      simpa [stepLoop] using this

theorem getD_getElem (l : List ℝ) {i : ℕ} (hi : i < l.length) : l.getD i 0 = l[i] := by
  simp [List.getD, hi]

theorem pos_getD {ms : List ℝ} (hm : ∀ m ∈ ms, 0 < m) {i : ℕ} (hi : i < ms.length) :
    0 < ms.getD i 0 := by
  rw [getD_getElem _ hi]
  exact hm _ (List.getElem_mem hi)

/-- **C114.** The impulses of a step push and do not pull, no contact approaches afterwards, and
only contacts that end at rest are pushed. -/
theorem step_complementary (s : Solver) (hm : ∀ m ∈ s.masses, 0 < m)
    (hl : s.masses.length = s.velocity.length) {i : ℕ} (hi : i < s.velocity.length) :
    s.step.length = s.velocity.length ∧ 0 ≤ s.step.getD i 0 ∧
    0 ≤ velocityAfter s.velocity s.masses s.step i ∧
    (0 < s.step.getD i 0 → velocityAfter s.velocity s.masses s.step i = 0) := by
  have hp := pos_getD hm (i := i) (by omega)
  have e : s.step.getD i 0 = _ := stepLoop_getD s.velocity s.masses i hi (by omega)
  refine ⟨stepLoop_length _ _, ?_, ?_, ?_⟩
  · rw [e]; exact le_max_right _ _
  · unfold velocityAfter
    rw [e]
    have : -s.velocity.getD i 0 * s.masses.getD i 0 ≤
        max (-s.velocity.getD i 0 * s.masses.getD i 0) 0 := le_max_left _ _
    rw [← sub_le_iff_le_add', zero_sub, le_div_iff₀ hp]
    exact this
  · intro h
    unfold velocityAfter
    rw [e] at h ⊢
    rcases le_total (-s.velocity.getD i 0 * s.masses.getD i 0) 0 with h0 | h0
    · rw [max_eq_right h0] at h
      exact absurd h (lt_irrefl _)
    · rw [max_eq_left h0]
      field_simp
      ring

/-- **C114.** Impulses with these properties are those of the step: nothing else ends the
approach without pulling or pushing contacts that part. -/
theorem step_unique (s : Solver) (hm : ∀ m ∈ s.masses, 0 < m)
    (hl : s.masses.length = s.velocity.length) (r : List ℝ) (hr : r.length = s.velocity.length)
    (h : ∀ i < s.velocity.length, 0 ≤ r.getD i 0 ∧ 0 ≤ velocityAfter s.velocity s.masses r i ∧
      (0 < r.getD i 0 → velocityAfter s.velocity s.masses r i = 0)) :
    r = s.step := by
  apply List.ext_getElem (by rw [hr]; exact (stepLoop_length _ _).symm)
  intro i h1 h2
  have hi : i < s.velocity.length := by omega
  have hp := pos_getD hm (i := i) (by omega)
  obtain ⟨a, b, c⟩ := h i hi
  have e : s.step.getD i 0 = _ := stepLoop_getD s.velocity s.masses i hi (by omega)
  rw [← getD_getElem _ h1, ← getD_getElem _ h2, e]
  unfold velocityAfter at b c
  rcases a.lt_or_eq with h0 | h0
  · have hc := c h0
    have : r.getD i 0 = -s.velocity.getD i 0 * s.masses.getD i 0 := by
      field_simp at hc
      linarith
    rw [this] at h0 ⊢
    rw [max_eq_left h0.le]
  · rw [← h0, zero_div, add_zero] at b
    rw [← h0, max_eq_right]
    have := mul_nonneg b hp.le
    linarith

/-- Twice the kinetic energy along the normals after the impulses `r`. -/
def energyAfter (velocity masses r : List ℝ) : ℝ :=
  ((List.range velocity.length).map fun i =>
    masses.getD i 0 * velocityAfter velocity masses r i ^ 2).sum

/-- **C114.** Among all impulses that push, those of the step leave the least kinetic energy;
in particular a step never adds energy. -/
theorem step_least_energy (s : Solver) (hm : ∀ m ∈ s.masses, 0 < m)
    (hl : s.masses.length = s.velocity.length) (r : List ℝ)
    (hr : ∀ i < s.velocity.length, 0 ≤ r.getD i 0) :
    energyAfter s.velocity s.masses s.step ≤ energyAfter s.velocity s.masses r := by
  apply List.sum_le_sum
  intro i hi
  have hi : i < s.velocity.length := List.mem_range.mp hi
  have hp := pos_getD hm (i := i) (by omega)
  obtain ⟨-, a, b, c⟩ := step_complementary s hm hl hi
  have hri := hr i hi
  apply mul_le_mul_of_nonneg_left _ hp.le
  rcases a.lt_or_eq with h0 | h0
  · rw [c h0, zero_pow (by norm_num)]
    exact sq_nonneg _
  · unfold velocityAfter at b ⊢
    rw [← h0, zero_div, add_zero] at b ⊢
    have : 0 ≤ r.getD i 0 / s.masses.getD i 0 := div_nonneg hri hp.le
    nlinarith

/-- Non-vacuity: one contact approaches, one parts. The step is not trivial. -/
example : (∀ m ∈ [(2 : ℝ), 3], 0 < m) ∧
    (Solver.withoutJacobian [-1, 1] [] ⟨[], []⟩ [2, 3]).step = [2, 0] := by
  constructor
  · intro m hm
    simp only [List.mem_cons, List.not_mem_nil, or_false] at hm
    rcases hm with rfl | rfl <;> norm_num
  · simp only [Solver.withoutJacobian, Solver.step, stepLoop, List.map_nil]
    norm_num

/-- What is missing in `step_complementary`: contacts without a mass go on approaching. -/
theorem step_missing : (Solver.withoutJacobian [-1, -1] [] ⟨[], []⟩ [1]).step = [1, 0] := by
  simp [Solver.withoutJacobian, Solver.step, stepLoop]

/-- The contact Jacobian, the friction impulses and the frames have no effect on a step. -/
theorem step_ignores (velocity masses : List ℝ) (f f' : List (V2 ℝ)) (b b' : ContactBasis)
    (j : List (M3 ℝ) × List (ℕ × ℕ)) :
    (Solver.new velocity f b masses j).step = (Solver.withoutJacobian velocity f' b' masses).step :=
  rfl

/-- Velocity along the normal `n` of a single contact after the impulse `r`, if the velocity of
the contact is the sum of those of the vertices, multiplied by the blocks of the contact
Jacobian, and the impulse acts on the vertices through the transposed blocks. -/
def contactVelocityAfter (velocity r : ℝ) (n : V3 ℝ) (blocks : List (M3 ℝ)) (cols : List ℕ)
    (masses : List ℝ) : ℝ :=
  velocity + ((blocks.zip cols).map fun e =>
    n.dot (e.1.mulVec ((r / masses.getD e.2 0) • e.1.transpose.mulVec n))).sum

/-- **C114, violated.** With a contact Jacobian the contact approaches after the step: a contact
in the middle between two vertices of unit mass approaches with unit speed and still with half
of it afterwards. -/
theorem step_jacobian_violated :
    ∃ (blocks : List (M3 ℝ)) (cols : List ℕ) (masses : List ℝ) (n : V3 ℝ),
      (∀ m ∈ masses, 0 < m) ∧ n.dot n = 1 ∧
      (∀ v : V3 ℝ, ((blocks.map fun m => m.mulVec v).foldr (· + ·) 0) = v) ∧
      contactVelocityAfter (-1)
        ((Solver.new [-1] [] (ContactBasis.updateFromNormals [n]) masses
          (blocks, cols.map fun c => (0, c))).step.getD 0 0) n blocks cols masses < 0 := by
  refine ⟨[⟨⟨1 / 2, 0, 0⟩, ⟨0, 1 / 2, 0⟩, ⟨0, 0, 1 / 2⟩⟩, ⟨⟨1 / 2, 0, 0⟩, ⟨0, 1 / 2, 0⟩, ⟨0, 0, 1 / 2⟩⟩],
    [0, 1], [1, 1], ⟨0, 0, 1⟩, ?_, by norm_num [V3.dot], ?_, ?_⟩
  · intro m hm
    simp only [List.mem_cons, List.not_mem_nil, or_false] at hm
    rcases hm with rfl | rfl <;> norm_num
  · intro v
    ext <;> simp [M3.mulVec, V3.dot] <;> ring
  · have e : (Solver.new [-1] [] (ContactBasis.updateFromNormals [⟨0, 0, 1⟩]) [1, 1]
        ([⟨⟨1 / 2, 0, 0⟩, ⟨0, 1 / 2, 0⟩, ⟨0, 0, 1 / 2⟩⟩, ⟨⟨1 / 2, 0, 0⟩, ⟨0, 1 / 2, 0⟩, ⟨0, 0, 1 / 2⟩⟩],
          [0, 1].map fun c => (0, c))).step.getD 0 0 = 1 := by
      simp [Solver.new, Solver.step, stepLoop]
    rw [e]
    simp only [contactVelocityAfter, List.zip_cons_cons, List.zip_nil_right, List.map_cons,
      List.map_nil, List.sum_cons, List.sum_nil, M3.mulVec, M3.transpose, V3.dot, V3.smul_x,
      V3.smul_y, V3.smul_z, List.getD_cons_zero, List.getD_cons_succ]
    norm_num

end Softy.ContactCoords
