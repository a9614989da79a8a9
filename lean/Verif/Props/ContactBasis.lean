import Verif.Model.ContactBasis
import Verif.Props.Friction
import Verif.Prelude

/-!
# C16, C17 — contact frames; C14 for the force in physical space
-/

noncomputable section

namespace Softy.ContactBasis

/-! ## Specification -/

/-- `n`, `t`, `b` is a right-handed orthonormal frame. -/
structure IsFrame (n t b : V3 ℝ) : Prop where
  nn : n.dot n = 1
  tt : t.dot t = 1
  bb : b.dot b = 1
  nt : n.dot t = 0
  nb : n.dot b = 0
  tb : t.dot b = 0
  right : V3.triple n t b = 1

/-! ## Frames from normals -/

theorem normalize_dot {v : V3 ℝ} (h : 0 < v.dot v) : v.normalize.dot v.normalize = 1 := by
  have hs : v.norm ^ 2 = v.dot v := Real.sq_sqrt h.le
  have hne : v.norm ≠ 0 := by
    intro h0
    rw [h0] at hs
    norm_num at hs
    exact h.ne hs
  unfold V3.normalize
  have e : ((1 / v.norm) • v).dot ((1 / v.norm) • v) = v.dot v / v.norm ^ 2 := by
    simp only [V3.dot, V3.smul_x, V3.smul_y, V3.smul_z]
    field_simp
  rw [e, hs, div_self h.ne']

/-- The axis chosen for the tangent is not the dominant one. -/
theorem axis_small {n : V3 ℝ} (hn : n.dot n = 1) :
    n.getN ((n.iamax + 1) % 3) ^ 2 ≤ 1 / 2 := by
  unfold V3.dot at hn
  unfold V3.iamax
  split_ifs with h1 h2
  · have := sq_le_sq.2 h1.1
    simp only [V3.getN]
    norm_num
    nlinarith [sq_nonneg n.z]
  · have := sq_le_sq.2 h2
    simp only [V3.getN]
    norm_num
    nlinarith [sq_nonneg n.x]
  · push Not at h2
    have h3 : |n.x| ≤ |n.z| := by
      by_contra hc
      push Not at hc
      exact h1 ⟨(h2.trans hc).le, hc.le⟩
    have := sq_le_sq.2 h3
    simp only [V3.getN]
    norm_num
    nlinarith [sq_nonneg n.y]

theorem dot_axis (n : V3 ℝ) {a : ℕ} (ha : a < 3) : n.dot (V3.axis a) = n.getN a := by
  interval_cases a <;> simp [V3.dot, V3.axis, V3.getN]

theorem axis_axis {a : ℕ} (ha : a < 3) : (V3.axis a).dot (V3.axis a) = 1 := by
  interval_cases a <;> simp [V3.dot, V3.axis]

theorem tangent_raw {n : V3 ℝ} (hn : n.dot n = 1) {a : ℕ} (ha : a < 3) :
    (V3.axis a - n.getN a • n).dot (V3.axis a - n.getN a • n) = 1 - n.getN a ^ 2 ∧
    n.dot (V3.axis a - n.getN a • n) = 0 := by
  have h1 := dot_axis n ha
  have h2 := axis_axis ha
  generalize n.getN a = c at *
  generalize V3.axis a = e at *
  simp only [V3.dot, V3.sub_x, V3.sub_y, V3.sub_z, V3.smul_x, V3.smul_y, V3.smul_z] at *
  constructor
  · linear_combination h2 + c ^ 2 * hn - 2 * c * h1
  · linear_combination h1 - c * hn

/-- The tangent of a unit normal is a unit vector orthogonal to it. -/
theorem tangentFor_spec {n : V3 ℝ} (hn : n.dot n = 1) :
    (tangentFor n).dot (tangentFor n) = 1 ∧ n.dot (tangentFor n) = 0 := by
  have ha : (n.iamax + 1) % 3 < 3 := Nat.mod_lt _ (by norm_num)
  have hsmall := axis_small hn
  obtain ⟨h1, h2⟩ := tangent_raw hn ha
  unfold tangentFor
  simp only
  constructor
  · apply normalize_dot
    rw [h1]
    linarith
  · unfold V3.normalize
    generalize V3.axis ((n.iamax + 1) % 3) - n.getN ((n.iamax + 1) % 3) • n = w at *
    simp only [V3.dot, V3.smul_x, V3.smul_y, V3.smul_z] at *
    linear_combination (1 / w.norm) * h2

/-- The binormal completes the frame. -/
theorem isFrame_of {n t : V3 ℝ} (hn : n.dot n = 1) (ht : t.dot t = 1) (hnt : n.dot t = 0) :
    IsFrame n t (n.cross t) := by
  have hb : (n.cross t).dot (n.cross t) = 1 := by
    have e : (n.cross t).dot (n.cross t) = n.dot n * t.dot t - n.dot t ^ 2 := by
      simp only [V3.dot, V3.cross]; ring
    rw [e, hn, ht, hnt]; norm_num
  refine ⟨hn, ht, hb, hnt, ?_, ?_, ?_⟩
  · simp only [V3.dot, V3.cross]; ring
  · simp only [V3.dot, V3.cross]; ring
  · have e : V3.triple n t (n.cross t) = (n.cross t).dot (n.cross t) := by
      simp only [V3.triple, V3.dot, V3.cross]; ring
    rw [e, hb]

/-- A right-handed orthonormal frame resolves the identity. -/
theorem IsFrame.resolve {n t : V3 ℝ} (h : IsFrame n t (n.cross t)) (v : V3 ℝ) :
    (frame n t).transpose.mulVec ((frame n t).mulVec v) = v := by
  obtain ⟨hn, ht, hbb, hnt, -, -, -⟩ := h
  have hbx : (n.cross t).x = n.y * t.z - n.z * t.y := rfl
  have hby : (n.cross t).y = n.z * t.x - n.x * t.z := rfl
  have hbz : (n.cross t).z = n.x * t.y - n.y * t.x := rfl
  have n1 : t.y * (n.cross t).z - t.z * (n.cross t).y = n.x := by
    rw [hby, hbz]; simp only [V3.dot] at *; linear_combination n.x * ht - t.x * hnt
  have n2 : t.z * (n.cross t).x - t.x * (n.cross t).z = n.y := by
    rw [hbx, hbz]; simp only [V3.dot] at *; linear_combination n.y * ht - t.y * hnt
  have n3 : t.x * (n.cross t).y - t.y * (n.cross t).x = n.z := by
    rw [hbx, hby]; simp only [V3.dot] at *; linear_combination n.z * ht - t.z * hnt
  have t1 : (n.cross t).y * n.z - (n.cross t).z * n.y = t.x := by
    rw [hby, hbz]; simp only [V3.dot] at *; linear_combination t.x * hn - n.x * hnt
  have t2 : (n.cross t).z * n.x - (n.cross t).x * n.z = t.y := by
    rw [hbx, hbz]; simp only [V3.dot] at *; linear_combination t.y * hn - n.y * hnt
  have t3 : (n.cross t).x * n.y - (n.cross t).y * n.x = t.z := by
    rw [hbx, hby]; simp only [V3.dot] at *; linear_combination t.z * hn - n.z * hnt
  unfold frame
  generalize n.cross t = b at *
  simp only [V3.dot] at hbb
  have xx : n.x * n.x + t.x * t.x + b.x * b.x = 1 := by
    linear_combination -n.x * n1 - t.x * t1 - b.y * hby - b.z * hbz + hbb
  have yy : n.y * n.y + t.y * t.y + b.y * b.y = 1 := by
    linear_combination -n.y * n2 - t.y * t2 - b.x * hbx - b.z * hbz + hbb
  have zz : n.z * n.z + t.z * t.z + b.z * b.z = 1 := by
    linear_combination -n.z * n3 - t.z * t3 - b.x * hbx - b.y * hby + hbb
  have xy : n.x * n.y + t.x * t.y + b.x * b.y = 0 := by
    linear_combination -n.x * n2 - t.x * t2 + b.x * hby
  have xz : n.x * n.z + t.x * t.z + b.x * b.z = 0 := by
    linear_combination -n.x * n3 - t.x * t3 + b.x * hbz
  have yz : n.y * n.z + t.y * t.z + b.y * b.z = 0 := by
    linear_combination -n.y * n3 - t.y * t3 + b.y * hbz
  simp only [M3.transpose, M3.mulVec, V3.dot]
  ext
  · simp only; linear_combination v.x * xx + v.y * xy + v.z * xz
  · simp only; linear_combination v.x * xy + v.y * yy + v.z * yz
  · simp only; linear_combination v.x * xz + v.y * yz + v.z * zz

/-- Contact coordinates of a physical vector built from contact coordinates. -/
theorem IsFrame.resolve' {n t : V3 ℝ} (h : IsFrame n t (n.cross t)) (c : V3 ℝ) :
    (frame n t).mulVec ((frame n t).transpose.mulVec c) = c := by
  obtain ⟨nn, tt, bb, nt, nb, tb, -⟩ := h
  unfold frame
  generalize n.cross t = b at *
  simp only [M3.transpose, M3.mulVec, V3.dot] at *
  ext
  · simp only; linear_combination c.x * nn + c.y * nt + c.z * nb
  · simp only; linear_combination c.x * nt + c.y * tt + c.z * tb
  · simp only; linear_combination c.x * nb + c.y * tb + c.z * bb

/-! ## C16 -/

/-- All normals are unit vectors. -/
def UnitNormals (ns : List (V3 ℝ)) : Prop := ∀ n ∈ ns, n.dot n = 1

theorem matrix_of_lt {ns : List (V3 ℝ)} {i : ℕ} (hi : i < ns.length) :
    (updateFromNormals ns).contactBasisMatrix i = some (frame ns[i] (tangentFor ns[i])) := by
  simp [updateFromNormals, contactBasisMatrix, hi]

/-- **C16.** Every frame built from unit normals is orthonormal and right-handed, and its
first direction is the given normal. -/
theorem basis_orthonormal {ns : List (V3 ℝ)} (hns : UnitNormals ns) {i : ℕ} (hi : i < ns.length) :
    ∃ m, (updateFromNormals ns).contactBasisMatrix i = some m ∧ m.r0 = ns[i] ∧
      IsFrame m.r0 m.r1 m.r2 := by
  have hn := hns _ (List.getElem_mem hi)
  obtain ⟨h1, h2⟩ := tangentFor_spec hn
  exact ⟨_, matrix_of_lt hi, rfl, isFrame_of hn h1 h2⟩

theorem frame_of_lt {ns : List (V3 ℝ)} (hns : UnitNormals ns) {i : ℕ} (hi : i < ns.length) :
    IsFrame ns[i] (tangentFor ns[i]) (ns[i].cross (tangentFor ns[i])) := by
  have hn := hns _ (List.getElem_mem hi)
  obtain ⟨h1, h2⟩ := tangentFor_spec hn
  exact isFrame_of hn h1 h2

/-- **C16.** Going to contact coordinates and back is the identity. -/
theorem to_from_contact {ns : List (V3 ℝ)} (hns : UnitNormals ns) {i : ℕ} (hi : i < ns.length)
    (v : V3 ℝ) :
    ((updateFromNormals ns).toContactCoordinates v i).bind
      (fun c => (updateFromNormals ns).fromContactCoordinates c i) = some v := by
  simp only [toContactCoordinates, fromContactCoordinates, matrix_of_lt hi, Option.map_some,
    Option.bind_some]
  rw [(frame_of_lt hns hi).resolve]

/-- **C16.** Going from contact coordinates to physical ones and back is the identity. -/
theorem from_to_contact {ns : List (V3 ℝ)} (hns : UnitNormals ns) {i : ℕ} (hi : i < ns.length)
    (c : V3 ℝ) :
    ((updateFromNormals ns).fromContactCoordinates c i).bind
      (fun v => (updateFromNormals ns).toContactCoordinates v i) = some c := by
  simp only [toContactCoordinates, fromContactCoordinates, matrix_of_lt hi, Option.map_some,
    Option.bind_some]
  rw [(frame_of_lt hns hi).resolve']

/-- **C16.** The normal and tangential parts add up to the vector, and the tangential part is
what projecting out the normal leaves. -/
theorem split_contact {ns : List (V3 ℝ)} (hns : UnitNormals ns) {i : ℕ} (hi : i < ns.length)
    (v : V3 ℝ) :
    ∃ a b, ((updateFromNormals ns).toNormalSpace v i).bind
        (fun c => (updateFromNormals ns).fromNormalSpace c i) = some a ∧
      ((updateFromNormals ns).toTangentSpace v i).bind
        (fun c => (updateFromNormals ns).fromTangentSpace c i) = some b ∧
      a + b = v ∧ b = projectOutNormal ns[i] v ∧ ns[i].dot b = 0 := by
  have hf := frame_of_lt hns hi
  have hr := hf.resolve v
  simp only [toNormalSpace, fromNormalSpace, toTangentSpace, fromTangentSpace,
    toContactCoordinates, fromContactCoordinates, matrix_of_lt hi, Option.map_some,
    Option.bind_some]
  have hsum : ((frame ns[i] (tangentFor ns[i])).transpose.mulVec
      ⟨((frame ns[i] (tangentFor ns[i])).mulVec v).x, 0, 0⟩) +
      ((frame ns[i] (tangentFor ns[i])).transpose.mulVec
      ⟨0, ((frame ns[i] (tangentFor ns[i])).mulVec v).y,
        ((frame ns[i] (tangentFor ns[i])).mulVec v).z⟩) = v := by
    conv_rhs => rw [← hr]
    ext <;> simp only [M3.mulVec, M3.transpose, V3.dot, V3.add_x, V3.add_y, V3.add_z] <;> ring
  have hproj : ((frame ns[i] (tangentFor ns[i])).transpose.mulVec
      ⟨0, ((frame ns[i] (tangentFor ns[i])).mulVec v).y,
        ((frame ns[i] (tangentFor ns[i])).mulVec v).z⟩) = projectOutNormal ns[i] v := by
    have e : ((frame ns[i] (tangentFor ns[i])).transpose.mulVec
      ⟨((frame ns[i] (tangentFor ns[i])).mulVec v).x, 0, 0⟩) = (ns[i].dot v) • ns[i] := by
      ext <;> simp only [M3.mulVec, M3.transpose, V3.dot, frame, V3.smul_x, V3.smul_y,
        V3.smul_z] <;> ring
    rw [e] at hsum
    unfold projectOutNormal
    rw [eq_sub_iff_add_eq, add_comm]
    exact hsum
  refine ⟨_, _, rfl, rfl, hsum, hproj, ?_⟩
  rw [hproj]
  have := hf.nn
  simp only [projectOutNormal, V3.dot, V3.sub_x, V3.sub_y, V3.sub_z, V3.smul_x, V3.smul_y,
    V3.smul_z] at *
  linear_combination -(ns[i].x * v.x + ns[i].y * v.y + ns[i].z * v.z) * this

/-- Non-vacuity: a list of unit normals in general position. -/
example : UnitNormals [⟨0, 0, 1⟩, ⟨3 / 5, 0, 4 / 5⟩, ⟨1 / 3, 2 / 3, 2 / 3⟩] := by
  intro n hn
  simp only [List.mem_cons, List.not_mem_nil, or_false] at hn
  rcases hn with rfl | rfl | rfl <;> norm_num [V3.dot]

/-! ## C17 -/

/-- Entry `(r, c)` of the matrix given by triplets (duplicates are summed by `to_csr`). -/
def entry (l : List Triplet) (r c : ℕ) : ℝ :=
  (l.map fun e => if e.1 = r ∧ e.2.1 = c then e.2.2 else 0).sum

/-- Entry `(r, c)` of a dense block given by its rows. -/
def blockEntry (m : List (List ℝ)) (r c : ℕ) : ℝ := (m.getD r []).getD c 0

theorem entry_flatMap (f : ℕ → List Triplet) (n r c : ℕ) :
    entry ((List.range n).flatMap f) r c = ((List.range n).map fun i => entry (f i) r c).sum := by
  induction n with
  | zero => simp [entry]
  | succ n ih =>
    rw [List.range_succ, List.flatMap_append, List.map_append, List.sum_append, ← ih]
    simp [entry]

theorem sum_range_single (n k : ℕ) (g : ℕ → ℝ) (h : ∀ i, i ≠ k → g i = 0) :
    ((List.range n).map g).sum = if k < n then g k else 0 := by
  induction n with
  | zero => simp
  | succ n ih =>
    rw [List.range_succ, List.map_append, List.sum_append, ih]
    simp only [List.map_cons, List.map_nil, List.sum_cons, List.sum_nil, add_zero]
    by_cases hk : n = k
    · subst hk; simp
    · rw [h n hk]
      have : k < n + 1 ↔ k < n := by omega
      simp [this]

/-- **C17 (normals).** The sparse normal basis matrix is block diagonal with the dense
blocks: entry `(3i + r, j)` is the entry of block `i` if `i = j` and zero otherwise. -/
theorem normal_sparse_eq_dense (b : ContactBasis) (hlen : b.tangents.length = b.normals.length)
    (i j r : ℕ) (hi : i < b.normals.length) (hr : r < 3) :
    ∃ blk, b.normalBlock i = some blk ∧
      entry b.normalTriplets (3 * i + r) j = if i = j then blockEntry blk r 0 else 0 := by
  have hi' : i < b.tangents.length := by omega
  have hm : b.contactBasisMatrix i = some (frame b.normals[i] b.tangents[i]) := by
    simp [contactBasisMatrix, hi, hi']
  refine ⟨_, by rw [normalBlock, hm]; rfl, ?_⟩
  unfold normalTriplets
  rw [entry_flatMap, sum_range_single _ i, if_pos hi]
  · simp only [hm, Option.elim_some, entry, normalTripletsAt, List.map_cons, List.map_nil,
      List.sum_cons, List.sum_nil, zero_add]
    interval_cases r
    · by_cases h : i = j <;> simp [h, blockEntry]
    · by_cases h : i = j
      · subst h
        have h1 : ¬ (3 * i = 3 * i + 1) := by omega
        have h2 : (1 + 3 * i = 3 * i + 1) := by omega
        have h3 : ¬ (2 + 3 * i = 3 * i + 1) := by omega
        simp [h2, h3, blockEntry]
      · simp [h]
    · by_cases h : i = j
      · subst h
        have h2 : ¬ (1 + 3 * i = 3 * i + 2) := by omega
        have h3 : (2 + 3 * i = 3 * i + 2) := by omega
        simp [h2, h3, blockEntry]
      · simp [h]
  · intro k hk
    cases hmk : b.contactBasisMatrix k with
    | none => simp [entry]
    | some m =>
      simp only [Option.elim_some, entry, normalTripletsAt, List.map_cons, List.map_nil,
        List.sum_cons, List.sum_nil, zero_add]
      have h1 : ¬ (3 * k = 3 * i + r ∧ k = j) := by omega
      have h2 : ¬ (1 + 3 * k = 3 * i + r ∧ k = j) := by omega
      have h3 : ¬ (2 + 3 * k = 3 * i + r ∧ k = j) := by omega
      simp only [h1, h2, h3, if_false, add_zero]

/-- **C17 (dense tangents).** Multiplying with the dense tangent block is the per-contact
function `from_tangent_space`. -/
theorem tangent_dense_eq_from (b : ContactBasis) (i : ℕ) (v : V2 ℝ) :
    b.fromTangentSpace v i = (b.tangentBlock i).map fun m =>
      ⟨blockEntry m 0 0 * v.x + blockEntry m 0 1 * v.y,
       blockEntry m 1 0 * v.x + blockEntry m 1 1 * v.y,
       blockEntry m 2 0 * v.x + blockEntry m 2 1 * v.y⟩ := by
  unfold fromTangentSpace fromContactCoordinates tangentBlock
  cases b.contactBasisMatrix i with
  | none => rfl
  | some m =>
    simp only [Option.map_some, Option.some.injEq]
    ext <;> simp [M3.mulVec, M3.transpose, V3.dot, blockEntry]

/-- **C17 (dense normals).** Multiplying with the dense normal block is the per-contact
function `from_normal_space`. -/
theorem normal_dense_eq_from (b : ContactBasis) (i : ℕ) (c : ℝ) :
    b.fromNormalSpace c i = (b.normalBlock i).map fun m =>
      ⟨blockEntry m 0 0 * c, blockEntry m 1 0 * c, blockEntry m 2 0 * c⟩ := by
  unfold fromNormalSpace fromContactCoordinates normalBlock
  cases b.contactBasisMatrix i with
  | none => rfl
  | some m =>
    simp only [Option.map_some, Option.some.injEq]
    ext <;> simp [M3.mulVec, M3.transpose, V3.dot, blockEntry]

/-- **C17 (full basis).** The full block matrix is the map from contact to physical
coordinates, its transpose the map to contact coordinates. -/
theorem full_dense_eq (b : ContactBasis) (i : ℕ) (v : V3 ℝ) :
    b.fromContactCoordinates v i = (b.fullBlock i).map (fun m => m.mulVec v) ∧
    b.toContactCoordinates v i = (b.fullBlockTranspose i).map (fun m => m.mulVec v) := by
  unfold fromContactCoordinates toContactCoordinates fullBlock fullBlockTranspose
  cases b.contactBasisMatrix i <;> simp

/-- What the sparse tangent matrix really contains: the six numbers of tangent and binormal
written row by row instead of column by column. -/
theorem tangent_sparse_entries (b : ContactBasis) (hlen : b.tangents.length = b.normals.length)
    (i j r c : ℕ) (hi : i < b.normals.length) (hr : r < 3) (hc : c < 2) :
    ∃ m, b.contactBasisMatrix i = some m ∧
      entry b.tangentTriplets (3 * i + r) (2 * j + c) = if i = j then
        blockEntry [[m.r1.x, m.r1.y], [m.r1.z, m.r2.x], [m.r2.y, m.r2.z]] r c else 0 := by
  have hi' : i < b.tangents.length := by omega
  have hm : b.contactBasisMatrix i = some (frame b.normals[i] b.tangents[i]) := by
    simp [contactBasisMatrix, hi, hi']
  refine ⟨_, hm, ?_⟩
  unfold tangentTriplets
  rw [entry_flatMap, sum_range_single _ i, if_pos hi]
  · simp only [hm, Option.elim_some, entry, tangentTripletsAt, List.map_cons, List.map_nil,
      List.sum_cons, List.sum_nil]
    by_cases h : i = j
    · subst h
      have e : ∀ a b : ℕ, (a + 3 * i = 3 * i + b) = (a = b) := by intros; simp; omega
      have e' : ∀ a b : ℕ, (a + 2 * i = 2 * i + b) = (a = b) := by intros; simp; omega
      interval_cases r <;> interval_cases c <;> simp [e, e', blockEntry]
    · have e' : ∀ a, a < 2 → ¬ (a + 2 * i = 2 * j + c) := by intro a ha; omega
      simp [h, e' 0, e' 1]
      have := e' 0 (by norm_num)
      simp only [zero_add] at this
      simp [this]
  · intro k hk
    cases hmk : b.contactBasisMatrix k with
    | none => simp [entry]
    | some m =>
      simp only [Option.elim_some, entry, tangentTripletsAt, List.map_cons, List.map_nil,
        List.sum_cons, List.sum_nil]
      have e : ∀ a, a < 3 → ¬ (a + 3 * k = 3 * i + r) := by intro a ha; omega
      simp only [e 0 (by norm_num), e 1 (by norm_num), e 2 (by norm_num), false_and, if_false,
        add_zero]

/-- **C17, the part that holds for tangents.** The sparse tangent matrix agrees with the dense
one exactly for frames whose tangent and binormal satisfy `t.y = t.z = b.x = b.y`. -/
theorem tangent_sparse_eq_dense_partial (b : ContactBasis)
    (hlen : b.tangents.length = b.normals.length) (i : ℕ) (hi : i < b.normals.length) :
    ∃ m blk, b.contactBasisMatrix i = some m ∧ b.tangentBlock i = some blk ∧
      ((∀ r < 3, ∀ c < 2, entry b.tangentTriplets (3 * i + r) (2 * i + c) = blockEntry blk r c) ↔
        m.r1.y = m.r2.x ∧ m.r1.z = m.r1.y ∧ m.r2.x = m.r2.y ∧ m.r2.y = m.r1.z) := by
  have h := fun r c hr hc => tangent_sparse_entries b hlen i i r c hi hr hc
  obtain ⟨m, hm, -⟩ := h 0 0 (by norm_num) (by norm_num)
  refine ⟨m, _, hm, by rw [tangentBlock, hm]; rfl, ?_⟩
  have h' : ∀ r c, r < 3 → c < 2 → entry b.tangentTriplets (3 * i + r) (2 * i + c) =
      blockEntry [[m.r1.x, m.r1.y], [m.r1.z, m.r2.x], [m.r2.y, m.r2.z]] r c := by
    intro r c hr hc
    obtain ⟨m', hm', h⟩ := h r c hr hc
    rw [hm] at hm'
    cases hm'
    rw [h, if_pos rfl]
  constructor
  · intro hall
    refine ⟨?_, ?_, ?_, ?_⟩
    · have := hall 0 (by norm_num) 1 (by norm_num)
      rw [h' 0 1 (by norm_num) (by norm_num)] at this
      simpa [blockEntry] using this
    · have := hall 1 (by norm_num) 0 (by norm_num)
      rw [h' 1 0 (by norm_num) (by norm_num)] at this
      simpa [blockEntry] using this
    · have := hall 1 (by norm_num) 1 (by norm_num)
      rw [h' 1 1 (by norm_num) (by norm_num)] at this
      simpa [blockEntry] using this
    · have := hall 2 (by norm_num) 0 (by norm_num)
      rw [h' 2 0 (by norm_num) (by norm_num)] at this
      simpa [blockEntry] using this
  · rintro ⟨h1, h2, h3, h4⟩ r hr c hc
    rw [h' r c hr hc]
    interval_cases r <;> interval_cases c <;> simp [blockEntry] <;> linarith

/-- **C17 violated (sparse tangents).** For a contact with the normal along `z` the sparse
tangent matrix is not the dense one: the dense block maps tangential coordinates into the
`x`-`y` plane, the sparse one has a non-zero `z` row. -/
theorem tangent_sparse_violated :
    ∃ ns blk, UnitNormals ns ∧ 0 < ns.length ∧ (updateFromNormals ns).tangentBlock 0 = some blk ∧
      entry (updateFromNormals ns).tangentTriplets 2 0 ≠ blockEntry blk 2 0 := by
  have ht : tangentFor ⟨0, 0, 1⟩ = ⟨1, 0, 0⟩ := by
    have ha : ((⟨0, 0, 1⟩ : V3 ℝ).iamax + 1) % 3 = 0 := by
      norm_num [V3.iamax]
    unfold tangentFor
    simp only [ha]
    have e : V3.axis 0 - (⟨0, 0, 1⟩ : V3 ℝ).getN 0 • (⟨0, 0, 1⟩ : V3 ℝ) = ⟨1, 0, 0⟩ := by
      ext <;> simp [V3.axis, V3.getN]
    rw [e]
    ext <;> simp [V3.normalize, V3.norm, V3.dot]
  have hm : (updateFromNormals [⟨0, 0, 1⟩]).contactBasisMatrix 0 =
      some (frame ⟨0, 0, 1⟩ ⟨1, 0, 0⟩) := by
    rw [matrix_of_lt (by simp)]
    simp [ht]
  refine ⟨[⟨0, 0, 1⟩], _, ?_, by simp, by rw [tangentBlock, hm]; rfl, ?_⟩
  · intro n hn
    simp only [List.mem_singleton] at hn
    subst hn
    norm_num [V3.dot]
  · have hl : (updateFromNormals [⟨0, 0, 1⟩]).normals.length = 1 := rfl
    simp only [tangentTriplets, hl, List.range_one, List.flatMap_cons, List.flatMap_nil, hm,
      Option.elim_some, tangentTripletsAt, frame, V3.cross, entry, blockEntry]
    norm_num

/-! ## C14 in physical space -/

/-- The map to physical coordinates is the transpose of the map to contact coordinates. -/
theorem dot_transpose (m : M3 ℝ) (c v : V3 ℝ) :
    (m.transpose.mulVec c).dot v = c.dot (m.mulVec v) := by
  simp only [M3.mulVec, M3.transpose, V3.dot]
  ring

/-- **C14 (physical space).** The friction force at a contact never does positive work on
the relative velocity there, whatever the frame. -/
theorem contactFriction_dissipates (b : ContactBasis) (p : Friction.Params) (hp : p.Valid)
    (l : ℝ) (hl : 0 ≤ l) (vc f : V3 ℝ) (i : ℕ) (h : b.contactFriction p l vc i = some f) :
    f.dot vc ≤ 0 := by
  unfold contactFriction toContactCoordinates fromContactCoordinates at h
  cases hm : b.contactBasisMatrix i with
  | none => simp [hm] at h
  | some m =>
    simp only [hm, Option.map_some, Option.bind_some, Option.some.injEq] at h
    subst h
    rw [dot_transpose]
    have := Friction.friction_dissipates p hp ⟨(m.mulVec vc).y, (m.mulVec vc).z⟩ l hl
    simp only [V2.dot, V2.neg_x, V2.neg_y] at this
    simp only [V3.dot, V3.smul_x, V3.smul_y, V3.smul_z] at *
    linarith

/-- **C14 (physical space).** In frames built from unit normals the friction force is
tangential and obeys the Coulomb bound. -/
theorem contactFriction_coulomb {ns : List (V3 ℝ)} (hns : UnitNormals ns) {i : ℕ}
    (hi : i < ns.length) (p : Friction.Params) (hp : p.Valid) (hk : p.viscousFriction = 0)
    (l : ℝ) (hl : 0 ≤ l) (vc : V3 ℝ) :
    ∃ f, (updateFromNormals ns).contactFriction p l vc i = some f ∧ ns[i].dot f = 0 ∧
      f.norm ≤ max p.staticFriction p.dynamicFriction * l := by
  have hf := frame_of_lt hns hi
  simp only [contactFriction, toContactCoordinates, fromContactCoordinates, matrix_of_lt hi,
    Option.map_some, Option.bind_some]
  refine ⟨_, rfl, ?_, ?_⟩
  · have h1 := hf.nt
    have h2 := hf.nb
    simp only [M3.transpose, M3.mulVec, V3.dot, frame, V3.smul_x, V3.smul_y, V3.smul_z] at *
    generalize Friction.profile _ _ _ = e
    linear_combination -e.x * h1 - e.y * h2
  · have hc := Friction.friction_coulomb p hp hk
      ⟨((frame ns[i] (tangentFor ns[i])).mulVec vc).y,
        ((frame ns[i] (tangentFor ns[i])).mulVec vc).z⟩ l hl
    refine le_trans (le_of_eq ?_) hc
    generalize Friction.profile _ _ _ = e
    unfold V3.norm V2.norm
    congr 1
    have := hf.resolve' ((-1 : ℝ) • (⟨0, e.x, e.y⟩ : V3 ℝ))
    rw [dot_transpose, this]
    simp [V3.dot, V2.dot]

end Softy.ContactBasis
