import Verif.Model.Scene

/-!
# Properties of scenes: attributes (C59), compression (C45), keyframes (C43), playback (C44)
-/

namespace Softy.Scene

variable {P : Type}

/-! ## Attributes -/

/-- Element types a scene can store. -/
def Supported (ty : Elem) : Prop :=
  ty ∈ [Elem.f64, .f32, .i32, .i8, .usize, .f32x3, .f64x3, .f32x2]

theorem fromAttribData_eq (a : Attr) (h : Supported a.ty) : fromAttribData a = some a := by
  obtain ⟨ty, vals⟩ := a
  cases ty <;> first | rfl | exact absurd h (by simp [Supported])

theorem fromAttribData_none (a : Attr) (h : ¬ Supported a.ty) : fromAttribData a = none := by
  obtain ⟨ty, vals⟩ := a
  cases ty <;> first | rfl | exact absurd (by simp [Supported]) h

theorem getAttr_none (as : Attrs) (name : String) (h : name ∉ as.map Prod.fst) :
    getAttr as name = none := by
  simp only [getAttr, Option.map_eq_none_iff, List.find?_eq_none, beq_iff_eq]
  intro x hx e
  exact h (e ▸ List.mem_map_of_mem hx)

theorem keepAttrs_names (as : Attrs) (name : String) (h : name ∉ as.map Prod.fst) :
    name ∉ (keepAttrs as).map Prod.fst := by
  intro hm
  obtain ⟨x, hx, e⟩ := List.mem_map.1 hm
  simp only [keepAttrs, List.mem_filterMap] at hx
  obtain ⟨⟨n, a⟩, h1, h2⟩ := hx
  obtain ⟨b, -, hb⟩ := Option.map_eq_some_iff.1 h2
  exact h (List.mem_map.2 ⟨(n, a), h1, by rw [← hb] at e; exact e⟩)

theorem getAttr_keep (as : Attrs) (hn : (as.map Prod.fst).Nodup) (name : String) :
    getAttr (keepAttrs as) name = (getAttr as name).bind fromAttribData := by
  induction as with
  | nil => rfl
  | cons x t ih =>
    obtain ⟨n, a⟩ := x
    rw [List.map_cons, List.nodup_cons] at hn
    have ih := ih hn.2
    by_cases e : n = name
    · subst e
      have h1 : getAttr ((n, a) :: t) n = some a := by simp [getAttr]
      rw [h1, Option.bind_some]
      cases hf : fromAttribData a with
      | none =>
        have : keepAttrs ((n, a) :: t) = keepAttrs t := by simp [keepAttrs, hf]
        rw [this]
        exact getAttr_none _ _ (keepAttrs_names _ _ hn.1)
      | some b =>
        have : keepAttrs ((n, a) :: t) = (n, b) :: keepAttrs t := by simp [keepAttrs, hf]
        rw [this]
        simp [getAttr]
    · have h1 : getAttr ((n, a) :: t) name = getAttr t name := by simp [getAttr, e]
      rw [h1, ← ih]
      cases hf : fromAttribData a with
      | none =>
        have : keepAttrs ((n, a) :: t) = keepAttrs t := by simp [keepAttrs, hf]
        rw [this]
      | some b =>
        have : keepAttrs ((n, a) :: t) = (n, b) :: keepAttrs t := by simp [keepAttrs, hf]
        rw [this]
        simp [getAttr, e]

/-- **C59**, for attributes of the stored element types: the scene keeps them unchanged, and
has no attribute the mesh does not have. Missing: other types, see `attributes_lost_violated`. -/
theorem attributes_kept_partial (attrs : Attrs) (positions : List P)
    (hn : (attrs.map Prod.fst).Nodup) (name : String) :
    (∀ a, getAttr attrs name = some a → Supported a.ty →
      getAttr (SceneData.new attrs positions).topo.vertexAttrs name = some a) ∧
    (getAttr attrs name = none →
      getAttr (SceneData.new attrs positions).topo.vertexAttrs name = none) := by
  have := getAttr_keep attrs hn name
  constructor
  · intro a ha hs
    show getAttr (keepAttrs attrs) name = _
    rw [this, ha, Option.bind_some, fromAttribData_eq a hs]
  · intro ha
    show getAttr (keepAttrs attrs) name = _
    rw [this, ha]; rfl

example : getAttr (SceneData.new [("mass", ⟨.f64, [3]⟩), ("fixed", ⟨.i8, [1]⟩)] [()]).topo.vertexAttrs
    "fixed" = some ⟨.i8, [1]⟩ := by decide

/-- **C59 is violated**: a mesh whose vertex is pinned with an unsigned attribute is pinned by the
solver (`Mesh.initFixed` reads this type), but the scene of the mesh drops the attribute, so in
the scene the vertex is free. -/
theorem attributes_lost_violated :
    Mesh.initFixed 1 (some ⟨.u8, [1]⟩) = [1] ∧
    getAttr (SceneData.new [("fixed", ⟨.u8, [1]⟩)] [()]).topo.vertexAttrs "fixed" = none ∧
    Mesh.initFixed 1 none = [0] := by
  refine ⟨?_, by decide, rfl⟩
  simp [Mesh.initFixed, Mesh.normalizeFixed, Mesh.convert, Mesh.AttrType.range]

/-! ## Compression -/

/-- Integer element types. -/
def IsInt (ty : Elem) : Prop := ty ∈ [Elem.i8, .i16, .i32, .i64, .u8, .u16, .u32, .u64, .usize]

/-- Vertex `v` is animated: it is marked by a non-zero value of the integer attribute
"animated", or there is no such attribute. -/
def Animated (attrs : Attrs) (v : ℕ) : Prop :=
  ∀ a, getAttr attrs "animated" = some a → IsInt a.ty → a.vals[v]? ≠ some 0

/-- The attribute "animated" has one value per vertex. -/
def MaskLen (attrs : Attrs) (n : ℕ) : Prop :=
  ∀ a, getAttr attrs "animated" = some a → a.vals.length = n

theorem expand_length (os : List P) (xs : List ℤ) (as : List P) :
    (expand os xs as).length = os.length := by
  induction os generalizing xs as with
  | nil => cases xs <;> rfl
  | cons o os ih =>
    cases xs with
    | nil => rfl
    | cons x xs =>
      simp only [expand]
      split_ifs
      · cases as with
        | nil => rfl
        | cons a as => simp [ih]
      · simp [ih]

theorem overwrite_length (os as : List P) : (overwrite os as).length = os.length := by
  induction os generalizing as with
  | nil => cases as <;> rfl
  | cons o os ih =>
    cases as with
    | nil => rfl
    | cons a as => simp [overwrite, ih]

theorem overwrite_eq (os as : List P) (h : os.length = as.length) : overwrite os as = as := by
  induction os generalizing as with
  | nil => cases as with
    | nil => rfl
    | cons a as => simp at h
  | cons o os ih =>
    cases as with
    | nil => simp at h
    | cons a as => simp only [overwrite]; rw [ih as (by simpa using h)]

theorem expand_compress (os ps : List P) (xs : List ℤ) (h1 : os.length = xs.length)
    (h2 : ps.length = xs.length) (v : ℕ) :
    (expand os xs (compress ps xs))[v]? = if xs[v]? = some 0 then os[v]? else ps[v]? := by
  induction xs generalizing os ps v with
  | nil =>
    obtain rfl := List.length_eq_zero_iff.1 h1
    obtain rfl := List.length_eq_zero_iff.1 h2
    simp [expand]
  | cons x xs ih =>
    obtain ⟨o, os, rfl⟩ := List.exists_cons_of_length_eq_add_one h1
    obtain ⟨p, ps, rfl⟩ := List.exists_cons_of_length_eq_add_one h2
    have h1 : os.length = xs.length := by simpa using h1
    have h2 : ps.length = xs.length := by simpa using h2
    have ih := fun v => ih os ps h1 h2 v
    by_cases hx : x = 0
    · subst hx
      cases v with
      | zero => simp [expand, compress]
      | succ v => simpa [expand, compress] using ih v
    · cases v with
      | zero => simp [expand, compress, hx]
      | succ v => simpa [expand, compress, hx] using ih v

theorem updatePositions_length (t : Topo) (f : ℕ) (as os : List P) :
    (updatePositions t f as os).length = os.length := by
  unfold updatePositions
  split_ifs
  · split <;> simp only [expand_length, overwrite_length]
  · simp only [overwrite_length]

/-- A mask of a type the scene understands, if there is an integer mask at all. -/
def MaskType (attrs : Attrs) : Prop :=
  ∀ a, getAttr attrs "animated" = some a → IsInt a.ty → Supported a.ty

/-- **C45**, for the integer types a scene stores: expanding the stored positions of a keyframe
over the current ones sets exactly the animated vertices to the values of the keyframe. The
keyframe of frame zero sets all vertices. Missing: other integer types, see
`mask_type_violated`. -/
theorem compression_roundtrip_partial (attrs : Attrs) (hn : (attrs.map Prod.fst).Nodup)
    (first : List P) (frame : ℕ) (ps out : List P) (hm : MaskLen attrs first.length)
    (ht : MaskType attrs) (hp : ps.length = first.length) (ho : out.length = first.length)
    (v : ℕ) :
    let t := (SceneData.new attrs first).topo
    (frame ≠ 0 ∧ ¬ Animated attrs v →
      (updatePositions t frame (filterAnimated t frame ps) out)[v]? = out[v]?) ∧
    (frame = 0 ∨ Animated attrs v →
      (updatePositions t frame (filterAnimated t frame ps) out)[v]? = ps[v]?) := by
  intro t
  have hg : getAttr t.vertexAttrs "animated" = (getAttr attrs "animated").bind fromAttribData :=
    getAttr_keep attrs hn _
  by_cases hf : frame = 0
  · subst hf
    simp only [ne_eq, not_true_eq_false, false_and, true_or, false_imp_iff, true_and,
      true_imp_iff, updatePositions, if_false, filterAnimated, if_true]
    rw [overwrite_eq _ _ (by omega)]
  · simp only [ne_eq, hf, not_false_eq_true, true_and, false_or, updatePositions,
      filterAnimated, if_true, if_false]
    cases ha : getAttr attrs "animated" with
    | none =>
      rw [ha] at hg
      rw [hg, Option.bind_none]
      have hA : Animated attrs v := by intro a h; rw [ha] at h; cases h
      refine ⟨fun h => absurd hA h, fun _ => ?_⟩
      show (overwrite out ps)[v]? = _
      rw [overwrite_eq _ _ (by omega)]
    | some a =>
      rw [ha, Option.bind_some] at hg
      have hlen := hm a ha
      have htype := ht a ha
      obtain ⟨ty, vals⟩ := a
      have hAiff : IsInt ty → (Animated attrs v ↔ vals[v]? ≠ some 0) := by
        intro hi
        constructor
        · intro h; exact h _ ha hi
        · intro h b hb _
          rw [ha] at hb
          obtain rfl := (Option.some.inj hb)
          exact h
      have key : (expand out vals (compress ps vals))[v]? =
          if vals[v]? = some 0 then out[v]? else ps[v]? :=
        expand_compress out ps vals (by rw [ho]; exact hlen.symm) (by rw [hp]; exact hlen.symm) v
      by_cases hi : IsInt ty
      · have hs := htype hi
        rw [fromAttribData_eq _ hs] at hg
        rw [hg, hAiff hi]
        have : ty = .i32 ∨ ty = .i8 ∨ ty = .usize := by
          revert hi hs; cases ty <;> simp [IsInt, Supported]
        rcases this with rfl | rfl | rfl <;> simp only [key] <;>
          exact ⟨fun h => if_pos (not_not.1 h), fun h => if_neg h⟩
      · have hA : Animated attrs v := by
          intro b hb hi'
          rw [ha] at hb
          obtain rfl := (Option.some.inj hb)
          exact absurd hi' hi
        refine ⟨fun h => absurd hA h, fun _ => ?_⟩
        rw [hg]
        revert hi
        cases ty <;> first
          | (intro _; simp only [fromAttribData]; rw [overwrite_eq _ _ (by omega)])
          | (intro h; exact absurd (by simp [IsInt]) h)

/-- A mask with one animated vertex out of three; the stored keyframe has one position. -/
example : filterAnimated (SceneData.new [("animated", ⟨.i32, [0, 5, 0]⟩)] [1, 2, 3]).topo 4
      [10, 20, 30] = [20] ∧
    updatePositions (SceneData.new [("animated", ⟨.i32, [0, 5, 0]⟩)] [1, 2, 3]).topo 4 [20]
      [7, 8, 9] = [7, 20, 9] := by decide

/-- **C45 is violated** for other integer types: a vertex which an unsigned mask marks as not
animated is moved. -/
theorem mask_type_violated :
    let attrs : Attrs := [("animated", ⟨.u8, [1, 0]⟩)]
    let t := (SceneData.new attrs [0, 0]).topo
    ¬ Animated attrs 1 ∧ updatePositions t 1 (filterAnimated t 1 [5, 6]) [0, 0] = [5, 6] := by
  refine ⟨?_, by decide⟩
  intro h
  exact h ⟨.u8, [1, 0]⟩ (by decide) (by simp [IsInt]) rfl

end Softy.Scene
