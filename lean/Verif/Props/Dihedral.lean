import Verif.Model.Dihedral
import Verif.Props.InteriorEdge
import Mathlib.Tactic.NormNum

/-!
# Properties of dihedral elements (C62)
-/

namespace Softy.Dihedral

open IEdge

theorem retainBy_eq {α : Type} (bs : List ℚ) (as : List α) (h : as.length ≤ bs.length) :
    retainBy bs as = some (((bs.zip as).filter fun x => x.1 ≠ 0).map fun x => x.2) := by
  induction as generalizing bs with
  | nil => cases bs <;> simp [retainBy]
  | cons a as ih =>
    cases bs with
    | nil => simp at h
    | cons b bs =>
      unfold retainBy
      rw [ih bs (by simpa using h)]
      by_cases hb : b = 0 <;> simp [hb]

/-- The `k`-th element of each of the parallel vectors. -/
def Elems.rows (e : Elems) : List (Edge × ℚ × ℚ × ℚ × ℚ) :=
  e.dihedrals.zip (e.refAngles.zip (e.angles.zip (e.refLength.zip e.stiffness)))

theorem filter_rows (d : List Edge) (r a l s : List ℚ) (hr : r.length = d.length)
    (ha : a.length = d.length) (hl : l.length = d.length) (hs : s.length = d.length) :
    (Elems.rows ⟨((s.zip d).filter fun x => x.1 ≠ 0).map fun x => x.2,
        ((s.zip r).filter fun x => x.1 ≠ 0).map fun x => x.2,
        ((s.zip a).filter fun x => x.1 ≠ 0).map fun x => x.2,
        ((s.zip l).filter fun x => x.1 ≠ 0).map fun x => x.2, s.filter fun b => b ≠ 0⟩) =
      (Elems.rows ⟨d, r, a, l, s⟩).filter fun x => x.2.2.2.2 ≠ 0 := by
  unfold Elems.rows
  induction d generalizing r a l s with
  | nil =>
    simp only [List.length_nil, List.length_eq_zero_iff] at *
    subst hr; subst ha; subst hl; subst hs
    rfl
  | cons x d ih =>
    cases r with
    | nil => simp at hr
    | cons r0 r =>
      cases a with
      | nil => simp at ha
      | cons a0 a =>
        cases l with
        | nil => simp at hl
        | cons l0 l =>
          cases s with
          | nil => simp at hs
          | cons s0 s =>
            have := ih r a l s (by simpa using hr) (by simpa using ha) (by simpa using hl)
              (by simpa using hs)
            simp only at this
            by_cases h0 : s0 = 0
            · simpa [h0] using this
            · simpa [h0] using this

theorem filter_zip_length {α : Type} (s : List ℚ) (d : List α) (h : d.length = s.length) :
    (((s.zip d).filter fun x => x.1 ≠ 0).map fun x => x.2).length =
      (s.filter fun b => b ≠ 0).length := by
  induction d generalizing s with
  | nil =>
    cases s with
    | nil => rfl
    | cons _ _ => simp at h
  | cons x d ih =>
    cases s with
    | nil => simp at h
    | cons s0 s =>
      have := ih s (by simpa using h)
      by_cases h0 : s0 = 0
      · simpa [h0] using this
      · simpa [h0] using this

/-- **C62**, pruning. Pruning does not panic, and leaves exactly the edges with a nonzero bending
stiffness, in order, each with its own reference angle, angle, reference length and stiffness. -/
theorem prune_rows (e : Elems) (hr : e.refAngles.length = e.dihedrals.length)
    (ha : e.angles.length = e.dihedrals.length) (hl : e.refLength.length = e.dihedrals.length)
    (hs : e.stiffness.length = e.dihedrals.length) :
    ∃ e', prune e = some e' ∧ e'.rows = e.rows.filter (fun x => x.2.2.2.2 ≠ 0) ∧
      e'.refAngles.length = e'.dihedrals.length ∧ e'.angles.length = e'.dihedrals.length ∧
      e'.refLength.length = e'.dihedrals.length ∧ e'.stiffness.length = e'.dihedrals.length := by
  obtain ⟨d, r, a, l, s⟩ := e
  simp only at hr ha hl hs
  have ed := retainBy_eq s d (by omega)
  have ea := retainBy_eq s a (by omega)
  have er := retainBy_eq s r (by omega)
  have el := retainBy_eq s l (by omega)
  have nd := filter_zip_length s d (by omega)
  have na := filter_zip_length s a (by omega)
  have nr := filter_zip_length s r (by omega)
  have nl := filter_zip_length s l (by omega)
  refine ⟨_, ?_, filter_rows d r a l s hr ha hl hs, ?_, ?_, ?_, ?_⟩
  · unfold prune
    simp only [ed, ea, er, el]
    rw [if_pos]
    exact ⟨nd, nd.trans na.symm, nd.trans nr.symm, nd.trans nl.symm⟩
  · exact nr.trans nd.symm
  · exact na.trans nd.symm
  · exact nl.trans nd.symm
  · exact nd.symm

/-! ## Renumbering -/

/-- The vertices of a triangle cell. -/
def triOf (cells : List Cell) (f : ℕ) : Option (ℕ × ℕ × ℕ) :=
  match cells[f]? with
  | some (.tri a b c) => some (a, b, c)
  | _ => none

/-- The invariant of the renumbering. -/
structure RInv (cells : List Cell) (s : Renum) : Prop where
  size : s.map.length = cells.length
  len : s.triangles.length = s.orig.length
  tri : ∀ (i f : ℕ), s.orig[i]? = some f → triOf cells f = s.triangles[i]? ∧
    s.map[f]? = some (some i)
  map : ∀ (f i : ℕ), s.map[f]? = some (some i) → s.orig[i]? = some f

theorem renumFace_spec {cells : List Cell} {s : Renum} (h : RInv cells s) (f : ℕ)
    (hf : (triOf cells f).isSome) :
    ∃ i s', renumFace cells s f = some (i, s') ∧ RInv cells s' ∧ s'.orig[i]? = some f ∧
      s.orig <+: s'.orig := by
  unfold triOf at hf
  match hc : cells[f]? with
  | none => simp [hc] at hf
  | some .other => simp [hc] at hf
  | some (.tri a b c) =>
    have hlt : f < cells.length := (List.getElem?_eq_some_iff.mp hc).1
    match hm : s.map[f]? with
    | none =>
      rw [List.getElem?_eq_none_iff] at hm
      have := h.size
      omega
    | some (some i) =>
      refine ⟨i, s, ?_, h, h.map f i hm, List.prefix_refl _⟩
      simp [renumFace, hm]
    | some none =>
      refine ⟨s.triangles.length, ⟨s.map.set f (some s.triangles.length),
        s.triangles ++ [(a, b, c)], s.orig ++ [f]⟩, ?_, ?_, ?_, List.prefix_append _ _⟩
      · simp [renumFace, hm, hc]
      · refine ⟨?_, ?_, ?_, ?_⟩
        · simp [h.size]
        · simp [h.len]
        · intro i g hg
          simp only at hg ⊢
          rw [List.getElem?_append] at hg ⊢
          rw [h.len]
          split at hg
          · rename_i hi
            obtain ⟨t1, t2⟩ := h.tri i g hg
            rw [if_pos hi]
            refine ⟨t1, ?_⟩
            have hne : f ≠ g := by
              rintro rfl
              rw [hm] at t2
              simp at t2
            rw [List.getElem?_set_ne hne]
            exact t2
          · rename_i hi
            have hi0 : i - s.orig.length = 0 := by
              by_contra hne
              rw [List.getElem?_eq_none (by simp; omega)] at hg
              simp at hg
            rw [hi0] at hg
            simp only [List.getElem?_cons_zero, Option.some.injEq] at hg
            subst hg
            rw [if_neg hi, hi0]
            refine ⟨by simp [triOf, hc], ?_⟩
            have hmlt : f < s.map.length := by rw [h.size]; exact hlt
            rw [List.getElem?_set_self hmlt]
            have : i = s.orig.length := by omega
            rw [this]
        · intro g i hg
          simp only at hg ⊢
          by_cases hne : f = g
          · subst hne
            have hmlt : f < s.map.length := by rw [h.size]; exact hlt
            rw [List.getElem?_set_self hmlt] at hg
            simp only [Option.some.injEq] at hg
            rw [← hg, h.len]
            simp
          · rw [List.getElem?_set_ne hne] at hg
            have := h.map g i hg
            have hi := (List.getElem?_eq_some_iff.mp this).1
            rw [List.getElem?_append_left hi]
            exact this
      · simp [h.len]

theorem renumber_spec (cells : List Cell) (es : List Edge)
    (hes : ∀ e ∈ es, (triOf cells e.f0).isSome ∧ (triOf cells e.f1).isSome) :
    ∀ s, RInv cells s → ∃ es' s', renumber cells s es = some (es', s') ∧ RInv cells s' ∧
      s.orig <+: s'.orig ∧ List.Forall₂ (fun e e' => s'.orig[e'.f0]? = some e.f0 ∧
        s'.orig[e'.f1]? = some e.f1 ∧ e'.s0 = e.s0 ∧ e'.s1 = e.s1) es es' := by
  induction es with
  | nil => intro s h; exact ⟨[], s, rfl, h, List.prefix_refl _, List.Forall₂.nil⟩
  | cons e l ih =>
    intro s h
    obtain ⟨h0, h1⟩ := hes e List.mem_cons_self
    obtain ⟨i, s1, e1, i1, o1, p1⟩ := renumFace_spec h e.f0 h0
    obtain ⟨j, s2, e2, i2, o2, p2⟩ := renumFace_spec i1 e.f1 h1
    obtain ⟨es', s3, e3, i3, p3, f3⟩ := ih (fun e he => hes e (List.mem_cons_of_mem _ he)) s2 i2
    refine ⟨{ e with f0 := i, f1 := j } :: es', s3, ?_, i3, p1.trans (p2.trans p3), List.Forall₂.cons ⟨?_, ?_, rfl, rfl⟩ f3⟩
    · unfold renumber
      simp only [e1, e2, e3]
    · obtain ⟨t, ht⟩ := p2.trans p3
      rw [← ht, List.getElem?_append_left (List.getElem?_eq_some_iff.mp o1).1]
      exact o1
    · obtain ⟨t, ht⟩ := p3
      rw [← ht, List.getElem?_append_left (List.getElem?_eq_some_iff.mp o2).1]
      exact o2

/-- **C62**, renumbering. For dihedrals between triangles of the mesh renumbering does not panic,
keeps the number of dihedrals and where their edge starts, and the renumbered faces refer to
triangles with the same three vertices in the same order as the original cells; the list of
original cells tells which, and names every cell once. -/
theorem renumber_keeps_triangles (cells : List Cell) (es : List Edge)
    (hes : ∀ e ∈ es, (triOf cells e.f0).isSome ∧ (triOf cells e.f1).isSome) :
    ∃ es' s', renumber cells (Renum.init cells) es = some (es', s') ∧
      s'.triangles.length = s'.orig.length ∧ s'.orig.Nodup ∧
      List.Forall₂ (fun e e' => s'.triangles[e'.f0]? = triOf cells e.f0 ∧
        s'.triangles[e'.f1]? = triOf cells e.f1 ∧ s'.orig[e'.f0]? = some e.f0 ∧
        s'.orig[e'.f1]? = some e.f1 ∧ e'.s0 = e.s0 ∧ e'.s1 = e.s1) es es' := by
  have hinit : RInv cells (Renum.init cells) := by
    refine ⟨by simp [Renum.init], rfl, by simp [Renum.init], ?_⟩
    intro f i h
    simp only [Renum.init] at h
    rw [List.getElem?_eq_some_iff] at h
    obtain ⟨_, h⟩ := h
    simp at h
  obtain ⟨es', s', h1, h2, -, h4⟩ := renumber_spec cells es hes _ hinit
  refine ⟨es', s', h1, h2.len, ?_, ?_⟩
  · rw [List.nodup_iff_injective_getElem]
    intro ⟨i, hi⟩ ⟨j, hj⟩ hij
    simp only at hij
    have a := (h2.tri i s'.orig[i] (List.getElem?_eq_getElem hi)).2
    have b := (h2.tri j s'.orig[j] (List.getElem?_eq_getElem hj)).2
    rw [hij, b] at a
    simp only [Option.some.injEq] at a
    exact Fin.ext a.symm
  · refine h4.imp ?_
    rintro e e' ⟨a, b, c, d⟩
    exact ⟨(h2.tri _ _ a).1.symm, (h2.tri _ _ b).1.symm, a, b, c, d⟩

/-- Detected edges are between triangles, so that the hypothesis of `renumber_keeps_triangles` holds
for them, and for the edges left by pruning. -/
theorem detected_are_triangles (cells : List Cell) (isFixed : ℕ → Bool) (vals : List EdgeData)
    (hv : vals.Perm ((addCells [] 0 cells).map fun x => x.2)) (es : List Edge)
    (he : makeEdges cells isFixed vals = some es) :
    ∀ e ∈ es, (triOf cells e.f0).isSome ∧ (triOf cells e.f1).isSome := by
  obtain ⟨es', h1, h2, -⟩ := interior_edges cells isFixed vals hv
  rw [he] at h1
  obtain rfl := Option.some.inj h1
  intro e hm
  obtain ⟨-, -, hc, -⟩ := h2 e hm
  have key : ∀ f ∈ cellsAt cells (e.vert0 (corner cells) 0) (e.vert0 (corner cells) 1),
      (triOf cells f).isSome := by
    intro f hf
    unfold cellsAt at hf
    rw [List.mem_map] at hf
    obtain ⟨⟨f', v, w⟩, hm, rfl⟩ := hf
    rw [List.mem_filter] at hm
    obtain ⟨a, b, c, -, h2, -⟩ := mem_sidesFrom cells 0 f' v w hm.1
    rw [Nat.sub_zero] at h2
    simp [triOf, h2]
  rw [hc] at key
  exact ⟨key _ (by simp), key _ (by simp)⟩

theorem averages_spec (cs : List ℚ) (es : List Edge)
    (h : ∀ e ∈ es, e.f0 < cs.length ∧ e.f1 < cs.length) :
    averages cs es = some (es.map fun e => (cs.getD e.f0 0 + cs.getD e.f1 0) / 2) := by
  induction es with
  | nil => rfl
  | cons e l ih =>
    obtain ⟨h0, h1⟩ := h e List.mem_cons_self
    unfold averages
    rw [ih fun e he => h e (List.mem_cons_of_mem _ he), List.getElem?_eq_getElem h0,
      List.getElem?_eq_getElem h1]
    simp only [List.map_cons, Option.some.injEq, List.cons.injEq, and_true]
    simp only [List.getD_eq_getElem?_getD, List.getElem?_eq_getElem h0, List.getElem?_eq_getElem h1,
      Option.getD_some]
    ring

/-- **C62**. For all meshes, all cell stiffnesses and all lists of edges between triangles of the
mesh, the construction does not panic. The rows of the result are, in order, those edges for which
the mean of the stiffnesses of their faces is nonzero, each with the reference angle, angle and
length it had and that mean; the faces of the renumbered edge are triangles with the same vertices
as the original cells, and the list of original cells names these cells, each once. -/
theorem build_spec (cells : List Cell) (cs : List ℚ) (es : List Edge) (ra an rl : List ℚ)
    (hcs : cs.length = cells.length) (hra : ra.length = es.length) (han : an.length = es.length)
    (hrl : rl.length = es.length)
    (hes : ∀ e ∈ es, (triOf cells e.f0).isSome ∧ (triOf cells e.f1).isSome) :
    ∃ e r, build cells cs es ra an rl = some (e, r) ∧ r.triangles.length = r.orig.length ∧
      r.orig.Nodup ∧
      List.Forall₂ (fun x y =>
        r.triangles[y.1.f0]? = triOf cells x.1.f0 ∧ r.triangles[y.1.f1]? = triOf cells x.1.f1 ∧
        r.orig[y.1.f0]? = some x.1.f0 ∧ r.orig[y.1.f1]? = some x.1.f1 ∧
        y.1.s0 = x.1.s0 ∧ y.1.s1 = x.1.s1 ∧ y.2.1 = x.2.1 ∧ y.2.2.1 = x.2.2.1 ∧
        y.2.2.2.1 = x.2.2.2 ∧ y.2.2.2.2 = (cs.getD x.1.f0 0 + cs.getD x.1.f1 0) / 2)
        ((es.zip (ra.zip (an.zip rl))).filter
          fun x => (cs.getD x.1.f0 0 + cs.getD x.1.f1 0) / 2 ≠ 0) e.rows := by
  have hlt : ∀ f, (triOf cells f).isSome → f < cs.length := by
    intro f hf
    rw [hcs]
    by_contra hc
    simp [triOf, List.getElem?_eq_none (not_lt.mp hc)] at hf
  have hav := averages_spec cs es fun e he => ⟨hlt _ (hes e he).1, hlt _ (hes e he).2⟩
  obtain ⟨e', hp, hrow, n1, n2, n3, n4⟩ := prune_rows
    ⟨es, ra, an, rl, es.map fun e => (cs.getD e.f0 0 + cs.getD e.f1 0) / 2⟩ hra han hrl (by simp)
  have hrows0 : (Elems.rows
      ⟨es, ra, an, rl, es.map fun e => (cs.getD e.f0 0 + cs.getD e.f1 0) / 2⟩) =
      (es.zip (ra.zip (an.zip rl))).map fun x =>
        (x.1, x.2.1, x.2.2.1, x.2.2.2, (cs.getD x.1.f0 0 + cs.getD x.1.f1 0) / 2) := by
    unfold Elems.rows
    clear hp hrow hav hes
    induction es generalizing ra an rl with
    | nil => rfl
    | cons x es ih =>
      match ra, an, rl with
      | r0 :: ra, a0 :: an, l0 :: rl =>
        simp only [List.map_cons, List.zip_cons_cons, List.cons.injEq, true_and]
        exact ih ra an rl (by simpa using hra) (by simpa using han) (by simpa using hrl)
  rw [hrows0, List.filter_map] at hrow
  have hsub : ∀ d ∈ e'.dihedrals, d ∈ es := by
    intro d hd
    rw [List.mem_iff_getElem] at hd
    obtain ⟨k, hk, rfl⟩ := hd
    have hm : (e'.dihedrals[k], e'.refAngles[k]'(by omega), e'.angles[k]'(by omega),
        e'.refLength[k]'(by omega), e'.stiffness[k]'(by omega)) ∈ e'.rows := by
      rw [List.mem_iff_getElem]
      refine ⟨k, ?_, ?_⟩
      · simp [Elems.rows]; omega
      · simp [Elems.rows]
    rw [hrow, List.mem_map] at hm
    obtain ⟨⟨x, y⟩, hx, he⟩ := hm
    rw [Prod.mk.injEq] at he
    rw [← he.1]
    exact (List.of_mem_zip (List.mem_of_mem_filter hx)).1
  obtain ⟨d, r, hr, hl, hn, hf⟩ := renumber_keeps_triangles cells e'.dihedrals
    fun e he => hes e (hsub e he)
  refine ⟨{ e' with dihedrals := d }, r, ?_, hl, hn, ?_⟩
  · unfold build
    simp only [hav, hp, hr]
  · have hzip : List.Forall₂ (fun (x y : Edge × ℚ × ℚ × ℚ × ℚ) =>
        (r.triangles[y.1.f0]? = triOf cells x.1.f0 ∧ r.triangles[y.1.f1]? = triOf cells x.1.f1 ∧
        r.orig[y.1.f0]? = some x.1.f0 ∧ r.orig[y.1.f1]? = some x.1.f1 ∧
        y.1.s0 = x.1.s0 ∧ y.1.s1 = x.1.s1) ∧ y.2 = x.2) e'.rows
        (Elems.rows { e' with dihedrals := d }) := by
      unfold Elems.rows
      simp only
      generalize e'.refAngles.zip (e'.angles.zip (e'.refLength.zip e'.stiffness)) = q
      clear hrow hr hp hsub n1 n2 n3 n4
      generalize e'.dihedrals = d0 at hf
      induction hf generalizing q with
      | nil => exact List.Forall₂.nil
      | cons hd _ ih =>
        cases q with
        | nil => exact List.Forall₂.nil
        | cons q0 q => exact List.Forall₂.cons ⟨hd, rfl⟩ (ih q)
    rw [hrow, List.forall₂_map_left_iff] at hzip
    refine hzip.imp ?_
    rintro x y ⟨⟨a, b, c, d, e, f⟩, g⟩
    exact ⟨a, b, c, d, e, f, by rw [g], by rw [g], by rw [g], by rw [g]⟩

/-- Two edges of three triangles among other cells, the second edge is pruned. -/
example : (prune ⟨[⟨1, 3, 0, 0⟩, ⟨3, 4, 1, 0⟩], [1, 2], [3, 4], [5, 6], [7, 0]⟩).map
    (fun e => e.rows) = some [(⟨1, 3, 0, 0⟩, 1, 3, 5, 7)] ∧
    (renumber [.other, .tri 0 1 2, .other, .tri 1 0 3, .tri 0 3 4]
      (Renum.init [.other, .tri 0 1 2, .other, .tri 1 0 3, .tri 0 3 4])
      [⟨1, 3, 0, 0⟩, ⟨3, 4, 1, 0⟩]).map (fun r => (r.1, r.2.orig, r.2.triangles)) =
      some ([⟨0, 1, 0, 0⟩, ⟨1, 2, 1, 0⟩], [1, 3, 4], [(0, 1, 2), (1, 0, 3), (0, 3, 4)]) := by
  refine ⟨?_, rfl⟩
  norm_num [prune, retainBy, Elems.rows]

end Softy.Dihedral
