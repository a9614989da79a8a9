import Verif.Props.SceneAnim

/-!
# Properties of playback (C44)
-/

namespace Softy.Scene

variable {P : Type}

/-- Setting strictly increasing keyframes after the first one replaces all but the first. -/
theorem setKeyframes_holds (s : SceneData P) (fulls : List (ℕ × List P)) (h : Holds s fulls)
    (frames : List ℕ) (positions : List (List P)) (hl : frames.length = positions.length)
    (hne : frames ≠ []) (hs : frames.Pairwise (· < ·))
    (hlen : ∀ p ∈ positions, p.length = s.topo.numVertices)
    (h0 : ∀ a, fulls.head? = some a → a.1 = 0) :
    ∃ s', s.setKeyframes frames positions = .ok s' ∧ s'.topo = s.topo ∧
      Holds s' ((if frames.head? = some 0 then [] else fulls.take 1) ++ frames.zip positions) := by
  have hmono : monotone frames = true := by
    clear * - hs
    induction frames with
    | nil => rfl
    | cons a l ih =>
      cases l with
      | nil => rfl
      | cons b l =>
        rw [List.pairwise_cons] at hs
        have := hs.1 b (by simp)
        simp [monotone, ih hs.2, this.le]
  unfold SceneData.setKeyframes
  rw [if_pos ⟨hl, hne, hmono, hlen⟩]
  refine ⟨_, rfl, rfl, ?_, ?_, ?_⟩
  · simp only [List.map_append]
    congr 1
    · split_ifs
      · rfl
      · rw [h.anim, List.map_take]
    · rw [List.zip, List.map_zipWith]
  · rw [List.map_append, List.map_fst_zip (by omega), List.pairwise_append]
    refine ⟨?_, hs, ?_⟩
    · split_ifs
      · simp
      · rw [List.map_take]; exact h.sorted.sublist (List.take_sublist _ _)
    · intro a ha b hb
      split_ifs at ha with hz
      · simp at ha
      · obtain ⟨x, hx, rfl⟩ := List.mem_map.1 ha
        have hx0 : x.1 = 0 := by
          cases fulls with
          | nil => simp at hx
          | cons y l =>
            simp only [List.take_succ_cons, List.take_zero, List.mem_singleton] at hx
            subst hx; exact h0 _ rfl
        cases frames with
        | nil => simp at hb
        | cons c l =>
          have hc : c ≠ 0 := by intro e; exact hz (by simp [e])
          rw [List.pairwise_cons] at hs
          rcases List.mem_cons.1 hb with rfl | hb
          · omega
          · have := hs.1 b hb; omega
  · intro a ha
    rcases List.mem_append.1 ha with ha | ha
    · split_ifs at ha
      · simp at ha
      · exact h.lens a (List.mem_of_mem_take ha)
    · exact hlen a.2 (List.of_mem_zip ha).2

/-! ## Specification of playback -/

/-- The positions of the latest keyframe whose frame is at most `f`. -/
def latest (fulls : List (ℕ × List P)) (f : ℕ) : Option (List P) :=
  ((fulls.filter fun a => a.1 ≤ f).getLast?).map Prod.snd

/-- In step `f`, the prescribed positions of animated vertices are those of the latest keyframe
with frame at most `f`; the others are where the first keyframe puts them. -/
def Follows (attrs : Attrs) (fulls : List (ℕ × List P)) (first : List P) (f : ℕ)
    (target : List P) : Prop :=
  ∃ k, latest fulls f = some k ∧ target.length = first.length ∧
    ∀ v, (Animated attrs v → target[v]? = k[v]?) ∧ (¬ Animated attrs v → target[v]? = first[v]?)

/-- As `Follows`, for the keyframe number `i`. -/
def FollowsAt (attrs : Attrs) (fulls : List (ℕ × List P)) (first : List P) (i : ℕ)
    (target : List P) : Prop :=
  ∃ a, fulls[i]? = some a ∧ target.length = first.length ∧
    ∀ v, (Animated attrs v → target[v]? = a.2[v]?) ∧
      (¬ Animated attrs v → target[v]? = first[v]?)

theorem playLoop_inv (env : Env) (attrs : Attrs) (hn : (attrs.map Prod.fst).Nodup)
    (first₀ first : List P) (hfirst : first.length = first₀.length)
    (hm : MaskLen attrs first₀.length) (ht : MaskType attrs) (s : SceneData P)
    (htopo : s.topo = (SceneData.new attrs first₀).topo) (fulls : List (ℕ × List P))
    (h : Holds s fulls) (hhead : ∃ l, fulls = (0, first) :: l)
    (R : ℕ → ℕ → Prop)
    (R1 : ∀ frame i a, R frame i → fulls[i]? = some a → a.1 ≤ frame + 1 → R (frame + 1) (i + 1))
    (R2 : ∀ frame i a, R frame i → fulls[i]? = some a → ¬ a.1 ≤ frame + 1 → R (frame + 1) i)
    (R3 : ∀ frame i, R frame i → fulls[i]? = none → R (frame + 1) i)
    (n frame i : ℕ) (anim : List P) (hi : 1 ≤ i)
    (hanim : FollowsAt attrs fulls first (i - 1) anim) (hR : R frame i) :
    ∀ x ∈ (playLoop env s n frame i anim anim).2,
      ∃ j, 1 ≤ j ∧ FollowsAt attrs fulls first (j - 1) x.2 ∧ R x.1 j := by
  induction n generalizing frame i anim with
  | zero => intro x hx; simp [playLoop] at hx
  | succ n ih =>
    intro x hx
    have hthis : ∃ j, 1 ≤ j ∧ FollowsAt attrs fulls first (j - 1) anim ∧ R frame j :=
      ⟨i, hi, hanim, hR⟩
    unfold playLoop at hx
    by_cases hok : env.stepOk frame = true
    swap
    · rw [if_neg hok, List.mem_singleton] at hx; subst hx; exact hthis
    rw [if_pos hok] at hx
    by_cases hgo : env.goOn frame = true
    swap
    · rw [if_neg hgo, List.mem_singleton] at hx; subst hx; exact hthis
    rw [if_pos hgo] at hx
    · cases hk : s.animation[i]? with
      | none =>
        rw [hk] at hx
        simp only at hx
        have hf : fulls[i]? = none := by
          rw [h.anim, List.getElem?_map, Option.map_eq_none_iff] at hk; exact hk
        rcases List.mem_cons.1 hx with rfl | hx
        · exact hthis
        · exact ih (frame + 1) i anim hi hanim (R3 _ _ hR hf) x hx
      | some k =>
        rw [hk] at hx
        simp only at hx
        obtain ⟨a, ha, rfl⟩ : ∃ a, fulls[i]? = some a ∧ store s.topo a.1 a.2 = k := by
          rw [h.anim, List.getElem?_map, Option.map_eq_some_iff] at hk; exact hk
        have hka : (store s.topo a.1 a.2).frame = a.1 := rfl
        rw [hka] at hx
        by_cases h1 : a.1 ≤ frame + 1
        · rw [if_pos h1] at hx
          by_cases hup : env.updateOk frame = true
          swap
          · rw [if_neg hup, List.mem_singleton] at hx; subst hx; exact hthis
          rw [if_pos hup] at hx
          simp only at hx
          rcases List.mem_cons.1 hx with rfl | hx
          · exact hthis
          · refine ih (frame + 1) (i + 1) _ (by omega) ?_ (R1 _ _ a hR ha h1) x hx
            obtain ⟨b, hb, hlen, hv⟩ := hanim
            refine ⟨a, ha, ?_, ?_⟩
            · rw [updatePositions_length, hlen]
            · intro v
              have hane : a.1 ≠ 0 := by
                obtain ⟨l, rfl⟩ := hhead
                have := holds_lt _ h.sorted 0 i (0, first) a rfl ha (by omega)
                simp only at this; omega
              have halen : a.2.length = first₀.length := by
                have := h.lens a (List.mem_of_getElem? ha)
                rw [this, htopo]; rfl
              have := compression_roundtrip_partial attrs hn first₀ a.1 a.2 anim hm ht halen
                (by rw [hlen, hfirst]) v
              simp only [← htopo] at this
              constructor
              · intro hA; exact this.2 (.inr hA)
              · intro hA
                exact (this.1 ⟨hane, hA⟩).trans ((hv v).2 hA)
        · rw [if_neg h1] at hx
          rcases List.mem_cons.1 hx with rfl | hx
          · exact hthis
          · exact ih (frame + 1) i anim hi hanim (R2 _ _ a hR ha h1) x hx

theorem run_eq (env : Env) (s : SceneData P) (first : List P) (l : List (ℕ × List P))
    (h : Holds s ((0, first) :: l)) (steps : ℕ) (r : Ending × List (ℕ × List P))
    (hr : run env s steps = .ok r) :
    (r = (.interrupted, []) ∧ env.goOn 0 = false) ∨
      (r = playLoop env s steps 1 1 first first ∧ env.goOn 0 = true) := by
  unfold run at hr
  have : s.animation.head? = some ⟨0, first⟩ := by
    rw [h.anim]; simp [store, filterAnimated]
  rw [this] at hr
  simp only at hr
  split_ifs at hr with h1
  · exact .inr ⟨(Except.ok.inj hr).symm, h1⟩
  · exact .inl ⟨(Except.ok.inj hr).symm, by simpa using h1⟩

/-- **C44**, for keyframes of which none is at frame one: in every simulated step, whatever the
solver and the callback do, the animated vertices follow the latest keyframe with a frame at
most that step, and other vertices stay with the first keyframe. The keyframes are any a scene
can hold with a unique position per frame (`keyframes_sorted_map`, `setKeyframes_holds`).
Missing: a keyframe at frame one, see `playback_lag_violated`, and several keyframes for one
frame, see `duplicate_keyframes_violated`. -/
theorem playback_partial (env : Env) (attrs : Attrs) (hn : (attrs.map Prod.fst).Nodup)
    (first₀ first : List P) (hfirst : first.length = first₀.length)
    (hm : MaskLen attrs first₀.length) (ht : MaskType attrs) (s : SceneData P)
    (htopo : s.topo = (SceneData.new attrs first₀).topo) (l : List (ℕ × List P))
    (h : Holds s ((0, first) :: l)) (hone : ∀ a ∈ l, a.1 ≠ 1) (steps : ℕ)
    (e : Ending) (log : List (ℕ × List P)) (hr : run env s steps = .ok (e, log)) :
    ∀ x ∈ log, Follows attrs ((0, first) :: l) first x.1 x.2 := by
  rcases run_eq env s first l h steps _ hr with ⟨h1, -⟩ | ⟨h1, -⟩
  · intro x hx
    rw [Prod.mk.injEq] at h1
    rw [h1.2] at hx; simp at hx
  · intro x hx
    have hx : x ∈ (playLoop env s steps 1 1 first first).2 := by rw [← h1]; exact hx
    have hsort := h.sorted
    obtain ⟨j, hj, hfol, hR⟩ := playLoop_inv env attrs hn first₀ first hfirst hm ht s htopo
      ((0, first) :: l) h ⟨l, rfl⟩
      (fun frame i => ∀ k a, ((0, first) :: l)[k]? = some a → (k < i ↔ a.1 ≤ frame))
      (by
        intro frame i a hR ha hle k b hb
        have := hR k b hb
        have hia := hR i a ha
        rcases lt_trichotomy k i with hk | hk | hk
        · constructor
          · intro _; have := this.1 hk; omega
          · intro _; omega
        · subst hk
          rw [ha] at hb
          obtain rfl := Option.some.inj hb
          constructor
          · intro _; exact hle
          · intro _; omega
        · have hlt := holds_lt _ hsort i k a b ha hb hk
          constructor
          · intro _; omega
          · intro hb1; omega)
      (by
        intro frame i a hR ha hgt k b hb
        have := hR k b hb
        rcases lt_trichotomy k i with hk | hk | hk
        · constructor
          · intro _; have := this.1 hk; omega
          · intro _; omega
        · subst hk
          rw [ha] at hb
          obtain rfl := Option.some.inj hb
          constructor
          · intro _; omega
          · intro hb1; omega
        · have hlt := holds_lt _ hsort i k a b ha hb hk
          constructor
          · intro _; omega
          · intro hb1; omega)
      (by
        intro frame i hR hnone k b hb
        have h1 := List.getElem?_eq_none_iff.1 hnone
        have h2 := (List.getElem?_eq_some_iff.1 hb).1
        have := hR k b hb
        constructor
        · intro _; have := this.1 (by omega); omega
        · intro _; omega)
      steps 1 1 first le_rfl
      ⟨(0, first), rfl, rfl, fun v => ⟨fun _ => rfl, fun _ => rfl⟩⟩
      (by
        intro k a ha
        cases k with
        | zero =>
          simp only [List.getElem?_cons_zero, Option.some.injEq] at ha
          subst ha; simp
        | succ k =>
          have hne := hone a (List.mem_of_getElem? (by simpa using ha))
          have hlt := holds_lt _ hsort 0 (k + 1) (0, first) a rfl ha (by omega)
          simp only at hlt
          omega)
      x hx
    obtain ⟨a, ha, hlen, hv⟩ := hfol
    refine ⟨a.2, ?_, hlen, hv⟩
    have hfil : ((0, first) :: l).filter (fun a => a.1 ≤ x.1) = ((0, first) :: l).take j := by
      have hjl : j - 1 < ((0, first) :: l).length := (List.getElem?_eq_some_iff.1 ha).1
      conv_lhs => rw [← List.take_append_drop j ((0, first) :: l)]
      rw [List.filter_append, List.filter_eq_self.2, List.filter_eq_nil_iff.2, List.append_nil]
      · intro b hb
        obtain ⟨k, hk, rfl⟩ := List.mem_iff_getElem.1 hb
        rw [List.getElem_drop]
        have := hR (j + k) _ (List.getElem?_eq_getElem (by simp at hk ⊢; omega))
        simp only [decide_eq_true_eq]
        omega
      · intro b hb
        obtain ⟨k, hk, rfl⟩ := List.mem_take_iff_getElem.1 hb
        have := hR k _ (List.getElem?_eq_getElem (by omega))
        simp only [decide_eq_true_eq]
        omega
    rw [latest, hfil, List.getLast?_take, if_neg (by omega), ha]
    rfl

/-- The steps which are simulated are one, two, three and so on; all of them if playback ends
normally. -/
theorem run_frames (env : Env) (s : SceneData P) (steps : ℕ) (e : Ending)
    (log : List (ℕ × List P)) (hr : run env s steps = .ok (e, log)) :
    log.map Prod.fst = List.range' 1 log.length ∧ log.length ≤ steps ∧
      (e = .done → log.length = steps) := by
  have key : ∀ (n frame i : ℕ) (anim target : List P),
      (playLoop env s n frame i anim target).2.map Prod.fst =
        List.range' frame (playLoop env s n frame i anim target).2.length ∧
      (playLoop env s n frame i anim target).2.length ≤ n ∧
      ((playLoop env s n frame i anim target).1 = .done →
        (playLoop env s n frame i anim target).2.length = n) := by
    intro n
    induction n with
    | zero => intro frame i anim target; simp [playLoop]
    | succ n ih =>
      intro frame i anim target
      have one : ∀ e : Ending, e ≠ .done →
          ((e, [(frame, target)]) : Ending × List (ℕ × List P)).2.map Prod.fst =
            List.range' frame ((e, [(frame, target)]) : Ending × List (ℕ × List P)).2.length ∧
          ((e, [(frame, target)]) : Ending × List (ℕ × List P)).2.length ≤ n + 1 ∧
          (((e, [(frame, target)]) : Ending × List (ℕ × List P)).1 = .done →
            ((e, [(frame, target)]) : Ending × List (ℕ × List P)).2.length = n + 1) := by
        intro e he
        exact ⟨by simp, by simp, fun h => absurd h he⟩
      have more : ∀ (j : ℕ) (an tg : List P),
          let r := playLoop env s n (frame + 1) j an tg
          ((r.1, (frame, target) :: r.2) : Ending × List (ℕ × List P)).2.map Prod.fst =
            List.range' frame
              ((r.1, (frame, target) :: r.2) : Ending × List (ℕ × List P)).2.length ∧
          ((r.1, (frame, target) :: r.2) : Ending × List (ℕ × List P)).2.length ≤ n + 1 ∧
          (((r.1, (frame, target) :: r.2) : Ending × List (ℕ × List P)).1 = .done →
            ((r.1, (frame, target) :: r.2) : Ending × List (ℕ × List P)).2.length = n + 1) := by
        intro j an tg r
        obtain ⟨a1, a2, a3⟩ := ih (frame + 1) j an tg
        simp only [List.map_cons, List.length_cons, List.range'_succ]
        exact ⟨by rw [a1], Nat.succ_le_succ a2, fun h => by rw [a3 h]⟩
      unfold playLoop
      by_cases hok : env.stepOk frame = true
      swap
      · rw [if_neg hok]; exact one _ (by simp)
      rw [if_pos hok]
      by_cases hgo : env.goOn frame = true
      swap
      · rw [if_neg hgo]; exact one _ (by simp)
      rw [if_pos hgo]
      cases hk : s.animation[i]? with
      | none => exact more i anim target
      | some k =>
        simp only
        by_cases h1 : k.frame ≤ frame + 1
        · rw [if_pos h1]
          by_cases hup : env.updateOk frame = true
          · rw [if_pos hup]
            exact more (i + 1) _ _
          · rw [if_neg hup]; exact one _ (by simp)
        · rw [if_neg h1]
          exact more i anim target
  unfold run at hr
  split at hr
  · cases hr
  · split_ifs at hr
    · have hr := Except.ok.inj hr
      have := key steps 1 1 (by assumption : Keyframe P).positions (by assumption : Keyframe P).positions
      rw [hr] at this
      exact this
    · have hr := Except.ok.inj hr
      rw [Prod.mk.injEq] at hr
      obtain ⟨rfl, rfl⟩ := hr
      simp

/-- A solver that never fails and a callback that never interrupts. -/
def fine : Env := ⟨fun _ => true, fun _ => true, fun _ => true⟩

/-- Keyframes at two and four, one vertex. -/
example : run fine (⟨⟨[], 1⟩, [⟨0, [0]⟩, ⟨2, [2]⟩, ⟨4, [4]⟩]⟩ : SceneData ℕ) 5 =
    .ok (.done, [(1, [0]), (2, [2]), (3, [2]), (4, [4]), (5, [4])]) := by
  simp [run, fine, playLoop, updatePositions, getAttr, overwrite]

/-- **C44 is violated** with a keyframe at frame one: for a scene with a keyframe for every
frame up to some frame, in every one of these frames the vertices follow the keyframe of the
frame before. -/
theorem playback_lag_violated (env : Env) (attrs : Attrs) (hn : (attrs.map Prod.fst).Nodup)
    (first₀ first : List P) (hfirst : first.length = first₀.length)
    (hm : MaskLen attrs first₀.length) (ht : MaskType attrs) (s : SceneData P)
    (htopo : s.topo = (SceneData.new attrs first₀).topo) (l : List (ℕ × List P))
    (h : Holds s ((0, first) :: l))
    (hdense : ((0, first) :: l).map Prod.fst = List.range (l.length + 1)) (steps : ℕ)
    (e : Ending) (log : List (ℕ × List P)) (hr : run env s steps = .ok (e, log)) :
    ∀ x ∈ log, x.1 ≤ l.length → Follows attrs ((0, first) :: l) first (x.1 - 1) x.2 := by
  rcases run_eq env s first l h steps _ hr with ⟨h1, -⟩ | ⟨h1, -⟩
  · intro x hx
    rw [Prod.mk.injEq] at h1
    rw [h1.2] at hx; simp at hx
  · intro x hx hxl
    have hx : x ∈ (playLoop env s steps 1 1 first first).2 := by rw [← h1]; exact hx
    have hframe : ∀ (k : ℕ) (a : ℕ × List P), ((0, first) :: l)[k]? = some a → a.1 = k := by
      intro k a ha
      have hk := (List.getElem?_eq_some_iff.1 ha).1
      have : (((0, first) :: l).map Prod.fst)[k]? = some a.1 := by
        rw [List.getElem?_map, ha]; rfl
      rw [hdense, List.getElem?_range (by simpa using hk)] at this
      exact (Option.some.inj this).symm
    obtain ⟨j, hj, ⟨a, ha, hlen, hv⟩, hR⟩ := playLoop_inv env attrs hn first₀ first hfirst hm ht
      s htopo ((0, first) :: l) h ⟨l, rfl⟩ (fun frame i => i = min frame (l.length + 1))
      (by
        intro frame i a hR ha hle
        have := (List.getElem?_eq_some_iff.1 ha).1
        simp only [List.length_cons] at this
        omega)
      (by
        intro frame i a hR ha hgt
        have := hframe i a ha
        omega)
      (by
        intro frame i hR hnone
        have := List.getElem?_eq_none_iff.1 hnone
        simp only [List.length_cons] at this
        omega)
      steps 1 1 first le_rfl ⟨(0, first), rfl, rfl, fun v => ⟨fun _ => rfl, fun _ => rfl⟩⟩
      (by omega) x hx
    refine ⟨a.2, ?_, hlen, hv⟩
    have hjx : j = x.1 := by omega
    subst hjx
    have hjl := (List.getElem?_eq_some_iff.1 ha).1
    have hfil : ((0, first) :: l).filter (fun a : ℕ × List P => a.1 ≤ x.1 - 1) = ((0, first) :: l).take x.1 := by
      conv_lhs => rw [← List.take_append_drop x.1 ((0, first) :: l)]
      rw [List.filter_append, List.filter_eq_self.2, List.filter_eq_nil_iff.2, List.append_nil]
      · intro b hb
        obtain ⟨k, hk, rfl⟩ := List.mem_iff_getElem.1 hb
        rw [List.getElem_drop]
        have := hframe (x.1 + k) _ (List.getElem?_eq_getElem (by simp at hk ⊢; omega))
        simp only [decide_eq_true_eq]
        omega
      · intro b hb
        obtain ⟨k, hk, rfl⟩ := List.mem_take_iff_getElem.1 hb
        have := hframe k _ (List.getElem?_eq_getElem (by omega))
        simp only [decide_eq_true_eq]
        omega
    rw [latest, hfil, List.getLast?_take, if_neg (by omega), ha]
    rfl

/-- The smallest case: in step one a vertex with a keyframe at frame one stays where it was. -/
example : run fine (⟨⟨[], 1⟩, [⟨0, [0]⟩, ⟨1, [1]⟩, ⟨2, [2]⟩]⟩ : SceneData ℕ) 3 =
    .ok (.done, [(1, [0]), (2, [1]), (3, [2])]) := by
  simp [run, fine, playLoop, updatePositions, getAttr, overwrite]

/-- Keyframes with equal frames are accepted, although documented to panic, and delay all later
keyframes: in step four the vertex is not at the keyframe of frame four. -/
theorem duplicate_keyframes_violated :
    ∃ s, (SceneData.new [] [0]).setKeyframes [3, 3, 4] [[1], [2], [3]] = .ok s ∧
      run fine s 5 = .ok (.done, [(1, [0]), (2, [0]), (3, [1]), (4, [2]), (5, [3])]) := by
  refine ⟨⟨⟨[], 1⟩, [⟨0, [0]⟩, ⟨3, [1]⟩, ⟨3, [2]⟩, ⟨4, [3]⟩]⟩, ?_, ?_⟩
  · simp [SceneData.new, SceneData.setKeyframes, monotone, store, filterAnimated, getAttr,
      keepAttrs]
  · simp [run, fine, playLoop, updatePositions, getAttr, overwrite]

end Softy.Scene
