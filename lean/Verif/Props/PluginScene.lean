import Verif.Model.PluginScene
import Verif.Props.ScenePlay
import Verif.Props.MeshState

/-!
# Exported scenes of the Houdini node (C102)

Running the scene which the node exports for a range of frames should simulate what the node
simulates when it is cooked at these frames.
-/

noncomputable section

namespace Softy.PluginScene

open Softy Scene Classical

variable {Sim Mat S : Type}

/-! ## Which keyframes are exported -/

theorem dist2_nonneg (a b : R3) : 0 ≤ dist2 a b := Finset.sum_nonneg fun _ _ => sq_nonneg _

theorem dist2_le_zero (a b : R3) : dist2 a b ≤ 0 ↔ a = b := by
  constructor
  · intro h
    have h0 := le_antisymm h (dist2_nonneg a b)
    rw [dist2, Finset.sum_eq_zero_iff_of_nonneg fun _ _ => sq_nonneg _] at h0
    funext i
    have := h0 i (Finset.mem_univ i)
    exact sub_eq_zero.1 (pow_eq_zero_iff (by norm_num) |>.1 this)
  · rintro rfl
    simp [dist2]

theorem compare_nonneg (p q : Pts) : 0 ≤ (compare p q).1 := by
  induction p generalizing q with
  | nil => cases q <;> simp [compare]
  | cons a p ih =>
    cases q with
    | nil => simp [compare]
    | cons b q => exact add_nonneg (dist2_nonneg a b) (ih q)

theorem compare_eq (p q : Pts) (h : p.length = q.length) :
    ((compare p q).1 ≤ 0 ↔ p = q) ∧ (compare p q).2 = q := by
  induction p generalizing q with
  | nil =>
    obtain rfl := List.length_eq_zero_iff.1 h.symm
    simp [compare]
  | cons a p ih =>
    cases q with
    | nil => simp at h
    | cons b q =>
      obtain ⟨h1, h2⟩ := ih q (by simpa using h)
      refine ⟨?_, by simp [compare, h2]⟩
      have e : (compare (a :: p) (b :: q)).1 = dist2 a b + (compare p q).1 := rfl
      rw [e, List.cons.injEq, ← h1, ← dist2_le_zero]
      have := dist2_nonneg a b
      have := compare_nonneg p q
      constructor
      · intro h; constructor <;> linarith
      · intro h; linarith [h.1, h.2]

/-- The frames from `a` on, `n` of them, at which the input differs from that of the frame before,
with the input. -/
def changes (input : ℕ → Pts) (a n : ℕ) : List (ℕ × Pts) :=
  ((List.range' a n).filter fun k => decide (input k ≠ input (k - 1))).map fun k => (k, input k)

theorem mem_changes (input : ℕ → Pts) (a n : ℕ) (x : ℕ × Pts) :
    x ∈ changes input a n ↔ a ≤ x.1 ∧ x.1 < a + n ∧ input x.1 ≠ input (x.1 - 1) ∧ x.2 = input x.1 := by
  obtain ⟨k, q⟩ := x
  simp only [changes, List.mem_map, List.mem_filter, List.mem_range'_1, decide_eq_true_eq,
    Prod.mk.injEq]
  constructor
  · rintro ⟨j, ⟨⟨h1, h2⟩, h3⟩, rfl, rfl⟩
    exact ⟨h1, h2, h3, rfl⟩
  · rintro ⟨h1, h2, h3, rfl⟩
    exact ⟨k, ⟨⟨h1, h2⟩, h3⟩, rfl, rfl⟩

theorem exportLoop_holds (input : ℕ → Pts) (n k : ℕ) (hk : 1 ≤ k) (s : SceneData R3)
    (fulls : List (ℕ × Pts)) (h : Holds s fulls) (hne : fulls ≠ [])
    (hlt : ∀ x ∈ fulls, x.1 < k)
    (hlen : ∀ j, j < k + n → (input j).length = s.topo.numVertices) :
    ∃ s', exportLoop (fun j => some (input j)) n k (input (k - 1)) s = .ok s' ∧
      s'.topo = s.topo ∧ Holds s' (fulls ++ changes input k n) := by
  induction n generalizing k s fulls with
  | zero => exact ⟨s, rfl, rfl, by simpa [changes] using h⟩
  | succ n ih =>
    obtain ⟨h1, h2⟩ := compare_eq (input (k - 1)) (input k)
      ((hlen _ (by omega)).trans (hlen _ (by omega)).symm)
    unfold exportLoop
    simp only
    rw [h2]
    by_cases hc : (compare (input (k - 1)) (input k)).1 ≤ 0
    · rw [if_pos hc]
      have he : changes input k (n + 1) = changes input (k + 1) n := by
        rw [changes, List.range'_succ, List.filter_cons_of_neg]
        · rfl
        · simpa using (h1.1 hc).symm
      rw [he]
      exact ih (k + 1) (by omega) s fulls h hne (fun x hx => (hlt x hx).trans (by omega))
        fun j hj => hlen j (by omega)
    · rw [if_neg hc]
      obtain ⟨s', e, ht, hs'⟩ := addKeyframe_refines s fulls h hne k (input k) (hlen k (by omega))
      have hu : upsert k (input k) fulls = fulls ++ [(k, input k)] := by
        have := upsert_append k (input k) fulls [] hlt
        simpa [upsert] using this
      rw [hu] at hs'
      rw [e]
      simp only
      obtain ⟨s'', e', ht', hs''⟩ := ih (k + 1) (by omega) s' (fulls ++ [(k, input k)]) hs'
        (by simp) (by
          intro x hx
          rcases List.mem_append.1 hx with hx | hx
          · exact (hlt x hx).trans (by omega)
          · rw [List.mem_singleton] at hx; subst hx; exact Nat.lt_succ_self k)
        (by rw [ht]; exact fun j hj => hlen j (by omega))
      refine ⟨s'', e', ht'.trans ht, ?_⟩
      have he : changes input k (n + 1) = (k, input k) :: changes input (k + 1) n := by
        rw [changes, List.range'_succ, List.filter_cons_of_pos, List.map_cons]
        · rfl
        · rw [decide_eq_true_eq]
          intro e
          exact hc (h1.2 e.symm)
      rw [he]
      simpa using hs''

/-- The exported scene starts with the input of the first frame, whenever the export is started,
and has a keyframe for exactly those later frames at which some point has moved since the frame
before. -/
theorem exported_keyframes (geo : Geometry) (now : Pts) (input : ℕ → Pts) (frames : ℕ)
    (hf : 0 < frames) (hlen : ∀ k, k < frames → (input k).length = now.length) :
    ∃ s, exportData geo now (fun k => some (input k)) frames = .ok s ∧
      s.topo = (SceneData.new geo.attrs now).topo ∧
      Holds s ((0, input 0) :: changes input 1 (frames - 1)) := by
  obtain ⟨n, rfl⟩ : ∃ n, frames = n + 1 := ⟨frames - 1, by omega⟩
  have h0 := new_holds geo.attrs now
  have hN : (SceneData.new geo.attrs now).topo.numVertices = now.length := rfl
  obtain ⟨h1, h2⟩ := compare_eq now (input 0) (hlen 0 hf).symm
  unfold exportData exportLoop
  simp only
  rw [h2]
  by_cases hc : (compare now (input 0)).1 ≤ 0
  · rw [if_pos hc]
    obtain rfl := h1.1 hc
    obtain ⟨s, e, ht, hs⟩ := exportLoop_holds input n 1 le_rfl _ _ h0 (by simp) (by simp)
      fun j hj => hlen j (by omega)
    exact ⟨s, e, ht, by simpa using hs⟩
  · rw [if_neg hc]
    obtain ⟨s', e, ht, hs'⟩ := addKeyframe_refines _ _ h0 (by simp) 0 (input 0)
      (by rw [hN]; exact hlen 0 hf)
    rw [e]
    simp only
    obtain ⟨s, e', ht', hs⟩ := exportLoop_holds input n 1 le_rfl s' _ hs' (by simp [upsert])
      (by simp [upsert]) (by rw [ht, hN]; exact fun j hj => hlen j (by omega))
    exact ⟨s, e', ht'.trans ht, by simpa [upsert] using hs⟩

/-! ## Where the scene puts the vertices -/

/-- The input has paused before frame `f`: it did not change at some frame from one to `f - 1`. -/
def PausedBefore (input : ℕ → Pts) (f : ℕ) : Prop := ∃ m, 1 ≤ m ∧ m < f ∧ input m = input (m - 1)

/-- The frame of the input that is used in step `f` of the scene. -/
def used (input : ℕ → Pts) (f : ℕ) : ℕ := if PausedBefore input f then f else f - 1

theorem used_le (input : ℕ → Pts) (f : ℕ) : used input f ≤ f := by
  unfold used; split_ifs <;> omega

theorem used_mono (input : ℕ → Pts) (f : ℕ) : used input f ≤ used input (f + 1) := by
  unfold used
  by_cases h : PausedBefore input f
  · have : PausedBefore input (f + 1) := by
      obtain ⟨m, h1, h2, h3⟩ := h
      exact ⟨m, h1, by omega, h3⟩
    rw [if_pos h, if_pos this]; omega
  · rw [if_neg h]; split_ifs <;> omega

theorem input_const (input : ℕ → Pts) (a c : ℕ) (hac : a ≤ c)
    (h : ∀ k, a < k → k ≤ c → input k = input (k - 1)) : input a = input c := by
  induction c with
  | zero => obtain rfl : a = 0 := by omega
            rfl
  | succ c ih =>
    rcases Nat.lt_or_ge c a with hlt | hge
    · obtain rfl : a = c + 1 := by omega
      rfl
    · rw [h (c + 1) (by omega) le_rfl]
      exact ih hge fun k h1 h2 => h k h1 (by omega)

/-- **C102**, the positions: whatever the solver and the callback do, in step `f` of the exported
scene the animated vertices are where the input has them at frame `f - 1` (as in the live
simulation, which makes its first step at the first frame), up to the first frame at which nothing
moves; afterwards they are where the input has them at frame `f`, one frame too early. Vertices
which are not animated stay where the input has them at the first frame. -/
theorem exported_targets (env : Env) (geo : Geometry) (hn : (geo.attrs.map Prod.fst).Nodup)
    (now : Pts) (input : ℕ → Pts) (frames : ℕ) (hf : 0 < frames)
    (hlen : ∀ k, k < frames → (input k).length = now.length)
    (hm : MaskLen geo.attrs now.length) (ht : MaskType geo.attrs) (steps : ℕ)
    (s : SceneData R3) (hs : exportData geo now (fun k => some (input k)) frames = .ok s)
    (e : Ending) (log : List (ℕ × Pts)) (hr : run env s steps = .ok (e, log)) :
    ∀ x ∈ log,
      (¬ PausedBefore input x.1 → x.1 ≤ frames →
        ∀ v, Animated geo.attrs v → x.2[v]? = (input (x.1 - 1))[v]?) ∧
      (PausedBefore input x.1 → x.1 < frames →
        ∀ v, Animated geo.attrs v → x.2[v]? = (input x.1)[v]?) ∧
      ∀ v, ¬ Animated geo.attrs v → x.2[v]? = (input 0)[v]? := by
  obtain ⟨s', hs', htopo, hold⟩ := exported_keyframes geo now input frames hf hlen
  obtain rfl : s' = s := by rw [hs'] at hs; exact Except.ok.inj hs
  set fulls := (0, input 0) :: changes input 1 (frames - 1) with hfulls
  have hsort := hold.sorted
  have hkey : ∀ (k : ℕ) (a : ℕ × Pts), fulls[k]? = some a →
      a.2 = input a.1 ∧ a.1 < frames ∧ (k = 0 ∧ a.1 = 0 ∨ 1 ≤ a.1 ∧ input a.1 ≠ input (a.1 - 1)) := by
    intro k a ha
    rw [hfulls] at ha
    cases k with
    | zero =>
      simp only [List.getElem?_cons_zero, Option.some.injEq] at ha
      subst ha
      exact ⟨rfl, hf, .inl ⟨rfl, rfl⟩⟩
    | succ k =>
      have := (mem_changes input 1 (frames - 1) a).1 (List.mem_of_getElem? (by simpa using ha))
      exact ⟨this.2.2.2, by omega, .inr ⟨this.1, this.2.2.1⟩⟩
  have hfind : ∀ f, 1 ≤ f → f < frames → input f ≠ input (f - 1) →
      ∃ j : ℕ, fulls[j]? = some (f, input f) := by
    intro f h1 h2 h3
    have : (f, input f) ∈ fulls := by
      rw [hfulls]
      exact List.mem_cons_of_mem _ ((mem_changes _ _ _ _).2 ⟨h1, by simp only; omega, h3, rfl⟩)
    exact List.mem_iff_getElem?.1 this
  rcases run_eq env s' (input 0) _ hold steps _ hr with ⟨h1, -⟩ | ⟨h1, -⟩
  · intro x hx
    rw [Prod.mk.injEq] at h1
    rw [h1.2] at hx; simp at hx
  intro x hx
  have hx : x ∈ (playLoop env s' steps 1 1 (input 0) (input 0)).2 := by rw [← h1]; exact hx
  obtain ⟨j, hj, ⟨a, ha, hal, hv⟩, -, hR⟩ := playLoop_inv env geo.attrs hn now (input 0)
    (hlen 0 hf) hm ht s' htopo fulls hold ⟨_, rfl⟩
    (fun frame i => 1 ≤ frame ∧ ∀ (k : ℕ) a, fulls[k]? = some a → (k < i ↔ a.1 ≤ used input frame))
    (by
      rintro frame i a ⟨h0, hR⟩ ha hle
      refine ⟨by omega, ?_⟩
      intro k b hb
      have hia := hR i a ha
      have hau : a.1 = used input (frame + 1) := by
        have hgt : used input frame < a.1 := by omega
        unfold used at hgt ⊢
        by_cases hp : PausedBefore input frame
        · have hp' : PausedBefore input (frame + 1) := by
            obtain ⟨m, h1, h2, h3⟩ := hp
            exact ⟨m, h1, by omega, h3⟩
          rw [if_pos hp] at hgt
          rw [if_pos hp']
          omega
        · rw [if_neg hp] at hgt
          have hak := hkey i a ha
          by_cases hp' : PausedBefore input (frame + 1)
          · rw [if_pos hp']
            obtain ⟨m, h1, h2, h3⟩ := hp'
            have hmf : m = frame := by
              by_contra hne
              exact hp ⟨m, h1, by omega, h3⟩
            subst hmf
            rcases hak.2.2 with h | h
            · omega
            · have : a.1 ≠ m := fun e => h.2 (e ▸ h3)
              omega
          · rw [if_neg hp']
            have hne : 1 ≤ frame → input frame ≠ input (frame - 1) := by
              intro h1 h3
              exact hp' ⟨frame, h1, by omega, h3⟩
            rcases hak.2.2 with h | h
            · omega
            · have hlt : frame < frames := by have := hak.2.1; omega
              obtain ⟨l, hl⟩ := hfind frame h0 hlt (hne h0)
              have hRl := hR l _ hl
              simp only at hRl
              have hul : used input frame = frame - 1 := by rw [used, if_neg hp]
              rcases lt_trichotomy l i with hli | hli | hli
              · have := hRl.1 hli; omega
              · subst hli
                rw [ha] at hl
                have := congrArg Prod.fst (Option.some.inj hl)
                simpa using this
              · have := holds_lt _ hsort i l a _ ha hl hli
                simp only at this
                omega
      rw [← hau]
      rcases lt_trichotomy k i with hk | hk | hk
      · have := holds_lt _ hsort k i b a hb ha hk
        omega
      · subst hk
        rw [ha] at hb
        obtain rfl := Option.some.inj hb
        omega
      · have := holds_lt _ hsort i k a b ha hb hk
        omega)
    (by
      rintro frame i a ⟨h0, hR⟩ ha hgt
      refine ⟨by omega, ?_⟩
      intro k b hb
      have h1 := used_mono input frame
      have h2 := used_le input (frame + 1)
      have := hR k b hb
      rcases lt_trichotomy k i with hk | hk | hk
      · omega
      · subst hk
        rw [ha] at hb
        obtain rfl := Option.some.inj hb
        omega
      · have := holds_lt _ hsort i k a b ha hb hk
        omega)
    (by
      rintro frame i ⟨h0, hR⟩ hnone
      refine ⟨by omega, ?_⟩
      intro k b hb
      have h1 := List.getElem?_eq_none_iff.1 hnone
      have h2 := (List.getElem?_eq_some_iff.1 hb).1
      have h3 := used_mono input frame
      have := hR k b hb
      omega)
    steps 1 1 (input 0) le_rfl
    ⟨(0, input 0), rfl, rfl, fun v => ⟨fun _ => rfl, fun _ => rfl⟩⟩
    (by
      refine ⟨le_rfl, ?_⟩
      intro k a ha
      have hu : used input 1 = 0 := by
        rw [used, if_neg]
        rintro ⟨m, h1, h2, -⟩
        omega
      rw [hu]
      cases k with
      | zero =>
        have := hkey 0 a ha
        rw [hfulls] at ha
        simp only [List.getElem?_cons_zero, Option.some.injEq] at ha
        subst ha; simp
      | succ k =>
        have hlt := holds_lt _ hsort 0 (k + 1) (0, input 0) a rfl ha (by omega)
        simp only at hlt
        omega)
    x hx
  obtain ⟨ha2, haf, -⟩ := hkey _ a ha
  have hau : a.1 ≤ used input x.1 := (hR _ a ha).1 (by omega)
  have hin : used input x.1 < frames → input a.1 = input (used input x.1) := by
    intro hlt
    apply input_const _ _ _ hau
    intro k hk1 hk2
    by_contra hne
    obtain ⟨l, hl⟩ := hfind k (by omega) (by omega) hne
    have hlj : l < j := (hR l _ hl).2 hk2
    rcases Nat.lt_or_ge l (j - 1) with h | h
    · have := holds_lt _ hsort l (j - 1) _ a hl ha h
      simp only at this
      omega
    · obtain rfl : l = j - 1 := by omega
      rw [ha] at hl
      have := congrArg Prod.fst (Option.some.inj hl)
      simp only at this
      omega
  refine ⟨?_, ?_, fun v hA => (hv v).2 hA⟩
  · intro hp hle v hA
    have hu : used input x.1 = x.1 - 1 := by rw [used, if_neg hp]
    rw [(hv v).1 hA, ha2, hin (by omega), hu]
  · intro hp hlt v hA
    have hu : used input x.1 = x.1 := by rw [used, if_pos hp]
    rw [(hv v).1 hA, ha2, hin (by omega), hu]

/-- **C102 is violated** after a pause: whenever the input has paused and moves again at frame `f`,
the exported scene makes step `f` with other positions than the live simulation, which uses those
of frame `f - 1`. -/
theorem early_after_pause_violated (env : Env) (geo : Geometry)
    (hn : (geo.attrs.map Prod.fst).Nodup) (hall : ∀ v, Animated geo.attrs v)
    (now : Pts) (input : ℕ → Pts) (frames : ℕ)
    (hlen : ∀ k, k < frames → (input k).length = now.length)
    (hm : MaskLen geo.attrs now.length) (ht : MaskType geo.attrs) (steps : ℕ)
    (s : SceneData R3) (hs : exportData geo now (fun k => some (input k)) frames = .ok s)
    (e : Ending) (log : List (ℕ × Pts)) (hr : run env s steps = .ok (e, log))
    (f : ℕ) (hff : f < frames) (hp : PausedBefore input f) (hmove : input f ≠ input (f - 1))
    (target : Pts) (hx : (f, target) ∈ log) :
    target = input f ∧ target ≠ input (f - 1) := by
  have h := (exported_targets env geo hn now input frames (by omega) hlen hm ht steps s hs e log hr
    _ hx).2.1 hp hff
  have : target = input f := List.ext_getElem? fun v => h v (hall v)
  exact ⟨this, this ▸ hmove⟩

/-! ## The same simulation -/

theorem initSource_idem (n : ℕ) (attrs : String → Option Attr) :
    initSource n (initSource n attrs) = initSource n attrs := by
  unfold initSource
  by_cases h : attrs "src_idx" = none
  · simp [h]
  · simp [h]

/-- Requests that a solver or scene with these parameters accepts. -/
def Accepted (dynamic : Bool) (r : Setup.Request) : Prop := r.params.friction.IsNone ∨ dynamic = true

theorem addWithFixed_accepted (dynamic : Bool) (l : List Setup.Request) (p : Setup.Params)
    (ids : ℕ × ℕ) (u : Bool) (h : ∀ r ∈ l, Accepted dynamic r) :
    ∀ r ∈ Setup.addWithFixed dynamic l p ids u, Accepted dynamic r := by
  unfold Setup.addWithFixed
  by_cases hc : p.friction.IsNone ∨ dynamic = true
  · rw [if_pos hc]
    intro r hr
    rcases List.mem_append.1 hr with hr | hr
    · exact h r hr
    · rw [List.mem_singleton] at hr; subst hr; exact hc
  · rw [if_neg hc]; exact h

theorem liveContacts_accepted (dynamic : Bool) (cs : List ContactParm) :
    ∀ r ∈ liveContacts dynamic cs, Accepted dynamic r := by
  have inner : ∀ (c : ContactParm) (js : List ℕ) (l : List Setup.Request),
      (∀ r ∈ l, Accepted dynamic r) → ∀ r ∈ js.foldl
        (fun l j => Setup.addWithFixed dynamic l c.params (c.object, j) c.useFixed) l,
        Accepted dynamic r := by
    intro c js
    induction js with
    | nil => intro l h; exact h
    | cons j js ih => intro l h; exact ih _ (addWithFixed_accepted dynamic l _ _ _ h)
  have outer : ∀ (cs : List ContactParm) (l : List Setup.Request),
      (∀ r ∈ l, Accepted dynamic r) → ∀ r ∈ cs.foldl (fun l c => c.colliders.foldl
        (fun l j => Setup.addWithFixed dynamic l c.params (c.object, j) c.useFixed) l) l,
        Accepted dynamic r := by
    intro cs
    induction cs with
    | nil => intro l h; exact h
    | cons c cs ih => intro l h; exact ih _ (inner c c.colliders l h)
  exact outer cs [] (by simp)

theorem readd (dynamic : Bool) (rs l : List Setup.Request) (h : ∀ r ∈ rs, Accepted dynamic r) :
    rs.foldl (fun l r => Setup.addWithFixed dynamic l r.params (r.object, r.collider) r.useFixed) l =
      l ++ rs := by
  induction rs generalizing l with
  | nil => simp
  | cons r rs ih =>
    have hr : r.params.friction.IsNone ∨ dynamic = true := h r (by simp)
    rw [List.foldl_cons, Setup.addWithFixed, if_pos hr,
      ih _ fun r hr => h r (by simp [hr])]
    simp

/-- All attributes have types that scenes can store. -/
def Storable (attrs : Attrs) : Prop :=
  ∀ name a, getAttr attrs name = some a → Supported a.ty

/-- The scene and the live simulation build the same solver. -/
theorem same_start (E : Engine Sim Mat S) (node : Node Sim Mat) (geo : Geometry)
    (hn : (geo.attrs.map Prod.fst).Nodup) (hsup : Storable geo.attrs) (first : Pts)
    (hp : ∀ p, geo.p64 = some p → p = first) (s : SceneData R3)
    (now : Pts) (htopo : s.topo = (SceneData.new geo.attrs now).topo) :
    E.start (sceneBuilt (exportConfig node) s first) = E.start (liveBuilt node geo first) := by
  have hlive : liveBuilt node geo first =
      ⟨node.sim, node.materials, liveContacts node.dynamic node.contacts, zonesOf node,
        initSource first.length (getAttr geo.attrs), first⟩ := by
    unfold liveBuilt
    cases h : geo.p64 with
    | none => rfl
    | some p =>
      obtain rfl := hp p h
      simp only [overwrite_eq]
  have hattr : getAttr s.topo.vertexAttrs = getAttr geo.attrs := by
    rw [htopo]
    funext name
    show getAttr (keepAttrs geo.attrs) name = _
    rw [getAttr_keep geo.attrs hn name]
    cases h : getAttr geo.attrs name with
    | none => rfl
    | some a => exact fromAttribData_eq a (hsup name a h)
  have hcon : (exportConfig node).contacts = liveContacts node.dynamic node.contacts := rfl
  rw [hlive]
  unfold Engine.start sceneBuilt
  simp only [hattr]
  rw [initSource_idem, hcon, show (exportConfig node).dynamic = node.dynamic from rfl,
    readd _ _ _ (liveContacts_accepted _ _), List.nil_append]
  rfl

theorem play_cooks (E : Engine Sim Mat S) (node : Node Sim Mat) (geo : Geometry)
    (hn : (geo.attrs.map Prod.fst).Nodup) (now : Pts) (input : ℕ → Pts) (frames : ℕ)
    (hlen : ∀ k, k < frames → (input k).length = now.length)
    (hm : MaskLen geo.attrs now.length) (ht : MaskType geo.attrs)
    (hE : ∀ p q st, p.length = q.length → (∀ v, Animated geo.attrs v → p[v]? = q[v]?) →
      E.update p st = E.update q st)
    (s : SceneData R3) (htopo : s.topo = (SceneData.new geo.attrs now).topo)
    (hanim : ∀ k : ℕ, k < frames → s.animation[k]? = some (store s.topo k (input k)))
    (n f : ℕ) (hf : 1 ≤ f) (hfn : f + n ≤ frames) (anim : Pts) (hal : anim.length = now.length)
    (st : S) :
    play E s (n + 1) f f anim st =
      match E.step st with
      | none => []
      | some st => st :: cooks E node geo input n f (some st) := by
  induction n generalizing f anim st with
  | zero =>
    unfold play
    cases E.step st with
    | none => rfl
    | some st =>
      simp only [play, cooks]
      cases s.animation[f]? with
      | none => rfl
      | some k =>
        simp only
        split_ifs
        · cases E.update (updatePositions s.topo k.frame k.positions anim) st <;> rfl
        · rfl
  | succ n ih =>
    rw [play]
    cases E.step st with
    | none => rfl
    | some st =>
      simp only
      rw [hanim f (by omega)]
      simp only
      rw [if_pos (show (store s.topo f (input f)).frame ≤ f + 1 from Nat.le_succ f)]
      have hlen' : (updatePositions s.topo f (filterAnimated s.topo f (input f)) anim).length =
          now.length := by rw [updatePositions_length, hal]
      have hu : E.update (updatePositions s.topo f (filterAnimated s.topo f (input f)) anim) st =
          E.update (input f) st := by
        apply hE
        · rw [hlen', hlen f (by omega)]
        · intro v hA
          have := (compression_roundtrip_partial geo.attrs hn now f (input f) anim hm ht
            (hlen f (by omega)) hal v).2 (.inr hA)
          simp only [← htopo] at this
          exact this
      show (match E.update (updatePositions s.topo f (filterAnimated s.topo f (input f)) anim) st with
        | none => [st]
        | some st' => st :: play E s (n + 1) (f + 1) (f + 1)
            (updatePositions s.topo f (filterAnimated s.topo f (input f)) anim) st') = _
      rw [hu, cooks, cook]
      cases hup : E.update (input f) st with
      | none => rfl
      | some st' =>
        simp only [Option.bind_some]
        rw [ih (f + 1) (by omega) (by omega) _ hlen' st']
        cases E.step st' <;> rfl

/-- **C102**, for inputs that move at every frame: for every solver that follows the positions of
animated vertices only, running the scene that is exported for a range of frames gives the same
states after every step as cooking the node at these frames, whenever the export is started.
Missing: inputs which pause (`early_after_pause_violated`, `pause_velocity_violated`), attributes
that scenes cannot store (`attribute_violated`), and positions in double precision
(`double_precision_violated`). -/
theorem same_run_partial (E : Engine Sim Mat S) (node : Node Sim Mat) (geo : Geometry)
    (hn : (geo.attrs.map Prod.fst).Nodup) (hsup : Storable geo.attrs) (now : Pts)
    (input : ℕ → Pts) (frames : ℕ) (hf : 0 < frames)
    (hlen : ∀ k, k < frames → (input k).length = now.length)
    (hp : ∀ p, geo.p64 = some p → p = input 0)
    (hmove : ∀ k, 1 ≤ k → k < frames → input k ≠ input (k - 1))
    (hm : MaskLen geo.attrs now.length) (ht : MaskType geo.attrs)
    (hE : ∀ p q st, p.length = q.length → (∀ v, Animated geo.attrs v → p[v]? = q[v]?) →
      E.update p st = E.update q st) (n : ℕ) (hn' : n ≤ frames) :
    ∃ s, exportData geo now (fun k => some (input k)) frames = .ok s ∧
      runScene E (exportConfig node) s n = cooks E node geo input n 0 none := by
  obtain ⟨s, hs, htopo, hold⟩ := exported_keyframes geo now input frames hf hlen
  refine ⟨s, hs, ?_⟩
  have hanim : ∀ k : ℕ, k < frames → s.animation[k]? = some (store s.topo k (input k)) := by
    intro k hk
    have hc : changes input 1 (frames - 1) =
        (List.range' 1 (frames - 1)).map fun k => (k, input k) := by
      rw [changes, List.filter_eq_self.2]
      intro k hk
      rw [List.mem_range'_1] at hk
      simpa using hmove k hk.1 (by omega)
    rw [hold.anim, hc, List.getElem?_map]
    cases k with
    | zero => rfl
    | succ k =>
      rw [List.getElem?_cons_succ, List.getElem?_map, List.getElem?_range' (by omega)]
      simp [Nat.add_comm]
  have hhead : s.animation.head? = some ⟨0, input 0⟩ := by
    rw [List.head?_eq_getElem?, hanim 0 hf]
    simp [store, filterAnimated]
  unfold runScene
  rw [hhead]
  simp only
  rw [same_start E node geo hn hsup (input 0) hp s now htopo]
  cases n with
  | zero => cases E.start (liveBuilt node geo (input 0)) <;> simp [play, cooks]
  | succ n =>
    rw [cooks, cook]
    cases E.start (liveBuilt node geo (input 0)) with
    | none => rfl
    | some st =>
      simp only [Option.bind_some]
      rw [play_cooks E node geo hn now input frames hlen hm ht hE s htopo hanim n 1 le_rfl
        (by omega) (input 0) (hlen 0 hf) st]
      cases E.step st <;> rfl

/-- The hypothesis on solvers holds for the solver: only the positions given for fixed vertices
matter. -/
theorem updateFixed_congr {P : Type} (rate : P → P → P) (p q : List P) (s : Mesh.State P)
    (h : ∀ (i v : ℕ), s.types[i]? = some .fixed → s.origIndex[i]? = some v → p[v]? = q[v]?) :
    Mesh.updateFixed rate p s = Mesh.updateFixed rate q s := by
  unfold Mesh.updateFixed
  congr 1
  apply List.ext_getElem?
  intro i
  simp only [List.getElem?_zipWith]
  cases ht : s.types[i]? with
  | none => rfl
  | some t =>
    cases hz : (s.origIndex.zip s.next)[i]? with
    | none => rfl
    | some a =>
      simp only [Option.some.injEq]
      have ho := (List.getElem?_zip_eq_some.1 hz).1
      unfold Mesh.updateFixedNext
      by_cases hf : t = .fixed
      · subst hf
        rw [h i a.1 ht ho]
      · simp [hf]

/-! ## Witnesses -/

/-- A collider with one point: its position and velocity, which `update_fixed_vertices`
(`state.rs:1182-1250`) sets, with time step one. -/
def collider : Engine Unit Unit (Pts × Pts) where
  build b := some (b.positions, b.positions.map fun _ => 0)
  update p s := some (p, List.zipWith (fun a b => a - b) p s.1)
  step s := some s

/-- A node without contacts and zones. -/
def plain : Node Unit Unit := ⟨(), true, [()], [], [], [], []⟩

/-- One point, at `x`. -/
def at_ (x : ℝ) : Pts := [fun _ => x]

theorem at_inj (x y : ℝ) : at_ x = at_ y ↔ x = y := by
  constructor
  · intro h
    have := congrArg (fun l => l[0]?) h
    simp only [at_, List.getElem?_cons_zero, Option.some.injEq] at this
    exact congrFun this 0
  · rintro rfl; rfl

/-- A point that moves steadily: the hypotheses of `same_run_partial` are met. -/
example : ∃ s, exportData ⟨[], none⟩ (at_ 7) (fun k => some (at_ k)) 10 = .ok s ∧
    runScene collider (exportConfig plain) s 10 =
      cooks collider plain ⟨[], none⟩ (fun k => at_ k) 10 0 none :=
  same_run_partial collider plain ⟨[], none⟩ (by simp) (by intro n a h; simp [getAttr] at h)
    (at_ 7) (fun k => at_ k) 10 (by norm_num) (by intro k _; rfl) (by simp)
    (by
      intro k h1 _ e
      rw [at_inj] at e
      have : k = k - 1 := by exact_mod_cast e
      omega)
    (by intro a h; simp [getAttr] at h) (by intro a h; simp [getAttr] at h)
    (by
      intro p q st hl h
      have : p = q := List.ext_getElem? fun v => h v (by intro a ha; simp [getAttr] at ha)
      rw [this])
    10 le_rfl

/-- It is at `k` with velocity one after step `k + 1`. -/
example : cooks collider plain ⟨[], none⟩ (fun k => at_ k) 3 0 none =
    [(at_ 0, at_ 0), (at_ 1, at_ 1), (at_ 2, at_ 1)] := by
  simp only [cooks, cook, collider, Engine.start, liveBuilt, at_, Option.bind_some]
  simp
  refine ⟨rfl, rfl, ?_⟩
  funext i
  simp only [Pi.sub_apply]
  norm_num

/-- A point that moves from zero to one at frame one and stays there. -/
def moveOnce (k : ℕ) : Pts := at_ (if k = 0 then 0 else 1)

/-- **C102 is violated** in a pause: the scene does not tell the solver that a collider rests, so
that it keeps the velocity of its last movement (C58), whereas the live simulation sets it to
zero. -/
theorem pause_velocity_violated :
    ∃ s, exportData ⟨[], none⟩ (at_ 0) (fun k => some (moveOnce k)) 3 = .ok s ∧
      runScene collider (exportConfig plain) s 3 = [(at_ 0, at_ 0), (at_ 1, at_ 1), (at_ 1, at_ 1)] ∧
      cooks collider plain ⟨[], none⟩ moveOnce 3 0 none =
        [(at_ 0, at_ 0), (at_ 1, at_ 1), (at_ 1, at_ 0)] := by
  obtain ⟨s, hs, htopo, hold⟩ := exported_keyframes ⟨[], none⟩ (at_ 0) moveOnce 3 (by norm_num)
    (by intro k _; rfl)
  have hc : changes moveOnce 1 2 = [(1, at_ 1)] := by
    simp [changes, List.range', moveOnce, at_inj]
  have ha : s.animation = [⟨0, at_ 0⟩, ⟨1, at_ 1⟩] := by
    rw [hold.anim, hc, htopo]
    simp [store, filterAnimated, moveOnce, SceneData.new, keepAttrs, getAttr]
  refine ⟨s, hs, ?_, ?_⟩
  · simp only [runScene, ha, List.head?_cons, Engine.start, collider, play, sceneBuilt, htopo]
    simp [updatePositions, SceneData.new, keepAttrs, getAttr, at_, overwrite]
    exact ⟨rfl, rfl⟩
  · simp only [cooks, cook, collider, Engine.start, liveBuilt, moveOnce, at_, Option.bind_some]
    simp
    exact ⟨rfl, rfl, rfl⟩

/-- A point that rests at frame one and moves from zero to one at frame two. -/
def moveLate (k : ℕ) : Pts := at_ (if k < 2 then 0 else 1)

/-- `early_after_pause_violated` speaks about inputs that exist: here step two of the scene is made
at the position of frame two, which the live simulation uses in step three. -/
theorem early_violated :
    ∃ s, exportData ⟨[], none⟩ (at_ 0) (fun k => some (moveLate k)) 3 = .ok s ∧
      (runScene collider (exportConfig plain) s 3).map Prod.fst = [at_ 0, at_ 1, at_ 1] ∧
      (cooks collider plain ⟨[], none⟩ moveLate 3 0 none).map Prod.fst = [at_ 0, at_ 0, at_ 1] := by
  obtain ⟨s, hs, htopo, hold⟩ := exported_keyframes ⟨[], none⟩ (at_ 0) moveLate 3 (by norm_num)
    (by intro k _; rfl)
  have hc : changes moveLate 1 2 = [(2, at_ 1)] := by
    simp [changes, List.range', moveLate, at_inj]
  have ha : s.animation = [⟨0, at_ 0⟩, ⟨2, at_ 1⟩] := by
    rw [hold.anim, hc, htopo]
    simp [store, filterAnimated, moveLate, SceneData.new, keepAttrs, getAttr]
  refine ⟨s, hs, ?_, ?_⟩
  · simp only [runScene, ha, List.head?_cons, Engine.start, collider, play, sceneBuilt, htopo]
    simp [updatePositions, SceneData.new, keepAttrs, getAttr, at_, overwrite]
  · simp [cooks, cook, collider, Engine.start, liveBuilt, moveLate, at_]

/-- **C102 is violated** for points with positions in double precision: the live simulation starts
from these, the scene from the others. -/
theorem double_precision_violated :
    ∃ s, exportData ⟨[], some (at_ 1)⟩ (at_ 0) (fun _ => some (at_ 0)) 1 = .ok s ∧
      (runScene collider (exportConfig plain) s 1).map Prod.fst = [at_ 0] ∧
      (cooks collider plain ⟨[], some (at_ 1)⟩ (fun _ => at_ 0) 1 0 none).map Prod.fst = [at_ 1] := by
  obtain ⟨s, hs, htopo, hold⟩ := exported_keyframes ⟨[], some (at_ 1)⟩ (at_ 0) (fun _ => at_ 0) 1
    (by norm_num) (by intro k _; rfl)
  have ha : s.animation = [⟨0, at_ 0⟩] := by
    rw [hold.anim]
    simp [changes, store, filterAnimated]
  refine ⟨s, hs, ?_, ?_⟩
  · simp [runScene, ha, Engine.start, collider, play, sceneBuilt]
  · simp [cooks, cook, collider, Engine.start, liveBuilt, at_, overwrite]

/-- A solver that tells which points are fixed. -/
def pins : Engine Unit Unit (Option Attr) where
  build b := some (b.attrs "fixed")
  update _ s := some s
  step s := some s

/-- **C102 is violated** for attributes of types that scenes do not store (C59): a point that is
pinned in the live simulation is not in the scene. -/
theorem attribute_violated :
    ∃ s, exportData ⟨[("fixed", ⟨.u8, [1]⟩)], none⟩ (at_ 0) (fun _ => some (at_ 0)) 1 = .ok s ∧
      runScene pins (exportConfig plain) s 1 = [none] ∧
      cooks pins plain ⟨[("fixed", ⟨.u8, [1]⟩)], none⟩ (fun _ => at_ 0) 1 0 none =
        [some ⟨.u8, [1]⟩] := by
  obtain ⟨s, hs, htopo, hold⟩ := exported_keyframes ⟨[("fixed", ⟨.u8, [1]⟩)], none⟩ (at_ 0)
    (fun _ => at_ 0) 1 (by norm_num) (by intro k _; rfl)
  have ha : s.animation = [⟨0, at_ 0⟩] := by
    rw [hold.anim]
    simp [changes, store, filterAnimated]
  refine ⟨s, hs, ?_, ?_⟩
  · simp [runScene, ha, Engine.start, pins, play, sceneBuilt, htopo, SceneData.new, keepAttrs,
      fromAttribData, getAttr, initSource]
  · simp [cooks, cook, pins, Engine.start, liveBuilt, getAttr, initSource]

/-- A frame that cannot be cooked during the export is skipped. -/
example : exportLoop (fun _ => none) 4 0 (at_ 0) (SceneData.new [] (at_ 0)) =
    .ok (SceneData.new [] (at_ 0)) := rfl

/-- An input whose number of points changes ends the process. -/
theorem points_change_violated :
    exportData ⟨[], none⟩ (at_ 0) (fun k => some (if k = 0 then at_ 0 else at_ 1 ++ at_ 1)) 2 =
      .error .panic := by
  simp [exportData, exportLoop, compare, dist2, at_, SceneData.new, SceneData.addKeyframe]

end Softy.PluginScene
