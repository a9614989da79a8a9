import Verif.Lemmas.SceneFile

/-!
# C110: a saved scene is the scene that is loaded, whatever happens while it is saved

Specification: formats are *lawful* if they read back what they wrote and refuse what was cut
short.  Saving a scene must (1) report success only if loading gives that scene, and (2) leave, at
every moment at which the program may be stopped, a file that loads as the scene that was there
before, as the new one, or with an error.
-/

namespace Softy.SceneFile

/-- Formats that read back what they wrote, and refuse what was cut short.  RON and JSON values and
bincode structures end themselves: a deserializer stops where the serializer stopped. -/
structure Lawful {κ δ : Type} (f : Formats κ δ) : Prop where
  ron : ∀ c rest, rest = [] ∨ (∃ r, rest = 10 :: r) →
    f.ron.decode (f.ron.encode c ++ rest) = some (c, rest)
  ron_cut : ∀ c p, p <+: f.ron.encode c → p ≠ f.ron.encode c → f.ron.decode p = none
  bincode : ∀ d rest, f.bincode.decode (f.bincode.encode d ++ rest) = some (d, rest)
  bincode_cut : ∀ d p, p <+: f.bincode.encode d → p ≠ f.bincode.encode d →
    f.bincode.decode p = none
  ronScene : ∀ s, f.ronScene.decode (f.ronScene.encode s) = some (s, [])
  ronScene_cut : ∀ s p, p <+: f.ronScene.encode s → p ≠ f.ronScene.encode s →
    f.ronScene.decode p = none
  jsonScene : ∀ s, f.jsonScene.decode (f.jsonScene.encode s) = some (s, [])
  jsonScene_cut : ∀ s p, p <+: f.jsonScene.encode s → p ≠ f.jsonScene.encode s →
    f.jsonScene.decode p = none

/-- The bytes of an `sfrb` file: RON for the configuration, a line feed, bincode for the data. -/
def sfrbBytes {κ δ : Type} (f : Formats κ δ) (s : Scene κ δ) : List UInt8 :=
  f.ron.encode s.config ++ 10 :: f.bincode.encode s.data

/-- The extensions of paths for which there is a format, and the bytes of that format. -/
inductive HasFormat {κ δ : Type} (f : Formats κ δ) (s : Scene κ δ) :
    String → List UInt8 → Prop where
  | sfrb : HasFormat f s "sfrb" (sfrbBytes f s)
  | bin : HasFormat f s "bin" (sfrbBytes f s)
  | ron : HasFormat f s "ron" (f.ronScene.encode s)
  | json : HasFormat f s "json" (f.jsonScene.encode s)

section
variable {κ δ : Type} {f : Formats κ δ}

theorem sfrb_flatten (f : Formats κ δ) (s : Scene κ δ) :
    (sfrbPieces f s).flatten = sfrbBytes f s := by
  simp [sfrbPieces, sfrbBytes, Codec.encode, newline]

/-- What is saved under an extension is what `savePieces` saves of the bytes of its format. -/
theorem saveAs_pieces {s : Scene κ δ} {ext : String} {T : List UInt8} (h : HasFormat f s ext T)
    (m : Machine) (old : Option (List UInt8)) :
    ∃ ps : List (List UInt8), ps.flatten = T ∧ saveAs f m (some ext) old s = savePieces m old ps := by
  cases h with
  | sfrb => exact ⟨_, sfrb_flatten f s, rfl⟩
  | bin => exact ⟨_, sfrb_flatten f s, rfl⟩
  | ron => exact ⟨_, rfl, rfl⟩
  | json => exact ⟨_, rfl, rfl⟩

/-- What is loaded from the whole of a file and from its beginnings. -/
theorem loadAs_whole (hf : Lawful f) {s : Scene κ δ} {ext : String} {T : List UInt8}
    (h : HasFormat f s ext T) : loadAs f (some ext) (some T) = .ok s := by
  have e1 : loadSfrb f (some (sfrbBytes f s)) = .ok s := by
    have e := hf.ron s.config (10 :: f.bincode.encode s.data) (Or.inr ⟨_, rfl⟩)
    have e' := hf.bincode s.data []
    rw [List.append_nil] at e'
    simp [loadSfrb, sfrbBytes, e, e', newline]
  cases h with
  | sfrb => exact e1
  | bin => exact e1
  | ron => simp [loadAs, loadRon, loadWhole, hf.ronScene]
  | json => simp [loadAs, loadJson, loadWhole, hf.jsonScene]

theorem prefix_cases {A B p : List UInt8} (h : p <+: A ++ B) :
    (p <+: A ∧ p ≠ A) ∨ ∃ q, q <+: B ∧ p = A ++ q := by
  by_cases hl : p.length < A.length
  · left
    refine ⟨List.prefix_of_prefix_length_le h (List.prefix_append _ _) hl.le, ?_⟩
    rintro rfl
    exact lt_irrefl _ hl
  · right
    obtain ⟨q, rfl⟩ := List.prefix_of_prefix_length_le (List.prefix_append A B) h (by omega)
    exact ⟨q, (List.prefix_append_right_inj A).1 h, rfl⟩

theorem loadSfrb_cut (hf : Lawful f) {s : Scene κ δ} {p : List UInt8} (hp : p <+: sfrbBytes f s)
    (hne : p ≠ sfrbBytes f s) :
    (p = f.ron.encode s.config ∧ loadSfrb f (some p) = .panic) ∨
      (p ≠ f.ron.encode s.config ∧ loadSfrb f (some p) = .decodeError) := by
  rcases prefix_cases hp with ⟨h1, h2⟩ | ⟨q, hq, rfl⟩
  · right
    exact ⟨h2, by simp [loadSfrb, hf.ron_cut _ _ h1 h2]⟩
  · cases q with
    | nil =>
      left
      have e := hf.ron s.config [] (Or.inl rfl)
      rw [List.append_nil] at e ⊢
      exact ⟨rfl, by simp [loadSfrb, e]⟩
    | cons b r =>
      right
      obtain ⟨hb, hr⟩ := List.cons_prefix_cons.1 hq
      subst hb
      refine ⟨by simp, ?_⟩
      have e := hf.ron s.config (10 :: r) (Or.inr ⟨_, rfl⟩)
      have hr2 : r ≠ f.bincode.encode s.data := by
        rintro rfl
        exact hne rfl
      simp [loadSfrb, e, newline, hf.bincode_cut _ _ hr hr2]

/-- What is loaded from the beginning of a file. -/
theorem loadAs_cut (hf : Lawful f) {s : Scene κ δ} {ext : String} {T p : List UInt8}
    (h : HasFormat f s ext T) (hp : p <+: T) (hne : p ≠ T) :
    loadAs f (some ext) (some p) = .decodeError ∨
      ((ext = "sfrb" ∨ ext = "bin") ∧ p = f.ron.encode s.config ∧
        loadAs f (some ext) (some p) = .panic) := by
  cases h with
  | sfrb =>
    rcases loadSfrb_cut hf hp hne with ⟨h1, h2⟩ | ⟨-, h2⟩
    · exact Or.inr ⟨Or.inl rfl, h1, h2⟩
    · exact Or.inl h2
  | bin =>
    rcases loadSfrb_cut hf hp hne with ⟨h1, h2⟩ | ⟨-, h2⟩
    · exact Or.inr ⟨Or.inr rfl, h1, h2⟩
    · exact Or.inl h2
  | ron => left; simp [loadAs, loadRon, loadWhole, hf.ronScene_cut _ _ hp hne]
  | json => left; simp [loadAs, loadJson, loadWhole, hf.jsonScene_cut _ _ hp hne]

/-- **Saving and loading.**  On a disk with space for the scene, saving it under any supported
extension succeeds and loading that path gives the scene, whatever was at the path before, however
the serializer splits its output and whatever the capacity of the buffer is. -/
theorem save_load (hf : Lawful f) {s : Scene κ δ} {ext : String} {T : List UInt8}
    (h : HasFormat f s ext T) {m : Machine} (hm : m.canCreate = true) (hr : T.length ≤ m.room)
    (old : Option (List UInt8)) :
    (saveAs f m (some ext) old s).result = .ok ∧
      loadAs f (some ext) (saveAs f m (some ext) old s).file = .ok s := by
  obtain ⟨ps, hps, e⟩ := saveAs_pieces h m old
  rw [e]
  obtain ⟨hc, -⟩ := savePieces_file hm old ps
  rw [hps, List.take_of_length_le hr] at hc
  constructor
  · rcases savePieces_result hm old ps with ⟨h1, -⟩ | ⟨-, h2⟩
    · exact h1
    · rw [hps] at h2; omega
  · rw [hc]; exact loadAs_whole hf h

/-- **Histories.**  After any number of saves to one path on a disk with space, each of some scene
under the same extension, loading gives the scene that was saved last. -/
theorem saves_load (hf : Lawful f) {ext : String} (ss : List (Scene κ δ)) (s : Scene κ δ)
    {m : Machine} (hm : m.canCreate = true) {T : List UInt8} (h : HasFormat f s ext T)
    (hr : T.length ≤ m.room) (old : Option (List UInt8)) :
    loadAs f (some ext)
      ((ss ++ [s]).foldl (fun (file : Option (List UInt8)) (x : Scene κ δ) =>
        (saveAs f m (some ext) file x).file) old) = .ok s := by
  rw [List.foldl_append]
  exact (save_load hf h hm hr _).2

/-- **No foreign scene.**  Whatever is at the path at any moment of a save, on any disk, loading it
gives the scene that is being saved or none: never a mixture, and never another scene. -/
theorem crash_scene (hf : Lawful f) {s : Scene κ δ} {ext : String} {T : List UInt8}
    (h : HasFormat f s ext T) (m : Machine) (old : Option (List UInt8)) {p : List UInt8}
    (hp : p ∈ (saveAs f m (some ext) old s).seen) {s' : Scene κ δ}
    (hl : loadAs f (some ext) (some p) = .ok s') : s' = s := by
  obtain ⟨ps, hps, e⟩ := saveAs_pieces h m old
  rw [e] at hp
  by_cases hm : m.canCreate = true
  · rw [(savePieces_file hm old ps).2, hps] at hp
    by_cases hpT : p = T
    · rw [hpT, loadAs_whole hf h] at hl
      injection hl with hl
      exact hl.symm
    · rcases loadAs_cut hf h (mem_inits_take hp) hpT with h1 | ⟨-, -, h1⟩ <;> rw [h1] at hl <;>
        cases hl
  · simp [savePieces, hm] at hp

/-- **At every moment of a save**, what is at the path is a beginning of the bytes of the scene.
Loading it gives the scene if it is all of them, and otherwise an error, except that a program that
loads an `sfrb` file that ends after the configuration panics.

Partial: the property also asks that the previous scene stays until the new one is complete
(`crash_old_violated`), and that no file makes the program panic (`crash_panic_violated`). -/
theorem crash_partial (hf : Lawful f) {s : Scene κ δ} {ext : String} {T : List UInt8}
    (h : HasFormat f s ext T) (m : Machine) (old : Option (List UInt8)) {p : List UInt8}
    (hp : p ∈ (saveAs f m (some ext) old s).seen) :
    p <+: T ∧
      ((p = T ∧ loadAs f (some ext) (some p) = .ok s) ∨
        (p ≠ T ∧ loadAs f (some ext) (some p) = .decodeError) ∨
        ((ext = "sfrb" ∨ ext = "bin") ∧ p = f.ron.encode s.config ∧
          loadAs f (some ext) (some p) = .panic)) := by
  obtain ⟨ps, hps, e⟩ := saveAs_pieces h m old
  rw [e] at hp
  by_cases hm : m.canCreate = true
  · rw [(savePieces_file hm old ps).2, hps] at hp
    refine ⟨mem_inits_take hp, ?_⟩
    by_cases hpT : p = T
    · left
      exact ⟨hpT, by rw [hpT, loadAs_whole hf h]⟩
    · right
      rcases loadAs_cut hf h (mem_inits_take hp) hpT with h1 | h1
      · exact Or.inl ⟨hpT, h1⟩
      · exact Or.inr h1
  · simp [savePieces, hm] at hp

/-- **What a save returns.**  An error means that the file is not there or cut short, and cut short
it is refused or, for `sfrb`, makes a load panic.  Success means that at most as many bytes are
missing as the buffer holds.

Partial: the property asks that success means that nothing is missing (`save_full_violated`). -/
theorem save_result_partial (hf : Lawful f) {s : Scene κ δ} {ext : String} {T : List UInt8}
    (h : HasFormat f s ext T) (m : Machine) (old : Option (List UInt8)) :
    ((saveAs f m (some ext) old s).result = .openError →
      (saveAs f m (some ext) old s).file = old) ∧
    ((saveAs f m (some ext) old s).result = .writeError →
      ∃ p lost, (saveAs f m (some ext) old s).file = some p ∧ p ++ lost = T ∧ lost ≠ [] ∧
        ∀ s', loadAs f (some ext) (some p) ≠ .ok s') ∧
    ((saveAs f m (some ext) old s).result = .ok →
      ∃ p lost, (saveAs f m (some ext) old s).file = some p ∧ p ++ lost = T ∧
        lost.length ≤ m.cap) ∧
    (saveAs f m (some ext) old s).result ≠ .unsupported := by
  obtain ⟨ps, hps, e⟩ := saveAs_pieces h m old
  rw [e]
  by_cases hm : m.canCreate = true
  · obtain ⟨hc, -⟩ := savePieces_file hm old ps
    rw [hps] at hc
    rcases savePieces_result hm old ps with ⟨h1, h2⟩ | ⟨h1, h2⟩
    · rw [h1, hc]
      refine ⟨by simp, by simp, fun _ => ?_, by simp⟩
      refine ⟨_, T.drop m.room, rfl, List.take_append_drop _ _, ?_⟩
      rw [hps] at h2
      rw [List.length_drop]; omega
    · rw [h1, hc]
      rw [hps] at h2
      refine ⟨by simp, fun _ => ?_, by simp, by simp⟩
      refine ⟨_, T.drop m.room, rfl, List.take_append_drop _ _, ?_, ?_⟩
      · intro hn
        have := congrArg List.length hn
        rw [List.length_drop] at this
        simp at this
        omega
      · intro s' hl
        have hne : T.take m.room ≠ T := by
          intro hh
          have := congrArg List.length hh
          rw [List.length_take] at this
          omega
        rcases loadAs_cut hf h (List.take_prefix _ _) hne with h3 | ⟨-, -, h3⟩ <;>
          rw [h3] at hl <;> cases hl
  · have hs : savePieces m old ps = ⟨.openError, old, []⟩ := by simp [savePieces, hm]
    rw [hs]
    exact ⟨fun _ => rfl, by simp, by simp, by simp⟩

/-- **Refuted: success means that the scene is there.**  Every scene shorter than the buffer (8192
bytes) is saved "successfully" to a disk that is too full for it, in every format: the buffer is
never flushed, only dropped, and dropping it ignores errors.  The file then does not load. -/
theorem save_full_violated (hf : Lawful f) {s : Scene κ δ} {ext : String} {T : List UInt8}
    (h : HasFormat f s ext T) {m : Machine} (hm : m.canCreate = true) (hcap : T.length < m.cap)
    (hfull : m.room < T.length) (old : Option (List UInt8)) :
    (saveAs f m (some ext) old s).result = .ok ∧
      ∀ s', loadAs f (some ext) (saveAs f m (some ext) old s).file ≠ .ok s' := by
  obtain ⟨ps, hps, e⟩ := saveAs_pieces h m old
  rw [e]
  obtain ⟨hc, -⟩ := savePieces_file hm old ps
  rw [hps] at hc
  constructor
  · have := writePieces_short ps ⟨m.cap, [], ⟨[], m.room, [[]]⟩⟩ (by
      dsimp only; rw [hps]; simpa using hcap)
    unfold savePieces
    simp only [hm, if_true, this]
  · intro s' hl
    rw [hc] at hl
    have hne : T.take m.room ≠ T := by
      intro hh
      have := congrArg List.length hh
      rw [List.length_take] at this
      omega
    rcases loadAs_cut hf h (List.take_prefix _ _) hne with h3 | ⟨-, -, h3⟩ <;>
      rw [h3] at hl <;> cases hl

/-- **Refuted: the previous scene stays until the new one is complete.**  Whatever was at the path
is gone as soon as a save begins: a program that is stopped then leaves a file that loads as no
scene. -/
theorem crash_old_violated (hf : Lawful f) {s : Scene κ δ} {ext : String} {T : List UInt8}
    (h : HasFormat f s ext T) (hT : T ≠ []) {m : Machine} (hm : m.canCreate = true)
    (old : Option (List UInt8)) :
    ∃ p ∈ (saveAs f m (some ext) old s).seen, ∀ s', loadAs f (some ext) (some p) ≠ .ok s' := by
  obtain ⟨ps, hps, e⟩ := saveAs_pieces h m old
  rw [e, (savePieces_file hm old ps).2]
  refine ⟨[], by simp, ?_⟩
  intro s' hl
  rcases loadAs_cut hf h (List.nil_prefix) hT.symm with h3 | ⟨-, -, h3⟩ <;>
    rw [h3] at hl <;> cases hl

/-- **Refuted: no file makes the program panic.**  A program that is stopped, or a disk that is
full, when the configuration is written and nothing else is, leaves an `sfrb` file that makes every
program panic that loads it. -/
theorem crash_panic_violated (hf : Lawful f) (s : Scene κ δ) {m : Machine}
    (hm : m.canCreate = true) (hr : (f.ron.encode s.config).length ≤ m.room)
    (old : Option (List UInt8)) :
    ∃ p ∈ (saveSfrb f m old s).seen, loadSfrb f (some p) = .panic := by
  refine ⟨f.ron.encode s.config, ?_, ?_⟩
  · rw [saveSfrb, (savePieces_file hm old _).2, sfrb_flatten, List.mem_inits]
    rw [sfrbBytes, List.take_append]
    rw [List.take_of_length_le hr]
    exact List.prefix_append _ _
  · have e := hf.ron s.config [] (Or.inl rfl)
    rw [List.append_nil] at e
    simp [loadSfrb, e]

/-- **Refuted, without any fault:** the file that `SceneConfig::write_as_ron` writes, which is a
whole and valid RON file, makes `load_from_sfrb` panic. -/
theorem config_panic_violated (hf : Lawful f) (c : κ) {m : Machine} (hm : m.canCreate = true)
    (hr : (f.ron.encode c).length ≤ m.room) (old : Option (List UInt8)) :
    loadSfrb f (savePieces m old (f.ron.pieces c)).file = .panic := by
  have h := (savePieces_file hm old (f.ron.pieces c)).1
  rw [show (f.ron.pieces c).flatten = f.ron.encode c from rfl] at h
  rw [h, List.take_of_length_le hr]
  have e := hf.ron c [] (Or.inl rfl)
  rw [List.append_nil] at e
  simp [loadSfrb, e]

/-- Under other extensions, or none, nothing is saved or loaded, nothing at the path changes, and
both say so. -/
theorem extension_refused {ext : Option String}
    (h : ∀ e ∈ ["sfrb", "bin", "ron", "json"], ext ≠ some e) (m : Machine)
    (old : Option (List UInt8)) (s : Scene κ δ) :
    (saveAs f m ext old s).result = .unsupported ∧ (saveAs f m ext old s).file = old ∧
      (saveAs f m ext old s).seen = [] ∧ loadAs f ext old = .unsupported := by
  have h1 := h "sfrb" (by simp)
  have h2 := h "bin" (by simp)
  have h3 := h "ron" (by simp)
  have h4 := h "json" (by simp)
  unfold saveAs loadAs
  split <;> simp_all

/-- **Refuted: the extensions that the plugin asks for are supported.**  A path without extension is
refused with a list of four; with one of them, `sfjb`, every path is refused. -/
theorem extension_violated (f : Formats κ δ) :
    ∃ ext ∈ namedExtensions, ∀ (m : Machine) (old : Option (List UInt8)) (s : Scene κ δ),
      (saveAs f m (some ext) old s).result = .unsupported :=
  ⟨"sfjb", by simp [namedExtensions], fun _ _ _ => rfl⟩

end

/-! ## Concrete formats -/

/-- Numbers in unary, ended by a closing parenthesis, one byte per write. -/
def unary : Codec ℕ where
  pieces n := List.replicate n [120] ++ [[41]]
  decode b := go 0 b
where
  go (n : ℕ) : List UInt8 → Option (ℕ × List UInt8)
    | [] => none
    | b :: bs => if b = 120 then go (n + 1) bs else if b = 41 then some (n, bs) else none

theorem unary_encode (n : ℕ) : unary.encode n = List.replicate n 120 ++ [41] := by
  simp [Codec.encode, unary]

theorem unary_go (n k : ℕ) (rest : List UInt8) :
    unary.go k (List.replicate n 120 ++ 41 :: rest) = some (k + n, rest) := by
  induction n generalizing k with
  | zero => simp [unary.go]
  | succ n ih =>
    rw [List.replicate_succ, List.cons_append, unary.go, if_pos rfl, ih]
    congr 2; omega

theorem unary_go_cut (n k : ℕ) : unary.go k (List.replicate n 120) = none := by
  induction n generalizing k with
  | zero => rfl
  | succ n ih => rw [List.replicate_succ, unary.go, if_pos rfl, ih]

theorem unary_read (n : ℕ) (rest : List UInt8) :
    unary.decode (unary.encode n ++ rest) = some (n, rest) := by
  rw [unary_encode]
  have h := unary_go n 0 rest
  rw [Nat.zero_add] at h
  rw [List.append_assoc]
  exact h

theorem unary_cut (n : ℕ) (p : List UInt8) (h : p <+: unary.encode n) (hne : p ≠ unary.encode n) :
    unary.decode p = none := by
  rw [unary_encode] at h hne
  rcases prefix_cases h with ⟨h1, -⟩ | ⟨q, hq, rfl⟩
  · have := List.prefix_iff_eq_take.1 h1
    rw [List.take_replicate] at this
    rw [this]
    exact unary_go_cut _ 0
  · have hq0 : q = [] := by
      cases q with
      | nil => rfl
      | cons b r =>
        obtain ⟨rfl, hr⟩ := List.cons_prefix_cons.1 hq
        have : r = [] := List.prefix_nil.1 hr
        subst this
        exact absurd rfl hne
    rw [hq0, List.append_nil]
    exact unary_go_cut _ 0

/-- Two numbers, one after the other. -/
def unaryScene : Codec (Scene ℕ ℕ) where
  pieces s := unary.pieces s.config ++ unary.pieces s.data
  decode b :=
    match unary.decode b with
    | none => none
    | some (c, r) =>
      match unary.decode r with
      | none => none
      | some (d, r') => some (⟨c, d⟩, r')

theorem unaryScene_encode (s : Scene ℕ ℕ) :
    unaryScene.encode s = unary.encode s.config ++ unary.encode s.data := by
  simp [Codec.encode, unaryScene]

def unaryFormats : Formats ℕ ℕ := ⟨unary, unary, unaryScene, unaryScene⟩

theorem unaryScene_read (s : Scene ℕ ℕ) :
    unaryScene.decode (unaryScene.encode s) = some (s, []) := by
  rw [unaryScene_encode]
  have := unary_read s.data []
  rw [List.append_nil] at this
  simp [unaryScene, unary_read, this]

theorem unaryScene_cut (s : Scene ℕ ℕ) (p : List UInt8) (h : p <+: unaryScene.encode s)
    (hne : p ≠ unaryScene.encode s) : unaryScene.decode p = none := by
  rw [unaryScene_encode] at h hne
  rcases prefix_cases h with ⟨h1, h2⟩ | ⟨q, hq, rfl⟩
  · simp [unaryScene, unary_cut _ _ h1 h2]
  · have hq2 : q ≠ unary.encode s.data := by
      rintro rfl
      exact hne rfl
    simp [unaryScene, unary_read, unary_cut _ _ hq hq2]

/-- The laws are met by concrete formats. -/
theorem unary_lawful : Lawful unaryFormats where
  ron c rest _ := unary_read c rest
  ron_cut := unary_cut
  bincode := unary_read
  bincode_cut := unary_cut
  ronScene := unaryScene_read
  ronScene_cut := unaryScene_cut
  jsonScene := unaryScene_read
  jsonScene_cut := unaryScene_cut

/-- A save that succeeds and loads, through a buffer of two bytes. -/
example : (saveAs unaryFormats ⟨true, 100, 2⟩ (some "sfrb") (some [1, 2, 3]) ⟨3, 2⟩).file
    = some [120, 120, 120, 41, 10, 120, 120, 41] ∧
    loadAs unaryFormats (some "sfrb") (some [120, 120, 120, 41, 10, 120, 120, 41])
      = .ok ⟨3, 2⟩ := by decide

/-- A save whose disk is full after five bytes, through a buffer of two bytes: an error. -/
example : (saveAs unaryFormats ⟨true, 5, 2⟩ (some "bin") none ⟨3, 2⟩).result = .writeError ∧
    (saveAs unaryFormats ⟨true, 5, 2⟩ (some "bin") none ⟨3, 2⟩).file
      = some [120, 120, 120, 41, 10] := by decide

/-- The same through a buffer of 8192 bytes: success, and nothing to load. -/
example : (saveAs unaryFormats ⟨true, 6, 8192⟩ (some "bin") none ⟨3, 2⟩).result = .ok ∧
    ∀ s', loadAs unaryFormats (some "bin")
      (saveAs unaryFormats ⟨true, 6, 8192⟩ (some "bin") none ⟨3, 2⟩).file ≠ .ok s' :=
  save_full_violated unary_lawful .bin rfl (by decide) (by decide) none

/-- A disk that is full after the configuration: success, and a file that makes a load panic. -/
example : (saveAs unaryFormats ⟨true, 4, 8192⟩ (some "sfrb") none ⟨3, 2⟩).result = .ok ∧
    loadAs unaryFormats (some "sfrb")
      (saveAs unaryFormats ⟨true, 4, 8192⟩ (some "sfrb") none ⟨3, 2⟩).file = .panic := by decide

/-- Moments of a save at which the program may be stopped. -/
example : ([] : List UInt8) ∈
      (saveAs unaryFormats ⟨true, 100, 2⟩ (some "ron") (some [41, 41]) ⟨0, 1⟩).seen ∧
    [41, 120] ∈ (saveAs unaryFormats ⟨true, 100, 2⟩ (some "ron") (some [41, 41]) ⟨0, 1⟩).seen ∧
    loadAs unaryFormats (some "ron") (some [41, 41]) = .ok ⟨0, 0⟩ := by decide

end Softy.SceneFile
