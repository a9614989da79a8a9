import Verif.Model.FrameFiles
import Mathlib.Tactic

/-!
# C88: files of the frames of a simulation
-/

namespace Softy.FrameFiles

/-! ## Specification -/

/-- Only digits. -/
def Digits (s : List Char) : Prop := ∀ c ∈ s, c.isDigit

/-- How the number `n` is written with at least `w` digits: with leading zeros only as far as needed. -/
structure Written (w n : ℕ) (s : List Char) : Prop where
  digits : Digits s
  value : number s = n
  width : w ≤ s.length
  nonempty : s ≠ []
  leading : w < s.length → 1 < s.length → s.head? ≠ some '0'

/-! ## Numbers -/

theorem digit_char {d : ℕ} (h : d < 10) : (Char.ofNat (48 + d)).isDigit ∧ (Char.ofNat (48 + d)).toNat - 48 = d ∧
    (Char.ofNat (48 + d) = '0' ↔ d = 0) := by
  interval_cases d <;> decide

theorem number_append (a b : List Char) : number (a ++ b) = number a * 10 ^ b.length + number b := by
  unfold number
  rw [List.foldl_append]
  generalize List.foldl (fun a c => 10 * a + (c.toNat - 48)) 0 a = x
  induction b using List.reverseRecOn generalizing x with
  | nil => simp
  | append_singleton b c ih =>
    rw [List.foldl_append, List.foldl_append, ih]
    simp only [List.foldl_cons, List.foldl_nil, List.length_append, List.length_singleton, pow_succ]
    ring

theorem number_singleton (c : Char) : number [c] = c.toNat - 48 := by simp [number]

theorem number_digits (l : List ℕ) (h : ∀ d ∈ l, d < 10) :
    number ((l.map fun d => Char.ofNat (48 + d)).reverse) = Nat.ofDigits 10 l := by
  induction l with
  | nil => rfl
  | cons d l ih =>
    have hd := h d (by simp)
    rw [List.map_cons, List.reverse_cons, number_append, ih fun e he => h e (List.mem_cons_of_mem _ he),
      number_singleton, (digit_char hd).2.1, Nat.ofDigits_cons]
    simp
    ring

theorem number_zeros (k : ℕ) : number (List.replicate k '0') = 0 := by
  induction k with
  | zero => rfl
  | succ k ih => rw [List.replicate_succ', number_append, ih]; rfl

theorem decimal_written (n : ℕ) : Written 0 n (decimal n) := by
  unfold decimal
  split
  · rename_i h
    subst h
    exact ⟨by intro c hc; simp at hc; subst hc; decide, rfl, by simp, by simp, by simp⟩
  · rename_i h
    have hlt : ∀ d ∈ Nat.digits 10 n, d < 10 := fun d hd => Nat.digits_lt_base (by norm_num) hd
    have hne : Nat.digits 10 n ≠ [] := Nat.digits_ne_nil_iff_ne_zero.2 h
    constructor
    · intro c hc
      simp only [List.mem_reverse, List.mem_map] at hc
      obtain ⟨d, hd, rfl⟩ := hc
      exact (digit_char (hlt d hd)).1
    · rw [number_digits _ hlt, Nat.ofDigits_digits]
    · simp
    · simpa using hne
    · intro _ _ h0
      rw [List.head?_reverse, List.getLast?_map, List.getLast?_eq_getLast_of_ne_nil hne] at h0
      simp only [Option.map_some, Option.some.injEq] at h0
      have := (digit_char (hlt _ (List.getLast_mem hne))).2.2.1 h0
      exact Nat.getLast_digit_ne_zero 10 h this

theorem pad_written (w n : ℕ) : Written w n (pad w (decimal n)) := by
  have h := decimal_written n
  unfold pad
  constructor
  · intro c hc
    rcases List.mem_append.1 hc with hc | hc
    · rw [List.eq_of_mem_replicate hc]; decide
    · exact h.digits c hc
  · rw [number_append, number_zeros, h.value]; simp
  · simp; omega
  · simp [h.nonempty]
  · intro hw h1
    simp only [List.length_append, List.length_replicate] at hw h1
    have : w - (decimal n).length = 0 := by omega
    rw [this]
    simp only [List.replicate_zero, List.nil_append]
    refine h.leading ?_ ?_ <;> omega

/-! ## Dots -/

theorem before_dot (s e : List Char) (he : '.' ∉ e) : before (s ++ '.' :: e) = s := by
  unfold before
  rw [List.reverse_append, List.reverse_cons, List.append_assoc, List.dropWhile_append_of_pos]
  · simp
  · intro c hc
    simp only [decide_eq_true_eq, ne_eq]
    rintro rfl
    exact he (List.mem_reverse.1 hc)

theorem after_dot (s e : List Char) (he : '.' ∉ e) : after (s ++ '.' :: e) = e := by
  unfold after
  rw [List.reverse_append, List.reverse_cons, List.append_assoc, List.takeWhile_append_of_pos]
  · simp
  · intro c hc
    simp only [decide_eq_true_eq, ne_eq]
    rintro rfl
    exact he (List.mem_reverse.1 hc)

theorem before_nil (s : List Char) (h : '.' ∉ s.tail) : before s = [] := by
  cases s with
  | nil => rfl
  | cons c s =>
    simp only [List.tail_cons] at h
    unfold before
    rw [List.reverse_cons, List.dropWhile_append_of_pos]
    · by_cases hc : c = '.' <;> simp [List.dropWhile_cons, hc]
    · intro x hx
      simp only [decide_eq_true_eq, ne_eq]
      rintro rfl
      exact h (List.mem_reverse.1 hx)

theorem stem_whole (s : List Char) (h : '.' ∉ s.tail) : fileStem s = s := by
  unfold fileStem noExtension
  simp [before_nil s h]

theorem ext_split (s e : List Char) (hs : s ≠ []) (hs' : s ≠ ['.']) (he : '.' ∉ e) :
    fileStem (s ++ '.' :: e) = s ∧ extension (s ++ '.' :: e) = some e := by
  have : noExtension (s ++ '.' :: e) = false := by
    unfold noExtension
    rw [before_dot s e he]
    simp only [hs, decide_false, Bool.or_false, Bool.or_eq_false_iff, decide_eq_false_iff_not, not_not]
    refine ⟨by simp, fun h => ?_⟩
    cases s with
    | nil => exact hs rfl
    | cons a s =>
      simp only [List.cons_append, List.cons.injEq] at h
      cases s with
      | nil => exact hs' (by rw [h.1])
      | cons b s => simp at h
  unfold fileStem extension
  rw [this, before_dot s e he, after_dot s e he]
  simp

/-! ## The number in the name -/

theorem withOffsets_append (i : ℕ) (a b : List Char) :
    withOffsets i (a ++ b) = withOffsets i a ++ withOffsets (i + byteLen a) b := by
  induction a generalizing i with
  | nil => simp [withOffsets, byteLen]
  | cons c a ih =>
    simp only [List.cons_append, withOffsets, ih, byteLen, List.map_cons, List.sum_cons]
    rw [add_assoc]

theorem withOffsets_lt (i : ℕ) (a : List Char) : ∀ p ∈ withOffsets i a, p.1 < i + byteLen a := by
  induction a generalizing i with
  | nil => simp [withOffsets]
  | cons c a ih =>
    intro p hp
    have := c.utf8Size_pos
    simp only [withOffsets, List.mem_cons] at hp
    simp only [byteLen, List.map_cons, List.sum_cons]
    rcases hp with rfl | hp
    · simp only; omega
    · have := ih _ p hp
      unfold byteLen at this
      omega

theorem withOffsets_mem (i : ℕ) (a : List Char) : ∀ p ∈ withOffsets i a, p.2 ∈ a := by
  induction a generalizing i with
  | nil => simp [withOffsets]
  | cons c a ih =>
    intro p hp
    simp only [withOffsets, List.mem_cons] at hp
    rcases hp with rfl | hp
    · simp
    · exact List.mem_cons_of_mem _ (ih _ p hp)

theorem digit_size {c : Char} (h : c.isDigit) : c.utf8Size = 1 := by
  unfold Char.isDigit at h
  simp only [Bool.and_eq_true, decide_eq_true_eq] at h
  unfold Char.utf8Size
  rw [if_pos]
  have := h.2
  exact UInt32.le_trans this (by decide)

theorem digits_len {s : List Char} (h : Digits s) : byteLen s = s.length := by
  induction s with
  | nil => rfl
  | cons c s ih =>
    have := ih fun d hd => h d (List.mem_cons_of_mem _ hd)
    unfold byteLen at this ⊢
    rw [List.map_cons, List.sum_cons, this, digit_size (h c (by simp)), List.length_cons, add_comm]

theorem run_stop (p : ℕ) (rest : List (ℕ × Char)) (h : ∀ q ∈ rest, q.1 ≠ p - 1) : digitRun p rest = [] := by
  cases rest with
  | nil => rfl
  | cons q rest => obtain ⟨i, d⟩ := q; rw [digitRun, if_neg (h (i, d) (by simp))]

theorem run_digits (ds : List Char) (h : Digits ds) (p : ℕ) (rest : List (ℕ × Char))
    (hr : ∀ q ∈ rest, q.1 + 1 < p) :
    digitRun (p + ds.length) ((withOffsets p ds).reverse ++ rest) = ds.reverse := by
  induction ds using List.reverseRecOn with
  | nil =>
    simp only [withOffsets, List.reverse_nil, List.nil_append, List.length_nil, add_zero]
    exact run_stop _ _ fun q hq => by have := hr q hq; omega
  | append_singleton ds c ih =>
    have hd : Digits ds := fun d hd => h d (by simp [hd])
    rw [withOffsets_append, List.reverse_append, digits_len hd]
    simp only [withOffsets, List.reverse_cons, List.reverse_nil, List.nil_append, List.cons_append,
      List.length_append, List.length_singleton, List.reverse_append]
    rw [digitRun, if_pos (by omega), ih hd]

theorem truncateTo_append (a b : List Char) : truncateTo (byteLen a) (a ++ b) = some a := by
  induction a with
  | nil => simp [byteLen, truncateTo]
  | cons c a ih =>
    have hc := c.utf8Size_pos
    have e : byteLen (c :: a) = c.utf8Size + byteLen a := by simp [byteLen]
    rw [e]
    obtain ⟨n, hn⟩ : ∃ n, c.utf8Size + byteLen a = n + 1 := ⟨c.utf8Size + byteLen a - 1, by omega⟩
    rw [hn, List.cons_append, truncateTo, if_pos (by omega), show n + 1 - c.utf8Size = byteLen a by omega, ih]
    rfl

theorem byteLen_append (a b : List Char) : byteLen (a ++ b) = byteLen a + byteLen b := by simp [byteLen]

/-- A name that ends with a number. -/
theorem numbering_end (pre ds : List Char) (hpre : ∀ c, pre.getLast? = some c → ¬ c.isDigit) (hd : Digits ds)
    (hne : ds ≠ []) (hlt : number ds < 2 ^ 64) : numbering (pre ++ ds) = .ok ⟨pre, ds.length, number ds⟩ := by
  have hrest : ∀ q ∈ ((withOffsets 0 pre).filter fun p => p.2.isDigit).reverse, q.1 + 1 < byteLen pre := by
    intro q hq
    rw [List.mem_reverse, List.mem_filter] at hq
    rcases List.eq_nil_or_concat' pre with rfl | ⟨a, c, rfl⟩
    · simp [withOffsets] at hq
    · rw [withOffsets_append, List.mem_append] at hq
      have hc : ¬ c.isDigit := hpre c (by simp)
      have hs := c.utf8Size_pos
      have hl : byteLen (a ++ [c]) = byteLen a + c.utf8Size := by simp [byteLen]
      rcases hq.1 with h | h
      · have := withOffsets_lt 0 a q h
        omega
      · simp only [withOffsets, List.mem_singleton] at h
        subst h
        exact absurd hq.2 hc
  obtain ⟨ini, c, rfl⟩ : ∃ a c, ds = a ++ [c] := by
    rcases List.eq_nil_or_concat' ds with h | ⟨a, c, h⟩
    · exact absurd h hne
    · exact ⟨a, c, h⟩
  have hfil : ((withOffsets (byteLen pre) (ini ++ [c])).filter fun p => p.2.isDigit) =
      withOffsets (byteLen pre) (ini ++ [c]) :=
    List.filter_eq_self.2 fun p hp => hd _ (withOffsets_mem _ _ p hp)
  have hini : Digits ini := fun d h => hd d (by simp [h])
  have hm : rmatchDigits (pre ++ (ini ++ [c])) = (byteLen pre + ini.length, c) ::
      ((withOffsets (byteLen pre) ini).reverse ++
        ((withOffsets 0 pre).filter fun p => p.2.isDigit).reverse) := by
    unfold rmatchDigits
    rw [withOffsets_append, List.filter_append, zero_add, hfil, List.reverse_append, withOffsets_append,
      digits_len hini]
    simp [withOffsets]
  unfold numbering
  rw [hm]
  simp only
  rw [run_digits ini hini _ _ hrest]
  have hrev : (c :: ini.reverse).reverse = ini ++ [c] := by simp
  rw [hrev, if_neg (by omega), byteLen_append, digits_len hd, Nat.add_sub_cancel, truncateTo_append]

/-- A name without a number. -/
theorem numbering_none (stem : List Char) (h : ∀ c ∈ stem, ¬ c.isDigit) : numbering stem = .ok ⟨stem, 0, 0⟩ := by
  have : rmatchDigits stem = [] := by
    unfold rmatchDigits
    rw [List.reverse_eq_nil_iff, List.filter_eq_nil_iff]
    exact fun p hp => h _ (withOffsets_mem _ _ p hp)
  unfold numbering
  rw [this]

theorem truncate_prefix (n : ℕ) (s t : List Char) (h : truncateTo n s = some t) : t <+: s := by
  induction s generalizing n t with
  | nil =>
    cases n <;> (simp [truncateTo] at h; subst h; simp)
  | cons c s ih =>
    cases n with
    | zero => simp [truncateTo] at h; subst h; simp
    | succ n =>
      rw [truncateTo] at h
      split at h
      · obtain ⟨t', ht, rfl⟩ := Option.map_eq_some_iff.1 h
        simpa using ih _ _ ht
      · cases h

theorem numbering_prefix (s : List Char) (N : Numbering) (h : numbering s = .ok N) : N.stem <+: s := by
  unfold numbering at h
  split at h
  · cases h; exact List.prefix_rfl
  · simp only at h
    split at h
    · cases h
    · split at h
      · cases h
      · rename_i t ht
        cases h
        exact truncate_prefix _ _ _ ht

theorem digits_dot {s : List Char} (h : Digits s) : '.' ∉ s := fun hm => by
  have := h _ hm
  revert this
  decide

/-- The extension of files that are written. -/
def vtk : List Char := ['v', 't', 'k']

/-- See `vtk`. -/
def vtu : List Char := ['v', 't', 'u']

theorem ext_dot {e : List Char} (h : e = vtk ∨ e = vtu) : '.' ∉ e := by
  rcases h with rfl | rfl <;> decide

/-! ## Theorems -/

/-- **C88.** Where the name ends with a number, the number is incremented for each frame and everything else
is kept. -/
theorem frames_numbered_partial (pre ds ext : List Char) (frame : ℕ) (he : ext = vtk ∨ ext = vtu)
    (hdot : '.' ∉ pre.tail) (hpre : ∀ c, pre.getLast? = some c → ¬ c.isDigit) (hd : Digits ds) (hne : ds ≠ [])
    (hlt : number ds + frame < 2 ^ 64) :
    ∃ ds', Written ds.length (number ds + frame) ds' ∧
      frameFile (pre ++ ds ++ '.' :: ext) frame = .ok (pre ++ ds' ++ '.' :: ext) := by
  refine ⟨_, pad_written ds.length (number ds + frame), ?_⟩
  have h1 : pre ++ ds ≠ [] := by simp [hne]
  have h2 : pre ++ ds ≠ ['.'] := by
    intro h
    have hl : (pre ++ ds).getLast? = some '.' := by rw [h]; rfl
    rw [List.getLast?_append_of_ne_nil _ hne, List.getLast?_eq_getLast_of_ne_nil hne] at hl
    have := hd _ (List.getLast_mem hne)
    rw [Option.some.inj hl] at this
    revert this
    decide
  obtain ⟨hs, hx⟩ := ext_split (pre ++ ds) ext h1 h2 (ext_dot he)
  have hw := pad_written ds.length (number ds + frame)
  unfold frameFile
  rw [hx, hs]
  simp only
  rw [if_pos (by unfold vtk vtu at he; tauto), numbering_end pre ds hpre hd hne (by omega)]
  simp only [outFileName]
  rw [if_neg (by omega)]
  simp only [withExtension]
  rw [stem_whole]
  intro h
  cases pre with
  | nil => exact digits_dot hw.digits (List.mem_of_mem_tail h)
  | cons c pre =>
    simp only [List.cons_append, List.tail_cons, List.mem_append] at h hdot
    rcases h with h | h
    · exact hdot h
    · exact digits_dot hw.digits h

/-- **C88.** Where the name has no number, the number of the frame is appended. -/
theorem frames_appended_partial (stem ext : List Char) (frame : ℕ) (he : ext = vtk ∨ ext = vtu)
    (hne : stem ≠ []) (hne' : stem ≠ ['.']) (hdot : '.' ∉ stem.tail) (hd : ∀ c ∈ stem, ¬ c.isDigit)
    (hlt : frame < 2 ^ 64) :
    ∃ ds', Written 0 frame ds' ∧ frameFile (stem ++ '.' :: ext) frame = .ok (stem ++ ds' ++ '.' :: ext) := by
  have hw := pad_written 0 frame
  refine ⟨_, hw, ?_⟩
  obtain ⟨hs, hx⟩ := ext_split stem ext hne hne' (ext_dot he)
  unfold frameFile
  rw [hx, hs]
  simp only
  rw [if_pos (by unfold vtk vtu at he; tauto), numbering_none stem hd]
  simp only [outFileName]
  rw [if_neg (by omega)]
  simp only [withExtension, zero_add]
  rw [stem_whole]
  intro h
  cases stem with
  | nil => exact hne rfl
  | cons c pre =>
    simp only [List.cons_append, List.tail_cons, List.mem_append] at h hdot
    rcases h with h | h
    · exact hdot h
    · exact digits_dot hw.digits h

/-- **C88.** No frame overwrites another, wherever the number is in the name, if the name has one dot. -/
theorem frames_distinct_partial (output : List Char) (hdot : '.' ∉ (fileStem output).tail) (f g : ℕ)
    (a b : List Char) (hf : frameFile output f = .ok a) (hg : frameFile output g = .ok b) (hne : f ≠ g) :
    a ≠ b := by
  have key : ∀ f a, frameFile output f = .ok a → ∃ N ext, extension output = some ext ∧
      numbering (fileStem output) = .ok N ∧
      a = N.stem ++ pad N.width (decimal (N.first + f)) ++ '.' :: ext := by
    intro f a h
    unfold frameFile at h
    split at h
    · cases h
    · rename_i ext hext
      split at h
      · split at h
        · cases h
        · rename_i N hN
          unfold outFileName at h
          split at h
          · rename_i he
            split at he <;> cases h
          · rename_i name hname
            split at hname
            · cases hname
            · cases hname
              cases h
              refine ⟨N, ext, hext, hN, ?_⟩
              unfold withExtension
              rw [stem_whole]
              have hw := pad_written N.width (N.first + f)
              obtain ⟨r, hr⟩ := numbering_prefix _ _ hN
              intro hm
              cases hN' : N.stem with
              | nil =>
                rw [hN', List.nil_append] at hm
                exact digits_dot hw.digits (List.mem_of_mem_tail hm)
              | cons c t =>
                rw [hN', List.cons_append, List.tail_cons, List.mem_append] at hm
                rcases hm with hm | hm
                · rw [← hr, hN'] at hdot
                  exact hdot (by simp [hm])
                · exact digits_dot hw.digits hm
      · cases h
  obtain ⟨N, ext, hx, hN, rfl⟩ := key f a hf
  obtain ⟨N', ext', hx', hN', rfl⟩ := key g b hg
  rw [hN] at hN'
  cases hN'
  rw [hx] at hx'
  cases hx'
  intro h
  have h := List.append_cancel_right h
  have h := congrArg number (List.append_cancel_left h)
  rw [(pad_written _ _).value, (pad_written _ _).value] at h
  omega

/-! ## Examples -/

theorem decimal_two : decimal 2 = ['2'] := by
  rw [decimal, if_neg (by norm_num), Nat.digits_of_lt 10 2 (by norm_num) (by norm_num)]
  rfl

/-- The example of the documentation. -/
example : frameFile "out_0001.vtk".toList 1 = .ok "out_0002.vtk".toList := by
  have h : numbering ['o', 'u', 't', '_', '0', '0', '0', '1'] = .ok ⟨['o', 'u', 't', '_'], 4, 1⟩ :=
    numbering_end ['o', 'u', 't', '_'] ['0', '0', '0', '1'] (by decide) (by unfold Digits; decide) (by decide)
      (by decide)
  have hs : fileStem "out_0001.vtk".toList = ['o', 'u', 't', '_', '0', '0', '0', '1'] := by decide
  have hx : extension "out_0001.vtk".toList = some ['v', 't', 'k'] := by decide
  unfold frameFile
  rw [hx, hs]
  simp only
  rw [if_pos (by decide), h]
  simp only [outFileName]
  rw [if_neg (by norm_num), show 1 + 1 = 2 from rfl, decimal_two]
  rfl

/-- The hypotheses of `frames_numbered_partial` are met by that example. -/
example : ∃ pre ds : List Char, "out_0001.vtk".toList = pre ++ ds ++ '.' :: vtk ∧ '.' ∉ pre.tail ∧
    (∀ c, pre.getLast? = some c → ¬ c.isDigit) ∧ Digits ds ∧ ds ≠ [] ∧ number ds + 1 < 2 ^ 64 :=
  ⟨['o', 'u', 't', '_'], ['0', '0', '0', '1'], by decide, by decide, by decide, by unfold Digits; decide,
    by decide, by decide⟩

/-- C88 fails for names with a second dot: all frames are written to the same file. -/
theorem frames_overwritten_violated (frame : ℕ) (h : frame + 1 < 2 ^ 64) :
    frameFile "out.0001.vtk".toList frame = .ok "out.vtk".toList := by
  have hn : numbering ['o', 'u', 't', '.', '0', '0', '0', '1'] = .ok ⟨['o', 'u', 't', '.'], 4, 1⟩ :=
    numbering_end ['o', 'u', 't', '.'] ['0', '0', '0', '1'] (by decide) (by unfold Digits; decide) (by decide)
      (by decide)
  have hs : fileStem "out.0001.vtk".toList = ['o', 'u', 't', '.', '0', '0', '0', '1'] := by decide
  have hx : extension "out.0001.vtk".toList = some ['v', 't', 'k'] := by decide
  unfold frameFile
  rw [hx, hs]
  simp only
  rw [if_pos (by decide), hn]
  simp only [outFileName]
  rw [if_neg (by omega)]
  simp only [withExtension]
  have hw := pad_written 4 (1 + frame)
  have := (ext_split ['o', 'u', 't'] (pad 4 (decimal (1 + frame))) (by decide) (by decide)
    (digits_dot hw.digits)).1
  simp only [List.cons_append, List.nil_append] at this ⊢
  rw [this]
  rfl

/-- C88 fails if the number is not at the end of the name: the end of the name is cut off instead. -/
theorem frames_middle_violated : frameFile "a1b.vtk".toList 0 = .ok "a11.vtk".toList := by
  have hn : numbering ['a', '1', 'b'] = .ok ⟨['a', '1'], 1, 1⟩ := by rfl
  have hs : fileStem "a1b.vtk".toList = ['a', '1', 'b'] := by decide
  have hx : extension "a1b.vtk".toList = some ['v', 't', 'k'] := by decide
  have h1 : decimal 1 = ['1'] := by
    rw [decimal, if_neg (by norm_num), Nat.digits_of_lt 10 1 (by norm_num) (by norm_num)]
    rfl
  unfold frameFile
  rw [hx, hs]
  simp only
  rw [if_pos (by decide), hn]
  simp only [outFileName]
  rw [if_neg (by norm_num), add_zero, h1]
  rfl

/-- C88 fails if the last characters are not ASCII: the tool panics. -/
theorem frames_panic_violated (frame : ℕ) : frameFile "1é.vtk".toList frame = .error .panic := by
  have hn : numbering ['1', 'é'] = .error .panic := by rfl
  have hs : fileStem "1é.vtk".toList = ['1', 'é'] := by decide
  have hx : extension "1é.vtk".toList = some ['v', 't', 'k'] := by decide
  unfold frameFile
  rw [hx, hs]
  simp only
  rw [if_pos (by decide), hn]

end Softy.FrameFiles
