import Verif.Model.SceneFile
import Mathlib.Data.List.Infix
import Mathlib.Data.List.TakeDrop
import Mathlib.Tactic.Ring
import Mathlib.Tactic.Linarith

/-! Lemmas on files and buffers. -/

namespace Softy.SceneFile

theorem mem_inits_take {p T : List UInt8} {n : Nat} (h : p ∈ (T.take n).inits) : p <+: T :=
  ((List.mem_inits _ _).1 h).trans (List.take_prefix _ _)

theorem inits_snoc (l : List UInt8) (b : UInt8) : (l ++ [b]).inits = l.inits ++ [l ++ [b]] := by
  induction l with
  | nil => simp
  | cons a l ih => simp [ih]

theorem put_spec (d : List UInt8) : ∀ o : Out,
    (o.put d).1 = d.drop o.room ∧ (o.put d).2.content = o.content ++ d.take o.room ∧
      (o.put d).2.room = o.room - d.length ∧
      (o.seen = o.content.inits → (o.put d).2.seen = (o.put d).2.content.inits) := by
  induction d with
  | nil => intro o; simp [Out.put]
  | cons b bs ih =>
    intro o
    by_cases h : o.room = 0
    · simp [Out.put, h]
    · obtain ⟨n, hn⟩ := Nat.exists_eq_succ_of_ne_zero h
      have e : o.put (b :: bs)
          = Out.put ⟨o.content ++ [b], o.room - 1, o.seen ++ [o.content ++ [b]]⟩ bs := by
        rw [Out.put, if_neg h]
      obtain ⟨h1, h2, h3, h4⟩ := ih ⟨o.content ++ [b], o.room - 1, o.seen ++ [o.content ++ [b]]⟩
      rw [e]
      refine ⟨?_, ?_, ?_, ?_⟩
      · rw [h1]; simp [hn]
      · rw [h2]; simp [hn]
      · rw [h3]; simp [hn]
      · intro hs
        apply h4
        simp only [hs, inits_snoc]

/-- What holds of a writer after it was given the bytes `T`, on a disk that took `R` bytes. -/
structure Holds (R : Nat) (w : Writer) (T : List UInt8) : Prop where
  all : w.out.content ++ w.buf = T
  room : w.out.content.length + w.out.room = R
  seen : w.out.seen = w.out.content.inits
  buf : w.buf.length ≤ w.cap

/-- What holds of a writer after an error: the disk is full. -/
structure Full (R : Nat) (w : Writer) (T : List UInt8) : Prop where
  short : R < T.length
  pre : w.out.content <+: T
  room : w.out.room = 0
  len : w.out.content.length = R
  seen : w.out.seen = w.out.content.inits

theorem Full.mono {R : Nat} {w : Writer} {T : List UInt8} (h : Full R w T) (S : List UInt8) :
    Full R w (T ++ S) :=
  ⟨by have := h.short; simp; omega, h.pre.trans (List.prefix_append _ _), h.room, h.len, h.seen⟩

theorem flushBuf_spec {R : Nat} {w : Writer} {T : List UInt8} (h : Holds R w T) :
    (w.flushBuf.2.cap = w.cap) ∧
    (w.flushBuf.1 = true → Holds R w.flushBuf.2 T ∧ w.flushBuf.2.buf = []) ∧
    (w.flushBuf.1 = false → Full R w.flushBuf.2 T) ∧
    w.flushBuf.2.out.content = T.take R ∧
    w.flushBuf.2.out.seen = w.flushBuf.2.out.content.inits := by
  obtain ⟨p1, p2, p3, p4⟩ := put_spec w.buf w.out
  have hall := h.all
  have hroom := h.room
  have len : T.length = w.out.content.length + w.buf.length := by rw [← hall]; simp
  have htake : T.take R = w.out.content ++ w.buf.take w.out.room := by
    rw [← hall, ← hroom, List.take_length_add_append]
  have hs := p4 h.seen
  refine ⟨rfl, ?_, ?_, ?_, hs⟩
  · intro e
    simp only [Writer.flushBuf, List.isEmpty_iff] at e
    rw [p1] at e
    have hle : w.buf.length ≤ w.out.room := by simpa using e
    have hb : w.buf.take w.out.room = w.buf := List.take_of_length_le hle
    refine ⟨⟨?_, ?_, hs, ?_⟩, ?_⟩
    · simp only [Writer.flushBuf]; rw [p1, p2, e, hb, ← hall]; simp
    · simp only [Writer.flushBuf]; rw [p2, p3, hb]; simp; omega
    · simp only [Writer.flushBuf]; rw [p1, e]; simp
    · simp only [Writer.flushBuf]; rw [p1, e]
  · intro e
    have hlt : w.out.room < w.buf.length := by
      by_contra hc
      have : (w.out.put w.buf).1 = [] := by rw [p1]; simpa using hc
      simp [Writer.flushBuf, this] at e
    refine ⟨by omega, ?_, ?_, ?_, hs⟩
    · simp only [Writer.flushBuf]; rw [p2, ← htake]; exact List.take_prefix _ _
    · simp only [Writer.flushBuf]; rw [p3]; omega
    · simp only [Writer.flushBuf]; rw [p2, ← htake, List.length_take]; omega
  · simp only [Writer.flushBuf]; rw [p2, htake]

theorem writeAll_spec {R : Nat} {w : Writer} {T : List UInt8} (h : Holds R w T)
    (d : List UInt8) :
    ((w.writeAll d).2.cap = w.cap) ∧
    ((w.writeAll d).1 = true → Holds R (w.writeAll d).2 (T ++ d)) ∧
    ((w.writeAll d).1 = false → Full R (w.writeAll d).2 (T ++ d)) := by
  have hb := h.buf
  unfold Writer.writeAll
  by_cases h1 : d.length < w.cap - w.buf.length
  · simp only [h1, if_true]
    refine ⟨trivial, fun _ => ⟨?_, h.room, h.seen, ?_⟩, fun e => by simp at e⟩
    · rw [← h.all]; simp
    · simp; omega
  · simp only [h1, if_false]
    obtain ⟨fc, fok, ferr, -, -⟩ := flushBuf_spec h
    -- the writer when the data is handed on
    have key : ∀ r : Bool × Writer,
        r.2.cap = w.cap → (r.1 = true → Holds R r.2 T) →
        (r.1 = true → w.cap ≤ d.length → r.2.buf = []) →
        (r.1 = true → d.length < w.cap → r.2.buf.length + d.length ≤ w.cap) →
        (r.1 = false → Full R r.2 T) →
        ((if r.1 then
            if w.cap ≤ d.length then
              ((r.2.out.put d).1.isEmpty, { r.2 with out := (r.2.out.put d).2 })
            else (true, { r.2 with buf := r.2.buf ++ d })
          else (false, r.2) : Bool × Writer).2.cap = w.cap) ∧
        ((if r.1 then
            if w.cap ≤ d.length then
              ((r.2.out.put d).1.isEmpty, { r.2 with out := (r.2.out.put d).2 })
            else (true, { r.2 with buf := r.2.buf ++ d })
          else (false, r.2) : Bool × Writer).1 = true → Holds R
          (if r.1 then
            if w.cap ≤ d.length then
              ((r.2.out.put d).1.isEmpty, { r.2 with out := (r.2.out.put d).2 })
            else (true, { r.2 with buf := r.2.buf ++ d })
          else (false, r.2) : Bool × Writer).2 (T ++ d)) ∧
        ((if r.1 then
            if w.cap ≤ d.length then
              ((r.2.out.put d).1.isEmpty, { r.2 with out := (r.2.out.put d).2 })
            else (true, { r.2 with buf := r.2.buf ++ d })
          else (false, r.2) : Bool × Writer).1 = false → Full R
          (if r.1 then
            if w.cap ≤ d.length then
              ((r.2.out.put d).1.isEmpty, { r.2 with out := (r.2.out.put d).2 })
            else (true, { r.2 with buf := r.2.buf ++ d })
          else (false, r.2) : Bool × Writer).2 (T ++ d)) := by
      intro r rc rh re rl rf
      rcases r with ⟨ok, w'⟩
      cases ok with
      | false =>
        simp only [Bool.false_eq_true, if_false]
        exact ⟨rc, fun e => by simp at e, fun _ => (rf rfl).mono d⟩
      | true =>
        simp only [if_true]
        have hh := rh rfl
        by_cases hc : w.cap ≤ d.length
        · simp only [hc, if_true]
          have he := re rfl hc
          dsimp only at he rc hh ⊢
          obtain ⟨p1, p2, p3, p4⟩ := put_spec d w'.out
          have hall := hh.all
          have hroom := hh.room
          rw [he, List.append_nil] at hall
          have hs := p4 hh.seen
          refine ⟨rc, ?_, ?_⟩
          · intro e
            rw [p1, List.isEmpty_iff] at e
            have hle : d.length ≤ w'.out.room := by simpa using e
            have hd : d.take w'.out.room = d := List.take_of_length_le hle
            refine ⟨?_, ?_, hs, ?_⟩
            · dsimp only; rw [p2, hd, he, hall]; simp
            · dsimp only; rw [p2, p3, hd]; simp; omega
            · dsimp only; rw [he]; simp
          · intro e
            have hlt : w'.out.room < d.length := by
              by_contra hcc
              have : (w'.out.put d).1 = [] := by rw [p1]; simpa using hcc
              simp [this] at e
            have lenT : T.length = w'.out.content.length := by rw [← hall]
            have hpre : (w'.out.put d).2.content <+: T ++ d := by
              rw [p2, hall]
              exact (List.prefix_append_right_inj T).2 (List.take_prefix _ _)
            refine ⟨?_, hpre, ?_, ?_, hs⟩
            · rw [List.length_append]; omega
            · dsimp only; rw [p3]; omega
            · dsimp only; rw [p2, List.length_append, List.length_take]; omega
        · simp only [hc, if_false]
          refine ⟨rc, fun _ => ⟨?_, hh.room, hh.seen, ?_⟩, fun e => by simp at e⟩
          · dsimp only; rw [← hh.all]; simp
          · dsimp only
            have := rl rfl (by omega)
            dsimp only at this rc
            rw [List.length_append, rc]; omega
    by_cases h2 : w.cap - w.buf.length < d.length
    · simp only [h2, if_true]
      refine key w.flushBuf fc (fun e => (fok e).1) (fun e _ => (fok e).2) ?_ ferr
      intro e hl
      rw [(fok e).2]; simp; omega
    · simp only [h2, if_false]
      refine key (true, w) rfl (fun _ => h) ?_ ?_ (fun e => by simp at e)
      · intro _ hc
        have : w.buf.length = 0 := by omega
        simpa using this
      · intro _ _
        dsimp only
        omega

theorem writePieces_spec {R : Nat} (ps : List (List UInt8)) :
    ∀ (w : Writer) (T : List UInt8), Holds R w T →
    ((w.writePieces ps).2.cap = w.cap) ∧
    ((w.writePieces ps).1 = true → Holds R (w.writePieces ps).2 (T ++ ps.flatten)) ∧
    ((w.writePieces ps).1 = false → Full R (w.writePieces ps).2 (T ++ ps.flatten)) := by
  induction ps with
  | nil => intro w T h; simpa [Writer.writePieces] using h
  | cons p ps ih =>
    intro w T h
    obtain ⟨c, ok, err⟩ := writeAll_spec h p
    unfold Writer.writePieces
    rcases hr : w.writeAll p with ⟨b, w'⟩
    rw [hr] at c ok err
    cases b with
    | false =>
      simp only [Bool.false_eq_true, if_false]
      refine ⟨c, fun e => by simp at e, fun _ => ?_⟩
      rw [List.flatten_cons, ← List.append_assoc]
      exact (err rfl).mono _
    | true =>
      simp only [if_true]
      obtain ⟨c', ok', err'⟩ := ih w' (T ++ p) (ok rfl)
      rw [List.flatten_cons, ← List.append_assoc]
      exact ⟨c'.trans c, ok', err'⟩

/-- What a save leaves on a disk that takes `room` bytes, whatever the sizes of writes and of the
buffer: as much of all bytes as fits. -/
theorem savePieces_file {m : Machine} (hm : m.canCreate = true) (old : Option (List UInt8))
    (ps : List (List UInt8)) :
    (savePieces m old ps).file = some (ps.flatten.take m.room) ∧
    (savePieces m old ps).seen = (ps.flatten.take m.room).inits := by
  have h0 : Holds m.room ⟨m.cap, [], ⟨[], m.room, [[]]⟩⟩ [] :=
    ⟨rfl, by simp, by simp, by simp⟩
  obtain ⟨-, ok, err⟩ := writePieces_spec ps _ _ h0
  unfold savePieces
  simp only [hm, if_true]
  rcases hr : Writer.writePieces ⟨m.cap, [], ⟨[], m.room, [[]]⟩⟩ ps with ⟨b, w⟩
  rw [hr] at ok err
  rw [List.nil_append] at ok err
  dsimp only
  cases b with
  | true =>
    obtain ⟨-, -, -, hc, hs⟩ := flushBuf_spec (ok rfl)
    dsimp only at hc hs
    exact ⟨by rw [hc], by rw [hs, hc]⟩
  | false =>
    have hf := err rfl
    obtain ⟨-, p2, -, p4⟩ := put_spec w.buf w.out
    have hc : w.flushBuf.2.out.content = ps.flatten.take m.room := by
      simp only [Writer.flushBuf]
      rw [p2, hf.room]
      have := List.prefix_iff_eq_take.1 hf.pre
      rw [hf.len] at this
      simpa using this
    have hs : w.flushBuf.2.out.seen = w.flushBuf.2.out.content.inits := p4 hf.seen
    exact ⟨by rw [hc], by rw [hs, hc]⟩

/-- When a save reports success: at most what waited in the buffer is missing. -/
theorem savePieces_result {m : Machine} (hm : m.canCreate = true) (old : Option (List UInt8))
    (ps : List (List UInt8)) :
    ((savePieces m old ps).result = .ok ∧ ps.flatten.length ≤ m.room + m.cap) ∨
    ((savePieces m old ps).result = .writeError ∧ m.room < ps.flatten.length) := by
  have h0 : Holds m.room ⟨m.cap, [], ⟨[], m.room, [[]]⟩⟩ [] :=
    ⟨rfl, by simp, by simp, by simp⟩
  obtain ⟨c, ok, err⟩ := writePieces_spec ps _ _ h0
  unfold savePieces
  simp only [hm, if_true]
  rcases hr : Writer.writePieces ⟨m.cap, [], ⟨[], m.room, [[]]⟩⟩ ps with ⟨b, w⟩
  rw [hr] at ok err c
  rw [List.nil_append] at ok err
  dsimp only at ok err c ⊢
  cases b with
  | true =>
    left
    have h := ok rfl
    have h1 := h.room
    have h2 := h.buf
    refine ⟨by simp, ?_⟩
    rw [← h.all, List.length_append]
    omega
  | false => right; exact ⟨by simp, (err rfl).short⟩

/-- Bytes that all fit into the buffer are not written before it is dropped. -/
theorem writePieces_short (ps : List (List UInt8)) : ∀ w : Writer,
    w.buf.length + ps.flatten.length < w.cap → (w.writePieces ps).1 = true := by
  induction ps with
  | nil => intro w _; rfl
  | cons p ps ih =>
    intro w h
    rw [List.flatten_cons, List.length_append] at h
    unfold Writer.writePieces
    have e : w.writeAll p = (true, { w with buf := w.buf ++ p }) := by
      unfold Writer.writeAll
      rw [if_pos (by omega)]
    rw [e]
    simp only [if_true]
    apply ih
    dsimp only
    rw [List.length_append]
    omega

end Softy.SceneFile
