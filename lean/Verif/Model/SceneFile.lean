/-!
# Saving scenes to files and loading them

`softy/src/scene.rs:511-529` and `619-705`, `scene-hdk/src/api.rs:322-342`,
`softy-eval/src/main.rs:290-295`.

A scene is a configuration and its data.  It is saved as RON, as JSON, or as RON for the
configuration followed by a line feed and bincode for the data.  The text and binary formats
themselves are those of the crates `ron`, `serde_json` and `bincode`, which are not in `/repo`: a
`Codec` is what the code sees of one of them.  What is modelled exactly is what the code does with
them: the order in which parts are written, the buffer between the serializers and the file, what
becomes of errors, and how files are taken apart again.
-/

namespace Softy.SceneFile

/-- What the code sees of a serialization format, for values of one type: the calls of `write_all`
that the serializer makes, and the deserializer, which gives a value and what it did not read.

Simplification: serializing itself does not fail, only writing does.  A Rust `HashMap` is written
in the order in which it happens to be stored; here that order is part of the value. -/
structure Codec (α : Type) where
  pieces : α → List (List UInt8)
  decode : List UInt8 → Option (α × List UInt8)

/-- All the bytes that a serializer writes for one value. -/
def Codec.encode {α : Type} (k : Codec α) (a : α) : List UInt8 := (k.pieces a).flatten

/-! ## Files -/

/-- An open file: its content, how many more bytes the disk takes, and every content that the file
has had since it was opened, the earliest first.

Simplification: a write reaches the file one byte at a time, so `seen` has all contents that a
crash at any moment can leave. -/
structure Out where
  content : List UInt8
  room : Nat
  seen : List (List UInt8)

/-- `write_all` of `std::fs::File`: bytes are written until the disk takes no more; gives the bytes
that were not written. -/
def Out.put (o : Out) : List UInt8 → List UInt8 × Out
  | [] => ([], o)
  | b :: bs =>
    if o.room = 0 then (b :: bs, o)
    else Out.put ⟨o.content ++ [b], o.room - 1, o.seen ++ [o.content ++ [b]]⟩ bs

/-- `std::io::BufWriter` around a file (`scene.rs:625`, `666`, `681`): capacity, bytes that wait,
and the file.  `BufWriter::new` takes a capacity of 8192. -/
structure Writer where
  cap : Nat
  buf : List UInt8
  out : Out

/-- `BufWriter::flush_buf`: what waits is written; what the disk does not take keeps waiting, and
the result is an error. -/
def Writer.flushBuf (w : Writer) : Bool × Writer :=
  let r := w.out.put w.buf
  (r.1.isEmpty, { w with buf := r.1, out := r.2 })

/-- `BufWriter::write_all`: short data waits if there is space for it; otherwise what waits is
written first, and data as long as the buffer goes to the file at once. -/
def Writer.writeAll (w : Writer) (data : List UInt8) : Bool × Writer :=
  if data.length < w.cap - w.buf.length then (true, { w with buf := w.buf ++ data })
  else
    let r := if w.cap - w.buf.length < data.length then w.flushBuf else (true, w)
    if r.1 then
      if w.cap ≤ data.length then
        let s := r.2.out.put data
        (s.1.isEmpty, { r.2 with out := s.2 })
      else (true, { r.2 with buf := r.2.buf ++ data })
    else (false, r.2)

/-- The calls of `write_all` of one save, in order; the first error ends them (`?` in
`scene.rs:626-634`, and inside of the serializers). -/
def Writer.writePieces (w : Writer) : List (List UInt8) → Bool × Writer
  | [] => (true, w)
  | p :: ps =>
    let r := w.writeAll p
    if r.1 then r.2.writePieces ps else (false, r.2)

/-- What a save returns. -/
inductive SaveResult where
  | ok
  | openError
  | writeError
  | unsupported
  deriving DecidableEq, Repr

/-- A save: what it returns, what is at the path afterwards, and everything that was at the path
after the first moment it changed. -/
structure Saved where
  result : SaveResult
  file : Option (List UInt8)
  seen : List (List UInt8)

/-- The machine on which a save runs: whether the path can be created, the bytes that the disk
takes, and the capacity of buffers. -/
structure Machine where
  canCreate : Bool
  room : Nat
  cap : Nat

/-- `scene.rs:624-635`, `664-671`, `679-683`: the file is created, which empties a file that is
there; pieces are written through a buffer; then the buffer is dropped, which writes what waits and
ignores errors (`impl Drop for BufWriter`).  -/
def savePieces (m : Machine) (old : Option (List UInt8)) (ps : List (List UInt8)) : Saved :=
  if m.canCreate then
    let r := Writer.writePieces ⟨m.cap, [], ⟨[], m.room, [[]]⟩⟩ ps
    let d := r.2.flushBuf
    ⟨if r.1 then .ok else .writeError, some d.2.out.content, d.2.out.seen⟩
  else ⟨.openError, old, []⟩

/-! ## Scenes -/

/-- `scene.rs:532-536`. -/
structure Scene (κ δ : Type) where
  config : κ
  data : δ
  deriving DecidableEq

/-- The formats that the code uses: RON for configurations (`scene.rs:511-517`), bincode for data
(`scene.rs:631-634`), and RON and JSON for whole scenes (`scene.rs:660-686`). -/
structure Formats (κ δ : Type) where
  ron : Codec κ
  bincode : Codec δ
  ronScene : Codec (Scene κ δ)
  jsonScene : Codec (Scene κ δ)

/-- `b'\n'`. -/
def newline : UInt8 := 10

/-- The writes of `save_as_sfrb`, `scene.rs:626-634`. -/
def sfrbPieces {κ δ : Type} (f : Formats κ δ) (s : Scene κ δ) : List (List UInt8) :=
  f.ron.pieces s.config ++ [[newline]] ++ f.bincode.pieces s.data

/-- `save_as_sfrb`, `scene.rs:622-636`. -/
def saveSfrb {κ δ : Type} (f : Formats κ δ) (m : Machine) (old : Option (List UInt8))
    (s : Scene κ δ) : Saved :=
  savePieces m old (sfrbPieces f s)

/-- `save_as_ron`, `scene.rs:660-671`. -/
def saveRon {κ δ : Type} (f : Formats κ δ) (m : Machine) (old : Option (List UInt8))
    (s : Scene κ δ) : Saved :=
  savePieces m old (f.ronScene.pieces s)

/-- `save_as_json`, `scene.rs:676-684`. -/
def saveJson {κ δ : Type} (f : Formats κ δ) (m : Machine) (old : Option (List UInt8))
    (s : Scene κ δ) : Saved :=
  savePieces m old (f.jsonScene.pieces s)

/-- What a load gives. -/
inductive Loaded (κ δ : Type) where
  | ok (s : Scene κ δ)
  | openError
  | decodeError
  | missingNewline
  | unsupported
  | panic
  deriving DecidableEq

/-- `read_as_ron`, `scene.rs:520-528`, and `load_from_sfrb`, `scene.rs:641-655`: the configuration
is read from the start; the byte after it is taken with `bytes[0]`, which panics if there is none;
the rest is bincode, after which more bytes may follow. -/
def loadSfrb {κ δ : Type} (f : Formats κ δ) (file : Option (List UInt8)) : Loaded κ δ :=
  match file with
  | none => .openError
  | some bytes =>
    match f.ron.decode bytes with
    | none => .decodeError
    | some (_, []) => .panic
    | some (c, b :: rest) =>
      if b ≠ newline then .missingNewline
      else
        match f.bincode.decode rest with
        | none => .decodeError
        | some (d, _) => .ok ⟨c, d⟩

/-- `ron::de::from_reader` and `json::from_reader` (`scene.rs:689-705`): the whole file is one
value. Simplification: white space after the value is refused; neither serializer writes any. -/
def loadWhole {κ δ : Type} (k : Codec (Scene κ δ)) (file : Option (List UInt8)) : Loaded κ δ :=
  match file with
  | none => .openError
  | some bytes =>
    match k.decode bytes with
    | some (s, []) => .ok s
    | _ => .decodeError

/-- `load_from_ron`, `scene.rs:689-695`. -/
def loadRon {κ δ : Type} (f : Formats κ δ) (file : Option (List UInt8)) : Loaded κ δ :=
  loadWhole f.ronScene file

/-- `load_from_json`, `scene.rs:698-705`. -/
def loadJson {κ δ : Type} (f : Formats κ δ) (file : Option (List UInt8)) : Loaded κ δ :=
  loadWhole f.jsonScene file

/-! ## Extensions of files -/

/-- `save` of the plugin, `scene-hdk/src/api.rs:322-342` (and `softy-hdk/src/api.rs:392-412`): the
format is chosen by the extension of the path. -/
def saveAs {κ δ : Type} (f : Formats κ δ) (m : Machine) (ext : Option String)
    (old : Option (List UInt8)) (s : Scene κ δ) : Saved :=
  match ext with
  | some "sfrb" => saveSfrb f m old s
  | some "bin" => saveSfrb f m old s
  | some "ron" => saveRon f m old s
  | some "json" => saveJson f m old s
  | _ => ⟨.unsupported, old, []⟩

/-- `softy-eval/src/main.rs:275-295`: the format is chosen by the extension of the path. -/
def loadAs {κ δ : Type} (f : Formats κ δ) (ext : Option String) (file : Option (List UInt8)) :
    Loaded κ δ :=
  match ext with
  | some "sfrb" => loadSfrb f file
  | some "bin" => loadSfrb f file
  | some "ron" => loadRon f file
  | some "json" => loadJson f file
  | _ => .unsupported

/-- The extensions that the plugin names when a path has none, `scene-hdk/src/api.rs:338-340`. -/
def namedExtensions : List String := ["sfrb", "sfjb", "ron", "json"]

end Softy.SceneFile
