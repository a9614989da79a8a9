import Mathlib.Data.Nat.Digits.Defs

/-!
# Names of the files that frames are written to

Model of how the command line tool names the files of a simulation (`softy-eval/src/main.rs:259-274, 376-421`),
for output to `.vtk` and `.vtu` files. Strings are lists of characters; offsets into them are in bytes, as in
the code. Only file names are modelled: the directory of all files is that of the output path.
-/

namespace Softy.FrameFiles

/-- What goes wrong: the tool stops with an error, or it panics. -/
inductive Fail where
  | noExtension
  | unsupported
  | number
  | panic

/-! ## Standard library -/

/-- The part of a file name before its last dot, and the part after it, as in `rsplitn(2, '.')`. -/
def before (name : List Char) : List Char := ((name.reverse.dropWhile (· ≠ '.')).drop 1).reverse

/-- See `before`. -/
def after (name : List Char) : List Char := (name.reverse.takeWhile (· ≠ '.')).reverse

/-- Whether a file name has no extension (`rsplit_file_at_dot`): it has no dot, or only one at its start, or
it is the parent directory. -/
def noExtension (name : List Char) : Bool :=
  decide ('.' ∉ name) || decide (before name = []) || decide (name = ['.', '.'])

/-- `Path::file_stem`. -/
def fileStem (name : List Char) : List Char := if noExtension name then name else before name

/-- `Path::extension`. -/
def extension (name : List Char) : Option (List Char) :=
  if noExtension name then none else some (after name)

/-- `Path::with_extension`, for extensions that are not empty. -/
def withExtension (name ext : List Char) : List Char := fileStem name ++ '.' :: ext

/-- `char_indices`, starting at byte `i`. -/
def withOffsets : ℕ → List Char → List (ℕ × Char)
  | _, [] => []
  | i, c :: s => (i, c) :: withOffsets (i + c.utf8Size) s

/-- `String::len`. -/
def byteLen (s : List Char) : ℕ := (s.map Char.utf8Size).sum

/-- `String::truncate`: `none` where it panics, because the new length is not at the boundary of a
character. -/
def truncateTo : ℕ → List Char → Option (List Char)
  | 0, _ => some []
  | _ + 1, [] => some []
  | n + 1, c :: s =>
    if c.utf8Size ≤ n + 1 then (truncateTo (n + 1 - c.utf8Size) s).map (c :: ·) else none

/-- The number that a string of digits stands for. -/
def number (s : List Char) : ℕ := s.foldl (fun a c => 10 * a + (c.toNat - 48)) 0

/-- A number in decimal digits, as it is printed. -/
def decimal (n : ℕ) : List Char :=
  if n = 0 then ['0'] else ((Nat.digits 10 n).map fun d => Char.ofNat (48 + d)).reverse

/-- The format `{:01$}`: filled with zeros up to a width. -/
def pad (w : ℕ) (s : List Char) : List Char := List.replicate (w - s.length) '0' ++ s

/-! ## The tool -/

/-- `file_stem.rmatch_indices(|x| char::is_ascii_digit(&x))`: line 377. -/
def rmatchDigits (s : List Char) : List (ℕ × Char) :=
  ((withOffsets 0 s).filter fun p => p.2.isDigit).reverse

/-- The loop in lines 383-390, which collects the digits before the one at `prev`. The difference `prev - 1`
does not underflow, since digits that are left come earlier. -/
def digitRun : ℕ → List (ℕ × Char) → List Char
  | _, [] => []
  | prev, (i, d) :: rest => if i = prev - 1 then d :: digitRun i rest else []

/-- `file_stem`, `num_digits` and `first_frame`. -/
structure Numbering where
  stem : List Char
  width : ℕ
  first : ℕ

/-- Lines 377-395. Numbers are of type `u64`. -/
def numbering (stem : List Char) : Except Fail Numbering :=
  match rmatchDigits stem with
  | [] => .ok ⟨stem, 0, 0⟩
  | (i, d) :: rest =>
    let num := (d :: digitRun i rest).reverse
    if 2 ^ 64 ≤ number num then .error .number
    else match truncateTo (byteLen stem - num.length) stem with
      | none => .error .panic
      | some s => .ok ⟨s, num.length, number num⟩

/-- `out_file_name`: lines 397-401. It panics if the number of the frame overflows (without overflow checks
it would start again from zero). -/
def outFileName (N : Numbering) (frame : ℕ) : Except Fail (List Char) :=
  if 2 ^ 64 ≤ N.first + frame then .error .panic
  else .ok (N.stem ++ pad N.width (decimal (N.first + frame)))

/-- The name of the file that a frame is written to, for the output file that was asked for: lines 259-274
and 415-418. -/
def frameFile (output : List Char) (frame : ℕ) : Except Fail (List Char) :=
  match extension output with
  | none => .error .noExtension
  | some ext =>
    if ext = ['v', 't', 'u'] ∨ ext = ['v', 't', 'k'] then
      match numbering (fileStem output) with
      | .error e => .error e
      | .ok N =>
        match outFileName N frame with
        | .error e => .error e
        | .ok name => .ok (withExtension name ext)
    else .error .unsupported

end Softy.FrameFiles
