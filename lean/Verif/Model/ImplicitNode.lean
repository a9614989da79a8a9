import Verif.Model.FieldMesh

/-!
# The node for implicit surfaces

Model of `cook` of `implicits-hdk/src/api.rs` without the text of messages. Surfaces are those after `reverse_par`.
-/

noncomputable section

namespace Softy.ImplicitNode

open Softy

/-- `CookResult`. -/
inductive Result
  | success
  | warning
  | error
  deriving DecidableEq

/-- The attribute `potential` of the query points: missing, one number for each point, or of a type that cannot be
converted to numbers. -/
inductive Attr
  | missing
  | numbers (l : List ℝ)
  | other

/-- `ImplicitSurface` (`implicits/src/field.rs:238-244`), with the query of the points for a surface by moving least
squares, and the function for HRBF. -/
inductive Surface
  | mls (T : Field.Topo)
  | hrbf (eval : V3 ℝ → ℝ)

/-- `api.rs:70-80`: the values of the attribute, or zeros. -/
def initial (n : ℕ) : Attr → List ℝ
  | .numbers l => l
  | _ => List.replicate n 0

/-- `compute_hrbf_on_mesh` (`implicits/src/field.rs:923-995`), where the attribute has been removed from the mesh. -/
def hrbfLoop (eval : V3 ℝ → ℝ) (poll : ℕ → Bool) (order : List ℕ) (qs : List (V3 ℝ)) : List ℝ × Bool :=
  Field.parLoop (fun i old => (qs[i]?.map eval).getD old) poll 0 order (List.replicate qs.length 0)

/-- The action `ComputePotential` (`api.rs:56-104`) without debugging. `surface` is `none` if none can be built.
`overwrite` says if `insert_attrib_data` of crate `geo` replaces an attribute that exists or fails. The result is
`none` where an assertion fails. -/
def potential (overwrite : Bool) (surface : Option Surface) (poll : ℕ → Bool) (order : List ℕ) (qs : List (V3 ℝ))
    (attr : Attr) : Option (Result × Attr) :=
  match surface with
  | none => some (.error, attr)
  | some (.mls T) => (T.potentialPar poll order qs (initial qs.length attr)).map fun r => (.success, .numbers r.1)
  | some (.hrbf eval) =>
    some (if overwrite then (.success, .numbers (initial qs.length attr))
      else (.error, .numbers (hrbfLoop eval poll order qs).1))

/-- `convert_to_cookresult` (`api.rs:113-141`); `none` is an error. -/
def convert : Option Bool → Result
  | some true => .success
  | some false => .warning
  | none => .error

/-- The action `ComputePotential` in debug mode (`api.rs:57-64`) for moving least squares: `compute_potential_on_mesh`
(`implicits/src/field.rs:857-870`). -/
def debugMls (M : Field.MeshSurface) (rnd : ℝ → ℝ) (poll : ℕ → Bool) (order : List ℕ) (qs : List (V3 ℝ))
    (attr : Field.PotentialAttrib) : Result × List Field.MeshVertex :=
  let r := M.computeOnMesh rnd poll order qs attr
  (convert (if r.2 then some true else none), r.1)

/-- The same for HRBF, for points without an attribute. -/
def debugHrbf (eval : V3 ℝ → ℝ) (poll : ℕ → Bool) (order : List ℕ) (qs : List (V3 ℝ)) : Result × List ℝ :=
  let r := hrbfLoop eval poll order qs
  (convert (if r.2 then some true else none), r.1)

/-- The action `Project` (`api.rs:16-33` and 105-108). `below` and `above` are the projections of C75 with the
given value: the points, and if the projection says that it converged. -/
def project (surface : Bool) (projectBelow : Bool) (below above : List (V3 ℝ) → List (V3 ℝ) × Bool)
    (qs : List (V3 ℝ)) : Result × List (V3 ℝ) :=
  if surface then
    let r := if projectBelow then below qs else above qs
    (convert (some r.2), r.1)
  else (convert none, qs)

end Softy.ImplicitNode
