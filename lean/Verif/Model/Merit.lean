import Verif.Model.ContactSetup
import Verif.Model.Precond

/-!
# The choice of the merit function of the line search

Model of `use_obj_merit` (`softy/src/fem/nl/problem.rs:2805-2814`) on the contacts that a user registers
(`softy/src/fem/nl/solver/builder.rs:80-112`). What a contact needs besides friction is in `ContactSetup.lean`.
-/

noncomputable section

namespace Softy.Merit

open Softy

/-- What `use_obj_merit` reads of a contact: the coefficients and `lagged` of `FrictionParams`
(`softy/src/constraints/penalty_point_contact.rs:1443-1462`). -/
structure Contact where
  friction : Setup.FrictionParams
  lagged : Bool

open Classical in
/-- `add_frictional_contact_with_fixed` (`builder.rs:100-112`). `dynamic` says if there is a time step. -/
def register (dynamic : Bool) (l : List Contact) (c : Contact) : List Contact :=
  if c.friction.IsNone ∨ dynamic then l ++ [c] else l

/-- The contacts of a problem, for the calls of a user in order. -/
def contacts (dynamic : Bool) (calls : List Contact) : List Contact := calls.foldl (register dynamic) []

open Classical in
/-- `use_obj_merit` (`problem.rs:2805-2814`). `project` is `project_element_hessians`. -/
def useObjMerit (project : Bool) (l : List Contact) : Bool :=
  (l.all fun c => if ¬ c.friction.IsNone then c.lagged else true) && project

/-- The merit of a point with scaled residual `r` in a problem with these contacts (`newton.rs:931-945`). -/
def merit {n nnz : ℕ} (R : Precond.Raw n nnz) (project dynamic : Bool) (calls : List Contact) (precond : Fin n → ℝ)
    (iterative : Bool) (tol : Precond.Tol) (eps : List ℝ) (x r : Fin n → ℝ) : Option ℝ :=
  (Precond.scaled { R with objMerit := useObjMerit project (contacts dynamic calls) } precond iterative tol).merit eps x r

end Softy.Merit
