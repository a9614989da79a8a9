/-!
# Model of `remap_values` (`softy/src/constraints/mod.rs:61-111`)
-/

namespace Softy.Remap

/-- `softy/src/constraints/mod.rs:93-109`: the body of the closure for one `new_idx`.
The state is the remaining `(value, old_index)` items of the peekable iterator. -/
def remapOne {α : Type} (default : α) (newIdx : Nat) :
    List (α × Nat) → α × List (α × Nat)
  | [] => (default, [])
  | (v, oldIdx) :: rest =>
    if oldIdx < newIdx then remapOne default newIdx rest
    else if oldIdx = newIdx then (v, rest)
    else (default, (v, oldIdx) :: rest)

/-- `softy/src/constraints/mod.rs:92-110`: `new_indices.map(..)` threading the
iterator state through the closure. -/
def remapIter {α : Type} (default : α) : List Nat → List (α × Nat) → List α
  | [], _ => []
  | i :: is, st => (remapOne default i st).1 :: remapIter default is (remapOne default i st).2

/-- `softy/src/constraints/mod.rs:71-78,90`: `values.zip(old_indices)` is consumed by the
closure; `debug_assert`s on sortedness are not modelled. -/
def remapValues {α : Type} (values : List α) (default : α) (oldIndices newIndices : List Nat) :
    List α :=
  remapIter default newIndices (values.zip oldIndices)

end Softy.Remap
