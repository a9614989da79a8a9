/-!
# Model of `softy/src/mask_iter.rs`

Rust iterators are modelled by the list of the items they still have to yield.
`next` returns the produced item (if any) and the new iterator state.
-/

namespace Softy.MaskIter

/-- `softy/src/mask_iter.rs:7-11`, `FilterMaskedIterator { iter, mask }`. -/
structure FilterMasked (α : Type) where
  iter : List α
  mask : List Bool

/-- `softy/src/mask_iter.rs:21-33`, `FilterMaskedIterator::next`: the loop
`for (x, m) in iter.zip(mask) { if m { return Some(x) } } None`. `zip` pulls from
`iter` first and then from `mask`, so an item of `iter` is lost when the mask is
exhausted. -/
def FilterMasked.next {α : Type} : FilterMasked α → Option α × FilterMasked α
  | ⟨[], mask⟩ => (none, ⟨[], mask⟩)
  | ⟨_ :: xs, []⟩ => (none, ⟨xs, []⟩)
  | ⟨x :: xs, m :: ms⟩ =>
    if m then (some x, ⟨xs, ms⟩) else FilterMasked.next ⟨xs, ms⟩
  termination_by s => s.iter.length

/-- `softy/src/mask_iter.rs:54-59`, `DistributeIterator { iter, mask, default }`. -/
structure Distribute (α : Type) where
  iter : List α
  mask : List Bool
  default : α

/-- `softy/src/mask_iter.rs:70-84`, `DistributeIterator::next`. -/
def Distribute.next {α : Type} (s : Distribute α) : Option α × Distribute α :=
  match s.mask with
  | [] => (none, s)
  | m :: ms =>
    if m then
      match s.iter with
      | [] => (none, { s with mask := ms })
      | x :: xs => (some x, { s with iter := xs, mask := ms })
    else (some s.default, { s with mask := ms })

/-- Rust's `Iterator::collect`: call `next` until it returns `None`. The first
argument bounds the number of calls; `collectFilter`/`collectDistribute` below
supply one that is always large enough (each `next` consumes a mask entry). -/
def collectWith {σ α : Type} (next : σ → Option α × σ) : Nat → σ → List α
  | 0, _ => []
  | n + 1, s =>
    match next s with
    | (none, _) => []
    | (some x, s') => x :: collectWith next n s'

/-- `iter.filter_masked(mask).collect()`, `softy/src/mask_iter.rs:36-47`. -/
def filterMasked {α : Type} (xs : List α) (mask : List Bool) : List α :=
  collectWith FilterMasked.next (mask.length + 1) ⟨xs, mask⟩

/-- `iter.distribute(mask, def).collect()`, `softy/src/mask_iter.rs:87-100`. -/
def distribute {α : Type} (xs : List α) (mask : List Bool) (d : α) : List α :=
  collectWith Distribute.next (mask.length + 1) ⟨xs, mask, d⟩

end Softy.MaskIter
