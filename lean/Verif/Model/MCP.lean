import Mathlib.Data.EReal.Operations

/-!
# Model of the mixed complementarity wrapper

`softy/src/fem/nl/mcp.rs`. Problem values are reals; bounds are extended reals so that the
`±∞` bounds of `problem.rs` (`initial_bounds`) are representable. Vectors of length `n` are
functions on `Fin n` (`MCPSolver::newton` asserts `l.len() == u.len() == n`, lines 269-273).
NaN and rounding are not modelled.
-/

noncomputable section

namespace Softy.MCP

/-- `mcp.rs:131-140`, `MCP::residual`: `min(max(r, x - u), x - l)` in every component, where
`f` is the residual of the wrapped problem. -/
def residual {n : ℕ} (l u : Fin n → EReal) (x f : Fin n → ℝ) (i : Fin n) : EReal :=
  min (max (f i : EReal) ((x i : EReal) - u i)) ((x i : EReal) - l i)

/-- The test `r[i] <= x[i] - u || r[i] >= x[i] - l` (`mcp.rs:162`). -/
def Active (l u x r : EReal) : Prop := r ≤ x - u ∨ x - l ≤ r

open Classical in
/-- `mcp.rs:150-173`, `MCP::jacobian_values`: the loop over the triplets `(row, col, value)`
of the wrapped problem. `seen` is `workspace_seen`. Triplets with an index out of range are
skipped. -/
def jacobianValues {n : ℕ} (l u : Fin n → EReal) (x r : Fin n → EReal) :
    (Fin n → Bool) → List (ℕ × ℕ × ℝ) → List (ℕ × ℕ × ℝ)
  | _, [] => []
  | seen, (i, j, v) :: ts =>
    if h : i < n ∧ j < n then
      let ii : Fin n := ⟨i, h.1⟩
      if Active (l ii) (u ii) (x ii) (r ii) then
        if i = j ∧ seen ii = false then
          (i, j, 1) :: jacobianValues l u x r (Function.update seen ii true) ts
        else (i, j, 0) :: jacobianValues l u x r seen ts
      else (i, j, v) :: jacobianValues l u x r seen ts
    else (i, j, v) :: jacobianValues l u x r seen ts

/-- `mcp.rs:175-194`, `MCP::jacobian_product`; `jp` is the product computed by the wrapped
problem. -/
def jacobianProduct {n : ℕ} (l u : Fin n → EReal) (x r : Fin n → EReal) (jp : Fin n → ℝ)
    (i : Fin n) : EReal :=
  open Classical in
  if r i ≤ x i - u i then x i - u i
  else if x i - l i ≤ r i then x i - l i
  else (jp i : EReal)

end Softy.MCP
