import Mathlib.Analysis.InnerProductSpace.Basic

/-!
# Model of the iterative linear solvers

`softy/src/fem/nl/linsolve/bicgstab.rs` and `softy/src/fem/nl/linsolve/cr.rs` in exact arithmetic.
Vectors live in a real inner product space. A vector with a non-finite entry is `none`. It is
assumed that products with such a vector are again not finite, as they are for a matrix with an
entry. `A` is the operator applied by `matvec`, and `stop k` tells that the `k`-th call of `matvec`
in a solve asks to interrupt. The preconditioner may be any function, different at every call.
-/

noncomputable section

open scoped Classical
open scoped RealInnerProductSpace

namespace Softy.LinSolve

variable {V : Type*} [NormedAddCommGroup V] [InnerProductSpace ℝ V]

/-- `softy/src/fem/nl/linsolve.rs:9-23`, `Status`, without the status of an interrupted
preconditioner, which neither solver returns. -/
inductive Status where
  | success
  | maximumIterationsExceeded
  | interrupted
  | nanDetected
  | singularMatrix
deriving DecidableEq

/-- `softy/src/fem/nl/linsolve.rs:31-43`, `SolveResult`, with the final `x`. The relative
error is `residual` divided by the norm of the right-hand side and is left out. -/
structure Result (V : Type*) where
  status : Status
  iterations : ℕ
  residual : Option ℝ
  x : Option V

/-- `f64::EPSILON`. -/
def eps64 : ℝ := 2 ^ (-52 : ℤ)

/-! ## Conjugate residual -/

/-- State at the head of the loop `cr.rs:105-158`. -/
structure CrState (V : Type*) where
  x : V
  r : V
  p : V
  ap : V
  rar : ℝ
  iterations : ℕ

/-- The loop `cr.rs:105-158` when the vectors have non-finite entries: all comparisons of norms
fail, and only the iteration count or an interruption ends it. -/
def crPoisoned (stop : ℕ → Bool) (maxIter iterations : ℕ) : Result V :=
  if iterations + 1 ≥ maxIter then ⟨.maximumIterationsExceeded, iterations + 1, none, none⟩
  else if stop (iterations + 2) then ⟨.interrupted, iterations + 1, none, none⟩
  else crPoisoned stop maxIter (iterations + 1)
termination_by maxIter - iterations

/-- `cr.rs:105-158`, the loop. The call of `matvec` in iteration `k` (from zero) is number
`k + 2` of the solve. -/
def crLoop (A : V →ₗ[ℝ] V) (stop : ℕ → Bool) (b : V) (tol : ℝ) (maxIter : ℕ) (s : CrState V) :
    Result V :=
  if ⟪s.ap, s.ap⟫ = 0 then crPoisoned stop maxIter s.iterations
  else
    let alpha := s.rar / ⟪s.ap, s.ap⟫
    let x := s.x + alpha • s.p
    let r := s.r - alpha • s.ap
    let iterations := s.iterations + 1
    if ‖r‖ ^ 2 < tol * tol * ‖b‖ ^ 2 then ⟨.success, iterations, some ‖r‖, some x⟩
    else if iterations ≥ maxIter then ⟨.maximumIterationsExceeded, iterations, some ‖r‖, some x⟩
    else if stop (s.iterations + 2) then ⟨.interrupted, iterations, some ‖r‖, some x⟩
    else
      let ar := A r
      let rarNew := ⟪r, ar⟫
      if s.rar = 0 then crPoisoned stop maxIter iterations
      else
        let beta := rarNew / s.rar
        crLoop A stop b tol maxIter ⟨x, r, r + beta • s.p, ar + beta • s.ap, rarNew, iterations⟩
termination_by maxIter - s.iterations

/-- `cr.rs:46-159`, `solve`. -/
def crSolve (A : V →ₗ[ℝ] V) (stop : ℕ → Bool) (tol : ℝ) (maxIter : ℕ) (x b : V) : Result V :=
  if stop 0 then ⟨.interrupted, 0, some 0, some x⟩
  else
    let r := b - A x
    if ‖r‖ ^ 2 ≤ eps64 * eps64 then ⟨.success, 0, some ‖r‖, some x⟩
    else
      let ar := A r
      crLoop A stop b tol maxIter ⟨x, r, r, ar, ⟪r, ar⟫, 0⟩

/-! ## BiCGSTAB -/

/-- State at the head of the loop `bicgstab.rs:245-392`. `calls` counts the calls of `matvec`,
`precs` those of the preconditioner. `stale` is not part of the code: it records that the
restart at `bicgstab.rs:250-271` was the last one to overwrite `r`. -/
structure BiState (V : Type*) where
  x : V
  r : V
  r0s : V
  r0sNormSq : ℝ
  v : V
  p : V
  y : V
  rho : ℝ
  rNormSq : ℝ
  iterations : ℕ
  calls : ℕ
  precs : ℕ
  stale : Bool

/-- What a solve returns, and whether the residual it tracked was overwritten. -/
structure BiResult (V : Type*) extends Result V where
  stale : Bool

/-- `bicgstab.rs:250-271`: the restart when `v` is orthogonal to `r0s`; `none` if interrupted. The
line which would subtract the product from the right-hand side is commented out in the code, so
that `r` becomes `A x`. -/
def restartV (A : V →ₗ[ℝ] V) (stop : ℕ → Bool) (s : BiState V) : Option (BiState V × ℝ) :=
  if |⟪s.r0s, s.v⟫| ≤ eps64 * eps64 * s.r0sNormSq then
    if stop s.calls then none
    else some ({ s with
      r := A s.x
      r0s := s.v
      r0sNormSq := ‖s.v‖ ^ 2
      calls := s.calls + 1
      stale := true }, ‖s.v‖ ^ 2)
  else some (s, ⟪s.r0s, s.v⟫)

/-- `bicgstab.rs:209-241`, `reset_r0s`: the restart when `r` is orthogonal to `r0s`, with the new
`rho`; `none` if interrupted. -/
def resetR0s (A : V →ₗ[ℝ] V) (stop : ℕ → Bool) (b : V) (s : BiState V) : Option (BiState V × ℝ) :=
  if |⟪s.r0s, s.r⟫| ≤ eps64 * eps64 * s.r0sNormSq then
    if stop s.calls then none
    else
      let r := b - A s.x
      some ({ s with
        r := r
        r0s := r
        r0sNormSq := ‖r‖ ^ 2
        calls := s.calls + 1
        stale := false }, ‖r‖ ^ 2)
  else some (s, ⟪s.r0s, s.r⟫)

/-- `bicgstab.rs:245-392`, the loop. -/
def biLoop (A : V →ₗ[ℝ] V) (K : ℕ → V → V) (stop : ℕ → Bool) (b : V) (tolSq : ℝ) (maxIter : ℕ)
    (s : BiState V) : BiResult V :=
  match restartV A stop s with
  | none => ⟨⟨.interrupted, s.iterations, some (Real.sqrt s.rNormSq), some s.x⟩, s.stale⟩
  | some (s₁, r0sTv) =>
    if r0sTv = 0 then ⟨⟨.nanDetected, s.iterations, none, none⟩, s₁.stale⟩
    else
      let alpha := s.rho / r0sTv
      let sv := s₁.r - alpha • s.v
      if ‖sv‖ ^ 2 ≤ tolSq then
        ⟨⟨.success, s.iterations, some ‖sv‖, some (s.x + alpha • s.y)⟩, s₁.stale⟩
      else
        let z := K s.precs sv
        if stop s₁.calls then ⟨⟨.interrupted, s.iterations, some ‖sv‖, some s.x⟩, s₁.stale⟩
        else
          let t := A z
          if ⟪t, t⟫ > 0 then
            let w := ⟪sv, t⟫ / ⟪t, t⟫
            let x := s.x + alpha • s.y + w • z
            let r := sv - w • t
            if ‖r‖ ^ 2 ≤ tolSq then
              ⟨⟨.success, s.iterations, some ‖r‖, some x⟩, s₁.stale⟩
            else if h : s.iterations ≥ maxIter then
              ⟨⟨.maximumIterationsExceeded, s.iterations, some ‖r‖, some x⟩, s₁.stale⟩
            else
              let s₂ := { s₁ with x := x, r := r, rNormSq := ‖r‖ ^ 2, calls := s₁.calls + 1 }
              match resetR0s A stop b s₂ with
              | none => ⟨⟨.interrupted, s.iterations, some ‖r‖, some x⟩, s₁.stale⟩
              | some (s₃, rhoNew) =>
                if s.rho = 0 ∨ w = 0 then
                  if stop s₃.calls then
                    ⟨⟨.interrupted, s.iterations, some ‖r‖, some x⟩, s₃.stale⟩
                  else ⟨⟨.nanDetected, s.iterations + 1, none, none⟩, s₃.stale⟩
                else
                  let beta := (rhoNew / s.rho) * (alpha / w)
                  let p := s₃.r + beta • (s.p - w • s.v)
                  let y := K (s.precs + 1) p
                  if stop s₃.calls then
                    ⟨⟨.interrupted, s.iterations, some ‖r‖, some x⟩, s₃.stale⟩
                  else
                    biLoop A K stop b tolSq maxIter { s₃ with
                      v := A y
                      p := p
                      y := y
                      rho := rhoNew
                      iterations := s.iterations + 1
                      calls := s₃.calls + 1
                      precs := s.precs + 2 }
          else ⟨⟨.singularMatrix, s.iterations, some ‖sv‖, some s.x⟩, s₁.stale⟩
termination_by maxIter - s.iterations
decreasing_by
  have : ¬ s.iterations ≥ maxIter := h
  show maxIter - (s.iterations + 1) < maxIter - s.iterations
  omega

/-- `bicgstab.rs:100-394`, `solve_precond`. The return value of the second call of `matvec` is not
looked at. -/
def biSolve (A : V →ₗ[ℝ] V) (K : ℕ → V → V) (stop : ℕ → Bool) (tol : ℝ) (maxIter : ℕ) (x b : V) :
    BiResult V :=
  if ‖b‖ ^ 2 = 0 then ⟨⟨.success, 0, some 0, some 0⟩, false⟩
  else if stop 0 then ⟨⟨.interrupted, 0, some 0, some x⟩, false⟩
  else
    let r := b - A x
    let y := K 0 r
    biLoop A K stop b (‖b‖ ^ 2 * (tol * tol)) maxIter
      { x := x, r := r, r0s := r, r0sNormSq := ‖r‖ ^ 2, v := A y, p := r, y := y, rho := 1,
        rNormSq := ‖r‖ ^ 2, iterations := 1, calls := 2, precs := 1, stale := false }

end Softy.LinSolve
