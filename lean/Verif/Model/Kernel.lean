import Verif.Model.Vec
import Verif.Model.Mat

/-!
# Kernels of the implicit surfaces

Model of `implicits/src/kernel.rs`. Scalars are reals. The interpolating kernel is infinite at zero;
theorems about it exclude this distance.
-/

noncomputable section

namespace Softy.Kernel

open Softy

/-! ## Automatic differentiation -/

/-- The operations on scalars that the generic kernels use (`T: Scalar + Float`). -/
class Scal (T : Type) extends Add T, Sub T, Mul T, Div T where
  ofReal : ℝ → T
  val : T → ℝ

instance : Scal ℝ where
  ofReal a := a
  val a := a

/-- `autodiff::F`: a value and a derivative. -/
structure Dual (T : Type) where
  x : T
  dx : T

/-- The rules of differentiation of the crate `autodiff`; comparisons use the values. -/
instance {T : Type} [Scal T] : Scal (Dual T) where
  add a b := ⟨a.x + b.x, a.dx + b.dx⟩
  sub a b := ⟨a.x - b.x, a.dx - b.dx⟩
  mul a b := ⟨a.x * b.x, a.dx * b.x + a.x * b.dx⟩
  div a b := ⟨a.x / b.x, (a.dx * b.x - a.x * b.dx) / (b.x * b.x)⟩
  ofReal a := ⟨Scal.ofReal a, Scal.ofReal 0⟩
  val a := Scal.val a.x

/-- `F::var`. -/
def Dual.var {T : Type} [Scal T] (x : T) : Dual T := ⟨x, Scal.ofReal 1⟩

/-! ## One-dimensional kernels -/

/-- The kernels with their parameters: `GlobalInvDistance2` (lines 258-266), `LocalCubic` (287-295),
`LocalInterpolating` (339-351), `LocalSmooth` (383-392) and `LocalApproximate` (469-478). -/
inductive Kern where
  | global (epsilon : ℝ)
  | cubic (radius : ℝ)
  | interpolating (radius closest : ℝ)
  | smooth (radius tolerance : ℝ)
  | approximate (radius tolerance : ℝ)

section Generic

variable {T : Type} [Scal T]

/-- `T::from(a).unwrap()`. -/
abbrev lit (a : ℝ) : T := Scal.ofReal a

/-- `GlobalInvDistance2::f`: lines 269-273. -/
def globalF (eps : ℝ) (x : T) : T :=
  let w := (lit 1) / (x * x + (lit eps) * (lit eps))
  w * w

open Classical in
/-- `LocalCubic::f`: lines 298-308. -/
def cubicF (r : ℝ) (x : T) : T :=
  if Scal.val x > r then lit 0
  else (lit 1) - (lit 3) * x * x / ((lit r) * (lit r)) + (lit 2) * x * x * x / ((lit r) * (lit r) * (lit r))

open Classical in
/-- `LocalInterpolating::f`: lines 354-366. -/
def interpolatingF (r xc : ℝ) (x : T) : T :=
  if Scal.val x > r then lit 0
  else
    let envelope := cubicF r x
    let s := x / (lit r)
    let sc := (lit xc) / (lit r)
    envelope * sc * sc * ((lit 1) / (s * s) - (lit 1))

/-- `GlobalInvDistance2::df`: lines 275-277. -/
def globalDf (eps : ℝ) (x : T) : T := (globalF eps (Dual.var x)).dx

/-- `LocalInterpolating::df`: lines 367-369. -/
def interpolatingDf (r xc : ℝ) (x : T) : T := (interpolatingF r xc (Dual.var x)).dx

end Generic

open Classical in
/-- `LocalCubic::df`: lines 309-319. -/
def cubicDf (r x : ℝ) : ℝ :=
  if x > r then 0 else 6 * (x * x / (r * r * r) - x / (r * r))

open Classical in
/-- `LocalCubic::ddf`: lines 321-332. -/
def cubicDdf (r x : ℝ) : ℝ :=
  if x > r then 0 else 12 * x / (r * r * r) - 6 / (r * r)

open Classical in
/-- `LocalSmooth::f`: lines 395-412. -/
def smoothF (r t x : ℝ) : ℝ :=
  if x > r then 0
  else
    let d := x / r
    let d2 := d * d
    let d3 := d2 * d
    t * (2 * d3 - 3 * d2 + 1) / (t + d2)

open Classical in
/-- `LocalSmooth::df`: lines 413-432. -/
def smoothDf (r t x : ℝ) : ℝ :=
  if x > r then 0
  else
    let d := x / r
    let d2 := d * d
    let d3 := d2 * d
    let d4 := d3 * d
    2 * t * d * (3 * t * d - 3 * t + d3 - 1) / (r * (t * t + 2 * t * d2 + d4))

open Classical in
/-- `LocalSmooth::ddf`: lines 434-463. -/
def smoothDdf (r t x : ℝ) : ℝ :=
  if x > r then 0
  else
    let d := x / r
    let d2 := d * d
    let d3 := d2 * d
    let d4 := d3 * d
    let d6 := d3 * d3
    let t2 := t * t
    let t3 := t2 * t
    2 * t * (6 * t2 * d - 3 * t2 - 2 * t * d3 + 9 * t * d2 - t + 3 * d2)
      / (r * r * (t3 + 3 * t2 * d2 + 3 * t * d4 + d6))

open Classical in
/-- `LocalApproximate::f`: lines 481-498. -/
def approximateF (r eps x : ℝ) : ℝ :=
  if x > r then 0
  else
    let d := x / r
    let ddeps := 1 / (d * d + eps)
    let eps1 := 1 + eps
    let eps1_2 := eps1 * eps1
    let factor := eps * eps * eps1_2 / (1 + 2 * eps)
    factor * (ddeps * ddeps - 1 / eps1_2)

open Classical in
/-- `LocalApproximate::df`: lines 499-517. -/
def approximateDf (r eps x : ℝ) : ℝ :=
  if x > r then 0
  else
    let d := x / r
    let eps1 := 1 + eps
    let eps1_2 := eps1 * eps1
    let factor := eps * eps * eps1_2 / (1 + 2 * eps)
    let d2_eps := d * d + eps;
    -factor * 4 * d / (r * d2_eps * d2_eps * d2_eps)

open Classical in
/-- `LocalApproximate::ddf`: lines 519-539. -/
def approximateDdf (r eps x : ℝ) : ℝ :=
  if x > r then 0
  else
    let d := x / r
    let eps1 := 1 + eps
    let eps1_2 := eps1 * eps1
    let factor := eps * eps * eps1_2 / (1 + 2 * eps)
    let d2_eps := d * d + eps
    let d2_eps4 := d2_eps * d2_eps * d2_eps * d2_eps
    factor * 4 * (6 * d * d - d2_eps) / (d2_eps4 * r * r)

namespace Kern

/-- `Kernel::f`. -/
def f : Kern → ℝ → ℝ
  | global eps, x => globalF eps x
  | cubic r, x => cubicF r x
  | interpolating r xc, x => interpolatingF r xc x
  | smooth r t, x => smoothF r t x
  | approximate r eps, x => approximateF r eps x

/-- `Kernel::df`. -/
def df : Kern → ℝ → ℝ
  | global eps, x => globalDf eps x
  | cubic r, x => cubicDf r x
  | interpolating r xc, x => interpolatingDf r xc x
  | smooth r t, x => smoothDf r t x
  | approximate r eps, x => approximateDf r eps x

/-- `Kernel::ddf`; of `GlobalInvDistance2`, lines 279-281, and `LocalInterpolating`, lines 371-373, by
automatic differentiation. -/
def ddf : Kern → ℝ → ℝ
  | global eps, x => (globalDf eps (Dual.var x)).dx
  | cubic r, x => cubicDdf r x
  | interpolating r xc, x => (interpolatingDf r xc (Dual.var x)).dx
  | smooth r t, x => smoothDdf r t x
  | approximate r eps, x => approximateDdf r eps x

/-- `SphericalKernel::radius`: lines 639-673. The radius of the global kernel is infinite (`none`). -/
def radius : Kern → Option ℝ
  | global _ => none
  | cubic r => some r
  | interpolating r _ => some r
  | smooth r _ => some r
  | approximate r _ => some r

/-- `with_closest_dist`: lines 599-633. -/
def withClosest : Kern → ℝ → Kern
  | interpolating r _, d => interpolating r d
  | k, _ => k

/-! ## Radial kernels -/

/-- `eval`: lines 545-548. -/
def eval (k : Kern) (x p : V3 ℝ) : ℝ := k.f (x - p).norm

open Classical in
/-- `grad`: lines 551-560. -/
def grad (k : Kern) (x p : V3 ℝ) : V3 ℝ :=
  let diff := x - p
  let norm := diff.norm
  if norm > 0 then (k.df norm / norm) • diff else 0

open Classical in
/-- `hess`: lines 563-576. -/
def hess (k : Kern) (x p : V3 ℝ) : M3 ℝ :=
  let diff := x - p
  let norm := diff.norm
  if norm > 0 then
    let normInv := 1 / norm
    let normInv2 := normInv * normInv
    let projDiff := normInv2 • M3.outer diff diff
    (k.df norm * normInv) • (M3.diag 1 - projDiff) + k.ddf norm • projDiff
  else 0

end Kern

/-! ## The normal kernel -/

/-- `NormalKernel::eval`: lines 691-698. -/
def normalEval (unitNml gradPhi : V3 ℝ) : ℝ :=
  let w := 0.5 * (1 + V3.dot unitNml gradPhi)
  w * w

/-- `NormalKernel::grad`: lines 702-708. -/
def normalGrad (unitNml gradPhi : V3 ℝ) (unitNmlGrad jacGradPhiT : M3 ℝ) : V3 ℝ :=
  let w := 0.5 * (1 + V3.dot unitNml gradPhi)
  w • (M3.mulVec jacGradPhiT unitNml + M3.mulVec unitNmlGrad gradPhi)

end Softy.Kernel
