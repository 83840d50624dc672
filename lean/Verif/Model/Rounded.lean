import Verif.Model.Momentum
/-!
# Model of the kinematic kernels with rounding

graphicle/calculate.py:192-260 and graphicle/data.py:1487-1595 once more, with every arithmetic operation a parameter,
so that theorems can range over all ways of rounding.  `Arith.exact` gives back the model of Model/Momentum.lean.

Simplification: results do not overflow or underflow (the operations return real numbers); comparisons, `abs`,
`copysign` and negation are exact, as they are in floating point.
-/
namespace Gcl
set_option autoImplicit false
open Real

/-- The arithmetic of the machine.
Helper of `_rapidity` and `_root_diff_two_squares` (graphicle/calculate.py:192-260). -/
structure Arith where
  add : ℝ → ℝ → ℝ
  sub : ℝ → ℝ → ℝ
  mul : ℝ → ℝ → ℝ
  div : ℝ → ℝ → ℝ
  sqrt : ℝ → ℝ
  log : ℝ → ℝ
  hypot : ℝ → ℝ → ℝ
  arctanh : ℝ → ℝ

/-- Exact arithmetic.
Helper of `_rapidity` and `_root_diff_two_squares` (graphicle/calculate.py:192-260). -/
noncomputable def Arith.exact : Arith where
  add x y := x + y
  sub x y := x - y
  mul x y := x * y
  div x y := x / y
  sqrt x := √x
  log x := Real.log x
  hypot x y := √(x ^ 2 + y ^ 2)
  arctanh x := artanh x

/-- `_root_diff_two_squares` (graphicle/calculate.py:224-260). -/
noncomputable def rootDiffTwoSquaresA (A : Arith) (x1 x2 : ℝ) : ℝ :=
  let x1' := |x1|
  let x2' := |x2|
  let diff := A.sub x1' x2'
  A.mul (copysign (A.sqrt |diff|) diff) (A.sqrt (A.add x1' x2'))

/-- `_rapidity` for one particle (graphicle/calculate.py:192-222). -/
noncomputable def rapidityOfA (A : Arith) (tol : ℝ) (e z : ℝ) : Fl :=
  let za := |z|
  let diff := A.sub e za
  if tol < |diff| then
    let q := A.div (A.add e za) diff
    if 0 < q then .fin (copysign (A.mul 0.5 (A.log q)) z)
    else if q = 0 then copysignInf z
    else .nan
  else copysignInf z

/-- `MomentumArray.pt` (graphicle/data.py:1487-1496, 1522-1525): the modulus of `x + iy`. -/
def P4.ptA (A : Arith) (p : P4) : ℝ := A.hypot p.x p.y

/-- `MomentumArray._spatial_mag` (graphicle/data.py:1498-1500): the modulus of `z + i pt`. -/
def P4.spatialMagA (A : Arith) (p : P4) : ℝ := A.hypot p.z (p.ptA A)

/-- `MomentumArray.mass` (graphicle/data.py:1579-1584). -/
noncomputable def P4.massA (A : Arith) (p : P4) : ℝ := rootDiffTwoSquaresA A p.e (p.spatialMagA A)

/-- `MomentumArray.mass_t` (graphicle/data.py:1586-1595). -/
noncomputable def P4.massTA (A : Arith) (p : P4) : ℝ := rootDiffTwoSquaresA A p.e p.z

/-- `MomentumArray.rapidity` (graphicle/data.py:1540-1548). -/
noncomputable def P4.rapidityA (A : Arith) (tol : ℝ) (p : P4) : Fl := rapidityOfA A tol p.e p.z

/-- `MomentumArray.eta` (graphicle/data.py:1527-1538). -/
noncomputable def P4.etaA (A : Arith) (p : P4) : Fl :=
  if p.spatialMagA A = 0 then .nan
  else
    let r := A.div p.z (p.spatialMagA A)
    if r = 1 then .pinf
    else if r = -1 then .ninf
    else if -1 < r ∧ r < 1 then .fin (A.arctanh r)
    else .nan

end Gcl
