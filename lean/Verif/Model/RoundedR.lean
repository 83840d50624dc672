import Verif.Model.Rounded
import Verif.Model.DeltaR
/-!
# Model of the distance kernels with rounding

graphicle/calculate.py:290-296, 327-333 once more, with every arithmetic operation a parameter.

Simplification: as in Model/Rounded.lean.  The complex product is computed by four multiplications, a subtraction and an
addition (what numba emits; a fused multiply-add would round less often).
-/
namespace Gcl
set_option autoImplicit false
open Real

/-- The arithmetic of the machine, with the arctangent of two arguments.
Helper of `_delta_R` (graphicle/calculate.py:290-296). -/
structure ArithR extends Arith where
  /-- `arctan2(y, x)` -/
  atan2 : ℝ → ℝ → ℝ

/-- Exact arithmetic.
Helper of `_delta_R` (graphicle/calculate.py:290-296). -/
noncomputable def ArithR.exact : ArithR where
  toArith := .exact
  atan2 y x := Complex.arg ⟨x, y⟩

/-- `xy_pol_1[i] * xy_pol_2[j].conjugate()` (graphicle/calculate.py:295, 332). -/
def mulConjA (A : ArithR) (w1 w2 : ℂ) : ℂ where
  re := A.sub (A.mul w1.re w2.re) (A.mul w1.im (-w2.im))
  im := A.add (A.mul w1.re (-w2.im)) (A.mul w1.im w2.re)

/-- `np.angle(xy_pol_1[i] * xy_pol_2[j].conjugate())` (graphicle/calculate.py:295, 332). -/
def dphiA (A : ArithR) (w1 w2 : ℂ) : ℝ := A.atan2 (mulConjA A w1 w2).im (mulConjA A w1 w2).re

/-- `rapidity_1[i] - rapidity_2[j]` (graphicle/calculate.py:292, 329). -/
noncomputable def subFlA (A : ArithR) : Fl → Fl → Fl
  | .fin a, .fin b => .fin (A.sub a b)
  | a, b => a.sub b

/-- One distance (graphicle/calculate.py:292-296, 329-333). -/
noncomputable def deltaRCellA (A : ArithR) (r1 r2 : Fl) (w1 w2 : ℂ) : Fl :=
  match subFlA A r1 r2 with
  | .nan => .fin (A.hypot 0 (dphiA A w1 w2))
  | .fin d => .fin (A.hypot d (dphiA A w1 w2))
  | .pinf => .pinf
  | .ninf => .pinf

/-- The distance of two particles by rapidity, `pseudo=False` (graphicle/data.py:1540-1548, 1785-1797). -/
noncomputable def rapDistA (A : ArithR) (tol : ℝ) (p q : P4) : Fl :=
  deltaRCellA A (p.rapidityA A.toArith tol) (q.rapidityA A.toArith tol) p.xyPol q.xyPol

/-- The distance of two particles by pseudorapidity (graphicle/data.py:1527-1538, 1785-1797). -/
noncomputable def etaDistA (A : ArithR) (p q : P4) : Fl :=
  deltaRCellA A (p.etaA A.toArith) (q.etaA A.toArith) p.xyPol q.xyPol

end Gcl
