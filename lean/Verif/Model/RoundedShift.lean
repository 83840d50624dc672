import Verif.Model.Rounded
/-!
# Model of `shift_phi` and `shift_rapidity` with rounding

graphicle/data.py:1597-1621, 1713-1740 once more, with every arithmetic operation a parameter.

Simplification: as in Model/Rounded.lean.  The complex product is computed by four multiplications, a subtraction and an
addition, and `np.exp` of an imaginary number gives its cosine and sine.
-/
namespace Gcl
set_option autoImplicit false
open Real

/-- The arithmetic of the machine, with the circular and hyperbolic functions.
Helper of `shift_phi` and `shift_rapidity` (graphicle/data.py:1597-1621, 1713-1740). -/
structure ArithS extends Arith where
  cos : ℝ → ℝ
  sin : ℝ → ℝ
  cosh : ℝ → ℝ
  sinh : ℝ → ℝ

/-- Exact arithmetic.
Helper of `shift_phi` and `shift_rapidity` (graphicle/data.py:1597-1621, 1713-1740). -/
noncomputable def ArithS.exact : ArithS where
  toArith := .exact
  cos := Real.cos
  sin := Real.sin
  cosh := Real.cosh
  sinh := Real.sinh

/-- `shift_phi` on one record (graphicle/data.py:1713-1740): `rot_op * self._xy_pol`. -/
def P4.shiftPhiA (A : ArithS) (s : ℝ) (p : P4) : P4 :=
  let c := A.cos s
  let d := A.sin s
  { x := A.sub (A.mul c p.x) (A.mul d p.y), y := A.add (A.mul c p.y) (A.mul d p.x), z := p.z, e := p.e }

/-- `shift_rapidity` on one record (graphicle/data.py:1597-1621). -/
def P4.shiftRapidityA (A : ArithS) (s : ℝ) (p : P4) : P4 :=
  let c := A.cosh (-s)
  let d := A.sinh (-s)
  { x := p.x, y := p.y, z := A.sub (A.mul c p.z) (A.mul d p.e), e := A.sub (A.mul c p.e) (A.mul d p.z) }

end Gcl
