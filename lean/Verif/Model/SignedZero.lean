import Verif.Model.DeltaR
/-!
# Model of the kinematics with signed zeros

Floating-point numbers have two zeros, and `copysign` and `arctan2` tell them apart.  Here a component is a real number
together with the sign bit, which counts only if the number is zero.  The signs of results follow IEEE 754; values are
exact, so there is no underflow.
-/
namespace Gcl
set_option autoImplicit false
open Real

/-- A finite floating-point number: its value, and the sign bit, which is only looked at if the value is zero.
Helper of `deltaRCellS` (graphicle/calculate.py:292-296, 329-333). -/
structure Sg where
  val : ℝ
  bit : Bool

namespace Sg

/-- The sign bit is set (IEEE 754 `signbit`).
Helper of `copysignInfS` (graphicle/calculate.py:192-222). -/
def IsNeg (a : Sg) : Prop := a.val < 0 ∨ (a.val = 0 ∧ a.bit = true)

open Classical in
/-- IEEE 754 multiplication: the signs multiply.
Helper of `SgC.mul` (graphicle/calculate.py:295, 332). -/
noncomputable def mul (a b : Sg) : Sg := ⟨a.val * b.val, decide (¬ (a.IsNeg ↔ b.IsNeg))⟩

open Classical in
/-- IEEE 754 addition, rounding to nearest: a zero result is negative only if both operands are negative zeros.
Helper of `SgC.mul` (graphicle/calculate.py:295, 332). -/
noncomputable def add (a b : Sg) : Sg := ⟨a.val + b.val, decide (a.IsNeg ∧ b.IsNeg)⟩

/-- `-a`, which flips the sign of zero.
Helper of `SgC.conj` (graphicle/calculate.py:295, 332). -/
def neg (a : Sg) : Sg := ⟨-a.val, !a.bit⟩

/-- `a - b`, which is `a + (-b)`.
Helper of `SgC.mul` (graphicle/calculate.py:295, 332). -/
noncomputable def sub (a b : Sg) : Sg := a.add b.neg

end Sg

/-- A complex number with signed components: an entry of `_xy_pol` (graphicle/data.py:1482-1485). -/
structure SgC where
  re : Sg
  im : Sg

namespace SgC

/-- The complex number without the signs of its zeros.
Helper of `deltaRCellS` (graphicle/calculate.py:292-296, 329-333). -/
def val (w : SgC) : ℂ := ⟨w.re.val, w.im.val⟩

/-- `w.conjugate()` (graphicle/calculate.py:295, 332). -/
def conj (w : SgC) : SgC := ⟨w.re, w.im.neg⟩

/-- The product of complex numbers, `(a + ib)(c + id) = (ac - bd) + i(ad + bc)`, as numba and numpy compute it
(graphicle/calculate.py:295, 332; graphicle/data.py:1737). -/
noncomputable def mul (v w : SgC) : SgC :=
  ⟨(v.re.mul w.re).sub (v.im.mul w.im), (v.re.mul w.im).add (v.im.mul w.re)⟩

open Classical in
/-- `np.angle(w)`, which is `arctan2(w.imag, w.real)` (graphicle/calculate.py:295, 332; graphicle/data.py:1560, 1577):
for an imaginary part `±0` it is `±0`, or `±π` if the sign bit of the real part is set. -/
noncomputable def angle (w : SgC) : ℝ :=
  if w.im.val = 0 then
    if w.re.IsNeg then (if w.im.IsNeg then -π else π) else 0
  else w.val.arg

end SgC

/-- One distance (graphicle/calculate.py:292-296, 329-333). -/
noncomputable def deltaRCellS (r1 r2 : Fl) (w1 w2 : SgC) : Fl :=
  hypotFl (r1.sub r2) (w1.mul w2.conj).angle

/-- One record of a `MomentumArray` (graphicle/data.py:1308-1345), with the signs of zeros. -/
structure P4S where
  x : Sg
  y : Sg
  z : Sg
  e : Sg

open Classical in
/-- `math.copysign(math.inf, s)`.
Helper of `P4S.rapidity` (graphicle/calculate.py:192-222). -/
noncomputable def copysignInfS (s : Sg) : Fl := if s.IsNeg then .ninf else .pinf

open Classical in
/-- `math.copysign(x, s)` (the sign of a zero result is not kept).
Helper of `P4S.rapidity` (graphicle/calculate.py:192-222). -/
noncomputable def copysignS (x : ℝ) (s : Sg) : ℝ := if s.IsNeg then -|x| else |x|

namespace P4S

/-- The record without the signs of its zeros.
Helper of `P4S.eta` (graphicle/data.py:1527-1538). -/
def vals (p : P4S) : P4 := ⟨p.x.val, p.y.val, p.z.val, p.e.val⟩

/-- `MomentumArray._xy_pol` (graphicle/data.py:1482-1485). -/
def xyPol (p : P4S) : SgC := ⟨p.x, p.y⟩

/-- `MomentumArray._zt_pol` (graphicle/data.py:1487-1496): the imaginary part is an absolute value, so never `-0`. -/
noncomputable def ztPol (p : P4S) : SgC := ⟨p.z, ⟨p.vals.pt, false⟩⟩

/-- `MomentumArray.phi` (graphicle/data.py:1550-1572). -/
noncomputable def phi (tol : ℝ) (p : P4S) : Fl :=
  if |p.vals.pt| ≤ tol then .nan else .fin p.xyPol.angle

/-- `MomentumArray.theta` (graphicle/data.py:1574-1577). -/
noncomputable def theta (p : P4S) : ℝ := p.ztPol.angle

/-- `MomentumArray.eta` (graphicle/data.py:1527-1538): `arctanh(±0)` is `±0` and `±0/0` is nan, so the signs of zeros
have no effect but on the sign of a zero. -/
noncomputable def eta (p : P4S) : Fl := p.vals.eta

/-- `MomentumArray.rapidity` (graphicle/data.py:1540-1548 and calculate.py:192-222). -/
noncomputable def rapidity (tol : ℝ) (p : P4S) : Fl :=
  let za := |p.z.val|
  let diff := p.e.val - za
  if tol < |diff| then
    let q := (p.e.val + za) / diff
    if 0 < q then .fin (copysignS (0.5 * log q) p.z)
    else if q = 0 then copysignInfS p.z
    else .nan
  else copysignInfS p.z

/-- The multiplier `exp(1j * shift)` of `shift_phi` (graphicle/data.py:1733-1736).  A vanishing sine has the sign of the
shift; a vanishing cosine, which no floating-point shift has, is taken as `+0`. -/
noncomputable def rotOp (s : Sg) : SgC := ⟨⟨cos s.val, false⟩, ⟨sin s.val, s.bit⟩⟩

/-- `MomentumArray.shift_phi` on one record (graphicle/data.py:1713-1740). -/
noncomputable def shiftPhi (s : Sg) (p : P4S) : P4S :=
  let w := (rotOp s).mul p.xyPol
  { x := w.re, y := w.im, z := p.z, e := p.e }

/-- One entry of `delta_R` (graphicle/data.py:1785-1797). -/
noncomputable def deltaR (pseudo : Bool) (tol : ℝ) (p q : P4S) : Fl :=
  if pseudo then deltaRCellS p.eta q.eta p.xyPol q.xyPol
  else deltaRCellS (p.rapidity tol) (q.rapidity tol) p.xyPol q.xyPol

end P4S

end Gcl
