import Mathlib.Analysis.SpecialFunctions.Artanh
import Mathlib.Analysis.SpecialFunctions.Complex.Arg
import Verif.Model.Basic
/-!
# Model of `MomentumArray` and the kinematic functions, in exact arithmetic

Floating-point rounding is not modelled: components are real numbers.  Where the code produces or
branches on non-finite values, results live in `Fl` (real, ±inf, nan).  Zeros have no sign here
(`copysign(x, -0.0)` is treated as `copysign(x, 0.0)`); signed zeros are modelled in `Model/SignedZero.lean`.
-/
namespace Gcl
set_option autoImplicit false
open Real

/-- A floating-point result in exact arithmetic: a real number, an infinity or nan.
Helper of `eta` (graphicle/data.py:1527-1538). -/
inductive Fl where
  | fin (x : ℝ)
  | pinf
  | ninf
  | nan

/-- One record of a `MomentumArray` (data.py:1308-1345): components `x, y, z, e`. -/
@[ext] structure P4 where
  x : ℝ
  y : ℝ
  z : ℝ
  e : ℝ

/-- `np.sum(pmu, axis=0)` (calculate.py:129, 428): componentwise sum of the records. -/
noncomputable def total (ps : List P4) : P4 :=
  ⟨(ps.map P4.x).sum, (ps.map P4.y).sum, (ps.map P4.z).sum, (ps.map P4.e).sum⟩

namespace P4

/-- `MomentumArray._xy_pol` (data.py:1482-1485): `x + iy`. -/
def xyPol (p : P4) : ℂ := ⟨p.x, p.y⟩

/-- `MomentumArray._zt_pol` (data.py:1487-1496): `z + i|x + iy|`. -/
noncomputable def ztPol (p : P4) : ℂ := ⟨p.z, ‖p.xyPol‖⟩

/-- `MomentumArray.pt` (data.py:1522-1525). -/
noncomputable def pt (p : P4) : ℝ := p.ztPol.im

/-- `MomentumArray._spatial_mag` (data.py:1498-1500). -/
noncomputable def spatialMag (p : P4) : ℝ := ‖p.ztPol‖

/-- `MomentumArray.eta` (data.py:1527-1538): `arctanh(z / |p|)` with numpy's conventions
(`0/0` is nan, `arctanh(±1)` is infinite, `arctanh` outside `[-1, 1]` is nan). -/
noncomputable def eta (p : P4) : Fl :=
  if p.spatialMag = 0 then .nan
  else
    let r := p.z / p.spatialMag
    if r = 1 then .pinf
    else if r = -1 then .ninf
    else if -1 < r ∧ r < 1 then .fin (artanh r)
    else .nan

end P4

/-- `math.copysign(x, s)` for a finite `x`.
Helper of `rapidityOf` (graphicle/calculate.py:192-222). -/
noncomputable def copysign (x s : ℝ) : ℝ := if s < 0 then -|x| else |x|

/-- `math.copysign(math.inf, s)`.
Helper of `rapidityOf` (graphicle/calculate.py:192-222). -/
noncomputable def copysignInf (s : ℝ) : Fl := if s < 0 then .ninf else .pinf

/-- `_rapidity` for one particle (calculate.py:192-222). Under numba `math.log` of zero is `-inf` and of
a negative number nan. -/
noncomputable def rapidityOf (tol : ℝ) (e z : ℝ) : Fl :=
  let za := |z|
  let diff := e - za
  if tol < |diff| then
    let q := (e + za) / diff
    if 0 < q then .fin (copysign (0.5 * log q) z)
    else if q = 0 then copysignInf z
    else .nan
  else copysignInf z

/-- `_root_diff_two_squares` (calculate.py:224-260). -/
noncomputable def rootDiffTwoSquares (x1 x2 : ℝ) : ℝ :=
  let x1' := |x1|
  let x2' := |x2|
  let diff := x1' - x2'
  copysign (sqrt |diff|) diff * sqrt (x1' + x2')

namespace P4

/-- `MomentumArray.rapidity` (data.py:1540-1548); `tol` is `ZERO_TOL` (data.py:98). -/
noncomputable def rapidity (tol : ℝ) (p : P4) : Fl := rapidityOf tol p.e p.z

/-- `MomentumArray.phi` (data.py:1550-1572): nan where `pt` is within `tol` of zero. -/
noncomputable def phi (tol : ℝ) (p : P4) : Fl :=
  if |p.pt| ≤ tol then .nan else .fin p.xyPol.arg

/-- `MomentumArray.theta` (data.py:1574-1577). -/
noncomputable def theta (p : P4) : ℝ := p.ztPol.arg

/-- `MomentumArray.mass` (data.py:1579-1584). -/
noncomputable def mass (p : P4) : ℝ := rootDiffTwoSquares p.e p.spatialMag

/-- `MomentumArray.mass_t` (data.py:1586-1595). -/
noncomputable def massT (p : P4) : ℝ := rootDiffTwoSquares p.e p.z

/-- `MomentumArray.shift_rapidity` on one record (data.py:1597-1621). -/
noncomputable def shiftRapidity (s : ℝ) (p : P4) : P4 :=
  let c := cosh (-s)
  let sh := sinh (-s)
  { x := p.x, y := p.y, z := c * p.z - sh * p.e, e := c * p.e - sh * p.z }

/-- `MomentumArray.shift_phi` on one record (data.py:1713-1740): `exp(i s)` times `x + iy`. -/
noncomputable def shiftPhi (s : ℝ) (p : P4) : P4 :=
  let w := Complex.exp (s * Complex.I) * p.xyPol
  { x := w.re, y := w.im, z := p.z, e := p.e }

end P4

/-- The `shift` argument: a scalar or an array.
Helper of `applyShift` (graphicle/data.py:1616-1621, 1733-1740). -/
inductive ShiftArg where
  | scalar (s : ℝ)
  | array (s : List ℝ)

/-- Elementwise application of a shift (data.py:1616-1621, 1733-1740): scalars and one-element arrays are
broadcast, other lengths raise `ValueError`. -/
def applyShift {α β : Type} (f : ℝ → α → β) (shift : ShiftArg) (ps : List α) : Py (List β) :=
  match shift with
  | .scalar s => .ok (ps.map (f s))
  | .array ss =>
    if ss.length = ps.length then .ok (List.zipWith f ss ps)
    else
      match ss with
      | [s] => .ok (ps.map (f s))
      | _ => .error .valueError

/-- `MomentumArray.shift_rapidity` (data.py:1597-1621). -/
noncomputable def shiftRapidity (shift : ShiftArg) (ps : List P4) : Py (List P4) :=
  applyShift P4.shiftRapidity shift ps

/-- `MomentumArray.shift_phi` (data.py:1713-1740). -/
noncomputable def shiftPhi (shift : ShiftArg) (ps : List P4) : Py (List P4) :=
  applyShift P4.shiftPhi shift ps

/-- `combined_mass` (calculate.py:135-189), without weights: square root of the Minkowski norm of the
sum; a negative argument makes `np.sqrt` warn, which is turned into `0.0`. -/
noncomputable def combinedMass (ps : List P4) : ℝ :=
  let t := total ps
  let m2 := t.x ^ 2 * (-1) + t.y ^ 2 * (-1) + t.z ^ 2 * (-1) + t.e ^ 2 * 1
  if m2 < 0 then 0 else sqrt m2

/-- `combined_mass` with one weight per particle and component (calculate.py:173-181; structured weights
are converted to the same thing).  A weight array of another length raises `ValueError`
(one row is broadcast). -/
noncomputable def combinedMassW (ps : List P4) (ws : List P4) : Py ℝ :=
  match bcast2 (fun (w p : P4) => (⟨w.x * p.x, w.y * p.y, w.z * p.z, w.e * p.e⟩ : P4)) ws ps with
  | .error e => .error e
  | .ok qs => .ok (combinedMass qs)

/-- `aggregate_momenta` (calculate.py:402-430): select with each mask, sum, collect. -/
noncomputable def aggregateMomenta (ps : List P4) : List (List Bool) → Py (List P4)
  | [] => .ok []
  | m :: ms =>
    match (Key.mask m).apply ps with
    | .error e => .error e
    | .ok sel =>
      match aggregateMomenta ps ms with
      | .error e => .error e
      | .ok rest => .ok (total sel :: rest)

end Gcl
