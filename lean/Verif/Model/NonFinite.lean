import Verif.Model.Distance
import Verif.Model.Centroid
import Verif.Model.RoundedSum
/-!
# Model of the kinematics for components that are infinite or nan

Components are exact real numbers, infinities or nan, with the conventions of IEEE 754 and C99 (`hypot`, `atan2`,
`copysign`).  Zeros have no sign; nan does have a sign bit, which `copysign` looks at and of which nothing is known: it
is a parameter.
-/
namespace Gcl
set_option autoImplicit false
open Real Classical

namespace Fl

/-- `+inf` or `-inf`.
Helper of `rapidityF` (graphicle/calculate.py:192-222). -/
def IsInf : Fl → Prop
  | .pinf => True
  | .ninf => True
  | _ => False

/-- `abs`.
Helper of `rapidityF`, `rootDiffF` (graphicle/calculate.py:214, 256). -/
noncomputable def abs : Fl → Fl
  | .fin x => .fin |x|
  | .nan => .nan
  | _ => .pinf

/-- C99 `hypot`, which numpy uses for the modulus of a complex number: infinite if an argument is, even if the other is
nan.  Helper of `P4F.pt`, `P4F.spatialMag` (graphicle/data.py:1492, 1500). -/
noncomputable def hypot : Fl → Fl → Fl
  | .fin x, .fin y => .fin (Real.sqrt (x ^ 2 + y ^ 2))
  | a, b => if a.IsInf ∨ b.IsInf then .pinf else .nan

/-- Division; a zero denominator is `+0`.
Helper of `P4F.eta` (graphicle/data.py:1537), `rapidityF` (graphicle/calculate.py:217). -/
noncomputable def div : Fl → Fl → Fl
  | a, .fin y => a.divR y
  | _, .nan => .nan
  | .fin _, _ => .fin 0
  | _, _ => .nan

/-- `np.sqrt`, `math.sqrt` of a number that is not negative.
Helper of `rootDiffF` (graphicle/calculate.py:258-259). -/
noncomputable def sqrt : Fl → Fl
  | .fin x => .fin (Real.sqrt x)
  | .pinf => .pinf
  | _ => .nan

/-- `math.copysign(a, s)`; `neg` is the sign bit of `s` if that is nan.  The sign of a nan that results is dropped.
Helper of `rapidityF`, `rootDiffF` (graphicle/calculate.py:220, 258). -/
noncomputable def copysign (neg : Bool) (a s : Fl) : Fl :=
  let minus : Bool := match s with
    | .fin x => decide (x < 0)
    | .pinf => false
    | .ninf => true
    | .nan => neg
  match a with
  | .fin x => .fin (if minus then -|x| else |x|)
  | .nan => .nan
  | _ => if minus then .ninf else .pinf

/-- `math.log` under numba.
Helper of `rapidityF` (graphicle/calculate.py:217). -/
noncomputable def log : Fl → Fl
  | .fin x => if 0 < x then .fin (Real.log x) else if x = 0 then .ninf else .nan
  | .pinf => .pinf
  | _ => .nan

/-- `np.arctanh`.
Helper of `P4F.eta` (graphicle/data.py:1537). -/
noncomputable def arctanh : Fl → Fl
  | .fin r => if r = 1 then .pinf else if r = -1 then .ninf else if -1 < r ∧ r < 1 then .fin (artanh r) else .nan
  | _ => .nan

/-- `np.arctan2(y, x)`.
Helper of `P4F.phi`, `P4F.theta` (graphicle/data.py:1560, 1577). -/
noncomputable def arctan2 : Fl → Fl → Fl
  | .nan, _ => .nan
  | _, .nan => .nan
  | .fin y, .fin x => .fin (Complex.arg ⟨x, y⟩)
  | .fin _, .pinf => .fin 0
  | .fin y, .ninf => .fin (if y < 0 then -π else π)
  | .pinf, .fin _ => .fin (π / 2)
  | .ninf, .fin _ => .fin (-(π / 2))
  | .pinf, .pinf => .fin (π / 4)
  | .pinf, .ninf => .fin (3 * π / 4)
  | .ninf, .pinf => .fin (-(π / 4))
  | .ninf, .ninf => .fin (-(3 * π / 4))

end Fl

/-- A record of a `MomentumArray` whose components may be infinite or nan (graphicle/data.py:1308-1345). -/
@[ext] structure P4F where
  x : Fl
  y : Fl
  z : Fl
  e : Fl

/-- `_rapidity` for one particle (graphicle/calculate.py:192-222); `neg` is the sign bit of a `pz` that is nan. -/
noncomputable def rapidityF (neg : Bool) (tol : ℝ) (e z : Fl) : Fl :=
  let za := z.abs
  let diff := e.sub za
  if (Fl.fin tol).lt diff.abs then
    Fl.copysign neg ((Fl.fin 0.5).mul ((e.addF za).div diff).log) z
  else Fl.copysign neg .pinf z

/-- `_root_diff_two_squares` (graphicle/calculate.py:224-260). -/
noncomputable def rootDiffF (neg : Bool) (x1 x2 : Fl) : Fl :=
  let x1' := x1.abs
  let x2' := x2.abs
  let diff := x1'.sub x2'
  (Fl.copysign neg diff.abs.sqrt diff).mul (x1'.addF x2').sqrt

namespace P4F

/-- A record without infinities and nan.
Helper of `P4F` (graphicle/data.py:1308-1345). -/
def of (p : P4) : P4F := ⟨.fin p.x, .fin p.y, .fin p.z, .fin p.e⟩

/-- `MomentumArray.pt` (graphicle/data.py:1522-1525). -/
noncomputable def pt (p : P4F) : Fl := Fl.hypot p.x p.y

/-- `MomentumArray._spatial_mag` (graphicle/data.py:1498-1500). -/
noncomputable def spatialMag (p : P4F) : Fl := Fl.hypot p.z p.pt

/-- `MomentumArray.eta` (graphicle/data.py:1527-1538). -/
noncomputable def eta (p : P4F) : Fl := (p.z.div p.spatialMag).arctanh

/-- `MomentumArray.rapidity` (graphicle/data.py:1540-1548). -/
noncomputable def rapidity (neg : Bool) (tol : ℝ) (p : P4F) : Fl := rapidityF neg tol p.e p.z

/-- `MomentumArray.phi` (graphicle/data.py:1550-1572): nan where `pt` is close to zero, which nan and infinity are
not. -/
noncomputable def phi (tol : ℝ) (p : P4F) : Fl :=
  if p.pt.IsClose (.fin 0) tol then .nan else Fl.arctan2 p.y p.x

/-- `MomentumArray.theta` (graphicle/data.py:1574-1577). -/
noncomputable def theta (p : P4F) : Fl := Fl.arctan2 p.pt p.z

/-- `MomentumArray.mass` (graphicle/data.py:1579-1584); `neg` is the sign bit of the difference if that is nan. -/
noncomputable def mass (neg : Bool) (p : P4F) : Fl := rootDiffF neg p.e p.spatialMag

/-- `MomentumArray.mass_t` (graphicle/data.py:1586-1595). -/
noncomputable def massT (neg : Bool) (p : P4F) : Fl := rootDiffF neg p.e p.z

/-- `MomentumArray.shift_rapidity` on one record (graphicle/data.py:1597-1621). -/
noncomputable def shiftRapidity (s : ℝ) (p : P4F) : P4F :=
  let c := Fl.fin (cosh (-s))
  let sh := Fl.fin (sinh (-s))
  { x := p.x, y := p.y, z := (c.mul p.z).sub (sh.mul p.e), e := (c.mul p.e).sub (sh.mul p.z) }

end P4F

/-- A record after `shift_eta(experimental=True)` (graphicle/data.py:1690-1694): the energy is nan. -/
def ExpRec.toP4F (r : ExpRec) : P4F := ⟨.fin r.x, .fin r.y, r.z, .nan⟩

/-- Summation of a column in the given order (graphicle/calculate.py:186); `none` as soon as infinities of both signs
meet, of which numpy warns. -/
noncomputable def SumTree.evalF (xs : List Fl) : SumTree → Option Fl
  | .leaf i => some (xs.getD i (.fin 0))
  | .node l r =>
    match l.evalF xs, r.evalF xs with
    | some a, some b => if a.IsInf ∧ b.IsInf ∧ a ≠ b then none else some (a.addF b)
    | _, _ => none

/-- `data.sum(axis=0)` of one column (graphicle/calculate.py:186). -/
noncomputable def sumF (t : SumTree) (xs : List Fl) : Option Fl :=
  match xs with
  | [] => some (.fin 0)
  | _ :: _ => t.evalF xs

/-- `np.sqrt`, its warning for a negative argument being answered with `0.0` (graphicle/calculate.py:186-188). -/
noncomputable def sqrtOrZero : Fl → Fl
  | .fin m2 => .fin (if m2 < 0 then 0 else √m2)
  | .pinf => .pinf
  | .ninf => .fin 0
  | .nan => .nan

/-- `combined_mass` (graphicle/calculate.py:180-189) without weights: any warning is answered with `0.0`; `t` is the
order of summation, and `blas` the answer if in the product with `minkowski` infinities of both signs meet. -/
noncomputable def combinedMassF (t : SumTree) (blas : Fl) (ps : List P4F) : Fl :=
  match sumF t (ps.map P4F.x), sumF t (ps.map P4F.y), sumF t (ps.map P4F.z), sumF t (ps.map P4F.e) with
  | some sx, some sy, some sz, some se =>
    if se.IsInf ∧ (sx.IsInf ∨ sy.IsInf ∨ sz.IsInf) then blas
    else
      sqrtOrZero ((((se.mul se).sub (sx.mul sx)).sub (sy.mul sy)).sub (sz.mul sz))
  | _, _, _, _ => .fin 0

end Gcl
