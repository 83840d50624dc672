import Verif.Model.Momentum
/-!
# Model of `MomentumArray.shift_eta`
-/
namespace Gcl
set_option autoImplicit false
open Real

/-- IEEE addition of a finite number (`eta_mid + shift`, data.py:1691, 1696). -/
noncomputable def Fl.addR (a : Fl) (s : ℝ) : Fl :=
  match a with
  | .fin x => .fin (x + s)
  | .pinf => .pinf
  | .ninf => .ninf
  | .nan => .nan

/-- IEEE subtraction (`target - rap_mid`, data.py:1703; `rapidity_1[i] - rapidity_2[j]`,
calculate.py:292). -/
noncomputable def Fl.sub (a b : Fl) : Fl :=
  match a, b with
  | .fin x, .fin y => .fin (x - y)
  | .nan, _ => .nan
  | _, .nan => .nan
  | .pinf, .pinf => .nan
  | .ninf, .ninf => .nan
  | .pinf, _ => .pinf
  | .ninf, _ => .ninf
  | .fin _, .pinf => .ninf
  | .fin _, .ninf => .pinf

/-- `math.isclose(a, b, rel_tol=0.0, abs_tol=t)` (data.py:1699). -/
def Fl.IsClose (a b : Fl) (t : ℝ) : Prop :=
  match a, b with
  | .fin x, .fin y => |x - y| ≤ t
  | .pinf, .pinf => True
  | .ninf, .ninf => True
  | _, _ => False

/-- What `shift_eta` gives back: momenta and whether it warned; `nonFinite` when a correction is not a
real number, so that the momenta contain inf or nan (not modelled further).
Helper of `shiftEtaLoop` (graphicle/data.py:1698-1705). -/
inductive ShiftEtaOut where
  | done (pmu : List P4) (warned : Bool)
  | nonFinite

open Classical in
/-- The correction loop (data.py:1698-1705) with `n` iterations left, and the warning (1706-1710).
`tol` is `ZERO_TOL`, the tolerance inside `rapidity`. -/
noncomputable def shiftEtaLoop (tol absTol : ℝ) (target : Fl) : Nat → List P4 → Fl → ShiftEtaOut
  | 0, pmu, _ => .done pmu true
  | n + 1, pmu, etaMid =>
    if etaMid.IsClose target absTol then .done pmu false
    else
      match target.sub ((total pmu).rapidity tol) with
      | .fin c =>
        let pmu' := pmu.map (P4.shiftRapidity c)
        shiftEtaLoop tol absTol target n pmu' (total pmu').eta
      | _ => .nonFinite

/-- `shift_eta(shift, experimental=False, max_corrections, abs_tol)` (data.py:1623-1711).  A `shift`
array of other than one element makes `math.isclose` raise `TypeError`, a negative tolerance
`ValueError` - once the loop is entered. -/
noncomputable def shiftEta (tol : ℝ) (ps : List P4) (shift : ShiftArg) (maxCorrections : Int)
    (absTol : ℝ) : Py ShiftEtaOut :=
  let n := maxCorrections.toNat
  let run (s : ℝ) : Py ShiftEtaOut :=
    let etaMid := (total ps).eta
    if 0 < n ∧ absTol < 0 then .error .valueError
    else .ok (shiftEtaLoop tol absTol (etaMid.addR s) n ps etaMid)
  match shift with
  | .scalar s => run s
  | .array [s] => run s
  | .array _ => if 0 < n then .error .typeError else .ok (.done ps true)

/-- A record after the experimentalist's shift: the energy is nan, `pz` may be nan.
Helper of `shiftEtaExp` (graphicle/data.py:1690-1694). -/
structure ExpRec where
  x : ℝ
  y : ℝ
  z : Fl

/-- `shift_eta(shift, experimental=True)` on one record (data.py:1690-1694): `pz = pt sinh(eta + shift)`
(`0 * inf` is nan). -/
noncomputable def shiftEtaExp (s : ℝ) (p : P4) : ExpRec :=
  { x := p.x, y := p.y,
    z := match p.eta.addR s with
      | .fin h => .fin (p.pt * sinh h)
      | .pinf => if p.pt = 0 then .nan else .pinf
      | .ninf => if p.pt = 0 then .nan else .ninf
      | .nan => .nan }

/-- `shift_eta(shift, experimental=True)` (data.py:1690-1694). -/
noncomputable def shiftEtaExperimental (shift : ShiftArg) (ps : List P4) : Py (List ExpRec) :=
  applyShift shiftEtaExp shift ps

end Gcl
