import Verif.Model.Momentum
/-!
# Model of `weighted_centroid` and `resultant_coords` (calculate.py:45-133)

Exact arithmetic with IEEE conventions for infinities and nan.
-/
namespace Gcl
set_option autoImplicit false
open Real

/-- `a * x` of a floating-point value with a finite one.
Helper of `weightedCentroid` (graphicle/calculate.py:45-87). -/
noncomputable def Fl.mulR : Fl → ℝ → Fl
  | .fin a, x => .fin (a * x)
  | .nan, _ => .nan
  | .pinf, x => if x = 0 then .nan else if 0 < x then .pinf else .ninf
  | .ninf, x => if x = 0 then .nan else if 0 < x then .ninf else .pinf

/-- `a / x` of a floating-point value with a finite one (numpy: no exception for zero).
Helper of `weightedCentroid` (graphicle/calculate.py:45-87). -/
noncomputable def Fl.divR : Fl → ℝ → Fl
  | .nan, _ => .nan
  | .fin a, x =>
    if x = 0 then (if a = 0 then .nan else if 0 < a then .pinf else .ninf) else .fin (a / x)
  | .pinf, x => if x < 0 then .ninf else .pinf
  | .ninf, x => if x < 0 then .pinf else .ninf

/-- `a + b`.
Helper of `flSum` (graphicle/calculate.py:45-87). -/
noncomputable def Fl.addF : Fl → Fl → Fl
  | .fin a, .fin b => .fin (a + b)
  | .nan, _ => .nan
  | _, .nan => .nan
  | .pinf, .ninf => .nan
  | .ninf, .pinf => .nan
  | .pinf, _ => .pinf
  | .ninf, _ => .ninf
  | .fin _, .pinf => .pinf
  | .fin _, .ninf => .ninf

/-- `.sum()` of an array.
Helper of `weightedCentroid` (graphicle/calculate.py:45-87). -/
noncomputable def flSum : List Fl → Fl
  | [] => .fin 0
  | a :: as => a.addF (flSum as)

/-- `cmath.phase(cmath.rect(1, t))` (calculate.py:86): nan passes through, an infinite angle is a
`ValueError` of `cmath.rect`. -/
noncomputable def phaseRect : Fl → Py Fl
  | .fin t => .ok (.fin (Complex.arg ⟨cos t, sin t⟩))
  | .nan => .ok .nan
  | .pinf => .error .valueError
  | .ninf => .error .valueError

/-- `weighted_centroid` (calculate.py:45-87). -/
noncomputable def weightedCentroid (tol : ℝ) (ps : List P4) (pseudo : Bool) : Py (Fl × Fl) :=
  let ptSum := (ps.map P4.pt).sum
  let rap (p : P4) : Fl := if pseudo then p.eta else p.rapidity tol
  let rapMid := (flSum (ps.map (fun p => (rap p).mulR p.pt))).divR ptSum
  let phiMidUnbound := (flSum (ps.map (fun p => (p.phi tol).mulR p.pt))).divR ptSum
  match phaseRect phiMidUnbound with
  | .error e => .error e
  | .ok phiMid => .ok (rapMid, phiMid)

/-- `resultant_coords` (calculate.py:90-133). -/
noncomputable def resultantCoords (tol : ℝ) (ps : List P4) (pseudo : Bool) : Fl × Fl :=
  let pmuSum := total ps
  (if pseudo then pmuSum.eta else pmuSum.rapidity tol, pmuSum.phi tol)

end Gcl
