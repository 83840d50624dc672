import Verif.Model.RoundedR
import Verif.Model.Select
/-!
# Model of `centroid_prune` with rounding

graphicle/select.py:985-998 once more, with every arithmetic operation a parameter, for a centre of two finite numbers
(passed by the user, or computed before by `resultant_coords`).

Simplification: as in Model/Rounded.lean and Model/RoundedR.lean.  The exponential of an imaginary number is a cosine and a
sine.
-/
namespace Gcl
set_option autoImplicit false
open Real

/-- The arithmetic of the machine, with cosine and sine.
Helper of `withinCentreA` (graphicle/select.py:992-994). -/
structure ArithP extends ArithR where
  cos : ℝ → ℝ
  sin : ℝ → ℝ

/-- Exact arithmetic.
Helper of `withinCentreA` (graphicle/select.py:992-994). -/
noncomputable def ArithP.exact : ArithP where
  toArithR := .exact
  cos := Real.cos
  sin := Real.sin

/-- `np.exp(complex(0, phi_mid))` (graphicle/select.py:992). -/
def expA (A : ArithP) (phi : ℝ) : ℂ := ⟨A.cos phi, A.sin phi⟩

/-- `dist < radius` for one particle (graphicle/select.py:993-994): false if the pseudorapidity is infinite or nan. -/
noncomputable def withinCentreA (A : ArithP) (radius eta0 phi0 : ℝ) (p : P4) : Bool :=
  match subFlA A.toArithR (p.etaA A.toArith) (.fin eta0) with
  | .fin d => decide (A.hypot d (dphiA A.toArithR p.xyPol (expA A phi0)) < radius)
  | .nan => false
  | .pinf => false
  | .ninf => false

/-- `centroid_prune` with a centre (graphicle/select.py:985-998). -/
noncomputable def centroidPruneA (A : ArithP) (pmu : List P4) (radius : ℝ) (mask : Option (List Bool)) (eta0 phi0 : ℝ) :
    Py (List Bool) :=
  match mask with
  | none => .ok (pmu.map (withinCentreA A radius eta0 phi0))
  | some m =>
    match (Key.mask m).apply pmu with
    | .error e => .error e
    | .ok sel => setMaskVals (List.replicate m.length false) m (sel.map (withinCentreA A radius eta0 phi0))

end Gcl
