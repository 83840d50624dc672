import Mathlib.Analysis.SpecialFunctions.Pow.Real
import Verif.Model.DeltaR
/-!
# Model of `delta_R_aff`, `parton_hadron_distance` and `np.argmin` over floating point numbers

graphicle/matrix.py:192-259; `np.argmin` as used in graphicle/select.py:418.  Exact arithmetic, with nan and the
infinities; `pt_exp` is a finite number.
-/
namespace Gcl
set_option autoImplicit false
open Real Classical

/-- IEEE multiplication.
Helper of `partonHadronEntry` (graphicle/matrix.py:258-259). -/
noncomputable def Fl.mul (a b : Fl) : Fl :=
  match a, b with
  | .fin x, .fin y => .fin (x * y)
  | .nan, _ => .nan
  | _, .nan => .nan
  | .pinf, .pinf => .pinf
  | .pinf, .ninf => .ninf
  | .ninf, .pinf => .ninf
  | .ninf, .ninf => .pinf
  | .fin x, .pinf => if x = 0 then .nan else if 0 < x then .pinf else .ninf
  | .fin x, .ninf => if x = 0 then .nan else if 0 < x then .ninf else .pinf
  | .pinf, .fin y => if y = 0 then .nan else if 0 < y then .pinf else .ninf
  | .ninf, .fin y => if y = 0 then .nan else if 0 < y then .ninf else .pinf

/-- `np.power(pt, pt_exp)` for `pt ≥ 0` (graphicle/matrix.py:258). -/
noncomputable def ptWeight (pt ptExp : ℝ) : Fl :=
  if pt = 0 ∧ ptExp < 0 then .pinf else .fin (pt ^ ptExp)

/-- Iterations of the loop run by `delta_R_aff(pmu)` (graphicle/matrix.py:192-216): `pmu.delta_R(pmu)`. -/
noncomputable def deltaRAffLoop (ps : List P4) : List (List Write) :=
  deltaRLoop true (cloudOf true 0 ps) (cloudOf true 0 ps)

/-- Iterations of the loop run by `parton_pmu.delta_R(hadron_pmu)` (graphicle/matrix.py:257); the two arrays are
distinct objects. -/
noncomputable def partonHadronLoop (partons hadrons : List P4) : List (List Write) :=
  deltaRLoop false (cloudOf true 0 partons) (cloudOf true 0 hadrons)

/-- `pt_weight[:, np.newaxis] * dR` (graphicle/matrix.py:258-259): the entry in row `i` and column `j`, for the
matrix `dR` left in memory by the loop. -/
noncomputable def partonHadronEntry (partons : List P4) (ptExp : ℝ) (dR : Nat × Nat → Fl) (i j : Nat) : Fl :=
  match partons[i]? with
  | some p => (ptWeight p.pt ptExp).mul (dR (i, j))
  | none => .nan

/-- One entry of `parton_hadron_distance` (graphicle/matrix.py:219-259) as a function of the two momenta, the `dist`
with which `partition_descendants` works (graphicle/select.py:457); `C96_entries` relates it to the matrix. -/
noncomputable def weightedDist (ptExp : ℝ) (p h : P4) : Fl :=
  (ptWeight p.pt ptExp).mul (deltaRCell p.eta h.eta p.xyPol h.xyPol)

/-- IEEE `a < b`.
Helper of `the distance comparison` (graphicle/matrix.py:258-259). -/
def Fl.lt : Fl → Fl → Prop
  | .fin x, .fin y => x < y
  | .fin _, .pinf => True
  | .ninf, .fin _ => True
  | .ninf, .pinf => True
  | _, _ => False

/-- The loop of `np.argmin` over doubles, `best` having been found at position `bi`: it stops at the first nan, which
counts as the minimum.
Helper of `np.argmin` (graphicle/select.py:418). -/
noncomputable def npArgminFrom (best : Fl) (bi k : Nat) : List Fl → Nat
  | [] => bi
  | x :: xs =>
    if best = .nan then bi
    else if x = .nan ∨ x.lt best then npArgminFrom x k (k + 1) xs
    else npArgminFrom best bi (k + 1) xs

/-- `np.argmin` of a 1-D array of doubles.
Helper of `np.argmin` (graphicle/select.py:418). -/
noncomputable def npArgmin : List Fl → Py Nat
  | [] => .error .valueError
  | x :: xs => .ok (npArgminFrom x 0 1 xs)

end Gcl
