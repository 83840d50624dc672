import Verif.Model.EventShape
import Mathlib.MeasureTheory.Measure.Prod
import Mathlib.MeasureTheory.Measure.Lebesgue.Basic
/-!
# Model of the initial guess of `thrust` and `spherocity`: the law of the random numbers

The random number generator is taken to give independent uniform numbers (the contract of `rng.uniform`).
-/
namespace Gcl
set_option autoImplicit false
open Real MeasureTheory Set

/-- `rng.uniform(*domain)`: one angle, uniform in `[-π/2, π/2]` (graphicle/calculate.py:608-611, 781-784). -/
noncomputable def angleLaw : Measure ℝ := (ENNReal.ofReal π)⁻¹ • volume.restrict (Icc (-(π / 2)) (π / 2))

/-- The law of the axis of the initial guess: two independent such angles (`size=2`), azimuth and inclination
(graphicle/calculate.py:608-611, 781-784, with `_angles_to_axis`, 443-467). -/
noncomputable def guessLaw : Measure (ℝ × ℝ × ℝ) := (angleLaw.prod angleLaw).map (fun g => anglesToAxis g.1 g.2)

end Gcl
