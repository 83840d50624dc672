import Verif.Props.RoundedR
import Verif.Model.RoundedPrune
/-! # Specification vocabulary for `centroid_prune` with rounding -/
namespace Gcl.Spec
set_option autoImplicit false
open Gcl Real

/-- Every operation has a relative error of at most `u`, cosine and sine included. -/
structure AccurateP (u : ℝ) (A : ArithP) : Prop extends AccurateR u A.toArithR where
  cos : ∀ x, |A.cos x - Real.cos x| ≤ u * |Real.cos x|
  sin : ∀ x, |A.sin x - Real.sin x| ≤ u * |Real.sin x|

/-- The distance of a particle from the point `(eta0, phi0)`. -/
noncomputable def fromCentre (eta0 phi0 : ℝ) (p : P4) : ℝ :=
  √((artanh (p.z / p.spatialMag) - eta0) ^ 2 +
    (p.xyPol * (starRingEnd ℂ) (Complex.exp (phi0 * Complex.I))).arg ^ 2)

/-- The error of the angle to a direction computed by cosine and sine: one rounding of these, two of the product. -/
noncomputable def centreAngleError (u : ℝ) : ℝ := π / 2 * (√2 * ((1 + u) ^ 2 - 1) * (1 + u) + u)

/-- The error of the pseudorapidity of a particle. -/
noncomputable def etaError (u : ℝ) (p : P4) : ℝ :=
  u * |artanh (p.z / p.spatialMag)| +
    (1 + u) * -log (1 - ((1 + u) / (1 - u) ^ 2 - 1) * |p.z| / (p.spatialMag - |p.z|))

/-- A particle far enough from the beam for its pseudorapidity to be known. -/
def OffBeam (u : ℝ) (p : P4) : Prop := ((1 + u) / (1 - u) ^ 2 - 1) * |p.z| < p.spatialMag - |p.z|

end Gcl.Spec
