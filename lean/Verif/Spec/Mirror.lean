import Verif.Model.Momentum
/-! # Specification vocabulary for mirror images -/
namespace Gcl.Spec
set_option autoImplicit false
open Gcl

/-- The image in a mirror across the beam: the beam directions change places. -/
def flipZ (p : P4) : P4 := ⟨p.x, p.y, -p.z, p.e⟩

/-- The image in a mirror along the beam, through the `x` axis: the sense of the azimuth is reversed. -/
def flipY (p : P4) : P4 := ⟨p.x, -p.y, p.z, p.e⟩

/-- Minus a double. -/
noncomputable def flNeg : Fl → Fl
  | .fin x => .fin (-x)
  | .pinf => .ninf
  | .ninf => .pinf
  | .nan => .nan

open Classical in
/-- Minus an angle between `-π` (excluded) and `π`: the half turn is its own opposite. -/
noncomputable def angNeg : Fl → Fl
  | .fin x => if x = Real.pi then .fin x else .fin (-x)
  | a => flNeg a

/-- A record with an energy or a longitudinal momentum that is not zero within the tolerance: not one of those whose rapidity is
decided by the sign of a zero. -/
def Lively (tol : ℝ) (p : P4) : Prop := p.z ≠ 0 ∨ tol < |p.e|

/-- A momentum that does not point along the negative `x` axis, where the azimuth jumps. -/
def OffCut (p : P4) : Prop := p.y ≠ 0 ∨ 0 ≤ p.x

/-- The mirrored centre. -/
noncomputable def flipCentre (across : Bool) (c : Fl × Fl) : Fl × Fl :=
  if across then (flNeg c.1, c.2) else (c.1, angNeg c.2)

/-- The mirror. -/
def flip (across : Bool) (p : P4) : P4 := if across then flipZ p else flipY p

/-- The mirrored axis: azimuth and inclination. -/
noncomputable def flipAxis (across : Bool) (φ θ : ℝ) : ℝ × ℝ := if across then (φ, Real.pi - θ) else (-φ, θ)

/-- The mirrored gradient. -/
def flipGrad (across : Bool) (r : ℝ × ℝ × ℝ) : ℝ × ℝ × ℝ :=
  if across then (r.1, r.2.1, -r.2.2) else (r.1, -r.2.1, r.2.2)

end Gcl.Spec
