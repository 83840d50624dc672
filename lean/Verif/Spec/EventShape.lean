import Verif.Spec.Physics
/-! # Specification vocabulary for event shapes (textbook definitions) -/
namespace Gcl.Spec
set_option autoImplicit false
open Gcl Real

/-- Euclidean norm of the 3-momentum. -/
noncomputable def norm3 (p : P4) : ℝ := sqrt (p.x ^ 2 + p.y ^ 2 + p.z ^ 2)

/-- Scalar product of the 3-momenta. -/
def dot3 (p q : P4) : ℝ := p.x * q.x + p.y * q.y + p.z * q.z

/-- Projection of the 3-momentum on the axis with azimuth `φ` and inclination `θ`. -/
noncomputable def onAxis (φ θ : ℝ) (p : P4) : ℝ :=
  p.x * (sin θ * cos φ) + p.y * (sin θ * sin φ) + p.z * cos θ

/-- Distance from the axis: norm of the cross product with the unit vector. -/
noncomputable def offAxis (φ θ : ℝ) (p : P4) : ℝ :=
  sqrt ((p.y * cos θ - p.z * (sin θ * sin φ)) ^ 2 + (p.z * (sin θ * cos φ) - p.x * cos θ) ^ 2 +
    (p.x * (sin θ * sin φ) - p.y * (sin θ * cos φ)) ^ 2)

/-- Sum of a quantity over the particles. -/
noncomputable def sumOf (f : P4 → ℝ) (ps : List P4) : ℝ := (ps.map f).sum

/-- Thrust with respect to an axis: `Σ|p·n| / Σ|p|`. -/
noncomputable def thrustAt (ps : List P4) (φ θ : ℝ) : ℝ :=
  sumOf (fun p => |onAxis φ θ p|) ps / sumOf norm3 ps

/-- Spherocity with respect to an axis: `(4/π · Σ|p × n| / Σ|p|)²`. -/
noncomputable def spherocityAt (ps : List P4) (φ θ : ℝ) : ℝ :=
  (4 / π * sumOf (offAxis φ θ) ps / sumOf norm3 ps) ^ 2

/-- The C-parameter: `3/2 · Σᵢⱼ (|pᵢ||pⱼ| - (pᵢ·pⱼ)²/(|pᵢ||pⱼ|)) / (Σ|p|)²`. -/
noncomputable def cParam (ps : List P4) : ℝ :=
  3 / 2 * sumOf (fun p => sumOf (fun q => norm3 p * norm3 q - dot3 p q ^ 2 / (norm3 p * norm3 q)) ps) ps /
    sumOf norm3 ps ^ 2

/-- A particle with nonzero 3-momentum. -/
def Moving (p : P4) : Prop := p.x ≠ 0 ∨ p.y ≠ 0 ∨ p.z ≠ 0

/-- All momenta multiplied by `c`. -/
def scale (c : ℝ) (p : P4) : P4 := ⟨c * p.x, c * p.y, c * p.z, c * p.e⟩

end Gcl.Spec
