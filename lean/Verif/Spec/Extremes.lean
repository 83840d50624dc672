import Verif.Spec.Optimise
/-! # Specification vocabulary for the extremes of event shapes -/
namespace Gcl.Spec
set_option autoImplicit false
open Gcl Real

/-- The 3-momentum is a multiple of `n`. -/
def ParallelTo (n : ℝ × ℝ × ℝ) (p : P4) : Prop := ∃ c : ℝ, p.x = c * n.1 ∧ p.y = c * n.2.1 ∧ p.z = c * n.2.2

/-- The 3-momentum is perpendicular to `n`. -/
def PerpendicularTo (n : ℝ × ℝ × ℝ) (p : P4) : Prop := p.x * n.1 + p.y * n.2.1 + p.z * n.2.2 = 0

/-- All 3-momenta lie on one line. -/
def OnOneLine (ps : List P4) : Prop := ∃ n, UnitVec n ∧ ∀ p ∈ ps, ParallelTo n p

/-- No direction is preferred: `Σ (p·n)²/|p|` is the same, a third of `Σ|p|`, for every unit vector `n`. -/
def Isotropic (ps : List P4) : Prop :=
  ∀ n, UnitVec n → sumOf (fun p => (p.x * n.1 + p.y * n.2.1 + p.z * n.2.2) ^ 2 / norm3 p) ps = 1 / 3 * sumOf norm3 ps

end Gcl.Spec
