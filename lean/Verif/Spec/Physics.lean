import Mathlib.Analysis.SpecialFunctions.Trigonometric.Basic
import Mathlib.Analysis.SpecialFunctions.Sqrt
import Mathlib.Analysis.SpecialFunctions.Trigonometric.DerivHyp
import Verif.Model.Momentum
/-! # Specification vocabulary for four-momenta (textbook definitions) -/
namespace Gcl.Spec
set_option autoImplicit false
open Gcl

/-- Minkowski product with signature `(+,-,-,-)`. -/
def mdot (p q : P4) : ℝ := p.e * q.e - p.x * q.x - p.y * q.y - p.z * q.z

/-- Square of the Euclidean norm of the 3-momentum. -/
def p3sq (p : P4) : ℝ := p.x ^ 2 + p.y ^ 2 + p.z ^ 2

/-- Sum of two four-momenta. -/
def padd (p q : P4) : P4 := ⟨p.x + q.x, p.y + q.y, p.z + q.z, p.e + q.e⟩

/-- Two real angles agree modulo `2π`. -/
def AngleEq (a b : ℝ) : Prop := ∃ k : ℤ, a = b + k * (2 * Real.pi)

end Gcl.Spec
