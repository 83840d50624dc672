import Verif.Spec.Rounded
import Verif.Model.RoundedShift
/-! # Specification: arithmetic with circular and hyperbolic functions of bounded relative error -/
namespace Gcl.Spec
set_option autoImplicit false

/-- Every operation of `A` has a relative error of at most `u`. -/
structure AccurateS (u : ℝ) (A : ArithS) : Prop where
  base : Accurate u A.toArith
  cos : ∀ x, |A.cos x - Real.cos x| ≤ u * |Real.cos x|
  sin : ∀ x, |A.sin x - Real.sin x| ≤ u * |Real.sin x|
  cosh : ∀ x, |A.cosh x - Real.cosh x| ≤ u * |Real.cosh x|
  sinh : ∀ x, |A.sinh x - Real.sinh x| ≤ u * |Real.sinh x|

/-- The relative error of a sum of two products of one rounded factor each: three roundings. -/
def threeRoundings (u : ℝ) : ℝ := (1 + u) ^ 3 - 1

end Gcl.Spec
