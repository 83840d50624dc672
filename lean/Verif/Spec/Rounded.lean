import Verif.Model.Rounded
/-! # Specification: floating-point arithmetic with a bounded relative error -/
namespace Gcl.Spec
set_option autoImplicit false
open Real

/-- Every operation of `A` has a relative error of at most `u`: the standard model of floating-point arithmetic. -/
structure Accurate (u : ℝ) (A : Arith) : Prop where
  add : ∀ x y, |A.add x y - (x + y)| ≤ u * |x + y|
  sub : ∀ x y, |A.sub x y - (x - y)| ≤ u * |x - y|
  mul : ∀ x y, |A.mul x y - x * y| ≤ u * |x * y|
  div : ∀ x y, y ≠ 0 → |A.div x y - x / y| ≤ u * |x / y|
  sqrt : ∀ x, 0 ≤ x → |A.sqrt x - √x| ≤ u * |√x|
  log : ∀ x, 0 < x → |A.log x - Real.log x| ≤ u * |Real.log x|
  hypot : ∀ x y, |A.hypot x y - √(x ^ 2 + y ^ 2)| ≤ u * |√(x ^ 2 + y ^ 2)|
  arctanh : ∀ x, -1 < x → x < 1 → |A.arctanh x - artanh x| ≤ u * |artanh x|

end Gcl.Spec
