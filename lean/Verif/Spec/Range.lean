import Verif.Model.Range
/-! # C151: what is assumed of the arithmetic -/
namespace Gcl
set_option autoImplicit false
open Real

/-- The operations have a relative error of at most `u`; products, quotients and moduli moreover an absolute one of at most
`η`, as results near zero underflow (sums, differences and roots never do). -/
structure Spec.AccurateU (u η : ℝ) (A : Arith) : Prop where
  add : ∀ x y, |A.add x y - (x + y)| ≤ u * |x + y|
  sub : ∀ x y, |A.sub x y - (x - y)| ≤ u * |x - y|
  mul : ∀ x y, |A.mul x y - x * y| ≤ u * |x * y| + η
  div : ∀ x y, y ≠ 0 → |A.div x y - x / y| ≤ u * |x / y| + η
  sqrt : ∀ x, 0 ≤ x → |A.sqrt x - √x| ≤ u * |√x|
  hypot : ∀ x y, |A.hypot x y - √(x ^ 2 + y ^ 2)| ≤ u * |√(x ^ 2 + y ^ 2)| + η

end Gcl
