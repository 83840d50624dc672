import Verif.Model.RoundedSets
import Verif.Spec.Cluster
/-! # C153: what is assumed of the arithmetic -/
namespace Gcl.Spec
set_option autoImplicit false
open Gcl Real

/-- Additions have a relative error of at most `u`, quotients moreover an absolute one of at most `η` (underflow); rounding
preserves the order; zero over anything is zero and a number over itself is one. -/
structure RoundsInOrder (u η : ℝ) (A : Arith) : Prop where
  add : ∀ x y, |A.add x y - (x + y)| ≤ u * |x + y|
  div : ∀ x y, y ≠ 0 → |A.div x y - x / y| ≤ u * |x / y| + η
  add_le : ∀ x x' y y', x ≤ x' → y ≤ y' → A.add x y ≤ A.add x' y'
  div_le : ∀ x x' y, 0 < y → x ≤ x' → A.div x y ≤ A.div x' y
  zero_div : ∀ y, y ≠ 0 → A.div 0 y = 0
  div_self : ∀ y, y ≠ 0 → A.div y y = 1

/-- The weight of the symmetric difference over the weight of the union; zero if that is zero. -/
noncomputable def jaccard {n : Nat} (w : Fin n → ℝ) (A B : Finset (Fin n)) : ℝ :=
  if weightOf w (A ∪ B) = 0 then 0 else weightOf w (symmDiff A B) / weightOf w (A ∪ B)

/-- The weights as an array of numbers. -/
noncomputable def numbers {n : Nat} (w : Fin n → ℝ) : List Fl := List.ofFn (fun i => Fl.fin (w i))

end Gcl.Spec
