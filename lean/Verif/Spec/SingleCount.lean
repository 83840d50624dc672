import Verif.Model.SingleCount
import Verif.Spec.Cluster
/-! # C154: what is assumed of the arithmetic -/
namespace Gcl.Spec
set_option autoImplicit false
open Gcl Real

/-- Single precision counts to `N` (in IEEE arithmetic `2 ^ 24`) and no further: one more than `N` rounds to `N`.  Quotients
have the relative error `u`, the conversion has `v`, both in order; a number over itself and the conversion of one are one. -/
structure CountsTo (N : Nat) (u v : ℝ) (C : Arith32) : Prop where
  add_zero : ∀ m : Nat, m ≤ N → C.add m 0 = m
  add_one : ∀ m : Nat, m < N → C.add m 1 = m + 1
  stuck : C.add N 1 = N
  div : ∀ x y, y ≠ 0 → |C.div x y - x / y| ≤ u * |x / y|
  div_le : ∀ x x' y, 0 < y → x ≤ x' → C.div x y ≤ C.div x' y
  div_self : ∀ y, y ≠ 0 → C.div y y = 1
  single : ∀ x, |C.toSingle x - x| ≤ v * |x|
  single_le : ∀ x x', x ≤ x' → C.toSingle x ≤ C.toSingle x'
  single_one : C.toSingle 1 = 1

end Gcl.Spec
