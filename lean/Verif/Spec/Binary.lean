import Mathlib.Data.Real.Basic
/-! # Specification vocabulary: floating-point numbers -/
namespace Gcl.Spec
set_option autoImplicit false

/-- A number of `p` bits. -/
def IsBits (p : ℕ) (x : ℝ) : Prop := ∃ m k : ℤ, |m| < 2 ^ p ∧ x = m * 2 ^ k

/-- A number of `p` bits that is a multiple of `2 ^ kmin`. -/
def IsBitsMin (p : ℕ) (kmin : ℤ) (x : ℝ) : Prop := ∃ m k : ℤ, |m| < 2 ^ p ∧ kmin ≤ k ∧ x = m * 2 ^ k

end Gcl.Spec
