import Verif.Model.RoundedPrune
import Verif.Model.RoundedSplit
import Verif.Model.SingleCount
import Verif.Spec.Binary
import Mathlib.Data.Int.Log
/-!
# Floating point: rounding to the nearest number with a given number of bits

The arrays of graphicle hold doubles (`"<f8"`, graphicle/data.py:1338-1344; 53 bits) and what is computed from them is
computed with IEEE arithmetic: the nearest double to the exact result, the even one of two.  Models with rounding take the
arithmetic as a parameter (`Arith` and so on); here are the parameters that this arithmetic is.

Simplification: no number is too large (see `Model/MassOverflow.lean`, `Model/Range.lean`); in `binArith` and what is made
of it, none too small either (`gradual` has the least spacing of numbers near zero).  Not only the four operations and the
root, also the functions are rounded correctly; for functions that are not, see `Spec.Ieee`.
-/
namespace Gcl
set_option autoImplicit false
open Real

/-- The nearest integer, the even one of two.  Helper of `roundTo` (graphicle/data.py:1338-1344: `"<f8"`). -/
noncomputable def nearestInt (x : ℝ) : ℤ :=
  if Int.fract x < 1 / 2 then ⌊x⌋
  else if 1 / 2 < Int.fract x then ⌊x⌋ + 1
  else if Even ⌊x⌋ then ⌊x⌋
  else ⌊x⌋ + 1

/-- The nearest multiple of `2 ^ k`.  Helper of `roundBits` (graphicle/data.py:1338-1344: `"<f8"`). -/
noncomputable def roundTo (k : ℤ) (x : ℝ) : ℝ := nearestInt (x / 2 ^ k) * 2 ^ k

/-- The exponent of the spacing of numbers of `p` bits around `x`.
Helper of `roundBits` (graphicle/data.py:1338-1344: `"<f8"`). -/
noncomputable def spacingExp (p : ℕ) (x : ℝ) : ℤ := Int.log 2 |x| + 1 - p

/-- Rounding to `p` bits (graphicle/data.py:1338-1344: `"<f8"`, 53 bits; calculate.py:348: `np.float32`, 24 bits). -/
noncomputable def roundBits (p : ℕ) (x : ℝ) : ℝ := roundTo (spacingExp p x) x

/-- Rounding to `p` bits with numbers no closer than `2 ^ m` (graphicle/data.py:1338-1344: `"<f8"`, 53 bits and
`m = -1074`). -/
noncomputable def roundMin (p : ℕ) (m : ℤ) (x : ℝ) : ℝ := roundTo (max (spacingExp p x) m) x

/-- Arithmetic with `p` bits (graphicle/calculate.py:192-260, data.py:1487-1595). -/
noncomputable def binArith (p : ℕ) : Arith where
  add x y := roundBits p (x + y)
  sub x y := roundBits p (x - y)
  mul x y := roundBits p (x * y)
  div x y := roundBits p (x / y)
  sqrt x := roundBits p (√x)
  log x := roundBits p (Real.log x)
  hypot x y := roundBits p (√(x ^ 2 + y ^ 2))
  arctanh x := roundBits p (artanh x)

/-- With the angle (graphicle/calculate.py:290-296). -/
noncomputable def binArithR (p : ℕ) : ArithR where
  toArith := binArith p
  atan2 y x := roundBits p (Complex.arg ⟨x, y⟩)

/-- With cosine and sine (graphicle/select.py:992-994). -/
noncomputable def binArithP (p : ℕ) : ArithP where
  toArithR := binArithR p
  cos x := roundBits p (Real.cos x)
  sin x := roundBits p (Real.sin x)

/-- With hyperbolic functions (graphicle/data.py:1597-1621, 1713-1740). -/
noncomputable def binArithS (p : ℕ) : ArithS where
  toArith := binArith p
  cos x := roundBits p (Real.cos x)
  sin x := roundBits p (Real.sin x)
  cosh x := roundBits p (Real.cosh x)
  sinh x := roundBits p (Real.sinh x)

/-- Counting in numbers of `p` bits, the rest in numbers of `q` (graphicle/calculate.py:348-349: 24 and 53). -/
noncomputable def binCount (p q : ℕ) : Arith32 where
  add x y := roundBits p (x + y)
  div x y := roundBits q (x / y)
  toSingle x := roundBits p x

open Classical in
/-- Arithmetic with `p` bits and the least spacing `2 ^ m` (graphicle/calculate.py:192-260, data.py:1487-1595).  What it does
with arguments that are not such numbers does not matter. -/
noncomputable def gradual (p : ℕ) (m : ℤ) : Arith where
  add x y := if Spec.IsBitsMin p m x ∧ Spec.IsBitsMin p m y then roundMin p m (x + y) else x + y
  sub x y := if Spec.IsBitsMin p m x ∧ Spec.IsBitsMin p m y then roundMin p m (x - y) else x - y
  mul x y := roundMin p m (x * y)
  div x y := roundMin p m (x / y)
  sqrt x := if Spec.IsBitsMin p m x then roundMin p m (√x) else √x
  log x := roundMin p m (Real.log x)
  hypot x y := roundMin p m (√(x ^ 2 + y ^ 2))
  arctanh x := roundMin p m (artanh x)

end Gcl
