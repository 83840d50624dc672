import Verif.Model.RoundedShift
import Verif.Model.EventShape
/-!
# Model of the event shapes with rounding

graphicle/calculate.py:432-440, 471-527, 630-700, 799-838 once more, with every arithmetic operation a parameter.

Simplification: as in Model/Rounded.lean there is no overflow or underflow.  Only the values are followed, not the
gradients (they do not enter the values, and raise nothing that the values do not raise).
-/
namespace Gcl
set_option autoImplicit false
open Real

/-- Division in numba-compiled code: `ZeroDivisionError` for a zero divisor.
Helper of `threeNormA` (graphicle/calculate.py:432-440). -/
noncomputable def pyDivA (A : Arith) (a b : ℝ) : Py ℝ := if b = 0 then .error .zeroDivisionError else .ok (A.div a b)

/-- `_three_norm` (graphicle/calculate.py:432-440). -/
noncomputable def threeNormA (A : Arith) (x y z : ℝ) : Py ℝ :=
  let m := max (max |x| |y|) |z|
  match pyDivA A 1 m with
  | .error e => .error e
  | .ok r =>
    let x' := A.mul x r
    let y' := A.mul y r
    let z' := A.mul z r
    .ok (A.mul m (A.sqrt (A.add (A.add (A.mul x' x') (A.mul y' y')) (A.mul z' z'))))

/-- `ax_x`, `ax_y`, `ax_z` (graphicle/calculate.py:501-504, 664). -/
def axisA (A : ArithS) (azimuth inclination : ℝ) : ℝ × ℝ × ℝ :=
  (A.mul (A.sin inclination) (A.cos azimuth), A.mul (A.sin inclination) (A.sin azimuth), A.cos inclination)

/-- `dot_prod` (graphicle/calculate.py:515). -/
def dotA (A : Arith) (n : ℝ × ℝ × ℝ) (p : P4) : ℝ :=
  A.add (A.add (A.mul n.1 p.x) (A.mul n.2.1 p.y)) (A.mul n.2.2 p.z)

/-- The loop of `_thrust_with_grad` (graphicle/calculate.py:505-522), `abs_dot_sum` and `norm_sum`. -/
noncomputable def thrustLoopA (A : Arith) (n : ℝ × ℝ × ℝ) : ℝ → ℝ → List P4 → Py (ℝ × ℝ)
  | s, w, [] => .ok (s, w)
  | s, w, p :: ps =>
    match threeNormA A p.x p.y p.z with
    | .error e => .error e
    | .ok nrm => thrustLoopA A n (A.add s |dotA A n p|) (A.add w nrm) ps

/-- The value of `_thrust_with_grad` (graphicle/calculate.py:471-527). -/
noncomputable def thrustA (A : ArithS) (azimuth inclination : ℝ) (ps : List P4) : Py ℝ :=
  match thrustLoopA A.toArith (axisA A azimuth inclination) 0 0 ps with
  | .error e => .error e
  | .ok (s, w) =>
    match pyDivA A.toArith s w with
    | .error e => .error e
    | .ok v => .ok (-v)

/-- `cross_x`, `cross_y`, `cross_z` (graphicle/calculate.py:670-672). -/
def crossA (A : Arith) (n : ℝ × ℝ × ℝ) (p : P4) : ℝ × ℝ × ℝ :=
  (A.sub (A.mul p.y n.2.2) (A.mul p.z n.2.1), A.sub (A.mul p.z n.1) (A.mul p.x n.2.2),
    A.sub (A.mul p.x n.2.1) (A.mul p.y n.1))

/-- The loop of `_spherocity_with_grad` (graphicle/calculate.py:666-695), `cross_norm_sum` and `norm_sum`. -/
noncomputable def sphLoopA (A : Arith) (n : ℝ × ℝ × ℝ) : ℝ → ℝ → List P4 → Py (ℝ × ℝ)
  | s, w, [] => .ok (s, w)
  | s, w, p :: ps =>
    match threeNormA A p.x p.y p.z with
    | .error e => .error e
    | .ok nrm =>
      match threeNormA A (crossA A n p).1 (crossA A n p).2.1 (crossA A n p).2.2 with
      | .error e => .error e
      | .ok cn => sphLoopA A n (A.add s cn) (A.add w nrm) ps

/-- The value of `_spherocity_with_grad` (graphicle/calculate.py:630-700); `mathPi` is `math.pi`. -/
noncomputable def spherocityA (A : ArithS) (mathPi phi theta : ℝ) (ps : List P4) : Py ℝ :=
  match sphLoopA A.toArith (axisA A phi theta) 0 0 ps with
  | .error e => .error e
  | .ok (s, w) =>
    match pyDivA A.toArith 4 (A.mul mathPi w) with
    | .error e => .error e
    | .ok r => .ok (A.mul (A.mul (A.mul r r) s) s)

/-- Inner loop of `_c_parameter` (graphicle/calculate.py:805-810) over `momenta[idx_i:]`. -/
noncomputable def cInnerA (A : Arith) (p : P4) (ni : ℝ) : ℝ → List P4 → Py ℝ
  | out, [] => .ok out
  | out, q :: qs =>
    match threeNormA A q.x q.y q.z with
    | .error e => .error e
    | .ok nj =>
      let dot := A.add (A.add (A.mul p.x q.x) (A.mul p.y q.y)) (A.mul p.z q.z)
      match pyDivA A (A.mul dot dot) (A.mul ni nj) with
      | .error e => .error e
      | .ok d => cInnerA A p ni (A.add out (A.mul 2 (A.sub (A.mul ni nj) d))) qs

/-- Outer loop of `_c_parameter` (graphicle/calculate.py:799-811). -/
noncomputable def cOuterA (A : Arith) : ℝ → ℝ → List P4 → Py (ℝ × ℝ)
  | out, nsum, [] => .ok (out, nsum)
  | out, nsum, p :: ps =>
    match threeNormA A p.x p.y p.z with
    | .error e => .error e
    | .ok ni =>
      match cInnerA A p ni out (p :: ps) with
      | .error e => .error e
      | .ok out' => cOuterA A out' (A.add nsum ni) ps

/-- `c_parameter` (graphicle/calculate.py:799-838). -/
noncomputable def cParameterA (A : Arith) (ps : List P4) : Py ℝ :=
  match cOuterA A 0 0 ps with
  | .error e => .error e
  | .ok (out, nsum) => pyDivA A (A.mul 1.5 out) (A.mul nsum nsum)

end Gcl
