import Verif.Model.NonFinite
import Verif.Model.RoundedShape
/-!
# Model of the mass and norm kernels at the ends of the range of numbers

graphicle/calculate.py:224-260, 432-440 and 471-527 once more.  Every operation rounds, as in Model/Rounded.lean, and a
result beyond `big`, the largest number there is, becomes infinite.  What is assumed of the operations (Spec.AccurateU) allows
for underflow.
-/
namespace Gcl
set_option autoImplicit false
open Real

/-- The result of an operation, infinite if it is beyond the largest number.
Helper of `rootDiffO`, `threeNormO` (graphicle/calculate.py:256-260, 433-440). -/
noncomputable def ovf (big r : ℝ) : Fl := if |r| ≤ big then .fin r else if r < 0 then .ninf else .pinf

/-- `a + b`.  Helper of `rootDiffO`, `threeNormO` (graphicle/calculate.py:256-260, 433-440). -/
noncomputable def addO (A : Arith) (big : ℝ) : Fl → Fl → Fl
  | .fin x, .fin y => ovf big (A.add x y)
  | a, b => a.addF b

/-- `a - b`.  Helper of `rootDiffO` (graphicle/calculate.py:256-260). -/
noncomputable def subO (A : Arith) (big : ℝ) : Fl → Fl → Fl
  | .fin x, .fin y => ovf big (A.sub x y)
  | a, b => a.sub b

/-- `a * b`.  Helper of `rootDiffO`, `threeNormO` (graphicle/calculate.py:256-260, 433-440). -/
noncomputable def mulO (A : Arith) (big : ℝ) : Fl → Fl → Fl
  | .fin x, .fin y => ovf big (A.mul x y)
  | a, b => a.mul b

/-- `a / b` for `b ≠ 0`.  Helper of `thrustO` (graphicle/calculate.py:523). -/
noncomputable def divO (A : Arith) (big : ℝ) : Fl → Fl → Fl
  | .fin x, .fin y => ovf big (A.div x y)
  | a, b => a.div b

/-- `sqrt(a)`, which cannot overflow.  Helper of `rootDiffO`, `threeNormO` (graphicle/calculate.py:256-260, 433-440). -/
noncomputable def sqrtO (A : Arith) : Fl → Fl
  | .fin x => if x < 0 then .nan else .fin (A.sqrt x)
  | .pinf => .pinf
  | _ => .nan

/-- `hypot(a, b)`, the modulus of a complex number.  Helper of `P4.massO` (graphicle/data.py:1487-1500). -/
noncomputable def hypotO (A : Arith) (big : ℝ) : Fl → Fl → Fl
  | .fin x, .fin y => ovf big (A.hypot x y)
  | a, b => a.hypot b

/-- `_root_diff_two_squares` (graphicle/calculate.py:224-260); the sign bit of a nan difference does not matter, as the
result is nan then. -/
noncomputable def rootDiffO (A : Arith) (big : ℝ) (x1 x2 : Fl) : Fl :=
  let x1' := x1.abs
  let x2' := x2.abs
  let diff := subO A big x1' x2'
  mulO A big (Fl.copysign false (sqrtO A diff.abs) diff) (sqrtO A (addO A big x1' x2'))

/-- `MomentumArray.mass_t` (graphicle/data.py:1586-1595). -/
noncomputable def P4.massTO (A : Arith) (big : ℝ) (p : P4) : Fl := rootDiffO A big (.fin p.e) (.fin p.z)

/-- `MomentumArray.mass` (graphicle/data.py:1487-1500, 1579-1584). -/
noncomputable def P4.massO (A : Arith) (big : ℝ) (p : P4) : Fl :=
  rootDiffO A big (.fin p.e) (hypotO A big (.fin p.z) (hypotO A big (.fin p.x) (.fin p.y)))

/-- `_three_norm` (graphicle/calculate.py:432-440). -/
noncomputable def threeNormO (A : Arith) (big x y z : ℝ) : Py Fl :=
  let m := max (max |x| |y|) |z|
  if m = 0 then .error .zeroDivisionError
  else
    let r := ovf big (A.div 1 m)
    let x' := mulO A big (.fin x) r
    let y' := mulO A big (.fin y) r
    let z' := mulO A big (.fin z) r
    .ok (mulO A big (.fin m)
      (sqrtO A (addO A big (addO A big (mulO A big x' x') (mulO A big y' y')) (mulO A big z' z'))))

/-- `dot_prod` (graphicle/calculate.py:515). -/
noncomputable def dotO (A : Arith) (big : ℝ) (n : ℝ × ℝ × ℝ) (p : P4) : Fl :=
  addO A big (addO A big (mulO A big (.fin n.1) (.fin p.x)) (mulO A big (.fin n.2.1) (.fin p.y)))
    (mulO A big (.fin n.2.2) (.fin p.z))

/-- The loop of `_thrust_with_grad` (graphicle/calculate.py:505-522), `abs_dot_sum` and `norm_sum`. -/
noncomputable def thrustLoopO (A : Arith) (big : ℝ) (n : ℝ × ℝ × ℝ) : Fl → Fl → List P4 → Py (Fl × Fl)
  | s, w, [] => .ok (s, w)
  | s, w, p :: ps =>
    match threeNormO A big p.x p.y p.z with
    | .error e => .error e
    | .ok nrm => thrustLoopO A big n (addO A big s (dotO A big n p).abs) (addO A big w nrm) ps

open Classical in
/-- `-func_val` of `_thrust_with_grad` (graphicle/calculate.py:471-527), without the sign: the thrust for the axis `n`. -/
noncomputable def thrustO (A : Arith) (big : ℝ) (n : ℝ × ℝ × ℝ) (ps : List P4) : Py Fl :=
  match thrustLoopO A big n (.fin 0) (.fin 0) ps with
  | .error e => .error e
  | .ok (s, w) => if w = .fin 0 then .error .zeroDivisionError else .ok (divO A big s w)

end Gcl
