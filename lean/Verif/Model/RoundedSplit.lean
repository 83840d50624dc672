import Verif.Model.RoundedShape
import Verif.Model.Transform
/-!
# Model of `rotation_matrix`, `split_momentum` and `split_hardest` with rounding

graphicle/transform.py:92-263 once more, with every arithmetic operation a parameter.  One entry of a matrix product is an
operation of its own (`ArithM.dot`), as numpy's `matmul` may add the three products in any order, with or without fused
multiplication and addition.

Simplification: as in Model/Rounded.lean there is no overflow or underflow.
-/
namespace Gcl
set_option autoImplicit false
open Real

/-- The arithmetic of the machine, with one entry of a matrix product of inner length three.
Helper of `rotation_matrix` and `split_momentum` (graphicle/transform.py:92-187). -/
structure ArithM extends ArithS where
  dot : (Fin 3 → ℝ) → (Fin 3 → ℝ) → ℝ

/-- Exact arithmetic.
Helper of `rotation_matrix` and `split_momentum` (graphicle/transform.py:92-187). -/
noncomputable def ArithM.exact : ArithM where
  toArithS := .exact
  dot a b := a 0 * b 0 + a 1 * b 1 + a 2 * b 2

/-- The matrix product that multiplies and adds from left to right.
Helper of `rotation_matrix` and `split_momentum` (graphicle/transform.py:92-187). -/
def ArithS.sequential (A : ArithS) : ArithM where
  toArithS := A
  dot a b := A.add (A.add (A.mul (a 0) (b 0)) (A.mul (a 1) (b 1))) (A.mul (a 2) (b 2))

/-- `skew_sym` (graphicle/transform.py:122-126); negation is exact. -/
def skewA (A : ArithS) (axis : SphericalAngle) : Matrix (Fin 3) (Fin 3) ℝ :=
  let n := axisA A axis.phi axis.theta
  !![0, -n.2.2, n.2.1; n.2.2, 0, -n.1; -n.2.1, n.1, 0]

/-- `rotation_matrix` (graphicle/transform.py:92-132). -/
def rotationMatrixA (A : ArithM) (angle : ℝ) (axis : SphericalAngle) : Matrix (Fin 3) (Fin 3) ℝ :=
  let k := skewA A.toArithS axis
  let rot : Matrix (Fin 3) (Fin 3) ℝ := fun i j =>
    A.add (A.mul (A.sin angle) (k i j)) (A.mul (A.sub 1 (A.cos angle)) (A.dot (k i) (fun l => k l j)))
  fun i j => if i = j then A.add (rot i j) 1 else rot i j

/-- `split_momentum` (graphicle/transform.py:135-187). -/
def splitMomentumA (A : ArithM) (momentum : List P4) (z angle : ℝ) (axis : SphericalAngle) : Py (List P4) :=
  if 1 < momentum.length then .error .valueError
  else
    match momentum with
    | [] => .error .indexError
    | p :: _ =>
      let r := rotationMatrixA A angle axis
      let v : Fin 3 → ℝ := ![A.mul p.x z, A.mul p.y z, A.mul p.z z]
      let c : P4 := ⟨A.dot v (fun l => r 0 l), A.dot v (fun l => r 1 l), A.dot v (fun l => r 2 l), A.mul p.e z⟩
      .ok [c, ⟨A.sub p.x c.x, A.sub p.y c.y, A.sub p.z c.z, A.sub p.e c.e⟩]

/-- `split_hardest` (graphicle/transform.py:190-263) with a given axis. -/
noncomputable def splitHardestA (A : ArithM) (momenta : List P4) (z angle : ℝ) (axis : SphericalAngle) : Py (List P4) :=
  if ¬ (0 < z ∧ z ≤ 1 / 2) then .error .valueError
  else
    match argmax (momenta.map (P4.ptA A.toArith)) with
    | .error e => .error e
    | .ok h =>
      match splitMomentumA A (momenta[h]?).toList z angle axis with
      | .error e => .error e
      | .ok children => .ok (momenta.take h ++ momenta.drop (h + 1) ++ children)

end Gcl
