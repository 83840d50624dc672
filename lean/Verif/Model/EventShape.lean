import Verif.Model.Momentum
/-!
# Model of the event-shape functions in calculate.py, in exact arithmetic

The loops are compiled by numba with Python semantics for division: dividing by zero raises
`ZeroDivisionError`.
-/
namespace Gcl
set_option autoImplicit false
open Real

/-- Division in numba-compiled code: `ZeroDivisionError` for a zero divisor.
Helper of `threeNorm` (graphicle/calculate.py:432-440). -/
noncomputable def pyDiv (a b : ℝ) : Py ℝ := if b = 0 then .error .zeroDivisionError else .ok (a / b)

/-- `_three_norm` (calculate.py:432-440). -/
noncomputable def threeNorm (x y z : ℝ) : Py ℝ :=
  let m := max (max |x| |y|) |z|
  match pyDiv 1 m with
  | .error e => .error e
  | .ok r => .ok (m * sqrt (x * r * (x * r) + y * r * (y * r) + z * r * (z * r)))

/-- `_angles_to_axis` (calculate.py:443-467): azimuth, inclination to a unit vector. -/
noncomputable def anglesToAxis (azimuth inclination : ℝ) : ℝ × ℝ × ℝ :=
  (sin inclination * cos azimuth, sin inclination * sin azimuth, cos inclination)

/-- Accumulators of the thrust loop.
Helper of `thrustStep` (graphicle/calculate.py:505-522). -/
structure ThrustAcc where
  absDot : ℝ
  norm : ℝ
  gradPhi : ℝ
  gradTheta : ℝ

/-- Body of the loop of `_thrust_with_grad` (calculate.py:505-522). -/
noncomputable def thrustStep (azimuth inclination : ℝ) (acc : ThrustAcc) (p : P4) : Py ThrustAcc :=
  let st := sin inclination
  let ct := cos inclination
  let sp := sin azimuth
  let cp := cos azimuth
  let axX := st * cp
  let axY := st * sp
  let axZ := ct
  let gPhi := p.y * st * cp - p.x * st * sp
  let gTheta := p.x * ct * cp + p.y * ct * sp - p.z * st
  let dot := axX * p.x + axY * p.y + axZ * p.z
  let sgn := copysign 1 dot
  match threeNorm p.x p.y p.z with
  | .error e => .error e
  | .ok nrm => .ok
    { absDot := acc.absDot + |dot|
      norm := acc.norm + nrm
      gradPhi := acc.gradPhi + sgn * gPhi
      gradTheta := acc.gradTheta + sgn * gTheta }

/-- The loop.
Helper of `thrustWithGrad` (graphicle/calculate.py:471-527). -/
noncomputable def thrustLoop (azimuth inclination : ℝ) : ThrustAcc → List P4 → Py ThrustAcc
  | acc, [] => .ok acc
  | acc, p :: ps =>
    match thrustStep azimuth inclination acc p with
    | .error e => .error e
    | .ok acc' => thrustLoop azimuth inclination acc' ps

/-- `_thrust_with_grad` (calculate.py:471-527): negated thrust and its negated gradient
`(azimuth, inclination)`.  `func_val` is a numba scalar division (`ZeroDivisionError` at zero). -/
noncomputable def thrustWithGrad (azimuth inclination : ℝ) (ps : List P4) : Py (ℝ × ℝ × ℝ) :=
  match thrustLoop azimuth inclination ⟨0, 0, 0, 0⟩ ps with
  | .error e => .error e
  | .ok acc =>
    match pyDiv acc.absDot acc.norm with
    | .error e => .error e
    | .ok v => .ok (-v, -(acc.gradPhi / acc.norm), -(acc.gradTheta / acc.norm))

/-- Accumulators of the spherocity loop.
Helper of `sphStep` (graphicle/calculate.py:656-695). -/
structure SphAcc where
  cross : ℝ
  norm : ℝ
  gradTheta : ℝ
  gradPhi : ℝ

/-- Body of the loop of `_spherocity_with_grad` (calculate.py:656-695). -/
noncomputable def sphStep (phi theta : ℝ) (acc : SphAcc) (p : P4) : Py SphAcc :=
  let cp := cos phi
  let sp := sin phi
  let ct := cos theta
  let st := sin theta
  let c2p := 2 * cp * cp - 1
  let s2p := 2 * cp * sp
  let c2t := 2 * ct * ct - 1
  let s2t := 2 * ct * st
  let axX := st * cp
  let axY := st * sp
  let axZ := ct
  let x := p.x
  let y := p.y
  let z := p.z
  match threeNorm x y z with
  | .error e => .error e
  | .ok nrm =>
    let crX := y * axZ - z * axY
    let crY := z * axX - x * axZ
    let crZ := x * axY - y * axX
    match threeNorm crX crY crZ with
    | .error e => .error e
    | .ok cn =>
      match pyDiv 1 cn with
      | .error e => .error e
      | .ok rc => .ok
        { cross := acc.cross + cn
          norm := acc.norm + nrm
          gradPhi := acc.gradPhi + rc * (0.5 * (c2t - 1) * (2 * x * y * c2p - (x * x - y * y) * s2p)
            - s2t * (y * z * cp - x * z * sp))
          gradTheta := acc.gradTheta + rc * (-2 * c2t * (x * y * cp + y * z * sp)
            - 0.5 * s2t * ((x * x + y * y) + (x * x - y * y) * c2p - 2 * z * z + 2 * x * y * s2p)) }

/-- The loop.
Helper of `spherocityWithGrad` (graphicle/calculate.py:630-700). -/
noncomputable def sphLoop (phi theta : ℝ) : SphAcc → List P4 → Py SphAcc
  | acc, [] => .ok acc
  | acc, p :: ps =>
    match sphStep phi theta acc p with
    | .error e => .error e
    | .ok acc' => sphLoop phi theta acc' ps

/-- `_spherocity_with_grad` (calculate.py:630-700): value and gradient `(phi, theta)`. -/
noncomputable def spherocityWithGrad (phi theta : ℝ) (ps : List P4) : Py (ℝ × ℝ × ℝ) :=
  match sphLoop phi theta ⟨0, 0, 0, 0⟩ ps with
  | .error e => .error e
  | .ok acc =>
    match pyDiv 4 (π * acc.norm) with
    | .error e => .error e
    | .ok r =>
      let k := r ^ 2
      .ok (k * acc.cross * acc.cross, k * acc.cross * acc.gradPhi, k * acc.cross * acc.gradTheta)

/-- Inner loop of `_c_parameter` (calculate.py:805-810) over `momenta[idx_i:]`. -/
noncomputable def cInner (p : P4) (ni : ℝ) : ℝ → List P4 → Py ℝ
  | out, [] => .ok out
  | out, q :: qs =>
    match threeNorm q.x q.y q.z with
    | .error e => .error e
    | .ok nj =>
      let dot := p.x * q.x + p.y * q.y + p.z * q.z
      match pyDiv (dot * dot) (ni * nj) with
      | .error e => .error e
      | .ok d => cInner p ni (out + 2 * (ni * nj - d)) qs

/-- Outer loop of `_c_parameter` (calculate.py:799-811): the accumulated sum and the norm sum. -/
noncomputable def cOuter : ℝ → ℝ → List P4 → Py (ℝ × ℝ)
  | out, nsum, [] => .ok (out, nsum)
  | out, nsum, p :: ps =>
    match threeNorm p.x p.y p.z with
    | .error e => .error e
    | .ok ni =>
      match cInner p ni out (p :: ps) with
      | .error e => .error e
      | .ok out' => cOuter out' (nsum + ni) ps

/-- `c_parameter` (calculate.py:799-838). -/
noncomputable def cParameter (ps : List P4) : Py ℝ :=
  match cOuter 0 0 ps with
  | .error e => .error e
  | .ok (out, nsum) => pyDiv (1.5 * out) (nsum * nsum)

end Gcl
