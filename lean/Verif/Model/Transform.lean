import Mathlib.LinearAlgebra.Matrix.Notation
import Mathlib.LinearAlgebra.Matrix.Determinant.Basic
import Verif.Model.EventShape
import Verif.Model.Partition
import Mathlib.Order.OrderDual
/-!
# Model of graphicle/transform.py and `MomentumArray.from_spherical_uniform`, in exact arithmetic
-/
namespace Gcl
set_option autoImplicit false
open Real

/-- `SphericalAngle` (transform.py:19-28). -/
structure SphericalAngle where
  theta : ℝ
  phi : ℝ

/-- `_angles_to_axis` (transform.py:44-46). -/
noncomputable def SphericalAngle.toAxis (a : SphericalAngle) : ℝ × ℝ × ℝ := anglesToAxis a.phi a.theta

/-- `_axis_to_angles` (transform.py:49-54); `cmath.polar` of `x + iy`, then the phase of `pt + iz`. -/
noncomputable def axisToAngles (axis : ℝ × ℝ × ℝ) : SphericalAngle :=
  let phiPolar : ℂ := ⟨axis.1, axis.2.1⟩
  let pt := ‖phiPolar‖
  let phi := phiPolar.arg
  let thetaPolar : ℂ := ⟨pt, axis.2.2⟩
  { theta := thetaPolar.arg, phi := phi }

/-- `np.argmax`: position of the first maximum, `ValueError` if empty (the first minimum for the reversed
order).
Helper of `softHardAxis` (graphicle/transform.py:66-89). -/
noncomputable def argmax (l : List ℝ) : Py Nat := argmin (R := ℝᵒᵈ) l

/-- `np.cross(a, b)` of the 3-momenta.
Helper of `softHardAxis` (graphicle/transform.py:66-89). -/
def cross3 (a b : P4) : ℝ × ℝ × ℝ :=
  (a.y * b.z - a.z * b.y, a.z * b.x - a.x * b.z, a.x * b.y - a.y * b.x)

/-- `soft_hard_axis` (transform.py:66-89). -/
noncomputable def softHardAxis (ps : List P4) : Py SphericalAngle :=
  match argmin (ps.map P4.pt), argmax (ps.map P4.pt) with
  | .ok s, .ok h =>
    match ps[s]?, ps[h]? with
    | some softest, some hardest => .ok (axisToAngles (cross3 softest hardest))
    | _, _ => .error .indexError
  | .error e, _ => .error e
  | _, .error e => .error e

/-- `rotation_matrix` (transform.py:92-132).  The entries written through `np.triu_indices(3, 1)` and
`np.tril_indices(3, -1)` are spelt out. -/
noncomputable def rotationMatrix (angle : ℝ) (axis : SphericalAngle) : Matrix (Fin 3) (Fin 3) ℝ :=
  let n := axis.toAxis
  let x := n.1
  let y := n.2.1
  let z := n.2.2
  let skew : Matrix (Fin 3) (Fin 3) ℝ := !![0, -z, y; z, 0, -x; -y, x, 0]
  let rot := sin angle • skew + (1 - cos angle) • (skew * skew)
  fun i j => if i = j then rot i j + 1 else rot i j

/-- `split_momentum` (transform.py:135-187).  An empty array fails at `children[0, :]`. -/
noncomputable def splitMomentum (momentum : List P4) (z angle : ℝ) (axis : SphericalAngle) :
    Py (List P4) :=
  if 1 < momentum.length then .error .valueError
  else
    match momentum with
    | [] => .error .indexError
    | parent :: _ =>
      let r := rotationMatrix angle axis
      let v : Fin 3 → ℝ := ![z * parent.x, z * parent.y, z * parent.z]
      let w := Matrix.vecMul v r.transpose
      let first : P4 := ⟨w 0, w 1, w 2, z * parent.e⟩
      .ok [first, ⟨parent.x - first.x, parent.y - first.y, parent.z - first.z, parent.e - first.e⟩]

/-- `split_hardest` (transform.py:190-263). -/
noncomputable def splitHardest (momenta : List P4) (z angle : ℝ) (axis : Option SphericalAngle) :
    Py (List P4) :=
  if ¬ (0 < z ∧ z ≤ 1 / 2) then .error .valueError
  else
    let axis' : Py SphericalAngle := match axis with
      | some a => .ok a
      | none => if momenta.length < 2 then .error .valueError else softHardAxis momenta
    match axis' with
    | .error e => .error e
    | .ok a =>
      match argmax (momenta.map P4.pt) with
      | .error e => .error e
      | .ok h =>
        match splitMomentum (momenta[h]?).toList z angle a with
        | .error e => .error e
        | .ok children => .ok (momenta.take h ++ momenta.drop (h + 1) ++ children)

/-- `np.arccos`.
Helper of `sphericalElem` (graphicle/data.py:1408-1413). -/
noncomputable def npArccos (x : ℝ) : ℝ := arccos x

/-- One momentum from its magnitude, its energy and the two random draws (data.py:1408-1413):
`u` in `[0, 1)` for the polar angle and `f` for the azimuth. -/
noncomputable def sphericalElem (pMag energy u f : ℝ) : P4 :=
  let thetaPolar : ℂ := pMag * Complex.exp (Complex.I * (npArccos (1 - 2 * u) : ℂ))
  let phiPolar : ℂ := thetaPolar.re * Complex.exp (Complex.I * (f : ℂ))
  ⟨phiPolar.re, phiPolar.im, thetaPolar.im, energy⟩

/-- Assemble the columns.
Helper of `fromSphericalUniform` (graphicle/data.py:1348-1422). -/
noncomputable def sphericalElems : List ℝ → List ℝ → List ℝ → List ℝ → List P4
  | m :: ms, e :: es, u :: us, f :: fs => sphericalElem m e u f :: sphericalElems ms es us fs
  | _, _, _, _ => []

open Classical in
/-- `from_spherical_uniform` (data.py:1348-1422) as a function of the random draws, in the order they are
made: energies, the draws for the massless mask (only for `0 < massless < 1`), masses (for all particles if
`massless == 0`, for the massive ones if `0 < massless < 1`), polar draws, azimuths. -/
noncomputable def fromSphericalUniform (massless : ℝ) (energy rand mass us fs : List ℝ) : Py (List P4) :=
  if ¬ (0 ≤ massless ∧ massless ≤ 1) then .error .valueError
  else if massless = 0 then
    .ok (sphericalElems (List.zipWith rootDiffTwoSquares energy mass) energy us fs)
  else if massless < 1 then
    let notMask := rand.map (fun r => !decide (r < massless))
    match (Key.mask notMask).apply energy with
    | .error e => .error e
    | .ok maskedE =>
      match setMaskVals energy notMask (List.zipWith rootDiffTwoSquares maskedE mass) with
      | .error e => .error e
      | .ok pMag => .ok (sphericalElems pMag energy us fs)
  else .ok (sphericalElems energy energy us fs)

end Gcl
