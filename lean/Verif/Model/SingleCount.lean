import Verif.Model.Cluster
/-!
# Model of the clustering coefficients in single precision

graphicle/calculate.py:336-350 and 352-390 once more.  The number of links is added up in single precision, one link after
the other (`np.sum(..., dtype=np.float32)` in numba), the quotient with an integer is taken in double precision and is
converted to single precision as it is stored.
-/
namespace Gcl
set_option autoImplicit false
open Real

/-- The arithmetic used: addition in single precision, division in double precision, conversion to single precision.
Helper of `clustCoeff32` (graphicle/calculate.py:348-349). -/
structure Arith32 where
  add : ℝ → ℝ → ℝ
  div : ℝ → ℝ → ℝ
  toSingle : ℝ → ℝ

/-- Exact arithmetic.  Helper of `clustCoeff32` (graphicle/calculate.py:348-349). -/
noncomputable def Arith32.exact : Arith32 where
  add x y := x + y
  div x y := x / y
  toSingle x := x

/-- `np.sum(flags, dtype=np.float32)` (graphicle/calculate.py:348). -/
def count32 (C : Arith32) (flags : List Bool) : ℝ := flags.foldl (fun acc b => C.add acc (if b then 1 else 0)) 0

/-- One iteration of the loop of `_clust_coeffs` (graphicle/calculate.py:341-349): the value written to `coefs[node_idx]`. -/
noncomputable def clustCoeff32 (C : Arith32) {n : Nat} (adj : Arr2 n n Bool) (node : Fin n) : ℝ :=
  let neibs := (List.finRange n).filter (fun j => adj node j)
  let numNeibs := neibs.length
  if numNeibs < 2 then 0
  else
    let interlinks2 := count32 C (neibs.flatMap (fun a => neibs.map (fun b => adj a b)))
    C.toSingle (C.div interlinks2 ((numNeibs * (numNeibs - 1) : Int) : ℝ))

/-- `cluster_coeff_distbn` (graphicle/calculate.py:352-390), see `clusterCoeffDistbn`. -/
noncomputable def clusterCoeffDistbn32 (C : Arith32) (ps : List P4) (radius : ℝ) (init : Nat × Nat → Fl)
    (tr : List Write) : Fin ps.length → ℝ :=
  clustCoeff32 C (radiusAdj ps.length (runWrites init tr) radius)

end Gcl
