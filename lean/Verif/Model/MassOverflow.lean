import Verif.Model.RoundedSum
/-!
# Model of `combined_mass` with overflow

graphicle/calculate.py:182-189 once more: the sums over particles, their squares, the product with `minkowski` and the
root run with all warnings turned into exceptions, and any `RuntimeWarning` is answered with `0.0`.  As in
Model/RoundedSum.lean every operation rounds and the order of summation is a parameter; here a sum or square beyond
`big`, the largest number there is, overflows, of which numpy warns.  Whether the matrix product (BLAS) warns of an
overflow or silently goes on with an infinity is not known: the answer in that case is a parameter.

Simplification: the entries of the momenta are numbers, neither infinite nor nan, and numpy's own error handling is at
its default (`np.errstate` may turn the warnings off).
-/
namespace Gcl
set_option autoImplicit false

/-- Summation in the given order; `none` as soon as a partial sum is beyond `big`.
Helper of `combinedMassO` (graphicle/calculate.py:186). -/
noncomputable def SumTree.evalO (A : Arith) (big : ℝ) (xs : List ℝ) : SumTree → Option ℝ
  | .leaf i => some (xs.getD i 0)
  | .node l r =>
    match l.evalO A big xs, r.evalO A big xs with
    | some a, some b => if |A.add a b| ≤ big then some (A.add a b) else none
    | _, _ => none

/-- `data.sum(axis=0)` of one column (graphicle/calculate.py:186). -/
noncomputable def sumO (A : Arith) (big : ℝ) (t : SumTree) (xs : List ℝ) : Option ℝ :=
  match xs with
  | [] => some 0
  | _ :: _ => t.evalO A big xs

/-- Sum and `** 2` of one column (graphicle/calculate.py:186); `none` if one of the operations warns. -/
noncomputable def squareO (A : Arith) (big : ℝ) (t : SumTree) (xs : List ℝ) : Option ℝ :=
  match sumO A big t xs with
  | none => none
  | some s => if |A.mul s s| ≤ big then some (A.mul s s) else none

/-- The four terms of the product with `minkowski` (graphicle/calculate.py:182, 186), given the squares. -/
noncomputable def minkSquares (A : Arith) (sx sy sz se : ℝ) : List ℝ :=
  [A.mul sx (-1), A.mul sy (-1), A.mul sz (-1), A.mul se 1]

/-- `combined_mass` (graphicle/calculate.py:182-189), without weights; `blas` is the answer if the product with
`minkowski` overflows. -/
noncomputable def combinedMassO (A : Arith) (big : ℝ) (t d : SumTree) (blas : Fl) (ps : List P4) : Fl :=
  match squareO A big t (ps.map P4.x), squareO A big t (ps.map P4.y), squareO A big t (ps.map P4.z),
    squareO A big t (ps.map P4.e) with
  | some sx, some sy, some sz, some se =>
    match d.evalO A big (minkSquares A sx sy sz se) with
    | none => blas
    | some m2 => .fin (if m2 < 0 then 0 else A.sqrt m2)
  | _, _, _, _ => .fin 0

end Gcl
