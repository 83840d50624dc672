import Verif.Model.Rounded
/-!
# Model of sums with rounding

`np.sum` over particles, `combined_mass` (graphicle/calculate.py:135-189) and the quotient of sums in
`weighted_centroid` (graphicle/calculate.py:82-85) once more, with every arithmetic operation a parameter, as in
Model/Rounded.lean.  In which order numpy adds depends on its version, the memory layout and the machine: the order is
a parameter, too, namely a binary tree with the terms at its leaves.

Simplification: results do not overflow (in `combined_mass` an overflow is a warning, turned into the answer `0.0`).
-/
namespace Gcl
set_option autoImplicit false

/-- An order of summation: which partial sums are added to which; leaves are positions of terms.
Helper of `np.sum` (graphicle/calculate.py:82-85, 129, 186). -/
inductive SumTree where
  | leaf (i : Nat)
  | node (l r : SumTree)

/-- The positions of the terms, left to right.
Helper of `np.sum` (graphicle/calculate.py:82-85, 129, 186). -/
def SumTree.leaves : SumTree → List Nat
  | .leaf i => [i]
  | .node l r => l.leaves ++ r.leaves

/-- The greatest number of additions a term goes through.
Helper of `np.sum` (graphicle/calculate.py:82-85, 129, 186). -/
def SumTree.depth : SumTree → Nat
  | .leaf _ => 0
  | .node l r => max l.depth r.depth + 1

/-- The sum of the terms in this order.
Helper of `np.sum` (graphicle/calculate.py:82-85, 129, 186). -/
def SumTree.eval (A : Arith) (xs : List ℝ) : SumTree → ℝ
  | .leaf i => xs.getD i 0
  | .node l r => A.add (l.eval A xs) (r.eval A xs)

/-- `xs.sum()`; the sum of no terms is zero.
Helper of `np.sum` (graphicle/calculate.py:82-85, 129, 186). -/
def sumA (A : Arith) (t : SumTree) (xs : List ℝ) : ℝ :=
  match xs with
  | [] => 0
  | _ :: _ => t.eval A xs

/-- `np.sum(pmu, axis=0)`, `data.sum(axis=0)` (graphicle/calculate.py:129, 186). -/
def totalA (A : Arith) (t : SumTree) (ps : List P4) : P4 :=
  ⟨sumA A t (ps.map P4.x), sumA A t (ps.map P4.y), sumA A t (ps.map P4.z), sumA A t (ps.map P4.e)⟩

/-- The four terms of `(data.sum(axis=0) ** 2) @ minkowski` (graphicle/calculate.py:182, 186). -/
def minkTerms (A : Arith) (q : P4) : List ℝ :=
  [A.mul (A.mul q.x q.x) (-1), A.mul (A.mul q.y q.y) (-1), A.mul (A.mul q.z q.z) (-1), A.mul (A.mul q.e q.e) 1]

/-- `combined_mass` (graphicle/calculate.py:135-189), without weights; `d` is the order of addition in the product
with `minkowski`. -/
noncomputable def combinedMassA (A : Arith) (t d : SumTree) (ps : List P4) : ℝ :=
  if sumA A d (minkTerms A (totalA A t ps)) < 0 then 0 else A.sqrt (sumA A d (minkTerms A (totalA A t ps)))

/-- `((rap * pmu.pt).sum() / pt_sum)` (graphicle/calculate.py:82-85), for the arrays `rap` and `pmu.pt`. -/
noncomputable def weightedMeanA (A : Arith) (t t' : SumTree) (rs ws : List ℝ) : ℝ :=
  A.div (sumA A t (List.zipWith A.mul rs ws)) (sumA A t' ws)

end Gcl
