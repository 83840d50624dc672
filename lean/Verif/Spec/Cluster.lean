import Verif.Model.Cluster
import Mathlib.Data.Fintype.BigOperators
import Mathlib.Order.SymmDiff
/-! # Specification vocabulary for Jaccard distances, clustering and thread counts -/
namespace Gcl.Spec
set_option autoImplicit false
open Gcl

/-- The boolean mask of a set of positions. -/
def setMaskOf {n : Nat} (A : Finset (Fin n)) : List Bool := List.ofFn (fun i => decide (i ∈ A))

/-- Total weight of a set of positions. -/
def weightOf {n : Nat} (w : Fin n → ℝ) (A : Finset (Fin n)) : ℝ := ∑ i ∈ A, w i

/-- The neighbours of a node. -/
def neighbours {n : Nat} (adj : Fin n → Fin n → Bool) (i : Fin n) : Finset (Fin n) :=
  Finset.univ.filter (fun j => adj i j = true)

/-- Ordered pairs of distinct neighbours. -/
def neighbourPairs {n : Nat} (adj : Fin n → Fin n → Bool) (i : Fin n) : Finset (Fin n × Fin n) :=
  (neighbours adj i).offDiag

/-- Those of them that are adjacent. -/
def linkedPairs {n : Nat} (adj : Fin n → Fin n → Bool) (i : Fin n) : Finset (Fin n × Fin n) :=
  (neighbourPairs adj i).filter (fun p => adj p.1 p.2 = true)

/-- The thread counts kernels must see: the innermost enclosing scope's, else the outer count `t`;
nothing runs after a failure or an invalid count. The flag tells if the program completed. -/
def expected (limit : Int) : TProg → Int → List Int × Bool
  | .ret, _ => ([], true)
  | .fail _, _ => ([], false)
  | .kernel next, t => (t :: (expected limit next t).1, (expected limit next t).2)
  | .scope n body next, t =>
    if 1 ≤ n ∧ n ≤ limit then
      if (expected limit body n).2 then
        ((expected limit body n).1 ++ (expected limit next t).1, (expected limit next t).2)
      else ((expected limit body n).1, false)
    else ([], false)

end Gcl.Spec
