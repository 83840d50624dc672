import Verif.Model.RoundedSum
import Verif.Spec.Rounded
/-! # Specification: orders of summation -/
namespace Gcl.Spec
set_option autoImplicit false
open Gcl

/-- The order adds each of `n` terms once. -/
def Orders (n : Nat) (t : SumTree) : Prop := t.leaves.Perm (List.range n)

/-- The sum of the magnitudes. -/
def sumAbs (xs : List ℝ) : ℝ := (xs.map (fun x => |x|)).sum

/-- Adding one term after the other. -/
def sequential : Nat → SumTree
  | 0 => .leaf 0
  | n + 1 => .node (sequential n) (.leaf (n + 1))

end Gcl.Spec
