import Mathlib.Data.Fintype.Card
import Mathlib.Data.Fintype.Fin
import Mathlib.Order.Defs.LinearOrder
import Verif.Model.Matrix
/-! # Specification vocabulary for the adjacency matrices -/
namespace Gcl.Spec
set_option autoImplicit false
open Gcl

/-- Entry `(i, j)` of an adjacency array is an edge (nonzero / `True`). -/
def Edge {n m : Nat} {R : Type} [Zero R] (a : AdjMat n m R) (i : Fin n) (j : Fin m) : Prop :=
  match a with
  | .bools b => b i j = true
  | .floats f => f i j ≠ 0

/-- The contract of `numpy.argpartition` on one column: a permutation of the row numbers with no larger
element before position `kth` and no smaller one after it. -/
structure IsArgpartition {n : Nat} {R : Type} [LE R] (col : Fin n → R) (kth : Fin n)
    (out : List (Fin n)) : Prop where
  nodup : out.Nodup
  complete : ∀ i, i ∈ out
  before : ∀ (p : Nat) (i c : Fin n), p < kth → out[p]? = some i → out[kth.val]? = some c →
    col i ≤ col c
  after : ∀ (p : Nat) (i c : Fin n), kth < p → out[p]? = some i → out[kth.val]? = some c →
    col c ≤ col i

/-- `S` consists of `k` nodes nearest to node `j`: nobody outside is strictly nearer than anybody
inside (`dist i` being the affinity of `i`). -/
def NearestSet {n : Nat} {R : Type} [LE R] (dist : Fin n → R) (k : Nat) (S : Finset (Fin n)) : Prop :=
  S.card = k ∧ ∀ i ∈ S, ∀ i', i' ∉ S → dist i ≤ dist i'

end Gcl.Spec
