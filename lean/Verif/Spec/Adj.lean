import Mathlib.Logic.Relation
import Verif.Model.Adj
/-! # Specification vocabulary for graphs given by edge lists -/
namespace Gcl.Spec
set_option autoImplicit false

/-- `v` is the source or destination of some edge. -/
def IsVertex (es : List (Int × Int)) (v : Int) : Prop := ∃ e ∈ es, e.1 = v ∨ e.2 = v

/-- `ns` are the vertex ids in ascending order, each once. -/
def VertexList (es : List (Int × Int)) (ns : List Int) : Prop :=
  ns.Pairwise (· < ·) ∧ ∀ v, v ∈ ns ↔ IsVertex es v

/-- There is an edge from `u` to `v`. -/
def Step (es : List (Int × Int)) (u v : Int) : Prop := (u, v) ∈ es

/-- `v` can be reached from `u` along edges (possibly none). -/
def Reach (es : List (Int × Int)) : Int → Int → Prop := Relation.ReflTransGen (Step es)

/-- No vertex can be reached from itself along one or more edges. -/
def Acyclic (es : List (Int × Int)) : Prop := ∀ v, ¬ Relation.TransGen (Step es) v v

/-- Contract of `np.argsort(keys)`: a permutation of the positions listing the keys in
non-decreasing order. -/
def IsArgsort (keys : List Int) (perm : List Nat) : Prop :=
  perm.Perm (List.range keys.length) ∧
  (perm.filterMap (fun i => keys[i]?)).Pairwise (· ≤ ·)

/-- An n by n table. -/
def Square {W : Type} (n : Nat) (A : List (List W)) : Prop := A.length = n ∧ ∀ r ∈ A, r.length = n

/-- Entry (i, j) of a table. -/
def entry {W : Type} (A : List (List W)) (i j : Nat) : Option W := A[i]?.bind (fun r => r[j]?)

end Gcl.Spec
