import Verif.Model.Convert
/-! # Specification vocabulary for array construction -/
namespace Gcl.Spec
set_option autoImplicit false
open Gcl

/-- The number of elements matches the shape. -/
def Nd.WF {α : Type} (a : Nd α) : Prop := a.flat.length = a.shape.foldl (· * ·) 1

/-- Row `i` of a table with `k` columns stored row by row. -/
def rowOf {α : Type} (k : Nat) (flat : List α) (i : Nat) : List α := (flat.drop (i * k)).take k

/-- `rs` are the `n` rows, in order, of a table with `k` columns. -/
def IsRows {α : Type} (k n : Nat) (flat : List α) (rs : List (List α)) : Prop :=
  rs.length = n ∧ ∀ i, i < n → rs[i]? = some (rowOf k flat i) ∧ (rowOf k flat i).length = k

/-- The four canonical components and the accepted spellings of each. -/
def MomentumAlias : String → String → Prop
  | "x", n => n = "x" ∨ n = "px"
  | "y", n => n = "y" ∨ n = "py"
  | "z", n => n = "z" ∨ n = "pz"
  | "e", n => n = "e" ∨ n = "pe" ∨ n = "E"
  | _, _ => False

/-- The two edge components and the accepted spellings of each. -/
def EdgeAlias : String → String → Prop
  | "src", n => n = "src" ∨ n = "in"
  | "dst", n => n = "dst" ∨ n = "out"
  | _, _ => False

end Gcl.Spec
