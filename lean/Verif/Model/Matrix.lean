import Mathlib.Order.Defs.LinearOrder
import Verif.Model.Basic
/-!
# Model of graphicle/matrix.py

A two-dimensional numpy array of shape `(n, m)` is a function `Fin n → Fin m → R`.  The element type
`R` is an arbitrary type with `0`, `1` and a comparison, so infinities and nan are covered (rounding does not occur,
since nothing is computed with the elements).
-/
namespace Gcl
set_option autoImplicit false

/-- A 2-D numpy array of shape `(n, m)`.
Helper of `fillDiagonal` (graphicle/matrix.py:81-84, 156-157, 187-188). -/
abbrev Arr2 (n m : Nat) (R : Type) := Fin n → Fin m → R

/-- What the adjacency functions return: a boolean or a floating-point array.
Helper of `cutAdj` (graphicle/matrix.py:22-88). -/
inductive AdjMat (n m : Nat) (R : Type) where
  | bools (a : Arr2 n m Bool)
  | floats (a : Arr2 n m R)

/-- `np.fill_diagonal(adj, x)` (matrix.py:81-84, 156-157, 187-188). -/
def fillDiagonal {n m : Nat} {R : Type} (a : Arr2 n m R) (x : R) : Arr2 n m R :=
  fun i j => if i.val = j.val then x else a i j

/-- An argument that the code compares with `is True` and `is False`: the two booleans, or any other object
(`0`, `1`, `numpy.bool_`, `None`, ...), whatever its truth value.
Helper of `cutAdj`, `knnAdj`, `fcAdj` (graphicle/matrix.py:72-86, 131-158, 187). -/
inductive Flag where
  | tru | fls | other
  deriving DecidableEq

/-- A boolean as an argument.  Helper of `cutAdj`, `knnAdj`, `fcAdj` (graphicle/matrix.py:72-86, 131-158, 187). -/
def Flag.ofBool : Bool → Flag
  | true => .tru
  | false => .fls

instance : Coe Bool Flag := ⟨Flag.ofBool⟩

/-- `cut_adj` (matrix.py:22-88).  `mode` is the string passed. -/
def cutAdj {n m : Nat} {R : Type} [LT R] [DecidableLT R] [DecidableEq R] [Zero R] [One R]
    (matrix : Arr2 n m R) (cut : R) (mode : String) (selfLoop weighted : Flag) :
    Py (AdjMat n m R) :=
  let loops (adj : Arr2 n m R) : Arr2 n m R :=
    if selfLoop = .fls then fillDiagonal adj 0 else fillDiagonal adj 1
  let fin (mask : Arr2 n m Bool) : Py (AdjMat n m R) :=
    match weighted with
    | .tru => .ok (.floats (loops (fun i j => if mask i j then matrix i j else 0)))
    | .fls =>
      let adj := loops (fun i j => if mask i j then 1 else 0)
      .ok (.bools (fun i j => decide (adj i j ≠ 0)))
    | .other => .error .valueError
  if mode = "max" then fin (fun i j => decide (matrix i j < cut))
  else if mode = "min" then fin (fun i j => decide (cut < matrix i j))
  else .error .valueError

/-- The `dtype` argument of `knn_adj`: absent, a numpy floating-point type, or another type.
Helper of `knnAdj` (graphicle/matrix.py:90-159). -/
inductive DTypeArg where
  | absent | floating | other
  deriving DecidableEq

/-- `np.put_along_axis(adj, near, w, axis=0)` for one column (matrix.py:153): the listed rows are
written one after the other. -/
def putRows {n : Nat} {R : Type} (col : Fin n → R) : List (Fin n × R) → Fin n → R
  | [] => col
  | (i, w) :: rest => putRows (fun r => if r = i then w else col r) rest

/-- `knn_adj` (matrix.py:90-159) on a square array.  `argpart` is numpy's `argpartition` of one column:
`argpart col kth` lists the row numbers in the order numpy leaves them. `k` may be negative, in which
case numpy counts both `kth` and the end of the slice `knn_idxs[:k]` from the end.  numpy does not check `kth` for an
array without elements. -/
def knnAdj {n : Nat} {R : Type} [Zero R] [One R] (argpart : (Fin n → R) → Fin n → List (Fin n))
    (matrix : Arr2 n n R) (k : Int) (selfLoop weighted row : Flag) (dtype : DTypeArg) :
    Py (AdjMat n n R) :=
  let k : Int := if selfLoop = .fls then k + 1 else k
  let near : Py (Fin n → List (Fin n)) :=
    if n = 0 then .ok (fun _ => [])
    else
      match normIdx n k with
      | .error _ => .error .valueError
      | .ok kth =>
        if h : kth < n then .ok (fun j => (argpart (fun i => matrix i j) ⟨kth, h⟩).take kth)
        else .error .valueError
  match near with
  | .error e => .error e
  | .ok near =>
    let flip {S : Type} (a : Arr2 n n S) : Arr2 n n S := if row = .fls then fun i j => a j i else a
    let loops {S : Type} (a : Arr2 n n S) (z : S) : Arr2 n n S :=
      if selfLoop = .fls then fillDiagonal a z else a
    if weighted = .tru then
      if dtype = .other then .error .valueError
      else
        let adj : Arr2 n n R := fun i j =>
          putRows (fun _ => 0) ((near j).map (fun i => (i, matrix i j))) i
        .ok (.floats (loops (flip adj) 0))
    else
      let adj : Arr2 n n Bool := fun i j =>
        putRows (fun _ => false) ((near j).map (fun i => (i, true))) i
      .ok (.bools (loops (flip adj) false))

/-- `fc_adj` (matrix.py:161-190); the elements are the `1` and `0` of the dtype asked for. -/
def fcAdj {R : Type} [Zero R] [One R] (n : Int) (selfLoop : Flag) : Py (Arr2 n.toNat n.toNat R) :=
  if n < 0 then .error .valueError
  else
    let adj : Arr2 n.toNat n.toNat R := fun _ _ => 1
    if selfLoop = .fls then .ok (fillDiagonal adj 0) else .ok adj

end Gcl
