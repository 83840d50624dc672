import Mathlib.Algebra.BigOperators.Group.List.Basic
import Verif.Model.Composite
/-!
# Model of `AdjacencyList` as a graph

graphicle/data.py:2487-2657.  Vertex ids are integers, an edge list is the list of (src, dst) pairs.
Sparse matrices (`scipy.sparse.coo_array`) are lists of (row, column, value) triples.
-/
namespace Gcl
set_option autoImplicit false

/-- Insertion into an ascending list without repetitions.
Helper of `npUnique` (graphicle/data.py:2486-2489). -/
def insertUniq (x : Int) : List Int → List Int
  | [] => [x]
  | y :: ys => if x < y then x :: y :: ys else if x = y then y :: ys else y :: insertUniq x ys

/-- `np.unique`: the distinct values in ascending order.
Helper of `relabel` (graphicle/data.py:2486-2489). -/
def npUnique (l : List Int) : List Int := l.foldr insertUniq []

/-- `self._data` flattened: source and destination of every edge in turn.
Helper of `relabel` (graphicle/data.py:2486-2489). -/
def flatIds (es : List (Int × Int)) : List Int := es.flatMap (fun e => [e.1, e.2])

/-- `_edge_relabel`, graphicle/data.py:2486-2489: `np.unique(..., return_inverse=True)` replaces each
id by its position among the ascending distinct ids. -/
def relabel (es : List (Int × Int)) : List (Nat × Nat) :=
  let u := npUnique (flatIds es)
  es.map (fun e => (u.idxOf e.1, u.idxOf e.2))

/-- `np.max(abs_edges) + 1`, graphicle/data.py:2646; the maximum of an empty array is `ValueError`. -/
def sparseSize (rs : List (Nat × Nat)) : Py Nat :=
  match rs with
  | [] => .error .valueError
  | _ => .ok ((rs.foldl (fun m r => max m (max r.1 r.2)) 0) + 1)

/-- `to_sparse`, graphicle/data.py:2626-2652, without `data` argument: size and the entries
(row, column, whether the destination id is positive). -/
def toSparse (es : List (Int × Int)) : Py (Nat × List (Nat × Nat × Bool)) :=
  match sparseSize (relabel es) with
  | .error e => .error e
  | .ok n => .ok (n, List.zipWith (fun r e => (r.1, r.2, decide (0 < e.2))) (relabel es) es)

/-- The line `unsort_nodes[np.argsort(np.abs(unsort_nodes))]` for a given permutation, helper of
`nodes` (graphicle/data.py:2526-2538). -/
def nodesWith (perm : List Nat) (es : List (Int × Int)) : List Int :=
  gather (npUnique (flatIds es)) perm

/-- `nodes`, graphicle/data.py:2526-2538. `argsort` is `np.argsort` with its default kind, which is
not stable: hence a parameter. `np.abs` of the smallest 32 bit integer is that integer. -/
def nodes (argsort : List Int → List Nat) (es : List (Int × Int)) : List Int :=
  nodesWith (argsort ((npUnique (flatIds es)).map (absWrap 32))) es

/-- `roots`, graphicle/data.py:2540-2549: column sums, the zero ones, membership of each row. -/
def roots (es : List (Int × Int)) : Py (List Bool) :=
  match toSparse es with
  | .error e => .error e
  | .ok (n, entries) =>
    let inDegree := (List.range n).map (fun j => entries.countP (fun t => t.2.1 == j))
    let zeroIdxs := (List.range n).filter (fun j => inDegree[j]? == some 0)
    .ok (entries.map (fun t => zeroIdxs.contains t.1))

/-- `leaves`, graphicle/data.py:2551-2560: row sums, the zero ones, membership of each column. -/
def leaves (es : List (Int × Int)) : Py (List Bool) :=
  match toSparse es with
  | .error e => .error e
  | .ok (n, entries) =>
    let outDegree := (List.range n).map (fun i => entries.countP (fun t => t.1 == i))
    let zeroIdxs := (List.range n).filter (fun i => outDegree[i]? == some 0)
    .ok (entries.map (fun t => zeroIdxs.contains t.2.1))

/-- `coo_array.todense` after `sum_duplicates`: entry (i, j) is the sum of the values stored there.
Helper of `matrixUnweighted` (graphicle/data.py:2562-2587). -/
def todense {W : Type} [Add W] [Zero W] (n : Nat) (entries : List (Nat × Nat × W)) : List (List W) :=
  (List.range n).map (fun i => (List.range n).map (fun j =>
    ((entries.filter (fun t => t.1 == i && t.2.1 == j)).map (fun t => t.2.2)).sum))

/-- `matrix` without weights, graphicle/data.py:2562-2587: every entry counts one. -/
def matrixUnweighted (es : List (Int × Int)) : Py (List (List Int)) :=
  match toSparse es with
  | .error e => .error e
  | .ok (n, entries) => .ok (todense n (entries.map (fun t => (t.1, t.2.1, (1 : Int)))))

/-- `matrix` with one weight per edge, graphicle/data.py:2562-2587 with `_sparse_weighted`
(2504-2508).  Exact addition instead of floating point. -/
def matrixWeighted {W : Type} [Add W] [Zero W] (es : List (Int × Int)) (ws : List W) :
    Py (List (List W)) :=
  match toSparse es with
  | .error e => .error e
  | .ok (n, entries) => .ok (todense n (List.zipWith (fun t w => (t.1, t.2.1, w)) entries ws))

/-- `coo_array(adj_matrix)`: the nonzero entries in row-major order.
Helper of `fromMatrix` (graphicle/data.py:2589-2624). -/
def cooOfDense {W : Type} [Zero W] [DecidableEq W] (A : List (List W)) : List (Nat × Nat × W) :=
  (A.zipIdx.map (fun r =>
    (r.1.zipIdx.filter (fun c => c.1 ≠ 0)).map (fun c => (r.2, c.2, c.1)))).flatten

/-- `coo_array.setdiag(0.0)` on an n by n array: diagonal entries are removed and explicit zeros are
appended for the whole diagonal.
Helper of `fromMatrix` (graphicle/data.py:2589-2624). -/
def setdiagZero {W : Type} [Zero W] (n : Nat) (t : List (Nat × Nat × W)) : List (Nat × Nat × W) :=
  t.filter (fun e => e.1 != e.2.1) ++ (List.range n).map (fun i => (i, i, 0))

/-- `from_matrix`, graphicle/data.py:2589-2624: edges and (with `weighted`) weights. -/
def fromMatrix {W : Type} [Zero W] [DecidableEq W] (A : List (List W)) (weighted selfLoop : Bool) :
    Adj W :=
  let t := cooOfDense A
  let t := if selfLoop then setdiagZero A.length t else t
  { edges := t.map (fun e => ((e.1 : Int), (e.2.1 : Int)))
    weights := if weighted then t.map (fun e => e.2.2) else [] }

end Gcl
