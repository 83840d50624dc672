import Verif.Model.Descend
/-!
# Model of `AdjacencyList` as an object with cached attributes

graphicle/data.py:2482-2652.  `_edge_relabel`, `_sparse_signed`, `_sparse_unsigned` and `_sparse_csr` are
`functools.cached_property`: computed on first use, stored in the instance, never dropped.  The edges can be
written in place, through the view `edges` (data.py:2511-2524) or through the array given to the constructor.

Simplifications: one write replaces the whole buffer (any in-place write is of this form; it cannot change the
number of edges); exact arithmetic for weights; the arrays of a returned `coo_array` are not written to.
-/
namespace Gcl
set_option autoImplicit false

/-- An `AdjacencyList`: its edges, its weights and what is stored for the cached attributes
(graphicle/data.py:2431-2432, 2486-2503). -/
structure AdjObj (W : Type) where
  edges : List (Int × Int)
  weights : List W := []
  relab : Option (List (Nat × Nat)) := none
  signed : Option (Nat × List (Nat × Nat × Bool)) := none
  unsigned : Option (Nat × List (Nat × Nat)) := none
  csr : Option (Nat × List (Nat × Nat × Bool)) := none

/-- Reading `_edge_relabel` (graphicle/data.py:2486-2489). -/
def AdjObj.readRelab {W : Type} (o : AdjObj W) : AdjObj W × List (Nat × Nat) :=
  match o.relab with
  | some r => (o, r)
  | none => ({ o with relab := some (relabel o.edges) }, relabel o.edges)

/-- `to_sparse(data)` (graphicle/data.py:2626-2652) with data on each edge: scipy refuses another number of values
(`ValueError`). -/
def AdjObj.toSparseWith {W D : Type} (o : AdjObj W) (data : List D) :
    AdjObj W × Py (Nat × List (Nat × Nat × D)) :=
  let r := o.readRelab
  match sparseSize r.2 with
  | .error e => (r.1, .error e)
  | .ok n =>
    if data.length = r.2.length then
      (r.1, .ok (n, List.zipWith (fun c d => (c.1, c.2, d)) r.2 data))
    else (r.1, .error .valueError)

/-- `to_sparse()` (graphicle/data.py:2626-2652): the data are the signs of the current destinations. -/
def AdjObj.toSparse {W : Type} (o : AdjObj W) : AdjObj W × Py (Nat × List (Nat × Nat × Bool)) :=
  o.toSparseWith (o.edges.map (fun e => decide (0 < e.2)))

/-- Reading `_sparse_signed` (graphicle/data.py:2491-2493). -/
def AdjObj.readSigned {W : Type} (o : AdjObj W) : AdjObj W × Py (Nat × List (Nat × Nat × Bool)) :=
  match o.signed with
  | some s => (o, .ok s)
  | none =>
    match o.toSparse with
    | (o', .error e) => (o', .error e)
    | (o', .ok s) => ({ o' with signed := some s }, .ok s)

/-- Reading `_sparse_unsigned` (graphicle/data.py:2495-2499). -/
def AdjObj.readUnsigned {W : Type} (o : AdjObj W) : AdjObj W × Py (Nat × List (Nat × Nat)) :=
  match o.unsigned with
  | some s => (o, .ok s)
  | none =>
    match o.readSigned with
    | (o', .error e) => (o', .error e)
    | (o', .ok s) =>
      let u := (s.1, s.2.map (fun t => (t.1, t.2.1)))
      ({ o' with unsigned := some u }, .ok u)

/-- Reading `_sparse_csr` (graphicle/data.py:2501-2503), kept as the entries it is made of. -/
def AdjObj.readCsr {W : Type} (o : AdjObj W) : AdjObj W × Py (Nat × List (Nat × Nat × Bool)) :=
  match o.csr with
  | some s => (o, .ok s)
  | none =>
    match o.readSigned with
    | (o', .error e) => (o', .error e)
    | (o', .ok s) => ({ o' with csr := some s }, .ok s)

/-- `roots` (graphicle/data.py:2540-2549). -/
def AdjObj.roots {W : Type} (o : AdjObj W) : AdjObj W × Py (List Bool) :=
  match o.readUnsigned with
  | (o', .error e) => (o', .error e)
  | (o', .ok (n, coords)) =>
    let inDegree := (List.range n).map (fun j => coords.countP (fun t => t.2 == j))
    let zeroIdxs := (List.range n).filter (fun j => inDegree[j]? == some 0)
    (o', .ok (coords.map (fun t => zeroIdxs.contains t.1)))

/-- `leaves` (graphicle/data.py:2551-2560). -/
def AdjObj.leaves {W : Type} (o : AdjObj W) : AdjObj W × Py (List Bool) :=
  match o.readUnsigned with
  | (o', .error e) => (o', .error e)
  | (o', .ok (n, coords)) =>
    let outDegree := (List.range n).map (fun i => coords.countP (fun t => t.1 == i))
    let zeroIdxs := (List.range n).filter (fun i => outDegree[i]? == some 0)
    (o', .ok (coords.map (fun t => zeroIdxs.contains t.2)))

/-- `matrix` (graphicle/data.py:2562-2587): weighted if there are weights (too few are `IndexError` in
`sum_duplicates`, surplus ones are not looked at), else counting. -/
def AdjObj.matrix {W : Type} [Add W] [Zero W] [One W] (o : AdjObj W) : AdjObj W × Py (List (List W)) :=
  if o.weights.length > 0 then
    match o.readSigned with
    | (o', .error e) => (o', .error e)
    | (o', .ok (n, entries)) =>
      if o.weights.length < entries.length then (o', .error .indexError)
      else (o', .ok (todense n (List.zipWith (fun t w => (t.1, t.2.1, w)) entries o.weights)))
  else
    match o.readUnsigned with
    | (o', .error e) => (o', .error e)
    | (o', .ok (n, coords)) => (o', .ok (todense n (coords.map (fun t => (t.1, t.2, (1 : W))))))

/-- `vertex_descendants(adj, vertex)` (graphicle/select.py:254-288) on the object. -/
def AdjObj.descendants {W : Type} (o : AdjObj W) (vertex : Int) : AdjObj W × Py (List Bool) :=
  let vertexMask := o.edges.map (fun e => e.1 == vertex)
  if !(vertexMask.any id) then (o, .ok (o.edges.map (fun e => e.2 == vertex)))
  else
    match o.readSigned with
    | (o1, .error e) => (o1, .error e)
    | (o1, .ok (_, entries)) =>
      match gather (entries.map (fun t => t.1)) (trueIdxs vertexMask) with
      | [] => (o1, .error .indexError)
      | v :: _ =>
        match o1.readCsr with
        | (o2, .error e) => (o2, .error e)
        | (o2, .ok (m, centries)) =>
          let bft := (bfsTree m centries v).2
          let mask := entries.map (fun t => bft.contains t.1)
          (o2, setMask mask (entries.map (fun t => t.1 == v)) true)

/-- `copy` (graphicle/data.py:2482-2484): a new instance of the edges; nothing stored, no weights. -/
def AdjObj.copy {W : Type} (o : AdjObj W) : AdjObj W := { edges := o.edges }

/-- `__getitem__` (graphicle/data.py:2477-2480): a new instance of the selected edges. -/
def AdjObj.getitem {W : Type} (o : AdjObj W) (k : Key) : Py (AdjObj W) :=
  match k.apply o.edges with
  | .error e => .error e
  | .ok d => .ok { edges := d }

/-- What a user does with the object: reads (graphicle/data.py:2540-2652, select.py:254-288), writes to the edges
(data.py:2511-2524) and setting `weights` (data.py:2432). -/
inductive AOp (W : Type) where
  | roots | leaves | matrix | sparse
  | descendants (v : Int)
  | write (es : List (Int × Int))
  | setWeights (ws : List W)

/-- The object after one operation (graphicle/data.py:2431-2652); a write of another number of edges is refused by
numpy and changes nothing. -/
def AOp.run {W : Type} [Add W] [Zero W] [One W] (o : AdjObj W) : AOp W → AdjObj W
  | .roots => o.roots.1
  | .leaves => o.leaves.1
  | .matrix => o.matrix.1
  | .sparse => o.toSparse.1
  | .descendants v => (o.descendants v).1
  | .write es => if es.length = o.edges.length then { o with edges := es } else o
  | .setWeights ws => { o with weights := ws }

/-- The object after a history (graphicle/data.py:2431-2652). -/
def runAdj {W : Type} [Add W] [Zero W] [One W] (o : AdjObj W) : List (AOp W) → AdjObj W
  | [] => o
  | op :: rest => runAdj (op.run o) rest

end Gcl
