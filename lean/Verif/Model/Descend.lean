import Verif.Model.Adj
import Verif.Model.Pdg
/-!
# Model of descendant searches

graphicle/select.py:168-344 and the breadth-first search of `scipy.sparse.csgraph` it calls.
-/
namespace Gcl
set_option autoImplicit false

/-- Column indices of row `p` of `adj._sparse_csr` (graphicle/data.py:2501-2503): the conversion from
coordinate format sums duplicates and sorts, so each column occurs once, in ascending order.  Stored
zeros (edges to non-positive ids) stay stored. -/
def csrRow (n : Nat) (entries : List (Nat × Nat × Bool)) (p : Nat) : List Nat :=
  (List.range n).filter (fun j => entries.any (fun t => t.1 == p && t.2.1 == j))

/-- Body of the inner loop of scipy's `_breadth_first_directed`: skip the head node and nodes that
already have a predecessor, otherwise append to the queue and record the predecessor.
Helper of `bfsLoop` (graphicle/select.py:254-288). -/
def bfsVisit (head p : Nat) (s : List Nat × List (Nat × Nat)) (c : Nat) :
    List Nat × List (Nat × Nat) :=
  if c = head then s
  else if s.2.any (fun x => x.1 == c) then s
  else (s.1 ++ [c], s.2 ++ [(c, p)])

/-- The `while` loop of scipy's `_breadth_first_directed`, run for at most `fuel` iterations; `q` is
the unprocessed part of `node_list`, `preds` the (node, predecessor) pairs recorded.
Helper of `bfsTree` (graphicle/select.py:254-288). -/
def bfsLoop (succ : Nat → List Nat) (head : Nat) :
    Nat → List Nat → List (Nat × Nat) → List Nat × List (Nat × Nat)
  | 0, q, preds => (q, preds)
  | _ + 1, [], preds => ([], preds)
  | fuel + 1, p :: q, preds =>
    let s := (succ p).foldl (bfsVisit head p) (q, preds)
    bfsLoop succ head fuel s.1 s.2

/-- `_breadth_first_tree(csr, vertex)` (scipy): remaining queue (empty iff the loop has finished
within `n` iterations) and the column indices of the tree, i.e. the nodes with a predecessor.  The
order of the indices is irrelevant here.
Helper of `vertexDescendants` (graphicle/select.py:254-288). -/
def bfsTree (n : Nat) (entries : List (Nat × Nat × Bool)) (head : Nat) : List Nat × List Nat :=
  let r := bfsLoop (csrRow n entries) head n [head] []
  (r.1, r.2.map Prod.fst)

/-- `vertex_descendants`, graphicle/select.py:254-288. -/
def vertexDescendants (es : List (Int × Int)) (vertex : Int) : Py (List Bool) :=
  let vertexMask := es.map (fun e => e.1 == vertex)
  if !(vertexMask.any id) then .ok (es.map (fun e => e.2 == vertex))
  else
    match toSparse es with
    | .error e => .error e
    | .ok (n, entries) =>
      match gather (entries.map (fun t => t.1)) (trueIdxs vertexMask) with
      | [] => .error .indexError
      | v :: _ =>
        let bft := (bfsTree n entries v).2
        let mask := entries.map (fun t => bft.contains t.1)
        setMask mask (entries.map (fun t => t.1 == v)) true

/-- `edge_descendants`, graphicle/select.py:291-316; `adj == edge` compares every edge with the
pair. -/
def edgeDescendants (es : List (Int × Int)) (edge : Int × Int) : Py (List Bool) :=
  match vertexDescendants es edge.2 with
  | .error e => .error e
  | .ok desc => setMask desc (es.map (fun e => e.1 == edge.1 && e.2 == edge.2)) true

/-- `hadron_vertices`, graphicle/select.py:319-343. -/
def hadronVertices (es : List (Int × Int)) (status : List Int) : Py (List Int) :=
  match (Key.mask (inRange status 80 (some 90) false)).apply es with
  | .error e => .error e
  | .ok sel => .ok (npUnique (sel.map (fun e => e.1)))

/-! ## find_vertex -/

/-- `df.pivot_table(index=direction, values="pdg", aggfunc=tuple)`, graphicle/select.py:222-226: for
each distinct index value, ascending, the codes of its rows in order. -/
def pivotTuples (rows : List (Int × Int)) : List (Int × List Int) :=
  (npUnique (rows.map (fun r => r.1))).map (fun v =>
    (v, (rows.filter (fun r => r.1 == v)).map (fun r => r.2)))

/-- Value of a joined cell, exploded: a missing cell (`NaN`) stays one row.
Helper of `vtxPdgs` (graphicle/select.py:220-239). -/
def explodeCell (c : Option (List Int)) : List (Option Int) :=
  match c with
  | some l => l.map some
  | none => [none]

/-- `vtx_pdgs`, graphicle/select.py:220-239: outer join of the two pivots on the vertex, sorted
descending, both columns exploded.  Rows are (vertex, pdg_in, pdg_out). -/
def vtxPdgs (es : List (Int × Int)) (pdg : List Int) : List (Int × Option Int × Option Int) :=
  let pclsIn := pivotTuples (List.zipWith (fun e c => (e.1, c)) es pdg)
  let pclsOut := pivotTuples (List.zipWith (fun e c => (e.2, c)) es pdg)
  let idx := npUnique (pclsOut.map (fun r => r.1) ++ pclsIn.map (fun r => r.1))
  let joined := idx.map (fun v =>
    (v, (pclsOut.find? (fun r => r.1 == v)).map Prod.snd,
        (pclsIn.find? (fun r => r.1 == v)).map Prod.snd))
  let desc := joined.reverse
  desc.flatMap (fun r => (explodeCell r.2.1).flatMap (fun i =>
    (explodeCell r.2.2).map (fun o => (r.1, i, o))))

/-- `find_vertex`, graphicle/select.py:168-251.  `DataFrame(graph.edges)` with a `pdg` column needs
equal lengths (`ValueError` from pandas).  Simplified: an event without edges is answered like any other, whereas
pandas' treatment of empty tables (object columns, empty joins) is not modelled. -/
def findVertex (es : List (Int × Int)) (pdg : List Int) (pdgsIn pdgsOut : Option (List Int)) :
    Py (List Int) :=
  match pdgsIn, pdgsOut with
  | none, none => .error .valueError
  | _, _ =>
    let sIn := pdgsIn.getD []
    let sOut := pdgsOut.getD []
    if pdg.length ≠ es.length then .error .valueError
    else
      let rows := vtxPdgs es pdg
      let subset (s : List Int) (l : List (Option Int)) := s.all (fun c => l.contains (some c))
      .ok ((npUnique (rows.map (fun r => r.1))).filter (fun v =>
        subset sIn ((rows.filter (fun r => r.1 == v)).map (fun r => r.2.1)) &&
        subset sOut ((rows.filter (fun r => r.1 == v)).map (fun r => r.2.2))))

end Gcl
