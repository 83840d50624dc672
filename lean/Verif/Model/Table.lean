import Verif.Model.Composite
/-!
# Model of the printed tables

`_table_repr` (graphicle/data.py:295-346), `ParticleSet._table_list`, `_table_str`
(graphicle/data.py:2270-2298) and `Graphicle._table_str` (graphicle/data.py:2719-2726).

What is handed to `tabulate` (headers, rows, format) and the line added below it are modelled; the layout done by
`tabulate` is not.  A `map` iterator is the list of the items it has still to give.
-/
namespace Gcl
set_option autoImplicit false

/-- A cell of a table.
Helper of `tableRepr` (graphicle/data.py:295-346). -/
inductive Cell (α : Type) where
  | text (s : String)
  | int (i : Int)
  | num (x : α)
  | bool (b : Bool)
  | missing
  deriving DecidableEq

/-- Appending to `collections.deque(maxlen=n)`: the oldest item falls out when it is full.
Helper of `itTail` (graphicle/data.py:295-346). -/
def dequePush {α : Type} (n : Nat) (q : List α) (x : α) : List α :=
  let q' := q ++ [x]
  if n < q'.length then q'.drop 1 else q'

/-- `mit.tail(n, iterator)`: the iterator is consumed into `deque(maxlen=n)`.
Helper of `tableRepr` (graphicle/data.py:295-346). -/
def itTail {α : Type} (n : Nat) (l : List α) : List α := l.foldl (dequePush n) []

/-- What is shown: the arguments of `tabulate` and the line below the table.
Helper of `tableRepr` (graphicle/data.py:295-346). -/
structure Shown (α : Type) where
  headers : List String
  rows : List (List (Cell α))
  html : Bool
  footer : String

/-- `_table_repr`, graphicle/data.py:295-346.  `mit.take(5, rows)` consumes five items of the iterator, so
`mit.tail` sees the others. -/
def tableRepr {α : Type} (headers : List String) (rows : List (List (Cell α))) (numRows : Nat) (html : Bool)
    (maxRows : Nat := 60) : Shown α :=
  let rows' :=
    if numRows > maxRows then
      let head := rows.take 5
      let rest := rows.drop 5
      let miss := List.replicate headers.length Cell.missing
      let tail := itTail 5 rest
      head ++ [miss] ++ tail
    else rows
  let stat := toString numRows ++ " particles × " ++ toString headers.length ++ " attributes"
  ⟨headers, rows', html, if html then stat else "[" ++ stat ++ "]"⟩

/-- `zip(*columns)` followed by `mit.collapse` on each row, graphicle/data.py:2292-2293; each column has been
given with its records already flattened.  `zip()` of no columns is empty. -/
def zipColumns {α : Type} : List (List (List α)) → List (List α)
  | [] => []
  | [c] => c
  | c :: cs => List.zipWith (· ++ ·) c (zipColumns cs)

/-- One iteration of the loop, graphicle/data.py:2278-2291: an empty column is left out. -/
def tableColumn {α : Type} (headers : List String) (column : List (List (Cell α))) :
    List (List String × List (List (Cell α))) :=
  if listTruthy column then [(headers, column)] else []

/-- `ParticleSet._table_list`, graphicle/data.py:2270-2294; `name` is the lookup of the particle name. -/
def PSet.tableList {α : Type} (name : Int → String) (p : PSet (α × α × α × α)) :
    List String × List (List (Cell α)) :=
  let cols :=
    tableColumn ["name"] (p.pdg.map (fun c => [Cell.text (name c)])) ++
    tableColumn ["px", "py", "pz", "energy"]
      (p.pmu.map (fun m => [Cell.num m.1, Cell.num m.2.1, Cell.num m.2.2.1, Cell.num m.2.2.2])) ++
    tableColumn ["color", "anticolor"] (p.color.map (fun c => [Cell.int c.1, Cell.int c.2])) ++
    tableColumn ["helicity"] (p.helicity.map (fun c => [Cell.int c])) ++
    tableColumn ["status"] (p.status.map (fun c => [Cell.int c])) ++
    tableColumn ["final"] (p.final.map (fun c => [Cell.bool c]))
  (cols.flatMap Prod.fst, zipColumns (cols.map Prod.snd))

/-- `ParticleSet._table_str`, graphicle/data.py:2296-2298. -/
def PSet.table {α : Type} (name : Int → String) (p : PSet (α × α × α × α)) (html : Bool) : Shown α :=
  tableRepr (p.tableList name).1 (p.tableList name).2 p.len html

/-- `Graphicle._table_str`, graphicle/data.py:2719-2726. -/
def Graph.table {α W : Type} (name : Int → String) (g : Graph (α × α × α × α) W) (html : Bool) : Shown α :=
  let t := g.particles.tableList name
  if g.adj.truthy then
    tableRepr (t.1 ++ ["src", "dst"])
      (List.zipWith (fun row (e : Int × Int) => row ++ [Cell.int e.1, Cell.int e.2]) t.2 g.adj.edges) g.len html
  else tableRepr t.1 t.2 g.len html

end Gcl
