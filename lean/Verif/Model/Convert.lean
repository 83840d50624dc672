import Verif.Model.Basic
/-!
# Model of array construction

`_array_field`, `_reorder_pmu`, `_reorder_edges` (graphicle/data.py:349-452), the alias tables
(data.py:101-121) and the `__attrs_post_init__`, `__getitem__`, `__len__`, `data` members of the
array classes (graphicle/data.py:1137-1140, 1834-1838, 1938-1940, 2032-2034, 1963-1964, 2078-2080).

An `ndarray` is its shape and its elements in row-major order.  The element conversion
`np.asarray(values, dtype=dtype)` is the identity here (Model/Cast.lean adds it, C121), memory layout
(`_row_contiguous`, data.py:377-400) is not represented.
-/
namespace Gcl
set_option autoImplicit false

/-- A numpy array: shape and elements in row-major order.
Helper of `convertNd` (graphicle/data.py:432-443). -/
structure Nd (α : Type) where
  shape : List Nat
  flat : List α
  deriving DecidableEq, Repr

/-- A 1-D structured array: field names and records.
Helper of `reorder` (graphicle/data.py:349-360). -/
structure Structured (α : Type) where
  names : List String
  records : List (List α)
  deriving DecidableEq, Repr

/-- `is_flat`, graphicle/data.py:435. -/
def isFlat (shape : List Nat) : Bool :=
  match shape with
  | [] => true
  | [_] => true
  | _ :: c :: _ => c == 1

/-- The unstructured part of `converter`, graphicle/data.py:432-443: `array.shape[0]` of a 0-d
array is `IndexError`. -/
def convertNd {α : Type} (numCols : Nat) (a : Nd α) : Py (Nd α) :=
  if isFlat a.shape && numCols == 1 then .ok ⟨[a.flat.length], a.flat⟩
  else
    match a.shape with
    | [] => .error .indexError
    | n :: rest =>
      let cols := if isFlat a.shape then n else rest.headD 0
      if n ≠ 0 ∧ cols ≠ numCols then .error .valueError
      else .ok a

/-- `_MOMENTUM_MAP`, graphicle/data.py:111-118. -/
def momentumMap : List (String × String) :=
  [("x", "x"), ("px", "x"), ("y", "y"), ("py", "y"), ("z", "z"), ("pz", "z"),
   ("e", "e"), ("pe", "e"), ("E", "e")]

/-- `_EDGE_MAP`, graphicle/data.py:120. -/
def edgeMap : List (String × String) := [("in", "src"), ("src", "src"), ("out", "dst"), ("dst", "dst")]

/-- `map(MAP.__getitem__, names)`: `KeyError` at an unknown name.
Helper of `reorder` (graphicle/data.py:349-360). -/
def mapNames (m : List (String × String)) : List String → Py (List String)
  | [] => .ok []
  | n :: ns =>
    match Dict.get? m n with
    | none => .error .keyError
    | some c =>
      match mapNames m ns with
      | .ok cs => .ok (c :: cs)
      | .error e => .error e

/-- The column called `name` of one record.
Helper of `reorderRec` (graphicle/data.py:349-360). -/
def fieldOf {α : Type} (names : List String) (rec : List α) (name : String) : Option α :=
  Dict.get? (names.zip rec) name

/-- `array[name_reorder]`.
Helper of `reorder` (graphicle/data.py:349-360). -/
def reorderRec {α : Type} (names : List String) (order : List String) (rec : List α) : List α :=
  order.filterMap (fieldOf names rec)

/-- `_reorder_pmu` graphicle/data.py:349-360 and `_reorder_edges` data.py:363-374, which differ only
in their tables: rename external field names to canonical ones, then select the columns in canonical
order (`KeyError` if a component is missing). -/
def reorder {α : Type} (aliases : List (String × String)) (order : List String)
    (a : Structured α) : Py (Structured α) :=
  if a.names = order then .ok a
  else
    match mapNames aliases a.names with
    | .error e => .error e
    | .ok canon =>
      -- gcl_to_ext = dict(zip(canonical names, external names)): later fields win
      let toExt := Dict.ofPairs (canon.zip a.names)
      match mapNames toExt order with
      | .error e => .error e
      | .ok ext => .ok ⟨ext, a.records.map (reorderRec a.names ext)⟩

/-- `rfn.structured_to_unstructured`, used in graphicle/data.py:431. -/
def unstructure {α : Type} (a : Structured α) : Nd α :=
  ⟨[a.records.length, a.names.length], a.records.flatten⟩

/-- The structured branch of `converter`, graphicle/data.py:424-431. -/
def convertStructured {α : Type} (numCols : Nat) (a : Structured α) : Py (Nd α) :=
  if numCols = 4 then
    match reorder momentumMap ["x", "y", "z", "e"] a with
    | .error e => .error e
    | .ok b => convertNd numCols (unstructure b)
  else if numCols = 2 ∧ a.names.any (fun n => (Dict.get? edgeMap n).isSome) then
    match reorder edgeMap ["src", "dst"] a with
    | .error e => .error e
    | .ok b => convertNd numCols (unstructure b)
  else convertNd numCols (unstructure a)

/-- The wrapped array classes, by what differs in their construction.
Helper of `construct` (graphicle/data.py:1342-1345). -/
inductive Kind where
  | scalar    -- MaskArray, PdgArray, HelicityArray, StatusArray (graphicle/data.py:492, 1086, 1934, 2028)
  | momentum  -- MomentumArray (data.py:1338)
  | color     -- ColorArray (data.py:1830)
  | edges     -- AdjacencyList (data.py:2431)
  deriving DecidableEq, Repr

/-- Number of columns passed to `_array_field`.
Helper of `construct` (graphicle/data.py:1342-1345). -/
def Kind.cols : Kind → Nat
  | .scalar => 1
  | .momentum => 4
  | .color => 2
  | .edges => 2

/-- `__init__` with `__attrs_post_init__` (graphicle/data.py:1342-1345 for momenta, which reshapes to
`(-1, 4)`; the other classes keep the converted array): the stored `_data`. -/
def construct {α : Type} (k : Kind) (a : Nd α) : Py (Nd α) :=
  match convertNd k.cols a with
  | .error e => .error e
  | .ok b =>
    match k with
    | .momentum => .ok ⟨[b.flat.length / 4, 4], b.flat⟩
    | _ => .ok b

/-- The same for structured input.
Helper of `the converter` (graphicle/data.py:349-360, 432-443). -/
def constructStructured {α : Type} (k : Kind) (a : Structured α) : Py (Nd α) :=
  match convertStructured k.cols a with
  | .error e => .error e
  | .ok b =>
    match k with
    | .momentum => .ok ⟨[b.flat.length / 4, 4], b.flat⟩
    | _ => .ok b

/-- `len(array)`: `self._data.shape[0]` / `len(self._data)`
(graphicle/data.py:534, 1156, 1454, 1891, 1979, 2061, 2458). -/
def Nd.len {α : Type} (a : Nd α) : Nat := a.shape.headD 0

/-- `n` consecutive blocks of `k` elements.
Helper of `records` (graphicle/data.py:1438-1442, 1862-1866, 2512-2519). -/
def chunks {α : Type} (k : Nat) : Nat → List α → List (List α)
  | 0, _ => []
  | n + 1, l => l.take k :: chunks k n (l.drop k)

/-- The records shown by `array.data`: for multi-column classes `_data.view(dtype).reshape(-1)`
(graphicle/data.py:1438-1442, 1862-1866, 2512-2519), for the others the array itself. -/
def records {α : Type} (k : Kind) (a : Nd α) : List (List α) :=
  chunks k.cols (a.flat.length / k.cols) a.flat

/-- `self._data[i]` for an integer `i`: drops the first axis.
Helper of `getInt` (graphicle/data.py:524-527, 1178-1181, 1460-1463, 1886-1889, 1974-1977, 2056-2059). -/
def rowAt {α : Type} (a : Nd α) (i : Int) : Py (Nd α) :=
  match a.shape with
  | [] => .error .indexError
  | n :: rest =>
    let size := rest.foldl (· * ·) 1
    match normIdx n i with
    | .error e => .error e
    | .ok j => .ok ⟨rest, (a.flat.drop (j * size)).take size⟩

/-- `array[i]` for an integer `i`: `self.__class__(self._data[i])`
(graphicle/data.py:524-527, 1178-1181, 1460-1463, 1886-1889, 1974-1977, 2056-2059), with
`reshape(-1, 2)` in `AdjacencyList.__getitem__` (data.py:2477-2480). -/
def getInt {α : Type} (k : Kind) (a : Nd α) (i : Int) : Py (Nd α) :=
  match rowAt a i with
  | .error e => .error e
  | .ok r =>
    match k with
    | .edges => construct k ⟨[r.flat.length / 2, 2], r.flat⟩
    | _ => construct k r

end Gcl
