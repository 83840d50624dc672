import Verif.Model.Iter
/-!
# Model of events subscripted by integers, and of iterating over events

`ParticleSet.__getitem__`, `Graphicle.__getitem__` (graphicle/data.py:2256-2257, 2710-2711, `_composite_getitem`
2174-2177) with an integer, where the arrays' buffers matter (`ColorArray` keeps a single record as a flat buffer).
Neither class defines `__iter__` (nor do their bases, base.py:178-213): Python iterates over them by calling
`__getitem__` with 0, 1, 2, ... until it raises `IndexError`.

Simplifications: all buffers have the same type of elements (conversions are in Model/Cast.lean); `adj` stands for the
edges of the adjacency list, whose weights are dropped by its subscript (data.py:2477-2480).
-/
namespace Gcl
set_option autoImplicit false

/-- The attributes of `ParticleSet` (graphicle/data.py:2249-2254) and `adj` of `Graphicle` (data.py:2708). -/
inductive Attr where
  | pdg | pmu | color | helicity | status | final | adj
  deriving DecidableEq, Repr

/-- The class of the attribute (graphicle/data.py:2249-2254, 2708). -/
def Attr.kind : Attr → Kind
  | .pmu => .momentum
  | .color => .color
  | .adj => .edges
  | _ => .scalar

/-- `ParticleSet.__annotations__` (graphicle/data.py:2155-2158, 2249-2254). -/
def particleAttrs : List Attr := [.pdg, .pmu, .color, .helicity, .status, .final]

/-- An event: the buffer of each attribute (graphicle/data.py:2249-2254, 2707-2708).  A `ParticleSet` is an event
without edges. -/
abbrev NdEvent (α : Type) := Attr → Nd α

/-- The buffer of an attribute that was not given (graphicle/data.py:445-447, `Factory` of an empty array; momenta are
reshaped, 1342-1345). -/
def emptyNd {α : Type} (k : Kind) : Nd α :=
  match k with
  | .momentum => ⟨[0, 4], []⟩
  | _ => ⟨[0], []⟩

/-- An event without records (graphicle/data.py:2249-2254, 2707-2708). -/
def emptyEvent {α : Type} : NdEvent α := fun a => emptyNd a.kind

/-- The event `h` with attribute `a` replaced.
Helper of `getAttrs` (graphicle/data.py:2174-2177). -/
def NdEvent.with {α : Type} (h : NdEvent α) (a : Attr) (b : Nd α) : NdEvent α := fun x => if x = a then b else h x

/-- `_composite_getitem` (graphicle/data.py:2174-2177) over the attributes `as`, with an integer: empty attributes are left
out (2161-2171), the others are subscripted in order, and the first exception is raised. -/
def getAttrs {α : Type} (e : NdEvent α) (i : Int) (h : NdEvent α) : List Attr → Py (NdEvent α)
  | [] => .ok h
  | a :: as =>
    if (e a).len = 0 then getAttrs e i h as
    else
      match getInt a.kind (e a) i with
      | .ok b => getAttrs e i (h.with a b) as
      | .error x => .error x

/-- `event[i]` for an integer `i` (graphicle/data.py:2256-2257, 2710-2711): the particles, then the edges.  (A
`ParticleSet` has no edges.) -/
def NdEvent.getInt {α : Type} (e : NdEvent α) (i : Int) : Py (NdEvent α) :=
  getAttrs e i emptyEvent (particleAttrs ++ [.adj])

/-- `_composite_len` (graphicle/data.py:2184-2185). -/
def NdEvent.len {α : Type} (e : NdEvent α) : Nat :=
  (((particleAttrs ++ [Attr.adj]).map (fun a => (e a).len)).find? (fun n => decide (0 < n))).getD 0

/-- `serialize` over the attributes `as` in order; the first exception is raised (graphicle/data.py:2392-2399,
2885-2889). -/
def serializeAttrs {α : Type} (e : NdEvent α) : List Attr → Py (List (Attr × List (List α)))
  | [] => .ok []
  | a :: as =>
    match serializeArr a.kind (e a) with
    | .error x => .error x
    | .ok rs =>
      match serializeAttrs e as with
      | .error x => .error x
      | .ok rest => .ok ((a, rs) :: rest)

/-- `event.serialize()` (graphicle/data.py:2885-2889 with 2392-2399). -/
def NdEvent.serialize {α : Type} (e : NdEvent α) : Py (List (Attr × List (List α))) :=
  serializeAttrs e (particleAttrs ++ [.adj])

/-- Whether a row of the table can be read from the attributes `as`: empty ones are skipped, the others are iterated over
(graphicle/data.py:2278-2293). -/
def readRow {α : Type} (e : NdEvent α) : List Attr → Py Unit
  | [] => .ok ()
  | a :: as =>
    if (e a).len = 0 then readRow e as
    else
      match iterate a.kind (e a) with
      | .error x => .error x
      | .ok _ => readRow e as

/-- Whether `str(event)` raises (graphicle/data.py:2719-2726 with 2270-2294): `zip` reads the columns in order, then
`map` reads the edges, if the particles gave a row.  What is printed otherwise is in Model/Table.lean. -/
def NdEvent.print {α : Type} (e : NdEvent α) : Py Unit :=
  match readRow e particleAttrs with
  | .error x => .error x
  | .ok () => if particleAttrs.any (fun a => decide ((e a).len ≠ 0)) then readRow e [.adj] else .ok ()

/-! ## Iterating with `__getitem__` -/

/-- Outcome of `next(iterator)`: an item, the end, or an exception.
Helper of `SeqIter.next` (graphicle/data.py:2256-2257, 2710-2711). -/
inductive Step (β : Type) where
  | item (v : β)
  | stop
  | raised (e : PyErr)

/-- Python's iterator over an object with `__getitem__` only: the next index, until it has ended.
Helper of `SeqIter.next` (graphicle/data.py:2256-2257, 2710-2711). -/
structure SeqIter where
  index : Nat := 0
  ended : Bool := false

/-- `next(iterator)`: calls `__getitem__(index)` (graphicle/data.py:2256-2257, 2710-2711); `IndexError` ends the
iteration for good, any other exception is passed on. -/
def SeqIter.next {β : Type} (get : Int → Py β) (s : SeqIter) : Step β × SeqIter :=
  if s.ended then (.stop, s)
  else
    match get (s.index : Int) with
    | .ok v => (.item v, { s with index := s.index + 1 })
    | .error .indexError => (.stop, { s with ended := true })
    | .error e => (.raised e, s)

/-- The outcomes of `m` calls of `next`, starting from state `s`.
Helper of iteration over `event` (graphicle/data.py:2256-2257, 2710-2711). -/
def nexts {β : Type} (get : Int → Py β) (s : SeqIter) : Nat → List (Step β)
  | 0 => []
  | m + 1 => (s.next get).1 :: nexts get (s.next get).2 m

end Gcl
