import Verif.Model.Convert
import Verif.Model.Pdg
/-!
# Model of `ParticleSet`, `AdjacencyList` (as a container) and `Graphicle`

graphicle/data.py:2155-2400, 2477-2485, 2680-2894.  Every attribute is the list of its records;
`M` is the type of a four-momentum record and `W` the type of an edge weight.  Buffers and aliasing
are not represented here (see `LheBuf` below for the one place where they matter, and
`Model/Heap.lean`).
-/
namespace Gcl
set_option autoImplicit false

/-- `ParticleSet`, graphicle/data.py:2211-2259. -/
structure PSet (M : Type) where
  pdg : List Int := []
  pmu : List M := []
  color : List (Int × Int) := []
  helicity : List Int := []
  status : List Int := []
  final : List Bool := []

/-- `AdjacencyList`, graphicle/data.py:2403-2437 (edge list and weights). -/
structure Adj (W : Type) where
  edges : List (Int × Int) := []
  weights : List W := []

/-- `Graphicle`, graphicle/data.py:2680-2709. -/
structure Graph (M W : Type) where
  particles : PSet M := {}
  adj : Adj W := {}

/-- `_truthy`, graphicle/data.py:455-457: the truth value of every array class (graphicle/data.py:1165-1166,
1894-1895, 1982-1983, 2064-2065), the length being that of the data (graphicle/data.py:1156-1157, 1891-1892,
1979-1980, 2061-2062). -/
def listTruthy {α : Type} (a : List α) : Bool := !(a.length == 0)

/-- One attribute in `_composite_getitem` (graphicle/data.py:2174-2177, 2161-2171): falsy attributes
are left out, so the result gets the default, empty one. -/
def getCol {α : Type} (k : Key) (a : List α) : Py (List α) :=
  if listTruthy a then k.apply a else .ok []

/-- `ParticleSet.__getitem__`, graphicle/data.py:2256-2257 with `_composite_getitem` 2174-2177. -/
def PSet.get {M : Type} (p : PSet M) (k : Key) : Py (PSet M) := do
  let pdg ← getCol k p.pdg
  let pmu ← getCol k p.pmu
  let color ← getCol k p.color
  let helicity ← getCol k p.helicity
  let status ← getCol k p.status
  let final ← getCol k p.final
  return { pdg, pmu, color, helicity, status, final }

/-- `AdjacencyList.__getitem__`, graphicle/data.py:2477-2480: the weights are not passed on. -/
def Adj.get {W : Type} (a : Adj W) (k : Key) : Py (Adj W) := do
  let edges ← k.apply a.edges
  return { edges }

/-- `_composite_bool` for `ParticleSet`, graphicle/data.py:2180-2181. -/
def PSet.truthy {M : Type} (p : PSet M) : Bool :=
  [listTruthy p.pdg, listTruthy p.pmu, listTruthy p.color, listTruthy p.helicity,
    listTruthy p.status, listTruthy p.final].any id

/-- `AdjacencyList.__bool__`, graphicle/data.py:2461-2462. -/
def Adj.truthy {W : Type} (a : Adj W) : Bool := listTruthy a.edges

/-- `_composite_bool` for `Graphicle`, graphicle/data.py:2180-2181, 2713-2714. -/
def Graph.truthy {M W : Type} (g : Graph M W) : Bool := [g.particles.truthy, g.adj.truthy].any id

/-- `it.compress` in `_nonempty_dsets`, graphicle/data.py:2161-2171: a falsy attribute is left out, so
the default is used for it. -/
def keepIf {α : Type} (truthy : Bool) (value : Py α) (default : α) : Py α :=
  if truthy then value else .ok default

/-- `Graphicle.__getitem__`, graphicle/data.py:2710-2711 with `_composite_getitem` 2174-2177. -/
def Graph.get {M W : Type} (g : Graph M W) (k : Key) : Py (Graph M W) := do
  let particles ← keepIf g.particles.truthy (g.particles.get k) {}
  let adj ← keepIf g.adj.truthy (g.adj.get k) {}
  return { particles, adj }

/-- `next(filter(0 <, lengths), 0)` of `_composite_len`, graphicle/data.py:2184-2185. -/
def firstPositive (lens : List Nat) : Nat := (lens.find? (fun n => decide (0 < n))).getD 0

/-- `ParticleSet.__len__`, graphicle/data.py:2267-2268. -/
def PSet.len {M : Type} (p : PSet M) : Nat :=
  firstPositive [p.pdg.length, p.pmu.length, p.color.length, p.helicity.length, p.status.length,
    p.final.length]

/-- `Graphicle.__len__`, graphicle/data.py:2716-2717. -/
def Graph.len {M W : Type} (g : Graph M W) : Nat :=
  firstPositive [g.particles.len, g.adj.edges.length]

/-- One attribute of `_composite_copy`; the arrays copy their data (graphicle/data.py:1882-1884, 1970-1972,
2086-2088).
Helper of `PSet.copy` (graphicle/data.py:2306-2308). -/
def copyCol {α : Type} (a : List α) : List α := if listTruthy a then a else []

/-- `ParticleSet.copy`, graphicle/data.py:2306-2308 with `_composite_copy` 2188-2191. -/
def PSet.copy {M : Type} (p : PSet M) : PSet M :=
  { pdg := copyCol p.pdg, pmu := copyCol p.pmu, color := copyCol p.color,
    helicity := copyCol p.helicity, status := copyCol p.status, final := copyCol p.final }

/-- `AdjacencyList.copy`, graphicle/data.py:2482-2484: the weights are not passed on. -/
def Adj.copy {W : Type} (a : Adj W) : Adj W := { edges := a.edges }

/-- `Graphicle.copy`, graphicle/data.py:2734-2736. -/
def Graph.copy {M W : Type} (g : Graph M W) : Graph M W :=
  { particles := if g.particles.truthy then g.particles.copy else {}
    adj := if g.adj.truthy then g.adj.copy else {} }

/-- Truth value of `x == y` for two numeric array attributes: `_array_eq` (graphicle/data.py:263-267)
gives an elementwise `MaskArray`, whose truth value is `_truthy` (length not zero).  Operands of one
record are broadcast, other length mismatches are `ValueError` (NumPy ≥ 1.25). -/
def attrEqTruth {α : Type} (x y : List α) : Py Bool :=
  if x.length = y.length then .ok (x.length != 0)
  else if x.length = 1 then .ok (y.length != 0)
  else if y.length = 1 then .ok (x.length != 0)
  else .error .valueError

/-- The same for `final`: `_mask_eq` (graphicle/data.py:603-621) requires equal shapes. -/
def maskEqTruth (x y : List Bool) : Py Bool :=
  if x.length = y.length then .ok (x.length != 0) else .error .valueError

/-- `a and b` where both may raise and `b` is evaluated only if `a` is truthy.
Helper of `PSet.eqTruth` (graphicle/data.py:2210). -/
def pyAnd (a : Py Bool) (b : Py Bool) : Py Bool :=
  match a with
  | .ok true => b
  | r => r

/-- Truth value of the `__eq__` generated by `@define` for `ParticleSet` (graphicle/data.py:2210),
which chains the attribute comparisons in order; the two operands share no attribute object. -/
def PSet.eqTruth {M : Type} (p q : PSet M) : Py Bool :=
  pyAnd (attrEqTruth p.pdg q.pdg) (pyAnd (attrEqTruth p.pmu q.pmu)
    (pyAnd (attrEqTruth p.color q.color) (pyAnd (attrEqTruth p.helicity q.helicity)
      (pyAnd (attrEqTruth p.status q.status) (maskEqTruth p.final q.final)))))

/-- `status_map` of `from_lhe_event`, graphicle/data.py:2335. -/
def lheStatusMap : List (Int × Int) :=
  [(-1, -21), (1, -23), (-2, -22), (2, -22), (3, -22), (-9, -12)]

/-- The rewriting loop, graphicle/data.py:2336-2337: one in-place masked assignment per entry of the
map, in order. -/
def rewriteStatus (m : List (Int × Int)) (status : List Int) : List Int :=
  m.foldl (fun st p => st.map (fun x => if x = p.1 then p.2 else x)) status

/-- The attributes of an `LheEventInterface` object, graphicle/base.py:50-76. -/
structure LheEvent (M : Type) where
  pdg : List Int
  pmu : List M
  color : List (Int × Int)
  helicity : List Int
  status : List Int

/-- `ParticleSet.from_lhe_event`, graphicle/data.py:2311-2338, as a function of values. -/
def fromLhe {M : Type} (e : LheEvent M) : PSet M :=
  let p : PSet M := { pdg := e.pdg, pmu := e.pmu, color := e.color, helicity := e.helicity,
                      status := e.status }
  let p := { p with final := List.replicate p.len false }
  { p with status := rewriteStatus lheStatusMap p.status }

/-- A numpy buffer of integers; `isI2` says whether its dtype is `<i2`.
Helper of `fromLheMem` (graphicle/data.py:2311-2338). -/
structure LheBuf where
  isI2 : Bool
  vals : List Int
  deriving DecidableEq, Repr

/-- `from_lhe_event` on buffers, graphicle/data.py:2311-2338 with the converter of `StatusArray`
(data.py:432, `np.asarray(values, dtype="<i2")`): a buffer that already has the dtype is used as it
is, any other one is converted into a new buffer; the rewriting loop then assigns in place.
Returns the memory afterwards and the buffer of the new `StatusArray`.  `sid` is the buffer of
`event.status`; out-of-range identifiers do not occur. -/
def fromLheMem (mem : List LheBuf) (sid : Nat) : List LheBuf × Nat :=
  let b := mem[sid]?.getD ⟨true, []⟩
  let (mem1, id) := if b.isI2 then (mem, sid) else (mem ++ [⟨true, b.vals⟩], mem.length)
  let old := (mem1[id]?.getD ⟨true, []⟩).vals
  (mem1.set id ⟨true, rewriteStatus lheStatusMap old⟩, id)

/-- Optional arrays accepted by `from_numpy`.
Helper of `psetFromNumpy` (graphicle/data.py:2341-2390). -/
structure NumpyArgs (M W : Type) where
  pdg : Option (List Int) := none
  pmu : Option (List M) := none
  color : Option (List (Int × Int)) := none
  helicity : Option (List Int) := none
  status : Option (List Int) := none
  final : Option (List Bool) := none
  edges : Option (List (Int × Int)) := none
  weights : Option (List W) := none

/-- `ParticleSet.from_numpy`, graphicle/data.py:2341-2390.  The constructors are those of
`Model/Convert.lean`; here arrays are already lists of records. -/
def psetFromNumpy {M W : Type} (a : NumpyArgs M W) : PSet M :=
  { pdg := a.pdg.getD [], pmu := a.pmu.getD [], color := a.color.getD [],
    helicity := a.helicity.getD [], status := a.status.getD [], final := a.final.getD [] }

/-- `Graphicle.from_numpy`, graphicle/data.py:2771-2837: weights are only used together with edges. -/
def graphFromNumpy {M W : Type} (a : NumpyArgs M W) : Graph M W :=
  { particles := psetFromNumpy a
    adj := match a.edges with
      | some e => { edges := e, weights := a.weights.getD [] }
      | none => {} }

/-- An event object: the attributes of `EventInterface` (graphicle/base.py:79-136) it has, and its
`masks` attribute, if any, with the entry `"final"`, if any. -/
structure EventObj (M : Type) where
  pdg : Option (List Int) := none
  pmu : Option (List M) := none
  color : Option (List (Int × Int)) := none
  helicity : Option (List Int) := none
  status : Option (List Int) := none
  final : Option (List Bool) := none
  edges : Option (List (Int × Int)) := none
  masks : Option (Option (List Bool)) := none

/-- `Graphicle.from_event`, graphicle/data.py:2739-2769: `event.masks["final"]` is only read when the
event has no attribute `final`; a `masks` without that entry is `KeyError`. -/
def fromEvent {M W : Type} (e : EventObj M) : Py (Graph M W) :=
  let args : NumpyArgs M W := { pdg := e.pdg, pmu := e.pmu, color := e.color, helicity := e.helicity,
                                status := e.status, edges := e.edges }
  match e.final with
  | some f => .ok (graphFromNumpy { args with final := some f })
  | none =>
    match e.masks with
    | none => .ok (graphFromNumpy args)
    | some (some f) => .ok (graphFromNumpy { args with final := some f })
    | some none => .error .keyError

/-- `Graphicle.serialize`, graphicle/data.py:2885-2889 with `ParticleSet.serialize` 2392-2399: one
tuple of records per attribute, edges under `"adj"`. -/
structure GraphSer (M : Type) where
  pdg : List Int
  pmu : List M
  color : List (Int × Int)
  helicity : List Int
  status : List Int
  final : List Bool
  adj : List (Int × Int)

/-- `Graphicle.serialize`, graphicle/data.py:2885-2889. -/
def Graph.serialize {M W : Type} (g : Graph M W) : GraphSer M :=
  { pdg := g.particles.pdg, pmu := g.particles.pmu, color := g.particles.color,
    helicity := g.particles.helicity, status := g.particles.status, final := g.particles.final,
    adj := g.adj.edges }

/-- `np.asarray` of a tuple of `k`-tuples, as passed to a constructor by a user restoring serialized
data: an empty tuple is a flat empty array (graphicle/data.py:432). -/
def asarrayTuples {α : Type} (k : Nat) (rs : List (List α)) : Nd α :=
  if rs.isEmpty then ⟨[0], []⟩ else ⟨[rs.length, k], rs.flatten⟩

end Gcl
