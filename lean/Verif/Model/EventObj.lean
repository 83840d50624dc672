import Verif.Model.Buffer
import Verif.Model.Composite
import Verif.Model.IntEvent
/-!
# Model of events as objects

`ParticleSet` and `Graphicle` (graphicle/data.py:2210-2400, 2679-2890) hold references to the objects of their attributes,
made by `@define` without converters or validators: an attribute given to the constructor or assigned later is the object
itself, one not given is a new, empty object (`Factory`, data.py:2249-2254, 2707-2708).  Here the objects are numbered; the
memory of the arrays is that of Model/Buffer.lean.

Simplifications: as in Model/Buffer.lean a record is one cell; of the adjacency list only the edges are represented, whose
object is taken for an array; an object put where one of another kind is expected (an array for a `ParticleSet`, say),
which Python accepts and fails on later, is not represented: such an operation does nothing here.
-/
namespace Gcl
set_option autoImplicit false

/-- An object: an array (graphicle/data.py:423-443), a `ParticleSet` (2249-2254) or a `Graphicle` (2707-2708), the last two
with the objects their attributes refer to. -/
inductive EObj where
  | arr (r : ArrRef)
  | set (parts : Attr → Nat)
  | graph (particles adj : Nat)

/-- Memory and all objects (graphicle/data.py:423-443, 2249-2254, 2707-2708). -/
structure EState (α : Type) where
  mem : List (List α)
  objs : List EObj

variable {α : Type}

/-- Whether the object is an array.  Helper of `EOp.run` (graphicle/data.py:2249-2254). -/
def EState.isArr (s : EState α) (i : Nat) : Bool :=
  match s.objs[i]? with
  | some (.arr _) => true
  | _ => false

/-- Whether the object is a `ParticleSet`.  Helper of `EOp.run` (graphicle/data.py:2707). -/
def EState.isSet (s : EState α) (i : Nat) : Bool :=
  match s.objs[i]? with
  | some (.set _) => true
  | _ => false

/-- The records an array object shows (graphicle/data.py:1183-1185, 1436-1442). -/
def EState.records (s : EState α) (i : Nat) : Option (List α) :=
  match s.objs[i]? with
  | some (.arr r) => some (readArr s.mem r)
  | _ => none

/-- The object `x.a`: an attribute of a `ParticleSet` (graphicle/data.py:2249-2254), of a `Graphicle` (2708), or one of the
properties by which a `Graphicle` passes on the attributes of its particles (2836-2882). -/
def EState.attr (s : EState α) (x : Nat) (a : Attr) : Option Nat :=
  match s.objs[x]? with
  | some (.set parts) => if a = .adj then none else some (parts a)
  | some (.graph p d) =>
    if a = .adj then some d
    else
      match s.objs[p]? with
      | some (.set parts) => some (parts a)
      | _ => none
  | _ => none

/-- A new array object for the array `r`.  Helper of `copyPart`, `getPart` (graphicle/data.py:423-443). -/
def EState.addArr (s : EState α) (r : List (List α) × ArrRef) : EState α × Nat :=
  (⟨r.1, s.objs ++ [.arr r.2]⟩, s.objs.length)

/-- A new, empty array object, `Factory` (graphicle/data.py:2249-2254, 2708). -/
def EState.emptyPart (s : EState α) : EState α × Nat := s.addArr (allocArr s.mem [])

/-- One attribute in `_composite_copy` (graphicle/data.py:2188-2191 with 2161-2171): the copy of a non-empty array, which the
constructor wraps again; otherwise the default. -/
def EState.copyPart (s : EState α) (i : Nat) : Py (EState α × Nat) :=
  match s.objs[i]? with
  | some (.arr r) =>
    if listTruthy (readArr s.mem r) then
      let c := allocArr s.mem (readArr s.mem r)
      .ok (s.addArr (wrapArr c.1 c.2 none))
    else .ok s.emptyPart
  | _ => .error .attributeError

/-- One attribute in `_composite_getitem` (graphicle/data.py:2174-2177 with 2161-2171). -/
def EState.getPart (k : Key) (s : EState α) (i : Nat) : Py (EState α × Nat) :=
  match s.objs[i]? with
  | some (.arr r) =>
    if listTruthy (readArr s.mem r) then
      match npGet s.mem r k with
      | .error e => .error e
      | .ok c => .ok (s.addArr (wrapArr c.1 c.2 none))
    else .ok s.emptyPart
  | _ => .error .attributeError

/-- The attributes `as` one after another; `make` gives the object of each (graphicle/data.py:2174-2177, 2188-2191,
2249-2254). -/
def buildParts (make : EState α → Attr → Py (EState α × Nat)) : List Attr → EState α → (Attr → Nat) → Py (EState α × (Attr → Nat))
  | [], s, f => .ok (s, f)
  | a :: as, s, f =>
    match make s a with
    | .error e => .error e
    | .ok r => buildParts make as r.1 (fun x => if x = a then r.2 else f x)

/-- A new `ParticleSet` whose attributes `make` gives (graphicle/data.py:2211-2254). -/
def EState.addSet (s : EState α) (make : EState α → Attr → Py (EState α × Nat)) : Py (EState α × Nat) :=
  match buildParts make particleAttrs s (fun _ => 0) with
  | .error e => .error e
  | .ok r => .ok (⟨r.1.mem, r.1.objs ++ [.set r.2]⟩, r.1.objs.length)

/-- An attribute given or not (graphicle/data.py:2249-2254).  Helper of `EOp.run`. -/
def EState.givenPart (given : Attr → Option Nat) (s : EState α) (a : Attr) : Py (EState α × Nat) :=
  match given a with
  | some i => .ok (s, i)
  | none => .ok s.emptyPart

/-- `ParticleSet()` (graphicle/data.py:2249-2254). -/
def EState.emptySet (s : EState α) : Py (EState α × Nat) := s.addSet (EState.givenPart (fun _ => none))

/-- `bool(particles)`, `_composite_bool` (graphicle/data.py:2180-2181, 2259-2260). -/
def EState.setTruthy (s : EState α) (parts : Attr → Nat) : Bool :=
  particleAttrs.any (fun a => (s.records (parts a)).any listTruthy)

/-- The `particles` of a new event made from the set `p` (graphicle/data.py:2174-2177, 2188-2191 with 2161-2171): an empty set
is left out. -/
def EState.setFrom (part : EState α → Nat → Py (EState α × Nat)) (s : EState α) (p : Nat) : Py (EState α × Nat) :=
  match s.objs[p]? with
  | some (.set parts) =>
    if s.setTruthy parts then s.addSet (fun s a => part s (parts a)) else s.emptySet
  | _ => .error .attributeError

/-- A new event made from the parts of the event `g` (graphicle/data.py:2174-2177, 2188-2191, 2710-2711, 2734-2736). -/
def EState.graphFrom (part : EState α → Nat → Py (EState α × Nat)) (s : EState α) (g : Nat) : Py (EState α × Nat) :=
  match s.objs[g]? with
  | some (.graph p d) =>
    match s.setFrom part p with
    | .error e => .error e
    | .ok r1 =>
      match part r1.1 d with
      | .error e => .error e
      | .ok r2 => .ok (⟨r2.1.mem, r2.1.objs ++ [.graph r1.2 r2.2]⟩, r2.1.objs.length)
  | _ => .error .attributeError

/-- `particles` given or not (graphicle/data.py:2707).  Helper of `EOp.run`. -/
def EState.givenSet (s : EState α) : Option Nat → Py (EState α × Nat)
  | some i => .ok (s, i)
  | none => s.emptySet

/-- `adj` given or not (graphicle/data.py:2708).  Helper of `EOp.run`. -/
def EState.givenAdj (s : EState α) : Option Nat → EState α × Nat
  | some i => (s, i)
  | none => s.emptyPart

/-- What a user can do (graphicle/data.py:423-443, 524-532, 2249-2260, 2306-2308, 2707-2711, 2734-2736, 2836-2882). -/
inductive EOp (α : Type) where
  /-- a new array object: `Class(values)` -/
  | array (xs : List α)
  /-- `x.data[key] = v` -/
  | write (x : Nat) (k : Key) (v : α)
  /-- `x.data = y` -/
  | assign (x y : Nat)
  /-- `ParticleSet(**given)` -/
  | newSet (given : Attr → Option Nat)
  /-- `Graphicle(particles=p, adj=d)`, either of which may be left out -/
  | newGraph (p d : Option Nat)
  /-- `x.a = y` for a `ParticleSet` -/
  | setAttr (x : Nat) (a : Attr) (y : Nat)
  /-- `g.particles = p` -/
  | setParticles (g p : Nat)
  /-- `g.adj = d` -/
  | setAdj (g d : Nat)
  /-- `g.a = y` for a `Graphicle` and a property -/
  | setProperty (g : Nat) (a : Attr) (y : Nat)
  /-- `x.copy()` for a `ParticleSet` -/
  | copySet (x : Nat)
  /-- `g.copy()` for a `Graphicle` -/
  | copyGraph (g : Nat)
  /-- `x[key]` for a `ParticleSet` -/
  | getSet (x : Nat) (k : Key)
  /-- `g[key]` for a `Graphicle` -/
  | getGraph (g : Nat) (k : Key)

/-- The outcome of an operation that makes objects; one that raises changes no object that exists.
Helper of `EOp.run` (graphicle/data.py:2174-2177, 2188-2191). -/
def EState.made (s : EState α) : Py (EState α × Nat) → EState α × Option PyErr
  | .ok r => (r.1, none)
  | .error e => (s, some e)

/-- One operation, and the exception it raises (graphicle/data.py:423-443, 524-532, 2249-2260, 2306-2308, 2707-2711,
2734-2736, 2836-2882). -/
def EOp.run (s : EState α) : EOp α → EState α × Option PyErr
  | .array xs => ((s.addArr (allocArr s.mem xs)).1, none)
  | .write x k v =>
    match s.objs[x]? with
    | some (.arr r) =>
      match writeArr s.mem r k v with
      | .error e => (s, some e)
      | .ok m => (⟨m, s.objs⟩, none)
    | _ => (s, none)
  | .assign x y =>
    match s.objs[x]?, s.objs[y]? with
    | some (.arr _), some (.arr b) =>
      let r := wrapArr s.mem b none
      (⟨r.1, s.objs.set x (.arr r.2)⟩, none)
    | _, _ => (s, none)
  | .newSet given =>
    if particleAttrs.all (fun a => (given a).all s.isArr) then s.made (s.addSet (EState.givenPart given)) else (s, none)
  | .newGraph p d =>
    if p.all s.isSet && d.all s.isArr then
      match s.givenSet p with
      | .error e => (s, some e)
      | .ok r1 =>
        let r2 := r1.1.givenAdj d
        (⟨r2.1.mem, r2.1.objs ++ [.graph r1.2 r2.2]⟩, none)
    else (s, none)
  | .setAttr x a y =>
    match s.objs[x]? with
    | some (.set parts) =>
      if a ≠ .adj && s.isArr y then (⟨s.mem, s.objs.set x (.set (fun b => if b = a then y else parts b))⟩, none) else (s, none)
    | _ => (s, none)
  | .setParticles g p =>
    match s.objs[g]? with
    | some (.graph _ d) => if s.isSet p then (⟨s.mem, s.objs.set g (.graph p d)⟩, none) else (s, none)
    | _ => (s, none)
  | .setAdj g d =>
    match s.objs[g]? with
    | some (.graph p _) => if s.isArr d then (⟨s.mem, s.objs.set g (.graph p d)⟩, none) else (s, none)
    | _ => (s, none)
  | .setProperty _ _ _ => (s, some .attributeError)
  | .copySet x =>
    match s.objs[x]? with
    | some (.set parts) => s.made (s.addSet (fun s a => s.copyPart (parts a)))
    | _ => (s, none)
  | .copyGraph g =>
    match s.objs[g]? with
    | some (.graph _ _) => s.made (s.graphFrom EState.copyPart g)
    | _ => (s, none)
  | .getSet x k =>
    match s.objs[x]? with
    | some (.set parts) => s.made (s.addSet (fun s a => s.getPart k (parts a)))
    | _ => (s, none)
  | .getGraph g k =>
    match s.objs[g]? with
    | some (.graph _ _) => s.made (s.graphFrom (EState.getPart k) g)
    | _ => (s, none)

/-- A history (graphicle/data.py:423-443, 524-532, 2249-2260, 2306-2308, 2707-2711, 2734-2736, 2836-2882). -/
def runEvents (s : EState α) : List (EOp α) → EState α
  | [] => s
  | op :: rest => runEvents (op.run s).1 rest

end Gcl
