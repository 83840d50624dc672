import Verif.Model.Basic
/-!
# Model of memory sharing between arrays

The arrays of graphicle/data.py hold a numpy array `_data`, made by the converter of `_array_field`
(data.py:377-443): `np.asarray(values, dtype)` (no copy if the dtype is right), then `np.ascontiguousarray` (no copy
if row-contiguous).  "In general, graphicle tries to avoid memory copying" (data.py:387-394).

Memory is a list of buffers of records; an array is a buffer and the positions it shows, in order.  Simplifications:
a record (a code, a four-momentum, an edge) is one cell; writing part of a record is writing the record with that
part changed; arrays are given as `(n,)` / `(n, columns)`, the shapes for which the converter does not reinterpret
the axes.
-/
namespace Gcl
set_option autoImplicit false

/-- A numpy array, as a view of a buffer (graphicle/data.py:423-443): its records are those at the positions `pos` of
buffer `buf`. -/
structure ArrRef where
  buf : Nat
  pos : List Nat
  deriving DecidableEq

/-- The records an array shows (graphicle/data.py:1183-1185, 1436-1442). -/
def readArr {α : Type} (m : List (List α)) (a : ArrRef) : List α := gather (m.getD a.buf []) a.pos

/-- A new buffer holding `xs`, and the array showing it (`ndarray.copy`, graphicle/data.py:517-519, 1191-1193). -/
def allocArr {α : Type} (m : List (List α)) (xs : List α) : List (List α) × ArrRef :=
  (m ++ [xs], ⟨m.length, List.range xs.length⟩)

/-- Row-contiguity, the test of `np.ascontiguousarray` (graphicle/data.py:377-400). -/
def contiguous : List Nat → Bool
  | [] => true
  | [_] => true
  | i :: j :: rest => decide (j = i + 1) && contiguous (j :: rest)

/-- The converter (graphicle/data.py:423-443) on an array of the right dtype (`cast = none`) or of another one. -/
def wrapArr {α : Type} (m : List (List α)) (a : ArrRef) (cast : Option (α → α)) : List (List α) × ArrRef :=
  match cast with
  | some f => allocArr m ((readArr m a).map f)
  | none => if contiguous a.pos then (m, a) else allocArr m (readArr m a)

/-- numpy subscripts `_data[key]` (graphicle/data.py:524-527, 1178-1181, 1460-1463): a slice is a view, a mask or a
list of integers makes a new array. -/
def npGet {α : Type} (m : List (List α)) (a : ArrRef) (k : Key) : Py (List (List α) × ArrRef) :=
  match k.resolve a.pos.length with
  | .error e => .error e
  | .ok idxs =>
    match k with
    | .slice .. => .ok (m, ⟨a.buf, gather a.pos idxs⟩)
    | _ => .ok (allocArr m (gather (readArr m a) idxs))

/-- numpy subscript by one integer, wrapped again (graphicle/data.py:524-527, 1460-1463, 2477-2480): a number is
copied into a new array, a row of a multi-column array is a view. -/
def itemArr {α : Type} (m : List (List α)) (a : ArrRef) (i : Int) (multi : Bool) : Py (List (List α) × ArrRef) :=
  match normIdx a.pos.length i with
  | .error e => .error e
  | .ok p =>
    if multi then .ok (m, ⟨a.buf, gather a.pos [p]⟩)
    else .ok (allocArr m (gather (readArr m a) [p]))

/-- Write `v` to the cells `ps` of a buffer (graphicle/data.py:529-532). -/
def writeCells {α : Type} (xs : List α) (ps : List Nat) (v : α) : List α := ps.foldl (fun xs p => xs.set p v) xs

/-- `array.data[key] = v` (graphicle/data.py:529-532, 2337; `mask[key] = v`). -/
def writeArr {α : Type} (m : List (List α)) (a : ArrRef) (k : Key) (v : α) : Py (List (List α)) :=
  match k.resolve a.pos.length with
  | .error e => .error e
  | .ok idxs => .ok (m.set a.buf (writeCells (m.getD a.buf []) (gather a.pos idxs) v))

/-- Memory and the variables of the user: numpy arrays and graphicle arrays (graphicle/data.py:423-443). -/
structure BState (α : Type) where
  mem : List (List α)
  vars : List ArrRef

/-- What a user can do (graphicle/data.py:423-443, 517-532, 1178-1193, 2477-2484). -/
inductive BOp (α : Type) where
  /-- a new variable: `Class(vars[i])` -/
  | wrap (i : Nat) (cast : Option (α → α))
  /-- a new variable: a numpy slice of `vars[i]` -/
  | npSlice (i : Nat) (start stop step : Option Int)
  /-- a new variable: the graphicle array `vars[i][key]` -/
  | getitem (i : Nat) (k : Key)
  /-- a new variable: the graphicle array `vars[i][j]` for an integer `j` -/
  | item (i : Nat) (j : Int) (multi : Bool)
  /-- a new variable: `vars[i].copy()` -/
  | copy (i : Nat)
  /-- `vars[i].data[key] = v` -/
  | write (i : Nat) (k : Key) (v : α)
  /-- `vars[i].data = vars[j]` -/
  | assign (i j : Nat) (cast : Option (α → α))

/-- The state after putting a new array into a new variable (graphicle/data.py:423-443). -/
def BState.push {α : Type} (s : BState α) (r : List (List α) × ArrRef) : BState α := ⟨r.1, s.vars ++ [r.2]⟩

/-- One operation (graphicle/data.py:423-443, 517-532, 1178-1193, 2477-2484); one that raises changes nothing. -/
def BOp.run {α : Type} (s : BState α) : BOp α → BState α
  | .wrap i c =>
    match s.vars[i]? with
    | none => s
    | some a => s.push (wrapArr s.mem a c)
  | .npSlice i b e st =>
    match s.vars[i]? with
    | none => s
    | some a =>
      match npGet s.mem a (.slice b e st) with
      | .error _ => s
      | .ok r => s.push r
  | .getitem i k =>
    match s.vars[i]? with
    | none => s
    | some a =>
      match npGet s.mem a k with
      | .error _ => s
      | .ok r => s.push (wrapArr r.1 r.2 none)
  | .item i j multi =>
    match s.vars[i]? with
    | none => s
    | some a =>
      match itemArr s.mem a j multi with
      | .error _ => s
      | .ok r => s.push (wrapArr r.1 r.2 none)
  | .copy i =>
    match s.vars[i]? with
    | none => s
    | some a =>
      let r := allocArr s.mem (readArr s.mem a)
      s.push (wrapArr r.1 r.2 none)
  | .write i k v =>
    match s.vars[i]? with
    | none => s
    | some a =>
      match writeArr s.mem a k v with
      | .error _ => s
      | .ok m => { s with mem := m }
  | .assign i j c =>
    match s.vars[i]?, s.vars[j]? with
    | some _, some b =>
      let r := wrapArr s.mem b c
      ⟨r.1, s.vars.set i r.2⟩
    | _, _ => s

/-- A history (graphicle/data.py:423-443, 517-532, 1178-1193, 2477-2484). -/
def runBufs {α : Type} (s : BState α) : List (BOp α) → BState α
  | [] => s
  | op :: rest => runBufs (op.run s) rest

end Gcl
