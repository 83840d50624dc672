/-!
# Basics of the model

Python exceptions as values, insertion-ordered dictionaries, numpy 1-D broadcasting and
subscripting.  Simplifications: an exception is identified by its class only (messages are not
modelled); numpy arrays are lists of their elements.
-/
namespace Gcl
set_option autoImplicit false

/-- The exception classes raised by the modelled code paths.
Helper of `convertNd` (graphicle/data.py:432-443). -/
inductive PyErr where
  | valueError | keyError | indexError | typeError | attributeError | zeroDivisionError
  | recursionError
  deriving DecidableEq, Repr

/-- Result of a Python call: a value or a raised exception.
Helper of `convertNd` (graphicle/data.py:432-443). -/
abbrev Py (α : Type) := Except PyErr α

/-- `numpy` broadcasting of a binary elementwise operation on two 1-D arrays, as used by
`np.bitwise_and` / `np.bitwise_or` in graphicle/data.py:537-559, 825-847 and by `==` on arrays
(data.py:263-274).  Equal lengths work elementwise; an operand of length one is broadcast; anything
else is `ValueError`. -/
def bcast2 {α β γ : Type} (f : α → β → γ) (a : List α) (b : List β) : Py (List γ) :=
  if a.length = b.length then .ok (List.zipWith f a b)
  else
    match a, b with
    | [x], ys => .ok (ys.map (f x))
    | xs, [y] => .ok (xs.map (fun x => f x y))
    | _, _ => .error .valueError

/-! ## Python dictionaries -/

/-- A Python `dict` / `OrderedDict` with string keys: pairs in insertion order.
(The unique-keys invariant is the predicate `Dict.Nodup`.)
Helper of `MaskGroup._mask_arrays` (graphicle/data.py:716-718). -/
abbrev Dict (α : Type) := List (String × α)

namespace Dict

/-- `d[key]` for a dict (`none` stands for `KeyError`).
Helper of `MaskGroup.__getitem__` (graphicle/data.py:772-798). -/
def get? {α : Type} (d : Dict α) (k : String) : Option α :=
  match d with
  | [] => none
  | (k', v) :: rest => if k' = k then some v else get? rest k

/-- `d[key] = v` / `d.update({key: v})`: overwrite in place if present, else append.
Helper of `MaskGroup.__setitem__` (graphicle/data.py:800-806). -/
def set {α : Type} (d : Dict α) (k : String) (v : α) : Dict α :=
  match d with
  | [] => [(k, v)]
  | (k', v') :: rest => if k' = k then (k, v) :: rest else (k', v') :: set rest k v

/-- `d.pop(key)` (`none` stands for `KeyError`).
Helper of `groupDel` (graphicle/data.py:818-820). -/
def pop? {α : Type} (d : Dict α) (k : String) : Option (Dict α) :=
  match d with
  | [] => none
  | (k', v') :: rest =>
    if k' = k then some rest else (pop? rest k).map (fun r => (k', v') :: r)

/-- `list(d)`: keys in insertion order.
Helper of `MaskGroup.__iter__` (graphicle/data.py:769-770). -/
def keys {α : Type} (d : Dict α) : List String := d.map Prod.fst

/-- `dict(pairs)` / `OrderedDict(pairs)`: later values win, position of first insertion.
Helper of `tagGroup` (graphicle/select.py:1392-1396). -/
def ofPairs {α : Type} (ps : List (String × α)) : Dict α :=
  ps.foldl (fun d p => set d p.1 p.2) []

/-- `d.update(other)`.
Helper of `leafRefDict` (graphicle/select.py:894-919). -/
def update {α : Type} (d : Dict α) (ps : List (String × α)) : Dict α :=
  ps.foldl (fun d p => set d p.1 p.2) d

end Dict

/-! ## Subscripts -/

/-- An array subscript: boolean mask, integer array, or slice `start:stop:step`.
(Bare integers are treated in `Model/Convert.lean`.)
Helper of `Key.apply` (graphicle/data.py:524-527, 1178-1181, 1460-1463, 1886-1889, 1974-1977, 2056-2059, 2477-2480). -/
inductive Key where
  | mask (m : List Bool)
  | ints (is : List Int)
  | slice (start stop step : Option Int)
  deriving DecidableEq, Repr

/-- Positions of the `True` entries, as `np.flatnonzero`; counting starts at `off`.
Helper of `__getitem__` (graphicle/data.py:524-527, 1178-1181, 1460-1463). -/
def trueIdxs (m : List Bool) (off : Nat := 0) : List Nat :=
  match m with
  | [] => []
  | true :: rest => off :: trueIdxs rest (off + 1)
  | false :: rest => trueIdxs rest (off + 1)

/-- One integer index into an axis of length `n`: negative counts from the end,
out of range is `IndexError`.
Helper of `__getitem__` (graphicle/data.py:524-527, 1178-1181, 1460-1463). -/
def normIdx (n : Nat) (i : Int) : Py Nat :=
  if 0 ≤ i ∧ i < n then .ok i.toNat
  else if -(n : Int) ≤ i ∧ i < 0 then .ok (i + n).toNat
  else .error .indexError

/-- `[normIdx n i for i in is]`, raising at the first bad index.
Helper of `Key.resolve` (graphicle/data.py:524-527, 1178-1181, 1460-1463, 1886-1889, 1974-1977, 2056-2059, 2477-2480). -/
def normIdxs (n : Nat) : List Int → Py (List Nat)
  | [] => .ok []
  | i :: is =>
    match normIdx n i, normIdxs n is with
    | .ok j, .ok js => .ok (j :: js)
    | .error e, _ => .error e
    | _, .error e => .error e

/-- Clamping of a slice bound, as CPython's `PySlice_AdjustIndices`.
Helper of `sliceIdxs` (graphicle/data.py:524-527, 1178-1181, 1460-1463, 1886-1889, 1974-1977, 2056-2059, 2477-2480). -/
def clampBound (n : Nat) (step : Int) (b : Int) : Int :=
  if b < 0 then
    (if b + n < 0 then (if step < 0 then -1 else 0) else b + n)
  else if (n : Int) ≤ b then (if step < 0 then (n : Int) - 1 else n)
  else b

/-- Number of items of a slice with clamped bounds, as `PySlice_AdjustIndices`.
Helper of `sliceIdxs` (graphicle/data.py:524-527, 1178-1181, 1460-1463, 1886-1889, 1974-1977, 2056-2059, 2477-2480). -/
def sliceLen (start stop step : Int) : Nat :=
  if step < 0 then
    (if stop < start then ((start - stop - 1) / (-step) + 1).toNat else 0)
  else
    (if start < stop then ((stop - start - 1) / step + 1).toNat else 0)

/-- Indices selected by the slice `start:stop:step` on an axis of length `n`
(`slice.indices` of Python; `step = 0` is `ValueError`).
Helper of `Key.resolve` (graphicle/data.py:524-527, 1178-1181, 1460-1463, 1886-1889, 1974-1977, 2056-2059, 2477-2480). -/
def sliceIdxs (n : Nat) (start stop step : Option Int) : Py (List Nat) :=
  let st : Int := step.getD 1
  if st = 0 then .error .valueError
  else
    let a : Int := match start with
      | some b => clampBound n st b
      | none => if st < 0 then (n : Int) - 1 else 0
    let z : Int := match stop with
      | some b => clampBound n st b
      | none => if st < 0 then -1 else n
    .ok ((List.range (sliceLen a z st)).map (fun (k : Nat) => (a + (k : Int) * st).toNat))

/-- The list of positions a subscript selects from an axis of length `n`, or the exception
numpy raises (a boolean mask of the wrong length is `IndexError`).
Helper of `Key.apply` (graphicle/data.py:524-527, 1178-1181, 1460-1463, 1886-1889, 1974-1977, 2056-2059, 2477-2480). -/
def Key.resolve (k : Key) (n : Nat) : Py (List Nat) :=
  match k with
  | .mask m => if m.length = n then .ok (trueIdxs m) else .error .indexError
  | .ints is => normIdxs n is
  | .slice a b c => sliceIdxs n a b c

/-- Elements of `a` at positions `is`.
Helper of `Key.apply` (graphicle/data.py:524-527, 1178-1181, 1460-1463, 1886-1889, 1974-1977, 2056-2059, 2477-2480). -/
def gather {α : Type} (a : List α) (is : List Nat) : List α := is.filterMap (fun i => a[i]?)

/-- `self._data[key]` for a record array with records `a`
(graphicle/data.py:524-527, 1178-1181, 1460-1463, 1886-1889, 1974-1977, 2056-2059, 2477-2480):
every array class subscripts its first axis with the key (a `MaskBase` key is replaced by its
`.data` first). -/
def Key.apply {α : Type} (k : Key) (a : List α) : Py (List α) :=
  match k.resolve a.length with
  | .ok is => .ok (gather a is)
  | .error e => .error e

/-- In-place masked assignment of a scalar, `data[mask] = val`
(graphicle/data.py:529-532; select.py:287, 315). -/
def setMask {α : Type} (a : List α) (m : List Bool) (v : α) : Py (List α) :=
  if m.length = a.length then .ok (List.zipWith (fun x b => if b then v else x) a m)
  else .error .indexError

/-- In-place masked assignment of an array, `data[mask] = vals` where `vals` has one value per
`True` entry; a different number of values is `ValueError` (one value is broadcast).
Helper of `partitionVertex` (graphicle/select.py:376-421). -/
def setMaskVals {α : Type} (a : List α) (m : List Bool) (vals : List α) : Py (List α) :=
  if m.length ≠ a.length then .error .indexError
  else if vals.length = (trueIdxs m).length then .ok (go a m vals)
  else match vals with
    | [v] => .ok (List.zipWith (fun x b => if b then v else x) a m)
    | _ => .error .valueError
where
  /-- walk the array, consuming one value per `True` entry -/
  go : List α → List Bool → List α → List α
    | _ :: xs, true :: bs, v :: vs => v :: go xs bs vs
    | x :: xs, true :: bs, [] => x :: go xs bs []
    | x :: xs, false :: bs, vs => x :: go xs bs vs
    | xs, _, _ => xs

end Gcl
