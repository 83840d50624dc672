import Verif.Model.RawMask
/-!
# Model of the mapping methods of `MaskGroup`

`MaskGroup` inherits `in`, `get`, `pop`, `popitem`, `clear`, `update`, `setdefault` and the views `items()` and
`values()` from `collections.abc.MutableMapping` (graphicle/data.py:695).  These are written in terms of `__getitem__`,
`__setitem__`, `__delitem__`, `__iter__` (data.py:769-820), and are modelled by their definitions in the standard
library, over those four methods.
-/
namespace Gcl
set_option autoImplicit false

/-- A value given by the user for a mask (graphicle/data.py:800-806): a `MaskArray` or `MaskGroup`, or a sequence of
booleans. -/
inductive MArg where
  | mask (m : RMask)
  | raw (d : List Bool)

/-- `mask = MaskArray(mask)` unless it is a mask already (graphicle/data.py:804-805). -/
def MArg.toMask : MArg → RMask
  | .mask m => m
  | .raw d => .arr d

/-- `__setitem__` (graphicle/data.py:800-806); `none` is a key which is not a string. -/
def mapSet (ks : Dict RMask) (k : Option String) (v : MArg) : Py (Dict RMask) :=
  match k with
  | none => .error .keyError
  | some k => .ok (Dict.set ks k v.toMask)

/-- `Mapping.__contains__` (graphicle/data.py:695, 772-798): `self[key]`, a `KeyError` meaning no. -/
def mapContains (op : RawOp) (ks : Dict RMask) (k : GKey) : Py Bool :=
  match rawGetitem op ks k with
  | .ok _ => .ok true
  | .error .keyError => .ok false
  | .error e => .error e

/-- `Mapping.get(key, default)` (graphicle/data.py:695, 772-798). -/
def mapGet (op : RawOp) (ks : Dict RMask) (k : GKey) (default : Option RMask) : Py (Option RMask) :=
  match rawGetitem op ks k with
  | .ok m => .ok (some m)
  | .error .keyError => .ok default
  | .error e => .error e

/-- What a call gives back.
Helper of `MapOp.run` (graphicle/data.py:695). -/
inductive MOut where
  | none
  | val (v : MArg)
  | item (k : String) (m : RMask)
  | raised (e : PyErr)

/-- The calls that change a group (graphicle/data.py:695, 800-806, 818-820). -/
inductive MapOp where
  /-- `group[key] = value` -/
  | set (k : Option String) (v : MArg)
  /-- `del group[key]` -/
  | del (k : String)
  /-- `group.pop(key)` or `group.pop(key, default)` -/
  | pop (k : String) (default : Option MArg)
  /-- `group.popitem()` -/
  | popitem
  /-- `group.clear()` -/
  | clear
  /-- `group.update(pairs)`, also with a mapping as argument -/
  | update (ps : List (Option String × MArg))
  /-- `group.setdefault(key, value)` -/
  | setdefault (k : String) (v : MArg)

/-- `MutableMapping.popitem` (graphicle/data.py:695, 769-770, 818-820): `next(iter(self))`, then `del`. -/
def mapPopitem (ks : Dict RMask) : Py (Dict RMask × (String × RMask)) :=
  match Dict.keys ks with
  | [] => .error .keyError
  | k :: _ =>
    match Dict.get? ks k with
    | none => .error .keyError
    | some m =>
      match Dict.pop? ks k with
      | none => .error .keyError
      | some ks' => .ok (ks', (k, m))

/-- `MutableMapping.clear` (graphicle/data.py:695): `popitem` until it raises `KeyError`; `n` bounds the number of
rounds, any number above that of the masks is enough (`C107_history`). -/
def mapClear : Nat → Dict RMask → Dict RMask
  | 0, ks => ks
  | n + 1, ks =>
    match mapPopitem ks with
    | .ok (ks', _) => mapClear n ks'
    | .error _ => ks

/-- `MutableMapping.update` (graphicle/data.py:695, 800-806): assigns one after the other, and stops at the first that
fails. -/
def mapUpdate (ks : Dict RMask) : List (Option String × MArg) → Dict RMask × MOut
  | [] => (ks, .none)
  | (k, v) :: rest =>
    match mapSet ks k v with
    | .error e => (ks, .raised e)
    | .ok ks' => mapUpdate ks' rest

/-- One call: the masks afterwards and what it gives back (graphicle/data.py:695, 800-806, 818-820). -/
def MapOp.run (ks : Dict RMask) : MapOp → Dict RMask × MOut
  | .set k v =>
    match mapSet ks k v with
    | .error e => (ks, .raised e)
    | .ok ks' => (ks', .none)
  | .del k =>
    match Dict.pop? ks k with
    | some ks' => (ks', .none)
    | none => (ks, .raised .keyError)
  | .pop k default =>
    match Dict.get? ks k with
    | some m =>
      match Dict.pop? ks k with
      | some ks' => (ks', .val (.mask m))
      | none => (ks, .raised .keyError)
    | none =>
      match default with
      | some v => (ks, .val v)
      | none => (ks, .raised .keyError)
  | .popitem =>
    match mapPopitem ks with
    | .ok (ks', (k, m)) => (ks', .item k m)
    | .error e => (ks, .raised e)
  | .clear => (mapClear (ks.length + 1) ks, .none)
  | .update ps => mapUpdate ks ps
  | .setdefault k v =>
    match Dict.get? ks k with
    | some m => (ks, .val (.mask m))
    | none => (Dict.set ks k v.toMask, .val v)

/-- A history of calls: the masks at the end and what each call gave back (graphicle/data.py:695). -/
def runMap (ks : Dict RMask) : List MapOp → Dict RMask × List MOut
  | [] => (ks, [])
  | o :: rest =>
    let r := o.run ks
    let t := runMap r.1 rest
    (t.1, r.2 :: t.2)

/-! ## Views -/

/-- Something compared with a mask: a mask, a numpy array, or another object (graphicle/data.py:592-600). -/
inductive RVal where
  | mask (m : RMask)
  | array (d : List Bool)
  | foreign

/-- The truth value of the `MaskArray` which a comparison gives is whether it has entries
(graphicle/data.py:570-571, 455-457). -/
def truthOf : Py (List Bool) → Py Bool
  | .ok d => .ok (decide (d.length ≠ 0))
  | .error e => .error e

/-- What numpy sees of the first argument of `_mask_eq`: `MaskArray.__eq__` hands on its data, `MaskGroup.__eq__` the
group (graphicle/data.py:564-565, 852-853). -/
def RMask.eqKind : RMask → MaskArg
  | .arr _ => .ndarray
  | .grp _ _ => .group

/-- What numpy sees of a mask (graphicle/data.py:511-512, 822-823). -/
def RMask.argKind : RMask → MaskArg
  | .arr _ => .array
  | .grp _ _ => .group

/-- `bool(v == value)` (graphicle/data.py:564-565, 570-571, 603-621, 852-853), with `np.equal` as in `maskUfunc`. -/
def eqTruthMask (v : RMask) : RVal → Py Bool
  | .foreign => .error .valueError
  | .mask m =>
    match v.data with
    | .error e => .error e
    | .ok x =>
      match m.data with
      | .error e => .error e
      | .ok y =>
        if x.length = y.length then truthOf (maskUfunc (fun p q => p == q) v.eqKind m.argKind x y)
        else .error .valueError
  | .array y =>
    match v.data with
    | .error e => .error e
    | .ok x =>
      if x.length = y.length then truthOf (maskUfunc (fun p q => p == q) v.eqKind .ndarray x y)
      else .error .valueError

/-- `v is value or v == value` (graphicle/data.py:695): the number identifies the object. -/
def sameOrEq (v : Nat × RMask) (value : Nat × RVal) : Py Bool :=
  if v.1 = value.1 then .ok true else eqTruthMask v.2 value.2

/-- `value in group.values()` (graphicle/data.py:695, 769-770). -/
def valuesContain (value : Nat × RVal) : List (String × (Nat × RMask)) → Py Bool
  | [] => .ok false
  | (_, v) :: rest =>
    match sameOrEq v value with
    | .error e => .error e
    | .ok true => .ok true
    | .ok false => valuesContain value rest

/-- `(key, value) in group.items()` (graphicle/data.py:695, 772-798). -/
def itemsContain (ks : Dict (Nat × RMask)) (k : String) (value : Nat × RVal) : Py Bool :=
  match Dict.get? ks k with
  | none => .ok false
  | some v => sameOrEq v value

end Gcl
