import Verif.Model.Buffer
import Verif.Model.Mask
/-!
# Model of the operators, in place and not

The array classes inherit the operators of `np.lib.mixins.NDArrayOperatorsMixin` (graphicle/base.py:137, 216):
`x + y` is `np.add(x, y)`, `x += y` is `np.add(x, y, out=(x,))`, `y + x` falls back to `np.add(y, x)`; each of them is
handled by `_array_ufunc` (graphicle/data.py:166-234).  `MaskArray` replaces `&` and `|` (data.py:537-559) but not `&=`
and `|=`, nor the reflected forms.

Memory is as in `Model/Buffer.lean`.  In addition there are objects, which hold an array and what is stored for cached
attributes, and names, which are bound to objects.  Simplifications: a record is one cell; an operand that is a number
(or, for arrays with columns, one record) is given as the record it is broadcast to; `f = none` stands for an operation
whose result numpy refuses to store in the dtype of the class (`UFuncTypeError`, a `TypeError`).
-/
namespace Gcl
set_option autoImplicit false

/-- The right operand of an operator: an array of the same class, an array of another class (with one number per
record, as the left one), an `ndarray`, a Python sequence, a number, anything else, such as a `MaskGroup` or `None`
(graphicle/data.py:206-219, 498, 1140). -/
inductive Arg (α : Type) where
  | same (a : ArrRef)
  | foreign (a : ArrRef)
  | ndarray (a : ArrRef)
  | sequence (l : List α)
  | number (x : α)
  | other

/-- Broadcasting of an operand to a given output (`out=`, graphicle/data.py:216-220): only an operand can be stretched,
not the output. -/
def bcastTo {α : Type} (n : Nat) (vs : List α) : Py (List α) :=
  if vs.length = n then .ok vs
  else
    match vs with
    | [x] => .ok (List.replicate n x)
    | _ => .error .valueError

/-- Store values at positions of a buffer (graphicle/data.py:216-220). -/
def writeEach {α : Type} (xs : List α) : List (Nat × α) → List α
  | [] => xs
  | (p, v) :: rest => writeEach (xs.set p v) rest

/-- `ufunc(a, vs, out=(a,))` on the unwrapped values (graphicle/data.py:214-220): the values are computed from the
contents before the call and stored in the memory of `a`. -/
def ufuncInto {α : Type} (f : α → α → α) (m : List (List α)) (a : ArrRef) (vs : List α) : Py (List (List α)) :=
  match bcastTo a.pos.length vs with
  | .error e => .error e
  | .ok ws =>
    .ok (m.set a.buf (writeEach (m.getD a.buf []) (a.pos.zip (List.zipWith f (readArr m a) ws))))

/-- The tail of `_array_ufunc` after the call (graphicle/data.py:222-234): the array the new object holds. -/
def finishInto {α : Type} (a : ArrRef) : Py (List (List α)) → List (List α) → List (List α) × Py ArrRef
  | .error e, m => (m, .error e)
  | .ok m', _ => ((wrapArr m' a none).1, .ok (wrapArr m' a none).2)

/-- `x op= y` for an array class: `_array_ufunc` with `out=(x,)` (graphicle/data.py:204-234; base.py:137, 216): memory
afterwards, and the array of the resulting object or the exception.  With an array of another class the call is passed
on to that class, which writes and returns one of its own objects, without attribute `shape`. -/
def augment {α : Type} (f : Option (α → α → α)) (m : List (List α)) (a : ArrRef) (y : Arg α) :
    List (List α) × Py ArrRef :=
  match f, y with
  | _, .other => (m, .error .typeError)
  | none, _ => (m, .error .typeError)
  | some f, .foreign b =>
    match ufuncInto f m a (readArr m b) with
    | .error e => (m, .error e)
    | .ok m' => (m', .error .attributeError)
  | some f, .same b => finishInto a (ufuncInto f m a (readArr m b)) m
  | some f, .ndarray b => finishInto a (ufuncInto f m a (readArr m b)) m
  | some f, .sequence l => finishInto a (ufuncInto f m a l) m
  | some f, .number x => finishInto a (ufuncInto f m a [x]) m

/-- The values of a result in a new buffer (graphicle/data.py:220, 232-234, 547, 559). -/
def freshArr {α : Type} (m : List (List α)) : Py (List α) → List (List α) × Py ArrRef
  | .error e => (m, .error e)
  | .ok xs => ((allocArr m xs).1, .ok (allocArr m xs).2)

/-- `x op y` by the operators of the mixin (graphicle/data.py:204-234), where numpy has a dtype for the result. -/
def binary {α : Type} (f : α → α → α) (m : List (List α)) (a : ArrRef) (y : Arg α) : List (List α) × Py ArrRef :=
  match y with
  | .other => (m, .error .typeError)
  | .foreign b =>
    match bcast2 f (readArr m a) (readArr m b) with
    | .error e => (m, .error e)
    | .ok _ => (m, .error .attributeError)
  | .same b => freshArr m (bcast2 f (readArr m a) (readArr m b))
  | .ndarray b => freshArr m (bcast2 f (readArr m a) (readArr m b))
  | .sequence l => freshArr m (bcast2 f (readArr m a) l)
  | .number x => freshArr m (.ok ((readArr m a).map (fun v => f v x)))

/-! ## Objects and names -/

/-- An object of an array class: its array, and the records its cached attributes were computed from
(graphicle/data.py:1487-1584). -/
structure PObj (α : Type) where
  arr : ArrRef
  cache : Option (List α) := none

/-- Memory, the objects and what the names are bound to (graphicle/data.py:460-494, 1030-1089, 1342-1360). -/
structure PState (α : Type) where
  mem : List (List α)
  objs : List (PObj α)
  names : List Nat

/-- The object a name is bound to, and its number (graphicle/data.py:460-494). -/
def PState.lookup {α : Type} (s : PState α) (i : Nat) : Option (Nat × PObj α) :=
  match s.names[i]? with
  | none => none
  | some o =>
    match s.objs[o]? with
    | none => none
    | some p => some (o, p)

/-- What a user can do with names (graphicle/data.py:166-234, 517-519, 1191-1193, 1478-1480, 1487-1584). -/
inductive POp (α : Type) where
  /-- `y = x`: a new name for the same object -/
  | rename (i : Nat)
  /-- `y = x.copy()`: a new name -/
  | copy (i : Nat)
  /-- `x op= arg` -/
  | augment (i : Nat) (f : Option (α → α → α)) (y : Arg α)
  /-- `x = x op arg` -/
  | binary (i : Nat) (f : α → α → α) (y : Arg α)
  /-- reading a cached attribute of `x` -/
  | attr (i : Nat)

/-- Binding name `i` to a new object with the resulting array; an exception leaves the names
(graphicle/data.py:222-234). -/
def PState.bind {α : Type} (s : PState α) (i : Nat) (r : List (List α) × Py ArrRef) : PState α × Option PyErr :=
  match r.2 with
  | .error e => ({ s with mem := r.1 }, some e)
  | .ok a => (⟨r.1, s.objs ++ [{ arr := a }], s.names.set i s.objs.length⟩, none)

/-- One operation and the exception it raises; a name that is not bound is not considered
(graphicle/data.py:166-234, 517-519, 1191-1193, 1478-1480, 1487-1584). -/
def POp.run {α : Type} (s : PState α) : POp α → PState α × Option PyErr
  | .rename i =>
    match s.names[i]? with
    | none => (s, none)
    | some o => ({ s with names := s.names ++ [o] }, none)
  | .copy i =>
    match s.lookup i with
    | none => (s, none)
    | some (_, p) =>
      let r := allocArr s.mem (readArr s.mem p.arr)
      (⟨r.1, s.objs ++ [{ arr := r.2 }], s.names ++ [s.objs.length]⟩, none)
  | .augment i f y =>
    match s.lookup i with
    | none => (s, none)
    | some (_, p) => s.bind i (Gcl.augment f s.mem p.arr y)
  | .binary i f y =>
    match s.lookup i with
    | none => (s, none)
    | some (_, p) => s.bind i (Gcl.binary f s.mem p.arr y)
  | .attr i =>
    match s.lookup i with
    | none => (s, none)
    | some (o, p) =>
      match p.cache with
      | some _ => (s, none)
      | none => ({ s with objs := s.objs.set o { p with cache := some (readArr s.mem p.arr) } }, none)

/-- A history; exceptions are caught (graphicle/data.py:166-234). -/
def runNames {α : Type} (s : PState α) : List (POp α) → PState α
  | [] => s
  | op :: rest => runNames (op.run s).1 rest

/-- The records a name shows (graphicle/data.py:573-576, 1183-1185, 1435-1440). -/
def PState.shows {α : Type} (s : PState α) (i : Nat) : Option (List α) :=
  match s.lookup i with
  | none => none
  | some (_, p) => some (readArr s.mem p.arr)

/-- The records from which a cached attribute read through a name now is or was computed
(graphicle/data.py:1487-1584). -/
def PState.attrOf {α : Type} (s : PState α) (i : Nat) : Option (List α) :=
  match s.lookup i with
  | none => none
  | some (_, p) =>
    match p.cache with
    | some v => some v
    | none => some (readArr s.mem p.arr)

/-! ## The operators of masks -/

/-- `&`, `|`, `^` (graphicle/data.py:537-559; base.py:137). -/
inductive BitOp where
  | and | or | xor
  deriving DecidableEq

/-- The operation on two entries (graphicle/data.py:547, 559). -/
def BitOp.fn : BitOp → Bool → Bool → Bool
  | .and => (· && ·)
  | .or => (· || ·)
  | .xor => Bool.xor

/-- An operand of a mask operator: a `MaskArray`, a `MaskGroup` (aggregation and the arrays of its masks), a boolean
`ndarray`, a list of `bool`, a `bool`, an array of integer codes of another class (its length), anything else
(graphicle/data.py:537-559). -/
inductive MaskOperand where
  | mask (a : ArrRef)
  | group (op : Agg) (kids : List (String × ArrRef))
  | ndarray (a : ArrRef)
  | list (l : List Bool)
  | bool (b : Bool)
  | codes (n : Nat)
  | other

/-- `group.data` (graphicle/data.py:880-896). -/
def groupData (m : List (List Bool)) (op : Agg) (kids : List (String × ArrRef)) : Py (List Bool) :=
  (Mask.grp op (kids.map (fun k => (k.1, .arr (readArr m k.2))))).data

/-- The operand as `_array_ufunc` sees it (graphicle/data.py:206-219); a `MaskGroup` is not of a handled type. -/
def MaskOperand.toArg : MaskOperand → Arg Bool
  | .mask a => .same a
  | .group _ _ => .other
  | .ndarray a => .ndarray a
  | .list l => .sequence l
  | .bool b => .number b
  | .codes _ => .other
  | .other => .other

/-- The universal function on a mask and an operand, without `out` (graphicle/data.py:204-234).  With codes of another
class the result is one of its objects, without attribute `shape`. -/
def maskCall (op : BitOp) (m : List (List Bool)) (a : ArrRef) (y : MaskOperand) : List (List Bool) × Py ArrRef :=
  match y with
  | .codes n =>
    match bcast2 (fun _ _ => ()) (readArr m a) (List.replicate n ()) with
    | .error e => (m, .error e)
    | .ok _ => (m, .error .attributeError)
  | y => binary op.fn m a y.toArg

/-- `mask op y` (graphicle/data.py:537-559 for `&` and `|`; the mixin, base.py:137, for `^`). -/
def maskBin (op : BitOp) (m : List (List Bool)) (a : ArrRef) (y : MaskOperand) : List (List Bool) × Py ArrRef :=
  match op with
  | .xor => maskCall .xor m a y
  | op =>
    match y with
    | .mask b => freshArr m (bcast2 op.fn (readArr m a) (readArr m b))
    | .group g kids =>
      match groupData m g kids with
      | .error e => (m, .error e)
      | .ok d => freshArr m (bcast2 op.fn (readArr m a) d)
    | .ndarray b => freshArr m (bcast2 op.fn (readArr m a) (readArr m b))
    | _ => (m, .error .valueError)

/-- `mask op= y`: the mixin for all three (base.py:137, graphicle/data.py:204-234).  Codes of another class: the result
cannot be stored in booleans (`TypeError`). -/
def maskAug (op : BitOp) (m : List (List Bool)) (a : ArrRef) (y : MaskOperand) : List (List Bool) × Py ArrRef :=
  augment (some op.fn) m a y.toArg

/-- `y op mask` where `y` is an `ndarray`, a list or a `bool`, which leave it to the mask: `__rand__`, `__ror__`,
`__rxor__` of the mixin (base.py:137, graphicle/data.py:204-234). -/
def maskRefl (op : BitOp) (m : List (List Bool)) (y : MaskOperand) (a : ArrRef) : List (List Bool) × Py ArrRef :=
  maskCall op m a y

/-- `group op y` (graphicle/data.py:825-847); a `MaskGroup` has no `^` (`TypeError`, also from the reflected operator of
a mask). -/
def groupBin (op : BitOp) (m : List (List Bool)) (g : Agg) (kids : List (String × ArrRef)) (y : MaskOperand) :
    List (List Bool) × Py ArrRef :=
  match op with
  | .xor => (m, .error .typeError)
  | op =>
    match y with
    | .mask b =>
      match groupData m g kids with
      | .error e => (m, .error e)
      | .ok d => freshArr m (bcast2 op.fn d (readArr m b))
    | .group g' kids' =>
      match groupData m g' kids' with
      | .error e => (m, .error e)
      | .ok d' =>
        match groupData m g kids with
        | .error e => (m, .error e)
        | .ok d => freshArr m (bcast2 op.fn d d')
    | .ndarray b =>
      match groupData m g kids with
      | .error e => (m, .error e)
      | .ok d => freshArr m (bcast2 op.fn d (readArr m b))
    | _ => (m, .error .valueError)

/-- `group op= y`: a `MaskGroup` has no in-place operators, so Python evaluates `group op y` and rebinds the name
(graphicle/data.py:694-695, 825-847). -/
def groupAug (op : BitOp) (m : List (List Bool)) (g : Agg) (kids : List (String × ArrRef)) (y : MaskOperand) :
    List (List Bool) × Py ArrRef := groupBin op m g kids y

end Gcl
