import Verif.Model.Basic
/-!
# Model of `MaskArray` and `MaskGroup`

graphicle/data.py:460-1026 and graphicle/select.py:877-945.

A `MaskArray` is the list of its booleans; a `MaskGroup` is an aggregation operation with an
insertion-ordered dictionary of masks.  Aliasing between masks is *not* represented here (it is in
`Model/Heap.lean`); everything in this file is about values.  `agg_op` strings are represented by
the three values they parse to (data.py:682-685, 724-729).
-/
namespace Gcl
set_option autoImplicit false

/-- `MaskAggOp`, graphicle/data.py:682-685. -/
inductive Agg where
  | and | or | none
  deriving DecidableEq, Repr

/-- `MaskAggOp(self._agg_op.lower())`, graphicle/data.py:724-729: the `agg_op` property; the stored
string is compared case-insensitively and anything else is `ValueError`. (`s` is the lowered
string.) -/
def Agg.ofLowered (s : String) : Py Agg :=
  if s = "and" then .ok .and
  else if s = "or" then .ok .or
  else if s = "none" then .ok .none
  else .error .valueError

/-- A mask: `MaskArray` (graphicle/data.py:460) or `MaskGroup` (graphicle/data.py:695). -/
inductive Mask where
  | arr (d : List Bool)
  | grp (op : Agg) (kids : List (String × Mask))

/-- `np.bitwise_and.reduce(rows)` / `np.bitwise_or.reduce(rows)` on a list of 1-D boolean arrays
(graphicle/data.py:866-879): no rows is a `TypeError` (an empty float array has no bitwise
ufunc loop), ragged rows are a `ValueError`. -/
def reduceRows (f : Bool → Bool → Bool) (rows : List (List Bool)) : Py (List Bool) :=
  match rows with
  | [] => .error .typeError
  | r :: rs =>
    if rs.all (fun x => x.length == r.length) then .ok (rs.foldl (List.zipWith f) r)
    else .error .valueError

mutual
/-- `.data` of a mask: `MaskArray.data` graphicle/data.py:573-576, `MaskGroup.data`
graphicle/data.py:880-896 with `bitwise_or`, `bitwise_and` (data.py:866-879). -/
def Mask.data : Mask → Py (List Bool)
  | .arr d => .ok d
  | .grp .and ks =>
    match Mask.dataKids ks with
    | .ok rows => reduceRows (· && ·) rows
    | .error e => .error e
  | .grp .or ks =>
    match Mask.dataKids ks with
    | .ok rows => reduceRows (· || ·) rows
    | .error e => .error e
  | .grp .none _ => .error .valueError
termination_by structural m => m
/-- `[child.data for child in self._mask_arrays.values()]`, graphicle/data.py:869, 876. -/
def Mask.dataKids : List (String × Mask) → Py (List (List Bool))
  | [] => .ok []
  | (_, m) :: rest =>
    match Mask.data m with
    | .error e => .error e
    | .ok d =>
      match Mask.dataKids rest with
      | .error e => .error e
      | .ok ds => .ok (d :: ds)
termination_by structural ks => ks
end

/-- `MaskGroup.bitwise_or()`, graphicle/data.py:866-871 (`ks` is the dictionary of the group). -/
def groupOr (ks : Dict Mask) : Py (List Bool) :=
  match Mask.dataKids ks with
  | .ok rows => reduceRows (· || ·) rows
  | .error e => .error e

/-- `MaskGroup.bitwise_and()`, graphicle/data.py:873-878. -/
def groupAnd (ks : Dict Mask) : Py (List Bool) :=
  match Mask.dataKids ks with
  | .ok rows => reduceRows (· && ·) rows
  | .error e => .error e

/-- Right operand of `&`, `|`, `==`, `!=`: a graphicle mask, a numpy array or something else.
Helper of `Operand.data` (graphicle/data.py:538-546, 550-558, 826-834, 838-846). -/
inductive Operand where
  | mask (m : Mask)
  | ndarray (d : List Bool)
  | foreign

/-- The `isinstance` dispatch that opens `__and__` and `__or__`,
graphicle/data.py:538-546, 550-558, 826-834, 838-846. -/
def Operand.data : Operand → Py (List Bool)
  | .mask m => m.data
  | .ndarray d => .ok d
  | .foreign => .error .valueError

/-- `MaskArray.__and__` graphicle/data.py:537-547 and `MaskGroup.__and__` data.py:825-835. -/
def Mask.band (a : Mask) (b : Operand) : Py (List Bool) :=
  match b.data with
  | .error e => .error e
  | .ok y =>
    match a.data with
    | .error e => .error e
    | .ok x => bcast2 (· && ·) x y

/-- `MaskArray.__or__` graphicle/data.py:549-559 and `MaskGroup.__or__` data.py:837-847. -/
def Mask.bor (a : Mask) (b : Operand) : Py (List Bool) :=
  match b.data with
  | .error e => .error e
  | .ok y =>
    match a.data with
    | .error e => .error e
    | .ok x => bcast2 (· || ·) x y

/-- `__invert__`, graphicle/data.py:561-562, 849-850. -/
def Mask.inv (a : Mask) : Py (List Bool) :=
  match a.data with
  | .ok x => .ok (x.map (!·))
  | .error e => .error e

/-- What numpy sees of an argument of `np.equal`, `np.not_equal`: an `ndarray`, a `MaskArray` (which has
`__array_ufunc__`), or a `MaskGroup` (which only has `__array__`).
Helper of `maskUfunc` (graphicle/data.py:511-512, 822-823). -/
inductive MaskArg where
  | ndarray | array | group
  deriving DecidableEq

/-- The class of a mask.  Helper of `maskUfunc` (graphicle/data.py:460, 695). -/
def Mask.argKind : Mask → MaskArg
  | .arr _ => .array
  | .grp _ _ => .group

/-- `np.equal(mask1, mask2)`, `np.not_equal(mask1, mask2)` for arrays of equal shape (graphicle/data.py:621, 642).  If
one of them is a `MaskArray`, numpy calls its `__array_ufunc__` (data.py:511-512), which does not handle a `MaskGroup`
as the other (data.py:206-212: it is neither array, number, sequence nor `MaskArray`): `TypeError`.  A `MaskGroup`
without a `MaskArray` is converted by `__array__` (data.py:822-823). -/
def maskUfunc (f : Bool → Bool → Bool) (k1 k2 : MaskArg) (x y : List Bool) : Py (List Bool) :=
  match k1, k2 with
  | .array, .group => .error .typeError
  | .group, .array => .error .typeError
  | _, _ => .ok (List.zipWith f x y)

/-- `_mask_eq` (graphicle/data.py:603-621) and `_mask_neq` (data.py:624-642), which differ in the universal function
only: foreign operands are rejected by `_mask_compat` (data.py:592-600), then the shapes are compared.  `k1` and `x`
stand for the first argument. -/
def maskCompare (f : Bool → Bool → Bool) (k1 : MaskArg) (x : Py (List Bool)) : Operand → Py (List Bool)
  | .foreign => .error .valueError
  | .mask m =>
    match x with
    | .error e => .error e
    | .ok x =>
      match m.data with
      | .error e => .error e
      | .ok y => if x.length = y.length then maskUfunc f k1 m.argKind x y else .error .valueError
  | .ndarray y =>
    match x with
    | .error e => .error e
    | .ok x => if x.length = y.length then maskUfunc f k1 .ndarray x y else .error .valueError

/-- `__eq__` of `MaskArray`, graphicle/data.py:564-565 (which hands on its *data*, an `ndarray`), and of `MaskGroup`,
data.py:852-853 (which hands on the group). -/
def Mask.eqMask (a : Mask) (b : Operand) : Py (List Bool) :=
  match a with
  | .arr d => maskCompare (fun p q => p == q) .ndarray (.ok d) b
  | .grp op ks => maskCompare (fun p q => p == q) .group (Mask.grp op ks).data b

/-- `__ne__`, graphicle/data.py:567-568, 855-856: both classes hand on the mask itself. -/
def Mask.neMask (a : Mask) (b : Operand) : Py (List Bool) :=
  maskCompare (fun p q => p != q) a.argKind a.data b

mutual
/-- `mask[key]` for an array-like key: `MaskArray.__getitem__` graphicle/data.py:524-527 and the
second branch of `MaskGroup.__getitem__` data.py:792-796. -/
def Mask.slice (k : Key) : Mask → Py Mask
  | .arr d =>
    match k.apply d with
    | .ok d' => .ok (.arr d')
    | .error e => .error e
  | .grp op ks =>
    match Mask.sliceKids k ks with
    | .ok ks' => .ok (.grp op ks')
    | .error e => .error e
termination_by structural m => m
/-- The loop `for dict_key, val in ...: masked_data[dict_key] = val[key]`,
graphicle/data.py:794-796. -/
def Mask.sliceKids (k : Key) : List (String × Mask) → Py (List (String × Mask))
  | [] => .ok []
  | (name, m) :: rest =>
    match Mask.slice k m with
    | .error e => .error e
    | .ok m' =>
      match Mask.sliceKids k rest with
      | .error e => .error e
      | .ok rest' => .ok ((name, m') :: rest')
termination_by structural ks => ks
end

/-- `group[key]` for a string key, graphicle/data.py:797-798. -/
def groupGet (ks : Dict Mask) (key : String) : Py Mask :=
  match Dict.get? ks key with
  | some m => .ok m
  | none => .error .keyError

/-- `group[[k1, k2, ...]]`, graphicle/data.py:788-791: a dict comprehension over the listed keys
(repeated keys collapse), `KeyError` at the first missing one. -/
def groupSelect (ks : Dict Mask) (names : List String) : Py (Dict Mask) :=
  go [] names
where
  /-- the dict comprehension, filling `acc` -/
  go (acc : Dict Mask) : List String → Py (Dict Mask)
    | [] => .ok acc
    | k :: rest =>
      match Dict.get? ks k with
      | some m => go (Dict.set acc k m) rest
      | none => .error .keyError

/-- `group[key] = mask`, graphicle/data.py:800-806. -/
def groupSet (ks : Dict Mask) (key : String) (m : Mask) : Dict Mask := Dict.set ks key m

/-- `del group[key]`, graphicle/data.py:818-820. -/
def groupDel (ks : Dict Mask) (key : String) : Py (Dict Mask) :=
  match Dict.pop? ks key with
  | some ks' => .ok ks'
  | none => .error .keyError

/-- `bool(group)`, graphicle/data.py:808-813; `bool(mask_array)`, data.py:455-457, 570-571. -/
def Mask.truthy : Mask → Py Bool
  | .arr d => .ok (!(d.length == 0))
  | .grp op ks =>
    if ks.length = 0 then .ok false
    else
      match (Mask.grp op ks).data with
      | .ok d => .ok (!(d.length == 0))
      | .error e => .error e

/-- Value produced by `serialize()`: a tuple of booleans or a dictionary.
Helper of `Mask.serialize` (graphicle/data.py:584-589). -/
inductive Ser where
  | tup (d : List Bool)
  | dict (kids : List (String × Ser))

mutual
/-- `MaskArray.serialize` graphicle/data.py:584-589, `MaskGroup.serialize` data.py:998-1003. -/
def Mask.serialize : Mask → Ser
  | .arr d => .tup d
  | .grp _ ks => .dict (Mask.serializeKids ks)
termination_by structural m => m
/-- The dict comprehension of `MaskGroup.serialize`, graphicle/data.py:1003. -/
def Mask.serializeKids : List (String × Mask) → List (String × Ser)
  | [] => []
  | (k, m) :: rest => (k, Mask.serialize m) :: Mask.serializeKids rest
termination_by structural ks => ks
end

mutual
/-- The value branch of `_mask_dict_convert`, graphicle/data.py:654-659: a mapping becomes a
`MaskGroup` with the default `agg_op` (`"and"`, data.py:719-722), anything else a `MaskArray`. -/
def Ser.convert : Ser → Mask
  | .tup d => .arr d
  | .dict ks => .grp .and (Ser.convertKids ks)
termination_by structural s => s
/-- `_mask_dict_convert`, graphicle/data.py:651-661. -/
def Ser.convertKids : List (String × Ser) → List (String × Mask)
  | [] => []
  | (k, s) :: rest => (k, Ser.convert s) :: Ser.convertKids rest
termination_by structural ks => ks
end

/-- `MaskGroup(masks, agg_op)` for serialized `masks` (graphicle/data.py:716-722). -/
def groupOfSer (ks : List (String × Ser)) (op : Agg := .and) : Mask :=
  .grp op (Ser.convertKids ks)

/-- `key_struct(group_1) != key_struct(group_2)`, graphicle/data.py:667-668, negated. -/
def keysAgree (ordered : Bool) (k1 k2 : List String) : Bool :=
  if ordered then k1 == k2
  else k1.all (fun k => k2.contains k) && k2.all (fun k => k1.contains k)

mutual
/-- `_maskgroup_equal`, graphicle/data.py:664-679 (called by `equal_to`, data.py:1005-1026). The
`type(mask_1) != type(mask_2)` test is the last case. -/
def Mask.equalTo (ordered : Bool) : Mask → Mask → Bool
  | .arr a, .arr b => a == b
  | .grp _ k1, .grp _ k2 =>
    keysAgree ordered (Dict.keys k1) (Dict.keys k2) && Mask.equalKids ordered k1 k2
  | _, _ => false
termination_by structural m => m
/-- The loop `for key in group_1`, graphicle/data.py:670-678.
(`group_1[key]` is the entry itself because keys are unique.) -/
def Mask.equalKids (ordered : Bool) : List (String × Mask) → List (String × Mask) → Bool
  | [], _ => true
  | (k, m) :: rest, k2 =>
    (match Dict.get? k2 k with
     | some m2 => Mask.equalTo ordered m m2
     | none => false) && Mask.equalKids ordered rest k2
termination_by structural ks => ks
end

mutual
/-- `MaskGroup.recursive_drop`, graphicle/data.py:906-936, on values. -/
def Mask.drop (key : String) : Mask → Mask
  | .arr d => .arr d
  | .grp op ks => .grp op (Mask.dropKids key ks)
termination_by structural m => m
/-- `del mask_group[key]` then the loop over `values()`, graphicle/data.py:931-935
(one entry at most is deleted because keys are unique). -/
def Mask.dropKids (key : String) : List (String × Mask) → List (String × Mask)
  | [] => []
  | (k, m) :: rest =>
    if k = key then Mask.dropKids key rest
    else (k, Mask.drop key m) :: Mask.dropKids key rest
termination_by structural ks => ks
end

mutual
/-- Pairs yielded by `visit` for one item of a group, after its `latent` test,
graphicle/data.py:990-994. -/
def Mask.visitItem (key : String) : Mask → Py (List (String × List Bool))
  | .arr d => .ok [(key, d)]
  | .grp op ks =>
    match (Mask.grp op ks).data with
    | .error e => .error e
    | .ok d =>
      match Mask.visitKids ks with
      | .error e => .error e
      | .ok ps => .ok ((key, d) :: ps)
termination_by structural m => m
/-- `visit`, graphicle/data.py:984-994. -/
def Mask.visitKids : List (String × Mask) → Py (List (String × List Bool))
  | [] => .ok []
  | (k, m) :: rest =>
    if k = "latent" then Mask.visitKids rest
    else
      match Mask.visitItem k m with
      | .error e => .error e
      | .ok ps =>
        match Mask.visitKids rest with
        | .error e => .error e
        | .ok qs => .ok (ps ++ qs)
termination_by structural ks => ks
end

/-- `flatten("rise")`, graphicle/data.py:984-996, on a group `(op, ks)`: the flat dictionary of the
result (its `agg_op` is `op`). -/
def flattenRise (op : Agg) (ks : Dict Mask) : Py Mask :=
  match Mask.visitKids ks with
  | .ok ps => .ok (.grp op (Dict.ofPairs (ps.map (fun p => (p.1, Mask.arr p.2)))))
  | .error e => .error e

/-- `flatten("agg")`, graphicle/data.py:976-982. -/
def flattenAgg (ks : Dict Mask) : Py Mask :=
  match Mask.dataKids ks with
  | .ok rows =>
    .ok (.grp .or (Dict.ofPairs (List.zipWith (fun k d => (k, Mask.arr d)) (Dict.keys ks) rows)))
  | .error e => .error e

mutual
/-- `_leaf_mask_iter`, graphicle/select.py:877-891 (with the default `exclude_latent=True`). -/
def Mask.leafIter (name : String) : Mask → List (String × List Bool)
  | .arr d => [(name, d)]
  | .grp _ ks => Mask.leafIterKids ks
termination_by structural m => m
/-- The loop of `_leaf_mask_iter`, graphicle/select.py:888-891. -/
def Mask.leafIterKids : List (String × Mask) → List (String × List Bool)
  | [] => []
  | (k, m) :: rest =>
    if k = "latent" then Mask.leafIterKids rest
    else Mask.leafIter k m ++ Mask.leafIterKids rest
termination_by structural ks => ks
end

/-- `leaf_masks`, graphicle/select.py:894-919, also `flatten("leaves")` (data.py:972-975): note
that a *top-level* `latent` entry is not skipped. -/
def leafMasks (op : Agg) (ks : Dict Mask) : Mask :=
  .grp op (ks.foldl (fun acc p =>
    Dict.update acc (Dict.ofPairs ((Mask.leafIter p.1 p.2).map (fun q => (q.1, Mask.arr q.2))))) [])

/-- The public attributes of a `MaskGroup`: those of the class body (graphicle/data.py:695-1026) and those inherited
from `typing.MutableMapping` (data.py:695).  There is no `__getattr__`. -/
def maskGroupAttrs : List String :=
  ["agg_op", "from_numpy_structured", "copy", "bitwise_or", "bitwise_and", "data", "to_dict", "recursive_drop",
   "flatten", "serialize", "equal_to", "keys", "items", "values", "get", "pop", "popitem", "clear", "update",
   "setdefault"]

/-- `itertools.combinations(xs, 2)`.
Helper of `overlapOf` (graphicle/select.py:941-944). -/
def pairs2 {α : Type} : List α → List (α × α)
  | [] => []
  | x :: xs => xs.map (fun y => (x, y)) ++ pairs2 xs

/-- `tuple(map(np.bitwise_and, *zip(*combos)))`: evaluated in order, the first failure is raised.
Helper of `overlapOf` (graphicle/select.py:941-944). -/
def pairChecks : List (List Bool × List Bool) → Py (List (List Bool))
  | [] => .ok []
  | (x, y) :: rest =>
    match bcast2 (· && ·) x y with
    | .error e => .error e
    | .ok z =>
      match pairChecks rest with
      | .error e => .error e
      | .ok zs => .ok (z :: zs)

/-- The body of `any_overlap` (graphicle/select.py:941-944) once `masks.dict.values()` has given the mask arrays `ms`.
With fewer than two masks there are no pairs, `zip(*combos)` is empty and `map(np.bitwise_and)` is `TypeError`; masks of
different lengths do not stack to one array (`ValueError`). -/
def overlapOf (ms : List (List Bool)) : Py Bool :=
  match pairs2 ms with
  | [] => .error .typeError
  | p :: ps =>
    match pairChecks (p :: ps) with
    | .error e => .error e
    | .ok [] => .ok false
    | .ok (z :: zs) =>
      if zs.all (fun w => w.length == z.length) then .ok ((z :: zs).any (fun w => w.any id)) else .error .valueError

/-- `any_overlap`, graphicle/select.py:922-945, for an argument with public attributes `attrs` which, if it has an
attribute `dict`, keeps there a dictionary with values `ms`. -/
def anyOverlapDuck (attrs : List String) (ms : List (List Bool)) : Py Bool :=
  if attrs.contains "dict" then overlapOf ms else .error .attributeError

/-- `any_overlap` of a `MaskGroup` (graphicle/select.py:922-945). -/
def anyOverlap (m : Mask) : Py Bool :=
  anyOverlapDuck maskGroupAttrs (match m with | .arr _ => [] | .grp _ ks => ks.filterMap (fun p =>
    match p.2 with | .arr d => some d | .grp _ _ => none))

end Gcl
