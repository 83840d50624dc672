import Verif.Model.Mask
/-!
# Model of masks as mutable objects

`MaskArray` and `MaskGroup` (graphicle/data.py:460-1026) as Python objects: a heap of numbered objects.  A
`MaskArray` refers to a numpy buffer, a `MaskGroup` to the objects in its dictionary.  Two groups may refer to
the same object; this is what aliasing is.

Simplifications: the ordered dictionary of a group belongs to it alone (`_mask_dict_convert`, data.py:651-661,
always makes a new one) and is part of the group object.  Recursion depth is bounded by an argument `fuel`
(`RecursionError` when it is used up), over which all theorems quantify.
-/
namespace Gcl
set_option autoImplicit false

/-- An object: the buffer of an array, a `MaskArray` (graphicle/data.py:497), a `MaskGroup`
(graphicle/data.py:716-722). -/
inductive HObj where
  | buf (d : List Bool)
  | mask (b : Nat)
  | group (op : Agg) (entries : List (String × Nat))
  deriving DecidableEq

/-- The objects in memory; an address is a position.
Helper of `copyKids` (graphicle/data.py:860-863). -/
abbrev MHeap := List HObj

/-- `map(op.methodcaller("copy"), self._mask_arrays.values())` consumed by `zip` with the keys
(graphicle/data.py:860-863). -/
def copyKids (cp : MHeap → Nat → Py (MHeap × Nat)) : MHeap → List (String × Nat) →
    Py (MHeap × List (String × Nat))
  | h, [] => .ok (h, [])
  | h, (k, v) :: rest =>
    match cp h v with
    | .error e => .error e
    | .ok (h1, v') =>
      match copyKids cp h1 rest with
      | .error e => .error e
      | .ok (h2, rest') => .ok (h2, (k, v') :: rest')

/-- `MaskArray.copy` (graphicle/data.py:517-519) and `MaskGroup.copy` (graphicle/data.py:858-864). -/
def copyObj : Nat → MHeap → Nat → Py (MHeap × Nat)
  | 0, _, _ => .error .recursionError
  | fuel + 1, h, a =>
    match h[a]? with
    | some (.mask b) =>
      match h[b]? with
      | some (.buf d) => .ok (h ++ [.buf d, .mask h.length], h.length + 1)
      | _ => .error .attributeError
    | some (.group op es) =>
      match copyKids (copyObj fuel) h es with
      | .error e => .error e
      | .ok (h1, es') => .ok (h1 ++ [.group op es'], h1.length)
    | _ => .error .attributeError

/-- The loop of `recursive_drop` over the values (graphicle/data.py:933-935).  The heap is returned also in the
error case. -/
def dropKidsH (dr : MHeap → Nat → MHeap × Py Unit) : MHeap → List Nat → MHeap × Py Unit
  | h, [] => (h, .ok ())
  | h, v :: vs =>
    match h[v]? with
    | some (.group _ _) =>
      match dr h v with
      | (h1, .ok ()) => dropKidsH dr h1 vs
      | (h1, .error e) => (h1, .error e)
    | _ => dropKidsH dr h vs

/-- `recursive_drop(key, inplace=True)` (graphicle/data.py:928-936). -/
def dropInPlace : Nat → String → MHeap → Nat → MHeap × Py Unit
  | 0, _, h, _ => (h, .error .recursionError)
  | fuel + 1, key, h, a =>
    match h[a]? with
    | some (.group op es) =>
      dropKidsH (dropInPlace fuel key) (h.set a (.group op (es.filter (fun p => p.1 != key))))
        ((es.filter (fun p => p.1 != key)).map Prod.snd)
    | _ => (h, .error .attributeError)

/-- `recursive_drop(key, inplace)` (graphicle/data.py:906-936): the heap afterwards and the object returned. -/
def recursiveDropH (fuel : Nat) (key : String) (inplace : Bool) (h : MHeap) (a : Nat) : MHeap × Py Nat :=
  if inplace then
    match dropInPlace fuel key h a with
    | (h1, .ok ()) => (h1, .ok a)
    | (h1, .error e) => (h1, .error e)
  else
    match copyObj fuel h a with
    | .error e => (h, .error e)
    | .ok (h1, b) =>
      match dropInPlace fuel key h1 b with
      | (h2, .ok ()) => (h2, .ok b)
      | (h2, .error e) => (h2, .error e)

mutual
/-- Creating new `MaskArray` and `MaskGroup` objects with given contents (graphicle/data.py:497, 716-722). -/
def allocMask : Mask → MHeap → MHeap × Nat
  | .arr d, h => (h ++ [.buf d, .mask h.length], h.length + 1)
  | .grp op ks, h =>
    let r := allocKids ks h
    (r.1 ++ [.group op r.2], r.1.length)
termination_by structural m => m
/-- The members of a new group (graphicle/data.py:651-661). -/
def allocKids : List (String × Mask) → MHeap → MHeap × List (String × Nat)
  | [], h => (h, [])
  | (k, m) :: rest, h =>
    let r := allocMask m h
    let s := allocKids rest r.1
    (s.1, (k, r.2) :: s.2)
termination_by structural ks => ks
end

/-- The object reached by `root[k1][k2]...` (graphicle/data.py:772-798). -/
def navigate (h : MHeap) : Nat → List String → Option Nat
  | a, [] => some a
  | a, k :: path =>
    match h[a]? with
    | some (.group _ es) =>
      match Dict.get? es k with
      | some v => navigate h v path
      | none => none
    | _ => none

/-- In-place updates a user can make through a mask or group.
Helper of `in-place updates of masks and groups` (graphicle/data.py:529-532, 800-820, 906-934). -/
inductive HOp where
  /-- `root[...]... [key] = values` on a leaf: the buffer gets new contents (data.py:529-532, `leaf.data[...] = d`) -/
  | write (path : List String) (d : List Bool)
  /-- `leaf.data = values` (data.py:578-582), with a new array -/
  | rebind (path : List String) (d : List Bool)
  /-- `group[k] = mask` with a new mask (data.py:800-806) -/
  | addNew (path : List String) (k : String) (m : Mask)
  /-- `group[k] = root[...]` with an object below a variable (data.py:800-806) -/
  | addOld (path : List String) (k : String) (source : List String)
  /-- `del group[k]` (data.py:819-821) -/
  | del (path : List String) (k : String)
  /-- `group.agg_op = op` (data.py:731-733) -/
  | setAgg (path : List String) (op : Agg)
  /-- `group.recursive_drop(key, inplace=True)` (data.py:906-936) -/
  | drop (path : List String) (key : String) (fuel : Nat)

/-- The heap after an update made through the variable holding `root` (`addOld` takes its value from below the
variable holding `src`); an update that raises leaves it as it is, except `recursive_drop`, which may have been
partly done.
Helper of `in-place updates of masks and groups` (graphicle/data.py:529-532, 800-820, 906-934). -/
def HOp.run (h : MHeap) (root src : Nat) : HOp → MHeap
  | .write path d =>
    match navigate h root path with
    | some a =>
      match h[a]? with
      | some (.mask b) => h.set b (.buf d)
      | _ => h
    | none => h
  | .rebind path d =>
    match navigate h root path with
    | some a =>
      match h[a]? with
      | some (.mask _) => (h ++ [HObj.buf d]).set a (.mask h.length)
      | _ => h
    | none => h
  | .addNew path k m =>
    match navigate h root path with
    | some a =>
      match h[a]? with
      | some (.group op es) => (allocMask m h).1.set a (.group op (Dict.set es k (allocMask m h).2))
      | _ => h
    | none => h
  | .addOld path k source =>
    match navigate h root path, navigate h src source with
    | some a, some v =>
      match h[a]? with
      | some (.group op es) => h.set a (.group op (Dict.set es k v))
      | _ => h
    | _, _ => h
  | .del path k =>
    match navigate h root path with
    | some a =>
      match h[a]? with
      | some (.group op es) => h.set a (.group op (es.filter (fun p => p.1 != k)))
      | _ => h
    | none => h
  | .setAgg path op =>
    match navigate h root path with
    | some a =>
      match h[a]? with
      | some (.group _ es) => h.set a (.group op es)
      | _ => h
    | none => h
  | .drop path key fuel =>
    match navigate h root path with
    | some a => (dropInPlace fuel key h a).1
    | none => h

/-- The heap and the variables of two users.
Helper of `in-place updates of masks and groups` (graphicle/data.py:529-532, 800-820, 858-863). -/
structure HState where
  heap : MHeap
  vars : Bool → List Nat

/-- What a user can do: put a member into a new variable, or update in place through variables.
Helper of `in-place updates of masks and groups` (graphicle/data.py:529-532, 800-820, 858-863). -/
inductive HStep where
  /-- `new = variable_i[k1][k2]...` -/
  | take (i : Nat) (path : List String)
  /-- an update through variable `i`, with values from variable `j` -/
  | update (i j : Nat) (op : HOp)

/-- One step of user `side`.
Helper of `in-place updates of masks and groups` (graphicle/data.py:529-532, 800-820, 858-863). -/
def HStep.run (s : HState) (side : Bool) : HStep → HState
  | .take i path =>
    match (s.vars side)[i]? with
    | some r =>
      match navigate s.heap r path with
      | some x => ⟨s.heap, fun t => if t = side then s.vars t ++ [x] else s.vars t⟩
      | none => s
    | none => s
  | .update i j op =>
    match (s.vars side)[i]?, (s.vars side)[j]? with
    | some r, some q => ⟨op.run s.heap r q, s.vars⟩
    | _, _ => s

/-- A history: steps of the two users in any order.
Helper of `in-place updates of masks and groups` (graphicle/data.py:529-532, 800-820, 858-863). -/
def runHistory (s : HState) : List (Bool × HStep) → HState
  | [] => s
  | (side, st) :: rest => runHistory (st.run s side) rest

end Gcl
