import Verif.Model.HierMem
import Verif.Model.ClustersMem
/-!
# Model of the objects shared by groups

`MaskGroup(...)`, `group[[...]]`, `leaf_masks` and `MaskGroup.flatten` (graphicle/data.py:651-661, 716-722, 787-798,
938-996, graphicle/select.py:877-919) once more, on the heap of Model/Heap.lean: which mask objects and buffers the new
group has in common with the masks it was made from.  Model/Mask.lean models the values only.

Simplifications: a `numpy` array handed to `MaskGroup` has `bool` dtype and is contiguous (then `np.asarray` and
`np.ascontiguousarray` return it as it is; any other is a list of values here); aggregates that are overwritten in the
dictionary before the group is made (data.py:996) are not put on the heap.
-/
namespace Gcl
set_option autoImplicit false

/-- A value of the mapping given to `MaskGroup`, by the cases of `_mask_dict_convert` (graphicle/data.py:651-661):
a `MaskArray` or `MaskGroup` object, an array buffer, other values, a mapping. -/
inductive Member where
  | obj (a : Nat)
  | array (b : Nat)
  | values (d : List Bool)
  | mapping (ms : List (String × Member))

mutual
/-- One round of the loop of `_mask_dict_convert` (graphicle/data.py:653-660): the object put into the new group. -/
def placeMember : Member → MHeap → MHeap × Nat
  | .obj a, h => (h, a)
  | .array b, h => (h ++ [.mask b], h.length)
  | .values d, h => (h ++ [.buf d, .mask h.length], h.length + 1)
  | .mapping ms, h =>
    let r := placeMembers ms h
    (r.1 ++ [.group .and r.2], r.1.length)
termination_by structural m => m
/-- `_mask_dict_convert` (graphicle/data.py:651-661). -/
def placeMembers : List (String × Member) → MHeap → MHeap × List (String × Nat)
  | [], h => (h, [])
  | (k, m) :: rest, h =>
    let r := placeMember m h
    let s := placeMembers rest r.1
    (s.1, (k, r.2) :: s.2)
termination_by structural ms => ms
end

/-- `MaskGroup(mapping, agg_op)` (graphicle/data.py:716-722): the heap and the new group. -/
def newGroup (op : Agg) (ms : List (String × Member)) (h : MHeap) : MHeap × Nat :=
  ((placeMembers ms h).1 ++ [.group op (placeMembers ms h).2], (placeMembers ms h).1.length)

/-- The dict comprehension `{k: self._mask_arrays[k] for k in key}` (graphicle/data.py:790). -/
def pickRefs (es : Dict Nat) : Dict Nat → List String → Py (Dict Nat)
  | acc, [] => .ok acc
  | acc, k :: rest =>
    match Dict.get? es k with
    | some v => pickRefs es (Dict.set acc k v) rest
    | none => .error .keyError

/-- `group[[k1, k2, ...]]` (graphicle/data.py:787-791). -/
def selectH (names : List String) (h : MHeap) (a : Nat) : MHeap × Py Nat :=
  match h[a]? with
  | some (.group op es) =>
    match pickRefs es [] names with
    | .error e => (h, .error e)
    | .ok ps => ((newGroup op (ps.map (fun p => (p.1, .obj p.2))) h).1,
        .ok (newGroup op (ps.map (fun p => (p.1, .obj p.2))) h).2)
  | _ => (h, .error .attributeError)

/-- `leaf_masks(tree)` (graphicle/select.py:894-919): the leaf objects, put one by one into a new group. -/
def leafMasksH (fuel : Nat) (h : MHeap) (a : Nat) : MHeap × Py Nat :=
  match h[a]? with
  | some (.group op es) =>
    match leafDictH fuel h [] es with
    | .error e => (h, .error e)
    | .ok ps => (h ++ [.group op ps], .ok h.length)
  | _ => (h, .error .attributeError)

/-- `mask.data` of the object at an address, read to the given depth: a new array for a group, the buffer itself for
a `MaskArray` (graphicle/data.py:573-576, 880-895). -/
def dataH (fuel : Nat) (h : MHeap) (a : Nat) : Py Member :=
  match h[a]? with
  | some (.mask b) =>
    match h[b]? with
    | some (.buf _) => .ok (.array b)
    | _ => .error .attributeError
  | _ =>
    match readMask fuel h a with
    | .error e => .error e
    | .ok m =>
      match m.data with
      | .error e => .error e
      | .ok d => .ok (.values d)

/-- `map(op.attrgetter("data"), self.values())` zipped with the keys (graphicle/data.py:978-980). -/
def aggMembers (fuel : Nat) (h : MHeap) : List (String × Nat) → Py (List (String × Member))
  | [] => .ok []
  | (k, v) :: rest =>
    match dataH fuel h v with
    | .error e => .error e
    | .ok m =>
      match aggMembers fuel h rest with
      | .error e => .error e
      | .ok ms => .ok ((k, m) :: ms)

/-- The loop of `visit` (graphicle/data.py:987-994). -/
def visitKidsH (vs : String → Nat → Py (List (String × Member))) :
    List (String × Nat) → Py (List (String × Member))
  | [] => .ok []
  | (k, v) :: rest =>
    if k = "latent" then visitKidsH vs rest
    else
      match vs k v with
      | .error e => .error e
      | .ok ps =>
        match visitKidsH vs rest with
        | .error e => .error e
        | .ok qs => .ok (ps ++ qs)

/-- One item in `visit`, after its `latent` test (graphicle/data.py:990-994), to the given depth. -/
def visitItemH : Nat → MHeap → String → Nat → Py (List (String × Member))
  | 0, _, _, _ => .error .recursionError
  | fuel + 1, h, key, a =>
    match h[a]? with
    | some (.group _ es) =>
      match dataH (fuel + 1) h a with
      | .error e => .error e
      | .ok d =>
        match visitKidsH (visitItemH fuel h) es with
        | .error e => .error e
        | .ok ps => .ok ((key, d) :: ps)
    | some (.mask _) => .ok [(key, .obj a)]
    | _ => .error .attributeError

/-- The argument `how` of `flatten` (graphicle/data.py:938-996); any other string is treated as `"rise"`. -/
inductive How where
  | rise
  | agg
  | leaves

/-- `group.flatten(how)` (graphicle/data.py:938-996). -/
def flattenH (how : How) (fuel : Nat) (h : MHeap) (a : Nat) : MHeap × Py Nat :=
  match how with
  | .leaves => leafMasksH fuel h a
  | .agg =>
    match h[a]? with
    | some (.group _ es) =>
      match aggMembers fuel h es with
      | .error e => (h, .error e)
      | .ok ms => ((newGroup .or (Dict.ofPairs ms) h).1, .ok (newGroup .or (Dict.ofPairs ms) h).2)
    | _ => (h, .error .attributeError)
  | .rise =>
    match h[a]? with
    | some (.group op es) =>
      match visitKidsH (visitItemH fuel h) es with
      | .error e => (h, .error e)
      | .ok ms => ((newGroup op (Dict.ofPairs ms) h).1, .ok (newGroup op (Dict.ofPairs ms) h).2)
    | _ => (h, .error .attributeError)

end Gcl
