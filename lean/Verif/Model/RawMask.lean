import Verif.Model.Mask
/-!
# Model of `agg_op` as the stored value, structured masks and the printed tree

graphicle/data.py:695-1003.  In `Model/Mask.lean` the aggregation operation of a group is one of the three values
`agg_op` parses to.  Here a group holds what the user gave: nothing is checked when a group is made or `agg_op` is set
(data.py:719-733), only when it is read.

Simplifications: `str.lower` lowers ASCII letters only (no other character lowers to a letter of "and", "or", "none");
the printed tree is the list of its lines with their depth, without guides, wrapping or rich markup in names.
-/
namespace Gcl
set_option autoImplicit false

/-- A stored `agg_op` (graphicle/data.py:719-722): a string, or something that is neither a string nor a
`MaskAggOp` (the converter leaves it as it is). -/
inductive RawOp where
  | str (s : String)
  | obj
  deriving DecidableEq

/-- The value of a `MaskAggOp` (graphicle/data.py:682-685). -/
def Agg.value : Agg → String
  | .and => "and"
  | .or => "or"
  | .none => "none"

/-- The converter of `_agg_op` (graphicle/data.py:719-722) on a `MaskAggOp`. -/
def RawOp.ofAgg (a : Agg) : RawOp := .str a.value

/-- Reading `agg_op` (graphicle/data.py:724-729): no `lower` on other objects (`AttributeError`). -/
def RawOp.parse : RawOp → Py Agg
  | .str s => Agg.ofLowered s.toLower
  | .obj => .error .attributeError

/-- A mask with stored aggregation operations (graphicle/data.py:460, 695-722). -/
inductive RMask where
  | arr (d : List Bool)
  | grp (op : RawOp) (kids : List (String × RMask))

mutual
/-- `.data` (graphicle/data.py:573-576, 880-896): `agg_op` is read first. -/
def RMask.data : RMask → Py (List Bool)
  | .arr d => .ok d
  | .grp op ks =>
    match op.parse with
    | .error e => .error e
    | .ok .and =>
      match RMask.dataKids ks with
      | .ok rows => reduceRows (· && ·) rows
      | .error e => .error e
    | .ok .or =>
      match RMask.dataKids ks with
      | .ok rows => reduceRows (· || ·) rows
      | .error e => .error e
    | .ok .none => .error .valueError
termination_by structural m => m
/-- `[child.data for child in self._mask_arrays.values()]` (graphicle/data.py:869, 876). -/
def RMask.dataKids : List (String × RMask) → Py (List (List Bool))
  | [] => .ok []
  | (_, m) :: rest =>
    match RMask.data m with
    | .error e => .error e
    | .ok d =>
      match RMask.dataKids rest with
      | .error e => .error e
      | .ok ds => .ok (d :: ds)
termination_by structural ks => ks
end

/-- `bitwise_or` and `bitwise_and` (graphicle/data.py:866-878). -/
def rawReduce (f : Bool → Bool → Bool) (ks : Dict RMask) : Py (List Bool) :=
  match RMask.dataKids ks with
  | .ok rows => reduceRows f rows
  | .error e => .error e

mutual
/-- `copy` (graphicle/data.py:517-519, 858-864): the stored `agg_op` is handed on as it is. -/
def RMask.copy : RMask → RMask
  | .arr d => .arr d
  | .grp op ks => .grp op (RMask.copyKids ks)
termination_by structural m => m
/-- The copies of the masks of a group (graphicle/data.py:860-862). -/
def RMask.copyKids : List (String × RMask) → List (String × RMask)
  | [] => []
  | (k, m) :: rest => (k, RMask.copy m) :: RMask.copyKids rest
termination_by structural ks => ks
end

mutual
/-- `mask[key]` for an array-like key (graphicle/data.py:524-527, 792-796). -/
def RMask.slice (k : Key) : RMask → Py RMask
  | .arr d =>
    match k.apply d with
    | .ok d' => .ok (.arr d')
    | .error e => .error e
  | .grp op ks =>
    match RMask.sliceKids k ks with
    | .ok ks' => .ok (.grp op ks')
    | .error e => .error e
termination_by structural m => m
/-- The loop of `MaskGroup.__getitem__` (graphicle/data.py:794-796). -/
def RMask.sliceKids (k : Key) : List (String × RMask) → Py (List (String × RMask))
  | [] => .ok []
  | (name, m) :: rest =>
    match RMask.slice k m with
    | .error e => .error e
    | .ok m' =>
      match RMask.sliceKids k rest with
      | .error e => .error e
      | .ok rest' => .ok ((name, m') :: rest')
termination_by structural ks => ks
end

mutual
/-- Pairs yielded by `visit` for one item (graphicle/data.py:990-994). -/
def RMask.visitItem (key : String) : RMask → Py (List (String × List Bool))
  | .arr d => .ok [(key, d)]
  | .grp op ks =>
    match (RMask.grp op ks).data with
    | .error e => .error e
    | .ok d =>
      match RMask.visitKids ks with
      | .error e => .error e
      | .ok ps => .ok ((key, d) :: ps)
termination_by structural m => m
/-- `visit` (graphicle/data.py:984-994). -/
def RMask.visitKids : List (String × RMask) → Py (List (String × List Bool))
  | [] => .ok []
  | (k, m) :: rest =>
    if k = "latent" then RMask.visitKids rest
    else
      match RMask.visitItem k m with
      | .error e => .error e
      | .ok ps =>
        match RMask.visitKids rest with
        | .error e => .error e
        | .ok qs => .ok (ps ++ qs)
termination_by structural ks => ks
end

/-- `flatten("rise")` (graphicle/data.py:984-996): the dictionary is filled first, then `agg_op` is read and handed on
as a `MaskAggOp`. -/
def rawFlattenRise (op : RawOp) (ks : Dict RMask) : Py RMask :=
  match RMask.visitKids ks with
  | .error e => .error e
  | .ok ps =>
    match op.parse with
    | .error e => .error e
    | .ok a => .ok (.grp (RawOp.ofAgg a) (Dict.ofPairs (ps.map (fun p => (p.1, RMask.arr p.2)))))

/-- `to_dict` (graphicle/data.py:897-904). -/
def rawToDict (ks : Dict RMask) : Py (Dict (List Bool)) :=
  match RMask.dataKids ks with
  | .error e => .error e
  | .ok rows => .ok (List.zipWith (fun k d => (k, d)) (Dict.keys ks) rows)

/-- What a group is asked to do (graphicle/data.py:731-733, 800-806, 818-820). -/
inductive GOp where
  /-- `group.agg_op = value` -/
  | setAgg (v : RawOp)
  /-- `group[key] = mask` -/
  | set (k : String) (m : RMask)
  /-- `del group[key]` -/
  | del (k : String)

/-- A group (its stored `agg_op` and masks) after one operation, and the exception raised
(graphicle/data.py:731-733, 800-806, 818-820). -/
def GOp.run (s : RawOp × Dict RMask) : GOp → (RawOp × Dict RMask) × Option PyErr
  | .setAgg v => ((v, s.2), none)
  | .set k m => ((s.1, Dict.set s.2 k m), none)
  | .del k =>
    match Dict.pop? s.2 k with
    | some ks => ((s.1, ks), none)
    | none => (s, some .keyError)

/-- A group after a history (graphicle/data.py:731-733, 800-806, 818-820). -/
def runGroup (s : RawOp × Dict RMask) : List GOp → RawOp × Dict RMask
  | [] => s
  | o :: rest => runGroup (o.run s).1 rest

/-- A subscript of a group (graphicle/data.py:772-798): a string, a list of strings, a list with something else in it
(such as integers), or an array-like. -/
inductive GKey where
  | name (k : String)
  | names (ks : List String)
  | otherList
  | array (k : Key)

/-- `{k: self._mask_arrays[k] for k in key}` (graphicle/data.py:788-791). -/
def rawSelect (ks : Dict RMask) : Dict RMask → List String → Py (Dict RMask)
  | acc, [] => .ok acc
  | acc, k :: rest =>
    match Dict.get? ks k with
    | some m => rawSelect ks (Dict.set acc k m) rest
    | none => .error .keyError

/-- `MaskGroup.__getitem__` (graphicle/data.py:772-798).  Keys are strings, so a list with anything else in it is
`KeyError`. -/
def rawGetitem (op : RawOp) (ks : Dict RMask) : GKey → Py RMask
  | .name k =>
    match Dict.get? ks k with
    | some m => .ok m
    | none => .error .keyError
  | .names ns =>
    match rawSelect ks [] ns with
    | .error e => .error e
    | .ok ks' => .ok (.grp op ks')
  | .otherList => .error .keyError
  | .array k => RMask.slice k (.grp op ks)

/-- A structured numpy array (graphicle/data.py:735-741): the fields with their columns, or no fields at all. -/
structure StructArr (α : Type) where
  names : Option (List String)
  column : String → List α

/-- `MaskGroup.from_numpy_structured` (graphicle/data.py:735-741): each field becomes a `MaskArray`, its values
converted to booleans; an array without fields is `TypeError` (`map` over `None`). -/
def fromStructured {α : Type} (truth : α → Bool) (a : StructArr α) : Py RMask :=
  match a.names with
  | none => .error .typeError
  | some ns =>
    .ok (.grp (.str "and") ((Dict.ofPairs (ns.map (fun n => (n, a.column n)))).map
      (fun p => (p.1, RMask.arr (p.2.map truth)))))

/-- A `rich.tree.Tree` (graphicle/data.py:747-761): its label is a text or another tree. -/
inductive RTree where
  | text (s : String) (kids : List RTree)
  | wrap (t : RTree) (kids : List RTree)

/-- `Tree.add(label)` for a tree as label (graphicle/data.py:757-758): a new node with that label as last child. -/
def RTree.add : RTree → RTree → RTree
  | .text s ks, t => .text s (ks ++ [.wrap t []])
  | .wrap u ks, t => .wrap u (ks ++ [.wrap t []])

mutual
/-- The body of the loop in `make_tree` (graphicle/data.py:754-757): the `sub_branch` of one item.  `add` returns the
new node, which is what `sub_branch` becomes for a group. -/
def RMask.subBranch (key : String) : RMask → RTree
  | .arr _ => .text key []
  | .grp _ ks => .wrap (RMask.makeTree ks (.text key [])) []
termination_by structural m => m
/-- `make_tree` (graphicle/data.py:752-759), `branch` being the copy of the branch given. -/
def RMask.makeTree : List (String × RMask) → RTree → RTree
  | [], branch => branch
  | (k, m) :: rest, branch => RMask.makeTree rest (branch.add (RMask.subBranch k m))
termination_by structural ks => ks
end

/-- The name of a `MaskAggOp` (graphicle/data.py:682-685). -/
def Agg.name : Agg → String
  | .and => "AND"
  | .or => "OR"
  | .none => "NONE"

/-- `__rich__` (graphicle/data.py:747-761), colours left out. -/
def rawRich (op : RawOp) (ks : Dict RMask) : Py RTree :=
  match op.parse with
  | .error e => .error e
  | .ok a => .ok (RMask.makeTree ks (.text ("MaskGroup(agg_op=" ++ a.name ++ ")") []))

mutual
/-- The lines `rich` prints for a tree, with their depth (graphicle/data.py:763-767): the label's lines, then those of
the children one level deeper. -/
def RTree.lines : RTree → List (Nat × String)
  | .text s ks => (0, s) :: RTree.linesKids ks
  | .wrap t ks => RTree.lines t ++ RTree.linesKids ks
termination_by structural t => t
/-- The lines of the children of a tree, one level deeper (graphicle/data.py:763-767). -/
def RTree.linesKids : List RTree → List (Nat × String)
  | [] => []
  | t :: rest => (RTree.lines t).map (fun l => (l.1 + 1, l.2)) ++ RTree.linesKids rest
termination_by structural ts => ts
end

/-- `str(group)` (graphicle/data.py:763-767): the printed lines with their depth. -/
def rawStr (op : RawOp) (ks : Dict RMask) : Py (List (Nat × String)) :=
  match rawRich op ks with
  | .error e => .error e
  | .ok t => .ok t.lines

end Gcl
