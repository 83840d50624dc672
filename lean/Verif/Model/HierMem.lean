import Verif.Model.Hard
import Verif.Model.Heap
/-!
# Model of `hierarchy` with the objects it writes to

graphicle/select.py:716-874 once more, on the heap of Model/Heap.lean: `hierarchy` works on a copy of the masks it is
given (select.py:808), sets entries of the masks of that copy in place (select.py:821, 872) and puts the same mask
objects into the tree it returns (select.py:873).  Model/Hard.lean models the values only.

Every function returns the heap also when it raises.  Simplifications: the masks of `desc` are arrays (no nested
groups); a new group (select.py:851) is put on the heap when its members are complete, before which nothing else
refers to it.
-/
namespace Gcl
set_option autoImplicit false

/-- The entries of the `MaskArray` at an address.
Helper of `leafH` (graphicle/select.py:868-873). -/
def readMaskArr (h : MHeap) (a : Nat) : Py (List Bool) :=
  match h[a]? with
  | some (.mask b) =>
    match h[b]? with
    | some (.buf d) => .ok d
    | _ => .error .attributeError
  | _ => .error .attributeError

/-- The members of a group, with what they hold.
Helper of `latentH` (graphicle/select.py:855-857, 864-866). -/
def readKids (rd : Nat → Py Mask) : List (String × Nat) → Py (Dict Mask)
  | [] => .ok []
  | (k, v) :: rest =>
    match rd v with
    | .error e => .error e
    | .ok m =>
      match readKids rd rest with
      | .error e => .error e
      | .ok ms => .ok ((k, m) :: ms)

/-- What the object at an address holds, read to the given depth.
Helper of `latentH` (graphicle/select.py:855-857, 864-866). -/
def readMask : Nat → MHeap → Nat → Py Mask
  | 0, _, _ => .error .recursionError
  | fuel + 1, h, a =>
    match h[a]? with
    | some (.mask b) =>
      match h[b]? with
      | some (.buf d) => .ok (.arr d)
      | _ => .error .attributeError
    | some (.group op es) =>
      match readKids (readMask fuel h) es with
      | .error e => .error e
      | .ok ks => .ok (.grp op ks)
    | _ => .error .attributeError

/-- The masks of a group of arrays.
Helper of `hierarchyTreeH` (graphicle/select.py:811-823). -/
def readAll (h : MHeap) : List (String × Nat) → Py (Dict (List Bool))
  | [] => .ok []
  | (k, v) :: rest =>
    match readMaskArr h v with
    | .error e => .error e
    | .ok d =>
      match readAll h rest with
      | .error e => .error e
      | .ok ds => .ok ((k, d) :: ds)

/-- `desc[key].data[idx] = True`, graphicle/select.py:821: the buffer of the mask is changed. -/
def markOneH (desc : List (String × Nat)) (h : MHeap) (key : String) (idx : Nat) : MHeap × Py Unit :=
  match Dict.get? desc key with
  | none => (h, .error .keyError)
  | some v =>
    match h[v]? with
    | some (.mask b) =>
      match h[b]? with
      | some (.buf d) =>
        if idx < d.length then (h.set b (.buf (d.set idx true)), .ok ()) else (h, .error .indexError)
      | _ => (h, .error .attributeError)
    | _ => (h, .error .attributeError)

/-- The loop over the final hard partons, graphicle/select.py:820-821. -/
def markAllH (desc : List (String × Nat)) : MHeap → List (String × Nat) → MHeap × Py Unit
  | h, [] => (h, .ok ())
  | h, (key, idx) :: rest =>
    match markOneH desc h key idx with
    | (h1, .error e) => (h1, .error e)
    | (h1, .ok ()) => markAllH desc h1 rest

/-- The block `if np.any(hard_final)`, graphicle/select.py:817-821. -/
def markFinalH (names : List String) (hard hardFinal : List Bool) (desc : List (String × Nat)) (h : MHeap) :
    MHeap × Py Unit :=
  if hardFinal.any id then
    match (Key.mask hard).apply hardFinal with
    | .error e => (h, .error e)
    | .ok hf => markAllH desc h ((compress names hf).zip (trueIdxs hardFinal))
  else (h, .ok ())

/-- The leaf case of `_make_tree`, graphicle/select.py:867-873: `mask.data[...] = True` changes the buffer of the
mask in `desc`, and the mask object itself goes into the tree. -/
def leafH (es : List (Int × Int)) (desc : List (String × Nat)) (h : MHeap) (parton : String) : MHeap × Py Nat :=
  match Dict.get? desc parton with
  | none => (h, .error .keyError)
  | some v =>
    match h[v]? with
    | some (.mask b) =>
      match h[b]? with
      | some (.buf mask) =>
        match (Key.mask mask).apply (es.map (fun e => e.1)) with
        | .error e => (h, .error e)
        | .ok [] => (h, .error .indexError)
        | .ok (inEdge :: _) =>
          if (es.map (fun e => e.2 == inEdge)).count true = 1 then
            match setMask mask (es.map (fun e => e.2 == inEdge)) true with
            | .error e => (h, .error e)
            | .ok m => (h.set b (.buf m), .ok v)
          else (h, .ok v)
      | _ => (h, .error .attributeError)
    | _ => (h, .error .attributeError)

/-- `branch[key]["latent"] = branch[key].data != desc[key].data`, graphicle/select.py:855-857, 864-866, where
`branch[key]` is the group at `g`: a new mask is put into that group. -/
def latentH (fuel : Nat) (desc : List (String × Nat)) (h : MHeap) (key : String) (g : Nat) : MHeap × Py Nat :=
  match h[g]? with
  | some (.group op entries) =>
    match readKids (readMask fuel h) entries with
    | .error e => (h, .error e)
    | .ok ks =>
      match groupOr ks with
      | .error e => (h, .error e)
      | .ok d =>
        match Dict.get? desc key with
        | none => (h, .error .keyError)
        | some v =>
          match readMaskArr h v with
          | .error e => (h, .error e)
          | .ok d' =>
            match bcast2 (fun a b => a != b) d d' with
            | .error e => (h, .error e)
            | .ok l =>
              ((h ++ [HObj.buf l, HObj.mask h.length]).set g
                (.group op (Dict.set entries "latent" (h.length + 1))), .ok g)
  | _ => (h, .error .attributeError)

/-- The members of a branch, in order.
Helper of `treeH` (graphicle/select.py:858-874). -/
def branchH (f : MHeap → String → MHeap × Py Nat) : MHeap → List (String × Nat) → List String →
    MHeap × Py (List (String × Nat))
  | h, acc, [] => (h, .ok acc)
  | h, acc, x :: rest =>
    match f h x with
    | (h1, .error e) => (h1, .error e)
    | (h1, .ok v) => branchH f h1 (Dict.set acc x v) rest

/-- Put a finished group on the heap.
Helper of `treeH` (graphicle/select.py:851). -/
def allocGroup : MHeap × Py (List (String × Nat)) → MHeap × Py Nat
  | (h, .error e) => (h, .error e)
  | (h, .ok entries) => (h ++ [HObj.group .or entries], .ok h.length)

/-- `_make_tree` with a tuple of names, graphicle/select.py:858-874. -/
def treeH (hard : Dict (List String)) (es : List (Int × Int)) (desc : List (String × Nat)) :
    Nat → MHeap → List String → MHeap × Py Nat
  | 0, h, _ => (h, .error .recursionError)
  | fuel + 1, h, partons =>
    allocGroup (branchH (fun h parton =>
      match Dict.get? hard parton with
      | some nest =>
        match treeH hard es desc fuel h nest with
        | (h1, .error e) => (h1, .error e)
        | (h1, .ok g) => latentH fuel desc h1 parton g
      | none => leafH es desc h parton) h [] partons)

/-- `_make_tree` with the dictionary, graphicle/select.py:851-857. -/
def treeTopH (hard : Dict (List String)) (es : List (Int × Int)) (desc : List (String × Nat)) (fuel : Nat)
    (h : MHeap) (roots : List String) : MHeap × Py Nat :=
  allocGroup (branchH (fun h key =>
    match Dict.get? hard key with
    | some nest =>
      match treeH hard es desc fuel h nest with
      | (h1, .error e) => (h1, .error e)
      | (h1, .ok g) => latentH fuel desc h1 key g
    | none => (h, .error .keyError)) h []
    ((Dict.keys hard).filter (fun k => roots.contains k)))

/-- `hierarchy` after the early return, graphicle/select.py:811-823; `a` is the address of the private `desc`. -/
def hierarchyTreeH (names : List String) (hard final : List Bool) (es : List (Int × Int)) (h : MHeap) (a : Nat) :
    MHeap × Py Nat :=
  match h[a]? with
  | some (.group _ entries) =>
    match readAll h entries with
    | .error e => (h, .error e)
    | .ok desc =>
      match sliceAll hard desc with
      | .error e => (h, .error e)
      | .ok sliced =>
        match selectNames sliced [] names with
        | .error e => (h, .error e)
        | .ok hardDesc =>
          match flatHierarchy hardDesc with
          | .error e => (h, .error e)
          | .ok flat =>
            match bcast2 (· && ·) hard final with
            | .error e => (h, .error e)
            | .ok hardFinal =>
              match markFinalH names hard hardFinal entries h with
              | (h1, .error e) => (h1, .error e)
              | (h1, .ok ()) => treeTopH flat es entries flat.length h1 (hierRoots flat)
  | _ => (h, .error .attributeError)

/-- The private masks `hierarchy` works on, graphicle/select.py:805-808: a new group when `desc` is left out, else a
copy of the group at the given address. -/
def privateDesc (nm : Int → String) (pdg status : List Int) (es : List (Int × Int)) (fuel : Nat) (h : MHeap) :
    Option Nat → MHeap × Py Nat
  | none =>
    match hardDescendants nm pdg status es none false true with
    | .error e => (h, .error e)
    | .ok desc =>
      ((allocMask (.grp .or (desc.map (fun p => (p.1, Mask.arr p.2)))) h).1,
        .ok (allocMask (.grp .or (desc.map (fun p => (p.1, Mask.arr p.2)))) h).2)
  | some a =>
    match copyObj fuel h a with
    | .error e => (h, .error e)
    | .ok (h1, b) => (h1, .ok b)

/-- `hierarchy`, graphicle/select.py:716-823: the heap afterwards and the address of the group returned; `fuel`
bounds the recursion of `copy`. -/
def hierarchyH (nm : Int → String) (pdg status : List Int) (final : List Bool) (es : List (Int × Int)) (fuel : Nat)
    (h : MHeap) (desc? : Option Nat) : MHeap × Py Nat :=
  match hardGroup status with
  | .error e => (h, .error e)
  | .ok hg =>
    match groupOr hg with
    | .error e => (h, .error e)
    | .ok hard =>
      match (Key.mask hard).apply pdg with
      | .error e => (h, .error e)
      | .ok hardPdg =>
        match privateDesc nm pdg status es fuel h desc? with
        | (h1, .error e) => (h1, .error e)
        | (h1, .ok a) =>
          match groupGet hg "intermediate" with
          | .error e => (h1, .error e)
          | .ok m =>
            match m.data with
            | .error e => (h1, .error e)
            | .ok inter =>
              if !(inter.any id) then (h1, .ok a)
              else hierarchyTreeH (pdgsToKeys (hardPdg.map nm)) hard final es h1 a

end Gcl
