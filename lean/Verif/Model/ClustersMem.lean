import Verif.Model.Clusters
import Verif.Model.PartitionMem
/-!
# Model of `clusters` with the objects it writes to

graphicle/select.py:1067-1162 once more, on the heap of Model/Heap.lean: the leaves collected by `leaf_masks`
(select.py:1144) are the mask objects inside the partitioned tree, `leaf.data[...] = ...` (select.py:1156) overwrites
their buffers, and `hier.recursive_drop(inplace=True)` (select.py:1157) removes members from the groups of that tree.
Model/Clusters.lean models the values only, naming a leaf by its path.

Every function returns the heap also when it raises.  Simplification: temporary objects that nothing refers to
afterwards (`hard_mask`, `parton_masks`, the flattened group) are not put on the heap.
-/
namespace Gcl
set_option autoImplicit false

/-- The loop over the items of a nested group, graphicle/select.py:888-891. -/
def leafRefsKidsH (rd : String → Nat → Py (List (String × Nat))) : List (String × Nat) → Py (List (String × Nat))
  | [] => .ok []
  | (k, v) :: rest =>
    if k = "latent" then leafRefsKidsH rd rest
    else
      match rd k v with
      | .error e => .error e
      | .ok l =>
        match leafRefsKidsH rd rest with
        | .error e => .error e
        | .ok r => .ok (l ++ r)

/-- `_leaf_mask_iter` (graphicle/select.py:877-891), yielding names and mask objects, to the given depth. -/
def leafRefsH : Nat → MHeap → String → Nat → Py (List (String × Nat))
  | 0, _, _, _ => .error .recursionError
  | fuel + 1, h, name, a =>
    match h[a]? with
    | some (.mask _) => .ok [(name, a)]
    | some (.group _ es) => leafRefsKidsH (leafRefsH fuel h) es
    | _ => .error .attributeError

/-- `leaf_masks(hier)` (graphicle/select.py:894-919, line 1144): the mask objects by name. -/
def leafDictH (fuel : Nat) (h : MHeap) : Dict Nat → List (String × Nat) → Py (Dict Nat)
  | acc, [] => .ok acc
  | acc, (k, v) :: rest =>
    match leafRefsH fuel h k v with
    | .error e => .error e
    | .ok l => leafDictH fuel h (Dict.update acc (Dict.ofPairs l)) rest

/-- The loop over the coloured leaves (graphicle/select.py:1146-1156): the buffers of the leaves are overwritten. -/
noncomputable def pruneLoopH (tol : ℝ) (pmu : List P4) (radius : ℝ) (hard : List Bool) (leaves : Dict Nat) :
    MHeap → List String → MHeap × Py Unit
  | h, [] => (h, .ok ())
  | h, k :: ks =>
    match Dict.get? leaves k with
    | none => (h, .error .keyError)
    | some x =>
      match h[x]? with
      | some (.mask b) =>
        match h[b]? with
        | some (.buf leaf) =>
          match leafCentre tol pmu hard leaf with
          | .error e => (h, .error e)
          | .ok centre =>
            match centroidPrune tol pmu radius (some leaf) (some centre) with
            | .error e => (h, .error e)
            | .ok d => pruneLoopH tol pmu radius hard leaves (h.set b (.buf d)) ks
        | _ => (h, .error .attributeError)
      | _ => (h, .error .attributeError)

/-- The group returned (graphicle/select.py:1158-1162), built from the tree at `a` after the drop. -/
def clusterEndH (final : List Bool) (fuel : Nat) (h : MHeap) (a : Nat) : MHeap × Py Nat :=
  match readMask fuel h a with
  | .error e => (h, .error e)
  | .ok (.arr _) => (h, .error .attributeError)
  | .ok (.grp op ks) =>
    match flattenRise op ks with
    | .error e => (h, .error e)
    | .ok (.arr _) => (h, .error .attributeError)
    | .ok (.grp _ flat) =>
      match flatEntries flat with
      | .error e => (h, .error e)
      | .ok entries =>
        match restrictAll final entries with
        | .error e => (h, .error e)
        | .ok out =>
          ((allocMask (.grp .or ((Dict.ofPairs out).map (fun p => (p.1, Mask.arr p.2)))) h).1,
            .ok (allocMask (.grp .or ((Dict.ofPairs out).map (fun p => (p.1, Mask.arr p.2)))) h).2)

/-- Lines 1143-1162 of graphicle/select.py, for the partitioned tree at `a`.
Helper of `clustersH` (graphicle/select.py:1067-1162). -/
noncomputable def clusterRestH (setIter : List String → List String) (tol radius : ℝ) (g : ClusterGraph) (fuel : Nat)
    (h : MHeap) (a : Nat) : MHeap × Py Nat :=
  match h[a]? with
  | some (.group _ es) =>
    match leafDictH fuel h [] es with
    | .error e => (h, .error e)
    | .ok refs =>
      match readAll h refs with
      | .error e => (h, .error e)
      | .ok leaves =>
        match colorSinglets setIter leaves g.status g.color true with
        | .error e => (h, .error e)
        | .ok colorKeys =>
          match outgoingMask g.status with
          | .error e => (h, .error e)
          | .ok hard =>
            match pruneLoopH tol g.pmu radius hard refs h colorKeys.flatten with
            | (h1, .error e) => (h1, .error e)
            | (h1, .ok ()) =>
              match dropInPlace fuel "latent" h1 a with
              | (h2, .error e) => (h2, .error e)
              | (h2, .ok ()) => clusterEndH g.final fuel h2 a
  | _ => (h, .error .attributeError)

/-- `clusters` (graphicle/select.py:1067-1162): the heap afterwards and the address of the group returned; `fuel`
bounds the recursions. -/
noncomputable def clustersH {R : Type} [LT R] [DecidableLT R] (dist : P4 → P4 → R)
    (setIter : List String → List String) (nm : Int → String) (tol radius : ℝ) (g : ClusterGraph) (fuel : Nat)
    (h : MHeap) : MHeap × Py Nat :=
  match hierarchyH nm g.pdg g.status g.final g.edges fuel h none with
  | (h1, .error e) => (h1, .error e)
  | (h1, .ok a0) =>
    match partitionDescendantsH dist g.pmu g.final g.status g.edges fuel h1 a0 with
    | (h2, .error e) => (h2, .error e)
    | (h2, .ok a) => clusterRestH setIter tol radius g fuel h2 a

end Gcl
