import Verif.Model.Select
import Verif.Model.Partition
/-!
# Model of `clusters` (graphicle/select.py:1067-1162)

The leaves handed out by `leaf_masks` are the objects inside the hierarchy, so assigning to them changes the
hierarchy.  A leaf object is identified by its path in the tree: `leafRefDict` gives, for every key of
`leaf_masks(hier)`, the path of the object it refers to.  The loop updates the tree at such paths.

Simplifications: exact arithmetic; the distance used by `partition_descendants` is a parameter.  The objects themselves
are modelled in Model/ClustersMem.lean, and C120 shows that this model of the values agrees with it.
-/
namespace Gcl
set_option autoImplicit false

mutual
/-- `_leaf_mask_iter` (graphicle/select.py:877-891), yielding names and paths of the leaf objects. -/
def Mask.leafRefs (path : List String) (name : String) : Mask → List (String × List String)
  | .arr _ => [(name, path)]
  | .grp _ ks => Mask.leafRefsKids path ks
termination_by structural m => m
/-- The loop over a nested group (graphicle/select.py:888-891). -/
def Mask.leafRefsKids (path : List String) : List (String × Mask) → List (String × List String)
  | [] => []
  | (k, m) :: rest =>
    if k = "latent" then Mask.leafRefsKids path rest
    else Mask.leafRefs (path ++ [k]) k m ++ Mask.leafRefsKids path rest
termination_by structural ks => ks
end

/-- `leaf_masks(hier)` (graphicle/select.py:894-919, line 1144), with the path of the object in place of its
booleans. -/
def leafRefDict (ks : Dict Mask) : Dict (List String) :=
  ks.foldl (fun acc p => Dict.update acc (Dict.ofPairs (Mask.leafRefs [p.1] p.1 p.2))) []

/-- The booleans of the leaf object at a path.
Helper of `pruneLoop` (graphicle/select.py:1146-1156). -/
def Mask.leafAt : List String → Mask → Option (List Bool)
  | [], .arr d => some d
  | [], .grp _ _ => none
  | _ :: _, .arr _ => none
  | k :: p, .grp _ ks =>
    match Dict.get? ks k with
    | some m => Mask.leafAt p m
    | none => none

/-- `leaf.data[...] = d` for the leaf object at a path (graphicle/select.py:1156). -/
def Mask.setLeaf (d : List Bool) : List String → Mask → Mask
  | [], .arr _ => .arr d
  | [], .grp op ks => .grp op ks
  | _ :: _, .arr d' => .arr d'
  | k :: p, .grp op ks => .grp op (ks.map (fun q => if q.1 = k then (q.1, Mask.setLeaf d p q.2) else q))

/-- The centroid of the parton in a leaf (graphicle/select.py:1149-1155): `.item()` is a `ValueError` unless
there is exactly one. -/
noncomputable def leafCentre (tol : ℝ) (pmu : List P4) (hard leaf : List Bool) : Py (Fl × Fl) :=
  match bcast2 (· && ·) hard leaf with
  | .error e => .error e
  | .ok m =>
    match (Key.mask m).apply pmu with
    | .error e => .error e
    | .ok [p] => .ok (p.eta, p.phi tol)
    | .ok _ => .error .valueError

/-- The loop over the coloured leaves (graphicle/select.py:1146-1156). -/
noncomputable def pruneLoop (tol : ℝ) (pmu : List P4) (radius : ℝ) (hard : List Bool)
    (leaves : Dict (List String)) : List String → Mask → Py Mask
  | [], hier => .ok hier
  | k :: ks, hier =>
    match Dict.get? leaves k with
    | none => .error .keyError
    | some path =>
      match hier.leafAt path with
      | none => .error .keyError
      | some leaf =>
        match leafCentre tol pmu hard leaf with
        | .error e => .error e
        | .ok centre =>
          match centroidPrune tol pmu radius (some leaf) (some centre) with
          | .error e => .error e
          | .ok d => pruneLoop tol pmu radius hard leaves ks (hier.setLeaf d path)

/-- The entries of a flat group as booleans.
Helper of `clusterRest` (graphicle/select.py:1067-1162). -/
def flatEntries : List (String × Mask) → Py (List (String × List Bool))
  | [] => .ok []
  | (k, m) :: rest =>
    match m.data with
    | .error e => .error e
    | .ok d =>
      match flatEntries rest with
      | .error e => .error e
      | .ok ps => .ok ((k, d) :: ps)

/-- `map(op.itemgetter(graph.final), flat_hier.values())` (graphicle/select.py:1159-1162). -/
def restrictAll (final : List Bool) : List (String × List Bool) → Py (List (String × List Bool))
  | [] => .ok []
  | (k, d) :: rest =>
    match (Key.mask final).apply d with
    | .error e => .error e
    | .ok d' =>
      match restrictAll final rest with
      | .error e => .error e
      | .ok ps => .ok ((k, d') :: ps)

/-- The data of a `Graphicle` that `clusters` uses.
Helper of `clusters` (graphicle/select.py:1067-1162). -/
structure ClusterGraph where
  pdg : List Int
  status : List Int
  final : List Bool
  edges : List (Int × Int)
  pmu : List P4
  color : List (Int × Int)

/-- Lines 1143-1162 of graphicle/select.py, after the hierarchy was partitioned.
Helper of `clusters` (graphicle/select.py:1067-1162). -/
noncomputable def clusterRest (setIter : List String → List String) (tol radius : ℝ) (g : ClusterGraph)
    (hier : Dict Mask) : Py (Dict (List Bool)) :=
  match leafMasks .or hier with
  | .arr _ => .error .attributeError
  | .grp _ lks =>
    match flatEntries lks with
    | .error e => .error e
    | .ok leaves =>
      match colorSinglets setIter leaves g.status g.color true with
      | .error e => .error e
      | .ok colorKeys =>
        match outgoingMask g.status with
        | .error e => .error e
        | .ok hard =>
          match pruneLoop tol g.pmu radius hard (leafRefDict hier) colorKeys.flatten (.grp .or hier) with
          | .error e => .error e
          | .ok pruned =>
            match pruned.drop "latent" with
            | .arr _ => .error .attributeError
            | .grp op ks =>
              match flattenRise op ks with
              | .error e => .error e
              | .ok (.arr _) => .error .attributeError
              | .ok (.grp _ flat) =>
                match flatEntries flat with
                | .error e => .error e
                | .ok entries =>
                  match restrictAll g.final entries with
                  | .error e => .error e
                  | .ok out => .ok (Dict.ofPairs out)

/-- `clusters` (graphicle/select.py:1067-1162): the entries of the result, whose `agg_op` is `or`. -/
noncomputable def clusters {R : Type} [LT R] [DecidableLT R] (dist : P4 → P4 → R)
    (setIter : List String → List String) (nm : Int → String) (tol radius : ℝ) (g : ClusterGraph) :
    Py (Dict (List Bool)) :=
  match hierarchy nm g.pdg g.status g.final g.edges none with
  | .error e => .error e
  | .ok hier0 =>
    match partitionDescendants dist g.pmu g.final g.status g.edges hier0 with
    | .error e => .error e
    | .ok hier => clusterRest setIter tol radius g hier

end Gcl
