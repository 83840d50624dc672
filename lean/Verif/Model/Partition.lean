import Mathlib.Order.Basic
import Verif.Model.Hard
/-!
# Model of `partition_descendants`

graphicle/select.py:346-476.  The distance between a parton and a hadron
(`matrix.parton_hadron_distance`, graphicle/matrix.py:219-259: entry (i, j) depends on the momenta of
parton i and hadron j only) is a parameter `dist` into a linear order; NaN
distances are covered by an order in which nan comes first (`np.argmin` returns the first nan, see
`C96_argmin`).  The tree of masks is treated by value; Model/PartitionMem.lean
models the objects, and C117 proves that both agree.
-/
namespace Gcl
set_option autoImplicit false

/-- Position of the first minimum of `best :: rest`, where `best` sits at `bi` and `rest` starts at
`k`.
Helper of `argmin` (graphicle/select.py:418). -/
def argminFrom {R : Type} [LT R] [DecidableLT R] (best : R) (bi k : Nat) : List R → Nat
  | [] => bi
  | x :: xs => if x < best then argminFrom x k (k + 1) xs else argminFrom best bi (k + 1) xs

/-- `np.argmin` of a 1-D array: position of the first minimum, `ValueError` if empty.
Helper of `allocate` (graphicle/select.py:418). -/
def argmin {R : Type} [LT R] [DecidableLT R] : List R → Py Nat
  | [] => .error .valueError
  | x :: xs => .ok (argminFrom x 0 1 xs)

/-- `np.argmin(dist, axis=0)`, graphicle/select.py:418, for the distances of `partons` (rows) to
`hadrons` (columns). -/
def allocate {M R : Type} [LT R] [DecidableLT R] (dist : M → M → R) (partons : List M) :
    List M → Py (List Nat)
  | [] => if partons.isEmpty then .error .valueError else .ok []
  | h :: hs =>
    match argmin (partons.map (fun p => dist p h)) with
    | .error e => .error e
    | .ok a =>
      match allocate dist partons hs with
      | .error e => .error e
      | .ok as => .ok (a :: as)

/-- `_partition_vertex`, graphicle/select.py:376-421. -/
def partitionVertex {M R : Type} [LT R] [DecidableLT R] (dist : M → M → R) (pmu : List M)
    (final pclsIn vtxDesc mask : List Bool) : Py (List Bool) :=
  match (Key.mask pclsIn).apply pmu with
  | .error e => .error e
  | .ok partonPmu =>
    match bcast2 (· && ·) vtxDesc final with
    | .error e => .error e
    | .ok finalFromVtx =>
      match (Key.mask finalFromVtx).apply pmu with
      | .error e => .error e
      | .ok hadronPmu =>
        match allocate dist partonPmu hadronPmu with
        | .error e => .error e
        | .ok alloc =>
          match (Key.mask pclsIn).apply mask with
          | .error e => .error e
          | .ok sel =>
            setMaskVals mask finalFromVtx (alloc.map (fun a => (trueIdxs sel).contains a))

/-- The body of the innermost loop of `partition_descendants` for one leaf,
graphicle/select.py:466-475. -/
def partitionLeaf {M R : Type} [LT R] [DecidableLT R] (dist : M → M → R) (pmu : List M)
    (final : List Bool) (es : List (Int × Int)) (vtx : Int) (pclsIn vtxDesc mask : List Bool) :
    Py (List Bool) :=
  match (Key.mask mask).apply (es.map (fun e => e.2)) with
  | .error e => .error e
  | .ok dsts =>
    if dsts.contains vtx then partitionVertex dist pmu final pclsIn vtxDesc mask
    else .ok mask

mutual
/-- Replacing the leaves below a mask, in the order of `_leaf_mask_iter` (graphicle/select.py:877-891);
nested `latent` entries are left alone. -/
def Mask.mapLeaves (f : List Bool → Py (List Bool)) : Mask → Py Mask
  | .arr d =>
    match f d with
    | .error e => .error e
    | .ok d' => .ok (.arr d')
  | .grp op ks =>
    match Mask.mapLeavesKids f ks with
    | .error e => .error e
    | .ok ks' => .ok (.grp op ks')
termination_by structural m => m
/-- The loop over the items of a nested group.
Helper of `Mask.mapLeaves` (graphicle/select.py:877-891). -/
def Mask.mapLeavesKids (f : List Bool → Py (List Bool)) :
    List (String × Mask) → Py (List (String × Mask))
  | [] => .ok []
  | (k, m) :: rest =>
    match (if k = "latent" then .ok m else Mask.mapLeaves f m) with
    | .error e => .error e
    | .ok m' =>
      match Mask.mapLeavesKids f rest with
      | .error e => .error e
      | .ok rest' => .ok ((k, m') :: rest')
termination_by structural ks => ks
end

/-- The loop `for name, branch in hier.items()`, graphicle/select.py:464-475 (a top-level `latent` is
not skipped). -/
def mapTop (f : List Bool → Py (List Bool)) : Dict Mask → Py (Dict Mask)
  | [] => .ok []
  | (k, m) :: rest =>
    match Mask.mapLeaves f m with
    | .error e => .error e
    | .ok m' =>
      match mapTop f rest with
      | .error e => .error e
      | .ok rest' => .ok ((k, m') :: rest')

/-- `_hadron_vtx_parton_iter`, graphicle/select.py:346-373: the hadronisation vertices with a particle
from the hard process entering, with the mask of the entering particles. -/
def hadronVtxPartons (es : List (Int × Int)) (fromHard : List Bool) :
    List Int → Py (List (Int × List Bool))
  | [] => .ok []
  | v :: rest =>
    let inMask := es.map (fun e => v == e.2)
    match bcast2 (· && ·) inMask fromHard with
    | .error e => .error e
    | .ok overlap =>
      match hadronVtxPartons es fromHard rest with
      | .error e => .error e
      | .ok ps => .ok (if overlap.any id then (v, inMask) :: ps else ps)

/-- The outer loop of `partition_descendants`, graphicle/select.py:462-475. -/
def partitionLoop {M R : Type} [LT R] [DecidableLT R] (dist : M → M → R) (pmu : List M)
    (final : List Bool) (es : List (Int × Int)) :
    List (Int × List Bool) → Dict Mask → Py (Dict Mask)
  | [], hier => .ok hier
  | (v, pclsIn) :: rest, hier =>
    match vertexDescendants es v with
    | .error e => .error e
    | .ok vtxDesc =>
      match mapTop (partitionLeaf dist pmu final es v pclsIn vtxDesc) hier with
      | .error e => .error e
      | .ok hier' => partitionLoop dist pmu final es rest hier'

/-- `partition_descendants`, graphicle/select.py:424-476. -/
def partitionDescendants {M R : Type} [LT R] [DecidableLT R] (dist : M → M → R) (pmu : List M)
    (final : List Bool) (status : List Int) (es : List (Int × Int)) (hier : Dict Mask) :
    Py (Dict Mask) :=
  match groupOr hier with
  | .error e => .error e
  | .ok fromHard =>
    match hadronVertices es status with
    | .error e => .error e
    | .ok vtxs =>
      match hadronVtxPartons es fromHard vtxs with
      | .error e => .error e
      | .ok vps => partitionLoop dist pmu final es vps hier

end Gcl
